import Verif.Model.TrainSeries
import Verif.Lemmas.FloatTrain
import Verif.Props.Train

/-!
# C99: the sizes of the subsamples on which training samples trees
-/

set_option linter.unusedSectionVars false

namespace TreeCat

open Util Spec

/-! ### Recording them does not change training -/

section
variable {K : Type} [Field K] [LinearOrder K] {M : Nat} [NeZero M] {m : Type → Type} [Monad m] [LawfulMonad m] [Choose K m] [Shuffle m]
variable (num : Num K) (mst : List (List K) → List Edge) (junk : Nat → Nat) (t : Table) (treePrior : List K)

theorem get_bind_const {α : Type} (x : TrainM K M m α) : (do let _ ← get; x) = x := by
  refine ExceptT.ext ?_
  funext s
  exact (Runs.get (m := m) (s := s)).bind_run fun _ => x

theorem runActionSeries_unit (series : List Nat) (a : Action) :
    ((fun _ => ()) <$> runActionSeries num junk t treePrior series a : TrainM K M m Unit) = runAction num junk t treePrior a := by
  cases a with
  | addRow r => simp [runActionSeries, runAction]
  | removeRow r => simp [runActionSeries, runAction]
  | sampleTree =>
    simp only [runActionSeries, runAction, trainerSampleTreeSeries, map_bind, bind_assoc, pure_bind, map_pure]
    rw [get_bind_const]
    simp

theorem fullScanSeries_unit (series : List Nat) :
    ((fun _ => ()) <$> fullScanSeries num junk t treePrior series : TrainM K M m Unit) = fullScan num junk t treePrior := by
  simp only [fullScanSeries, fullScan, trainerSampleTreeSeries, map_bind, bind_assoc, pure_bind, map_pure]
  rw [get_bind_const]
  simp

theorem foldlM_unit {α β : Type} (f : β → α → TrainM K M m β) (g : α → TrainM K M m Unit) (h : ∀ b a, (fun _ => ()) <$> f b a = g a) :
    ∀ (l : List α) (b : β), (fun _ => ()) <$> l.foldlM f b = l.forM g := by
  intro l
  induction l with
  | nil => intro b; simp
  | cons a l ih =>
    intro b
    change _ = (g a >>= fun _ => l.forM g)
    rw [List.foldlM_cons, map_bind, ← h b a, bind_map_left]
    simp only [ih]

/-- **C99.** Recording the series does not change training. -/
theorem trainSeries_fst (fuel : Nat) (cfg : TrainConfig) (series : List Nat) :
    (Prod.fst <$> trainSeries num mst junk fuel t treePrior cfg series : TrainM K M m (List K)) = train num mst junk fuel t treePrior cfg := by
  unfold trainSeries train
  simp only [map_bind]
  refine bind_congr fun s => bind_congr fun _ => bind_congr fun rows => bind_congr fun schedule => ?_
  rw [← foldlM_unit (runActionSeries num junk t treePrior) _ (runActionSeries_unit num junk t treePrior) schedule series, bind_map_left]
  refine bind_congr fun series1 => bind_congr fun s1 => bind_congr fun _ => ?_
  rw [← foldlM_unit (fun series _ => fullScanSeries num junk t treePrior series) _ (fun b _ => fullScanSeries_unit num junk t treePrior b) _ series1, bind_map_left]
  refine bind_congr fun series2 => bind_congr fun s2 => bind_congr fun _ => bind_congr fun p => ?_
  split <;> simp

end

/-! ### What they are -/

/-- The number of rows at each `sample_tree`, starting with `n` rows. -/
def seriesOf : Nat → List Action → List Nat
  | _, [] => []
  | n, .addRow _ :: as => seriesOf (n + 1) as
  | n, .removeRow _ :: as => seriesOf (n - 1) as
  | n, .sampleTree :: as => n :: seriesOf n as

theorem seriesOf_mem {N : Nat} : ∀ (acts : List Action) (S T : Finset Nat), Legal N S acts T → S ⊆ Finset.range N → ∀ x ∈ seriesOf S.card acts, 1 ≤ x ∧ x ≤ N := by
  intro acts
  induction acts with
  | nil => intro S T _ _ x hx; cases hx
  | cons a acts ih =>
    intro S T h hS x hx
    cases a with
    | addRow r =>
      obtain ⟨h1, h2, h3⟩ := h
      rw [seriesOf, ← Finset.card_insert_of_notMem h2] at hx
      exact ih _ _ h3 (Finset.insert_subset (Finset.mem_range.2 h1) hS) x hx
    | removeRow r =>
      obtain ⟨h1, h2⟩ := h
      rw [seriesOf, ← Finset.card_erase_of_mem h1] at hx
      exact ih _ _ h2 ((Finset.erase_subset _ _).trans hS) x hx
    | sampleTree =>
      obtain ⟨h1, h2⟩ := h
      rw [seriesOf, List.mem_cons] at hx
      rcases hx with rfl | hx
      · exact ⟨h1.card_pos, by simpa using Finset.card_le_card hS⟩
      · exact ih _ _ h2 hS x hx

/-- The next `sample_tree`. -/
theorem seriesOf_next {N : Nat} : ∀ (acts : List Action) (S T : Finset Nat), Legal N S acts T → ∀ {b : Nat} {rest : List Nat}, seriesOf S.card acts = b :: rest →
    ∃ B C S', acts = B ++ .sampleTree :: C ∧ .sampleTree ∉ B ∧ (b : Int) = S.card + numAdds B - numRemoves B ∧ Legal N S' C T ∧ S'.card = b ∧ rest = seriesOf S'.card C := by
  intro acts
  induction acts with
  | nil => intro S T _ b rest h; cases h
  | cons a acts ih =>
    intro S T h b rest hb
    cases a with
    | addRow r =>
      obtain ⟨h1, h2, h3⟩ := h
      rw [seriesOf, ← Finset.card_insert_of_notMem h2] at hb
      obtain ⟨B, C, S', e1, e2, e3, e4⟩ := ih _ _ h3 hb
      refine ⟨.addRow r :: B, C, S', by rw [e1]; rfl, by simp [e2], ?_, e4⟩
      rw [e3, Finset.card_insert_of_notMem h2]
      simp [numAdds, numRemoves]
      ring
    | removeRow r =>
      obtain ⟨h1, h2⟩ := h
      rw [seriesOf, ← Finset.card_erase_of_mem h1] at hb
      obtain ⟨B, C, S', e1, e2, e3, e4⟩ := ih _ _ h2 hb
      refine ⟨.removeRow r :: B, C, S', by rw [e1]; rfl, by simp [e2], ?_, e4⟩
      have := Finset.card_erase_add_one h1
      rw [e3]
      simp [numAdds, numRemoves]
      omega
    | sampleTree =>
      obtain ⟨h1, h2⟩ := h
      rw [seriesOf, List.cons.injEq] at hb
      exact ⟨[], acts, S, rfl, by simp, by simp [numAdds, numRemoves, hb.1], h2, hb.1, hb.2.symm⟩

/-- Each `sample_tree`. -/
theorem seriesOf_at {N : Nat} : ∀ (l : List Nat) (acts : List Action) (S T : Finset Nat), Legal N S acts T → ∀ {b : Nat} {rest : List Nat},
    seriesOf S.card acts = l ++ b :: rest →
    ∃ A C S', acts = A ++ .sampleTree :: C ∧ (b : Int) = S.card + numAdds A - numRemoves A ∧ Legal N S' C T ∧ S'.card = b ∧ rest = seriesOf S'.card C := by
  intro l
  induction l with
  | nil =>
    intro acts S T h b rest hb
    obtain ⟨B, C, S', e1, -, e3⟩ := seriesOf_next acts S T h hb
    exact ⟨B, C, S', e1, e3⟩
  | cons a l ih =>
    intro acts S T h b rest hb
    obtain ⟨B, C, S', e1, -, e3, e4, e5, e6⟩ := seriesOf_next acts S T h hb
    obtain ⟨A, C', S2, g1, g2, g3⟩ := ih C S' T e4 e6.symm
    refine ⟨B ++ .sampleTree :: A, C', S2, by rw [e1, g1]; simp, ?_, g3⟩
    rw [g2, e5, e3]
    simp [numAdds, numRemoves]
    ring

section
variable {K : Type} [Field K] [LinearOrder K] [IsStrictOrderedRing K] {M : Nat} [NeZero M] {t : Table} {s : Trainer K M} {num : Num K} {treePrior : List K}

theorem Tot.runActionSeries (ht : Table.Ordered t) (hm : AllMultinomial t) (junk : Nat → Nat)
    (hp : treePrior.length = t.numCols * (t.numCols - 1) / 2) (acts : List Action) :
    ∀ (s : Trainer K M) (T : Finset Nat) (series : List Nat), Good t s → Legal t.numRows s.added acts T →
      Tot (acts.foldlM (TreeCat.runActionSeries num junk t treePrior) series) s fun series' s' => Good t s' ∧ s'.added = T ∧
        series' = series ++ seriesOf s.added.card acts := by
  induction acts with
  | nil => intro s T series h hl; exact Tot.pure ⟨h, hl, by simp [seriesOf]⟩
  | cons a acts ih =>
    intro s T series h hl
    rw [List.foldlM_cons]
    refine Tot.bind ?_
    cases a with
    | addRow r =>
      obtain ⟨h1, h2, h3⟩ := hl
      refine Tot.bind ((Tot.addRow ht hm h h2 h1).mono ?_)
      rintro _ s' ⟨h4, h5, -⟩
      refine Tot.pure ((ih s' T series h4 (by rw [h5]; exact h3)).mono ?_)
      rintro series' s2 ⟨g1, g2, g3⟩
      refine ⟨g1, g2, ?_⟩
      rw [g3, h5, Finset.card_insert_of_notMem h2]
      rfl
    | removeRow r =>
      obtain ⟨h1, h2⟩ := hl
      refine Tot.bind ((Tot.removeRow ht hm h h1).mono ?_)
      rintro _ s' ⟨h4, h5, -⟩
      refine Tot.pure ((ih s' T series h4 (by rw [h5]; exact h2)).mono ?_)
      rintro series' s2 ⟨g1, g2, g3⟩
      refine ⟨g1, g2, ?_⟩
      rw [g3, h5, Finset.card_erase_of_mem h1]
      rfl
    | sampleTree =>
      obtain ⟨-, h2⟩ := hl
      refine Tot.bind (Tot.bind (Tot.get (Tot.bind ((Tot.trainerSampleTree junk hp h).mono ?_))))
      rintro edges s' ⟨rfl, he⟩
      refine Tot.pure ?_
      refine Tot.bind ((Tot.setEdges h he).mono ?_)
      rintro _ s1 ⟨h4, h5, -⟩
      refine Tot.pure ((ih s1 T _ h4 (by rw [h5]; exact h2)).mono ?_)
      rintro series' s2 ⟨g1, g2, g3⟩
      refine ⟨g1, g2, ?_⟩
      rw [g3, h5]
      simp [seriesOf]

theorem Tot.fullScanSeries (ht : Table.Ordered t) (hm : AllMultinomial t) (junk : Nat → Nat)
    (hp : treePrior.length = t.numCols * (t.numCols - 1) / 2) (h : Good t s)
    (hs : s.added = Finset.range t.numRows) (series : List Nat) :
    Tot (TreeCat.fullScanSeries num junk t treePrior series) s fun series' s' => Good t s' ∧ s'.added = Finset.range t.numRows ∧
      series' = series ++ [t.numRows] := by
  refine Tot.bind (Tot.bind (Tot.get (Tot.bind ((Tot.trainerSampleTree junk hp h).mono ?_))))
  rintro edges s' ⟨rfl, he⟩
  refine Tot.pure ?_
  refine Tot.bind ((Tot.setEdges h he).mono ?_)
  rintro _ s1 ⟨h1, h2, -⟩
  refine Tot.bind ((Tot.forM _ _ (fun _ (s' : Trainer K M) => Good t s' ∧ s'.added = Finset.range t.numRows) ⟨h1, by rw [h2, hs]⟩ ?_).mono ?_)
  · rintro done r rest hl s2 ⟨h3, h4⟩
    have hr : r < t.numRows := by
      have : r ∈ List.range t.numRows := by rw [hl]; simp
      simpa using this
    refine Tot.bind ((Tot.removeRow ht hm h3 (by rw [h4]; simpa using hr)).mono ?_)
    rintro _ s3 ⟨h5, h6, -⟩
    refine (Tot.addRow ht hm h5 (by rw [h6]; simp) hr).mono ?_
    rintro _ s4 ⟨h7, h8, -⟩
    refine ⟨h7, ?_⟩
    rw [h8, h6, h4, Finset.insert_erase (by simpa using hr)]
  · rintro _ s2 ⟨h3, h4⟩
    exact Tot.pure ⟨h3, h4, by rw [hs, Finset.card_range]⟩

theorem Tot.epochsSeries (ht : Table.Ordered t) (hm : AllMultinomial t) (junk : Nat → Nat)
    (hp : treePrior.length = t.numCols * (t.numCols - 1) / 2) (n : Nat) : ∀ (s : Trainer K M) (series : List Nat), Good t s → s.added = Finset.range t.numRows →
    Tot ((List.replicate n ()).foldlM (fun series _ => TreeCat.fullScanSeries num junk t treePrior series) series) s fun series' s' => Good t s' ∧
      s'.added = Finset.range t.numRows ∧ series' = series ++ List.replicate n t.numRows := by
  induction n with
  | zero => intro s series h hs; exact Tot.pure ⟨h, hs, by simp⟩
  | succ n ih =>
    intro s series h hs
    rw [List.replicate_succ, List.foldlM_cons]
    refine Tot.bind ((Tot.fullScanSeries ht hm junk hp h hs series).mono ?_)
    rintro series1 s1 ⟨h1, h2, rfl⟩
    refine (ih s1 _ h1 h2).mono ?_
    rintro series2 s2 ⟨h3, h4, rfl⟩
    exact ⟨h3, h4, by rw [List.replicate_succ]; simp⟩

/-- **C99.** Whatever is drawn, training completes and records, after what was in the series before, the sizes of the subsamples on which it sampled trees: first those of
the annealing, then the number of all rows once for each full epoch. The sizes of the annealing are between one and the number of rows, the first is one;
from one to the next the subsample grows by less than `1 + size / sample_tree_rate` rows, and after the last by less than `size / sample_tree_rate`. -/
theorem trainSeries_spec (num : Num K) (mst : List (List K) → List Edge) (hmst : MstContract mst)
    (junk : Nat → Nat) (t : Table) (ht : Table.Ordered t) (hm : ∀ ty ∈ t.featureTypes, ty = tyMultinomial)
    (hV : 1 ≤ t.numCols) (hV' : t.numCols ≤ 32768) (hM : M ≤ 128) (treePrior : List K)
    (hp : treePrior.length = t.numCols * (t.numCols - 1) / 2) (cfg : TrainConfig) (h1 : 1 ≤ cfg.initEpochs)
    (h2 : 1 ≤ cfg.sampleTreeRate) (fuel : Nat) (hf : (2 * cfg.initEpochs.toNat + 1) * t.numRows ≤ fuel) (series : List Nat) :
    ∃ s0 : Trainer K M, Trainer.init t treePrior.length = .ok s0 ∧
      (∃ p, outcomes (trainSeries num mst junk fuel t treePrior cfg series) s0 p) ∧
      ∀ r s, outcomes (trainSeries num mst junk fuel t treePrior cfg series) s0 (r, s) → ∃ logits, ∃ sizes : List Nat,
        r = .ok (logits, series ++ sizes ++ List.replicate cfg.fullEpochs.toNat t.numRows) ∧
        (∀ x ∈ sizes, 1 ≤ x ∧ x ≤ t.numRows) ∧ (0 < t.numRows → ∃ rest, sizes = 1 :: rest) ∧
        (∀ (l : List Nat) (a b : Nat) (rest : List Nat), sizes = l ++ a :: b :: rest → ((b : Int) - a - 1) * cfg.sampleTreeRate < a) ∧
        (∀ (l : List Nat) (a : Nat), sizes = l ++ [a] → ((t.numRows : Int) - a) * cfg.sampleTreeRate < a) := by
  obtain ⟨s0, h0, hg, ha⟩ := good_init (K := K) (M := M) hV hV' hM hp
  suffices hT : Tot (trainSeries num mst junk fuel t treePrior cfg series) s0 fun out _ => ∃ sizes : List Nat,
      out.2 = series ++ sizes ++ List.replicate cfg.fullEpochs.toNat t.numRows ∧
        (∀ x ∈ sizes, 1 ≤ x ∧ x ≤ t.numRows) ∧ (0 < t.numRows → ∃ rest, sizes = 1 :: rest) ∧
        (∀ (l : List Nat) (a b : Nat) (rest : List Nat), sizes = l ++ a :: b :: rest → ((b : Int) - a - 1) * cfg.sampleTreeRate < a) ∧
        (∀ (l : List Nat) (a : Nat), sizes = l ++ [a] → ((t.numRows : Int) - a) * cfg.sampleTreeRate < a) by
    refine ⟨s0, h0, hT.1, fun r s hr => ?_⟩
    obtain ⟨⟨logits, out⟩, rfl, sizes, e, h⟩ := hT.2 r s hr
    exact ⟨logits, sizes, by rw [← e], h⟩
  refine Tot.bind (Tot.get ?_)
  refine Tot.bind (Tot.liftPy (a := ()) (by rw [ha]; rfl) ?_)
  have hperm : Sure (ExceptT.lift (Shuffle.permutation t.numRows) : ExceptT PyErr Poss (List Nat))
      fun l => l.Perm (List.range t.numRows) := by
    refine ⟨⟨.ok (List.range _), ⟨List.range _, List.Perm.refl _, rfl⟩⟩, ?_⟩
    rintro r ⟨l, hl, h2⟩
    cases h2
    exact ⟨l, rfl, hl⟩
  refine Tot.bind (Tot.liftRand hperm.1 fun r hr => ?_)
  obtain ⟨rows, rfl, hperm⟩ := hperm.2 r hr
  refine ⟨rows, rfl, ?_⟩
  obtain ⟨acts, hacts, hlegal, hnum, -, hfirst, hbetween, hlast⟩ := annealingSchedule_spec rows t.numRows cfg.initEpochs.toNat (cfg.initEpochs : K)
    (cfg.sampleTreeRate : K) (by exact_mod_cast h1) (by exact_mod_cast h2)
    (by have : cfg.initEpochs ≤ (cfg.initEpochs.toNat : Int) := Int.self_le_toNat _
        exact_mod_cast this) hperm fuel hf
  refine Tot.bind (Tot.liftPy hacts ?_)
  refine Tot.bind ((Tot.runActionSeries ht hm junk hp acts s0 _ series hg (by rw [ha]; exact hlegal)).mono ?_)
  rintro series1 s1 ⟨g1, e1, rfl⟩
  refine Tot.bind (Tot.get ?_)
  refine Tot.bind (Tot.liftPy (a := ()) (by rw [e1]; simp [pyAssert]) ?_)
  refine Tot.bind ((Tot.epochsSeries ht hm junk hp _ s1 _ g1 e1).mono ?_)
  rintro series2 s2 ⟨g2, e2, rfl⟩
  refine Tot.bind (Tot.get ?_)
  refine Tot.bind (Tot.liftPy (a := ()) (by rw [e2]; simp [pyAssert]) ?_)
  refine Tot.bind ((Tot.trainerEstimateTree (num := num) hmst hV hp g2).mono ?_)
  rintro ⟨edges, logits⟩ s3 ⟨rfl, -, -, htree, -⟩
  have hpost : ∃ sizes : List Nat, series ++ seriesOf s0.added.card acts ++ List.replicate cfg.fullEpochs.toNat t.numRows
        = series ++ sizes ++ List.replicate cfg.fullEpochs.toNat t.numRows ∧
        (∀ x ∈ sizes, 1 ≤ x ∧ x ≤ t.numRows) ∧ (0 < t.numRows → ∃ rest, sizes = 1 :: rest) ∧
        (∀ (l : List Nat) (a b : Nat) (rest : List Nat), sizes = l ++ a :: b :: rest → ((b : Int) - a - 1) * cfg.sampleTreeRate < a) ∧
        (∀ (l : List Nat) (a : Nat), sizes = l ++ [a] → ((t.numRows : Int) - a) * cfg.sampleTreeRate < a) := by
    have hr : (0 : Int) ≤ cfg.sampleTreeRate := by omega
    refine ⟨seriesOf s0.added.card acts, rfl, ?_, ?_, ?_, ?_⟩ <;> rw [ha]
    · exact seriesOf_mem acts _ _ hlegal (by simp)
    · intro hN
      obtain ⟨r, rest, rfl⟩ := hfirst hN
      exact ⟨_, rfl⟩
    · intro l a b rest h
      obtain ⟨A, C, S', q1, q2, q3, q4, q5⟩ := seriesOf_at l acts _ _ hlegal h
      obtain ⟨B, D, S2, p1, p2, p3, -⟩ := seriesOf_next C S' _ q3 q5.symm
      have := (hbetween A B D (by rw [q1, p1]) p2).1
      have h3 : ((numAdds B : Int) - 1) * cfg.sampleTreeRate < numAdds A - numRemoves A := by exact_mod_cast this
      rw [Finset.card_empty] at q2
      have h4 : (b : Int) - a - 1 ≤ numAdds B - 1 := by rw [p3, q4]; omega
      have h5 := mul_le_mul_of_nonneg_right h4 hr
      push_cast at q2
      linarith
    · intro l a h
      obtain ⟨A, C, S', q1, q2, q3, q4, q5⟩ := seriesOf_at l acts _ _ hlegal h
      have hC : ∀ (acts : List Action) (n : Nat), [] = seriesOf n acts → Action.sampleTree ∉ acts := by
        intro acts
        induction acts with
        | nil => simp
        | cons x acts ih =>
          intro n h
          cases x with
          | addRow r => simpa using ih _ h
          | removeRow r => simpa using ih _ h
          | sampleTree => cases h
      have := hlast A C q1 (hC C _ q5)
      have h3 : (numAdds C : Int) * cfg.sampleTreeRate < numAdds A - numRemoves A := by exact_mod_cast this
      rw [Finset.card_empty] at q2
      have h6 : (numAdds acts : Int) = numRemoves acts + t.numRows := by exact_mod_cast hnum
      have h4 : (t.numRows : Int) - a ≤ numAdds C := by
        rw [q1] at h6
        simp [numAdds, numRemoves] at h6 q2 ⊢
        omega
      have h5 := mul_le_mul_of_nonneg_right h4 hr
      push_cast at q2
      linarith
  dsimp only
  split
  · refine Tot.bind ((Tot.setEdges g2 htree).mono ?_)
    rintro _ s4 -
    exact Tot.pure hpost
  · exact Tot.pure hpost

end

/-- A table of two rows, one annealing step per row and two full epochs: the series is `5, 1, …, 2, 2`. -/
example (num : Num ℚ) (junk : Nat → Nat) : ∃ (mst : List (List ℚ) → List Edge) (s0 : Trainer ℚ 4), Trainer.init exTable 3 = .ok s0 ∧
    (∃ p, outcomes (trainSeries num mst junk 100 exTable [0, 0, 0] ⟨1, 2, 1, true⟩ [5]) s0 p) ∧
    ∀ r s, outcomes (trainSeries num mst junk 100 exTable [0, 0, 0] ⟨1, 2, 1, true⟩ [5]) s0 (r, s) → ∃ logits rest, r = .ok (logits, [5, 1] ++ rest ++ [2, 2]) ∧
      ∀ x ∈ rest, x = 1 ∨ x = 2 := by
  obtain ⟨mst, hmst⟩ := exists_mst (K := ℚ)
  obtain ⟨s0, h0, h1, h2⟩ := trainSeries_spec (M := 4) num mst hmst junk exTable exTable_ordered (by decide) (by decide) (by decide) (by decide) [0, 0, 0] rfl
    ⟨1, 2, 1, true⟩ (by decide) (by decide) 100 (by decide) [5]
  refine ⟨mst, s0, h0, h1, fun r s h => ?_⟩
  obtain ⟨logits, sizes, e, g1, g2, -⟩ := h2 r s h
  obtain ⟨rest, rfl⟩ := g2 (by decide)
  refine ⟨logits, rest, by rw [e]; rfl, fun x hx => ?_⟩
  have := g1 x (by simp [hx])
  have h3 : exTable.numRows = 2 := rfl
  omega

end TreeCat
