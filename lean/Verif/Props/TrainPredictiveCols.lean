import Verif.Props.TrainPredictive

/-!
# C105: what a trained model reports does not depend on the order of the features

Training on a table with its features in another order and serving the result reports the same probabilities of the same rows,
in expectation over the runs of training, up to an error that vanishes with the full epochs.
-/

set_option linter.unusedSectionVars false

namespace TreeCat

open Spec Real

open scoped BigOperators

section
variable {M : Nat} [NeZero M] {τ : Equiv.Perm Nat} {t t' : Table}

/-- A state of the trainer with given assignments and tree. -/
noncomputable def trainerOf (t : Table) (a : Latent t M) (T : List Edge) : Trainer ℝ M where
  tree := (modelOf t [] a T).tree
  program := []
  added := Finset.range t.numRows
  assign := a.total
  vertSS := (modelOf t [] a T).vertSS
  edgeSS := (modelOf t [] a T).edgeSS
  featSS := (modelOf t [] a T).featSS
  measSS := fun v m => measTotal t (Finset.range t.numRows) a.total v m
  edgeProbs := fun e l m => (modelOf t [] a T).edgeSS e l m + 1 / 2 / (M : ℝ)

theorem trainerOf_matches (ht : Table.Ordered t) (a : Latent t M) (T : List Edge) : Matches t (trainerOf t a T) where
  vert v _ m := rfl
  edge e u v he l m := by
    obtain ⟨h, -⟩ := mapIdx_mem (c := (e, u, v)) he
    change (edgeCount _ _ (T.getD e (0, 0)).1 (T.getD e (0, 0)).2 l m : Int) = _
    rw [h]
    rfl
  feat v hv r h1 h2 m := by
    change ∑ v ∈ Finset.range t.numCols with t.beg v ≤ r ∧ r < t.stop v, featTotal t (Finset.range t.numRows) a.total v r m = _
    have mono : ∀ i j, i ≤ j → j ≤ t.numCols → t.raggedIndex.getD i 0 ≤ t.raggedIndex.getD j 0 := by
      intro i j hij hj
      rcases Nat.lt_or_ge i j with hlt | hge
      · have hl := ht.length
        rw [List.getD_eq_getElem _ _ (by omega), List.getD_eq_getElem _ _ (by omega)]
        exact List.pairwise_iff_getElem.1 ht.mono i j (by omega) (by omega) hlt
      · rw [Nat.le_antisymm hij hge]
    have e : (Finset.range t.numCols).filter (fun w => t.beg w ≤ r ∧ r < t.stop w) = {v} := by
      ext w
      rw [Finset.mem_filter, Finset.mem_range, Finset.mem_singleton]
      constructor
      · rintro ⟨hw, h3, h4⟩
        by_contra hne
        unfold Table.beg at h1 h3
        unfold Table.stop at h2 h4
        rcases Nat.lt_or_gt_of_ne hne with hlt | hlt
        · have := mono (w + 1) v hlt (by omega); omega
        · have := mono (v + 1) w hlt (by omega); omega
      · rintro rfl; exact ⟨hv, h1, h2⟩
    rw [e, Finset.sum_singleton]
    rfl
  meas v _ m := rfl
  probs e u v he l m := by
    obtain ⟨h, -⟩ := mapIdx_mem (c := (e, u, v)) he
    change ((edgeCount _ _ (T.getD e (0, 0)).1 (T.getD e (0, 0)).2 l m : Int) : ℝ) + _ = _
    rw [h]
    simp [trainerOf]

/-- The models of assignments and tree in the two orders. -/
theorem modelOf_permuted (ht : Table.Ordered t) (ht' : Table.Ordered t') (h : Permuted τ t t') (b : Latent t' M) {T : List Edge}
    (hT : IsTree t.numCols T) (logits logits' : List ℝ) :
    PermutedModel τ (modelOf t logits (oldOrder h b) (renamedTree τ T)) (modelOf t' logits' b T) := by
  have e1 : (trainerOf t (oldOrder h b) (renamedTree τ T)).tree.getEdges = renamedTree τ T :=
    modelOf_edges (t := t) (logits := []) (a := oldOrder h b)
  have e2 : (trainerOf t' b T).tree.getEdges = T := modelOf_edges (t := t') (logits := []) (a := b)
  exact trainedModel_permuted h (trainerOf_matches ht (oldOrder h b) (renamedTree τ T)) (trainerOf_matches ht' b T) rfl rfl
    (by rw [e2, h.cols]; exact hT) (by rw [e1, e2]) (by change Finset.range t'.numRows = _; rw [h.rows]; rfl) (Finset.Subset.refl _)
    (fun n _ v _ => by change b.total n v = _; rw [total_oldOrder h b]; rfl) logits logits'

/-- Posterior sums in the two orders. -/
theorem sum_posterior_permuted (h : Permuted τ t t') {prior prior' : List ℝ} (hp : PermutedPrior τ t.numCols prior prior')
    {S : Finset (List Edge)} (hS : ∀ T, T ∈ S ↔ Canonical T ∧ IsTree t.numCols T) (g : Latent t M → List Edge → ℝ)
    (g' : Latent t' M → List Edge → ℝ) (hg : ∀ b, ∀ T ∈ S, g' b T = g (oldOrder h b) (renamedTree τ T)) :
    (∑ b : Latent t' M, ∑ T ∈ S, posterior t' prior' b T * g' b T) = ∑ a : Latent t M, ∑ T ∈ S, posterior t prior a T * g a T := by
  let mv : Latent t' M ≃ Latent t M :=
    { toFun := oldOrder h
      invFun := fun a n v => a ⟨n, n.isLt.trans_eq h.rows⟩ ⟨τ v, (h.maps v).2 (v.isLt.trans_eq h.cols)⟩
      left_inv := fun a => by funext n v; simp [oldOrder]
      right_inv := fun a => by funext n v; simp [oldOrder] }
  refine Eq.trans ?_ (Equiv.sum_comp mv fun a => ∑ T ∈ S, posterior t prior a T * g a T)
  refine Finset.sum_congr rfl fun b _ => ?_
  refine Eq.trans ?_ (sum_renamedTree h.maps hS _)
  refine Finset.sum_congr rfl fun T hT => ?_
  rw [posterior_permuted h hp b ((hS T).1 hT).1 ((hS T).1 hT).2, hg b T hT]
  rfl

/-- The same observations in the two orders of the features of a table. -/
def Spec.SameCells (τ : Equiv.Perm Nat) (t t' : Table) (row row' : List Int) : Prop :=
  ∀ v < t.numCols, ∀ c < t'.stop v - t'.beg v, row'.getD (t'.beg v + c) 0 = row.getD (t.beg (τ v) + c) 0

variable {num : Num ℝ}

/-- **C105.** Take two tables with the same features in a different order, with the same weights of the edges, and the same row in
both orders. Without `learning_estimate_tree`, the expected probabilities of the row that the servers of the two trained models
report differ by at most `2 * ρ ^ n` for `n` full epochs, with one `ρ < 1` for all rows and configurations. -/
theorem train_predictive_permuted (hn : ∀ x, 0 < x → num.gammaln x = log (Gamma x)) (hexp : num.exp = exp)
    (ht : Table.Ordered t) (hm : ∀ ty ∈ t.featureTypes, ty = tyMultinomial) (hc : Table.Counts t)
    (ht' : Table.Ordered t') (hm' : ∀ ty ∈ t'.featureTypes, ty = tyMultinomial) (hc' : Table.Counts t')
    (hV : 1 ≤ t.numCols) (hV' : t.numCols ≤ 32768) (hM : M ≤ 128) {prior prior' : List ℝ}
    (hl : prior.length = t.numCols * (t.numCols - 1) / 2) (hl' : prior'.length = t.numCols * (t.numCols - 1) / 2) (junk : Nat → Nat)
    (h : Permuted τ t t') (hp : PermutedPrior τ t.numCols prior prior') :
    ∃ ρ : ℝ, 0 ≤ ρ ∧ ρ < 1 ∧ ∀ {mst : List (List ℝ) → List Edge}, MstContract mst → ∀ {cfg : TrainConfig}, 1 ≤ cfg.initEpochs → 1 ≤ cfg.sampleTreeRate →
      cfg.estimateTree = false →
      ∀ {fuel : Nat}, (2 * cfg.initEpochs.toNat + 1) * t.numRows ≤ fuel → ∀ {s s' : Trainer ℝ M}, Trainer.init t prior.length = .ok s →
      Trainer.init t' prior'.length = .ok s' → ∀ {row row' : List Int}, row.length = t.raggedIndex.getLastD 0 →
      row'.length = t'.raggedIndex.getLastD 0 → (∀ x ∈ row, 0 ≤ x) → (∀ x ∈ row', 0 ≤ x) → SameCells τ t t' row row' →
      |(train num mst junk fuel t' prior' cfg : TrainM ℝ M (Expect ℝ) (List ℝ)).run.run s' (reported mst t' row')
        - (train num mst junk fuel t prior cfg : TrainM ℝ M (Expect ℝ) (List ℝ)).run.run s (reported mst t row)| ≤ 2 * ρ ^ cfg.fullEpochs.toNat := by
  obtain ⟨S, hS⟩ := exists_trees t.numCols
  obtain ⟨ρ, h0, h1, hconv⟩ := train_predictive (num := num) (M := M) hn hexp ht hm hc hV hV' hM hl S hS junk
  obtain ⟨ρ', h0', h1', hconv'⟩ := train_predictive (num := num) (M := M) (t := t') hn hexp ht' hm' hc' (by rw [h.cols]; exact hV)
    (by rw [h.cols]; exact hV') hM (by rw [h.cols]; exact hl') S (by rw [h.cols]; exact hS) junk
  refine ⟨max ρ ρ', le_max_of_le_left h0, max_lt h1 h1', fun {mst} hmst {cfg} i1 i2 hest {fuel} hf {s s'} hs hs' {row row'} hr hr' p p' hrow => ?_⟩
  obtain ⟨best, hbest⟩ := exists_best (M := M) (t := t) (prior := prior) hmst hV
  obtain ⟨best', hbest'⟩ := exists_best (M := M) (t := t') (prior := prior') hmst (by rw [h.cols]; exact hV)
  have e1 := hconv hmst i1 i2 hf hs hbest hr p
  have e2 := hconv' hmst i1 i2 (h.rows.symm ▸ hf) hs' hbest' hr' p'
  simp only [lastTree, hest] at e1 e2
  have hlen : ∀ a : Latent t' M, (logitsOf t' prior' a).length = t'.numCols * (t'.numCols - 1) / 2 := by
    intro a
    unfold logitsOf
    rw [List.length_map, completeGrid_length, tri]
  have hs1 := sum_posterior_permuted h hp hS (fun a T => dataProb (modelOf t (logitsOf t prior a) a T) fun r => row.getD r 0)
    (fun b T => dataProb (modelOf t' (logitsOf t' prior' b) b T) fun r => row'.getD r 0) fun b T hT => by
      have hT := (hS T).1 hT
      exact dataProb_permuted (modelOf_permuted ht ht' h b hT.2 _ _)
        (modelOf_valid ht' hc' (hlen b) hT.1 (by rw [h.cols]; exact hT.2)) fun v hv c hcv => hrow v hv c hcv
  have hs2 := sum_posterior_permuted (M := M) h hp hS (fun _ _ => 1) (fun _ _ => 1) fun _ _ _ => rfl
  simp only [mul_one] at hs2
  have p1 : ρ ^ cfg.fullEpochs.toNat ≤ max ρ ρ' ^ cfg.fullEpochs.toNat := pow_le_pow_left₀ h0 (le_max_left _ _) _
  have p2 : ρ' ^ cfg.fullEpochs.toNat ≤ max ρ ρ' ^ cfg.fullEpochs.toNat := pow_le_pow_left₀ h0' (le_max_right _ _) _
  simp only [Bool.false_eq_true, if_false] at e1 e2
  rw [hs1, hs2] at e2
  clear hconv hconv' hs1 hs2
  rw [abs_le] at e1 e2 ⊢
  constructor
  · linarith [e1.1, e1.2, e2.1, e2.2]
  · linarith [e1.1, e1.2, e2.1, e2.2]

/-- **C105** for samples: the same for functions with values in `[0, 1]` of the rows drawn, `k` in the one order and `k'` in the
other, for the same requested counts and the same evidence. -/
theorem train_sample_permuted (hn : ∀ x, 0 < x → num.gammaln x = log (Gamma x)) (hexp : num.exp = exp)
    (ht : Table.Ordered t) (hm : ∀ ty ∈ t.featureTypes, ty = tyMultinomial) (hc : Table.Counts t)
    (ht' : Table.Ordered t') (hm' : ∀ ty ∈ t'.featureTypes, ty = tyMultinomial) (hc' : Table.Counts t')
    (hV : 1 ≤ t.numCols) (hV' : t.numCols ≤ 32768) (hM : M ≤ 128) {prior prior' : List ℝ}
    (hl : prior.length = t.numCols * (t.numCols - 1) / 2) (hl' : prior'.length = t.numCols * (t.numCols - 1) / 2) (junk : Nat → Nat)
    (h : Permuted τ t t') (hp : PermutedPrior τ t.numCols prior prior') :
    ∃ ρ : ℝ, 0 ≤ ρ ∧ ρ < 1 ∧ ∀ {mst : List (List ℝ) → List Edge}, MstContract mst → ∀ {cfg : TrainConfig}, 1 ≤ cfg.initEpochs → 1 ≤ cfg.sampleTreeRate →
      cfg.estimateTree = false →
      ∀ {fuel : Nat}, (2 * cfg.initEpochs.toNat + 1) * t.numRows ≤ fuel → ∀ {s s' : Trainer ℝ M}, Trainer.init t prior.length = .ok s →
      Trainer.init t' prior'.length = .ok s' → ∀ (N : Nat) {counts counts' : List Int} {data data' : Option (List Int)},
      (∀ d ∈ data, d.length = t.raggedIndex.getLastD 0) → (∀ d ∈ data', d.length = t'.raggedIndex.getLastD 0) →
      SameCells τ t t' (data.getD []) (data'.getD []) → counts.length = t.numCols → counts'.length = t.numCols →
      (∀ v < t.numCols, counts'.getD v 0 = counts.getD (τ v) 0) → (∀ v < t.numCols, counts.getD v 0 ≤ 127) →
      ∀ k k' : Nat → List Int → ℝ, (∀ n row, 0 ≤ k n row) → (∀ n row, k n row ≤ 1) → (∀ n row, 0 ≤ k' n row) → (∀ n row, k' n row ≤ 1) →
      (∀ n (row row' : List Int), row.length = t.raggedIndex.getLastD 0 → row'.length = t'.raggedIndex.getLastD 0 →
        SameCells τ t t' row row' → k' n row' = k n row) →
      |(train num mst junk fuel t' prior' cfg : TrainM ℝ M (Expect ℝ) (List ℝ)).run.run s' (drawn mst t' N counts' data' k')
        - (train num mst junk fuel t prior cfg : TrainM ℝ M (Expect ℝ) (List ℝ)).run.run s (drawn mst t N counts data k)|
        ≤ 2 * ρ ^ cfg.fullEpochs.toNat := by
  obtain ⟨S, hS⟩ := exists_trees t.numCols
  obtain ⟨ρ, h0, h1, hconv⟩ := train_sample (num := num) (M := M) hn hexp ht hm hc hV hV' hM hl S hS junk
  obtain ⟨ρ', h0', h1', hconv'⟩ := train_sample (num := num) (M := M) (t := t') hn hexp ht' hm' hc' (by rw [h.cols]; exact hV)
    (by rw [h.cols]; exact hV') hM (by rw [h.cols]; exact hl') S (by rw [h.cols]; exact hS) junk
  refine ⟨max ρ ρ', le_max_of_le_left h0, max_lt h1 h1', fun {mst} hmst {cfg} i1 i2 hest {fuel} hf {s s'} hs hs' N {counts counts' data data'}
    hd hd' hdd hcl hcl' hcc h127 k k' k0 k1 k0' k1' hk => ?_⟩
  obtain ⟨best, hbest⟩ := exists_best (M := M) (t := t) (prior := prior) hmst hV
  obtain ⟨best', hbest'⟩ := exists_best (M := M) (t := t') (prior := prior') hmst (by rw [h.cols]; exact hV)
  have h127' : ∀ v < t.numCols, counts'.getD v 0 ≤ 127 := fun v hv => by rw [hcc v hv]; exact h127 _ ((h.maps v).2 hv)
  have e1 := hconv hmst i1 i2 hf hs hbest N hd hcl h127 k k0 k1
  have e2 := hconv' hmst i1 i2 (h.rows.symm ▸ hf) hs' hbest' N hd' (by rw [h.cols]; exact hcl') (by rw [h.cols]; exact h127') k' k0' k1'
  simp only [lastTree, hest] at e1 e2
  have hlen : ∀ (x : Table) (p : List ℝ) (a : Latent x M), (logitsOf x p a).length = x.numCols * (x.numCols - 1) / 2 := by
    intro x p a
    unfold logitsOf
    rw [List.length_map, completeGrid_length, tri]
  have hs1 := sum_posterior_permuted h hp hS (fun a T => ∏ n ∈ Finset.range N,
      sampleMean (modelOf t (logitsOf t prior a) a T) (fun r => (data.getD []).getD r 0) counts fun _ x =>
        k n ((List.range (t.raggedIndex.getLastD 0)).map x))
    (fun b T => ∏ n ∈ Finset.range N,
      sampleMean (modelOf t' (logitsOf t' prior' b) b T) (fun r => (data'.getD []).getD r 0) counts' fun _ x =>
        k' n ((List.range (t'.raggedIndex.getLastD 0)).map x)) fun b T hT => by
      have hT := (hS T).1 hT
      have hren := renamedTree_isTree h.maps hT.2
      have v1 := modelOf_valid (a := oldOrder h b) ht hc (hlen t prior (oldOrder h b)) hren.1 hren.2
      have v2 := modelOf_valid (a := b) ht' hc' (hlen t' prior' b) hT.1 (by rw [h.cols]; exact hT.2)
      have P := modelOf_permuted ht ht' h b hT.2 (logitsOf t prior (oldOrder h b)) (logitsOf t' prior' b)
      obtain ⟨srv, -, q, -⟩ := server_init hmst v1
      obtain ⟨srv', -, q', -⟩ := server_init hmst v2
      have hne : ∀ v < t.numCols, 0 < counts.getD v 0 → (columns (modelOf t (logitsOf t prior (oldOrder h b)) (oldOrder h b) (renamedTree τ T)) v).Nonempty :=
        fun v hv _ => Finset.nonempty_Ico.2 (hc.width v hv)
      have key := server_sample_permuted P v1 v2 q q' N hcl hcl' hcc hd hd' hdd h127 hne (k := k) (k' := k') hk
      rw [server_sample_exact v1 q N counts data hd hcl h127 hne k,
        server_sample_exact v2 q' N counts' data' hd' (hcl'.trans h.cols.symm) (fun v hv => h127' v (hv.trans_eq h.cols))
          (fun v hv _ => Finset.nonempty_Ico.2 (hc'.width v hv)) k'] at key
      exact key
  have hs2 := sum_posterior_permuted (M := M) h hp hS (fun _ _ => 1) (fun _ _ => 1) fun _ _ _ => rfl
  simp only [mul_one] at hs2
  have p1 : ρ ^ cfg.fullEpochs.toNat ≤ max ρ ρ' ^ cfg.fullEpochs.toNat := pow_le_pow_left₀ h0 (le_max_left _ _) _
  have p2 : ρ' ^ cfg.fullEpochs.toNat ≤ max ρ ρ' ^ cfg.fullEpochs.toNat := pow_le_pow_left₀ h0' (le_max_right _ _) _
  simp only [Bool.false_eq_true, if_false] at e1 e2
  rw [hs1, hs2] at e2
  clear hconv hconv' hs1 hs2
  rw [abs_le] at e1 e2 ⊢
  constructor
  · linarith [e1.1, e1.2, e2.1, e2.2]
  · linarith [e1.1, e1.2, e2.1, e2.2]

end

/-- `exTable` and `swapTable`, and a row in both orders. -/
example (num : Num ℝ) (hn : ∀ x, 0 < x → num.gammaln x = log (Gamma x)) (hexp : num.exp = exp) (junk : Nat → Nat) :
    ∃ (mst : List (List ℝ) → List Edge) (s s' : Trainer ℝ 2) (ρ : ℝ), ρ < 1 ∧ Trainer.init exTable 3 = .ok s ∧ Trainer.init swapTable 3 = .ok s' ∧ ∀ n : Nat,
      |(train num mst junk 100 swapTable [1, 3, 2] ⟨3, n, 2, false⟩ : TrainM ℝ 2 (Expect ℝ) (List ℝ)).run.run s' (reported mst swapTable [1, 0, 0, 0, 4, 2])
        - (train num mst junk 100 exTable [1, 2, 3] ⟨3, n, 2, false⟩ : TrainM ℝ 2 (Expect ℝ) (List ℝ)).run.run s (reported mst exTable [0, 4, 1, 0, 0, 2])|
        ≤ 2 * ρ ^ n := by
  have hm : ∀ ty ∈ exTable.featureTypes, ty = tyMultinomial := by decide
  have hm' : ∀ ty ∈ swapTable.featureTypes, ty = tyMultinomial := by decide
  obtain ⟨mst, hmst⟩ := exists_mst (K := ℝ)
  obtain ⟨s, hs, -, -⟩ := good_init (K := ℝ) (M := 2) (t := exTable) (by decide) (by decide) (by decide) rfl
  obtain ⟨s', hs', -, -⟩ := good_init (K := ℝ) (M := 2) (t := swapTable) (by decide) (by decide) (by decide) rfl
  obtain ⟨ρ, r0, r1, h⟩ := train_predictive_permuted (M := 2) hn hexp exTable_ordered hm exTable_counts ⟨by decide, by decide⟩ hm' swapTable_counts (by decide)
    (by decide) (by decide) (prior := [1, 2, 3]) (prior' := [1, 3, 2]) rfl rfl junk swapTable_permuted swapTable_prior
  refine ⟨mst, s, s', ρ, r1, hs, hs', fun n => ?_⟩
  exact h hmst (cfg := ⟨3, n, 2, false⟩) (show (1 : Int) ≤ 3 by decide) (show (1 : Int) ≤ 2 by decide) rfl (show 14 ≤ 100 by decide) hs hs'
    (row := [0, 4, 1, 0, 0, 2]) (row' := [1, 0, 0, 0, 4, 2]) (by decide) (by decide) (by decide) (by decide) (by unfold SameCells; decide)

/-- The probability that two rows drawn both have their first observation of the binary feature `0` of `exTable`, feature `1` of
`swapTable`, at its second value. -/
example (num : Num ℝ) (hn : ∀ x, 0 < x → num.gammaln x = log (Gamma x)) (hexp : num.exp = exp) (junk : Nat → Nat) :
    ∃ (mst : List (List ℝ) → List Edge) (s s' : Trainer ℝ 2) (ρ : ℝ), ρ < 1 ∧ Trainer.init exTable 3 = .ok s ∧ Trainer.init swapTable 3 = .ok s' ∧ ∀ n : Nat,
      |(train num mst junk 100 swapTable [1, 3, 2] ⟨3, n, 2, false⟩ : TrainM ℝ 2 (Expect ℝ) (List ℝ)).run.run s'
          (drawn mst swapTable 2 [1, 1, 1] none fun _ row => if row.getD 4 0 = 1 then 1 else 0)
        - (train num mst junk 100 exTable [1, 2, 3] ⟨3, n, 2, false⟩ : TrainM ℝ 2 (Expect ℝ) (List ℝ)).run.run s
          (drawn mst exTable 2 [1, 1, 1] none fun _ row => if row.getD 1 0 = 1 then 1 else 0)|
        ≤ 2 * ρ ^ n := by
  have hm : ∀ ty ∈ exTable.featureTypes, ty = tyMultinomial := by decide
  have hm' : ∀ ty ∈ swapTable.featureTypes, ty = tyMultinomial := by decide
  obtain ⟨mst, hmst⟩ := exists_mst (K := ℝ)
  obtain ⟨s, hs, -, -⟩ := good_init (K := ℝ) (M := 2) (t := exTable) (by decide) (by decide) (by decide) rfl
  obtain ⟨s', hs', -, -⟩ := good_init (K := ℝ) (M := 2) (t := swapTable) (by decide) (by decide) (by decide) rfl
  obtain ⟨ρ, r0, r1, h⟩ := train_sample_permuted (M := 2) hn hexp exTable_ordered hm exTable_counts ⟨by decide, by decide⟩ hm' swapTable_counts (by decide)
    (by decide) (by decide) (prior := [1, 2, 3]) (prior' := [1, 3, 2]) rfl rfl junk swapTable_permuted swapTable_prior
  refine ⟨mst, s, s', ρ, r1, hs, hs', fun n => ?_⟩
  have u : ∀ p : Prop, [Decidable p] → (0 : ℝ) ≤ (if p then 1 else 0) ∧ (if p then 1 else 0) ≤ (1 : ℝ) := fun p _ => by split_ifs <;> norm_num
  refine h hmst (cfg := ⟨3, n, 2, false⟩) (show (1 : Int) ≤ 3 by decide) (show (1 : Int) ≤ 2 by decide) rfl (show 14 ≤ 100 by decide) hs hs'
    2 (by simp) (by simp) (by unfold SameCells; decide) rfl rfl (by decide) (by decide) _ _ (fun _ _ => (u _).1) (fun _ _ => (u _).2)
    (fun _ _ => (u _).1) (fun _ _ => (u _).2) fun n row row' _ _ hr => ?_
  have := hr 1 (by decide) 1 (by decide)
  have e : row'.getD 4 0 = row.getD 1 0 := this
  rw [e]

end TreeCat
