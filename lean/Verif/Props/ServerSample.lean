import Verif.Lemmas.ServeLaw
import Verif.Lemmas.Train
import Verif.Props.Logprob

/-!
# C24: `sample` draws from the exact conditional distribution; C25: it honours the counts
-/

set_option linter.unusedSectionVars false

namespace TreeCat

open Spec Util

section
variable {K : Type} [Field K] [LinearOrder K] [IsStrictOrderedRing K] {M : Nat} [NeZero M]
variable {model : Model K M} {srv : Server K M}

/-- A function of the result, zero on exceptions. -/
def onOk {α : Type} (f : α → K) : Except PyErr α → K
  | .ok a => f a
  | .error _ => 0

/-- **C24.** With whatever root the program is made: the `N` samples of latent classes and observations are independent, and
each has latent classes with their posterior distribution given the row and observations drawn given the classes.
(The joint distribution of the `N` samples is described by the expected values of products of functions of each,
which include the indicator functions of single outcomes.) -/
theorem sampleLoop_exact (h : Model.Valid model) (s : Serves model srv) {r : Nat} (hr : r < model.tree.numVertices)
    {prog : List Instr} (hp : makeProgram model.tree.treeGrid (some r) = .ok prog) (N : Nat) (counts data : List Int)
    (hc : ∀ v < model.tree.numVertices, counts.getD v 0 ≤ 127)
    (hne : ∀ v < model.tree.numVertices, 0 < counts.getD v 0 → (columns model v).Nonempty)
    (k : Nat → (Nat → Fin M) → (Nat → Int) → K) :
    (sampleLoop srv prog N counts data : ExceptT PyErr (Expect K) _).run
        (onOk fun st => ∏ n ∈ Finset.range N, k n (fun v => st.vertSamples v n) (st.featSamples n))
      = ∏ n ∈ Finset.range N, sampleMean model (fun r => data.getD r 0) counts (k n) :=
  sampleLoop_law h s hr hp N counts data hc hne k _ fun _ => rfl

/-- **C24** for `server.sample(N, counts, data)`, as a distribution of lists of rows. -/
theorem server_sample_exact (h : Model.Valid model) (s : Serves model srv) (N : Nat) (counts : List Int)
    (data : Option (List Int)) (hd : ∀ d ∈ data, d.length = model.raggedIndex.getLastD 0)
    (hl : counts.length = model.tree.numVertices) (hc : ∀ v < model.tree.numVertices, counts.getD v 0 ≤ 127)
    (hne : ∀ v < model.tree.numVertices, 0 < counts.getD v 0 → (columns model v).Nonempty) (k : Nat → List Int → K) :
    (srv.sample N counts data : ExceptT PyErr (Expect K) _).run (onOk fun rows => ∏ n ∈ Finset.range N, k n (rows.getD n []))
      = ∏ n ∈ Finset.range N, sampleMean model (fun r => (data.getD []).getD r 0) counts fun _ x =>
          k n ((List.range (model.raggedIndex.getLastD 0)).map x) := by
  obtain ⟨r, hr, hp⟩ := exists_plan_none h s.program
  have hR : srv.raggedSize = model.raggedIndex.getLastD 0 := by rw [Server.raggedSize, s.ragged]
  set ev := data.getD (List.replicate (model.raggedIndex.getLastD 0) 0) with hev
  have hevl : ev.length = model.raggedIndex.getLastD 0 := by
    rw [hev]
    cases data with
    | none => simp
    | some d => exact hd d rfl
  have hevd : (fun r => ev.getD r 0) = fun r => (data.getD []).getD r 0 := by
    funext r
    rw [hev]
    cases data with
    | none =>
      simp only [Option.getD_none, List.getD_nil]
      rcases Nat.lt_or_ge r (List.replicate (model.raggedIndex.getLastD 0) (0 : Int)).length with h | h
      · rw [List.getD_eq_getElem _ _ h, List.getElem_replicate]
      · rw [List.getD_eq_default _ _ h]
    | some d => rfl
  have hl' : (ev.length == srv.raggedSize) = true := by rw [beq_iff_eq, hevl, hR]
  have hl'' : (counts.length == srv.tree.numVertices) = true := by rw [beq_iff_eq, hl, s.tree]
  have e : (srv.sample N counts data : ExceptT PyErr (Expect K) _)
      = (sampleLoop srv srv.program N counts ev >>= fun st =>
          pure ((List.range N).map fun n => (List.range (model.raggedIndex.getLastD 0)).map fun r => st.featSamples n r)) := by
    simp only [Server.sample, hR, ← hev]
    rw [hR] at hl'
    rw [hl', hl'']
    rfl
  rw [e]
  change (sampleLoop srv srv.program N counts ev : ExceptT PyErr (Expect K) _).run (fun r => ExceptT.bindCont (fun st =>
    (pure ((List.range N).map fun n => (List.range (model.raggedIndex.getLastD 0)).map fun r => st.featSamples n r) :
      ExceptT PyErr (Expect K) _)) r _) = _
  rw [← hevd]
  refine sampleLoop_law h s hr hp N counts ev hc hne (fun n _ x => k n ((List.range (model.raggedIndex.getLastD 0)).map x)) _ ?_
  intro st
  change ∏ n ∈ Finset.range N, _ = _
  refine Finset.prod_congr rfl fun n hn => ?_
  rw [Finset.mem_range] at hn
  rw [List.getD_eq_getElem _ _ (by simpa using hn), List.getElem_map, List.getElem_range]

/-- The specification is a probability distribution. -/
theorem sampleMean_const (h : Model.Valid model) (data : Nat → Int) (counts : List Int)
    (hne : ∀ v < model.tree.numVertices, 0 < counts.getD v 0 → (columns model v).Nonempty) (a : K) :
    sampleMean model data counts (fun _ _ => a) = a := by
  have hpos : 0 < dataProb model data := by
    refine Finset.sum_pos (fun z _ => ?_) ⟨fun _ => 0, Finset.mem_univ _⟩
    have ht : ∀ c ∈ model.tree.treeGrid, c.2.1 < model.tree.numVertices ∧ c.2.2 < model.tree.numVertices := fun c hc =>
      h.isTree.range (c.2.1, c.2.2) (List.mem_map.2 ⟨c, hc, rfl⟩)
    refine mul_pos (mul_pos (Finset.prod_pos fun v hv => vertMean_pos h (Finset.mem_range.1 hv) _) ?_) ?_
    · refine List.prod_pos fun x hx => ?_
      obtain ⟨c, hc, rfl⟩ := List.mem_map.1 hx
      exact div_pos (edgeMean_pos h hc _ _) (mul_pos (vertMean_pos h (ht c hc).1 _) (vertMean_pos h (ht c hc).2 _))
    · exact Finset.prod_pos fun v hv => Finset.prod_pos fun r hr => zpow_pos (featMean_pos h (Finset.mem_range.1 hv) hr _) _
  have e : ∀ z : Nat → Fin M, observe model z (requested model.tree.numVertices counts) (fun _ => 0) (fun _ => a) = a := by
    intro z
    refine observe_const h a _ _ fun v hv => ?_
    obtain ⟨w, hw, hv⟩ := List.mem_flatMap.1 hv
    have hvw := List.eq_of_mem_replicate hv
    subst hvw
    rw [List.mem_range] at hw
    refine ⟨hw, hne v hw ?_⟩
    have := List.length_pos_of_mem hv
    simp at this
    exact this
  unfold sampleMean
  simp only [e]
  unfold sumLatent
  rw [← Finset.sum_mul]
  unfold dataProb sumLatent at *
  rw [mul_div_assoc, mul_comm, div_mul_cancel₀ _ hpos.ne']

/-! ### C25 -/

theorem Sure.choose2 {n : Nat} (hn : 0 < n) (N : Nat) (p : Nat → Fin n → K) :
    Sure (ExceptT.lift (TreeCat.choose2 N p) : ExceptT PyErr Poss _) fun ds => ds.length = N := by
  have key : ∀ l : List Nat, (∃ ds, (l.mapM (fun i => (Choose.choose (p i) : Poss (Fin n))) : Poss _) ds) ∧
      ∀ ds, (l.mapM (fun i => (Choose.choose (p i) : Poss (Fin n))) : Poss _) ds → ds.length = l.length := by
    intro l
    induction l with
    | nil => exact ⟨⟨[], rfl⟩, fun ds hds => by cases hds; rfl⟩
    | cons i l ih =>
      rw [List.mapM_cons]
      obtain ⟨⟨ds, hds⟩, hall⟩ := ih
      refine ⟨⟨⟨0, hn⟩ :: ds, ⟨⟨0, hn⟩, trivial, ds, hds, rfl⟩⟩, ?_⟩
      rintro ds' ⟨c, -, ds, hds, h⟩
      cases h
      simp [hall ds hds]
  obtain ⟨⟨ds, hds⟩, hall⟩ := key (List.range N)
  refine ⟨⟨.ok ds, ⟨ds, hds, rfl⟩⟩, ?_⟩
  rintro r ⟨ds, hds, h⟩
  cases h
  exact ⟨ds, rfl, by simpa using hall ds hds⟩

theorem Sure.mono {α : Type} {x : ExceptT PyErr Poss α} {P Q : α → Prop} (h : Sure x P) (hpq : ∀ a, P a → Q a) : Sure x Q :=
  ⟨h.1, fun r hr => by obtain ⟨a, e, ha⟩ := h.2 r hr; exact ⟨a, e, hpq a ha⟩⟩

/-- What drawing `j` observations of feature `v` does to the rows. -/
structure Drew (model : Model K M) (N v j : Nat) (f f' : Nat → Nat → Int) : Prop where
  frame : ∀ n < N, ∀ c, c ∉ columns model v → f' n c = f n c
  nonneg : ∀ n < N, ∀ c ∈ columns model v, 0 ≤ f' n c
  total : ∀ n < N, ∑ c ∈ columns model v, f' n c = ∑ c ∈ columns model v, f n c + j

theorem Sure.drawFeatures (s : Serves model srv) (N v : Nat) (vs : Nat → Fin M) : ∀ (j : Nat) (f : Nat → Nat → Int),
    (j ≠ 0 → (columns model v).Nonempty) → (∀ n < N, ∀ c ∈ columns model v, 0 ≤ f n c) →
    (∀ n < N, ∑ c ∈ columns model v, f n c + j ≤ 127) →
    Sure (TreeCat.drawFeatures srv N v vs j f) (Drew model N v j f) := by
  intro j
  induction j with
  | zero => intro f _ h0 _; exact Sure.pure ⟨fun _ _ _ _ => rfl, h0, fun n _ => by simp⟩
  | succ j ih =>
    intro f hne h0 h1
    obtain ⟨c0, hc0⟩ := hne (by omega)
    have hw : 0 < srv.stop v - srv.beg v := by
      have := mem_columns.1 hc0
      rw [Server.stop, Server.beg, s.ragged]; omega
    rw [TreeCat.drawFeatures, drawFeature, if_neg (by omega)]
    refine Sure.bind (Sure.bind ((Sure.choose2 hw N _).mono fun ds hds => Sure.pure ?_))
    have hb : ∀ n < N, ∃ c ∈ columns model v, bumpSamples f (srv.beg v) ds n = Function.update (f n) c (f n c + 1) := by
      intro n hn
      have hn' : n < ds.length := by omega
      have hmem : srv.beg v + (ds[n]).val ∈ columns model v := by
        rw [mem_columns]
        have := (ds[n]).isLt
        simp only [Server.beg, Server.stop, s.ragged] at this ⊢
        omega
      refine ⟨_, hmem, ?_⟩
      have hle : f n (srv.beg v + (ds[n]).val) ≤ ∑ c ∈ columns model v, f n c :=
        Finset.single_le_sum (f := f n) (h0 n hn) hmem
      have h2 := h1 n hn
      have h3 := h0 n hn _ hmem
      push_cast at h2
      funext c
      unfold bumpSamples
      rw [List.getElem?_eq_getElem hn']
      by_cases hc : c = srv.beg v + (ds[n]).val
      · subst hc
        simp only [if_true, Function.update_self]
        exact wrap8_id (by omega) (by omega)
      · simp only [if_neg hc, Function.update_of_ne hc]
    have hsum : ∀ n < N, ∑ c ∈ columns model v, bumpSamples f (srv.beg v) ds n c = ∑ c ∈ columns model v, f n c + 1 := by
      intro n hn
      obtain ⟨c, hc, e⟩ := hb n hn
      rw [e, Finset.sum_update_of_mem hc, ← Finset.add_sum_erase _ _ hc, Finset.sdiff_singleton_eq_erase]
      ring
    refine (ih _ (fun _ => ⟨c0, hc0⟩) ?_ ?_).mono fun f' hf' => ⟨?_, hf'.nonneg, ?_⟩
    · intro n hn c hc
      obtain ⟨c', hc', e⟩ := hb n hn
      rw [e]
      by_cases hcc : c = c'
      · subst hcc; rw [Function.update_self]; have := h0 n hn c hc; omega
      · rw [Function.update_of_ne hcc]; exact h0 n hn c hc
    · intro n hn
      rw [hsum n hn]
      have := h1 n hn
      push_cast at this; omega
    · intro n hn c hc
      rw [hf'.frame n hn c hc]
      obtain ⟨c', hc', e⟩ := hb n hn
      rw [e, Function.update_of_ne (by rintro rfl; exact hc hc')]
    · intro n hn
      rw [hf'.total n hn, hsum n hn]; push_cast; ring

/-- The rows so far: the features in `A` have been drawn. -/
def RowsDone (model : Model K M) (N : Nat) (cnt : Nat → Nat) (A : List Nat) (f : Nat → Nat → Int) : Prop :=
  ∀ n < N, ∀ v < model.tree.numVertices, (∀ c ∈ columns model v, 0 ≤ f n c) ∧
    ∑ c ∈ columns model v, f n c = if v ∈ A then (cnt v : Int) else 0

variable {r : Nat} {par : Nat → Nat} {ch : Nat → List Nat} {L : List Nat} {eid : Nat → Nat}

theorem Sure.outBlocks (h : Model.Valid model) (s : Serves model srv) (N : Nat) (counts data : List Int)
    (hc : ∀ v < model.tree.numVertices, counts.getD v 0 ≤ 127)
    (hne : ∀ v < model.tree.numVertices, 0 < counts.getD v 0 → (columns model v).Nonempty) : ∀ (B A : List Nat), (A ++ B).Nodup →
    (∀ v ∈ B, v < model.tree.numVertices) → ∀ st : SampleState K M,
    RowsDone model N (fun v => (counts.getD v 0).toNat) A st.featSamples →
    Sure ((B.flatMap (outBlock r par eid)).foldlM (sampleStep srv N counts data) st) fun st' =>
      RowsDone model N (fun v => (counts.getD v 0).toNat) (A ++ B) st'.featSamples := by
  intro B
  induction B with
  | nil => intro A _ _ st hst; rw [List.append_nil]; exact Sure.pure hst
  | cons v B ih =>
    intro A hn hB st hst
    have hv := hB v (by simp)
    have hvA : v ∉ A := fun hA => (List.nodup_append.1 hn).2.2 v hA v (by simp) rfl
    rw [List.flatMap_cons, List.foldlM_append]
    refine Sure.bind ?_
    have hdown : ∀ st : SampleState K M, RowsDone model N (fun v => (counts.getD v 0).toNat) A st.featSamples →
        Sure (sampleStep srv N counts data st ⟨.DOWN, v, 0, 0⟩) fun st' =>
          RowsDone model N (fun v => (counts.getD v 0).toNat) (A ++ [v]) st'.featSamples := by
      intro st hst
      unfold sampleStep
      refine Sure.bind ((Sure.choose2 (Nat.pos_of_ne_zero (NeZero.ne M)) N _).mono fun ds _ => ?_)
      refine Sure.bind ((Sure.drawFeatures s N v _ (counts.getD v 0).toNat st.featSamples
        (fun h0 => hne v hv (by omega)) (fun n hn => (hst n hn v hv).1)
        (fun n hn => by rw [(hst n hn v hv).2, if_neg hvA]; have := hc v hv; omega)).mono fun f' hf' => Sure.pure ?_)
      change RowsDone model N _ _ f'
      clear hn
      intro n hn w hw
      by_cases hwv : w = v
      · subst hwv
        refine ⟨hf'.nonneg n hn, ?_⟩
        rw [hf'.total n hn, (hst n hn w hw).2, if_neg hvA, if_pos (by simp), zero_add]
      · have e : ∀ c ∈ columns model w, f' n c = st.featSamples n c := fun c hcw =>
          hf'.frame n hn c fun hcv => hwv (columns_disjoint h hw hv hcw hcv)
        refine ⟨fun c hcw => by rw [e c hcw]; exact (hst n hn w hw).1 c hcw, ?_⟩
        rw [Finset.sum_congr rfl e, (hst n hn w hw).2]
        simp [hwv]
    have hrest : ∀ st : SampleState K M, RowsDone model N (fun v => (counts.getD v 0).toNat) (A ++ [v]) st.featSamples →
        Sure ((B.flatMap (outBlock r par eid)).foldlM (sampleStep srv N counts data) st) fun st' =>
          RowsDone model N (fun v => (counts.getD v 0).toNat) (A ++ v :: B) st'.featSamples := by
      intro st hst
      have := ih (A ++ [v]) (by simpa using hn) (fun v hv => hB v (by simp [hv])) st hst
      simpa using this
    unfold outBlock
    split
    · rw [List.foldlM_cons]
      refine Sure.bind ((hdown st hst).mono fun st' hst' => ?_)
      rw [List.foldlM_nil]
      exact Sure.pure (hrest st' hst')
    · rw [List.foldlM_cons]
      refine Sure.bind (Sure.pure ?_)
      rw [List.foldlM_cons]
      refine Sure.bind (Sure.mono (hdown _ (by exact hst)) fun st' hst' => ?_)
      rw [List.foldlM_nil]
      exact Sure.pure (hrest st' hst')

/-- **C25.** Whatever is drawn, `sample` returns `N` rows of the width of the model with nonnegative entries, and the block
of feature `v` adds up to `counts[v]`. -/
theorem server_sample_counts (h : Model.Valid model) (s : Serves model srv) (N : Nat) (counts : List Int)
    (data : Option (List Int)) (hd : ∀ d ∈ data, d.length = model.raggedIndex.getLastD 0)
    (hl : counts.length = model.tree.numVertices) (hc : ∀ x ∈ counts, 0 ≤ x ∧ x ≤ 127)
    (hne : ∀ v < model.tree.numVertices, 0 < counts.getD v 0 → (columns model v).Nonempty) :
    (∃ o, (srv.sample N counts data : ExceptT PyErr Poss _).run o) ∧
    ∀ o, (srv.sample N counts data : ExceptT PyErr Poss _).run o → ∃ rows, o = .ok rows ∧ rows.length = N ∧
      ∀ row ∈ rows, row.length = model.raggedIndex.getLastD 0 ∧ ∀ v < model.tree.numVertices,
        (∀ c ∈ columns model v, 0 ≤ row.getD c 0) ∧ ∑ c ∈ columns model v, row.getD c 0 = counts.getD v 0 := by
  have hR : srv.raggedSize = model.raggedIndex.getLastD 0 := by rw [Server.raggedSize, s.ragged]
  obtain ⟨r, hr, hp⟩ := exists_plan_none h s.program
  obtain ⟨par, ch, eid, L, P, hp'⟩ := exists_plan h hr
  rw [hp] at hp'
  have hprog := Except.ok.inj hp'
  have hc' : ∀ v < model.tree.numVertices, 0 ≤ counts.getD v 0 ∧ counts.getD v 0 ≤ 127 := by
    intro v hv
    rw [List.getD_eq_getElem _ _ (by omega)]
    exact hc _ (List.getElem_mem _)
  change Sure _ _
  unfold Server.sample
  refine Sure.bind (Sure.liftPy (a := ()) ?_ ?_)
  · cases data with
    | none => simp [pyAssert]
    | some d => simp [pyAssert, hd d rfl, hR]
  refine Sure.bind (Sure.liftPy (a := ()) ?_ ?_)
  · simp [pyAssert, hl, s.tree]
  refine Sure.bind ?_
  unfold sampleLoop
  rw [hprog]
  unfold progOf
  rw [List.append_assoc, List.foldlM_append, foldlM_sampleIn _ _ _ _ (inBlocks_ops _), pure_bind, List.singleton_append,
    List.foldlM_cons]
  refine Sure.bind (Sure.pure ?_)
  generalize hst : (L.reverse.flatMap (inBlock ch eid)).foldl (sampleIn srv _) _ = st
  have h0 : ∀ n, st.featSamples n = fun _ => 0 := by
    intro n
    have := sampleIn_cell (srv := srv) (data.getD (List.replicate srv.raggedSize 0)) n (L.reverse.flatMap (inBlock ch eid))
      { messagesIn := srv.vertProbs, messagesOut := fun v _ => srv.vertProbs v
        vertSamples := fun _ _ => 0, featSamples := fun _ _ => 0 }
    rw [hst] at this
    exact congrArg Cell.x this
  refine (Sure.outBlocks h s N counts _ (fun v hv => (hc' v hv).2) hne L [] (by simpa using P.topo.nodup)
    (fun v hv => P.topo.mem.1 hv) _ ?_).mono fun st' hst' => Sure.pure ?_
  · intro n hn v hv
    simp [h0]
  · refine ⟨by simp, ?_⟩
    intro row hrow
    obtain ⟨n, hn, rfl⟩ := List.mem_map.1 hrow
    rw [List.mem_range] at hn
    refine ⟨by simp [hR], fun v hv => ?_⟩
    have hle : ∀ c ∈ columns model v, c < model.raggedIndex.getLastD 0 := by
      intro c hcv
      have h1 := model_beg_le h (show v + 1 ≤ model.tree.numVertices from hv) (le_refl _)
      have h2 := (mem_columns.1 hcv).2
      have h3 : model.raggedIndex.getLastD 0 = model.raggedIndex.getD model.tree.numVertices 0 := by
        rw [List.getLastD_eq_getLast?, List.getLast?_eq_getElem?, h.ragged, List.getD_eq_getElem?_getD]
        rfl
      omega
    have e : ∀ c ∈ columns model v, ((List.range srv.raggedSize).map fun r => st'.featSamples n r).getD c 0
        = st'.featSamples n c := by
      intro c hcv
      rw [List.getD_eq_getElem _ _ (by simpa [hR] using hle c hcv), List.getElem_map, List.getElem_range]
    obtain ⟨a1, a2⟩ := hst' n hn v hv
    refine ⟨fun c hcv => by rw [e c hcv]; exact a1 c hcv, ?_⟩
    rw [Finset.sum_congr rfl e, a2, List.nil_append, if_pos (P.topo.mem.2 hv)]
    exact Int.toNat_of_nonneg (hc' v hv).1

end

/-- The hypotheses hold of the example, with several observations of a feature and none of another. -/
example : ∃ srv : Server ℚ 2, Serves (exampleModel ℚ) srv ∧ ∀ o,
    (srv.sample 3 [2, 1, 0] (some [0, 0, 0, 1, 0, 0, 1]) : ExceptT PyErr Poss _).run o → ∃ rows, o = .ok rows ∧ rows.length = 3 ∧
      ∀ row ∈ rows, row.length = 7 ∧ ∀ v < 3, (∀ c ∈ columns (exampleModel ℚ) v, 0 ≤ row.getD c 0) ∧
        ∑ c ∈ columns (exampleModel ℚ) v, row.getD c 0 = [2, 1, 0].getD v 0 := by
  obtain ⟨mst, hmst⟩ := exists_mst (K := ℚ)
  obtain ⟨srv, -, s, -⟩ := server_init hmst (exampleModel_valid ℚ)
  refine ⟨srv, s, (server_sample_counts (exampleModel_valid ℚ) s 3 [2, 1, 0] _ ?_ rfl (by decide) ?_).2⟩
  · rintro d ⟨⟩; rfl
  · intro v hv _
    have : v = 0 ∨ v = 1 ∨ v = 2 := by change v < 3 at hv; omega
    rcases this with rfl | rfl | rfl
    · exact ⟨0, by simp [columns, exampleModel]⟩
    · exact ⟨2, by simp [columns, exampleModel]⟩
    · exact ⟨5, by simp [columns, exampleModel]⟩

/-- Probability that an observation of feature 1 is its second category, given an observation of feature 2. -/
example : sampleMean (exampleModel ℚ) (fun r => [0, 0, 0, 0, 0, 0, 1].getD r 0) [0, 1, 0]
    (fun _ x => if x 3 = 1 then 1 else 0) = 97 / 147 := by decide +kernel

end TreeCat
