import Verif.Lemmas.SampleTree

/-!
# `sample_tree` refines a walk on labelled spanning trees
-/

set_option linter.unusedSectionVars false

namespace TreeCat

open Spec

/-- The pair with number `k` in the complete graph. -/
def pairAt (V k : Nat) : Edge := (pairs V).getD k (0, 0)

/-- The edges with the given numbers. -/
def treeOf (V : Nat) (ω : List Nat) : List Edge := ω.map (pairAt V)

theorem pairAt_fce {V v1 v2 : Nat} (h : v1 < v2) (hV : v2 < V) : pairAt V (findCompleteEdge v1 v2) = (v1, v2) := by
  rw [pairAt, List.getD_eq_getElem?_getD, pairs_getElem? V v1 v2 h hV]; rfl

theorem pairs_getElem?_pairAt {V k : Nat} (hk : k < tri V) : (pairs V)[k]? = some (pairAt V k) := by
  rw [pairAt, List.getD_eq_getElem?_getD, List.getElem?_eq_getElem (by rw [pairs_length]; exact hk)]; rfl

theorem pairAt_lt {V k : Nat} (hk : k < tri V) :
    (pairAt V k).1 < (pairAt V k).2 ∧ (pairAt V k).2 < V ∧
      findCompleteEdge (pairAt V k).1 (pairAt V k).2 = k :=
  pairs_getElem?_some V k _ (pairs_getElem?_pairAt hk)

theorem pyGet_completeGrid {V k : Nat} (hk : k < tri V) :
    pyGet (completeGrid V) k = .ok (k, (pairAt V k).1, (pairAt V k).2) := by
  rw [pyGet_eq_ok, completeGrid_getElem?, pairs_getElem?_pairAt hk]; rfl

open Classical in
/-- The edges that reconnect the two parts left when edge `e` is removed. -/
noncomputable def validList (V : Nat) (ω : List Nat) (e : Nat) : List Nat :=
  crossIds (fun p => decide (¬ Reach ((treeOf V ω).eraseIdx e) p.1 p.2)) 0 (pairs V)

theorem mem_validList {V : Nat} {ω : List Nat} {e k : Nat} : k ∈ validList V ω e ↔
    k < tri V ∧ ¬ Reach ((treeOf V ω).eraseIdx e) (pairAt V k).1 (pairAt V k).2 := by
  unfold validList
  rw [mem_crossIds]
  constructor
  · rintro ⟨-, p, h1, h2⟩
    rw [Nat.sub_zero] at h1
    have hk : k < tri V := by
      by_contra hc
      rw [List.getElem?_eq_none (by rw [pairs_length]; omega)] at h1; simp at h1
    rw [pairs_getElem?_pairAt hk, Option.some.injEq] at h1
    subst h1
    exact ⟨hk, by simpa using h2⟩
  · rintro ⟨h1, h2⟩
    exact ⟨Nat.zero_le _, _, pairs_getElem?_pairAt h1, by simpa using h2⟩

/-- Labelled spanning trees: lists of edge numbers whose edges form a spanning tree. -/
structure LTree (V : Nat) (ω : List Nat) : Prop where
  ids : ∀ k ∈ ω, k < tri V
  tree : IsTree V (treeOf V ω)

theorem LTree.length {V : Nat} {ω : List Nat} (h : LTree V ω) : ω.length + 1 = V := by
  have := h.tree.card; simpa [treeOf] using this

/-- The valid edges are exactly those that give a spanning tree again. -/
theorem mem_validList_iff {V : Nat} {ω : List Nat} (h : LTree V ω) {e : Nat} (he : e < ω.length) (k : Nat) :
    k ∈ validList V ω e ↔ LTree V (ω.set e k) := by
  rw [mem_validList]
  have key : k < tri V → (IsTree V (treeOf V (ω.set e k)) ↔
      ¬ Reach ((treeOf V ω).eraseIdx e) (pairAt V k).1 (pairAt V k).2) := by
    intro hk
    have hp := pairAt_lt hk
    have := isTree_set_iff (x := (pairAt V k).1) (y := (pairAt V k).2) h.tree
      (by simpa [treeOf] using he) (by omega) (by omega)
    rw [← this, treeOf, treeOf, List.map_set]
  constructor
  · rintro ⟨h1, h2⟩
    refine ⟨?_, (key h1).2 h2⟩
    intro j hj
    rcases List.mem_or_eq_of_mem_set hj with h3 | h3
    · exact h.ids j h3
    · subst h3; exact h1
  · intro h1
    have hk := h1.ids k (List.mem_set he k)
    exact ⟨hk, (key hk).1 h1.tree⟩

theorem self_mem_validList {V : Nat} {ω : List Nat} (h : LTree V ω) {e : Nat} (he : e < ω.length) :
    ω[e] ∈ validList V ω e := by
  rw [mem_validList_iff h he, List.set_getElem_self]; exact h

theorem validList_set {V : Nat} (ω : List Nat) (e k : Nat) :
    validList V (ω.set e k) e = validList V ω e := by
  unfold validList treeOf
  rw [List.map_set, List.eraseIdx_set_eq]

theorem nodup_validList (V : Nat) (ω : List Nat) (e : Nat) : (validList V ω e).Nodup :=
  nodup_crossIds _ _ _

/-! ### The arrays -/

/-- The arrays hold the labelled tree `s.e2k`. -/
structure StInv (V : Nat) (s : TreeState) : Prop where
  ltree : LTree V s.e2k
  nbrs : RepN V (Adj (treeOf V s.e2k)) s.neighbors
  comps : s.components = List.replicate V false
  valid : s.validEdges.length = tri V

theorem adj_set {l : List (Nat × Nat)} {e : Nat} (he : e < l.length) (p : Nat × Nat) (x y : Nat) :
    Adj (l.set e p) x y ↔ Adj (l.eraseIdx e) x y ∨ (x = p.1 ∧ y = p.2) ∨ (x = p.2 ∧ y = p.1) := by
  have hm : ∀ q, q ∈ l.set e p ↔ q = p ∨ q ∈ l.eraseIdx e := by
    intro q
    rw [(List.set_perm_cons_eraseIdx he p).mem_iff, List.mem_cons]
  unfold Adj
  rw [hm, hm]
  obtain ⟨a, b⟩ := p
  simp only [Prod.mk.injEq]
  tauto

theorem jitRemoveEdge_spec {V : Nat} {s : TreeState} (I : StInv V s) {e : Nat} (he : e < s.e2k.length) :
    ∃ N' C', jitRemoveEdge (completeGrid V) s.e2k s.neighbors s.components e = .ok (s.e2k[e], N', C') ∧
      RepN V (Adj ((treeOf V s.e2k).eraseIdx e)) N' ∧ C'.length = V ∧
      ∀ x < V, ∀ y < V, (C'.getD x false = C'.getD y false ↔ Reach ((treeOf V s.e2k).eraseIdx e) x y) := by
  set k := s.e2k[e] with hk
  have hkt : k < tri V := I.ltree.ids k (List.getElem_mem he)
  have hp := pairAt_lt hkt
  set a := (pairAt V k).1 with ha
  set b := (pairAt V k).2 with hb
  have hget : (treeOf V s.e2k)[e]? = some (a, b) := by
    simp [treeOf, he, ← hk, ha, hb]
  obtain ⟨d, par, S⟩ := exists_split I.ltree.tree hget
  have hadj : Adj (treeOf V s.e2k) a b := .inl (List.mem_of_getElem? hget)
  obtain ⟨N1, N2, h1, h2, h3⟩ := repN_remove I.nbrs (a := a) (b := b) (by omega) (by omega) (by omega)
    hadj hadj.symm
  have h4 : RepN V (Adj ((treeOf V s.e2k).eraseIdx e)) N2 :=
    h3.congr fun v _ u => (S.adj_forest v u).symm
  have hV : 0 < V := by omega
  obtain ⟨st, h5, h6⟩ := jitSetAdd_rep (Rep.empty V hV) (x := a) (by simp) (by
    have := I.ltree.length
    simp; omega)
  have I0 : DfsInv V par a b s.components [] [a] := by
    rw [I.comps]
    refine ⟨by simp, ?_, by simp, ?_, ?_, by simp, ?_⟩
    · intro x
      rw [List.getD_eq_getElem?_getD, List.getElem?_replicate]
      split <;> simp
    · intro x hx
      simp only [List.nil_append, List.mem_singleton] at hx
      subst hx
      exact ⟨S.rooted.root_lt, S.not_sub_a⟩
    · intro x hx hxa
      simp only [List.nil_append, List.mem_singleton] at hx
      exact absurd hx hxa
    · intro c _ _ _ h; simp at h
  obtain ⟨C', h7, h8, h9⟩ := dfsLoop_spec S h4 V s.components st [] [a] I0 h6 (by simp)
  refine ⟨N2, C', ?_, h4, h8, ?_⟩
  · have hg : pyGet s.e2k e = .ok k := pyGet_eq_ok.2 (by rw [List.getElem?_eq_getElem he])
    simp only [jitRemoveEdge, hg, bind, Except.bind, pyGet_completeGrid hkt, ← ha, ← hb, h1, h2,
      h4.length, h5, h7]
  · intro x hx y hy
    rw [S.reach_iff hx hy, Bool.eq_iff_iff, h9 x hx, h9 y hy, not_iff_not]

section
variable {K : Type} [Field K] [LinearOrder K]

/-- Weights relative to the largest. -/
def probsOf (expf : K → K) : List K → List K
  | [] => []
  | l :: ls => (l :: ls).map fun x => expf (x - ls.foldl max l)

theorem probsOf_length (expf : K → K) (ls : List K) : (probsOf expf ls).length = ls.length := by
  cases ls <;> simp [probsOf]

theorem expNormalize_eq (expf : K → K) {ls : List K} (h : ls ≠ []) :
    expNormalize expf ls = .ok (probsOf expf ls) := by
  cases ls with
  | nil => exact absurd rfl h
  | cons l ls => rfl

/-- The weights of the valid edges. -/
noncomputable def validProbs (expf : K → K) (logits : List K) (V : Nat) (ω : List Nat) (e : Nat) : List K :=
  probsOf expf ((validList V ω e).map fun k => logits.getD k 0)

theorem validProbs_length (expf : K → K) (logits : List K) (V : Nat) (ω : List Nat) (e : Nat) :
    (validProbs expf logits V ω e).length = (validList V ω e).length := by
  rw [validProbs, probsOf_length, List.length_map]

theorem proposeEdges_spec (expf : K → K) {V : Nat} {logits : List K} (hl : logits.length = tri V)
    {s : TreeState} (I : StInv V s) {e : Nat} (he : e < s.e2k.length) :
    ∃ N' C' buf, proposeEdges expf (completeGrid V) logits s e
        = .ok (s.e2k[e], ⟨s.e2k, N', C', buf⟩, (validList V s.e2k e).length,
            validProbs expf logits V s.e2k e) ∧
      RepN V (Adj ((treeOf V s.e2k).eraseIdx e)) N' ∧ C'.length = V ∧ buf.length = tri V ∧
      buf.take (validList V s.e2k e).length = validList V s.e2k e := by
  obtain ⟨N', C', h1, h2, h3, h4⟩ := jitRemoveEdge_spec I he
  obtain ⟨buf, num, h5, h6, h7, h8⟩ := findValidEdges_spec C' s.validEdges
    (by rw [h3, I.valid])
  classical
  have hcr : crossIds (fun p => C'.getD p.2 false != C'.getD p.1 false) 0 (pairs C'.length)
      = validList V s.e2k e := by
    unfold validList
    rw [h3]
    apply crossIds_congr
    intro p hp
    have hpV := (mem_pairs V p).1 hp
    rw [Bool.eq_iff_iff, bne_iff_ne, decide_eq_true_iff, ne_comm, ne_eq,
      h4 p.1 (by omega) p.2 (by omega)]
  rw [hcr] at h7 h8
  refine ⟨N', C', buf, ?_, h2, h3, by rw [h6, I.valid], by rw [← h8]; exact h7⟩
  have hm : (buf.take num).mapM (fun k => pyGet logits k)
      = .ok ((validList V s.e2k e).map fun k => logits.getD k 0) := by
    rw [h7]
    apply mapM_ok
    intro k hk
    have := (mem_validList.1 hk).1
    rw [pyGet_eq_ok, List.getD_eq_getElem?_getD, List.getElem?_eq_getElem (by omega)]; rfl
  have hne : (validList V s.e2k e).map (fun k => logits.getD k 0) ≠ [] := by
    have := self_mem_validList I.ltree he
    rw [ne_eq, List.map_eq_nil_iff]
    intro h0; rw [h0] at this; simp at this
  simp only [proposeEdges, h1, h5, hm, bind, Except.bind, expNormalize_eq expf hne, ← h8]
  rfl

theorem placeEdge_spec {V : Nat} {e2k : List Nat} (h : LTree V e2k) {e : Nat} (he : e < e2k.length)
    {N' : List (List Nat)} {C' : List Bool} {buf : List Nat}
    (hN : RepN V (Adj ((treeOf V e2k).eraseIdx e)) N') (hC : C'.length = V) (hb : buf.length = tri V)
    {k : Nat} (hk : k ∈ validList V e2k e) :
    ∃ s', placeEdge (completeGrid V) ⟨e2k, N', C', buf⟩ e k = .ok s' ∧ StInv V s' ∧
      s'.e2k = e2k.set e k := by
  obtain ⟨hkt, hnr⟩ := mem_validList.1 hk
  have hp := pairAt_lt hkt
  have het : e < (treeOf V e2k).length := by simpa [treeOf] using he
  have hns : ¬ Adj ((treeOf V e2k).eraseIdx e) (pairAt V k).1 (pairAt V k).2 :=
    fun h => hnr (.single h)
  obtain ⟨d, par, S⟩ := exists_split h.tree (e := e) (a := (treeOf V e2k)[e].1)
    (b := (treeOf V e2k)[e].2) (by rw [List.getElem?_eq_getElem het])
  obtain ⟨N1, N2, h1, h2, h3⟩ := repN_add hN (fun u v huv => by
      have := ((S.adj_forest u v).1 huv).1
      have hr := S.rooted.range _ _ this
      exact ⟨hr.1, hr.2, fun h => S.rooted.irrefl (h ▸ this)⟩)
    (a := (pairAt V k).1) (b := (pairAt V k).2) (by omega) (by omega) (by omega)
    hns (fun h => hns h.symm)
  refine ⟨⟨e2k.set e k, N2, C'.map fun _ => false, buf⟩, ?_, ⟨(mem_validList_iff h he k).1 hk, ?_, ?_, hb⟩, rfl⟩
  · simp only [placeEdge, jitAddEdge, pySet_ok e2k e k he, bind, Except.bind, pyGet_completeGrid hkt, h1, h2]
  · refine h3.congr fun v _ u => ?_
    simp only [treeOf, List.map_set]
    exact (adj_set het (pairAt V k) v u).symm
  · simp [List.map_const', hC]

variable {m : Type → Type} [Monad m] [LawfulMonad m] [Choose K m]

theorem liftPy_ok_bind {α β : Type} (a : α) (f : α → ExceptT PyErr m β) :
    (liftPy (.ok a) >>= f) = f a := by
  apply ExceptT.ext
  simp [liftPy, ExceptT.run_bind]

theorem liftPy_ok {α : Type} (a : α) : (liftPy (.ok a) : ExceptT PyErr m α) = pure a := rfl

/-- One step of the walk on labelled trees: a new id for slot `e`. -/
noncomputable def absStep (m : Type → Type) [Monad m] [Choose K m] (expf : K → K) (logits : List K) (V : Nat)
    (ω : List Nat) (e : Nat) : m (List Nat) :=
  (fun i : Fin (validProbs expf logits V ω e).length => ω.set e ((validList V ω e).getD i.val 0)) <$>
    Choose.choose fun i : Fin (validProbs expf logits V ω e).length => (validProbs expf logits V ω e)[i]

theorem sum_pos_of {K : Type} [Field K] [LinearOrder K] [IsStrictOrderedRing K] {l : List K}
    (hne : l ≠ []) (h : ∀ x ∈ l, 0 < x) : 0 < l.sum := by
  induction l with
  | nil => exact absurd rfl hne
  | cons a l ih =>
    rw [List.sum_cons]
    cases l with
    | nil => simpa using h a (by simp)
    | cons b l => exact add_pos (h a (by simp)) (ih (by simp) fun x hx => h x (by simp [hx]))

theorem probsOf_pos {expf : K → K} (hpos : ∀ x, 0 < expf x) (ls : List K) : ∀ p ∈ probsOf expf ls, 0 < p := by
  intro p hp
  cases ls with
  | nil => simp [probsOf] at hp
  | cons l ls =>
    obtain ⟨x, -, rfl⟩ := List.mem_map.1 hp
    exact hpos _

theorem probsOf_sum_pos {K : Type} [Field K] [LinearOrder K] [IsStrictOrderedRing K] {expf : K → K} (hpos : ∀ x, 0 < expf x) (ls : List K) (h : ls ≠ []) :
    0 < (probsOf expf ls).sum := by
  refine sum_pos_of (fun h0 => h ?_) (probsOf_pos hpos ls)
  rw [← List.length_eq_zero_iff, ← probsOf_length expf, h0]
  rfl

theorem sampleTreeStep_pos {expf : K → K} {V : Nat} {logits : List K} (hl : logits.length = tri V)
    {s : TreeState} (I : StInv V s) {e : Nat} (he : e < s.e2k.length) (hsum : 0 < (validProbs expf logits V s.e2k e).sum) :
    ∃ next : Nat → TreeState,
      (sampleTreeStep expf (completeGrid V) logits s e : ExceptT PyErr m TreeState)
        = ExceptT.lift ((fun i : Fin (validProbs expf logits V s.e2k e).length => next i.val) <$>
            Choose.choose fun i : Fin (validProbs expf logits V s.e2k e).length =>
              (validProbs expf logits V s.e2k e)[i]) ∧
      ∀ i < (validProbs expf logits V s.e2k e).length, StInv V (next i) ∧
        (next i).e2k = s.e2k.set e ((validList V s.e2k e).getD i 0) := by
  obtain ⟨N', C', buf, h1, h2, h3, h4, h5⟩ := proposeEdges_spec expf hl I he
  have hlen := validProbs_length expf logits V s.e2k e
  have hmem : ∀ i < (validList V s.e2k e).length, (validList V s.e2k e).getD i 0 ∈ validList V s.e2k e := by
    intro i hi
    rw [List.getD_eq_getElem?_getD, List.getElem?_eq_getElem hi]
    exact List.getElem_mem hi
  have hnext : ∀ i, ∃ s', i < (validList V s.e2k e).length →
      placeEdge (completeGrid V) ⟨s.e2k, N', C', buf⟩ e ((validList V s.e2k e).getD i 0) = .ok s' ∧
      StInv V s' ∧ s'.e2k = s.e2k.set e ((validList V s.e2k e).getD i 0) := by
    intro i
    by_cases hi : i < (validList V s.e2k e).length
    · obtain ⟨s', h6⟩ := placeEdge_spec I.ltree he h2 h3 h4 (hmem i hi)
      exact ⟨s', fun _ => h6⟩
    · exact ⟨s, fun h => absurd h hi⟩
  choose next hnext using hnext
  refine ⟨next, ?_, fun i hi => (hnext i (by omega)).2⟩
  simp only [sampleTreeStep, h1, liftPy_ok_bind, if_pos hsum]
  have hbody : ∀ i : Fin (validProbs expf logits V s.e2k e).length,
      (if i.val < (validList V s.e2k e).length then do
          let k2 ← liftPy (m := m) (pyGet buf i.val)
          liftPy (placeEdge (completeGrid V) ⟨s.e2k, N', C', buf⟩ e k2)
        else throw PyErr.indexError) = pure (next i.val) := by
    intro i
    have hi : i.val < (validList V s.e2k e).length := by have := i.isLt; omega
    have hg : pyGet buf i.val = .ok ((validList V s.e2k e).getD i.val 0) := by
      rw [pyGet_eq_ok, List.getD_eq_getElem?_getD, List.getElem?_eq_getElem hi, Option.getD_some]
      have : (buf.take (validList V s.e2k e).length)[i.val]? = buf[i.val]? := by
        rw [List.getElem?_take_of_lt hi]
      rw [← this, h5, List.getElem?_eq_getElem hi]
    rw [if_pos hi, hg, liftPy_ok_bind, (hnext i.val hi).1, liftPy_ok]
  unfold sampleIndex
  apply ExceptT.ext
  rw [ExceptT.run_bind]
  simp only [ExceptT.run_lift, map_eq_pure_bind, bind_assoc, pure_bind]
  congr 1
  funext i
  have := congrArg ExceptT.run (hbody i)
  simpa using this

theorem sampleTreeStep_eq [IsStrictOrderedRing K] {expf : K → K} (hpos : ∀ ls : List K, ls ≠ [] → 0 < (probsOf expf ls).sum) {V : Nat}
    {logits : List K} (hl : logits.length = tri V)
    {s : TreeState} (I : StInv V s) {e : Nat} (he : e < s.e2k.length) :
    ∃ next : Nat → TreeState,
      (sampleTreeStep expf (completeGrid V) logits s e : ExceptT PyErr m TreeState)
        = ExceptT.lift ((fun i : Fin (validProbs expf logits V s.e2k e).length => next i.val) <$>
            Choose.choose fun i : Fin (validProbs expf logits V s.e2k e).length =>
              (validProbs expf logits V s.e2k e)[i]) ∧
      ∀ i < (validProbs expf logits V s.e2k e).length, StInv V (next i) ∧
        (next i).e2k = s.e2k.set e ((validList V s.e2k e).getD i 0) := by
  refine sampleTreeStep_pos hl I he (hpos _ fun h0 => ?_)
  have := self_mem_validList I.ltree he
  rw [List.map_eq_nil_iff] at h0
  rw [h0] at this; simp at this

/-- When all weights are zero the removed edge is put back. -/
theorem sampleTreeStep_zero {expf : K → K} {V : Nat} {logits : List K} (hl : logits.length = tri V)
    {s : TreeState} (I : StInv V s) {e : Nat} (he : e < s.e2k.length) (hsum : ¬ 0 < (validProbs expf logits V s.e2k e).sum) :
    ∃ s', (sampleTreeStep expf (completeGrid V) logits s e : ExceptT PyErr m TreeState) = pure s' ∧ StInv V s' ∧ s'.e2k = s.e2k := by
  obtain ⟨N', C', buf, h1, h2, h3, h4, h5⟩ := proposeEdges_spec expf hl I he
  obtain ⟨s', h6, h7, h8⟩ := placeEdge_spec I.ltree he h2 h3 h4 (self_mem_validList I.ltree he)
  refine ⟨s', ?_, h7, by rw [h8, List.set_getElem_self]⟩
  simp only [sampleTreeStep, h1, liftPy_ok_bind, if_neg hsum]
  rw [h6, liftPy_ok]

/-- The walk on labelled trees over a list of slots. -/
noncomputable def absRun (m : Type → Type) [Monad m] [Choose K m] (expf : K → K) (logits : List K) (V : Nat)
    (ω : List Nat) (slots : List Nat) : m (List Nat) :=
  slots.foldlM (absStep m expf logits V) ω

theorem sampleTreeFold_eq [IsStrictOrderedRing K] {expf : K → K} (hpos : ∀ ls : List K, ls ≠ [] → 0 < (probsOf expf ls).sum) {V : Nat}
    {logits : List K} (hl : logits.length = tri V) : ∀ (slots : List Nat) (s : TreeState), StInv V s →
      (∀ e ∈ slots, e + 1 < V) →
      (TreeState.e2k <$> slots.foldlM (sampleTreeStep expf (completeGrid V) logits) s : ExceptT PyErr m (List Nat))
        = ExceptT.lift (absRun m expf logits V s.e2k slots) := by
  intro slots
  induction slots with
  | nil =>
    intro s _ _
    apply ExceptT.ext
    simp [absRun]
  | cons e slots ih =>
    intro s I hs
    have he : e < s.e2k.length := by
      have := I.ltree.length
      have := hs e (by simp); omega
    obtain ⟨next, h1, h2⟩ := sampleTreeStep_eq (m := m) hpos hl I he
    rw [List.foldlM_cons, h1]
    apply ExceptT.ext
    unfold absRun
    rw [List.foldlM_cons]
    unfold absStep
    simp only [ExceptT.run_bind, ExceptT.run_lift, map_eq_pure_bind, bind_assoc,
      pure_bind]
    congr 1
    funext i
    obtain ⟨h3, h4⟩ := h2 i.val i.isLt
    have := congrArg ExceptT.run (ih (next i.val) h3 fun e he => hs e (by simp [he]))
    rw [ExceptT.run_lift] at this
    simp only [map_eq_pure_bind, ExceptT.run_bind] at this
    refine Eq.trans this ?_
    rw [h4]
    unfold absRun absStep
    simp only [map_eq_pure_bind]

/-! ### Initialisation and result -/

theorem treeStateFold_spec {V : Nat} {edges : List Edge} (ht : IsTree V edges) :
    ∀ (done todo : List Edge) (e2k : List Nat) (N : List (List Nat)), edges = done ++ todo →
      e2k.length = edges.length → e2k.take done.length = done.map (fun p => findCompleteEdge p.1 p.2) →
      RepN V (Adj done) N →
      ∃ N', ((List.range' done.length todo.length).zip todo).foldlM treeStateStep (e2k, N)
          = .ok (edges.map (fun p => findCompleteEdge p.1 p.2), N') ∧ RepN V (Adj edges) N' := by
  intro done todo
  induction todo generalizing done with
  | nil =>
    intro e2k N he hl htake hN
    rw [List.append_nil] at he
    subst he
    refine ⟨N, ?_, hN⟩
    rw [← hl, List.take_length] at htake
    rw [htake]; rfl
  | cons p todo ih =>
    intro e2k N he hl htake hN
    have hlt : done.length < edges.length := by rw [he]; simp
    obtain ⟨a, b⟩ := p
    have hm : (a, b) ∈ edges := by rw [he]; simp
    have hr := ht.range _ hm
    obtain ⟨d, par, R⟩ := exists_rooted ht hr.1
    have hsub : ∀ u v, Adj done u v → Adj edges u v := by
      intro u v h
      rw [he]
      exact h.imp (List.mem_append_left _) (List.mem_append_left _)
    have hab : a ≠ b := by
      rintro rfl; exact R.irrefl (.inl hm)
    have hn : ¬ Adj done a b := by
      intro h
      rw [adj_iff_mem] at h
      have hnd := R.nodup
      rw [he, List.map_append, List.nodup_append] at hnd
      exact hnd.2.2 _ h _ (by simp) rfl
    obtain ⟨N1, N2, h1, h2, h3⟩ := repN_add hN (fun u v huv => by
        have := hsub u v huv
        have hr := R.range _ _ this
        exact ⟨hr.1, hr.2, fun h => R.irrefl (h ▸ this)⟩) hr.1 hr.2 hab hn (fun h => hn h.symm)
    have h4 : RepN V (Adj (done ++ [(a, b)])) N2 := by
      refine h3.congr fun v _ u => ?_
      unfold Adj
      simp only [List.mem_append, List.mem_singleton, Prod.mk.injEq]
      tauto
    obtain ⟨N', h5, h6⟩ := ih (done ++ [(a, b)]) (e2k.set done.length (findCompleteEdge a b)) N2
      (by rw [he]; simp) (by simpa using hl) (by
        rw [List.length_append, List.length_singleton, List.take_add_one, List.take_set_of_le (Nat.le_refl _),
          htake, List.getElem?_set]
        simp [hl, hlt]) h4
    refine ⟨N', ?_, h6⟩
    rw [List.length_cons, List.range'_succ, List.zip_cons_cons, List.foldlM_cons]
    simp only [treeStateStep, pySet_ok e2k done.length _ (by rw [hl]; exact hlt), bind, Except.bind, h1, h2]
    rw [List.length_append, List.length_singleton] at h5
    exact h5

theorem treeOf_ids {V : Nat} {edges : List Edge} (ht : IsTree V edges) :
    treeOf V (edges.map fun p => findCompleteEdge p.1 p.2) = edges.map sortPair ∧
      ∀ k ∈ edges.map (fun p => findCompleteEdge p.1 p.2), k < tri V := by
  have hne : ∀ p ∈ edges, p.1 ≠ p.2 := by
    rintro ⟨a, b⟩ hp h
    have hr := ht.range _ hp
    obtain ⟨d, par, R⟩ := exists_rooted ht hr.1
    simp only at h; subst h
    exact R.irrefl (.inl hp)
  constructor
  · unfold treeOf
    rw [List.map_map]
    apply List.map_congr_left
    rintro ⟨a, b⟩ hp
    have hr := ht.range _ hp
    have h := hne _ hp
    simp only [Function.comp] at hr h ⊢
    unfold sortPair
    simp only
    split
    · rename_i hlt
      rw [fce_comm]
      exact pairAt_fce hlt hr.1
    · exact pairAt_fce (by omega) hr.2
  · intro k hk
    obtain ⟨⟨a, b⟩, hp, rfl⟩ := List.mem_map.1 hk
    have hr := ht.range _ hp
    have h := hne _ hp
    simp only at hr h ⊢
    rcases Nat.lt_or_gt_of_ne h with h | h
    · exact fce_lt h hr.2
    · rw [fce_comm]; exact fce_lt h hr.1

theorem map_sortPair_samePairs (l : List Edge) : SamePairs (l.map sortPair) l := by
  unfold SamePairs
  rw [List.map_map]
  have : l.map ((fun e => s(e.1, e.2)) ∘ sortPair) = l.map fun e => s(e.1, e.2) :=
    List.map_congr_left fun e _ => sortPair_sym2 e
  rw [this]

theorem ltree_ids {V : Nat} {edges : List Edge} (ht : IsTree V edges) :
    LTree V (edges.map fun p => findCompleteEdge p.1 p.2) := by
  obtain ⟨h1, h2⟩ := treeOf_ids ht
  exact ⟨h2, by rw [h1]; exact (map_sortPair_samePairs edges).isTree ht⟩

theorem treeStateInit_spec {V : Nat} {edges : List Edge} (ht : IsTree V edges) (junk : Nat → Nat) :
    ∃ s, treeStateInit junk edges = .ok s ∧ StInv V s ∧
      s.e2k = edges.map fun p => findCompleteEdge p.1 p.2 := by
  have hV : edges.length + 1 = V := ht.card
  have hrep : RepN V (Adj []) (List.replicate V (List.replicate V 0)) := by
    refine ⟨by simp, fun v hv => ⟨[], ?_, fun u => by simp [Adj]⟩⟩
    rw [List.getD_eq_getElem?_getD, List.getElem?_replicate, if_pos hv]
    exact Rep.empty V (by omega)
  obtain ⟨N', h1, h2⟩ := treeStateFold_spec ht [] edges (List.replicate edges.length 0)
    (List.replicate V (List.replicate V 0)) rfl (by simp) (by simp) hrep
  refine ⟨⟨edges.map fun p => findCompleteEdge p.1 p.2, N', List.replicate V false,
    (List.range (V * (V - 1) / 2)).map junk⟩, ?_, ⟨ltree_ids ht, ?_, rfl, ?_⟩, rfl⟩
  · subst hV
    rw [List.length_nil, ← List.range_eq_range'] at h1
    simp only [treeStateInit, h1, bind, Except.bind]
  · refine h2.congr fun v _ u => ?_
    simp only [(treeOf_ids ht).1]
    exact ((map_sortPair_samePairs edges).adj v u).symm
  · simp [tri]

/-- The list of edges that `sample_tree` returns for a labelled tree. -/
def canonOf (V : Nat) (ω : List Nat) : List Edge := (treeOf V ω).insertionSort edgeLe

theorem absRun_poss_ltree {V : Nat} : ∀ (slots : List Nat) (ω : List Nat), LTree V ω → (∀ e ∈ slots, e + 1 < V) →
    ∀ (expf : K → K) (logits : List K) (ω' : List Nat),
      (absRun Poss expf logits V ω slots) ω' → LTree V ω' := by
  intro slots
  induction slots with
  | nil =>
    intro ω h _ expf logits ω' hr
    cases hr; exact h
  | cons e slots ih =>
    intro ω h hs expf logits ω' hr
    unfold absRun at hr
    rw [List.foldlM_cons] at hr
    obtain ⟨ω1, h1, h2⟩ := hr
    have he : e < ω.length := by
      have := h.length
      have := hs e (by simp); omega
    have hl1 : LTree V ω1 := by
      obtain ⟨i, -, h3⟩ := h1
      cases h3
      have hi : i.val < (validList V ω e).length := by
        have := i.isLt; have := validProbs_length expf logits V ω e; omega
      refine (mem_validList_iff h he _).1 ?_
      rw [List.getD_eq_getElem?_getD, List.getElem?_eq_getElem hi]
      exact List.getElem_mem hi
    exact ih ω1 hl1 (fun e he => hs e (by simp [he])) expf logits ω' h2

/-- The last part of `sample_tree`. -/
theorem finish_ok {V : Nat} {ω : List Nat} (hω : LTree V ω) {E : Nat} (hE : E + 1 = V) :
    (do
      let out ← liftPy (ω.mapM fun k => do
        let c ← pyGet (completeGrid V) k
        .ok (c.2.1, c.2.2))
      liftPy (pyAssert ((out.insertionSort edgeLe).length == E))
      pure (out.insertionSort edgeLe) : ExceptT PyErr m (List Edge)) = pure (canonOf V ω) := by
  have hm : ω.mapM (fun k => do
      let c ← pyGet (completeGrid V) k
      .ok (c.2.1, c.2.2)) = (.ok (treeOf V ω) : Py (List Edge)) := by
    apply mapM_ok
    intro k hk
    simp only [pyGet_completeGrid (hω.ids k hk), bind, Except.bind]
  have hlen : ((canonOf V ω).length == E) = true := by
    have := hω.length
    rw [beq_iff_eq]
    simp only [canonOf, List.length_insertionSort, treeOf, List.length_map]
    omega
  have ha : pyAssert ((canonOf V ω).length == E) = .ok () := by rw [hlen]; rfl
  simp only [hm, liftPy_ok_bind]
  have : (treeOf V ω).insertionSort edgeLe = canonOf V ω := rfl
  rw [this, ha, liftPy_ok_bind]

/-- `sample_tree` is the walk on labelled trees, for any reading of randomness. -/
theorem sampleTree_eq [IsStrictOrderedRing K] {expf : K → K} (hpos : ∀ ls : List K, ls ≠ [] → 0 < (probsOf expf ls).sum) {V : Nat} {edges : List Edge}
    (ht : IsTree V edges) (hE : 1 < edges.length) (junk : Nat → Nat) {logits : List K}
    (hl : logits.length = tri V) {perm : List Nat} (hp : ∀ e ∈ perm, e < edges.length) :
    ∃ fin : List Nat → ExceptT PyErr m (List Edge),
      (sampleTree expf junk (completeGrid V) logits edges perm : ExceptT PyErr m (List Edge))
        = ExceptT.lift (absRun m expf logits V (edges.map fun p => findCompleteEdge p.1 p.2) perm) >>= fin ∧
      ∀ ω, LTree V ω → fin ω = pure (canonOf V ω) := by
  obtain ⟨s, h1, h2, h3⟩ := treeStateInit_spec ht junk
  have hV : edges.length + 1 = V := ht.card
  have hfold := sampleTreeFold_eq (m := m) hpos hl perm s h2 (fun e he => by have := hp e he; omega)
  refine ⟨fun (ω : List Nat) => do
      let out ← liftPy (ω.mapM fun k => do
        let c ← pyGet (completeGrid V) k
        .ok (c.2.1, c.2.2))
      liftPy (pyAssert ((out.insertionSort edgeLe).length == edges.length))
      pure (out.insertionSort edgeLe), ?_, ?_⟩
  · rw [← h3, ← hfold]
    unfold sampleTree
    rw [if_neg (by omega), h1, liftPy_ok_bind]
    simp only [map_eq_pure_bind, bind_assoc, pure_bind]
  · intro ω hω
    exact finish_ok hω hV

end

end TreeCat
