import Verif.Model.TreeInf
import Verif.Props.EstimateTree

/-!
# C94: `estimate_tree` with forbidden edges
-/

set_option linter.unusedSectionVars false

namespace TreeCat

open Spec

section
variable {K : Type} [Field K] [LinearOrder K] [IsStrictOrderedRing K]

/-- What scipy promises of `minimum_spanning_tree` for a graph that is not connected: a forest, so fewer edges than a spanning tree has. -/
def Spec.MstForest (mst : List (List K) → List (Nat × Nat)) : Prop :=
  ∀ (V : Nat) (m : List (List K)) (w : Nat → Nat → K), 1 ≤ V → m.length = V →
    (∀ i < V, ∃ row, m[i]? = some row ∧ row.length = V ∧ ∀ j < V, row[j]? = some (w i j)) →
    (∀ i < V, ∀ j < V, w i j = w j i) → (¬ ∃ T, TreeIn V w T) → (mst m).length + 1 < V

theorem foldl_min_mem {α : Type} [LinearOrder α] : ∀ (xs : List α) (x : α), xs.foldl min x ∈ x :: xs ∧ ∀ y ∈ x :: xs, xs.foldl min x ≤ y := by
  intro xs
  induction xs with
  | nil => intro x; simp
  | cons a xs ih =>
    intro x
    obtain ⟨h1, h2⟩ := ih (min x a)
    rw [List.foldl_cons]
    constructor
    · rcases List.mem_cons.1 h1 with h | h
      · rw [h]
        rcases min_choice x a with hm | hm <;> rw [hm] <;> simp
      · exact List.mem_cons_of_mem _ (List.mem_cons_of_mem _ h)
    · intro y hy
      have hm := h2 (min x a) (by simp)
      rcases List.mem_cons.1 hy with rfl | hy
      · exact hm.trans (min_le_left _ _)
      · rcases List.mem_cons.1 hy with rfl | hy
        · exact hm.trans (min_le_right _ _)
        · exact h2 y (List.mem_cons_of_mem _ hy)

/-- The matrix handed to scipy: infinite exactly for the forbidden pairs, and elsewhere a constant minus the logit, at least 1. -/
theorem treeWeightsInf_spec (V : Nat) (hV : 1 ≤ V) (grid : Grid) (hg : makeCompleteGraph V = .ok grid)
    (logit : Nat → Nat → WithBot K) :
    ∃ (w : List (List (WithTop K))) (c : K), treeWeightsInf grid (grid.map fun p => logit p.2.1 p.2.2) = .ok w ∧
      IsSquare V w ∧ (∀ i < V, entry? w i i = some (c : WithTop K)) ∧
      ∀ i < V, ∀ j < V, i ≠ j →
        (logit (min i j) (max i j) = ⊥ → entry? w i j = some ⊤) ∧
        ∀ x : K, logit (min i j) (max i j) = x → entry? w i j = some ((c - x : K) : WithTop K) ∧ 1 ≤ c - x := by
  have hg' := hg
  rw [makeCompleteGraph_eq, Except.ok.injEq] at hg'
  set t := grid.map fun p => logit p.2.1 p.2.2 with ht
  have hlen : t.length = V * (V - 1) / 2 := by
    rw [ht, List.length_map, ← hg', completeGrid_length]; rfl
  obtain ⟨sq, h1, h2, h3, h4⟩ := triangularToSquare_spec V hV grid hg t hlen
  have h2' := isSquare_map negLogit h2
  have hent : ∀ i < V, ∀ j < V, i ≠ j → entry? sq i j = some (logit (min i j) (max i j)) := by
    intro i hi j hj hij
    have hf : findCompleteEdge i j = findCompleteEdge (min i j) (max i j) := by
      rcases Nat.le_total i j with h | h
      · rw [min_eq_left h, max_eq_right h]
      · rw [min_eq_right h, max_eq_left h, fce_comm]
    rw [(h4 i hi j hj hij).1, hf, ht, ← hg', List.getElem?_map, completeGrid_getElem?,
      pairs_getElem? V _ _ (by omega) (by omega)]
    rfl
  set w1 := sq.map fun r => r.map negLogit with hw1
  have hmemf : ∀ i j y, entry? w1 i j = some y → y ∈ w1.flatten := by
    intro i j y hy
    unfold entry? at hy
    obtain ⟨r, hr, hy⟩ := Option.bind_eq_some_iff.1 hy
    exact List.mem_flatten.2 ⟨r, List.mem_of_getElem? hr, List.mem_of_getElem? hy⟩
  have hdiag : ∀ i < V, entry? w1 i i = some (((0 * (-1) : K)) : WithTop K) := by
    intro i hi
    rw [hw1, entry?_map, h3 i hi]
    rfl
  have h00 := hmemf 0 0 _ (hdiag 0 hV)
  obtain ⟨x, xs, hxs⟩ : ∃ x xs, w1.flatten = x :: xs := by
    cases hf : w1.flatten with
    | nil => rw [hf] at h00; simp at h00
    | cons x xs => exact ⟨x, xs, rfl⟩
  obtain ⟨hm1, hm2⟩ := foldl_min_mem xs x
  rw [← hxs] at hm1 hm2
  cases hmn : xs.foldl min x with
  | top => exact absurd (hmn ▸ hm2 _ h00) (by simp)
  | coe mn =>
  have hmn' : xs.foldl min x = some mn := hmn
  refine ⟨_, 0 * (-1) - mn + 1, ?_, isSquare_map (shiftWeight mn) h2', ?_, ?_⟩
  · have ha : pyAssert (grid.length == t.length) = .ok () := by
      rw [ht, List.length_map, beq_self_eq_true]; rfl
    simp only [treeWeightsInf, ha, h1, bind, Except.bind, ← hw1, hxs, hmn']
  · intro i hi
    rw [entry?_map, hdiag i hi]
    rfl
  · intro i hi j hj hij
    have h7 := hent i hi j hj hij
    refine ⟨fun hb => ?_, fun y hy => ?_⟩
    · rw [entry?_map, hw1, entry?_map, h7, hb]
      rfl
    · have he : entry? w1 i j = some ((y * (-1) : K) : WithTop K) := by
        rw [hw1, entry?_map, h7, hy]
        rfl
      have h8 := hm2 _ (hmemf i j _ he)
      rw [hmn, WithTop.coe_le_coe] at h8
      refine ⟨?_, by linarith⟩
      rw [entry?_map, he]
      show some (((y * (-1) - mn + 1 : K)) : WithTop K) = _
      congr 2
      ring

theorem withBot_sum_bot {T : List Edge} (g : Edge → WithBot K) {p : Edge} (hp : p ∈ T) (hb : g p = ⊥) : (T.map g).sum = ⊥ := by
  induction T with
  | nil => simp at hp
  | cons a T ih =>
    rw [List.map_cons, List.sum_cons]
    rcases List.mem_cons.1 hp with rfl | hp
    · rw [hb, WithBot.bot_add]
    · rw [ih hp, WithBot.add_bot]

theorem withBot_sum_coe {T : List Edge} (g : Edge → WithBot K) (hb : ∀ p ∈ T, g p ≠ ⊥) :
    (T.map g).sum = (((T.map fun p => (g p).unbotD 0).sum : K) : WithBot K) := by
  induction T with
  | nil => rfl
  | cons a T ih =>
    rw [List.map_cons, List.sum_cons, List.map_cons, List.sum_cons, ih fun p hp => hb p (by simp [hp]), WithBot.coe_add]
    congr 1
    obtain ⟨x, hx⟩ := WithBot.ne_bot_iff_exists.1 (hb a (by simp))
    rw [← hx]
    rfl

/-- **C94** (`estimate_tree`). Some edges may be forbidden, by the logit `-inf`. If there is a spanning tree without forbidden edges, `estimate_tree` returns
such a tree, as a sorted list of `(small, large)` pairs, with the greatest sum of logits of all spanning trees. Otherwise it raises `AssertionError`. -/
theorem estimateTreeInf_max (mst : List (List K) → List Edge) (hmst : MstContract mst) (hforest : MstForest mst) (V : Nat) (hV : 1 ≤ V)
    (grid : Grid) (hg : makeCompleteGraph V = .ok grid) (logit : Nat → Nat → WithBot K) :
    ((∃ T0, IsTree V T0 ∧ ∀ p ∈ T0, logit (min p.1 p.2) (max p.1 p.2) ≠ ⊥) →
      ∃ T, estimateTreeInf mst grid (grid.map fun p => logit p.2.1 p.2.2) = .ok T ∧ Canonical T ∧ IsTree V T ∧ (∀ p ∈ T, logit p.1 p.2 ≠ ⊥) ∧
        ∀ T', IsTree V T' →
          (T'.map fun p => logit (min p.1 p.2) (max p.1 p.2)).sum ≤ (T.map fun p => logit p.1 p.2).sum) ∧
    ((¬ ∃ T0, IsTree V T0 ∧ ∀ p ∈ T0, logit (min p.1 p.2) (max p.1 p.2) ≠ ⊥) →
      estimateTreeInf mst grid (grid.map fun p => logit p.2.1 p.2.2) = .error .assertion) := by
  obtain ⟨w, c, h1, h2, h3, h4⟩ := treeWeightsInf_spec V hV grid hg logit
  set g : Edge → WithBot K := fun p => logit (min p.1 p.2) (max p.1 p.2) with hgdef
  set W : Nat → Nat → K := fun i j => if i = j then c else if g (i, j) = ⊥ then 0 else c - (g (i, j)).unbotD 0 with hW
  set w' := w.map fun r => r.map dropInf with hw'
  have hne : ∀ {T : List Edge}, IsTree V T → ∀ p ∈ T, p.1 < V ∧ p.2 < V ∧ p.1 ≠ p.2 := by
    intro T hT p hp
    have hr := hT.range p hp
    obtain ⟨d, par, R⟩ := exists_rooted hT hr.1
    refine ⟨hr.1, hr.2, fun hc => R.irrefl (v := p.1) (.inl ?_)⟩
    obtain ⟨a, b⟩ := p
    simp only at hc; subst hc
    exact hp
  have hin : ∀ T, TreeIn V W T ↔ IsTree V T ∧ ∀ p ∈ T, g p ≠ ⊥ := by
    intro T
    refine and_congr_right fun hT => forall₂_congr fun p hp => ?_
    obtain ⟨a, b, hab⟩ := hne hT p hp
    simp only [hW, if_neg hab]
    by_cases hb : g (p.1, p.2) = ⊥
    · simp [hb, show g p = ⊥ from hb]
    · rw [if_neg hb]
      obtain ⟨x, hx⟩ := WithBot.ne_bot_iff_exists.1 hb
      have h5 := ((h4 p.1 a p.2 b hab).2 x hx.symm).2
      refine ⟨fun _ => hb, fun _ h0 => ?_⟩
      rw [← hx] at h0
      have h0 : c - x = 0 := h0
      rw [h0] at h5
      exact absurd h5 (not_le.2 one_pos)
  have htot : ∀ T, IsTree V T → (∀ p ∈ T, g p ≠ ⊥) → total W T = T.length * c - (T.map fun p => (g p).unbotD 0).sum := by
    intro T hT hb
    have hh := hne hT
    clear hT
    unfold total
    induction T with
    | nil => simp
    | cons p T ih =>
      have h5 := (hh p (by simp)).2.2
      have h6 : g (p.1, p.2) ≠ ⊥ := hb p (by simp)
      rw [List.map_cons, List.sum_cons, List.map_cons, List.sum_cons, ih (fun q hq => hb q (by simp [hq])) fun q hq => hh q (by simp [hq])]
      simp only [hW, if_neg h5, if_neg h6, List.length_cons, Nat.cast_add, Nat.cast_one]
      ring
  have hsq := isSquare_map dropInf h2
  have hrows : ∀ i < V, ∃ row, w'[i]? = some row ∧ row.length = V ∧ ∀ j < V, row[j]? = some (W i j) := by
    intro i hi
    have hlt : i < w'.length := by rw [hsq.1]; exact hi
    refine ⟨w'[i], List.getElem?_eq_getElem hlt, hsq.2 _ (List.getElem_mem hlt), fun j hj => ?_⟩
    have : entry? w' i j = w'[i][j]? := by unfold entry?; rw [List.getElem?_eq_getElem hlt]; rfl
    rw [← this, hw', entry?_map]
    by_cases hij : i = j
    · subst hij; rw [h3 i hi]; simp [hW, dropInf]
    · simp only [hW, if_neg hij]
      split
      · rename_i hb
        rw [(h4 i hi j hj hij).1 hb]
        rfl
      · rename_i hb
        obtain ⟨x, hx⟩ := WithBot.ne_bot_iff_exists.1 hb
        rw [((h4 i hi j hj hij).2 x hx.symm).1, ← hx]
        rfl
  have hsym : ∀ i < V, ∀ j < V, W i j = W j i := by
    intro i _ j _
    simp only [hW, hgdef, eq_comm (a := i) (b := j), min_comm i j, max_comm i j]
  have hperm : ∀ T : List Edge, (((sortEdges T).map g).Perm (T.map g)) := by
    intro T
    have h5 : ((sortEdges T).map g).Perm ((T.map sortPair).map g) := (List.perm_insertionSort edgeLe _).map _
    refine h5.trans (List.Perm.of_eq ?_)
    rw [List.map_map]
    apply List.map_congr_left
    intro p _
    simp only [Function.comp, hgdef, sortPair_eq]
    congr 1 <;> omega
  constructor
  · rintro ⟨T0, hT0, hb0⟩
    obtain ⟨hTin, hmin⟩ := hmst V w' W hsq.1 hrows hsym ⟨T0, (hin T0).2 ⟨hT0, hb0⟩⟩
    obtain ⟨hT, hTb⟩ := (hin _).1 hTin
    have hTs : IsTree V (sortEdges (mst w')) := (sortEdges_samePairs (mst w')).isTree hT
    have hcan := canonical_sortEdges hT
    have hgl : ∀ p ∈ sortEdges (mst w'), g p = logit p.1 p.2 := by
      intro p hp
      have := hcan.small_large p hp
      simp only [hgdef]
      rw [min_eq_left (by omega), max_eq_right (by omega)]
    refine ⟨sortEdges (mst w'), ?_, hcan, hTs, ?_, ?_⟩
    · have hlen : (((sortEdges (mst w')).length : Int) == (w.length : Int) - 1) = true := by
        have := hTs.card
        rw [beq_iff_eq, h2.1]; omega
      have ha : pyAssert (((sortEdges (mst w')).length : Int) == (w.length : Int) - 1) = .ok () := by
        rw [hlen]; rfl
      simp only [estimateTreeInf, h1, bind, Except.bind, ← hw', ha]
    · intro p hp
      rw [← hgl p hp]
      have : g p ∈ (mst w').map g := (hperm (mst w')).mem_iff.1 (List.mem_map_of_mem hp)
      obtain ⟨q, hq, hqe⟩ := List.mem_map.1 this
      rw [← hqe]
      exact hTb q hq
    · intro T' hT'
      have hs : ((sortEdges (mst w')).map fun p => logit p.1 p.2).sum = ((mst w').map g).sum := by
        rw [← (hperm (mst w')).sum_eq]
        congr 1
        exact List.map_congr_left fun p hp => (hgl p hp).symm
      rw [hs]
      by_cases hb' : ∀ p ∈ T', g p ≠ ⊥
      · have h5 := hmin T' ((hin T').2 ⟨hT', hb'⟩)
        rw [htot _ hT hTb, htot _ hT' hb'] at h5
        have h6 : (mst w').length = T'.length := by have := hT.card; have := hT'.card; omega
        rw [h6] at h5
        have h7 : (T'.map g).sum ≤ ((mst w').map g).sum := by
          rw [withBot_sum_coe g hb', withBot_sum_coe g hTb, WithBot.coe_le_coe]
          linarith
        exact h7
      · push Not at hb'
        obtain ⟨p, hp, hpb⟩ := hb'
        have : (T'.map g).sum = ⊥ := withBot_sum_bot g hp hpb
        exact this ▸ bot_le
  · intro hno
    have hlt := hforest V w' W hV hsq.1 hrows hsym fun ⟨T, hT⟩ => hno ⟨T, (hin T).1 hT⟩
    have hlen : (((sortEdges (mst w')).length : Int) == (w.length : Int) - 1) = false := by
      have h5 : (sortEdges (mst w')).length = (mst w').length := by
        unfold sortEdges
        rw [List.length_insertionSort, List.length_map]
      rw [beq_eq_false_iff_ne, h2.1, h5]
      omega
    have ha : pyAssert (((sortEdges (mst w')).length : Int) == (w.length : Int) - 1) = .error .assertion := by
      rw [hlen]; rfl
    simp only [estimateTreeInf, h1, bind, Except.bind, ← hw', ha]

/-- Both contracts can be met at once. -/
theorem exists_mstForest : ∃ mst : List (List K) → List Edge, MstContract mst ∧ MstForest mst := by
  classical
  obtain ⟨mst, h⟩ := exists_mst (K := K)
  refine ⟨fun m => if ∃ (w : Nat → Nat → K) (T : List Edge), (∀ i < m.length, ∃ row, m[i]? = some row ∧ row.length = m.length ∧
      ∀ j < m.length, row[j]? = some (w i j)) ∧ TreeIn m.length w T then mst m else [], ?_, ?_⟩
  · intro V m w hm hrow hsym hex
    subst hm
    obtain ⟨T, hT⟩ := hex
    simp only
    rw [if_pos ⟨w, T, hrow, hT⟩]
    exact h m.length m w rfl hrow hsym ⟨T, hT⟩
  · intro V m w hV hm hrow hsym hno
    subst hm
    have hne : 1 < m.length := by
      by_contra hc
      refine hno ⟨[], ⟨⟨by simp; omega, by simp, fun u hu v hv => ?_⟩, by simp⟩⟩
      rw [show u = v by omega]
    simp only
    rw [if_neg, List.length_nil]
    · omega
    · rintro ⟨w2, T, hrow2, hT⟩
      refine hno ⟨T, hT.1, fun p hp => ?_⟩
      have hr := hT.1.range p hp
      obtain ⟨r1, a1, -, a2⟩ := hrow p.1 hr.1
      obtain ⟨r2, b1, -, b2⟩ := hrow2 p.1 hr.1
      rw [a1, Option.some.injEq] at b1
      subst b1
      have h5 := a2 p.2 hr.2
      rw [b2 p.2 hr.2, Option.some.injEq] at h5
      rw [← h5]
      exact hT.2 p hp

end

/-- Three features, and feature 0 may not be joined to any other: the call fails. -/
example : ∃ mst : List (List ℚ) → List Edge, MstContract mst ∧ MstForest mst ∧
    estimateTreeInf mst (completeGrid 3) ((completeGrid 3).map fun p => if p.2.1 = 0 then ⊥ else ((p.2.1 : ℚ) : WithBot ℚ)) = .error .assertion := by
  obtain ⟨mst, h1, h2⟩ := exists_mstForest (K := ℚ)
  refine ⟨mst, h1, h2, (estimateTreeInf_max mst h1 h2 3 (by omega) _ (makeCompleteGraph_eq 3) fun a _ => if a = 0 then ⊥ else ((a : ℚ) : WithBot ℚ)).2 ?_⟩
  rintro ⟨T, hT, hb⟩
  rcases Relation.ReflTransGen.cases_head (hT.conn 0 (by omega) 1 (by omega)) with h | ⟨c, h, -⟩
  · omega
  · rcases h with h | h
    · exact hb _ h (by simp)
    · exact hb _ h (by simp)

/-- Three features, and the pair (0, 1) is forbidden: the only tree left is returned. -/
example : ∃ mst : List (List ℚ) → List Edge, MstContract mst ∧ MstForest mst ∧ ∃ T,
    estimateTreeInf mst (completeGrid 3) ((completeGrid 3).map fun p => if p.2.2 = 1 then ⊥ else ((p.2.1 : ℚ) : WithBot ℚ)) = .ok T ∧
      Canonical T ∧ IsTree 3 T ∧ (0, 1) ∉ T := by
  obtain ⟨mst, h1, h2⟩ := exists_mstForest (K := ℚ)
  have ht : IsTree 3 [(0, 2), (1, 2)] := by
    refine ⟨by simp, by simp, ?_⟩
    have to2 : ∀ u < 3, Reach [(0, 2), (1, 2)] u 2 := by
      intro u hu
      have : u = 0 ∨ u = 1 ∨ u = 2 := by omega
      rcases this with rfl | rfl | rfl
      · exact .single (.inl (by simp))
      · exact .single (.inl (by simp))
      · exact .refl
    exact fun u hu v hv => (to2 u hu).trans (Reach.symm' (to2 v hv))
  obtain ⟨T, h3, h4, h5, h6, -⟩ := (estimateTreeInf_max mst h1 h2 3 (by omega) _ (makeCompleteGraph_eq 3)
    fun a b => if b = 1 then ⊥ else ((a : ℚ) : WithBot ℚ)).1 ⟨_, ht, by simp⟩
  exact ⟨mst, h1, h2, T, h3, h4, h5, fun hc => h6 _ hc (by simp)⟩

end TreeCat
