import Verif.Spec.Mst
import Verif.Props.Gibbs
import Verif.Props.Complete

/-!
# C08: `estimate_tree` maximises the total edge logit
-/

set_option linter.unusedSectionVars false

namespace TreeCat

open Spec

section
variable {K : Type} [Field K] [LinearOrder K] [IsStrictOrderedRing K]

theorem entry?_map {α β : Type} (f : α → β) (sq : List (List α)) (i j : Nat) :
    entry? (sq.map fun r => r.map f) i j = (entry? sq i j).map f := by
  unfold entry?
  rw [List.getElem?_map]
  cases sq[i]? <;> simp

theorem isSquare_map {α β : Type} (f : α → β) {V : Nat} {sq : List (List α)} (h : IsSquare V sq) :
    IsSquare V (sq.map fun r => r.map f) := by
  refine ⟨by simpa using h.1, fun r hr => ?_⟩
  obtain ⟨r', h1, rfl⟩ := List.mem_map.1 hr
  simpa using h.2 r' h1

theorem foldl_min_le (xs : List K) : ∀ x : K, xs.foldl min x ≤ x ∧ ∀ y ∈ xs, xs.foldl min x ≤ y := by
  induction xs with
  | nil => intro x; simp
  | cons a xs ih =>
    intro x
    obtain ⟨h1, h2⟩ := ih (min x a)
    refine ⟨h1.trans (min_le_left _ _), fun y hy => ?_⟩
    rcases List.mem_cons.1 hy with rfl | hy
    · exact h1.trans (min_le_right _ _)
    · exact h2 y hy

theorem matMin_spec {V : Nat} (hV : 1 ≤ V) {w : List (List K)} (h : IsSquare V w) :
    ∃ mn, matMin w = .ok mn ∧ ∀ i j x, entry? w i j = some x → mn ≤ x := by
  unfold matMin
  cases hf : w.flatten with
  | nil =>
    exfalso
    have h0 : 0 < w.length := by rw [h.1]; omega
    have h1 : w[0] = [] := List.flatten_eq_nil_iff.1 hf _ (List.getElem_mem h0)
    have h2 := h.2 _ (List.getElem_mem h0)
    rw [h1] at h2; simp at h2; omega
  | cons x xs =>
    refine ⟨_, rfl, fun i j y hy => ?_⟩
    obtain ⟨h1, h2⟩ := foldl_min_le xs x
    have hmem : y ∈ w.flatten := by
      unfold entry? at hy
      obtain ⟨r, hr, hy⟩ := Option.bind_eq_some_iff.1 hy
      exact List.mem_flatten.2 ⟨r, List.mem_of_getElem? hr, List.mem_of_getElem? hy⟩
    rw [hf] at hmem
    rcases List.mem_cons.1 hmem with rfl | hmem
    · exact h1
    · exact h2 y hmem

/-- **C08** (no missing edge). The matrix handed to `minimum_spanning_tree` is
square; each off-diagonal entry is at least 1, hence not read as a missing edge; and
it is a constant minus the logit of the pair. -/
theorem treeWeights_spec (V : Nat) (hV : 1 ≤ V) (grid : Grid) (hg : makeCompleteGraph V = .ok grid)
    (logit : Nat → Nat → K) :
    ∃ (w : List (List K)) (c : K), treeWeights grid (grid.map fun p => logit p.2.1 p.2.2) = .ok w ∧
      IsSquare V w ∧ (∀ i < V, entry? w i i = some c) ∧
      ∀ i < V, ∀ j < V, i ≠ j → entry? w i j = some (c - logit (min i j) (max i j)) ∧
        1 ≤ c - logit (min i j) (max i j) := by
  have hg' := hg
  rw [makeCompleteGraph_eq, Except.ok.injEq] at hg'
  set t := grid.map fun p => logit p.2.1 p.2.2 with ht
  have hlen : t.length = V * (V - 1) / 2 := by
    rw [ht, List.length_map, ← hg', completeGrid_length]; rfl
  obtain ⟨sq, h1, h2, h3, h4⟩ := triangularToSquare_spec V hV grid hg t hlen
  have h2' := isSquare_map (fun x => x * (-1)) h2
  obtain ⟨mn, h5, h6⟩ := matMin_spec hV h2'
  have hent : ∀ i < V, ∀ j < V, i ≠ j → entry? sq i j = some (logit (min i j) (max i j)) := by
    intro i hi j hj hij
    have hf : findCompleteEdge i j = findCompleteEdge (min i j) (max i j) := by
      rcases Nat.le_total i j with h | h
      · rw [min_eq_left h, max_eq_right h]
      · rw [min_eq_right h, max_eq_left h, fce_comm]
    rw [(h4 i hi j hj hij).1, hf, ht, ← hg', List.getElem?_map, completeGrid_getElem?,
      pairs_getElem? V _ _ (by omega) (by omega)]
    rfl
  refine ⟨_, 0 * (-1) - mn + 1, ?_, isSquare_map (fun x => x - mn + 1) h2', ?_, ?_⟩
  · have ha : pyAssert (grid.length == t.length) = .ok () := by
      rw [ht, List.length_map, beq_self_eq_true]; rfl
    simp only [treeWeights, ha, h1, h5, bind, Except.bind]
  · intro i hi
    rw [entry?_map, entry?_map, h3 i hi]
    rfl
  · intro i hi j hj hij
    have h7 := hent i hi j hj hij
    have h8 := h6 i j (logit (min i j) (max i j) * (-1)) (by rw [entry?_map, h7]; rfl)
    refine ⟨?_, by linarith⟩
    rw [entry?_map, entry?_map, h7]
    simp only [Option.map_some, Option.some.injEq]
    ring

theorem canonical_sortEdges {V : Nat} {T : List Edge} (h : IsTree V T) : Canonical (sortEdges T) := by
  have hs : IsTree V (T.map sortPair) := (map_sortPair_samePairs T).isTree h
  refine canonical_insertionSort ?_ (edge_nodup hs)
  rintro p hp
  have hne : p.1 ≠ p.2 := by
    intro hc
    have hr := hs.range p hp
    obtain ⟨d, par, R⟩ := exists_rooted hs hr.1
    apply R.irrefl (v := p.1)
    obtain ⟨a, b⟩ := p
    simp only at hc; subst hc
    exact .inl hp
  obtain ⟨q, -, rfl⟩ := List.mem_map.1 hp
  have := sortPair_le q
  omega

/-- **C08**. If the library function meets its contract then `estimate_tree`, on the
logits of the complete graph over `V` vertices, returns a sorted list of distinct
`(small, large)` pairs that is a spanning tree, and its summed logit is at least that
of every spanning tree. -/
theorem estimateTree_max (mst : List (List K) → List Edge) (hmst : MstContract mst) (V : Nat) (hV : 1 ≤ V)
    (grid : Grid) (hg : makeCompleteGraph V = .ok grid) (logit : Nat → Nat → K) :
    ∃ T, estimateTree mst grid (grid.map fun p => logit p.2.1 p.2.2) = .ok T ∧ Canonical T ∧ IsTree V T ∧
      ∀ T', IsTree V T' →
        (T'.map fun p => logit (min p.1 p.2) (max p.1 p.2)).sum ≤ (T.map fun p => logit p.1 p.2).sum := by
  obtain ⟨w, c, h1, h2, h3, h4⟩ := treeWeights_spec V hV grid hg logit
  set W : Nat → Nat → K := fun i j => if i = j then c else c - logit (min i j) (max i j) with hW
  have hne : ∀ {T : List Edge}, IsTree V T → ∀ p ∈ T, p.1 < V ∧ p.2 < V ∧ p.1 ≠ p.2 := by
    intro T hT p hp
    have hr := hT.range p hp
    obtain ⟨d, par, R⟩ := exists_rooted hT hr.1
    refine ⟨hr.1, hr.2, fun hc => R.irrefl (v := p.1) (.inl ?_)⟩
    obtain ⟨a, b⟩ := p
    simp only at hc; subst hc
    exact hp
  have hin : ∀ T, IsTree V T → TreeIn V W T := by
    intro T hT
    refine ⟨hT, fun p hp => ?_⟩
    obtain ⟨a, b, hab⟩ := hne hT p hp
    have := (h4 p.1 a p.2 b hab).2
    simp only [hW, if_neg hab]
    intro h0; rw [h0] at this
    exact absurd this (not_le.2 one_pos)
  have htot : ∀ T, IsTree V T → total W T
      = T.length * c - (T.map fun p => logit (min p.1 p.2) (max p.1 p.2)).sum := by
    intro T hT
    have hh := hne hT
    clear hT
    unfold total
    induction T with
    | nil => simp
    | cons p T ih =>
      have h5 := (hh p (by simp)).2.2
      rw [List.map_cons, List.sum_cons, List.map_cons, List.sum_cons, ih fun q hq => hh q (by simp [hq])]
      simp only [hW, if_neg h5, List.length_cons, Nat.cast_add, Nat.cast_one]
      ring
  have hex : ∃ T, TreeIn V W T := by
    refine ⟨(List.range (V - 1)).map fun i => (i, i + 1), hin _ ?_⟩
    apply isTree_of_smaller
    · simp; omega
    · intro p hp
      obtain ⟨i, hi, rfl⟩ := List.mem_map.1 hp
      rw [List.mem_range] at hi
      constructor <;> simp only <;> omega
    · intro v hv h0
      refine ⟨v - 1, by omega, .inr (List.mem_map.2 ⟨v - 1, List.mem_range.2 (by omega), ?_⟩)⟩
      rw [Nat.sub_add_cancel (by omega)]
  have hM := hmst V w W h2.1 (by
    intro i hi
    have hlt : i < w.length := by rw [h2.1]; exact hi
    refine ⟨w[i], List.getElem?_eq_getElem hlt, h2.2 _ (List.getElem_mem hlt), fun j hj => ?_⟩
    have : entry? w i j = w[i][j]? := by unfold entry?; rw [List.getElem?_eq_getElem hlt]; rfl
    rw [← this]
    by_cases hij : i = j
    · subst hij; rw [h3 i hi]; simp [hW]
    · rw [(h4 i hi j hj hij).1]; simp [hW, hij]) (by
    intro i _ j _
    simp only [hW, eq_comm (a := i) (b := j), min_comm i j, max_comm i j]) hex
  obtain ⟨⟨hT, -⟩, hmin⟩ := hM
  have hTs : IsTree V (sortEdges (mst w)) := (sortEdges_samePairs (mst w)).isTree hT
  have hcan := canonical_sortEdges hT
  have hsum : ((sortEdges (mst w)).map fun p => logit p.1 p.2).sum
      = ((mst w).map fun p => logit (min p.1 p.2) (max p.1 p.2)).sum := by
    have h5 : ((sortEdges (mst w)).map fun p => logit p.1 p.2).Perm
        (((mst w).map sortPair).map fun p => logit p.1 p.2) := (List.perm_insertionSort edgeLe _).map _
    rw [h5.sum_eq, List.map_map]
    congr 1
    apply List.map_congr_left
    intro p _
    simp only [Function.comp, sortPair_eq]
  refine ⟨sortEdges (mst w), ?_, hcan, hTs, fun T' hT' => ?_⟩
  · have hlen : (((sortEdges (mst w)).length : Int) == (w.length : Int) - 1) = true := by
      have := hTs.card
      rw [beq_iff_eq, h2.1]; omega
    have ha : pyAssert (((sortEdges (mst w)).length : Int) == (w.length : Int) - 1) = .ok () := by
      rw [hlen]; rfl
    simp only [estimateTree, h1, bind, Except.bind, ha]
  · have h5 := hmin T' (hin T' hT')
    rw [htot _ hT, htot _ hT'] at h5
    have h6 : (mst w).length = T'.length := by have := hT.card; have := hT'.card; omega
    rw [h6] at h5
    rw [hsum]
    linarith

/-- The contract can be met. -/
theorem exists_mst : ∃ mst : List (List K) → List Edge, MstContract mst := by
  classical
  have key : ∀ m : List (List K), ∃ T : List Edge, ∀ (V : Nat) (w : Nat → Nat → K), m.length = V →
      (∀ i < V, ∃ row, m[i]? = some row ∧ row.length = V ∧ ∀ j < V, row[j]? = some (w i j)) →
      (∀ i < V, ∀ j < V, w i j = w j i) → (∃ T, TreeIn V w T) → IsMst V w T := by
    intro m
    set u : Nat → Nat → K := fun i j => ((m.getD i []).getD j 0) with hu
    obtain ⟨S, hS⟩ := exists_spanningTrees m.length
    have hcan : ∀ w : Nat → Nat → K, (∀ i < m.length, ∀ j < m.length, w i j = w j i) →
        ∀ T, TreeIn m.length w T → sortEdges T ∈ S ∧ TreeIn m.length w (sortEdges T) ∧
          total w (sortEdges T) = total w T := by
      intro w hsym T hT
      have ht : IsTree m.length (sortEdges T) := (sortEdges_samePairs T).isTree hT.1
      have hw : ∀ p ∈ T, w (sortPair p).1 (sortPair p).2 = w p.1 p.2 := by
        intro p hp
        have hr := hT.1.range p hp
        unfold sortPair
        split
        · exact (hsym _ hr.1 _ hr.2).symm
        · rfl
      refine ⟨(hS _).2 ⟨canonical_sortEdges hT.1, ht⟩, ⟨ht, fun p hp => ?_⟩, ?_⟩
      · obtain ⟨q, hq, rfl⟩ := List.mem_map.1 ((List.mem_insertionSort edgeLe).1 hp)
        rw [hw q hq]
        exact hT.2 q hq
      · unfold total
        have h5 : ((sortEdges T).map fun p => w p.1 p.2).Perm ((T.map sortPair).map fun p => w p.1 p.2) :=
          (List.perm_insertionSort edgeLe _).map _
        rw [h5.sum_eq, List.map_map]
        congr 1
        exact List.map_congr_left hw
    by_cases hne : (S.filter fun T => TreeIn m.length u T).Nonempty
    · obtain ⟨T, hT, hmin⟩ := Finset.exists_min_image _ (total u) hne
      refine ⟨T, ?_⟩
      rintro V w rfl hrow hsym hex
      have huw : ∀ i < m.length, ∀ j < m.length, u i j = w i j := by
        intro i hi j hj
        obtain ⟨row, h1, -, h2⟩ := hrow i hi
        simp [hu, List.getD_eq_getElem?_getD, h1, h2 j hj]
      have htr : ∀ T, IsTree m.length T → total u T = total w T := by
        intro T hT
        unfold total
        congr 1
        exact List.map_congr_left fun p hp => huw _ (hT.range p hp).1 _ (hT.range p hp).2
      have hti : ∀ T, TreeIn m.length u T ↔ TreeIn m.length w T := by
        intro T
        refine and_congr_right fun hT => ?_
        refine forall₂_congr fun p hp => ?_
        rw [huw _ (hT.range p hp).1 _ (hT.range p hp).2]
      rw [Finset.mem_filter] at hT
      refine ⟨(hti T).1 hT.2, fun T' hT' => ?_⟩
      obtain ⟨h1, h2, h3⟩ := hcan w hsym T' hT'
      have h4 := hmin (sortEdges T') (Finset.mem_filter.2 ⟨h1, (hti _).2 h2⟩)
      rw [htr _ hT.2.1, htr _ h2.1, h3] at h4
      exact h4
    · refine ⟨[], ?_⟩
      rintro V w rfl hrow hsym ⟨T, hT⟩
      exfalso
      obtain ⟨h1, h2, -⟩ := hcan w hsym T hT
      refine hne ⟨sortEdges T, Finset.mem_filter.2 ⟨h1, h2.1, fun p hp => ?_⟩⟩
      have hr := h2.1.range p hp
      obtain ⟨row, h3, -, h4⟩ := hrow _ hr.1
      have : u p.1 p.2 = w p.1 p.2 := by
        simp [hu, List.getD_eq_getElem?_getD, h3, h4 _ hr.2]
      rw [this]
      exact h2.2 p hp
  choose mst hmst using key
  exact ⟨mst, fun V m w h1 h2 h3 h4 => hmst m V w h1 h2 h3 h4⟩

end

example : treeWeights (K := ℚ) [(0, 0, 1), (1, 0, 2), (2, 1, 2)] [5, -6, 0]
    = .ok [[6, 1, 12], [1, 6, 6], [12, 6, 6]] := by decide +kernel
example : estimateTree (K := ℚ) (fun _ => [(1, 0), (2, 1)]) [(0, 0, 1), (1, 0, 2), (2, 1, 2)] [5, -6, 0]
    = .ok [(0, 1), (1, 2)] := by decide +kernel

end TreeCat
