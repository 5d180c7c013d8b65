import Mathlib.Data.List.Sort
import Mathlib.Data.Sym.Sym2.Order
import Verif.Spec.Tree
import Verif.Model.Structure

/-!
# C02: `TreeStructure` canonicalises its edges
-/

namespace TreeCat

open Spec

instance : Std.Total edgeLe where
  total a b := by unfold edgeLe; omega
instance : IsTrans Edge edgeLe where
  trans a b c := by unfold edgeLe; omega
instance : Std.Antisymm edgeLe where
  antisymm a b h1 h2 := by
    unfold edgeLe at h1 h2
    exact Prod.ext (by omega) (by omega)

theorem sortPair_eq (e : Edge) : sortPair e = (min e.1 e.2, max e.1 e.2) := by
  unfold sortPair
  split
  · rw [min_eq_right (by omega), max_eq_left (by omega)]
  · rw [min_eq_left (by omega), max_eq_right (by omega)]

theorem sortPair_sym2 (e : Edge) : s((sortPair e).1, (sortPair e).2) = s(e.1, e.2) := by
  unfold sortPair
  split
  · exact Sym2.eq_swap
  · rfl

theorem sortPair_le (e : Edge) : (sortPair e).1 ≤ (sortPair e).2 := by
  rw [sortPair_eq]; exact min_le_max

theorem sortPair_of_le {e : Edge} (h : e.1 ≤ e.2) : sortPair e = e := by
  unfold sortPair; rw [if_neg (by omega)]

theorem map_sortPair_perm {l l' : List Edge} (h : SamePairs l l') :
    (l.map sortPair).Perm (l'.map sortPair) := by
  have key : ∀ l : List Edge, l.map sortPair
      = (l.map fun e => s(e.1, e.2)).map fun z : Sym2 Nat => (z.inf, z.sup) := by
    intro l
    rw [List.map_map]
    apply List.map_congr_left
    intro e _
    rw [sortPair_eq]
    rfl
  rw [key, key]
  exact h.map _

theorem sortEdges_eq_of_samePairs {l l' : List Edge} (h : SamePairs l l') :
    sortEdges l = sortEdges l' := by
  apply List.Perm.eq_of_pairwise' (r := edgeLe)
  · exact List.pairwise_insertionSort _ _
  · exact List.pairwise_insertionSort _ _
  · exact ((List.perm_insertionSort _ _).trans (map_sortPair_perm h)).trans
      (List.perm_insertionSort _ _).symm

theorem sortEdges_samePairs (l : List Edge) : SamePairs (sortEdges l) l := by
  unfold SamePairs sortEdges
  refine ((List.perm_insertionSort _ _).map _).trans ?_
  rw [List.map_map]
  have : l.map ((fun e => s(e.1, e.2)) ∘ sortPair) = l.map fun e => s(e.1, e.2) :=
    List.map_congr_left fun e _ => sortPair_sym2 e
  rw [this]

theorem sortEdges_length (l : List Edge) : (sortEdges l).length = l.length := by
  simp [sortEdges]

theorem gridEdges_makeTree (l : List Edge) : gridEdges (makeTree l) = sortEdges l := by
  apply List.ext_getElem?
  intro i
  simp only [gridEdges, makeTree, List.getElem?_map, List.getElem?_mapIdx]
  cases (sortEdges l)[i]? <;> simp

theorem makeTree_length (l : List Edge) : (makeTree l).length = l.length := by
  simp [makeTree, sortEdges_length]

/-- **C02** (only the unordered pairs matter). Any reordering of the list and any
flipping of its pairs gives an equal structure (or the same exception). -/
theorem setEdges_congr (t : TreeStructure) (l l' : List Edge) (h : SamePairs l l') :
    t.setEdges l = t.setEdges l' := by
  have hlen : l.length = l'.length := by
    have := h.length_eq
    simpa using this
  unfold TreeStructure.setEdges makeTree
  rw [sortEdges_eq_of_samePairs h, hlen]

/-- **C02** (result of `set_edges`). A list of `V - 1` edges is accepted;
`get_edges` then returns the same unordered pairs as (small, large), in increasing
order; the edge ids are `0, 1, ...`; and setting them again changes nothing. -/
theorem setEdges_getEdges (t : TreeStructure) (l : List Edge) (h : l.length + 1 = t.numVertices) :
    ∃ t', t.setEdges l = .ok t' ∧ t'.numVertices = t.numVertices ∧
      SamePairs t'.getEdges l ∧
      (∀ e ∈ t'.getEdges, e.1 ≤ e.2) ∧
      t'.getEdges.Pairwise (fun a b => a.1 < b.1 ∨ a.1 = b.1 ∧ a.2 ≤ b.2) ∧
      t'.treeGrid.map (·.1) = List.range l.length ∧
      t'.setEdges t'.getEdges = .ok t' := by
  have hget : (⟨t.numVertices, makeTree l⟩ : TreeStructure).getEdges = sortEdges l :=
    gridEdges_makeTree l
  have hok : ∀ t1 : TreeStructure, ∀ l : List Edge, l.length + 1 = t1.numVertices →
      t1.setEdges l = .ok ⟨t1.numVertices, makeTree l⟩ := by
    intro t1 l h
    have : ((l.length : Int) == (t1.numVertices : Int) - 1) = true := by rw [beq_iff_eq]; omega
    simp [TreeStructure.setEdges, pyAssert, this, bind, Except.bind]
  have hsame : SamePairs (sortEdges l) l := sortEdges_samePairs l
  refine ⟨⟨t.numVertices, makeTree l⟩, hok t l h, rfl, ?_, ?_, ?_, ?_, ?_⟩
  · rw [hget]; exact hsame
  · rw [hget]
    intro e he
    unfold sortEdges at he
    rw [List.mem_insertionSort] at he
    obtain ⟨e', -, rfl⟩ := List.mem_map.1 he
    exact sortPair_le e'
  · rw [hget]; exact List.pairwise_insertionSort edgeLe _
  · apply List.ext_getElem?
    intro i
    simp only [makeTree, List.getElem?_map, List.getElem?_mapIdx]
    by_cases hi : i < l.length
    · rw [List.getElem?_eq_getElem (by rw [sortEdges_length]; exact hi)]
      simp [hi]
    · rw [List.getElem?_eq_none (by rw [sortEdges_length]; omega)]
      simp [hi]
  · rw [hget, hok _ _ (by rw [sortEdges_length]; exact h)]
    congr 2
    unfold makeTree
    rw [sortEdges_eq_of_samePairs hsame]

/-- **C02** (wrong number of edges). -/
theorem setEdges_rejects (t : TreeStructure) (l : List Edge) (h : l.length + 1 ≠ t.numVertices) :
    t.setEdges l = .error .assertion := by
  have : ((l.length : Int) == (t.numVertices : Int) - 1) = false := by
    rw [beq_eq_false_iff_ne]; omega
  simp [TreeStructure.setEdges, pyAssert, this, bind, Except.bind]

/-- **C02** (constructor). `TreeStructure(V)` is the path for V >= 1, and is
rejected for V = 0. -/
theorem treeStructure_init (V : Nat) :
    (1 ≤ V → ∃ t, TreeStructure.init V = .ok t ∧ t.numVertices = V ∧
      SamePairs t.getEdges ((List.range (V - 1)).map fun v => (v, v + 1))) ∧
    TreeStructure.init 0 = .error .assertion := by
  refine ⟨fun hV => ?_, rfl⟩
  obtain ⟨t, h1, h2, h3, -⟩ := setEdges_getEdges ⟨V, []⟩
    ((List.range (V - 1)).map fun v => (v, v + 1)) (by simp; omega)
  exact ⟨t, h1, h2, h3⟩

example : TreeStructure.setEdges ⟨4, []⟩ [(3, 1), (0, 1), (2, 1)]
    = .ok ⟨4, [(0, 0, 1), (1, 1, 2), (2, 1, 3)]⟩ := by decide
example : SamePairs [(3, 1), (0, 1), (2, 1)] [(1, 0), (1, 3), (2, 1)] := by
  unfold SamePairs; decide

end TreeCat
