import Verif.Props.Groups
import Verif.Props.OutOfRange

/-!
# C38: the prior of the rows of groups.csv

The loop over groups.csv and the loop over the groups together. The first one cannot be reached with a row of four fields
(`loadSchema_groups_raise`).
-/

namespace TreeCat

open Config (Str)

namespace Spec

/-- The rows list one of the features at `a` and `b` as a source and the other as a target of the group. -/
def RowsJoin (index : Dict Str Nat) (rows : List GroupRow) (group : Str) (a b : Nat) : Prop :=
  ∃ s t, InGroup (fun r => r.2.2.1) rows group s ∧ InGroup (fun r => r.2.2.2) rows group t ∧
    ((Dict.get? index s = some a ∧ Dict.get? index t = some b) ∨ (Dict.get? index s = some b ∧ Dict.get? index t = some a))

end Spec

open Spec

variable {T : Text}

/-- **C38**, from the rows to the prior. If every named source and target is a feature, and no group has a feature both as source and as
target, then an edge that one group with a logit joins has the last logit given for that group, and an edge that none joins has 0.
Missing: no file leads here, as the row of four fields raises first; and see `treePriorOf_loop` for the condition on the groups. -/
theorem groupsPrior_partial (rows : List GroupRow) (hr : ∀ r ∈ rows, r.2.1 = [] ∨ ∃ x, T.parseFloat r.2.1 = some x)
    (index : Dict Str Nat) (V : Nat)
    (hi : ∀ r ∈ rows, (r.2.2.1 ≠ [] → ∃ a < V, Dict.get? index r.2.2.1 = some a) ∧ (r.2.2.2 ≠ [] → ∃ a < V, Dict.get? index r.2.2.2 = some a))
    (hl : ∀ group a, ¬ RowsJoin index rows group a a) :
    ∃ g prior grid, rows.foldlM (addGroup T) ⟨[], [], []⟩ = .ok g ∧ treePriorOf index V g = .ok prior ∧ makeCompleteGraph V = .ok grid ∧
      prior.length = grid.length ∧ ∀ (k : Nat) (c : Nat × Nat × Nat), grid[k]? = some c →
        ((∀ group, groupLogits T rows group ≠ [] → ¬ RowsJoin index rows group c.2.1 c.2.2) → prior[k]? = some 0) ∧
        ∀ group x, (groupLogits T rows group).getLast? = some x → RowsJoin index rows group c.2.1 c.2.2 →
          (∀ other, groupLogits T rows other ≠ [] → RowsJoin index rows other c.2.1 c.2.2 → other = group) → prior[k]? = some x := by
  obtain ⟨g, eg, hc⟩ := addGroups_partial rows hr
  have hsrc : ∀ group s, s ∈ Dict.getD g.sources group [] → ∃ a < V, Dict.get? index s = some a := by
    intro group s hs
    obtain ⟨h0, r, hr, -, rfl⟩ := (hc.source _ _).1 hs
    exact (hi r hr).1 h0
  have htgt : ∀ group s, s ∈ Dict.getD g.targets group [] → ∃ a < V, Dict.get? index s = some a := by
    intro group s hs
    obtain ⟨h0, r, hr, -, rfl⟩ := (hc.target _ _).1 hs
    exact (hi r hr).2 h0
  have hj : ∀ group a b, Joins index g group a b ↔ RowsJoin index rows group a b := by
    intro group a b
    constructor
    · rintro ⟨s, hs, t, ht, h⟩
      exact ⟨s, t, (hc.source _ _).1 hs, (hc.target _ _).1 ht, h⟩
    · rintro ⟨s, t, hs, ht, h⟩
      exact ⟨s, (hc.source _ _).2 hs, t, (hc.target _ _).2 ht, h⟩
  have hlog : ∀ gl ∈ g.logits, (groupLogits T rows gl.1).getLast? = some gl.2 := by
    intro gl h
    rw [← hc.logit]
    exact Dict.get?_of_mem hc.nodupLogits h
  obtain ⟨prior, grid, e, egrid, hlen, h⟩ := treePriorOf_partial index V g (by
    intro gl _ s hs t ht
    obtain ⟨a, ha, ea⟩ := hsrc _ _ hs
    obtain ⟨b, hb, eb⟩ := htgt _ _ ht
    refine ⟨a, b, ea, eb, ha, hb, ?_⟩
    rintro rfl
    exact hl gl.1 a ((hj _ _ _).1 ⟨s, hs, t, ht, .inl ⟨ea, eb⟩⟩)) (by
    intro gl _ _ s hs
    obtain ⟨a, -, ea⟩ := hsrc _ _ hs
    exact ⟨a, ea⟩)
  refine ⟨g, prior, grid, eg, e, egrid, hlen, fun k c hk => ?_⟩
  obtain ⟨h0, h1⟩ := h k c hk
  refine ⟨fun hn => h0 fun gl hgl hjj => hn gl.1 ?_ ((hj _ _ _).1 hjj), fun group x hx hjj huniq => ?_⟩
  · intro hnil
    have := hlog gl hgl
    rw [hnil] at this
    cases this
  · have hm : (group, x) ∈ g.logits := Dict.mem_of_get? (by rw [hc.logit]; exact hx)
    obtain ⟨pre, post, hsplit⟩ := List.append_of_mem hm
    refine h1 pre (group, x) post hsplit ((hj _ _ _).2 hjj) fun gl' hgl' hj' => ?_
    have hgl : gl' ∈ g.logits := by rw [hsplit]; simp [hgl']
    have e1 : gl'.1 = group := huniq gl'.1 (by
      intro hnil
      have := hlog gl' hgl
      rw [hnil] at this
      cases this) ((hj _ _ _).1 hj')
    have hnd := hc.nodupLogits
    unfold Dict.keys at hnd
    rw [hsplit, List.map_append, List.map_cons, List.nodup_append] at hnd
    have := (List.nodup_cons.1 hnd.2.1).1
    exact this (List.mem_map.2 ⟨gl', hgl', e1⟩)

/-- A group with a feature both as source and as target, as when the edges within a set of features are to be favoured: the logit goes to the
edge from feature 0 to the next feature, and for the last feature there is an `IndexError`. -/
theorem treePriorOf_loop (index : Dict Str Nat) (V v : Nat) (group s : Str) (x : ℚ) (hs : Dict.get? index s = some v) (hv : v < V) :
    treePriorOf index V ⟨[(group, x)], [(group, [s])], [(group, [s])]⟩ =
      if v + 1 < V then .ok ((List.replicate (V * (V - 1) / 2) 0).set (findCompleteEdge 0 (v + 1)) x) else .error .indexError := by
  have hd : Dict.getD [(group, [s])] group [] = [s] := by simp [Dict.getD, Dict.get?]
  unfold treePriorOf
  simp only [List.foldlM_cons, List.foldlM_nil, hd, hs, findCompleteEdge_self v, pySet, List.length_replicate]
  by_cases h : v + 1 < V
  · have : findCompleteEdge 0 (v + 1) < V * (V - 1) / 2 := fce_lt (by omega) h
    rw [if_pos this, if_pos h]
    rfl
  · obtain rfl : V = v + 1 := by omega
    have : ¬ findCompleteEdge 0 (v + 1) < (v + 1) * (v + 1 - 1) / 2 := by
      simp [findCompleteEdge]
    rw [if_neg this, if_neg h]
    rfl

/-- Two groups on three features. -/
example : (([(['g'], ['1'], ['a'], ['b']), (['h'], ['1'], ['b'], ['c']), (['g'], ['2'], [], [])] : List GroupRow).foldlM
    (addGroup groupText) ⟨[], [], []⟩ >>= treePriorOf [(['a'], 0), (['b'], 1), (['c'], 2)] 3) = .ok [2, 0, 1] := by decide +kernel

/-- The rows of that example meet the hypotheses. -/
example : (∀ r ∈ ([(['g'], ['1'], ['a'], ['b']), (['h'], ['1'], ['b'], ['c']), (['g'], ['2'], [], [])] : List GroupRow),
      r.2.1 = [] ∨ ∃ x, groupText.parseFloat r.2.1 = some x) ∧
    (∀ group a, ¬ RowsJoin [(['a'], 0), (['b'], 1), (['c'], 2)]
      [(['g'], ['1'], ['a'], ['b']), (['h'], ['1'], ['b'], ['c']), (['g'], ['2'], [], [])] group a a) ∧
    RowsJoin [(['a'], 0), (['b'], 1), (['c'], 2)]
      [(['g'], ['1'], ['a'], ['b']), (['h'], ['1'], ['b'], ['c']), (['g'], ['2'], [], [])] ['g'] 0 1 := by
  refine ⟨?_, ?_, ?_⟩
  · intro r hr
    right
    simp only [List.mem_cons, List.not_mem_nil, or_false] at hr
    rcases hr with rfl | rfl | rfl
    · exact ⟨1, rfl⟩
    · exact ⟨1, rfl⟩
    · exact ⟨2, rfl⟩
  · rintro group a ⟨s, t, ⟨h0, r, hr, rfl, rfl⟩, ⟨h0', r', hr', hg, rfl⟩, h⟩
    simp only [List.mem_cons, List.not_mem_nil, or_false] at hr hr'
    rcases hr with rfl | rfl | rfl <;> rcases hr' with rfl | rfl | rfl <;> simp [Dict.get?] at h0 h0' hg h <;> omega
  · exact ⟨['a'], ['b'], ⟨by simp, _, List.mem_cons_self, rfl, rfl⟩, ⟨by simp, _, List.mem_cons_self, rfl, rfl⟩, .inl ⟨rfl, rfl⟩⟩

end TreeCat
