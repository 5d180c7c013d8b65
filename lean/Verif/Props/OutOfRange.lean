import Verif.Props.Complete
import Verif.Props.Trainer

/-!
# C01, C17: loops, row ids out of range, and features without columns
-/

set_option linter.unusedSectionVars false

namespace TreeCat

open Spec

/-- **C01** is about two different vertices: `find_complete_edge(v, v)` is the id of the edge from 0 to `v + 1`. -/
theorem findCompleteEdge_self (v : Nat) : findCompleteEdge v v = findCompleteEdge 0 (v + 1) := by
  have h : v * (v - 1) / 2 + v = (v + 1) * v / 2 := by
    cases v with
    | zero => rfl
    | succ n =>
      rw [Nat.add_sub_cancel, show (n + 1 + 1) * (n + 1) = (n + 1) * n + (n + 1) * 2 by ring, Nat.add_mul_div_right _ _ (by omega)]
  simp [findCompleteEdge] at h ⊢
  omega

section
variable {K : Type} [Field K] [LinearOrder K] {M : Nat} [NeZero M]

/-- **C17.** `add_row` of an id beyond the table raises `IndexError` and leaves the id in the set of added rows. -/
theorem addRow_phantom (t : Table) (row : Nat) (s : Trainer K M) (h : row ∉ s.added) (hr : t.numRows ≤ row) :
    outcomes (addRow t row) s = fun p => p = (.error .indexError, { s with added := insert row s.added }) := by
  have hr' : ¬ row < t.numRows := by omega
  funext p
  apply propext
  rw [addRow, outcomes_bind]
  constructor
  · rintro ⟨r, s', ⟨_, rfl, h1⟩, h2⟩
    cases h1
    simp only [if_neg h, if_neg hr'] at h2
    rw [outcomes_bind] at h2
    obtain ⟨r2, s2, ⟨_, rfl, h3⟩, h4⟩ := h2
    cases h3
    simp only at h4
    rw [outcomes_bind] at h4
    obtain ⟨r5, s5, h5, h6⟩ := h4
    cases h5
    exact h6
  · rintro rfl
    refine ⟨.ok s, s, ⟨_, rfl, rfl⟩, ?_⟩
    simp only [if_neg h, if_neg hr']
    rw [outcomes_bind]
    refine ⟨.ok (), { s with added := insert row s.added }, ⟨_, rfl, rfl⟩, ?_⟩
    simp only
    rw [outcomes_bind]
    exact ⟨.error .indexError, { s with added := insert row s.added }, rfl, rfl⟩

/-- **C17.** Then the statistics are no longer those of the added rows. -/
theorem addRow_phantom_breaks {t : Table} {row : Nat} {s : Trainer K M} (hi : Matches t s) (h : row ∉ s.added) (hV : 1 ≤ t.numCols) :
    ¬ Matches t { s with added := insert row s.added } := by
  intro hi'
  have h1 := hi.vert 0 (by omega) (s.assign row 0)
  have h2 := hi'.vert 0 (by omega) (s.assign row 0)
  simp only at h2
  rw [h1] at h2
  have : vertCount (insert row s.added) s.assign 0 (s.assign row 0) = vertCount s.added s.assign 0 (s.assign row 0) + 1 := by
    unfold vertCount
    rw [Finset.filter_insert, if_pos rfl, Finset.card_insert_of_notMem (by simp [h])]
  rw [this] at h2
  push_cast at h2
  omega

/-- **C17.** Removing it raises again but takes the id out of the set. -/
theorem removeRow_phantom (t : Table) (row : Nat) (s : Trainer K M) (h : row ∉ s.added) (hr : t.numRows ≤ row) :
    outcomes (removeRow t row) { s with added := insert row s.added } = fun p => p = (.error .indexError, s) := by
  have hr' : ¬ row < t.numRows := by omega
  have hm : row ∈ insert row s.added := Finset.mem_insert_self _ _
  have he : (insert row s.added).erase row = s.added := Finset.erase_insert h
  funext p
  apply propext
  rw [removeRow, outcomes_bind]
  constructor
  · rintro ⟨r, s', ⟨_, rfl, h1⟩, h2⟩
    cases h1
    simp only [if_pos hm, if_neg hr'] at h2
    rw [outcomes_bind] at h2
    obtain ⟨r2, s2, ⟨_, rfl, h3⟩, h4⟩ := h2
    cases h3
    simp only at h4
    rw [outcomes_bind] at h4
    obtain ⟨r5, s5, h5, h6⟩ := h4
    cases h5
    rw [he] at h6
    exact h6
  · rintro rfl
    refine ⟨.ok _, _, ⟨_, rfl, rfl⟩, ?_⟩
    simp only [if_pos hm, if_neg hr']
    rw [outcomes_bind]
    refine ⟨.ok (), s, ⟨_, rfl, by rw [he]; rfl⟩, ?_⟩
    simp only
    rw [outcomes_bind]
    exact ⟨.error .indexError, s, rfl, rfl⟩

/-- **C17.** `logprob` wants all rows to be added and counts ids: with one row missing it raises, but not if an id beyond the table
was tried, although the statistics are the same. -/
theorem logprob_phantom (num : Num K) {t : Table} {row : Nat} {s : Trainer K M} (h : row ∉ s.added) (hc : s.added.card + 1 = t.numRows) :
    trainerLogprob num t s = .error .assertion ∧
      ∃ lp, trainerLogprob num t { s with added := insert row s.added } = .ok lp := by
  constructor
  · unfold trainerLogprob pyAssert
    have : (s.added.card == t.numRows) = false := by simp; omega
    rw [this]
    rfl
  · unfold trainerLogprob pyAssert
    have : ((insert row s.added).card == t.numRows) = true := by
      rw [Finset.card_insert_of_notMem h]; simp [hc]
    simp only [this]
    exact ⟨_, rfl⟩

/-- **C19** needs every feature to have a column: for a feature without one, `logprob` evaluates `gammaln` at its pole 0, for every
cluster and in every state. -/
theorem meas_pole {t : Table} {s : Trainer K M} (hi : Matches t s) {v : Nat} (hv : v < t.numCols) (hw : t.stop v = t.beg v) (m : Fin M) :
    (s.measSS v m : K) + measPrior M t v = 0 := by
  rw [hi.meas v hv m]
  simp [measTotal, measPrior, hw]

end

/-- There is such a state: one of the two rows of `exTable` is added, and 7 is tried. -/
example (num : Num ℚ) : ∃ s0 s1 s2 : Trainer ℚ 2, Trainer.init exTable 3 = .ok s0 ∧ outcomes (addRow exTable 0) s0 (.ok (), s1) ∧
    outcomes (addRow exTable 7) s1 (.error .indexError, s2) ∧ Matches exTable s1 ∧ ¬ Matches exTable s2 ∧
    trainerLogprob num exTable s1 = .error .assertion ∧ ∃ lp, trainerLogprob num exTable s2 = .ok lp := by
  obtain ⟨s0, h0, hg, ha⟩ := good_init (K := ℚ) (M := 2) (t := exTable) (n := 3) (by decide) (by decide)
    (by decide) (by decide)
  have hm : AllMultinomial exTable := by unfold AllMultinomial; decide
  have key := Tot.addRow exTable_ordered hm hg (row := 0) (by simp [ha]) (by decide)
  obtain ⟨⟨r, s1⟩, hr⟩ := key.1
  obtain ⟨u, rfl, g1, a1, -⟩ := key.2 _ _ hr
  have hn : 7 ∉ s1.added := by simp [a1, ha]
  have hM : Matches exTable s1 := (trainer_matches exTable_ordered h0 [Call.addRow 0] (s := s1) (by
    change outcomes (addRow exTable 0 >>= fun _ => pure PUnit.unit) s0 _
    rw [outcomes_bind]
    exact ⟨_, _, hr, rfl⟩)).1
  have hl := logprob_phantom num (t := exTable) hn (by simp [a1, ha]; rfl)
  refine ⟨s0, s1, { s1 with added := insert 7 s1.added }, h0, hr, ?_, hM, addRow_phantom_breaks hM hn (by decide), hl.1, hl.2⟩
  rw [addRow_phantom _ _ _ hn (by decide)]

end TreeCat
