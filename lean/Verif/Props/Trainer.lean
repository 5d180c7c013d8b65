import Mathlib.Algebra.Field.Rat
import Mathlib.Algebra.Order.Ring.Rat
import Verif.Lemmas.Train

/-!
# C17: the statistics of a trainer always match its assignments
-/

set_option linter.unusedSectionVars false

namespace TreeCat

open Spec

section
variable {K : Type} [Field K] [LinearOrder K] {M : Nat} [NeZero M]

/-- Carry out a call on a trainer. -/
def runCall (t : Table) : Call → TrainM K M Poss PUnit
  | .addRow r => addRow t r
  | .removeRow r => removeRow t r
  | .setEdges es => setEdges es

theorem runCalls_inv {t : Table} (ht : Table.Ordered t) (calls : List Call) :
    ∀ (s : Trainer K M), Inv t s →
      Part (calls.forM (runCall t)) s fun _ s' => Inv t s' ∧ s'.added = subsample calls s.added := by
  induction calls with
  | nil => intro s h; exact Tot.part (Tot.pure (a := PUnit.unit) ⟨h, rfl⟩)
  | cons c cs ih =>
    intro s h
    refine Part.bind ?_
    cases c with
    | addRow r =>
      refine (Part.addRow ht h).mono ?_
      rintro _ s' ⟨-, -, ⟨z, rfl⟩, h'⟩
      refine (ih _ h').mono fun _ s' hs => ⟨hs.1, ?_⟩
      rw [hs.2, subsample, added, statsUpdate_added]
    | removeRow r =>
      refine (Part.removeRow ht h).mono ?_
      rintro _ s' ⟨-, -, rfl, h'⟩
      refine (ih _ h').mono fun _ s' hs => ⟨hs.1, ?_⟩
      rw [hs.2, subsample, removed, statsUpdate_added]
    | setEdges es =>
      refine (Part.setEdges h).mono ?_
      rintro _ s' ⟨h1, -, -, -, -, h'⟩
      refine (ih _ h').mono fun _ s' hs => ⟨hs.1, ?_⟩
      rw [hs.2, subsample, h1]

/-- **C17.** Whatever is called on a new trainer and whatever is drawn at random: if all
calls succeed then the statistics are those of the rows now in the subsample, and these
are the rows added and not removed since. -/
theorem trainer_matches {t : Table} (ht : Table.Ordered t) {n : Nat} {s0 : Trainer K M}
    (h0 : Trainer.init t n = .ok s0) (calls : List Call) {s : Trainer K M}
    (h : outcomes (calls.forM (runCall t)) s0 (.ok PUnit.unit, s)) :
    Matches t s ∧ s.added = subsample calls ∅ := by
  obtain ⟨hi, ha, -⟩ := inv_init h0
  obtain ⟨h1, h2⟩ := runCalls_inv ht calls s0 hi _ s h
  exact ⟨h1.stats, by rw [h2, ha]⟩

/-- **C17.** Adding a row that is already in the subsample raises and changes nothing. -/
theorem addRow_rejects (t : Table) (row : Nat) (s : Trainer K M) (h : row ∈ s.added) :
    outcomes (addRow t row) s = fun p => p = (.error .assertion, s) := by
  funext p
  apply propext
  rw [addRow, outcomes_bind]
  constructor
  · rintro ⟨r, s', ⟨_, rfl, h1⟩, h2⟩
    cases h1
    simp only [if_pos h] at h2
    exact h2
  · rintro rfl
    refine ⟨.ok s, s, ⟨_, rfl, rfl⟩, ?_⟩
    simp only [if_pos h]
    rfl

/-- **C17.** Removing a row that is not in the subsample raises and changes nothing. -/
theorem removeRow_rejects (t : Table) (row : Nat) (s : Trainer K M) (h : row ∉ s.added) :
    outcomes (removeRow t row) s = fun p => p = (.error .assertion, s) := by
  funext p
  apply propext
  rw [removeRow, outcomes_bind]
  constructor
  · rintro ⟨r, s', ⟨_, rfl, h1⟩, h2⟩
    cases h1
    simp only [if_neg h] at h2
    exact h2
  · rintro rfl
    refine ⟨.ok s, s, ⟨_, rfl, rfl⟩, ?_⟩
    simp only [if_neg h]
    rfl

/-- **C17.** Adding a row reassigns that row only and keeps the tree. -/
theorem addRow_frame {t : Table} (ht : Table.Ordered t) {row : Nat} {s s' : Trainer K M} (hi : Matches t s)
    (hg : ∀ e v1 v2, (e, v1, v2) ∈ s.tree.treeGrid → s.tree.treeGrid[e]? = some (e, v1, v2))
    (h : outcomes (addRow t row) s (.ok (), s')) :
    s'.tree = s.tree ∧ s'.program = s.program ∧ ∀ n, n ≠ row → s'.assign n = s.assign n := by
  obtain ⟨-, -, ⟨z, rfl⟩, -⟩ := Part.addRow ht ⟨hi, hg⟩ _ _ h
  refine ⟨by rw [added, statsUpdate_tree], by rw [added, statsUpdate_program], fun n hn => ?_⟩
  rw [added, statsUpdate_assign]
  exact Function.update_of_ne hn _ _

/-- **C17.** Removing a row keeps the tree and all assignments and takes out that row only. -/
theorem removeRow_frame {t : Table} (ht : Table.Ordered t) {row : Nat} {s s' : Trainer K M} (hi : Matches t s)
    (hg : ∀ e v1 v2, (e, v1, v2) ∈ s.tree.treeGrid → s.tree.treeGrid[e]? = some (e, v1, v2))
    (h : outcomes (removeRow t row) s (.ok (), s')) :
    s'.tree = s.tree ∧ s'.program = s.program ∧ s'.assign = s.assign ∧ s'.added = s.added.erase row := by
  obtain ⟨-, -, rfl, -⟩ := Part.removeRow ht ⟨hi, hg⟩ _ _ h
  exact ⟨by rw [removed, statsUpdate_tree], by rw [removed, statsUpdate_program],
    by rw [removed, statsUpdate_assign], by rw [removed, statsUpdate_added]⟩

end

/-! ### A concrete history -/

/-- Three features with 2, 3 and 1 columns, two rows. -/
def exTable : Table := ⟨[0, 0, 0], [0, 2, 5, 6], [[1, 0, 0, 2, 0, 1], [0, 3, 1, 0, 0, 0]]⟩

example : Table.make [0, 0, 0] [0, 2, 5, 6] 6 [[1, 0, 0, 2, 0, 1], [0, 3, 1, 0, 0, 0]] = .ok exTable := by
  decide +kernel

theorem exTable_ordered : Table.Ordered exTable := ⟨by decide, by decide⟩

/-- There is a trainer for it, and some run of add, add, set_edges, remove succeeds: the
hypotheses of `trainer_matches` are met. -/
example : ∃ s0 : Trainer ℚ 2, Trainer.init exTable 3 = .ok s0 ∧
    ∃ s, outcomes ([Call.addRow 0, .addRow 1, .setEdges [(0, 1), (0, 2)], .removeRow 0].forM (runCall exTable)) s0
      (.ok PUnit.unit, s) := by
  obtain ⟨s0, h0, hg, ha⟩ := good_init (K := ℚ) (M := 2) (t := exTable) (n := 3) (by decide) (by decide)
    (by decide) (by decide)
  have hm : AllMultinomial exTable := by unfold AllMultinomial; decide
  have hT : IsTree exTable.numCols [(0, 1), (0, 2)] := isTree_of_smaller rfl (by decide) (by decide)
  have key : Tot ([Call.addRow 0, .addRow 1, .setEdges [(0, 1), (0, 2)], .removeRow 0].forM (runCall exTable)) s0
      fun _ _ => True := by
    refine Tot.bind ((Tot.addRow exTable_ordered hm hg (by simp [ha]) (by decide)).mono ?_)
    rintro _ s1 ⟨g1, a1, -⟩
    refine Tot.bind ((Tot.addRow exTable_ordered hm g1 (by simp [ha, a1]) (by decide)).mono ?_)
    rintro _ s2 ⟨g2, a2, -⟩
    refine Tot.bind ((Tot.setEdges g2 hT).mono ?_)
    rintro _ s3 ⟨g3, a3, -⟩
    refine Tot.bind ((Tot.removeRow exTable_ordered hm g3 (by simp [a3, a2, a1])).mono ?_)
    rintro _ s4 -
    exact Tot.pure (a := PUnit.unit) trivial
  obtain ⟨⟨r, s⟩, hr⟩ := key.1
  obtain ⟨_, rfl, -⟩ := key.2 _ _ hr
  exact ⟨s0, h0, s, hr⟩

end TreeCat
