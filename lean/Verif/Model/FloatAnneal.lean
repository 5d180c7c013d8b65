import Mathlib.Algebra.Order.Ring.Rat
import Mathlib.Algebra.Field.Rat
import Verif.Model.Anneal

/-!
# `make_annealing_schedule` in floating point (treecat/training.py:63-116)

As `Model/Anneal`, with every sum rounded by `rnd`.
-/

namespace TreeCat

/-- The first half of the loop body, training.py:105-113. `removeRate` is the rounded `epochs - 1.0`. `next_batch` is an integer after training.py:116, and is rounded when
`sample_tree_rate`, a float, is subtracted from it. -/
def floatAnnealMove (rnd : ℚ → ℚ) (rows : List Nat) (epochs removeRate rate : ℚ) (s : AnnealState ℚ) : Py (Action × AnnealState ℚ) := do
  if 0 ≤ s.state then do
    let r ← cycleGet rows s.added
    .ok (.addRow r, { s with
      added := s.added + 1
      state := rnd (s.state - removeRate)
      numAssigned := s.numAssigned + 1
      nextBatch := rnd (rnd s.nextBatch - rate) })
  else do
    let r ← cycleGet rows s.removed
    .ok (.removeRow r, { s with
      removed := s.removed + 1
      state := rnd (s.state + epochs)
      numAssigned := s.numAssigned - 1 })

/-- The loop, training.py:104-116. -/
def floatAnnealLoop (rnd : ℚ → ℚ) (rows : List Nat) (N : Nat) (epochs removeRate rate : ℚ) : Nat → AnnealState ℚ → Py (List Action)
  | 0, s => if s.numAssigned < N then .error .timeout else .ok []
  | fuel + 1, s =>
    if s.numAssigned < N then do
      let (act, s) ← floatAnnealMove rnd rows epochs removeRate rate s
      if 0 < s.numAssigned ∧ s.nextBatch ≤ 0 then do
        let rest ← floatAnnealLoop rnd rows N epochs removeRate rate fuel { s with nextBatch := (s.numAssigned : ℚ) }
        .ok (act :: .sampleTree :: rest)
      else do
        let rest ← floatAnnealLoop rnd rows N epochs removeRate rate fuel s
        .ok (act :: rest)
    else .ok []

/-- `make_annealing_schedule(num_rows, epochs, sample_tree_rate)`, training.py:63-116. -/
def floatAnnealingSchedule (rnd : ℚ → ℚ) (fuel : Nat) (rows : List Nat) (N : Nat) (epochs rate : ℚ) : Py (List Action) := do
  pyAssert (decide (1 ≤ epochs))
  pyAssert (decide (1 ≤ rate))
  floatAnnealLoop rnd rows N epochs (rnd (epochs - 1)) rate fuel ⟨0, 0, rnd (2 * epochs), 0, 0⟩

end TreeCat
