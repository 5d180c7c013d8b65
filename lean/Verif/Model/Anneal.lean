import Mathlib.Algebra.Order.Field.Basic
import Verif.Model.Py

/-!
# Model of `make_annealing_schedule` (treecat/training.py:63-116)

Floats are elements of a linearly ordered field. The generator is modelled by the
list of everything it yields.
-/

namespace TreeCat

/-- What the schedule yields, training.py:104-116. -/
inductive Action where
  | addRow (row : Nat)
  | removeRow (row : Nat)
  | sampleTree
  deriving DecidableEq, Repr

/-- The variables of the loop. `added` and `removed` are the positions of the two
iterators `row_to_add` and `row_to_remove`, training.py:92-93. -/
structure AnnealState (K : Type) where
  added : Nat
  removed : Nat
  state : K
  numAssigned : Int
  nextBatch : K

/-- The `i`-th item of `itertools.cycle(row_ids)`, training.py:92-93. -/
def cycleGet (rows : List Nat) (i : Nat) : Py Nat :=
  match rows[i % rows.length]? with
  | some r => .ok r
  | none => .error .stopIteration

section
variable {K : Type} [Field K] [LinearOrder K]

/-- The first half of the loop body, training.py:105-113. -/
def annealMove (rows : List Nat) (epochs rate : K) (s : AnnealState K) :
    Py (Action × AnnealState K) := do
  if 0 ≤ s.state then do
    let r ← cycleGet rows s.added
    .ok (.addRow r, { s with
      added := s.added + 1
      state := s.state - (epochs - 1)
      numAssigned := s.numAssigned + 1
      nextBatch := s.nextBatch - rate })
  else do
    let r ← cycleGet rows s.removed
    .ok (.removeRow r, { s with
      removed := s.removed + 1
      state := s.state + epochs
      numAssigned := s.numAssigned - 1 })

/-- The loop, training.py:104-116. -/
def annealLoop (rows : List Nat) (N : Nat) (epochs rate : K) : Nat → AnnealState K → Py (List Action)
  | 0, s => if s.numAssigned < N then .error .timeout else .ok []
  | fuel + 1, s =>
    if s.numAssigned < N then do
      let (act, s) ← annealMove rows epochs rate s
      if 0 < s.numAssigned ∧ s.nextBatch ≤ 0 then do
        let rest ← annealLoop rows N epochs rate fuel { s with nextBatch := (s.numAssigned : K) }
        .ok (act :: .sampleTree :: rest)
      else do
        let rest ← annealLoop rows N epochs rate fuel s
        .ok (act :: rest)
    else .ok []

/-- `make_annealing_schedule(num_rows, epochs, sample_tree_rate)`,
training.py:63-116. `rows` is `row_ids` after `np.random.shuffle`. -/
def annealingSchedule (fuel : Nat) (rows : List Nat) (N : Nat) (epochs rate : K) : Py (List Action) := do
  pyAssert (decide (1 ≤ epochs))
  pyAssert (decide (1 ≤ rate))
  annealLoop rows N epochs rate fuel ⟨0, 0, 2 * epochs, 0, 0⟩

end

end TreeCat
