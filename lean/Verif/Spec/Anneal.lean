import Mathlib.Data.Finset.Insert
import Mathlib.Data.Finset.Basic
import Verif.Model.Anneal

/-!
# Specification: valid annealing schedules
-/

namespace TreeCat.Spec

/-- Carrying out the actions from the set `S` of assigned rows is legal and leads
to the set `T`. -/
def Legal (N : Nat) : Finset Nat → List Action → Finset Nat → Prop
  | S, [], T => S = T
  | S, .addRow r :: as, T => r < N ∧ r ∉ S ∧ Legal N (insert r S) as T
  | S, .removeRow r :: as, T => r ∈ S ∧ Legal N (S.erase r) as T
  | S, .sampleTree :: as, T => S.Nonempty ∧ Legal N S as T

/-- Number of `add_row` actions. -/
def numAdds (as : List Action) : Nat := as.countP fun a => match a with | .addRow _ => true | _ => false

/-- Number of `remove_row` actions. -/
def numRemoves (as : List Action) : Nat :=
  as.countP fun a => match a with | .removeRow _ => true | _ => false

end TreeCat.Spec
