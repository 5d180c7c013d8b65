import Mathlib.Data.Finset.Basic
import Mathlib.Data.List.Nodup
import Verif.Spec.Tree

/-!
# Specification: canonical lists of tree edges
-/

namespace TreeCat.Spec

/-- A list of pairs `(small, large)` in strictly increasing lexicographic order. A
set of unordered pairs has exactly one such list. -/
structure Canonical (l : List (Nat × Nat)) : Prop where
  small_large : ∀ p ∈ l, p.1 < p.2
  sorted : l.Pairwise fun a b => a.1 < b.1 ∨ a.1 = b.1 ∧ a.2 < b.2

/-- The array holds the set: its size, then its elements in some order without
repetition, then anything. -/
def HoldsSet (row : List Nat) (S : Finset Nat) : Prop :=
  ∃ items rest, row = items.length :: (items ++ rest) ∧ items.Nodup ∧ items.toFinset = S

end TreeCat.Spec
