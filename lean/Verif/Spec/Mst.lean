import Mathlib.Algebra.Order.Field.Basic
import Mathlib.Algebra.BigOperators.Group.List.Basic
import Verif.Spec.Tree

/-!
# Specification: what `scipy.sparse.csgraph.minimum_spanning_tree` promises

From the scipy documentation: the input is a matrix in which a zero entry means that
there is no edge; the result is "the subset of edges of the graph with minimum total
weight that connects all nodes" of a connected graph.
-/

namespace TreeCat.Spec

variable {K : Type} [Field K] [LinearOrder K]

/-- The total weight of some edges. -/
def total (w : Nat → Nat → K) (T : List (Nat × Nat)) : K := (T.map fun p => w p.1 p.2).sum

/-- A spanning tree of the graph of nonzero entries. -/
def TreeIn (V : Nat) (w : Nat → Nat → K) (T : List (Nat × Nat)) : Prop :=
  IsTree V T ∧ ∀ p ∈ T, w p.1 p.2 ≠ 0

/-- `T` is a minimum spanning tree of the graph of nonzero entries. -/
def IsMst (V : Nat) (w : Nat → Nat → K) (T : List (Nat × Nat)) : Prop :=
  TreeIn V w T ∧ ∀ T', TreeIn V w T' → total w T ≤ total w T'

/-- The contract of the library function: on every symmetric matrix of a connected
graph it returns a minimum spanning tree. -/
def MstContract (mst : List (List K) → List (Nat × Nat)) : Prop :=
  ∀ (V : Nat) (m : List (List K)) (w : Nat → Nat → K), m.length = V →
    (∀ i < V, ∃ row, m[i]? = some row ∧ row.length = V ∧ ∀ j < V, row[j]? = some (w i j)) →
    (∀ i < V, ∀ j < V, w i j = w j i) → (∃ T, TreeIn V w T) → IsMst V w (mst m)

end TreeCat.Spec
