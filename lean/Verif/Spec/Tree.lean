import Mathlib.Data.Sym.Sym2
import Mathlib.Logic.Relation
import Mathlib.Data.List.Perm.Basic

/-!
# Specification: trees given by lists of vertex pairs

Independent of the model: what it means for a list of pairs to be a spanning tree
of the vertices `0, ..., V-1`, and distances in a graph.
-/

namespace TreeCat.Spec

/-- The graph joins `u` and `v`. -/
def Adj (edges : List (Nat × Nat)) (u v : Nat) : Prop := (u, v) ∈ edges ∨ (v, u) ∈ edges

instance (edges : List (Nat × Nat)) (u v : Nat) : Decidable (Adj edges u v) :=
  inferInstanceAs (Decidable (_ ∨ _))

/-- `edges` is a spanning tree of `0, ..., V-1`: `V - 1` pairs of such vertices
that connect them all. -/
structure IsTree (V : Nat) (edges : List (Nat × Nat)) : Prop where
  card : edges.length + 1 = V
  range : ∀ e ∈ edges, e.1 < V ∧ e.2 < V
  conn : ∀ u < V, ∀ v < V, Relation.ReflTransGen (Adj edges) u v

/-- A walk of exactly `n` steps. -/
inductive Walk (edges : List (Nat × Nat)) : Nat → Nat → Nat → Prop
  | nil (u : Nat) : Walk edges 0 u u
  | cons {n u v w : Nat} : Adj edges u v → Walk edges n v w → Walk edges (n + 1) u w

/-- Every vertex is within distance `n` of `v`. -/
def EccLe (V : Nat) (edges : List (Nat × Nat)) (v n : Nat) : Prop :=
  ∀ w < V, ∃ m ≤ n, Walk edges m v w

/-- `c` is a centre: no vertex has smaller eccentricity. -/
def IsCenter (V : Nat) (edges : List (Nat × Nat)) (c : Nat) : Prop :=
  c < V ∧ ∀ v < V, ∀ n, EccLe V edges v n → EccLe V edges c n

/-- The two lists hold the same unordered pairs, with multiplicity. -/
def SamePairs (l l' : List (Nat × Nat)) : Prop :=
  (l.map fun e => s(e.1, e.2)).Perm (l'.map fun e => s(e.1, e.2))

end TreeCat.Spec
