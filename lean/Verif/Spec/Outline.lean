import Verif.Spec.Program

/-!
# Specification: outlines and orders of rooted trees
-/

namespace TreeCat.Spec

/-- `n` is the number of edges on the path from the root to `v`. -/
def IsDist (edges : List (Nat × Nat)) (root v n : Nat) : Prop :=
  Walk edges n root v ∧ ∀ m, Walk edges m root v → n ≤ m

/-- Listing the vertices in the order `L`, indented by `indent`, shows the tree. -/
structure IsOutline (V : Nat) (edges : List (Nat × Nat)) (root : Nat) (L : List Nat) (indent : Nat → Nat) :
    Prop where
  perm : L.Perm (List.range V)
  head : L.head? = some root
  dist : ∀ v < V, IsDist edges root v (indent v)
  /-- The parent is the nearest preceding vertex with smaller indentation. -/
  parent : ∀ X v Y, L = X ++ v :: Y → v ≠ root →
    ∃ X₁ p X₂, X = X₁ ++ p :: X₂ ∧ IsParent edges root v p ∧ indent p < indent v ∧
      ∀ w ∈ X₂, indent v ≤ indent w
  /-- The children of a vertex are listed in rising order. -/
  siblings : L.Pairwise fun a b => ∀ p, IsParent edges root a p → IsParent edges root b p → a < b

/-- `x` is `v` or hangs below `v`, seen from the root. -/
def Below (edges : List (Nat × Nat)) (root v x : Nat) : Prop :=
  Relation.ReflTransGen (IsParent edges root) x v

/-- A drawing of a vertex in line with the subtrees hanging below it. `ls` are the
subtrees at its left and `rs` those at its right, both listed from the vertex outwards,
each with its topmost vertex. -/
def laid (v : Nat) (ls rs : List (Nat × List Nat)) : List Nat :=
  ls.reverse.flatMap (·.2) ++ [v] ++ rs.flatMap (·.2)

/-- What makes that drawing a good one: each subtree stands at one side in one piece;
at either side smaller subtrees are nearer; each subtree turns its topmost vertex to the
inside, with at most as many vertices inside of it as outside; and the two sides differ
by at most one subtree. -/
structure Packed (kid : Nat → Prop) (below : Nat → Nat → Prop) (ls rs : List (Nat × List Nat)) : Prop where
  kids : ∀ c, c ∈ (ls ++ rs).map Prod.fst ↔ kid c
  once : ((ls ++ rs).map Prod.fst).Nodup
  block : ∀ p ∈ ls ++ rs, ∀ x, x ∈ p.2 ↔ below p.1 x
  left_sorted : ls.Pairwise fun p q => p.2.length ≤ q.2.length
  right_sorted : rs.Pairwise fun p q => p.2.length ≤ q.2.length
  left_near : ∀ p ∈ ls, ∃ out inn, p.2 = out ++ [p.1] ++ inn ∧ inn.length ≤ out.length
  right_near : ∀ p ∈ rs, ∃ out inn, p.2 = inn ++ [p.1] ++ out ∧ inn.length ≤ out.length
  balance : ls ++ rs = [] ∨ ∃ p ∈ ls ++ rs,
    ((ls.flatMap (·.2)).length : Int) - (rs.flatMap (·.2)).length ≤ p.2.length ∧
    ((rs.flatMap (·.2)).length : Int) - (ls.flatMap (·.2)).length ≤ p.2.length

end TreeCat.Spec
