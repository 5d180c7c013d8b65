import Mathlib.Order.Interval.Finset.Nat
import Verif.Model.Training

/-!
# Specification: the statistics of a trainer, from scratch

Everything is counted anew from the assignments of the rows in the subsample.
-/

namespace TreeCat.Spec

variable {M : Nat}

/-- Rows in which `v` has value `m`. -/
def vertCount (rows : Finset Nat) (assign : Nat → Nat → Fin M) (v : Nat) (m : Fin M) : Nat :=
  (rows.filter fun n => assign n v = m).card

/-- Rows in which `v1` has value `m1` and `v2` has value `m2`. -/
def edgeCount (rows : Finset Nat) (assign : Nat → Nat → Fin M) (v1 v2 : Nat) (m1 m2 : Fin M) : Nat :=
  (rows.filter fun n => assign n v1 = m1 ∧ assign n v2 = m2).card

/-- Total of data column `r` over the rows in which `v` has value `m`. -/
def featTotal (t : Table) (rows : Finset Nat) (assign : Nat → Nat → Fin M) (v r : Nat) (m : Fin M) : Int :=
  ∑ n ∈ rows.filter fun n => assign n v = m, t.cell n r

/-- Total of all data of feature `v` over the rows in which `v` has value `m`. -/
def measTotal (t : Table) (rows : Finset Nat) (assign : Nat → Nat → Fin M) (v : Nat) (m : Fin M) : Int :=
  ∑ n ∈ rows.filter fun n => assign n v = m, ∑ r ∈ Finset.Ico (t.beg v) (t.stop v), t.cell n r

/-- A table as `load_schema` and `import_rows` make it: one index per feature and one for the end, in
increasing order. -/
structure Table.Ordered (t : Table) : Prop where
  length : t.raggedIndex.length = t.numCols + 1
  mono : t.raggedIndex.Pairwise (· ≤ ·)

/-- The statistics held by the trainer are those of the rows in its subsample. -/
structure Matches {K : Type} [Field K] (t : Table) (s : Trainer K M) : Prop where
  vert : ∀ v < t.numCols, ∀ m, s.vertSS v m = vertCount s.added s.assign v m
  edge : ∀ e v1 v2, (e, v1, v2) ∈ s.tree.treeGrid → ∀ m1 m2,
    s.edgeSS e m1 m2 = edgeCount s.added s.assign v1 v2 m1 m2
  feat : ∀ v < t.numCols, ∀ r, t.beg v ≤ r → r < t.stop v → ∀ m,
    s.featSS r m = featTotal t s.added s.assign v r m
  meas : ∀ v < t.numCols, ∀ m, s.measSS v m = measTotal t s.added s.assign v m
  probs : ∀ e v1 v2, (e, v1, v2) ∈ s.tree.treeGrid → ∀ m1 m2,
    s.edgeProbs e m1 m2 = edgeCount s.added s.assign v1 v2 m1 m2 + 1 / 2 / (M : K)

/-- What may be called on a trainer. -/
inductive Call where
  | addRow (row : Nat)
  | removeRow (row : Nat)
  | setEdges (edges : List (Nat × Nat))

/-- The subsample after some successful calls. -/
def subsample : List Call → Finset Nat → Finset Nat
  | [], S => S
  | .addRow r :: cs, S => subsample cs (insert r S)
  | .removeRow r :: cs, S => subsample cs (S.erase r)
  | .setEdges _ :: cs, S => subsample cs S

end TreeCat.Spec
