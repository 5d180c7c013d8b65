import Mathlib.Analysis.SpecialFunctions.Gamma.Basic
import Mathlib.Analysis.SpecialFunctions.Log.Basic
import Verif.Spec.Trainer

/-!
# Specification: the collapsed likelihood of a tree and of assignments

The Dirichlet-categorical likelihood with the model parameters integrated out, up to a factor that does not
depend on the tree or on the assignments: a product of Gamma functions of counts plus priors.
-/

namespace TreeCat.Spec

open Real

variable {M : Nat}

/-- Factor of the counts of vertex `v`. -/
noncomputable def vertGamma (rows : Finset Nat) (assign : Nat → Nat → Fin M) (v : Nat) : ℝ :=
  ∏ m, Gamma (vertCount rows assign v m + 1 / 2)

/-- Factor of the joint counts of two vertices. -/
noncomputable def edgeGamma (rows : Finset Nat) (assign : Nat → Nat → Fin M) (e : Nat × Nat) : ℝ :=
  ∏ m1, ∏ m2, Gamma (edgeCount rows assign e.1 e.2 m1 m2 + 1 / 2 / M)

/-- Factor of the data of feature `v`. -/
noncomputable def featGamma (t : Table) (rows : Finset Nat) (assign : Nat → Nat → Fin M) (v : Nat) : ℝ :=
  (∏ r ∈ Finset.Ico (t.beg v) (t.stop v), ∏ m, Gamma (featTotal t rows assign v r m + 1 / 2 / M)) /
    ∏ m, Gamma (measTotal t rows assign v m + 1 / 2 / M * (t.stop v - t.beg v : Nat))

/-- The likelihood of tree and assignments. -/
noncomputable def likelihood (t : Table) (rows : Finset Nat) (assign : Nat → Nat → Fin M)
    (edges : List (Nat × Nat)) : ℝ :=
  (∏ v ∈ Finset.range t.numCols, vertGamma rows assign v) *
    (edges.map fun e => edgeGamma rows assign e / (vertGamma rows assign e.1 * vertGamma rows assign e.2)).prod *
    ∏ v ∈ Finset.range t.numCols, featGamma t rows assign v

/-- All entries are counts and every feature has at least one column. -/
structure Table.Counts (t : Table) : Prop where
  nonneg : ∀ n r, 0 ≤ t.cell n r
  width : ∀ v < t.numCols, t.beg v < t.stop v

end TreeCat.Spec
