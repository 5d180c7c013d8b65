import Verif.Spec.Likelihood

/-!
# Specification: the joint posterior of tree and assignments

Training samples a spanning tree and one latent value per row and feature. Their posterior, up to a constant, is the
collapsed likelihood of the whole table times the prior of the tree.
-/

namespace TreeCat.Spec

open Real

variable {M : Nat}

/-- One latent value per row and feature. -/
abbrev Latent (t : Table) (M : Nat) : Type := Fin t.numRows → Fin t.numCols → Fin M

/-- The same as a function of all pairs of numbers; the values beyond the table do not matter. -/
def Latent.total {t : Table} [NeZero M] (a : Latent t M) : Nat → Nat → Fin M :=
  fun n v => if h : n < t.numRows ∧ v < t.numCols then a ⟨n, h.1⟩ ⟨v, h.2⟩ else 0

/-- Log prior of a tree: the sum over its edges `u < v` of the entry `u + v (v - 1) / 2`, which is the place of the
edge in the list of all edges of the complete graph. -/
noncomputable def treeLogPrior (prior : List ℝ) (T : List (Nat × Nat)) : ℝ :=
  (T.map fun e => prior.getD (e.1 + e.2 * (e.2 - 1) / 2) 0).sum

/-- The posterior of tree and assignments, up to a constant. -/
noncomputable def posterior (t : Table) [NeZero M] (prior : List ℝ) (a : Latent t M) (T : List (Nat × Nat)) : ℝ :=
  likelihood t (Finset.range t.numRows) a.total T * exp (treeLogPrior prior T)

end TreeCat.Spec
