import Mathlib.Analysis.SpecialFunctions.Log.NegMulLog
import Mathlib.Data.Fin.Tuple.NatAntidiagonal
import Mathlib.Data.Nat.Choose.Multinomial
import Verif.Spec.Serving

/-!
# Specification: entropy, mutual information, correlation
-/

namespace TreeCat.Spec

/-- Shannon entropy of a finite distribution. -/
noncomputable def shannon {ι : Type} (s : Finset ι) (p : ι → ℝ) : ℝ := ∑ i ∈ s, Real.negMulLog (p i)

/-- Entropy of the vector of counts of `n` independent draws. -/
noncomputable def multinomialShannon {k : Nat} (p : Fin k → ℝ) (n : Nat) : ℝ :=
  shannon (Finset.Nat.antidiagonalTuple k n) fun x => Nat.multinomial Finset.univ x * ∏ i, p i ^ x i

/-- Mutual information of a joint distribution. -/
noncomputable def mutualInfo {M : Nat} (p : Fin M → Fin M → ℝ) : ℝ :=
  ∑ a, ∑ b, p a b * Real.log (p a b / ((∑ b', p a b') * ∑ a', p a' b))

/-- The generalisation of Pearson's correlation to discrete variables. -/
noncomputable def rho {M : Nat} (p : Fin M → Fin M → ℝ) : ℝ := √(1 - Real.exp (-2 * mutualInfo p))

variable {K : Type} [Field K] {M : Nat} [NeZero M]

/-- Probability that the latent classes of `v` and `w` are `a` and `b`. -/
def pairProb (model : Model K M) (v w : Nat) (a b : Fin M) : K :=
  sumLatent model.tree.numVertices fun z => if z v = a ∧ z w = b then latentProb model z else 0

end TreeCat.Spec
