import Mathlib.Analysis.SpecialFunctions.Gamma.Basic
import Mathlib.Analysis.SpecialFunctions.Log.Basic
import Verif.Model.Float

/-! # What is assumed of `gammaln` and `np.sum` in float32 -/

namespace TreeCat.Spec

open Util

/-- What is assumed of `scipy.special.gammaln` on positive float32 numbers: the result is a float32 number with an error of at most `γ`, relative for large
results and absolute for small ones. -/
structure GammalnOk (gl : ℚ → ℚ) (γ : ℝ) : Prop where
  float : ∀ x, 0 < x → IsFloat 24 (-149) x → IsFloat 24 (-149) (gl x)
  near : ∀ x, 0 < x → IsFloat 24 (-149) x → |(gl x : ℝ) - Real.log (Real.Gamma x)| ≤ γ * (1 + |Real.log (Real.Gamma x)|)

/-- What is assumed of `np.sum` of float32 numbers: the bound that holds for every order of summation. -/
structure SumAbsOk (sum : List ℚ → ℚ) : Prop where
  float : ∀ xs, (∀ x ∈ xs, IsFloat 24 (-149) x) → IsFloat 24 (-149) (sum xs)
  near : ∀ xs, (∀ x ∈ xs, IsFloat 24 (-149) x) → |sum xs - xs.sum| ≤ ((1 + 1 / 2 ^ 24) ^ xs.length - 1) * (xs.map (|·|)).sum

end TreeCat.Spec
