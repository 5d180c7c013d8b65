import Mathlib.Analysis.SpecialFunctions.Exp
import Verif.Model.Float

/-! # What is assumed of `np.exp` in float32 -/

namespace TreeCat.Spec

open Util

/-- What is assumed of `np.exp` on float32 numbers that are not positive: the result is a float32 number, exact at zero, not negative and within `η`. -/
structure ExpOk (fexp : ℚ → ℚ) (η : ℝ) : Prop where
  zero : fexp 0 = 1
  nonneg : ∀ x ≤ 0, 0 ≤ fexp x
  float : ∀ x ≤ 0, IsFloat 24 (-149) (fexp x)
  near : ∀ x ≤ 0, IsFloat 24 (-149) x → |(fexp x : ℝ) - Real.exp x| ≤ η

end TreeCat.Spec
