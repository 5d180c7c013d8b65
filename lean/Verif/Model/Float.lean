import Mathlib.Data.Rat.Floor
import Mathlib.Data.Int.Log
import Verif.Model.Util

/-!
# `sample_from_probs` in floating point

Elsewhere numbers are exact. Here the rounding of IEEE 754 binary formats is modelled: a float is a rational number, and an
operation computes the exact result and rounds it to a nearest float. Overflow, `inf` and `nan` are not modelled.
-/

namespace TreeCat.Util

/-- The numbers of a binary format with `p` bits of precision whose least exponent is `emin` (with subnormal numbers, without a
largest number). -/
def IsFloat (p : Nat) (emin : Int) (x : ℚ) : Prop := ∃ m e : Int, |m| < 2 ^ p ∧ emin ≤ e ∧ x = m * (2 : ℚ) ^ e

/-- The nearest integer, ties to even. -/
def roundHalfEven (q : ℚ) : Int :=
  if q - ⌊q⌋ < 1 / 2 then ⌊q⌋ else if 1 / 2 < q - ⌊q⌋ then ⌊q⌋ + 1 else if ⌊q⌋ % 2 = 0 then ⌊q⌋ else ⌊q⌋ + 1

/-- The exponent of the last bit when `x` is rounded. -/
def lastBit (p : Nat) (emin : Int) (x : ℚ) : Int := max emin (Int.log 2 |x| - p + 1)

/-- The default rounding of IEEE 754: to the nearest float, ties to even. -/
def roundTo (p : Nat) (emin : Int) (x : ℚ) : ℚ := roundHalfEven (x / 2 ^ lastBit p emin x) * 2 ^ lastBit p emin x

/-- `np.float32` -/
def float32 : ℚ → ℚ := roundTo 24 (-149)

/-- `np.float64` -/
def float64 : ℚ → ℚ := roundTo 53 (-1074)

/-- `probs.cumsum()` continued from a partial sum, util.py:87; each sum is rounded by `rs`. -/
def floatCumsumFrom (rs : ℚ → ℚ) (acc : ℚ) : List ℚ → List ℚ
  | [] => []
  | p :: ps => rs (acc + p) :: floatCumsumFrom rs (rs (acc + p)) ps

/-- `sample_from_probs(probs)`, util.py:77-88, and each row of `sample_from_probs2`, util.py:91-105. Sums are rounded by `rs` (the format of
`probs`) and the product by `rp` (float64, since `np.random.rand` is). -/
def floatSample (rs rp : ℚ → ℚ) (probs : List ℚ) (u : ℚ) : Py Nat :=
  let cdf := floatCumsumFrom rs 0 probs
  match cdf.getLast? with
  | none => .error .indexError
  | some total => .ok (argmaxLt (rp (u * total)) cdf)

end TreeCat.Util
