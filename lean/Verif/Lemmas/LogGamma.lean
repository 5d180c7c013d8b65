import Mathlib.Analysis.SpecialFunctions.Gamma.BohrMollerup
import Mathlib.Analysis.SpecialFunctions.Log.Deriv
import Mathlib.Analysis.Complex.ExponentialBounds

/-!
# Bounds for the logarithm of the gamma function

From convexity and the functional equation: how much it changes with its argument, and how large it is at `n + p`.
-/

namespace TreeCat

/-- The logarithm of the gamma function, which `scipy.special.gammaln` computes. -/
noncomputable def logGamma (x : ℝ) : ℝ := Real.log (Real.Gamma x)

theorem logGamma_one : logGamma 1 = 0 := by simp [logGamma]

theorem logGamma_two : logGamma 2 = 0 := by simp [logGamma, Real.Gamma_two]

theorem logGamma_succ {x : ℝ} (hx : 0 < x) : logGamma (x + 1) = logGamma x + Real.log x := by
  unfold logGamma
  rw [Real.Gamma_add_one hx.ne', Real.log_mul hx.ne' (Real.Gamma_pos_of_pos hx).ne', add_comm]

/-- Between neighbouring arguments the slope is at most the logarithm of the greater one. -/
theorem logGamma_sub_le {x y : ℝ} (hx : 0 < x) (hxy : x < y) : logGamma y - logGamma x ≤ (y - x) * Real.log y := by
  have h := Real.convexOn_log_Gamma.slope_mono_adjacent (x := x) (y := y) (z := y + 1) hx (by simp only [Set.mem_Ioi]; linarith) hxy (by linarith)
  have h2 := logGamma_succ (hx.trans hxy)
  simp only [Function.comp] at h
  change (logGamma y - logGamma x) / (y - x) ≤ (logGamma (y + 1) - logGamma y) / (y + 1 - y) at h
  rw [h2, show y + 1 - y = 1 by ring, div_one, div_le_iff₀ (by linarith)] at h
  linarith

theorem le_logGamma_sub {x y : ℝ} (hx : 0 < x) (hxy : x < y) : (y - x) * (Real.log x - 1 / x) ≤ logGamma y - logGamma x := by
  have hle : (y - x) * Real.log x ≤ logGamma (y + 1) - logGamma (x + 1) := by
    by_cases hy : y ≤ x
    · linarith
    have h := Real.convexOn_log_Gamma.slope_mono_adjacent (x := x) (y := x + 1) (z := y + 1) hx (by simp only [Set.mem_Ioi]; linarith) (by linarith) (by linarith)
    have h2 := logGamma_succ hx
    simp only [Function.comp] at h
    change (logGamma (x + 1) - logGamma x) / (x + 1 - x) ≤ (logGamma (y + 1) - logGamma (x + 1)) / (y + 1 - (x + 1)) at h
    rw [h2, show x + 1 - x = 1 by ring, div_one, show y + 1 - (x + 1) = y - x by ring, le_div_iff₀ (by linarith)] at h
    rw [h2]
    linarith
  rw [logGamma_succ hx, logGamma_succ (hx.trans hxy)] at hle
  have hlog : Real.log y - Real.log x ≤ (y - x) / x := by
    rw [← Real.log_div (hx.trans hxy).ne' hx.ne']
    have := Real.log_le_sub_one_of_pos (div_pos (hx.trans hxy) hx)
    calc Real.log (y / x) ≤ y / x - 1 := this
      _ = (y - x) / x := by field_simp
  calc (y - x) * (Real.log x - 1 / x) = (y - x) * Real.log x - (y - x) / x := by ring
    _ ≤ logGamma y - logGamma x := by linarith

/-- The change of `logGamma` between two arguments that are at most a factor two from `x`. -/
theorem logGamma_change {x y : ℝ} (hx : 0 < x) (h1 : x / 2 ≤ y) (h2 : y ≤ 2 * x) :
    |logGamma y - logGamma x| ≤ |y - x| * (|Real.log x| + 1 + 2 / x) := by
  have hl2 : Real.log 2 ≤ 1 := by linarith [Real.log_two_lt_d9]
  have hy : 0 < y := by linarith
  have hly : |Real.log y| ≤ |Real.log x| + 1 := by
    have a1 : Real.log y ≤ Real.log x + 1 := by
      have := Real.log_le_log hy h2
      rw [Real.log_mul (by norm_num) hx.ne'] at this
      linarith
    have a2 : Real.log x - 1 ≤ Real.log y := by
      have := Real.log_le_log (by positivity) h1
      rw [Real.log_div hx.ne' (by norm_num)] at this
      linarith
    rw [abs_le]
    have := le_abs_self (Real.log x)
    have := neg_abs_le (Real.log x)
    constructor <;> linarith
  have key : ∀ {a b : ℝ}, 0 < a → a < b → |Real.log a| ≤ |Real.log x| + 1 → |Real.log b| ≤ |Real.log x| + 1 → x / 2 ≤ a →
      |logGamma b - logGamma a| ≤ (b - a) * (|Real.log x| + 1 + 2 / x) := by
    intro a b ha hab la lb hxa
    have u := logGamma_sub_le ha hab
    have l := le_logGamma_sub ha hab
    have hinv : 1 / a ≤ 2 / x := by
      rw [div_le_div_iff₀ ha hx]
      linarith
    have hba : 0 ≤ b - a := by linarith
    have h2x : 0 ≤ 2 / x := by positivity
    rw [abs_le]
    constructor
    · have : (b - a) * -(|Real.log x| + 1 + 2 / x) ≤ (b - a) * (Real.log a - 1 / a) :=
        mul_le_mul_of_nonneg_left (by linarith [neg_abs_le (Real.log a)]) hba
      linarith
    · have : (b - a) * Real.log b ≤ (b - a) * (|Real.log x| + 1 + 2 / x) :=
        mul_le_mul_of_nonneg_left (by linarith [le_abs_self (Real.log b)]) hba
      linarith
  rcases lt_trichotomy x y with h | h | h
  · rw [abs_of_pos (a := y - x) (by linarith)]
    exact key hx h (by linarith) hly (by linarith)
  · rw [h]; simp
  · rw [abs_sub_comm, abs_sub_comm y x, abs_of_pos (a := x - y) (by linarith)]
    exact key hy h hly (by linarith) h1

/-- Between 1 and 2 it is small. -/
theorem logGamma_mid {x : ℝ} (h1 : 1 ≤ x) (h2 : x ≤ 2) : |logGamma x| ≤ 1 := by
  have u : logGamma x ≤ 1 := by
    rcases eq_or_lt_of_le h1 with h | h
    · rw [← h, logGamma_one]; norm_num
    · have := logGamma_sub_le one_pos h
      rw [logGamma_one, sub_zero] at this
      have hl : Real.log x ≤ 1 := by linarith [Real.log_le_sub_one_of_pos (by linarith : 0 < x)]
      nlinarith
  have l : -1 ≤ logGamma x := by
    rcases eq_or_lt_of_le h1 with h | h
    · rw [← h, logGamma_one]; norm_num
    · have := le_logGamma_sub one_pos h
      rw [logGamma_one, Real.log_one] at this
      linarith
  exact abs_le.2 ⟨l, u⟩

/-- Above 2 it is not negative. -/
theorem logGamma_nonneg {x : ℝ} (h : 2 ≤ x) : 0 ≤ logGamma x := by
  rcases eq_or_lt_of_le h with h | h
  · rw [← h, logGamma_two]
  · have := le_logGamma_sub two_pos h
    rw [logGamma_two] at this
    have := Real.log_two_gt_d9
    nlinarith

/-- `n log (n + 1)` -/
noncomputable def nLog (n : Nat) : ℝ := n * Real.log (n + 1)

theorem nLog_nonneg (n : Nat) : 0 ≤ nLog n := mul_nonneg (Nat.cast_nonneg n) (Real.log_nonneg (by linarith [Nat.cast_nonneg (α := ℝ) n]))

theorem half_le_nLog (n : Nat) : (n : ℝ) ≤ 2 * nLog n := by
  unfold nLog
  rcases Nat.eq_zero_or_pos n with rfl | h
  · simp
  · have h1 : (1 : ℝ) ≤ n := by exact_mod_cast h
    have : (1 : ℝ) / 2 ≤ Real.log (n + 1) := by
      have h2 := Real.log_le_log (by norm_num) (by linarith : (2 : ℝ) ≤ n + 1)
      linarith [Real.log_two_gt_d9]
    nlinarith

theorem nLog_mono {m n : Nat} (h : m ≤ n) : nLog m ≤ nLog n := by
  unfold nLog
  have h1 : (m : ℝ) ≤ n := by exact_mod_cast h
  have h0 : (0 : ℝ) ≤ m := Nat.cast_nonneg m
  exact mul_le_mul h1 (Real.log_le_log (by linarith) (by linarith)) (Real.log_nonneg (by linarith)) (by linarith)

/-- The cells of a table together have at most the `n log (n + 1)` of their sum. -/
theorem nLog_add (m n : Nat) : nLog m + nLog n ≤ nLog (m + n) := by
  unfold nLog
  have h0 : (0 : ℝ) ≤ m := Nat.cast_nonneg m
  have h1 : (0 : ℝ) ≤ n := Nat.cast_nonneg n
  push_cast
  have a := Real.log_le_log (by linarith) (by linarith : (m : ℝ) + 1 ≤ m + n + 1)
  have b := Real.log_le_log (by linarith) (by linarith : (n : ℝ) + 1 ≤ m + n + 1)
  nlinarith

theorem nLog_sum (l : List Nat) : (l.map nLog).sum ≤ nLog l.sum := by
  induction l with
  | nil => simp [nLog]
  | cons a l ih =>
    rw [List.map_cons, List.sum_cons, List.sum_cons]
    linarith [nLog_add a l.sum]

/-- What a cell with `n` rows contributes at most, with a prior of at least `1 / (2 M)`. -/
noncomputable def cellBound (M n : Nat) : ℝ := Real.log (2 * M) + 2 + nLog n

theorem logGamma_count {M : Nat} (hM : 1 ≤ M) (n : Nat) {q : ℝ} (hq : 1 / (2 * M) ≤ q) (hq2 : q ≤ 1 / 2) : |logGamma (n + q)| + 1 ≤ cellBound M n := by
  have hM' : (1 : ℝ) ≤ M := by exact_mod_cast hM
  have hq0 : 0 < q := lt_of_lt_of_le (by positivity) hq
  have hl0 : 0 ≤ Real.log (2 * M) := Real.log_nonneg (by linarith)
  unfold cellBound
  rcases Nat.eq_zero_or_pos n with rfl | h
  · have h1 := logGamma_succ hq0
    have h2 := abs_le.1 (logGamma_mid (x := q + 1) (by linarith) (by linarith))
    have h3 : -Real.log (2 * M) ≤ Real.log q := by
      rw [← Real.log_inv, ← one_div]
      exact Real.log_le_log (by positivity) hq
    have h4 : Real.log q ≤ 0 := Real.log_nonpos hq0.le (by linarith)
    simp only [Nat.cast_zero, zero_add, nLog, zero_mul, add_zero]
    have : |logGamma q| ≤ Real.log (2 * M) + 1 := abs_le.2 ⟨by linarith, by linarith⟩
    linarith
  · have h1 : (1 : ℝ) ≤ n := by exact_mod_cast h
    have hn := nLog_nonneg n
    have u : logGamma (n + q) ≤ nLog n := by
      have h2 := logGamma_sub_le one_pos (by linarith : (1 : ℝ) < n + q)
      rw [logGamma_one, sub_zero] at h2
      refine h2.trans ?_
      unfold nLog
      exact mul_le_mul (by linarith) (Real.log_le_log (by linarith) (by linarith)) (Real.log_nonneg (by linarith)) (by linarith)
    have l : -1 ≤ logGamma (n + q) := by
      by_cases h2 : (n : ℝ) + q ≤ 2
      · exact (abs_le.1 (logGamma_mid (by linarith) h2)).1
      · linarith [logGamma_nonneg (x := n + q) (by linarith)]
    have : |logGamma (n + q)| ≤ 1 + nLog n := abs_le.2 ⟨by linarith, by linarith⟩
    linarith

/-- A relative change of the argument by at most `κ`. -/
theorem logGamma_perturb {M : Nat} (hM : 1 ≤ M) (n : Nat) {q y κ : ℝ} (hq : 1 / (2 * M) ≤ q) (hq2 : q ≤ 1 / 2) (hκ0 : 0 ≤ κ) (hκ : κ ≤ 1 / 2)
    (hy : |y - (n + q)| ≤ κ * (n + q)) : |logGamma y - logGamma (n + q)| ≤ 6 * κ * cellBound M n := by
  have hM' : (1 : ℝ) ≤ M := by exact_mod_cast hM
  have hq0 : 0 < q := lt_of_lt_of_le (by positivity) hq
  have hn0 : (0 : ℝ) ≤ n := Nat.cast_nonneg n
  have hl0 : 0 ≤ Real.log (2 * M) := Real.log_nonneg (by linarith)
  have hnl := nLog_nonneg n
  have hx : 0 < (n : ℝ) + q := by linarith
  have hy' := abs_le.1 hy
  have hk : κ * (n + q) ≤ (n + q) / 2 := by nlinarith
  refine (logGamma_change hx (by linarith) (by linarith)).trans ?_
  have hpos : 0 ≤ |Real.log (n + q)| + 1 + 2 / (n + q) := by positivity
  refine (mul_le_mul_of_nonneg_right hy hpos).trans ?_
  have hxl : (n + q) * |Real.log (n + q)| ≤ 2 * nLog n + 1 := by
    rcases Nat.eq_zero_or_pos n with rfl | h
    · simp only [Nat.cast_zero, zero_add, nLog, zero_mul, mul_zero]
      rw [abs_of_nonpos (Real.log_nonpos hq0.le (by linarith))]
      have h1 := Real.log_le_sub_one_of_pos (inv_pos.2 hq0)
      rw [Real.log_inv] at h1
      calc q * -Real.log q ≤ q * (q⁻¹ - 1) := mul_le_mul_of_nonneg_left h1 hq0.le
        _ = 1 - q := by field_simp
        _ ≤ 1 := by linarith
    · have h1 : (1 : ℝ) ≤ n := by exact_mod_cast h
      rw [abs_of_nonneg (Real.log_nonneg (by linarith))]
      have h2 : Real.log (n + q) ≤ Real.log (n + 1) := Real.log_le_log hx (by linarith)
      have h3 : 0 ≤ Real.log (n + q) := Real.log_nonneg (by linarith)
      unfold nLog
      nlinarith
  have h2n := half_le_nLog n
  unfold cellBound
  have e1 : κ * (n + q) * (|Real.log (n + q)| + 1 + 2 / (n + q)) = κ * ((n + q) * |Real.log (n + q)| + (n + q) + 2) := by
    field_simp
  rw [e1, show 6 * κ * (Real.log (2 * M) + 2 + nLog n) = κ * (6 * (Real.log (2 * M) + 2 + nLog n)) by ring]
  refine mul_le_mul_of_nonneg_left ?_ hκ0
  linarith

end TreeCat
