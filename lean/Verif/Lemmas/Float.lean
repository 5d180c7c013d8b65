import Mathlib.Tactic.Linarith
import Mathlib.Tactic.Ring
import Mathlib.Tactic.Positivity
import Mathlib.Tactic.FieldSimp
import Mathlib.Tactic.NormNum
import Verif.Model.Float

/-! # Rounding to a binary format -/

namespace TreeCat.Util

/-- `rnd` rounds to a nearest number of the format; ties may be broken in any way. -/
structure IsRounding (p : Nat) (emin : Int) (rnd : ℚ → ℚ) : Prop where
  float : ∀ x, IsFloat p emin (rnd x)
  nearest : ∀ x y, IsFloat p emin y → |rnd x - x| ≤ |y - x|

theorem roundHalfEven_nearest (q : ℚ) (z : Int) : |(roundHalfEven q : ℚ) - q| ≤ |(z : ℚ) - q| := by
  have h1 := Int.floor_le q
  have h2 := Int.lt_floor_add_one q
  have hz : (z : ℚ) ≤ ⌊q⌋ ∨ ((⌊q⌋ : ℚ) + 1) ≤ z := by
    rcases le_or_gt z ⌊q⌋ with h | h
    · exact .inl (by exact_mod_cast h)
    · exact .inr (by exact_mod_cast h)
  have low : ∀ a : ℚ, a = ⌊q⌋ → q - ⌊q⌋ ≤ 1 / 2 → |a - q| ≤ |(z : ℚ) - q| := by
    rintro a rfl h
    rw [abs_of_nonpos (by linarith : (⌊q⌋ : ℚ) - q ≤ 0)]
    rcases hz with hz | hz
    · rw [abs_of_nonpos (by linarith)]; linarith
    · rw [abs_of_nonneg (by linarith)]; linarith
  have high : ∀ a : ℚ, a = ⌊q⌋ + 1 → 1 / 2 ≤ q - ⌊q⌋ → |a - q| ≤ |(z : ℚ) - q| := by
    rintro a rfl h
    rw [abs_of_nonneg (by linarith : 0 ≤ (⌊q⌋ : ℚ) + 1 - q)]
    rcases hz with hz | hz
    · rw [abs_of_nonpos (by linarith)]; linarith
    · rw [abs_of_nonneg (by linarith)]; linarith
  unfold roundHalfEven
  split_ifs with a b c
  · exact low _ rfl a.le
  · exact high _ (by push_cast; rfl) b.le
  · exact low _ rfl (not_lt.1 b)
  · exact high _ (by push_cast; rfl) (not_lt.1 a)

theorem roundHalfEven_half (q : ℚ) : |(roundHalfEven q : ℚ) - q| ≤ 1 / 2 := by
  have h1 := Int.floor_le q
  have h2 := Int.lt_floor_add_one q
  rcases le_or_gt (q - ⌊q⌋) (1 / 2) with h | h
  · refine le_trans (roundHalfEven_nearest q ⌊q⌋) ?_
    rw [abs_of_nonpos (by linarith)]; linarith
  · refine le_trans (roundHalfEven_nearest q (⌊q⌋ + 1)) ?_
    push_cast
    rw [abs_of_nonneg (by linarith)]; linarith

theorem two_zpow_pos (e : Int) : (0 : ℚ) < 2 ^ e := zpow_pos (by norm_num) e

theorem zpow_mono {a b : Int} (h : a ≤ b) : (2 : ℚ) ^ a ≤ 2 ^ b := zpow_le_zpow_right₀ (by norm_num) h

theorem zpow_split (a b : Int) : (2 : ℚ) ^ (a + b) = 2 ^ a * 2 ^ b := zpow_add₀ (by norm_num) a b

theorem pow_zpow (n : Nat) : ((2 : ℚ) ^ n) = 2 ^ (n : Int) := (zpow_natCast 2 n).symm

/-- A multiple of a power of two that is not too large is a float. -/
theorem isFloat_of_le {p : Nat} (hp : 1 ≤ p) {emin e : Int} (he : emin ≤ e) {m : Int} (hm : |m| ≤ 2 ^ p) : IsFloat p emin (m * (2 : ℚ) ^ e) := by
  rcases lt_or_eq_of_le hm with h | h
  · exact ⟨m, e, h, he, rfl⟩
  · obtain ⟨k, rfl⟩ : ∃ k, p = k + 1 := ⟨p - 1, by omega⟩
    have : (2 : Int) ^ (k + 1) = 2 * 2 ^ k := by ring
    rcases abs_choice m with h' | h'
    · refine ⟨2 ^ k, e + 1, ?_, by omega, ?_⟩
      · rw [abs_of_pos (by positivity)]
        have : (0 : Int) < 2 ^ k := by positivity
        omega
      · rw [← h', h, zpow_split]
        push_cast
        ring
    · refine ⟨-2 ^ k, e + 1, ?_, by omega, ?_⟩
      · rw [abs_neg, abs_of_pos (by positivity)]
        have : (0 : Int) < 2 ^ k := by positivity
        omega
      · have : m = -2 ^ (k + 1) := by rw [← h, h']; ring
        rw [this, zpow_split]
        push_cast
        ring

theorem isFloat_zero (p : Nat) (emin : Int) : IsFloat p emin 0 := ⟨0, emin, by simp, le_refl _, by simp⟩

theorem log_le {x : ℚ} (hx : x ≠ 0) : (2 : ℚ) ^ Int.log 2 |x| ≤ |x| := by
  have := Int.zpow_log_le_self (b := 2) (r := |x|) (by norm_num) (abs_pos.2 hx)
  exact_mod_cast this

theorem lt_log (x : ℚ) : |x| < (2 : ℚ) ^ (Int.log 2 |x| + 1) := by
  have := Int.lt_zpow_succ_log_self (b := 2) (by norm_num) |x|
  exact_mod_cast this

theorem abs_mul_zpow (m : ℚ) (e : Int) : |m * (2 : ℚ) ^ e| = |m| * 2 ^ e := by
  rw [abs_mul, abs_of_pos (two_zpow_pos e)]

/-- How far the rounded number is from the number. -/
theorem roundTo_error (p : Nat) (emin : Int) (x : ℚ) : |roundTo p emin x - x| ≤ 2 ^ (lastBit p emin x - 1) := by
  unfold roundTo
  set e := lastBit p emin x
  have h := roundHalfEven_half (x / 2 ^ e)
  have hpos := two_zpow_pos e
  have : (roundHalfEven (x / 2 ^ e) : ℚ) * 2 ^ e - x = (roundHalfEven (x / 2 ^ e) - x / 2 ^ e) * 2 ^ e := by
    field_simp
  rw [this, abs_mul_zpow, show e - 1 = e + (-1) by ring, zpow_split, mul_comm ((2 : ℚ) ^ e)]
  refine mul_le_mul_of_nonneg_right (le_trans h ?_) hpos.le
  norm_num

/-- The default rounding is a rounding to the nearest float. -/
theorem roundTo_isRounding {p : Nat} (hp : 1 ≤ p) (emin : Int) : IsRounding p emin (roundTo p emin) := by
  have key : ∀ (x : ℚ) (z : Int), |roundTo p emin x - x| ≤ |(z : ℚ) * 2 ^ lastBit p emin x - x| := by
    intro x z
    unfold roundTo
    set e := lastBit p emin x
    have hpos := two_zpow_pos e
    have h := roundHalfEven_nearest (x / 2 ^ e) z
    have e1 : ∀ a : ℚ, a * 2 ^ e - x = (a - x / 2 ^ e) * 2 ^ e := by intro a; field_simp
    rw [e1, e1, abs_mul_zpow, abs_mul_zpow]
    exact mul_le_mul_of_nonneg_right h hpos.le
  constructor
  · intro x
    have he : emin ≤ lastBit p emin x := le_max_left _ _
    refine isFloat_of_le hp he ?_
    set e := lastBit p emin x with hedef
    -- the quotient is at most `2 ^ p`
    have hq : |x / 2 ^ e| < 2 ^ p := by
      rw [abs_div, abs_of_pos (two_zpow_pos e), div_lt_iff₀ (two_zpow_pos e)]
      refine lt_of_lt_of_le (lt_log x) ?_
      rw [pow_zpow, ← zpow_split]
      apply zpow_mono
      have : Int.log 2 |x| - p + 1 ≤ e := le_max_right _ _
      omega
    have hz1 := roundHalfEven_nearest (x / 2 ^ e) (2 ^ p)
    have hz2 := roundHalfEven_nearest (x / 2 ^ e) (-2 ^ p)
    obtain ⟨q1, q2⟩ := abs_lt.1 hq
    have up : (roundHalfEven (x / 2 ^ e) : ℚ) ≤ 2 ^ p := by
      by_contra hlt
      push Not at hlt
      push_cast at hz1
      rw [abs_of_nonneg (by linarith), abs_of_nonneg (by linarith)] at hz1
      linarith
    have down : -(2 : ℚ) ^ p ≤ roundHalfEven (x / 2 ^ e) := by
      by_contra hlt
      push Not at hlt
      push_cast at hz2
      rw [abs_of_nonpos (by linarith), abs_of_nonpos (by linarith)] at hz2
      linarith
    rw [abs_le]
    exact ⟨by exact_mod_cast down, by exact_mod_cast up⟩
  · rintro x y ⟨m, e', hm, he', rfl⟩
    by_cases hx : x = 0
    · subst hx
      have := key 0 0
      simp only [Int.cast_zero, zero_mul, sub_self, abs_zero] at this
      exact le_trans this (abs_nonneg _)
    set e := lastBit p emin x with hedef
    rcases le_or_gt e e' with h | h
    · -- a multiple of the last bit
      obtain ⟨k, hk⟩ : ∃ k : Nat, e' = e + k := ⟨(e' - e).toNat, by omega⟩
      have := key x (m * 2 ^ k)
      rw [← hedef] at this
      convert this using 2
      rw [hk, zpow_split]
      push_cast
      rw [zpow_natCast]
      ring
    · -- a float below the binade of `x`
      have hlast : e = Int.log 2 |x| - p + 1 := by
        rw [hedef]
        unfold lastBit
        exact max_eq_right (by rw [hedef] at h; unfold lastBit at h; omega)
      have hy : |(m : ℚ) * 2 ^ e'| < 2 ^ Int.log 2 |x| := by
        rw [abs_mul_zpow]
        have h1 : |(m : ℚ)| < 2 ^ p := by exact_mod_cast hm
        refine lt_of_lt_of_le (mul_lt_mul_of_pos_right h1 (two_zpow_pos e')) ?_
        rw [pow_zpow, ← zpow_split]
        exact zpow_mono (by omega)
      obtain ⟨k, rfl⟩ : ∃ k, p = k + 1 := ⟨p - 1, by omega⟩
      have hB : (2 : ℚ) ^ Int.log 2 |x| = 2 ^ k * 2 ^ e := by
        rw [pow_zpow, ← zpow_split, hlast]
        congr 1
        push_cast
        ring
      have hlog := log_le hx
      obtain ⟨y1, y2⟩ := abs_lt.1 hy
      rcases lt_or_gt_of_ne hx with hneg | hpos
      · have := key x (-2 ^ k)
        rw [← hedef] at this
        push_cast at this
        rw [neg_mul, ← hB] at this
        refine le_trans this ?_
        rw [abs_of_neg hneg] at *
        rw [abs_of_nonneg (by linarith), abs_of_nonneg (by linarith)]
        linarith
      · have := key x (2 ^ k)
        rw [← hedef] at this
        push_cast at this
        rw [← hB] at this
        refine le_trans this ?_
        rw [abs_of_pos hpos] at *
        rw [abs_of_nonpos (by linarith), abs_of_nonpos (by linarith)]
        linarith

section
variable {p : Nat} {emin : Int} {rnd : ℚ → ℚ} (R : IsRounding p emin rnd)
include R

theorem IsRounding.id {x : ℚ} (h : IsFloat p emin x) : rnd x = x := by
  have := R.nearest x x h
  rw [sub_self, abs_zero, abs_nonpos_iff] at this
  linarith

theorem IsRounding.mono {x y : ℚ} (h : x ≤ y) : rnd x ≤ rnd y := by
  rcases eq_or_lt_of_le h with rfl | h
  · exact le_refl _
  · by_contra hlt
    push Not at hlt
    have h1 := R.nearest x (rnd y) (R.float y)
    have h2 := R.nearest y (rnd x) (R.float x)
    rw [← sq_le_sq] at h1 h2
    nlinarith

theorem IsRounding.nonneg {x : ℚ} (h : 0 ≤ x) : 0 ≤ rnd x := by
  have := R.mono h
  rwa [R.id (isFloat_zero p emin)] at this

/-- The error of rounding. -/
theorem IsRounding.error (hp : 1 ≤ p) (x : ℚ) : |rnd x - x| ≤ |x| / 2 ^ p + 2 ^ (emin - 1) := by
  have h0 : 0 ≤ |x| / 2 ^ p := by positivity
  have h1 := (two_zpow_pos (emin - 1)).le
  by_cases hx : x = 0
  · subst hx
    rw [R.id (isFloat_zero p emin), sub_self, abs_zero]
    simpa using h1
  refine le_trans (R.nearest x _ ((roundTo_isRounding hp emin).float x)) (le_trans (roundTo_error p emin x) ?_)
  unfold lastBit
  rcases max_choice emin (Int.log 2 |x| - p + 1) with h | h
  · rw [h]; linarith
  · rw [h]
    have := log_le hx
    rw [show Int.log 2 |x| - (p : Int) + 1 - 1 = Int.log 2 |x| + -(p : Int) by ring, zpow_split, zpow_neg, zpow_natCast, ← div_eq_mul_inv]
    have : (2 : ℚ) ^ Int.log 2 |x| / 2 ^ p ≤ |x| / 2 ^ p := by gcongr
    linarith

/-- Sums of floats are rounded with a small relative error: where floats are sparse near zero, sums are exact. -/
theorem IsRounding.add_error (hp : 1 ≤ p) {a b : ℚ} (ha : IsFloat p emin a) (hb : IsFloat p emin b) : |rnd (a + b) - (a + b)| ≤ |a + b| / 2 ^ p := by
  have h0 : 0 ≤ |a + b| / 2 ^ p := by positivity
  by_cases hx : a + b = 0
  · rw [hx, R.id (isFloat_zero p emin), sub_self, abs_zero]
    simp
  by_cases hsmall : Int.log 2 |a + b| - p + 1 ≤ emin
  · have hfl : IsFloat p emin (a + b) := by
      obtain ⟨m, e, -, he, rfl⟩ := ha
      obtain ⟨n, f, -, hf, rfl⟩ := hb
      obtain ⟨k, rfl⟩ : ∃ k : Nat, e = emin + k := ⟨(e - emin).toNat, by omega⟩
      obtain ⟨l, rfl⟩ : ∃ l : Nat, f = emin + l := ⟨(f - emin).toNat, by omega⟩
      have hsum : (m : ℚ) * 2 ^ (emin + k) + n * 2 ^ (emin + l) = ((m * 2 ^ k + n * 2 ^ l : Int) : ℚ) * 2 ^ emin := by
        rw [zpow_split, zpow_split, zpow_natCast, zpow_natCast]
        push_cast
        ring
      have hlt := lt_log ((m : ℚ) * 2 ^ (emin + k) + n * 2 ^ (emin + l))
      rw [hsum] at hlt hsmall ⊢
      refine ⟨_, emin, ?_, le_refl _, rfl⟩
      have h2 := lt_of_lt_of_le hlt (zpow_mono (b := p + emin) (by omega))
      rw [abs_mul_zpow, zpow_split, zpow_natCast] at h2
      have h3 := lt_of_mul_lt_mul_right h2 (two_zpow_pos emin).le
      exact_mod_cast h3
    rw [R.id hfl, sub_self, abs_zero]
    exact h0
  · refine le_trans (R.nearest (a + b) _ ((roundTo_isRounding hp emin).float (a + b))) (le_trans (roundTo_error p emin (a + b)) ?_)
    have h : lastBit p emin (a + b) = Int.log 2 |a + b| - p + 1 := max_eq_right (by omega)
    have := log_le hx
    rw [h, show Int.log 2 |a + b| - (p : Int) + 1 - 1 = Int.log 2 |a + b| + -(p : Int) by ring, zpow_split, zpow_neg, zpow_natCast, ← div_eq_mul_inv]
    gcongr

/-- A float that is not tiny, times a number that is less than one by at least the unit roundoff, rounds to a smaller float. -/
theorem IsRounding.mul_lt (hp : 1 ≤ p) {T u : ℚ} (hT : IsFloat p emin T) (hbig : 2 ^ (emin + p) ≤ T) (hu : u ≤ 1 - 1 / 2 ^ p) : rnd (u * T) < T := by
  have hTpos : 0 < T := lt_of_lt_of_le (two_zpow_pos _) hbig
  have hxT : u * T ≤ T - T / 2 ^ p := by
    have := mul_le_mul_of_nonneg_right hu hTpos.le
    calc u * T ≤ (1 - 1 / 2 ^ p) * T := this
      _ = T - T / 2 ^ p := by ring
  -- the float below `T`
  obtain ⟨m, e', hm, he', hTe⟩ := hT
  set k := Int.log 2 |T| with hk
  have hl := log_le hTpos.ne'
  have hl' := lt_log T
  rw [← hk, abs_of_pos hTpos] at hl hl'
  have hkbig : emin + p ≤ k := by
    by_contra hcon
    have : (2 : ℚ) ^ (k + 1) ≤ 2 ^ (emin + p) := zpow_mono (by omega)
    linarith
  set e := k - p + 1 with he
  have hee : e ≤ e' := by
    by_contra hcon
    have h1 : |(m : ℚ)| < 2 ^ p := by exact_mod_cast hm
    have h2 : T < 2 ^ p * 2 ^ e' := by
      rw [hTe]
      exact mul_lt_mul_of_pos_right (lt_of_le_of_lt (le_abs_self _) h1) (two_zpow_pos e')
    rw [pow_zpow, ← zpow_split] at h2
    have : (2 : ℚ) ^ ((p : Int) + e') ≤ 2 ^ k := zpow_mono (by omega)
    linarith
  obtain ⟨j, hj⟩ : ∃ j : Nat, e' = e + j := ⟨(e' - e).toNat, by omega⟩
  set n : Int := m * 2 ^ j with hn
  have hTn : T = n * (2 : ℚ) ^ e := by
    rw [hTe, hj, zpow_split, zpow_natCast, hn]
    push_cast
    ring
  obtain ⟨q, rfl⟩ : ∃ q, p = q + 1 := ⟨p - 1, by omega⟩
  have hepos := two_zpow_pos e
  have hkq : (2 : ℚ) ^ k = 2 ^ q * 2 ^ e := by
    rw [pow_zpow, ← zpow_split, he]
    congr 1
    push_cast
    ring
  have hnlow : (2 : ℚ) ^ q ≤ n := by
    rw [hTn, hkq] at hl
    exact le_of_mul_le_mul_right hl hepos
  have hnhigh : (n : ℚ) < 2 ^ (q + 1) := by
    have hl2 : T < 2 ^ k * 2 ^ (1 : Int) := by rw [← zpow_split]; exact hl'
    rw [hTn, hkq] at hl2
    have : (n : ℚ) * 2 ^ e < 2 ^ (q + 1) * 2 ^ e := by
      refine lt_of_lt_of_eq hl2 ?_
      rw [pow_succ]
      norm_num
      ring
    exact lt_of_mul_lt_mul_right this hepos.le
  have hle : rnd (u * T) ≤ T := by
    have h1 : u * T ≤ T := le_trans hxT (by have : 0 ≤ T / 2 ^ (q + 1) := by positivity
                                            linarith)
    have h2 := R.mono h1
    rwa [R.id ⟨m, e', hm, he', hTe⟩] at h2
  have hgap : T / 2 ^ (q + 1) = n / 2 ^ q * (2 ^ e / 2) := by
    rw [hTn, pow_succ]
    field_simp
  have hpow : (0 : ℚ) < 2 ^ q := by positivity
  rcases eq_or_lt_of_le hnlow with heq | hlt
  · -- a power of two: the float below has one more bit
    have hy : IsFloat (q + 1) emin ((2 ^ (q + 1) - 1 : Int) * (2 : ℚ) ^ (e - 1)) := by
      refine ⟨_, e - 1, ?_, by push_cast at hkbig he ⊢; omega, rfl⟩
      have : (0 : Int) < 2 ^ (q + 1) := by positivity
      rw [abs_of_nonneg (by omega)]
      omega
    have hye : ((2 ^ (q + 1) - 1 : Int) : ℚ) * (2 : ℚ) ^ (e - 1) = T - 2 ^ e / 2 := by
      rw [hTn, ← heq, show e - 1 = e + (-1) by ring, zpow_split, pow_succ]
      push_cast
      norm_num
      ring
    rw [hye] at hy
    have hx : u * T ≤ T - 2 ^ e / 2 := by
      rw [hgap, ← heq, div_self hpow.ne', one_mul] at hxT
      exact hxT
    have := R.mono hx
    rw [R.id hy] at this
    linarith
  · -- otherwise the number is nearer to the float below
    refine lt_of_le_of_ne hle fun heq => ?_
    have hy : IsFloat (q + 1) emin ((n - 1 : Int) * (2 : ℚ) ^ e) := by
      refine ⟨n - 1, e, ?_, by push_cast at hkbig he ⊢; omega, rfl⟩
      have h1 : n < 2 ^ (q + 1) := by exact_mod_cast hnhigh
      have h2 : (2 : Int) ^ q < n := by exact_mod_cast hlt
      have : (0 : Int) < 2 ^ q := by positivity
      rw [abs_of_nonneg (by omega)]
      omega
    have hye : ((n - 1 : Int) : ℚ) * (2 : ℚ) ^ e = T - 2 ^ e := by
      rw [hTn]
      push_cast
      ring
    rw [hye] at hy
    have hx : u * T < T - 2 ^ e / 2 := by
      rw [hgap] at hxT
      have : 1 < (n : ℚ) / 2 ^ q := by rwa [lt_div_iff₀ hpow, one_mul]
      nlinarith
    rcases le_or_gt (T - 2 ^ e) (u * T) with h | h
    · have := R.nearest (u * T) _ hy
      rw [heq, abs_of_nonneg (by linarith), abs_of_nonpos (by linarith)] at this
      linarith
    · have := R.mono h.le
      rw [R.id hy, heq] at this
      linarith

end

/-- A format contains every format with less precision and a larger least exponent. -/
theorem IsFloat.widen {p q : Nat} {emin fmin : Int} (hpq : p ≤ q) (he : fmin ≤ emin) {x : ℚ} (h : IsFloat p emin x) : IsFloat q fmin x := by
  obtain ⟨m, e, h1, h2, h3⟩ := h
  exact ⟨m, e, lt_of_lt_of_le h1 (pow_le_pow_right₀ (by norm_num) hpq), by omega, h3⟩

/-- A positive float is at least the smallest one. -/
theorem IsFloat.ge {p : Nat} {emin : Int} {x : ℚ} (h : IsFloat p emin x) (hx : 0 < x) : (2 : ℚ) ^ emin ≤ x := by
  obtain ⟨m, e, -, he, rfl⟩ := h
  have hm : (0 : ℚ) < m := by
    by_contra hcon
    push Not at hcon
    have := mul_nonpos_of_nonpos_of_nonneg hcon (two_zpow_pos e).le
    linarith
  have hm' : (1 : ℚ) ≤ m := by
    have : 0 < m := by exact_mod_cast hm
    exact_mod_cast this
  calc (2 : ℚ) ^ emin ≤ 2 ^ e := zpow_mono he
    _ = 1 * 2 ^ e := (one_mul _).symm
    _ ≤ m * 2 ^ e := mul_le_mul_of_nonneg_right hm' (two_zpow_pos e).le

end TreeCat.Util
