import Verif.Lemmas.Float

/-! # Monotone rounding -/

namespace TreeCat.Util

/-- A rounding that is monotone and leaves floats alone. Rounding to nearest is one, and so is rounding to a wider format first. -/
structure MonoRounding (p : Nat) (emin : Int) (rnd : ℚ → ℚ) : Prop where
  float : ∀ x, IsFloat p emin (rnd x)
  mono : ∀ {x y}, x ≤ y → rnd x ≤ rnd y
  id : ∀ {x}, IsFloat p emin x → rnd x = x

theorem IsRounding.monoRounding {p : Nat} {emin : Int} {rnd : ℚ → ℚ} (R : IsRounding p emin rnd) : MonoRounding p emin rnd :=
  ⟨R.float, fun h => R.mono h, fun h => R.id h⟩

theorem MonoRounding.comp {p q : Nat} {emin fmin : Int} {rnd rw : ℚ → ℚ} (R : MonoRounding p emin rnd) (W : MonoRounding q fmin rw) (hpq : p ≤ q)
    (he : fmin ≤ emin) : MonoRounding p emin fun x => rnd (rw x) :=
  ⟨fun _ => R.float _, fun h => R.mono (W.mono h), fun h => by rw [W.id (h.widen hpq he), R.id h]⟩

section
variable {p : Nat} {emin : Int} {rnd : ℚ → ℚ} (R : MonoRounding p emin rnd)
include R

theorem MonoRounding.nonneg {x : ℚ} (h : 0 ≤ x) : 0 ≤ rnd x := by
  have := R.mono h
  rwa [R.id (isFloat_zero p emin)] at this

/-- Bounds that are floats survive. -/
theorem MonoRounding.le_of {x y : ℚ} (hy : IsFloat p emin y) (h : x ≤ y) : rnd x ≤ y := by
  have := R.mono h
  rwa [R.id hy] at this

theorem MonoRounding.ge_of {x y : ℚ} (hy : IsFloat p emin y) (h : y ≤ x) : y ≤ rnd x := by
  have := R.mono h
  rwa [R.id hy] at this

/-- The error is at most the distance of two floats around the number. -/
theorem MonoRounding.error (hp : 1 ≤ p) {x : ℚ} {j : Int} (hj : emin ≤ j) (h0 : 0 ≤ x) (hx : x ≤ 2 ^ (j + p)) : |rnd x - x| ≤ 2 ^ j := by
  have hpos := two_zpow_pos j
  have hfl := Int.floor_le (x / 2 ^ j)
  have hlt := Int.lt_floor_add_one (x / 2 ^ j)
  have hn0 : 0 ≤ ⌊x / 2 ^ j⌋ := Int.floor_nonneg.2 (div_nonneg h0 hpos.le)
  have hle : x / 2 ^ j ≤ 2 ^ p := by
    rw [div_le_iff₀ hpos, pow_zpow, ← zpow_split, add_comm]
    exact hx
  set n := ⌊x / 2 ^ j⌋ with hn
  rw [le_div_iff₀ hpos] at hfl
  rw [div_lt_iff₀ hpos] at hlt
  have hnp : n ≤ 2 ^ p := by
    have : (n : ℚ) ≤ 2 ^ p := le_trans (Int.floor_le _) hle
    exact_mod_cast this
  have h1 : (n : ℚ) * 2 ^ j ≤ rnd x := R.ge_of (isFloat_of_le hp hj (by rw [abs_of_nonneg hn0]; exact hnp)) hfl
  have h2 : rnd x ≤ ((n : ℚ) + 1) * 2 ^ j := by
    rcases lt_or_eq_of_le hnp with h | h
    · have := R.le_of (isFloat_of_le (m := n + 1) hp hj (by rw [abs_of_nonneg (by omega)]; omega)) (x := x) (by push_cast; exact hlt.le)
      push_cast at this
      exact this
    · have hx' : x ≤ n * 2 ^ j := by
        rw [h, Int.cast_pow, Int.cast_ofNat, pow_zpow, ← zpow_split, add_comm]
        exact hx
      have := R.le_of (isFloat_of_le hp hj (by rw [abs_of_nonneg hn0]; exact hnp)) hx'
      linarith
  rw [abs_le]
  constructor <;> linarith

end

/-- A float in a binade is a multiple of its last bit. -/
theorem IsFloat.multiple {p : Nat} {emin : Int} {x : ℚ} (h : IsFloat p emin x) {j : Int} (hx : 2 ^ (j + p) ≤ 2 * x) : ∃ n : Int, x = n * 2 ^ j := by
  obtain ⟨m, e, hm, he, rfl⟩ := h
  have hje : j ≤ e := by
    by_contra hcon
    push Not at hcon
    have h1 : (m : ℚ) < 2 ^ p := by
      have : (m : ℚ) ≤ |m| := by exact_mod_cast le_abs_self m
      have h2 : ((|m| : Int) : ℚ) < 2 ^ p := by exact_mod_cast hm
      exact lt_of_le_of_lt (by exact_mod_cast this) h2
    have h3 : 2 * ((m : ℚ) * 2 ^ e) < 2 * (2 ^ p * 2 ^ e) := by
      have := mul_lt_mul_of_pos_right h1 (two_zpow_pos e)
      linarith
    have h4 : 2 * ((2 : ℚ) ^ p * 2 ^ e) = 2 ^ (p + (e + 1) : Int) := by
      rw [zpow_split, zpow_split, zpow_one, pow_zpow]
      ring
    have h5 : (2 : ℚ) ^ (p + (e + 1) : Int) ≤ 2 ^ (j + p) := zpow_mono (by omega)
    linarith
  refine ⟨m * 2 ^ (e - j).toNat, ?_⟩
  push_cast
  rw [mul_assoc, pow_zpow, ← zpow_split, Int.toNat_of_nonneg (by omega), sub_add_cancel]

/-- A positive number lies in a binade. -/
theorem exists_binade {x : ℚ} (hx : 0 < x) : ∃ e : Int, 2 ^ e ≤ x ∧ x < 2 ^ (e + 1) := by
  have h1 := log_le hx.ne'
  have h2 := lt_log x
  rw [abs_of_pos hx] at h1 h2
  exact ⟨_, h1, h2⟩

end TreeCat.Util
