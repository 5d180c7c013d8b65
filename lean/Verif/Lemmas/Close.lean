import Verif.Lemmas.FloatNear
import Verif.Lemmas.FloatTree

/-! # Real numbers that differ by a few roundings, and the distributions they give -/

namespace TreeCat

open Util Spec
open scoped BigOperators

/-- Positive reals within `k` roundings of each other. -/
def Close (k : Nat) (x y : ℝ) : Prop := 0 < x ∧ 0 < y ∧ x ≤ y * (ulp : ℝ) ^ k ∧ y ≤ x * (ulp : ℝ) ^ k

theorem Close.refl {x : ℝ} (h : 0 < x) : Close 0 x x := ⟨h, h, by simp, by simp⟩

theorem Close.symm {k : Nat} {x y : ℝ} (h : Close k x y) : Close k y x := ⟨h.2.1, h.1, h.2.2.2, h.2.2.1⟩

theorem Close.mono {k l : Nat} (hkl : k ≤ l) {x y : ℝ} (h : Close k x y) : Close l x y := by
  have hp : (ulp : ℝ) ^ k ≤ (ulp : ℝ) ^ l := pow_le_pow_right₀ ulpR_ge hkl
  exact ⟨h.1, h.2.1, le_trans h.2.2.1 (mul_le_mul_of_nonneg_left hp h.2.1.le), le_trans h.2.2.2 (mul_le_mul_of_nonneg_left hp h.1.le)⟩

theorem Close.trans {k l : Nat} {x y z : ℝ} (h : Close k x y) (h' : Close l y z) : Close (k + l) x z := by
  refine ⟨h.1, h'.2.1, ?_, ?_⟩
  · calc x ≤ y * (ulp : ℝ) ^ k := h.2.2.1
      _ ≤ z * (ulp : ℝ) ^ l * (ulp : ℝ) ^ k := mul_le_mul_of_nonneg_right h'.2.2.1 (ulpR_pos k).le
      _ = z * (ulp : ℝ) ^ (k + l) := by rw [pow_add]; ring
  · calc z ≤ y * (ulp : ℝ) ^ l := h'.2.2.2
      _ ≤ x * (ulp : ℝ) ^ k * (ulp : ℝ) ^ l := mul_le_mul_of_nonneg_right h.2.2.2 (ulpR_pos l).le
      _ = x * (ulp : ℝ) ^ (k + l) := by rw [pow_add]; ring

theorem Close.mul {k l : Nat} {x y x' y' : ℝ} (h : Close k x y) (h' : Close l x' y') : Close (k + l) (x * x') (y * y') := by
  refine ⟨mul_pos h.1 h'.1, mul_pos h.2.1 h'.2.1, ?_, ?_⟩
  · calc x * x' ≤ (y * (ulp : ℝ) ^ k) * (y' * (ulp : ℝ) ^ l) := mul_le_mul h.2.2.1 h'.2.2.1 h'.1.le (mul_pos h.2.1 (ulpR_pos k)).le
      _ = y * y' * (ulp : ℝ) ^ (k + l) := by rw [pow_add]; ring
  · calc y * y' ≤ (x * (ulp : ℝ) ^ k) * (x' * (ulp : ℝ) ^ l) := mul_le_mul h.2.2.2 h'.2.2.2 h'.2.1.le (mul_pos h.1 (ulpR_pos k)).le
      _ = x * x' * (ulp : ℝ) ^ (k + l) := by rw [pow_add]; ring

theorem Close.scale {k : Nat} {x y c : ℝ} (hc : 0 < c) (h : Close k x y) : Close k (x * c) (y * c) := by
  simpa using h.mul (Close.refl hc)

theorem Close.div {k : Nat} {x y c : ℝ} (hc : 0 < c) (h : Close k x y) : Close k (x / c) (y / c) := by
  rw [div_eq_mul_inv, div_eq_mul_inv]
  exact h.scale (inv_pos.2 hc)

theorem Close.prod {l : List Nat} {κ : Nat → Nat} {f g : Nat → ℝ} (h : ∀ v ∈ l, Close (κ v) (f v) (g v)) : Close (l.map κ).sum (l.map f).prod (l.map g).prod := by
  induction l with
  | nil => simpa using Close.refl (x := 1) one_pos
  | cons v l ih =>
    simp only [List.map_cons, List.sum_cons, List.prod_cons]
    exact (h v List.mem_cons_self).mul (ih fun w hw => h w (List.mem_cons_of_mem _ hw))

theorem Near.close {k : Nat} {x : Flt} {y : ℝ} (h : Near k x y) : Close k ((x.getD 0 : ℚ) : ℝ) y := by
  obtain ⟨-, -, h1, h2, h3⟩ := h.get
  exact ⟨by exact_mod_cast h1, h.pos, h2, h3⟩

theorem log_ulp : Real.log (ulp : ℝ) ≤ 2 ^ (-23 : Int) := by
  refine le_trans (Real.log_le_sub_one_of_pos (show (0 : ℝ) < (ulp : ℝ) by exact_mod_cast ulp_pos)) (le_of_eq ?_)
  unfold ulp
  push_cast
  ring

/-- Expected values under two distributions whose weights are within `K` roundings. -/
theorem close_expect_le {ι : Type} (s : Finset ι) (hne : s.Nonempty) {w w' k : ι → ℝ} {K : Nat} (h : ∀ i ∈ s, Close K (w i) (w' i)) {lo hi : ℝ} (hk : ∀ i ∈ s, lo ≤ k i ∧ k i ≤ hi) :
    (∑ i ∈ s, w i * k i) / (∑ i ∈ s, w i) - (∑ i ∈ s, w' i * k i) / (∑ i ∈ s, w' i) ≤ 2 * K * 2 ^ (-23 : Int) * (hi - lo) := by
  have hW : 0 < ∑ i ∈ s, w i := Finset.sum_pos (fun i hi => (h i hi).1) hne
  have hW' : 0 < ∑ i ∈ s, w' i := Finset.sum_pos (fun i hi => (h i hi).2.1) hne
  have shift : ∀ u : ι → ℝ, 0 < ∑ i ∈ s, u i → (∑ i ∈ s, u i * k i) / (∑ i ∈ s, u i) = lo + (∑ i ∈ s, u i * (k i - lo)) / (∑ i ∈ s, u i) := by
    intro u hu
    simp only [mul_sub]
    rw [Finset.sum_sub_distrib, ← Finset.sum_mul]
    field_simp
    ring
  rw [shift w hW, shift w' hW']
  set F := (ulp : ℝ) ^ K with hF
  have hF0 : 0 < F := ulpR_pos K
  have h0 : ∀ i ∈ s, 0 ≤ k i - lo := fun i hi => by linarith [(hk i hi).1]
  set X := ∑ i ∈ s, w i * (k i - lo) with hX
  set Y := ∑ i ∈ s, w' i * (k i - lo) with hY
  have h1 : X ≤ Y * F := by
    rw [hX, hY, Finset.sum_mul]
    refine Finset.sum_le_sum fun i hi => ?_
    calc w i * (k i - lo) ≤ w' i * F * (k i - lo) := mul_le_mul_of_nonneg_right (h i hi).2.2.1 (h0 i hi)
      _ = _ := by ring
  have h2 : ∑ i ∈ s, w' i ≤ (∑ i ∈ s, w i) * F := by
    rw [Finset.sum_mul]
    exact Finset.sum_le_sum fun i hi => (h i hi).2.2.2
  have hX1 : X ≤ (∑ i ∈ s, w i) * (hi - lo) := by
    rw [hX, Finset.sum_mul]
    exact Finset.sum_le_sum fun i hi => mul_le_mul_of_nonneg_left (by linarith [(hk i hi).2]) (h i hi).1.le
  have hX0 : 0 ≤ X := Finset.sum_nonneg fun i hi => mul_nonneg (h i hi).1.le (h0 i hi)
  set W := ∑ i ∈ s, w i with hWd
  set W' := ∑ i ∈ s, w' i with hWd'
  have h3 : X / W ≤ Y / W' * (F * F) := by
    rw [div_mul_eq_mul_div, div_le_div_iff₀ hW hW']
    calc X * W' ≤ X * (W * F) := mul_le_mul_of_nonneg_left h2 hX0
      _ ≤ (Y * F) * (W * F) := mul_le_mul_of_nonneg_right h1 (mul_pos hW hF0).le
      _ = _ := by ring
  have h4 : X / W ≤ hi - lo := by
    rw [div_le_iff₀ hW]
    linarith
  have h5 : 1 - (F * F)⁻¹ ≤ 2 * K * 2 ^ (-23 : Int) := by
    refine le_trans (Real.one_sub_inv_le_log_of_pos (mul_pos hF0 hF0)) ?_
    rw [Real.log_mul hF0.ne' hF0.ne', hF, Real.log_pow]
    have := mul_le_mul_of_nonneg_left log_ulp (Nat.cast_nonneg (α := ℝ) K)
    linarith
  have h6 : X / W * (F * F)⁻¹ ≤ Y / W' := by
    rw [← div_eq_mul_inv, div_le_iff₀ (mul_pos hF0 hF0)]
    exact h3
  have h7 : 0 ≤ 1 - (F * F)⁻¹ := by
    have hF1 : 1 ≤ F := ulpR_pow K
    rw [sub_nonneg]
    exact inv_le_one_of_one_le₀ (by nlinarith)
  have h8 : X / W * (1 - (F * F)⁻¹) ≤ (hi - lo) * (2 * K * 2 ^ (-23 : Int)) :=
    mul_le_mul h4 h5 h7 (le_trans (div_nonneg hX0 hW.le) h4)
  linarith

theorem close_expect {ι : Type} (s : Finset ι) (hne : s.Nonempty) {w w' k : ι → ℝ} {K : Nat} (h : ∀ i ∈ s, Close K (w i) (w' i)) {lo hi : ℝ} (hk : ∀ i ∈ s, lo ≤ k i ∧ k i ≤ hi) :
    |(∑ i ∈ s, w i * k i) / (∑ i ∈ s, w i) - (∑ i ∈ s, w' i * k i) / (∑ i ∈ s, w' i)| ≤ 2 * K * 2 ^ (-23 : Int) * (hi - lo) := by
  rw [abs_le]
  have h1 := close_expect_le s hne h hk
  have h2 := close_expect_le s hne (fun i hi => (h i hi).symm) hk
  constructor <;> linarith

end TreeCat
