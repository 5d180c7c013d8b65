import Mathlib.Algebra.Order.BigOperators.Group.Finset
import Verif.Lemmas.FloatServeNear
import Verif.Model.FloatQuant
import Verif.Props.FloatAnneal
import Verif.Props.Quantize

/-! # C71: `quantize_from_probs2` in float32 -/

namespace TreeCat

open Util Spec

/-! ### Near optimal vectors -/

/-- A vector whose residuals differ by at most `1 + 2 E` is L1-closest up to `2 E` per entry. -/
theorem l1_near_optimal {W : Nat} (hW : 0 < W) {E : ℚ} (hE : 0 ≤ E) (t : Fin W → ℚ) (r q : Fin W → Int)
    (hbal : ∀ i j, t i - (r i : ℚ) ≤ t j - (r j : ℚ) + (1 + 2 * E)) (hsum : ∑ i, q i = ∑ i, r i) : l1 t r ≤ l1 t q + 2 * W * E := by
  obtain ⟨a, -, ha⟩ := Finset.exists_max_image (Finset.univ : Finset (Fin W)) (fun i => t i - (r i : ℚ)) ⟨⟨0, hW⟩, Finset.mem_univ _⟩
  obtain ⟨b, -, hb⟩ := Finset.exists_min_image (Finset.univ : Finset (Fin W)) (fun i => t i - (r i : ℚ)) ⟨⟨0, hW⟩, Finset.mem_univ _⟩
  have hab := hbal a b
  set c : ℚ := (t a - r a + (t b - r b) - 1) / 2 with hc
  let t' : Fin W → ℚ := fun i => r i + max c (min (t i - r i) (c + 1))
  have hclose : ∀ i, |t i - t' i| ≤ E := by
    intro i
    have h1 := ha i (Finset.mem_univ i)
    have h2 := hb i (Finset.mem_univ i)
    simp only [t']
    rw [abs_le]
    rcases le_total (t i - (r i : ℚ)) (c + 1) with h | h
    · rw [min_eq_left h]
      rcases le_total c (t i - (r i : ℚ)) with h' | h'
      · rw [max_eq_right h']
        constructor <;> linarith
      · rw [max_eq_left h']
        constructor <;> linarith
    · rw [min_eq_right h, max_eq_right (by linarith)]
      constructor <;> linarith
  have hbal' : ∀ i j, t' i - (r i : ℚ) ≤ t' j - (r j : ℚ) + 1 := by
    intro i j
    have h1 : t' i - (r i : ℚ) ≤ c + 1 := by
      simp only [t', add_sub_cancel_left]
      exact max_le (by linarith) (min_le_right _ _)
    have h2 : c ≤ t' j - (r j : ℚ) := by
      simp only [t', add_sub_cancel_left]
      exact le_max_left _ _
    linarith
  have hopt := l1_optimal hW t' r q hbal' hsum
  have htri : ∀ x : Fin W → Int, l1 t x ≤ l1 t' x + W * E ∧ l1 t' x ≤ l1 t x + W * E := by
    intro x
    have hS : ∑ _i : Fin W, E = W * E := by simp
    unfold l1
    rw [← hS, ← Finset.sum_add_distrib, ← Finset.sum_add_distrib]
    constructor
    · refine Finset.sum_le_sum fun i _ => ?_
      have := abs_sub_le (t i) (t' i) (x i)
      linarith [hclose i]
    · refine Finset.sum_le_sum fun i _ => ?_
      have := abs_sub_le (t' i) (t i) (x i)
      rw [abs_sub_comm (t' i) (t i)] at this
      linarith [hclose i]
  linarith [(htri r).1, (htri q).2]

/-! ### The loop -/

theorem fltArgmax_some {W : Nat} (hW : 0 < W) (f : Fin W → ℚ) : ∃ k, fltArgmax (fun i => some (f i)) = some k ∧ ∀ i, f i ≤ f k := by
  obtain ⟨k, hk, h⟩ := argmax_spec f hW
  refine ⟨k, ?_, h⟩
  unfold fltArgmax
  rw [List.find?_eq_none.2 (by simp)]
  exact hk

/-- What holds after `n` steps: the residual of an entry is exact up to `δ` and `ε` for each subtraction. -/
structure FQInv {W : Nat} (t : Fin W → ℚ) (R n : Nat) (δ ε : ℚ) (s : (Fin W → Int) × (Fin W → Flt)) (f : Fin W → ℚ) : Prop where
  vals : s.2 = fun i => some (f i)
  nonneg : ∀ i, 0 ≤ s.1 i
  total : ∑ i, s.1 i = n
  residual : ∀ i, |f i - (t i - s.1 i) / R| ≤ δ + s.1 i * ε
  upper : ∀ i, (s.1 i : ℚ) < t i + 1 + 2 * (R * (δ + R * ε))
  balanced : ∀ i j, t i - (s.1 i : ℚ) ≤ t j - (s.1 j : ℚ) + (1 + 2 * (R * (δ + R * ε))) ∨ s.1 j = 0

theorem floatQuantStep_inv {W : Nat} (hW : 0 < W) {rnd : ℚ → ℚ} (Rn : MonoRounding 24 (-149) rnd) {t : Fin W → ℚ} (ht0 : ∀ i, 0 ≤ t i) {R n : Nat} (ht : ∑ i, t i = R) (hn : n < R)
    (hR : R ≤ 127) {δ step : ℚ} (hδ : 0 ≤ δ) (hE : (R : ℚ) * (δ + R * 2 ^ (-22 : Int)) ≤ 1 / 4) (hst : |step - 1 / R| ≤ 2 ^ (-23 : Int)) {s : (Fin W → Int) × (Fin W → Flt)} {f : Fin W → ℚ}
    (h : FQInv t R n δ (2 ^ (-22 : Int)) s f) :
    ∃ s' f', floatQuantStep rnd step s = .ok s' ∧ FQInv t R (n + 1) δ (2 ^ (-22 : Int)) s' f' := by
  obtain ⟨k, hk, hmax⟩ := fltArgmax_some hW f
  have hR0 : (0 : ℚ) < R := by exact_mod_cast (by omega : 0 < R)
  have hR1 : (1 : ℚ) ≤ R := by exact_mod_cast (by omega : 1 ≤ R)
  have hε : (0 : ℚ) < 2 ^ (-22 : Int) := two_zpow_pos _
  set E : ℚ := R * (δ + R * 2 ^ (-22 : Int)) with hEdef
  have hE0 : 0 ≤ E := by positivity
  have hle : ∀ i, s.1 i ≤ n := by
    intro i
    rw [← h.total]
    exact Finset.single_le_sum (fun j _ => h.nonneg j) (Finset.mem_univ i)
  have hleR : ∀ i, (s.1 i : ℚ) ≤ R := by
    intro i
    have : s.1 i ≤ R := by have := hle i; omega
    exact_mod_cast this
  have hnn : ∀ i, (0 : ℚ) ≤ s.1 i := fun i => by exact_mod_cast h.nonneg i
  have hwrap : wrap8 (s.1 k + 1) = s.1 k + 1 := by
    have := hle k; have := h.nonneg k
    unfold wrap8; omega
  have hres : ∀ i, |R * f i - (t i - s.1 i)| ≤ E := by
    intro i
    have h1 := h.residual i
    have h2 : (R : ℚ) * f i - (t i - s.1 i) = R * (f i - (t i - s.1 i) / R) := by field_simp
    rw [h2, abs_mul, abs_of_pos hR0, hEdef]
    refine mul_le_mul_of_nonneg_left (h1.trans ?_) hR0.le
    have := mul_le_mul_of_nonneg_right (hleR i) hε.le
    linarith
  have hmax' : ∀ i, t i - (s.1 i : ℚ) ≤ t k - (s.1 k : ℚ) + 2 * E := by
    intro i
    have h1 := abs_le.1 (hres i)
    have h2 := abs_le.1 (hres k)
    have h3 := mul_le_mul_of_nonneg_left (hmax i) hR0.le
    linarith [h1.1, h1.2, h2.1, h2.2]
  have hpos : - (2 * E) < t k - (s.1 k : ℚ) := by
    by_contra hneg
    have hall : ∀ i, t i - (s.1 i : ℚ) ≤ 0 := fun i => by linarith [hmax' i, not_lt.1 hneg]
    have hsum : ∑ i, (t i - (s.1 i : ℚ)) ≤ 0 := Finset.sum_nonpos fun i _ => hall i
    rw [Finset.sum_sub_distrib, ht, ← Int.cast_sum, h.total] at hsum
    have : (n : ℚ) < R := by exact_mod_cast hn
    push_cast at hsum
    linarith
  have htk : t k ≤ R := by
    rw [← ht]
    exact Finset.single_le_sum (fun j _ => ht0 j) (Finset.mem_univ k)
  have hrk := abs_le.1 (hres k)
  have hstep := abs_le.1 hst
  have hinv1 : (1 : ℚ) / R ≤ 1 := by rw [div_le_one hR0]; exact hR1
  have hinv0 : (0 : ℚ) < 1 / R := by positivity
  have h23 : (2 : ℚ) ^ (-23 : Int) ≤ 1 / 8 := by norm_num
  have hfhi : f k ≤ 1 + 1 / 4 := by
    have h1 : (R : ℚ) * f k ≤ R * (1 + 1 / 4) := by
      have := hnn k
      linarith [hrk.2]
    exact le_of_mul_le_mul_left h1 hR0
  have hflo : -(3 / 4) ≤ f k := by
    have h1 : (R : ℚ) * (-(3 / 4)) ≤ R * f k := by linarith [hrk.1]
    exact le_of_mul_le_mul_left h1 hR0
  have hround : |rnd (f k - step) - (f k - step)| ≤ 2 ^ (-23 : Int) := by
    refine Rn.error_abs (by norm_num) (by norm_num) ?_
    rw [show (2 : ℚ) ^ ((-23 : Int) + ((24 : Nat) : Int)) = 2 by norm_num, abs_le]
    constructor <;> linarith [hstep.1, hstep.2]
  have hnew : |rnd (f k - step) - (t k - (s.1 k + 1)) / R| ≤ δ + (s.1 k + 1) * 2 ^ (-22 : Int) := by
    have h1 := abs_le.1 hround
    have h2 := abs_le.1 (h.residual k)
    have h3 : (t k - (s.1 k + 1)) / R = (t k - s.1 k) / R - 1 / R := by ring
    have h4 : (2 : ℚ) ^ (-22 : Int) = 2 ^ (-23 : Int) + 2 ^ (-23 : Int) := by norm_num
    rw [h3, abs_le, add_mul, one_mul]
    generalize (s.1 k : ℚ) * 2 ^ (-22 : Int) = c at h2 ⊢
    generalize (t k - s.1 k) / R = x at h2 ⊢
    generalize (2 : ℚ) ^ (-22 : Int) = e22 at h4 ⊢
    generalize rnd (f k - step) = y at h1 ⊢
    generalize (1 : ℚ) / R = w at hstep ⊢
    generalize (2 : ℚ) ^ (-23 : Int) = e23 at h1 h4 hstep
    obtain ⟨h1a, h1b⟩ := h1
    obtain ⟨h2a, h2b⟩ := h2
    obtain ⟨h3a, h3b⟩ := hstep
    constructor <;> linarith only [h1a, h1b, h2a, h2b, h3a, h3b, h4]
  refine ⟨_, Function.update f k (rnd (f k - step)), by simp only [floatQuantStep, h.vals, hk]; rfl, ?_⟩
  rw [hwrap]
  constructor
  · funext i
    by_cases hik : i = k
    · subst hik
      simp
    · simp [hik]
  · intro i
    by_cases hik : i = k
    · subst hik; have := h.nonneg i; simp; omega
    · simpa [hik] using h.nonneg i
  · show ∑ i, Function.update s.1 k (s.1 k + 1) i = _
    rw [Finset.sum_update_of_mem (Finset.mem_univ k)]
    have := h.total
    rw [Finset.sum_eq_add_sum_sdiff_singleton_of_mem (Finset.mem_univ k)] at this
    push_cast
    linarith
  · intro i
    by_cases hik : i = k
    · subst hik
      simp only [Function.update_self]
      push_cast
      exact hnew
    · simpa [hik] using h.residual i
  · intro i
    by_cases hik : i = k
    · subst hik; simp only [Function.update_self]; push_cast; linarith
    · simpa [hik] using h.upper i
  · intro i j
    by_cases hjk : j = k
    · subst hjk
      left
      have := hmax' i
      by_cases hij : i = j
      · subst hij; simp only [Function.update_self]; linarith
      · simp only [Function.update_self, ne_eq, hij, not_false_eq_true, Function.update_of_ne]
        push_cast; linarith
    · by_cases hik : i = k
      · subst hik
        rcases h.balanced i j with hb | hb
        · left
          simp only [Function.update_self, ne_eq, hjk, not_false_eq_true, Function.update_of_ne]
          push_cast; linarith
        · right; simpa [hjk] using hb
      · simpa [hik, hjk] using h.balanced i j

theorem floatQuantLoop_inv {W : Nat} (hW : 0 < W) {rnd : ℚ → ℚ} (Rn : MonoRounding 24 (-149) rnd) {t : Fin W → ℚ} (ht0 : ∀ i, 0 ≤ t i) {R : Nat} (ht : ∑ i, t i = R)
    (hR : R ≤ 127) {δ step : ℚ} (hδ : 0 ≤ δ) (hE : (R : ℚ) * (δ + R * 2 ^ (-22 : Int)) ≤ 1 / 4) (hst : |step - 1 / R| ≤ 2 ^ (-23 : Int)) (k n : Nat) (hk : n + k ≤ R)
    (s : (Fin W → Int) × (Fin W → Flt)) (f : Fin W → ℚ) (h : FQInv t R n δ (2 ^ (-22 : Int)) s f) :
    ∃ s' f', floatQuantLoop rnd step k s = .ok s' ∧ FQInv t R (n + k) δ (2 ^ (-22 : Int)) s' f' := by
  induction k generalizing n s f with
  | zero => exact ⟨s, f, rfl, h⟩
  | succ k ih =>
    obtain ⟨s1, f1, h1, h1'⟩ := floatQuantStep_inv hW Rn ht0 ht (by omega) hR hδ hE hst h
    obtain ⟨s2, f2, h2, h2'⟩ := ih (n + 1) (by omega) s1 f1 h1'
    refine ⟨s2, f2, ?_, by rwa [show n + (k + 1) = n + 1 + k by omega]⟩
    simp only [floatQuantLoop, h1]
    exact h2

/-! ### The row -/

/-- What is assumed of the accuracy of `np.sum` on nonnegative float32 numbers: every summand is rounded at most as often as there are summands, which holds for any order of summation. Sums of
small numbers do not underflow. -/
def Spec.SumClose (sum : List Flt → Flt) : Prop :=
  ∀ l : List ℚ, l.length ≤ 2 ^ 24 → (∀ x ∈ l, IsFloat 24 (-149) x ∧ 0 ≤ x) →
    ∃ d, sum (l.map some) = some d ∧ d ≤ l.sum * ulp ^ l.length ∧ l.sum ≤ d * ulp ^ l.length

/-- The error of the residuals of `W` values at resolution `R`. -/
def Spec.quantError (W R : Nat) : ℚ := (R * (R + W + 1) : Nat) * 2 ^ (-22 : Int)

theorem ulp_pow_le {n : Nat} (hn : n ≤ 2 ^ 22) : ulp ^ n ≤ 1 + n * 2 ^ (-22 : Int) := by
  induction n with
  | zero => simp
  | succ n ih =>
    have h1 := ih (by omega)
    have hn' : (n : ℚ) ≤ 2 ^ 22 := by exact_mod_cast (by omega : n ≤ 2 ^ 22)
    have hu : (0 : ℚ) ≤ ulp := le_trans zero_le_one ulp_ge
    calc ulp ^ (n + 1) = ulp ^ n * ulp := pow_succ _ _
      _ ≤ (1 + n * 2 ^ (-22 : Int)) * ulp := mul_le_mul_of_nonneg_right h1 hu
      _ ≤ 1 + ((n + 1 : Nat) : ℚ) * 2 ^ (-22 : Int) := by
        have hn2 : (n : ℚ) ≤ 4194304 := by linarith
        unfold ulp
        push_cast
        norm_num
        linarith

theorem quantStep_close {rnd rp : ℚ → ℚ} (Rn : MonoRounding 24 (-149) rnd) (Rp : MonoRounding 53 (-1074) rp) {R : Nat} (hR : 1 ≤ R) : |rnd (rp (1 / R)) - 1 / R| ≤ 2 ^ (-23 : Int) := by
  have hR0 : (0 : ℚ) < R := by exact_mod_cast hR
  have h0 : (0 : ℚ) ≤ 1 / R := by positivity
  have h1 : (1 : ℚ) / R ≤ 1 := by rw [div_le_one hR0]; exact_mod_cast hR
  have hf : IsFloat 53 (-1074) 1 := ⟨1, 0, by norm_num, by norm_num, by norm_num⟩
  have e1 := Rp.error (by norm_num) (j := -53) (by norm_num) h0 (by rw [show (2 : ℚ) ^ ((-53 : Int) + ((53 : Nat) : Int)) = 1 by norm_num]; exact h1)
  have e2 := Rn.error (by norm_num) (j := -24) (by norm_num) (Rp.nonneg h0) (by rw [show (2 : ℚ) ^ ((-24 : Int) + ((24 : Nat) : Int)) = 1 by norm_num]; exact Rp.le_of hf h1)
  have h3 : (2 : ℚ) ^ (-24 : Int) + 2 ^ (-53 : Int) ≤ 2 ^ (-23 : Int) := by norm_num
  exact (abs_sub_le _ (rp (1 / R)) _).trans (by linarith)

theorem floatQuant_init {W : Nat} (hW : W ≤ 2 ^ 10) {rnd : ℚ → ℚ} (Rn : MonoRounding 24 (-149) rnd) {p d S : ℚ} (hp : 0 ≤ p) (hpS : p ≤ S) (hS : 0 < S) (h1 : d ≤ S * ulp ^ W) (h2 : S ≤ d * ulp ^ W) :
    d ≠ 0 ∧ |rnd (p / d) - p / S| ≤ (W + 1) * 2 ^ (-22 : Int) := by
  have hu : 1 ≤ ulp ^ W := one_le_pow₀ ulp_ge
  have hu0 : 0 < ulp ^ W := lt_of_lt_of_le one_pos hu
  have hd : 0 < d := pos_of_mul_pos_left (lt_of_lt_of_le hS h2) hu0.le
  have hup := ulp_pow_le (n := W) (by omega)
  have hWq : (W : ℚ) ≤ 2 ^ 10 := by exact_mod_cast hW
  have hx1 : p / S ≤ 1 := by rw [div_le_one hS]; exact hpS
  have hx0 : 0 ≤ p / S := div_nonneg hp hS.le
  have ha : p / d ≤ p / S * ulp ^ W := by
    rw [div_mul_eq_mul_div, div_le_div_iff₀ hd hS]
    have := mul_le_mul_of_nonneg_left h2 hp
    linarith
  have hb : p / S ≤ p / d * ulp ^ W := by
    rw [div_mul_eq_mul_div, div_le_div_iff₀ hS hd]
    have := mul_le_mul_of_nonneg_left h1 hp
    linarith
  have hy0 : 0 ≤ p / d := div_nonneg hp hd.le
  set v : ℚ := W * 2 ^ (-22 : Int) with hv
  have hv0 : 0 ≤ v := by positivity
  have hv1 : v ≤ 1 := by
    have hW2 : (W : ℚ) ≤ 1024 := by linarith
    rw [hv]
    norm_num
    linarith
  have hc : p / d ≤ p / S + v := by
    have h3 := mul_le_mul_of_nonneg_left hup hx0
    have h4 := mul_le_mul_of_nonneg_right hx1 hv0
    linarith
  have hy2 : p / d ≤ 2 := by linarith
  have he : p / S ≤ p / d + v := by
    rcases le_total (p / S) (p / d) with h | h
    · linarith
    · have h3 := mul_le_mul_of_nonneg_left hup hy0
      have h4 := mul_le_mul_of_nonneg_right (h.trans hx1) hv0
      linarith
  have hr := abs_le.1 (Rn.error (by norm_num) (j := -23) (by norm_num) hy0 (by norm_num; exact hy2))
  refine ⟨hd.ne', ?_⟩
  rw [add_mul, ← hv, abs_le]
  have h5 : (2 : ℚ) ^ (-23 : Int) ≤ 1 * 2 ^ (-22 : Int) := by norm_num
  constructor <;> linarith [hr.1, hr.2]

/-- **C71**. For every row of nonnegative float32 numbers with a positive total, every resolution up to 127 and every order of summation: `quantize_from_probs2` computed in float32 returns
nonnegative integers with exactly the sum `resolution`, each within `1 + 2 E` of its target, and no integer vector with that sum is closer in L1 distance by more than `2 W E`, where `W` is the number of
values and `E` is `quantError W R`, about `R (R + W) / 4000000`. -/
theorem floatQuantRow_near {W : Nat} (hW : W ≤ 2 ^ 10) {rnd rp : ℚ → ℚ} {sum : List Flt → Flt} (Rn : MonoRounding 24 (-149) rnd) (Rp : MonoRounding 53 (-1074) rp) (hs : Spec.SumClose sum)
    {p : Fin W → ℚ} (hp : ∀ i, IsFloat 24 (-149) (p i) ∧ 0 ≤ p i) (hT : 0 < ∑ i, p i) {R : Nat} (hR : R ≤ 127) :
    ∃ r : Fin W → Int, floatQuantRow rnd rp sum (fun i => some (p i)) R = .ok r ∧ (∀ i, 0 ≤ r i) ∧ ∑ i, r i = R ∧
      (∀ i, |target p R i - (r i : ℚ)| < 1 + 2 * Spec.quantError W R) ∧
      ∀ q : Fin W → Int, ∑ i, q i = R → l1 (target p R) r ≤ l1 (target p R) q + 2 * W * Spec.quantError W R := by
  have hW0 : 0 < W := by
    rcases Nat.eq_zero_or_pos W with h | h
    · subst h; simp at hT
    · exact h
  rcases Nat.eq_zero_or_pos R with h0 | h0
  · subst h0
    refine ⟨fun _ => 0, rfl, fun _ => le_refl _, by simp, fun i => by simp [target, Spec.quantError], fun q _ => ?_⟩
    simp only [Spec.quantError, target, l1]
    simp only [CharP.cast_eq_zero, zero_mul, zero_div, Int.cast_zero, sub_zero, abs_zero, Finset.sum_const_zero, mul_zero, add_zero]
    exact Finset.sum_nonneg fun i _ => abs_nonneg _
  · have hR0 : (0 : ℚ) < R := by exact_mod_cast h0
    have hWq : (W : ℚ) ≤ 1024 := by exact_mod_cast hW
    have hRq : (R : ℚ) ≤ 127 := by exact_mod_cast hR
    obtain ⟨d, hd, hd1, hd2⟩ := hs ((List.finRange W).map p) (by simp; omega) (by
      intro x hx
      obtain ⟨i, -, rfl⟩ := List.mem_map.1 hx
      exact hp i)
    rw [List.length_map, List.length_finRange, ← List.ofFn_eq_map, List.sum_ofFn] at hd1 hd2
    rw [List.map_map] at hd
    set δ : ℚ := (W + 1) * 2 ^ (-22 : Int) with hδ
    have hδ0 : 0 ≤ δ := by positivity
    have hEq : (R : ℚ) * (δ + R * 2 ^ (-22 : Int)) = Spec.quantError W R := by
      rw [hδ, Spec.quantError]
      push_cast
      ring
    have hE0 : 0 ≤ Spec.quantError W R := by unfold Spec.quantError; positivity
    have hE : (R : ℚ) * (δ + R * 2 ^ (-22 : Int)) ≤ 1 / 4 := by
      have h1 : δ + R * 2 ^ (-22 : Int) ≤ 1152 * 2 ^ (-22 : Int) := by
        rw [hδ, ← add_mul]
        exact mul_le_mul_of_nonneg_right (by linarith) (two_zpow_pos _).le
      have h2 : (R : ℚ) * (δ + R * 2 ^ (-22 : Int)) ≤ 127 * (1152 * 2 ^ (-22 : Int)) := mul_le_mul hRq h1 (by positivity) (by norm_num)
      refine h2.trans ?_
      norm_num
    have hle : ∀ i, p i ≤ ∑ j, p j := fun i => Finset.single_le_sum (fun j _ => (hp j).2) (Finset.mem_univ i)
    have hin := fun i => floatQuant_init hW Rn (hp i).2 (hle i) hT hd1 hd2
    have htn := target_nonneg p (fun i => (hp i).2) hT R
    have hinit : FQInv (target p R) R 0 δ (2 ^ (-22 : Int)) (fun _ => 0, fun i => Flt.div rnd (some (p i)) (sum ((List.finRange W).map fun i => some (p i)))) fun i => rnd (p i / d) := by
      constructor
      · funext i
        show Flt.div rnd (some (p i)) (sum ((List.finRange W).map (some ∘ p))) = _
        rw [hd]
        simp [Flt.div, (hin i).1]
      · intro i; simp
      · simp
      · intro i
        have h1 := (hin i).2
        have h2 : (target p R i - ((0 : Int) : ℚ)) / R = p i / ∑ j, p j := by
          simp only [target]
          field_simp
          simp
        simp only [h2]
        rw [Int.cast_zero, zero_mul, add_zero]
        exact h1
      · intro i
        have := htn i
        simp only [Int.cast_zero]
        rw [hEq]
        linarith
      · intro i j; right; rfl
    obtain ⟨s, f, h1, h⟩ := floatQuantLoop_inv hW0 Rn htn (target_sum p hT R) hR hδ0 hE (quantStep_close Rn Rp h0) R 0 (by omega) _ _ hinit
    rw [Nat.zero_add] at h
    have hup := h.upper
    have hbl := h.balanced
    rw [hEq] at hup hbl
    have hsum0 : ∑ i, (target p R i - (s.1 i : ℚ)) = 0 := by
      rw [Finset.sum_sub_distrib, target_sum p hT, ← Int.cast_sum, h.total]; simp
    have hzero : ∀ i, s.1 i = 0 → 0 ≤ target p R i - (s.1 i : ℚ) := by
      intro i hi; rw [hi]; have := htn i; simpa using this
    have hlow : ∀ i, target p R i - (s.1 i : ℚ) < 1 + 2 * Spec.quantError W R := by
      intro i
      by_contra hge
      have hge := not_lt.1 hge
      have hall : ∀ j, 0 ≤ target p R j - (s.1 j : ℚ) := by
        intro j
        rcases hbl i j with hb | hb
        · linarith
        · exact hzero j hb
      have := Finset.single_le_sum (fun j _ => hall j) (Finset.mem_univ i)
      rw [hsum0] at this
      linarith
    have hbal : ∀ i j, target p R i - (s.1 i : ℚ) ≤ target p R j - (s.1 j : ℚ) + (1 + 2 * Spec.quantError W R) := by
      intro i j
      rcases hbl i j with hb | hb
      · exact hb
      · have := hlow i; have := hzero j hb; linarith
    refine ⟨s.1, ?_, h.nonneg, h.total, fun i => ?_, fun q hq => ?_⟩
    · unfold floatQuantRow
      rw [h1]
      rfl
    · rw [abs_lt]; have := hup i; have := hlow i; constructor <;> linarith
    · exact l1_near_optimal hW0 hE0 _ _ _ hbal (by rw [hq]; exact h.total.symm)

/-- **C71**. Rows that are quantised already come back unchanged, also in float32. -/
theorem floatQuantRow_fixed {W : Nat} (hW : W ≤ 2 ^ 10) {rnd rp : ℚ → ℚ} {sum : List Flt → Flt} (Rn : MonoRounding 24 (-149) rnd) (Rp : MonoRounding 53 (-1074) rp) (hs : Spec.SumClose sum)
    {p : Fin W → ℚ} (hp : ∀ i, IsFloat 24 (-149) (p i) ∧ 0 ≤ p i) (hT : 0 < ∑ i, p i) {R : Nat} (hR : R ≤ 127) (hsmall : 2 * W * Spec.quantError W R < 1) {z : Fin W → Int}
    (hz : ∀ i, target p R i = z i) : floatQuantRow rnd rp sum (fun i => some (p i)) R = .ok z := by
  obtain ⟨r, hr, -, -, -, hopt⟩ := floatQuantRow_near hW Rn Rp hs hp hT hR
  have hsz : ∑ i, z i = R := by
    have := target_sum p hT R
    simp only [hz] at this
    exact_mod_cast this
  have h1 := hopt z hsz
  have h2 : l1 (target p R) z = 0 := by simp [l1, hz]
  have h3 : ∀ i, |z i - r i| < 1 := by
    intro i
    have h4 := Finset.single_le_sum (f := fun i => |target p R i - (r i : ℚ)|) (fun j _ => abs_nonneg _) (Finset.mem_univ i)
    have h5 : |((z i - r i : Int) : ℚ)| < 1 := by
      push_cast
      rw [← hz i]
      unfold l1 at h1 h2
      linarith
    exact_mod_cast h5
  have h6 : r = z := by
    funext i
    have := abs_lt.1 (h3 i)
    omega
  rw [hr, h6]

end TreeCat
