import Mathlib.Analysis.SpecialFunctions.Log.NegMulLog
import Verif.Lemmas.FloatNear
import Verif.Lemmas.Entropy
import Verif.Model.FloatInfo
import Verif.Props.FloatAnneal

/-! # Relative errors in any precision, and what they do to an entropy -/

namespace TreeCat

open Util Spec

/-- Nonnegative reals whose ratio is between `exp (-κ)` and `exp κ`. -/
def Rel (κ x y : ℝ) : Prop := 0 ≤ x ∧ 0 ≤ y ∧ x ≤ y * Real.exp κ ∧ y ≤ x * Real.exp κ

theorem Rel.refl {x : ℝ} (h : 0 ≤ x) : Rel 0 x x := ⟨h, h, by simp, by simp⟩

theorem Rel.zero (κ : ℝ) : Rel κ 0 0 := ⟨le_refl _, le_refl _, by simp, by simp⟩

theorem Rel.symm {κ x y : ℝ} (h : Rel κ x y) : Rel κ y x := ⟨h.2.1, h.1, h.2.2.2, h.2.2.1⟩

theorem Rel.mono {κ l x y : ℝ} (hkl : κ ≤ l) (h : Rel κ x y) : Rel l x y := by
  have hp := Real.exp_le_exp.2 hkl
  exact ⟨h.1, h.2.1, le_trans h.2.2.1 (mul_le_mul_of_nonneg_left hp h.2.1), le_trans h.2.2.2 (mul_le_mul_of_nonneg_left hp h.1)⟩

theorem Rel.trans {κ l x y z : ℝ} (h : Rel κ x y) (h' : Rel l y z) : Rel (κ + l) x z := by
  refine ⟨h.1, h'.2.1, ?_, ?_⟩
  · calc x ≤ y * Real.exp κ := h.2.2.1
      _ ≤ z * Real.exp l * Real.exp κ := mul_le_mul_of_nonneg_right h'.2.2.1 (Real.exp_pos _).le
      _ = z * Real.exp (κ + l) := by rw [Real.exp_add]; ring
  · calc z ≤ y * Real.exp l := h'.2.2.2
      _ ≤ x * Real.exp κ * Real.exp l := mul_le_mul_of_nonneg_right h.2.2.2 (Real.exp_pos _).le
      _ = x * Real.exp (κ + l) := by rw [Real.exp_add]; ring

theorem Rel.mul {κ l x y x' y' : ℝ} (h : Rel κ x y) (h' : Rel l x' y') : Rel (κ + l) (x * x') (y * y') := by
  refine ⟨mul_nonneg h.1 h'.1, mul_nonneg h.2.1 h'.2.1, ?_, ?_⟩
  · calc x * x' ≤ (y * Real.exp κ) * (y' * Real.exp l) := mul_le_mul h.2.2.1 h'.2.2.1 h'.1 (mul_nonneg h.2.1 (Real.exp_pos _).le)
      _ = y * y' * Real.exp (κ + l) := by rw [Real.exp_add]; ring
  · calc y * y' ≤ (x * Real.exp κ) * (x' * Real.exp l) := mul_le_mul h.2.2.2 h'.2.2.2 h'.2.1 (mul_nonneg h.1 (Real.exp_pos _).le)
      _ = x * x' * Real.exp (κ + l) := by rw [Real.exp_add]; ring

theorem Rel.inv {κ x y : ℝ} (hx : 0 < x) (hy : 0 < y) (h : Rel κ x y) : Rel κ x⁻¹ y⁻¹ := by
  refine ⟨by positivity, by positivity, ?_, ?_⟩
  · rw [inv_mul_eq_div, inv_eq_one_div, div_le_div_iff₀ hx hy]
    linarith [h.2.2.2]
  · rw [inv_mul_eq_div, inv_eq_one_div, div_le_div_iff₀ hy hx]
    linarith [h.2.2.1]

theorem Rel.sum {ι : Type} (l : List ι) {κ : ℝ} {f g : ι → ℝ} (h : ∀ i ∈ l, Rel κ (f i) (g i)) : Rel κ (l.map f).sum (l.map g).sum := by
  induction l with
  | nil => simpa using Rel.zero κ
  | cons i l ih =>
    obtain ⟨h1, h2, h3, h4⟩ := h i List.mem_cons_self
    obtain ⟨i1, i2, i3, i4⟩ := ih fun j hj => h j (List.mem_cons_of_mem _ hj)
    simp only [List.map_cons, List.sum_cons]
    refine ⟨by linarith, by linarith, ?_, ?_⟩ <;> rw [add_mul] <;> linarith

theorem Rel.fsum {ι : Type} (s : Finset ι) {κ : ℝ} {f g : ι → ℝ} (h : ∀ i ∈ s, Rel κ (f i) (g i)) : Rel κ (∑ i ∈ s, f i) (∑ i ∈ s, g i) := by
  refine ⟨Finset.sum_nonneg fun i hi => (h i hi).1, Finset.sum_nonneg fun i hi => (h i hi).2.1, ?_, ?_⟩
  · rw [Finset.sum_mul]
    exact Finset.sum_le_sum fun i hi => (h i hi).2.2.1
  · rw [Finset.sum_mul]
    exact Finset.sum_le_sum fun i hi => (h i hi).2.2.2

theorem Rel.eq_zero {κ x y : ℝ} (h : Rel κ x y) : x = 0 ↔ y = 0 := by
  constructor
  · rintro rfl
    exact le_antisymm (by simpa using h.2.2.2) h.2.1
  · rintro rfl
    exact le_antisymm (by simpa using h.2.2.1) h.1

/-- Within a quarter, a number is at most doubled. -/
theorem Rel.le_two {κ x y : ℝ} (h : Rel κ x y) (hκ : κ ≤ 1 / 4) : x ≤ 2 * y := by
  have h1 : Real.exp κ ≤ 2 := by
    refine le_trans (Real.exp_le_exp.2 hκ) ?_
    have := Real.exp_bound_div_one_sub_of_interval (x := 1 / 4) (by norm_num) (by norm_num)
    norm_num at this ⊢
    linarith
  have := mul_le_mul_of_nonneg_left h1 h.2.1
  linarith [h.2.2.1]

/-- A number with a relative error below a half. -/
theorem rel_of_error {x y δ : ℝ} (hy : 0 ≤ y) (hδ0 : 0 ≤ δ) (hδ : δ ≤ 1 / 2) (h : |x - y| ≤ δ * y) : Rel (2 * δ) x y := by
  rw [abs_le] at h
  have h1 := Real.add_one_le_exp (2 * δ)
  have hx : 0 ≤ x := by nlinarith
  refine ⟨hx, hy, ?_, ?_⟩
  · have := mul_le_mul_of_nonneg_left h1 hy
    nlinarith
  · have h2 : y * (1 - δ) ≤ x := by linarith
    have h3 : (1 - δ) * (1 + 2 * δ) ≥ 1 := by nlinarith
    have h4 := mul_le_mul_of_nonneg_left h1 hx
    nlinarith

/-- Rounding a number that does not underflow. -/
theorem Util.MonoRounding.rel {p : Nat} {emin : Int} {rnd : ℚ → ℚ} (R : MonoRounding p emin rnd) (hp : 1 ≤ p) {x : ℚ} (hx : x = 0 ∨ 2 ^ (emin + p - 1) ≤ x) :
    Rel (2 ^ (1 - p : Int)) (rnd x : ℚ) (x : ℚ) := by
  rcases hx with rfl | hx
  · have hz : rnd 0 = 0 := R.id ⟨0, emin, by simp, le_refl _, by simp⟩
    rw [hz]
    simpa using Rel.zero _
  have hx0 : 0 < x := lt_of_lt_of_le (two_zpow_pos _) hx
  obtain ⟨e, h1, h2⟩ := exists_binade hx0
  have he : emin + p - 1 ≤ e := by
    by_contra hcon
    have : (2 : ℚ) ^ (e + 1) ≤ 2 ^ (emin + p - 1) := zpow_mono (by omega)
    linarith
  have herr := R.error hp (j := e + 1 - p) (by omega) hx0.le (by rw [sub_add_cancel]; exact h2.le)
  have hfl : IsFloat p emin ((2 : ℚ) ^ e) := by
    have := isFloat_of_le (p := p) (emin := emin) hp (e := e) (by omega) (m := 1) (by rw [abs_one]; exact one_le_pow₀ (by norm_num))
    simpa using this
  have h3 : (2 : ℚ) ^ e ≤ rnd x := R.ge_of hfl h1
  have h4 : (2 : ℚ) ^ (e + 1 - p) = 2 ^ e * 2 ^ (1 - p : Int) := by
    rw [← zpow_add₀ (by norm_num)]
    congr 1
    ring
  have hu := two_zpow_pos (1 - p : Int)
  have h5 := mul_le_mul_of_nonneg_right h1 hu.le
  have h6 := mul_le_mul_of_nonneg_right h3 hu.le
  rw [abs_le, h4] at herr
  have h7 : rnd x ≤ x * (1 + 2 ^ (1 - p : Int)) := by linarith
  have h8 : x ≤ rnd x * (1 + 2 ^ (1 - p : Int)) := by linarith
  have h9 : (0 : ℝ) ≤ rnd x := by
    have := R.nonneg hx0.le
    exact_mod_cast this
  have h10 : (0 : ℝ) ≤ x := by exact_mod_cast hx0.le
  have h11 := Real.add_one_le_exp ((2 : ℝ) ^ (1 - p : Int))
  have h7' : (rnd x : ℝ) ≤ x * (1 + 2 ^ (1 - p : Int)) := by
    have := (Rat.cast_le (K := ℝ)).2 h7
    push_cast at this
    exact this
  have h8' : (x : ℝ) ≤ rnd x * (1 + 2 ^ (1 - p : Int)) := by
    have := (Rat.cast_le (K := ℝ)).2 h8
    push_cast at this
    exact this
  exact ⟨h9, h10, le_trans h7' (mul_le_mul_of_nonneg_left (by linarith) h10), le_trans h8' (mul_le_mul_of_nonneg_left (by linarith) h9)⟩

theorem Near.rel {k : Nat} {x : Flt} {y : ℝ} (h : Near k x y) : Rel (k * 2 ^ (-23 : Int)) ((x.getD 0 : ℚ) : ℝ) y := by
  obtain ⟨-, -, h1, h2, h3⟩ := h.get
  have hu : (ulp : ℝ) ^ k ≤ Real.exp (k * 2 ^ (-23 : Int)) := by
    rw [Real.exp_nat_mul]
    refine pow_le_pow_left₀ (le_trans zero_le_one ulpR_ge) ?_ _
    have := Real.add_one_le_exp ((2 : ℝ) ^ (-23 : Int))
    unfold ulp
    push_cast
    linarith
  have h0 : (0 : ℝ) ≤ (x.getD 0 : ℚ) := by exact_mod_cast h1.le
  exact ⟨h0, h.pos.le, le_trans h2 (mul_le_mul_of_nonneg_left hu h.pos.le), le_trans h3 (mul_le_mul_of_nonneg_left hu h0)⟩

/-- A relative error in the argument of `-x log x`. -/
theorem negMulLog_rel {κ z y : ℝ} (h : Rel κ z y) (hκ0 : 0 ≤ κ) (hκ : κ ≤ 1 / 4) (hy : y ≤ 1) : |Real.negMulLog z - Real.negMulLog y| ≤ 2 * κ * (Real.negMulLog y + y) := by
  rcases eq_or_lt_of_le h.2.1 with hy0 | hy0
  · subst hy0
    rw [h.eq_zero.2 rfl]
    simp
  have hz0 : 0 < z := lt_of_le_of_ne h.1 (fun e => hy0.ne' (h.eq_zero.1 e.symm))
  have hlog : |Real.log z - Real.log y| ≤ κ := by
    rw [abs_le]
    have h1 := Real.log_le_log hz0 h.2.2.1
    have h2 := Real.log_le_log hy0 h.2.2.2
    rw [Real.log_mul hy0.ne' (Real.exp_pos _).ne', Real.log_exp] at h1
    rw [Real.log_mul hz0.ne' (Real.exp_pos _).ne', Real.log_exp] at h2
    constructor <;> linarith
  have hz2 := h.le_two hκ
  have hdiff : |z - y| ≤ 2 * κ * y := by
    have he : Real.exp κ ≤ 1 + 2 * κ := by
      have := Real.exp_bound_div_one_sub_of_interval hκ0 (by linarith : κ < 1)
      refine le_trans this ?_
      rw [div_le_iff₀ (by linarith)]
      nlinarith
    have h1 := le_trans h.2.2.1 (mul_le_mul_of_nonneg_left he hy0.le)
    have h2 := le_trans h.2.2.2 (mul_le_mul_of_nonneg_left he hz0.le)
    rw [abs_le]
    constructor
    · by_contra hcon
      push Not at hcon
      nlinarith
    · linarith
  have hly : Real.log y ≤ 0 := Real.log_nonpos hy0.le hy
  have e : Real.negMulLog z - Real.negMulLog y = (z - y) * (-Real.log y) - z * (Real.log z - Real.log y) := by
    unfold Real.negMulLog
    ring
  rw [e]
  calc |(z - y) * (-Real.log y) - z * (Real.log z - Real.log y)| ≤ |(z - y) * (-Real.log y)| + |z * (Real.log z - Real.log y)| := abs_sub _ _
    _ ≤ 2 * κ * y * (-Real.log y) + 2 * y * κ := by
      rw [abs_mul, abs_mul, abs_of_nonneg (show 0 ≤ -Real.log y by linarith), abs_of_pos hz0]
      exact add_le_add (mul_le_mul_of_nonneg_right hdiff (by linarith)) (mul_le_mul hz2 hlog (abs_nonneg _) (by linarith))
    _ = 2 * κ * (Real.negMulLog y + y) := by unfold Real.negMulLog; ring

/-- What is assumed of the arithmetic of `scipy.stats.entropy` with `p` bits: `u` bounds the error of an addition relative to the sum of the absolute values, in any order of summation,
and `η` is the error of `scipy.special.entr`. -/
structure Spec.EntropyOk (p : Nat) (emin : Int) (u η : ℝ) (E : EntropyOps) : Prop where
  rnd : MonoRounding p emin E.rnd
  sum : ∀ l : List ℚ, l.length ≤ 2 ^ 14 → (∀ x ∈ l, IsFloat p emin x ∧ |x| ≤ 4) →
    ∃ d, E.sum (l.map some) = some d ∧ IsFloat p emin d ∧ |(d : ℝ) - (l.sum : ℚ)| ≤ l.length * u * ((l.map fun x => |x|).sum : ℚ)
  entr : ∀ x : ℚ, IsFloat p emin x → 0 ≤ x → x ≤ 2 → ∃ y : ℚ, E.entr (some x) = some y ∧ IsFloat p emin y ∧ |(y : ℝ) - Real.negMulLog x| ≤ η

/-- The bound on the error of an entropy of `n` numbers with relative errors up to `κ`. -/
noncomputable def Spec.entropyError (p n : Nat) (u η κ : ℝ) : ℝ := 2 * n * η + (8 * κ + 9 * n * u + 4 * 2 ^ (1 - p : Int)) * (Real.log n + 1)

theorem list_sum_map_sub {ι : Type} (l : List ι) (a b : ι → ℝ) : (l.map fun i => a i - b i).sum = (l.map a).sum - (l.map b).sum := by
  induction l with
  | nil => simp
  | cons i l ih =>
    simp only [List.map_cons, List.sum_cons, ih]
    ring

theorem list_abs_sum_le {ι : Type} (l : List ι) {a b : ι → ℝ} (h : ∀ i ∈ l, |a i| ≤ b i) : |(l.map a).sum| ≤ (l.map b).sum := by
  induction l with
  | nil => simp
  | cons i l ih =>
    simp only [List.map_cons, List.sum_cons]
    exact le_trans (abs_add_le _ _) (add_le_add (h i List.mem_cons_self) (ih fun j hj => h j (List.mem_cons_of_mem _ hj)))

/-- A float sum of nonnegative numbers. -/
theorem sum_rel {p : Nat} {emin : Int} {u η : ℝ} {E : EntropyOps} (O : Spec.EntropyOk p emin u η E) {ι : Type} {l : List ι} (hl : l.length ≤ 2 ^ 14) (hu0 : 0 ≤ u) (hu : l.length * u ≤ 1 / 64)
    {f : ι → ℚ} (hf : ∀ i ∈ l, IsFloat p emin (f i) ∧ 0 ≤ f i ∧ f i ≤ 4) {κ : ℝ} {g : ι → ℝ} (hg : ∀ i ∈ l, Rel κ (f i) (g i)) :
    ∃ d : ℚ, E.sum (l.map fun i => some (f i)) = some d ∧ IsFloat p emin d ∧ Rel (κ + 2 * (l.length * u)) (d : ℝ) (l.map g).sum := by
  obtain ⟨d, h1, h2, h3⟩ := O.sum (l.map f) (by simpa using hl) (by
    intro x hx
    obtain ⟨i, hi, rfl⟩ := List.mem_map.1 hx
    exact ⟨(hf i hi).1, by rw [abs_of_nonneg (hf i hi).2.1]; exact (hf i hi).2.2⟩)
  rw [List.map_map] at h1
  have e : ((l.map f).map fun x => |x|) = l.map f := by
    rw [List.map_map]
    exact List.map_congr_left fun i hi => abs_of_nonneg (hf i hi).2.1
  have ec : (((l.map f).sum : ℚ) : ℝ) = (l.map fun i => (f i : ℝ)).sum := by
    rw [Rat.cast_list_sum, List.map_map]
    rfl
  rw [e, List.length_map, ec] at h3
  have hr := Rel.sum l hg
  have h4 := rel_of_error hr.1 (by positivity) (by linarith) h3
  refine ⟨d, h1, h2, ?_⟩
  have := h4.trans hr
  rwa [add_comm] at this

/-- **The entropy of numbers with relative errors.** -/
theorem floatEntropy_near {p : Nat} {emin : Int} {u η : ℝ} {E : EntropyOps} (O : Spec.EntropyOk p emin u η E) (hp : 24 ≤ p) (he : emin + p ≤ -125) {ι : Type} {l : List ι} (hne : l ≠ [])
    (hl : l.length ≤ 2 ^ 14) (hu0 : 0 ≤ u) (hu : l.length * u ≤ 1 / 64) (hη0 : 0 ≤ η) (hη : η ≤ 1) {f : ι → ℚ} (hf : ∀ i ∈ l, IsFloat p emin (f i) ∧ (f i = 0 ∨ 2 ^ (-100 : Int) ≤ f i)) {κ : ℝ}
    (hκ0 : 0 ≤ κ) (hκ : κ ≤ 1 / 16) {g : ι → ℝ} (hg : ∀ i ∈ l, Rel κ (f i) (g i)) (hsum : (l.map g).sum = 1) :
    ∃ d : ℚ, floatEntropy E (l.map fun i => some (f i)) = some d ∧ IsFloat p emin d ∧
      |(d : ℝ) - (l.map fun i => Real.negMulLog (g i)).sum| ≤ Spec.entropyError p l.length u η κ := by
  have hg0 : ∀ i ∈ l, 0 ≤ g i := fun i hi => (hg i hi).2.1
  have hg1 : ∀ i ∈ l, g i ≤ 1 := fun i hi => by
    rw [← hsum]
    exact List.single_le_sum (fun x hx => by obtain ⟨j, hj, rfl⟩ := List.mem_map.1 hx; exact hg0 j hj) _ (List.mem_map.2 ⟨i, hi, rfl⟩)
  have hf0 : ∀ i ∈ l, 0 ≤ f i := fun i hi => by
    have := (hg i hi).1
    exact_mod_cast this
  have hf2 : ∀ i ∈ l, f i ≤ 2 := fun i hi => by
    have := (hg i hi).le_two (by linarith)
    have h2 : (f i : ℝ) ≤ (2 : ℚ) := by push_cast; linarith [hg1 i hi]
    exact_mod_cast h2
  obtain ⟨s, hs1, hs2, hs3⟩ := sum_rel O hl hu0 hu (fun i hi => ⟨(hf i hi).1, hf0 i hi, by linarith [hf2 i hi]⟩) hg
  rw [hsum] at hs3
  have hn0 : (0 : ℝ) ≤ l.length * u := by positivity
  have hsle := hs3.le_two (by linarith)
  have hsge := hs3.symm.le_two (by linarith)
  have hspos : (0 : ℝ) < s := by linarith
  have hsq : (0 : ℚ) < s := by exact_mod_cast hspos
  have hs2q : s ≤ 2 := by
    have : (s : ℝ) ≤ (2 : ℚ) := by push_cast; linarith
    exact_mod_cast this
  set w : ℝ := (2 : ℝ) ^ (1 - p : Int) with hw
  have hw0 : 0 < w := by positivity
  have hw1 : w ≤ 1 / 64 := by
    have : (2 : ℝ) ^ (1 - p : Int) ≤ 2 ^ (-6 : Int) := zpow_le_zpow_right₀ (by norm_num) (by omega)
    norm_num at this ⊢
    exact this
  set κ' : ℝ := 2 * κ + 2 * (l.length * u) + w with hκ'
  have hκ'0 : 0 ≤ κ' := by positivity
  have hκ'1 : κ' ≤ 1 / 4 := by linarith
  -- the normalised numbers
  have hz : ∀ i ∈ l, Rel κ' (E.rnd (f i / s) : ℚ) (g i) := by
    intro i hi
    have h1 : f i / s = 0 ∨ 2 ^ (emin + p - 1) ≤ f i / s := by
      rcases (hf i hi).2 with h | h
      · exact .inl (by rw [h, zero_div])
      · refine .inr ?_
        rw [le_div_iff₀ hsq]
        have h3 : (2 : ℚ) ^ (emin + p - 1) ≤ 2 ^ (-101 : Int) := zpow_mono (by omega)
        have h4 : (2 : ℚ) ^ (-101 : Int) * 2 = 2 ^ (-100 : Int) := by norm_num
        have h5 := two_zpow_pos (emin + p - 1)
        nlinarith
    have h2 := O.rnd.rel (by omega) h1
    have h3 : Rel (κ + (κ + 2 * (l.length * u))) ((f i / s : ℚ) : ℝ) (g i) := by
      have := (hg i hi).mul (hs3.inv hspos one_pos)
      rw [inv_one, mul_one, ← div_eq_mul_inv] at this
      push_cast
      exact this
    exact (h2.trans h3).mono (by linarith)
  have hzle : ∀ i ∈ l, E.rnd (f i / s) ≤ 2 := fun i hi => by
    have := (hz i hi).le_two hκ'1
    have h2 : (E.rnd (f i / s) : ℝ) ≤ (2 : ℚ) := by push_cast; linarith [hg1 i hi]
    exact_mod_cast h2
  have hz0 : ∀ i ∈ l, 0 ≤ E.rnd (f i / s) := fun i hi => by
    have := (hz i hi).1
    exact_mod_cast this
  have hent : ∀ i ∈ l, ∃ y : ℚ, E.entr (some (E.rnd (f i / s))) = some y ∧ IsFloat p emin y ∧ |(y : ℝ) - Real.negMulLog (E.rnd (f i / s) : ℚ)| ≤ η := fun i hi =>
    O.entr _ (O.rnd.float _) (hz0 i hi) (hzle i hi)
  classical
  choose! y hy1 hy2 hy3 using hent
  have hb : ∀ i ∈ l, |(y i : ℝ) - Real.negMulLog (g i)| ≤ η + 2 * κ' * (Real.negMulLog (g i) + g i) := fun i hi => by
    have h1 := hy3 i hi
    have h2 := negMulLog_rel (hz i hi) hκ'0 hκ'1 (hg1 i hi)
    rw [abs_le] at h1 h2 ⊢
    constructor <;> linarith
  have hnml : ∀ i ∈ l, 0 ≤ Real.negMulLog (g i) := fun i hi => Real.negMulLog_nonneg (hg0 i hi) (hg1 i hi)
  have hnml1 : ∀ i ∈ l, Real.negMulLog (g i) ≤ 1 := fun i hi => by
    rcases eq_or_lt_of_le (hg0 i hi) with h | h
    · rw [← h]; simp
    · have := Real.one_sub_inv_le_log_of_pos h
      unfold Real.negMulLog
      have h2 : g i * (1 - (g i)⁻¹) = g i - 1 := by field_simp
      nlinarith [hg0 i hi]
  have hy4 : ∀ i ∈ l, |y i| ≤ 4 := fun i hi => by
    have h1 := hb i hi
    have h2 : 2 * κ' * (Real.negMulLog (g i) + g i) ≤ 1 := by
      have := hnml1 i hi
      have := hg1 i hi
      have := hnml i hi
      have := hg0 i hi
      nlinarith
    have h3 : |(y i : ℝ)| ≤ 4 := by
      rw [abs_le] at h1 ⊢
      have := hnml1 i hi
      have := hnml i hi
      constructor <;> linarith
    exact_mod_cast h3
  obtain ⟨d, hd1, hd2, hd3⟩ := O.sum (l.map y) (by simpa using hl) (by
    intro x hx
    obtain ⟨i, hi, rfl⟩ := List.mem_map.1 hx
    exact ⟨hy2 i hi, hy4 i hi⟩)
  refine ⟨d, ?_, hd2, ?_⟩
  · rw [← hd1]
    unfold floatEntropy
    rw [hs1, List.map_map, List.map_map]
    congr 1
    refine List.map_congr_left fun i hi => ?_
    simp only [Function.comp_apply]
    rw [← hy1 i hi]
    simp only [Flt.div, bind, Option.bind, if_neg hsq.ne']
  · set n : ℝ := (l.length : ℝ) with hn
    have hn1 : 1 ≤ n := by
      rw [hn]
      exact_mod_cast List.length_pos_of_ne_nil hne
    set H := (l.map fun i => Real.negMulLog (g i)).sum with hH
    have hH0 : 0 ≤ H := List.sum_nonneg fun x hx => by obtain ⟨i, hi, rfl⟩ := List.mem_map.1 hx; exact hnml i hi
    have hHle : H ≤ Real.log n := by
      have e1 : ∀ h : ι → ℝ, (l.map h).sum = ∑ i : Fin l.length, h (l.get i) := by
        intro h
        have : l.map h = List.ofFn fun i : Fin l.length => h (l.get i) := by
          conv_lhs => rw [← List.ofFn_get l, List.map_ofFn]
          rfl
        rw [this, List.sum_ofFn]
      have h1 := shannon_le (Finset.univ : Finset (Fin l.length)) (fun i => g (l.get i)) (fun i _ => hg0 _ (List.get_mem l i)) (by rw [← e1 g]; exact hsum)
      unfold shannon at h1
      rw [Finset.card_univ, Fintype.card_fin] at h1
      rw [hH, e1]
      exact h1
    have hT : (l.map fun i => η + 2 * κ' * (Real.negMulLog (g i) + g i)).sum = n * η + 2 * κ' * (H + 1) := by
      rw [List.sum_map_add, List.sum_map_mul_left, List.sum_map_add, hsum, List.map_const', List.sum_replicate, nsmul_eq_mul]
    have hdiff : |((l.map y).sum : ℚ) - H| ≤ n * η + 2 * κ' * (H + 1) := by
      have e1 : (((l.map y).sum : ℚ) : ℝ) - H = (l.map fun i => (y i : ℝ) - Real.negMulLog (g i)).sum := by
        rw [Rat.cast_list_sum, List.map_map, hH]
        exact (list_sum_map_sub l (fun i => (y i : ℝ)) fun i => Real.negMulLog (g i)).symm
      rw [e1, ← hT]
      exact list_abs_sum_le l hb
    have habs : (((l.map y).map fun x => |x|).sum : ℚ) ≤ H + (n * η + 2 * κ' * (H + 1)) := by
      have e1 : (((((l.map y).map fun x => |x|).sum : ℚ)) : ℝ) = (l.map fun i => |(y i : ℝ)|).sum := by
        rw [Rat.cast_list_sum, List.map_map, List.map_map]
        congr 1
        refine List.map_congr_left fun i _ => ?_
        simp
      rw [e1, ← hT, hH, ← List.sum_map_add]
      refine List.sum_le_sum fun i hi => ?_
      have h1 := hb i hi
      have h2 := hnml i hi
      rw [abs_le] at h1 ⊢
      constructor <;> linarith
    rw [List.length_map] at hd3
    have hd4 := le_trans hd3 (mul_le_mul_of_nonneg_left habs hn0)
    unfold Spec.entropyError
    rw [← hw, ← hn]
    rw [← hn] at hd4
    have hlog0 := le_trans hH0 hHle
    have k1 : n * u * (n * η + 2 * κ' * (H + 1)) ≤ 1 * (n * η + 2 * κ' * (H + 1)) := by
      refine mul_le_mul_of_nonneg_right (by linarith) ?_
      have : 0 ≤ n * η := by positivity
      have : 0 ≤ κ' * (H + 1) := by positivity
      linarith
    have k2 : |(d : ℝ) - H| ≤ 2 * (n * η) + 4 * κ' * (H + 1) + n * u * H := by
      rw [abs_le] at hd4 hdiff ⊢
      constructor <;> linarith
    refine le_trans k2 ?_
    have k3 : (4 * κ' + n * u) * (H + 1) ≤ (4 * κ' + n * u) * (Real.log n + 1) := mul_le_mul_of_nonneg_left (by linarith) (by linarith)
    have k4 : 8 * κ + 9 * n * u + 4 * w = 4 * κ' + n * u := by rw [hκ']; ring
    rw [k4]
    have k5 : n * u * H ≤ n * u * (H + 1) := mul_le_mul_of_nonneg_left (by linarith) hn0
    linarith

end TreeCat
