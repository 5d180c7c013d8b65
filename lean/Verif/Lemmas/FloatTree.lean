import Verif.Model.FloatTree
import Verif.Props.FloatSample
import Verif.Props.TreeSamples
import Verif.Spec.FloatExp

/-! # Tree sampling in float32: draws and weights -/

namespace TreeCat

open Util Spec
open scoped BigOperators

/-! ### Distributions on finitely many indices -/

/-- Two distributions give expected values that differ by at most half their distance times the span of the values. -/
theorem expect_distance {ι : Type} (s : Finset ι) (a b k : ι → ℝ) (ha : ∑ i ∈ s, a i = 1) (hb : ∑ i ∈ s, b i = 1) {lo hi : ℝ} (hk : ∀ i ∈ s, lo ≤ k i ∧ k i ≤ hi) :
    |∑ i ∈ s, a i * k i - ∑ i ∈ s, b i * k i| ≤ (∑ i ∈ s, |a i - b i|) / 2 * (hi - lo) := by
  have e : ∑ i ∈ s, a i * k i - ∑ i ∈ s, b i * k i = ∑ i ∈ s, (a i - b i) * (k i - (lo + hi) / 2) := by
    have h : ∑ i ∈ s, (a i - b i) * ((lo + hi) / 2) = 0 := by
      rw [← Finset.sum_mul, Finset.sum_sub_distrib, ha, hb, sub_self, zero_mul]
    simp only [mul_sub]
    rw [Finset.sum_sub_distrib, h, sub_zero]
    simp only [sub_mul]
    rw [Finset.sum_sub_distrib]
  rw [e, div_mul_eq_mul_div, mul_div_assoc, Finset.sum_mul]
  refine le_trans (Finset.abs_sum_le_sum_abs _ _) (Finset.sum_le_sum fun i hi => ?_)
  rw [abs_mul]
  refine mul_le_mul_of_nonneg_left ?_ (abs_nonneg _)
  obtain ⟨h1, h2⟩ := hk i hi
  rw [abs_le]
  constructor <;> linarith

/-- Weights with small errors give normalised weights with small errors. -/
theorem normalised_distance {ι : Type} (s : Finset ι) (a b : ι → ℝ) {η : ℝ} (ha0 : ∀ i ∈ s, 0 ≤ a i) (hab : ∀ i ∈ s, |a i - b i| ≤ η) (ha : 0 < ∑ i ∈ s, a i)
    (hb : 1 ≤ ∑ i ∈ s, b i) : ∑ i ∈ s, |a i / (∑ j ∈ s, a j) - b i / (∑ j ∈ s, b j)| ≤ 2 * (s.card * η) := by
  set A := ∑ j ∈ s, a j with hA
  set B := ∑ j ∈ s, b j with hB
  have hB0 : 0 < B := by linarith
  have hsum : ∑ i ∈ s, |a i - b i| ≤ s.card * η := by
    refine le_trans (Finset.sum_le_sum hab) ?_
    rw [Finset.sum_const, nsmul_eq_mul]
  have hAB : |B - A| ≤ s.card * η := by
    rw [hA, hB, ← Finset.sum_sub_distrib]
    refine le_trans (Finset.abs_sum_le_sum_abs _ _) (le_trans (le_of_eq (Finset.sum_congr rfl fun i _ => abs_sub_comm _ _)) hsum)
  have hterm : ∀ i ∈ s, |a i / A - b i / B| ≤ a i / A * |B - A| + |a i - b i| := by
    intro i hi
    have e : a i / A - b i / B = (a i / A * (B - A) + (a i - b i)) / B := by field_simp; ring
    rw [e, abs_div, abs_of_pos hB0, div_le_iff₀ hB0]
    refine le_trans (abs_add_le _ _) ?_
    rw [abs_mul, abs_of_nonneg (div_nonneg (ha0 i hi) ha.le)]
    have h0 : 0 ≤ a i / A * |B - A| + |a i - b i| := add_nonneg (mul_nonneg (div_nonneg (ha0 i hi) ha.le) (abs_nonneg _)) (abs_nonneg _)
    nlinarith
  refine le_trans (Finset.sum_le_sum hterm) ?_
  rw [Finset.sum_add_distrib, ← Finset.sum_mul, ← Finset.sum_div, div_self ha.ne', one_mul]
  linarith

/-! ### Draws -/

section
variable {rs rp : ℚ → ℚ}

/-- The number of draws that give an index. -/
theorem sum_floatCount {n : Nat} {ps : List ℚ} (hne : ps ≠ []) (k : Nat → ℝ) :
    (∑ d ∈ Finset.range n, drawValue (N := ps.length) (floatSample rs rp ps ((d : ℚ) / n)) fun i => k i.val) = ∑ i ∈ Finset.range ps.length, (floatCount rs rp ps n i : ℝ) * k i := by
  have h1 : ∀ d : Nat, drawValue (N := ps.length) (floatSample rs rp ps ((d : ℚ) / n)) (fun i => k i.val)
      = ∑ i ∈ Finset.range ps.length, (if floatSample rs rp ps ((d : ℚ) / n) = .ok i then 1 else 0) * k i := by
    intro d
    obtain ⟨i, hi, h⟩ := floatSample_range (ps := ps) rs rp hne ((d : ℚ) / n)
    rw [h]
    simp only [drawValue, dif_pos hi, Except.ok.injEq, ite_mul, one_mul, zero_mul]
    rw [Finset.sum_ite_eq, if_pos (Finset.mem_range.2 hi)]
  simp only [h1]
  rw [Finset.sum_comm]
  refine Finset.sum_congr rfl fun i _ => ?_
  rw [← Finset.sum_mul]
  congr 1
  rw [Finset.sum_boole]
  congr 1
  rw [floatCount, List.countP_eq_length_filter, ← List.toFinset_card_of_nodup (List.nodup_range.filter _), List.toFinset_filter, List.toFinset_range]
  simp only [decide_eq_true_eq]

theorem list_sum_range {K : Type} [AddCommMonoid K] (l : List K) : l.sum = ∑ i ∈ Finset.range l.length, l.getD i 0 := by
  rw [Finset.sum_range, ← List.sum_ofFn]
  congr 1
  apply List.ext_getElem
  · simp
  · intro i h1 h2
    simp [List.getD_eq_getElem?_getD, List.getElem?_eq_getElem h1]

/-- The distance of the drawn distribution from the normalised weights is linear in the number of weights. -/
theorem floatCount_distance {p q : Nat} {emin fmin : Int} (R : IsRounding p emin rs) (Rp : IsRounding q fmin rp) (hp : 1 ≤ p) (hpq : p ≤ q) (hmin : fmin ≤ emin) {ps : List ℚ}
    (h0 : ∀ x ∈ ps, 0 ≤ x) (hfl : ∀ x ∈ ps, IsFloat p emin x) (hbig : ∃ x ∈ ps, 2 ^ (fmin + q) ≤ x) (hlen : 2 * ps.length ≤ 2 ^ p) {n : Nat} (hn : 0 < n) (hnq : n ≤ 2 ^ q) :
    ∑ i ∈ Finset.range ps.length, |(floatCount rs rp ps n i : ℚ) / n - ps.getD i 0 / ps.sum| ≤ ps.length * (1 / n + 3 / 2 / 2 ^ q + 4 / 2 ^ p) := by
  have hsum : 0 < ps.sum := by
    obtain ⟨x, hx, hb⟩ := hbig
    exact lt_of_lt_of_le (two_zpow_pos _) (le_trans hb (List.single_le_sum h0 _ hx))
  have h1 : ∀ i ∈ Finset.range ps.length, |(floatCount rs rp ps n i : ℚ) / n - ps.getD i 0 / ps.sum|
      ≤ (1 / n + 3 / 2 / 2 ^ q + 2 / 2 ^ p) + ps.getD i 0 / ps.sum * (2 * ps.length / 2 ^ p) := by
    intro i hi
    have hi := Finset.mem_range.1 hi
    have h := (floatSample_index R Rp hp hpq hmin h0 hfl hbig hlen hn hnq hi).1
    rw [List.getD_eq_getElem?_getD, List.getElem?_eq_getElem hi, Option.getD_some]
    exact h
  refine le_trans (Finset.sum_le_sum h1) ?_
  rw [Finset.sum_add_distrib, ← Finset.sum_mul, ← Finset.sum_div, ← list_sum_range, div_self hsum.ne', Finset.sum_const, Finset.card_range, nsmul_eq_mul]
  apply le_of_eq
  ring

end

/-! ### Weights -/

/-- The relative rounding error of an exponent that is not positive changes the exponential by at most `2 ^ -23`. -/
theorem exp_rounded {x y : ℝ} (hx : x ≤ 0) (h : |y - x| ≤ |x| / 2 ^ 24) : |Real.exp y - Real.exp x| ≤ 2 ^ (-23 : Int) := by
  rw [abs_of_nonpos hx] at h
  obtain ⟨h1, h2⟩ := abs_le.1 h
  set t := -x with ht
  have ht0 : 0 ≤ t := by linarith
  have hmax : max x y ≤ -(t / 2) := by
    refine max_le (by linarith) ?_
    have : t / 2 ^ 24 ≤ t / 2 := div_le_div_of_nonneg_left ht0 (by norm_num) (by norm_num)
    linarith
  have hexp : ∀ a b : ℝ, a ≤ b → b ≤ -(t / 2) → Real.exp b - Real.exp a ≤ (b - a) * Real.exp (-(t / 2)) := by
    intro a b hab hb
    have e : Real.exp a = Real.exp b * Real.exp (a - b) := by rw [← Real.exp_add]; ring_nf
    have h3 := Real.add_one_le_exp (a - b)
    have h4 := Real.exp_pos b
    have h5 : Real.exp b ≤ Real.exp (-(t / 2)) := Real.exp_le_exp.2 hb
    rw [e]
    nlinarith
  have habs : |Real.exp y - Real.exp x| ≤ |y - x| * Real.exp (-(t / 2)) := by
    rcases le_total x y with hxy | hxy
    · rw [abs_of_nonneg (sub_nonneg.2 (Real.exp_le_exp.2 hxy)), abs_of_nonneg (sub_nonneg.2 hxy)]
      exact hexp x y hxy (le_trans (le_max_right _ _) hmax)
    · rw [abs_of_nonpos (sub_nonpos.2 (Real.exp_le_exp.2 hxy)), abs_of_nonpos (sub_nonpos.2 hxy), neg_sub, neg_sub]
      exact hexp y x hxy (le_trans (le_max_left _ _) hmax)
  refine le_trans habs ?_
  have hs : t / 2 * Real.exp (-(t / 2)) ≤ 1 := by
    rw [Real.exp_neg, mul_inv_le_iff₀ (Real.exp_pos _), one_mul]
    have := Real.add_one_le_exp (t / 2)
    linarith
  have hy : |y - x| ≤ t / 2 ^ 24 := by rw [abs_le]; constructor <;> linarith
  have h6 : |y - x| * Real.exp (-(t / 2)) ≤ t / 2 ^ 24 * Real.exp (-(t / 2)) := mul_le_mul_of_nonneg_right hy (Real.exp_pos _).le
  have h7 : t / 2 ^ 24 * Real.exp (-(t / 2)) = (t / 2 * Real.exp (-(t / 2))) / 2 ^ 23 := by ring
  have h8 : (2 : ℝ) ^ (-23 : Int) = 1 / 2 ^ 23 := by rw [zpow_neg, one_div]; norm_cast
  rw [h8]
  rw [h7] at h6
  have : t / 2 * Real.exp (-(t / 2)) / 2 ^ 23 ≤ 1 / 2 ^ 23 := div_le_div_of_nonneg_right hs (by norm_num)
  linarith

theorem foldl_max_spec {K : Type} [LinearOrder K] (l : K) (ls : List K) : ls.foldl max l ∈ l :: ls ∧ ∀ x ∈ l :: ls, x ≤ ls.foldl max l := by
  induction ls generalizing l with
  | nil => simp
  | cons a ls ih =>
    obtain ⟨h1, h2⟩ := ih (max l a)
    rw [List.foldl_cons]
    constructor
    · rcases List.mem_cons.1 h1 with h | h
      · rcases max_choice l a with hm | hm
        · exact List.mem_cons.2 (.inl (h.trans hm))
        · exact List.mem_cons_of_mem _ (List.mem_cons.2 (.inl (h.trans hm)))
      · exact List.mem_cons_of_mem _ (List.mem_cons_of_mem _ h)
    · intro x hx
      have h3 := h2 (max l a) List.mem_cons_self
      rcases List.mem_cons.1 hx with rfl | hx
      · exact le_trans (le_max_left _ _) h3
      · rcases List.mem_cons.1 hx with rfl | hx
        · exact le_trans (le_max_right _ _) h3
        · exact h2 x (List.mem_cons_of_mem _ hx)

theorem foldl_max_cast (l : ℚ) (ls : List ℚ) : (ls.map fun x : ℚ => (x : ℝ)).foldl max (l : ℝ) = ((ls.foldl max l : ℚ) : ℝ) := by
  induction ls generalizing l with
  | nil => rfl
  | cons a ls ih =>
    rw [List.map_cons, List.foldl_cons, List.foldl_cons, ← ih, Rat.cast_max]

section
variable {rs rp fexp : ℚ → ℚ} {η : ℝ}

/-- The weights in float32 and exactly. -/
theorem probsOf_float (R : IsRounding 24 (-149) rs) (hexp : ExpOk fexp η) {ls : List ℚ} (hne : ls ≠ []) (hfl : ∀ x ∈ ls, IsFloat 24 (-149) x) :
    (∀ w ∈ probsOf (fun x => fexp (rs x)) ls, 0 ≤ w ∧ IsFloat 24 (-149) w) ∧ 1 ∈ probsOf (fun x => fexp (rs x)) ls ∧
      (1 : ℝ) ∈ probsOf Real.exp (ls.map fun x : ℚ => (x : ℝ)) ∧ (∀ w ∈ probsOf Real.exp (ls.map fun x : ℚ => (x : ℝ)), 0 ≤ w) ∧
      ∀ i < ls.length, |(((probsOf (fun x => fexp (rs x)) ls).getD i 0 : ℚ) : ℝ) - (probsOf Real.exp (ls.map fun x : ℚ => (x : ℝ))).getD i 0| ≤ η + 2 ^ (-23 : Int) := by
  cases ls with
  | nil => exact absurd rfl hne
  | cons l ls =>
    obtain ⟨hm1, hm2⟩ := foldl_max_spec l ls
    have h0f : IsFloat 24 (-149) 0 := ⟨0, 0, by norm_num, by norm_num, by norm_num⟩
    have hle : ∀ x ∈ l :: ls, rs (x - ls.foldl max l) ≤ 0 := by
      intro x hx
      have := R.mono (sub_nonpos.2 (hm2 x hx))
      rwa [R.id h0f] at this
    have hmax : ((l :: ls).map fun x : ℚ => (x : ℝ)) = (l : ℝ) :: ls.map fun x : ℚ => (x : ℝ) := rfl
    refine ⟨?_, ?_, ?_, ?_, ?_⟩
    · intro w hw
      obtain ⟨x, hx, rfl⟩ := List.mem_map.1 hw
      exact ⟨hexp.nonneg _ (hle x hx), hexp.float _ (hle x hx)⟩
    · refine List.mem_map.2 ⟨_, hm1, ?_⟩
      simp only [sub_self, R.id h0f, hexp.zero]
    · rw [hmax]
      refine List.mem_map.2 ⟨_, (foldl_max_spec _ _).1, ?_⟩
      rw [sub_self, Real.exp_zero]
    · intro w hw
      rw [hmax] at hw
      obtain ⟨x, -, rfl⟩ := List.mem_map.1 hw
      exact (Real.exp_pos _).le
    · intro i hi
      have e1 : (probsOf (fun x => fexp (rs x)) (l :: ls)).getD i 0 = fexp (rs ((l :: ls)[i] - ls.foldl max l)) := by
        rw [probsOf, List.getD_eq_getElem?_getD, List.getElem?_map, List.getElem?_eq_getElem hi]
        rfl
      have e2 : (probsOf Real.exp ((l :: ls).map fun x : ℚ => (x : ℝ))).getD i 0 = Real.exp (((l :: ls)[i] - ls.foldl max l : ℚ) : ℝ) := by
        rw [hmax, probsOf, ← hmax, List.getD_eq_getElem?_getD, List.getElem?_map, List.getElem?_map, List.getElem?_eq_getElem hi, foldl_max_cast]
        push_cast
        rfl
      rw [e1, e2]
      set x := (l :: ls)[i] - ls.foldl max l with hx
      have hxi : (l :: ls)[i] ∈ l :: ls := List.getElem_mem hi
      have hx0 : x ≤ 0 := sub_nonpos.2 (hm2 _ hxi)
      have herr : |rs x - x| ≤ |x| / 2 ^ 24 := by
        have hneg : IsFloat 24 (-149) (-(ls.foldl max l)) := by
          obtain ⟨m, e, h1, h2, h3⟩ := hfl _ hm1
          exact ⟨-m, e, by rwa [abs_neg], h2, by rw [h3]; push_cast; ring⟩
        have := R.add_error (by norm_num) (hfl _ hxi) hneg
        rwa [← sub_eq_add_neg] at this
      have herr' : |((rs x : ℚ) : ℝ) - (x : ℝ)| ≤ |(x : ℝ)| / 2 ^ 24 := by exact_mod_cast herr
      have h1 := exp_rounded (x := (x : ℝ)) (by exact_mod_cast hx0) herr'
      have h2 := hexp.near _ (hle _ hxi) (R.float _)
      have := abs_sub_le ((fexp (rs x) : ℚ) : ℝ) (Real.exp (rs x : ℚ)) (Real.exp (x : ℝ))
      linarith

end

end TreeCat
