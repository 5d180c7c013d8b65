import Mathlib.Analysis.SpecialFunctions.Log.NegMulLog
import Mathlib.Algebra.BigOperators.Fin
import Verif.Props.Logprob
import Verif.Spec.Info

/-!
# Entropy inequalities
-/

namespace TreeCat

open Spec

theorem entr_real (x : ℝ) : entr realNum x = Real.negMulLog x := by
  unfold entr realNum Real.negMulLog
  split
  · rename_i h; rw [h]; simp
  · ring

theorem entropy_real (l : List ℝ) (h : l.sum = 1) : entropy realNum l = (l.map Real.negMulLog).sum := by
  unfold entropy
  rw [h]
  simp only [div_one, entr_real]

/-- Entropy of a list that is a distribution. -/
theorem entropy_finRange {n : Nat} (p : Fin n → ℝ) (h : ∑ i, p i = 1) :
    entropy realNum ((List.finRange n).map p) = shannon Finset.univ p := by
  have e : ∀ f : Fin n → ℝ, ((List.finRange n).map f).sum = ∑ i, f i := fun f => (Fin.sum_univ_def f).symm
  rw [entropy_real _ (by rw [e]; exact h), List.map_map, e]
  rfl

theorem shannon_nonneg {ι : Type} (s : Finset ι) (p : ι → ℝ) (h0 : ∀ i ∈ s, 0 ≤ p i) (h1 : ∑ i ∈ s, p i = 1) :
    0 ≤ shannon s p := by
  refine Finset.sum_nonneg fun i hi => Real.negMulLog_nonneg (h0 i hi) ?_
  rw [← h1]
  exact Finset.single_le_sum h0 hi

/-- Gibbs' inequality. -/
theorem gibbs {ι : Type} (s : Finset ι) (p q : ι → ℝ) (hp : ∀ i ∈ s, 0 ≤ p i) (hq : ∀ i ∈ s, 0 ≤ q i)
    (hpq : ∀ i ∈ s, q i = 0 → p i = 0) (h : ∑ i ∈ s, q i ≤ ∑ i ∈ s, p i) :
    0 ≤ ∑ i ∈ s, p i * Real.log (p i / q i) := by
  have key : ∀ i ∈ s, p i - q i ≤ p i * Real.log (p i / q i) := by
    intro i hi
    rcases (hp i hi).lt_or_eq with hpos | hz
    · have hqpos : 0 < q i := lt_of_le_of_ne (hq i hi) fun e => by
        have := hpq i hi e.symm; linarith
      have := Real.log_le_sub_one_of_pos (div_pos hqpos hpos)
      have e : Real.log (p i / q i) = - Real.log (q i / p i) := by rw [← Real.log_inv, inv_div]
      rw [e]
      have h2 : p i * Real.log (q i / p i) ≤ p i * (q i / p i - 1) := mul_le_mul_of_nonneg_left this hpos.le
      have h3 : p i * (q i / p i - 1) = q i - p i := by field_simp
      linarith
    · rw [← hz]
      have := hq i hi
      simp [this]
  have := Finset.sum_le_sum key
  rw [Finset.sum_sub_distrib] at this
  linarith

/-- Gibbs' inequality is strict for different distributions. -/
theorem gibbs_strict {ι : Type} (s : Finset ι) (p q : ι → ℝ) (hp : ∀ i ∈ s, 0 ≤ p i) (hq : ∀ i ∈ s, 0 ≤ q i)
    (hpq : ∀ i ∈ s, q i = 0 → p i = 0) (h : ∑ i ∈ s, q i ≤ ∑ i ∈ s, p i) {j : ι} (hj : j ∈ s) (hne : p j ≠ q j) :
    0 < ∑ i ∈ s, p i * Real.log (p i / q i) := by
  have key : ∀ i ∈ s, p i - q i ≤ p i * Real.log (p i / q i) ∧ (p i ≠ q i → p i - q i < p i * Real.log (p i / q i)) := by
    intro i hi
    rcases (hp i hi).lt_or_eq with hpos | hz
    · have hqpos : 0 < q i := lt_of_le_of_ne (hq i hi) fun e => by
        have := hpq i hi e.symm; linarith
      have e : Real.log (p i / q i) = - Real.log (q i / p i) := by rw [← Real.log_inv, inv_div]
      have h3 : p i * (q i / p i - 1) = q i - p i := by field_simp
      rw [e]
      refine ⟨?_, fun hne => ?_⟩
      · have := mul_le_mul_of_nonneg_left (Real.log_le_sub_one_of_pos (div_pos hqpos hpos)) hpos.le
        linarith
      · have := mul_lt_mul_of_pos_left (Real.log_lt_sub_one_of_pos (div_pos hqpos hpos) (by
          intro e1; rw [div_eq_one_iff_eq hpos.ne'] at e1; exact hne e1.symm)) hpos
        linarith
    · rw [← hz]
      have := hq i hi
      refine ⟨by simp [this], fun hne => ?_⟩
      have : 0 < q i := lt_of_le_of_ne this hne
      simp [this]
  have := Finset.sum_lt_sum (fun i hi => (key i hi).1) ⟨j, hj, (key j hj).2 hne⟩
  rw [Finset.sum_sub_distrib] at this
  linarith

theorem shannon_le {ι : Type} (s : Finset ι) (p : ι → ℝ) (h0 : ∀ i ∈ s, 0 ≤ p i) (h1 : ∑ i ∈ s, p i = 1) :
    shannon s p ≤ Real.log s.card := by
  have hne : s.Nonempty := by
    rw [Finset.nonempty_iff_ne_empty]; rintro rfl; simp at h1
  have hc : (0 : ℝ) < s.card := by exact_mod_cast Finset.card_pos.2 hne
  have := gibbs s p (fun _ => 1 / (s.card : ℝ)) h0 (fun _ _ => by positivity)
    (fun i _ h => absurd h (by positivity)) (by
      rw [h1, Finset.sum_const, nsmul_eq_mul, mul_one_div, div_self hc.ne'])
  have e : ∀ i ∈ s, p i * Real.log (p i / (1 / (s.card : ℝ))) = p i * Real.log s.card - Real.negMulLog (p i) := by
    intro i hi
    unfold Real.negMulLog
    rcases (h0 i hi).lt_or_eq with hpos | hz
    · rw [div_div_eq_mul_div, div_one, Real.log_mul hpos.ne' hc.ne']; ring
    · rw [← hz]; simp
  rw [Finset.sum_congr rfl e, Finset.sum_sub_distrib, ← Finset.sum_mul, h1] at this
  unfold shannon
  linarith

/-- `exp` of the entropy is between one and the number of outcomes. -/
theorem perplexity_range {ι : Type} (s : Finset ι) (p : ι → ℝ) (h0 : ∀ i ∈ s, 0 ≤ p i) (h1 : ∑ i ∈ s, p i = 1) :
    1 ≤ Real.exp (shannon s p) ∧ Real.exp (shannon s p) ≤ s.card := by
  have hne : s.Nonempty := by
    rw [Finset.nonempty_iff_ne_empty]; rintro rfl; simp at h1
  have hc : (0 : ℝ) < s.card := by exact_mod_cast Finset.card_pos.2 hne
  refine ⟨Real.one_le_exp (shannon_nonneg s p h0 h1), ?_⟩
  rw [← Real.exp_log hc]
  exact Real.exp_le_exp.2 (shannon_le s p h0 h1)

/-! ### Mutual information -/

variable {M : Nat}

theorem mutualInfo_nonneg (p : Fin M → Fin M → ℝ) (h0 : ∀ a b, 0 ≤ p a b) (h1 : ∑ a, ∑ b, p a b = 1) : 0 ≤ mutualInfo p := by
  have hr : ∀ a, 0 ≤ ∑ b, p a b := fun a => Finset.sum_nonneg fun b _ => h0 a b
  have hc : ∀ b, 0 ≤ ∑ a, p a b := fun b => Finset.sum_nonneg fun a _ => h0 a b
  have := gibbs (Finset.univ : Finset (Fin M × Fin M)) (fun x => p x.1 x.2) (fun x => (∑ b', p x.1 b') * ∑ a', p a' x.2)
    (fun x _ => h0 _ _) (fun x _ => mul_nonneg (hr _) (hc _)) (by
      rintro ⟨a, b⟩ - h
      rcases mul_eq_zero.1 h with h | h
      · exact (Finset.sum_eq_zero_iff_of_nonneg fun b _ => h0 a b).1 h b (Finset.mem_univ _)
      · exact (Finset.sum_eq_zero_iff_of_nonneg fun a _ => h0 a b).1 h a (Finset.mem_univ _)) (by
      rw [Fintype.sum_prod_type, Fintype.sum_prod_type]
      simp only [← Finset.mul_sum]
      rw [← Finset.sum_mul, Finset.sum_comm (f := fun b a => p a b), h1, one_mul])
  rw [Fintype.sum_prod_type] at this
  exact this

/-- Mutual information is zero just when the two variables are independent. -/
theorem mutualInfo_eq_zero_iff (p : Fin M → Fin M → ℝ) (h0 : ∀ a b, 0 ≤ p a b) (h1 : ∑ a, ∑ b, p a b = 1) :
    mutualInfo p = 0 ↔ ∀ a b, p a b = (∑ b', p a b') * ∑ a', p a' b := by
  have hr : ∀ a, 0 ≤ ∑ b, p a b := fun a => Finset.sum_nonneg fun b _ => h0 a b
  have hc : ∀ b, 0 ≤ ∑ a, p a b := fun b => Finset.sum_nonneg fun a _ => h0 a b
  constructor
  · intro hz a b
    by_contra hne
    have := gibbs_strict (Finset.univ : Finset (Fin M × Fin M)) (fun x => p x.1 x.2) (fun x => (∑ b', p x.1 b') * ∑ a', p a' x.2)
      (fun x _ => h0 _ _) (fun x _ => mul_nonneg (hr _) (hc _)) (by
        rintro ⟨a, b⟩ - h
        rcases mul_eq_zero.1 h with h | h
        · exact (Finset.sum_eq_zero_iff_of_nonneg fun b _ => h0 a b).1 h b (Finset.mem_univ _)
        · exact (Finset.sum_eq_zero_iff_of_nonneg fun a _ => h0 a b).1 h a (Finset.mem_univ _)) (by
        rw [Fintype.sum_prod_type, Fintype.sum_prod_type]
        simp only [← Finset.mul_sum]
        rw [← Finset.sum_mul, Finset.sum_comm (f := fun b a => p a b), h1, one_mul]) (j := (a, b)) (Finset.mem_univ _) hne
    rw [Fintype.sum_prod_type] at this
    exact this.ne' hz
  · intro h
    refine Finset.sum_eq_zero fun a _ => Finset.sum_eq_zero fun b _ => ?_
    rw [← h a b]
    by_cases hz : p a b = 0
    · rw [hz, zero_mul]
    · rw [div_self hz, Real.log_one, mul_zero]

/-- Mutual information as a difference of entropies. -/
theorem mutualInfo_eq (p : Fin M → Fin M → ℝ) (h0 : ∀ a b, 0 ≤ p a b) :
    mutualInfo p = shannon Finset.univ (fun b => ∑ a, p a b) + shannon Finset.univ (fun a => ∑ b, p a b)
      - shannon Finset.univ (fun x : Fin M × Fin M => p x.1 x.2) := by
  unfold mutualInfo shannon Real.negMulLog
  have e : ∀ a b, p a b * Real.log (p a b / ((∑ b', p a b') * ∑ a', p a' b))
      = p a b * Real.log (p a b) - p a b * Real.log (∑ b', p a b') - p a b * Real.log (∑ a', p a' b) := by
    intro a b
    rcases (h0 a b).lt_or_eq with hpos | hz
    · have h1 : 0 < ∑ b', p a b' := Finset.sum_pos' (fun b _ => h0 a b) ⟨b, Finset.mem_univ _, hpos⟩
      have h2 : 0 < ∑ a', p a' b := Finset.sum_pos' (fun a _ => h0 a b) ⟨a, Finset.mem_univ _, hpos⟩
      rw [Real.log_div hpos.ne' (mul_pos h1 h2).ne', Real.log_mul h1.ne' h2.ne']; ring
    · rw [← hz]; simp
  simp only [e, Finset.sum_sub_distrib]
  rw [Fintype.sum_prod_type, Finset.sum_comm (f := fun a b => p a b * Real.log (∑ a', p a' b))]
  simp only [← Finset.sum_mul, neg_mul, Finset.sum_neg_distrib]
  ring

/-- The entropy of one variable is at most that of both. -/
theorem shannon_marginal_le (p : Fin M → Fin M → ℝ) (h0 : ∀ a b, 0 ≤ p a b) :
    shannon Finset.univ (fun a => ∑ b, p a b) ≤ shannon Finset.univ (fun x : Fin M × Fin M => p x.1 x.2) := by
  unfold shannon
  rw [Fintype.sum_prod_type]
  refine Finset.sum_le_sum fun a _ => ?_
  unfold Real.negMulLog
  rw [neg_mul, Finset.sum_mul, ← Finset.sum_neg_distrib]
  refine Finset.sum_le_sum fun b _ => ?_
  rcases (h0 a b).lt_or_eq with hpos | hz
  · have hle : p a b ≤ ∑ b', p a b' := Finset.single_le_sum (f := fun b => p a b) (fun b _ => h0 a b) (Finset.mem_univ b)
    have := Real.log_le_log hpos hle
    have := mul_le_mul_of_nonneg_left this hpos.le
    simp only
    linarith
  · simp [← hz]

theorem mutualInfo_swap (p : Fin M → Fin M → ℝ) : mutualInfo (fun a b => p b a) = mutualInfo p := by
  unfold mutualInfo
  rw [Finset.sum_comm]
  refine Finset.sum_congr rfl fun a _ => Finset.sum_congr rfl fun b _ => ?_
  rw [mul_comm (∑ a', p a' b)]

/-- Mutual information is at most the entropy of either variable. -/
theorem mutualInfo_le (p : Fin M → Fin M → ℝ) (h0 : ∀ a b, 0 ≤ p a b) : mutualInfo p ≤ shannon Finset.univ (fun b => ∑ a, p a b) := by
  rw [mutualInfo_eq p h0]
  have := shannon_marginal_le p h0
  linarith

/-- The mutual information of a variable with itself is its entropy. -/
theorem mutualInfo_diag (p : Fin M → Fin M → ℝ) (h0 : ∀ a b, 0 ≤ p a b) (hd : ∀ a b, a ≠ b → p a b = 0) :
    mutualInfo p = shannon Finset.univ (fun b => ∑ a, p a b) := by
  rw [mutualInfo_eq p h0]
  have e : ∀ a, ∑ b, p a b = p a a := fun a =>
    Finset.sum_eq_single a (fun b _ hb => hd a b (Ne.symm hb)) (fun h => absurd (Finset.mem_univ _) h)
  have : shannon Finset.univ (fun x : Fin M × Fin M => p x.1 x.2) = shannon Finset.univ (fun a => ∑ b, p a b) := by
    unfold shannon
    rw [Fintype.sum_prod_type]
    refine Finset.sum_congr rfl fun a _ => ?_
    simp only [e a]
    exact Finset.sum_eq_single a (fun b _ hb => by simp [hd a b (Ne.symm hb)]) (fun h => absurd (Finset.mem_univ _) h)
  rw [this]; ring

theorem rho_range (p : Fin M → Fin M → ℝ) : 0 ≤ rho p ∧ rho p < 1 := by
  refine ⟨Real.sqrt_nonneg _, ?_⟩
  unfold rho
  rw [Real.sqrt_lt' one_pos]
  have := Real.exp_pos (-2 * mutualInfo p)
  linarith

theorem rho_sq (p : Fin M → Fin M → ℝ) (h0 : ∀ a b, 0 ≤ p a b) (h1 : ∑ a, ∑ b, p a b = 1) :
    rho p ^ 2 = 1 - Real.exp (-2 * mutualInfo p) := by
  unfold rho
  rw [Real.sq_sqrt]
  have : Real.exp (-2 * mutualInfo p) ≤ 1 := Real.exp_le_one_iff.2 (by have := mutualInfo_nonneg p h0 h1; linarith)
  linarith

theorem rho_mono {p q : Fin M → Fin M → ℝ} (h : mutualInfo p ≤ mutualInfo q) : rho p ≤ rho q := by
  unfold rho
  apply Real.sqrt_le_sqrt
  have : Real.exp (-2 * mutualInfo q) ≤ Real.exp (-2 * mutualInfo p) := Real.exp_le_exp.2 (by linarith)
  linarith

/-- The code's `correlation`. -/
theorem correlation_eq (p : Fin M → Fin M → ℝ) (h0 : ∀ a b, 0 ≤ p a b) (h1 : ∑ a, ∑ b, p a b = 1) :
    correlation realNum p = rho p := by
  unfold correlation rho
  have e1 : entropy realNum ((List.finRange M).map fun b => ∑ a, p a b) = shannon Finset.univ (fun b => ∑ a, p a b) :=
    entropy_finRange _ (by rw [Finset.sum_comm]; exact h1)
  have e2 : entropy realNum ((List.finRange M).map fun a => ∑ b, p a b) = shannon Finset.univ (fun a => ∑ b, p a b) :=
    entropy_finRange _ h1
  have e3 : ∀ f : Fin M → Fin M → ℝ, ((List.finRange M).flatMap fun a => (List.finRange M).map fun b => f a b).sum
      = ∑ a, ∑ b, f a b := by
    intro f
    rw [List.flatMap_def, List.sum_flatten, List.map_map, Fin.sum_univ_def]
    simp only [Function.comp_def, Fin.sum_univ_def]
  have e4 : entropy realNum ((List.finRange M).flatMap fun a => (List.finRange M).map fun b => p a b)
      = shannon Finset.univ (fun x : Fin M × Fin M => p x.1 x.2) := by
    rw [entropy_real _ (by rw [e3]; exact h1), List.map_flatMap]
    simp only [List.map_map, Function.comp_def]
    rw [e3]
    unfold shannon
    rw [Fintype.sum_prod_type]
  simp only [e1, e2, e4]
  rw [mutualInfo_eq p h0]
  rfl

end TreeCat
