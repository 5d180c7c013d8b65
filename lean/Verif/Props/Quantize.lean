import Mathlib.Algebra.Order.BigOperators.Group.Finset
import Mathlib.Algebra.Order.Field.Rat
import Mathlib.Algebra.Order.Group.Unbundled.Abs
import Mathlib.Algebra.Order.Ring.Abs
import Mathlib.Tactic.Linarith
import Mathlib.Tactic.FieldSimp
import Mathlib.Tactic.Ring
import Mathlib.Data.Fintype.BigOperators
import Verif.Model.Util

/-!
# C13: `quantize_from_probs2` is the L1-optimal quantisation
-/

set_option linter.unusedSectionVars false

namespace TreeCat.Util

open scoped BigOperators

/-! ## Specification -/

/-- L1 distance of an integer vector from a real target. -/
def l1 {K : Type} [Field K] [LinearOrder K] {M : Nat} (t : Fin M → K) (r : Fin M → Int) : K :=
  ∑ i, |t i - (r i : K)|

/-- The target of quantisation: the normalised row scaled to the resolution. -/
def target {K : Type} [Field K] {M : Nat} (p : Fin M → K) (resolution : Nat) : Fin M → K :=
  fun i => resolution * p i / ∑ j, p j

section
variable {K : Type} [Field K] [LinearOrder K] [IsStrictOrderedRing K]

/-! ## The argmax -/

theorem argmax_foldl {M : Nat} (f : Fin M → K) (l : List (Fin M)) (b : Option (Fin M)) :
    let r := l.foldl (fun best i =>
      match best with
      | none => some i
      | some j => if f j < f i then some i else some j) b
    (∀ j, b = some j → ∃ k, r = some k ∧ f j ≤ f k) ∧
    (∀ i ∈ l, ∃ k, r = some k ∧ f i ≤ f k) := by
  induction l generalizing b with
  | nil => exact ⟨fun j h => ⟨j, h, le_refl _⟩, fun i h => by simp at h⟩
  | cons i l ih =>
    simp only [List.foldl_cons]
    cases b with
    | none =>
      obtain ⟨h1, h2⟩ := ih (some i)
      refine ⟨fun j h => (nomatch h), fun j hj => ?_⟩
      rcases List.mem_cons.1 hj with rfl | hj
      · exact h1 _ rfl
      · exact h2 j hj
    | some j =>
      simp only
      by_cases hlt : f j < f i
      · simp only [hlt, if_true]
        obtain ⟨h1, h2⟩ := ih (some i)
        obtain ⟨k, hk, hik⟩ := h1 i rfl
        refine ⟨fun j' h => ?_, fun j' hj' => ?_⟩
        · cases h; exact ⟨k, hk, hlt.le.trans hik⟩
        · rcases List.mem_cons.1 hj' with rfl | hj'
          · exact ⟨k, hk, hik⟩
          · exact h2 j' hj'
      · simp only [hlt, if_false]
        obtain ⟨h1, h2⟩ := ih (some j)
        refine ⟨h1, fun j' hj' => ?_⟩
        rcases List.mem_cons.1 hj' with rfl | hj'
        · obtain ⟨k, hk, hjk⟩ := h1 j rfl
          exact ⟨k, hk, (not_lt.1 hlt).trans hjk⟩
        · exact h2 j' hj'

theorem argmax_spec {M : Nat} (f : Fin M → K) (hM : 0 < M) :
    ∃ k, argmax f = some k ∧ ∀ i, f i ≤ f k := by
  obtain ⟨-, h⟩ := argmax_foldl f (List.finRange M) none
  obtain ⟨k, hk, -⟩ := h ⟨0, hM⟩ (List.mem_finRange _)
  refine ⟨k, hk, fun i => ?_⟩
  obtain ⟨k', hk', hi⟩ := h i (List.mem_finRange i)
  rw [hk] at hk'
  cases hk'
  exact hi

/-! ## Loop invariant

`t` is the target. After `n` steps the residual `s.2` is `(t - r) / resolution`. -/

/-- What holds after `n` steps of the loop. -/
structure QInv {M : Nat} (t : Fin M → K) (resolution n : Nat)
    (s : (Fin M → Int) × (Fin M → K)) : Prop where
  nonneg : ∀ i, 0 ≤ s.1 i
  total : ∑ i, s.1 i = n
  residual : ∀ i, s.2 i * resolution = t i - (s.1 i : K)
  upper : ∀ i, (s.1 i : K) < t i + 1
  balanced : ∀ i j, t i - (s.1 i : K) ≤ t j - (s.1 j : K) + 1 ∨ s.1 j = 0

theorem quantizeStep_inv {M : Nat} (hM : 0 < M) (t : Fin M → K)
    (resolution n : Nat) (ht : ∑ i, t i = resolution) (hn : n < resolution) (hres : resolution ≤ 127)
    (s : (Fin M → Int) × (Fin M → K)) (h : QInv t resolution n s) :
    ∃ s', quantizeStep resolution s = .ok s' ∧ QInv t resolution (n + 1) s' := by
  obtain ⟨k, hk, hmax⟩ := argmax_spec s.2 hM
  have hR : (0 : K) < resolution := by
    have : 0 < resolution := by omega
    exact_mod_cast this
  have hle : ∀ i, s.1 i ≤ n := by
    intro i
    rw [← h.total]
    exact Finset.single_le_sum (fun j _ => h.nonneg j) (Finset.mem_univ i)
  have hwrap : wrap8 (s.1 k + 1) = s.1 k + 1 := by
    have := hle k; have := h.nonneg k
    unfold wrap8; omega
  have hmax' : ∀ i, t i - (s.1 i : K) ≤ t k - (s.1 k : K) := by
    intro i
    rw [← h.residual, ← h.residual]
    exact mul_le_mul_of_nonneg_right (hmax i) hR.le
  have hpos : 0 < t k - (s.1 k : K) := by
    by_contra hneg
    have hall : ∀ i, t i - (s.1 i : K) ≤ 0 := fun i => (hmax' i).trans (not_lt.1 hneg)
    have hsum : ∑ i, (t i - (s.1 i : K)) ≤ 0 := Finset.sum_nonpos fun i _ => hall i
    rw [Finset.sum_sub_distrib, ht, ← Int.cast_sum, h.total] at hsum
    have : (n : K) < resolution := by exact_mod_cast hn
    push_cast at hsum
    linarith
  refine ⟨_, by simp only [quantizeStep, hk]; rfl, ?_⟩
  rw [hwrap]
  constructor
  · intro i
    by_cases hik : i = k
    · subst hik; have := h.nonneg i; simp; omega
    · simpa [hik] using h.nonneg i
  · show ∑ i, Function.update s.1 k (s.1 k + 1) i = _
    rw [Finset.sum_update_of_mem (Finset.mem_univ k)]
    have := h.total
    rw [Finset.sum_eq_add_sum_sdiff_singleton_of_mem (Finset.mem_univ k)] at this
    push_cast
    linarith
  · intro i
    by_cases hik : i = k
    · subst hik
      have := h.residual i
      simp only [Function.update_self]
      push_cast
      rw [sub_mul, this]
      field_simp
      ring
    · simpa [hik] using h.residual i
  · intro i
    by_cases hik : i = k
    · subst hik; simp only [Function.update_self]; push_cast; linarith
    · simpa [hik] using h.upper i
  · intro i j
    by_cases hjk : j = k
    · subst hjk
      left
      have := hmax' i
      by_cases hij : i = j
      · subst hij; simp
      · simp only [Function.update_self, ne_eq, hij, not_false_eq_true, Function.update_of_ne]
        push_cast; linarith
    · by_cases hik : i = k
      · subst hik
        rcases h.balanced i j with hb | hb
        · left
          simp only [Function.update_self, ne_eq, hjk, not_false_eq_true, Function.update_of_ne]
          push_cast; linarith
        · right; simpa [hjk] using hb
      · simpa [hik, hjk] using h.balanced i j

theorem quantizeLoop_inv {M : Nat} (hM : 0 < M) (t : Fin M → K)
    (resolution : Nat) (ht : ∑ i, t i = resolution) (hres : resolution ≤ 127) (k n : Nat)
    (hk : n + k ≤ resolution) (s : (Fin M → Int) × (Fin M → K)) (h : QInv t resolution n s) :
    ∃ s', quantizeLoop resolution k s = .ok s' ∧ QInv t resolution (n + k) s' := by
  induction k generalizing n s with
  | zero => exact ⟨s, rfl, h⟩
  | succ k ih =>
    obtain ⟨s1, h1, h1'⟩ := quantizeStep_inv hM t resolution n ht (by omega) hres s h
    obtain ⟨s2, h2, h2'⟩ := ih (n + 1) (by omega) s1 h1'
    refine ⟨s2, ?_, by rwa [show n + (k + 1) = n + 1 + k by omega]⟩
    simp only [quantizeLoop, h1]
    exact h2

theorem target_sum {M : Nat} (p : Fin M → K) (hT : 0 < ∑ j, p j) (resolution : Nat) :
    ∑ i, target p resolution i = resolution := by
  simp only [target]
  simp only [div_eq_mul_inv, mul_assoc]
  rw [← Finset.mul_sum, ← Finset.sum_mul, mul_inv_cancel₀ hT.ne', mul_one]

theorem target_nonneg {M : Nat} (p : Fin M → K) (hp : ∀ i, 0 ≤ p i) (hT : 0 < ∑ j, p j)
    (resolution : Nat) (i : Fin M) : 0 ≤ target p resolution i :=
  div_nonneg (mul_nonneg (Nat.cast_nonneg _) (hp i)) hT.le

theorem quantizeRow_inv {M : Nat} (p : Fin M → K) (hp : ∀ i, 0 ≤ p i) (hT : 0 < ∑ j, p j)
    (resolution : Nat) (hres : resolution ≤ 127) :
    ∃ s : (Fin M → Int) × (Fin M → K), quantizeRow p resolution = .ok s.1 ∧
      (resolution = 0 ∨ QInv (target p resolution) resolution resolution s) ∧
      QInv (target p resolution) resolution resolution (s.1, fun i => (target p resolution i - s.1 i) / resolution) := by
  have hM : 0 < M := by
    rcases Nat.eq_zero_or_pos M with h | h
    · subst h; simp at hT
    · exact h
  rcases Nat.eq_zero_or_pos resolution with h0 | h0
  · subst h0
    refine ⟨(fun _ => 0, fun i => p i / ∑ j, p j), rfl, .inl rfl, ?_⟩
    constructor <;> simp [target]
  · have hinit : QInv (target p resolution) resolution 0 (fun _ => 0, fun i => p i / ∑ j, p j) := by
      constructor
      · intro i; simp
      · simp
      · intro i; simp [target]; ring
      · intro i; have := target_nonneg p hp hT resolution i; simp; linarith
      · intro i j; right; rfl
    obtain ⟨s, h1, h2⟩ := quantizeLoop_inv hM _ resolution
      (target_sum p hT resolution) hres resolution 0 (by omega) _ hinit
    rw [Nat.zero_add] at h2
    refine ⟨s, ?_, .inr h2, ?_⟩
    · simp only [quantizeRow, h1]; rfl
    · refine ⟨h2.nonneg, h2.total, fun i => ?_, h2.upper, h2.balanced⟩
      have : (resolution : K) ≠ 0 := by exact_mod_cast h0.ne'
      field_simp

/-! ## Optimality -/

/-- Slope of the distance when an entry at residual `d` is raised by one. -/
theorem slope_antitone (d e : K) (h : e ≤ d) : |d - 1| - |d| ≤ |e - 1| - |e| := by
  rcases abs_cases (d - 1) with ⟨a1, a2⟩ | ⟨a1, a2⟩ <;> rcases abs_cases d with ⟨b1, b2⟩ | ⟨b1, b2⟩ <;>
    rcases abs_cases (e - 1) with ⟨c1, c2⟩ | ⟨c1, c2⟩ <;> rcases abs_cases e with ⟨d1, d2⟩ | ⟨d1, d2⟩ <;>
    linarith

theorem abs_up (d : K) (n : Nat) : |d| + n * (|d - 1| - |d|) ≤ |d - n| := by
  induction n with
  | zero => simp
  | succ n ih =>
    have := slope_antitone d (d - n) (by have : (0 : K) ≤ n := Nat.cast_nonneg n; linarith)
    push_cast
    rw [show d - (n + 1 : K) = d - n - 1 by ring]
    linarith

theorem abs_down (d : K) (n : Nat) : |d| - n * (|d| - |d + 1|) ≤ |d + n| := by
  induction n with
  | zero => simp
  | succ n ih =>
    have := slope_antitone (d + n + 1) (d + 1) (by have : (0 : K) ≤ n := Nat.cast_nonneg n; linarith)
    push_cast
    rw [show d + (n + 1 : K) = d + n + 1 by ring]
    rw [show d + n + 1 - 1 = d + n by ring, show d + 1 - 1 = d by ring] at this
    linarith

/-- A vector whose residuals differ by at most one is L1-closest among all
integer vectors with its sum. -/
theorem l1_optimal {M : Nat} (hM : 0 < M) (t : Fin M → K) (r q : Fin M → Int)
    (hbal : ∀ i j, t i - (r i : K) ≤ t j - (r j : K) + 1) (hsum : ∑ i, q i = ∑ i, r i) :
    l1 t r ≤ l1 t q := by
  obtain ⟨i0, -, hi0⟩ := Finset.exists_max_image (Finset.univ : Finset (Fin M))
    (fun i => t i - (r i : K)) ⟨⟨0, hM⟩, Finset.mem_univ _⟩
  set L := |t i0 - (r i0 : K) - 1| - |t i0 - (r i0 : K)| with hL
  have hpt : ∀ i, |t i - (r i : K)| + L * ((q i : K) - r i) ≤ |t i - (q i : K)| := by
    intro i
    rcases le_total (r i) (q i) with hle | hle
    · obtain ⟨n, hn⟩ := Int.eq_ofNat_of_zero_le (sub_nonneg.2 hle)
      have hq : (q i : K) = r i + n := by
        have : q i = r i + n := by omega
        rw [this]; push_cast; ring
      have h1 := abs_up (t i - (r i : K)) n
      have h2 := slope_antitone _ _ (hi0 i (Finset.mem_univ i))
      rw [hq, show t i - (r i + n : K) = t i - r i - n by ring,
        show (r i + n - r i : K) = n by ring]
      have : (0 : K) ≤ n := Nat.cast_nonneg n
      nlinarith
    · obtain ⟨n, hn⟩ := Int.eq_ofNat_of_zero_le (sub_nonneg.2 hle)
      have hq : (q i : K) = r i - n := by
        have : q i = r i - n := by omega
        rw [this]; push_cast; ring
      have h1 := abs_down (t i - (r i : K)) n
      have h2 := slope_antitone (t i - (r i : K) + 1) (t i0 - (r i0 : K)) (hbal i0 i)
      rw [show t i - (r i : K) + 1 - 1 = t i - r i by ring] at h2
      rw [hq, show t i - (r i - n : K) = t i - r i + n by ring,
        show (r i - n - r i : K) = -n by ring]
      have : (0 : K) ≤ n := Nat.cast_nonneg n
      nlinarith
  have := Finset.sum_le_sum fun i (_ : i ∈ Finset.univ) => hpt i
  rw [Finset.sum_add_distrib, ← Finset.mul_sum, Finset.sum_sub_distrib, ← Int.cast_sum,
    ← Int.cast_sum, hsum, sub_self, mul_zero, add_zero] at this
  exact this

/-- **C13** for resolutions that fit the int8 result array. The full claim, for
every resolution, fails above 127: see `quantize_wraps`. -/
theorem quantizeRow_optimal_partial {M : Nat} (p : Fin M → K) (hp : ∀ i, 0 ≤ p i)
    (hT : 0 < ∑ j, p j) (resolution : Nat) (hres : resolution ≤ 127) :
    ∃ r : Fin M → Int, quantizeRow p resolution = .ok r ∧
      (∀ i, 0 ≤ r i) ∧ ∑ i, r i = resolution ∧
      (∀ i, |target p resolution i - (r i : K)| < 1) ∧
      (∀ q : Fin M → Int, ∑ i, q i = resolution →
        l1 (target p resolution) r ≤ l1 (target p resolution) q) := by
  obtain ⟨s, h1, -, h⟩ := quantizeRow_inv p hp hT resolution hres
  have hM : 0 < M := by
    rcases Nat.eq_zero_or_pos M with h | h
    · subst h; simp at hT
    · exact h
  have hsum0 : ∑ i, (target p resolution i - (s.1 i : K)) = 0 := by
    rw [Finset.sum_sub_distrib, target_sum p hT, ← Int.cast_sum, h.total]; simp
  have hzero : ∀ i, s.1 i = 0 → 0 ≤ target p resolution i - (s.1 i : K) := by
    intro i hi; rw [hi]; have := target_nonneg p hp hT resolution i; simpa using this
  have hlow : ∀ i, target p resolution i - (s.1 i : K) < 1 := by
    intro i
    by_contra hge
    have hge := not_lt.1 hge
    have hall : ∀ j, 0 ≤ target p resolution j - (s.1 j : K) := by
      intro j
      rcases h.balanced i j with hb | hb
      · simp only at hb; linarith
      · exact hzero j hb
    have := Finset.single_le_sum (fun j _ => hall j) (Finset.mem_univ i)
    rw [hsum0] at this
    linarith
  have hbal : ∀ i j, target p resolution i - (s.1 i : K) ≤ target p resolution j - (s.1 j : K) + 1 := by
    intro i j
    rcases h.balanced i j with hb | hb
    · exact hb
    · have := hlow i; have := hzero j hb; linarith
  refine ⟨s.1, h1, h.nonneg, h.total, fun i => ?_, fun q hq => ?_⟩
  · rw [abs_lt]; have := h.upper i; have := hlow i; simp only at *; constructor <;> linarith
  · exact l1_optimal hM _ _ _ hbal (by rw [hq]; exact h.total.symm)

/-- **C13** on the whole array: every row independently. -/
theorem quantizeFromProbs2_optimal_partial {N M : Nat} (p : Fin N → Fin M → K)
    (hp : ∀ n i, 0 ≤ p n i) (hT : ∀ n, 0 < ∑ j, p n j) (resolution : Nat)
    (hres : resolution ≤ 127) (n : Fin N) :
    ∃ r : Fin M → Int, quantizeFromProbs2 p resolution n = .ok r ∧
      (∀ i, 0 ≤ r i) ∧ ∑ i, r i = resolution ∧
      (∀ i, |target (p n) resolution i - (r i : K)| < 1) ∧
      (∀ q : Fin M → Int, ∑ i, q i = resolution →
        l1 (target (p n) resolution) r ≤ l1 (target (p n) resolution) q) :=
  quantizeRow_optimal_partial (p n) (hp n) (hT n) resolution hres

end

/-- **C13** (why the restriction is needed). The result array is int8, so a
resolution of 128 concentrated on one category comes back as -128. -/
theorem quantize_wraps : quantizeRow (fun _ : Fin 1 => (1 : ℚ)) 128 = .ok (fun _ => -128) := by
  decide +kernel

example : quantizeRow ![(1 : ℚ), 2, 4] 10 = .ok ![1, 3, 6] := by decide +kernel
example : (∀ i, 0 ≤ ![(1 : ℚ), 2, 4] i) ∧ 0 < ∑ j, ![(1 : ℚ), 2, 4] j := by decide +kernel

end TreeCat.Util
