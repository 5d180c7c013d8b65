import Verif.Lemmas.FloatMono
import Verif.Model.FloatRow

/-! # C64: `edge_probs` in float32 -/

namespace TreeCat

open Util

/-- All counts on the way are between zero and `bound`. -/
def Spec.Tallied (bound : Int) (c : Int) (steps : List Bool) : Prop :=
  ∀ k ≤ steps.length, 0 ≤ edgeTally c (steps.take k) ∧ edgeTally c (steps.take k) < bound

theorem tallied_zero {bound c : Int} {steps : List Bool} (h : Spec.Tallied bound c steps) : 0 ≤ c ∧ c < bound := by
  simpa [edgeTally] using h 0 (Nat.zero_le _)

theorem tallied_cons {bound c : Int} {b : Bool} {steps : List Bool} (h : Spec.Tallied bound c (b :: steps)) :
    Spec.Tallied bound (if b then c + 1 else c - 1) steps := by
  intro k hk
  simpa [edgeTally] using h (k + 1) (by simpa using hk)

section
variable {p : Nat} {emin : Int} {rnd : ℚ → ℚ}

/-- How an entry deviates from its count plus the prior: the deviation is a multiple of a power of two that only grows with the largest
entry so far. -/
structure Drift (p : Nat) (emin : Int) (prior : ℚ) (b : Nat) (j : Int) (x : ℚ) (c : Int) : Prop where
  low : emin ≤ j
  high : j ≤ (b : Int) - p
  mult : ∃ n : Int, x = c + n * 2 ^ j
  ge : (c : ℚ) ≤ x
  le : x ≤ c + 1 / 2
  size : x ≤ 2 ^ (j + p)
  near : |x - (c + prior)| ≤ 2 * 2 ^ j

theorem isFloat_int (hp : 1 ≤ p) (he : emin ≤ 0) {c : Int} (h0 : 0 ≤ c) (hc : c ≤ 2 ^ p) : IsFloat p emin c := by
  have := isFloat_of_le hp he (m := c) (by rw [abs_of_nonneg h0]; exact hc)
  simpa using this

theorem isFloat_half (hp : 1 ≤ p) (he : emin ≤ -1) {c : Int} (h0 : 0 ≤ c) (hc : 2 * c + 1 ≤ 2 ^ p) : IsFloat p emin ((c : ℚ) + 1 / 2) := by
  have := isFloat_of_le hp he (m := 2 * c + 1) (by rw [abs_of_nonneg (by omega)]; exact hc)
  have e : (((2 * c + 1 : Int) : ℚ)) * 2 ^ (-1 : Int) = (c : ℚ) + 1 / 2 := by
    push_cast
    norm_num
    ring
  rwa [e] at this

/-- A multiple of the last bit that is not too large is a float. -/
theorem isFloat_mult (hp : 1 ≤ p) {j : Int} (hj : emin ≤ j) (hj0 : j ≤ 0) {c n : Int} {x : ℚ} (hx : x = c + n * 2 ^ j) (h0 : 0 ≤ x) (hs : x ≤ 2 ^ (j + p)) :
    IsFloat p emin x := by
  have hpos := two_zpow_pos j
  obtain ⟨i, hi⟩ : ∃ i : Nat, j = -(i : Int) := ⟨(-j).toNat, by omega⟩
  have hval : x = ((c * 2 ^ i + n : Int) : ℚ) * 2 ^ j := by
    rw [hx]
    push_cast
    have e : ((2 : ℚ) ^ i) * 2 ^ j = 1 := by rw [pow_zpow, ← zpow_split, hi]; simp
    rw [add_mul, mul_assoc, e, mul_one]
  rw [hval]
  apply isFloat_of_le hp hj
  have hm0 : (0 : ℚ) ≤ ((c * 2 ^ i + n : Int) : ℚ) := by
    by_contra hcon
    push Not at hcon
    have := mul_neg_of_neg_of_pos hcon hpos
    linarith
  have hm1 : (((c * 2 ^ i + n : Int)) : ℚ) ≤ 2 ^ p := by
    rw [hval, zpow_split, mul_comm ((2 : ℚ) ^ j) _, ← pow_zpow] at hs
    exact le_of_mul_le_mul_right hs hpos
  have hm0' : 0 ≤ c * 2 ^ i + n := by exact_mod_cast hm0
  rw [abs_of_nonneg hm0']
  exact_mod_cast hm1

theorem drift_round {b : Nat} (R : MonoRounding p emin rnd) (hb : b + 1 ≤ p) (he : emin ≤ -1) {c : Int} (h0 : 0 ≤ c) (hc : c < 2 ^ b)
    {y : ℚ} (hge : (c : ℚ) ≤ y) (hle : y ≤ c + 1 / 2) {e : Int} (h1 : 2 ^ e ≤ y) (h2 : y < 2 ^ (e + 1)) (hlow : emin ≤ e + 1 - p) :
    e + 1 - p ≤ (b : Int) - p ∧ (∃ n : Int, rnd y = c + n * 2 ^ (e + 1 - p)) ∧ (c : ℚ) ≤ rnd y ∧ rnd y ≤ c + 1 / 2 ∧ rnd y ≤ 2 ^ (e + 1 - p + p) ∧
      |rnd y - y| ≤ 2 ^ (e + 1 - p) := by
  have hp : 1 ≤ p := by omega
  have hbp : (2 : Int) ^ b * 2 ≤ 2 ^ p := by
    rw [← pow_succ]
    exact pow_le_pow_right₀ (by norm_num) hb
  have heb : e + 1 ≤ b := by
    by_contra hcon
    have h3 : (2 : ℚ) ^ (b : Int) ≤ 2 ^ e := zpow_mono (by omega)
    have h4 : (c : ℚ) + 1 ≤ 2 ^ (b : Int) := by
      rw [← pow_zpow]
      exact_mod_cast hc
    linarith
  have hj0 : e + 1 - p ≤ 0 := by omega
  have hfl : 2 ^ e ≤ rnd y := by
    have hfe : IsFloat p emin (2 ^ e) := by
      have := isFloat_of_le (m := 1) (e := e) (emin := emin) hp (by omega) (by rw [abs_one]; exact one_le_pow₀ (by norm_num))
      simpa using this
    exact R.ge_of hfe h1
  refine ⟨by omega, ?_, R.ge_of (isFloat_int hp (by omega) h0 (by omega)) hge, R.le_of (isFloat_half hp he h0 (by omega)) hle, ?_, ?_⟩
  · obtain ⟨n, hn⟩ := (R.float y).multiple (j := e + 1 - p) (by
      rw [sub_add_cancel, zpow_split, zpow_one]
      linarith)
    obtain ⟨i, hi⟩ : ∃ i : Nat, e + 1 - p = -(i : Int) := ⟨(-(e + 1 - p)).toNat, by omega⟩
    refine ⟨n - c * 2 ^ i, ?_⟩
    rw [hn]
    push_cast
    have e' : ((2 : ℚ) ^ i) * 2 ^ (e + 1 - (p : Int)) = 1 := by rw [pow_zpow, ← zpow_split, hi]; simp
    rw [sub_mul, mul_assoc, e']
    ring
  · rw [sub_add_cancel]
    have hfe : IsFloat p emin (2 ^ (e + 1)) := by
      have := isFloat_of_le (m := 1) (e := e + 1) (emin := emin) hp (by omega) (by rw [abs_one]; exact one_le_pow₀ (by norm_num))
      simpa using this
    exact R.le_of hfe h2.le
  · have hy0 : 0 ≤ y := le_trans (by exact_mod_cast h0) hge
    exact R.error hp hlow hy0 (by rw [sub_add_cancel]; exact h2.le)

theorem drift_start {b : Nat} (R : MonoRounding p emin rnd) (hb : b + 1 ≤ p) (he : emin ≤ -1) {prior : ℚ} (hprior : 2 ^ (emin + p - 1) ≤ prior)
    (hhalf : prior ≤ 1 / 2) {c : Int} (h0 : 0 ≤ c) (hc : c < 2 ^ b) : ∃ j, Drift p emin prior b j (edgeStart rnd prior c) c := by
  have hpr : 0 < prior := lt_of_lt_of_le (two_zpow_pos _) hprior
  have hc0 : (0 : ℚ) ≤ c := by exact_mod_cast h0
  obtain ⟨e, h1, h2⟩ := exists_binade (x := (c : ℚ) + prior) (by linarith)
  have hlow : emin ≤ e + 1 - p := by
    by_contra hcon
    have h3 : (2 : ℚ) ^ (e + 1) ≤ 2 ^ (emin + p - 1) := zpow_mono (by omega)
    linarith
  obtain ⟨a1, a2, a3, a4, a5, a6⟩ := drift_round R hb he h0 hc (y := (c : ℚ) + prior) (by linarith) (by linarith) h1 h2 hlow
  refine ⟨e + 1 - p, hlow, a1, a2, a3, a4, a5, le_trans a6 ?_⟩
  have := two_zpow_pos (e + 1 - p)
  linarith

theorem drift_step {b : Nat} (R : MonoRounding p emin rnd) (hb : b + 1 ≤ p) (he : emin ≤ -1) {prior : ℚ} {j : Int} {x : ℚ} {c : Int} (hD : Drift p emin prior b j x c)
    (s : Bool) (h0 : 0 ≤ (if s then c + 1 else c - 1)) (hc : (if s then c + 1 else c - 1) < 2 ^ b) :
    ∃ j', Drift p emin prior b j' (rnd (if s then x + 1 else x - 1)) (if s then c + 1 else c - 1) := by
  have hp : 1 ≤ p := by omega
  obtain ⟨n, hn⟩ := hD.mult
  have hj0 : j ≤ 0 := by have := hD.high; omega
  cases s with
  | true =>
    simp only [if_true] at h0 hc ⊢
    have hge : ((c + 1 : Int) : ℚ) ≤ x + 1 := by push_cast; linarith [hD.ge]
    have hle : x + 1 ≤ ((c + 1 : Int) : ℚ) + 1 / 2 := by push_cast; linarith [hD.le]
    have hx0 : 0 ≤ x + 1 := le_trans (by exact_mod_cast h0) hge
    have hxv : x + 1 = ((c + 1 : Int) : ℚ) + n * 2 ^ j := by rw [hn]; push_cast; ring
    by_cases hs : x + 1 ≤ 2 ^ (j + p)
    · rw [R.id (isFloat_mult hp hD.low hj0 hxv hx0 hs)]
      refine ⟨j, hD.low, hD.high, ⟨n, hxv⟩, hge, hle, hs, ?_⟩
      have : x + 1 - (((c + 1 : Int) : ℚ) + prior) = x - (c + prior) := by push_cast; ring
      rw [this]
      exact hD.near
    · push Not at hs
      have hx1 : 0 < x + 1 := lt_trans (two_zpow_pos _) hs
      obtain ⟨e, h1, h2⟩ := exists_binade hx1
      have hje : j < e + 1 - p := by
        by_contra hcon
        have h3 : (2 : ℚ) ^ (e + 1) ≤ 2 ^ (j + p) := zpow_mono (by omega)
        linarith
      obtain ⟨a1, a2, a3, a4, a5, a6⟩ := drift_round R hb he h0 hc hge hle h1 h2 (by have := hD.low; omega)
      refine ⟨e + 1 - p, by have := hD.low; omega, a1, a2, a3, a4, a5, ?_⟩
      have h3 : (2 : ℚ) * 2 ^ j ≤ 2 ^ (e + 1 - (p : Int)) := by
        have h4 : (2 : ℚ) ^ (j + 1) ≤ 2 ^ (e + 1 - (p : Int)) := zpow_mono (by omega)
        rw [zpow_split, zpow_one] at h4
        linarith
      have h5 : rnd (x + 1) - (((c + 1 : Int) : ℚ) + prior) = (rnd (x + 1) - (x + 1)) + (x - (c + prior)) := by push_cast; ring
      rw [h5]
      refine le_trans (abs_add_le _ _) ?_
      have := hD.near
      linarith
  | false =>
    simp only [Bool.false_eq_true, if_false] at h0 hc ⊢
    have hge : ((c - 1 : Int) : ℚ) ≤ x - 1 := by push_cast; linarith [hD.ge]
    have hle : x - 1 ≤ ((c - 1 : Int) : ℚ) + 1 / 2 := by push_cast; linarith [hD.le]
    have hx0 : 0 ≤ x - 1 := le_trans (by exact_mod_cast h0) hge
    have hxv : x - 1 = ((c - 1 : Int) : ℚ) + n * 2 ^ j := by rw [hn]; push_cast; ring
    have hs : x - 1 ≤ 2 ^ (j + p) := by linarith [hD.size]
    rw [R.id (isFloat_mult hp hD.low hj0 hxv hx0 hs)]
    refine ⟨j, hD.low, hD.high, ⟨n, hxv⟩, hge, hle, hs, ?_⟩
    have : x - 1 - (((c - 1 : Int) : ℚ) + prior) = x - (c + prior) := by push_cast; ring
    rw [this]
    exact hD.near

theorem drift_walk {b : Nat} (R : MonoRounding p emin rnd) (hb : b + 1 ≤ p) (he : emin ≤ -1) {prior : ℚ} (steps : List Bool) {j : Int} {x : ℚ} {c : Int}
    (hD : Drift p emin prior b j x c) (ht : Spec.Tallied (2 ^ b) c steps) : ∃ j', Drift p emin prior b j' (edgeWalk rnd x steps) (edgeTally c steps) := by
  induction steps generalizing j x c with
  | nil => exact ⟨j, hD⟩
  | cons s steps ih =>
    have ht' := tallied_cons ht
    obtain ⟨j', hD'⟩ := drift_step R hb he hD s (tallied_zero ht').1 (tallied_zero ht').2
    exact ih hD' ht'

/-- **C64** (drift). However often rows are added and removed, an entry of `edge_probs` stays within `2 ^ (b + 1 - p)` of its count plus the
prior, and never falls below the count, as long as counts stay below `2 ^ b`. -/
theorem edgeWalk_near {b : Nat} (R : MonoRounding p emin rnd) (hb : b + 1 ≤ p) (he : emin ≤ -1) {prior : ℚ} (hprior : 2 ^ (emin + p - 1) ≤ prior)
    (hhalf : prior ≤ 1 / 2) {c : Int} {steps : List Bool} (ht : Spec.Tallied (2 ^ b) c steps) :
    |edgeWalk rnd (edgeStart rnd prior c) steps - (edgeTally c steps + prior)| ≤ 2 ^ ((b : Int) + 1 - p) ∧
      (edgeTally c steps : ℚ) ≤ edgeWalk rnd (edgeStart rnd prior c) steps := by
  obtain ⟨j, hD⟩ := drift_start R hb he hprior hhalf (tallied_zero ht).1 (tallied_zero ht).2
  obtain ⟨j', hD'⟩ := drift_walk R hb he steps hD ht
  refine ⟨le_trans hD'.near ?_, hD'.ge⟩
  have h1 : (2 : ℚ) * 2 ^ j' = 2 ^ (j' + 1) := by rw [zpow_split, zpow_one]; ring
  rw [h1]
  exact zpow_mono (by have := hD'.high; omega)

/-- **C64** (exact). If the prior is a power of two that fits below the counts, nothing is ever rounded. -/
theorem edgeWalk_exact {b k : Nat} (R : MonoRounding p emin rnd) (hbk : b + k ≤ p) (hk : emin ≤ -(k : Int)) (hp : 1 ≤ p) {c : Int} {steps : List Bool}
    (ht : Spec.Tallied (2 ^ b) c steps) :
    edgeWalk rnd (edgeStart rnd (2 ^ (-(k : Int))) c) steps = edgeTally c steps + 2 ^ (-(k : Int)) := by
  have hfl : ∀ c : Int, 0 ≤ c → c < 2 ^ b → IsFloat p emin ((c : ℚ) + 2 ^ (-(k : Int))) := by
    intro c h0 hc
    have hbound : c * 2 ^ k + 1 ≤ (2 : Int) ^ p := by
      have h1 : (c + 1) * 2 ^ k ≤ (2 : Int) ^ b * 2 ^ k := mul_le_mul_of_nonneg_right (by omega) (by positivity)
      have h2 : (2 : Int) ^ b * 2 ^ k ≤ 2 ^ p := by
        rw [← pow_add]
        exact pow_le_pow_right₀ (by norm_num) hbk
      have h3 : (1 : Int) ≤ 2 ^ k := one_le_pow₀ (by norm_num)
      linarith [add_mul c 1 ((2 : Int) ^ k)]
    have := isFloat_of_le (m := c * 2 ^ k + 1) hp hk (by rw [abs_of_nonneg (by positivity)]; exact hbound)
    have e : ((c * 2 ^ k + 1 : Int) : ℚ) * 2 ^ (-(k : Int)) = c + 2 ^ (-(k : Int)) := by
      push_cast
      rw [add_mul, mul_assoc, pow_zpow, ← zpow_split]
      simp
    rwa [e] at this
  have key : ∀ (steps : List Bool) (c : Int), Spec.Tallied (2 ^ b) c steps →
      edgeWalk rnd ((c : ℚ) + 2 ^ (-(k : Int))) steps = edgeTally c steps + 2 ^ (-(k : Int)) := by
    intro steps
    induction steps with
    | nil => intro c _; rfl
    | cons s steps ih =>
      intro c ht
      have ht' := tallied_cons ht
      have e : (if s then (c : ℚ) + 2 ^ (-(k : Int)) + 1 else (c : ℚ) + 2 ^ (-(k : Int)) - 1) =
          ((if s then c + 1 else c - 1 : Int) : ℚ) + 2 ^ (-(k : Int)) := by
        cases s <;> simp <;> ring
      have := ih _ ht'
      rw [← R.id (hfl _ (tallied_zero ht').1 (tallied_zero ht').2), ← e] at this
      exact this
  unfold edgeStart
  rw [R.id (hfl c (tallied_zero ht).1 (tallied_zero ht).2)]
  exact key steps c ht

end

theorem store32_mono : MonoRounding 24 (-149) store32 :=
  (roundTo_isRounding (p := 24) (by norm_num) (-149)).monoRounding.comp (roundTo_isRounding (p := 53) (by norm_num) (-1074)).monoRounding (by norm_num) (by norm_num)

/-- **C64** (float32). With at most 128 clusters and fewer than `2 ^ 14` rows, entries stay within `2 ^ -9` of count plus prior, so they stay positive;
this holds for every rounded prior. -/
theorem edgeWalk_float32 {M : Nat} (hM : 1 ≤ M) (hM' : M ≤ 128) {c : Int} {steps : List Bool} (ht : Spec.Tallied (2 ^ 14) c steps) :
    |edgeWalk store32 (edgeStart store32 (float64 (1 / 2 / M)) c) steps - (edgeTally c steps + float64 (1 / 2 / M))| ≤ 1 / 2 ^ 9 ∧
      1 / 2 ^ 9 ≤ edgeWalk store32 (edgeStart store32 (float64 (1 / 2 / M)) c) steps := by
  have R64 : MonoRounding 53 (-1074) float64 := (roundTo_isRounding (p := 53) (by norm_num) (-1074)).monoRounding
  have hM0 : (0 : ℚ) < M := by exact_mod_cast hM
  have hM1 : (1 : ℚ) ≤ M := by exact_mod_cast hM
  have hM2 : (M : ℚ) ≤ 128 := by exact_mod_cast hM'
  have hlo : (1 : ℚ) / 2 ^ 8 ≤ float64 (1 / 2 / M) := by
    refine R64.ge_of ⟨1, -8, by norm_num, by norm_num, by norm_num⟩ ?_
    rw [div_div, one_div_le_one_div (by norm_num) (by positivity)]
    linarith
  have hhi : float64 (1 / 2 / M) ≤ 1 / 2 := by
    refine R64.le_of ⟨1, -1, by norm_num, by norm_num, by norm_num⟩ ?_
    rw [div_div, one_div_le_one_div (by positivity) (by norm_num)]
    linarith
  have hprior : (2 : ℚ) ^ ((-149 : Int) + (24 : Nat) - 1) ≤ float64 (1 / 2 / M) := by
    refine le_trans ?_ hlo
    have : (2 : ℚ) ^ ((-149 : Int) + (24 : Nat) - 1) ≤ 2 ^ (-8 : Int) := zpow_mono (by norm_num)
    refine le_trans this (by norm_num)
  obtain ⟨h1, h2⟩ := edgeWalk_near (b := 14) store32_mono (by norm_num) (by norm_num) hprior hhi ht
  have e : (2 : ℚ) ^ (((14 : Nat) : Int) + 1 - (24 : Nat)) = 1 / 2 ^ 9 := by norm_num
  rw [e] at h1
  refine ⟨h1, ?_⟩
  have h0 := (ht steps.length (le_refl _)).1
  rw [List.take_length] at h0
  have h0' : (0 : ℚ) ≤ edgeTally c steps := by exact_mod_cast h0
  have := (abs_le.1 h1).1
  norm_num at hlo this ⊢
  linarith

/-- **C64** (float32, default). With the default of 32 clusters and fewer than `2 ^ 18` rows, entries are exactly count plus prior. -/
theorem edgeWalk_default {c : Int} {steps : List Bool} (ht : Spec.Tallied (2 ^ 18) c steps) :
    edgeWalk store32 (edgeStart store32 (1 / 2 / 32) c) steps = edgeTally c steps + 1 / 2 / 32 := by
  have := edgeWalk_exact (b := 18) (k := 6) store32_mono (by norm_num) (by norm_num) (by norm_num) ht
  have e : (2 : ℚ) ^ (-((6 : Nat) : Int)) = 1 / 2 / 32 := by norm_num
  rwa [e] at this

theorem edgeTally_up (c : Int) (k : Nat) : edgeTally c (List.replicate k true) = c + k := by
  induction k generalizing c with
  | zero => simp [edgeTally]
  | succ k ih =>
    have := ih (c + 1)
    simp only [edgeTally, List.replicate_succ, List.foldl_cons, if_true] at this ⊢
    rw [this]
    push_cast
    ring

theorem edgeWalk_down (k : Nat) (hk : k ≤ 2 ^ 24) : edgeWalk store32 (k : ℚ) (List.replicate k false) = 0 := by
  induction k with
  | zero => rfl
  | succ k ih =>
    have hfl : IsFloat 24 (-149) (((k : Int) : ℚ)) := isFloat_int (by norm_num) (by norm_num) (by omega) (by
      have : k ≤ 2 ^ 24 := by omega
      exact_mod_cast this)
    have := ih (by omega)
    simp only [edgeWalk, List.replicate_succ, List.foldl_cons] at this ⊢
    have e : store32 (((k + 1 : Nat) : ℚ) - 1) = k := by
      have h1 : (((k + 1 : Nat) : ℚ) - 1) = ((k : Int) : ℚ) := by push_cast; ring
      rw [h1, store32_mono.id hfl]
      simp
    rw [show (if false = true then ((k + 1 : Nat) : ℚ) + 1 else ((k + 1 : Nat) : ℚ) - 1) = ((k + 1 : Nat) : ℚ) - 1 by simp, e]
    exact this

/-- The bound of `edgeWalk_default` is needed: after `2 ^ 18` rows with the same pair of classes have been added and removed again, the entry is
zero instead of the prior. -/
theorem edgeWalk_lost : edgeWalk store32 (edgeStart store32 (1 / 2 / 32) 0) (List.replicate (2 ^ 18) true ++ List.replicate (2 ^ 18) false) = 0 := by
  have hup : edgeWalk store32 (edgeStart store32 (1 / 2 / 32) 0) (List.replicate (2 ^ 18 - 1) true) = (2 ^ 18 - 1) + 1 / 2 / 32 := by
    have ht : Spec.Tallied (2 ^ 18) 0 (List.replicate (2 ^ 18 - 1) true) := by
      intro k hk
      rw [List.length_replicate] at hk
      rw [List.take_replicate, edgeTally_up, Nat.min_eq_left hk]
      omega
    rw [edgeWalk_default ht, edgeTally_up]
    norm_num
  have e : List.replicate (2 ^ 18) true = List.replicate (2 ^ 18 - 1) true ++ [true] := by
    rw [← List.replicate_succ']
    norm_num
  have hdown := edgeWalk_down (2 ^ 18) (by norm_num)
  unfold edgeWalk at hup hdown ⊢
  rw [List.foldl_append, e, List.foldl_append, hup]
  have hr : store32 ((2 ^ 18 - 1) + 1 / 2 / 32 + 1) = (2 ^ 18 : Nat) := by decide +kernel
  simp only [List.foldl_cons, List.foldl_nil, if_true, hr]
  exact hdown

/-- Nor are entries exact for other numbers of clusters: with three, one row added and removed changes the entry. -/
theorem edgeWalk_inexact : edgeWalk store32 (edgeStart store32 (float64 (1 / 2 / 3)) 0) [true, false] ≠ edgeStart store32 (float64 (1 / 2 / 3)) 0 := by
  decide +kernel

/-- A history that meets the hypothesis. -/
example : Spec.Tallied (2 ^ 14) 2 [true, true, false, false, false, true] := by
  intro k hk
  have : k ≤ 6 := by simpa using hk
  obtain rfl | rfl | rfl | rfl | rfl | rfl | rfl : k = 0 ∨ k = 1 ∨ k = 2 ∨ k = 3 ∨ k = 4 ∨ k = 5 ∨ k = 6 := by omega
  all_goals decide

end TreeCat
