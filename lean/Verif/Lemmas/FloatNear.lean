import Mathlib.Analysis.SpecialFunctions.Log.Basic
import Verif.Lemmas.FloatServe

/-! # Relative errors -/

namespace TreeCat

open Util Spec

/-- One rounding to float32 changes a number by at most this factor. -/
def ulp : ℚ := 1 + 2 ^ (-23 : Int)

theorem ulp_ge : 1 ≤ ulp := by unfold ulp; have := two_zpow_pos (-23); linarith

theorem ulp_pow_ge (k : Nat) : 1 ≤ ulp ^ k := one_le_pow₀ ulp_ge

theorem ulp_pos : 0 < ulp := lt_of_lt_of_le one_pos ulp_ge

/-- Rounding changes a number that does not underflow by at most the given factor. -/
theorem Util.MonoRounding.factor {p : Nat} {emin : Int} {rnd : ℚ → ℚ} (R : MonoRounding p emin rnd) (hp : 24 ≤ p) {x : ℚ} (hx : 2 ^ (emin + p - 1) ≤ x) :
    rnd x ≤ x * ulp ∧ x ≤ rnd x * ulp := by
  have hx0 : 0 < x := lt_of_lt_of_le (two_zpow_pos _) hx
  obtain ⟨e, h1, h2⟩ := exists_binade hx0
  have he : emin + p - 1 ≤ e := by
    by_contra hcon
    have : (2 : ℚ) ^ (e + 1) ≤ 2 ^ (emin + p - 1) := zpow_mono (by omega)
    linarith
  have herr := R.error (by omega) (j := e + 1 - p) (by omega) hx0.le (by rw [sub_add_cancel]; exact h2.le)
  have hfl : IsFloat p emin ((2 : ℚ) ^ e) := by
    have := isFloat_of_le (p := p) (emin := emin) (by omega) (e := e) (by omega) (m := 1) (by rw [abs_one]; exact one_le_pow₀ (by norm_num))
    simpa using this
  have h3 : (2 : ℚ) ^ e ≤ rnd x := R.ge_of hfl h1
  have h4 : (2 : ℚ) ^ (e + 1 - p) ≤ 2 ^ e * 2 ^ (-23 : Int) := by
    rw [← zpow_add₀ (by norm_num)]
    exact zpow_mono (by omega)
  have hu := two_zpow_pos (-23)
  have h5 : (2 : ℚ) ^ e * 2 ^ (-23 : Int) ≤ x * 2 ^ (-23 : Int) := mul_le_mul_of_nonneg_right h1 hu.le
  have h6 : (2 : ℚ) ^ e * 2 ^ (-23 : Int) ≤ rnd x * 2 ^ (-23 : Int) := mul_le_mul_of_nonneg_right h3 hu.le
  rw [abs_le] at herr
  unfold ulp
  constructor <;> linarith

/-- What is assumed of the accuracy of `np.sum` on float32 numbers that do not underflow: every summand is rounded at most as often as there are summands, which holds for any order
of summation. -/
def Spec.SumNear (sum : List Flt → Flt) : Prop :=
  ∀ l : List ℚ, l.length ≤ 2 ^ 24 → (∀ x ∈ l, IsFloat 24 (-149) x ∧ 2 ^ (-126 : Int) ≤ x) →
    ∃ d, sum (l.map some) = some d ∧ d ≤ l.sum * ulp ^ l.length ∧ l.sum ≤ d * ulp ^ l.length

/-- What is assumed of the accuracy of `np.dot` on float32 vectors with products that do not underflow. -/
def Spec.DotNear {M : Nat} (dot : (Fin M → Flt) → (Fin M → Flt) → Flt) : Prop :=
  ∀ x y : Fin M → ℚ, (∀ b, IsFloat 24 (-149) (x b) ∧ 0 ≤ x b) → (∀ b, IsFloat 24 (-149) (y b) ∧ 0 ≤ y b) → (∀ b, 2 ^ (-126 : Int) ≤ x b * y b) →
    ∃ d, dot (fun b => some (x b)) (fun b => some (y b)) = some d ∧ d ≤ (∑ b, x b * y b) * ulp ^ (M + 1) ∧ ∑ b, x b * y b ≤ d * ulp ^ (M + 1)

/-- The assumptions on the accuracy of the arithmetic. -/
structure Spec.ServeOpsNear {M : Nat} (A : ServeOps M) (ε : ℝ) : Prop where
  ok : Spec.ServeOpsOk A
  sum : Spec.SumNear A.sum
  dot : Spec.DotNear A.dot
  log : ∀ q l : ℚ, IsFloat 24 (-149) q → 0 < q → q ≤ 2 ^ 127 → A.log (some q) = some l → |(l : ℝ) - Real.log q| ≤ ε

/-- A float32 number that is a positive real up to `k` roundings. -/
def Near (k : Nat) (x : Flt) (y : ℝ) : Prop :=
  ∃ q : ℚ, x = some q ∧ IsFloat 24 (-149) q ∧ 0 < q ∧ (q : ℝ) ≤ y * (ulp : ℝ) ^ k ∧ y ≤ q * (ulp : ℝ) ^ k

theorem ulpR_ge : (1 : ℝ) ≤ (ulp : ℝ) := by exact_mod_cast ulp_ge

theorem ulpR_pow (k : Nat) : (1 : ℝ) ≤ (ulp : ℝ) ^ k := one_le_pow₀ ulpR_ge

theorem ulpR_pos (k : Nat) : (0 : ℝ) < (ulp : ℝ) ^ k := lt_of_lt_of_le one_pos (ulpR_pow k)

theorem Near.pos {k : Nat} {x : Flt} {y : ℝ} (h : Near k x y) : 0 < y := by
  obtain ⟨q, -, -, h1, h2, -⟩ := h
  have : (0 : ℝ) < q := by exact_mod_cast h1
  exact pos_of_mul_pos_left (lt_of_lt_of_le this h2) (ulpR_pos k).le

theorem Near.mono {k l : Nat} (hkl : k ≤ l) {x : Flt} {y : ℝ} (h : Near k x y) : Near l x y := by
  have hy := h.pos
  obtain ⟨q, h1, h2, h3, h4, h5⟩ := h
  have hq : (0 : ℝ) < q := by exact_mod_cast h3
  have hp : (ulp : ℝ) ^ k ≤ (ulp : ℝ) ^ l := pow_le_pow_right₀ ulpR_ge hkl
  exact ⟨q, h1, h2, h3, le_trans h4 (mul_le_mul_of_nonneg_left hp hy.le), le_trans h5 (mul_le_mul_of_nonneg_left hp hq.le)⟩

theorem near_self {q : ℚ} (h1 : IsFloat 24 (-149) q) (h2 : 0 < q) : Near 0 (some q) q := ⟨q, rfl, h1, h2, by simp, by simp⟩

theorem FGe.of_rnd {rnd : ℚ → ℚ} (R : MonoRounding 24 (-149) rnd) {x : ℚ} (h : 2 ^ (-125 : Int) ≤ rnd x) : 2 ^ (-126 : Int) ≤ x := by
  by_contra hcon
  have h1 := R.le_of (isFloat_pow (show (-149 : Int) ≤ -126 by norm_num)) (not_le.1 hcon).le
  have : (2 : ℚ) ^ (-126 : Int) < 2 ^ (-125 : Int) := zpow_lt_zpow_right₀ (by norm_num) (by norm_num)
  linarith

/-- Rounding once more. -/
theorem near_rnd {rnd : ℚ → ℚ} (R : MonoRounding 24 (-149) rnd) {q : ℚ} (hq : 2 ^ (-126 : Int) ≤ q) {k : Nat} {y : ℝ} (h1 : (q : ℝ) ≤ y * (ulp : ℝ) ^ k) (h2 : y ≤ q * (ulp : ℝ) ^ k) :
    Near (k + 1) (some (rnd q)) y := by
  obtain ⟨h3, h4⟩ := R.factor (by norm_num) (show (2 : ℚ) ^ ((-149 : Int) + (24 : Nat) - 1) ≤ q by norm_num at hq ⊢; exact hq)
  have h3' : ((rnd q : ℚ) : ℝ) ≤ q * ulp := by exact_mod_cast h3
  have h4' : (q : ℝ) ≤ rnd q * ulp := by exact_mod_cast h4
  have hu := lt_of_lt_of_le one_pos ulpR_ge
  have hq0 : 0 < q := lt_of_lt_of_le (two_zpow_pos _) hq
  have hr0 : 2 ^ (-126 : Int) ≤ rnd q := R.ge_of (isFloat_pow (by norm_num)) hq
  refine ⟨rnd q, rfl, R.float _, lt_of_lt_of_le (two_zpow_pos _) hr0, ?_, ?_⟩
  · rw [pow_succ, ← mul_assoc]
    exact le_trans h3' (mul_le_mul_of_nonneg_right h1 hu.le)
  · rw [pow_succ]
    calc y ≤ q * (ulp : ℝ) ^ k := h2
      _ ≤ (rnd q * ulp) * (ulp : ℝ) ^ k := mul_le_mul_of_nonneg_right h4' (ulpR_pos k).le
      _ = rnd q * ((ulp : ℝ) ^ k * ulp) := by ring

section
variable {rnd : ℚ → ℚ} (R : MonoRounding 24 (-149) rnd)
include R

theorem Near.mul {k l : Nat} {x x' : Flt} {y y' : ℝ} (h : Near k x y) (h' : Near l x' y') (hb : FGe (-125) (Flt.mul rnd x x')) : Near (k + l + 1) (Flt.mul rnd x x') (y * y') := by
  have hy := h.pos
  have hy' := h'.pos
  obtain ⟨q, rfl, h2, h3, h4, h5⟩ := h
  obtain ⟨q', rfl, h2', h3', h4', h5'⟩ := h'
  obtain ⟨p, hp, hp'⟩ := hb
  have hp1 : rnd (q * q') = p := Option.some.inj hp
  have hq : (0 : ℝ) < q := by exact_mod_cast h3
  have hq' : (0 : ℝ) < q' := by exact_mod_cast h3'
  show Near _ (some (rnd (q * q'))) _
  refine near_rnd R (FGe.of_rnd R (by rw [hp1]; exact hp')) ?_ ?_
  · push_cast
    calc (q : ℝ) * q' ≤ (y * (ulp : ℝ) ^ k) * (y' * (ulp : ℝ) ^ l) := mul_le_mul h4 h4' hq'.le (mul_pos hy (ulpR_pos k)).le
      _ = y * y' * (ulp : ℝ) ^ (k + l) := by rw [pow_add]; ring
  · push_cast
    calc y * y' ≤ (q * (ulp : ℝ) ^ k) * (q' * (ulp : ℝ) ^ l) := mul_le_mul h5 h5' hy'.le (mul_pos hq (ulpR_pos k)).le
      _ = q * q' * (ulp : ℝ) ^ (k + l) := by rw [pow_add]; ring

theorem Near.div {k l : Nat} {x x' : Flt} {y y' : ℝ} (h : Near k x y) (h' : Near l x' y') (hb : FGe (-125) (Flt.div rnd x x')) : Near (k + l + 1) (Flt.div rnd x x') (y / y') := by
  have hy := h.pos
  have hy' := h'.pos
  obtain ⟨q, rfl, h2, h3, h4, h5⟩ := h
  obtain ⟨q', rfl, h2', h3', h4', h5'⟩ := h'
  have e : Flt.div rnd (some q) (some q') = some (rnd (q / q')) := by simp [Flt.div, h3'.ne']
  rw [e] at hb ⊢
  obtain ⟨p, hp, hp'⟩ := hb
  have hp1 : rnd (q / q') = p := Option.some.inj hp
  have hq : (0 : ℝ) < q := by exact_mod_cast h3
  have hq' : (0 : ℝ) < q' := by exact_mod_cast h3'
  refine near_rnd R (FGe.of_rnd R (by rw [hp1]; exact hp')) ?_ ?_
  · push_cast
    rw [div_le_iff₀ hq']
    calc (q : ℝ) ≤ y * (ulp : ℝ) ^ k := h4
      _ = y / y' * (ulp : ℝ) ^ k * y' := by field_simp
      _ ≤ y / y' * (ulp : ℝ) ^ k * (q' * (ulp : ℝ) ^ l) := mul_le_mul_of_nonneg_left h5' (mul_pos (div_pos hy hy') (ulpR_pos k)).le
      _ = y / y' * (ulp : ℝ) ^ (k + l) * q' := by rw [pow_add]; ring
  · push_cast
    rw [div_le_iff₀ hy']
    calc y ≤ q * (ulp : ℝ) ^ k := h5
      _ = q / q' * (ulp : ℝ) ^ k * q' := by field_simp
      _ ≤ q / q' * (ulp : ℝ) ^ k * (y' * (ulp : ℝ) ^ l) := mul_le_mul_of_nonneg_left h4' (mul_pos (div_pos hq hq') (ulpR_pos k)).le
      _ = q / q' * (ulp : ℝ) ^ (k + l) * y' := by rw [pow_add]; ring

end

theorem Near.get {k : Nat} {x : Flt} {y : ℝ} (h : Near k x y) : x = some (x.getD 0) ∧ IsFloat 24 (-149) (x.getD 0) ∧ 0 < x.getD 0 ∧
    ((x.getD 0 : ℚ) : ℝ) ≤ y * (ulp : ℝ) ^ k ∧ y ≤ (x.getD 0 : ℚ) * (ulp : ℝ) ^ k := by
  obtain ⟨q, rfl, h⟩ := h
  exact ⟨rfl, h⟩

/-- Sums. -/
theorem Near.sum {sum : List Flt → Flt} (hs : Spec.SumOk sum) (hn : Spec.SumNear sum) {ι : Type} {l : List ι} (hne : l ≠ []) (hl : l.length ≤ 2 ^ 24) {k : Nat} {f : ι → Flt} {g : ι → ℝ}
    (h : ∀ a ∈ l, Near k (f a) (g a)) (hb : ∀ a ∈ l, FGe (-126) (f a)) : Near (k + l.length) (sum (l.map f)) (l.map g).sum := by
  have e : l.map f = (l.map fun a => (f a).getD 0).map some := map_some l fun a ha => (h a ha).get.1
  have hfl : ∀ x ∈ l.map fun a => (f a).getD 0, IsFloat 24 (-149) x ∧ 2 ^ (-126 : Int) ≤ x := by
    intro x hx
    obtain ⟨a, ha, rfl⟩ := List.mem_map.1 hx
    refine ⟨(h a ha).get.2.1, ?_⟩
    obtain ⟨q, hq, hq'⟩ := hb a ha
    rw [hq]
    exact hq'
  have hlen : (l.map fun a => (f a).getD 0).length ≤ 2 ^ 24 := by simpa using hl
  obtain ⟨d, h1, h2, h3, h4, -⟩ := hs _ hlen fun x hx => ⟨(hfl x hx).1, le_trans (two_zpow_pos _).le (hfl x hx).2⟩
  obtain ⟨d', h1', h5, h6⟩ := hn _ hlen hfl
  rw [h1] at h1'
  obtain rfl := Option.some.inj h1'
  have s1 : (((l.map fun a => (f a).getD 0).sum : ℚ) : ℝ) ≤ (l.map g).sum * (ulp : ℝ) ^ k := by
    have key : ∀ l : List ι, (∀ a ∈ l, Near k (f a) (g a)) → (((l.map fun a => (f a).getD 0).sum : ℚ) : ℝ) ≤ (l.map g).sum * (ulp : ℝ) ^ k := by
      intro l
      induction l with
      | nil => simp
      | cons a l ih =>
        intro h
        have := (h a List.mem_cons_self).get.2.2.2.1
        have := ih fun b hb => h b (List.mem_cons_of_mem _ hb)
        simp only [List.map_cons, List.sum_cons, Rat.cast_add, add_mul]
        linarith
    exact key l h
  have s2 : (l.map g).sum ≤ ((l.map fun a => (f a).getD 0).sum : ℚ) * (ulp : ℝ) ^ k := by
    have key : ∀ l : List ι, (∀ a ∈ l, Near k (f a) (g a)) → (l.map g).sum ≤ ((l.map fun a => (f a).getD 0).sum : ℚ) * (ulp : ℝ) ^ k := by
      intro l
      induction l with
      | nil => simp
      | cons a l ih =>
        intro h
        have := (h a List.mem_cons_self).get.2.2.2.2
        have := ih fun b hb => h b (List.mem_cons_of_mem _ hb)
        simp only [List.map_cons, List.sum_cons, Rat.cast_add, add_mul]
        linarith
    exact key l h
  rw [List.length_map] at h5 h6
  have h5' : (d : ℝ) ≤ ((l.map fun a => (f a).getD 0).sum : ℚ) * (ulp : ℝ) ^ l.length := by exact_mod_cast h5
  have h6' : (((l.map fun a => (f a).getD 0).sum : ℚ) : ℝ) ≤ d * (ulp : ℝ) ^ l.length := by exact_mod_cast h6
  refine ⟨d, by rw [e]; exact h1, h2, ?_, ?_, ?_⟩
  · obtain ⟨a, l', rfl⟩ := List.exists_cons_of_ne_nil hne
    have := h4 ((f a).getD 0) (by simp)
    exact lt_of_lt_of_le (h a List.mem_cons_self).get.2.2.1 this
  · calc (d : ℝ) ≤ _ := h5'
      _ ≤ ((l.map g).sum * (ulp : ℝ) ^ k) * (ulp : ℝ) ^ l.length := mul_le_mul_of_nonneg_right s1 (ulpR_pos _).le
      _ = _ := by rw [pow_add]; ring
  · calc (l.map g).sum ≤ _ := s2
      _ ≤ (d * (ulp : ℝ) ^ l.length) * (ulp : ℝ) ^ k := mul_le_mul_of_nonneg_right h6' (ulpR_pos _).le
      _ = _ := by rw [pow_add]; ring

/-- Inner products. -/
theorem Near.dot {M : Nat} [NeZero M] {dot : (Fin M → Flt) → (Fin M → Flt) → Flt} (hs : Spec.DotOk dot) (hn : Spec.DotNear dot) {k l : Nat} {x y : Fin M → Flt} {g h : Fin M → ℝ}
    (hx : ∀ b, Near k (x b) (g b)) (hy : ∀ b, Near l (y b) (h b)) {i j : Int} (hij : -126 ≤ i + j) (hbx : ∀ b, FGe i (x b)) (hby : ∀ b, FGe j (y b)) :
    Near (k + l + (M + 1)) (dot x y) (∑ b, g b * h b) := by
  have ex : x = fun b => some ((x b).getD 0) := funext fun b => (hx b).get.1
  have ey : y = fun b => some ((y b).getD 0) := funext fun b => (hy b).get.1
  have hprod : ∀ b, (2 : ℚ) ^ (-126 : Int) ≤ (x b).getD 0 * (y b).getD 0 := by
    intro b
    obtain ⟨p, hp, hp'⟩ := hbx b
    obtain ⟨q, hq, hq'⟩ := hby b
    rw [hp, hq]
    refine le_trans (zpow_mono hij) ?_
    rw [zpow_split]
    exact mul_le_mul hp' hq' (two_zpow_pos _).le (le_trans (two_zpow_pos _).le hp')
  have fx := fun b => (hx b).get
  have fy := fun b => (hy b).get
  obtain ⟨d, h1, h2, h3, h4, -⟩ := hs (fun b => (x b).getD 0) (fun b => (y b).getD 0) (fun b => ⟨(fx b).2.1, (fx b).2.2.1.le⟩) fun b => ⟨(fy b).2.1, (fy b).2.2.1.le⟩
  obtain ⟨d', h1', h5, h6⟩ := hn (fun b => (x b).getD 0) (fun b => (y b).getD 0) (fun b => ⟨(fx b).2.1, (fx b).2.2.1.le⟩) (fun b => ⟨(fy b).2.1, (fy b).2.2.1.le⟩) hprod
  rw [h1] at h1'
  obtain rfl := Option.some.inj h1'
  have hd : 0 < d := lt_of_lt_of_le (two_zpow_pos _) (h4 (-126) (by norm_num) 0 (hprod 0))
  have s1 : ((∑ b, (x b).getD 0 * (y b).getD 0 : ℚ) : ℝ) ≤ (∑ b, g b * h b) * (ulp : ℝ) ^ (k + l) := by
    push_cast
    rw [Finset.sum_mul]
    refine Finset.sum_le_sum fun b _ => ?_
    have hy0 : (0 : ℝ) ≤ ((y b).getD 0 : ℚ) := by exact_mod_cast (fy b).2.2.1.le
    calc (((x b).getD 0 : ℚ) : ℝ) * ((y b).getD 0 : ℚ) ≤ (g b * (ulp : ℝ) ^ k) * (h b * (ulp : ℝ) ^ l) := mul_le_mul (fx b).2.2.2.1 (fy b).2.2.2.1 hy0 (mul_pos (hx b).pos (ulpR_pos _)).le
      _ = _ := by rw [pow_add]; ring
  have s2 : ∑ b, g b * h b ≤ ((∑ b, (x b).getD 0 * (y b).getD 0 : ℚ) : ℝ) * (ulp : ℝ) ^ (k + l) := by
    push_cast
    rw [Finset.sum_mul]
    refine Finset.sum_le_sum fun b _ => ?_
    have hx0 : (0 : ℝ) ≤ ((x b).getD 0 : ℚ) := by exact_mod_cast (fx b).2.2.1.le
    calc g b * h b ≤ (((x b).getD 0 : ℚ) * (ulp : ℝ) ^ k) * (((y b).getD 0 : ℚ) * (ulp : ℝ) ^ l) := mul_le_mul (fx b).2.2.2.2 (fy b).2.2.2.2 (hy b).pos.le (mul_nonneg hx0 (ulpR_pos _).le)
      _ = _ := by rw [pow_add]; ring
  have h5' : (d : ℝ) ≤ ((∑ b, (x b).getD 0 * (y b).getD 0 : ℚ) : ℝ) * (ulp : ℝ) ^ (M + 1) := by
    have := (Rat.cast_le (K := ℝ)).2 h5
    rwa [Rat.cast_mul, Rat.cast_pow] at this
  have h6' : ((∑ b, (x b).getD 0 * (y b).getD 0 : ℚ) : ℝ) ≤ d * (ulp : ℝ) ^ (M + 1) := by
    have := (Rat.cast_le (K := ℝ)).2 h6
    rwa [Rat.cast_mul, Rat.cast_pow] at this
  refine ⟨d, by rw [ex, ey]; exact h1, h2, hd, ?_, ?_⟩
  · calc (d : ℝ) ≤ _ := h5'
      _ ≤ _ := mul_le_mul_of_nonneg_right s1 (ulpR_pos _).le
      _ = _ := by rw [pow_add _ (k + l)]; ring
  · calc ∑ b, g b * h b ≤ _ := s2
      _ ≤ _ := mul_le_mul_of_nonneg_right h6' (ulpR_pos _).le
      _ = _ := by rw [pow_add _ (k + l)]; ring

/-- Logarithms. -/
theorem Near.log {k : Nat} {q : ℚ} {y : ℝ} (h : Near k (some q) y) : |Real.log q - Real.log y| ≤ k * 2 ^ (-23 : Int) := by
  have hy := h.pos
  obtain ⟨q', e, -, h3, h4, h5⟩ := h
  obtain rfl := Option.some.inj e
  have hq : (0 : ℝ) < q := by exact_mod_cast h3
  have hu : Real.log (ulp : ℝ) ≤ 2 ^ (-23 : Int) := by
    have := Real.log_le_sub_one_of_pos (show (0 : ℝ) < (ulp : ℝ) by exact_mod_cast ulp_pos)
    refine le_trans this (le_of_eq ?_)
    unfold ulp
    push_cast
    ring
  have hk : Real.log ((ulp : ℝ) ^ k) ≤ k * 2 ^ (-23 : Int) := by
    rw [Real.log_pow]
    exact mul_le_mul_of_nonneg_left hu (Nat.cast_nonneg k)
  have h6 := Real.log_le_log hq h4
  have h7 := Real.log_le_log hy h5
  rw [Real.log_mul hy.ne' (ulpR_pos k).ne'] at h6
  rw [Real.log_mul hq.ne' (ulpR_pos k).ne'] at h7
  rw [abs_le]
  constructor <;> linarith

end TreeCat
