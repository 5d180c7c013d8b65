import Verif.Model.FloatEdge
import Verif.Spec.FloatGamma
import Verif.Lemmas.LogGamma
import Verif.Props.EdgeLoop
import Verif.Props.EdgeLogits
import Verif.Props.FloatEstimate

/-!
# C75: the edge logits in float32
-/

namespace TreeCat

open Spec Util

/-- `a` is near `x`: within `ρ - 1`, relative to `X`, which bounds `x`. -/
def Approx (ρ X : ℝ) (a : ℚ) (x : ℝ) : Prop := |(a : ℝ) - x| ≤ (ρ - 1) * X ∧ |x| ≤ X

section
variable {ρ σ X Y : ℝ} {a b : ℚ} {x y : ℝ}

theorem Approx.nonneg (h : Approx ρ X a x) : 0 ≤ X := (abs_nonneg x).trans h.2

theorem Approx.mono (h : Approx ρ X a x) (hρ : ρ ≤ σ) (hX : X ≤ Y) (h1 : 1 ≤ σ) : Approx σ Y a x := by
  refine ⟨h.1.trans ?_, h.2.trans hX⟩
  have := h.nonneg
  calc (ρ - 1) * X ≤ (σ - 1) * X := mul_le_mul_of_nonneg_right (by linarith) this
    _ ≤ (σ - 1) * Y := mul_le_mul_of_nonneg_left hX (by linarith)

theorem Approx.abs_le (h : Approx ρ X a x) : |(a : ℝ)| ≤ ρ * X := by
  have := abs_add_le ((a : ℝ) - x) x
  rw [sub_add_cancel] at this
  linarith [h.1, h.2]

theorem approx_self {a : ℚ} : Approx 1 |(a : ℝ)| a a := ⟨by simp, le_refl _⟩

theorem rounding_real {rs : ℚ → ℚ} (R : IsRounding 24 (-149) rs) (ha : IsFloat 24 (-149) a) (hb : IsFloat 24 (-149) b) :
    |((rs (a + b) : ℚ) : ℝ) - ((a : ℝ) + b)| ≤ 1 / 2 ^ 24 * |(a : ℝ) + b| := by
  have h := R.add_error (by norm_num) ha hb
  have h' : ((|rs (a + b) - (a + b)| : ℚ) : ℝ) ≤ ((|a + b| / 2 ^ 24 : ℚ) : ℝ) := by exact_mod_cast h
  push_cast at h'
  rw [div_eq_mul_one_div, mul_comm] at h'
  exact h'

/-- One sum. -/
theorem Approx.add {rs : ℚ → ℚ} (R : IsRounding 24 (-149) rs) (h1 : Approx ρ X a x) (h2 : Approx ρ Y b y) (ha : IsFloat 24 (-149) a) (hb : IsFloat 24 (-149) b) :
    Approx ((1 + 1 / 2 ^ 24) * ρ) (X + Y) (rs (a + b)) (x + y) := by
  have hr := rounding_real R ha hb
  have e1 := h1.abs_le
  have e2 := h2.abs_le
  refine ⟨?_, (abs_add_le _ _).trans (add_le_add h1.2 h2.2)⟩
  have t1 := abs_add_le (((rs (a + b) : ℚ) : ℝ) - ((a : ℝ) + b)) (((a : ℝ) - x) + (b - y))
  have t2 := abs_add_le ((a : ℝ) - x) (b - y)
  have t3 := abs_add_le (a : ℝ) b
  rw [show ((rs (a + b) : ℚ) : ℝ) - ((a : ℝ) + b) + (((a : ℝ) - x) + (b - y)) = ((rs (a + b) : ℚ) : ℝ) - (x + y) by ring] at t1
  have t4 : (1 : ℝ) / 2 ^ 24 * |(a : ℝ) + b| ≤ 1 / 2 ^ 24 * (ρ * X + ρ * Y) := mul_le_mul_of_nonneg_left (by linarith) (by positivity)
  have := h1.1
  have := h2.1
  calc |((rs (a + b) : ℚ) : ℝ) - (x + y)| ≤ 1 / 2 ^ 24 * (ρ * X + ρ * Y) + ((ρ - 1) * X + (ρ - 1) * Y) := by linarith
    _ = ((1 + 1 / 2 ^ 24) * ρ - 1) * (X + Y) := by ring

theorem Approx.neg (h : Approx ρ X a x) : Approx ρ X (-a) (-x) := by
  refine ⟨?_, by rw [abs_neg]; exact h.2⟩
  rw [← abs_neg]
  push_cast
  rw [show -(-(a : ℝ) - -x) = a - x by ring]
  exact h.1

/-- One difference. -/
theorem Approx.sub {rs : ℚ → ℚ} (R : IsRounding 24 (-149) rs) (h1 : Approx ρ X a x) (h2 : Approx ρ Y b y) (ha : IsFloat 24 (-149) a) (hb : IsFloat 24 (-149) b) :
    Approx ((1 + 1 / 2 ^ 24) * ρ) (X + Y) (rs (a - b)) (x - y) := by
  rw [sub_eq_add_neg, sub_eq_add_neg]
  exact h1.add R h2.neg ha hb.neg

/-- A sum in order. -/
theorem Approx.foldl {rs : ℚ → ℚ} (R : IsRounding 24 (-149) rs) {ι : Type} (hρ : 1 ≤ ρ) (f : ι → ℚ) (g B : ι → ℝ) (cells : List ι)
    (h : ∀ c ∈ cells, IsFloat 24 (-149) (f c) ∧ Approx ρ (B c) (f c) (g c)) :
    ∀ (acc : ℚ) (X x : ℝ) (n : Nat), IsFloat 24 (-149) acc → Approx ((1 + 1 / 2 ^ 24) ^ n * ρ) X acc x →
      IsFloat 24 (-149) (cells.foldl (fun a c => rs (a + f c)) acc) ∧
      Approx ((1 + 1 / 2 ^ 24) ^ (n + cells.length) * ρ) (X + (cells.map B).sum) (cells.foldl (fun a c => rs (a + f c)) acc) (x + (cells.map g).sum) := by
  induction cells with
  | nil =>
    intro acc X x n hf ha
    rw [List.map_nil, List.map_nil, List.sum_nil, List.length_nil, add_zero, add_zero, add_zero]
    exact ⟨hf, ha⟩
  | cons c cells ih =>
    intro acc X x n hf ha
    obtain ⟨hc1, hc2⟩ := h c (by simp)
    have hge : (1 : ℝ) ≤ (1 + 1 / 2 ^ 24) ^ n := one_le_pow₀ (by norm_num)
    have h1 := ha.add R (hc2.mono (σ := (1 + 1 / 2 ^ 24) ^ n * ρ) (by nlinarith) (le_refl _) (by nlinarith)) hf hc1
    have h2 := ih (fun c hc => h c (by simp [hc])) (rs (acc + f c)) (X + B c) (x + g c) (n + 1) (R.float _) (by
      rw [pow_succ]
      convert h1 using 1
      ring)
    rw [List.foldl_cons, List.map_cons, List.map_cons, List.sum_cons, List.sum_cons, List.length_cons]
    refine ⟨h2.1, ?_⟩
    rw [show n + (cells.length + 1) = n + 1 + cells.length by ring, ← add_assoc, ← add_assoc x]
    exact h2.2

/-- A sum in any order. -/
theorem Approx.sum {sum : List ℚ → ℚ} (S : SumAbsOk sum) {ι : Type} (hρ : 1 ≤ ρ) (f : ι → ℚ) (g B : ι → ℝ) (cells : List ι)
    (h : ∀ c ∈ cells, IsFloat 24 (-149) (f c) ∧ Approx ρ (B c) (f c) (g c)) :
    IsFloat 24 (-149) (sum (cells.map f)) ∧
      Approx ((1 + 1 / 2 ^ 24) ^ cells.length * ρ) (cells.map B).sum (sum (cells.map f)) (cells.map g).sum := by
  have hfl : ∀ x ∈ cells.map f, IsFloat 24 (-149) x := by
    intro x hx
    obtain ⟨c, hc, rfl⟩ := List.mem_map.1 hx
    exact (h c hc).1
  refine ⟨S.float _ hfl, ?_⟩
  have hn := S.near _ hfl
  have hn' : ((|sum (cells.map f) - (cells.map f).sum| : ℚ) : ℝ) ≤ ((((1 + 1 / 2 ^ 24) ^ (cells.map f).length - 1) * ((cells.map f).map (|·|)).sum : ℚ) : ℝ) := by
    exact_mod_cast hn
  rw [List.length_map] at hn'
  simp only [Rat.cast_mul, Rat.cast_sub, Rat.cast_pow, Rat.cast_add, Rat.cast_one, Rat.cast_div, Rat.cast_ofNat, Rat.cast_abs] at hn'
  have key : |(((cells.map f).sum : ℚ) : ℝ) - (cells.map g).sum| ≤ (ρ - 1) * (cells.map B).sum ∧ |(cells.map g).sum| ≤ (cells.map B).sum ∧
      ((((cells.map f).map (|·|)).sum : ℚ) : ℝ) ≤ ρ * (cells.map B).sum := by
    clear hn hn' hfl
    induction cells with
    | nil => simp
    | cons c cells ih =>
      obtain ⟨i1, i2, i3⟩ := ih fun c hc => h c (by simp [hc])
      have hc := (h c (by simp)).2
      have e := hc.abs_le
      simp only [List.map_cons, List.sum_cons, Rat.cast_add, Rat.cast_abs]
      refine ⟨?_, (abs_add_le _ _).trans (add_le_add hc.2 i2), by linarith⟩
      have := abs_add_le ((f c : ℝ) - g c) ((((cells.map f).sum : ℚ) : ℝ) - (cells.map g).sum)
      rw [show (f c : ℝ) - g c + ((((cells.map f).sum : ℚ) : ℝ) - (cells.map g).sum) = (f c : ℝ) + (((cells.map f).sum : ℚ) : ℝ) - (g c + (cells.map g).sum) by ring] at this
      linarith [hc.1]
  obtain ⟨k1, k2, k3⟩ := key
  refine ⟨?_, k2⟩
  have hge : (1 : ℝ) ≤ (1 + 1 / 2 ^ 24) ^ cells.length := one_le_pow₀ (by norm_num)
  have t := abs_add_le (((sum (cells.map f) : ℚ) : ℝ) - (((cells.map f).sum : ℚ) : ℝ)) ((((cells.map f).sum : ℚ) : ℝ) - (cells.map g).sum)
  rw [sub_add_sub_cancel] at t
  generalize ((1 : ℝ) + 1 / 2 ^ 24) ^ cells.length = P at *
  generalize (cells.map B).sum = C at *
  have t2 := mul_le_mul_of_nonneg_left k3 (by linarith : 0 ≤ P - 1)
  calc _ ≤ (P - 1) * (ρ * C) + (ρ - 1) * C := by linarith
    _ = (P * ρ - 1) * C := by ring

end

section
variable {rs rd gl : ℚ → ℚ} {sum : List ℚ → ℚ} {γ : ℝ}

/-- Rounding a number that is not tiny. -/
theorem round_rel {p : Nat} {emin : Int} {rnd : ℚ → ℚ} (R : IsRounding p emin rnd) (hp : 1 ≤ p) {x : ℚ} (hx : (2 : ℚ) ^ (emin - 1) * 2 ^ p ≤ x) :
    |rnd x - x| ≤ x * (2 / 2 ^ p) := by
  have h := R.error hp x
  have h2 : (0 : ℚ) < 2 ^ p := by positivity
  have hpos : 0 ≤ x := le_trans (by positivity) hx
  rw [abs_of_nonneg hpos] at h
  have : (2 : ℚ) ^ (emin - 1) ≤ x / 2 ^ p := by rwa [le_div_iff₀ h2]
  calc |rnd x - x| ≤ x / 2 ^ p + 2 ^ (emin - 1) := h
    _ ≤ x / 2 ^ p + x / 2 ^ p := by linarith
    _ = x * (2 / 2 ^ p) := by ring

/-- The prior of a cell in float32. -/
theorem floatPrior_near (R : IsRounding 24 (-149) rs) (D : IsRounding 53 (-1074) rd) {M : Nat} (hM : 1 ≤ M) (hM2 : M ≤ 2 ^ 31) :
    |rs (rd (1 / 2 / (M : ℚ))) - 1 / 2 / M| ≤ 1 / 2 / M * (1 / 2 ^ 22) := by
  have h1 : (1 : ℚ) ≤ M := by exact_mod_cast hM
  have h2 : (M : ℚ) ≤ 2 ^ 31 := by exact_mod_cast hM2
  have hp : (1 : ℚ) / 2 ^ 32 ≤ 1 / 2 / M := by
    rw [div_div, div_le_div_iff₀ (by norm_num) (by linarith)]
    linarith
  generalize (1 : ℚ) / 2 / M = q at *
  have hd := round_rel D (by norm_num) (x := q) (by
    refine le_trans ?_ hp
    have : (2 : ℚ) ^ (-1074 - 1 : Int) ≤ 2 ^ (-85 : Int) := zpow_mono (by norm_num)
    calc (2 : ℚ) ^ (-1074 - 1 : Int) * 2 ^ 53 ≤ 2 ^ (-85 : Int) * 2 ^ 53 := mul_le_mul_of_nonneg_right this (by positivity)
      _ ≤ 1 / 2 ^ 32 := by norm_num)
  have hd' := abs_le.1 hd
  have hq : 0 < q := lt_of_lt_of_le (by positivity) hp
  have hs := round_rel R (by norm_num) (x := rd q) (by
    have : (2 : ℚ) ^ (-149 - 1 : Int) * 2 ^ 24 ≤ 1 / 2 ^ 33 := by norm_num
    refine this.trans ?_
    norm_num at hd' hp ⊢
    linarith)
  have t := abs_add_le (rs (rd q) - rd q) (rd q - q)
  rw [sub_add_sub_cancel] at t
  norm_num at hd hd' hs ⊢
  linarith

/-- `n` rows and a prior, in float32. -/
theorem floatCount_near (R : IsRounding 24 (-149) rs) (n : Nat) {q p : ℚ} (hp : 0 < p) (hq : IsFloat 24 (-149) q) (hqp : |q - p| ≤ p * (1 / 2 ^ 22)) :
    IsFloat 24 (-149) (rs (rs n + q)) ∧ |rs (rs n + q) - (n + p)| ≤ 1 / 2 ^ 21 * (n + p) := by
  refine ⟨R.float _, ?_⟩
  have hn : |rs n - n| ≤ (n : ℚ) * (1 / 2 ^ 22) := by
    rcases Nat.eq_zero_or_pos n with rfl | h
    · rw [Nat.cast_zero, R.id (isFloat_zero ..)]; simp
    · have h1 : (1 : ℚ) ≤ n := by exact_mod_cast h
      have := round_rel R (by norm_num) (x := (n : ℚ)) (le_trans (by norm_num) h1)
      norm_num at this ⊢
      linarith
  have h1 := R.add_error (by norm_num) (R.float n) hq
  have hn0 : (0 : ℚ) ≤ n := Nat.cast_nonneg n
  have a1 := abs_le.1 hn
  have a2 := abs_le.1 hqp
  norm_num at a1 a2
  rw [abs_of_nonneg (a := rs n + q) (by linarith)] at h1
  have h1' := abs_le.1 h1
  norm_num at h1'
  rw [abs_le]
  norm_num
  constructor <;> linarith

/-- One call of `gammaln`. -/
theorem gammaln_approx (R : IsRounding 24 (-149) rs) (G : GammalnOk gl γ) (hγ : 0 ≤ γ) {M : Nat} (hM : 1 ≤ M) (n : Nat) {q p : ℚ} (hp : 1 / 2 / (M : ℚ) ≤ p)
    (hp2 : p ≤ 1 / 2) (hq : IsFloat 24 (-149) q) (hqp : |q - p| ≤ p * (1 / 2 ^ 22)) :
    IsFloat 24 (-149) (gl (rs (rs n + q))) ∧ Approx ((1 + γ) * (1 + 1 / 2 ^ 18)) (cellBound M n) (gl (rs (rs n + q))) (logGamma (n + p)) := by
  have hM' : (0 : ℚ) < M := by exact_mod_cast hM
  have hp0 : 0 < p := lt_of_lt_of_le (by positivity) hp
  obtain ⟨hf, hnear⟩ := floatCount_near R n hp0 hq hqp
  set y := rs (rs n + q) with hy
  have hn0 : (0 : ℚ) ≤ n := Nat.cast_nonneg n
  have hy0 : 0 < y := by
    have := (abs_le.1 hnear).1
    norm_num at this
    linarith
  refine ⟨G.float y hy0 hf, ?_, ?_⟩
  · have g := G.near y hy0 hf
    have hpR : (1 : ℝ) / (2 * M) ≤ p := by
      have : ((1 / 2 / (M : ℚ) : ℚ) : ℝ) ≤ p := by exact_mod_cast hp
      push_cast at this
      rwa [div_div] at this
    have hpR2 : (p : ℝ) ≤ 1 / 2 := by
      have : (p : ℝ) ≤ ((1 / 2 : ℚ) : ℝ) := by exact_mod_cast hp2
      push_cast at this
      exact this
    have hnR : |(y : ℝ) - (n + p)| ≤ 1 / 2 ^ 21 * (n + p) := by
      have : ((|y - (n + p)| : ℚ) : ℝ) ≤ ((1 / 2 ^ 21 * (n + p) : ℚ) : ℝ) := by exact_mod_cast hnear
      push_cast at this
      exact this
    have h1 := logGamma_perturb hM n hpR hpR2 (by positivity) (by norm_num) hnR
    have h2 := logGamma_count hM n hpR hpR2
    change |(gl y : ℝ) - logGamma y| ≤ γ * (1 + |logGamma y|) at g
    have hcb : 0 ≤ cellBound M n := by linarith [abs_nonneg (logGamma (n + p))]
    have h3 : |logGamma y| ≤ |logGamma (n + p)| + |logGamma y - logGamma (n + p)| := by
      have := abs_add_le (logGamma (n + p)) (logGamma y - logGamma (n + p))
      rwa [add_sub_cancel] at this
    have h4 := abs_add_le ((gl y : ℝ) - logGamma y) (logGamma y - logGamma (n + p))
    rw [sub_add_sub_cancel] at h4
    have h1' : |logGamma y - logGamma (n + p)| ≤ 1 / 2 ^ 18 * cellBound M n := by
      refine h1.trans (mul_le_mul_of_nonneg_right (by norm_num) hcb)
    have h5 : γ * (1 + |logGamma y|) ≤ γ * ((1 + 1 / 2 ^ 18) * cellBound M n) := mul_le_mul_of_nonneg_left (by linarith) hγ
    calc |(gl y : ℝ) - logGamma (n + p)| ≤ γ * ((1 + 1 / 2 ^ 18) * cellBound M n) + 1 / 2 ^ 18 * cellBound M n := by linarith
      _ = ((1 + γ) * (1 + 1 / 2 ^ 18) - 1) * cellBound M n := by ring
  · have hpR : (1 : ℝ) / (2 * M) ≤ p := by
      have : ((1 / 2 / (M : ℚ) : ℚ) : ℝ) ≤ p := by exact_mod_cast hp
      push_cast at this
      rwa [div_div] at this
    have hpR2 : (p : ℝ) ≤ 1 / 2 := by
      have : (p : ℝ) ≤ ((1 / 2 : ℚ) : ℝ) := by exact_mod_cast hp2
      push_cast at this
      exact this
    linarith [logGamma_count hM n hpR hpR2]

/-- The scale of the sums: `M ^ 2` cells and `N` rows. -/
noncomputable def edgeScale (M N : Nat) : ℝ := (M * M : Nat) * (Real.log (2 * M) + 2) + nLog N

theorem sum_count_le {α : Type} [BEq α] [LawfulBEq α] {cells : List α} (hnd : cells.Nodup) (pairs : List α) :
    (cells.map fun c => pairs.count c).sum ≤ pairs.length := by
  induction pairs with
  | nil => simp
  | cons p ps ih =>
    have : (cells.map fun c => (p :: ps).count c).sum = (cells.map fun c => ps.count c).sum + cells.count p := by
      clear ih hnd
      induction cells with
      | nil => simp
      | cons c cells ih =>
        rw [List.map_cons, List.sum_cons, ih, List.map_cons, List.sum_cons]
        by_cases h : p = c
        · subst h
          rw [List.count_cons_self, List.count_cons_self]
          omega
        · rw [List.count_cons_of_ne h, List.count_cons_of_ne fun e => h e.symm]
          omega
    rw [this, List.length_cons]
    have := List.nodup_iff_count_le_one.1 hnd p
    omega

theorem sum_cellBound {ι : Type} (M : Nat) (f : ι → Nat) (l : List ι) {N : Nat} (h : (l.map f).sum ≤ N) :
    (l.map fun c => cellBound M (f c)).sum ≤ l.length * (Real.log (2 * M) + 2) + nLog N := by
  have h1 : (l.map fun c => cellBound M (f c)).sum = l.length * (Real.log (2 * M) + 2) + ((l.map f).map nLog).sum := by
    clear h
    induction l with
    | nil => simp
    | cons c l ih =>
      simp only [List.map_cons, List.sum_cons, ih, List.length_cons]
      unfold cellBound
      push_cast
      ring
  rw [h1]
  have := (nLog_sum (l.map f)).trans (nLog_mono h)
  linarith

theorem log_two_mul_mono {M : Nat} (hM : 1 ≤ M) : Real.log (2 * (1 : Nat)) ≤ Real.log (2 * M) := by
  have : (1 : ℝ) ≤ M := by exact_mod_cast hM
  exact Real.log_le_log (by norm_num) (by push_cast; linarith)

/-- The sum over the cells of an edge. -/
theorem cellSum_approx (R : IsRounding 24 (-149) rs) (D : IsRounding 53 (-1074) rd) (G : GammalnOk gl γ) (hγ : 0 ≤ γ) {M : Nat} (hM : 1 ≤ M) (hM2 : M ≤ 2 ^ 31)
    {N : Nat} {pairs : List (Fin M × Fin M)} (hl : pairs.length ≤ N) :
    IsFloat 24 (-149) (cellSum (floatArith rs) (floatGammalnTable rs rd gl N M) pairs) ∧
    Approx ((1 + 1 / 2 ^ 24) ^ (M * M) * ((1 + γ) * (1 + 1 / 2 ^ 18))) (edgeScale M N) (cellSum (floatArith rs) (floatGammalnTable rs rd gl N M) pairs)
      (cellSum (exactArith ℝ) ((List.range (1 + N)).map fun (i : Nat) => logGamma (i + edgePrior M)) pairs) := by
  have hM' : (1 : ℚ) ≤ M := by exact_mod_cast hM
  have hprior := floatPrior_near R D hM hM2
  have hle2 : (1 : ℚ) / 2 / M ≤ 1 / 2 := div_le_self (by norm_num) hM'
  set cells := (List.finRange M).flatMap fun a => (List.finRange M).map fun b => (a, b) with hcells
  have hnd : cells.Nodup := (List.nodup_finRange M).product (List.nodup_finRange M)
  have hlen : cells.length = M * M := by simp [hcells, List.length_flatMap]
  have hcount : ∀ c, pairs.count c ≤ N := fun c => List.count_le_length.trans hl
  have hterm : ∀ c ∈ cells, IsFloat 24 (-149) ((floatGammalnTable rs rd gl N M).getD (pairs.count c) 0) ∧
      Approx ((1 + γ) * (1 + 1 / 2 ^ 18)) (cellBound M (pairs.count c)) ((floatGammalnTable rs rd gl N M).getD (pairs.count c) 0)
        (((List.range (1 + N)).map fun (i : Nat) => logGamma (i + edgePrior M)).getD (pairs.count c) 0) := by
    intro c _
    have hc := hcount c
    have h1 := gammaln_approx R G hγ hM (pairs.count c) (q := rs (rd (1 / 2 / (M : ℚ)))) (p := 1 / 2 / (M : ℚ)) (le_refl _) hle2 (R.float _) hprior
    have e1 : (floatGammalnTable rs rd gl N M).getD (pairs.count c) 0 = gl (rs (rs (pairs.count c) + rs (rd (1 / 2 / (M : ℚ))))) := by
      rw [floatGammalnTable, List.getD_eq_getElem _ _ (by simp; omega), List.getElem_map, List.getElem_range]
    have e2 : ((List.range (1 + N)).map fun (i : Nat) => logGamma (i + edgePrior M)).getD (pairs.count c) 0 = logGamma (pairs.count c + ((1 / 2 / (M : ℚ) : ℚ) : ℝ)) := by
      rw [List.getD_eq_getElem _ _ (by simp; omega), List.getElem_map, List.getElem_range, edgePrior]
      push_cast
      rfl
    rw [e1, e2]
    exact h1
  have hρ : 1 ≤ (1 + γ) * (1 + 1 / 2 ^ 18) := by nlinarith
  obtain ⟨h1, h2⟩ := Approx.foldl R hρ _ _ _ cells hterm 0 0 0 0 (isFloat_zero ..) ⟨by simp, by simp⟩
  refine ⟨h1, ?_⟩
  have e : cellSum (exactArith ℝ) ((List.range (1 + N)).map fun (i : Nat) => logGamma (i + edgePrior M)) pairs
      = 0 + (cells.map fun c => ((List.range (1 + N)).map fun (i : Nat) => logGamma (i + edgePrior M)).getD (pairs.count c) 0).sum := foldl_add_sum _ cells 0
  rw [e]
  rw [zero_add, hlen] at h2
  refine h2.mono (le_refl _) ?_ ?_
  · rw [zero_add, edgeScale, ← hlen]
    exact sum_cellBound M _ cells ((sum_count_le hnd pairs).trans hl)
  · have : (1 : ℝ) ≤ (1 + 1 / 2 ^ 24) ^ (M * M) := one_le_pow₀ (by norm_num)
    nlinarith

/-- The logit of a vertex. -/
theorem vertLogit_approx (R : IsRounding 24 (-149) rs) (G : GammalnOk gl γ) (hγ : 0 ≤ γ) (S : SumAbsOk sum) {M : Nat} (hM : 1 ≤ M) {N : Nat} {num : Num ℝ}
    (hn : ∀ x, 0 < x → num.gammaln x = Real.log (Real.Gamma x)) {counts : Fin M → Int} (h0 : ∀ m, 0 ≤ counts m) (hN : ∑ m, counts m ≤ N) :
    IsFloat 24 (-149) (floatVertLogit rs gl sum counts) ∧
    Approx ((1 + 1 / 2 ^ 24) ^ (M * M) * ((1 + γ) * (1 + 1 / 2 ^ 18))) (edgeScale M N) (floatVertLogit rs gl sum counts) (logprobDC num counts vertPrior) := by
  have hρ : 1 ≤ (1 + γ) * (1 + 1 / 2 ^ 18) := by nlinarith
  have hhalf : IsFloat 24 (-149) (1 / 2 : ℚ) := ⟨1, -1, by norm_num, by norm_num, by norm_num⟩
  have hterm : ∀ m ∈ List.finRange M, IsFloat 24 (-149) (gl (rs (rs (counts m) + 1 / 2))) ∧
      Approx ((1 + γ) * (1 + 1 / 2 ^ 18)) (cellBound 1 (counts m).toNat) (gl (rs (rs (counts m) + 1 / 2))) (logGamma ((counts m).toNat + ((1 / 2 : ℚ) : ℝ))) := by
    intro m _
    have h1 := gammaln_approx R G hγ (M := 1) (le_refl 1) (counts m).toNat (q := 1 / 2) (p := 1 / 2) (by norm_num) (le_refl _) hhalf (by norm_num)
    have e : (((counts m).toNat : Nat) : ℚ) = ((counts m : Int) : ℚ) := by
      have := Int.toNat_of_nonneg (h0 m)
      exact_mod_cast this
    rw [e] at h1
    exact h1
  obtain ⟨h1, h2⟩ := Approx.sum S hρ _ _ _ (List.finRange M) hterm
  refine ⟨h1, ?_⟩
  have e : logprobDC num counts vertPrior = ((List.finRange M).map fun m => logGamma ((counts m).toNat + ((1 / 2 : ℚ) : ℝ))).sum := by
    unfold logprobDC vertPrior
    rw [← List.sum_ofFn, List.ofFn_eq_map]
    congr 1
    refine List.map_congr_left fun m _ => ?_
    have e : (((counts m).toNat : Nat) : ℝ) = ((counts m : Int) : ℝ) := by
      have := Int.toNat_of_nonneg (h0 m)
      exact_mod_cast this
    have : (0 : ℝ) ≤ (counts m : ℝ) := by exact_mod_cast h0 m
    rw [hn _ (by linarith), e, logGamma]
    push_cast
    rfl
  rw [e]
  rw [List.length_finRange] at h2
  have hpow : ((1 : ℝ) + 1 / 2 ^ 24) ^ M ≤ (1 + 1 / 2 ^ 24) ^ (M * M) := pow_le_pow_right₀ (by norm_num) (Nat.le_mul_self M)
  have h1le : (1 : ℝ) ≤ (1 + 1 / 2 ^ 24) ^ (M * M) := one_le_pow₀ (by norm_num)
  refine h2.mono (mul_le_mul_of_nonneg_right hpow (by linarith)) ?_ (by nlinarith)
  have hsum : ((List.finRange M).map fun m => (counts m).toNat).sum ≤ N := by
    have : ((((List.finRange M).map fun m => (counts m).toNat).sum : Nat) : Int) = ∑ m, counts m := by
      rw [← List.sum_ofFn, List.ofFn_eq_map]
      push_cast
      rw [List.map_map]
      congr 1
      refine List.map_congr_left fun m _ => ?_
      exact Int.toNat_of_nonneg (h0 m)
    have h3 : ((((List.finRange M).map fun m => (counts m).toNat).sum : Nat) : Int) ≤ (N : Int) := by rw [this]; exact hN
    exact_mod_cast h3
  refine (sum_cellBound 1 _ _ hsum).trans ?_
  rw [List.length_finRange, edgeScale]
  have hl := log_two_mul_mono hM
  have hl1 : 0 ≤ Real.log (2 * (1 : Nat)) := Real.log_nonneg (by norm_num)
  have hMM : (M : ℝ) ≤ ((M * M : Nat) : ℝ) := by exact_mod_cast Nat.le_mul_self M
  have : (M : ℝ) * (Real.log (2 * (1 : Nat)) + 2) ≤ ((M * M : Nat) : ℝ) * (Real.log (2 * M) + 2) :=
    mul_le_mul hMM (by linarith) (by linarith) (by positivity)
  linarith

/-- The allowance for the logit of an edge with prior `p`. -/
noncomputable def logitSlack (γ : ℝ) (M N : Nat) (p : ℝ) : ℝ :=
  ((1 + 1 / 2 ^ 24) ^ (M * M + 3) * ((1 + γ) * (1 + 1 / 2 ^ 18)) - 1) * (3 * edgeScale M N + |p|)

theorem sum_vertCount {M : Nat} (rows : Finset Nat) (assign : Nat → Nat → Fin M) (v : Nat) : ∑ m, vertCount rows assign v m = rows.card := by
  unfold vertCount
  exact (Finset.card_eq_sum_card_fiberwise fun n _ => Finset.mem_univ (assign n v)).symm

/-- Shared part: each value in the array is near the exact one. -/
theorem edgeValue_approx (R : IsRounding 24 (-149) rs) (D : IsRounding 53 (-1074) rd) (G : GammalnOk gl γ) (hγ : 0 ≤ γ) (S : SumAbsOk sum) {M : Nat} [NeZero M]
    (hM2 : M ≤ 2 ^ 31) {num : Num ℝ} (hn : ∀ x, 0 < x → num.gammaln x = Real.log (Real.Gamma x)) {t : Table} {s : Trainer ℝ M} (hg : Good t s)
    {assignments : List (Nat → Fin M)} (hl : assignments.length ≤ t.numRows) {c : Nat × Nat × Nat} (h1 : c.2.1 < t.numCols) (h2 : c.2.2 < t.numCols) :
    Approx ((1 + 1 / 2 ^ 24) ^ (M * M + 2) * ((1 + γ) * (1 + 1 / 2 ^ 18))) (3 * edgeScale M t.numRows)
      (edgeValue (floatArith rs) (floatGammalnTable rs rd gl t.numRows M) assignments (fun v => floatVertLogit rs gl sum (s.vertSS v)) c)
      (edgeValue (exactArith ℝ) ((List.range (1 + t.numRows)).map fun (i : Nat) => num.gammaln ((i : ℝ) + edgePrior M)) assignments
        (fun v => logprobDC num (s.vertSS v) vertPrior) c) := by
  have hM : 1 ≤ M := Nat.one_le_iff_ne_zero.2 (NeZero.ne M)
  have hρ : 1 ≤ (1 + γ) * (1 + 1 / 2 ^ 18) := by nlinarith
  have hM0 : (0 : ℝ) < M := by exact_mod_cast hM
  have htab : ((List.range (1 + t.numRows)).map fun (i : Nat) => num.gammaln ((i : ℝ) + edgePrior M)) =
      (List.range (1 + t.numRows)).map fun (i : Nat) => logGamma (i + edgePrior M) := by
    refine List.map_congr_left fun i _ => ?_
    have : (0 : ℝ) < edgePrior M := by unfold edgePrior; positivity
    rw [hn _ (by positivity)]
    rfl
  have hv : ∀ v < t.numCols, (∀ m, 0 ≤ s.vertSS v m) ∧ ∑ m, s.vertSS v m ≤ t.numRows := by
    intro v hv
    refine ⟨fun m => by rw [hg.stats.vert v hv]; positivity, ?_⟩
    have h3 : ∑ m, s.vertSS v m = ((∑ m, vertCount s.added s.assign v m : Nat) : Int) := by
      push_cast
      exact Finset.sum_congr rfl fun m _ => hg.stats.vert v hv m
    rw [h3, sum_vertCount]
    have := Finset.card_le_card hg.rows
    rw [Finset.card_range] at this
    exact_mod_cast this
  obtain ⟨c1, c2⟩ := cellSum_approx R D G hγ hM hM2 (N := t.numRows) (pairs := assignments.map fun a => (a c.2.1, a c.2.2)) (by simpa using hl)
  obtain ⟨a1, a2⟩ := vertLogit_approx R G hγ S hM hn (hv _ h1).1 (hv _ h1).2
  obtain ⟨b1, b2⟩ := vertLogit_approx R G hγ S hM hn (hv _ h2).1 (hv _ h2).2
  have d1 := c2.sub R a2 c1 a1
  have hpow : (1 : ℝ) ≤ (1 + 1 / 2 ^ 24) ^ (M * M) := one_le_pow₀ (by norm_num)
  have d2 := d1.sub R (b2.mono (σ := (1 + 1 / 2 ^ 24) * ((1 + 1 / 2 ^ 24) ^ (M * M) * ((1 + γ) * (1 + 1 / 2 ^ 18)))) (by nlinarith) (le_refl _) (by nlinarith))
    (R.float _) b1
  rw [htab]
  have e1 : (1 + 1 / 2 ^ 24) * ((1 + 1 / 2 ^ 24) * ((1 + 1 / 2 ^ 24) ^ (M * M) * ((1 + γ) * (1 + 1 / 2 ^ 18))))
      = (1 + 1 / 2 ^ 24) ^ (M * M + 2) * ((1 + γ) * (1 + 1 / 2 ^ 18)) := by rw [pow_add]; ring
  have e2 : edgeScale M t.numRows + edgeScale M t.numRows + edgeScale M t.numRows = 3 * edgeScale M t.numRows := by ring
  rw [e1, e2] at d2
  exact d2

/-- The float32 edge logits in a good state. -/
theorem floatEdgeLogits_good (R : IsRounding 24 (-149) rs) (D : IsRounding 53 (-1074) rd) (G : GammalnOk gl γ) (hγ : 0 ≤ γ) (S : SumAbsOk sum) {M : Nat} [NeZero M]
    (hM2 : M ≤ 2 ^ 31) {num : Num ℝ} (hn : ∀ x, 0 < x → num.gammaln x = Real.log (Real.Gamma x)) {t : Table}
    {s : Trainer ℝ M} (hg : Good t s) (prior : List ℚ) (hp : prior.length = t.numCols * (t.numCols - 1) / 2)
    (hpf : ∀ x ∈ prior, IsFloat 24 (-149) x) :
    ∃ fl ex, floatEdgeLogits rs rd gl sum t prior s = .ok fl ∧ computeEdgeLogits num t (prior.map fun x : ℚ => (x : ℝ)) s = .ok ex ∧
      fl.length = prior.length ∧ ex.length = prior.length ∧
      ∀ k < prior.length, IsFloat 24 (-149) (fl.getD k 0) ∧ |((fl.getD k 0 : ℚ) : ℝ) - ex.getD k 0| ≤ logitSlack γ M t.numRows (prior.getD k 0 : ℚ) ∧
        |ex.getD k 0| ≤ 3 * edgeScale M t.numRows + |((prior.getD k 0 : ℚ) : ℝ)| := by
  have hcard : s.added.card ≤ t.numRows := by simpa using Finset.card_le_card hg.rows
  set assignments := (if s.added.card = t.numCols then List.range t.numRows else s.added.sort (· ≤ ·)).map s.assign with hassign
  have hl : assignments.length ≤ t.numRows := by
    rw [hassign]
    split
    · simp
    · simpa using hcard
  have hlt : assignments.length < (floatGammalnTable rs rd gl t.numRows M).length := by simp [floatGammalnTable]; omega
  have hlt' : assignments.length < ((List.range (1 + t.numRows)).map fun (i : Nat) => num.gammaln ((i : ℝ) + edgePrior M)).length := by simp; omega
  obtain ⟨ex, h1, h2⟩ := computeEdgeLogits_loop num t (prior.map fun x : ℚ => (x : ℝ)) s hcard (makeCompleteGraph_eq t.numCols)
  rw [← hassign, edgeLogitsSeq_eq _ _ _ hlt', Except.ok.injEq] at h1
  have hgl : (completeGrid t.numCols).length = prior.length := by rw [completeGrid_length, hp]; rfl
  refine ⟨((completeGrid t.numCols).map (edgeValue (floatArith rs) (floatGammalnTable rs rd gl t.numRows M) assignments
    fun v => floatVertLogit rs gl sum (s.vertSS v))).zipWith (fun a b => rs (a + b)) prior, _, ?_, h2, ?_, ?_, ?_⟩
  · simp only [floatEdgeLogits, makeCompleteGraph_eq, bind, Except.bind]
    rw [← hassign, edgeLogitsSeq_eq _ _ _ hlt]
  · rw [List.length_zipWith, List.length_map, hgl, min_self]
  · rw [List.length_zipWith, ← h1, List.length_map, List.length_map, hgl, min_self]
  · intro k hk
    have hkg : k < (completeGrid t.numCols).length := by rw [hgl]; exact hk
    have hc : (completeGrid t.numCols)[k].2.1 < t.numCols ∧ (completeGrid t.numCols)[k].2.2 < t.numCols := by
      have hk' : k < tri t.numCols := by rwa [completeGrid_length] at hkg
      have h3 := pairAt_lt hk'
      have h4 := completeGrid_getElem? t.numCols k
      rw [List.getElem?_eq_getElem hkg, pairs_getElem?_pairAt hk'] at h4
      simp only [Option.map_some, Option.some.injEq] at h4
      rw [h4]
      exact ⟨by simp only; omega, h3.2.1⟩
    have ha := edgeValue_approx R D G hγ S hM2 hn hg hl hc.1 hc.2
    have hfl : IsFloat 24 (-149) prior[k] := hpf _ (List.getElem_mem hk)
    have hM : 1 ≤ M := Nat.one_le_iff_ne_zero.2 (NeZero.ne M)
    have hρ : 1 ≤ (1 + γ) * (1 + 1 / 2 ^ 18) := by nlinarith
    have hpow : (1 : ℝ) ≤ (1 + 1 / 2 ^ 24) ^ (M * M + 2) := one_le_pow₀ (by norm_num)
    have hadd := ha.add R (approx_self.mono (σ := (1 + 1 / 2 ^ 24) ^ (M * M + 2) * ((1 + γ) * (1 + 1 / 2 ^ 18))) (by nlinarith) (le_refl _) (by nlinarith)) (R.float _) hfl
    have e1 : (List.zipWith (fun a b => rs (a + b)) ((completeGrid t.numCols).map (edgeValue (floatArith rs) (floatGammalnTable rs rd gl t.numRows M) assignments
        fun v => floatVertLogit rs gl sum (s.vertSS v))) prior).getD k 0 = rs (edgeValue (floatArith rs) (floatGammalnTable rs rd gl t.numRows M) assignments
        (fun v => floatVertLogit rs gl sum (s.vertSS v)) (completeGrid t.numCols)[k] + prior[k]) := by
      rw [List.getD_eq_getElem _ _ (by rw [List.length_zipWith, List.length_map]; omega), List.getElem_zipWith, List.getElem_map]
    have e2 : (List.zipWith (· + ·) ex (prior.map fun x : ℚ => (x : ℝ))).getD k 0 = edgeValue (exactArith ℝ) ((List.range (1 + t.numRows)).map fun (i : Nat) =>
        num.gammaln ((i : ℝ) + edgePrior M)) assignments (fun v => logprobDC num (s.vertSS v) vertPrior) (completeGrid t.numCols)[k] + prior[k] := by
      rw [← h1, List.getD_eq_getElem _ _ (by rw [List.length_zipWith, List.length_map, List.length_map]; omega), List.getElem_zipWith, List.getElem_map, List.getElem_map]
    rw [e1, e2, List.getD_eq_getElem _ _ hk]
    refine ⟨R.float _, hadd.1.trans (le_of_eq ?_), hadd.2⟩
    unfold logitSlack
    rw [show M * M + 3 = M * M + 2 + 1 by ring, pow_succ]
    ring

/-- **C75** (near). In every state of a trainer that calls can lead to, the float32 edge logits are computed without an error and each is within the allowance of
the logit in exact arithmetic. -/
theorem floatEdgeLogits_near (R : IsRounding 24 (-149) rs) (D : IsRounding 53 (-1074) rd) (G : GammalnOk gl γ) (hγ : 0 ≤ γ) (S : SumAbsOk sum) {M : Nat} [NeZero M]
    (hM2 : M ≤ 2 ^ 31) {num : Num ℝ} (hn : ∀ x, 0 < x → num.gammaln x = Real.log (Real.Gamma x)) {t : Table} (ht : Table.Ordered t)
    (hm : ∀ ty ∈ t.featureTypes, ty = tyMultinomial) {s : Trainer ℝ M} (hs : Reached t s) (prior : List ℚ) (hp : prior.length = t.numCols * (t.numCols - 1) / 2)
    (hpf : ∀ x ∈ prior, IsFloat 24 (-149) x) :
    ∃ fl ex, floatEdgeLogits rs rd gl sum t prior s = .ok fl ∧ computeEdgeLogits num t (prior.map fun x : ℚ => (x : ℝ)) s = .ok ex ∧
      fl.length = prior.length ∧ ex.length = prior.length ∧
      ∀ k < prior.length, IsFloat 24 (-149) (fl.getD k 0) ∧ |((fl.getD k 0 : ℚ) : ℝ) - ex.getD k 0| ≤ logitSlack γ M t.numRows (prior.getD k 0 : ℚ) ∧
        |ex.getD k 0| ≤ 3 * edgeScale M t.numRows + |((prior.getD k 0 : ℚ) : ℝ)| :=
  floatEdgeLogits_good R D G hγ S hM2 hn (hs.good ht hm) prior hp hpf

end

/-! ### Large counts -/

section
variable {rs rd gl : ℚ → ℚ} {sum : List ℚ → ℚ} {γ : ℝ}

/-- A float32 number of absolute value at least `2 ^ 24` is an even integer. -/
theorem float_even {emin : Int} {x : ℚ} (h : IsFloat 24 emin x) (hx : 2 ^ 24 ≤ |x|) : ∃ z : Int, x = 2 * z := by
  obtain ⟨m, e, hm, -, rfl⟩ := h
  have hm' : |(m : ℚ)| < 2 ^ 24 := by exact_mod_cast hm
  have he : 1 ≤ e := by
    by_contra hcon
    have : (2 : ℚ) ^ e ≤ 2 ^ (0 : Int) := zpow_mono (by omega)
    rw [zpow_zero] at this
    rw [abs_mul_zpow] at hx
    nlinarith [abs_nonneg (m : ℚ), two_zpow_pos e]
  obtain ⟨k, rfl⟩ : ∃ k : Nat, e = 1 + k := ⟨(e - 1).toNat, by omega⟩
  refine ⟨m * 2 ^ k, ?_⟩
  rw [zpow_split, zpow_natCast]
  push_cast
  ring

/-- Rounding an even integer gives an even integer. -/
theorem round_even (R : IsRounding 24 (-149) rs) (z : Int) : ∃ y : Int, rs (2 * z) = 2 * y := by
  by_cases h : |z| < 2 ^ 24
  · exact ⟨z, R.id ⟨z, 1, h, by norm_num, by ring⟩⟩
  · refine float_even (R.float _) ?_
    have hf : IsFloat 24 (-149) (2 ^ 24 : ℚ) := ⟨1, 24, by norm_num, by norm_num, by norm_num⟩
    push Not at h
    rcases le_abs.1 h with h | h
    · have h1 : (2 : ℚ) ^ 24 ≤ z := by exact_mod_cast h
      have := R.mono (by linarith : (2 : ℚ) ^ 24 ≤ 2 * z)
      rw [R.id hf] at this
      exact this.trans (le_abs_self _)
    · have h1 : (2 : ℚ) ^ 24 ≤ ((-z : Int) : ℚ) := by exact_mod_cast h
      push_cast at h1
      have := R.mono (by linarith : 2 * (z : ℚ) ≤ -2 ^ 24)
      rw [R.id hf.neg] at this
      exact le_abs.2 (.inr (by linarith))

/-- **C75** (coarse). Once the three sums behind a logit reach `2 ^ 24`, which takes about two million rows, the logit is an even integer (before the tree prior
is added): differences smaller than 2 are lost. -/
theorem edgeValue_coarse (R : IsRounding 24 (-149) rs) {M : Nat} {table : List ℚ} {assignments : List (Nat → Fin M)} {vertLogits : Nat → ℚ} {c : Nat × Nat × Nat}
    (hl : IsFloat 24 (-149) (cellSum (floatArith rs) table (assignments.map fun a => (a c.2.1, a c.2.2))))
    (hv : IsFloat 24 (-149) (vertLogits c.2.1) ∧ IsFloat 24 (-149) (vertLogits c.2.2))
    (bl : 2 ^ 24 ≤ |cellSum (floatArith rs) table (assignments.map fun a => (a c.2.1, a c.2.2))|)
    (bv : 2 ^ 24 ≤ |vertLogits c.2.1| ∧ 2 ^ 24 ≤ |vertLogits c.2.2|) :
    ∃ z : Int, edgeValue (floatArith rs) table assignments vertLogits c = 2 * z := by
  obtain ⟨x, hx⟩ := float_even hl bl
  obtain ⟨y, hy⟩ := float_even hv.1 bv.1
  obtain ⟨w, hw⟩ := float_even hv.2 bv.2
  obtain ⟨a, ha⟩ := round_even R (x - y)
  obtain ⟨b, hb⟩ := round_even R (a - w)
  refine ⟨b, ?_⟩
  show rs (rs (cellSum (floatArith rs) table _ - vertLogits c.2.1) - vertLogits c.2.2) = _
  rw [hx, hy, hw, ← mul_sub, ← Int.cast_sub, ha, ← mul_sub, ← Int.cast_sub, hb]

theorem logGamma_small_nonneg {q : ℝ} (h0 : 0 < q) (h1 : q ≤ 1 / 2) : 0 ≤ logGamma q := by
  have h2 := logGamma_succ h0
  have h3 := le_logGamma_sub one_pos (by linarith : (1 : ℝ) < q + 1)
  rw [logGamma_one, Real.log_one] at h3
  have h4 : Real.log q ≤ Real.log (1 / 2) := Real.log_le_log h0 h1
  rw [one_div, Real.log_inv] at h4
  have := Real.log_two_gt_d9
  linarith

/-- A lower bound, enough for two million rows. -/
theorem logGamma_large {N : Nat} (hN : 2 ^ 21 ≤ N) {q : ℝ} (h0 : 0 < q) : 2 ^ 24 + 1 / 2 ^ 8 * (2 ^ 17 + nLog N) ≤ logGamma (N + q) := by
  have hN' : (2 : ℝ) ^ 21 ≤ N := by exact_mod_cast hN
  have hlog : (14 : ℝ) + 1 / 2 ≤ Real.log N := by
    have h1 := Real.log_le_log (by norm_num) hN'
    rw [Real.log_pow] at h1
    have := Real.log_two_gt_d9
    push_cast at h1
    linarith
  have hpos : (0 : ℝ) < N := by linarith
  have l2 := Real.log_two_lt_d9
  have h1 := le_logGamma_sub hpos (by linarith : (N : ℝ) < N + q)
  have h2 := le_logGamma_sub (by linarith : (0 : ℝ) < N / 2) (by linarith : (N : ℝ) / 2 < N)
  have h3 := le_logGamma_sub (by linarith : (0 : ℝ) < N / 4) (by linarith : (N : ℝ) / 4 < N / 2)
  have h4 := logGamma_nonneg (x := (N : ℝ) / 4) (by linarith)
  have e1 : 0 ≤ (N + q - N) * (Real.log N - 1 / N) := by
    have : 1 / (N : ℝ) ≤ 1 := by rw [div_le_one hpos]; linarith
    exact mul_nonneg (by linarith) (by linarith)
  have e2 : (N - (N : ℝ) / 2) * (Real.log (N / 2) - 1 / (N / 2)) = N / 2 * (Real.log N - Real.log 2) - 1 := by
    rw [Real.log_div hpos.ne' (by norm_num)]
    field_simp
    ring
  have e3 : ((N : ℝ) / 2 - N / 4) * (Real.log (N / 4) - 1 / (N / 4)) = N / 4 * (Real.log N - 2 * Real.log 2) - 1 := by
    rw [Real.log_div hpos.ne' (by norm_num), show (4 : ℝ) = 2 ^ 2 by norm_num, Real.log_pow]
    field_simp
    push_cast
    ring
  rw [e2] at h2
  rw [e3] at h3
  have e4 : nLog N ≤ N * (Real.log N + 1) := by
    unfold nLog
    refine mul_le_mul_of_nonneg_left ?_ hpos.le
    have h5 := Real.log_le_sub_one_of_pos (by positivity : 0 < ((N : ℝ) + 1) / N)
    rw [Real.log_div (by linarith) hpos.ne'] at h5
    have : ((N : ℝ) + 1) / N - 1 = 1 / N := by field_simp; ring
    have : 1 / (N : ℝ) ≤ 1 := by rw [div_le_one hpos]; linarith
    linarith
  generalize Real.log N = ℓ at *
  generalize Real.log 2 = b at *
  have e5 : (N : ℝ) * b ≤ N * 0.7 := mul_le_mul_of_nonneg_left (by linarith) hpos.le
  have e6 : (N : ℝ) * (14 + 1 / 2) ≤ N * ℓ := mul_le_mul_of_nonneg_left hlog hpos.le
  have e7 : (2097152 : ℝ) ≤ N := by exact_mod_cast hN
  norm_num
  linarith

theorem pow_round_le {n : Nat} (h : n ≤ 2 ^ 14) : ((1 : ℝ) + 1 / 2 ^ 24) ^ n ≤ 1 + 1 / 2 ^ 9 := by
  have h1 : ((1 : ℝ) + 1 / 2 ^ 24) ^ n ≤ (1 + 1 / 2 ^ 24) ^ (2 ^ 14) := pow_le_pow_right₀ (by norm_num) h
  refine h1.trans ?_
  have h2 : ((1 : ℝ) + 1 / 2 ^ 24) ^ (2 ^ 14) ≤ Real.exp (1 / 2 ^ 10) := by
    have h3 : (1 : ℝ) + 1 / 2 ^ 24 ≤ Real.exp (1 / 2 ^ 24) := by linarith [Real.add_one_le_exp ((1 : ℝ) / 2 ^ 24)]
    refine (pow_le_pow_left₀ (by norm_num) h3 _).trans (le_of_eq ?_)
    rw [← Real.exp_nat_mul]
    congr 1
    norm_num
  refine h2.trans ?_
  have h4 := Real.add_one_le_exp (-((1 : ℝ) / 2 ^ 10))
  rw [Real.exp_neg] at h4
  have h5 := Real.exp_pos ((1 : ℝ) / 2 ^ 10)
  have h6 : Real.exp (1 / 2 ^ 10) * (1 - 1 / 2 ^ 10) ≤ 1 := by
    calc Real.exp (1 / 2 ^ 10) * (1 - 1 / 2 ^ 10) ≤ Real.exp (1 / 2 ^ 10) * (Real.exp (1 / 2 ^ 10))⁻¹ :=
          mul_le_mul_of_nonneg_left (by linarith) h5.le
      _ = 1 := mul_inv_cancel₀ h5.ne'
  norm_num at h6 ⊢
  linarith

theorem le_abs_of_approx {M N : Nat} (hM : 1 ≤ M) (hM2 : M ≤ 2 ^ 7) (hN : 2 ^ 21 ≤ N) (hγ : 0 ≤ γ) (hγ2 : γ ≤ 1 / 2 ^ 20) {a : ℚ} {x q : ℝ} (hq : 0 < q)
    (h : Approx ((1 + 1 / 2 ^ 24) ^ (M * M) * ((1 + γ) * (1 + 1 / 2 ^ 18))) (edgeScale M N) a x) (hx : logGamma (N + q) ≤ x) : 2 ^ 24 ≤ |a| := by
  have hl := logGamma_large hN hq
  have h1 := pow_round_le (n := M * M) (by nlinarith)
  have h0 : (1 : ℝ) ≤ (1 + 1 / 2 ^ 24) ^ (M * M) := one_le_pow₀ (by norm_num)
  have hρ : ((1 : ℝ) + 1 / 2 ^ 24) ^ (M * M) * ((1 + γ) * (1 + 1 / 2 ^ 18)) - 1 ≤ 1 / 2 ^ 8 := by
    have h2 : (1 + γ) * (1 + 1 / 2 ^ 18) ≤ (1 + 1 / 2 ^ 20) * (1 + 1 / 2 ^ 18) := mul_le_mul_of_nonneg_right (by linarith) (by norm_num)
    have h3 := mul_le_mul h1 h2 (by positivity) (by norm_num)
    norm_num at h3 ⊢
    linarith
  have hs : edgeScale M N ≤ 2 ^ 17 + nLog N := by
    unfold edgeScale
    have hM' : (1 : ℝ) ≤ M := by exact_mod_cast hM
    have hM2' : (M : ℝ) ≤ 2 ^ 7 := by exact_mod_cast hM2
    have e1 : Real.log (2 * M) ≤ 6 := by
      have := Real.log_le_log (by linarith) (by linarith : (2 : ℝ) * M ≤ 2 ^ 8)
      rw [Real.log_pow] at this
      have := Real.log_two_lt_d9
      push_cast at *
      linarith
    have e2 : 0 ≤ Real.log (2 * M) := Real.log_nonneg (by linarith)
    have e3 : ((M * M : Nat) : ℝ) ≤ 2 ^ 14 := by
      push_cast
      nlinarith
    have : ((M * M : Nat) : ℝ) * (Real.log (2 * M) + 2) ≤ 2 ^ 14 * 8 := mul_le_mul e3 (by linarith) (by linarith) (by norm_num)
    norm_num at this ⊢
    linarith
  have he := (abs_le.1 h.1).1
  have hmul : ((1 + 1 / 2 ^ 24) ^ (M * M) * ((1 + γ) * (1 + 1 / 2 ^ 18)) - 1) * edgeScale M N ≤ 1 / 2 ^ 8 * (2 ^ 17 + nLog N) :=
    mul_le_mul hρ hs h.nonneg (by norm_num)
  have : ((2 ^ 24 : ℚ) : ℝ) ≤ (a : ℝ) := by
    push_cast
    linarith
  exact (by exact_mod_cast this : (2 ^ 24 : ℚ) ≤ a).trans (le_abs_self _)

theorem le_sum_of_mem {ι : Type} {l : List ι} {f : ι → ℝ} (h : ∀ c ∈ l, 0 ≤ f c) {c : ι} (hc : c ∈ l) : f c ≤ (l.map f).sum := by
  induction l with
  | nil => simp at hc
  | cons a l ih =>
    rw [List.map_cons, List.sum_cons]
    have h1 : 0 ≤ (l.map f).sum := List.sum_nonneg fun x hx => by
      obtain ⟨c, hc, rfl⟩ := List.mem_map.1 hx
      exact h c (by simp [hc])
    rcases List.mem_cons.1 hc with rfl | hc
    · linarith
    · linarith [ih (fun c hc => h c (by simp [hc])) hc, h a (by simp)]

/-- **C75** (coarse, an instance). With at least `2 ^ 21` rows, all in the sample and all in one class of each of two features, the float32 logit of the edge between
the two is an even integer if the tree prior is zero. -/
theorem floatEdgeLogits_coarse (R : IsRounding 24 (-149) rs) (D : IsRounding 53 (-1074) rd) (G : GammalnOk gl γ) (hγ : 0 ≤ γ) (hγ2 : γ ≤ 1 / 2 ^ 20) (S : SumAbsOk sum)
    {M : Nat} [NeZero M] (hM2 : M ≤ 2 ^ 7) {t : Table} {s : Trainer ℝ M} (hg : Good t s) (hall : s.added = Finset.range t.numRows) (hN : 2 ^ 21 ≤ t.numRows)
    {k : Nat} (hk : k < t.numCols * (t.numCols - 1) / 2) {a b : Fin M}
    (hab : ∀ n < t.numRows, s.assign n (pairAt t.numCols k).1 = a ∧ s.assign n (pairAt t.numCols k).2 = b) :
    ∃ fl, floatEdgeLogits rs rd gl sum t (List.replicate (t.numCols * (t.numCols - 1) / 2) 0) s = .ok fl ∧ ∃ z : Int, fl.getD k 0 = 2 * z := by
  have hM : 1 ≤ M := Nat.one_le_iff_ne_zero.2 (NeZero.ne M)
  have hM0 : (0 : ℝ) < M := by exact_mod_cast hM
  set rows := if s.added.card = t.numCols then List.range t.numRows else s.added.sort (· ≤ ·) with hrows
  have hperm : rows.Perm (List.range t.numRows) := by
    rw [hrows]
    split
    · exact List.Perm.refl _
    · rw [List.perm_ext_iff_of_nodup (Finset.sort_nodup _ _) List.nodup_range]
      intro x
      rw [Finset.mem_sort, hall, Finset.mem_range, List.mem_range]
  have hlen : rows.length = t.numRows := by rw [hperm.length_eq, List.length_range]
  set assignments := rows.map s.assign with hassign
  have hl : assignments.length = t.numRows := by rw [hassign, List.length_map, hlen]
  have hlt : assignments.length < (floatGammalnTable rs rd gl t.numRows M).length := by simp [floatGammalnTable]; omega
  have hk' : k < tri t.numCols := hk
  have hgl : (completeGrid t.numCols).length = t.numCols * (t.numCols - 1) / 2 := completeGrid_length _
  have hkg : k < (completeGrid t.numCols).length := by rw [hgl]; exact hk
  have hcg : (completeGrid t.numCols)[k].2 = pairAt t.numCols k := by
    have h4 := completeGrid_getElem? t.numCols k
    rw [List.getElem?_eq_getElem hkg, pairs_getElem?_pairAt hk'] at h4
    simp only [Option.map_some, Option.some.injEq] at h4
    rw [h4]
  have hlt2 := pairAt_lt hk'
  refine ⟨((completeGrid t.numCols).map (edgeValue (floatArith rs) (floatGammalnTable rs rd gl t.numRows M) assignments
    fun v => floatVertLogit rs gl sum (s.vertSS v))).zipWith (fun a b => rs (a + b)) (List.replicate (t.numCols * (t.numCols - 1) / 2) 0), ?_, ?_⟩
  · simp only [floatEdgeLogits, makeCompleteGraph_eq, bind, Except.bind]
    rw [← hrows, ← hassign, edgeLogitsSeq_eq _ _ _ hlt]
  rw [List.getD_eq_getElem _ _ (by rw [List.length_zipWith, List.length_map, List.length_replicate]; omega), List.getElem_zipWith, List.getElem_map,
    List.getElem_replicate, add_zero]
  -- the vertices
  have hvert : ∀ (v : Nat) (m : Fin M), v < t.numCols → (∀ n < t.numRows, s.assign n v = m) →
      IsFloat 24 (-149) (floatVertLogit rs gl sum (s.vertSS v)) ∧ 2 ^ 24 ≤ |floatVertLogit rs gl sum (s.vertSS v)| := by
    intro v m hv hm
    set num : Num ℝ := ⟨Real.exp, fun x => Real.log (Real.Gamma x)⟩ with hnum
    have hcount : ∀ m', s.vertSS v m' = if m' = m then (t.numRows : Int) else 0 := by
      intro m'
      rw [hg.stats.vert v hv, hall]
      unfold vertCount
      split
      · rename_i h
        subst h
        rw [Finset.filter_true_of_mem fun n hn => hm n (Finset.mem_range.1 hn), Finset.card_range]
      · rename_i h
        rw [Finset.filter_false_of_mem fun n hn => by rw [hm n (Finset.mem_range.1 hn)]; exact fun e => h e.symm, Finset.card_empty]
        rfl
    have h0 : ∀ m', 0 ≤ s.vertSS v m' := by
      intro m'
      rw [hcount]
      split <;> positivity
    have hsum : ∑ m', s.vertSS v m' ≤ t.numRows := by
      rw [Finset.sum_congr rfl fun m' _ => hcount m', Finset.sum_ite_eq' Finset.univ m]
      simp
    obtain ⟨h1, h2⟩ := vertLogit_approx R G hγ S hM (num := num) (fun x _ => rfl) h0 hsum
    refine ⟨h1, le_abs_of_approx hM hM2 hN hγ hγ2 (q := 1 / 2) (by norm_num) h2 ?_⟩
    have hnn : ∀ m' ∈ (Finset.univ : Finset (Fin M)), 0 ≤ num.gammaln ((s.vertSS v m' : ℝ) + vertPrior) := by
      intro m' _
      rw [hcount]
      show 0 ≤ logGamma _
      unfold vertPrior
      split
      · have : (2 : ℝ) ^ 21 ≤ t.numRows := by exact_mod_cast hN
        refine logGamma_nonneg ?_
        push_cast
        linarith
      · rw [Int.cast_zero, zero_add]
        exact logGamma_small_nonneg (by norm_num) (le_refl _)
    have := Finset.single_le_sum hnn (Finset.mem_univ m)
    rw [hcount, if_pos rfl] at this
    unfold logprobDC
    refine le_trans (le_of_eq ?_) this
    unfold vertPrior
    push_cast
    rfl
  obtain ⟨f1, g1⟩ := hvert (pairAt t.numCols k).1 a (by omega) fun n hn => (hab n hn).1
  obtain ⟨f2, g2⟩ := hvert (pairAt t.numCols k).2 b (by omega) fun n hn => (hab n hn).2
  -- the edge
  set pairs := assignments.map fun x => (x (completeGrid t.numCols)[k].2.1, x (completeGrid t.numCols)[k].2.2) with hpairs
  obtain ⟨c1, c2⟩ := cellSum_approx R D G hγ hM (by omega : M ≤ 2 ^ 31) (N := t.numRows) (pairs := pairs) (by rw [hpairs, List.length_map, hl])
  have hpr : pairs = List.replicate t.numRows (a, b) := by
    rw [List.eq_replicate_iff]
    refine ⟨by rw [hpairs, List.length_map, hl], fun x hx => ?_⟩
    rw [hpairs, hassign, List.map_map] at hx
    obtain ⟨n, hn, rfl⟩ := List.mem_map.1 hx
    have hn' : n < t.numRows := List.mem_range.1 (hperm.mem_iff.1 hn)
    simp only [Function.comp, hcg, (hab n hn').1, (hab n hn').2]
  have hp0 : (0 : ℝ) < edgePrior M := by unfold edgePrior; positivity
  have hp1 : (edgePrior M : ℝ) ≤ 1 / 2 := by
    unfold edgePrior
    exact div_le_self (by norm_num) (by exact_mod_cast hM)
  have cbig := le_abs_of_approx hM hM2 hN hγ hγ2 hp0 c2 (by
    unfold cellSum exactArith
    rw [foldl_add_sum, zero_add]
    have hget : ∀ n ≤ t.numRows, ((List.range (1 + t.numRows)).map fun (i : Nat) => logGamma (i + edgePrior M)).getD n 0 = logGamma (n + edgePrior M) := by
      intro n hn
      rw [List.getD_eq_getElem _ _ (by simp; omega), List.getElem_map, List.getElem_range]
    have hcnt : ∀ c, pairs.count c = if c = (a, b) then t.numRows else 0 := by
      intro c
      rw [hpr, List.count_replicate]
      by_cases h : c = (a, b)
      · simp [h]
      · rw [if_neg h, if_neg (by simpa using fun e => h e.symm)]
    have hmem : (a, b) ∈ (List.finRange M).flatMap fun a => (List.finRange M).map fun b => (a, b) := by simp
    refine le_trans (le_of_eq ?_) (le_sum_of_mem ?_ hmem)
    · simp only [hcnt, if_true]
      rw [hget _ (le_refl _)]
    · intro c _
      simp only [hcnt]
      split
      · rw [hget _ (le_refl _)]
        have : (2 : ℝ) ^ 21 ≤ t.numRows := by exact_mod_cast hN
        exact logGamma_nonneg (by linarith)
      · rw [hget _ (by omega), Nat.cast_zero, zero_add]
        exact logGamma_small_nonneg hp0 hp1)
  obtain ⟨z, hz⟩ := edgeValue_coarse R (c := (completeGrid t.numCols)[k]) (vertLogits := fun v => floatVertLogit rs gl sum (s.vertSS v)) c1
    (by rw [hcg]; exact ⟨f1, f2⟩) cbig (by rw [hcg]; exact ⟨g1, g2⟩)
  rw [hz]
  exact round_even R z

end

/-! ### The assumptions can be met -/

/-- Summing in order meets the assumption on `np.sum`. -/
theorem sumAbsOk_foldl : SumAbsOk (fun xs => xs.foldl (fun a x => float32 (a + x)) 0) := by
  have key := fun xs (h : ∀ x ∈ xs, IsFloat 24 (-149) x) => Approx.foldl (ρ := 1) float32_isRounding (le_refl 1) (fun x : ℚ => x) (fun x => (x : ℝ)) (fun x => |(x : ℝ)|) xs
    (fun x hx => ⟨h x hx, approx_self⟩) 0 0 0 0 (isFloat_zero ..) ⟨by simp, by simp⟩
  refine ⟨fun xs h => (key xs h).1, fun xs h => ?_⟩
  have h1 := (key xs h).2.1
  have e1 : (xs.map fun x : ℚ => (x : ℝ)).sum = ((xs.sum : ℚ) : ℝ) := by
    rw [Rat.cast_list_sum]
  have e2 : (xs.map fun x : ℚ => |(x : ℝ)|).sum = (((xs.map (|·|)).sum : ℚ) : ℝ) := by
    rw [Rat.cast_list_sum, List.map_map]
    congr 1
    exact List.map_congr_left fun x _ => by simp
  rw [e1, e2, zero_add, zero_add, zero_add, mul_one] at h1
  rw [← Rat.cast_sub, ← Rat.cast_abs] at h1
  generalize (xs.map (|·|)).sum = A at h1 ⊢
  generalize |List.foldl (fun a x => float32 (a + x)) 0 xs - xs.sum| = B at h1 ⊢
  have h2 : ((B : ℚ) : ℝ) ≤ (((1 + 1 / 2 ^ 24) ^ xs.length - 1) * A : ℚ) := by
    push_cast
    exact h1
  exact Rat.cast_le.1 h2

/-- Some function meets the assumption on `gammaln`. -/
theorem exists_gammalnOk : ∃ gl, GammalnOk gl (1 / 2 ^ 20) := by
  refine ⟨fun x => float32 ((⌊2 ^ 30 * logGamma x⌋ : ℚ) / 2 ^ 30), fun x _ _ => float32_isRounding.float _, fun x _ _ => ?_⟩
  change |((float32 ((⌊2 ^ 30 * logGamma x⌋ : ℚ) / 2 ^ 30) : ℚ) : ℝ) - logGamma x| ≤ 1 / 2 ^ 20 * (1 + |logGamma x|)
  set q : ℚ := (⌊2 ^ 30 * logGamma x⌋ : ℚ) / 2 ^ 30 with hq
  have h1 := float32_isRounding.error (by norm_num) q
  have h1' : ((|float32 q - q| : ℚ) : ℝ) ≤ ((|q| / 2 ^ 24 + 2 ^ (-149 - 1 : Int) : ℚ) : ℝ) := by exact_mod_cast h1
  push_cast at h1'
  have h2 : |(q : ℝ) - logGamma x| ≤ 1 / 2 ^ 30 := by
    rw [hq]
    push_cast
    have f1 := Int.floor_le (2 ^ 30 * logGamma x)
    have f2 := Int.lt_floor_add_one (2 ^ 30 * logGamma x)
    rw [abs_le]
    generalize (⌊2 ^ 30 * logGamma x⌋ : ℝ) = z at *
    constructor <;> norm_num at * <;> linarith
  have h3 : |(q : ℝ)| ≤ |logGamma x| + 1 / 2 ^ 30 := by
    have := abs_add_le ((q : ℝ) - logGamma x) (logGamma x)
    rw [sub_add_cancel] at this
    linarith
  have h4 := abs_add_le (((float32 q : ℚ) : ℝ) - q) ((q : ℝ) - logGamma x)
  rw [sub_add_sub_cancel] at h4
  have h5 := abs_nonneg (logGamma x)
  norm_num at h1' h2 h3 ⊢
  linarith

/-- `floatEdgeLogits_near` for a table of two rows, both in the sample. -/
example (num : Num ℝ) (hn : ∀ x, 0 < x → num.gammaln x = Real.log (Real.Gamma x)) : ∃ (gl : ℚ → ℚ) (sum : List ℚ → ℚ) (s : Trainer ℝ 2),
    s.added = Finset.range exTable.numRows ∧ ∃ fl ex, floatEdgeLogits float32 float64 gl sum exTable [0, 1, 2] s = .ok fl ∧
      computeEdgeLogits num exTable ([0, 1, 2].map fun x : ℚ => (x : ℝ)) s = .ok ex ∧ fl.length = 3 ∧
      ∀ k < 3, |((fl.getD k 0 : ℚ) : ℝ) - ex.getD k 0| ≤ logitSlack (1 / 2 ^ 20) 2 2 (([0, 1, 2] : List ℚ).getD k 0 : ℚ) := by
  obtain ⟨gl, hgl⟩ := exists_gammalnOk
  obtain ⟨s0, h0, g0, a0⟩ := good_init (K := ℝ) (M := 2) (t := exTable) (n := 3) (by decide) (by decide)
    (by decide) (by decide)
  have hm : AllMultinomial exTable := by unfold AllMultinomial; decide
  obtain ⟨s1, o1, g1, a1, -⟩ := addRow_any exTable_ordered hm g0 (row := 0) (by simp [a0]) (by decide) (fun _ => 0)
  obtain ⟨s2, o2, g2, a2, -⟩ := addRow_any exTable_ordered hm g1 (row := 1) (by simp [a1, a0]) (by decide) (fun _ => 1)
  have hr : Reached exTable s2 := ⟨3, s0, [.addRow 0, .addRow 1], h0, by simp,
    (outcomes_bind _ _ _ _).2 ⟨_, _, o1, (outcomes_bind _ _ _ _).2 ⟨_, _, o2, rfl⟩⟩⟩
  obtain ⟨fl, ex, h1, h2, h3, -, h5⟩ := floatEdgeLogits_near float32_isRounding float64_isRounding hgl (by norm_num) sumAbsOk_foldl (by norm_num) hn exTable_ordered hm hr
    [0, 1, 2] (by decide) (by
      have : ∀ n : Nat, n < 3 → IsFloat 24 (-149) (n : ℚ) := fun n h => by
        have := isFloat_of_le (p := 24) (by norm_num) (by norm_num : (-149 : Int) ≤ 0) (m := n) (by
          rw [Nat.abs_cast]
          omega)
        simpa using this
      intro x hx
      simp only [List.mem_cons, List.not_mem_nil, or_false] at hx
      rcases hx with rfl | rfl | rfl
      · exact_mod_cast this 0 (by norm_num)
      · exact_mod_cast this 1 (by norm_num)
      · exact_mod_cast this 2 (by norm_num))
  exact ⟨gl, _, s2, by rw [a2, a1, a0]; decide, fl, ex, h1, h2, h3, fun k hk => (h5 k hk).2.1⟩

/-- For every number of rows there is a state with all rows in the sample and in class 0. -/
theorem exists_uniform (N : Nat) : ∃ s : Trainer ℝ 2, Good ⟨[0, 0], [0, 1, 2], List.replicate N [1, 1]⟩ s ∧ s.added = Finset.range N ∧
    ∀ n < N, ∀ v < 2, s.assign n v = 0 := by
  set t : Table := ⟨[0, 0], [0, 1, 2], List.replicate N [1, 1]⟩ with ht
  have hm : AllMultinomial t := by
    intro ty h
    simp [ht] at h
    exact h
  have ho : Table.Ordered t := ⟨by simp [ht, Table.numCols], by simp [ht]⟩
  have hr : t.numRows = N := by simp [ht, Table.numRows]
  have key : ∀ n ≤ N, ∃ s : Trainer ℝ 2, Good t s ∧ s.added = Finset.range n ∧ ∀ i < n, ∀ v < 2, s.assign i v = 0 := by
    intro n
    induction n with
    | zero =>
      intro _
      obtain ⟨s0, -, g0, a0⟩ := good_init (K := ℝ) (M := 2) (t := t) (n := 1) (by simp [ht, Table.numCols]) (by simp [ht, Table.numCols])
        (by decide) (by simp [ht, Table.numCols])
      exact ⟨s0, g0, by rw [a0]; rfl, by omega⟩
    | succ n ih =>
      intro hn
      obtain ⟨s, hg, ha, hz⟩ := ih (by omega)
      obtain ⟨s', -, g', a', -, k', z'⟩ := addRow_any ho hm hg (row := n) (by simp [ha]) (by omega) (fun _ => 0)
      refine ⟨s', g', by rw [a', ha, Finset.range_add_one], fun i hi v hv => ?_⟩
      by_cases h : i = n
      · rw [h]; exact z' v (by simpa [ht, Table.numCols] using hv)
      · rw [k' i h]; exact hz i (by omega) v hv
  exact key N (le_refl N)

/-- `floatEdgeLogits_coarse` for two million rows. -/
example : ∃ (gl : ℚ → ℚ) (sum : List ℚ → ℚ) (s : Trainer ℝ 2) (fl : List ℚ),
    floatEdgeLogits float32 float64 gl sum ⟨[0, 0], [0, 1, 2], List.replicate (2 ^ 21) [1, 1]⟩ [0] s = .ok fl ∧ ∃ z : Int, fl.getD 0 0 = 2 * z := by
  obtain ⟨gl, hgl⟩ := exists_gammalnOk
  obtain ⟨s, hg, ha, hz⟩ := exists_uniform (2 ^ 21)
  obtain ⟨fl, h1, h2⟩ := floatEdgeLogits_coarse float32_isRounding float64_isRounding hgl (by norm_num) (le_refl _) sumAbsOk_foldl (by norm_num) hg
    (by rw [ha]; unfold Table.numRows; rw [List.length_replicate]) (by unfold Table.numRows; rw [List.length_replicate]) (k := 0) (by simp [Table.numCols]) (a := 0) (b := 0)
    (fun n hn => by
      unfold Table.numRows at hn
      rw [List.length_replicate] at hn
      exact ⟨hz n hn _ (by simp only [Table.numCols]; decide), hz n hn _ (by simp only [Table.numCols]; decide)⟩)
  exact ⟨gl, _, s, fl, h1, h2⟩

end TreeCat
