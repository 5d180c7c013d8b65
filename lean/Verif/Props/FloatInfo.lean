import Verif.Lemmas.FloatInfo
import Verif.Lemmas.FloatServeNear
import Verif.Props.Correlation
import Verif.Props.Perplexity

/-! # C83: `latent_correlation` in floating point -/

namespace TreeCat

open Util Spec

section
set_option linter.unusedSectionVars false
variable {M : Nat} [NeZero M]

/-- What is assumed of the float64 arithmetic of `latent_correlation`: `u` and `η` as in `Spec.EntropyOk`, `ηe` bounds the relative error of `np.exp` and `ηs` the error of `np.sqrt`. -/
structure Spec.CorrOk (u η ηe ηs : ℝ) (C : CorrOps M) : Prop where
  ent : Spec.EntropyOk 53 (-1074) u η C.toEntropyOps
  dot : ∀ x y : Fin M → ℚ, (∀ b, IsFloat 53 (-1074) (x b) ∧ 0 ≤ x b ∧ x b ≤ 2 ^ 40) → (∀ b, IsFloat 53 (-1074) (y b) ∧ 0 ≤ y b ∧ y b ≤ 4) → (∀ b, x b * y b = 0 ∨ 2 ^ (-500 : Int) ≤ x b * y b) →
    ∃ d : ℚ, C.dot (fun b => some (x b)) (fun b => some (y b)) = some d ∧ IsFloat 53 (-1074) d ∧ |(d : ℝ) - ((∑ b, x b * y b : ℚ) : ℝ)| ≤ (M + 1) * u * ((∑ b, x b * y b : ℚ) : ℝ)
  exp : ∀ q : ℚ, IsFloat 53 (-1074) q → |q| ≤ 64 → ∃ e : ℚ, C.exp (some q) = some e ∧ IsFloat 53 (-1074) e ∧ 0 ≤ e ∧ (q ≤ 0 → e ≤ 1) ∧ |(e : ℝ) - Real.exp q| ≤ ηe * Real.exp q
  sqrt : ∀ y : ℚ, IsFloat 53 (-1074) y → 0 ≤ y → y ≤ 1 → ∃ z : ℚ, C.sqrt (some y) = some z ∧ 0 ≤ z ∧ z ≤ 1 ∧ |(z : ℝ) - √(y : ℝ)| ≤ ηs
  sqrt_neg : ∀ y : ℚ, y < 0 → C.sqrt (some y) = none

theorem list_finRange_sum (f : Fin M → ℝ) : ((List.finRange M).map f).sum = ∑ a, f a := by rw [← List.ofFn_eq_map, List.sum_ofFn]

theorem finRange_ne_nil : List.finRange M ≠ [] := by
  intro h
  have := congrArg List.length h
  simp at this
  exact NeZero.ne M this

/-- The entropy of a marginal. -/
theorem marginalEntropy_near {u η : ℝ} {E : EntropyOps} (O : Spec.EntropyOk 53 (-1074) u η E) (hM : M ≤ 128) (hu0 : 0 ≤ u) (hu : M * u ≤ 1 / 64) (hη0 : 0 ≤ η) (hη : η ≤ 1)
    {F : Fin M → Fin M → ℚ} (hF : ∀ a b, IsFloat 53 (-1074) (F a b) ∧ (F a b = 0 ∨ 2 ^ (-98 : Int) ≤ F a b)) {κ : ℝ} (hκ0 : 0 ≤ κ) (hκ : κ ≤ 1 / 32) {G : Fin M → Fin M → ℝ}
    (hG : ∀ a b, Rel κ (F a b) (G a b)) (hsum : ∑ b, ∑ a, G a b = 1) :
    ∃ d : ℚ, floatEntropy E ((List.finRange M).map fun b => E.sum ((List.finRange M).map fun a => some (F a b))) = some d ∧ IsFloat 53 (-1074) d ∧
      |(d : ℝ) - shannon Finset.univ (fun b => ∑ a, G a b)| ≤ Spec.entropyError 53 M u η (κ + 2 * (M * u)) := by
  have hMR : (1 : ℝ) ≤ M := by exact_mod_cast NeZero.one_le
  have hF0 : ∀ a b, 0 ≤ F a b := fun a b => by
    have := (hG a b).1
    exact_mod_cast this
  have hG1 : ∀ a b, G a b ≤ 1 := fun a b => by
    rw [← hsum]
    exact le_trans (Finset.single_le_sum (f := fun a => G a b) (fun a _ => (hG a b).2.1) (Finset.mem_univ a))
      (Finset.single_le_sum (f := fun b => ∑ a, G a b) (fun b _ => Finset.sum_nonneg fun a _ => (hG a b).2.1) (Finset.mem_univ b))
  have hF4 : ∀ a b, F a b ≤ 4 := fun a b => by
    have := (hG a b).le_two (by linarith)
    have h2 : (F a b : ℝ) ≤ (4 : ℚ) := by push_cast; linarith [hG1 a b]
    exact_mod_cast h2
  have hl : (List.finRange M).length ≤ 2 ^ 14 := by simp; omega
  have hd : ∀ b, ∃ d : ℚ, E.sum ((List.finRange M).map fun a => some (F a b)) = some d ∧ IsFloat 53 (-1074) d ∧ Rel (κ + 2 * (M * u)) (d : ℝ) (∑ a, G a b) := by
    intro b
    obtain ⟨d, h1, h2, h3⟩ := sum_rel O hl hu0 (by simpa using hu) (f := fun a => F a b) (fun a _ => ⟨(hF a b).1, hF0 a b, hF4 a b⟩) (g := fun a => G a b) fun a _ => hG a b
    rw [list_finRange_sum, List.length_finRange] at h3
    exact ⟨d, h1, h2, h3⟩
  choose d h1 h2 h3 using hd
  have hd0 : ∀ b, d b = 0 ∨ 2 ^ (-100 : Int) ≤ d b := by
    intro b
    by_cases hz : ∀ a, F a b = 0
    · refine .inl ?_
      have : ∑ a, G a b = 0 := Finset.sum_eq_zero fun a _ => (hG a b).eq_zero.1 (by rw [hz a]; norm_num)
      have := (h3 b).eq_zero.2 this
      exact_mod_cast this
    · push Not at hz
      obtain ⟨a, ha⟩ := hz
      refine .inr ?_
      have k1 : (2 : ℚ) ^ (-98 : Int) ≤ F a b := (hF a b).2.resolve_left ha
      have k1' : (2 : ℝ) ^ (-98 : Int) ≤ F a b := by
        have := (Rat.cast_le (K := ℝ)).2 k1
        push_cast at this
        exact this
      have k2 := (hG a b).le_two (by linarith)
      have k3 : G a b ≤ ∑ a, G a b := Finset.single_le_sum (f := fun a => G a b) (fun a _ => (hG a b).2.1) (Finset.mem_univ a)
      have k4 := (h3 b).symm.le_two (by linarith)
      have k5 : (2 : ℝ) ^ (-98 : Int) = 4 * 2 ^ (-100 : Int) := by norm_num
      have k6 : ((2 ^ (-100 : Int) : ℚ) : ℝ) ≤ d b := by
        push_cast
        linarith
      exact_mod_cast k6
  obtain ⟨e, e1, e2, e3⟩ := floatEntropy_near O (by norm_num) (by norm_num) (l := List.finRange M) finRange_ne_nil hl hu0 (by simpa using hu) hη0 hη (f := d)
    (fun b _ => ⟨h2 b, hd0 b⟩) (κ := κ + 2 * (M * u)) (by positivity) (by linarith) (g := fun b => ∑ a, G a b) (fun b _ => h3 b) (by rw [list_finRange_sum]; exact hsum)
  rw [List.length_finRange, list_finRange_sum] at e3
  refine ⟨e, ?_, e2, e3⟩
  rw [← e1]
  simp only [h1]

/-- The bound on the error of the mutual information. -/
noncomputable def Spec.infoError (M : Nat) (u η κ : ℝ) : ℝ :=
  2 * Spec.entropyError 53 M u η (κ + 2 * (M * u)) + Spec.entropyError 53 (M * M) u η κ + 2 ^ (-46 : Int)

theorem log_le_clusters (hM : M ≤ 128) : Real.log M ≤ 5 := by
  have h2 : Real.log (M : ℝ) ≤ Real.log ((2 : ℝ) ^ 7) := Real.log_le_log (by exact_mod_cast NeZero.pos M) (by norm_num; exact hM)
  rw [Real.log_pow] at h2
  have := Real.log_two_lt_d9
  push_cast at h2
  linarith

theorem floatMutualInfo_near {u η : ℝ} {E : EntropyOps} (O : Spec.EntropyOk 53 (-1074) u η E) (hM : M ≤ 128) (hu0 : 0 ≤ u) (hu : M * M * u ≤ 1 / 64) (hη0 : 0 ≤ η) (hη : η ≤ 1)
    {F : Fin M → Fin M → ℚ} (hF : ∀ a b, IsFloat 53 (-1074) (F a b) ∧ (F a b = 0 ∨ 2 ^ (-98 : Int) ≤ F a b)) {κ : ℝ} (hκ0 : 0 ≤ κ) (hκ : κ ≤ 1 / 32) {G : Fin M → Fin M → ℝ}
    (hG : ∀ a b, Rel κ (F a b) (G a b)) (hsum : ∑ a, ∑ b, G a b = 1) (hsmall : Spec.infoError M u η κ ≤ 1 / 4) :
    ∃ d : ℚ, floatMutualInfo E (fun a b => some (F a b)) = some d ∧ IsFloat 53 (-1074) d ∧ |(d : ℝ) - mutualInfo G| ≤ Spec.infoError M u η κ ∧ |(d : ℝ)| ≤ 30 := by
  have hMR : (1 : ℝ) ≤ M := by exact_mod_cast NeZero.one_le
  have hu1 : M * u ≤ 1 / 64 := by
    refine le_trans ?_ hu
    have : (0 : ℝ) ≤ M * u := by positivity
    nlinarith
  have hsum' : ∑ b, ∑ a, G a b = 1 := by rw [Finset.sum_comm]; exact hsum
  obtain ⟨d1, a1, a2, a3⟩ := marginalEntropy_near O hM hu0 hu1 hη0 hη hF hκ0 hκ hG hsum'
  obtain ⟨d2, b1, b2, b3⟩ := marginalEntropy_near O hM hu0 hu1 hη0 hη (F := fun a b => F b a) (fun a b => hF b a) hκ0 hκ (G := fun a b => G b a) (fun a b => hG b a) hsum
  have e3 : ∀ f : Fin M × Fin M → ℝ, (((List.finRange M).flatMap fun a => (List.finRange M).map fun b => (a, b)).map f).sum = ∑ x, f x := by
    intro f
    rw [List.map_flatMap, List.flatMap_def, List.sum_flatten, List.map_map, Fintype.sum_prod_type, ← list_finRange_sum]
    congr 1
    refine List.map_congr_left fun a _ => ?_
    simp only [Function.comp_apply, List.map_map]
    rw [← list_finRange_sum]
    rfl
  have hlen : ((List.finRange M).flatMap fun a' => (List.finRange M).map fun b' => (a', b')).length = M * M := by
    simp only [List.length_flatMap, List.length_map, List.length_finRange, List.map_const', List.sum_replicate, smul_eq_mul]
  obtain ⟨d3, c1, c2, c3⟩ := floatEntropy_near O (by norm_num) (by norm_num) (l := (List.finRange M).flatMap fun a => (List.finRange M).map fun b => (a, b))
    (by intro h; have := congrArg List.length h; rw [hlen] at this; have h0 := NeZero.pos M; have := Nat.mul_pos h0 h0; simp_all)
    (by rw [hlen]; exact le_trans (Nat.mul_le_mul hM hM) (by norm_num)) hu0 (by rw [hlen]; push_cast; exact hu) hη0 hη (f := fun x => F x.1 x.2)
    (fun x _ => ⟨(hF x.1 x.2).1, (hF x.1 x.2).2.imp id fun h => le_trans (zpow_mono (by norm_num)) h⟩) hκ0 (by linarith) (g := fun x => G x.1 x.2) (fun x _ => hG x.1 x.2)
    (by rw [e3, Fintype.sum_prod_type]; exact hsum)
  rw [hlen, e3] at c3
  rw [List.map_flatMap] at c1
  simp only [List.map_map] at c1
  change floatEntropy E ((List.finRange M).flatMap fun a => (List.finRange M).map fun b => some (F a b)) = some d3 at c1
  have hG0 : ∀ a b, 0 ≤ G a b := fun a b => (hG a b).2.1
  have hp1 : 0 ≤ Spec.entropyError 53 M u η (κ + 2 * (M * u)) := le_trans (abs_nonneg _) a3
  have hp3 : 0 ≤ Spec.entropyError 53 (M * M) u η κ := le_trans (abs_nonneg _) c3
  have n1 := shannon_nonneg Finset.univ (fun b => ∑ a, G a b) (fun b _ => Finset.sum_nonneg fun a _ => hG0 a b) hsum'
  have n2 := shannon_nonneg Finset.univ (fun a => ∑ b, G a b) (fun a _ => Finset.sum_nonneg fun b _ => hG0 a b) hsum
  have m1 := shannon_le Finset.univ (fun b => ∑ a, G a b) (fun b _ => Finset.sum_nonneg fun a _ => hG0 a b) hsum'
  have m2 := shannon_le Finset.univ (fun a => ∑ b, G a b) (fun a _ => Finset.sum_nonneg fun b _ => hG0 a b) hsum
  have n3 := shannon_nonneg Finset.univ (fun x : Fin M × Fin M => G x.1 x.2) (fun x _ => hG0 _ _) (by rw [Fintype.sum_prod_type]; exact hsum)
  have hI0 := mutualInfo_nonneg G hG0 hsum
  have hI := mutualInfo_eq G hG0
  rw [Finset.card_univ, Fintype.card_fin] at m1 m2
  have hlog := log_le_clusters hM
  change |(d3 : ℝ) - shannon Finset.univ fun x : Fin M × Fin M => G x.1 x.2| ≤ _ at c3
  change |(d2 : ℝ) - shannon Finset.univ fun a => ∑ b, G a b| ≤ _ at b3
  have hIe : Spec.infoError M u η κ = 2 * Spec.entropyError 53 M u η (κ + 2 * (M * u)) + Spec.entropyError 53 (M * M) u η κ + 2 ^ (-46 : Int) := rfl
  rw [hIe] at hsmall ⊢
  have hz : (0 : ℝ) < 2 ^ (-46 : Int) := by positivity
  generalize Spec.entropyError 53 M u η (κ + 2 * (M * u)) = ε1 at *
  generalize Spec.entropyError 53 (M * M) u η κ = ε3 at *
  generalize shannon Finset.univ (fun b => ∑ a, G a b) = H1 at *
  generalize shannon Finset.univ (fun a => ∑ b, G a b) = H2 at *
  generalize shannon Finset.univ (fun x : Fin M × Fin M => G x.1 x.2) = H3 at *
  generalize mutualInfo G = I at *
  rw [abs_le] at a3 b3 c3
  have r1 := O.rnd.error_abs (by norm_num) (x := d1 + d2) (j := -48) (by norm_num) (by
    have : |((d1 + d2 : ℚ) : ℝ)| ≤ ((2 ^ (5 : Int) : ℚ) : ℝ) := by
      push_cast
      rw [abs_le]
      norm_num
      constructor <;> linarith
    exact_mod_cast this)
  have r1' : |((E.rnd (d1 + d2) : ℚ) : ℝ) - (d1 + d2)| ≤ 2 ^ (-48 : Int) := by
    have := (Rat.cast_le (K := ℝ)).2 r1
    push_cast at this
    exact this
  have k48 : (2 : ℝ) ^ (-48 : Int) ≤ 1 / 4 * 2 ^ (-46 : Int) := by norm_num
  have k46 : (2 : ℝ) ^ (-46 : Int) ≤ 1 := by norm_num
  rw [abs_le] at r1'
  have hb2 : -32 ≤ ((E.rnd (d1 + d2) : ℚ) : ℝ) - d3 ∧ ((E.rnd (d1 + d2) : ℚ) : ℝ) - d3 ≤ 32 := by
    generalize (2 : ℝ) ^ (-48 : Int) = w48 at *
    generalize (2 : ℝ) ^ (-46 : Int) = w46 at *
    constructor <;> linarith
  have r2 := O.rnd.error_abs (by norm_num) (x := E.rnd (d1 + d2) - d3) (j := -48) (by norm_num) (by
    have : |((E.rnd (d1 + d2) - d3 : ℚ) : ℝ)| ≤ ((2 ^ (5 : Int) : ℚ) : ℝ) := by
      push_cast
      rw [abs_le]
      norm_num
      constructor <;> linarith
    exact_mod_cast this)
  have r2' : |((E.rnd (E.rnd (d1 + d2) - d3) : ℚ) : ℝ) - (E.rnd (d1 + d2) - d3)| ≤ 2 ^ (-48 : Int) := by
    have := (Rat.cast_le (K := ℝ)).2 r2
    push_cast at this
    exact this
  rw [abs_le] at r2'
  generalize (2 : ℝ) ^ (-48 : Int) = w48 at *
  generalize (2 : ℝ) ^ (-46 : Int) = w46 at *
  refine ⟨E.rnd (E.rnd (d1 + d2) - d3), ?_, O.rnd.float _, ?_, ?_⟩
  · unfold floatMutualInfo
    rw [a1, b1, c1]
    rfl
  · rw [abs_le]
    constructor <;> linarith
  · rw [abs_le]
    constructor <;> linarith

theorem sqrt_sub_le {a b : ℝ} : |√a - √b| ≤ √|a - b| := by
  wlog h : b ≤ a generalizing a b
  · rw [abs_sub_comm, abs_sub_comm a b]
    exact this (le_of_not_ge h)
  rw [abs_of_nonneg (sub_nonneg.2 (Real.sqrt_le_sqrt h)), abs_of_nonneg (sub_nonneg.2 h), sub_le_iff_le_add]
  rcases le_total b 0 with hb | hb
  · rw [Real.sqrt_eq_zero_of_nonpos hb, add_zero]
    exact Real.sqrt_le_sqrt (by linarith)
  · rw [Real.sqrt_le_left (by positivity)]
    have h1 := Real.sq_sqrt hb
    have h2 := Real.sq_sqrt (sub_nonneg.2 h)
    have := Real.sqrt_nonneg b
    have := Real.sqrt_nonneg (a - b)
    nlinarith

/-- The bound on the error of a correlation. -/
noncomputable def Spec.corrError (M : Nat) (u η ηe ηs κ : ℝ) : ℝ := √(4 * Spec.infoError M u η κ + 2 * ηe + 2 ^ (-50 : Int)) + ηs

/-- **`correlation` of a matrix with relative errors**: the result is a number if the mutual information exceeds the error bound, and if it is a number, it is near the correlation. -/
theorem floatCorrelation_near {u η ηe ηs : ℝ} {C : CorrOps M} (O : Spec.CorrOk u η ηe ηs C) (hM : M ≤ 128) (hu0 : 0 ≤ u) (hu : M * M * u ≤ 1 / 64) (hη0 : 0 ≤ η) (hη : η ≤ 1) (hηe : ηe ≤ 1 / 4)
    {F : Fin M → Fin M → ℚ} (hF : ∀ a b, IsFloat 53 (-1074) (F a b) ∧ (F a b = 0 ∨ 2 ^ (-98 : Int) ≤ F a b)) {κ : ℝ} (hκ0 : 0 ≤ κ) (hκ : κ ≤ 1 / 32) {G : Fin M → Fin M → ℝ}
    (hG : ∀ a b, Rel κ (F a b) (G a b)) (hsum : ∑ a, ∑ b, G a b = 1) (hsmall : Spec.infoError M u η κ ≤ 1 / 4) :
    (Spec.infoError M u η κ ≤ mutualInfo G → ∃ q, floatCorrelation C (fun a b => some (F a b)) = some q) ∧
    ∀ q, floatCorrelation C (fun a b => some (F a b)) = some q → 0 ≤ q ∧ q ≤ 1 ∧ |(q : ℝ) - rho G| ≤ Spec.corrError M u η ηe ηs κ := by
  obtain ⟨m, h1, h2, h3, h4⟩ := floatMutualInfo_near O.ent hM hu0 hu hη0 hη hF hκ0 hκ hG hsum hsmall
  have R := O.ent.rnd
  have hI0 := mutualInfo_nonneg G (fun a b => (hG a b).2.1) hsum
  set Δ := Spec.infoError M u η κ with hΔ
  set I := mutualInfo G with hI
  have hf2 : IsFloat 53 (-1074) (-2 * m) := by
    obtain ⟨k, e, hk, he, rfl⟩ := h2
    refine ⟨-k, e + 1, by rwa [abs_neg], by omega, ?_⟩
    rw [zpow_add₀ (by norm_num)]
    push_cast
    ring
  have hrm : C.rnd (-2 * m) = -2 * m := R.id hf2
  have hm30 : |(m : ℚ)| ≤ 30 := by
    have : |(m : ℝ)| ≤ ((30 : ℚ) : ℝ) := by push_cast; exact h4
    exact_mod_cast this
  obtain ⟨e, e1, e2, e3, e4, e5⟩ := O.exp (-2 * m) hf2 (by
    rw [abs_mul]
    norm_num
    linarith)
  have hval : floatCorrelation C (fun a b => some (F a b)) = C.sqrt (some (C.rnd (1 - e))) := by
    unfold floatCorrelation
    rw [h1]
    change C.sqrt (Flt.sub C.rnd (some 1) (C.exp (some (C.rnd (-2 * m))))) = _
    rw [hrm, e1]
    rfl
  have hle1 : C.rnd (1 - e) ≤ 1 := R.le_of ⟨1, 0, by norm_num, by norm_num, by norm_num⟩ (by linarith)
  constructor
  · intro hbig
    have hm0 : 0 ≤ m := by
      rw [abs_le] at h3
      have : (0 : ℝ) ≤ m := by linarith
      exact_mod_cast this
    have he1 := e4 (by linarith)
    obtain ⟨z, z1, -⟩ := O.sqrt (C.rnd (1 - e)) (R.float _) (R.nonneg (by linarith)) hle1
    exact ⟨z, by rw [hval, z1]⟩
  · intro q hq
    rw [hval] at hq
    have hx0 : 0 ≤ C.rnd (1 - e) := by
      by_contra hcon
      rw [O.sqrt_neg _ (not_le.1 hcon)] at hq
      cases hq
    obtain ⟨z, z1, z2, z3, z4⟩ := O.sqrt (C.rnd (1 - e)) (R.float _) hx0 hle1
    rw [z1] at hq
    obtain rfl := Option.some.inj hq
    refine ⟨z2, z3, ?_⟩
    push_cast at e5
    have hexp2 : Real.exp (-2 * (m : ℝ)) ≤ 2 := by
      rw [abs_le] at h3
      have : Real.exp (-2 * (m : ℝ)) ≤ Real.exp (1 / 2) := Real.exp_le_exp.2 (by linarith)
      refine le_trans this ?_
      have := Real.exp_bound_div_one_sub_of_interval (x := 1 / 2) (by norm_num) (by norm_num)
      norm_num at this ⊢
      exact this
    have hexpI : Real.exp (-2 * I) ≤ 1 := Real.exp_le_one_iff.2 (by linarith)
    have hexpd : |Real.exp (-2 * (m : ℝ)) - Real.exp (-2 * I)| ≤ 4 * Δ := by
      have key : ∀ x y : ℝ, Real.exp y - Real.exp x ≤ (y - x) * Real.exp y := by
        intro x y
        have := Real.add_one_le_exp (x - y)
        have h2 : Real.exp x = Real.exp y * Real.exp (x - y) := by rw [← Real.exp_add]; congr 1; ring
        rw [h2]
        nlinarith [Real.exp_pos y]
      have k1 := key (-2 * (m : ℝ)) (-2 * I)
      have k2 := key (-2 * I) (-2 * (m : ℝ))
      have p1 := Real.exp_pos (-2 * (m : ℝ))
      have p2 := Real.exp_pos (-2 * I)
      rw [abs_le] at h3
      have hΔ0 : 0 ≤ Δ := by linarith
      rw [abs_le]
      constructor
      · nlinarith
      · nlinarith
    have r1 := R.error_abs (by norm_num) (x := 1 - e) (j := -51) (by norm_num) (by
      have hb : (e : ℝ) ≤ ((3 : ℚ) : ℝ) := by
        push_cast
        rw [abs_le] at e5
        have p1 := Real.exp_pos (-2 * (m : ℝ))
        nlinarith
      have hb' : e ≤ 3 := by exact_mod_cast hb
      rw [abs_le]
      norm_num
      constructor <;> linarith)
    have r1' : |((C.rnd (1 - e) : ℚ) : ℝ) - (1 - e)| ≤ 2 ^ (-51 : Int) := by
      have := (Rat.cast_le (K := ℝ)).2 r1
      push_cast at this
      exact this
    have k51 : (2 : ℝ) ^ (-51 : Int) ≤ 2 ^ (-50 : Int) := by norm_num
    have hηe0 : 0 ≤ ηe := by
      have := le_trans (abs_nonneg _) e5
      have p1 := Real.exp_pos (-2 * (m : ℝ))
      exact nonneg_of_mul_nonneg_left this p1
    have hdiff : |((C.rnd (1 - e) : ℚ) : ℝ) - (1 - Real.exp (-2 * I))| ≤ 4 * Δ + 2 * ηe + 2 ^ (-50 : Int) := by
      have p1 := Real.exp_pos (-2 * (m : ℝ))
      have p3 : ηe * Real.exp (-2 * (m : ℝ)) ≤ ηe * 2 := mul_le_mul_of_nonneg_left hexp2 hηe0
      rw [abs_le] at r1' e5 hexpd ⊢
      constructor <;> linarith
    have hs := sqrt_sub_le (a := ((C.rnd (1 - e) : ℚ) : ℝ)) (b := 1 - Real.exp (-2 * I))
    have hs2 := le_trans hs (Real.sqrt_le_sqrt hdiff)
    unfold Spec.corrError
    rw [← hΔ]
    change |(z : ℝ) - √(1 - Real.exp (-2 * I))| ≤ _
    rw [abs_le] at hs2 z4 ⊢
    constructor <;> linarith

/-! ### The messages -/

section
variable {A : ServeOps M} {model : Model ℝ M} {srv : Server ℝ M} {ε : ℝ}
variable {r : Nat} {par : Nat → Nat} {ch : Nat → List Nat} {L : List Nat} {eid : Nat → Nat}

/-- A message: float64 numbers that are zero or not too small, and near the joint distribution. -/
def CorrMsg (κ : ℝ) (f : Fin M → Fin M → Flt) (g : Fin M → Fin M → ℝ) : Prop :=
  ∃ F : Fin M → Fin M → ℚ, (f = fun a b => some (F a b)) ∧ (∀ a b, IsFloat 53 (-1074) (F a b) ∧ (F a b = 0 ∨ 2 ^ (-98 : Int) ≤ F a b)) ∧ ∀ a b, Rel κ (F a b) (g a b)

theorem CorrMsg.mono {κ κ' : ℝ} (hk : κ ≤ κ') {f : Fin M → Fin M → Flt} {g : Fin M → Fin M → ℝ} (h : CorrMsg κ f g) : CorrMsg κ' f g := by
  obtain ⟨F, h1, h2, h3⟩ := h
  exact ⟨F, h1, h2, fun a b => (h3 a b).mono hk⟩

/-- The bound on the relative errors of the messages. -/
noncomputable def Spec.corrKappa (V M : Nat) (u : ℝ) : ℝ := (M + 5) * 2 ^ (-23 : Int) + V * ((M * M + M + 13) * 2 ^ (-23 : Int) + 2 * ((M + 1) * u))

theorem near_bounds {k : Nat} {x : Flt} {y : ℝ} (h : Near k x y) (hk : k * (2 : ℝ) ^ (-23 : Int) ≤ 1 / 4) {lo : Int} (hx : FGe lo x) : (2 : ℝ) ^ (lo - 1) ≤ y := by
  obtain ⟨q, rfl, hq⟩ := hx
  have h1 := h.rel.le_two hk
  have hq' : (2 : ℝ) ^ lo ≤ q := by
    have := (Rat.cast_le (K := ℝ)).2 hq
    push_cast at this
    exact this
  have e : (2 : ℝ) ^ lo = 2 * 2 ^ (lo - 1) := by
    rw [← zpow_one_add₀ (by norm_num)]
    congr 1
    ring
  simp only [Option.getD_some] at h1
  linarith

theorem pairProb_cols (h : Model.Valid model) (hc : Model.Consistent model) {w : Nat} (hw : w < model.tree.numVertices) (v : Nat) (b : Fin M) :
    ∑ a, pairProb model v w a b = vertMean model w b := by
  rw [pairProb_marginal]
  have e : (fun z : Nat → Fin M => if z w = b then latentProb model z else 0) = fun z => latentProb model z * (if z w = b then (1 : ℝ) else 0) := by
    funext z
    rw [mul_ite, mul_one, mul_zero]
  rw [e, latent_mean h hc hw fun a => if a = b then (1 : ℝ) else 0]
  simp

theorem vertMean_le_one (h : Model.Valid model) {v : Nat} (hv : v < model.tree.numVertices) (a : Fin M) : vertMean model v a ≤ 1 := by
  rw [← vertMean_sum h hv]
  exact Finset.single_le_sum (f := fun a => vertMean model v a) (fun a _ => (vertMean_pos h hv a).le) (Finset.mem_univ a)

/-- One step outward. -/
theorem floatCorr_out (N : Spec.ServeOpsNear A ε) {u η ηe ηs : ℝ} {C : CorrOps M} (O : Spec.CorrOk u η ηe ηs C) (h : Model.Valid model) (hc : Model.Consistent model) (S : Spec.SmallCounts model)
    (s : Serves model srv) (hu0 : 0 ≤ u) (hu : (M + 1) * u ≤ 1 / 32) (P : Plan model r par ch eid L) (hr : r < model.tree.numVertices) {x : Nat} (hx : x < model.tree.numVertices) (hxr : x ≠ r)
    {κ : ℝ} {f : Fin M → Fin M → Flt} (hf : CorrMsg κ f (pairProb model (par x) r)) (hκ : κ + ((M * M + M + 13) * 2 ^ (-23 : Int) + 2 * ((M + 1) * u)) ≤ 1 / 32) (hκ0 : 0 ≤ κ) :
    CorrMsg (κ + ((M * M + M + 13) * 2 ^ (-23 : Int) + 2 * ((M + 1) * u)))
      (fun a c => C.dot (fun b => Flt.div A.rnd (transAt (floatEdgeProbs A model.edgeSS) (eid x) x (par x) a b) (floatVertProbs A model.vertSS (par x) b)) fun b => f b c)
      (pairProb model x r) := by
  obtain ⟨F, rfl, hF, hR⟩ := hf
  have R := N.ok.ops.rnd
  obtain ⟨hpV, hpx⟩ := P.parent x hx hxr
  have hgrid : upEntry par eid x ∈ model.tree.treeGrid :=
    P.perm.mem_iff.1 (List.mem_map.2 ⟨x, List.mem_filter.2 ⟨P.topo.mem.2 hx, by simpa using hxr⟩, rfl⟩)
  have hid : (upEntry par eid x).1 = eid x := by unfold upEntry; split <;> rfl
  have hM := S.clusters
  have hMR : (1 : ℝ) ≤ M := by exact_mod_cast NeZero.one_le
  have hw0 : (0 : ℝ) < 2 ^ (-23 : Int) := by positivity
  have hMM : (0 : ℝ) ≤ M * M := by positivity
  have hsmall : ((M * M + 7 + (M + 5) + 1 : Nat) : ℝ) * 2 ^ (-23 : Int) ≤ 1 / 4 := by
    have e1 : ((M * M + 7 + (M + 5) + 1 : Nat) : ℝ) = M * M + M + 13 := by push_cast; ring
    rw [e1]
    have : 0 ≤ (M + 1) * u := by positivity
    linarith
  -- the quotients
  have ht : ∀ a b, Near (M * M + 7 + (M + 5) + 1) (Flt.div A.rnd (transAt (floatEdgeProbs A model.edgeSS) (eid x) x (par x) a b) (floatVertProbs A model.vertSS (par x) b))
      (transAt srv.edgeProbs (eid x) x (par x) a b / srv.vertProbs (par x) b) ∧
      FBd (-47) 40 (Flt.div A.rnd (transAt (floatEdgeProbs A model.edgeSS) (eid x) x (par x) a b) (floatVertProbs A model.vertSS (par x) b)) := by
    intro a b
    have hv2 := (floatVertProbs_bounds N.ok S hpV).2 b
    have n2 := floatVertProbs_near N S hpV b
    have main : ∀ a' b', Near (M * M + 7 + (M + 5) + 1) (Flt.div A.rnd (floatEdgeProbs A model.edgeSS (eid x) a' b') (floatVertProbs A model.vertSS (par x) b))
        (edgeMean model (eid x) a' b' / vertMean model (par x) b) ∧ FBd (-47) 40 (Flt.div A.rnd (floatEdgeProbs A model.edgeSS (eid x) a' b') (floatVertProbs A model.vertSS (par x) b)) := by
      intro a' b'
      have h1 := floatEdgeProbs_bounds N.ok S hgrid a' b'
      have n1 := floatEdgeProbs_near N S hgrid a' b'
      rw [hid] at h1 n1
      have h2 := h1.div R hv2 (by norm_num) (by norm_num)
      refine ⟨Near.div R n1 n2 (h2.ge.weaken (by norm_num)), ?_⟩
      obtain ⟨q, q1, q2, q3, q4⟩ := h2
      exact ⟨q, q1, q2, le_trans (zpow_mono (by norm_num)) q3, le_trans q4 (zpow_mono (by norm_num))⟩
    unfold transAt
    simp only [s.edge, s.vert]
    split
    · exact main b a
    · exact main a b
  have hpp := pairProb_nonneg (model := model) h (par x) r
  have hpsum := fun c => pairProb_cols h hc hr (par x) c
  have hpp1 : ∀ b c, pairProb model (par x) r b c ≤ 1 := fun b c =>
    le_trans (by rw [← hpsum c]; exact Finset.single_le_sum (f := fun b => pairProb model (par x) r b c) (fun b _ => hpp b c) (Finset.mem_univ b)) (vertMean_le_one h hr c)
  choose T t1 t2 t3 t4 using fun a b => (ht a b).2
  have tR : ∀ a b, Rel ((M * M + M + 13) * 2 ^ (-23 : Int)) (T a b) (transAt srv.edgeProbs (eid x) x (par x) a b / srv.vertProbs (par x) b) := by
    intro a b
    have := (ht a b).1.rel
    rw [t1] at this
    refine this.mono (le_of_eq ?_)
    push_cast
    ring
  have hκ1 : κ ≤ 1 / 4 := by
    have : (0 : ℝ) ≤ (M * M + M + 13) * 2 ^ (-23 : Int) := by positivity
    have : 0 ≤ (M + 1) * u := by positivity
    linarith
  have hF0 : ∀ b c, 0 ≤ F b c := fun b c => by
    have := (hR b c).1
    exact_mod_cast this
  have hF4 : ∀ b c, F b c ≤ 4 := fun b c => by
    have := (hR b c).le_two hκ1
    have h2 : (F b c : ℝ) ≤ (4 : ℚ) := by push_cast; linarith [hpp1 b c]
    exact_mod_cast h2
  have hT0 : ∀ a b, 0 < T a b := fun a b => lt_of_lt_of_le (two_zpow_pos _) (t3 a b)
  have hdot : ∀ a c, ∃ d : ℚ, C.dot (fun b => some (T a b)) (fun b => some (F b c)) = some d ∧ IsFloat 53 (-1074) d ∧
      |(d : ℝ) - ((∑ b, T a b * F b c : ℚ) : ℝ)| ≤ (M + 1) * u * ((∑ b, T a b * F b c : ℚ) : ℝ) := by
    intro a c
    refine O.dot _ _ (fun b => ⟨(t2 a b).widen (by norm_num) (by norm_num), (hT0 a b).le, by have := t4 a b; exact_mod_cast this⟩) (fun b => ⟨(hF b c).1, hF0 b c, hF4 b c⟩) fun b => ?_
    rcases (hF b c).2 with hz | hz
    · exact .inl (by rw [hz, mul_zero])
    · refine .inr (le_trans ?_ (mul_le_mul (t3 a b) hz (two_zpow_pos _).le (hT0 a b).le))
      rw [← zpow_add₀ (by norm_num)]
      exact zpow_mono (by norm_num)
  choose D d1 d2 d3 using hdot
  have hrel : ∀ a c, Rel (κ + ((M * M + M + 13) * 2 ^ (-23 : Int) + 2 * ((M + 1) * u))) (D a c) (pairProb model x r a c) := by
    intro a c
    have ec : ((∑ b, T a b * F b c : ℚ) : ℝ) = ∑ b, (T a b : ℝ) * F b c := by push_cast; rfl
    have h3 := d3 a c
    rw [ec] at h3
    have h1 : Rel ((M * M + M + 13) * 2 ^ (-23 : Int) + κ) (∑ b, (T a b : ℝ) * F b c) (pairProb model x r a c) := by
      rw [pair_step h hc s P hx hxr]
      exact Rel.fsum _ fun b _ => (tR a b).mul (hR b c)
    have h2 := rel_of_error h1.1 (by positivity) (by linarith) h3
    exact (h2.trans h1).mono (by linarith)
  refine ⟨D, ?_, fun a c => ⟨d2 a c, .inr ?_⟩, hrel⟩
  · funext a c
    rw [← d1]
    simp only [t1]
  · have hlow : (2 : ℝ) ^ (-48 : Int) * vertMean model r c ≤ pairProb model x r a c := by
      rw [pair_step h hc s P hx hxr, ← hpsum c, Finset.mul_sum]
      refine Finset.sum_le_sum fun b _ => mul_le_mul_of_nonneg_right ?_ (hpp b c)
      exact near_bounds (ht a b).1 hsmall (ht a b).2.ge
    have hv : (2 : ℝ) ^ (-33 : Int) ≤ vertMean model r c := by
      refine near_bounds (floatVertProbs_near N S hr c) ?_ ((floatVertProbs_bounds N.ok S hr).2 c).ge
      refine le_trans (mul_le_mul_of_nonneg_right ?_ hw0.le) hsmall
      exact_mod_cast (by omega : M + 5 ≤ M * M + 7 + (M + 5) + 1)
    have h2 := (hrel a c).symm.le_two (by linarith)
    have h3 : (2 : ℝ) ^ (-48 : Int) * 2 ^ (-33 : Int) ≤ 2 ^ (-48 : Int) * vertMean model r c := mul_le_mul_of_nonneg_left hv (by positivity)
    have h4 : (2 : ℝ) ^ (-48 : Int) * 2 ^ (-33 : Int) = 2 ^ (-81 : Int) := by norm_num
    have h5 : (2 : ℝ) ^ (-98 : Int) * 2 ≤ 2 ^ (-81 : Int) := by norm_num
    have h6 : ((2 ^ (-98 : Int) : ℚ) : ℝ) ≤ D a c := by
      push_cast
      linarith
    exact_mod_cast h6

/-- The messages are near the joint distributions of the vertices with the root. -/
theorem floatCorr_messages (N : Spec.ServeOpsNear A ε) {u η ηe ηs : ℝ} {C : CorrOps M} (O : Spec.CorrOk u η ηe ηs C) (h : Model.Valid model) (hc : Model.Consistent model)
    (S : Spec.SmallCounts model) (hu0 : 0 ≤ u) (hu : (M + 1) * u ≤ 1 / 32) (hr : r < model.tree.numVertices) (hκ : Spec.corrKappa model.tree.numVertices M u ≤ 1 / 32)
    {prog : List Instr} (hp : makeProgram model.tree.treeGrid (some r) = .ok prog) (junk : Nat → Fin M → Fin M → Flt) :
    ∀ v < model.tree.numVertices, CorrMsg (Spec.corrKappa model.tree.numVertices M u)
      (prog.foldl (floatCorrStep A C (floatVertProbs A model.vertSS) (floatEdgeProbs A model.edgeSS)) junk v) (pairProb model v r) := by
  obtain ⟨mst, hmst⟩ := exists_mst (K := ℝ)
  obtain ⟨srv, -, s, -⟩ := server_init hmst h
  obtain ⟨par, ch, eid, L, P, hp'⟩ := exists_plan h hr
  rw [hp] at hp'
  obtain rfl := Except.ok.inj hp'
  set step := floatCorrStep A C (floatVertProbs A model.vertSS) (floatEdgeProbs A model.edgeSS) with hstep
  have hin : ∀ (l : List Nat) (m : Nat → Fin M → Fin M → Flt), (l.flatMap (inBlock ch eid)).foldl step m = m := by
    intro l
    induction l with
    | nil => intro m; rfl
    | cons x l ih =>
      intro m
      rw [List.flatMap_cons, List.foldl_append, ih]
      unfold inBlock
      rw [List.foldl_cons]
      have : ∀ (cs : List Nat), (cs.map fun c => (⟨.IN, x, c, eid c⟩ : Instr)).foldl step m = m := by
        intro cs
        induction cs with
        | nil => rfl
        | cons c cs ih => rw [List.map_cons, List.foldl_cons]; exact ih
      exact this _
  unfold progOf
  rw [List.foldl_append, List.foldl_append, hin]
  simp only [List.foldl_cons, List.foldl_nil]
  set κ1 : ℝ := (M * M + M + 13) * 2 ^ (-23 : Int) + 2 * ((M + 1) * u) with hκ1
  have hκ10 : 0 ≤ κ1 := by positivity
  have hlenV : L.length = model.tree.numVertices := by simpa using P.topo.perm.length_eq
  have hkap : ∀ n ≤ L.length, (M + 5) * (2 : ℝ) ^ (-23 : Int) + n * κ1 ≤ Spec.corrKappa model.tree.numVertices M u := by
    intro n hn
    unfold Spec.corrKappa
    rw [← hκ1, ← hlenV]
    have : (n : ℝ) ≤ L.length := by exact_mod_cast hn
    have := mul_le_mul_of_nonneg_right this hκ10
    linarith
  have key : ∀ X B, L = X ++ B → ∀ v ∈ r :: X, CorrMsg ((M + 5) * 2 ^ (-23 : Int) + X.length * κ1)
      ((X.flatMap (outBlock r par eid)).foldl step (step junk ⟨.ROOT, r, 0, 0⟩) v) (pairProb model v r) := by
    intro X
    induction X using List.reverseRecOn with
    | nil =>
      intro B _ v hv
      obtain rfl : v = r := by simpa using hv
      simp only [List.flatMap_nil, List.foldl_nil, hstep, floatCorrStep, Function.update_self, List.length_nil, Nat.cast_zero, zero_mul, add_zero]
      have hb := fun a => (floatVertProbs_bounds N.ok S hr).2 a
      choose T t1 t2 t3 t4 using hb
      refine ⟨fun a b => if a = b then T a else 0, ?_, fun a b => ?_, fun a b => ?_⟩
      · funext a b
        by_cases hab : a = b
        · simp only [if_pos hab, t1]
        · simp only [if_neg hab]
      · dsimp only
        split
        · exact ⟨(t2 a).widen (by norm_num) (by norm_num), .inr (le_trans (zpow_mono (by norm_num)) (t3 a))⟩
        · exact ⟨isFloat_zero .., .inl rfl⟩
      · rw [pair_root h hc s P]
        dsimp only
        by_cases hab : a = b
        · have := (floatVertProbs_near N S hr a).rel
          rw [t1] at this
          push_cast at this
          rw [if_pos hab, if_pos hab]
          exact this
        · rw [if_neg hab, if_neg hab, Rat.cast_zero]
          exact Rel.zero _
    | append_singleton X x ih =>
      intro B hL v hv
      have hL' : L = X ++ x :: B := by rw [hL]; simp
      have ih' := ih (x :: B) hL'
      have hxV : x < model.tree.numVertices := P.topo.mem.1 (by rw [hL']; simp)
      have hlen : (M + 5) * (2 : ℝ) ^ (-23 : Int) + ((X ++ [x]).length : ℝ) * κ1 = (M + 5) * 2 ^ (-23 : Int) + X.length * κ1 + κ1 := by
        rw [List.length_append, List.length_singleton]
        push_cast
        ring
      have hle := hkap (X ++ [x]).length (by rw [hL]; simp)
      rw [hlen] at hle ⊢
      simp only [List.flatMap_append, List.foldl_append, List.flatMap_cons, List.flatMap_nil, List.append_nil]
      generalize (X.flatMap (outBlock r par eid)).foldl step (step junk ⟨.ROOT, r, 0, 0⟩) = st at ih'
      unfold outBlock
      by_cases hxr : x = r
      · rw [if_pos hxr]
        simp only [List.foldl_cons, List.foldl_nil, hstep, floatCorrStep]
        refine (ih' v ?_).mono (by linarith)
        simp only [List.mem_cons, List.mem_append, List.not_mem_nil, or_false] at hv ⊢
        rcases hv with h | h | h
        · exact .inl h
        · exact .inr h
        · exact .inl (h.trans hxr)
      · rw [if_neg hxr]
        simp only [List.foldl_cons, List.foldl_nil, hstep, floatCorrStep]
        by_cases hvx : v = x
        · subst hvx
          rw [Function.update_self]
          have hle' : (M + 5) * (2 : ℝ) ^ (-23 : Int) + X.length * κ1 + κ1 ≤ 1 / 32 := le_trans hle hκ
          exact floatCorr_out N O h hc S s hu0 hu P hr hxV hxr (ih' (par v) (by simp [P.topo.before X v B hL' hxr])) hle' (by positivity)
        · rw [Function.update_of_ne hvx]
          refine (ih' v ?_).mono (by linarith)
          simp only [List.mem_cons, List.mem_append, List.not_mem_nil, or_false] at hv ⊢
          rcases hv with h | h | h
          · exact .inl h
          · exact .inr h
          · exact absurd h hvx
  intro v hv
  exact (key L [] (by simp) v (by simp [P.topo.mem.2 hv])).mono (hkap _ (le_refl _))

/-- **C83**. `latent_correlation` returns a matrix of float32 numbers or `nan`: an entry is a number in `[0, 1]` if the mutual information of the two latent classes is at least the error bound,
and every number is near the exact correlation. -/
theorem floatLatentCorrelation_near (N : Spec.ServeOpsNear A ε) {u η ηe ηs : ℝ} {C : CorrOps M} (O : Spec.CorrOk u η ηe ηs C) (h : Model.Valid model) (hc : Model.Consistent model)
    (S : Spec.SmallCounts model) (hu0 : 0 ≤ u) (hu : M * M * u ≤ 1 / 64) (hη0 : 0 ≤ η) (hη : η ≤ 1) (hηe : ηe ≤ 1 / 4) (hκ : Spec.corrKappa model.tree.numVertices M u ≤ 1 / 32)
    (hsmall : Spec.infoError M u η (Spec.corrKappa model.tree.numVertices M u) ≤ 1 / 4) (junk : Nat → Fin M → Fin M → Flt) :
    ∃ m : Nat → Nat → Flt, floatLatentCorrelation A C model junk = .ok ((List.range model.tree.numVertices).map fun i => (List.range model.tree.numVertices).map fun j => m i j) ∧
      ∀ i < model.tree.numVertices, ∀ j < model.tree.numVertices,
        (Spec.infoError M u η (Spec.corrKappa model.tree.numVertices M u) ≤ mutualInfo (pairProb model i j) → ∃ q, m i j = some q) ∧
        ∀ q, m i j = some q → IsFloat 24 (-149) q ∧ 0 ≤ q ∧ q ≤ 1 ∧
          |(q : ℝ) - rho (pairProb model i j)| ≤ Spec.corrError M u η ηe ηs (Spec.corrKappa model.tree.numVertices M u) + 2 ^ (-24 : Int) := by
  have hMR : (1 : ℝ) ≤ M := by exact_mod_cast NeZero.one_le
  have hu1 : (M + 1) * u ≤ 1 / 32 := by
    have : (M + 1 : ℝ) ≤ 2 * (M * M) := by nlinarith
    have := mul_le_mul_of_nonneg_right this hu0
    linarith
  obtain ⟨mst, hmst⟩ := exists_mst (K := ℝ)
  obtain ⟨srv, -, s, -⟩ := server_init hmst h
  have hprog : ∀ i, ∃ prog, i < model.tree.numVertices → makeProgram model.tree.treeGrid (some i) = .ok prog := by
    intro i
    by_cases hi : i < model.tree.numVertices
    · obtain ⟨par, ch, eid, L, P, hp⟩ := exists_plan h hi
      exact ⟨_, fun _ => hp⟩
    · exact ⟨[], fun h => absurd h hi⟩
  choose prog hp using hprog
  refine ⟨fun i j => (floatCorrelation C ((prog i).foldl (floatCorrStep A C (floatVertProbs A model.vertSS) (floatEdgeProbs A model.edgeSS)) junk j)).map A.rnd, ?_, fun i hi j hj => ?_⟩
  · unfold floatLatentCorrelation
    refine mapM_ok _ _ _ fun i hi => ?_
    simp only [hp i (List.mem_range.1 hi), bind, Except.bind]
  · obtain ⟨F, f1, f2, f3⟩ := floatCorr_messages N O h hc S hu0 hu1 hi hκ (hp i hi) junk j hj
    have hκ0 : 0 ≤ Spec.corrKappa model.tree.numVertices M u := by
      unfold Spec.corrKappa
      positivity
    obtain ⟨g1, g2⟩ := floatCorrelation_near O S.clusters hu0 hu hη0 hη hηe f2 hκ0 hκ f3 (pairProb_sum h hc s hj i) hsmall
    have hswap : mutualInfo (pairProb model i j) = mutualInfo (pairProb model j i) := by
      rw [← mutualInfo_swap (pairProb model i j), pairProb_swap']
    have hrho : rho (pairProb model i j) = rho (pairProb model j i) := by
      unfold rho
      rw [hswap]
    dsimp only
    rw [f1, hswap, hrho]
    constructor
    · intro hbig
      obtain ⟨q, hq⟩ := g1 hbig
      exact ⟨A.rnd q, by rw [hq]; rfl⟩
    · intro q hq
      obtain ⟨z, hz, rfl⟩ := Option.map_eq_some_iff.1 hq
      obtain ⟨z0, z1, z2⟩ := g2 z hz
      have R := N.ok.ops.rnd
      have hr := R.error (by norm_num) (x := z) (j := -24) (by norm_num) z0 (by simpa using z1)
      have hr' : |((A.rnd z : ℚ) : ℝ) - z| ≤ 2 ^ (-24 : Int) := by
        have := (Rat.cast_le (K := ℝ)).2 hr
        push_cast at this
        exact this
      refine ⟨R.float _, R.nonneg z0, R.le_of ⟨1, 0, by norm_num, by norm_num, by norm_num⟩ z1, ?_⟩
      generalize (2 : ℝ) ^ (-24 : Int) = w at *
      rw [abs_le] at hr' z2 ⊢
      constructor <;> linarith

end

end

end TreeCat
