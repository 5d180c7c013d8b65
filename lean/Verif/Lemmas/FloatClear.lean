import Verif.Lemmas.FloatRowNear

/-! # Small tables do not underflow -/

namespace TreeCat

open Util Spec
open scoped BigOperators

theorem ulp_pow_two {k : Nat} (hk : k ≤ 130) : ulp ^ k ≤ 2 :=
  le_trans (pow_le_pow_right₀ ulp_ge hk) (by unfold ulp; norm_num)

/-- Entry of `edge_probs`, transposed if `v > v2`. -/
def edgeQ {M : Nat} (edge : Nat → Fin M → Fin M → ℚ) (e v v2 : Nat) (a b : Fin M) : ℚ := if v2 < v then edge e b a else edge e a b

/-- Bounds in powers of two: `vert_probs` and `meas_probs` are at most `2 ^ n`, the priors of edges and features are `2 ^ -(j + 1)`, and rows and columns of `edge_probs` add up to at
most the entries of `vert_probs`. -/
structure SmallArrays {M : Nat} (t : Table) (r : Nat) (par eid : Nat → Nat) (n j : Nat) (vert : Nat → Fin M → ℚ) (edge : Nat → Fin M → Fin M → ℚ) (feat meas : Nat → Fin M → ℚ) : Prop where
  vertLe : ∀ v < t.numCols, ∀ a, vert v a ≤ 2 ^ (n : Int)
  edgeGe : ∀ c < t.numCols, c ≠ r → ∀ a b, 2 ^ (-(j + 1 : Int)) ≤ edgeQ edge (eid c) (par c) c a b
  edgeSum : ∀ c < t.numCols, c ≠ r → ∀ a, ∑ b, edgeQ edge (eid c) (par c) c a b ≤ vert (par c) a
  featGe : ∀ v < t.numCols, ∀ q, t.beg v ≤ q → q < t.stop v → ∀ a, 2 ^ (-(j + 1 : Int)) ≤ feat q a
  measLe : ∀ v < t.numCols, ∀ a, meas v a ≤ 2 ^ (n : Int)

section
set_option linter.unusedSectionVars false
variable {M : Nat} [NeZero M] {A : FloatOps M} {t : Table} {row E : Nat} {vert : Nat → Fin M → ℚ} {edge : Nat → Fin M → Fin M → ℚ}
  {feat meas : Nat → Fin M → ℚ} {n j : Nat}
  {r : Nat} {par : Nat → Nat} {ch : Nat → List Nat} {L : List Nat} {eid : Nat → Nat}

/-- The IN instruction loses `n + j + 3` bits. -/
theorem in_clear (O : Spec.OpsOk A) (N : Spec.DotNear A.dot) (hM : M ≤ 128) (S : Spec.FloatStats t E vert edge feat meas) (P : SmallArrays t r par eid n j vert edge feat meas)
    {s : FloatRow M} {v c : Nat} (hv : v < t.numCols) (hc : c < t.numCols) (he : eid c < E) (hcr : c ≠ r) (hpar : par c = v) {lo hi : Int}
    (hge : ∀ a, FGe (-lo) (s.messages v a)) (hle : ∀ a, FLe hi (s.messages v a)) (hlo : 0 ≤ lo) (hhi : 0 ≤ hi) (hgc : ∀ a, FGe (-85) (s.messages c a)) (hlc : ∀ a, FLe 25 (s.messages c a))
    (hcm : ∃ b q, s.messages c b = some q ∧ vert c b * 2 ^ (-(n + j + 2 : Int)) ≤ q) (h1 : lo + (2 * n + 2 * j + 3) ≤ 85) (h2 : lo + hi + (n + j + 3) ≤ 85) :
    (∀ a, FGe (-85) (floatInMsg A vert edge v c (eid c) s a)) ∧ (∀ a, FGe (-(lo + hi + (n + j + 3))) ((floatIn A vert edge v c (eid c) s).messages v a)) ∧
      Msg 0 0 ((floatIn A vert edge v c (eid c) s).messages v) := by
  subst hpar
  have hvl : ∀ w < t.numCols, ∀ a, (2 : ℚ) ^ (-1 : Int) ≤ vert w a := fun w hw a => by rw [two_neg_one]; exact (S.vert w hw a).2.1
  have hv0 : ∀ w < t.numCols, ∀ a, 0 < vert w a := fun w hw a => lt_of_lt_of_le (two_zpow_pos _) (hvl w hw a)
  have hw1 : ∀ b, FGe (-109) (Flt.div A.rnd (s.messages c b) (some (vert c b))) := fun b =>
    FGe.div O.rnd (hgc b) (hv0 c hc b) (b := 24) (by rw [two_twentyfour]; exact (S.vert c hc b).2.2) (by norm_num)
  have hw2 : ∀ b, FLe 26 (Flt.div A.rnd (s.messages c b) (some (vert c b))) := fun b => FLe.div O.rnd (hlc b) (hvl c hc b) (by norm_num)
  choose w ew hwf hw0 hwu using hw2
  have hwl : ∀ b, (2 : ℚ) ^ (-109 : Int) ≤ w b := fun b => by
    obtain ⟨q, e, h⟩ := hw1 b
    rw [ew b] at e
    obtain rfl := Option.some.inj e
    exact h
  -- the largest weight
  obtain ⟨b0, -, hb0⟩ := Finset.exists_max_image Finset.univ w ⟨0, Finset.mem_univ 0⟩
  have hpos : 0 < w b0 := lt_of_lt_of_le (two_zpow_pos _) (hwl b0)
  obtain ⟨i, hi1, hi2⟩ := exists_binade hpos
  have hi3 : -(n + j + 2 : Int) ≤ i := by
    obtain ⟨b, q, e, hq⟩ := hcm
    have h3 : (2 : ℚ) ^ (-(n + j + 2 : Int)) ≤ q / vert c b := by
      rw [le_div_iff₀ (hv0 c hc b), mul_comm]
      exact hq
    have h4 := ew b
    rw [e] at h4
    have h5 : A.rnd (q / vert c b) = w b := by simpa [Flt.div, (hv0 c hc b).ne'] using h4
    have h6 : (2 : ℚ) ^ (-(n + j + 2 : Int)) ≤ w b := h5 ▸ O.rnd.ge_of (isFloat_pow (by omega)) h3
    have h7 : (2 : ℚ) ^ (-(n + j + 2 : Int)) < 2 ^ (i + 1) := lt_of_le_of_lt (le_trans h6 (hb0 b (Finset.mem_univ b))) hi2
    have := (zpow_lt_zpow_iff_right₀ (by norm_num : (1 : ℚ) < 2)).1 h7
    omega
  have het : ∀ a b, fltTrans edge (eid c) (par c) c a b = some (edgeQ edge (eid c) (par c) c a b) := fun a b => rfl
  have hef : ∀ a b, IsFloat 24 (-149) (edgeQ edge (eid c) (par c) c a b) ∧ 1 / 2 ^ 9 ≤ edgeQ edge (eid c) (par c) c a b := by
    intro a b
    unfold edgeQ
    split
    · exact ⟨(S.edge _ he b a).1, (S.edge _ he b a).2.1⟩
    · exact ⟨(S.edge _ he a b).1, (S.edge _ he a b).2.1⟩
  have hmin : (2 : ℚ) ^ (-126 : Int) ≤ 2 ^ (-9 : Int) * 2 ^ (-109 : Int) := by norm_num
  -- the inner products
  have hdot : ∀ a, ∃ d, A.dot (fltTrans edge (eid c) (par c) c a) (fun b => Flt.div A.rnd (s.messages c b) (some (vert c b))) = some d ∧ 2 ^ (i - (j + 1)) ≤ d ∧
      d ≤ vert (par c) a * 2 ^ (i + 1) * ulp ^ (M + 1) := by
    intro a
    have e1 : (fun b => Flt.div A.rnd (s.messages c b) (some (vert c b))) = fun b => some (w b) := funext ew
    have e2 : fltTrans edge (eid c) (par c) c a = fun b => some (edgeQ edge (eid c) (par c) c a b) := rfl
    rw [e1, e2]
    obtain ⟨d, k1, -, -, k2, -⟩ := O.dot (edgeQ edge (eid c) (par c) c a) w (fun b => ⟨(hef a b).1, le_trans (by norm_num) (hef a b).2⟩) fun b => ⟨hwf b, hw0 b⟩
    obtain ⟨d', k3, k4, -⟩ := N (edgeQ edge (eid c) (par c) c a) w (fun b => ⟨(hef a b).1, le_trans (by norm_num) (hef a b).2⟩) (fun b => ⟨hwf b, hw0 b⟩) fun b =>
      le_trans hmin (mul_le_mul (by rw [two_neg_nine]; exact (hef a b).2) (hwl b) (two_zpow_pos _).le (le_trans (by norm_num) (hef a b).2))
    rw [k1] at k3
    obtain rfl := Option.some.inj k3
    refine ⟨d, k1, k2 _ (by omega) b0 ?_, le_trans k4 (mul_le_mul_of_nonneg_right ?_ (le_trans zero_le_one (ulp_pow_ge _)))⟩
    · rw [show i - (j + 1 : Int) = -(j + 1 : Int) + i by ring, zpow_split]
      exact mul_le_mul (P.edgeGe c hc hcr a b0) hi1 (two_zpow_pos _).le (le_trans (by norm_num) (hef a b0).2)
    · calc ∑ b, edgeQ edge (eid c) (par c) c a b * w b ≤ ∑ b, edgeQ edge (eid c) (par c) c a b * 2 ^ (i + 1) :=
            Finset.sum_le_sum fun b _ => mul_le_mul_of_nonneg_left (le_trans (hb0 b (Finset.mem_univ b)) hi2.le) (le_trans (by norm_num) (hef a b).2)
        _ = (∑ b, edgeQ edge (eid c) (par c) c a b) * 2 ^ (i + 1) := by rw [Finset.sum_mul]
        _ ≤ _ := mul_le_mul_of_nonneg_right (P.edgeSum c hc hcr a) (two_zpow_pos _).le
  have hin : ∀ a, FGe (-lo + (i - (j + 1)) - n) (floatInMsg A vert edge (par c) c (eid c) s a) ∧ FLe (hi + i + 2) (floatInMsg A vert edge (par c) c (eid c) s a) := by
    intro a
    obtain ⟨d, k1, k2, k3⟩ := hdot a
    obtain ⟨m, e, k4, k5, k6⟩ := hle a
    obtain ⟨m', e', k7⟩ := hge a
    rw [e] at e'
    obtain rfl := Option.some.inj e'
    have hd0 : 0 < d := lt_of_lt_of_le (two_zpow_pos _) k2
    have hmd : (2 : ℚ) ^ (-lo + (i - (j + 1))) ≤ m * d := by
      rw [zpow_split]
      exact mul_le_mul k7 k2 (two_zpow_pos _).le k5
    have hva := hv0 (par c) hv a
    have hval : floatInMsg A vert edge (par c) c (eid c) s a = some (A.rnd (A.rnd (m * d) / vert (par c) a)) := by
      unfold floatInMsg
      rw [k1, e]
      simp [Flt.mul, Flt.div, hva.ne']
    have hr1 : (2 : ℚ) ^ (-lo + (i - (j + 1))) ≤ A.rnd (m * d) := O.rnd.ge_of (isFloat_pow (by omega)) hmd
    have hr2 := (O.rnd.factor (le_refl 24) (x := m * d) (le_trans (zpow_mono (by push_cast; omega)) hmd)).1
    rw [hval]
    refine ⟨⟨_, rfl, O.rnd.ge_of (isFloat_pow (by omega)) ?_⟩, _, rfl, O.rnd.float _, O.rnd.nonneg (div_nonneg (le_trans (two_zpow_pos _).le hr1) hva.le),
      O.rnd.le_of (isFloat_pow (by omega)) ?_⟩
    · rw [le_div_iff₀ hva]
      calc (2 : ℚ) ^ (-lo + (i - (j + 1)) - n) * vert (par c) a ≤ 2 ^ (-lo + (i - (j + 1)) - n) * 2 ^ (n : Int) := mul_le_mul_of_nonneg_left (P.vertLe _ hv a) (two_zpow_pos _).le
        _ = 2 ^ (-lo + (i - (j + 1))) := by rw [← zpow_split, sub_add_cancel]
        _ ≤ _ := hr1
    · rw [div_le_iff₀ hva]
      have hu : ulp ^ (M + 1) * ulp ≤ 2 := by rw [← pow_succ]; exact ulp_pow_two (by omega)
      calc A.rnd (m * d) ≤ m * d * ulp := hr2
        _ ≤ 2 ^ hi * (vert (par c) a * 2 ^ (i + 1) * ulp ^ (M + 1)) * ulp := mul_le_mul_of_nonneg_right (mul_le_mul k6 k3 hd0.le (two_zpow_pos _).le) ulp_pos.le
        _ = 2 ^ hi * (vert (par c) a * 2 ^ (i + 1)) * (ulp ^ (M + 1) * ulp) := by ring
        _ ≤ 2 ^ hi * (vert (par c) a * 2 ^ (i + 1)) * 2 := mul_le_mul_of_nonneg_left hu (mul_nonneg (two_zpow_pos _).le (mul_nonneg hva.le (two_zpow_pos _).le))
        _ = 2 ^ (hi + i + 2) * vert (par c) a := by
          have e1 : (2 : ℚ) ^ (hi + i + 2) = 2 ^ hi * 2 ^ (i + 1) * 2 := by
            rw [show hi + i + 2 = hi + (i + 1) + 1 by ring, zpow_add₀ two_ne_zero, zpow_add₀ two_ne_zero, zpow_one]
          rw [e1]
          ring
  refine ⟨fun a => (hin a).1.weaken (by omega), fun a => ?_, ?_⟩
  swap
  · rw [show (floatIn A vert edge (par c) c (eid c) s).messages (par c) = _ from Function.update_self _ _ _]
    exact Msg.scale O.rnd ⟨fun a => (hin a).2, 0, (hin 0).1⟩
  choose g eg gf g0 gu using fun a => (hin a).2
  obtain ⟨m, hm1, hm2, a0, hm3⟩ := fltMax_spec (f := floatInMsg A vert edge (par c) c (eid c) s) (g := g) eg
  have hm0 : 0 < m := by
    obtain ⟨q, e, h⟩ := (hin a0).1
    rw [eg a0] at e
    obtain rfl := Option.some.inj e
    rw [hm3]
    exact lt_of_lt_of_le (two_zpow_pos _) h
  have heq : (floatIn A vert edge (par c) c (eid c) s).messages (par c) a = Flt.div A.rnd (floatInMsg A vert edge (par c) c (eid c) s a) (some m) := by
    show Function.update s.messages (par c) _ (par c) a = _
    rw [Function.update_self, hm1]
  rw [heq]
  have := FGe.div O.rnd (hin a).1 hm0 (b := hi + i + 2) (by rw [hm3]; exact gu a0) (by omega)
  exact this.weaken (by omega)

/-- The UP instruction. -/
theorem up_clear (O : Spec.OpsOk A) (S : Spec.FloatStats t E vert edge feat meas) (P : SmallArrays t r par eid n j vert edge feat meas) (ht : Table.Ordered t)
    (hrow : Spec.Categorical t row) {U : List Nat} {s : FloatRow M} (I : RowInv t feat meas U [] s) {v : Nat} (hv : v < t.numCols) (hm : t.featureTypes.getD v 0 = tyMultinomial)
    (hU : v ∉ U) (hs : ∀ a, s.messages v a = some (vert v a)) (hnj : (n : Int) + j ≤ 80) :
    ∃ s', floatAddCell A t row v s = .ok s' ∧ RowInv t feat meas (v :: U) [] s' ∧ (∀ w, w ≠ v → s'.messages w = s.messages w) ∧
      (∀ a, FGe (-(n + j + 2 : Int)) (s'.messages v a)) ∧ (∀ a, FLe (n + 1 : Int) (s'.messages v a)) ∧ ∀ a, ∃ q, s'.messages v a = some q ∧ vert v a * 2 ^ (-(n + j + 2 : Int)) ≤ q := by
  obtain ⟨s', h1, h2⟩ := rowInv_up O S ht hrow I hv hm hU (by simp)
  refine ⟨s', h1, h2, ?_⟩
  have hvl : ∀ a, (2 : ℚ) ^ (-1 : Int) ≤ vert v a := fun a => by rw [two_neg_one]; exact (S.vert v hv a).2.1
  have hv0 : ∀ a, 0 < vert v a := fun a => lt_of_lt_of_le (two_zpow_pos _) (hvl a)
  have hge : ∀ a, FGe (-1) (s.messages v a) := fun a => ⟨vert v a, hs a, hvl a⟩
  have hle : ∀ a, FLe n (s.messages v a) := fun a => ⟨vert v a, hs a, (S.vert v hv a).1, (hv0 a).le, P.vertLe v hv a⟩
  have hsmall : (2 : ℚ) ^ (-(n + j + 2 : Int)) ≤ 1 := by
    rw [← zpow_zero (2 : ℚ)]
    exact zpow_mono (by omega)
  rcases floatAddCell_factor A hm hrow hv s (fun _ _ => 1) (fun _ _ => 1) with ⟨h3, -⟩ | ⟨q, h3, h4, h5, -⟩
  · rw [h1] at h3
    obtain rfl := Except.ok.inj h3
    exact ⟨fun _ _ => rfl, fun a => (hge a).weaken (by omega), fun a => (hle a).weaken (by omega), fun a => ⟨_, hs a, mul_le_of_le_one_right (hv0 a).le hsmall⟩⟩
  · rw [h1] at h5
    obtain rfl := Except.ok.inj h5
    have hne : ∀ w, w ≠ v → (floatAddOne A v q s).messages w = s.messages w := fun w hw => Function.update_of_ne hw _ _
    have heq : ∀ a, (floatAddOne A v q s).messages v a = Flt.div A.rnd (Flt.mul A.rnd (s.messages v a) (some (feat q a))) (some (meas v a)) := by
      intro a
      obtain ⟨hc1, hc2⟩ := I.cells v hv hU
      show Function.update s.messages v _ v a = _
      rw [Function.update_self, hc1 q h3 h4 a, hc2 a]
    have hf0 : ∀ a, 0 < feat q a := fun a => lt_of_lt_of_le (two_zpow_pos _) (P.featGe v hv q h3 h4 a)
    have hm0 : ∀ a, 0 < meas v a := fun a => by
      have := (S.feat v hv q h3 h4 a).2
      linarith [this.1, this.2]
    have hval : ∀ a, (floatAddOne A v q s).messages v a = some (A.rnd (A.rnd (vert v a * feat q a) / meas v a)) := fun a => by
      rw [heq a, hs a]
      simp [Flt.mul, Flt.div, (hm0 a).ne']
    have hg1 : ∀ a, FGe (-1 + -(j + 1 : Int)) (Flt.mul A.rnd (s.messages v a) (some (feat q a))) := fun a =>
      FGe.mul O.rnd (hge a) ⟨feat q a, rfl, P.featGe v hv q h3 h4 a⟩ (by omega)
    have hg2 : ∀ a, FGe (-1 + -(j + 1 : Int) - n) (Flt.div A.rnd (Flt.mul A.rnd (s.messages v a) (some (feat q a))) (some (meas v a))) := fun a =>
      FGe.div O.rnd (hg1 a) (hm0 a) (P.measLe v hv a) (by omega)
    have hnorm : ∀ a, (2 : ℚ) ^ (-126 : Int) ≤ vert v a * feat q a := fun a => by
      refine le_trans (zpow_mono (show (-126 : Int) ≤ -1 + -(j + 1 : Int) by omega)) ?_
      rw [zpow_split]
      exact mul_le_mul (hvl a) (P.featGe v hv q h3 h4 a) (two_zpow_pos _).le (hv0 a).le
    refine ⟨hne, fun a => by rw [heq a]; exact (hg2 a).weaken (by omega), fun a => ?_, fun a => ⟨_, hval a, ?_⟩⟩
    · rw [hval a]
      have hr1 : A.rnd (vert v a * feat q a) ≤ 2 ^ (n : Int) * feat q a := by
        refine O.rnd.le_of ?_ (mul_le_mul_of_nonneg_right (P.vertLe v hv a) (hf0 a).le)
        obtain ⟨m, e, k1, k2, k3⟩ := (S.feat v hv q h3 h4 a).1
        refine ⟨m, n + e, k1, by omega, ?_⟩
        rw [k3, zpow_split]
        ring
      refine ⟨_, rfl, O.rnd.float _, O.rnd.nonneg (div_nonneg (O.rnd.nonneg (mul_nonneg (hv0 a).le (hf0 a).le)) (hm0 a).le), O.rnd.le_of (isFloat_pow (by omega)) ?_⟩
      rw [div_le_iff₀ (hm0 a), zpow_split, zpow_one]
      have hfm := (S.feat v hv q h3 h4 a).2.2
      calc _ ≤ _ := hr1
        _ ≤ 2 ^ (n : Int) * (2 * meas v a) := mul_le_mul_of_nonneg_left hfm (two_zpow_pos _).le
        _ = _ := by ring
    · have k1 := (O.rnd.factor (le_refl 24) (x := vert v a * feat q a) (hnorm a)).2
      obtain ⟨x, hx, k2⟩ := hg1 a
      have hx' : A.rnd (vert v a * feat q a) = x := by
        rw [hs a] at hx
        simpa [Flt.mul] using hx
      have k3 : (2 : ℚ) ^ (-1 + -(j + 1 : Int) - n) ≤ A.rnd (vert v a * feat q a) / meas v a := by
        rw [le_div_iff₀ (hm0 a), hx']
        refine le_trans (mul_le_mul_of_nonneg_left (P.measLe v hv a) (two_zpow_pos _).le) ?_
        rw [← zpow_split, sub_add_cancel]
        exact k2
      have k4 := (O.rnd.factor (le_refl 24) (x := A.rnd (vert v a * feat q a) / meas v a) (le_trans (zpow_mono (by push_cast; omega)) k3)).2
      set y := A.rnd (A.rnd (vert v a * feat q a) / meas v a) with hy
      have hy0 : 0 ≤ y := O.rnd.nonneg (le_trans (two_zpow_pos _).le k3)
      rw [div_le_iff₀ (hm0 a)] at k4
      have k5 : vert v a * 2 ^ (-(j + 1 : Int)) ≤ vert v a * feat q a := mul_le_mul_of_nonneg_left (P.featGe v hv q h3 h4 a) (hv0 a).le
      have k6 : vert v a * feat q a ≤ y * 2 ^ (n : Int) * 2 := by
        calc _ ≤ _ := k1
          _ ≤ y * ulp * meas v a * ulp := mul_le_mul_of_nonneg_right k4 ulp_pos.le
          _ = y * meas v a * ulp ^ 2 := by ring
          _ ≤ y * meas v a * 2 := mul_le_mul_of_nonneg_left (ulp_pow_two (by norm_num)) (mul_nonneg hy0 (hm0 a).le)
          _ ≤ _ := mul_le_mul_of_nonneg_right (mul_le_mul_of_nonneg_left (P.measLe v hv a) hy0) (by norm_num)
      have k7 : vert v a * 2 ^ (-(n + j + 2 : Int)) * (2 ^ (n : Int) * 2) = vert v a * 2 ^ (-(j + 1 : Int)) := by
        rw [show -(j + 1 : Int) = -(n + j + 2 : Int) + (n + 1) by ring, zpow_split _ ((n : Int) + 1), zpow_split (n : Int) 1, zpow_one]
        ring
      have hpos : (0 : ℚ) < 2 ^ (n : Int) * 2 := mul_pos (two_zpow_pos _) (by norm_num)
      refine le_of_mul_le_mul_right ?_ hpos
      rw [k7]
      linarith

theorem rowClear_in_intro {v c e : Nat} {Q : List Instr} {s : FloatRow M} (h1 : ∀ a, FGe (-85) (floatInMsg A vert edge v c e s a)) (h2 : ∀ a, FGe (-85) ((floatIn A vert edge v c e s).messages v a))
    (h3 : Spec.rowClear A t row vert edge Q (floatIn A vert edge v c e s) = true) : Spec.rowClear A t row vert edge (⟨.IN, v, c, e⟩ :: Q) s = true := by
  show ((List.finRange M).all (fun a => fltGe (-85) (floatInMsg A vert edge v c e s a)) &&
        (List.finRange M).all (fun a => fltGe (-85) ((floatIn A vert edge v c e s).messages v a)) && Spec.rowClear A t row vert edge Q (floatIn A vert edge v c e s)) = true
  rw [Bool.and_eq_true, Bool.and_eq_true, List.all_eq_true, List.all_eq_true]
  exact ⟨⟨fun a _ => fltGe_iff.2 (h1 a), fun a _ => fltGe_iff.2 (h2 a)⟩, h3⟩

/-- The message is not too small for a division by `vert_probs`. -/
def Heavy (n j : Nat) (vert : Nat → Fin M → ℚ) (s : FloatRow M) (v : Nat) : Prop := ∃ b q, s.messages v b = some q ∧ vert v b * 2 ^ (-(n + j + 2 : Int)) ≤ q

/-- The IN instructions of one vertex. -/
theorem ins_clear (O : Spec.OpsOk A) (N : Spec.DotNear A.dot) (hM : M ≤ 128) (S : Spec.FloatStats t E vert edge feat meas) (P : SmallArrays t r par eid n j vert edge feat meas)
    {v : Nat} (hv : v < t.numCols) (Q : List Instr) : ∀ (cs : List Nat), (∀ c ∈ cs, c < t.numCols ∧ eid c < E ∧ c ≠ r ∧ par c = v ∧ c ≠ v) →
    ∀ {U : List Nat} {s : FloatRow M} {lo hi : Int}, RowInv t feat meas U [] s → (∀ a, FGe (-lo) (s.messages v a)) → (∀ a, FLe hi (s.messages v a)) → 0 ≤ lo → 0 ≤ hi →
    lo + hi + cs.length * (n + j + 3) + (n + j) ≤ 85 → Heavy n j vert s v → (∀ c ∈ cs, (∀ a, FGe (-85) (s.messages c a)) ∧ Heavy n j vert s c) →
    (∀ s', RowInv t feat meas U [] s' → (∀ w, w ≠ v → s'.messages w = s.messages w) → (∀ a, FGe (-85) (s'.messages v a)) → Heavy n j vert s' v → Spec.rowClear A t row vert edge Q s' = true) →
    Spec.rowClear A t row vert edge (cs.map (fun c => (⟨.IN, v, c, eid c⟩ : Instr)) ++ Q) s = true := by
  intro cs
  induction cs with
  | nil =>
    intro _ U s lo hi I hge _ hlo hhi hb hh _ hQ
    refine hQ s I (fun _ _ => rfl) (fun a => (hge a).weaken ?_) hh
    simp at hb
    omega
  | cons c cs ih =>
    intro hcs U s lo hi I hge hle hlo hhi hb hh hch hQ
    obtain ⟨c1, c2, c3, c4, c5⟩ := hcs c List.mem_cons_self
    obtain ⟨g1, g2⟩ := hch c List.mem_cons_self
    have hb' : lo + hi + (n + j + 3) + cs.length * (n + j + 3) + (n + j) ≤ 85 := by
      rw [List.length_cons] at hb
      push_cast at hb
      linarith
    have hcl : (0 : Int) ≤ cs.length * (n + j + 3) := by positivity
    obtain ⟨k1, k2, k3⟩ := in_clear O N hM S P hv c1 c2 c3 c4 hge hle hlo hhi g1 (fun a => (I.updated c c1 (by simp)).1 a) g2 (by omega) (by omega)
    have hne : ∀ w, w ≠ v → (floatIn A vert edge v c (eid c) s).messages w = s.messages w := fun w hw => Function.update_of_ne hw _ _
    rw [List.map_cons, List.cons_append]
    refine rowClear_in_intro k1 (fun a => (k2 a).weaken (by omega)) ?_
    refine ih (fun d hd => hcs d (List.mem_cons_of_mem _ hd)) (rowInv_in O hM S I hv c1 c2 (by simp) (by simp)) k2 k3.1 (by omega) (le_refl 0) (by omega) ?_ ?_ ?_
    · obtain ⟨b, q, e, hq⟩ := k3.2
      refine ⟨b, q, e, le_trans ?_ hq⟩
      calc vert v b * 2 ^ (-(n + j + 2 : Int)) ≤ 2 ^ (n : Int) * 2 ^ (-(n + j + 2 : Int)) := mul_le_mul_of_nonneg_right (P.vertLe v hv b) (two_zpow_pos _).le
        _ = 2 ^ ((n : Int) + -(n + j + 2 : Int)) := (zpow_split _ _).symm
        _ ≤ 2 ^ (0 : Int) := zpow_mono (by omega)
    · intro d hd
      have hdv := (hcs d (List.mem_cons_of_mem _ hd)).2.2.2.2
      have := hch d (List.mem_cons_of_mem _ hd)
      unfold Heavy at this ⊢
      rw [hne d hdv]
      exact this
    · intro s' I' hn' hg' hh'
      exact hQ s' I' (fun w hw => by rw [hn' w hw, hne w hw]) hg' hh'

/-- The inward phase. -/
theorem inward_clear (O : Spec.OpsOk A) (N : Spec.DotNear A.dot) (hM : M ≤ 128) (S : Spec.FloatStats t E vert edge feat meas) (P : SmallArrays t r par eid n j vert edge feat meas)
    (ht : Table.Ordered t) (hrow : Spec.Categorical t row) (hm : ∀ v < t.numCols, t.featureTypes.getD v 0 = tyMultinomial) (T : Topo t.numCols r par ch L)
    (heid : ∀ v < t.numCols, v ≠ r → eid v < E) (assign : Nat → Fin M) (tail : List Instr) (htail : ∀ s, Spec.rowClear A t row vert edge tail s = true) {d : Nat}
    (hd : ∀ v < t.numCols, (ch v).length ≤ d) (hb : d * (n + j + 3) + 3 * n + 2 * j + 3 ≤ 85) :
    Spec.rowClear A t row vert edge (L.reverse.flatMap (inBlock ch eid) ++ tail) (floatRowInit vert feat meas assign) = true := by
  have key : ∀ C B, L = C ++ B → ∀ s : FloatRow M, RowInv t feat meas B [] s → (∀ v ∈ C, ∀ a, s.messages v a = some (vert v a)) →
      (∀ v ∈ B, (∀ a, FGe (-85) (s.messages v a)) ∧ Heavy n j vert s v) → Spec.rowClear A t row vert edge (C.reverse.flatMap (inBlock ch eid) ++ tail) s = true := by
    intro C
    induction C using List.reverseRecOn with
    | nil => exact fun B _ s _ _ _ => htail s
    | append_singleton C x ih =>
      intro B hL s I hC hB
      rw [List.append_assoc, List.singleton_append] at hL
      have hn := T.nodup
      rw [hL, List.nodup_append, List.nodup_cons] at hn
      have hxV : x < t.numCols := T.mem.1 (by rw [hL]; simp)
      have hxB : x ∉ B := hn.2.1.1
      have hchx : ∀ c ∈ ch x, c < t.numCols ∧ c ≠ r ∧ par c = x ∧ c ∈ B := by
        intro c hc
        obtain ⟨a1, a2, a3⟩ := (T.ch_mem x hxV c).1 hc
        refine ⟨a1, a2, a3, ?_⟩
        have hcL : c ∈ L := T.mem.2 a1
        rw [hL, List.mem_append, List.mem_cons] at hcL
        rcases hcL with hcC | rfl | hcB
        · exfalso
          obtain ⟨C1, C2, hC⟩ := List.append_of_mem hcC
          have := T.before C1 c (C2 ++ x :: B) (by rw [hL, hC]; simp) a2
          rw [a3] at this
          exact hn.2.2 x (by rw [hC]; simp [this]) x (by simp) rfl
        · exfalso
          have := T.before C c B hL a2
          rw [a3] at this
          exact hn.2.2 c this c (by simp) rfl
        · exact hcB
      obtain ⟨s2, u1, u2, u3, u4, u5, u6⟩ := up_clear O S P ht hrow I hxV (hm x hxV) hxB (hC x (by simp)) (by nlinarith)
      have hprog : (C ++ [x]).reverse.flatMap (inBlock ch eid) ++ tail
          = (⟨.UP, x, 0, 0⟩ : Instr) :: ((ch x).map (fun c => (⟨.IN, x, c, eid c⟩ : Instr)) ++ (C.reverse.flatMap (inBlock ch eid) ++ tail)) := by
        rw [List.reverse_append, List.reverse_singleton, List.singleton_append, List.flatMap_cons, inBlock]
        simp
      rw [hprog]
      show (match floatAddCell A t row x s with
        | .ok s' => Spec.rowClear A t row vert edge _ s'
        | .error _ => false) = true
      rw [u1]
      have hcx : ∀ c ∈ ch x, c ≠ x := fun c hc e => hxB (e ▸ (hchx c hc).2.2.2)
      refine ins_clear O N hM S P hxV _ (ch x) (fun c hc => ⟨(hchx c hc).1, heid c (hchx c hc).1 (hchx c hc).2.1, (hchx c hc).2.1, (hchx c hc).2.2.1, hcx c hc⟩) u2 u4 u5 (by omega) (by omega) ?_ ?_ ?_ ?_
      · have h1 : (ch x).length * (n + j + 3) ≤ d * (n + j + 3) := Nat.mul_le_mul_right _ (hd x hxV)
        have h2 : (n + j + 2 : Int) + (n + 1) + ((ch x).length * (n + j + 3) : Nat) + (n + j) ≤ 85 := by omega
        push_cast at h2
        exact h2
      · obtain ⟨q, e, hq⟩ := u6 0
        exact ⟨0, q, e, hq⟩
      · intro c hc
        have := hB c (hchx c hc).2.2.2
        unfold Heavy at this ⊢
        rw [u3 c (hcx c hc)]
        exact this
      · intro s3 i1 i2 i3 i4
        have hne : ∀ w, w ≠ x → s3.messages w = s.messages w := fun w hw => by rw [i2 w hw, u3 w hw]
        refine ih (x :: B) hL s3 i1 (fun v hv a => ?_) fun v hv => ?_
        · have hvx : v ≠ x := fun e => hn.2.2 v hv x (by simp) e
          rw [hne v hvx]
          exact hC v (by simp [hv]) a
        · by_cases hvx : v = x
          · subst hvx; exact ⟨i3, i4⟩
          · have := hB v ((List.mem_cons.1 hv).resolve_left hvx)
            unfold Heavy at this ⊢
            rw [hne v hvx]
            exact this
  exact key L [] (by simp) _ (rowInv_init S assign) (fun v _ a => rfl) (by simp)

end

end TreeCat
