import Verif.Model.FloatEnsemble
import Verif.Props.FloatLogNear
import Verif.Props.FloatQuantMedian
import Verif.Props.FloatMarginalNear
import Verif.Props.SampleLogprob
import Verif.Lemmas.FloatTree

/-!
# C82: `EnsembleServer.logprob` in float32
-/

namespace TreeCat

open Util Spec

/-- What is assumed of `np.exp` on float32 numbers that are not positive: the result is a nonnegative float32 with absolute error at most `η`. It may underflow. -/
def Spec.ExpNear (exp : Flt → Flt) (η : ℝ) : Prop :=
  ∀ q : ℚ, IsFloat 24 (-149) q → q ≤ 0 → ∃ e : ℚ, exp (some q) = some e ∧ IsFloat 24 (-149) e ∧ 0 ≤ e ∧ |(e : ℝ) - Real.exp q| ≤ η

/-- The bound on the error of the logarithm of the mean over `n` models. -/
noncomputable def Spec.ensembleError (V M W n : Nat) (ε η ηc : ℝ) : ℝ :=
  Spec.logprobError V M W ε + n * (2 * η + 3 * 2 ^ (-23 : Int)) + ε + ηc + 104 * (2 * V + 3) * 2 ^ (-23 : Int)

theorem Util.MonoRounding.error_max {rnd : ℚ → ℚ} (R : MonoRounding 24 (-149) rnd) {x B : ℚ} (hx : |x| ≤ B) (hB : 1 ≤ B) :
    |rnd x - x| ≤ B * 2 ^ (-23 : Int) := by
  obtain ⟨j, hj1, hj2⟩ := exists_binade (show (0 : ℚ) < B by linarith)
  have hj : 0 ≤ j := by
    by_contra hcon
    have : (2 : ℚ) ^ (j + 1) ≤ 2 ^ (0 : Int) := zpow_mono (by omega)
    rw [zpow_zero] at this
    linarith
  have herr := R.error_abs (by norm_num) (j := j - 23) (by omega) (x := x) (by
    have : j - 23 + ((24 : Nat) : Int) = j + 1 := by push_cast; omega
    rw [this]
    linarith)
  refine le_trans herr ?_
  rw [show j - 23 = j + (-23) by ring, zpow_split]
  exact mul_le_mul_of_nonneg_right hj1 (two_zpow_pos _).le

theorem Util.MonoRounding.error_maxR {rnd : ℚ → ℚ} (R : MonoRounding 24 (-149) rnd) {x : ℚ} {B : ℚ} (hx : |x| ≤ B) (hB : 1 ≤ B) :
    |((rnd x : ℚ) : ℝ) - x| ≤ B * 2 ^ (-23 : Int) := by
  have := (Rat.cast_le (K := ℝ)).2 (R.error_max hx hB)
  push_cast at this
  simpa using this

theorem exp_sub_le (a b : ℝ) : Real.exp b - Real.exp a ≤ (b - a) * Real.exp b := by
  have h1 := Real.add_one_le_exp (a - b)
  have e : Real.exp a = Real.exp b * Real.exp (a - b) := by rw [← Real.exp_add]; ring_nf
  rw [e]
  nlinarith [Real.exp_pos b]

/-- Rounding the exponent of a number below one. -/
theorem exp_round {x d : ℝ} (hx : x ≤ 0) (hd : d ≤ 0) (h : |d - x| ≤ max 1 |x| * 2 ^ (-23 : Int)) : |Real.exp d - Real.exp x| ≤ 2 ^ (-23 : Int) := by
  have hu : (0 : ℝ) < 2 ^ (-23 : Int) := by positivity
  have hu2 : (2 : ℝ) ^ (-23 : Int) ≤ 1 / 2 := by norm_num
  have key : |Real.exp d - Real.exp x| ≤ |d - x| * Real.exp (max d x) := by
    rcases le_total d x with hdx | hdx
    · rw [max_eq_right hdx, abs_of_nonpos (sub_nonpos.2 (Real.exp_le_exp.2 hdx)), abs_of_nonpos (sub_nonpos.2 hdx)]
      have := exp_sub_le d x
      linarith
    · rw [max_eq_left hdx, abs_of_nonneg (sub_nonneg.2 (Real.exp_le_exp.2 hdx)), abs_of_nonneg (sub_nonneg.2 hdx)]
      exact exp_sub_le _ _
  refine le_trans key ?_
  rcases le_total |x| 1 with h1 | h1
  · rw [max_eq_left h1, one_mul] at h
    have : Real.exp (max d x) ≤ 1 := Real.exp_le_one_iff.2 (max_le hd hx)
    calc _ ≤ 2 ^ (-23 : Int) * 1 := mul_le_mul h this (Real.exp_pos _).le hu.le
      _ = _ := mul_one _
  · rw [max_eq_right h1] at h
    have hxa : |x| = -x := abs_of_nonpos hx
    set t := |x| with ht
    have hm : max d x ≤ -(t * (1 - 2 ^ (-23 : Int))) := by
      refine max_le ?_ ?_
      · have := (abs_le.1 h).2
        linarith
      · have : 0 ≤ t * 2 ^ (-23 : Int) := by positivity
        linarith
    set r := t * (1 - 2 ^ (-23 : Int)) with hr
    have hrt : t ≤ 2 * r := by
      have : t * 2 ^ (-23 : Int) ≤ t * (1 / 2) := mul_le_mul_of_nonneg_left hu2 (by linarith)
      have e : 2 * r = 2 * t - 2 * (t * 2 ^ (-23 : Int)) := by rw [hr]; ring
      rw [e]
      generalize (2 : ℝ) ^ (-23 : Int) = u at this ⊢
      linarith
    have hexp : t ≤ Real.exp r := by
      have h2 := Real.add_one_le_exp (r / 2)
      have e : Real.exp r = Real.exp (r / 2) * Real.exp (r / 2) := by rw [← Real.exp_add]; ring_nf
      have h3 : (r / 2 + 1) * (r / 2 + 1) ≤ Real.exp (r / 2) * Real.exp (r / 2) := mul_le_mul h2 h2 (by linarith) (Real.exp_pos _).le
      nlinarith [sq_nonneg (r / 2 - 1)]
    have h4 : t * Real.exp (-r) ≤ 1 := by
      rw [Real.exp_neg, ← div_eq_mul_inv, div_le_one (Real.exp_pos _)]
      exact hexp
    calc |d - x| * Real.exp (max d x) ≤ (t * 2 ^ (-23 : Int)) * Real.exp (-r) := mul_le_mul h (Real.exp_le_exp.2 hm) (Real.exp_pos _).le (by positivity)
      _ = 2 ^ (-23 : Int) * (t * Real.exp (-r)) := by ring
      _ ≤ 2 ^ (-23 : Int) * 1 := mul_le_mul_of_nonneg_left h4 hu.le
      _ = _ := mul_one _

theorem log_near_of_abs {s t δ : ℝ} (hs : 1 ≤ s) (h : |t - s| ≤ δ) (hδ : δ ≤ 1 / 2) : |Real.log t - Real.log s| ≤ 2 * δ := by
  have h' := abs_le.1 h
  have hd : 0 ≤ δ := le_trans (abs_nonneg _) h
  have hs0 : 0 < s := by linarith
  have ht : 1 / 2 ≤ t := by linarith
  have ht0 : 0 < t := by linarith
  have h1 := Real.log_le_sub_one_of_pos (div_pos ht0 hs0)
  have h2 := Real.log_le_sub_one_of_pos (div_pos hs0 ht0)
  rw [Real.log_div ht0.ne' hs0.ne'] at h1
  rw [Real.log_div hs0.ne' ht0.ne'] at h2
  have h3 : t / s ≤ 1 + δ := by
    rw [div_le_iff₀ hs0]
    nlinarith
  have h4 : s / t ≤ 1 + 2 * δ := by
    rw [div_le_iff₀ ht0]
    nlinarith
  rw [abs_le]
  constructor <;> linarith

/-- If numbers are close to the logarithms, the logarithm of the sum of their exponentials is as close. -/
theorem log_sum_near {ι : Type} {l : List ι} (hl : l ≠ []) {y p : ι → ℝ} (hp : ∀ i ∈ l, 0 < p i) {E : ℝ} (h : ∀ i ∈ l, |y i - Real.log (p i)| ≤ E) :
    |Real.log (l.map fun i => Real.exp (y i)).sum - Real.log (l.map p).sum| ≤ E := by
  have hpos : 0 < (l.map p).sum := List.sum_pos _ (fun z hz => by obtain ⟨i, hi, rfl⟩ := List.mem_map.1 hz; exact hp i hi) (by simpa using hl)
  have hpos' : 0 < (l.map fun i => Real.exp (y i)).sum :=
    List.sum_pos _ (fun z hz => by obtain ⟨i, hi, rfl⟩ := List.mem_map.1 hz; exact Real.exp_pos _) (by simpa using hl)
  have h1 : (l.map fun i => Real.exp (y i)).sum ≤ (l.map p).sum * Real.exp E := by
    rw [← List.sum_map_mul_right]
    refine List.sum_le_sum fun i hi => ?_
    have := (abs_le.1 (h i hi)).2
    calc Real.exp (y i) ≤ Real.exp (Real.log (p i) + E) := Real.exp_le_exp.2 (by linarith)
      _ = _ := by rw [Real.exp_add, Real.exp_log (hp i hi)]
  have h2 : (l.map p).sum ≤ (l.map fun i => Real.exp (y i)).sum * Real.exp E := by
    rw [← List.sum_map_mul_right]
    refine List.sum_le_sum fun i hi => ?_
    have := (abs_le.1 (h i hi)).1
    calc p i = Real.exp (Real.log (p i)) := (Real.exp_log (hp i hi)).symm
      _ ≤ Real.exp (y i + E) := Real.exp_le_exp.2 (by linarith)
      _ = _ := by rw [Real.exp_add]
  have h3 := Real.log_le_log hpos' h1
  have h4 := Real.log_le_log hpos h2
  rw [Real.log_mul hpos.ne' (Real.exp_pos _).ne', Real.log_exp] at h3
  rw [Real.log_mul hpos'.ne' (Real.exp_pos _).ne', Real.log_exp] at h4
  rw [abs_le]
  constructor <;> linarith

theorem list_sum_near {ι : Type} (l : List ι) {f g : ι → ℝ} {δ : ℝ} (h : ∀ i ∈ l, |f i - g i| ≤ δ) : |(l.map f).sum - (l.map g).sum| ≤ l.length * δ := by
  induction l with
  | nil => simp
  | cons a l ih =>
    have h1 := h a List.mem_cons_self
    have h2 := ih fun i hi => h i (List.mem_cons_of_mem _ hi)
    rw [List.map_cons, List.map_cons, List.sum_cons, List.sum_cons, List.length_cons]
    push_cast
    rw [abs_le] at h1 h2 ⊢
    constructor <;> linarith [h1.1, h1.2, h2.1, h2.2]

section
variable {M : Nat} [NeZero M] {A : ServeOps M} {ε η ηc : ℝ} {exp : Flt → Flt}

theorem foldl_max_some (l : List ℚ) (x : ℚ) : (l.map some).foldl Flt.max (some x) = some (l.foldl max x) := by
  induction l generalizing x with
  | nil => rfl
  | cons y l ih => exact ih (max x y)

omit [NeZero M] in
/-- `logsumexp` in float32. -/
theorem floatLogsumexp_near (N : Spec.ServeOpsNear A ε) (hsum : Spec.SumClose A.sum) (hexp : Spec.ExpNear exp η) {l : List ℚ} (hl : l ≠ []) (hn : l.length ≤ 2 ^ 20) (hη : l.length * η ≤ 1 / 4)
    {V : Nat} (hb : ∀ y ∈ l, |y| ≤ 104 * V) :
    ∃ q, floatLogsumexp A exp (l.map some) = some q ∧ |q| ≤ 104 * (V + 1) + 104 * (V + 1) * 2 ^ (-23 : Int) ∧
      |(q : ℝ) - Real.log (l.map fun y : ℚ => Real.exp y).sum| ≤ l.length * (2 * η + 3 * 2 ^ (-23 : Int)) + ε + 104 * (V + 1) * 2 ^ (-23 : Int) := by
  cases l with
  | nil => exact absurd rfl hl
  | cons x rest =>
    obtain ⟨ht1, ht2⟩ := foldl_max_spec x rest
    set top := rest.foldl max x with htop
    set l := x :: rest with hlr
    have R := N.ok.ops.rnd
    have hn1 : (1 : ℝ) ≤ l.length := by exact_mod_cast List.length_pos_of_ne_nil hl
    have hd0 : ∀ y ∈ l, A.rnd (y - top) ≤ 0 := fun y hy => R.le_of (isFloat_zero _ _) (by have := ht2 y hy; linarith)
    have hex : ∀ y : ℚ, ∃ e : ℚ, y ∈ l → exp (some (A.rnd (y - top))) = some e ∧ IsFloat 24 (-149) e ∧ 0 ≤ e ∧ |(e : ℝ) - Real.exp ((A.rnd (y - top) : ℚ) : ℝ)| ≤ η := by
      intro y
      by_cases hy : y ∈ l
      · obtain ⟨e, h⟩ := hexp _ (R.float _) (hd0 y hy)
        exact ⟨e, fun _ => h⟩
      · exact ⟨0, fun h => absurd h hy⟩
    choose e he using hex
    have hη0 : 0 ≤ η := le_trans (abs_nonneg _) (he x List.mem_cons_self).2.2.2
    have hη1 : η ≤ 1 / 4 := by nlinarith
    have hnear : ∀ y ∈ l, |((e y : ℚ) : ℝ) - Real.exp ((y : ℝ) - top)| ≤ η + 2 ^ (-23 : Int) := by
      intro y hy
      have hx : ((y - top : ℚ) : ℝ) ≤ 0 := by
        have := ht2 y hy
        exact_mod_cast (by linarith : y - top ≤ 0)
      have h1 := exp_round (x := ((y - top : ℚ) : ℝ)) (d := ((A.rnd (y - top) : ℚ) : ℝ)) hx (by exact_mod_cast hd0 y hy) (by
        have := R.error_maxR (x := y - top) (B := max 1 |y - top|) (le_max_right _ _) (le_max_left _ _)
        push_cast at this ⊢
        exact this)
      have h2 := (he y hy).2.2.2
      push_cast at h1
      rw [abs_le] at h1 h2 ⊢
      constructor <;> linarith [h1.1, h1.2, h2.1, h2.2]
    have hsn := list_sum_near l hnear
    set S := (l.map fun y : ℚ => Real.exp ((y : ℝ) - top)).sum with hS
    have hS1 : 1 ≤ S := by
      have : Real.exp ((top : ℝ) - top) ≤ S := by
        refine List.single_le_sum (l := l.map fun y : ℚ => Real.exp ((y : ℝ) - top)) ?_ _ (List.mem_map.2 ⟨top, ht1, rfl⟩)
        intro z hz
        obtain ⟨y, -, rfl⟩ := List.mem_map.1 hz
        exact (Real.exp_pos _).le
      simpa using this
    have hbig : (l.length : ℝ) * (η + 2 ^ (-23 : Int)) ≤ 1 / 2 := by
      have h1 : (l.length : ℝ) ≤ 2 ^ 20 := by exact_mod_cast hn
      have h2 : (l.length : ℝ) * 2 ^ (-23 : Int) ≤ 2 ^ 20 * 2 ^ (-23 : Int) := mul_le_mul_of_nonneg_right h1 (by positivity)
      have h3 : (2 : ℝ) ^ 20 * 2 ^ (-23 : Int) ≤ 1 / 4 := by norm_num
      linarith
    have hlog1 := log_near_of_abs hS1 hsn hbig
    set T := (l.map fun y => ((e y : ℚ) : ℝ)).sum with hT
    -- the sum in floating point
    have hes : ∀ z ∈ l.map e, IsFloat 24 (-149) z ∧ 0 ≤ z := by
      intro z hz
      obtain ⟨y, hy, rfl⟩ := List.mem_map.1 hz
      exact ⟨(he y hy).2.1, (he y hy).2.2.1⟩
    have hlen : (l.map e).length ≤ 2 ^ 24 := by rw [List.length_map]; exact le_trans hn (by norm_num)
    obtain ⟨d, hd1, hd2, hd3⟩ := hsum (l.map e) hlen hes
    obtain ⟨d', hd1', hdf, -, hdge, hdle⟩ := N.ok.sum (l.map e) hlen hes
    obtain rfl : d = d' := by rw [hd1] at hd1'; exact Option.some.inj hd1'
    have hTe : (((l.map e).sum : ℚ) : ℝ) = T := by
      rw [hT, Rat.cast_list_sum, List.map_map]
      rfl
    have htop1 : (1 : ℝ) / 2 ≤ e top := by
      have h := (abs_le.1 (hnear top ht1)).1
      have : (2 : ℝ) ^ (-23 : Int) ≤ 1 / 4 := by norm_num
      rw [sub_self, Real.exp_zero] at h
      generalize (2 : ℝ) ^ (-23 : Int) = u at this h
      linarith
    have hdpos : 0 < d := by
      have h1 : e top ≤ d := hdge _ (List.mem_map.2 ⟨top, ht1, rfl⟩)
      have h2 : (0 : ℚ) < e top := by
        have : (0 : ℝ) < e top := by linarith
        exact_mod_cast this
      linarith
    have hdbig : d ≤ 2 ^ 127 := by
      refine le_trans (hdle 1 (by norm_num) fun z hz => ?_) ?_
      · obtain ⟨y, hy, rfl⟩ := List.mem_map.1 hz
        have h := (abs_le.1 (hnear y hy)).2
        have h1 : Real.exp ((y : ℝ) - top) ≤ 1 := Real.exp_le_one_iff.2 (by
          have := ht2 y hy
          have : (y : ℝ) ≤ top := by exact_mod_cast this
          linarith)
        have h2 : (2 : ℝ) ^ (-23 : Int) ≤ 1 / 4 := by norm_num
        generalize (2 : ℝ) ^ (-23 : Int) = u at h h2
        have : ((e y : ℚ) : ℝ) ≤ 2 := by linarith
        rw [zpow_one]
        exact_mod_cast this
      · have : ((l.map e).length : ℚ) ≤ 2 ^ 24 := by exact_mod_cast hlen
        rw [zpow_one]
        nlinarith
    have hTpos : 0 < T := by
      have h := (abs_le.1 hsn).1
      generalize (2 : ℝ) ^ (-23 : Int) = u at h hbig
      linarith
    have hlog2 : |Real.log d - Real.log T| ≤ l.length * 2 ^ (-23 : Int) := by
      refine Near.log (k := l.length) ⟨d, rfl, hdf, hdpos, ?_, ?_⟩
      · rw [← hTe]
        rw [List.length_map] at hd2
        exact_mod_cast hd2
      · rw [← hTe]
        rw [List.length_map] at hd3
        exact_mod_cast hd3
    obtain ⟨lg, hlg1, hlg2⟩ := N.ok.log d hdf hdpos hdbig
    have hlg3 := N.log d lg hdf hdpos hdbig hlg1
    refine ⟨A.rnd (lg + top), ?_, ?_, ?_⟩
    · have e1 : (l.map some).map (fun y => exp (Flt.sub A.rnd y (some top))) = (l.map e).map some := by
        rw [List.map_map, List.map_map]
        refine List.map_congr_left fun y hy => ?_
        exact (he y hy).1
      show Flt.add A.rnd (A.log (A.sum ((l.map some).map fun y => exp (Flt.sub A.rnd y ((rest.map some).foldl Flt.max (some x)))))) ((rest.map some).foldl Flt.max (some x)) = _
      rw [foldl_max_some, ← htop, e1, hd1, hlg1]
      rfl
    · have h1 : |lg + top| ≤ 104 * (V + 1) := by
        have := abs_add_le lg top
        have := hb top ht1
        linarith
      have h2 := R.error_max h1 (by have : (0 : ℚ) ≤ V := Nat.cast_nonneg V; linarith)
      have h3 := abs_sub_abs_le_abs_sub (A.rnd (lg + top)) (lg + top)
      linarith
    · have h1 : |lg + top| ≤ 104 * (V + 1) := by
        have := abs_add_le lg top
        have := hb top ht1
        linarith
      have h2 := R.error_maxR h1 (by have : (0 : ℚ) ≤ V := Nat.cast_nonneg V; linarith)
      have hsplit : Real.log (l.map fun y : ℚ => Real.exp y).sum = Real.log S + top := by
        have : (l.map fun y : ℚ => Real.exp y).sum = S * Real.exp top := by
          rw [hS, ← List.sum_map_mul_right]
          congr 1
          refine List.map_congr_left fun y _ => ?_
          rw [← Real.exp_add]
          ring_nf
        rw [this, Real.log_mul (by linarith) (Real.exp_pos _).ne', Real.log_exp]
      rw [hsplit]
      push_cast at h2
      rw [abs_le] at h2 hlg3 hlog1 hlog2 ⊢
      constructor <;> linarith [h2.1, h2.2, hlg3.1, hlg3.2, hlog1.1, hlog1.2, hlog2.1, hlog2.2]

/-- The members one after another. -/
theorem floatEnsemble_members (N : Spec.ServeOpsNear A ε) {V W : Nat} (hV : V ≤ 2 ^ 20) {data : List Int} (models : List (Model ℝ M))
    (h : ∀ m ∈ models, Model.Valid m ∧ Spec.SmallCounts m ∧ m.tree.numVertices = V ∧ (∀ v < V, (columns m v).card ≤ W) ∧ Spec.SingleRow m data)
    {servers : List (FloatServer M)} (hs : floatEnsemble A models = .ok servers)
    (hnu : ∀ srv ∈ servers, Spec.noUnderflow A srv data srv.program ⟨srv.vert, some 0⟩ = true) :
    ∃ qs : List (Model ℝ M × ℚ), servers.mapM (fun srv => srv.logprob A data) = some (qs.map fun p => some p.2) ∧ qs.map Prod.fst = models ∧
      ∀ p ∈ qs, |(p.2 : ℝ) - Real.log (dataProb p.1 fun r => data.getD r 0)| ≤ Spec.logprobError V M W ε ∧ |p.2| ≤ 104 * V := by
  induction models generalizing servers with
  | nil =>
    obtain rfl : servers = [] := by
      simp only [floatEnsemble, List.mapM_nil, pure, Except.pure] at hs
      exact (Except.ok.inj hs).symm
    exact ⟨[], rfl, rfl, by simp⟩
  | cons m models ih =>
    obtain ⟨hval, hsc, hnv, hW, hrow⟩ := h m List.mem_cons_self
    obtain ⟨srv, hsrv, q, hq1, hq2⟩ := floatLogprob_ok N.ok hval hsc (by omega) hrow
    simp only [floatEnsemble, List.mapM_cons, hsrv, bind, Except.bind] at hs
    cases hr : models.mapM (FloatServer.init A) with
    | error e => rw [hr] at hs; cases hs
    | ok rest =>
      rw [hr] at hs
      obtain rfl : srv :: rest = servers := Except.ok.inj hs
      obtain ⟨qs, h1, h2, h3⟩ := ih (fun m' hm' => h m' (List.mem_cons_of_mem _ hm')) hr fun s hs' => hnu s (List.mem_cons_of_mem _ hs')
      obtain ⟨q', hq', hq3⟩ := floatLogprob_near N hval hsc (by omega) (W := W) (by rw [hnv]; exact hW) hrow hsrv (hnu srv List.mem_cons_self)
      obtain rfl : q = q' := by
        rw [hq1] at hq'
        exact Option.some.inj (Option.some.inj hq')
      rw [hnv] at hq2 hq3
      refine ⟨(m, q) :: qs, ?_, by rw [List.map_cons, h2], ?_⟩
      · simp only [List.mapM_cons, hq1, h1, List.map_cons, bind, Option.bind, pure]
      · intro p hp
        rcases List.mem_cons.1 hp with rfl | hp
        · exact ⟨hq3, hq2⟩
        · exact h3 p hp

/-- **C82**. For every non-empty list of at most `2 ^ 20` models as in C70: unless an entry of a message of a member underflows, `EnsembleServer.logprob` computed in float32 is the logarithm of the
mean of the probabilities of the row under the models, up to the error of a member and terms for `exp`, `log` and the rounding of the sum. Probabilities of members that are too small for the
exponential function are no exception. -/
theorem floatEnsembleLogprob_near (N : Spec.ServeOpsNear A ε) (hsum : Spec.SumClose A.sum) (hexp : Spec.ExpNear exp η) {V W : Nat} (hV : V ≤ 2 ^ 20) {data : List Int}
    {models : List (Model ℝ M)} (hne : models ≠ []) (hn : models.length ≤ 2 ^ 20) (hη : models.length * η ≤ 1 / 4)
    (h : ∀ m ∈ models, Model.Valid m ∧ Spec.SmallCounts m ∧ m.tree.numVertices = V ∧ (∀ v < V, (columns m v).card ≤ W) ∧ Spec.SingleRow m data)
    {servers : List (FloatServer M)} (hs : floatEnsemble A models = .ok servers)
    (hnu : ∀ srv ∈ servers, Spec.noUnderflow A srv data srv.program ⟨srv.vert, some 0⟩ = true)
    {logSize : ℚ} (hc : |(logSize : ℝ) - Real.log models.length| ≤ ηc) (hc1 : ηc ≤ 1) :
    ∃ q, floatEnsembleLogprob A exp logSize servers data = some (some q) ∧
      |(q : ℝ) - Real.log ((models.map fun m => dataProb m fun r => data.getD r 0).sum / models.length)| ≤ Spec.ensembleError V M W models.length ε η ηc := by
  obtain ⟨qs, h1, h2, h3⟩ := floatEnsemble_members N hV models h hs hnu
  have hlen : qs.length = models.length := by rw [← h2, List.length_map]
  have hqne : qs ≠ [] := by
    rintro rfl
    exact hne h2.symm
  obtain ⟨q, hq1, hq2, hq3⟩ := floatLogsumexp_near N hsum hexp (l := qs.map Prod.snd) (by simpa using hqne) (by simpa [hlen] using hn) (by simpa [hlen] using hη) (V := V) (by
    intro y hy
    obtain ⟨p, hp, rfl⟩ := List.mem_map.1 hy
    exact (h3 p hp).2)
  have hpos : ∀ m ∈ models, 0 < dataProb m fun r => data.getD r 0 := fun m hm => dataProb_pos (h m hm).1 _
  have hn0 : (0 : ℝ) < models.length := by exact_mod_cast List.length_pos_of_ne_nil hne
  have hsumpos : 0 < (models.map fun m => dataProb m fun r => data.getD r 0).sum :=
    List.sum_pos _ (fun z hz => by obtain ⟨m, hm, rfl⟩ := List.mem_map.1 hz; exact hpos m hm) (by simpa using hne)
  have hls := log_sum_near (l := qs) hqne (y := fun p => (p.2 : ℝ)) (p := fun p => dataProb p.1 fun r => data.getD r 0) (fun p hp => hpos _ (by rw [← h2]; exact List.mem_map.2 ⟨p, hp, rfl⟩))
    fun p hp => (h3 p hp).1
  have e1 : (qs.map fun p => dataProb p.1 fun r => data.getD r 0) = models.map fun m => dataProb m fun r => data.getD r 0 := by
    rw [← h2, List.map_map]
    rfl
  rw [e1] at hls
  rw [List.map_map, List.length_map, hlen] at hq3
  refine ⟨A.rnd (q - logSize), ?_, ?_⟩
  · have e2 : (qs.map fun p => (some p.2 : Flt)) = (qs.map Prod.snd).map some := by
      rw [List.map_map]
      rfl
    simp only [floatEnsembleLogprob, h1, bind, Option.bind]
    rw [e2, hq1]
    rfl
  · rw [Real.log_div hsumpos.ne' hn0.ne']
    have hV1 : (V : ℚ) ≤ 2 ^ 20 := by exact_mod_cast hV
    have hl0 : 0 ≤ Real.log models.length := Real.log_nonneg (by exact_mod_cast List.length_pos_of_ne_nil hne)
    have hl1 : Real.log models.length ≤ 14 := by
      have h4 : Real.log models.length ≤ Real.log (2 ^ 20) := Real.log_le_log hn0 (by exact_mod_cast hn)
      rw [Real.log_pow] at h4
      have := Real.log_two_lt_d9
      push_cast at h4
      linarith
    have hls1 : |logSize| ≤ 15 := by
      have h4 : |(logSize : ℝ)| ≤ 15 := by
        rw [abs_le] at hc ⊢
        constructor <;> linarith [hc.1, hc.2]
      exact_mod_cast h4
    have hbd : |q - logSize| ≤ 104 * (V + 2) := by
      have h4 := abs_sub q logSize
      have h5 : (104 : ℚ) * (V + 1) * 2 ^ (-23 : Int) ≤ 104 * (2 ^ 20 + 1) * 2 ^ (-23 : Int) := mul_le_mul_of_nonneg_right (by linarith) (by positivity)
      have h6 : (104 : ℚ) * (2 ^ 20 + 1) * 2 ^ (-23 : Int) ≤ 14 := by norm_num
      linarith
    have h7 := N.ok.ops.rnd.error_maxR hbd (by have : (0 : ℚ) ≤ V := Nat.cast_nonneg V; linarith)
    push_cast at h7
    unfold Spec.ensembleError
    change |(q : ℝ) - Real.log (qs.map fun p => Real.exp (p.2 : ℝ)).sum| ≤ _ at hq3
    generalize (2 : ℝ) ^ (-23 : Int) = u at hq3 h7 ⊢
    rw [abs_le] at h7 hq3 hls hc ⊢
    constructor <;> linarith [h7.1, h7.2, hq3.1, hq3.2, hls.1, hls.2, hc.1, hc.2]

end

theorem floor_near (x : ℝ) : |(⌊x * 2 ^ 16⌋ : ℝ) / 2 ^ 16 - x| ≤ 2 ^ (-16 : Int) := by
  have h1 := Int.floor_le (x * 2 ^ 16)
  have h2 := Int.lt_floor_add_one (x * 2 ^ 16)
  generalize (⌊x * 2 ^ 16⌋ : ℝ) = y at h1 h2 ⊢
  rw [abs_le, zpow_neg]
  norm_num at h1 h2 ⊢
  constructor <;> linarith

/-- An exponential function rounded down to a multiple of `2 ^ -16`. -/
noncomputable def coarseExp (q : ℚ) : ℚ := ⌊Real.exp q * 2 ^ 16⌋ / 2 ^ 16

theorem coarseExp_near : Spec.ExpNear (fun x => x.map coarseExp) (2 ^ (-16 : Int)) := by
  intro q _ hq
  have h1 := Int.floor_le (Real.exp (q : ℝ) * 2 ^ 16)
  have h2 := Int.lt_floor_add_one (Real.exp (q : ℝ) * 2 ^ 16)
  have h3 : Real.exp (q : ℝ) ≤ 1 := Real.exp_le_one_iff.2 (by exact_mod_cast hq)
  have h4 : 0 ≤ ⌊Real.exp (q : ℝ) * 2 ^ 16⌋ := Int.floor_nonneg.2 (by positivity)
  have h5 : ⌊Real.exp (q : ℝ) * 2 ^ 16⌋ ≤ 2 ^ 16 := by
    have : (⌊Real.exp (q : ℝ) * 2 ^ 16⌋ : ℝ) ≤ 2 ^ 16 := by linarith
    exact_mod_cast this
  refine ⟨coarseExp q, rfl, ?_, by unfold coarseExp; positivity, ?_⟩
  · have := isFloat_of_le (p := 24) (emin := -149) (by norm_num) (show (-149 : Int) ≤ -16 by norm_num) (m := ⌊Real.exp (q : ℝ) * 2 ^ 16⌋) (by
      rw [abs_of_nonneg h4]
      refine le_trans h5 (by norm_num))
    unfold coarseExp
    have e : (2 : ℚ) ^ (-16 : Int) = (2 ^ 16)⁻¹ := by norm_num
    rw [div_eq_mul_inv, ← e]
    exact this
  · have e : ((coarseExp q : ℚ) : ℝ) = ⌊Real.exp (q : ℝ) * 2 ^ 16⌋ / 2 ^ 16 := by
      unfold coarseExp
      push_cast
      rfl
    rw [e]
    exact floor_near _

theorem numpyLog_two : |((floorLog 2 : ℚ) : ℝ) - Real.log (2 : Nat)| ≤ 2 ^ (-16 : Int) := by
  have e : ((floorLog 2 : ℚ) : ℝ) = ⌊Real.log ((2 : ℚ) : ℝ) * 2 ^ 16⌋ / 2 ^ 16 := by
    unfold floorLog
    push_cast
    rfl
  have e2 : ((2 : ℚ) : ℝ) = ((2 : Nat) : ℝ) := by norm_num
  rw [e, ← e2]
  exact floor_near _

/-- A second model for the same features, without data. -/
noncomputable def freshModel : Model ℝ 2 := { exampleModel ℝ with vertSS := fun _ _ => 0, edgeSS := fun _ _ _ => 0, featSS := fun _ _ => 0 }

theorem freshModel_valid : Model.Valid freshModel where
  isTree := (exampleModel_valid ℝ).isTree
  sorted := (exampleModel_valid ℝ).sorted
  ragged := (exampleModel_valid ℝ).ragged
  mono := (exampleModel_valid ℝ).mono
  vert _ _ _ := le_refl _
  edge _ _ _ _ := le_refl _
  feat _ _ _ _ _ := le_refl _
  logits := (exampleModel_valid ℝ).logits

/-- The hypotheses can be met: two models of three features, in which the logarithm is correct up to 1/1000. -/
example : ∃ servers, floatEnsemble (numpyServe 2 floorLog) [exampleModel ℝ, freshModel] = .ok servers ∧
    ∃ q, floatEnsembleLogprob (numpyServe 2 floorLog) (fun x => x.map coarseExp) (floorLog 2) servers [1, 0, 0, 1, 0, 0, 0] = some (some q) ∧
    |(q : ℝ) - Real.log ((dataProb (exampleModel ℝ) (fun r => [1, 0, 0, 1, 0, 0, 0].getD r 0) + dataProb freshModel fun r => [1, 0, 0, 1, 0, 0, 0].getD r 0) / 2)| ≤ 1 / 1000 := by
  have hu : ((floatEnsemble (numpyServe 2 floorLog) [exampleModel ℝ, freshModel]).toOption.map fun servers => servers.all fun srv =>
      Spec.noUnderflow (numpyServe 2 floorLog) srv [1, 0, 0, 1, 0, 0, 0] srv.program ⟨srv.vert, some 0⟩) = some true := by decide +kernel
  cases hs : floatEnsemble (numpyServe 2 floorLog) [exampleModel ℝ, freshModel] with
  | error e => rw [hs] at hu; cases hu
  | ok servers =>
    rw [hs] at hu
    have hw : ∀ v < 3, (columns (exampleModel ℝ) v).card ≤ 3 := by decide +kernel
    have hlog := numpyLog_two
    obtain ⟨q, h1, h2⟩ := floatEnsembleLogprob_near (numpyServe_near (by norm_num)) (seqSum_close float32_mono) coarseExp_near (V := 3) (W := 3) (by norm_num)
      (data := [1, 0, 0, 1, 0, 0, 0]) (models := [exampleModel ℝ, freshModel]) (by simp) (by norm_num) (by norm_num) (by
        intro m hm
        rcases List.mem_pair.1 hm with rfl | rfl
        · exact ⟨exampleModel_valid ℝ, exampleReal_small, rfl, hw, exampleReal_row⟩
        · exact ⟨freshModel_valid, ⟨exampleReal_small.clusters, fun _ _ _ => by norm_num [freshModel], fun _ _ _ _ => by norm_num [freshModel],
            fun _ _ _ _ _ => by norm_num [freshModel], exampleReal_small.width⟩, rfl, hw, exampleReal_row⟩) hs
      (fun srv hsrv => List.all_eq_true.1 (Option.some.inj hu) srv hsrv) hlog (by norm_num)
    refine ⟨servers, rfl, q, h1, ?_⟩
    have e : ([exampleModel ℝ, freshModel].map fun m => dataProb m fun r => ([1, 0, 0, 1, 0, 0, 0] : List Int).getD r 0).sum / (([exampleModel ℝ, freshModel].length : Nat) : ℝ)
        = (dataProb (exampleModel ℝ) (fun r => [1, 0, 0, 1, 0, 0, 0].getD r 0) + dataProb freshModel fun r => [1, 0, 0, 1, 0, 0, 0].getD r 0) / 2 := by
      simp
    rw [e] at h2
    refine le_trans h2 ?_
    change Spec.ensembleError 3 2 3 2 _ _ _ ≤ _
    unfold Spec.ensembleError Spec.logprobError
    norm_num

end TreeCat
