import Verif.Lemmas.FloatMono
import Verif.Lemmas.Program
import Verif.Lemmas.RowCell
import Verif.Model.FloatRow
import Verif.Props.FloatSample

/-! # Bounds in the floating point loop -/

namespace TreeCat

open Util Spec

/-- Nonnegative float32 numbers up to `2 ^ hi`. -/
def FLe (hi : Int) (x : Flt) : Prop := ∃ q, x = some q ∧ IsFloat 24 (-149) q ∧ 0 ≤ q ∧ q ≤ 2 ^ hi

/-- Numbers from `2 ^ lo` on. -/
def FGe (lo : Int) (x : Flt) : Prop := ∃ q, x = some q ∧ 2 ^ lo ≤ q

theorem isFloat_pow {e : Int} (he : -149 ≤ e) : IsFloat 24 (-149) (2 ^ e) := ⟨1, e, by norm_num, he, by simp⟩

theorem FLe.weaken {a b : Int} (h : a ≤ b) {x : Flt} (hx : FLe a x) : FLe b x := by
  obtain ⟨q, rfl, h1, h2, h3⟩ := hx
  exact ⟨q, rfl, h1, h2, le_trans h3 (zpow_mono h)⟩

theorem FGe.weaken {a b : Int} (h : b ≤ a) {x : Flt} (hx : FGe a x) : FGe b x := by
  obtain ⟨q, rfl, h1⟩ := hx
  exact ⟨q, rfl, le_trans (zpow_mono h) h1⟩

section
variable {rnd : ℚ → ℚ} (R : MonoRounding 24 (-149) rnd)
include R

theorem FLe.mul {a b : Int} {x y : Flt} (hx : FLe a x) (hy : FLe b y) (h : -149 ≤ a + b) : FLe (a + b) (Flt.mul rnd x y) := by
  obtain ⟨q, rfl, -, h2, h3⟩ := hx
  obtain ⟨q', rfl, -, h2', h3'⟩ := hy
  refine ⟨rnd (q * q'), rfl, R.float _, R.nonneg (mul_nonneg h2 h2'), R.le_of (isFloat_pow h) ?_⟩
  rw [zpow_split]
  exact mul_le_mul h3 h3' h2' (two_zpow_pos a).le

theorem FGe.mul {a b : Int} {x y : Flt} (hx : FGe a x) (hy : FGe b y) (h : -149 ≤ a + b) : FGe (a + b) (Flt.mul rnd x y) := by
  obtain ⟨q, rfl, h2⟩ := hx
  obtain ⟨q', rfl, h2'⟩ := hy
  refine ⟨rnd (q * q'), rfl, R.ge_of (isFloat_pow h) ?_⟩
  rw [zpow_split]
  exact mul_le_mul h2 h2' (two_zpow_pos b).le (le_trans (two_zpow_pos a).le h2)

theorem FLe.div {a b : Int} {x : Flt} {r : ℚ} (hx : FLe a x) (hr : 2 ^ b ≤ r) (h : -149 ≤ a - b) : FLe (a - b) (Flt.div rnd x (some r)) := by
  obtain ⟨q, rfl, -, h2, h3⟩ := hx
  have hr0 : 0 < r := lt_of_lt_of_le (two_zpow_pos b) hr
  refine ⟨rnd (q / r), by simp [Flt.div, hr0.ne'], R.float _, R.nonneg (div_nonneg h2 hr0.le), R.le_of (isFloat_pow h) ?_⟩
  rw [div_le_iff₀ hr0]
  have : (2 : ℚ) ^ (a - b) * 2 ^ b ≤ 2 ^ (a - b) * r := mul_le_mul_of_nonneg_left hr (two_zpow_pos _).le
  rw [← zpow_split, sub_add_cancel] at this
  linarith

theorem FGe.div {a b : Int} {x : Flt} {r : ℚ} (hx : FGe a x) (hr0 : 0 < r) (hr : r ≤ 2 ^ b) (h : -149 ≤ a - b) : FGe (a - b) (Flt.div rnd x (some r)) := by
  obtain ⟨q, rfl, h2⟩ := hx
  refine ⟨rnd (q / r), by simp [Flt.div, hr0.ne'], R.ge_of (isFloat_pow h) ?_⟩
  rw [le_div_iff₀ hr0]
  have : (2 : ℚ) ^ (a - b) * r ≤ 2 ^ (a - b) * 2 ^ b := mul_le_mul_of_nonneg_left hr (two_zpow_pos _).le
  rw [← zpow_split, sub_add_cancel] at this
  linarith

end

/-- A vector of nonnegative floats up to `2 ^ hi`, one of which is at least `2 ^ lo`. -/
def Msg {M : Nat} (lo hi : Int) (f : Fin M → Flt) : Prop := (∀ a, FLe hi (f a)) ∧ ∃ a, FGe lo (f a)

theorem Msg.weaken {M : Nat} {a b c d : Int} (h1 : c ≤ a) (h2 : b ≤ d) {f : Fin M → Flt} (h : Msg a b f) : Msg c d f :=
  ⟨fun x => (h.1 x).weaken h2, h.2.imp fun _ h => h.weaken h1⟩

/-! ### The largest entry -/

theorem foldl_fltMax {ι : Type} (f : ι → Flt) (g : ι → ℚ) (h : ∀ a, f a = some (g a)) (l : List ι) (q : ℚ) :
    ∃ r, l.foldl (fun x m => Flt.max x (f m)) (some q) = some r ∧ q ≤ r ∧ (∀ a ∈ l, g a ≤ r) ∧ (r = q ∨ ∃ a ∈ l, r = g a) := by
  induction l generalizing q with
  | nil => exact ⟨q, rfl, le_refl _, by simp, .inl rfl⟩
  | cons a l ih =>
    obtain ⟨r, h1, h2, h3, h4⟩ := ih (max q (g a))
    refine ⟨r, ?_, le_trans (le_max_left _ _) h2, ?_, ?_⟩
    · rw [List.foldl_cons, h a]
      exact h1
    · intro b hb
      rcases List.mem_cons.1 hb with rfl | hb
      · exact le_trans (le_max_right _ _) h2
      · exact h3 b hb
    · rcases h4 with h4 | ⟨b, hb, h4⟩
      · rcases max_choice q (g a) with h5 | h5
        · exact .inl (h4.trans h5)
        · exact .inr ⟨a, List.mem_cons_self, h4.trans h5⟩
      · exact .inr ⟨b, List.mem_cons_of_mem _ hb, h4⟩

theorem fltMax_spec {M : Nat} [NeZero M] {f : Fin M → Flt} {g : Fin M → ℚ} (h : ∀ a, f a = some (g a)) :
    ∃ r, fltMax f = some r ∧ (∀ a, g a ≤ r) ∧ ∃ a, r = g a := by
  obtain ⟨r, h1, h2, h3, h4⟩ := foldl_fltMax f g h (List.finRange M) (g 0)
  refine ⟨r, ?_, fun a => h3 a (List.mem_finRange a), ?_⟩
  · unfold fltMax
    rw [h 0]
    exact h1
  · rcases h4 with h4 | ⟨a, -, h4⟩
    · exact ⟨0, h4⟩
    · exact ⟨a, h4⟩

/-- Scaling by the largest entry gives entries up to one, and one of them is one. -/
theorem Msg.scale {M : Nat} [NeZero M] {rnd : ℚ → ℚ} (R : MonoRounding 24 (-149) rnd) {lo hi : Int} {f : Fin M → Flt} (h : Msg lo hi f) :
    Msg 0 0 fun a => Flt.div rnd (f a) (fltMax f) := by
  choose g h1 h2 h3 h4 using h.1
  obtain ⟨r, e, hle, a, ha⟩ := fltMax_spec h1
  obtain ⟨b, q, hb, hq⟩ := h.2
  have hr : 0 < r := by
    have : q = g b := by rw [h1 b] at hb; exact (Option.some.inj hb).symm
    have := hle b
    have := two_zpow_pos lo
    linarith
  have h1f : IsFloat 24 (-149) 1 := ⟨1, 0, by norm_num, by norm_num, by norm_num⟩
  refine ⟨fun c => ?_, a, ?_⟩
  · refine ⟨rnd (g c / r), by show Flt.div rnd (f c) (fltMax f) = _; rw [e, h1 c]; simp [Flt.div, hr.ne'], R.float _, R.nonneg (div_nonneg (h3 c) hr.le), ?_⟩
    rw [zpow_zero]
    exact R.le_of h1f ((div_le_one hr).2 (hle c))
  · refine ⟨rnd (g a / r), by show Flt.div rnd (f a) (fltMax f) = _; rw [e, h1 a]; simp [Flt.div, hr.ne'], ?_⟩
    rw [zpow_zero, ← ha, div_self hr.ne']
    exact R.ge_of h1f (le_refl _)

/-! ### Inner products -/

/-- What is assumed of `np.dot` on nonnegative float32 vectors: the result is a nonnegative float32 that respects bounds on the products which are powers
of two. Any order of summation with rounded products, or with fused operations, satisfies this. -/
def Spec.DotOk {M : Nat} (dot : (Fin M → Flt) → (Fin M → Flt) → Flt) : Prop :=
  ∀ x y : Fin M → ℚ, (∀ b, IsFloat 24 (-149) (x b) ∧ 0 ≤ x b) → (∀ b, IsFloat 24 (-149) (y b) ∧ 0 ≤ y b) →
    ∃ d, dot (fun b => some (x b)) (fun b => some (y b)) = some d ∧ IsFloat 24 (-149) d ∧ 0 ≤ d ∧
      (∀ k : Int, -149 ≤ k → ∀ b, 2 ^ k ≤ x b * y b → 2 ^ k ≤ d) ∧ ∀ k : Int, -149 ≤ k → (∀ b, x b * y b ≤ 2 ^ k) → d ≤ M * 2 ^ k

theorem seqDot_fold {M : Nat} {rnd : ℚ → ℚ} (R : MonoRounding 24 (-149) rnd) (x y : Fin M → ℚ) (hx : ∀ b, 0 ≤ x b) (hy : ∀ b, 0 ≤ y b)
    (l : List (Fin M)) (n : Nat) (hn : n + l.length ≤ 2 ^ 24) (q : ℚ) (hq : IsFloat 24 (-149) q) (hq0 : 0 ≤ q) :
    ∃ d, l.foldl (fun acc b => Flt.add rnd acc (Flt.mul rnd (some (x b)) (some (y b)))) (some q) = some d ∧ IsFloat 24 (-149) d ∧ q ≤ d ∧
      (∀ k : Int, -149 ≤ k → ∀ b ∈ l, 2 ^ k ≤ x b * y b → 2 ^ k ≤ d) ∧
      ∀ k : Int, -149 ≤ k → q ≤ n * 2 ^ k → (∀ b ∈ l, x b * y b ≤ 2 ^ k) → d ≤ (n + l.length : Nat) * 2 ^ k := by
  induction l generalizing n q with
  | nil => exact ⟨q, rfl, hq, le_refl _, by simp, fun k _ h _ => by simpa using h⟩
  | cons b l ih =>
    have hprod := R.nonneg (mul_nonneg (hx b) (hy b))
    have hle : q ≤ rnd (q + rnd (x b * y b)) := R.ge_of hq (by linarith)
    obtain ⟨d, h1, h2, h3, h4, h5⟩ := ih (n + 1) (by simp at hn ⊢; omega) (rnd (q + rnd (x b * y b))) (R.float _) (le_trans hq0 hle)
    refine ⟨d, h1, h2, le_trans hle h3, ?_, ?_⟩
    · intro k hk c hc hkc
      rcases List.mem_cons.1 hc with rfl | hc
      · refine le_trans (R.ge_of (isFloat_pow hk) ?_) h3
        have := R.ge_of (isFloat_pow hk) hkc
        linarith
      · exact h4 k hk c hc hkc
    · intro k hk hqk hall
      have hn1 : n + 1 ≤ 2 ^ 24 := by simp at hn; omega
      have hfl : IsFloat 24 (-149) (((n + 1 : Nat) : ℚ) * 2 ^ k) := by
        have := isFloat_of_le (p := 24) (emin := -149) (by norm_num) hk (m := ((n + 1 : Nat) : Int)) (by
          rw [abs_of_nonneg (by omega)]
          exact_mod_cast hn1)
        simpa using this
      have := h5 k hk (R.le_of hfl (by
        have := R.le_of (isFloat_pow hk) (hall b List.mem_cons_self)
        push_cast
        linarith)) fun c hc => hall c (List.mem_cons_of_mem _ hc)
      refine le_trans this (le_of_eq ?_)
      congr 2
      simp only [List.length_cons]
      omega

/-- Summation from left to right satisfies the assumption. -/
theorem seqDot_ok {M : Nat} (hM : M ≤ 2 ^ 24) {rnd : ℚ → ℚ} (R : MonoRounding 24 (-149) rnd) : Spec.DotOk (M := M) (seqDot rnd) := by
  intro x y hx hy
  obtain ⟨d, h1, h2, h3, h4, h5⟩ := seqDot_fold R x y (fun b => (hx b).2) (fun b => (hy b).2) (List.finRange M) 0 (by simpa using hM) 0 (isFloat_zero _ _) (le_refl _)
  refine ⟨d, h1, h2, h3, fun k hk b hb => h4 k hk b (List.mem_finRange b) hb, fun k hk hall => ?_⟩
  have := h5 k hk (by simp) fun b _ => hall b
  simpa using this

/-! ### Sampling -/

theorem fltCumsum_some (rs : ℚ → ℚ) (l : List ℚ) (q : ℚ) : fltCumsum rs (some q) (l.map some) = (floatCumsumFrom rs q l).map some := by
  induction l generalizing q with
  | nil => rfl
  | cons a l ih =>
    simp only [List.map_cons, fltCumsum, floatCumsumFrom]
    rw [← ih]
    rfl

theorem fltSample_some (rs rp : ℚ → ℚ) (l : List ℚ) (u : ℚ) : fltSample rs rp (l.map some) u = floatSample rs rp l u := by
  simp only [fltSample, floatSample, fltCumsum_some, List.getLast?_map]
  cases h : (floatCumsumFrom rs 0 l).getLast? with
  | none => rfl
  | some total =>
    simp only [Option.map_some, Except.ok.injEq]
    unfold argmaxLt
    rw [List.map_map, List.findIdx?_map]
    have e : (fun c : ℚ => decide (rp (u * total) < c)) = id ∘ ((fun c => Flt.lt (Flt.mul rp (some u) (some total)) c) ∘ some) := by
      funext c
      rfl
    rw [← e]
    cases List.findIdx? (fun c : ℚ => decide (rp (u * total) < c)) (floatCumsumFrom rs 0 l) <;> rfl

/-- The assumptions on the arithmetic. -/
structure Spec.OpsOk {M : Nat} (A : FloatOps M) : Prop where
  rnd : MonoRounding 24 (-149) A.rnd
  dot : Spec.DotOk A.dot
  rs : IsRounding 24 (-149) A.rs
  rp : IsRounding 53 (-1074) A.rp

/-- What `np.random.rand` can return. -/
def Spec.IsDraw (u : ℚ) : Prop := ∃ k : Nat, k < 2 ^ 53 ∧ u = (k : ℚ) / 2 ^ 53

theorem floatClass_ok {M : Nat} [NeZero M] {A : FloatOps M} (O : Spec.OpsOk A) {lo hi : Int} {w : Fin M → Flt} (h : Msg lo hi w) {u : ℚ} (hu : Spec.IsDraw u) :
    ∃ a q, floatClass A w u = .ok a ∧ w a = some q ∧ 0 < q := by
  choose g h1 h2 h3 h4 using h.1
  obtain ⟨b, q, hb, hq⟩ := h.2
  have hgb : 0 < g b := by
    have : q = g b := by rw [h1 b] at hb; exact (Option.some.inj hb).symm
    have := two_zpow_pos lo
    linarith
  obtain ⟨k, hk, rfl⟩ := hu
  have hk' : (k : ℚ) + 1 ≤ 2 ^ 53 := by exact_mod_cast hk
  have hw : (List.finRange M).map w = ((List.finRange M).map g).map some := by
    rw [List.map_map]
    exact List.map_congr_left fun a _ => h1 a
  have h0 : ∀ x ∈ (List.finRange M).map g, 0 ≤ x := by
    intro x hx
    obtain ⟨a, -, rfl⟩ := List.mem_map.1 hx
    exact h3 a
  have hfl : ∀ x ∈ (List.finRange M).map g, IsFloat 24 (-149) x := by
    intro x hx
    obtain ⟨a, -, rfl⟩ := List.mem_map.1 hx
    exact h2 a
  have hx : g b ∈ (List.finRange M).map g := List.mem_map.2 ⟨b, List.mem_finRange b, rfl⟩
  obtain ⟨i, hi', e, hpos⟩ := floatSample_support (ps := (List.finRange M).map g) O.rs O.rp (by norm_num) (by norm_num) (by norm_num) h0 (List.ne_nil_of_mem hx)
    (le_trans (le_trans (zpow_mono (by norm_num)) ((hfl _ hx).ge hgb)) (le_floatPrefix O.rs h0 hfl hx)) (u := (k : ℚ) / 2 ^ 53) (by positivity) (by
      rw [div_le_iff₀ (by positivity), sub_mul, div_mul_cancel₀ _ (by positivity)]
      linarith)
  have hi2 : i < M := by simpa using hi'
  refine ⟨⟨i, hi2⟩, g ⟨i, hi2⟩, ?_, h1 _, ?_⟩
  · unfold floatClass
    rw [hw, fltSample_some, e]
    simp only [bind, Except.bind, Except.ok.injEq]
    apply Fin.ext
    exact Nat.mod_eq_of_lt hi2
  · simpa using hpos

end TreeCat
