import Verif.Lemmas.Close
import Verif.Props.FloatRow

/-! # Drawing the classes of a row in float32 -/

namespace TreeCat

open Util Spec
open scoped BigOperators

section
variable {M : Nat} [NeZero M] {A : FloatOps M}

/-- The class that the draw `d` gives. -/
def floatPick (A : FloatOps M) (w : Fin M → Flt) (d : Nat) : Fin M :=
  match floatClass A w ((d : ℚ) / 2 ^ 53) with
  | .ok a => a
  | .error _ => 0

/-- The error of one draw from `M` weights within `k` roundings. -/
noncomputable def drawErr (M k : Nat) : ℝ := M * (2 ^ (-23 : Int) + 2 ^ (-52 : Int)) + 2 * k * 2 ^ (-23 : Int)

theorem floatPick_ok (O : Spec.OpsOk A) {lo hi : Int} {w : Fin M → Flt} (h : Msg lo hi w) {d : Nat} (hd : d < 2 ^ 53) :
    floatClass A w ((d : ℚ) / 2 ^ 53) = .ok (floatPick A w d) := by
  obtain ⟨a, q, h1, -⟩ := floatClass_ok O h (u := (d : ℚ) / 2 ^ 53) ⟨d, hd, rfl⟩
  unfold floatPick
  rw [h1]

theorem floatPick_average (O : Spec.OpsOk A) (hM : M ≤ 128) {k : Nat} {w : Fin M → Flt} {x : Fin M → ℝ} (h : ∀ a, Near k (w a) (x a)) {f : Fin M → ℝ} {lo hi : ℝ}
    (hf : ∀ a, lo ≤ f a ∧ f a ≤ hi) :
    |(∑ d ∈ Finset.range (2 ^ 53), f (floatPick A w d)) / ((2 ^ 53 : Nat) : ℝ) - (∑ a, x a * f a) / ∑ a, x a| ≤ drawErr M k * (hi - lo) := by
  have hM1 : 1 ≤ M := Nat.one_le_iff_ne_zero.2 (NeZero.ne M)
  generalize hn : (2 ^ 53 : Nat) = n
  have hn0 : 0 < n := by rw [← hn]; positivity
  set g : Fin M → ℚ := fun a => (w a).getD 0 with hg
  have hw : (List.finRange M).map w = ((List.finRange M).map g).map some := by
    rw [List.map_map]
    exact List.map_congr_left fun a _ => (h a).get.1
  set ps := (List.finRange M).map g with hps
  have hlen : ps.length = M := by simp [hps]
  have hne : ps ≠ [] := List.ne_nil_of_length_pos (by omega)
  have hpos : ∀ x ∈ ps, 0 < x ∧ IsFloat 24 (-149) x := by
    intro x hx
    obtain ⟨a, -, rfl⟩ := List.mem_map.1 hx
    exact ⟨(h a).get.2.2.1, (h a).get.2.1⟩
  have hget : ∀ a : Fin M, ps.getD a.val 0 = g a := by
    intro a
    simp [hps, List.getD_eq_getElem?_getD]
  have hbig : ∃ x ∈ ps, (2 : ℚ) ^ ((-1074 : Int) + (53 : Nat)) ≤ x := by
    obtain ⟨x, l, hx⟩ := List.exists_cons_of_ne_nil hne
    have hxm : x ∈ ps := by rw [hx]; exact List.mem_cons_self
    exact ⟨x, hxm, le_trans (zpow_mono (by norm_num)) ((hpos x hxm).2.ge (hpos x hxm).1)⟩
  have hdist := floatCount_distance O.rs O.rp (by norm_num) (by norm_num) (by norm_num) (fun x hx => (hpos x hx).1.le) (fun x hx => (hpos x hx).2) hbig
    (by rw [hlen]; omega) hn0 (by rw [← hn])
  -- the average as a sum over classes
  set F : Nat → ℝ := fun i => f (Fin.ofNat M i) with hF
  have hpick : ∀ d, f (floatPick A w d) = drawValue (N := ps.length) (floatSample A.rs A.rp ps ((d : ℚ) / n)) fun i => F i.val := by
    intro d
    obtain ⟨i, hi, hs⟩ := floatSample_range (ps := ps) A.rs A.rp hne ((d : ℚ) / n)
    have hs' : floatSample A.rs A.rp ps ((d : ℚ) / 2 ^ 53) = .ok i := by
      rw [← hs, ← hn]; push_cast; rfl
    have : floatPick A w d = Fin.ofNat M i := by
      unfold floatPick floatClass
      rw [hw, fltSample_some, hs']
      rfl
    rw [this, hs]
    simp only [drawValue, dif_pos hi, hF]
  simp only [hpick]
  rw [sum_floatCount hne F]
  have hone : ∑ i ∈ Finset.range ps.length, (floatCount A.rs A.rp ps n i : ℝ) / n = 1 := by
    have h1 := sum_floatCount (rs := A.rs) (rp := A.rp) (n := n) hne fun _ => (1 : ℝ)
    have h2 : ∀ d : Nat, drawValue (N := ps.length) (floatSample A.rs A.rp ps ((d : ℚ) / n)) (fun _ => (1 : ℝ)) = 1 := by
      intro d
      obtain ⟨i, hi, hs⟩ := floatSample_range (ps := ps) A.rs A.rp hne ((d : ℚ) / n)
      rw [hs]
      simp only [drawValue, dif_pos hi]
    simp only [h2, mul_one, Finset.sum_const, Finset.card_range, nsmul_eq_mul] at h1
    rw [← Finset.sum_div, ← h1]
    exact div_self (by exact_mod_cast hn0.ne')
  have hsum0 : 0 < ps.sum := List.sum_pos _ (fun x hx => (hpos x hx).1) hne
  have hsum : (ps.sum : ℝ) = ∑ i ∈ Finset.range ps.length, ((ps.getD i 0 : ℚ) : ℝ) := by
    rw [list_sum_range ps]
    push_cast
    rfl
  have hone' : ∑ i ∈ Finset.range ps.length, ((ps.getD i 0 : ℚ) : ℝ) / (ps.sum : ℝ) = 1 := by
    rw [← Finset.sum_div, ← hsum]
    exact div_self (by exact_mod_cast hsum0.ne')
  have h3 := expect_distance (Finset.range ps.length) (fun i => (floatCount A.rs A.rp ps n i : ℝ) / n) (fun i => ((ps.getD i 0 : ℚ) : ℝ) / (ps.sum : ℝ)) F hone hone'
    (lo := lo) (hi := hi) fun i _ => hf _
  have hdist' : ∑ i ∈ Finset.range ps.length, |(floatCount A.rs A.rp ps n i : ℝ) / n - ((ps.getD i 0 : ℚ) : ℝ) / (ps.sum : ℝ)|
      ≤ M * (1 / n + 3 / 2 / 2 ^ 53 + 4 / 2 ^ 24) := by
    have := (Rat.cast_le (K := ℝ)).2 hdist
    rw [hlen] at this ⊢
    simp only [Rat.cast_sum, Rat.cast_abs, Rat.cast_sub, Rat.cast_div, Rat.cast_natCast, Rat.cast_mul, Rat.cast_add, Rat.cast_one, Rat.cast_ofNat, Rat.cast_pow] at this
    exact this
  have hn' : (n : ℝ) = 2 ^ 53 := by rw [← hn]; norm_num
  have hspan : 0 ≤ hi - lo := by linarith [(hf 0).1, (hf 0).2]
  have e1 : (∑ i ∈ Finset.range ps.length, (floatCount A.rs A.rp ps n i : ℝ) * F i) / (n : ℝ) = ∑ i ∈ Finset.range ps.length, (floatCount A.rs A.rp ps n i : ℝ) / n * F i := by
    rw [Finset.sum_div]
    exact Finset.sum_congr rfl fun i _ => by ring
  have e2 : ∑ i ∈ Finset.range ps.length, ((ps.getD i 0 : ℚ) : ℝ) / (ps.sum : ℝ) * F i = (∑ a, (g a : ℝ) * f a) / ∑ a, (g a : ℝ) := by
    have e3 : ∀ G : Nat → ℝ, ∑ i ∈ Finset.range ps.length, G i = ∑ a : Fin M, G a.val := by
      intro G
      rw [hlen, Finset.sum_range]
    rw [hsum, e3, e3]
    rw [Finset.sum_div]
    refine Finset.sum_congr rfl fun a _ => ?_
    have : Fin.ofNat M a.val = a := Fin.ext (Nat.mod_eq_of_lt a.isLt)
    simp only [hget, hF, this]
    ring
  rw [e2] at h3
  rw [e1]
  have h4 := close_expect (Finset.univ : Finset (Fin M)) ⟨0, Finset.mem_univ _⟩ (w := fun a => (g a : ℝ)) (w' := x) (k := f) (K := k) (fun a _ => (h a).close) (lo := lo) (hi := hi) fun a _ => hf a
  refine le_trans (abs_sub_le _ ((∑ a, (g a : ℝ) * f a) / ∑ a, (g a : ℝ)) _) ?_
  refine le_trans (add_le_add h3 h4) ?_
  rw [← add_mul]
  refine mul_le_mul_of_nonneg_right ?_ hspan
  unfold drawErr
  refine add_le_add ?_ (le_refl _)
  rw [div_le_iff₀ two_pos]
  refine le_trans hdist' ?_
  rw [hn']
  rw [mul_assoc]
  refine mul_le_mul_of_nonneg_left ?_ (Nat.cast_nonneg _)
  norm_num

/-! ### Draws one after the other -/

/-- The classes after drawing those of the listed vertices, from weights that depend on the classes so far. -/
def pickChain (pick : Nat → (Nat → Fin M) → Nat → Fin M) : List Nat → (Nat → Fin M) → (Nat → Nat) → Nat → Fin M
  | [], z, _ => z
  | v :: B, z, d => pickChain pick B (Function.update z v (pick v z (d v))) d

omit [NeZero M] in
theorem pickChain_congr (pick : Nat → (Nat → Fin M) → Nat → Fin M) (B : List Nat) (z : Nat → Fin M) {d d' : Nat → Nat} (h : ∀ v ∈ B, d v = d' v) : pickChain pick B z d = pickChain pick B z d' := by
  induction B generalizing z with
  | nil => rfl
  | cons v B ih =>
    simp only [pickChain]
    rw [h v List.mem_cons_self, ih _ fun w hw => h w (List.mem_cons_of_mem _ hw)]

theorem chain_range {w : Nat → (Nat → Fin M) → Fin M → ℝ} {B : List Nat} (hw : ∀ v ∈ B, ∀ z a, 0 < w v z a) {k : (Nat → Fin M) → ℝ} {lo hi : ℝ} (hk : ∀ z, lo ≤ k z ∧ k z ≤ hi)
    (z : Nat → Fin M) : lo ≤ chain w B z k ∧ chain w B z k ≤ hi := by
  induction B generalizing z with
  | nil => exact hk z
  | cons v B ih =>
    have hB : ∀ v ∈ B, ∀ z a, 0 < w v z a := fun v hv => hw v (List.mem_cons_of_mem _ hv)
    have hpos : ∀ a, 0 < w v z a := hw v List.mem_cons_self z
    have hs : 0 < ∑ a, w v z a := Finset.sum_pos (fun a _ => hpos a) ⟨0, Finset.mem_univ _⟩
    simp only [chain]
    rw [le_div_iff₀ hs, div_le_iff₀ hs, Finset.mul_sum, Finset.mul_sum]
    constructor
    · refine Finset.sum_le_sum fun a _ => ?_
      rw [mul_comm]
      exact mul_le_mul_of_nonneg_left (ih hB _).1 (hpos a).le
    · refine Finset.sum_le_sum fun a _ => ?_
      rw [mul_comm hi]
      exact mul_le_mul_of_nonneg_left (ih hB _).2 (hpos a).le

/-- Errors of single draws add up. -/
theorem pickChain_average {n : Nat} (hn : 0 < n) {pick : Nat → (Nat → Fin M) → Nat → Fin M} {w : Nat → (Nat → Fin M) → Fin M → ℝ} {ε lo hi : ℝ} {k : (Nat → Fin M) → ℝ}
    (hk : ∀ z, lo ≤ k z ∧ k z ≤ hi) : ∀ B : List Nat, B.Nodup → (∀ v ∈ B, ∀ z a, 0 < w v z a) →
    (∀ v ∈ B, ∀ z, ∀ f : Fin M → ℝ, (∀ a, lo ≤ f a ∧ f a ≤ hi) → |(∑ d ∈ Finset.range n, f (pick v z d)) / (n : ℝ) - (∑ a, w v z a * f a) / ∑ a, w v z a| ≤ ε * (hi - lo)) →
    ∀ (z : Nat → Fin M) (d0 : Nat → Fin n),
      |sumOver B (fun d : Nat → Fin n => k (pickChain pick B z fun v => (d v).val)) d0 / (n : ℝ) ^ B.length - chain w B z k| ≤ B.length * ε * (hi - lo) := by
  intro B
  induction B with
  | nil => intro _ _ _ z d0; simp [sumOver, pickChain, chain]
  | cons v B ih =>
    intro hnd hw hp z d0
    rw [List.nodup_cons] at hnd
    have ih := ih hnd.2 (fun u hu => hw u (List.mem_cons_of_mem _ hu)) (fun u hu => hp u (List.mem_cons_of_mem _ hu))
    have hn' : (0 : ℝ) < n := by exact_mod_cast hn
    set c : Fin M → ℝ := fun a => chain w B (Function.update z v a) k with hc
    have hc1 : ∀ a, lo ≤ c a ∧ c a ≤ hi := fun a => chain_range (fun u hu => hw u (List.mem_cons_of_mem _ hu)) hk _
    have h1 := hp v List.mem_cons_self z c hc1
    -- the inner averages
    set S : Fin n → ℝ := fun m => sumOver B (fun d : Nat → Fin n => k (pickChain pick B (Function.update z v (pick v z m.val)) fun v => (d v).val)) (Function.update d0 v m) with hS
    have e : sumOver (v :: B) (fun d : Nat → Fin n => k (pickChain pick (v :: B) z fun v => (d v).val)) d0 = ∑ m, S m := by
      simp only [sumOver]
      refine Finset.sum_congr rfl fun m _ => ?_
      refine sumOver_congr fun d hd => ?_
      have : d v = m := by rw [hd v hnd.1, Function.update_self]
      simp only [pickChain, this]
    have h2 : ∀ m, |S m / (n : ℝ) ^ B.length - c (pick v z m.val)| ≤ B.length * ε * (hi - lo) := fun m => ih _ _
    rw [e, List.length_cons]
    have e2 : (∑ m, S m) / (n : ℝ) ^ (B.length + 1) = (∑ m, S m / (n : ℝ) ^ B.length) / n := by
      rw [pow_succ, ← div_div, Finset.sum_div]
    have e3 : (∑ d ∈ Finset.range n, c (pick v z d)) = ∑ m : Fin n, c (pick v z m.val) := by rw [Finset.sum_range]
    have h3 : |(∑ m, S m / (n : ℝ) ^ B.length) / n - (∑ m : Fin n, c (pick v z m.val)) / n| ≤ B.length * ε * (hi - lo) := by
      rw [← sub_div, ← Finset.sum_sub_distrib, abs_div, abs_of_pos hn', div_le_iff₀ hn']
      refine le_trans (Finset.abs_sum_le_sum_abs _ _) ?_
      refine le_trans (Finset.sum_le_sum fun m _ => h2 m) ?_
      rw [Finset.sum_const, Finset.card_univ, Fintype.card_fin, nsmul_eq_mul, mul_comm]
    rw [e3] at h1
    have h4 : chain w (v :: B) z k = (∑ a, w v z a * c a) / ∑ a, w v z a := rfl
    rw [e2, h4]
    refine le_trans (abs_sub_le _ _ _) (le_trans (add_le_add h3 h1) (le_of_eq ?_))
    push_cast
    ring

end

end TreeCat
