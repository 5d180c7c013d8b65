import Verif.Lemmas.FloatDraws
import Verif.Lemmas.FloatServeNear

/-! # Drawing the observations of a sample in float32 -/

namespace TreeCat

open Util Spec
open scoped BigOperators

section
variable {M : Nat} {A : FloatOps M}

/-- The position that the draw `d` gives. -/
def listPick (A : FloatOps M) (ws : List Flt) (d : Nat) : Nat :=
  match fltSample A.rs A.rp ws ((d : ℚ) / 2 ^ 53) with
  | .ok i => i
  | .error _ => 0

theorem near_list {k : Nat} {ws : List Flt} {x : Nat → ℝ} (h : ∀ i < ws.length, Near k (ws.getD i none) (x i)) :
    ws = (ws.map fun w => w.getD 0).map some ∧ ∀ q ∈ ws.map fun w => w.getD 0, 0 < q ∧ IsFloat 24 (-149) q := by
  have key : ∀ w ∈ ws, w = some (w.getD 0) ∧ 0 < w.getD 0 ∧ IsFloat 24 (-149) (w.getD 0) := by
    intro w hw
    obtain ⟨i, hi, rfl⟩ := List.getElem_of_mem hw
    have := (h i hi).get
    rw [List.getD_eq_getElem _ _ hi] at this
    exact ⟨this.1, this.2.2.1, this.2.1⟩
  constructor
  · rw [List.map_map]
    conv_lhs => rw [← List.map_id ws]
    exact List.map_congr_left fun w hw => (key w hw).1
  · intro q hq
    obtain ⟨w, hw, rfl⟩ := List.mem_map.1 hq
    exact (key w hw).2

theorem listPick_ok {k : Nat} {ws : List Flt} {x : Nat → ℝ} (h : ∀ i < ws.length, Near k (ws.getD i none) (x i)) (hne : ws ≠ []) (d : Nat) :
    fltSample A.rs A.rp ws ((d : ℚ) / 2 ^ 53) = .ok (listPick A ws d) ∧ listPick A ws d < ws.length := by
  obtain ⟨h1, -⟩ := near_list h
  obtain ⟨i, hi, hs⟩ := floatSample_range (ps := ws.map fun w => w.getD 0) A.rs A.rp (by simpa using hne) ((d : ℚ) / 2 ^ 53)
  rw [List.length_map] at hi
  rw [← fltSample_some, ← h1] at hs
  have : listPick A ws d = i := by unfold listPick; rw [hs]
  rw [this]
  exact ⟨hs, hi⟩

/-- One draw from a list of weights within `k` roundings. -/
theorem listPick_average (O : Spec.OpsOk A) {k : Nat} {ws : List Flt} {x : Nat → ℝ} (h : ∀ i < ws.length, Near k (ws.getD i none) (x i)) (hne : ws ≠ []) (hlen : ws.length ≤ 2 ^ 23)
    {f : Nat → ℝ} {lo hi : ℝ} (hf : ∀ i < ws.length, lo ≤ f i ∧ f i ≤ hi) :
    |(∑ d ∈ Finset.range (2 ^ 53), f (listPick A ws d)) / ((2 ^ 53 : Nat) : ℝ) - (∑ i ∈ Finset.range ws.length, x i * f i) / ∑ i ∈ Finset.range ws.length, x i| ≤ drawErr ws.length k * (hi - lo) := by
  have hpick := fun d => listPick_ok (A := A) h hne d
  obtain ⟨hw, hpos⟩ := near_list h
  set ps := ws.map fun w => w.getD 0 with hps
  have hl : ps.length = ws.length := by simp [hps]
  have hne' : ps ≠ [] := by simpa [hps] using hne
  generalize hn : (2 ^ 53 : Nat) = n
  have hn0 : 0 < n := by rw [← hn]; positivity
  have hbig : ∃ x ∈ ps, (2 : ℚ) ^ ((-1074 : Int) + (53 : Nat)) ≤ x := by
    obtain ⟨x, l, hx⟩ := List.exists_cons_of_ne_nil hne'
    have hxm : x ∈ ps := by rw [hx]; exact List.mem_cons_self
    exact ⟨x, hxm, le_trans (zpow_mono (by norm_num)) ((hpos x hxm).2.ge (hpos x hxm).1)⟩
  have hdist := floatCount_distance O.rs O.rp (by norm_num) (by norm_num) (by norm_num) (fun x hx => (hpos x hx).1.le) (fun x hx => (hpos x hx).2) hbig
    (by rw [hl]; omega) hn0 (by rw [← hn])
  have hval : ∀ d, f (listPick A ws d) = drawValue (N := ps.length) (floatSample A.rs A.rp ps ((d : ℚ) / n)) fun i => f i.val := by
    intro d
    obtain ⟨h1, h2⟩ := hpick d
    have e : floatSample A.rs A.rp ps ((d : ℚ) / n) = .ok (listPick A ws d) := by
      rw [← fltSample_some, ← hw, ← h1, ← hn]
      push_cast
      rfl
    rw [e]
    simp only [drawValue, hl, dif_pos h2]
  simp only [hval]
  rw [sum_floatCount hne' f]
  have hone : ∑ i ∈ Finset.range ps.length, (floatCount A.rs A.rp ps n i : ℝ) / n = 1 := by
    have h1 := sum_floatCount (rs := A.rs) (rp := A.rp) (n := n) hne' fun _ => (1 : ℝ)
    have h2 : ∀ d : Nat, drawValue (N := ps.length) (floatSample A.rs A.rp ps ((d : ℚ) / n)) (fun _ => (1 : ℝ)) = 1 := by
      intro d
      obtain ⟨i, hi, hs⟩ := floatSample_range (ps := ps) A.rs A.rp hne' ((d : ℚ) / n)
      rw [hs]
      simp only [drawValue, dif_pos hi]
    simp only [h2, mul_one, Finset.sum_const, Finset.card_range, nsmul_eq_mul] at h1
    rw [← Finset.sum_div, ← h1]
    exact div_self (by exact_mod_cast hn0.ne')
  have hsum0 : 0 < ps.sum := List.sum_pos _ (fun x hx => (hpos x hx).1) hne'
  have hsum : (ps.sum : ℝ) = ∑ i ∈ Finset.range ps.length, ((ps.getD i 0 : ℚ) : ℝ) := by
    rw [list_sum_range ps]
    push_cast
    rfl
  have hone' : ∑ i ∈ Finset.range ps.length, ((ps.getD i 0 : ℚ) : ℝ) / (ps.sum : ℝ) = 1 := by
    rw [← Finset.sum_div, ← hsum]
    exact div_self (by exact_mod_cast hsum0.ne')
  have hf' : ∀ i ∈ Finset.range ps.length, lo ≤ f i ∧ f i ≤ hi := fun i hi => hf i (by rw [← hl]; exact Finset.mem_range.1 hi)
  have h3 := expect_distance (Finset.range ps.length) (fun i => (floatCount A.rs A.rp ps n i : ℝ) / n) (fun i => ((ps.getD i 0 : ℚ) : ℝ) / (ps.sum : ℝ)) f hone hone'
    (lo := lo) (hi := hi) hf'
  have hdist' : ∑ i ∈ Finset.range ps.length, |(floatCount A.rs A.rp ps n i : ℝ) / n - ((ps.getD i 0 : ℚ) : ℝ) / (ps.sum : ℝ)|
      ≤ ws.length * (1 / n + 3 / 2 / 2 ^ 53 + 4 / 2 ^ 24) := by
    have := (Rat.cast_le (K := ℝ)).2 hdist
    rw [hl] at this ⊢
    simp only [Rat.cast_sum, Rat.cast_abs, Rat.cast_sub, Rat.cast_div, Rat.cast_natCast, Rat.cast_mul, Rat.cast_add, Rat.cast_one, Rat.cast_ofNat, Rat.cast_pow] at this
    exact this
  have hn' : (n : ℝ) = 2 ^ 53 := by rw [← hn]; norm_num
  have hl0 : 0 < ws.length := List.length_pos_of_ne_nil hne
  have hspan : 0 ≤ hi - lo := by linarith [(hf 0 hl0).1, (hf 0 hl0).2]
  have e1 : (∑ i ∈ Finset.range ps.length, (floatCount A.rs A.rp ps n i : ℝ) * f i) / (n : ℝ) = ∑ i ∈ Finset.range ps.length, (floatCount A.rs A.rp ps n i : ℝ) / n * f i := by
    rw [Finset.sum_div]
    exact Finset.sum_congr rfl fun i _ => by ring
  have e2 : ∑ i ∈ Finset.range ps.length, ((ps.getD i 0 : ℚ) : ℝ) / (ps.sum : ℝ) * f i
      = (∑ i ∈ Finset.range ws.length, ((ps.getD i 0 : ℚ) : ℝ) * f i) / ∑ i ∈ Finset.range ws.length, ((ps.getD i 0 : ℚ) : ℝ) := by
    rw [hsum, hl, Finset.sum_div]
    exact Finset.sum_congr rfl fun i _ => by ring
  rw [e2] at h3
  rw [e1]
  have h4 := close_expect (Finset.range ws.length) ⟨0, Finset.mem_range.2 hl0⟩ (w := fun i => ((ps.getD i 0 : ℚ) : ℝ)) (w' := x) (k := f) (K := k) (fun i hi => by
    have hi' := Finset.mem_range.1 hi
    have e : ps.getD i 0 = (ws.getD i none).getD 0 := by
      rw [List.getD_eq_getElem _ _ (by rw [hl]; exact hi'), List.getD_eq_getElem _ _ hi', List.getElem_map]
    simp only [e]
    exact (h i hi').close) (lo := lo) (hi := hi) fun i hi => hf i (Finset.mem_range.1 hi)
  refine le_trans (abs_sub_le _ ((∑ i ∈ Finset.range ws.length, ((ps.getD i 0 : ℚ) : ℝ) * f i) / ∑ i ∈ Finset.range ws.length, ((ps.getD i 0 : ℚ) : ℝ)) _) ?_
  refine le_trans (add_le_add h3 h4) ?_
  rw [← add_mul]
  refine mul_le_mul_of_nonneg_right ?_ hspan
  unfold drawErr
  refine add_le_add ?_ (le_refl _)
  rw [div_le_iff₀ two_pos]
  refine le_trans hdist' ?_
  rw [hn']
  rw [mul_assoc]
  refine mul_le_mul_of_nonneg_left ?_ (Nat.cast_nonneg _)
  norm_num

/-! ### Independent draws -/

theorem sum_update {ι : Type} [Fintype ι] [DecidableEq ι] {n : Nat} (i : ι) (F : (ι → Fin n) → ℝ) : ∑ d : ι → Fin n, ∑ m, F (Function.update d i m) = n * ∑ d, F d := by
  rw [Finset.sum_comm]
  have h1 : ∀ m : Fin n, ∑ d : ι → Fin n, F (Function.update d i m) = n * ∑ d ∈ Finset.univ.filter (fun d : ι → Fin n => d i = m), F d := by
    intro m
    have h2 : ∀ d ∈ (Finset.univ : Finset (ι → Fin n)), Function.update d i m ∈ Finset.univ.filter (fun d : ι → Fin n => d i = m) := fun d _ => by simp
    rw [← Finset.sum_fiberwise_of_maps_to h2, Finset.mul_sum]
    refine Finset.sum_congr rfl fun e he => ?_
    have he' : e i = m := (Finset.mem_filter.1 he).2
    have h3 : Finset.univ.filter (fun d : ι → Fin n => Function.update d i m = e) = Finset.univ.image fun x : Fin n => Function.update e i x := by
      ext d
      simp only [Finset.mem_filter, Finset.mem_univ, true_and, Finset.mem_image]
      constructor
      · intro h
        exact ⟨d i, by rw [← h, Function.update_idem, Function.update_eq_self]⟩
      · rintro ⟨x, rfl⟩
        rw [Function.update_idem, ← he', Function.update_eq_self]
    rw [h3, Finset.sum_image (by
      intro x _ y _ hxy
      have := congrFun hxy i
      simpa using this)]
    simp only [Function.update_idem]
    rw [← he', Function.update_eq_self, Finset.sum_const, Finset.card_univ, Fintype.card_fin, nsmul_eq_mul]
  simp only [h1]
  rw [← Finset.mul_sum, Finset.sum_fiberwise]

/-- Errors of independent draws add up. -/
theorem foldl_average {ι β σ : Type} [Fintype ι] [DecidableEq ι] {n : Nat} (hn : 0 < n) (e : β → ι) (step : β → Fin n → σ → σ) (E : List β → σ → ℝ) (Inv : List β → σ → Prop) (ε : β → ℝ)
    {lo hi : ℝ} (hstep : ∀ b B s, Inv (b :: B) s → (∀ m, Inv B (step b m s)) ∧
      |(∑ m, E B (step b m s)) / (n : ℝ) - E (b :: B) s| ≤ ε b * (hi - lo)) :
    ∀ (B : List β), (B.map e).Nodup → ∀ s, Inv B s →
      |(∑ d : ι → Fin n, E [] (B.foldl (fun s b => step b (d (e b)) s) s)) / (n : ℝ) ^ Fintype.card ι - E B s| ≤ (B.map ε).sum * (hi - lo) := by
  have hn' : (0 : ℝ) < n := by exact_mod_cast hn
  have hcard : (∑ _d : ι → Fin n, (1 : ℝ)) = (n : ℝ) ^ Fintype.card ι := by
    rw [Finset.sum_const, Finset.card_univ, Fintype.card_fun, Fintype.card_fin]
    simp
  have hN : (0 : ℝ) < (n : ℝ) ^ Fintype.card ι := by positivity
  intro B
  induction B with
  | nil =>
    intro _ s _
    simp only [List.foldl_nil, List.map_nil, List.sum_nil, zero_mul]
    have : (∑ _d : ι → Fin n, E [] s) / (n : ℝ) ^ Fintype.card ι = E [] s := by
      rw [← hcard, Finset.sum_const, Finset.sum_const]
      simp only [nsmul_eq_mul, mul_one]
      rw [mul_div_cancel_left₀]
      rw [Finset.card_univ, Fintype.card_fun, Fintype.card_fin]
      exact_mod_cast (pow_pos hn _).ne'
    rw [this, sub_self, abs_zero]
  | cons b B ih =>
    intro hnd s hI
    rw [List.map_cons, List.nodup_cons] at hnd
    obtain ⟨h1, h2⟩ := hstep b B s hI
    set G : (ι → Fin n) → Fin n → ℝ := fun d m => E [] (B.foldl (fun s b => step b (d (e b)) s) (step b m s)) with hG
    have hindep : ∀ (d : ι → Fin n) (m m' : Fin n), G (Function.update d (e b) m') m = G d m := by
      intro d m m'
      simp only [hG]
      congr 1
      have : ∀ (l : List β), (∀ c ∈ l, e c ≠ e b) → ∀ x, l.foldl (fun s c => step c (Function.update d (e b) m' (e c)) s) x = l.foldl (fun s c => step c (d (e c)) s) x := by
        intro l
        induction l with
        | nil => intro _ x; rfl
        | cons c l ih =>
          intro hl x
          rw [List.foldl_cons, List.foldl_cons, Function.update_of_ne (hl c List.mem_cons_self), ih fun c hc => hl c (List.mem_cons_of_mem _ hc)]
      exact this B (fun c hc he => hnd.1 (he ▸ List.mem_map_of_mem hc)) _
    have h3 : ∑ d : ι → Fin n, E [] ((b :: B).foldl (fun s b => step b (d (e b)) s) s) = ∑ d, G d (d (e b)) := rfl
    have h4 : (n : ℝ) * ∑ d, G d (d (e b)) = ∑ m, ∑ d, G d m := by
      rw [← sum_update (e b) fun d => G d (d (e b))]
      simp only [Function.update_self, hindep]
      rw [Finset.sum_comm]
    have h5 : (∑ d, G d (d (e b))) / (n : ℝ) ^ Fintype.card ι = (∑ m, (∑ d, G d m) / (n : ℝ) ^ Fintype.card ι) / n := by
      rw [← Finset.sum_div, ← h4]
      field_simp
    have h6 : |(∑ m, (∑ d, G d m) / (n : ℝ) ^ Fintype.card ι) / n - (∑ m, E B (step b m s)) / (n : ℝ)| ≤ (B.map ε).sum * (hi - lo) := by
      rw [← sub_div, ← Finset.sum_sub_distrib, abs_div, abs_of_pos hn', div_le_iff₀ hn']
      refine le_trans (Finset.abs_sum_le_sum_abs _ _) ?_
      refine le_trans (Finset.sum_le_sum fun m _ => ih hnd.2 _ (h1 m)) ?_
      rw [Finset.sum_const, Finset.card_univ, Fintype.card_fin, nsmul_eq_mul, mul_comm]
    rw [h3, h5, List.map_cons, List.sum_cons]
    refine le_trans (abs_sub_le _ _ _) (le_trans (add_le_add h6 h2) (le_of_eq ?_))
    ring

end

end TreeCat
