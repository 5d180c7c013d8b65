import Verif.Lemmas.FloatTree

/-! # C73: sampling trees in float32 -/

namespace TreeCat

open Util Spec
open scoped BigOperators

/-! ### The number of edges that join two parts -/

/-- Removing an edge leaves two parts, with at most `V ^ 2 / 4` pairs between them. -/
theorem validList_count {V : Nat} {ω : List Nat} (h : LTree V ω) {e : Nat} (he : e < ω.length) : 4 * (validList V ω e).length ≤ V ^ 2 := by
  obtain ⟨s, -, I, hs⟩ := treeStateInit_spec h.tree (fun _ => 0)
  have hid : s.e2k = ω := by rw [hs]; exact idsOf_treeOf h.ids
  obtain ⟨N', C', -, -, hC, hr⟩ := jitRemoveEdge_spec I (e := e) (by rw [hid]; exact he)
  rw [hid] at hr
  set A := (Finset.range V).filter fun x => C'.getD x false = true with hA
  set B := (Finset.range V).filter fun x => ¬ C'.getD x false = true with hB
  have hAB : A.card + B.card = V := by
    rw [hA, hB, Finset.card_filter_add_card_filter_not, Finset.card_range]
  have hmem : ∀ k ∈ validList V ω e, (pairAt V k).1 < (pairAt V k).2 ∧ (pairAt V k).2 < V ∧ findCompleteEdge (pairAt V k).1 (pairAt V k).2 = k ∧
      C'.getD (pairAt V k).1 false ≠ C'.getD (pairAt V k).2 false := by
    intro k hk
    obtain ⟨h1, h2⟩ := mem_validList.1 hk
    obtain ⟨h3, h4, h5⟩ := pairAt_lt h1
    exact ⟨h3, h4, h5, fun hc => h2 ((hr _ (by omega) _ h4).1 hc)⟩
  have hcard : (validList V ω e).length ≤ (A ×ˢ B).card := by
    rw [← List.toFinset_card_of_nodup (nodup_validList V ω e)]
    refine Finset.card_le_card_of_injOn (fun k => if C'.getD (pairAt V k).1 false = true then (pairAt V k) else ((pairAt V k).2, (pairAt V k).1)) ?_ ?_
    · intro k hk
      obtain ⟨h3, h4, -, h6⟩ := hmem k (List.mem_toFinset.1 hk)
      simp only [Finset.coe_product, Set.mem_prod, Finset.mem_coe, hA, hB, Finset.mem_filter, Finset.mem_range]
      split
      · rename_i ht
        exact ⟨⟨by omega, ht⟩, h4, fun hc => h6 (ht.trans hc.symm)⟩
      · rename_i ht
        refine ⟨⟨h4, ?_⟩, by omega, ht⟩
        simp only [Bool.not_eq_true] at ht
        rw [ht] at h6
        simpa using h6.symm
    · intro k hk k' hk' heq
      obtain ⟨h3, h4, h5, -⟩ := hmem k (List.mem_toFinset.1 hk)
      obtain ⟨h3', h4', h5', -⟩ := hmem k' (List.mem_toFinset.1 hk')
      rw [← h5, ← h5']
      simp only at heq
      have hp : ∀ {a b a' b' : Nat}, a < b → a' < b' → ((a, b) = (a', b') ∨ (a, b) = (b', a') ∨ (b, a) = (a', b') ∨ (b, a) = (b', a')) → a = a' ∧ b = b' := by
        intro a b a' b' h h' hc
        simp only [Prod.mk.injEq] at hc
        omega
      have key : (pairAt V k).1 = (pairAt V k').1 ∧ (pairAt V k).2 = (pairAt V k').2 := by
        apply hp h3 h3'
        split at heq <;> split at heq <;> simp only [heq, true_or, or_true] <;> tauto
      rw [key.1, key.2]
  rw [Finset.card_product] at hcard
  have : 4 * (A.card * B.card) ≤ (A.card + B.card) ^ 2 := by
    zify
    nlinarith [sq_nonneg ((A.card : ℤ) - B.card)]
  rw [hAB] at this
  omega

/-! ### One slot -/

theorem Avg.finite {ι : Type} (s : Finset ι) (w : ι → ℝ) (hw : ∀ i ∈ s, 0 ≤ w i) (h1 : ∑ i ∈ s, w i = 1) :
    Avg (fun i => i ∈ s) (fun _ => False) fun f => ∑ i ∈ s, w i * f i where
  lin f g c := by
    rw [Finset.mul_sum, ← Finset.sum_add_distrib]
    exact Finset.sum_congr rfl fun i _ => by ring
  one := by simpa using h1
  congr f g h := Finset.sum_congr rfl fun i hi => by rw [h i hi]
  pos f h := Finset.sum_nonneg fun i hi => mul_nonneg (hw i hi) (h i hi)
  hit _ _ _ h := h.elim

/-- Averages of functions that are close. -/
theorem Avg.near {α : Type} {D H : α → Prop} {E : (α → ℝ) → ℝ} (h : Avg D H E) {f g : α → ℝ} {ε : ℝ} (hfg : ∀ a, D a → |f a - g a| ≤ ε) : |E f - E g| ≤ ε := by
  have hsub : ∀ u v : α → ℝ, E (fun a => u a - v a) = E u - E v := by
    intro u v
    have := h.lin u v (-1)
    simp only [neg_mul, one_mul, ← sub_eq_add_neg] at this
    exact this
  have h1 := h.pos (fun a => ε - (f a - g a)) fun a ha => by have := (abs_le.1 (hfg a ha)).2; linarith
  have h2 := h.pos (fun a => ε - (g a - f a)) fun a ha => by have := (abs_le.1 (hfg a ha)).1; linarith
  rw [hsub, hsub, h.const] at h1 h2
  rw [abs_le]
  constructor <;> linarith

theorem Avg.mem {α : Type} {D H : α → Prop} {E : (α → ℝ) → ℝ} (h : Avg D H E) {f : α → ℝ} {lo hi : ℝ} (hf : ∀ a, D a → lo ≤ f a ∧ f a ≤ hi) : lo ≤ E f ∧ E f ≤ hi := by
  have hm : ∀ a, D a → |f a - (lo + hi) / 2| ≤ (hi - lo) / 2 := by
    intro a ha
    obtain ⟨h1, h2⟩ := hf a ha
    rw [abs_le]
    constructor <;> linarith
  have := abs_le.1 (h.near (g := fun _ => (lo + hi) / 2) hm)
  rw [h.const] at this
  constructor <;> linarith

section
variable {rs rp fexp : ℚ → ℚ} {η : ℝ} {n : Nat}

theorem absStep_float (ex : ℚ → ℚ) (logits : List ℚ) {V : Nat} {ω : List Nat} (h : LTree V ω) {e : Nat} (he : e < ω.length) (F : List Nat → ℝ) :
    absStep (FloatExpect rs rp n) ex logits V ω e F
      = ∑ i ∈ Finset.range (validList V ω e).length, (floatCount rs rp (validProbs ex logits V ω e) n i : ℝ) / n * F (ω.set e ((validList V ω e).getD i 0)) := by
  have hne : validProbs ex logits V ω e ≠ [] := by
    intro hc
    have h1 := validProbs_length ex logits V ω e
    rw [hc, List.length_nil] at h1
    have h2 := self_mem_validList h he
    rw [List.length_eq_zero_iff.1 h1.symm] at h2
    cases h2
  have h1 : absStep (FloatExpect rs rp n) ex logits V ω e F
      = (∑ d ∈ Finset.range n, drawValue (N := (validProbs ex logits V ω e).length)
          (floatSample rs rp (List.ofFn fun i : Fin (validProbs ex logits V ω e).length => (validProbs ex logits V ω e)[i]) ((d : ℚ) / n))
          fun i => F (ω.set e ((validList V ω e).getD i.val 0))) / n := rfl
  have h2 : (List.ofFn fun i : Fin (validProbs ex logits V ω e).length => (validProbs ex logits V ω e)[i]) = validProbs ex logits V ω e := List.ofFn_getElem
  rw [h1, h2, sum_floatCount hne fun i => F (ω.set e ((validList V ω e).getD i 0)), validProbs_length, Finset.sum_div]
  exact Finset.sum_congr rfl fun i _ => by ring

theorem sum_floatCount_one (hn : 0 < n) {ps : List ℚ} (hne : ps ≠ []) : ∑ i ∈ Finset.range ps.length, (floatCount rs rp ps n i : ℝ) / n = 1 := by
  have hn' : (n : ℝ) ≠ 0 := by exact_mod_cast hn.ne'
  have h := sum_floatCount (rs := rs) (rp := rp) (n := n) hne fun _ => 1
  simp only [mul_one] at h
  rw [← Finset.sum_div, ← h]
  have h1 : ∀ d : Nat, drawValue (N := ps.length) (floatSample rs rp ps ((d : ℚ) / n)) (fun _ => 1) = 1 := by
    intro d
    obtain ⟨i, hi, h⟩ := floatSample_range (ps := ps) rs rp hne ((d : ℚ) / n)
    rw [h]
    simp only [drawValue, dif_pos hi]
  simp only [h1, Finset.sum_const, Finset.card_range, nsmul_eq_mul, mul_one]
  exact div_self hn'

theorem absStep_float_avg (hn : 0 < n) (ex : ℚ → ℚ) (logits : List ℚ) {V : Nat} {ω : List Nat} (h : LTree V ω) {e : Nat} (he : e < ω.length) :
    Avg (LTree V) (fun _ => False) fun F => absStep (FloatExpect rs rp n) ex logits V ω e F := by
  have hne : validProbs ex logits V ω e ≠ [] := by
    intro hc
    have h1 := validProbs_length ex logits V ω e
    rw [hc, List.length_nil] at h1
    have h2 := self_mem_validList h he
    rw [List.length_eq_zero_iff.1 h1.symm] at h2
    cases h2
  have h1 := sum_floatCount_one (rs := rs) (rp := rp) hn hne
  rw [validProbs_length] at h1
  have h2 := (Avg.finite _ _ (fun i _ => div_nonneg (Nat.cast_nonneg _) (Nat.cast_nonneg _)) h1).map fun i => ω.set e ((validList V ω e).getD i 0)
  have e1 : (fun F => absStep (FloatExpect rs rp n) ex logits V ω e F) = fun F => ∑ i ∈ Finset.range (validList V ω e).length,
      (floatCount rs rp (validProbs ex logits V ω e) n i : ℝ) / n * F (ω.set e ((validList V ω e).getD i 0)) := funext fun F => absStep_float ex logits h he F
  rw [e1]
  refine (h2.mono_dom ?_).mono_hit fun _ h => h.elim
  rintro _ ⟨i, hi, rfl⟩
  have hi := Finset.mem_range.1 hi
  refine (mem_validList_iff h he _).1 ?_
  rw [List.getD_eq_getElem?_getD, List.getElem?_eq_getElem hi]
  exact List.getElem_mem hi

theorem absRun_float_cons (ex : ℚ → ℚ) (logits : List ℚ) (V : Nat) (ω : List Nat) (e : Nat) (slots : List Nat) (F : List Nat → ℝ) :
    absRun (FloatExpect rs rp n) ex logits V ω (e :: slots) F
      = absStep (FloatExpect rs rp n) ex logits V ω e fun ω' => absRun (FloatExpect rs rp n) ex logits V ω' slots F := by
  unfold absRun
  rw [List.foldlM_cons]
  rfl

theorem absRun_float_avg (hn : 0 < n) (ex : ℚ → ℚ) (logits : List ℚ) {V : Nat} : ∀ (slots : List Nat), (∀ e ∈ slots, e + 1 < V) → ∀ ω, LTree V ω →
    Avg (LTree V) (fun _ => False) fun F => absRun (FloatExpect rs rp n) ex logits V ω slots F := by
  intro slots
  induction slots with
  | nil =>
    intro _ ω h
    exact ((Avg.point ω).mono_dom fun b hb => by subst hb; exact h).mono_hit fun b hb => hb.elim
  | cons e slots ih =>
    intro hs ω h
    have he : e < ω.length := by
      have := hs e (List.mem_cons_self ..); have := h.length; omega
    have h2 := Avg.bind (F := fun ω' F => absRun (FloatExpect rs rp n) ex logits V ω' slots F) (H2 := fun _ _ => False)
      (absStep_float_avg (rs := rs) (rp := rp) hn ex logits h he) fun ω' h' => ih (fun x hx => hs x (List.mem_cons_of_mem _ hx)) ω' h'
    have h3 : (fun F => absRun (FloatExpect rs rp n) ex logits V ω (e :: slots) F) = fun F : List Nat → ℝ =>
        absStep (FloatExpect rs rp n) ex logits V ω e fun ω' => absRun (FloatExpect rs rp n) ex logits V ω' slots F := funext fun F => absRun_float_cons ..
    rw [h3]
    exact h2.mono_hit fun _ h => h.elim

theorem absStep_exact (logits : List ℝ) {V : Nat} {ω : List Nat} {e : Nat} (F : List Nat → ℝ) :
    absStep (Expect ℝ) Real.exp logits V ω e F
      = ∑ i ∈ Finset.range (validList V ω e).length, (validProbs Real.exp logits V ω e).getD i 0 / (∑ j ∈ Finset.range (validList V ω e).length, (validProbs Real.exp logits V ω e).getD j 0)
          * F (ω.set e ((validList V ω e).getD i 0)) := by
  have h1 : absStep (Expect ℝ) Real.exp logits V ω e F
      = (∑ i : Fin (validProbs Real.exp logits V ω e).length, (validProbs Real.exp logits V ω e)[i] * F (ω.set e ((validList V ω e).getD i.val 0))) /
          ∑ i : Fin (validProbs Real.exp logits V ω e).length, (validProbs Real.exp logits V ω e)[i] := rfl
  have hg : ∀ i : Fin (validProbs Real.exp logits V ω e).length, (validProbs Real.exp logits V ω e)[i] = (validProbs Real.exp logits V ω e).getD i.val 0 := by
    intro i
    rw [List.getD_eq_getElem?_getD, List.getElem?_eq_getElem i.isLt]
    rfl
  rw [h1]
  simp only [hg]
  rw [← validProbs_length Real.exp logits, ← Fin.sum_univ_eq_sum_range (fun i => (validProbs Real.exp logits V ω e).getD i 0),
    ← Fin.sum_univ_eq_sum_range (fun i => (validProbs Real.exp logits V ω e).getD i 0 / _ * F (ω.set e ((validList V ω e).getD i 0))), Finset.sum_div]
  exact Finset.sum_congr rfl fun i _ => by ring

/-- The error of one draw of an edge in float32, as a share of the span of the values. -/
noncomputable def drawError (V : Nat) (η : ℝ) : ℝ := (V : ℝ) ^ 2 / 4 * (2 ^ (-22 : Int) + 2 ^ (-52 : Int) + η)

theorem absStep_near (R : IsRounding 24 (-149) rs) (Rp : IsRounding 53 (-1074) rp) (hexp : ExpOk fexp η) {logits : List ℚ} (hfl : ∀ x ∈ logits, IsFloat 24 (-149) x)
    {V : Nat} (hV : V ^ 2 ≤ 2 ^ 25) {ω : List Nat} (h : LTree V ω) {e : Nat} (he : e < ω.length) {F : List Nat → ℝ} {lo hi : ℝ} (hF : ∀ ω, LTree V ω → lo ≤ F ω ∧ F ω ≤ hi) :
    |absStep (FloatExpect rs rp (2 ^ 53)) (fun x => fexp (rs x)) logits V ω e F - absStep (Expect ℝ) Real.exp (logits.map fun x : ℚ => (x : ℝ)) V ω e F|
      ≤ drawError V η * (hi - lo) := by
  have h0f : IsFloat 24 (-149) 0 := ⟨0, 0, by norm_num, by norm_num, by norm_num⟩
  have hself := self_mem_validList h he
  have hL : (validList V ω e) ≠ [] := List.ne_nil_of_mem hself
  have hcount := validList_count h he
  set ls := (validList V ω e).map fun k => logits.getD k 0 with hls
  have hlsne : ls ≠ [] := by rw [hls]; simpa using hL
  have hlsfl : ∀ x ∈ ls, IsFloat 24 (-149) x := by
    intro x hx
    obtain ⟨k, -, rfl⟩ := List.mem_map.1 hx
    rw [List.getD_eq_getElem?_getD]
    cases hk : logits[k]? with
    | none => exact h0f
    | some y => exact hfl y (List.mem_of_getElem? hk)
  have hreal : (validList V ω e).map (fun k => (logits.map fun x : ℚ => (x : ℝ)).getD k 0) = ls.map fun x : ℚ => (x : ℝ) := by
    rw [hls, List.map_map]
    refine List.map_congr_left fun k _ => ?_
    simp only [Function.comp, List.getD_eq_getElem?_getD, List.getElem?_map]
    cases logits[k]? <;> simp
  obtain ⟨p1, p2, p3, p4, p5⟩ := probsOf_float R hexp hlsne hlsfl
  have hlen : ls.length = (validList V ω e).length := by rw [hls, List.length_map]
  set m := (validList V ω e).length with hm
  set a := probsOf (fun x => fexp (rs x)) ls with ha
  set b := probsOf Real.exp (ls.map fun x : ℚ => (x : ℝ)) with hb
  have hva : validProbs (fun x => fexp (rs x)) logits V ω e = a := rfl
  have hvb : validProbs Real.exp (logits.map fun x : ℚ => (x : ℝ)) V ω e = b := by rw [validProbs, hreal]
  have hla : a.length = m := by rw [ha, probsOf_length, hlen]
  have hlb : b.length = m := by rw [hb, probsOf_length, List.length_map, hlen]
  have hane : a ≠ [] := List.ne_nil_of_mem p2
  have hsb : 1 ≤ ∑ j ∈ Finset.range m, b.getD j 0 := by
    rw [← hlb, ← list_sum_range]
    exact List.single_le_sum p4 _ p3
  have hsa : 0 < ∑ j ∈ Finset.range m, ((a.getD j 0 : ℚ) : ℝ) := by
    rw [← hla, ← Rat.cast_sum, ← list_sum_range]
    have := List.single_le_sum (fun w hw => (p1 w hw).1) _ p2
    exact_mod_cast lt_of_lt_of_le one_pos this
  rw [absStep_float _ _ h he, absStep_exact, hva, hvb]
  have hna : ∑ i ∈ Finset.range m, (floatCount rs rp a (2 ^ 53) i : ℝ) / ((2 ^ 53 : Nat) : ℝ) = 1 := by
    rw [← hla]
    exact sum_floatCount_one (by norm_num) hane
  have hnb : ∑ i ∈ Finset.range m, b.getD i 0 / (∑ j ∈ Finset.range m, b.getD j 0) = 1 := by
    rw [← Finset.sum_div, div_self (by linarith)]
  have hk : ∀ i ∈ Finset.range m, lo ≤ F (ω.set e ((validList V ω e).getD i 0)) ∧ F (ω.set e ((validList V ω e).getD i 0)) ≤ hi := by
    intro i hi
    have hi := Finset.mem_range.1 hi
    refine hF _ ((mem_validList_iff h he _).1 ?_)
    rw [List.getD_eq_getElem?_getD, List.getElem?_eq_getElem hi]
    exact List.getElem_mem hi
  have hspan : lo ≤ hi := (hF _ h).1.trans (hF _ h).2
  refine le_trans (expect_distance _ _ _ _ hna hnb hk) (mul_le_mul_of_nonneg_right ?_ (sub_nonneg.2 hspan))
  have d1 := floatCount_distance R Rp (by norm_num) (by norm_num) (by norm_num) (fun w hw => (p1 w hw).1) (fun w hw => (p1 w hw).2) ⟨1, p2, zpow_le_one_of_nonpos₀ (by norm_num) (by norm_num)⟩
    (show 2 * a.length ≤ 2 ^ 24 by rw [hla]; norm_num at hV ⊢; omega) (show 0 < 2 ^ 53 by norm_num) le_rfl
  rw [hla] at d1
  have d1' : ∑ i ∈ Finset.range m, |(floatCount rs rp a (2 ^ 53) i : ℝ) / ((2 ^ 53 : Nat) : ℝ) - ((a.getD i 0 : ℚ) : ℝ) / ∑ j ∈ Finset.range m, ((a.getD j 0 : ℚ) : ℝ)|
      ≤ m * (1 / ((2 ^ 53 : Nat) : ℝ) + 3 / 2 / 2 ^ 53 + 4 / 2 ^ 24) := by
    rw [list_sum_range a, hla] at d1
    have d1 := (Rat.cast_le (K := ℝ)).2 d1
    push_cast at d1 ⊢
    exact d1
  have d2 := normalised_distance (Finset.range m) (fun i => ((a.getD i 0 : ℚ) : ℝ)) (fun i => b.getD i 0) (η := η + 2 ^ (-23 : Int)) (by
    intro i hi
    have hi := Finset.mem_range.1 hi
    have : a.getD i 0 ∈ a := by
      rw [List.getD_eq_getElem?_getD, List.getElem?_eq_getElem (by omega)]
      exact List.getElem_mem _
    exact_mod_cast (p1 _ this).1) (fun i hi => p5 i (by rw [hlen]; exact Finset.mem_range.1 hi)) hsa hsb
  rw [Finset.card_range] at d2
  have d3 : ∑ i ∈ Finset.range m, |(floatCount rs rp a (2 ^ 53) i : ℝ) / ((2 ^ 53 : Nat) : ℝ) - b.getD i 0 / ∑ j ∈ Finset.range m, b.getD j 0|
      ≤ m * (1 / ((2 ^ 53 : Nat) : ℝ) + 3 / 2 / 2 ^ 53 + 4 / 2 ^ 24) + 2 * (m * (η + 2 ^ (-23 : Int))) := by
    refine le_trans (Finset.sum_le_sum fun i _ => abs_sub_le _ (((a.getD i 0 : ℚ) : ℝ) / ∑ j ∈ Finset.range m, ((a.getD j 0 : ℚ) : ℝ)) _) ?_
    rw [Finset.sum_add_distrib]
    exact add_le_add d1' d2
  have hη : 0 ≤ η := by
    have := hexp.near 0 le_rfl h0f
    exact le_trans (abs_nonneg _) this
  have hm4 : (m : ℝ) ≤ (V : ℝ) ^ 2 / 4 := by
    rw [le_div_iff₀ (by norm_num), mul_comm]
    exact_mod_cast hcount
  have hE : 0 ≤ (2 : ℝ) ^ (-22 : Int) + 2 ^ (-52 : Int) + η := by positivity
  unfold drawError
  refine le_trans ?_ (mul_le_mul_of_nonneg_right hm4 hE)
  have e22 : (2 : ℝ) ^ (-22 : Int) = 1 / 2 ^ 22 := by rw [zpow_neg, one_div]; norm_cast
  have e23 : (2 : ℝ) ^ (-23 : Int) = 1 / 2 ^ 23 := by rw [zpow_neg, one_div]; norm_cast
  have e52 : (2 : ℝ) ^ (-52 : Int) = 1 / 2 ^ 52 := by rw [zpow_neg, one_div]; norm_cast
  refine le_trans (div_le_div_of_nonneg_right d3 (by norm_num)) ?_
  rw [e22, e23, e52]
  have hm0 : (0 : ℝ) ≤ m := Nat.cast_nonneg _
  clear * - hm0
  generalize (m : ℝ) = x at hm0 ⊢
  norm_num
  linarith

theorem drawError_nonneg (hη : 0 ≤ η) (V : Nat) : 0 ≤ drawError V η := by unfold drawError; positivity

theorem Spec.ExpOk.eta_nonneg (hexp : ExpOk fexp η) : 0 ≤ η :=
  le_trans (abs_nonneg _) (hexp.near 0 le_rfl ⟨0, 0, by norm_num, by norm_num, by norm_num⟩)

theorem Spec.ExpOk.sum_pos (R : IsRounding 24 (-149) rs) (hexp : ExpOk fexp η) (ls : List ℚ) (hne : ls ≠ []) : 0 < (probsOf (fun x => fexp (rs x)) ls).sum := by
  cases ls with
  | nil => exact absurd rfl hne
  | cons l ls =>
    obtain ⟨hm1, hm2⟩ := foldl_max_spec l ls
    have h0f : IsFloat 24 (-149) 0 := ⟨0, 0, by norm_num, by norm_num, by norm_num⟩
    have h1 : (1 : ℚ) ∈ probsOf (fun x => fexp (rs x)) (l :: ls) := by
      refine List.mem_map.2 ⟨_, hm1, ?_⟩
      simp only [sub_self, R.id h0f, hexp.zero]
    refine lt_of_lt_of_le one_pos (List.single_le_sum ?_ _ h1)
    intro w hw
    obtain ⟨x, hx, rfl⟩ := List.mem_map.1 hw
    refine hexp.nonneg _ ?_
    have := R.mono (sub_nonpos.2 (hm2 x hx))
    rwa [R.id h0f] at this

/-! ### One scan -/

theorem absRun_near (R : IsRounding 24 (-149) rs) (Rp : IsRounding 53 (-1074) rp) (hexp : ExpOk fexp η) {logits : List ℚ} (hfl : ∀ x ∈ logits, IsFloat 24 (-149) x)
    {V : Nat} (hV : V ^ 2 ≤ 2 ^ 25) {F : List Nat → ℝ} {lo hi : ℝ} (hF : ∀ ω, LTree V ω → lo ≤ F ω ∧ F ω ≤ hi) : ∀ (slots : List Nat), (∀ e ∈ slots, e + 1 < V) →
    ∀ ω, LTree V ω →
      |absRun (FloatExpect rs rp (2 ^ 53)) (fun x => fexp (rs x)) logits V ω slots F - absRun (Expect ℝ) Real.exp (logits.map fun x : ℚ => (x : ℝ)) V ω slots F|
        ≤ slots.length * (drawError V η * (hi - lo)) := by
  intro slots
  induction slots with
  | nil =>
    intro _ ω _
    have e1 : absRun (FloatExpect rs rp (2 ^ 53)) (fun x => fexp (rs x)) logits V ω [] F = F ω := rfl
    have e2 : absRun (Expect ℝ) Real.exp (logits.map fun x : ℚ => (x : ℝ)) V ω [] F = F ω := rfl
    rw [e1, e2, sub_self, abs_zero, List.length_nil, Nat.cast_zero, zero_mul]
  | cons e slots ih =>
    intro hs ω h
    have he : e < ω.length := by
      have := hs e (List.mem_cons_self ..); have := h.length; omega
    have hs' : ∀ x ∈ slots, x + 1 < V := fun x hx => hs x (List.mem_cons_of_mem _ hx)
    rw [absRun_float_cons, absRun_cons]
    have h1 := (absStep_float_avg (rs := rs) (rp := rp) (n := 2 ^ 53) (by norm_num) (fun x => fexp (rs x)) logits h he).near fun ω' h' => ih hs' ω' h'
    have h2 := absStep_near R Rp hexp hfl hV h he (F := fun ω' => absRun (Expect ℝ) Real.exp (logits.map fun x : ℚ => (x : ℝ)) V ω' slots F) fun ω' h' =>
      (absRun_avg (logits.map fun x : ℚ => (x : ℝ)) slots hs' ω' h').mem hF
    refine le_trans (abs_sub_le _ _ _) (le_trans (add_le_add h1 h2) (le_of_eq ?_))
    rw [List.length_cons]
    push_cast
    ring

/-- One call of `sample_tree` in float32 with a random scan order. -/
noncomputable def floatTreeStep (rs rp fexp : ℚ → ℚ) (V : Nat) (junk : Nat → Nat) (logits : List ℚ) (f : List Edge → ℝ) (T : List Edge) : ℝ :=
  ((List.range T.length).permutations.map fun σ =>
    (sampleTree (fun x => fexp (rs x)) junk (completeGrid V) logits T σ : ExceptT PyErr (FloatExpect rs rp (2 ^ 53)) _).run (onTree f)).sum /
      (T.length.factorial : ℝ)

theorem float_lift_bind {α β : Type} (x : FloatExpect rs rp n α) (g : α → ExceptT PyErr (FloatExpect rs rp n) β) (f : Except PyErr β → ℝ) :
    (ExceptT.lift x >>= g).run f = x fun a => (g a).run f := rfl

/-- `sample_tree` in float32 and exactly, as walks on labelled trees. -/
theorem sampleTree_float (R : IsRounding 24 (-149) rs) (hexp : ExpOk fexp η) {V : Nat} {T : List Edge} (ht : IsTree V T) (junk : Nat → Nat)
    {logits : List ℚ} (hl : logits.length = tri V) {σ : List Nat} (hσ : ∀ e ∈ σ, e < T.length) (f : List Edge → ℝ) :
    (sampleTree (fun x => fexp (rs x)) junk (completeGrid V) logits T σ : ExceptT PyErr (FloatExpect rs rp (2 ^ 53)) _).run (onTree f)
      = if T.length ≤ 1 then f T else absRun (FloatExpect rs rp (2 ^ 53)) (fun x => fexp (rs x)) logits V (idsOf T) σ fun ω => f (canonOf V ω) := by
  split
  · rename_i hE
    unfold sampleTree
    rw [if_pos hE]
    rfl
  · rename_i hE
    have hV := ht.card
    obtain ⟨fin, h1, h2⟩ := sampleTree_eq (m := FloatExpect rs rp (2 ^ 53)) (hexp.sum_pos R) ht (by omega) junk hl hσ
    rw [h1, float_lift_bind]
    refine (absRun_float_avg (by norm_num) _ logits σ (fun e he => by have := hσ e he; omega) (idsOf T) (ltree_ids ht)).congr _ _ fun ω hω => ?_
    rw [h2 ω hω]
    rfl

theorem sampleTree_exact {V : Nat} {T : List Edge} (ht : IsTree V T) (junk : Nat → Nat)
    {logits : List ℝ} (hl : logits.length = tri V) {σ : List Nat} (hσ : ∀ e ∈ σ, e < T.length) (f : List Edge → ℝ) :
    (sampleTree Real.exp junk (completeGrid V) logits T σ : ExceptT PyErr (Expect ℝ) _).run (onTree f)
      = if T.length ≤ 1 then f T else absRun (Expect ℝ) Real.exp logits V (idsOf T) σ fun ω => f (canonOf V ω) := by
  split
  · rename_i hE
    unfold sampleTree
    rw [if_pos hE]
    rfl
  · rename_i hE
    have hV := ht.card
    obtain ⟨fin, h1, h2⟩ := sampleTree_eq (m := Expect ℝ) (probsOf_sum_pos Real.exp_pos) ht (by omega) junk hl hσ
    rw [h1, expect_lift_bind]
    refine (absRun_avg logits σ (fun e he => by have := hσ e he; omega) (idsOf T) (ltree_ids ht)).congr _ _ fun ω hω => ?_
    rw [h2 ω hω]
    rfl

/-- The error of one call of `sample_tree`, as a share of the span of the values. -/
noncomputable def scanError (V : Nat) (η : ℝ) : ℝ := ((V - 1 : Nat) : ℝ) * drawError V η

theorem floatTreeStep_avg (R : IsRounding 24 (-149) rs) (hexp : ExpOk fexp η) {V : Nat} {T : List Edge} (hcan : Canonical T) (ht : IsTree V T) (junk : Nat → Nat)
    {logits : List ℚ} (hl : logits.length = tri V) :
    Avg (fun T => Canonical T ∧ IsTree V T) (fun _ => False) fun f => floatTreeStep rs rp fexp V junk logits f T := by
  have hV := ht.card
  have h1 := Avg.list (List.range T.length).permutations T.length.factorial
    (by rw [List.length_permutations, List.length_range])
    (List.ne_nil_of_mem (List.mem_permutations.2 (List.Perm.refl _)))
  have h2 := Avg.bind (D2 := fun T => Canonical T ∧ IsTree V T) (H2 := fun _ _ => False)
    (F := fun σ f => (sampleTree (fun x => fexp (rs x)) junk (completeGrid V) logits T σ : ExceptT PyErr (FloatExpect rs rp (2 ^ 53)) _).run (onTree f)) h1 ?_
  · exact h2.mono_hit fun _ h => h.elim
  intro σ hσ
  have hmem : ∀ e ∈ σ, e < T.length := fun e he => List.mem_range.1 ((List.mem_permutations.1 hσ).mem_iff.1 he)
  have e1 := funext fun f => sampleTree_float (rp := rp) R hexp ht junk hl hmem f
  rw [e1]
  by_cases hE : T.length ≤ 1
  · simp only [if_pos hE]
    exact ((Avg.point T).mono_dom fun b hb => by subst hb; exact ⟨hcan, ht⟩).mono_hit fun _ h => h.elim
  · simp only [if_neg hE]
    have h3 := (absRun_float_avg (rs := rs) (rp := rp) (n := 2 ^ 53) (by norm_num) (fun x => fexp (rs x)) logits σ (fun e he => by have := hmem e he; omega) (idsOf T) (ltree_ids ht)).map (canonOf V)
    refine (h3.mono_dom ?_).mono_hit fun _ h => h.elim
    rintro _ ⟨ω, hω, rfl⟩
    have := canonOf_spec hω
    exact ⟨this.1, this.2⟩

theorem floatTreeStep_near (R : IsRounding 24 (-149) rs) (Rp : IsRounding 53 (-1074) rp) (hexp : ExpOk fexp η) {logits : List ℚ} (hfl : ∀ x ∈ logits, IsFloat 24 (-149) x)
    {V : Nat} (hV : V ^ 2 ≤ 2 ^ 25) (hl : logits.length = tri V) {T : List Edge} (ht : IsTree V T) (hcan : Canonical T) (junk : Nat → Nat) {f : List Edge → ℝ} {lo hi : ℝ}
    (hf : ∀ T, Canonical T ∧ IsTree V T → lo ≤ f T ∧ f T ≤ hi) :
    |floatTreeStep rs rp fexp V junk logits f T - treeStep V junk (logits.map fun x : ℚ => (x : ℝ)) f T| ≤ scanError V η * (hi - lo) := by
  have hcard := ht.card
  have hspan : lo ≤ hi := (hf T ⟨hcan, ht⟩).1.trans (hf T ⟨hcan, ht⟩).2
  have h0 : 0 ≤ drawError V η * (hi - lo) := mul_nonneg (drawError_nonneg hexp.eta_nonneg V) (sub_nonneg.2 hspan)
  have h1 := Avg.list (List.range T.length).permutations T.length.factorial
    (by rw [List.length_permutations, List.length_range])
    (List.ne_nil_of_mem (List.mem_permutations.2 (List.Perm.refl _)))
  refine h1.near fun σ hσ => ?_
  have hperm := List.mem_permutations.1 hσ
  have hmem : ∀ e ∈ σ, e < T.length := fun e he => List.mem_range.1 (hperm.mem_iff.1 he)
  rw [sampleTree_float (rp := rp) R hexp ht junk hl hmem, sampleTree_exact ht junk (by rw [List.length_map, hl]) hmem]
  split
  · rw [sub_self, abs_zero]
    exact mul_nonneg (mul_nonneg (Nat.cast_nonneg _) (drawError_nonneg hexp.eta_nonneg V)) (sub_nonneg.2 hspan)
  · refine le_trans (absRun_near (lo := lo) (hi := hi) R Rp hexp hfl hV (fun ω hω => ?_) σ (fun e he => by have := hmem e he; omega) (idsOf T) (ltree_ids ht)) (le_of_eq ?_)
    · have := canonOf_spec hω
      exact hf _ ⟨this.1, this.2⟩
    · rw [hperm.length_eq, List.length_range, scanError, mul_assoc, ← hcard, Nat.add_sub_cancel]

/-! ### Chains -/

/-- Several calls, each from the result of the call before. -/
noncomputable def floatTreeChain (rs rp fexp : ℚ → ℚ) (V : Nat) (junk : Nat → Nat) (logits : List ℚ) : Nat → List Edge → (List (List Edge) → ℝ) → ℝ
  | 0, _, F => F []
  | n + 1, T, F => floatTreeStep rs rp fexp V junk logits (fun T' => floatTreeChain rs rp fexp V junk logits n T' fun ts => F (T' :: ts)) T

theorem floatTreeChain_avg (R : IsRounding 24 (-149) rs) (hexp : ExpOk fexp η) {V : Nat} {junk : Nat → Nat} {logits : List ℚ} (hl : logits.length = tri V) :
    ∀ (n : Nat) {T : List Edge}, Canonical T → IsTree V T →
      Avg (fun ts : List (List Edge) => ts.length = n ∧ ∀ T ∈ ts, Canonical T ∧ IsTree V T) (fun _ => False) (floatTreeChain rs rp fexp V junk logits n T) := by
  intro n
  induction n with
  | zero =>
    intro T _ _
    refine ((Avg.point ([] : List (List Edge))).mono_dom ?_).mono_hit fun _ h => h.elim
    rintro _ rfl
    exact ⟨rfl, by simp⟩
  | succ n ih =>
    intro T h1 h2
    have hA := Avg.bind (D2 := fun ts : List (List Edge) => ts.length = n + 1 ∧ ∀ T ∈ ts, Canonical T ∧ IsTree V T)
      (H2 := fun _ _ => False) (F := fun T' F => floatTreeChain rs rp fexp V junk logits n T' fun ts => F (T' :: ts))
      (floatTreeStep_avg (rp := rp) R hexp h1 h2 junk hl) fun T' h =>
        (((ih h.1 h.2).map fun ts => T' :: ts).mono_dom (by
          rintro _ ⟨ts, ⟨h3, h4⟩, rfl⟩
          refine ⟨by rw [List.length_cons, h3], fun T hT => ?_⟩
          rcases List.mem_cons.1 hT with rfl | hT
          · exact h
          · exact h4 T hT)).mono_hit fun _ h => h.elim
    exact hA.mono_hit fun _ h => h.elim

/-- The `i`-th tree of the chain. -/
theorem floatTreeChain_get (R : IsRounding 24 (-149) rs) (hexp : ExpOk fexp η) {V : Nat} {junk : Nat → Nat} {logits : List ℚ} (hl : logits.length = tri V)
    (f : List Edge → ℝ) : ∀ (n i : Nat), i < n → ∀ {T : List Edge}, Canonical T → IsTree V T →
      floatTreeChain rs rp fexp V junk logits n T (fun ts => f (ts.getD i [])) = (floatTreeStep rs rp fexp V junk logits)^[i + 1] f T := by
  intro n
  induction n with
  | zero => intro i hi; omega
  | succ n ih =>
    intro i hi T h1 h2
    rw [Function.iterate_succ_apply']
    refine (floatTreeStep_avg R hexp h1 h2 junk hl).congr _ _ fun T' h => ?_
    cases i with
    | zero => exact (floatTreeChain_avg (junk := junk) R hexp hl n h.1 h.2).const (f T')
    | succ i => exact ih i (by omega) h.1 h.2

/-- The float32 chain stays close to the exact one. -/
theorem floatTreeStep_iterate (R : IsRounding 24 (-149) rs) (Rp : IsRounding 53 (-1074) rp) (hexp : ExpOk fexp η) {logits : List ℚ} (hfl : ∀ x ∈ logits, IsFloat 24 (-149) x)
    {V : Nat} (hV : V ^ 2 ≤ 2 ^ 25) (hl : logits.length = tri V) (junk : Nat → Nat) {f : List Edge → ℝ} (span : Nat → ℝ) {lo : Nat → ℝ}
    (hf : ∀ n T, Canonical T ∧ IsTree V T → lo n ≤ (treeStep V junk (logits.map fun x : ℚ => (x : ℝ)))^[n] f T ∧
      (treeStep V junk (logits.map fun x : ℚ => (x : ℝ)))^[n] f T ≤ lo n + span n) : ∀ (n : Nat) (T : List Edge), Canonical T ∧ IsTree V T →
    |(floatTreeStep rs rp fexp V junk logits)^[n] f T - (treeStep V junk (logits.map fun x : ℚ => (x : ℝ)))^[n] f T| ≤ scanError V η * ∑ k ∈ Finset.range n, span k := by
  intro n
  induction n with
  | zero => intro T _; simp
  | succ n ih =>
    intro T hT
    rw [Function.iterate_succ_apply', Function.iterate_succ_apply', Finset.sum_range_succ, mul_add]
    have h1 := (floatTreeStep_avg (rp := rp) R hexp hT.1 hT.2 junk hl).near ih
    have h2 := floatTreeStep_near R Rp hexp hfl hV hl hT.2 hT.1 junk (hf n)
    rw [add_sub_cancel_left] at h2
    exact le_trans (abs_sub_le _ _ _) (add_le_add h1 h2)

end

/-! ### Servers -/

section
variable {M : Nat} [NeZero M] {rs rp fexp : ℚ → ℚ} {η : ℝ} {srv : Server ℚ M} {num : ServeNum ℚ}

theorem run_float_bind {α β : Type} {n : Nat} (x : ExceptT PyErr (FloatExpect rs rp n) α) (f : α → ExceptT PyErr (FloatExpect rs rp n) β) (F : β → ℝ) :
    (x >>= f).run (onOk F) = x.run (onOk fun a => (f a).run (onOk F)) := by
  refine congrArg (fun T => x.run T) (funext fun r => ?_)
  cases r <;> rfl

theorem server_sampleTrees_floatChain (hexp : num.exp = fun x => fexp (rs x)) (junk : Nat → Nat) (n : Nat) (F : List (List Edge) → ℝ) :
    (srv.sampleTrees num junk n : ExceptT PyErr (FloatExpect rs rp (2 ^ 53)) _).run (onOk F)
      = floatTreeChain rs rp fexp srv.tree.numVertices junk srv.edgeLogits n srv.estimatedTree F := by
  unfold Server.sampleTrees
  rw [makeCompleteGraph_eq, liftPy_ok_bind, run_float_bind, hexp]
  have key : ∀ (l : List Nat) (T : List Edge) (acc : List (List Edge)),
      (l.foldlM (fun (s : List Edge × List (List Edge)) _ => do
        let perm ← ExceptT.lift (Shuffle.permutation s.1.length)
        let edges ← sampleTree (fun x => fexp (rs x)) junk (completeGrid srv.tree.numVertices) srv.edgeLogits s.1 perm
        Pure.pure (edges, s.2 ++ [edges])) (T, acc) : ExceptT PyErr (FloatExpect rs rp (2 ^ 53)) _).run
          (onOk fun r => (Pure.pure r.2 : ExceptT PyErr (FloatExpect rs rp (2 ^ 53)) _).run (onOk F))
        = floatTreeChain rs rp fexp srv.tree.numVertices junk srv.edgeLogits l.length T fun ts => F (acc ++ ts) := by
    intro l
    induction l with
    | nil => intro T acc; simp only [List.length_nil, floatTreeChain, List.append_nil]; rfl
    | cons i l ih =>
      intro T acc
      rw [List.foldlM_cons, run_float_bind, run_float_bind, List.length_cons, floatTreeChain, floatTreeStep]
      change ((List.range T.length).permutations.map fun σ => ExceptT.run (do
          let edges ← sampleTree (fun x => fexp (rs x)) junk (completeGrid srv.tree.numVertices) srv.edgeLogits T σ
          Pure.pure (edges, acc ++ [edges]) : ExceptT PyErr (FloatExpect rs rp (2 ^ 53)) _) (onOk _)).sum / _ = _
      refine congrArg (fun f => ((List.range T.length).permutations.map f).sum / _) (funext fun σ => ?_)
      rw [run_float_bind, onTree_eq]
      refine congrArg (fun f => (sampleTree (fun x => fexp (rs x)) junk (completeGrid srv.tree.numVertices) srv.edgeLogits T σ :
        ExceptT PyErr (FloatExpect rs rp (2 ^ 53)) _).run (onOk f)) (funext fun T' => ?_)
      refine (ih T' (acc ++ [T'])).trans ?_
      simp only [List.append_assoc, List.singleton_append]
  rw [key, List.length_range]
  rfl

/-- **C73** (against the exact server). The `i`-th tree that a server samples in float32 has almost the distribution of the `i`-th tree that it would sample in
exact arithmetic from the same tree and the same logits: the expected value of any function of it with values in `[lo, hi]` differs by at most
`(i + 1) (V - 1) V ^ 2 / 4 (2 ^ -22 + 2 ^ -52 + η) (hi - lo)`, where `η` bounds the error of `np.exp`. -/
theorem server_sampleTrees_float32_near {V : Nat} (hV : srv.tree.numVertices = V) (hsize : V ^ 2 ≤ 2 ^ 25) (hl : srv.edgeLogits.length = V * (V - 1) / 2)
    (hfl : ∀ x ∈ srv.edgeLogits, IsFloat 24 (-149) x) (hT : IsTree V srv.estimatedTree) (hC : Canonical srv.estimatedTree)
    (R : IsRounding 24 (-149) rs) (Rp : IsRounding 53 (-1074) rp) (hexp : ExpOk fexp η) (hnum : num.exp = fun x => fexp (rs x))
    {srvR : Server ℝ M} {numR : ServeNum ℝ} (hVR : srvR.tree.numVertices = V) (hlogits : srvR.edgeLogits = srv.edgeLogits.map fun x : ℚ => (x : ℝ))
    (hest : srvR.estimatedTree = srv.estimatedTree) (hnumR : numR.exp = Real.exp) (junk : Nat → Nat) (f : List Edge → ℝ) (lo hi : ℝ)
    (hf : ∀ T, Canonical T → IsTree V T → lo ≤ f T ∧ f T ≤ hi) (n i : Nat) (hin : i < n) :
    |(srv.sampleTrees num junk n : ExceptT PyErr (FloatExpect rs rp (2 ^ 53)) _).run (onOk fun ts => f (ts.getD i []))
        - (srvR.sampleTrees numR junk n : ExceptT PyErr (Expect ℝ) _).run (onOk fun ts => f (ts.getD i []))|
      ≤ ((i : ℝ) + 1) * (((V : ℝ) - 1) * ((V : ℝ) ^ 2 / 4 * (2 ^ (-22 : Int) + 2 ^ (-52 : Int) + η))) * (hi - lo) := by
  have hlR : (srv.edgeLogits.map fun x : ℚ => (x : ℝ)).length = tri V := by rw [List.length_map, hl]; rfl
  rw [server_sampleTrees_floatChain hnum, server_sampleTrees_chain hnumR, hV, hVR, hlogits, hest, floatTreeChain_get R hexp hl f n i hin hC hT,
    treeChain_get hlR f n i hin hC hT]
  have hb : ∀ (n : Nat) (T : List Edge), Canonical T ∧ IsTree V T → lo ≤ (treeStep V junk (srv.edgeLogits.map fun x : ℚ => (x : ℝ)))^[n] f T ∧
      (treeStep V junk (srv.edgeLogits.map fun x : ℚ => (x : ℝ)))^[n] f T ≤ lo + (hi - lo) := by
    intro n
    induction n with
    | zero => intro T h; rw [add_sub_cancel]; exact hf T h.1 h.2
    | succ n ih =>
      intro T h
      rw [Function.iterate_succ_apply']
      exact (treeStep_avg h.1 h.2 hlR).mem ih
  have hmain := floatTreeStep_iterate R Rp hexp hfl hsize hl junk (fun _ => hi - lo) (lo := fun _ => lo) hb (i + 1) srv.estimatedTree ⟨hC, hT⟩
  refine le_trans hmain (le_of_eq ?_)
  have hV1 : ((V - 1 : Nat) : ℝ) = (V : ℝ) - 1 := by
    rw [Nat.cast_sub (by have := hT.card; omega), Nat.cast_one]
  rw [Finset.sum_const, Finset.card_range, nsmul_eq_mul, scanError, drawError, hV1]
  push_cast
  ring

/-- **C73** (against the posterior). The trees that a server samples in float32 approach the posterior over spanning trees up to a constant. There is a rate `ρ < 1`,
which depends only on the logits, such that for every rounding and every exponential function within `η`, however many trees are requested, the expected value of
any function of the `i`-th tree with values in `[lo, hi]` is within `(ρ ^ (i + 1) + 2 ε / (1 - ρ)) (hi - lo)` of its posterior mean, where
`ε = (V - 1) V ^ 2 / 4 (2 ^ -22 + 2 ^ -52 + η)`. The errors of the draws do not add up over the chain. The call does not raise: an exception would count zero, and
constant functions have `hi - lo = 0`. -/
theorem server_sampleTrees_float32_converges {V : Nat} (hV : srv.tree.numVertices = V) (hsize : V ^ 2 ≤ 2 ^ 25) (hl : srv.edgeLogits.length = V * (V - 1) / 2)
    (hfl : ∀ x ∈ srv.edgeLogits, IsFloat 24 (-149) x) (hT : IsTree V srv.estimatedTree) (hC : Canonical srv.estimatedTree) (junk : Nat → Nat)
    (S : Finset (List Edge)) (hS : ∀ T, T ∈ S ↔ Canonical T ∧ IsTree V T) :
    ∃ ρ : ℝ, 0 ≤ ρ ∧ ρ < 1 ∧ ∀ (rs rp fexp : ℚ → ℚ) (η : ℝ) (num : ServeNum ℚ), IsRounding 24 (-149) rs → IsRounding 53 (-1074) rp → ExpOk fexp η →
      (num.exp = fun x => fexp (rs x)) → ∀ (f : List Edge → ℝ) (lo hi : ℝ), (∀ T ∈ S, lo ≤ f T ∧ f T ≤ hi) → ∀ n i : Nat, i < n →
        |(srv.sampleTrees num junk n : ExceptT PyErr (FloatExpect rs rp (2 ^ 53)) _).run (onOk fun ts => f (ts.getD i []))
            - ∑ T ∈ S, treePosterior (srv.edgeLogits.map fun x : ℚ => (x : ℝ)) S T * f T|
          ≤ (ρ ^ (i + 1) + 2 * (((V : ℝ) - 1) * ((V : ℝ) ^ 2 / 4 * (2 ^ (-22 : Int) + 2 ^ (-52 : Int) + η))) / (1 - ρ)) * (hi - lo) := by
  have hcard := hT.card
  have hlR : (srv.edgeLogits.map fun x : ℚ => (x : ℝ)).length = tri V := by rw [List.length_map, hl]; rfl
  obtain ⟨ρ, h0, h1, h2⟩ := treeStep_converges (by omega) hlR S hS junk
  refine ⟨ρ, h0, h1, fun rs rp fexp η num R Rp hexp hnum f lo hi hf n i hin => ?_⟩
  have hmem : srv.estimatedTree ∈ S := (hS _).2 ⟨hC, hT⟩
  have hspan : lo ≤ hi := (hf _ hmem).1.trans (hf _ hmem).2
  rw [server_sampleTrees_floatChain hnum, hV, floatTreeChain_get R hexp hl f n i hin hC hT]
  set π := ∑ T ∈ S, treePosterior (srv.edgeLogits.map fun x : ℚ => (x : ℝ)) S T * f T with hπ
  have hb : ∀ (n : Nat) (T : List Edge), Canonical T ∧ IsTree V T → π - ρ ^ n * (hi - lo) ≤ (treeStep V junk (srv.edgeLogits.map fun x : ℚ => (x : ℝ)))^[n] f T ∧
      (treeStep V junk (srv.edgeLogits.map fun x : ℚ => (x : ℝ)))^[n] f T ≤ (π - ρ ^ n * (hi - lo)) + 2 * (ρ ^ n * (hi - lo)) := by
    intro n T h
    have := abs_le.1 (h2 f lo hi hf T ((hS T).2 h) n)
    constructor <;> linarith
  have hmain := floatTreeStep_iterate R Rp hexp hfl hsize hl junk (fun n => 2 * (ρ ^ n * (hi - lo))) (lo := fun n => π - ρ ^ n * (hi - lo)) hb (i + 1) srv.estimatedTree ⟨hC, hT⟩
  have hconv := h2 f lo hi hf srv.estimatedTree hmem (i + 1)
  refine le_trans (abs_sub_le _ _ _) (le_trans (add_le_add hmain hconv) ?_)
  have hgeo : ∑ k ∈ Finset.range (i + 1), ρ ^ k ≤ (1 - ρ)⁻¹ := by
    rw [← tsum_geometric_of_lt_one h0 h1]
    exact (summable_geometric_of_lt_one h0 h1).sum_le_tsum _ fun i _ => pow_nonneg h0 i
  have hV1 : ((V - 1 : Nat) : ℝ) = (V : ℝ) - 1 := by rw [Nat.cast_sub (by omega), Nat.cast_one]
  have hE : 0 ≤ scanError V η := mul_nonneg (Nat.cast_nonneg _) (drawError_nonneg hexp.eta_nonneg V)
  have hEeq : ((V : ℝ) - 1) * ((V : ℝ) ^ 2 / 4 * (2 ^ (-22 : Int) + 2 ^ (-52 : Int) + η)) = scanError V η := by rw [scanError, drawError, hV1]
  rw [hEeq, ← Finset.mul_sum, ← Finset.sum_mul, add_mul, add_comm]
  refine add_le_add le_rfl ?_
  have h3 : scanError V η * (2 * ((∑ k ∈ Finset.range (i + 1), ρ ^ k) * (hi - lo))) = 2 * scanError V η * (hi - lo) * ∑ k ∈ Finset.range (i + 1), ρ ^ k := by ring
  have h4 : 2 * scanError V η / (1 - ρ) * (hi - lo) = 2 * scanError V η * (hi - lo) * (1 - ρ)⁻¹ := by rw [div_eq_mul_inv]; ring
  rw [h3, h4]
  exact mul_le_mul_of_nonneg_left hgeo (mul_nonneg (mul_nonneg (by norm_num) hE) (sub_nonneg.2 hspan))

end

/-! ### The hypotheses are met -/

/-- The exponential function rounded down to a multiple of `2 ^ -24`. -/
noncomputable def floorExp (x : ℚ) : ℚ := ⌊Real.exp x * 2 ^ 24⌋ / 2 ^ 24

theorem floorExp_ok : ExpOk floorExp (2 ^ (-24 : Int)) where
  zero := by
    have : ⌊Real.exp ((0 : ℚ) : ℝ) * 2 ^ 24⌋ = 2 ^ 24 := by
      rw [Rat.cast_zero, Real.exp_zero, one_mul]
      have h := Int.floor_intCast (R := ℝ) ((2 : Int) ^ 24)
      rwa [Int.cast_pow, Int.cast_ofNat] at h
    rw [floorExp, this]
    norm_num
  nonneg x _ := by
    unfold floorExp
    have : 0 ≤ ⌊Real.exp x * 2 ^ 24⌋ := Int.floor_nonneg.2 (by positivity)
    positivity
  float x hx := by
    have h1 : Real.exp x ≤ 1 := Real.exp_le_one_iff.2 (by exact_mod_cast hx)
    have h0 : 0 ≤ ⌊Real.exp x * 2 ^ 24⌋ := Int.floor_nonneg.2 (by positivity)
    have h2 : ⌊Real.exp x * 2 ^ 24⌋ ≤ 2 ^ 24 := by
      have h3 : (⌊Real.exp x * 2 ^ 24⌋ : ℝ) ≤ 2 ^ 24 := le_trans (Int.floor_le _) (by nlinarith [h1])
      exact_mod_cast h3
    unfold floorExp
    generalize ⌊Real.exp x * 2 ^ 24⌋ = m at h0 h2
    rcases lt_or_eq_of_le h2 with h3 | h3
    · refine ⟨m, -24, by rwa [abs_of_nonneg h0], by norm_num, ?_⟩
      rw [zpow_neg, div_eq_mul_inv]
      norm_cast
    · exact ⟨1, 0, by norm_num, by norm_num, by rw [h3]; norm_num⟩
  near x _ _ := by
    have h1 := Int.floor_le (Real.exp x * 2 ^ 24)
    have h2 := Int.lt_floor_add_one (Real.exp x * 2 ^ 24)
    have e1 : (2 : ℝ) ^ (-24 : Int) = 1 / 2 ^ 24 := by rw [zpow_neg, one_div]; norm_cast
    unfold floorExp
    push_cast
    rw [e1, abs_le]
    constructor
    · rw [neg_le_sub_iff_le_add, ← sub_le_iff_le_add', sub_le_iff_le_add, ← add_div, le_div_iff₀ (by norm_num)]
      linarith
    · rw [sub_le_iff_le_add, div_le_iff₀ (by norm_num), add_mul]
      norm_num at h1 ⊢
      linarith

/-- A server over three features with logits `1`, `-2` and `1/2`. -/
def treeServer (K : Type) [Field K] : Server K 2 where
  tree := (exampleModel K).tree
  program := []
  raggedIndex := [0, 2, 5, 7]
  vertProbs _ _ := 1 / 2
  edgeProbs _ _ _ := 1 / 4
  edgeTrans _ _ _ := 1
  featCond _ _ := 1 / 2
  edgeLogits := [1, -2, 1 / 2]
  estimatedTree := [(0, 1), (1, 2)]

/-- The hypotheses are met, with an error far below one. -/
example : (treeServer ℚ).tree.numVertices = 3 ∧ 3 ^ 2 ≤ 2 ^ 25 ∧ (treeServer ℚ).edgeLogits.length = 3 * (3 - 1) / 2 ∧ (∀ x ∈ (treeServer ℚ).edgeLogits, IsFloat 24 (-149) x) ∧
    IsTree 3 (treeServer ℚ).estimatedTree ∧ Canonical (treeServer ℚ).estimatedTree ∧ IsRounding 24 (-149) float32 ∧ IsRounding 53 (-1074) float64 ∧
    ExpOk floorExp (2 ^ (-24 : Int)) ∧ (treeServer ℝ).tree.numVertices = 3 ∧ (treeServer ℝ).edgeLogits = (treeServer ℚ).edgeLogits.map (fun x : ℚ => (x : ℝ)) ∧
    (treeServer ℝ).estimatedTree = (treeServer ℚ).estimatedTree ∧ ((3 : ℝ) - 1) * ((3 : ℝ) ^ 2 / 4 * (2 ^ (-22 : Int) + 2 ^ (-52 : Int) + 2 ^ (-24 : Int))) ≤ 1 / 10 ^ 5 := by
  refine ⟨rfl, by norm_num, rfl, ?_, isTree_of_smaller rfl (by decide) (by decide), ⟨by decide, by decide⟩, float32_isRounding, float64_isRounding, floorExp_ok, rfl, ?_, rfl, ?_⟩
  · intro x hx
    simp only [treeServer, List.mem_cons, List.not_mem_nil, or_false] at hx
    rcases hx with rfl | rfl | rfl
    · exact ⟨1, 0, by norm_num, by norm_num, by norm_num⟩
    · exact ⟨-2, 0, by norm_num, by norm_num, by norm_num⟩
    · exact ⟨1, -1, by norm_num, by norm_num, by norm_num⟩
  · simp [treeServer]
  · norm_num

end TreeCat
