import Verif.Model.FloatLearn
import Verif.Props.FloatEdge
import Verif.Props.FloatTree

/-! # C76: learning the tree in float32 -/

namespace TreeCat

open Util Spec
open scoped BigOperators

/-! ### Draws from perturbed logits -/

/-- Normalised exponentials of numbers that are within `δ`. -/
theorem softmax_distance {ι : Type} (s : Finset ι) (hne : s.Nonempty) (l l' : ι → ℝ) {δ : ℝ} (h : ∀ i ∈ s, |l' i - l i| ≤ δ) :
    ∑ i ∈ s, |Real.exp (l' i) / ∑ j ∈ s, Real.exp (l' j) - Real.exp (l i) / ∑ j ∈ s, Real.exp (l j)| ≤ Real.exp (2 * δ) - 1 := by
  have hZ : 0 < ∑ j ∈ s, Real.exp (l j) := Finset.sum_pos (fun _ _ => Real.exp_pos _) hne
  have hZ' : 0 < ∑ j ∈ s, Real.exp (l' j) := Finset.sum_pos (fun _ _ => Real.exp_pos _) hne
  have up : ∀ i ∈ s, Real.exp (l' i) ≤ Real.exp δ * Real.exp (l i) := by
    intro i hi
    rw [← Real.exp_add]
    exact Real.exp_le_exp.2 (by linarith [(abs_le.1 (h i hi)).2])
  have down : ∀ i ∈ s, Real.exp (l i) ≤ Real.exp δ * Real.exp (l' i) := by
    intro i hi
    rw [← Real.exp_add]
    exact Real.exp_le_exp.2 (by linarith [(abs_le.1 (h i hi)).1])
  have Zup : ∑ j ∈ s, Real.exp (l' j) ≤ Real.exp δ * ∑ j ∈ s, Real.exp (l j) := by
    rw [Finset.mul_sum]
    exact Finset.sum_le_sum up
  have Zdown : ∑ j ∈ s, Real.exp (l j) ≤ Real.exp δ * ∑ j ∈ s, Real.exp (l' j) := by
    rw [Finset.mul_sum]
    exact Finset.sum_le_sum down
  have e2 : Real.exp (2 * δ) = Real.exp δ * Real.exp δ := by rw [← Real.exp_add]; congr 1; ring
  have hδ : 0 ≤ δ := (abs_nonneg _).trans (h _ hne.choose_spec)
  have h1 : 1 ≤ Real.exp (2 * δ) := Real.one_le_exp (by linarith)
  have key : ∀ i ∈ s, |Real.exp (l' i) / ∑ j ∈ s, Real.exp (l' j) - Real.exp (l i) / ∑ j ∈ s, Real.exp (l j)|
      ≤ (Real.exp (2 * δ) - 1) * (Real.exp (l i) / ∑ j ∈ s, Real.exp (l j)) := by
    intro i hi
    set a := Real.exp (l i) / ∑ j ∈ s, Real.exp (l j) with ha
    set b := Real.exp (l' i) / ∑ j ∈ s, Real.exp (l' j) with hb
    have ha0 : 0 < a := div_pos (Real.exp_pos _) hZ
    have hb0 : 0 < b := div_pos (Real.exp_pos _) hZ'
    have hba : b ≤ Real.exp (2 * δ) * a := by
      rw [hb, div_le_iff₀ hZ', ha, e2]
      calc Real.exp (l' i) ≤ Real.exp δ * Real.exp (l i) := up i hi
        _ = Real.exp δ * (Real.exp (l i) / ∑ j ∈ s, Real.exp (l j)) * ∑ j ∈ s, Real.exp (l j) := by field_simp
        _ ≤ Real.exp δ * (Real.exp (l i) / ∑ j ∈ s, Real.exp (l j)) * (Real.exp δ * ∑ j ∈ s, Real.exp (l' j)) :=
            mul_le_mul_of_nonneg_left Zdown (by positivity)
        _ = _ := by ring
    have hab : a ≤ Real.exp (2 * δ) * b := by
      rw [ha, div_le_iff₀ hZ, hb, e2]
      calc Real.exp (l i) ≤ Real.exp δ * Real.exp (l' i) := down i hi
        _ = Real.exp δ * (Real.exp (l' i) / ∑ j ∈ s, Real.exp (l' j)) * ∑ j ∈ s, Real.exp (l' j) := by field_simp
        _ ≤ Real.exp δ * (Real.exp (l' i) / ∑ j ∈ s, Real.exp (l' j)) * (Real.exp δ * ∑ j ∈ s, Real.exp (l j)) :=
            mul_le_mul_of_nonneg_left Zup (by positivity)
        _ = _ := by ring
    rw [abs_le]
    constructor
    · rcases le_total a b with hle | hle
      · have := mul_nonneg (sub_nonneg.2 h1) ha0.le
        linarith
      · have := mul_le_mul_of_nonneg_left hle (sub_nonneg.2 h1)
        linarith
    · linarith
  calc _ ≤ ∑ i ∈ s, (Real.exp (2 * δ) - 1) * (Real.exp (l i) / ∑ j ∈ s, Real.exp (l j)) := Finset.sum_le_sum key
    _ = Real.exp (2 * δ) - 1 := by rw [← Finset.mul_sum, ← Finset.sum_div, div_self hZ.ne', mul_one]

theorem probsOf_normalised {ls : List ℝ} {m i : Nat} (hm : m = ls.length) (hi : i < m) :
    (probsOf Real.exp ls).getD i 0 / ∑ j ∈ Finset.range m, (probsOf Real.exp ls).getD j 0
      = Real.exp (ls.getD i 0) / ∑ j ∈ Finset.range m, Real.exp (ls.getD j 0) := by
  cases ls with
  | nil => subst hm; simp at hi
  | cons l ls =>
    have hg : ∀ j < m, (probsOf Real.exp (l :: ls)).getD j 0 = Real.exp (-(ls.foldl max l)) * Real.exp ((l :: ls).getD j 0) := by
      intro j hj
      have hj' : j < (l :: ls).length := by omega
      rw [probsOf, List.getD_eq_getElem _ _ (by rw [List.length_map]; exact hj'), List.getElem_map, List.getD_eq_getElem _ _ hj', ← Real.exp_add]
      congr 1
      ring
    rw [hg i hi, Finset.sum_congr rfl fun j hj => hg j (Finset.mem_range.1 hj), ← Finset.mul_sum, mul_div_mul_left _ _ (Real.exp_pos _).ne']

/-- One draw of an edge, with logits that differ by at most `δ`. -/
theorem absStep_perturb {logits logits' : List ℝ} {δ : ℝ} (h : ∀ k, |logits'.getD k 0 - logits.getD k 0| ≤ δ) {V : Nat} {ω : List Nat} (hω : LTree V ω)
    {e : Nat} (he : e < ω.length) {F : List Nat → ℝ} {lo hi : ℝ} (hF : ∀ ω, LTree V ω → lo ≤ F ω ∧ F ω ≤ hi) :
    |absStep (Expect ℝ) Real.exp logits' V ω e F - absStep (Expect ℝ) Real.exp logits V ω e F| ≤ (Real.exp (2 * δ) - 1) / 2 * (hi - lo) := by
  have hself := self_mem_validList hω he
  have hpos : 0 < (validList V ω e).length := List.length_pos_of_mem hself
  have hspan : lo ≤ hi := (hF _ hω).1.trans (hF _ hω).2
  set m := (validList V ω e).length with hm
  have hform : ∀ logits : List ℝ, absStep (Expect ℝ) Real.exp logits V ω e F = ∑ i ∈ Finset.range m,
      Real.exp (logits.getD ((validList V ω e).getD i 0) 0) / (∑ j ∈ Finset.range m, Real.exp (logits.getD ((validList V ω e).getD j 0) 0))
        * F (ω.set e ((validList V ω e).getD i 0)) := by
    intro logits
    rw [absStep_exact]
    refine Finset.sum_congr rfl fun i hi => ?_
    have hi := Finset.mem_range.1 hi
    have hg : ∀ j < m, ((validList V ω e).map fun k => logits.getD k 0).getD j 0 = logits.getD ((validList V ω e).getD j 0) 0 := by
      intro j hj
      rw [List.getD_eq_getElem _ _ (by rw [List.length_map]; exact hj), List.getElem_map, List.getD_eq_getElem (validList V ω e) _ hj]
    rw [validProbs, probsOf_normalised (by rw [List.length_map]) hi, hg i hi, Finset.sum_congr rfl fun j hj => by rw [hg j (Finset.mem_range.1 hj)]]
  have hone : ∀ l : Nat → ℝ, ∑ i ∈ Finset.range m, Real.exp (l i) / ∑ j ∈ Finset.range m, Real.exp (l j) = 1 := by
    intro l
    rw [← Finset.sum_div, div_self]
    exact (Finset.sum_pos (fun _ _ => Real.exp_pos _) ⟨0, Finset.mem_range.2 hpos⟩).ne'
  rw [hform, hform]
  refine le_trans (expect_distance _ _ _ _ (hone _) (hone _) (fun i hi => ?_)) (mul_le_mul_of_nonneg_right ?_ (sub_nonneg.2 hspan))
  · have hi := Finset.mem_range.1 hi
    refine hF _ ((mem_validList_iff hω he _).1 ?_)
    rw [List.getD_eq_getElem _ _ hi]
    exact List.getElem_mem hi
  · exact div_le_div_of_nonneg_right (softmax_distance _ ⟨0, Finset.mem_range.2 hpos⟩ (fun i => logits.getD ((validList V ω e).getD i 0) 0)
      (fun i => logits'.getD ((validList V ω e).getD i 0) 0) fun i _ => h _) (by norm_num)

theorem absRun_perturb {logits logits' : List ℝ} {δ : ℝ} (h : ∀ k, |logits'.getD k 0 - logits.getD k 0| ≤ δ) {V : Nat}
    {F : List Nat → ℝ} {lo hi : ℝ} (hF : ∀ ω, LTree V ω → lo ≤ F ω ∧ F ω ≤ hi) : ∀ (slots : List Nat), (∀ e ∈ slots, e + 1 < V) → ∀ ω, LTree V ω →
      |absRun (Expect ℝ) Real.exp logits' V ω slots F - absRun (Expect ℝ) Real.exp logits V ω slots F| ≤ slots.length * ((Real.exp (2 * δ) - 1) / 2 * (hi - lo)) := by
  intro slots
  induction slots with
  | nil =>
    intro _ ω _
    have e1 : ∀ logits : List ℝ, absRun (Expect ℝ) Real.exp logits V ω [] F = F ω := fun _ => rfl
    rw [e1, e1, sub_self, abs_zero, List.length_nil, Nat.cast_zero, zero_mul]
  | cons e slots ih =>
    intro hs ω hω
    have he : e < ω.length := by
      have := hs e (List.mem_cons_self ..); have := hω.length; omega
    have hs' : ∀ x ∈ slots, x + 1 < V := fun x hx => hs x (List.mem_cons_of_mem _ hx)
    rw [absRun_cons, absRun_cons]
    have h1 := (absRun_avg logits' [e] (by simpa using hs e (List.mem_cons_self ..)) ω hω).near fun ω' h' => ih hs' ω' h'
    rw [absRun_cons, absRun_cons] at h1
    have h2 := absStep_perturb h hω he (F := fun ω' => absRun (Expect ℝ) Real.exp logits V ω' slots F) fun ω' h' =>
      (absRun_avg logits slots hs' ω' h').mem hF
    refine le_trans (abs_sub_le _ _ _) (le_trans (add_le_add h1 h2) (le_of_eq ?_))
    rw [List.length_cons]
    push_cast
    ring

/-- One call of `sample_tree` with logits that differ by at most `δ`. -/
theorem treeStep_perturb {logits logits' : List ℝ} {δ : ℝ} (hδ : 0 ≤ δ) (h : ∀ k, |logits'.getD k 0 - logits.getD k 0| ≤ δ) {V : Nat} (hl : logits.length = tri V)
    (hl' : logits'.length = tri V) {T : List Edge} (ht : IsTree V T) (hcan : Canonical T) (junk : Nat → Nat) {f : List Edge → ℝ} {lo hi : ℝ}
    (hf : ∀ T, Canonical T ∧ IsTree V T → lo ≤ f T ∧ f T ≤ hi) :
    |treeStep V junk logits' f T - treeStep V junk logits f T| ≤ ((V - 1 : Nat) : ℝ) * ((Real.exp (2 * δ) - 1) / 2) * (hi - lo) := by
  have hcard := ht.card
  have hspan : lo ≤ hi := (hf T ⟨hcan, ht⟩).1.trans (hf T ⟨hcan, ht⟩).2
  have h1 := Avg.list (List.range T.length).permutations T.length.factorial
    (by rw [List.length_permutations, List.length_range])
    (List.ne_nil_of_mem (List.mem_permutations.2 (List.Perm.refl _)))
  refine h1.near fun σ hσ => ?_
  have hperm := List.mem_permutations.1 hσ
  have hmem : ∀ e ∈ σ, e < T.length := fun e he => List.mem_range.1 (hperm.mem_iff.1 he)
  rw [sampleTree_exact ht junk hl' hmem, sampleTree_exact ht junk hl hmem]
  split
  · rw [sub_self, abs_zero]
    have : 1 ≤ Real.exp (2 * δ) := Real.one_le_exp (by linarith)
    exact mul_nonneg (mul_nonneg (Nat.cast_nonneg _) (by linarith)) (sub_nonneg.2 hspan)
  · refine le_trans (absRun_perturb (lo := lo) (hi := hi) h (fun ω hω => ?_) σ (fun e he => by have := hmem e he; omega) (idsOf T) (ltree_ids ht)) (le_of_eq ?_)
    · have := canonOf_spec hω
      exact hf _ ⟨this.1, this.2⟩
    · rw [hperm.length_eq, List.length_range, mul_assoc, ← hcard, Nat.add_sub_cancel]

/-! ### The trainer -/

section
variable {rs rd rp gl fexp : ℚ → ℚ} {sum : List ℚ → ℚ} {γ η : ℝ}

/-- The factor in `logitSlack`. -/
noncomputable def logitFactor (γ : ℝ) (M : Nat) : ℝ := (1 + 1 / 2 ^ 24) ^ (M * M + 3) * ((1 + γ) * (1 + 1 / 2 ^ 18))

theorem one_le_logitFactor (hγ : 0 ≤ γ) (M : Nat) : 1 ≤ logitFactor γ M := by
  unfold logitFactor
  have h1 : (1 : ℝ) ≤ (1 + 1 / 2 ^ 24) ^ (M * M + 3) := one_le_pow₀ (by norm_num)
  have h2 : 1 ≤ (1 + γ) * (1 + 1 / 2 ^ 18) := by nlinarith
  nlinarith

theorem logitSlack_le (hγ : 0 ≤ γ) {M N : Nat} {p P : ℝ} (h : |p| ≤ |P|) : logitSlack γ M N p ≤ logitSlack γ M N P :=
  mul_le_mul_of_nonneg_left (by linarith) (sub_nonneg.2 (one_le_logitFactor hγ M))

theorem logitSlack_nonneg (hγ : 0 ≤ γ) {M N : Nat} (hM : 1 ≤ M) (P : ℝ) : 0 ≤ logitSlack γ M N P := by
  have hM' : (1 : ℝ) ≤ M := by exact_mod_cast hM
  have h1 : 0 ≤ edgeScale M N := by
    unfold edgeScale
    have h2 : 0 ≤ Real.log (2 * M) := Real.log_nonneg (by linarith)
    have h3 := nLog_nonneg N
    positivity
  exact mul_nonneg (sub_nonneg.2 (one_le_logitFactor hγ M)) (by positivity)

/-- The sum of the logits of the edges of a tree, where the logits are listed in the order of `make_complete_graph`. -/
def Spec.treeTotal {K : Type} [Zero K] [Add K] (logits : List K) (T : List Edge) : K :=
  (T.map fun p => logits.getD (min p.1 p.2 + max p.1 p.2 * (max p.1 p.2 - 1) / 2) 0).sum

theorem treeTotal_near {logits logits' : List ℝ} {δ : ℝ} (h : ∀ k, |logits'.getD k 0 - logits.getD k 0| ≤ δ) (T : List Edge) :
    |treeTotal logits' T - treeTotal logits T| ≤ T.length * δ := by
  unfold treeTotal
  induction T with
  | nil => simp
  | cons p T ih =>
    simp only [List.map_cons, List.sum_cons, List.length_cons]
    push_cast
    have h1 := h (min p.1 p.2 + max p.1 p.2 * (max p.1 p.2 - 1) / 2)
    rw [abs_le] at *
    constructor <;> linarith [h1.1, h1.2, ih.1, ih.2]

theorem treeTotal_cast (logits : List ℚ) (T : List Edge) : ((treeTotal logits T : ℚ) : ℝ) = treeTotal (logits.map fun x : ℚ => (x : ℝ)) T := by
  unfold treeTotal
  rw [Rat.cast_list_sum, List.map_map]
  congr 1
  refine List.map_congr_left fun p _ => ?_
  simp only [Function.comp, List.getD_eq_getElem?_getD, List.getElem?_map]
  cases logits[min p.1 p.2 + max p.1 p.2 * (max p.1 p.2 - 1) / 2]? <;> simp

theorem prior_le {prior : List ℚ} {P : ℝ} (hP : ∀ x ∈ prior, |(x : ℝ)| ≤ P) : ∀ k < prior.length, |((prior.getD k 0 : ℚ) : ℝ)| ≤ |P| := by
  intro k hk
  rw [List.getD_eq_getElem _ _ hk]
  exact (hP _ (List.getElem_mem hk)).trans (le_abs_self P)

theorem logits_near (hγ : 0 ≤ γ) {M N : Nat} (hM : 1 ≤ M) {prior fl : List ℚ} {ex : List ℝ} {P : ℝ} (hP : ∀ x ∈ prior, |(x : ℝ)| ≤ P) (h3 : fl.length = prior.length)
    (h4 : ex.length = prior.length) (h5 : ∀ k < prior.length, |((fl.getD k 0 : ℚ) : ℝ) - ex.getD k 0| ≤ logitSlack γ M N (prior.getD k 0 : ℚ)) (k : Nat) :
    |(fl.map fun x : ℚ => (x : ℝ)).getD k 0 - ex.getD k 0| ≤ logitSlack γ M N P := by
  by_cases hk : k < prior.length
  · have e1 : (fl.map fun x : ℚ => (x : ℝ)).getD k 0 = ((fl.getD k 0 : ℚ) : ℝ) := by
      rw [List.getD_eq_getElem _ _ (by rw [List.length_map]; omega), List.getElem_map, List.getD_eq_getElem _ _ (by omega)]
    rw [e1]
    exact (h5 k hk).trans (logitSlack_le hγ (prior_le hP k hk))
  · rw [List.getD_eq_default _ _ (by rw [List.length_map]; omega), List.getD_eq_default _ _ (by omega), sub_self, abs_zero]
    exact logitSlack_nonneg hγ hM P

/-- Estimating a tree in a good state, in float32. -/
theorem floatTrainerEstimateTree_good (R : IsRounding 24 (-149) rs) (D : IsRounding 53 (-1074) rd) (G : GammalnOk gl γ) (hγ : 0 ≤ γ) (S : SumAbsOk sum)
    {M : Nat} [NeZero M] (hM2 : M ≤ 2 ^ 31) {num : Num ℝ} (hn : ∀ x, 0 < x → num.gammaln x = Real.log (Real.Gamma x)) {t : Table} 
    {s : Trainer ℝ M} (hg : Good t s) (prior : List ℚ) (hp : prior.length = t.numCols * (t.numCols - 1) / 2)
    (hpf : ∀ x ∈ prior, IsFloat 24 (-149) x) {P : ℝ} (hP : ∀ x ∈ prior, |(x : ℝ)| ≤ P) {mst : List (List ℚ) → List Edge} (hmst : MstContract mst)
    {B : ℚ} (hB : logitFactor γ M * (3 * edgeScale M t.numRows + |P|) ≤ B) :
    ∃ T fl ex, floatTrainerEstimateTree rs rd gl sum mst t prior s = .ok (T, fl) ∧ computeEdgeLogits num t (prior.map fun x : ℚ => (x : ℝ)) s = .ok ex ∧
      Canonical T ∧ IsTree t.numCols T ∧ ∀ T', IsTree t.numCols T' →
        treeTotal ex T' ≤ treeTotal ex T + ((t.numCols - 1 : Nat) : ℝ) * (2 * logitSlack γ M t.numRows P + ((1 + 1 / 2 ^ 25) / 2 ^ 21 * B + 1 / 2 ^ 23)) := by
  have hM : 1 ≤ M := Nat.one_le_iff_ne_zero.2 (NeZero.ne M)
  have hV : 1 ≤ t.numCols := by have := hg.isTree.card; omega
  obtain ⟨fl, ex, h1, h2, h3, h4, h5⟩ := floatEdgeLogits_good R D G hγ S hM2 hn hg prior hp hpf
  have hPk := prior_le hP
  have hnear := logits_near hγ hM hP h3 h4 fun k hk => (h5 k hk).2.1
  have hbound : ∀ k < prior.length, |fl.getD k 0| ≤ B := by
    intro k hk
    have q1 := (h5 k hk).2.1.trans (logitSlack_le hγ (hPk k hk))
    have q2 := (h5 k hk).2.2
    have q3 := hPk k hk
    have : ((|fl.getD k 0| : ℚ) : ℝ) ≤ B := by
      rw [Rat.cast_abs]
      have q4 := abs_add_le (((fl.getD k 0 : ℚ) : ℝ) - ex.getD k 0) (ex.getD k 0)
      rw [sub_add_cancel] at q4
      have q5 : logitSlack γ M t.numRows P = (logitFactor γ M - 1) * (3 * edgeScale M t.numRows + |P|) := rfl
      rw [q5] at q1
      linarith
    exact_mod_cast this
  have htri : prior.length = tri t.numCols := hp
  have hedge : ∀ i j, i < j → j < t.numCols → i + j * (j - 1) / 2 < prior.length := fun i j hij hj => by
    rw [htri]
    have := fce_lt hij hj
    rwa [fce_of_lt hij] at this
  have hgrid : (completeGrid t.numCols).map (fun p => fl.getD (p.2.1 + p.2.2 * (p.2.2 - 1) / 2) 0) = fl := by
    apply List.ext_getElem
    · rw [List.length_map, completeGrid_length, h3, hp]
      rfl
    · intro k hk1 hk2
      have hk' : k < tri t.numCols := by omega
      have hkg : k < (completeGrid t.numCols).length := by rw [completeGrid_length]; exact hk'
      have q := completeGrid_getElem? t.numCols k
      rw [List.getElem?_eq_getElem hkg, pairs_getElem?_pairAt hk'] at q
      simp only [Option.map_some, Option.some.injEq] at q
      rw [List.getElem_map, q]
      have := (pairAt_lt hk').2.2
      rw [fce_of_lt (pairAt_lt hk').1, tri] at this
      simp only [this]
      rw [List.getD_eq_getElem _ _ hk2]
  have hB0 : 0 ≤ B := by
    have : (0 : ℝ) ≤ B := by
      refine le_trans ?_ hB
      have q1 := one_le_logitFactor hγ M
      have q2 := logitSlack_nonneg hγ hM (N := t.numRows) P
      have q3 : 0 ≤ 3 * edgeScale M t.numRows + |P| := by
        have : 0 ≤ edgeScale M t.numRows := by
          unfold edgeScale
          have hM' : (1 : ℝ) ≤ M := by exact_mod_cast hM
          have h2 : 0 ≤ Real.log (2 * M) := Real.log_nonneg (by linarith)
          have h3 := nLog_nonneg t.numRows
          positivity
        positivity
      exact mul_nonneg (by linarith) q3
    exact_mod_cast this
  obtain ⟨T, g1, g2, g3, g4⟩ := floatEstimateTree_near R (by norm_num) (by norm_num) mst hmst t.numCols hV (completeGrid t.numCols) (makeCompleteGraph_eq _)
    (fun i j => fl.getD (i + j * (j - 1) / 2) 0) (fun i j hij hj => (h5 _ (hedge i j hij hj)).1) (-B) B hB0 fun i j hij hj => abs_le.1 (hbound _ (hedge i j hij hj))
  rw [hgrid] at g1
  refine ⟨T, fl, ex, ?_, h2, g2, g3, fun T' hT' => ?_⟩
  · simp only [floatTrainerEstimateTree, makeCompleteGraph_eq, h1, g1, bind, Except.bind]
  have k1 := treeTotal_near hnear T
  have k2 := treeTotal_near hnear T'
  have hlen : ∀ T, IsTree t.numCols T → (T.length : ℝ) = ((t.numCols - 1 : Nat) : ℝ) := fun T hT => by
    have := hT.card
    congr 1
    omega
  rw [hlen T g3] at k1
  rw [hlen T' hT'] at k2
  have k3 := (Rat.cast_le (K := ℝ)).2 (g4 T' hT')
  have k4 : treeTotal fl T = (T.map fun p => fl.getD (p.1 + p.2 * (p.2 - 1) / 2) 0).sum := by
    unfold treeTotal
    congr 1
    refine List.map_congr_left fun p hp => ?_
    have := g2.small_large p hp
    rw [min_eq_left this.le, max_eq_right this.le]
  have k5 : treeTotal fl T' = (T'.map fun p => fl.getD (min p.1 p.2 + max p.1 p.2 * (max p.1 p.2 - 1) / 2) 0).sum := rfl
  rw [← k4, ← k5, Rat.cast_add, treeTotal_cast, treeTotal_cast] at k3
  have k6 : ((((t.numCols - 1 : Nat) : ℚ) * (2 * weightSlack 24 (-B) B) : ℚ) : ℝ) = ((t.numCols - 1 : Nat) : ℝ) * ((1 + 1 / 2 ^ 25) / 2 ^ 21 * B + 1 / 2 ^ 23) := by
    rw [Rat.cast_mul, Rat.cast_natCast]
    congr 1
    unfold weightSlack
    push_cast
    ring
  rw [k6] at k3
  rw [abs_le] at k1 k2
  rw [mul_add, ← mul_assoc]
  linarith [k1.1, k1.2, k2.1, k2.2]

/-- **C76** (estimate). In every state of a trainer that calls can lead to, `estimate_tree` in float32 returns a spanning tree, in canonical form, whose exact total
logit is within `(V - 1) (2 δ + (1 + 2 ^ -25) / 2 ^ 21 B + 2 ^ -23)` of the maximum over all spanning trees, where `δ` is the allowance for an edge logit (`P` bounds the
prior) and `B` bounds the float32 logits. -/
theorem floatTrainerEstimateTree_near (R : IsRounding 24 (-149) rs) (D : IsRounding 53 (-1074) rd) (G : GammalnOk gl γ) (hγ : 0 ≤ γ) (S : SumAbsOk sum)
    {M : Nat} [NeZero M] (hM2 : M ≤ 2 ^ 31) {num : Num ℝ} (hn : ∀ x, 0 < x → num.gammaln x = Real.log (Real.Gamma x)) {t : Table} (ht : Table.Ordered t)
    (hm : ∀ ty ∈ t.featureTypes, ty = tyMultinomial) {s : Trainer ℝ M} (hs : Reached t s) (prior : List ℚ) (hp : prior.length = t.numCols * (t.numCols - 1) / 2)
    (hpf : ∀ x ∈ prior, IsFloat 24 (-149) x) {P : ℝ} (hP : ∀ x ∈ prior, |(x : ℝ)| ≤ P) {mst : List (List ℚ) → List Edge} (hmst : MstContract mst)
    {B : ℚ} (hB : logitFactor γ M * (3 * edgeScale M t.numRows + |P|) ≤ B) :
    ∃ T fl ex, floatTrainerEstimateTree rs rd gl sum mst t prior s = .ok (T, fl) ∧ computeEdgeLogits num t (prior.map fun x : ℚ => (x : ℝ)) s = .ok ex ∧
      Canonical T ∧ IsTree t.numCols T ∧ ∀ T', IsTree t.numCols T' →
        treeTotal ex T' ≤ treeTotal ex T + ((t.numCols - 1 : Nat) : ℝ) * (2 * logitSlack γ M t.numRows P + ((1 + 1 / 2 ^ 25) / 2 ^ 21 * B + 1 / 2 ^ 23)) :=
  floatTrainerEstimateTree_good R D G hγ S hM2 hn (hs.good ht hm) prior hp hpf hP hmst hB

theorem floatTrainerSampleTree_run (fexp : ℚ → ℚ) (junk : Nat → Nat) {K : Type} {M : Nat} {t : Table} {prior : List ℚ} {s : Trainer K M} {fl : List ℚ}
    (h1 : floatEdgeLogits rs rd gl sum t prior s = .ok fl) (h2 : fl.length = tri t.numCols) (f : List Edge → ℝ) :
    (floatTrainerSampleTree rs rd gl sum fexp junk t prior s : ExceptT PyErr (FloatExpect rs rp (2 ^ 53)) _).run (onTree f)
      = floatTreeStep rs rp fexp t.numCols junk fl f s.tree.getEdges := by
  have e2 : pyAssert (fl.length == (completeGrid t.numCols).length) = .ok () := by
    rw [h2, completeGrid_length]; simp [pyAssert]
  unfold floatTrainerSampleTree
  rw [makeCompleteGraph_eq, h1]
  show (ExceptT.mk (pure (pyAssert (fl.length == (completeGrid t.numCols).length))) >>= _ : ExceptT PyErr (FloatExpect rs rp (2 ^ 53)) _).run (onTree f) = _
  rw [e2]
  rfl

theorem trainerSampleTree_step {num : Num ℝ} (hexp : num.exp = Real.exp) (junk : Nat → Nat) {M : Nat} [NeZero M] {t : Table} {prior : List ℝ} {s : Trainer ℝ M} {logits : List ℝ}
    (h1 : computeEdgeLogits num t prior s = .ok logits) (h2 : logits.length = tri t.numCols) (f : List Edge → ℝ) :
    (trainerSampleTree num junk t prior : TrainM ℝ M (Expect ℝ) _).run.run s (fun o => onTree f o.1) = treeStep t.numCols junk logits f s.tree.getEdges := by
  have e2 : pyAssert (logits.length == (completeGrid t.numCols).length) = .ok () := by
    rw [h2, completeGrid_length]; simp [pyAssert]
  unfold trainerSampleTree
  refine (get_bind_run _ _).trans ?_
  refine (liftPy_bind_run (makeCompleteGraph_eq _) _ _).trans ?_
  refine (liftPy_bind_run h1 _ _).trans ?_
  refine (liftPy_bind_run e2 _ _).trans ?_
  refine (liftRand_bind_run _ _ _).trans ?_
  rw [hexp]
  rfl

/-- Sampling a tree in a good state, in float32 and exactly. -/
theorem floatTrainerSampleTree_good (R : IsRounding 24 (-149) rs) (D : IsRounding 53 (-1074) rd) (Rp : IsRounding 53 (-1074) rp) (G : GammalnOk gl γ) (hγ : 0 ≤ γ)
    (S : SumAbsOk sum) (hexp : ExpOk fexp η) {M : Nat} [NeZero M] (hM2 : M ≤ 2 ^ 31) {num : Num ℝ} (hn : ∀ x, 0 < x → num.gammaln x = Real.log (Real.Gamma x))
    (hnum : num.exp = Real.exp) {t : Table} (hV : t.numCols ^ 2 ≤ 2 ^ 25)
    {s : Trainer ℝ M} (hg : Good t s) (prior : List ℚ) (hp : prior.length = t.numCols * (t.numCols - 1) / 2) (hpf : ∀ x ∈ prior, IsFloat 24 (-149) x)
    {P : ℝ} (hP : ∀ x ∈ prior, |(x : ℝ)| ≤ P) (junk : Nat → Nat) (f : List Edge → ℝ) (lo hi : ℝ)
    (hf : ∀ T, Canonical T → IsTree t.numCols T → lo ≤ f T ∧ f T ≤ hi) :
    |(floatTrainerSampleTree rs rd gl sum fexp junk t prior s : ExceptT PyErr (FloatExpect rs rp (2 ^ 53)) _).run (onTree f)
        - (trainerSampleTree num junk t (prior.map fun x : ℚ => (x : ℝ)) : TrainM ℝ M (Expect ℝ) _).run.run s (fun o => onTree f o.1)|
      ≤ ((t.numCols - 1 : Nat) : ℝ) * ((t.numCols : ℝ) ^ 2 / 4 * (2 ^ (-22 : Int) + 2 ^ (-52 : Int) + η) + (Real.exp (2 * logitSlack γ M t.numRows P) - 1) / 2)
          * (hi - lo) := by
  have hM : 1 ≤ M := Nat.one_le_iff_ne_zero.2 (NeZero.ne M)
  obtain ⟨fl, ex, h1, h2, h3, h4, h5⟩ := floatEdgeLogits_good R D G hγ S hM2 hn hg prior hp hpf
  have hnear := logits_near hγ hM hP h3 h4 fun k hk => (h5 k hk).2.1
  have htri : prior.length = tri t.numCols := hp
  rw [floatTrainerSampleTree_run fexp junk h1 (by omega), trainerSampleTree_step hnum junk h2 (by omega)]
  have hfl : ∀ x ∈ fl, IsFloat 24 (-149) x := by
    intro x hx
    obtain ⟨k, hk, rfl⟩ := List.getElem_of_mem hx
    have := (h5 k (by omega)).1
    rwa [List.getD_eq_getElem _ _ hk] at this
  have hC := hg.canonical
  have k1 := floatTreeStep_near R Rp hexp hfl hV (by omega) hg.isTree hC junk (f := f) (lo := lo) (hi := hi) fun T h => hf T h.1 h.2
  have k2 := treeStep_perturb (logitSlack_nonneg hγ hM P) hnear (by omega : ex.length = tri t.numCols) (by rw [List.length_map]; omega) hg.isTree hC junk
    (f := f) (lo := lo) (hi := hi) fun T h => hf T h.1 h.2
  refine le_trans (abs_sub_le _ _ _) (le_trans (add_le_add k1 k2) (le_of_eq ?_))
  unfold scanError drawError
  ring

/-- **C76** (sampling). In every state of a trainer that calls can lead to, `sample_tree` in float32, from the float32 edge logits to the drawn tree, has almost the
distribution of `sample_tree` in exact arithmetic: the expected value of any function of the tree with values in `[lo, hi]` differs by at most
`(V - 1) (V ^ 2 / 4 (2 ^ -22 + 2 ^ -52 + η) + (exp (2 δ) - 1) / 2) (hi - lo)`, where `δ` is the allowance for an edge logit. It does not raise: an exception
would count zero, and constant functions have `hi - lo = 0`. -/
theorem floatTrainerSampleTree_near (R : IsRounding 24 (-149) rs) (D : IsRounding 53 (-1074) rd) (Rp : IsRounding 53 (-1074) rp) (G : GammalnOk gl γ) (hγ : 0 ≤ γ)
    (S : SumAbsOk sum) (hexp : ExpOk fexp η) {M : Nat} [NeZero M] (hM2 : M ≤ 2 ^ 31) {num : Num ℝ} (hn : ∀ x, 0 < x → num.gammaln x = Real.log (Real.Gamma x))
    (hnum : num.exp = Real.exp) {t : Table} (ht : Table.Ordered t) (hm : ∀ ty ∈ t.featureTypes, ty = tyMultinomial) (hV : t.numCols ^ 2 ≤ 2 ^ 25)
    {s : Trainer ℝ M} (hs : Reached t s) (prior : List ℚ) (hp : prior.length = t.numCols * (t.numCols - 1) / 2) (hpf : ∀ x ∈ prior, IsFloat 24 (-149) x)
    {P : ℝ} (hP : ∀ x ∈ prior, |(x : ℝ)| ≤ P) (junk : Nat → Nat) (f : List Edge → ℝ) (lo hi : ℝ)
    (hf : ∀ T, Canonical T → IsTree t.numCols T → lo ≤ f T ∧ f T ≤ hi) :
    |(floatTrainerSampleTree rs rd gl sum fexp junk t prior s : ExceptT PyErr (FloatExpect rs rp (2 ^ 53)) _).run (onTree f)
        - (trainerSampleTree num junk t (prior.map fun x : ℚ => (x : ℝ)) : TrainM ℝ M (Expect ℝ) _).run.run s (fun o => onTree f o.1)|
      ≤ ((t.numCols - 1 : Nat) : ℝ) * ((t.numCols : ℝ) ^ 2 / 4 * (2 ^ (-22 : Int) + 2 ^ (-52 : Int) + η) + (Real.exp (2 * logitSlack γ M t.numRows P) - 1) / 2)
          * (hi - lo) :=
  floatTrainerSampleTree_good R D Rp G hγ S hexp hM2 hn hnum hV (hs.good ht hm) prior hp hpf hP junk f lo hi hf

end

/-- There are states, roundings and functions that meet the assumptions of both theorems: a table of two rows, both in the sample. -/
example : ∃ (gl fexp : ℚ → ℚ) (sum : List ℚ → ℚ) (num : Num ℝ) (mst : List (List ℚ) → List Edge) (s : Trainer ℝ 2),
    s.added = Finset.range exTable.numRows ∧
    (∃ T fl ex, floatTrainerEstimateTree float32 float64 gl sum mst exTable [0, 0, 0] s = .ok (T, fl) ∧
      computeEdgeLogits num exTable [0, 0, 0] s = .ok ex ∧ Canonical T ∧ IsTree 3 T) ∧
    ∀ junk, |(floatTrainerSampleTree float32 float64 gl sum fexp junk exTable [0, 0, 0] s : ExceptT PyErr (FloatExpect float32 float64 (2 ^ 53)) _).run
          (onTree fun T => if T = [(0, 1), (0, 2)] then 1 else 0)
        - (trainerSampleTree num junk exTable [0, 0, 0] : TrainM ℝ 2 (Expect ℝ) _).run.run s (fun o => onTree (fun T => if T = [(0, 1), (0, 2)] then 1 else 0) o.1)|
      ≤ 2 * (9 / 4 * (2 ^ (-22 : Int) + 2 ^ (-52 : Int) + 1 / 2 ^ 24) + (Real.exp (2 * logitSlack (1 / 2 ^ 20) 2 2 0) - 1) / 2) := by
  obtain ⟨gl, hgl⟩ := exists_gammalnOk
  obtain ⟨mst, hmst⟩ := exists_mst (K := ℚ)
  obtain ⟨s0, h0, g0, a0⟩ := good_init (K := ℝ) (M := 2) (t := exTable) (n := 3) (by decide) (by decide)
    (by decide) (by decide)
  have hm : AllMultinomial exTable := by unfold AllMultinomial; decide
  obtain ⟨s1, o1, g1, a1, -⟩ := addRow_any exTable_ordered hm g0 (row := 0) (by simp [a0]) (by decide) (fun _ => 0)
  obtain ⟨s2, o2, g2, a2, -⟩ := addRow_any exTable_ordered hm g1 (row := 1) (by simp [a1, a0]) (by decide) (fun _ => 1)
  have hr : Reached exTable s2 := ⟨3, s0, [.addRow 0, .addRow 1], h0, by simp,
    (outcomes_bind _ _ _ _).2 ⟨_, _, o1, (outcomes_bind _ _ _ _).2 ⟨_, _, o2, rfl⟩⟩⟩
  have hz : ∀ x ∈ ([0, 0, 0] : List ℚ), IsFloat 24 (-149) x := by
    intro x hx
    simp only [List.mem_cons, List.not_mem_nil, or_false, or_self] at hx
    rw [hx]
    exact isFloat_zero ..
  have hP : ∀ x ∈ ([0, 0, 0] : List ℚ), |(x : ℝ)| ≤ 0 := by simp
  have hcast : ([0, 0, 0] : List ℚ).map (fun x : ℚ => (x : ℝ)) = [0, 0, 0] := by simp
  set num : Num ℝ := ⟨Real.exp, fun x => Real.log (Real.Gamma x)⟩
  obtain ⟨B, hB⟩ := exists_rat_gt (logitFactor (1 / 2 ^ 20) 2 * (3 * edgeScale 2 exTable.numRows + |(0 : ℝ)|))
  obtain ⟨T, fl, ex, e1, e2, e3, e4, -⟩ := floatTrainerEstimateTree_near float32_isRounding float64_isRounding hgl (by norm_num) sumAbsOk_foldl (by norm_num)
    (num := num) (fun _ _ => rfl) exTable_ordered hm hr [0, 0, 0] (by decide) hz hP hmst hB.le
  refine ⟨gl, floorExp, _, num, mst, s2, by rw [a2, a1, a0]; decide, ⟨T, fl, ex, e1, by rw [← hcast]; exact e2, e3, e4⟩, fun junk => ?_⟩
  have key := floatTrainerSampleTree_near float32_isRounding float64_isRounding float64_isRounding hgl (by norm_num) sumAbsOk_foldl floorExp_ok (by norm_num)
    (num := num) (fun _ _ => rfl) rfl exTable_ordered hm (by decide) hr [0, 0, 0] (by decide) hz hP junk (fun T => if T = [(0, 1), (0, 2)] then 1 else 0) 0 1
    (fun T _ _ => by split <;> norm_num)
  rw [hcast] at key
  refine key.trans (le_of_eq ?_)
  have hc : exTable.numCols = 3 := rfl
  have hn : exTable.numRows = 2 := rfl
  rw [hc, hn]
  norm_num

end TreeCat
