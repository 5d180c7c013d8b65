import Mathlib.Data.Fin.Tuple.Finset
import Verif.Props.EnsembleLaw
import Verif.Props.LogprobSum

/-!
# C45: `sample` and `logprob` describe the same distribution
-/

set_option linter.unusedSectionVars false

namespace TreeCat

open Spec Util

namespace Spec
variable {K : Type} [Field K] {M : Nat}

/-- The feature of each of the requested observations. -/
def asked (V : Nat) (counts : List Int) (i : Fin (requested V counts).length) : Nat := (requested V counts).get i

/-- How often column `r` is observed. -/
def tally {ι : Type} [Fintype ι] (c : ι → Nat) (r : Nat) : Int := (Finset.univ.filter fun i => c i = r).card

/-- The number of sequences of requested observations whose counts are the row. -/
def ways (model : Model K M) (counts : List Int) (row : List Int) : Nat :=
  ((choices model (asked model.tree.numVertices counts)).filter fun c =>
    (List.range (model.raggedIndex.getLastD 0)).map (tally c) = row).card

end Spec

theorem sum_piFinset_cons {K : Type} [Field K] {n : Nat} (s : Fin (n + 1) → Finset Nat) (F : (Fin (n + 1) → Nat) → K) :
    ∑ c ∈ Fintype.piFinset s, F c = ∑ a ∈ s 0, ∑ c ∈ Fintype.piFinset (fun i : Fin n => s i.succ), F (Fin.cons a c) := by
  rw [← Finset.sum_product']
  refine Finset.sum_nbij' (fun c => (c 0, Fin.tail c)) (fun p => Fin.cons p.1 p.2) ?_ ?_ ?_ ?_ ?_
  · intro c hc
    rw [Finset.mem_product, Fintype.mem_piFinset]
    exact ⟨Fintype.mem_piFinset.1 hc 0, fun i => Fintype.mem_piFinset.1 hc i.succ⟩
  · intro p hp
    rw [Finset.mem_product, Fintype.mem_piFinset] at hp
    rw [Fintype.mem_piFinset]
    intro i
    refine Fin.cases ?_ (fun i => ?_) i
    · exact hp.1
    · exact hp.2 i
  · intro c _; exact Fin.cons_self_tail c
  · intro p _; simp
  · intro c _; rw [Fin.cons_self_tail]

theorem tally_cons {n : Nat} (a : Nat) (c : Fin n → Nat) (r : Nat) :
    tally (Fin.cons a c : Fin (n + 1) → Nat) r = (if a = r then 1 else 0) + tally c r := by
  unfold tally
  simp only [Finset.card_filter, Fin.sum_univ_succ, Fin.cons_zero, Fin.cons_succ]
  push_cast
  rfl

section
variable {K : Type} [Field K] [LinearOrder K] [IsStrictOrderedRing K] {M : Nat} [NeZero M] {model : Model K M}

theorem observe_choices (z : Nat → Fin M) : ∀ (vs : List Nat) (x : Nat → Int) (k : (Nat → Int) → K),
    observe model z vs x k = ∑ c ∈ choices model (fun i : Fin vs.length => vs.get i),
      (∏ i, featMean model (vs.get i) (c i) (z (vs.get i))) * k fun r => x r + tally c r
  | [], x, k => by
    simp only [observe, choices, List.length_nil]
    rw [show (Fintype.piFinset fun i : Fin 0 => columns model (([] : List Nat).get i)) = {fun i => i.elim0} by
      ext c; simp [Fintype.mem_piFinset, funext_iff], Finset.sum_singleton]
    simp [tally]
  | v :: vs, x, k => by
    have := sum_piFinset_cons (n := vs.length) (fun i => columns model ((v :: vs).get i)) fun c =>
      (∏ i, featMean model ((v :: vs).get i) (c i) (z ((v :: vs).get i))) * k fun r => x r + tally c r
    refine Eq.trans ?_ this.symm
    simp only [observe]
    refine Finset.sum_congr rfl fun a _ => ?_
    rw [observe_choices z vs, Finset.mul_sum]
    refine Finset.sum_congr rfl fun c _ => ?_
    have e := Fin.prod_univ_succ (n := vs.length) fun i => featMean model ((v :: vs).get i) ((Fin.cons a c : Fin (vs.length + 1) → Nat) i)
      (z ((v :: vs).get i))
    refine Eq.trans ?_ (congrArg (· * _) e.symm)
    simp only [Fin.cons_zero, Fin.cons_succ]
    rw [mul_assoc]
    change _ = featMean model v a (z v) * _
    congr 2
    congr 1
    funext r
    rw [tally_cons]
    by_cases h : r = a
    · subst h; simp; ring
    · simp [Function.update_of_ne h, Ne.symm h]

/-- The features asked for exist, and have columns. -/
theorem asked_mem {V : Nat} {counts : List Int} (i : Fin (requested V counts).length) :
    asked V counts i < V ∧ 0 < counts.getD (asked V counts i) 0 := by
  have : asked V counts i ∈ requested V counts := List.get_mem _ _
  obtain ⟨w, hw, hv⟩ := List.mem_flatMap.1 this
  have hvw := List.eq_of_mem_replicate hv
  rw [hvw]
  rw [List.mem_range] at hw
  refine ⟨hw, ?_⟩
  have := List.length_pos_of_mem hv
  simpa using this

theorem dataProb_pos (h : Model.Valid model) (data : Nat → Int) : 0 < dataProb model data := by
  refine Finset.sum_pos (fun z _ => ?_) ⟨fun _ => 0, Finset.mem_univ _⟩
  have ht : ∀ c ∈ model.tree.treeGrid, c.2.1 < model.tree.numVertices ∧ c.2.2 < model.tree.numVertices := fun c hc =>
    h.isTree.range (c.2.1, c.2.2) (List.mem_map.2 ⟨c, hc, rfl⟩)
  refine mul_pos (mul_pos (Finset.prod_pos fun v hv => vertMean_pos h (Finset.mem_range.1 hv) _) ?_) ?_
  · refine List.prod_pos fun x hx => ?_
    obtain ⟨c, hc, rfl⟩ := List.mem_map.1 hx
    exact div_pos (edgeMean_pos h hc _ _) (mul_pos (vertMean_pos h (ht c hc).1 _) (vertMean_pos h (ht c hc).2 _))
  · exact Finset.prod_pos fun v hv => Finset.prod_pos fun r hr => zpow_pos (featMean_pos h (Finset.mem_range.1 hv) hr _) _

/-- The law of `sample` in terms of the probabilities of rows. -/
theorem sampleMean_choices (h : Model.Valid model) (data : Nat → Int) (counts : List Int) (k : (Nat → Int) → K) :
    sampleMean model data counts (fun _ x => k x)
      = ∑ c ∈ choices model (asked model.tree.numVertices counts),
          dataProb model (fun r => data r + tally c r) / dataProb model data * k (tally c) := by
  unfold sampleMean
  simp only [observe_choices, zero_add]
  rw [div_eq_iff (dataProb_pos h data).ne', Finset.sum_mul]
  simp only [Finset.mul_sum]
  unfold sumLatent
  rw [Finset.sum_comm]
  refine Finset.sum_congr rfl fun c hc => ?_
  rw [div_mul_eq_mul_div, div_mul_cancel₀ _ (dataProb_pos h data).ne']
  unfold dataProb sumLatent
  rw [Finset.sum_mul]
  refine Finset.sum_congr rfl fun z _ => ?_
  have := rowProb_add h (asked model.tree.numVertices counts) (fun i => (asked_mem i).1) data hc
    (fun v => if h : v < model.tree.numVertices then z ⟨v, h⟩ else 0)
  unfold tally at *
  dsimp only
  rw [this]
  unfold asked
  ring

/-- **C24**, **C45.** The probability of a row is that of the sequences of observations with its counts. -/
theorem sampleMean_row (h : Model.Valid model) (ev : List Int) (hev : ev.length = model.raggedIndex.getLastD 0) (counts row : List Int) :
    sampleMean model (fun r => ev.getD r 0) counts (fun _ x => if (List.range (model.raggedIndex.getLastD 0)).map x = row then 1 else 0)
      = ways model counts row * (dataProb model (fun r => (List.zipWith (· + ·) ev row).getD r 0) / dataProb model fun r => ev.getD r 0) := by
  rw [sampleMean_choices h]
  simp only [mul_ite, mul_one, mul_zero]
  rw [← Finset.sum_filter, Finset.sum_congr rfl, Finset.sum_const, nsmul_eq_mul]
  · rfl
  · intro c hc
    have hc := (Finset.mem_filter.1 hc).2
    congr 1
    refine dataProb_congr h fun r hr => ?_
    subst hc
    rw [List.getD_eq_getElem _ _ (by omega), List.getD_eq_getElem _ _ (by rw [List.length_zipWith, List.length_map, List.length_range]; omega), List.getElem_zipWith, List.getElem_map,
      List.getElem_range]

variable {models : List (Model K M)} {V : Nat} {ragged : List Nat}

theorem meanOf_congr' {f g : Model K M → K} (h : ∀ m ∈ models, f m = g m) : meanOf models f = meanOf models g := by
  unfold meanOf
  rw [List.map_congr_left h]

theorem meanOf_mul (a : K) (f : Model K M → K) : meanOf models (fun m => a * f m) = a * meanOf models f := by
  unfold meanOf
  rw [List.sum_map_mul_left, mul_div_assoc]

/-- **C45.** The probability that an ensemble returns given rows, with or without evidence: the mean over the members of their
conditional probabilities of the rows. -/
theorem ensemble_sample_rows (E : Members models V ragged) {ens : Ensemble K M} (hs : List.Forall₂ Serves models ens.servers)
    (N : Nat) (counts : List Int) (ev : List Int) (hd : ev.length = ragged.getLastD 0)
    (hl : counts.length = V) (hc : ∀ v < V, counts.getD v 0 ≤ 127)
    (hne : ∀ v < V, 0 < counts.getD v 0 → ragged.getD v 0 < ragged.getD (v + 1) 0) (xs : Nat → List Int) :
    (ens.sample N counts (some ev) : ExceptT PyErr (Expect K) _).run
        (onOk fun rows => ∏ n ∈ Finset.range N, if rows.getD n [] = xs n then 1 else 0)
      = ∏ n ∈ Finset.range N, meanOf models fun model => ways model counts (xs n) *
          (dataProb model (fun r => (List.zipWith (· + ·) ev (xs n)).getD r 0) / dataProb model fun r => ev.getD r 0) := by
  rw [ensemble_sample_exact E hs N counts (some ev) (by intro d h; cases h; exact hd) hl hc hne fun n row => if row = xs n then 1 else 0]
  refine Finset.prod_congr rfl fun n _ => meanOf_congr' fun m hm => ?_
  rw [← sampleMean_row (E.valid m hm) ev (by rw [E.index m hm]; exact hd), E.index m hm]
  rfl

/-- If at most one observation of each feature is requested, a row stands for at most one sequence. -/
theorem ways_le_one (h : Model.Valid model) (counts row : List Int) (hc : ∀ v < model.tree.numVertices, counts.getD v 0 ≤ 1) :
    ways model counts row ≤ 1 := by
  have hnd : (requested model.tree.numVertices counts).Nodup := by
    unfold requested
    rw [List.nodup_flatMap]
    refine ⟨fun v hv => ?_, ?_⟩
    · rw [List.nodup_replicate]
      have := hc v (List.mem_range.1 hv)
      omega
    · refine List.nodup_range.imp fun {a b} hab => ?_
      intro x hx hy
      exact hab ((List.eq_of_mem_replicate hx).symm.trans (List.eq_of_mem_replicate hy))
  have key : ∀ c c' : Fin (requested model.tree.numVertices counts).length → Nat,
      c ∈ choices model (asked model.tree.numVertices counts) → c' ∈ choices model (asked model.tree.numVertices counts) →
      (List.range (model.raggedIndex.getLastD 0)).map (tally c) = (List.range (model.raggedIndex.getLastD 0)).map (tally c') → c = c' := by
    intro c c' hc hc' e
    funext i
    have hm : c i ∈ columns model (asked model.tree.numVertices counts i) := Fintype.mem_piFinset.1 hc i
    have hlt : c i < model.raggedIndex.getLastD 0 := by
      have h1 := model_beg_le h (show asked model.tree.numVertices counts i + 1 ≤ model.tree.numVertices from (asked_mem i).1) (le_refl _)
      have h2 := (mem_columns.1 hm).2
      have h3 : model.raggedIndex.getLastD 0 = model.raggedIndex.getD model.tree.numVertices 0 := by
        rw [List.getLastD_eq_getLast?, List.getLast?_eq_getElem?, h.ragged, List.getD_eq_getElem?_getD]
        rfl
      omega
    have e1 : tally c (c i) = tally c' (c i) := List.map_inj_left.1 e (c i) (List.mem_range.2 hlt)
    have h1 : 0 < (Finset.univ.filter fun j => c j = c i).card := Finset.card_pos.2 ⟨i, by simp⟩
    have h2 : 0 < (Finset.univ.filter fun j => c' j = c i).card := by
      unfold tally at e1
      omega
    obtain ⟨j, hj⟩ := Finset.card_pos.1 h2
    have hj : c' j = c i := (Finset.mem_filter.1 hj).2
    have hm' : c' j ∈ columns model (asked model.tree.numVertices counts j) := Fintype.mem_piFinset.1 hc' j
    rw [hj] at hm'
    have := columns_disjoint h (asked_mem i).1 (asked_mem j).1 hm hm'
    have hij : i = j := List.nodup_iff_injective_get.1 hnd this
    rw [← hj, ← hij]
  rw [ways, Finset.card_le_one]
  intro c hc c' hc'
  rw [Finset.mem_filter] at hc hc'
  exact key c c' hc.1 hc'.1 (hc.2.trans hc'.2.symm)

/-- The members of an ensemble count the same sequences. -/
theorem ways_congr (E : Members models V ragged) {m m' : Model K M} (hm : m ∈ models) (hm' : m' ∈ models) (counts row : List Int) :
    ways m counts row = ways m' counts row := by
  have hcol : columns m = columns m' := by funext v; unfold columns; rw [E.index m hm, E.index m' hm']
  unfold ways choices
  rw [E.index m hm, E.index m' hm', E.size m hm, E.size m' hm', hcol]

end

section
variable {M : Nat} [NeZero M] {models : List (Model ℝ M)} {V : Nat} {ragged : List Nat}

/-- **C45**, without evidence: the probability that `sample` returns the given rows is the product of the probabilities that
`logprob` reports for them, each times the number of sequences of observations that have its counts (`logprob` omits that
factor, which is one if no more than one observation of each feature is requested). -/
theorem ensemble_sample_logprob (E : Members models V ragged) (hcons : ∀ m ∈ models, Model.Consistent m) {ens : Ensemble ℝ M}
    (hs : List.Forall₂ Serves models ens.servers) (N : Nat) (counts : List Int)
    (hl : counts.length = V) (hc : ∀ v < V, counts.getD v 0 ≤ 127)
    (hne : ∀ v < V, 0 < counts.getD v 0 → ragged.getD v 0 < ragged.getD (v + 1) 0) (xs : List (List Int)) (hN : xs.length = N)
    (hx : ∀ x ∈ xs, x.length = ragged.getLastD 0) (m : Model ℝ M) (hm : m ∈ models) :
    ∃ lps : List ℝ, ens.logprob realNum xs = .ok lps ∧ lps.length = N ∧
      (ens.sample N counts none : ExceptT PyErr (Expect ℝ) _).run
          (onOk fun rows => ∏ n ∈ Finset.range N, if rows.getD n [] = xs.getD n [] then 1 else 0)
        = ∏ n ∈ Finset.range N, ways m counts (xs.getD n []) * Real.exp (lps.getD n 0) := by
  obtain ⟨lps, h1, h2⟩ := ensemble_logprob E hs xs hx
  have hlen : lps.length = N := by
    have := congrArg List.length h2
    simpa [hN] using this
  refine ⟨lps, h1, hlen, ?_⟩
  rw [ensemble_sample_exact E hs N counts none (by simp) hl hc hne fun n row => if row = xs.getD n [] then 1 else 0]
  refine Finset.prod_congr rfl fun n hn => ?_
  rw [Finset.mem_range] at hn
  have h3 : Real.exp (lps.getD n 0) = meanOf models fun m => dataProb m fun r => (xs.getD n []).getD r 0 := by
    have := congrArg (fun l => l[n]?) h2
    simp only [List.getElem?_map] at this
    rw [List.getElem?_eq_getElem (by omega), List.getElem?_eq_getElem (by omega)] at this
    rw [List.getD_eq_getElem _ _ (by omega), List.getD_eq_getElem _ _ (by omega)]
    exact Option.some.inj this
  have hxn : (xs.getD n []).length = ragged.getLastD 0 := by
    rw [List.getD_eq_getElem _ _ (by omega)]; exact hx _ (List.getElem_mem _)
  rw [h3, ← meanOf_mul]
  refine meanOf_congr fun m' hm' => ?_
  have e0 : (fun r => ((none : Option (List Int)).getD []).getD r 0) = fun r => (List.replicate (ragged.getLastD 0) (0 : Int)).getD r 0 := by
    funext r
    simp only [Option.getD_none, List.getD_nil]
    rcases Nat.lt_or_ge r (List.replicate (ragged.getLastD 0) (0 : Int)).length with h | h
    · rw [List.getD_eq_getElem _ _ h, List.getElem_replicate]
    · rw [List.getD_eq_default _ _ h]
  have e1 := sampleMean_row (E.valid m' hm') (List.replicate (ragged.getLastD 0) 0) (by simp [E.index m' hm']) counts (xs.getD n [])
  rw [E.index m' hm', ← e0] at e1
  rw [e1, ways_congr E hm hm']
  congr 1
  have e2 : dataProb m' (fun r => ((none : Option (List Int)).getD []).getD r 0) = 1 := by
    simpa using dataProb_zero (E.valid m' hm') (hcons m' hm')
  rw [e2, div_one]
  refine dataProb_congr (E.valid m' hm') fun r hr => ?_
  rw [E.index m' hm'] at hr
  rw [List.getD_eq_getElem _ _ (by rw [List.length_zipWith, List.length_replicate]; omega), List.getElem_zipWith, List.getElem_replicate,
    zero_add]
  exact (List.getD_eq_getElem _ _ (by omega)).symm

end

/-- Another model of the same features. -/
def otherModel (K : Type) [Field K] : Model K 2 :=
  { exampleModel K with featSS := fun r m => if (r, m) ∈ [((0 : Nat), (1 : Fin 2)), (1, 0), (2, 0), (5, 1)] then 3 else 0 }

theorem otherModel_valid (K : Type) [Field K] : Model.Valid (otherModel K) :=
  { exampleModel_valid K with
    feat := fun v _ r _ m => by simp only [otherModel]; split_ifs <;> decide }

theorem otherModel_consistent (K : Type) [Field K] : Model.Consistent (otherModel K) := exampleModel_consistent K

theorem two_members (K : Type) [Field K] : Members [exampleModel K, otherModel K] 3 [0, 2, 5, 7] where
  ne := by simp
  valid := by
    simp only [List.mem_cons, List.not_mem_nil, or_false, forall_eq_or_imp, forall_eq]
    exact ⟨exampleModel_valid K, otherModel_valid K⟩
  size := by
    simp only [List.mem_cons, List.not_mem_nil, or_false, forall_eq_or_imp, forall_eq]
    exact ⟨rfl, rfl⟩
  index := by
    simp only [List.mem_cons, List.not_mem_nil, or_false, forall_eq_or_imp, forall_eq]
    exact ⟨rfl, rfl⟩

/-- The hypotheses hold: what an ensemble of two servers draws without evidence. -/
example : ∃ ens : Ensemble ℝ 2, List.Forall₂ Serves [exampleModel ℝ, otherModel ℝ] ens.servers ∧
    ∃ lps : List ℝ, ens.logprob realNum [[1, 0, 0, 0, 0, 0, 1], [0, 1, 0, 0, 0, 1, 0]] = .ok lps ∧ lps.length = 2 ∧
      (ens.sample 2 [1, 0, 1] none : ExceptT PyErr (Expect ℝ) _).run
          (onOk fun rows => ∏ n ∈ Finset.range 2,
            if rows.getD n [] = [[1, 0, 0, 0, 0, 0, 1], [0, 1, 0, 0, 0, 1, 0]].getD n [] then 1 else 0)
        = ∏ n ∈ Finset.range 2, ways (exampleModel ℝ) [1, 0, 1] ([[1, 0, 0, 0, 0, 0, 1], [0, 1, 0, 0, 0, 1, 0]].getD n [])
            * Real.exp (lps.getD n 0) := by
  obtain ⟨mst, hmst⟩ := exists_mst (K := ℝ)
  obtain ⟨ens, -, hs, -⟩ := ensemble_init hmst (two_members ℝ)
  replace hs := hs.imp fun _ _ h => h.1
  refine ⟨ens, hs, ?_⟩
  refine ensemble_sample_logprob (two_members ℝ) ?_ hs 2 [1, 0, 1] rfl (by decide) (by decide) _ rfl (by decide) _ (by simp)
  simp only [List.mem_cons, List.not_mem_nil, or_false, forall_eq_or_imp, forall_eq]
  exact ⟨exampleModel_consistent ℝ, otherModel_consistent ℝ⟩

/-- A row stands for one sequence if it has what was requested, for none if not, and for two if the observations of a feature
with two of them differ. -/
example : ways (exampleModel ℚ) [1, 0, 1] [1, 0, 0, 0, 0, 0, 1] = 1 ∧ ways (exampleModel ℚ) [1, 0, 1] [1, 0, 0, 0, 0, 0, 0] = 0 ∧
    ways (exampleModel ℚ) [2, 0, 0] [1, 1, 0, 0, 0, 0, 0] = 2 := by decide +kernel

/-- **C45**, with evidence: not so. The members are weighted equally, whatever they make of the evidence, so the result is not
drawn from the mixture conditioned on the evidence. -/
theorem ensemble_sample_not_conditional : ∃ (models : List (Model ℚ 2)) (ens : Ensemble ℚ 2),
    Members models 3 [0, 2, 5, 7] ∧ (∀ m ∈ models, Model.Consistent m) ∧ List.Forall₂ Serves models ens.servers ∧
    ∃ (ev row : List Int), ev.length = 7 ∧ row.length = 7 ∧
      (ens.sample 1 [0, 0, 1] (some ev) : ExceptT PyErr (Expect ℚ) _).run (onOk fun rows => if rows.getD 0 [] = row then 1 else 0)
        ≠ (meanOf models fun m => dataProb m fun r => (List.zipWith (· + ·) ev row).getD r 0) /
            meanOf models fun m => dataProb m fun r => ev.getD r 0 := by
  obtain ⟨mst, hmst⟩ := exists_mst (K := ℚ)
  obtain ⟨ens, -, hs, -⟩ := ensemble_init hmst (two_members ℚ)
  replace hs := hs.imp fun _ _ h => h.1
  refine ⟨_, ens, two_members ℚ, ?_, hs, [0, 0, 1, 0, 0, 0, 0], [0, 0, 0, 0, 0, 1, 0], rfl, rfl, ?_⟩
  · simp only [List.mem_cons, List.not_mem_nil, or_false, forall_eq_or_imp, forall_eq]
    exact ⟨exampleModel_consistent ℚ, otherModel_consistent ℚ⟩
  · have := ensemble_sample_rows (two_members ℚ) hs 1 [0, 0, 1] [0, 0, 1, 0, 0, 0, 0] rfl rfl (by decide) (by decide)
      fun _ => [0, 0, 0, 0, 0, 1, 0]
    simp only [Finset.range_one, Finset.prod_singleton] at this
    rw [this]
    simp only [meanOf, List.map_cons, List.map_nil, List.sum_cons, List.sum_nil]
    have h1 : ways (exampleModel ℚ) [0, 0, 1] [0, 0, 0, 0, 0, 1, 0] = 1 := by decide +kernel
    have h2 : ways (otherModel ℚ) [0, 0, 1] [0, 0, 0, 0, 0, 1, 0] = 1 := by decide +kernel
    rw [h1, h2]
    decide +kernel

end TreeCat
