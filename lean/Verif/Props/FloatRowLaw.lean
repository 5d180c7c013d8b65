import Verif.Lemmas.FloatRowOut
import Verif.Props.FloatExact
import Verif.Props.RowGibbs

/-!
# C77: the law of `add_row` in float32
-/

namespace TreeCat

open Util Spec
open scoped BigOperators

/-! ### The arrays -/

theorem store_near {c : Int} (h0 : 0 ≤ c) {p : ℚ} (hp : 2 ^ (-126 : Int) ≤ p) {k : Nat} {y : ℝ} (hp1 : (p : ℝ) ≤ y * (ulp : ℝ) ^ k) (hp2 : y ≤ p * (ulp : ℝ) ^ k) :
    Near (k + 1) (some (store32 (c + p))) (c + y) := by
  have hcR : (0 : ℝ) ≤ c := by exact_mod_cast h0
  have hcQ : (0 : ℚ) ≤ c := by exact_mod_cast h0
  have hu : (1 : ℝ) ≤ (ulp : ℝ) ^ k := one_le_pow₀ ulpR_ge
  have hcu : (c : ℝ) ≤ c * (ulp : ℝ) ^ k := le_mul_of_one_le_right hcR hu
  refine near_rnd store32_mono (by linarith) ?_ ?_
  · simp only [Rat.cast_add, Rat.cast_intCast]
    linarith [add_mul (c : ℝ) y ((ulp : ℝ) ^ k)]
  · simp only [Rat.cast_add, Rat.cast_intCast]
    linarith [add_mul (c : ℝ) (p : ℝ) ((ulp : ℝ) ^ k)]

theorem prior_near {M : Nat} (h1 : 1 ≤ M) (h2 : M ≤ 128) : ((float64 (1 / 2 / M) : ℚ) : ℝ) ≤ 1 / 2 / (M : ℝ) * (ulp : ℝ) ^ 1 ∧ 1 / 2 / (M : ℝ) ≤ (float64 (1 / 2 / M) : ℚ) * (ulp : ℝ) ^ 1 := by
  have hM1 : (1 : ℚ) ≤ M := by exact_mod_cast h1
  have hM2 : (M : ℚ) ≤ 128 := by exact_mod_cast h2
  obtain ⟨h1, h2⟩ := float64_mono.factor (by norm_num) (x := 1 / 2 / M) (by
    refine le_trans (zpow_mono (show (-1074 : Int) + (53 : Nat) - 1 ≤ -8 by norm_num)) ?_
    rw [le_div_iff₀ (by linarith)]
    norm_num
    linarith)
  rw [pow_one]
  constructor
  · have := (Rat.cast_le (K := ℝ)).2 h1
    push_cast at this
    exact this
  · have := (Rat.cast_le (K := ℝ)).2 h2
    push_cast at this
    exact this

theorem prior_ge {M : Nat} (h1 : 1 ≤ M) (h2 : M ≤ 128) : (2 : ℚ) ^ (-126 : Int) ≤ float64 (1 / 2 / M) :=
  le_trans (le_trans (zpow_mono (show (-126 : Int) ≤ -8 by norm_num)) (by norm_num)) (prior_bounds h1 h2).1

theorem rowFeat_near {M : Nat} (h1 : 1 ≤ M) (h2 : M ≤ 128) {c : Int} (h0 : 0 ≤ c) : Near 2 (some (floatFeat M c)) (c + 1 / 2 / (M : ℝ)) :=
  store_near h0 (prior_ge h1 h2) (prior_near h1 h2).1 (prior_near h1 h2).2

theorem rowMeas_near {M C : Nat} (h1 : 1 ≤ M) (h2 : M ≤ 128) (hC : 1 ≤ C) {c : Int} (h0 : 0 ≤ c) : Near 4 (some (floatMeas M C c)) (c + 1 / 2 / (M : ℝ) * C) := by
  obtain ⟨q, e1, e2, e3, e4, e5⟩ := near_rnd float32_mono (prior_ge h1 h2) (prior_near h1 h2).1 (prior_near h1 h2).2
  obtain rfl := Option.some.inj e1
  have hCQ : (1 : ℚ) ≤ C := by exact_mod_cast hC
  have hCR : (1 : ℝ) ≤ C := by exact_mod_cast hC
  have hq : (2 : ℚ) ^ (-126 : Int) ≤ float32 (float64 (1 / 2 / M)) := float32_mono.ge_of (isFloat_pow (by norm_num)) (prior_ge h1 h2)
  have hqC : (2 : ℚ) ^ (-126 : Int) ≤ float32 (float64 (1 / 2 / M)) * C := le_trans hq (le_mul_of_one_le_right e3.le hCQ)
  obtain ⟨q', f1, f2, f3, f4, f5⟩ := near_rnd float32_mono hqC (y := 1 / 2 / (M : ℝ) * C) (k := 2) (by
      rw [Rat.cast_mul, Rat.cast_natCast]
      calc _ ≤ (1 / 2 / (M : ℝ) * (ulp : ℝ) ^ (1 + 1)) * C := mul_le_mul_of_nonneg_right e4 (by linarith)
        _ = _ := by ring) (by
      rw [Rat.cast_mul, Rat.cast_natCast]
      calc _ ≤ ((float32 (float64 (1 / 2 / M)) : ℚ) * (ulp : ℝ) ^ (1 + 1)) * C := mul_le_mul_of_nonneg_right e5 (by linarith)
        _ = _ := by ring)
  obtain rfl := Option.some.inj f1
  exact store_near h0 (float32_mono.ge_of (isFloat_pow (by norm_num)) hqC) f4 f5

theorem floatVert_eq {c : Int} (h0 : 0 ≤ c) (h1 : c < 2 ^ 14) : floatVert c = c + 1 / 2 :=
  store32_mono.id (isFloat_half (by norm_num) (by norm_num) h0 (by omega))

/-! ### The trainer over the reals -/

/-- The same trainer with real `edge_probs`. -/
noncomputable def realTrainer {M : Nat} (s : Trainer ℚ M) : Trainer ℝ M :=
  { tree := s.tree, program := s.program, added := s.added, assign := s.assign, vertSS := s.vertSS, edgeSS := s.edgeSS, featSS := s.featSS, measSS := s.measSS
    edgeProbs := fun e a b => (s.edgeProbs e a b : ℝ) }

theorem good_realTrainer {M : Nat} [NeZero M] {t : Table} {s : Trainer ℚ M} (h : Good t s) : Good t (realTrainer s) :=
  ⟨⟨⟨h.stats.vert, h.stats.edge, h.stats.feat, h.stats.meas, fun e v1 v2 he a b => by
      show ((s.edgeProbs e a b : ℚ) : ℝ) = _
      rw [h.stats.probs e v1 v2 he a b]
      push_cast
      rfl⟩, h.grid⟩, h.numVertices, h.isTree, h.sorted, h.program, h.rows⟩

theorem treeWeight_congr {M : Nat} {r : Nat} {par : Nat → Nat} {L : List Nat} {φ φ' : Nat → Fin M → ℝ} {ψ ψ' : Nat → Fin M → Fin M → ℝ} {z : Nat → Fin M}
    (h1 : ∀ v ∈ L, φ v (z v) = φ' v (z v)) (h2 : ∀ v ∈ L, v ≠ r → ψ v (z (par v)) (z v) = ψ' v (z (par v)) (z v)) : treeWeight r par L φ ψ z = treeWeight r par L φ' ψ' z := by
  unfold treeWeight
  rw [List.map_congr_left h1, List.map_congr_left fun v hv => h2 v (List.mem_filter.1 hv).1 (by simpa using (List.mem_filter.1 hv).2)]

section
variable {M : Nat} [NeZero M] {t : Table}

/-- **C77.** In every state that calls can reach, let `add_row` resample a row in float32, when nothing underflows on the way and `edge_probs` is within `ke` roundings of the counts
plus the prior. Over the `2 ^ 53` values of every draw, the mean of any function of the resulting classes is within `rowErr` (times its range) of its mean under the exact
conditional law, in which a vector of classes has probability proportional to the likelihood of the table. -/
theorem floatAddRow_law {A : FloatOps M} (O : Spec.OpsOk A) (N : Spec.DotNear A.dot) (ht : Table.Ordered t) (hm : AllMultinomial t) (hc : Table.Counts t) (hcat : ∀ row, Spec.Categorical t row)
    (hN : t.numRows < 2 ^ 14) (hw : ∀ v < t.numCols, t.stop v - t.beg v ≤ 2 ^ 23) {s : Trainer ℚ M} {edge : Nat → Fin M → Fin M → ℚ} (h : FloatRun t s edge) {ke : Nat}
    (hedge : ∀ e v1 v2, (e, v1, v2) ∈ s.tree.treeGrid → ∀ a b, Near ke (some (edge e a b)) (edgeCount s.added s.assign v1 v2 a b + 1 / 2 / (M : ℝ)))
    {row : Nat} (hr : row ∉ s.added)
    (hcl : Spec.rowClear A t row (fun v a => floatVert (s.vertSS v a)) edge s.program
      (floatRowInit (fun v a => floatVert (s.vertSS v a)) (fun r a => floatFeat M (s.featSS r a)) (fun v a => floatMeas M (t.stop v - t.beg v) (s.measSS v a)) (s.assign row)) = true)
    {k : (Nat → Fin M) → ℝ} {lo hi : ℝ} (hk : ∀ z, lo ≤ k z ∧ k z ≤ hi) :
    |(∑ d : Fin t.numCols → Fin (2 ^ 53), Spec.rowValue k (floatAddRow A t row s edge (Spec.drawsOf d))) / ((2 ^ 53 : Nat) : ℝ) ^ t.numCols
      - (∑ z : Fin t.numCols → Fin M, likelihood t (insert row s.added) (Function.update s.assign row (overlay (s.assign row) z)) s.tree.getEdges * k (overlay (s.assign row) z)) /
        ∑ z : Fin t.numCols → Fin M, likelihood t (insert row s.added) (Function.update s.assign row (overlay (s.assign row) z)) s.tree.getEdges|
      ≤ Spec.rowErr t.numCols M ke 6 * (hi - lo) := by
  have hS := floatStats_run ht hm hc hcat hN hw h
  obtain ⟨hg, hM, -⟩ := floatRun_inv ht hm hN h
  have hM1 : 1 ≤ M := Nat.one_le_iff_ne_zero.2 (NeZero.ne M)
  have hgR := good_realTrainer hg
  obtain ⟨root, hroot, d, par, ch, eid, L, R, T, he, hp⟩ : ∃ root, root < t.numCols ∧ ∃ d par ch eid L,
      Rooted t.numCols (gridEdges s.tree.treeGrid) root d par ∧ Topo t.numCols root par ch L ∧
      (∀ v < t.numCols, v ≠ root → ((eid v, v, par v) ∈ s.tree.treeGrid ∨ (eid v, par v, v) ∈ s.tree.treeGrid)) ∧
      s.program = progOf root par ch eid L := by
    have hprog := hg.program
    obtain ⟨c, h1, h2⟩ := findCenter_spec hg.isTree
    obtain ⟨d, par, ch, eid, L, R, T, he, -, hp⟩ := makeProgram_some hg.isTree h2.1
    refine ⟨c, h2.1, d, par, ch, eid, L, R, T, he, ?_⟩
    simp only [makeProgram, h1, bind, Except.bind] at hprog hp
    rw [hprog] at hp
    exact Except.ok.inj hp
  have hlt : ∀ c ∈ s.tree.treeGrid, c.2.1 < c.2.2 := grid_lt hgR
  obtain ⟨edges, hsort⟩ := hg.sorted
  have hlen : s.tree.treeGrid.length = t.numCols - 1 := by
    have := hg.isTree.card
    simp only [gridEdges, List.length_map] at this
    omega
  have heid : ∀ v < t.numCols, v ≠ root → eid v < t.numCols - 1 := by
    intro v hv hvr
    have hids : ∀ c ∈ s.tree.treeGrid, c.1 < s.tree.treeGrid.length := by rw [hsort]; exact makeTree_ids edges
    rw [← hlen]
    rcases he v hv hvr with h | h <;> exact hids _ h
  have Nr : RowNear t (t.numCols - 1) edge (fun r a => floatFeat M (s.featSS r a)) (fun v a => floatMeas M (t.stop v - t.beg v) (s.measSS v a))
      (realTrainer s).edgeProbs (fun c a => ((realTrainer s).featSS c a : ℝ) + featPrior M) (fun v a => ((realTrainer s).measSS v a : ℝ) + measPrior M t v) ke 2 4 := by
    refine ⟨fun e hlt' a b => ?_, fun v hv r h1 h2 a => ?_, fun v hv a => ?_⟩
    · obtain ⟨c0, hc0⟩ : ∃ c, s.tree.treeGrid[e]? = some c := ⟨_, List.getElem?_eq_getElem (by omega)⟩
      have hmem : c0 ∈ s.tree.treeGrid := List.mem_of_getElem? hc0
      have hid : c0 = (e, c0.2.1, c0.2.2) := by
        have h5 := hc0
        rw [hsort, makeTree, List.getElem?_mapIdx, Option.map_eq_some_iff] at h5
        obtain ⟨p, -, rfl⟩ := h5
        rfl
      rw [hid] at hmem
      have := hedge e _ _ hmem a b
      rw [hgR.stats.probs e _ _ hmem a b]
      exact this
    · obtain ⟨-, -, h5⟩ := counts_bound hc hcat hN hg hv a
      exact rowFeat_near hM1 hM (h5 r h1 h2).1
    · obtain ⟨-, ⟨h3, h4⟩, -⟩ := counts_bound hc hcat hN hg hv a
      have hwd := hc.width v hv
      exact rowMeas_near hM1 hM (by omega) (by
        rw [hg.stats.meas v hv]
        exact measTotal_nonneg hc _ _ _ _)
  have hmain := floatSampleRow_near O N hM hS Nr ht (hcat row) (fun v _ => hm.getD v) T (fun v hv hvr => R.par_lt v hv hvr) heid (s.assign row) (by rw [← hp]; exact hcl) hk
  have hvert : ∀ v < t.numCols, ∀ a, ((floatVert (s.vertSS v a) : ℚ) : ℝ) = ((realTrainer s).vertSS v a : ℝ) + vertPrior := by
    intro v hv a
    obtain ⟨⟨h3, h4⟩, -⟩ := counts_bound hc hcat hN hg hv a
    rw [floatVert_eq h3 h4]
    unfold vertPrior
    push_cast
    rfl
  have hlik : ∀ z : Nat → Fin M, likelihood t (insert row s.added) (Function.update s.assign row z) s.tree.getEdges = likelihood t s.added s.assign s.tree.getEdges *
      treeWeight root par L (fun v a => ((floatVert (s.vertSS v a) : ℚ) : ℝ) * cellFactor t row (fun c a => ((realTrainer s).featSS c a : ℝ) + featPrior M) (fun v a => ((realTrainer s).measSS v a : ℝ) + measPrior M t v) v a)
        (rowPsi root par eid (fun v a => ((floatVert (s.vertSS v a) : ℚ) : ℝ)) (realTrainer s).edgeProbs) z := by
    intro z
    have := likelihood_added hc hgR R T he hlt hr z
    refine this.trans (congrArg _ (treeWeight_congr (fun v hv => ?_) fun v hv hvr => ?_))
    · rw [hvert v (T.mem.1 hv)]
    · simp only [rowPsi, if_neg hvr]
      rw [hvert v (T.mem.1 hv), hvert _ (R.par_lt v (T.mem.1 hv) hvr)]
  simp only [hlik, mul_assoc (likelihood t s.added s.assign s.tree.getEdges)]
  rw [← Finset.mul_sum, ← Finset.mul_sum, mul_div_mul_left _ _ (likelihood_pos hc s.added s.assign _).ne']
  unfold floatAddRow
  rw [hp]
  exact hmain

/-- If the number of clusters is a power of two then `edge_probs` is exact. -/
theorem floatRun_edge (ht : Table.Ordered t) (hm : AllMultinomial t) (hN : t.numRows < 2 ^ 14) {j : Nat} (hj : M = 2 ^ j) {s : Trainer ℚ M} {edge : Nat → Fin M → Fin M → ℚ} (h : FloatRun t s edge) :
    ∀ e v1 v2, (e, v1, v2) ∈ s.tree.treeGrid → ∀ a b, edge e a b = edgeCount s.added s.assign v1 v2 a b + 1 / 2 / (M : ℚ) ∧ IsFloat 24 (-149) (edge e a b) := by
  obtain ⟨hg, hM, hist⟩ := floatRun_inv ht hm hN h
  intro e v1 v2 he a b
  obtain ⟨c, steps, h1, h2, h3⟩ := hist e v1 v2 he a b
  have hj7 : j ≤ 7 := by
    by_contra hcon
    have : 2 ^ 8 ≤ 2 ^ j := Nat.pow_le_pow_right (by norm_num) (by omega)
    omega
  have hprior : float64 (1 / 2 / M) = 2 ^ (-((j + 1 : Nat) : Int)) := by
    have e1 : (1 : ℚ) / 2 / M = 2 ^ (-((j + 1 : Nat) : Int)) := by
      rw [hj, zpow_neg, zpow_natCast, pow_succ]
      push_cast
      field_simp
    rw [e1]
    exact float64_mono.id ⟨1, -((j + 1 : Nat) : Int), by norm_num, by push_cast; omega, by simp⟩
  have hex := edgeWalk_exact (b := 14) (k := j + 1) store32_mono (by omega) (by push_cast; omega) (by norm_num) h1
  rw [← hprior, ← h3, h2] at hex
  refine ⟨?_, ?_⟩
  · have e2 : float64 (1 / 2 / M) = 1 / 2 / M := by
      rw [hprior, hj, zpow_neg, zpow_natCast, pow_succ]
      push_cast
      field_simp
    rw [hex, e2, hg.stats.edge e v1 v2 he a b]
    push_cast
    rfl
  rw [h3]
  rcases List.eq_nil_or_concat steps with rfl | ⟨st, b, rfl⟩
  · exact store32_mono.float _
  · rw [List.concat_eq_append, edgeWalk_snoc]
    exact store32_mono.float _

/-- **C77** (powers of two). If the number of clusters is a power of two then `edge_probs` is exact and only the loop itself rounds. -/
theorem floatAddRow_law_pow {A : FloatOps M} (O : Spec.OpsOk A) (N : Spec.DotNear A.dot) (ht : Table.Ordered t) (hm : AllMultinomial t) (hc : Table.Counts t) (hcat : ∀ row, Spec.Categorical t row)
    (hN : t.numRows < 2 ^ 14) (hw : ∀ v < t.numCols, t.stop v - t.beg v ≤ 2 ^ 23) {j : Nat} (hj : M = 2 ^ j) {s : Trainer ℚ M} {edge : Nat → Fin M → Fin M → ℚ} (h : FloatRun t s edge)
    {row : Nat} (hr : row ∉ s.added)
    (hcl : Spec.rowClear A t row (fun v a => floatVert (s.vertSS v a)) edge s.program
      (floatRowInit (fun v a => floatVert (s.vertSS v a)) (fun r a => floatFeat M (s.featSS r a)) (fun v a => floatMeas M (t.stop v - t.beg v) (s.measSS v a)) (s.assign row)) = true)
    {k : (Nat → Fin M) → ℝ} {lo hi : ℝ} (hk : ∀ z, lo ≤ k z ∧ k z ≤ hi) :
    |(∑ d : Fin t.numCols → Fin (2 ^ 53), Spec.rowValue k (floatAddRow A t row s edge (Spec.drawsOf d))) / ((2 ^ 53 : Nat) : ℝ) ^ t.numCols
      - (∑ z : Fin t.numCols → Fin M, likelihood t (insert row s.added) (Function.update s.assign row (overlay (s.assign row) z)) s.tree.getEdges * k (overlay (s.assign row) z)) /
        ∑ z : Fin t.numCols → Fin M, likelihood t (insert row s.added) (Function.update s.assign row (overlay (s.assign row) z)) s.tree.getEdges|
      ≤ Spec.rowErr t.numCols M 0 6 * (hi - lo) := by
  refine floatAddRow_law O N ht hm hc hcat hN hw h (ke := 0) ?_ hr hcl hk
  intro e v1 v2 he a b
  obtain ⟨hval, hfl⟩ := floatRun_edge ht hm hN hj h e v1 v2 he a b
  have hM0 : (0 : ℚ) < M := by exact_mod_cast Nat.pos_of_ne_zero (NeZero.ne M)
  have := near_self hfl (by rw [hval]; positivity)
  rw [hval] at this ⊢
  push_cast at this
  exact this

end

/-! ### A case that meets the hypotheses -/

/-- The trainer for `twoTable` with two clusters. -/
def twoStart : Trainer ℚ 2 := (Trainer.init twoTable 1).toOption.get (by decide +kernel)

/-- The second row is added first. -/
def twoFirst : FloatRow 2 := (floatAddRow (numpyOps 2) twoTable 1 twoStart (floatEdgeArray twoStart) fun _ => 1 / 2).toOption.get (by decide +kernel)

theorem except_get {α ε : Type} {x : Except ε α} (h : x.toOption.isSome) : x = .ok (x.toOption.get h) := by
  cases x with
  | error e => simp [Except.toOption] at h
  | ok a => rfl

/-- Then nothing underflows when the first is added. -/
theorem two_clear : Spec.rowClear (numpyOps 2) twoTable 0 (fun v a => floatVert ((added twoTable 1 twoFirst.assign twoStart).vertSS v a))
    (floatEdges true twoStart.tree.treeGrid twoFirst.assign (floatEdgeArray twoStart)) (added twoTable 1 twoFirst.assign twoStart).program
      (floatRowInit (fun v a => floatVert ((added twoTable 1 twoFirst.assign twoStart).vertSS v a)) (fun r a => floatFeat 2 ((added twoTable 1 twoFirst.assign twoStart).featSS r a))
        (fun v a => floatMeas 2 (twoTable.stop v - twoTable.beg v) ((added twoTable 1 twoFirst.assign twoStart).measSS v a)) ((added twoTable 1 twoFirst.assign twoStart).assign 0)) = true := by
  decide +kernel

/-- The probability that both features get the first class is exact up to `10 ^ -5`. -/
example : |(∑ d : Fin 2 → Fin (2 ^ 53), Spec.rowValue (fun z => if z 0 = 0 ∧ z 1 = 0 then 1 else 0) (floatAddRow (numpyOps 2) twoTable 0 (added twoTable 1 twoFirst.assign twoStart)
      (floatEdges true twoStart.tree.treeGrid twoFirst.assign (floatEdgeArray twoStart)) (Spec.drawsOf d))) / ((2 ^ 53 : Nat) : ℝ) ^ 2
      - (∑ z : Fin 2 → Fin 2, likelihood twoTable (insert 0 (added twoTable 1 twoFirst.assign twoStart).added) (Function.update (added twoTable 1 twoFirst.assign twoStart).assign 0
            (overlay ((added twoTable 1 twoFirst.assign twoStart).assign 0) z)) (added twoTable 1 twoFirst.assign twoStart).tree.getEdges * (if z 0 = 0 ∧ z 1 = 0 then 1 else 0)) /
        ∑ z : Fin 2 → Fin 2, likelihood twoTable (insert 0 (added twoTable 1 twoFirst.assign twoStart).added) (Function.update (added twoTable 1 twoFirst.assign twoStart).assign 0
            (overlay ((added twoTable 1 twoFirst.assign twoStart).assign 0) z)) (added twoTable 1 twoFirst.assign twoStart).tree.getEdges| ≤ 1 / 10 ^ 5 := by
  have hm : AllMultinomial twoTable := by intro ty hty; simpa [twoTable, tyMultinomial] using hty
  have hw : ∀ v < twoTable.numCols, twoTable.beg v < twoTable.stop v ∧ twoTable.stop v - twoTable.beg v ≤ 2 ^ 23 := by decide
  have hrun : FloatRun twoTable twoStart (floatEdgeArray twoStart) := FloatRun.init (n := 1) (except_get _)
  have hrun' := floatAddRow_added hm hrun (row := 1) (by decide +kernel) (by decide) (r := twoFirst) (except_get _)
  refine le_trans (floatAddRow_law_pow (j := 1) (numpyOps_ok (by norm_num)) (seqDot_near (by norm_num) float32_mono) ⟨by decide, by decide⟩ hm ⟨fun n r => (twoTable_cell n r).1, fun v hv => (hw v hv).1⟩
    twoTable_categorical (by decide) (fun v hv => (hw v hv).2) rfl hrun' (by decide +kernel) two_clear (k := fun z => if z 0 = 0 ∧ z 1 = 0 then 1 else 0) (lo := 0) (hi := 1) fun z => by
      split <;> norm_num) ?_
  have : twoTable.numCols = 2 := rfl
  rw [this]
  unfold Spec.rowErr
  norm_num

end TreeCat
