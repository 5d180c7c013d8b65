import Verif.Lemmas.FloatClear
import Verif.Props.FloatTrain

/-!
# C77 and C80 without underflow

C77 and C80 speak of underflow. For tables with few features, rows and clusters it cannot happen, and then both hold without further assumptions on the run.
-/

namespace TreeCat

open Util Spec
open scoped BigOperators

/-- Few rows, features and clusters: with `2 ^ j` clusters, every count plus its prior is at most `2 ^ n`, and `(V - 1) (n + j + 3) + 3 n + 2 j + 3` is at most 85. -/
structure Spec.FewBits (t : Table) (M n j : Nat) : Prop where
  clusters : M = 2 ^ j
  rows : t.numRows < 2 ^ n
  width : ∀ v < t.numCols, 2 * M * t.numRows + (t.stop v - t.beg v) ≤ 2 * M * 2 ^ n
  bits : (t.numCols - 1) * (n + j + 3) + 3 * n + 2 * j + 3 ≤ 85

theorem edgeCount_sum {M : Nat} (rows : Finset Nat) (z : Nat → Nat → Fin M) (v1 v2 : Nat) (a : Fin M) : ∑ b, edgeCount rows z v1 v2 a b = vertCount rows z v1 a := by
  unfold edgeCount vertCount
  rw [Finset.card_eq_sum_card_fiberwise (f := fun n => z n v2) (t := Finset.univ) fun _ _ => Finset.mem_coe.2 (Finset.mem_univ _)]
  refine Finset.sum_congr rfl fun b _ => ?_
  rw [Finset.filter_filter]

theorem edgeCount_swap {M : Nat} (rows : Finset Nat) (z : Nat → Nat → Fin M) (v1 v2 : Nat) (a b : Fin M) : edgeCount rows z v1 v2 a b = edgeCount rows z v2 v1 b a := by
  unfold edgeCount
  simp only [and_comm]

theorem prior_pow {M j : Nat} (hj : M = 2 ^ j) : (1 : ℚ) / 2 / M = 2 ^ (-(j + 1 : Int)) := by
  rw [hj, zpow_neg, show (j + 1 : Int) = ((j + 1 : Nat) : Int) by push_cast; rfl, zpow_natCast, pow_succ]
  push_cast
  field_simp

section
variable {M : Nat} [NeZero M] {t : Table}

/-- **C77** (no underflow). If `FewBits` holds then nothing underflows when a row is added, in any state that calls can lead to. -/
theorem floatAddRow_clear {A : FloatOps M} (O : Spec.OpsOk A) (N : Spec.DotNear A.dot) (ht : Table.Ordered t) (hm : AllMultinomial t) (hc : Table.Counts t) (hcat : ∀ row, Spec.Categorical t row)
    (hN : t.numRows < 2 ^ 14) (hw : ∀ v < t.numCols, t.stop v - t.beg v ≤ 2 ^ 23) {n j : Nat} (F : Spec.FewBits t M n j) {s : Trainer ℚ M} {edge : Nat → Fin M → Fin M → ℚ} (h : FloatRun t s edge)
    (row : Nat) :
    Spec.rowClear A t row (fun v a => floatVert (s.vertSS v a)) edge s.program
      (floatRowInit (fun v a => floatVert (s.vertSS v a)) (fun r a => floatFeat M (s.featSS r a)) (fun v a => floatMeas M (t.stop v - t.beg v) (s.measSS v a)) (s.assign row)) = true := by
  have hS := floatStats_run ht hm hc hcat hN hw h
  obtain ⟨hg, hM, -⟩ := floatRun_inv ht hm hN h
  have hM1 : 1 ≤ M := Nat.one_le_iff_ne_zero.2 (NeZero.ne M)
  have hgR := good_realTrainer hg
  obtain ⟨root, hroot, d, par, ch, eid, L, R, T, he, hp⟩ : ∃ root, root < t.numCols ∧ ∃ d par ch eid L,
      Rooted t.numCols (gridEdges s.tree.treeGrid) root d par ∧ Topo t.numCols root par ch L ∧
      (∀ v < t.numCols, v ≠ root → ((eid v, v, par v) ∈ s.tree.treeGrid ∨ (eid v, par v, v) ∈ s.tree.treeGrid)) ∧
      s.program = progOf root par ch eid L := by
    have hprog := hg.program
    obtain ⟨c, h1, h2⟩ := findCenter_spec hg.isTree
    obtain ⟨d, par, ch, eid, L, R, T, he, -, hp⟩ := makeProgram_some hg.isTree h2.1
    refine ⟨c, h2.1, d, par, ch, eid, L, R, T, he, ?_⟩
    simp only [makeProgram, h1, bind, Except.bind] at hprog hp
    rw [hprog] at hp
    exact Except.ok.inj hp
  have hlt : ∀ c ∈ s.tree.treeGrid, c.2.1 < c.2.2 := grid_lt hgR
  obtain ⟨edges, hsort⟩ := hg.sorted
  have heid : ∀ v < t.numCols, v ≠ root → eid v < t.numCols - 1 := by
    intro v hv hvr
    have hids : ∀ c ∈ s.tree.treeGrid, c.1 < s.tree.treeGrid.length := by rw [hsort]; exact makeTree_ids edges
    have hlen : s.tree.treeGrid.length = t.numCols - 1 := by
      have := hg.isTree.card
      simp only [gridEdges, List.length_map] at this
      omega
    rw [← hlen]
    rcases he v hv hvr with h | h <;> exact hids _ h
  have hM0 : (0 : ℚ) < M := by exact_mod_cast hM1
  have hj := F.clusters
  have hcard : s.added.card ≤ t.numRows := by simpa using Finset.card_le_card hg.rows
  have hvc : ∀ v a, vertCount s.added s.assign v a ≤ t.numRows := fun v a => le_trans (Finset.card_filter_le _ _) hcard
  have P : SmallArrays t root par eid n j (fun v a => floatVert (s.vertSS v a)) edge (fun r a => floatFeat M (s.featSS r a)) (fun v a => floatMeas M (t.stop v - t.beg v) (s.measSS v a)) := by
    have hj7 : j ≤ 7 := by
      by_contra hcon
      have : 2 ^ 8 ≤ 2 ^ j := Nat.pow_le_pow_right (by norm_num) (by omega)
      omega
    have hpr : float64 (1 / 2 / M) = 2 ^ (-(j + 1 : Int)) := by
      rw [prior_pow hj]
      exact float64_mono.id ⟨1, -(j + 1 : Int), by norm_num, by omega, by simp⟩
    have hvert : ∀ v < t.numCols, ∀ a, floatVert (s.vertSS v a) = vertCount s.added s.assign v a + 1 / 2 := by
      intro v hv a
      obtain ⟨⟨h3, h4⟩, -⟩ := counts_bound hc hcat hN hg hv a
      rw [floatVert_eq h3 h4, hg.stats.vert v hv a]
      push_cast
      rfl
    have hrow1 : (t.numRows : ℚ) + 1 ≤ 2 ^ (n : Int) := by
      rw [zpow_natCast]
      exact_mod_cast F.rows
    have hedge : ∀ c < t.numCols, c ≠ root → ∀ a b, edgeQ edge (eid c) (par c) c a b = edgeCount s.added s.assign (par c) c a b + 1 / 2 / (M : ℚ) := by
      intro c hc hcr a b
      unfold edgeQ
      rcases he c hc hcr with h1 | h1
      · have h2 : c < par c := hlt _ h1
        rw [if_pos h2, (floatRun_edge ht hm hN hj h _ _ _ h1 b a).1, edgeCount_swap]
      · have h2 : par c < c := hlt _ h1
        rw [if_neg (by omega), (floatRun_edge ht hm hN hj h _ _ _ h1 a b).1]
    refine ⟨fun v hv a => ?_, fun c hc hcr a b => ?_, fun c hc hcr a => ?_, fun v hv q h1 h2 a => ?_, fun v hv a => ?_⟩
    · rw [hvert v hv a]
      have : (vertCount s.added s.assign v a : ℚ) ≤ t.numRows := by exact_mod_cast hvc v a
      linarith
    · rw [hedge c hc hcr a b, prior_pow hj]
      have : (0 : ℚ) ≤ edgeCount s.added s.assign (par c) c a b := Nat.cast_nonneg _
      linarith
    · simp only [hedge c hc hcr a]
      rw [Finset.sum_add_distrib, hvert (par c) (R.par_lt c hc hcr) a, ← edgeCount_sum s.added s.assign (par c) c a, Finset.sum_const, Finset.card_univ, Fintype.card_fin, nsmul_eq_mul, Nat.cast_sum]
      refine le_of_eq (congrArg _ ?_)
      field_simp
    · obtain ⟨-, -, h5⟩ := counts_bound hc hcat hN hg hv a
      have h6 : (0 : ℚ) ≤ s.featSS q a := by exact_mod_cast (h5 q h1 h2).1
      show _ ≤ store32 _
      rw [hpr]
      exact store32_mono.ge_of (isFloat_pow (by omega)) (by linarith)
    · have hC := hw v hv
      have hmp : floatMeasPrior M (t.stop v - t.beg v) = (t.stop v - t.beg v : Nat) * (1 / 2 / (M : ℚ)) := by
        unfold floatMeasPrior
        rw [hpr, prior_pow hj, float32_mono.id (isFloat_pow (by omega)), mul_comm]
        exact float32_mono.id ⟨(t.stop v - t.beg v : Nat), -(j + 1 : Int), by
          rw [Nat.abs_cast]
          exact_mod_cast lt_of_le_of_lt hC (by norm_num), by omega, by push_cast; rfl⟩
      have h7 : (s.measSS v a : ℚ) ≤ t.numRows := by
        have : s.measSS v a ≤ t.numRows := by
          rw [hg.stats.meas v hv]
          have : measTotal t s.added s.assign v a ≤ ∑ n ∈ s.added.filter fun n => s.assign n v = a, (1 : Int) := by
            refine Finset.sum_le_sum fun n _ => ?_
            rw [← blockSum_eq]
            exact (hcat n).2 v hv
          rw [Finset.sum_const, nsmul_eq_mul, mul_one] at this
          have hv2 : (s.added.filter fun n => s.assign n v = a).card ≤ t.numRows := hvc v a
          omega
        exact_mod_cast this
      refine store32_mono.le_of (isFloat_pow (by omega)) ?_
      rw [hmp]
      have h8 : 2 * (M : ℚ) * t.numRows + (t.stop v - t.beg v : Nat) ≤ 2 * M * 2 ^ (n : Int) := by
        rw [zpow_natCast]
        exact_mod_cast F.width v hv
      have h9 : ((t.stop v - t.beg v : Nat) : ℚ) * (1 / 2 / (M : ℚ)) ≤ 2 ^ (n : Int) - t.numRows := by
        rw [div_div, mul_one_div, div_le_iff₀ (by positivity)]
        nlinarith
      linarith
  rw [hp, progOf, List.append_assoc]
  refine inward_clear O N hM hS P ht (hcat row) (fun v _ => hm.getD v) T heid _ _ (fun _ => rfl) (d := t.numCols - 1) (fun v hv => ?_) F.bits
  have hsub : (ch v).toFinset ⊆ (Finset.range t.numCols).erase root := by
    intro c hc
    obtain ⟨h1, h2, -⟩ := (T.ch_mem v hv c).1 (List.mem_toFinset.1 hc)
    exact Finset.mem_erase.2 ⟨h2, Finset.mem_range.2 h1⟩
  have := Finset.card_le_card hsub
  rwa [List.toFinset_card_of_nodup (T.ch_nodup v hv), Finset.card_erase_of_mem (Finset.mem_range.2 hroot), Finset.card_range] at this

end

section
variable {rs rd rp gl fexp : ℚ → ℚ} {sum : List ℚ → ℚ} {γ η : ℝ} {M : Nat} [NeZero M] {t : Table} {A : FloatOps M} (O : Spec.OpsOk A) (N : Spec.DotNear A.dot) (ht : Table.Ordered t)
  (hm : AllMultinomial t) (hc : Table.Counts t)
  (hcat : ∀ row, Spec.Categorical t row) (hN : t.numRows < 2 ^ 14) (hw : ∀ v < t.numCols, t.stop v - t.beg v ≤ 2 ^ 23) {n j : Nat} (F : Spec.FewBits t M n j)

include O N ht hm hc hcat hN hw F in
/-- **C77** (few bits). Then the law of a resampled row has a bounded error in every state that calls can lead to. -/
theorem floatAddRow_law_few {s : Trainer ℚ M} {edge : Nat → Fin M → Fin M → ℚ} (h : FloatRun t s edge) {row : Nat} (hr : row ∉ s.added)
    {k : (Nat → Fin M) → ℝ} {lo hi : ℝ} (hk : ∀ z, lo ≤ k z ∧ k z ≤ hi) :
    |(∑ d : Fin t.numCols → Fin (2 ^ 53), Spec.rowValue k (floatAddRow A t row s edge (Spec.drawsOf d))) / ((2 ^ 53 : Nat) : ℝ) ^ t.numCols
      - (∑ z : Fin t.numCols → Fin M, likelihood t (insert row s.added) (Function.update s.assign row (overlay (s.assign row) z)) s.tree.getEdges * k (overlay (s.assign row) z)) /
        ∑ z : Fin t.numCols → Fin M, likelihood t (insert row s.added) (Function.update s.assign row (overlay (s.assign row) z)) s.tree.getEdges|
      ≤ Spec.rowErr t.numCols M 0 6 * (hi - lo) :=
  floatAddRow_law_pow O N ht hm hc hcat hN hw F.clusters h hr (floatAddRow_clear O N ht hm hc hcat hN hw F h row) hk

variable (R : IsRounding 24 (-149) rs) (D : IsRounding 53 (-1074) rd) (Rp : IsRounding 53 (-1074) rp) (G : GammalnOk gl γ) (hγ : 0 ≤ γ)
  (Su : SumAbsOk sum) (hexp : ExpOk fexp η) {num : Num ℝ} (hn : ∀ x, 0 < x → num.gammaln x = Real.log (Real.Gamma x))
  (hnum : num.exp = Real.exp) (hV : t.numCols ^ 2 ≤ 2 ^ 25) {prior : List ℚ} (hp : prior.length = t.numCols * (t.numCols - 1) / 2) (hpf : ∀ x ∈ prior, IsFloat 24 (-149) x)
  {P : ℝ} (hP : ∀ x ∈ prior, |(x : ℝ)| ≤ P) (junk : Nat → Nat)
include O N ht hm hc hcat hN hw F R D Rp G hγ Su hexp hn hnum hV hp hpf hP

theorem unclear_zero : ∀ (l : List Action) (S S' : Finset Nat), Legal t.numRows S l S' → ∀ u : FloatTrainer M, FloatAt t S u → unclearCount A rs rd rp gl sum fexp junk t prior l u = 0 := by
  intro l
  induction l with
  | nil => exact fun S S' h u hu => rfl
  | cons a l ih =>
    have step : ∀ {S S1 S' : Finset Nat} {ε : FloatTrainer M → ℝ} {u : FloatTrainer M}, Sim (rs := rs) (rp := rp) (FloatAt t S) (FloatAt t S1) (floatRunAction A rs rd gl sum fexp junk t prior a)
        (runAction num junk t (prior.map fun x : ℚ => (x : ℝ)) a) ε → Legal t.numRows S1 l S' → FloatAt t S u → actionUnclear A t u a = 0 →
        unclearCount A rs rd rp gl sum fexp junk t prior (a :: l) u = 0 := by
      intro S S1 S' ε u h1 h2 hu h3
      have h4 := ((h1.float u hu).congr _ (fun _ => 0) fun u' hu' => ih S1 S' h2 u' hu').trans ((h1.float u hu).const 0)
      exact (congrArg₂ (· + ·) h3 h4).trans (zero_add 0)
    intro S S' hl u hu
    cases a with
    | addRow r => exact step (Sim.addRow O N ht hm hc hcat hN hw F.clusters hl.1 hl.2.1) hl.2.2 hu (if_pos (floatAddRow_clear O N ht hm hc hcat hN hw F hu.1 r))
    | removeRow r => exact step (Sim.removeRow ht hm hN hl.1) hl.2 hu rfl
    | sampleTree => exact step (Sim.sampleTree ht hm hN R D Rp G hγ Su hexp hn hnum hV hp hpf hP junk A S) hl.2 hu rfl

/-- **C80** (actions, few bits). Then the law of the assignments and the tree after any legal list of actions has a bounded error. -/
theorem floatActions_near_few {l : List Action} {S T : Finset Nat} (hl : Legal t.numRows S l T) {u : FloatTrainer M} (hu : FloatRun t u.stats u.edge) (hS : u.stats.added = S)
    {f : Latent t M → List Edge → ℝ} {lo hi : ℝ} (hf : ∀ a T, Canonical T → IsTree t.numCols T → lo ≤ f a T ∧ f a T ≤ hi) :
    |(l.forM (floatRunAction A rs rd gl sum fexp junk t prior) : FloatTrainM M (FloatExpect rs rp (2 ^ 53)) Unit).run.run u (floatEnd t f)
      - (l.forM (runAction num junk t (prior.map fun x : ℚ => (x : ℝ))) : TrainM ℝ M (Expect ℝ) Unit).run.run (realTrainer u.stats) (exactEnd t f)|
      ≤ (numAdds l * Spec.rowErr t.numCols M 0 6 + l.count .sampleTree * Spec.treeErr t.numCols M t.numRows γ η P) * (hi - lo) := by
  have h := floatActions_near O N ht hm hc hcat hN hw F.clusters R D Rp G hγ Su hexp hn hnum hV hp hpf hP junk hl hu hS hf
  rwa [unclear_zero O N ht hm hc hcat hN hw F R D Rp G hγ Su hexp hn hnum hV hp hpf hP junk l S T hl u ⟨hu, hS⟩, add_zero] at h

/-- **C80** (the posterior, few bits). Then full epochs in float32 come within `ρ ^ n + 2 (N rowErr + treeErr) / (1 - ρ)` of the posterior. -/
theorem floatEpochs_posterior_few (hV1 : 1 ≤ t.numCols) (hM : M ≤ 128) (hN0 : 0 < t.numRows) (trees : Finset (List Edge)) (htrees : ∀ T, T ∈ trees ↔ Canonical T ∧ IsTree t.numCols T) :
    ∃ ρ : ℝ, 0 ≤ ρ ∧ ρ < 1 ∧ ∀ (u : FloatTrainer M), FloatRun t u.stats u.edge → u.stats.added = Finset.range t.numRows → ∀ (f : Latent t M → List Edge → ℝ) (lo hi : ℝ),
      (∀ a, ∀ T ∈ trees, lo ≤ f a T ∧ f a T ≤ hi) → ∀ n : Nat,
      |((List.replicate n ()).forM fun _ => floatFullScan A rs rd gl sum fexp junk t prior : FloatTrainM M (FloatExpect rs rp (2 ^ 53)) Unit).run.run u (floatEnd t f)
        - (∑ a, ∑ T ∈ trees, posterior t (prior.map fun x : ℚ => (x : ℝ)) a T * f a T) / ∑ a : Latent t M, ∑ T ∈ trees, posterior t (prior.map fun x : ℚ => (x : ℝ)) a T|
        ≤ (ρ ^ n + 2 * (t.numRows * Spec.rowErr t.numCols M 0 6 + Spec.treeErr t.numCols M t.numRows γ η P) / (1 - ρ)) * (hi - lo) := by
  obtain ⟨ρ, h0, h1, h⟩ := floatEpochs_posterior O N ht hm hc hcat hN hw F.clusters R D Rp G hγ Su hexp hn hnum hV hp hpf hP junk hV1 hM hN0 trees htrees
  refine ⟨ρ, h0, h1, fun u hu hS f lo hi hf n => ?_⟩
  have := h u hu hS f lo hi hf n
  rwa [unclear_zero O N ht hm hc hcat hN hw F R D Rp G hγ Su hexp hn hnum hV hp hpf hP junk _ _ _ (legal_epochs hN0 n) u ⟨hu, hS⟩, mul_zero, add_zero] at this

end

/-- There are finitely many trees. -/
theorem exists_trees (V : Nat) : ∃ trees : Finset (List Edge), ∀ T, T ∈ trees ↔ Canonical T ∧ IsTree V T := by
  have hfin : {T : List Edge | Canonical T ∧ IsTree V T}.Finite := by
    refine (Set.finite_range fun f : Fin (V - 1) → Fin V × Fin V => List.ofFn fun i => (((f i).1 : Nat), ((f i).2 : Nat))).subset ?_
    rintro T ⟨-, hT⟩
    have hlen : T.length = V - 1 := by have := hT.card; omega
    refine ⟨fun i => ⟨⟨(T[i]'(by omega)).1, (hT.range _ (List.getElem_mem _)).1⟩, ⟨(T[i]'(by omega)).2, (hT.range _ (List.getElem_mem _)).2⟩⟩, ?_⟩
    refine List.ext_getElem (by simp [hlen]) fun i h1 h2 => ?_
    simp
  exact ⟨hfin.toFinset, fun T => by simp⟩

/-- Two rows, two features and two clusters are few. -/
theorem two_few : Spec.FewBits twoTable 2 2 1 := ⟨rfl, by decide, by decide, by decide⟩

/-- Five features with 100 rows and four clusters are few as well. -/
example : (5 - 1) * (7 + 2 + 3) + 3 * 7 + 2 * 2 + 3 ≤ 85 := by decide

/-- Training on the small table comes near its posterior. -/
example (junk : Nat → Nat) : ∃ (gl fexp : ℚ → ℚ) (sum : List ℚ → ℚ) (trees : Finset (List Edge)) (ρ : ℝ) (u : FloatTrainer 2), 0 ≤ ρ ∧ ρ < 1 ∧ FloatRun twoTable u.stats u.edge ∧
    u.stats.added = Finset.range twoTable.numRows ∧ ∀ n,
    |((List.replicate n ()).forM fun _ => floatFullScan (numpyOps 2) float32 float64 gl sum fexp junk twoTable [0] : FloatTrainM 2 (FloatExpect float32 float64 (2 ^ 53)) Unit).run.run u
          (floatEnd twoTable fun a _ => if a ⟨1, by decide⟩ ⟨0, by decide⟩ = a ⟨0, by decide⟩ ⟨0, by decide⟩ then 1 else 0)
        - (∑ a : Latent twoTable 2, ∑ T ∈ trees, posterior twoTable [0] a T * (if a ⟨1, by decide⟩ ⟨0, by decide⟩ = a ⟨0, by decide⟩ ⟨0, by decide⟩ then 1 else 0)) /
          ∑ a : Latent twoTable 2, ∑ T ∈ trees, posterior twoTable [0] a T|
      ≤ ρ ^ n + 2 * (2 * Spec.rowErr 2 2 0 6 + Spec.treeErr 2 2 2 (1 / 2 ^ 20) (2 ^ (-24 : Int)) 0) / (1 - ρ) := by
  obtain ⟨gl, hgl⟩ := exists_gammalnOk
  obtain ⟨trees, htrees⟩ := exists_trees twoTable.numCols
  have hm : AllMultinomial twoTable := by intro ty hty; simpa [twoTable, tyMultinomial] using hty
  have ht : Table.Ordered twoTable := ⟨by decide, by decide⟩
  have hw : ∀ v < twoTable.numCols, twoTable.beg v < twoTable.stop v ∧ twoTable.stop v - twoTable.beg v ≤ 2 ^ 23 := by decide
  have hc : Table.Counts twoTable := ⟨fun n r => (twoTable_cell n r).1, fun v hv => (hw v hv).1⟩
  have hz : ∀ x ∈ ([0] : List ℚ), IsFloat 24 (-149) x := by
    intro x hx
    rw [List.mem_singleton.1 hx]
    exact isFloat_zero ..
  have hrun : FloatRun twoTable twoStart (floatEdgeArray twoStart) := FloatRun.init (n := 1) (except_get _)
  have h0 : twoStart.added = ∅ := by decide +kernel
  have hrun' := floatAddRow_added hm hrun (row := 1) (by decide +kernel) (by decide) (r := twoFirst) (except_get _)
  have hadd : (added twoTable 1 twoFirst.assign twoStart).added = {1} := by simp only [added, statsUpdate_added, h0]; rfl
  obtain ⟨⟨r, h1, -⟩, -⟩ := floatAddRow_ok (numpyOps_ok (M := 2) (by norm_num)) ht hm hc twoTable_categorical (by decide) (fun v hv => (hw v hv).2) hrun' 0 (draw := fun _ => 0) fun _ => ⟨0, by norm_num, by norm_num⟩
  have hrun2 := floatAddRow_added hm hrun' (row := 0) (by rw [hadd]; decide) (by decide) h1
  set num : Num ℝ := ⟨Real.exp, fun x => Real.log (Real.Gamma x)⟩
  obtain ⟨ρ, k0, k1, k2⟩ := floatEpochs_posterior_few (numpyOps_ok (M := 2) (by norm_num)) (seqDot_near (by norm_num) float32_mono) ht hm hc twoTable_categorical (by decide) (fun v hv => (hw v hv).2) two_few
    float32_isRounding float64_isRounding float64_isRounding hgl (by norm_num) sumAbsOk_foldl floorExp_ok (num := num) (fun _ _ => rfl) rfl (by decide) (prior := [0]) (by decide) hz (P := 0) (by simp) junk
    (by decide) (by norm_num) (by decide) trees htrees
  have hcast : ([0] : List ℚ).map (fun x : ℚ => (x : ℝ)) = [0] := by simp
  rw [hcast] at k2
  have hadd2 : (added twoTable 0 r.assign (added twoTable 1 twoFirst.assign twoStart)).added = Finset.range twoTable.numRows := by
    rw [show (added twoTable 0 r.assign (added twoTable 1 twoFirst.assign twoStart)).added = insert 0 (added twoTable 1 twoFirst.assign twoStart).added by simp only [added, statsUpdate_added], hadd]
    decide
  refine ⟨gl, floorExp, fun xs => xs.foldl (fun a x => float32 (a + x)) 0, trees, ρ, ⟨_, _⟩, k0, k1, hrun2, hadd2, fun n => ?_⟩
  have k3 := k2 ⟨_, _⟩ hrun2 hadd2 (fun a _ => if a ⟨1, by decide⟩ ⟨0, by decide⟩ = a ⟨0, by decide⟩ ⟨0, by decide⟩ then 1 else 0) 0 1 (fun a T _ => by split <;> norm_num) n
  refine k3.trans (le_of_eq ?_)
  show (ρ ^ n + 2 * ((2 : Nat) * Spec.rowErr 2 2 0 6 + Spec.treeErr 2 2 2 (1 / 2 ^ 20) (2 ^ (-24 : Int)) 0) / (1 - ρ)) * (1 - 0) = _
  push_cast
  ring

end TreeCat
