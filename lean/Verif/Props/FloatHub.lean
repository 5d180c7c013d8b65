import Verif.Lemmas.FloatHub

/-!
# C77: underflow at a hub

The theorem at the end of this file.
-/

set_option linter.unusedSectionVars false
set_option maxRecDepth 20000

namespace TreeCat

open Util Spec
open scoped BigOperators

theorem hub_ordered : Table.Ordered hubTable := ⟨by decide +kernel, by decide +kernel⟩

theorem hub_data_nonneg : ∀ row ∈ hubTable.data, ∀ x ∈ row, 0 ≤ x := by decide +kernel

theorem hub_nonneg (n r : Nat) : 0 ≤ hubTable.cell n r := by
  unfold Table.cell
  by_cases hn : n < hubTable.data.length
  · by_cases hr : r < (hubTable.data.getD n []).length
    · rw [List.getD_eq_getElem _ _ hr]
      refine hub_data_nonneg _ ?_ _ (List.getElem_mem hr)
      rw [List.getD_eq_getElem _ _ hn]
      exact List.getElem_mem hn
    · rw [List.getD_eq_default _ _ (by omega)]
  · rw [List.getD_eq_default _ [] (by omega)]
    simp

theorem hub_counts : Table.Counts hubTable := ⟨hub_nonneg, by decide +kernel⟩

theorem hub_blocks : ∀ n < 33, ∀ v < 65, hubTable.blockSum n v ≤ 1 := by decide +kernel

theorem hub_categorical (row : Nat) : Spec.Categorical hubTable row := by
  refine ⟨hub_nonneg row, fun v hv => ?_⟩
  by_cases hr : row < 33
  · exact hub_blocks row hr v hv
  · unfold Table.blockSum Table.cell
    rw [List.getD_eq_default _ [] (by show 33 ≤ row; omega)]
    simp

/-- Rows are added one after the other, with the classes of `hubClass`. -/
theorem hub_reach : ∀ n ≤ 32, ∃ (s : Trainer ℚ 2) (edge : Nat → Fin 2 → Fin 2 → ℚ), FloatRun hubTable s edge ∧ s.added = Finset.range n ∧
    ∀ i < n, ∀ v < 65, s.assign i v = hubClass i := by
  intro n
  induction n with
  | zero =>
    intro _
    obtain ⟨s0, h0, hg0, ha0⟩ := good_init (K := ℚ) (M := 2) (t := hubTable) (n := 2080) (by decide) (by decide) (by decide) (by decide)
    exact ⟨s0, _, .init h0, by rw [ha0]; rfl, by simp⟩
  | succ n ih =>
    intro hn
    obtain ⟨s, edge, h1, h2, h3⟩ := ih (by omega)
    obtain ⟨hg, -, -⟩ := floatRun_inv hub_ordered hub_multinomial (by decide) h1
    obtain ⟨c, hc1, hc2⟩ := findCenter_spec hg.isTree
    obtain ⟨d, par, ch, eid, L, R, T, he, -, hp⟩ := makeProgram_some hg.isTree hc2.1
    have hprog : s.program = progOf c par ch eid L := by
      have := hg.program
      simp only [makeProgram, hc1, bind, Except.bind] at this hp
      rw [this] at hp
      exact Except.ok.inj hp
    obtain ⟨z, hz1, hz2⟩ := sampleRow_poss (row := n) hub_multinomial.getD T hprog (fun _ => hubClass n)
    have hr : n ∉ s.added := by rw [h2]; simp
    have o := addRow_outcome hub_multinomial hr (show n < hubTable.numRows from lt_of_lt_of_le (by omega) (show 33 ≤ hubTable.numRows by decide)) hz1
    refine ⟨_, _, h1.addRow o, ?_, fun i hi v hv => ?_⟩
    · simp only [added, statsUpdate_added, h2]
      rw [Finset.range_add_one]
    · simp only [added, statsUpdate_assign]
      by_cases hin : i = n
      · subst hin
        rw [Function.update_self]
        exact hz2 v hv
      · rw [Function.update_of_ne hin]
        exact h3 i (by omega) v hv

theorem hub_old_cells : ∀ v < 65, ∀ n < 32, hubTable.cell n (2 * v) = (if hubClass n = 0 then 1 else 0) ∧
    hubTable.cell n (2 * v + 1) = if hubClass n = 0 then 0 else 1 := by decide +kernel

/-- The counts of the 32 rows, in the tree with the hub. -/
structure HubState (s : Trainer ℚ 2) : Prop where
  good : Good hubTable s
  grid : s.tree.treeGrid = (List.range 64).map fun i => (i, 0, i + 1)
  program : s.program = hubUp ++ (hubIns ++ ⟨.ROOT, 0, 0, 0⟩ :: hubOut)
  added : s.added = Finset.range 32
  vert : ∀ v < 65, ∀ a, s.vertSS v a = 16
  edge : ∀ e < 64, ∀ a b, s.edgeSS e a b = if a = b then 16 else 0
  left : ∀ v < 65, ∀ a, s.featSS (2 * v) a = if a = 0 then 16 else 0
  right : ∀ v < 65, ∀ a, s.featSS (2 * v + 1) a = if a = 0 then 0 else 16
  meas : ∀ v < 65, ∀ a, s.measSS v a = 16
  probs : ∀ e < 64, ∀ a b, s.edgeProbs e a b = if a = b then 65 / 4 else 1 / 4

theorem hub_state : ∃ s : Trainer ℚ 2, FloatRun hubTable s (floatEdgeArray s) ∧ HubState s := by
  obtain ⟨s, edge, h1, h2, h3⟩ := hub_reach 32 le_rfl
  obtain ⟨hg, -, -⟩ := floatRun_inv hub_ordered hub_multinomial (by decide) h1
  obtain ⟨⟨⟨r, s'⟩, hs'⟩, hall⟩ := Tot.setEdges hg (edges := hubEdges) hub_isTree
  obtain ⟨_, rfl, hg', ha, hz, hgr⟩ := hall _ _ hs'
  have hgr' := hgr.trans hub_grid
  have ha' : s'.added = Finset.range 32 := ha.trans h2
  have hz' : ∀ i < 32, ∀ v < 65, s'.assign i v = hubClass i := by rw [hz]; exact h3
  have hfil : ∀ v < 65, ∀ a, s'.added.filter (fun n => s'.assign n v = a) = (Finset.range 32).filter fun n => hubClass n = a := by
    intro v hv a
    rw [ha']
    refine Finset.filter_congr fun n hn => ?_
    rw [hz' n (Finset.mem_range.1 hn) v hv]
  have hedge : ∀ e < 64, ∀ a b, edgeCount s'.added s'.assign 0 (e + 1) a b = if a = b then 16 else 0 := by
    intro e he a b
    have : s'.added.filter (fun n => s'.assign n 0 = a ∧ s'.assign n (e + 1) = b) = (Finset.range 32).filter fun n => hubClass n = a ∧ hubClass n = b := by
      rw [ha']
      refine Finset.filter_congr fun n hn => ?_
      rw [hz' n (Finset.mem_range.1 hn) 0 (by norm_num), hz' n (Finset.mem_range.1 hn) (e + 1) (by omega)]
    unfold edgeCount
    rw [this]
    clear this
    revert a b
    decide +kernel
  have hmem : ∀ e < 64, (e, 0, e + 1) ∈ s'.tree.treeGrid := by
    intro e he
    rw [hgr']
    exact List.mem_map.2 ⟨e, List.mem_range.2 he, rfl⟩
  have hsum : ∀ (f : Nat → Int) (g : Fin 2 → Int), (∀ n < 32, f n = g (hubClass n)) → ∀ a, ∑ n ∈ (Finset.range 32).filter (fun n => hubClass n = a), f n = 16 * g a := by
    intro f g hf a
    have hc : ((Finset.range 32).filter fun n => hubClass n = a).card = 16 := by revert a; decide +kernel
    rw [Finset.sum_congr rfl (g := fun _ => g a), Finset.sum_const, hc]
    · simp
    · intro n hn
      rw [Finset.mem_filter, Finset.mem_range] at hn
      rw [hf n hn.1, hn.2]
  have hb : ∀ v < 65, hubTable.beg v = 2 * v ∧ hubTable.stop v = 2 * v + 2 := fun v hv => ⟨(hub_cells v hv).1, (hub_cells v hv).2.1⟩
  refine ⟨s', h1.setEdges hub_isTree hs', hg', hgr', ?_, ha', fun v hv a => ?_, fun e he a b => ?_, fun v hv a => ?_, fun v hv a => ?_, fun v hv a => ?_, fun e he a b => ?_⟩
  · have := hg'.program
    rw [hgr, hub_program] at this
    exact (Except.ok.inj this).symm
  · rw [hg'.stats.vert v hv a, vertCount, hfil v hv a]
    revert a
    decide +kernel
  · rw [hg'.stats.edge e 0 (e + 1) (hmem e he) a b, hedge e he a b]
    split <;> rfl
  · rw [hg'.stats.feat v hv (2 * v) (hb v hv).1.le (by rw [(hb v hv).2]; omega) a, featTotal, hfil v hv a,
      hsum _ (fun a => if a = 0 then 1 else 0) fun n hn => (hub_old_cells v hv n hn).1]
    split <;> rfl
  · rw [hg'.stats.feat v hv (2 * v + 1) (by rw [(hb v hv).1]; omega) (by rw [(hb v hv).2]; omega) a, featTotal, hfil v hv a,
      hsum _ (fun a => if a = 0 then 0 else 1) fun n hn => (hub_old_cells v hv n hn).2]
    split <;> rfl
  · rw [hg'.stats.meas v hv a, measTotal, hfil v hv a, hsum _ (fun _ => 1) fun n hn => ?_]
    · rfl
    · rw [(hb v hv).1, (hb v hv).2, Finset.sum_Ico_eq_sum_range, show 2 * v + 2 - 2 * v = 2 by omega, Finset.sum_range_succ, Finset.sum_range_one, Nat.add_zero,
        (hub_old_cells v hv n hn).1, (hub_old_cells v hv n hn).2]
      split <;> rfl
  · rw [hg'.stats.probs e 0 (e + 1) (hmem e he) a b, hedge e he a b]
    split <;> norm_num

/-! ### The exact law -/

theorem prod_range_list {f : Nat → ℝ} (n : Nat) : ((List.range n).map f).prod = ∏ i ∈ Finset.range n, f i := by
  induction n with
  | zero => rfl
  | succ n ih => rw [List.range_succ, List.map_append, List.prod_append, ih, Finset.prod_range_succ]; simp

theorem sum_star {n : Nat} (w : Fin 2 → ℝ) (g : Fin n → Fin 2 → Fin 2 → ℝ) :
    ∑ z : Fin (n + 1) → Fin 2, w (z 0) * ∏ i, g i (z 0) (z i.succ) = ∑ a, w a * ∏ i, ∑ b, g i a b := by
  rw [← (Fin.consEquiv fun _ : Fin (n + 1) => Fin 2).sum_comp, Fintype.sum_prod_type]
  refine Finset.sum_congr rfl fun a _ => ?_
  rw [Finset.prod_univ_sum, Fintype.piFinset_univ, Finset.mul_sum]
  refine Finset.sum_congr rfl fun z _ => ?_
  simp [Fin.consEquiv]

/-- What a leaf says about the class of the hub. -/
noncomputable def hubG (i : Nat) (a b : Fin 2) : ℝ :=
  (if (i + 1 ≤ 31) = (b = 0) then 65 / 4 else 1 / 4) * ((if a = b then 65 / 4 else 1 / 4) / (33 / 2 * (33 / 2)))

theorem hub_likelihood {s : Trainer ℚ 2} (h : HubState s) : ∃ C > 0, ∀ z : Fin 65 → Fin 2,
    likelihood hubTable (insert 32 s.added) (Function.update s.assign 32 (overlay (s.assign 32) z)) s.tree.getEdges = C * ∏ i : Fin 64, hubG i (z 0) (z i.succ) := by
  have hg := good_realTrainer h.good
  obtain ⟨d, par, ch, eid, L, R, T, he, -, -⟩ := makeProgram_some (grid := (realTrainer s).tree.treeGrid) hg.isTree (r := 0) (by decide)
  have hlt := grid_lt hg
  have hr : 32 ∉ (realTrainer s).added := by show 32 ∉ s.added; rw [h.added]; simp
  have hpar : ∀ v < 65, v ≠ 0 → par v = 0 ∧ eid v = v - 1 := by
    intro v hv h0
    have hc : ∀ c ∈ (realTrainer s).tree.treeGrid, c.2.1 = 0 ∧ c.2.2 = c.1 + 1 := by
      intro c hcm
      rw [show (realTrainer s).tree.treeGrid = _ from h.grid] at hcm
      obtain ⟨i, -, rfl⟩ := List.mem_map.1 hcm
      exact ⟨rfl, rfl⟩
    rcases he v hv h0 with hm | hm
    · exact absurd (hc _ hm).1 h0
    · have := hc _ hm
      simp only at this
      exact ⟨this.1, by omega⟩
  refine ⟨likelihood hubTable s.added s.assign s.tree.getEdges * (33 / 2), ?_, fun z => ?_⟩
  · exact mul_pos (likelihood_pos hub_counts _ _ _) (by norm_num)
  have := likelihood_added hub_counts hg R T he hlt hr (overlay (s.assign 32) z)
  refine this.trans ?_
  rw [mul_assoc]
  refine congrArg (likelihood hubTable s.added s.assign s.tree.getEdges * ·) ?_
  have hphi : ∀ v < 65, ∀ a : Fin 2, (((realTrainer s).vertSS v a : ℝ) + vertPrior) * cellFactor hubTable 32
      (fun c a => ((realTrainer s).featSS c a : ℝ) + featPrior 2) (fun v a => ((realTrainer s).measSS v a : ℝ) + measPrior 2 hubTable v) v a =
        if v = 0 then 33 / 2 else if (v ≤ 31) = (a = 0) then 65 / 4 else 1 / 4 := by
    intro v hv a
    obtain ⟨c1, c2, c3, c4⟩ := hub_cells v hv
    have hw : hubTable.stop v - hubTable.beg v = 2 := by omega
    have e1 : (realTrainer s).vertSS v a = 16 := h.vert v hv a
    have e2 : (realTrainer s).featSS (2 * v) a = if a = 0 then 16 else 0 := h.left v hv a
    have e3 : (realTrainer s).featSS (2 * v + 1) a = if a = 0 then 0 else 16 := h.right v hv a
    have e4 : (realTrainer s).measSS v a = 16 := h.meas v hv a
    unfold cellFactor
    simp only [measPrior]
    rw [hw]
    simp only [Finset.sum_range_succ, Finset.prod_range_succ, Finset.range_zero, Finset.sum_empty, Finset.prod_empty, c1, Nat.add_zero, c3, c4, e1, e2, e3, e4]
    by_cases h0 : v = 0
    · subst h0
      norm_num [rise, vertPrior]
    · by_cases h31 : 31 < v
      · have : ¬ v ≤ 31 := by omega
        rcases (show a = 0 ∨ a = 1 by omega) with rfl | rfl <;> norm_num [h0, h31, this, rise, vertPrior, featPrior]
      · have : v ≤ 31 := by omega
        rcases (show a = 0 ∨ a = 1 by omega) with rfl | rfl <;> norm_num [h0, h31, this, rise, vertPrior, featPrior]
  have hpsi : ∀ v < 65, v ≠ 0 → ∀ a b : Fin 2, rowPsi 0 par eid (fun v m => ((realTrainer s).vertSS v m : ℝ) + vertPrior) (realTrainer s).edgeProbs v a b =
      (if a = b then 65 / 4 else 1 / 4) / (33 / 2 * (33 / 2)) := by
    intro v hv h0 a b
    have e0 : ∀ v < 65, ∀ a, (realTrainer s).vertSS v a = 16 := h.vert
    have e1 : (realTrainer s).edgeProbs (v - 1) a b = if a = b then 65 / 4 else 1 / 4 := by
      show ((s.edgeProbs (v - 1) a b : ℚ) : ℝ) = _
      rw [h.probs (v - 1) (by omega) a b]
      split <;> norm_num
    unfold rowPsi transAt
    rw [if_neg h0, (hpar v hv h0).1, (hpar v hv h0).2, if_neg (by omega), e1]
    simp only [e0 0 (by norm_num), e0 v hv]
    norm_num [vertPrior]
  unfold treeWeight
  have hL : L.Perm (List.range 65) := T.perm
  have hr65 : List.range 65 = 0 :: (List.range 64).map Nat.succ := List.range_succ_eq_map
  have hfl : (L.filter (· ≠ 0)).Perm ((List.range 64).map Nat.succ) := by
    refine (hL.filter _).trans ?_
    rw [hr65, List.filter_cons_of_neg (by simp), List.filter_eq_self.2 (by simp)]
  rw [(hL.map _).prod_eq, (hfl.map _).prod_eq, hr65, List.map_cons, List.prod_cons, List.map_map, List.map_map, prod_range_list, prod_range_list, mul_assoc, ← Finset.prod_mul_distrib,
    Finset.prod_range]
  beta_reduce
  rw [hphi 0 (by norm_num), if_pos rfl]
  refine congrArg (33 / 2 * ·) (Finset.prod_congr rfl fun i _ => ?_)
  have hi : i.val + 1 < 65 := by omega
  simp only [Function.comp, Nat.succ_eq_add_one]
  rw [hphi _ hi, hpsi _ hi (by omega), (hpar _ hi (by omega)).1, if_neg (by omega), overlay_lt _ _ hi, overlay_lt _ _ (show 0 < 65 by norm_num)]
  rfl

theorem hub_evidence : (∏ i : Fin 64, ∑ b, hubG i 1 b) = (2113 / 65) ^ 2 * ∏ i : Fin 64, ∑ b, hubG i 0 b := by
  have h1 : ∀ i < 31, ∀ a : Fin 2, ∑ b, hubG i a b = if a = 0 then 4226 / 16 / (33 / 2 * (33 / 2)) else 130 / 16 / (33 / 2 * (33 / 2)) := by
    intro i hi a
    have : i + 1 ≤ 31 := by omega
    rcases (show a = 0 ∨ a = 1 by omega) with rfl | rfl <;> norm_num [hubG, this]
  have h2 : ∀ i, ∀ a : Fin 2, ∑ b, hubG (31 + i) a b = if a = 0 then 130 / 16 / (33 / 2 * (33 / 2)) else 4226 / 16 / (33 / 2 * (33 / 2)) := by
    intro i a
    have : ¬ 31 + i + 1 ≤ 31 := by omega
    rcases (show a = 0 ∨ a = 1 by omega) with rfl | rfl <;> norm_num [hubG, this]
  have key : ∀ a, ∏ i : Fin 64, ∑ b, hubG i a b = (if a = 0 then 4226 / 16 / (33 / 2 * (33 / 2)) else 130 / 16 / (33 / 2 * (33 / 2))) ^ 31 *
      (if a = 0 then 130 / 16 / (33 / 2 * (33 / 2)) else 4226 / 16 / (33 / 2 * (33 / 2))) ^ 33 := by
    intro a
    rw [← Finset.prod_range fun i => ∑ b, hubG i a b, show 64 = 31 + 33 from rfl, Finset.prod_range_add,
      Finset.prod_congr rfl fun i hi => h1 i (Finset.mem_range.1 hi) a, Finset.prod_congr rfl fun i _ => h2 i a, Finset.prod_const, Finset.prod_const,
      Finset.card_range, Finset.card_range]
  rw [key 0, key 1]
  norm_num

theorem hubG_pos (i : Nat) (a b : Fin 2) : 0 < hubG i a b := by
  unfold hubG
  refine mul_pos ?_ (div_pos ?_ (by norm_num)) <;> split <;> norm_num

/-- Data of the kind treecat is made for: 65 features with two values, joined in a star, a row in which 31 of them speak for class 0 of the hub and 33 for
class 1, after 32 rows that the trainer has seen. The class of the hub is 1 with probability 0.999 and more, but the loop in float32 never draws it: the message
of the hub for class 1 is divided by the largest after each of the 31 features, and underflows. All hypotheses of `floatAddRow_law_pow` hold except that no
message underflows. -/
theorem floatAddRow_hub : Table.Ordered hubTable ∧ AllMultinomial hubTable ∧ Table.Counts hubTable ∧ (∀ row, Spec.Categorical hubTable row) ∧
    hubTable.numRows < 2 ^ 14 ∧ (∀ v < hubTable.numCols, hubTable.stop v - hubTable.beg v ≤ 2 ^ 23) ∧
    ∃ (s : Trainer ℚ 2) (edge : Nat → Fin 2 → Fin 2 → ℚ), FloatRun hubTable s edge ∧ 32 < hubTable.numRows ∧ 32 ∉ s.added ∧
      (∀ draw, ∃ r, floatAddRow (numpyOps 2) hubTable 32 s edge draw = .ok r ∧ r.assign 0 = 0) ∧
      999 / 1000 ≤ (∑ z : Fin hubTable.numCols → Fin 2, likelihood hubTable (insert 32 s.added) (Function.update s.assign 32 (overlay (s.assign 32) z)) s.tree.getEdges *
          if overlay (s.assign 32) z 0 = 1 then 1 else 0) /
        ∑ z : Fin hubTable.numCols → Fin 2, likelihood hubTable (insert 32 s.added) (Function.update s.assign 32 (overlay (s.assign 32) z)) s.tree.getEdges := by
  refine ⟨hub_ordered, hub_multinomial, hub_counts, hub_categorical, by decide, by decide +kernel, ?_⟩
  obtain ⟨s, h1, h⟩ := hub_state
  refine ⟨s, _, h1, by decide, by rw [h.added]; simp, fun draw => ?_, ?_⟩
  · unfold floatAddRow
    rw [h.program]
    refine hub_loop (fun v hv a => ?_) (fun e he a b => ?_) (fun v hv a => ⟨?_, ?_⟩) (fun v hv a => ?_) draw
    · rw [h.vert v hv a]; decide +kernel
    · rw [floatEdgeArray, h.edge e he a b]
      split <;> decide +kernel
    · rw [h.left v hv a]
      split <;> decide +kernel
    · rw [h.right v hv a]
      split <;> decide +kernel
    · rw [h.meas v hv a, show hubTable.stop v - hubTable.beg v = 2 by rw [(hub_cells v hv).1, (hub_cells v hv).2.1]; omega]
      decide +kernel
  · obtain ⟨C, hC, hl⟩ := hub_likelihood h
    have e1 := sum_star (n := 64) (fun a => C * if a = 1 then 1 else 0) fun i => hubG i
    have e2 := sum_star (n := 64) (fun _ => C) fun i => hubG i
    have hnum : (∑ z : Fin hubTable.numCols → Fin 2, likelihood hubTable (insert 32 s.added) (Function.update s.assign 32 (overlay (s.assign 32) z)) s.tree.getEdges *
          if overlay (s.assign 32) z 0 = 1 then 1 else 0) = C * ∏ i : Fin 64, ∑ b, hubG i 1 b := by
      rw [Fin.sum_univ_two] at e1
      simp only [zero_ne_one, if_false, if_true, mul_zero, zero_mul, zero_add, mul_one] at e1
      rw [← e1]
      refine Finset.sum_congr rfl fun (z : Fin 65 → Fin 2) _ => ?_
      have ho : overlay (s.assign 32) z 0 = z 0 := overlay_lt _ _ (show 0 < 65 by norm_num)
      refine (congrArg₂ (· * ·) (hl z) (congrArg (fun a : Fin 2 => if a = 1 then (1 : ℝ) else 0) ho) : _ = (C * ∏ i : Fin 64, hubG i (z 0) (z i.succ)) * if z 0 = 1 then (1 : ℝ) else 0).trans ?_
      ring
    have hden : (∑ z : Fin hubTable.numCols → Fin 2, likelihood hubTable (insert 32 s.added) (Function.update s.assign 32 (overlay (s.assign 32) z)) s.tree.getEdges) =
        C * (∏ i : Fin 64, ∑ b, hubG i 0 b) + C * ∏ i : Fin 64, ∑ b, hubG i 1 b := by
      rw [Fin.sum_univ_two] at e2
      rw [← e2]
      exact Finset.sum_congr rfl fun z _ => hl z
    have hpos : 0 < ∏ i : Fin 64, ∑ b, hubG i 0 b := Finset.prod_pos fun i _ => Finset.sum_pos (fun b _ => hubG_pos i 0 b) ⟨0, Finset.mem_univ _⟩
    rw [hnum, hden, hub_evidence]
    rw [div_le_div_iff₀ (by norm_num) (by positivity)]
    nlinarith [mul_pos hC hpos]

end TreeCat
