import Verif.Props.RowGibbs

/-!
# C20: edge logits and the log probability
-/

set_option linter.unusedSectionVars false

namespace TreeCat

open Spec Real

section
variable {K : Type} [Field K] [LinearOrder K] [IsStrictOrderedRing K] {M : Nat} [NeZero M]

/-- States that successful calls on a new trainer can reach, the trees given to `set_edges` being
trees. -/
def Reached (t : Table) (s : Trainer K M) : Prop :=
  ∃ (n : Nat) (s0 : Trainer K M) (calls : List Call), Trainer.init t n = .ok s0 ∧ (∀ es, Call.setEdges es ∈ calls → IsTree t.numCols es) ∧
    outcomes (calls.forM (runCall t)) s0 (.ok PUnit.unit, s)

end

variable {M : Nat} [NeZero M] {t : Table} {s : Trainer ℝ M} {num : Num ℝ}

theorem Reached.good (ht : Table.Ordered t) (hm : AllMultinomial t) (h : Reached t s) : Good t s := by
  obtain ⟨n, s0, calls, h0, h1, h2⟩ := h
  have hV := init_checks h0
  obtain ⟨s0', h0', hg0, -⟩ := good_init (K := ℝ) (M := M) hV.1 hV.2.1 hV.2.2.1 hV.2.2.2
  rw [h0] at h0'
  cases h0'
  exact runCalls_good ht hm calls h1 s0 hg0 _ _ h2

theorem logitRows_countP (hsub : s.added.card = t.numCols → s.added = Finset.range t.numRows) (p : Nat → Prop)
    [DecidablePred p] : (logitRows t s).countP (fun n => decide (p n)) = (s.added.filter p).card := by
  unfold logitRows
  split
  · rename_i h
    rw [hsub h, ← Multiset.coe_countP (p := p), Multiset.countP_eq_card_filter]
    rfl
  · exact countP_sort _ _

theorem edgeLogit_eq (hn : GammaNum num) (h : Good t s)
    (hsub : s.added.card = t.numCols → s.added = Finset.range t.numRows) {v1 v2 : Nat} (h1 : v1 < t.numCols)
    (h2 : v2 < t.numCols) : edgeLogit num t s v1 v2 =
      log (edgeGamma s.added s.assign (v1, v2) / (vertGamma s.added s.assign v1 * vertGamma s.added s.assign v2)) := by
  rw [log_div (edgeGamma_pos _ _ _).ne' (mul_pos (vertGamma_pos _ _ _) (vertGamma_pos _ _ _)).ne',
    log_mul (vertGamma_pos _ _ _).ne' (vertGamma_pos _ _ _).ne', edgeLogit, logprobDC_vert hn h.stats h1,
    logprobDC_vert hn h.stats h2]
  rw [sub_sub]
  congr 1
  unfold edgeGamma edgePrior
  rw [log_prod fun m1 _ => (Finset.prod_pos fun m2 _ => Gamma_pos_of_pos (edge_arg_pos s.added s.assign v1 v2 m1 m2)).ne']
  refine Finset.sum_congr rfl fun m1 _ => ?_
  rw [log_prod (fun m2 _ => (Gamma_pos_of_pos (edge_arg_pos s.added s.assign v1 v2 m1 m2)).ne')]
  refine Finset.sum_congr rfl fun m2 _ => ?_
  rw [logitRows_countP hsub, ← hn _ (edge_arg_pos s.added s.assign v1 v2 m1 m2)]
  rfl

/-- The edge logits of a good state. -/
theorem edgeLogits_good (hn : ∀ x, 0 < x → num.gammaln x = log (Gamma x)) (hg : Good t s)
    (hsub : s.added.card = t.numCols → s.added = Finset.range t.numRows) (prior : List ℝ)
    (hp : prior.length = t.numCols * (t.numCols - 1) / 2) : ∃ logits, computeEdgeLogits num t prior s = .ok logits ∧
    logits.length = t.numCols * (t.numCols - 1) / 2 ∧
    ∀ v1 v2, v1 < v2 → v2 < t.numCols → logits.getD (findCompleteEdge v1 v2) 0 =
      log (edgeGamma s.added s.assign (v1, v2) / (vertGamma s.added s.assign v1 * vertGamma s.added s.assign v2)) +
        prior.getD (findCompleteEdge v1 v2) 0 := by
  refine ⟨_, computeEdgeLogits_eq num prior hg.rows, zipWith_logits_length _ _ hp, fun v1 v2 h1 h2 => ?_⟩
  have hk := pairs_getElem? _ v1 v2 h1 h2
  have hlt : findCompleteEdge v1 v2 < (pairs t.numCols).length := by
    by_contra hc
    rw [List.getElem?_eq_none (by omega)] at hk; cases hk
  rw [pairs_length, tri, ← hp] at hlt
  rw [List.getD_eq_getElem?_getD, List.getElem?_zipWith, List.getElem?_map, completeGrid_getElem?, hk,
    List.getElem?_eq_getElem hlt, List.getD_eq_getElem _ _ hlt]
  simp only [Option.map_some, Option.getD_some]
  rw [edgeLogit_eq hn hg hsub (by omega) h2]

/-- **C20** (partial: the hypothesis `hsub` excludes a subsample whose size is the number of columns but
which is not the whole table; see `edgeLogits_stale` for why it is needed). The logit of an edge is its
tree prior plus the log ratio of the Gamma factors of its joint counts and of the counts of its
vertices, all over the rows in the subsample. -/
theorem edgeLogits_partial (hn : ∀ x, 0 < x → num.gammaln x = log (Gamma x)) (ht : Table.Ordered t)
    (hm : ∀ ty ∈ t.featureTypes, ty = tyMultinomial) (h : Reached t s)
    (hsub : s.added.card = t.numCols → s.added = Finset.range t.numRows) (prior : List ℝ)
    (hp : prior.length = t.numCols * (t.numCols - 1) / 2) : ∃ logits, computeEdgeLogits num t prior s = .ok logits ∧
    logits.length = t.numCols * (t.numCols - 1) / 2 ∧
    ∀ v1 v2, v1 < v2 → v2 < t.numCols → logits.getD (findCompleteEdge v1 v2) 0 =
      log (edgeGamma s.added s.assign (v1, v2) / (vertGamma s.added s.assign v1 * vertGamma s.added s.assign v2)) +
        prior.getD (findCompleteEdge v1 v2) 0 :=
  edgeLogits_good hn (h.good ht hm) hsub prior hp

theorem likelihood_tree_diff (hc : Table.Counts t) (rows : Finset Nat) (assign : Nat → Nat → Fin M)
    (T T' : List (Nat × Nat)) :
    log (likelihood t rows assign T) - log (likelihood t rows assign T')
      = (T.map fun e => log (edgeGamma rows assign e / (vertGamma rows assign e.1 * vertGamma rows assign e.2))).sum
        - (T'.map fun e => log (edgeGamma rows assign e / (vertGamma rows assign e.1 * vertGamma rows assign e.2))).sum := by
  have q2 : ∀ e : Nat × Nat, 0 < edgeGamma rows assign e / (vertGamma rows assign e.1 * vertGamma rows assign e.2) :=
    fun e => div_pos (edgeGamma_pos rows assign e) (mul_pos (vertGamma_pos rows assign e.1) (vertGamma_pos rows assign e.2))
  have p1 : 0 < ∏ v ∈ Finset.range t.numCols, vertGamma rows assign v :=
    Finset.prod_pos fun v _ => vertGamma_pos rows assign v
  have p3 : 0 < ∏ v ∈ Finset.range t.numCols, featGamma t rows assign v :=
    Finset.prod_pos fun v hv => featGamma_pos hc rows assign (Finset.mem_range.1 hv)
  have : ∀ T : List (Nat × Nat), log (likelihood t rows assign T)
      = log (∏ v ∈ Finset.range t.numCols, vertGamma rows assign v) +
        (T.map fun e => log (edgeGamma rows assign e / (vertGamma rows assign e.1 * vertGamma rows assign e.2))).sum +
        log (∏ v ∈ Finset.range t.numCols, featGamma t rows assign v) := by
    intro T
    have p2 := list_prod_pos T _ fun e _ => q2 e
    rw [likelihood, log_mul (mul_pos p1 p2).ne' p3.ne', log_mul p1.ne' p2.ne', log_list_prod _ _ fun e _ => q2 e]
  rw [this T, this T']
  ring

/-- **C20.** For two states with all rows and the same assignments, the difference of
`logprob()` is the difference of the total edge logits of the two trees, less tree prior. Here no
hypothesis on the size of the table is needed. -/
theorem logprob_diff (hn : ∀ x, 0 < x → num.gammaln x = log (Gamma x)) (ht : Table.Ordered t)
    (hm : ∀ ty ∈ t.featureTypes, ty = tyMultinomial) (hc : Table.Counts t) {s' : Trainer ℝ M} (h : Reached t s)
    (h' : Reached t s') (hall : s.added = Finset.range t.numRows) (hall' : s'.added = Finset.range t.numRows)
    (hassign : s'.assign = s.assign) (prior : List ℝ) (hp : prior.length = t.numCols * (t.numCols - 1) / 2) :
    ∃ logits a b, computeEdgeLogits num t prior s = .ok logits ∧ computeEdgeLogits num t prior s' = .ok logits ∧
      trainerLogprob num t s = .ok a ∧ trainerLogprob num t s' = .ok b ∧
      a - b = (s.tree.getEdges.map fun e => logits.getD (findCompleteEdge e.1 e.2) 0 - prior.getD (findCompleteEdge e.1 e.2) 0).sum
        - (s'.tree.getEdges.map fun e => logits.getD (findCompleteEdge e.1 e.2) 0 - prior.getD (findCompleteEdge e.1 e.2) 0).sum := by
  have hg := h.good ht hm
  have hg' := h'.good ht hm
  obtain ⟨logits, l1, l2, l3⟩ := edgeLogits_partial hn ht hm h (fun _ => hall) prior hp
  obtain ⟨logits', l1', l2', l3'⟩ := edgeLogits_partial hn ht hm h' (fun _ => hall') prior hp
  have hl : logits' = logits := by
    rw [logits_eq_map t.numCols logits l2, logits_eq_map t.numCols logits' l2']
    refine List.map_congr_left ?_
    rintro ⟨k, v1, v2⟩ hk
    obtain ⟨i, hi⟩ := List.mem_iff_getElem?.1 hk
    rw [completeGrid_getElem?] at hi
    obtain ⟨p, hp1, hp2⟩ := Option.map_eq_some_iff.1 hi
    simp only [Prod.mk.injEq] at hp2
    obtain ⟨rfl, rfl, rfl⟩ := hp2
    obtain ⟨h1, h2, -⟩ := pairs_getElem?_some _ _ _ hp1
    simp only
    rw [l3 _ _ h1 h2, l3' _ _ h1 h2, hall, hall', hassign]
  have hr : ∀ {s : Trainer ℝ M}, Good t s → ∀ e v1 v2, (e, v1, v2) ∈ s.tree.treeGrid → v1 < t.numCols ∧ v2 < t.numCols :=
    fun hg e v1 v2 he => hg.isTree.range (v1, v2) (List.mem_map.2 ⟨_, he, rfl⟩)
  refine ⟨logits, _, _, l1, by rw [← hl]; exact l1',
    trainerLogprob_eq hn hc hg.stats (hr hg) (by rw [hall, Finset.card_range]),
    trainerLogprob_eq hn hc hg'.stats (hr hg') (by rw [hall', Finset.card_range]), ?_⟩
  rw [hall, hall', hassign, likelihood_tree_diff hc]
  have hT : ∀ {s' : Trainer ℝ M}, Good t s' → ∀ e ∈ s'.tree.getEdges,
      log (edgeGamma (Finset.range t.numRows) s.assign e /
        (vertGamma (Finset.range t.numRows) s.assign e.1 * vertGamma (Finset.range t.numRows) s.assign e.2))
      = logits.getD (findCompleteEdge e.1 e.2) 0 - prior.getD (findCompleteEdge e.1 e.2) 0 := by
    intro s' hg' e he
    obtain ⟨c, hcm, rfl⟩ := List.mem_map.1 he
    have := grid_lt hg' c hcm
    rw [l3 _ _ this (hr hg' c.1 c.2.1 c.2.2 hcm).2, hall]
    ring
  congr 2
  · exact List.map_congr_left (hT hg)
  · exact List.map_congr_left (hT hg')

/-! ### The subsample whose size is the number of columns -/

/-- Any latent vector may be drawn by `add_row`. -/
theorem addRow_any (ht : Table.Ordered t) (hm : AllMultinomial t) (h : Good t s) {row : Nat} (hr : row ∉ s.added)
    (hN : row < t.numRows) (z : Nat → Fin M) : ∃ s', outcomes (addRow t row) s (.ok (), s') ∧ Good t s' ∧
      s'.added = insert row s.added ∧ s'.tree = s.tree ∧ (∀ n, n ≠ row → s'.assign n = s.assign n) ∧
      ∀ v < t.numCols, s'.assign row v = z v := by
  obtain ⟨root, h1, h2⟩ := findCenter_spec h.isTree
  obtain ⟨d, par, ch, eid, L, R, T, he, -, hp⟩ := makeProgram_some h.isTree h2.1
  have hprog := h.program
  simp only [makeProgram, h1, bind, Except.bind] at hprog hp
  rw [hprog] at hp
  obtain ⟨z', hz1, hz2⟩ := sampleRow_poss (row := row) (s := s) (AllMultinomial.getD hm) T (Except.ok.inj hp) z
  have hu := Tot.updateStats t (fun v _ => AllMultinomial.getD hm v) row 1 z'
    { s with added := insert row s.added, assign := Function.update s.assign row z' }
  obtain ⟨⟨r, s'⟩, hp1⟩ := hu.1
  obtain ⟨_, rfl, hs'⟩ := hu.2 _ _ hp1
  have hout : outcomes (addRow t row) s (.ok (), s') := by
    rw [addRow, outcomes_bind]
    refine ⟨.ok s, s, ⟨_, rfl, rfl⟩, ?_⟩
    simp only [if_neg hr, if_pos hN]
    rw [outcomes_bind]
    refine ⟨.ok (), _, ⟨_, rfl, rfl⟩, ?_⟩
    simp only
    rw [outcomes_bind]
    refine ⟨.ok (), _, rfl, ?_⟩
    simp only
    rw [outcomes_bind]
    refine ⟨.ok z', _, ⟨_, hz1, rfl⟩, ?_⟩
    simp only
    rw [outcomes_bind]
    exact ⟨.ok (), _, ⟨_, rfl, rfl⟩, hp1⟩
  obtain ⟨g1, g2, g3, g4⟩ := (Tot.addRow ht hm h hr hN).part _ _ hout
  refine ⟨s', hout, g1, g2, g3, g4, fun v hv => ?_⟩
  rw [hs', statsUpdate_assign, ← hz2 v hv]
  exact congrFun (Function.update_self _ _ _) v

/-- Two features, three rows. -/
def staleTable : Table := ⟨[0, 0], [0, 1, 2], [[1, 1], [1, 1], [1, 1]]⟩

theorem staleTable_ordered : Table.Ordered staleTable := ⟨by decide, by decide⟩

theorem stale_run (b : Fin 2) : ∃ s : Trainer ℝ 2, Reached staleTable s ∧ s.added = {0, 1} ∧
    s.tree.treeGrid = [(0, 0, 1)] ∧ (∀ v < 2, s.assign 0 v = 0) ∧ (∀ v < 2, s.assign 1 v = 0) ∧
    s.assign 2 0 = 0 ∧ s.assign 2 1 = b := by
  obtain ⟨s0, h0, g0, a0⟩ := good_init (K := ℝ) (M := 2) (t := staleTable) (n := 1) (by decide) (by decide)
    (by decide) (by decide)
  have hm : AllMultinomial staleTable := by unfold AllMultinomial; decide
  have hgrid : s0.tree.treeGrid = [(0, 0, 1)] := by
    obtain ⟨-, -, -, h4, -⟩ := inv_init h0
    have : TreeStructure.init staleTable.numCols = .ok ⟨2, [(0, 0, 1)]⟩ := by decide +kernel
    rw [this, Except.ok.injEq] at h4
    rw [← h4]
  obtain ⟨s1, o1, g1, a1, t1, -, e1⟩ := addRow_any staleTable_ordered hm g0 (row := 0) (by simp [a0]) (by decide)
    (fun _ => 0)
  obtain ⟨s2, o2, g2, a2, t2, f2, e2⟩ := addRow_any staleTable_ordered hm g1 (row := 1) (by simp [a1, a0]) (by decide)
    (fun _ => 0)
  obtain ⟨s3, o3, g3, a3, t3, f3, e3⟩ := addRow_any staleTable_ordered hm g2 (row := 2) (by simp [a2, a1, a0]) (by decide)
    (fun v => if v = 1 then b else 0)
  obtain ⟨⟨⟨r, s4⟩, o4⟩, h4⟩ := Tot.removeRow staleTable_ordered hm g3 (row := 2) (by simp [a3])
  obtain ⟨_, rfl, g4, a4, t4, f4⟩ := h4 _ _ o4
  have hcols : staleTable.numCols = 2 := rfl
  refine ⟨s4, ⟨1, s0, [.addRow 0, .addRow 1, .addRow 2, .removeRow 2], h0, by simp, ?_⟩, ?_, ?_, ?_, ?_, ?_, ?_⟩
  · exact (outcomes_bind _ _ _ _).2 ⟨_, _, o1, (outcomes_bind _ _ _ _).2 ⟨_, _, o2, (outcomes_bind _ _ _ _).2
      ⟨_, _, o3, (outcomes_bind _ _ _ _).2 ⟨_, _, o4, rfl⟩⟩⟩⟩
  · rw [a4, a3, a2, a1, a0]; decide
  · rw [t4, t3, t2, t1, hgrid]
  · intro v hv
    rw [f4, f3 0 (by decide), f2 0 (by decide), e1 v (by omega)]
  · intro v hv
    rw [f4, f3 1 (by decide), e2 v (by omega)]
  · rw [f4, e3 0 (by omega)]; rfl
  · rw [f4, e3 1 (by omega)]; rfl

/-- **C20 fails** without the hypothesis of `edgeLogits_partial`. On a table of three rows and two columns
there are two reachable states with the same two rows in the subsample, the same assignments of these
rows and the same tree whose edge logits differ: `compute_edge_logits` compares the number of added
rows with the number of columns (training.py:584) and then counts the stale assignment of the row
that has been removed. -/
theorem edgeLogits_stale (hn : ∀ x, 0 < x → num.gammaln x = log (Gamma x)) : ∃ s1 s2 : Trainer ℝ 2,
    Reached staleTable s1 ∧ Reached staleTable s2 ∧ s1.added = s2.added ∧ s1.tree.treeGrid = s2.tree.treeGrid ∧
    (∀ n ∈ s1.added, ∀ v < staleTable.numCols, s1.assign n v = s2.assign n v) ∧
    computeEdgeLogits num staleTable [0] s1 ≠ computeEdgeLogits num staleTable [0] s2 := by
  have hm : AllMultinomial staleTable := by unfold AllMultinomial; decide
  obtain ⟨s1, r1, a1, t1, x1, y1, z1, w1⟩ := stale_run 0
  obtain ⟨s2, r2, a2, t2, x2, y2, z2, w2⟩ := stale_run 1
  refine ⟨s1, s2, r1, r2, by rw [a1, a2], by rw [t1, t2], ?_, ?_⟩
  · intro n hn v hv
    rw [a1] at hn
    rcases Finset.mem_insert.1 hn with rfl | h
    · rw [x1 v hv, x2 v hv]
    · rw [Finset.mem_singleton] at h; subst h; rw [y1 v hv, y2 v hv]
  · have g1 := r1.good staleTable_ordered hm
    have g2 := r2.good staleTable_ordered hm
    rw [computeEdgeLogits_eq num [0] g1.rows, computeEdgeLogits_eq num [0] g2.rows]
    have hgrid : completeGrid staleTable.numCols = [(0, 0, 1)] := by decide
    rw [hgrid]
    simp only [List.map_cons, List.map_nil, List.zipWith_cons_cons, List.zipWith_nil_left, add_zero, ne_eq,
      Except.ok.injEq, List.cons.injEq, and_true]
    unfold edgeLogit
    have hv : ∀ v < 2, s1.vertSS v = s2.vertSS v := by
      intro v hv; funext m
      rw [g1.stats.vert v hv, g2.stats.vert v hv]
      unfold vertCount
      rw [a1, a2]
      congr 2
      refine Finset.filter_congr fun n hn => ?_
      rcases Finset.mem_insert.1 hn with rfl | h
      · rw [x1 v hv, x2 v hv]
      · rw [Finset.mem_singleton] at h; subst h; rw [y1 v hv, y2 v hv]
    rw [hv 0 (by decide), hv 1 (by decide)]
    have hr1 : logitRows staleTable s1 = [0, 1, 2] := by
      unfold logitRows; rw [a1]; decide
    have hr2 : logitRows staleTable s2 = [0, 1, 2] := by
      unfold logitRows; rw [a2]; decide
    rw [hr1, hr2]
    have e : ∀ n : Nat, num.gammaln ((n : ℝ) + edgePrior 2) = log (Gamma ((n : ℝ) + 1 / 4)) := by
      intro n
      have : (edgePrior 2 : ℝ) = 1 / 4 := by unfold edgePrior; norm_num
      rw [this]
      exact hn _ (by positivity)
    simp only [Fin.sum_univ_two, List.countP_cons, List.countP_nil, x1 0 (by decide), x1 1 (by decide),
      y1 0 (by decide), y1 1 (by decide), z1, w1, x2 0 (by decide), x2 1 (by decide), y2 0 (by decide),
      y2 1 (by decide), z2, w2, e]
    intro hcontra
    have q1 : Gamma ((3 : ℝ) + 1 / 4) = (9 / 4) * Gamma (9 / 4) := by
      rw [show (3 : ℝ) + 1 / 4 = 9 / 4 + 1 by norm_num, Gamma_add_one (by norm_num)]
    have q2 : Gamma ((1 : ℝ) + 1 / 4) = (1 / 4) * Gamma (1 / 4) := by
      rw [show (1 : ℝ) + 1 / 4 = 1 / 4 + 1 by norm_num, Gamma_add_one (by norm_num)]
    have p1 : (0 : ℝ) < Gamma (9 / 4) := Gamma_pos_of_pos (by norm_num)
    have p2 : (0 : ℝ) < Gamma (1 / 4) := Gamma_pos_of_pos (by norm_num)
    norm_num at hcontra q1 q2
    rw [q1, q2, log_mul (by norm_num) p1.ne', log_mul (by norm_num) p2.ne'] at hcontra
    have h9 : log (9 / 4) = log (1 / 4) := by linarith
    have := log_lt_log (by norm_num : (0 : ℝ) < 1 / 4) (by norm_num : (1 / 4 : ℝ) < 9 / 4)
    linarith

/-- The hypotheses of `edgeLogits_partial` and `logprob_diff` are met after training rows 0 and 1 of `exTable` (three
columns, two rows). -/
example : ∃ s : Trainer ℝ 2, Reached exTable s ∧ s.added = Finset.range exTable.numRows ∧ s.added.card ≠ exTable.numCols := by
  obtain ⟨s0, h0, g0, a0⟩ := good_init (K := ℝ) (M := 2) (t := exTable) (n := 3) (by decide) (by decide)
    (by decide) (by decide)
  have hm : AllMultinomial exTable := by unfold AllMultinomial; decide
  obtain ⟨s1, o1, g1, a1, -⟩ := addRow_any exTable_ordered hm g0 (row := 0) (by simp [a0]) (by decide) (fun _ => 0)
  obtain ⟨s2, o2, g2, a2, -⟩ := addRow_any exTable_ordered hm g1 (row := 1) (by simp [a1, a0]) (by decide) (fun _ => 1)
  refine ⟨s2, ⟨3, s0, [.addRow 0, .addRow 1], h0, by simp, ?_⟩, ?_, ?_⟩
  · exact (outcomes_bind _ _ _ _).2 ⟨_, _, o1, (outcomes_bind _ _ _ _).2 ⟨_, _, o2, rfl⟩⟩
  · rw [a2, a1, a0]; decide
  · rw [a2, a1, a0]; decide

end TreeCat
