import Verif.Lemmas.Likelihood
import Verif.Props.Trainer

/-!
# C19: resampling a row is an exact Gibbs step for `logprob`
-/

set_option linter.unusedSectionVars false

namespace TreeCat

open Spec Real

section
variable {K : Type} [Field K] [LinearOrder K] [IsStrictOrderedRing K] {M : Nat} [NeZero M]

/-- After successful calls whose trees are trees, the trainer is in a good state. -/
theorem runCalls_good {t : Table} (ht : Table.Ordered t) (hm : AllMultinomial t) (calls : List Call)
    (htree : ∀ es, Call.setEdges es ∈ calls → IsTree t.numCols es) :
    ∀ (s : Trainer K M), Good t s → Part (calls.forM (runCall t)) s fun _ s' => Good t s' := by
  induction calls with
  | nil => intro s h; exact Tot.part (Tot.pure (a := PUnit.unit) h)
  | cons c cs ih =>
    intro s h
    refine Part.bind ?_
    have ih := ih (fun es hes => htree es (by simp [hes]))
    cases c with
    | addRow r =>
      intro _ s' hs'
      obtain ⟨h1, h2, -⟩ := Part.addRow ht h.toInv _ _ hs'
      exact ih _ ((Tot.addRow ht hm h h1 h2).part _ _ hs').1
    | removeRow r =>
      intro _ s' hs'
      obtain ⟨h1, -⟩ := Part.removeRow ht h.toInv _ _ hs'
      exact ih _ ((Tot.removeRow ht hm h h1).part _ _ hs').1
    | setEdges es =>
      intro _ s' hs'
      exact ih _ ((Tot.setEdges h (htree es (by simp))).part _ _ hs').1

theorem updateStats_run (t : Table) (hm : ∀ v, t.featureTypes.getD v 0 = tyMultinomial) (row : Nat) (sign : Int)
    (z : Nat → Fin M) (s : Trainer K M) (k : Except PyErr Unit × Trainer K M → K) :
    (updateStats t row sign z : TrainM K M (Expect K) Unit).run.run s k = k (.ok (), statsUpdate t row sign z s) := by
  let F : Nat → TrainM K M (Expect K) PUnit := fun v =>
    if t.featureTypes.getD v 0 = tyMultinomial then modify (featStats t row sign v (z v)) else throw .notImplemented
  have hF : ∀ v, F v = modify (featStats t row sign v (z v)) := fun v => if_pos (hm v)
  have key : ∀ (l : List Nat) (s : Trainer K M), (l.forM F).run.run s k
      = k (.ok (), l.foldl (fun s v => featStats t row sign v (z v) s) s) := by
    intro l
    induction l with
    | nil => intro s; rfl
    | cons v l ih =>
      intro s
      change (F v >>= fun _ => l.forM F).run.run s k = _
      rw [hF v]
      exact ih _
  exact key _ _

/-- Law of `add_row` in terms of the law of the draws. -/
theorem addRow_run (t : Table) (hm : ∀ v, t.featureTypes.getD v 0 = tyMultinomial) {row : Nat} {s : Trainer K M}
    (hr : row ∉ s.added) (hN : row < t.numRows) (k : Except PyErr Unit × Trainer K M → K) (w : (Nat → Fin M) → K)
    (z0 : Nat → Fin M)
    (hw : ∀ k : Except PyErr (Nat → Fin M) → K, (sampleRow t row s : ExceptT PyErr (Expect K) _).run k =
      (∑ z : Fin t.numCols → Fin M, w (overlay z0 z) * k (.ok (overlay z0 z))) /
        ∑ z : Fin t.numCols → Fin M, w (overlay z0 z)) :
    (addRow t row : TrainM K M (Expect K) Unit).run.run s k =
      (∑ z : Fin t.numCols → Fin M, w (overlay z0 z) * k (.ok (), added t row (overlay z0 z) s)) /
        ∑ z : Fin t.numCols → Fin M, w (overlay z0 z) := by
  have hrun : (addRow t row : TrainM K M (Expect K) Unit).run.run s k =
      (sampleRow t row s : ExceptT PyErr (Expect K) _).run fun r => match r with
        | .ok z => (updateStats t row 1 z : TrainM K M (Expect K) Unit).run.run
            { s with added := insert row s.added, assign := Function.update s.assign row z } k
        | .error e => k (.error e, { s with added := insert row s.added }) := by
    have e1 : (addRow t row : TrainM K M (Expect K) Unit).run.run s k =
      ((if row ∈ s.added then throw .assertion
        else do
          set { s with added := insert row s.added }
          liftPy (if row < t.numRows then .ok () else .error .indexError)
          let z ← liftRand (sampleRow t row s)
          modify fun s => { s with assign := Function.update s.assign row z }
          updateStats t row 1 z : TrainM K M (Expect K) Unit)).run.run s k := rfl
    rw [e1, if_neg hr, if_pos hN]
    refine congrArg (show (Except PyErr (Nat → Fin M) → K) → K from
      (sampleRow t row s : ExceptT PyErr (Expect K) (Nat → Fin M)).run) (funext fun r => ?_)
    cases r <;> rfl
  rw [hrun, hw]
  simp only [updateStats_run t hm]
  rfl

end

variable {M : Nat} [NeZero M]

/-- The weight of the draws is the ratio of the likelihoods. -/
theorem likelihood_added {t : Table} (hc : Table.Counts t) {s : Trainer ℝ M}
    {r : Nat} {d par : Nat → Nat} {ch : Nat → List Nat} {eid : Nat → Nat} {L : List Nat} (h : Good t s)
    (R : Rooted t.numCols (gridEdges s.tree.treeGrid) r d par) (T : Topo t.numCols r par ch L)
    (he : ∀ v < t.numCols, v ≠ r → ((eid v, v, par v) ∈ s.tree.treeGrid ∨ (eid v, par v, v) ∈ s.tree.treeGrid))
    (hlt : ∀ c ∈ s.tree.treeGrid, c.2.1 < c.2.2) {row : Nat} (hr : row ∉ s.added) (z : Nat → Fin M) :
    likelihood t (insert row s.added) (Function.update s.assign row z) s.tree.getEdges
      = likelihood t s.added s.assign s.tree.getEdges *
        treeWeight r par L (fun v m => ((s.vertSS v m : ℝ) + vertPrior) * cellFactor t row
          (fun c a => (s.featSS c a : ℝ) + featPrior M) (fun v a => (s.measSS v a : ℝ) + measPrior M t v) v m)
          (rowPsi r par eid (fun v m => (s.vertSS v m : ℝ) + vertPrior) s.edgeProbs) z := by
  have hP := grid_perm R T he hlt
  have hrange : ∀ c ∈ s.tree.treeGrid, c.2.1 < t.numCols ∧ c.2.2 < t.numCols := fun c hcm =>
    h.isTree.range (c.2.1, c.2.2) (List.mem_map.2 ⟨c, hcm, rfl⟩)
  have hvert : ∀ v < t.numCols, ∀ m, (vertCount s.added s.assign v m : ℝ) + 1 / 2 = (s.vertSS v m : ℝ) + vertPrior := by
    intro v hv m
    rw [h.stats.vert v hv, Int.cast_natCast]; rfl
  -- the vertices
  have e1 : ∏ v ∈ Finset.range t.numCols, vertGamma (insert row s.added) (Function.update s.assign row z) v
      = (∏ v ∈ Finset.range t.numCols, vertGamma s.added s.assign v) *
        ∏ v ∈ Finset.range t.numCols, ((s.vertSS v (z v) : ℝ) + vertPrior) := by
    rw [← Finset.prod_mul_distrib]
    refine Finset.prod_congr rfl fun v hv => ?_
    rw [vertGamma_insert hr, hvert v (Finset.mem_range.1 hv)]
  -- the features
  have e3 : ∏ v ∈ Finset.range t.numCols, featGamma t (insert row s.added) (Function.update s.assign row z) v
      = (∏ v ∈ Finset.range t.numCols, featGamma t s.added s.assign v) *
        ∏ v ∈ Finset.range t.numCols, cellFactor t row (fun c a => (s.featSS c a : ℝ) + featPrior M)
          (fun v a => (s.measSS v a : ℝ) + measPrior M t v) v (z v) := by
    rw [← Finset.prod_mul_distrib]
    refine Finset.prod_congr rfl fun v hv => ?_
    rw [Finset.mem_range] at hv
    rw [featGamma_insert hc hr hv]
    congr 1
    unfold cellFactor
    simp only [h.stats.meas v hv]
    congr 1
    refine Finset.prod_congr rfl fun c hcc => ?_
    rw [Finset.mem_range] at hcc
    simp only [h.stats.feat v hv (t.beg v + c) (by omega) (by omega)]
    rfl
  -- the edges
  have e2 : (s.tree.getEdges.map fun e => edgeGamma (insert row s.added) (Function.update s.assign row z) e /
        (vertGamma (insert row s.added) (Function.update s.assign row z) e.1 *
          vertGamma (insert row s.added) (Function.update s.assign row z) e.2)).prod
      = (s.tree.getEdges.map fun e => edgeGamma s.added s.assign e /
          (vertGamma s.added s.assign e.1 * vertGamma s.added s.assign e.2)).prod *
        ((L.filter (· ≠ r)).map fun v => rowPsi r par eid (fun v m => (s.vertSS v m : ℝ) + vertPrior) s.edgeProbs v
          (z (par v)) (z v)).prod := by
    have e4 : (s.tree.getEdges.map fun e => edgeGamma (insert row s.added) (Function.update s.assign row z) e /
        (vertGamma (insert row s.added) (Function.update s.assign row z) e.1 *
          vertGamma (insert row s.added) (Function.update s.assign row z) e.2)).prod
        = (s.tree.treeGrid.map fun c => (edgeGamma s.added s.assign (c.2.1, c.2.2) /
            (vertGamma s.added s.assign c.2.1 * vertGamma s.added s.assign c.2.2)) *
            (s.edgeProbs c.1 (z c.2.1) (z c.2.2) /
              (((s.vertSS c.2.1 (z c.2.1) : ℝ) + vertPrior) * ((s.vertSS c.2.2 (z c.2.2) : ℝ) + vertPrior)))).prod := by
      unfold TreeStructure.getEdges
      rw [List.map_map]
      congr 1
      refine List.map_congr_left ?_
      rintro ⟨e, v1, v2⟩ hm
      obtain ⟨g1, g2⟩ := hrange _ hm
      simp only [Function.comp] at g1 g2 ⊢
      rw [edgeGamma_insert hr, vertGamma_insert hr, vertGamma_insert hr, hvert v1 g1, hvert v2 g2,
        h.stats.probs e v1 v2 hm, ← mul_div_mul_comm]
      congr 1; ring
    rw [e4, prod_map_mul']
    congr 1
    · unfold TreeStructure.getEdges
      rw [List.map_map]; rfl
    · rw [← (hP.map _).prod_eq, List.map_map]
      congr 1
      refine List.map_congr_left fun v hv => ?_
      have hvr : v ≠ r := by simpa using (List.mem_filter.1 hv).2
      have hvV := T.mem.1 (List.mem_filter.1 hv).1
      have hd := R.d_par v hvV hvr
      have hne : par v ≠ v := by intro h0; rw [h0] at hd; omega
      simp only [Function.comp, rowPsi, if_neg hvr, transAt, upEntry]
      by_cases hp : par v < v
      · simp only [if_pos hp, if_neg (show ¬ v < par v by omega)]
      · simp only [if_neg hp, if_pos (show v < par v by omega)]
        rw [mul_comm ((s.vertSS v (z v) : ℝ) + vertPrior)]
  unfold likelihood treeWeight
  rw [e1, e2, e3, ← prod_map_range (fun v => ((s.vertSS v (z v) : ℝ) + vertPrior)),
    ← prod_map_range (fun v => cellFactor t row _ _ v (z v)), prod_map_mul', (T.perm.map _).prod_eq, (T.perm.map _).prod_eq]
  ring

theorem init_checks {K : Type} [Field K] [LinearOrder K] [IsStrictOrderedRing K] {t : Table} {n : Nat} {s0 : Trainer K M} (h : Trainer.init t n = .ok s0) :
    1 ≤ t.numCols ∧ t.numCols ≤ 32768 ∧ M ≤ 128 ∧ n = t.numCols * (t.numCols - 1) / 2 := by
  by_cases h1 : t.numCols ≤ 32768
  swap
  · simp [Trainer.init, pyAssert, h1, bind, Except.bind] at h
  by_cases h2 : n = t.numCols * (t.numCols - 1) / 2
  swap
  · simp [Trainer.init, pyAssert, h1, h2, bind, Except.bind] at h
  by_cases h3 : M ≤ 128
  swap
  · exfalso
    unfold Trainer.init at h
    simp only [bind, Except.bind, pyAssert, h3] at h
    repeat' split at h
    all_goals first | (cases h; done) | (rename_i heq; simp at heq)
  refine ⟨?_, h1, h3, h2⟩
  obtain ⟨-, -, -, h4, -⟩ := inv_init h
  by_contra hV
  have hV : t.numCols = 0 := by omega
  rw [hV] at h4
  cases h4

/-- The grid of a trainer has the smaller vertex first. -/
theorem grid_lt {t : Table} {s : Trainer ℝ M} (h : Good t s) : ∀ c ∈ s.tree.treeGrid, c.2.1 < c.2.2 := by
  intro c hc
  obtain ⟨edges, he⟩ := h.sorted
  have hm : (c.2.1, c.2.2) ∈ gridEdges s.tree.treeGrid := List.mem_map.2 ⟨c, hc, rfl⟩
  have hne := IsTree.ne h.isTree _ hm
  rw [he, gridEdges_makeTree, sortEdges] at hm
  have := (List.perm_insertionSort _ _).mem_iff.1 hm
  obtain ⟨p, -, hp⟩ := List.mem_map.1 this
  unfold sortPair at hp
  simp only at hne
  split at hp <;> · have h1 := congrArg Prod.fst hp; have h2 := congrArg Prod.snd hp; simp only at h1 h2; omega

/-- The law of `add_row` in a good state. -/
theorem addRow_law_added {t : Table} (ht : Table.Ordered t) (hm : ∀ ty ∈ t.featureTypes, ty = tyMultinomial)
    (hc : Table.Counts t) {s : Trainer ℝ M} (h : Good t s) {row : Nat} (hr : row ∉ s.added) (hN : row < t.numRows)
    (k : Except PyErr Unit × Trainer ℝ M → ℝ) :
    (addRow t row : TrainM ℝ M (Expect ℝ) Unit).run.run s k =
      (∑ z : Fin t.numCols → Fin M, likelihood t (insert row s.added) (Function.update s.assign row (overlay (s.assign row) z)) s.tree.getEdges *
        k (.ok (), added t row (overlay (s.assign row) z) s)) /
        ∑ z : Fin t.numCols → Fin M, likelihood t (insert row s.added) (Function.update s.assign row (overlay (s.assign row) z)) s.tree.getEdges := by
  have hm' : ∀ v, t.featureTypes.getD v 0 = tyMultinomial := AllMultinomial.getD hm
  obtain ⟨edges, hsort⟩ := h.sorted
  have hprog := h.program
  obtain ⟨root, hroot, d, par, ch, eid, L, R, T, he, hp⟩ : ∃ root, root < t.numCols ∧ ∃ d par ch eid L,
      Rooted t.numCols (gridEdges s.tree.treeGrid) root d par ∧ Topo t.numCols root par ch L ∧
      (∀ v < t.numCols, v ≠ root → ((eid v, v, par v) ∈ s.tree.treeGrid ∨ (eid v, par v, v) ∈ s.tree.treeGrid)) ∧
      s.program = progOf root par ch eid L := by
    obtain ⟨c, h1, h2⟩ := findCenter_spec h.isTree
    obtain ⟨d, par, ch, eid, L, R, T, he, -, hp⟩ := makeProgram_some h.isTree h2.1
    refine ⟨c, h2.1, d, par, ch, eid, L, R, T, he, ?_⟩
    simp only [makeProgram, h1, bind, Except.bind] at hprog hp
    rw [hprog] at hp
    exact Except.ok.inj hp
  have hlt : ∀ c ∈ s.tree.treeGrid, c.2.1 < c.2.2 := grid_lt h
  have hlaw := fun k => sampleRow_law (row := row) (s := s) ht hm' T hp
    (fun v hv m => by rw [h.stats.vert v hv]; exact Int.natCast_nonneg _)
    (fun v hv hvr m m' => by
      rcases he v hv hvr with h1 | h1
      · rw [h.stats.probs _ _ _ h1]; exact edge_arg_pos _ _ _ _ _ _
      · rw [h.stats.probs _ _ _ h1]; exact edge_arg_pos _ _ _ _ _ _)
    (fun v hv c h1 h2 m => by rw [h.stats.feat v hv c h1 h2]; exact featTotal_nonneg hc _ _ _ _ _)
    (fun v hv m => by rw [h.stats.meas v hv]; exact measTotal_nonneg hc _ _ _ _) hc.width k _ rfl _ rfl
  rw [addRow_run t hm' hr hN k _ (s.assign row) hlaw]
  simp only [fun z => likelihood_added hc h R T he hlt hr z, mul_assoc]
  rw [← Finset.mul_sum, ← Finset.mul_sum, mul_div_mul_left _ _ (likelihood_pos hc s.added s.assign _).ne']

/-- The law of `add_row` in a good state, with what is true afterwards. -/
theorem addRow_law_good {t : Table} (ht : Table.Ordered t) (hm : ∀ ty ∈ t.featureTypes, ty = tyMultinomial)
    (hc : Table.Counts t) {s : Trainer ℝ M} (h : Good t s) {row : Nat} (hr : row ∉ s.added) (hN : row < t.numRows) :
    ∃ after : (Fin t.numCols → Fin M) → Trainer ℝ M,
      (∀ z, (after z).added = insert row s.added ∧ (after z).tree = s.tree ∧ (after z).program = s.program ∧
        (after z).assign = Function.update s.assign row (overlay (s.assign row) z) ∧ Matches t (after z)) ∧
      ∀ k, (addRow t row : TrainM ℝ M (Expect ℝ) Unit).run.run s k =
        (∑ z, likelihood t (insert row s.added) (after z).assign s.tree.getEdges * k (.ok (), after z)) /
          ∑ z, likelihood t (insert row s.added) (after z).assign s.tree.getEdges := by
  have ha : ∀ z, (added t row z s).assign = Function.update s.assign row z := by
    intro z; rw [added, statsUpdate_assign]
  refine ⟨fun z => added t row (overlay (s.assign row) z) s, fun z => ⟨?_, ?_, ?_, ha _, ?_⟩, fun k => ?_⟩
  · simp only [added, statsUpdate_added]
  · simp only [added, statsUpdate_tree]
  · simp only [added, statsUpdate_program]
  · exact matches_added ht h.grid h.stats hr
  · simp only [ha]
    exact addRow_law_added ht hm hc h hr hN k

/-- **C19.** In any state reached by successful calls, with any spanning trees, `add_row` of an absent
row assigns the latent vector `z` with probability proportional to the likelihood of the resulting
assignments, jointly over all features; it never raises, and the statistics then are those of the
new assignments. This is for any subsample. -/
theorem addRow_law {t : Table} (ht : Table.Ordered t) (hm : ∀ ty ∈ t.featureTypes, ty = tyMultinomial)
    (hc : Table.Counts t) {n : Nat} {s0 s : Trainer ℝ M} (h0 : Trainer.init t n = .ok s0) (calls : List Call)
    (htree : ∀ es, Call.setEdges es ∈ calls → IsTree t.numCols es)
    (hs : outcomes (calls.forM (runCall t)) s0 (.ok PUnit.unit, s)) {row : Nat} (hr : row ∉ s.added)
    (hN : row < t.numRows) :
    ∃ after : (Fin t.numCols → Fin M) → Trainer ℝ M,
      (∀ z, (after z).added = insert row s.added ∧ (after z).tree = s.tree ∧ (after z).program = s.program ∧
        (after z).assign = Function.update s.assign row (overlay (s.assign row) z) ∧ Matches t (after z)) ∧
      ∀ k, (addRow t row : TrainM ℝ M (Expect ℝ) Unit).run.run s k =
        (∑ z, likelihood t (insert row s.added) (after z).assign s.tree.getEdges * k (.ok (), after z)) /
          ∑ z, likelihood t (insert row s.added) (after z).assign s.tree.getEdges := by
  have hV : 1 ≤ t.numCols ∧ t.numCols ≤ 32768 ∧ M ≤ 128 ∧ n = t.numCols * (t.numCols - 1) / 2 := init_checks h0
  obtain ⟨s0', h0', hg0, -⟩ := good_init (K := ℝ) (M := M) hV.1 hV.2.1 hV.2.2.1 hV.2.2.2
  rw [h0] at h0'
  cases h0'
  exact addRow_law_good ht hm hc (runCalls_good ht hm calls htree s0 hg0 _ _ hs) hr hN

/-- **C19.** `logprob` is the logarithm of the likelihood. -/
theorem logprob_likelihood {num : Num ℝ} (hn : ∀ x, 0 < x → num.gammaln x = log (Gamma x)) {t : Table} (ht : Table.Ordered t)
    (hm : ∀ ty ∈ t.featureTypes, ty = tyMultinomial) (hc : Table.Counts t) {n : Nat} {s0 s : Trainer ℝ M}
    (h0 : Trainer.init t n = .ok s0) (calls : List Call) (htree : ∀ es, Call.setEdges es ∈ calls → IsTree t.numCols es)
    (hs : outcomes (calls.forM (runCall t)) s0 (.ok PUnit.unit, s)) (hall : s.added = Finset.range t.numRows) :
    trainerLogprob num t s = .ok (log (likelihood t s.added s.assign s.tree.getEdges)) := by
  have hV := init_checks h0
  obtain ⟨s0', h0', hg0, -⟩ := good_init (K := ℝ) (M := M) hV.1 hV.2.1 hV.2.2.1 hV.2.2.2
  rw [h0] at h0'
  cases h0'
  have h := runCalls_good ht hm calls htree s0 hg0 _ _ hs
  exact trainerLogprob_eq hn hc h.stats (fun e v1 v2 he => h.isTree.range (v1, v2) (List.mem_map.2 ⟨_, he, rfl⟩))
    (by rw [hall, Finset.card_range])

/-- **C19.** With every other row added, `add_row(r)` assigns `z` with probability proportional to
`exp(logprob())` of the resulting state. -/
theorem addRow_gibbs {num : Num ℝ} (hn : ∀ x, 0 < x → num.gammaln x = log (Gamma x)) {t : Table} (ht : Table.Ordered t)
    (hm : ∀ ty ∈ t.featureTypes, ty = tyMultinomial)
    (hc : Table.Counts t) {n : Nat} {s0 s : Trainer ℝ M} (h0 : Trainer.init t n = .ok s0) (calls : List Call)
    (htree : ∀ es, Call.setEdges es ∈ calls → IsTree t.numCols es)
    (hs : outcomes (calls.forM (runCall t)) s0 (.ok PUnit.unit, s)) {row : Nat} (hN : row < t.numRows)
    (hall : s.added = (Finset.range t.numRows).erase row) :
    ∃ (after : (Fin t.numCols → Fin M) → Trainer ℝ M) (lp : (Fin t.numCols → Fin M) → ℝ),
      (∀ z, (after z).tree = s.tree ∧ (after z).assign = Function.update s.assign row (overlay (s.assign row) z) ∧
        trainerLogprob num t (after z) = .ok (lp z)) ∧
      ∀ k, (addRow t row : TrainM ℝ M (Expect ℝ) Unit).run.run s k =
        (∑ z, exp (lp z) * k (.ok (), after z)) / ∑ z, exp (lp z) := by
  have hr : row ∉ s.added := by rw [hall]; exact Finset.notMem_erase _ _
  have hins : insert row s.added = Finset.range t.numRows := by
    rw [hall]; exact Finset.insert_erase (Finset.mem_range.2 hN)
  obtain ⟨after, h1, h2⟩ := addRow_law ht hm hc h0 calls htree hs hr hN
  have hrange : ∀ e v1 v2, (e, v1, v2) ∈ s.tree.treeGrid → v1 < t.numCols ∧ v2 < t.numCols := by
    have hV := init_checks h0
    obtain ⟨s0', h0', hg0, -⟩ := good_init (K := ℝ) (M := M) hV.1 hV.2.1 hV.2.2.1 hV.2.2.2
    rw [h0] at h0'
    cases h0'
    have h := runCalls_good ht hm calls htree s0 hg0 _ _ hs
    exact fun e v1 v2 he => h.isTree.range (v1, v2) (List.mem_map.2 ⟨_, he, rfl⟩)
  refine ⟨after, fun z => log (likelihood t (after z).added (after z).assign (after z).tree.getEdges),
    fun z => ⟨(h1 z).2.1, (h1 z).2.2.2.1, ?_⟩, fun k => ?_⟩
  · refine trainerLogprob_eq hn hc (h1 z).2.2.2.2 ?_ ?_
    · rw [(h1 z).2.1]; exact hrange
    · rw [(h1 z).1, hins, Finset.card_range]
  · rw [h2 k]
    have : ∀ z, exp (log (likelihood t (after z).added (after z).assign (after z).tree.getEdges))
        = likelihood t (insert row s.added) (after z).assign s.tree.getEdges := by
      intro z
      rw [exp_log (likelihood_pos hc _ _ _), (h1 z).1, (h1 z).2.1]
    simp only [this]

/-! ### A concrete case -/

theorem exTable_counts : Table.Counts exTable := by
  refine ⟨fun n r => ?_, by decide⟩
  have hall : ∀ l ∈ exTable.data, ∀ x ∈ l, (0 : Int) ≤ x := by decide
  unfold Table.cell
  by_cases hn : n < exTable.data.length
  · rw [List.getD_eq_getElem _ _ hn]
    by_cases hr : r < exTable.data[n].length
    · rw [List.getD_eq_getElem _ _ hr]
      exact hall _ (List.getElem_mem hn) _ (List.getElem_mem hr)
    · rw [List.getD_eq_default _ _ (by omega)]
  · rw [List.getD_eq_default exTable.data _ (by omega)]; simp

/-- `exTable` with its two rows: after adding row 0 the hypotheses of `addRow_gibbs` hold for row 1. -/
example : ∃ s0 s : Trainer ℝ 2, Trainer.init exTable 3 = .ok s0 ∧
    outcomes ([Call.addRow 0].forM (runCall exTable)) s0 (.ok PUnit.unit, s) ∧
    s.added = (Finset.range exTable.numRows).erase 1 := by
  obtain ⟨s0, h0, hg, ha⟩ := good_init (K := ℝ) (M := 2) (t := exTable) (n := 3) (by decide) (by decide)
    (by decide) (by decide)
  have hm : AllMultinomial exTable := by unfold AllMultinomial; decide
  have key : Tot ([Call.addRow 0].forM (runCall exTable)) s0 fun _ s => s.added = {0} := by
    refine Tot.bind ((Tot.addRow exTable_ordered hm hg (by simp [ha]) (by decide)).mono ?_)
    rintro _ s1 ⟨-, a1, -⟩
    exact Tot.pure (a := PUnit.unit) (by rw [a1, ha]; rfl)
  obtain ⟨⟨r, s⟩, hr⟩ := key.1
  obtain ⟨_, rfl, h1⟩ := key.2 _ _ hr
  exact ⟨s0, s, h0, hr, by rw [h1]; decide⟩

end TreeCat
