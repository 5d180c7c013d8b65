import Verif.Model.Generate
import Verif.Props.TrainedModel
import Verif.Props.EnsembleSample
import Verif.Props.Convergence
import Verif.Lemmas.Lists
import Verif.Lemmas.Config

/-!
# C53: generated trees are spanning trees; C54: fake models and ensembles are consistent
-/

set_option linter.unusedSectionVars false

namespace TreeCat

open Spec Util

section
variable {K : Type} [Field K] [LinearOrder K] [IsStrictOrderedRing K] {M : Nat} [NeZero M]

/-! ### `generate_tree` -/

theorem treeStructure_init_eq {V : Nat} (hV : 1 ≤ V) :
    TreeStructure.init V = .ok ⟨V, makeTree ((List.range (V - 1)).map fun v => (v, v + 1))⟩ := by
  unfold TreeStructure.init TreeStructure.setEdges pyAssert
  rw [if_pos (by simp; omega)]; rfl

theorem Sure.permutation (n : Nat) :
    Sure (ExceptT.lift (Shuffle.permutation n) : ExceptT PyErr Poss _) fun p => p.Perm (List.range n) := by
  refine ⟨⟨.ok _, List.range n, .refl _, rfl⟩, ?_⟩
  rintro _ ⟨p, hp, rfl⟩
  exact ⟨p, rfl, hp⟩

/-- The edges from which `generate_tree` starts. -/
theorem path_start {V : Nat} (hV : 1 ≤ V) :
    IsTree V (gridEdges (makeTree ((List.range (V - 1)).map fun v => (v, v + 1)))) ∧
      Canonical (gridEdges (makeTree ((List.range (V - 1)).map fun v => (v, v + 1)))) :=
  ⟨makeTree_isTree (path_isTree _ hV), by rw [gridEdges_makeTree]; exact canonical_sortEdges (path_isTree _ hV)⟩

/-- **C53.** Whatever is drawn, `generate_tree(V)` returns a structure that holds a spanning tree of `V` vertices, as a sorted list
of `(small, large)` pairs with numbered edges. -/
theorem generateTree_isTree (expf : K → K) (junk : Nat → Nat) (V : Nat) (hV : 1 ≤ V) (logits : List K)
    (hl : logits.length = V * (V - 1) / 2) :
    Sure (generateTree expf junk V logits) fun t => t.numVertices = V ∧ IsTree V t.getEdges ∧ Canonical t.getEdges ∧
      ∃ edges, t.treeGrid = makeTree edges := by
  unfold generateTree
  refine Sure.bind (Sure.liftPy (treeStructure_init_eq hV) ?_)
  refine Sure.bind (Sure.liftPy (makeCompleteGraph_eq _) ?_)
  refine Sure.bind ?_
  refine (Sure.foldlM _ (fun T => IsTree V T ∧ Canonical T) ?_ _ _ (path_start hV)).mono ?_
  · rintro T - ⟨h1, h2⟩
    refine Sure.bind ((Sure.permutation _).mono fun p hp => ?_)
    obtain ⟨grid, hg, h4, h5⟩ := sampleTree_isTree expf V T h1 junk logits hl p hp
    rw [makeCompleteGraph_eq] at hg
    obtain rfl := Except.ok.inj hg
    exact ⟨h4, fun o ho => by
      obtain ⟨T, e, hT1, hT2⟩ := h5 o ho
      exact ⟨T, e, hT1, hT2 (.inr h2)⟩⟩
  · rintro T ⟨h1, h2⟩
    refine Sure.liftPy (a := ⟨V, makeTree T⟩) ?_ ⟨rfl, ?_, ?_, T, rfl⟩
    · unfold TreeStructure.setEdges pyAssert
      have := h1.card
      rw [if_pos (by simp; omega)]; rfl
    · exact makeTree_isTree h1
    · change Canonical (gridEdges (makeTree T))
      rw [gridEdges_makeTree, sortEdges_canonical h2]
      exact h2

/-- Without vertices the constructor raises. -/
theorem generateTree_zero (expf : K → K) (junk : Nat → Nat) (logits : List K) :
    ∀ o, (generateTree expf junk 0 logits : ExceptT PyErr Poss _).run o → o = .error .assertion := by
  rintro o ⟨r, hr, ho⟩
  cases hr
  exact ho

/-! ### `generate_dataset` -/

theorem blockIndex_eq {C : Nat} (hC : 0 < C) (V : Nat) : blockIndex C V = .ok ((List.range (V + 1)).map fun i => i * C) :=
  if_neg (by omega)

theorem blockIndex_getD (C V v : Nat) (hv : v ≤ V) : ((List.range (V + 1)).map fun i => i * C).getD v 0 = v * C := by
  rw [List.getD_eq_getElem _ _ (by simp; omega), List.getElem_map, List.getElem_range]

theorem setBlock_rows (beg stop : Nat) (x : Nat → List Nat) (data : Nat → Nat → Int) (N n r : Nat) :
    (List.range N).foldl (fun data n => setBlock data n beg stop (x n)) data n r
      = if n < N ∧ beg ≤ r ∧ r < stop then wrap8 ((x n).getD (r - beg) 0) else data n r := by
  induction N with
  | zero => simp
  | succ N ih =>
    rw [List.range_succ, List.foldl_append, List.foldl_cons, List.foldl_nil]
    unfold setBlock
    by_cases hn : n = N
    · subst hn
      rw [Function.update_self]
      by_cases hb : beg ≤ r ∧ r < stop
      · rw [if_pos hb, if_pos ⟨by omega, hb⟩]
      · rw [if_neg hb, if_neg (fun h => hb h.2)]
        have := ih
        unfold setBlock at this
        rw [this, if_neg (by omega)]
    · rw [Function.update_of_ne hn]
      have := ih
      unfold setBlock at this
      rw [this]
      by_cases hb : n < N ∧ beg ≤ r ∧ r < stop
      · rw [if_pos hb, if_pos ⟨by omega, hb.2⟩]
      · rw [if_neg hb, if_neg (by omega)]

theorem setBlock_all (C V N : Nat) (ri : List Nat) (hri : ∀ v ≤ V, ri.getD v 0 = v * C) (draw : Nat → Nat → List Nat) (V' : Nat)
    (hV : V' ≤ V) (n r : Nat) :
    (List.range V').foldl (fun data v => (List.range N).foldl (fun data n =>
        setBlock data n (ri.getD v 0) (ri.getD (v + 1) 0) (draw v n)) data)
      (fun _ _ => 0) n r = if n < N ∧ r < V' * C then wrap8 ((draw (r / C) n).getD (r % C) 0) else 0 := by
  induction V' with
  | zero => simp
  | succ v ih =>
    rw [List.range_succ, List.foldl_append, List.foldl_cons, List.foldl_nil, setBlock_rows, ih (by omega),
      hri v (by omega), hri (v + 1) hV]
    by_cases hn : n < N
    · by_cases h1 : r < v * C
      · rw [if_neg (by omega), if_pos ⟨hn, h1⟩, if_pos ⟨hn, by rw [Nat.succ_mul]; omega⟩]
      · by_cases h2 : r < (v + 1) * C
        · have hd : r / C = v := by
            have hC : 0 < C := by
              rcases Nat.eq_zero_or_pos C with h | h
              · subst h; omega
              · exact h
            exact Nat.div_eq_of_lt_le (by omega) h2
          have hmod : r % C = r - v * C := by
            have := Nat.div_add_mod r C
            rw [hd, Nat.mul_comm] at this
            omega
          rw [if_pos ⟨hn, by omega, h2⟩, if_pos ⟨hn, h2⟩, hd, hmod]
        · rw [if_neg (by omega), if_neg (by omega), if_neg (by omega)]
    · rw [if_neg (by omega), if_neg (by omega), if_neg (by omega)]

theorem wrap8_wrap8 (i : Int) : wrap8 (wrap8 i) = wrap8 i := by unfold wrap8; omega

/-- **C54** (datasets). `generate_dataset` returns a table of `N` rows and `V` multinomial features with `C` columns each, whose cells
are the drawn counts; counts above 127 wrap as in any int8 array. -/
theorem generateDataset_spec (draw : Nat → Nat → List Nat) (N V C : Nat) (hC : 0 < C) :
    ∃ t, generateDataset draw N V C = .ok (t.raggedIndex, V * (V - 1) / 2, t) ∧ t.numRows = N ∧ t.numCols = V ∧
      (∀ ty ∈ t.featureTypes, ty = tyMultinomial) ∧ Table.Ordered t ∧ (∀ v ≤ V, t.raggedIndex.getD v 0 = v * C) ∧
      (∀ row ∈ t.data, row.length = V * C) ∧
      ∀ n < N, ∀ v < V, ∀ c < C, t.cell n (v * C + c) = wrap8 ((draw v n).getD c 0) ∧
        ((draw v n).getD c 0 ≤ 127 → t.cell n (v * C + c) = (draw v n).getD c 0) := by
  set ri := (List.range (V + 1)).map fun i => i * C with hri
  have hlast : ri.getLast? = some (V * C) := by
    rw [hri, List.range_succ, List.map_append]; simp
  refine ⟨⟨List.replicate V tyMultinomial, ri, ((List.range N).map fun n => (List.range (V * C)).map
      ((List.range V).foldl (fun data v => (List.range N).foldl (fun data n =>
        setBlock data n (ri.getD v 0) (ri.getD (v + 1) 0) (draw v n)) data) (fun _ _ => 0) n)).map fun row => row.map wrap8⟩,
    ?_, ?_, ?_, ?_, ⟨?_, ?_⟩, ?_, ?_, ?_⟩
  · simp only [generateDataset, blockIndex_eq hC, bind, Except.bind, ← hri, Table.make, hlast, pyAssert]
    rw [if_pos (by simp [hri]; omega)]
    simp
  · simp [Table.numRows]
  · simp [Table.numCols]
  · intro ty hty; exact List.eq_of_mem_replicate hty
  · simp [Table.numCols, hri]
  · simp only [hri]
    rw [List.pairwise_map]
    exact List.pairwise_lt_range.imp fun h => Nat.mul_le_mul_right C (Nat.le_of_lt h)
  · intro v hv; exact blockIndex_getD C V v hv
  · intro row hrow
    simp only [List.map_map, List.mem_map] at hrow
    obtain ⟨n, -, rfl⟩ := hrow
    simp
  · intro n hn v hv c hc
    have hlt : v * C + c < V * C := by
      calc v * C + c < (v + 1) * C := by rw [Nat.succ_mul]; omega
        _ ≤ V * C := Nat.mul_le_mul_right C hv
    have e : ∀ t : Table, t.data = (((List.range N).map fun n => (List.range (V * C)).map
      ((List.range V).foldl (fun data v => (List.range N).foldl (fun data n =>
        setBlock data n (ri.getD v 0) (ri.getD (v + 1) 0) (draw v n)) data) (fun _ _ => 0) n)).map fun row => row.map wrap8) →
        t.cell n (v * C + c) = wrap8 ((draw v n).getD c 0) := by
      intro t ht
      unfold Table.cell
      rw [ht, List.getD_eq_getElem (d := []) _ (n := n) (by simpa using hn), List.getElem_map, List.getElem_map, List.getElem_range,
        List.getD_eq_getElem _ _ (by simpa using hlt), List.getElem_map, List.getElem_map, List.getElem_range,
        setBlock_all C V N ri (fun v hv => blockIndex_getD C V v hv) draw V (Nat.le_refl _), if_pos ⟨hn, hlt⟩, wrap8_wrap8]
      rw [show (v * C + c) / C = v by
          rw [Nat.add_comm, Nat.add_mul_div_right _ _ hC, Nat.div_eq_of_lt hc, Nat.zero_add],
        show (v * C + c) % C = c by rw [Nat.add_comm, Nat.add_mul_mod_self_right, Nat.mod_eq_of_lt hc]]
    refine ⟨e _ rfl, fun h127 => ?_⟩
    rw [e _ rfl]
    unfold wrap8; omega

/-- Without categories `np.arange` raises. -/
theorem generateDataset_zero (draw : Nat → Nat → List Nat) (N V : Nat) : generateDataset draw N V 0 = .error .zeroDivision := rfl

/-! ### `generate_fake_model` -/

theorem count_range (N : Nat) (f : Nat → Nat) (x : Nat) :
    ((List.range N).map f).count x = ((Finset.range N).filter fun n => f n = x).card := by
  induction N with
  | zero => simp
  | succ N ih =>
    rw [List.range_succ, List.map_append, List.count_append, ih, Finset.range_add_one, Finset.filter_insert]
    by_cases h : f N = x
    · rw [if_pos h, Finset.card_insert_of_notMem (by simp)]; simp [h]
    · rw [if_neg h]; simp [h]

theorem fakeVert_eq (assign : Nat → Nat → Fin M) (N : Nat) : ∀ V, ∀ v < V, ∀ a,
    fakeVert assign N V v a = vertCount (Finset.range N) assign v a := by
  intro V
  induction V with
  | zero => intro v hv; omega
  | succ V ih =>
    intro v hv a
    unfold fakeVert at ih ⊢
    rw [List.range_succ, List.foldl_append, List.foldl_cons, List.foldl_nil]
    by_cases h : v = V
    · subst h
      rw [Function.update_self, count_range, vertCount]
      simp only [Fin.val_inj]
    · rw [Function.update_of_ne h]
      exact ih v (by omega) a

theorem foldl_update_ne {β : Type} (g : Nat × Nat × Nat → β) (e : Nat) : ∀ (grid : Grid) (f : Nat → β),
    (∀ c ∈ grid, c.1 ≠ e) → grid.foldl (fun ss c => Function.update ss c.1 (g c)) f e = f e := by
  intro grid
  induction grid with
  | nil => intro f _; rfl
  | cons c grid ih =>
    intro f h
    rw [List.foldl_cons, ih _ fun c hc => h c (by simp [hc]), Function.update_of_ne (Ne.symm (h c (by simp)))]

theorem foldl_update_mem {β : Type} (g : Nat × Nat × Nat → β) {c : Nat × Nat × Nat} : ∀ (grid : Grid) (f : Nat → β),
    (grid.map Prod.fst).Nodup → c ∈ grid → grid.foldl (fun ss c => Function.update ss c.1 (g c)) f c.1 = g c := by
  intro grid
  induction grid with
  | nil => intro f _ h; simp at h
  | cons d grid ih =>
    intro f hn h
    rw [List.map_cons, List.nodup_cons] at hn
    rw [List.foldl_cons]
    rcases List.mem_cons.1 h with rfl | h
    · rw [foldl_update_ne g c.1 grid _ fun x hx e => hn.1 (List.mem_map.2 ⟨x, hx, e⟩), Function.update_self]
    · exact ih _ hn.2 h

theorem pair_code {a b c d : Fin M} : a.val * M + b.val = c.val * M + d.val ↔ a = c ∧ b = d := by
  constructor
  · intro h
    have hM : 0 < M := Nat.lt_of_le_of_lt (Nat.zero_le _) a.2
    have e1 := congrArg (· % M) h
    have e2 := congrArg (· / M) h
    simp only [Nat.mul_add_mod_self_right, Nat.mod_eq_of_lt (Fin.is_lt _)] at e1
    simp only [Nat.add_comm _ (Fin.val _), Nat.add_mul_div_right _ _ hM, Nat.div_eq_of_lt (Fin.is_lt _)] at e2
    exact ⟨Fin.ext e2, Fin.ext e1⟩
  · rintro ⟨h1, h2⟩; rw [h1, h2]

theorem fakeEdge_eq (assign : Nat → Nat → Fin M) (N : Nat) {grid : Grid} (hn : (grid.map Prod.fst).Nodup)
    {c : Nat × Nat × Nat} (hc : c ∈ grid) (a b : Fin M) :
    fakeEdge assign N grid c.1 a b = edgeCount (Finset.range N) assign c.2.1 c.2.2 a b := by
  unfold fakeEdge
  rw [foldl_update_mem _ grid _ hn hc, count_range, edgeCount]
  simp only [pair_code]

theorem fakeFeat_rows (t : Table) (assign : Nat → Nat → Fin M) (v N : Nat) (ss : (Nat → Fin M → Int) × (Nat → Fin M → Int)) :
    ((List.range N).foldl (fakeFeatStep t assign v) ss).1 = (fun r a => ss.1 r a +
        ∑ n ∈ Finset.range N, if t.beg v ≤ r ∧ r < t.stop v ∧ a = assign n v then t.cell n r else 0) ∧
      ((List.range N).foldl (fakeFeatStep t assign v) ss).2 = fun w a => ss.2 w a +
        ∑ n ∈ Finset.range N, if w = v ∧ a = assign n v then t.blockSum n v else 0 := by
  induction N with
  | zero => simp
  | succ N ih =>
    rw [List.range_succ, List.foldl_append, List.foldl_cons, List.foldl_nil]
    unfold fakeFeatStep
    constructor
    · funext r a
      rw [Finset.sum_range_succ]
      have := ih.1
      unfold fakeFeatStep at this
      dsimp only
      rw [this]
      split <;> ring
    · funext w a
      rw [Finset.sum_range_succ]
      have := ih.2
      unfold fakeFeatStep at this
      dsimp only
      rw [this]
      unfold bump
      by_cases hw : w = v
      · subst hw
        rw [Function.update_self]
        by_cases ha : a = assign N w
        · subst ha
          rw [Function.update_self]; simp; ring
        · rw [Function.update_of_ne ha]; simp [ha]
      · rw [Function.update_of_ne hw]; simp [hw]

theorem fakeFeat_cols (t : Table) (assign : Nat → Nat → Fin M) (N V : Nat) :
    (fakeFeat t assign N V).1 = (fun r a => ∑ v ∈ Finset.range V,
        ∑ n ∈ Finset.range N, if t.beg v ≤ r ∧ r < t.stop v ∧ a = assign n v then t.cell n r else 0) ∧
      (fakeFeat t assign N V).2 = fun w a => ∑ v ∈ Finset.range V,
        ∑ n ∈ Finset.range N, if w = v ∧ a = assign n v then t.blockSum n v else 0 := by
  induction V with
  | zero => exact ⟨rfl, rfl⟩
  | succ V ih =>
    unfold fakeFeat at ih ⊢
    rw [List.range_succ, List.foldl_append, List.foldl_cons, List.foldl_nil]
    obtain ⟨h1, h2⟩ := fakeFeat_rows t assign V N ((List.range V).foldl (fun ss v => (List.range N).foldl (fakeFeatStep t assign v) ss)
      (fun _ _ => 0, fun _ _ => 0))
    rw [h1, h2, ih.1, ih.2]
    constructor
    · funext r a; rw [Finset.sum_range_succ]
    · funext r a; rw [Finset.sum_range_succ]

theorem table_beg_le {t : Table} (h : Table.Ordered t) {v w : Nat} (hvw : v ≤ w) (hw : w ≤ t.numCols) :
    t.raggedIndex.getD v 0 ≤ t.raggedIndex.getD w 0 := by
  have hl := h.length
  rw [List.getD_eq_getElem _ _ (by omega), List.getD_eq_getElem _ _ (by omega)]
  rcases Nat.lt_or_ge v w with h1 | h1
  · exact List.pairwise_iff_getElem.1 h.mono v w (by omega) (by omega) h1
  · have : v = w := by omega
    subst this; rfl

/-- **C54** (fake models). The statistics of a fake model are those of its assignments: the numbers of rows per class and pair of
classes, and the totals of the data. -/
structure FakeStats (t : Table) (N V : Nat) (f : FakeModel K M) : Prop where
  vert : ∀ v < V, ∀ a, f.model.vertSS v a = vertCount (Finset.range N) f.assign v a
  edge : ∀ e v w, (e, v, w) ∈ f.model.tree.treeGrid → ∀ a b,
    f.model.edgeSS e a b = edgeCount (Finset.range N) f.assign v w a b
  feat : ∀ v < V, ∀ r, t.beg v ≤ r → r < t.stop v → ∀ a, f.model.featSS r a = featTotal t (Finset.range N) f.assign v r a
  meas : ∀ v < V, ∀ a, f.measSS v a = measTotal t (Finset.range N) f.assign v a

/-- A trainer with the statistics of a fake model. -/
def fakeTrainer (t : Table) (assign : Nat → Nat → Fin M) (tree : TreeStructure) : Trainer K M where
  tree := tree
  program := []
  added := Finset.range t.numRows
  assign := assign
  vertSS := fakeVert assign t.numRows t.numCols
  edgeSS := fakeEdge assign t.numRows tree.treeGrid
  featSS := (fakeFeat t assign t.numRows t.numCols).1
  measSS := (fakeFeat t assign t.numRows t.numCols).2
  edgeProbs e a b := (fakeEdge assign t.numRows tree.treeGrid e a b : K) + 1 / 2 / (M : K)

/-- **C54** (fake models). Whatever is drawn, `generate_fake_model` returns a model with a spanning tree and the statistics of its
assignments. A server accepts it, and its probabilities are consistent. -/
theorem generateFakeModel_spec (expf : K → K) (junk : Nat → Nat) (treeLogits logits : List K)
    (assign : Nat → Nat → Fin M) (t : Table) (ht : Table.Ordered t) (hc : ∀ n < t.numRows, ∀ r, 0 ≤ t.cell n r)
    (hV : 1 ≤ t.numCols) (h1 : treeLogits.length = t.numCols * (t.numCols - 1) / 2)
    (h2 : logits.length = t.numCols * (t.numCols - 1) / 2) :
    Sure (generateFakeModel expf junk treeLogits assign logits t t.numRows t.numCols) fun f =>
      f.assign = assign ∧ f.model.raggedIndex = t.raggedIndex ∧ f.model.edgeLogits = logits ∧ f.model.tree.numVertices = t.numCols ∧
      FakeStats t t.numRows t.numCols f ∧ Model.Valid f.model ∧ Model.Consistent f.model := by
  unfold generateFakeModel
  refine Sure.bind ((generateTree_isTree expf junk t.numCols hV treeLogits h1).mono ?_)
  rintro tree ⟨e1, e2, e3, edges, e4⟩
  refine Sure.pure ?_
  have hnd : (tree.treeGrid.map Prod.fst).Nodup := by rw [e4]; exact makeTree_nodup edges
  obtain ⟨f1, f2⟩ := fakeFeat_cols t assign t.numRows t.numCols
  have hs : FakeStats (K := K) t t.numRows t.numCols
      { model := { tree, raggedIndex := t.raggedIndex, vertSS := fakeVert assign t.numRows t.numCols,
                   edgeSS := fakeEdge assign t.numRows tree.treeGrid, featSS := (fakeFeat t assign t.numRows t.numCols).1, edgeLogits := logits }
        assign, measSS := (fakeFeat t assign t.numRows t.numCols).2 } := by
    refine ⟨fun v hv a => fakeVert_eq assign _ _ v hv a, fun e v w he a b => fakeEdge_eq assign _ hnd he a b, ?_, ?_⟩
    · intro v hv r hb hs a
      change (fakeFeat t assign t.numRows t.numCols).1 r a = _
      rw [f1]
      dsimp only
      rw [Finset.sum_eq_single v]
      · unfold featTotal
        rw [Finset.sum_filter]
        refine Finset.sum_congr rfl fun n _ => ?_
        simp only [hb, hs, true_and]
        simp only [eq_comm]
      · intro w hw hne
        refine Finset.sum_eq_zero fun n _ => if_neg ?_
        rintro ⟨g1, g2, -⟩
        rw [Finset.mem_range] at hw
        unfold Table.beg Table.stop at *
        rcases Nat.lt_or_ge w v with g | g
        · have := table_beg_le ht (show w + 1 ≤ v by omega) (by omega); omega
        · have := table_beg_le ht (show v + 1 ≤ w by omega) (by omega); omega
      · intro hn; exact absurd (Finset.mem_range.2 hv) hn
    · intro v hv a
      change (fakeFeat t assign t.numRows t.numCols).2 v a = _
      rw [f2]
      dsimp only
      rw [Finset.sum_eq_single v]
      · unfold measTotal
        rw [Finset.sum_filter]
        refine Finset.sum_congr rfl fun n _ => ?_
        rw [blockSum_eq]
        simp only [true_and]
        simp only [eq_comm]
      · intro w _ hne
        exact Finset.sum_eq_zero fun n _ => if_neg fun h => hne h.1.symm
      · intro hn; exact absurd (Finset.mem_range.2 hv) hn
  refine ⟨rfl, rfl, rfl, e1, hs, ?_, ?_⟩
  all_goals
    have hm : Matches t (fakeTrainer (K := K) t assign tree) :=
      ⟨hs.vert, hs.edge, hs.feat, hs.meas, fun e v w he a b => by
        have := hs.edge e v w he a b
        dsimp only at this
        unfold fakeTrainer
        dsimp only
        rw [this]; push_cast; rfl⟩
    have hcons := matches_consistent hm rfl fun e v1 v2 he => e2.range (v1, v2) (List.mem_map.2 ⟨_, he, rfl⟩)
  · refine { isTree := by dsimp only; rw [e1]; exact e2, sorted := ⟨edges, e4⟩, ragged := by dsimp only; rw [e1]; exact ht.length,
             mono := ht.mono, vert := by dsimp only; rw [e1]; exact hcons.vert_nonneg, edge := fun c hc => hcons.edge_nonneg _ _ _ hc,
             feat := ?_, logits := by dsimp only; rw [e1]; exact h2 }
    dsimp only
    rw [e1]
    intro v hv r hr a
    obtain ⟨ha, hb⟩ := mem_columns.1 hr
    have := hs.feat v hv r ha hb a
    dsimp only at this
    rw [this]
    exact Finset.sum_nonneg fun n hn => hc n (Finset.mem_range.1 (Finset.mem_filter.1 hn).1) r
  · intro c hc
    exact ⟨fun a => hcons.edge_left c.1 c.2.1 c.2.2 hc a, fun b => hcons.edge_right c.1 c.2.1 c.2.2 hc b⟩

/-! ### `generate_fake_ensemble` -/

/-- **C54** (fake ensembles). Whatever is drawn, `generate_fake_ensemble` returns three models of the same table with seeds 0, 1, 2 and
otherwise the default config with the given number of classes. The models are members of an ensemble: they are valid, consistent, and
about the same features. The drawn counts are assumed to fit int8. -/
theorem generateFakeEnsemble_spec (expf : K → K) (draw : Nat → Nat → List Nat) (draws : Int → FakeDraws K M)
    (N V C : Nat) (hV : 1 ≤ V) (hC : 0 < C) (h127 : ∀ v < V, ∀ n < N, ∀ c, (draw v n).getD c 0 ≤ 127)
    (hl : ∀ seed, (draws seed).treeLogits.length = V * (V - 1) / 2 ∧ (draws seed).logits.length = V * (V - 1) / 2) :
    ∃ t, generateDataset draw N V C = .ok (t.raggedIndex, V * (V - 1) / 2, t) ∧
      Sure (generateFakeEnsemble expf draw draws N V C) fun ms =>
        Members (ms.map fun m => m.2.model) V t.raggedIndex ∧ (∀ m ∈ ms, Model.Consistent m.2.model) ∧
        List.Forall₂ (fun (seed : Nat) m => FakeStats t N V m.2 ∧ m.2.assign = (draws seed).assign ∧
          Config.lookup m.1 "seed" = some (seed : Int) ∧ Config.lookup m.1 "model_num_clusters" = some (M : Int) ∧
          ∀ key, key ≠ "seed" → key ≠ "model_num_clusters" → Config.lookup m.1 key = Config.lookup Config.defaultConfig key) [0, 1, 2] ms := by
  obtain ⟨t, g1, g2, g3, g4, g5, g6, g7, g8⟩ := generateDataset_spec draw N V C hC
  refine ⟨t, g1, ?_⟩
  have hc : ∀ n < t.numRows, ∀ r, 0 ≤ t.cell n r := by
    intro n hn r
    rw [g2] at hn
    by_cases hr : r < V * C
    · have hdm := Nat.div_add_mod r C
      have := g8 n hn (r / C) (Nat.div_lt_of_lt_mul (by rw [Nat.mul_comm]; exact hr)) (r % C) (Nat.mod_lt _ hC)
      rw [Nat.mul_comm, hdm] at this
      rw [this.2 (h127 _ (Nat.div_lt_of_lt_mul (by rw [Nat.mul_comm]; exact hr)) n hn _)]
      exact Int.natCast_nonneg _
    · unfold Table.cell
      rw [List.getD_eq_default]
      by_cases hn' : n < t.data.length
      · rw [List.getD_eq_getElem _ _ hn', g7 _ (List.getElem_mem _)]; omega
      · rw [List.getD_eq_default _ _ (by omega)]; simp
  unfold generateFakeEnsemble
  refine Sure.bind (Sure.liftPy g1 ?_)
  refine Sure.bind (Sure.liftPy (a := Config.assign (Config.assign Config.defaultConfig "model_num_clusters" M) "seed" 0) rfl ?_)
  refine (Sure.mapM _ (fun (seed : Nat) (m : Config.Config × FakeModel K M) => (Model.Valid m.2.model ∧ Model.Consistent m.2.model ∧ m.2.model.raggedIndex = t.raggedIndex ∧
      m.2.model.tree.numVertices = V) ∧ FakeStats t N V m.2 ∧ m.2.assign = (draws seed).assign ∧
      m.1 = Config.assign (Config.assign (Config.assign Config.defaultConfig "model_num_clusters" M) "seed" 0) "seed" (seed : Int)) _ ?_).mono ?_
  · intro seed _
    refine Sure.bind (Sure.liftPy (a := 0) rfl ?_)
    rw [Int.zero_add]
    have := generateFakeModel_spec expf (draws seed).junk (draws seed).treeLogits (draws seed).logits (draws seed).assign t g5 hc
      (by rw [g3]; exact hV) (by rw [g3]; exact (hl _).1) (by rw [g3]; exact (hl _).2)
    rw [g2, g3] at this
    refine Sure.bind (this.mono ?_)
    rintro f ⟨e1, e2, e3, e4, e5, e6, e7⟩
    exact Sure.pure ⟨⟨e6, e7, e2, e4⟩, e5, e1, rfl⟩
  · intro ms hms
    refine ⟨⟨?_, ?_, ?_, ?_⟩, ?_, ?_⟩
    · intro h
      have := hms.length_eq
      rw [List.map_eq_nil_iff] at h
      subst h
      simp at this
    · intro m hm
      obtain ⟨p, hp, rfl⟩ := List.mem_map.1 hm
      obtain ⟨_, _, h⟩ := forall₂_mem_right hms hp
      exact h.1.1
    · intro m hm
      obtain ⟨p, hp, rfl⟩ := List.mem_map.1 hm
      obtain ⟨_, _, h⟩ := forall₂_mem_right hms hp
      exact h.1.2.2.2
    · intro m hm
      obtain ⟨p, hp, rfl⟩ := List.mem_map.1 hm
      obtain ⟨_, _, h⟩ := forall₂_mem_right hms hp
      exact h.1.2.2.1
    · intro p hp
      obtain ⟨_, _, h⟩ := forall₂_mem_right hms hp
      exact h.1.2.1
    · refine List.Forall₂.imp ?_ hms
      rintro seed m ⟨-, h1, h2, h3⟩
      refine ⟨h1, h2, ?_, ?_, ?_⟩
      · rw [h3]; rfl
      · rw [h3]; rfl
      · intro key hk1 hk2
        rw [h3, Config.lookup_assign, if_neg (Ne.symm hk1), Config.lookup_assign, if_neg (Ne.symm hk1), Config.lookup_assign,
          if_neg (Ne.symm hk2)]

end

/-! ### The distribution of generated trees -/

/-- A function of the edges of the result, zero on exceptions. -/
def onStructure (f : List Edge → ℝ) : Except PyErr TreeStructure → ℝ
  | .ok t => f t.getEdges
  | .error _ => 0

theorem run_onTree {m : List Edge → ExceptT PyErr (Expect ℝ) (List Edge)} (x : ExceptT PyErr (Expect ℝ) (List Edge)) (f : List Edge → ℝ) :
    (x >>= m).run (onTree f) = x.run (onTree fun T => (m T).run (onTree f)) := by
  change (show (Except PyErr (List Edge) → ℝ) → ℝ from x.run) _ = (show (Except PyErr (List Edge) → ℝ) → ℝ from x.run) _
  refine congrArg _ (funext fun r => ?_)
  cases r <;> rfl

theorem run_onStructure (x : ExceptT PyErr (Expect ℝ) (List Edge)) (h : List Edge → Py TreeStructure) (f : List Edge → ℝ) :
    (x >>= fun T => liftPy (h T)).run (onStructure f) = x.run (onTree fun T => onStructure f (h T)) := by
  change (show (Except PyErr (List Edge) → ℝ) → ℝ from x.run) _ = (show (Except PyErr (List Edge) → ℝ) → ℝ from x.run) _
  refine congrArg _ (funext fun r => ?_)
  cases r <;> rfl

theorem liftPy_okR {α β : Type} (a : α) (g : α → ExceptT PyErr (Expect ℝ) β) : (liftPy (.ok a) >>= g) = g a := rfl

/-- Repeated calls of `sample_tree`. -/
theorem sampleTrees_avg {V : Nat} (junk : Nat → Nat) {logits : List ℝ} (hl : logits.length = tri V) :
    ∀ (l : List Nat) {T : List Edge}, Canonical T → IsTree V T →
    Avg (fun T => Canonical T ∧ IsTree V T) (fun T' => (Canonical T' ∧ IsTree V T') ∧ (l = [] → T' = T)) fun f =>
      (l.foldlM (fun (edges : List Edge) _ => do
        let perm ← ExceptT.lift (Shuffle.permutation edges.length)
        sampleTree Real.exp junk (completeGrid V) logits edges perm) T : ExceptT PyErr (Expect ℝ) _).run (onTree f) := by
  intro l
  induction l with
  | nil =>
    intro T h1 h2
    exact ((Avg.point T).mono_dom fun _ e => by rw [e]; exact ⟨h1, h2⟩).mono_hit fun T' h => h.2 rfl
  | cons i l ih =>
    intro T h1 h2
    have hA := Avg.bind (sampleTree_avg h1 h2 junk hl) fun T h => ih h.1 h.2
    have hA' : Avg (fun T => Canonical T ∧ IsTree V T) (fun T' => (Canonical T' ∧ IsTree V T') ∧ ((i :: l) = [] → T' = T)) _ :=
      hA.mono_hit ?_
    · refine Eq.mp (congrArg _ (funext fun f => ?_)) hA'
      rw [List.foldlM_cons, run_onTree]
      rfl
    rintro T' ⟨h3, -⟩
    by_cases hl : l = []
    · exact ⟨T', h3, h3, h3, fun _ => rfl⟩
    · exact ⟨T', h3, h3, h3, fun h => absurd h hl⟩

/-- **C53** (distribution). `generate_tree` can return every spanning tree, with positive probability, and returns nothing else. -/
theorem generateTree_positive (junk : Nat → Nat) (V : Nat) (hV : 1 ≤ V) (logits : List ℝ) (hl : logits.length = V * (V - 1) / 2) :
    Avg (fun T => Canonical T ∧ IsTree V T) (fun T => Canonical T ∧ IsTree V T) fun f =>
      (generateTree Real.exp junk V logits : ExceptT PyErr (Expect ℝ) _).run (onStructure f) := by
  obtain ⟨h1, h2⟩ := path_start hV
  have hA := (sampleTrees_avg junk hl (List.range 10) h2 h1).mono_hit (H' := fun T => Canonical T ∧ IsTree V T)
    fun T h => ⟨h, fun h => absurd h (by decide)⟩
  refine Eq.mp (congrArg _ (funext fun f => ?_)) hA
  unfold generateTree
  rw [treeStructure_init_eq hV, makeCompleteGraph_eq, liftPy_okR, liftPy_okR, run_onStructure]
  refine hA.congr _ _ fun T hT => ?_
  have := hT.2.card
  change f T = onStructure f (TreeStructure.setEdges _ T)
  unfold TreeStructure.setEdges pyAssert
  rw [if_pos (by simp; omega)]
  change f T = f (gridEdges (makeTree T))
  rw [gridEdges_makeTree, sortEdges_canonical hT.1]

/-- **C53** (every tree). Each spanning tree has positive probability. -/
theorem generateTree_every (junk : Nat → Nat) (V : Nat) (hV : 1 ≤ V) (logits : List ℝ) (hl : logits.length = V * (V - 1) / 2)
    (T : List Edge) (h1 : Canonical T) (h2 : IsTree V T) :
    0 < (generateTree Real.exp junk V logits : ExceptT PyErr (Expect ℝ) _).run (onStructure fun T' => if T' = T then 1 else 0) :=
  (generateTree_positive junk V hV logits hl).hit _ T (fun _ _ => by split <;> norm_num) ⟨h1, h2⟩ (by simp)

-- The star with three leaves and the path through four vertices are both reached, from the path that `TreeStructure` starts with.
example (a b c d e f : ℝ) (junk : Nat → Nat) :
    0 < (generateTree Real.exp junk 4 [a, b, c, d, e, f] : ExceptT PyErr (Expect ℝ) _).run
      (onStructure fun T => if T = [(0, 1), (0, 2), (0, 3)] then 1 else 0) :=
  generateTree_every junk 4 (by decide) _ rfl _ ⟨by decide, by decide⟩ (isTree_of_smaller rfl (by decide) (by decide))

example (a b c d e f : ℝ) (junk : Nat → Nat) :
    0 < (generateTree Real.exp junk 4 [a, b, c, d, e, f] : ExceptT PyErr (Expect ℝ) _).run
      (onStructure fun T => if T = [(0, 1), (1, 2), (2, 3)] then 1 else 0) :=
  generateTree_every junk 4 (by decide) _ rfl _ ⟨by decide, by decide⟩ (isTree_of_smaller rfl (by decide) (by decide))

/-- Draws for two rows of three features with two categories, in two classes. -/
def exDraws (i : Int) : FakeDraws ℝ 2 where
  junk _ := 0
  treeLogits := [1, i, 0]
  assign n v := if (n + v) % 2 = 0 then 0 else 1
  logits := [0, 0, 0]

example : Sure (generateFakeEnsemble Real.exp (fun v n => [v, n]) exDraws 2 3 2) fun ms => ms.length = 3 := by
  obtain ⟨t, -, h⟩ := generateFakeEnsemble_spec Real.exp (fun v n => [v, n]) exDraws 2 3 2 (by decide) (by decide)
    (fun v hv n hn c => by rcases c with _ | _ | c <;> simp <;> omega) (fun _ => ⟨rfl, rfl⟩)
  exact h.mono fun ms hms => hms.2.2.length_eq.symm

end TreeCat
