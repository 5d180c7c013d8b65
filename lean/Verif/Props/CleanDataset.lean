import Verif.Props.Generate
import Verif.Props.Correlation
import Verif.Props.SampleLogprob
import Verif.Spec.Outline

/-!
# C55: the law of `generate_clean_dataset`, and that it determines the tree
-/

set_option linter.unusedSectionVars false

namespace TreeCat

namespace Spec

/-- A joint distribution of two variables with `M` values, both uniform, that agree because of a common cause with
probability `s` and are independent otherwise. -/
def uniformPair {K : Type} [Field K] {M : Nat} (s : K) (i j : Fin M) : K :=
  1 / M * (s * (if i = j then 1 else 0) + (1 - s) / M)

end Spec

open Spec Util

section
variable {K : Type} [Field K] [LinearOrder K] [IsStrictOrderedRing K] {M : Nat} [NeZero M]

/-- `np.arange(0, C * (V + 1), C)`. -/
def blocks (C V : Nat) : List Nat := (List.range (V + 1)).map fun i => i * C

theorem blocks_getD (C V v : Nat) (hv : v ≤ V) : (blocks C V).getD v 0 = v * C := blockIndex_getD C V v hv

theorem blocks_last (C V : Nat) : (blocks C V).getLastD 0 = V * C := by
  unfold blocks
  rw [List.range_succ, List.map_append]; simp

theorem cleanFeat_eq (V : Nat) (n : Nat) (hn : n ≤ V) (r : Nat) (a : Fin M) :
    (List.range n).foldl (fun (ss : Nat → Fin M → Int) v r a =>
      if h : (blocks M V).getD v 0 ≤ r ∧ r < (blocks M V).getD (v + 1) 0 ∧ r - (blocks M V).getD v 0 < M
      then eye 100 ⟨r - (blocks M V).getD v 0, h.2.2⟩ a else ss r a) (fun _ _ => 0) r a
      = if r < n * M then (if r % M = a.val then 100 else 0) else 0 := by
  induction n with
  | zero => simp
  | succ n ih =>
    rw [List.range_succ, List.foldl_append, List.foldl_cons, List.foldl_nil]
    rw [ih (by omega)]
    simp only [blocks_getD M V n (by omega), blocks_getD M V (n + 1) (by omega)]
    have e : (n + 1) * M = n * M + M := by ring
    by_cases h : n * M ≤ r ∧ r < (n + 1) * M ∧ r - n * M < M
    · rw [dif_pos h, if_pos h.2.1]
      have : r % M = r - n * M := by
        conv_lhs => rw [show r = (r - n * M) + M * n by rw [Nat.mul_comm M n]; omega, Nat.add_mul_mod_self_left, Nat.mod_eq_of_lt h.2.2]
      unfold eye
      rw [this]
      simp only [Fin.ext_iff]
    · rw [dif_neg h]
      by_cases h1 : r < n * M
      · simp only [if_pos h1, if_pos (show r < (n + 1) * M by omega)]
      · simp only [if_neg h1, if_neg (show ¬ r < (n + 1) * M by omega)]

variable {tree : TreeStructure}

/-- A tree structure as `set_edges` makes it. -/
structure TreeStructure.Good (tree : TreeStructure) : Prop where
  isTree : IsTree tree.numVertices tree.getEdges
  sorted : ∃ edges, tree.treeGrid = makeTree edges

variable (K M) in
/-- The model that `generate_clean_dataset` samples from. -/
def clean (tree : TreeStructure) : Model K M := cleanModel tree (blocks M tree.numVertices)

theorem clean_columns {v : Nat} (hv : v < tree.numVertices) : columns (clean K M tree) v = Finset.Ico (v * M) (v * M + M) := by
  change Finset.Ico ((blocks M tree.numVertices).getD v 0) ((blocks M tree.numVertices).getD (v + 1) 0) = _
  rw [blocks_getD _ _ _ (by omega), blocks_getD _ _ _ (by omega), Nat.add_mul, one_mul]

theorem clean_feat {v : Nat} (hv : v < tree.numVertices) (i a : Fin M) : (clean K M tree).featSS (v * M + i.val) a = if i = a then 100 else 0 := by
  unfold clean cleanModel
  dsimp only
  rw [cleanFeat_eq _ _ le_rfl, if_pos, Nat.mul_comm v M, Nat.mul_add_mod, Nat.mod_eq_of_lt i.isLt]
  · simp only [Fin.ext_iff]
  · calc v * M + i.val < v * M + M := by have := i.isLt; omega
      _ = (v + 1) * M := by ring
      _ ≤ _ := Nat.mul_le_mul_right _ hv

theorem clean_edge (hg : tree.Good) {c : Nat × Nat × Nat} (hc : c ∈ tree.treeGrid) (a b : Fin M) :
    (clean K M tree).edgeSS c.1 a b = if a = b then 1 else 0 := by
  obtain ⟨edges, he⟩ := hg.sorted
  have := foldl_update_mem (fun _ => eye (M := M) 1) tree.treeGrid (fun _ _ _ => 0) (by rw [he]; exact makeTree_nodup edges) hc
  change tree.treeGrid.foldl (fun ss c => Function.update ss c.1 (eye 1)) (fun _ _ _ => 0) c.1 a b = _
  rw [this]; rfl

theorem clean_valid (hg : tree.Good) : Model.Valid (clean K M tree) where
  isTree := hg.isTree
  sorted := hg.sorted
  ragged := by simp [clean, cleanModel, blocks]
  mono := by
    unfold clean cleanModel blocks
    rw [List.pairwise_map]
    exact List.pairwise_lt_range.imp fun h => Nat.mul_le_mul_right _ h.le
  vert v _ m := by simp [clean, cleanModel]
  edge c hc a b := by rw [clean_edge hg hc]; split <;> simp
  feat v hv r hr m := by
    change v < tree.numVertices at hv
    rw [clean_columns hv, Finset.mem_Ico] at hr
    have := clean_feat (K := K) hv ⟨r - v * M, by omega⟩ m
    rw [show v * M + (⟨r - v * M, by omega⟩ : Fin M).val = r by simp; omega] at this
    rw [this]; split <;> simp
  logits := by simp [clean, cleanModel]

theorem clean_consistent (hg : tree.Good) : Model.Consistent (clean K M tree) := by
  intro c hc
  simp only [clean_edge hg hc]
  constructor <;> intro a <;> simp [clean, cleanModel]

theorem clean_vertMean (v : Nat) (m : Fin M) : vertMean (clean K M tree) v m = 1 / M := by
  have hM := M_pos (K := K) (M := M)
  unfold vertMean clean cleanModel
  simp only [Int.cast_one, Finset.sum_const, Finset.card_univ, Fintype.card_fin, nsmul_eq_mul]
  field_simp

theorem clean_edgeMean (hg : tree.Good) {c : Nat × Nat × Nat} (hc : c ∈ tree.treeGrid) (a b : Fin M) :
    edgeMean (clean K M tree) c.1 a b = 1 / M * (2 / 3 * (if a = b then 1 else 0) + (1 - 2 / 3) / M) := by
  have hM := M_pos (K := K) (M := M)
  unfold edgeMean
  simp only [clean_edge hg hc]
  simp only [Int.cast_ite, Int.cast_one, Int.cast_zero, Finset.sum_ite_eq, Finset.mem_univ, if_true, Finset.sum_const,
    Finset.card_univ, Fintype.card_fin, nsmul_eq_mul]
  split <;> field_simp <;> ring

theorem clean_featMean {v : Nat} (hv : v < tree.numVertices) (i a : Fin M) :
    featMean (clean K M tree) v (v * M + i.val) a = 200 / 201 * (if i = a then 1 else 0) + (1 - 200 / 201) / M := by
  have hM := M_pos (K := K) (M := M)
  unfold featMean
  have e : ∑ r ∈ columns (clean K M tree) v, ((clean K M tree).featSS r a : K) = 100 := by
    rw [clean_columns hv, Finset.sum_Ico_eq_sum_range, Nat.add_sub_cancel_left, Finset.sum_range]
    simp only [clean_feat hv]
    simp
  rw [e, clean_feat hv, clean_columns hv, Nat.card_Ico, Nat.add_sub_cancel_left]
  split <;> push_cast <;> field_simp <;> ring

theorem uniformPair_step (s : K) (a c : Fin M) :
    ∑ b, (2 / 3 * (if a = b then 1 else 0) + (1 - 2 / 3) / (M : K)) * uniformPair s b c = uniformPair (s * (2 / 3)) a c := by
  have hM := M_pos (K := K) (M := M)
  have e : ∀ b : Fin M, (2 / 3 * (if a = b then 1 else 0) + (1 - 2 / 3) / (M : K)) * uniformPair s b c
      = 2 / 3 * (if a = b then uniformPair s b c else 0) + (1 - 2 / 3) / (M : K) * uniformPair s b c := by
    intro b
    split <;> ring
  have e2 : ∑ b, uniformPair s b c = 1 / (M : K) := by
    unfold uniformPair
    rw [← Finset.mul_sum, Finset.sum_add_distrib, ← Finset.mul_sum, Finset.sum_ite_eq']
    simp only [Finset.mem_univ, if_true, Finset.sum_const, Finset.card_univ, Fintype.card_fin, nsmul_eq_mul]
    field_simp; ring
  rw [Finset.sum_congr rfl fun b _ => e b, Finset.sum_add_distrib, ← Finset.mul_sum, Finset.sum_ite_eq, if_pos (Finset.mem_univ _),
    ← Finset.mul_sum, e2]
  unfold uniformPair
  split <;> field_simp <;> ring

/-- The joint distribution of the latent classes at distance `d`. -/
theorem clean_pairProb (hg : tree.Good) {u v d : Nat} (hu : u < tree.numVertices) (hv : v < tree.numVertices)
    (hd : IsDist tree.getEdges u v d) (a b : Fin M) : pairProb (clean K M tree) u v a b = uniformPair ((2 / 3) ^ d) a b := by
  have h := clean_valid (K := K) (M := M) hg
  have hc := clean_consistent (K := K) (M := M) hg
  obtain ⟨mst, hmst⟩ := exists_mst (K := K)
  obtain ⟨srv, -, s, -⟩ := server_init hmst h
  obtain ⟨D, par, ch, eid, L, R, T, he, -, hp⟩ := makeProgram_some (grid := tree.treeGrid) hg.isTree hv
  have P : Plan (clean K M tree) v par ch eid L := by
    refine ⟨T, grid_perm R T he (grid_sorted_lt hg.isTree h.sorted), ?_⟩
    exact fun w hw hwv => ⟨R.par_lt w hw hwv, fun e => by have := R.d_par w hw hwv; rw [e] at this; omega⟩
  have key : ∀ n, ∀ w < tree.numVertices, D w = n → ∀ a b, pairProb (clean K M tree) w v a b = uniformPair ((2 / 3) ^ n) a b := by
    intro n
    induction n with
    | zero =>
      intro w hw hD a b
      have : w = v := by
        by_contra hwv
        have := R.d_par w hw hwv
        omega
      subst this
      rw [pair_root h hc s P, clean_vertMean]
      unfold uniformPair
      split <;> simp
    | succ n ih =>
      intro w hw hD a c
      have hwv : w ≠ v := by
        rintro rfl
        rw [R.d_root] at hD; omega
      have hpar := R.d_par w hw hwv
      rw [pair_step h hc s P hw hwv, pow_succ, ← uniformPair_step]
      refine Finset.sum_congr rfl fun b _ => ?_
      rw [ih _ (R.par_lt w hw hwv) (by omega), s.vert, clean_vertMean]
      have hM := (M_pos (K := K) (M := M)).ne'
      congr 1
      unfold transAt
      rw [s.edge]
      have e : ∀ a b, edgeMean (clean K M tree) (eid w) a b = 1 / M * (2 / 3 * (if a = b then 1 else 0) + (1 - 2 / 3) / M) := by
        rcases he w hw hwv with h1 | h1 <;> exact clean_edgeMean hg h1
      rw [e, e]
      simp only [eq_comm (a := b)]
      rw [ite_self]
      field_simp
  have hDu : D u = d := le_antisymm (R.short u d hd.1.symm) (hd.2 _ (R.walk u hu).symm)
  exact key d u hu hDu a b

/-! ### The law of the cells -/

theorem clean_other {v w : Nat} (hv : v < tree.numVertices) (hvw : w ≠ v) (i : Fin M) : w * M + i.val ∉ columns (clean K M tree) v := by
  rw [clean_columns hv, Finset.mem_Ico]
  rintro ⟨h1, h2⟩
  have hi := i.isLt
  rcases Nat.lt_or_gt_of_ne hvw with h | h
  · have := Nat.mul_le_mul_right M (show w + 1 ≤ v from h)
    rw [Nat.add_mul] at this; omega
  · have := Nat.mul_le_mul_right M (show v + 1 ≤ w from h)
    rw [Nat.add_mul] at this; omega

theorem clean_own {v : Nat} (hv : v < tree.numVertices) (i : Fin M) : v * M + i.val ∈ columns (clean K M tree) v := by
  rw [clean_columns hv, Finset.mem_Ico]
  have := i.isLt
  omega

theorem clean_observe (hg : tree.Good) (z : Nat → Fin M) (W : Finset Nat) (cat : Nat → Fin M) (g : Int → K) (g0 : g 0 = 0) (g1 : g 1 = 1) :
    ∀ (vs : List Nat), vs.Nodup → (∀ v ∈ vs, v < tree.numVertices) → ∀ x : Nat → Int,
    (∀ v ∈ vs, ∀ r ∈ columns (clean K M tree) v, x r = 0) →
    observe (clean K M tree) z vs x (fun x => ∏ w ∈ W, g (x (w * M + (cat w).val)))
      = ∏ w ∈ W, if w ∈ vs then featMean (clean K M tree) w (w * M + (cat w).val) (z w) else g (x (w * M + (cat w).val)) := by
  intro vs
  induction vs with
  | nil => intro _ _ x _; simp [observe]
  | cons v vs ih =>
    intro hn hlt x hx
    rw [List.nodup_cons] at hn
    have hv := hlt v (by simp)
    unfold observe
    have e : ∀ r ∈ columns (clean K M tree) v, observe (clean K M tree) z vs (Function.update x r (x r + 1))
        (fun x => ∏ w ∈ W, g (x (w * M + (cat w).val)))
        = (∏ w ∈ W.erase v, if w ∈ v :: vs then featMean (clean K M tree) w (w * M + (cat w).val) (z w) else g (x (w * M + (cat w).val))) *
          if v ∈ W then (if r = v * M + (cat v).val then 1 else 0) else 1 := by
      intro r hr
      rw [ih hn.2 (fun w hw => hlt w (by simp [hw])) _ ?_]
      · have e1 : ∀ w ∈ W.erase v, (if w ∈ vs then featMean (clean K M tree) w (w * M + (cat w).val) (z w)
            else g (Function.update x r (x r + 1) (w * M + (cat w).val)))
            = if w ∈ v :: vs then featMean (clean K M tree) w (w * M + (cat w).val) (z w) else g (x (w * M + (cat w).val)) := by
          intro w hw
          have hwv := (Finset.mem_erase.1 hw).1
          have : w * M + (cat w).val ≠ r := fun h => clean_other (K := K) hv hwv (cat w) (h ▸ hr)
          rw [Function.update_of_ne this]
          simp [hwv]
        by_cases hW : v ∈ W
        · rw [← Finset.mul_prod_erase _ _ hW, Finset.prod_congr rfl e1, if_pos hW, if_neg hn.1, mul_comm]
          congr 1
          by_cases hrv : r = v * M + (cat v).val
          · rw [if_pos hrv, hrv, Function.update_self, ← hrv, hx v (by simp) r hr, zero_add, g1]
          · rw [if_neg hrv, Function.update_of_ne (Ne.symm hrv), hx v (by simp) _ (clean_own hv _), g0]
        · rw [if_neg hW, mul_one, ← Finset.prod_congr rfl e1, Finset.erase_eq_of_notMem hW]
      · intro w hw c hc
        have hwv : w ≠ v := fun h => hn.1 (h ▸ hw)
        have hcr : c ≠ r := by
          rintro rfl
          have hw' := hlt w (by simp [hw])
          rw [clean_columns hw', Finset.mem_Ico] at hc
          obtain ⟨i, rfl⟩ : ∃ i : Fin M, c = w * M + i.val := ⟨⟨c - w * M, by omega⟩, (Nat.add_sub_cancel' hc.1).symm⟩
          exact clean_other hv hwv i hr
        rw [Function.update_of_ne hcr]
        exact hx w (by simp [hw]) c hc
    rw [Finset.sum_congr rfl fun r hr => by rw [e r hr]]
    by_cases hW : v ∈ W
    · simp only [if_pos hW]
      rw [← Finset.mul_prod_erase _ _ hW, if_pos (by simp)]
      rw [Finset.sum_eq_single_of_mem _ (clean_own hv (cat v)) fun r _ hr => by rw [if_neg hr]; ring]
      rw [if_pos rfl, mul_one]
    · simp only [if_neg hW, mul_one]
      rw [← Finset.sum_mul, featMean_sum (clean_valid hg) hv ⟨_, clean_own hv 0⟩, one_mul, Finset.erase_eq_of_notMem hW]

theorem requested_ones (V : Nat) : requested V (List.replicate V 1) = List.range V := by
  unfold requested
  rw [List.flatMap_congr (g := fun v => [v])]
  · simp
  · intro v hv
    rw [List.mem_range] at hv
    rw [List.getD_eq_getElem _ _ (by simpa using hv), List.getElem_replicate]; rfl

theorem clean_total (hg : tree.Good) (k : K) : sumLatent tree.numVertices (fun z => latentProb (clean K M tree) z * k) = k := by
  have h := clean_valid (K := K) (M := M) hg
  obtain ⟨mst, hmst⟩ := exists_mst (K := K)
  obtain ⟨srv, -, s, -⟩ := server_init hmst h
  obtain ⟨par, ch, eid, L, P, -⟩ := exists_plan h (r := 0) (by have := h.isTree.card; omega)
  exact latent_total h (clean_consistent hg) s P k

theorem clean_mean (hg : tree.Good) (W : Finset Nat) (hW : ∀ w ∈ W, w < tree.numVertices) (cat : Nat → Fin M) (g : Int → K)
    (g0 : g 0 = 0) (g1 : g 1 = 1) :
    sampleMean (clean K M tree) (fun _ => 0) (List.replicate tree.numVertices 1) (fun _ x => ∏ w ∈ W, g (x (w * M + (cat w).val)))
      = sumLatent tree.numVertices fun z => latentProb (clean K M tree) z * ∏ w ∈ W, featMean (clean K M tree) w (w * M + (cat w).val) (z w) := by
  have hr : ∀ z, rowProb (clean K M tree) (fun _ => 0) z = 1 := fun z => by simp [rowProb]
  unfold sampleMean dataProb
  simp only [hr]
  rw [show (clean K M tree).tree.numVertices = tree.numVertices from rfl, clean_total hg, div_one]
  congr 1
  funext z
  rw [requested_ones, mul_one, clean_observe hg z W cat g g0 g1 _ List.nodup_range (fun v hv => List.mem_range.1 hv) _ fun _ _ _ _ => rfl]
  congr 1
  refine Finset.prod_congr rfl fun w hw => ?_
  rw [if_pos (List.mem_range.2 (hW w hw))]

/-- The table of the drawn rows. -/
def cleanTable (M V : Nat) (rows : List (List Int)) : Table :=
  ⟨List.replicate V tyMultinomial, blocks M V, rows.map fun row => row.map wrap8⟩

theorem cleanTable_make (rows : List (List Int)) (V : Nat) :
    Table.make (List.replicate V tyMultinomial) (blocks M V) (V * M) rows = .ok (cleanTable M V rows) := by
  have hlast : (blocks M V).getLast? = some (V * M) := by
    unfold blocks
    rw [List.range_succ, List.map_append]; simp
  unfold Table.make pyAssert
  rw [if_pos (by simp [blocks]; omega), hlast]
  simp [bind, Except.bind, cleanTable]

theorem run_onOk_liftPy {α β : Type} (x : ExceptT PyErr (Expect K) α) (h : α → Py β) (f : β → K) :
    (x >>= fun a => liftPy (h a)).run (onOk f) = x.run (onOk fun a => onOk f (h a)) := by
  change (show (Except PyErr α → K) → K from x.run) _ = (show (Except PyErr α → K) → K from x.run) _
  refine congrArg _ (funext fun r => ?_)
  cases r <;> rfl

variable {mst : List (List K) → List Edge}

theorem generateClean_eq {m : Type → Type} [Monad m] [LawfulMonad m] [Choose K m] {srv : Server K M} (N : Nat)
    (hs : Server.init mst (clean K M tree) = .ok srv) :
    (generateCleanDataset (M := M) mst tree N : ExceptT PyErr m Table)
      = srv.sample N (List.replicate tree.numVertices 1) none >>= fun data =>
          liftPy (.ok (cleanTable M tree.numVertices data)) := by
  unfold generateCleanDataset
  have hb : blockIndex M tree.numVertices = .ok (blocks M tree.numVertices) := blockIndex_eq (Nat.pos_of_ne_zero (NeZero.ne M)) _
  have hc : Config.makeConfig [("model_num_clusters", (M : Int))] = .ok (Config.assign Config.defaultConfig "model_num_clusters" M) := rfl
  dsimp only
  rw [hb, hc, liftPy_ok_bind, liftPy_ok_bind]
  change (liftPy (Server.init mst (clean K M tree)) >>= _) = _
  rw [hs, liftPy_ok_bind]
  simp only [cleanTable_make]

theorem exists_one {f : Fin M → Int} (h0 : ∀ i, 0 ≤ f i) (h1 : ∑ i, f i = 1) : ∃ i, ∀ j, f j = if j = i then 1 else 0 := by
  obtain ⟨i, -, hi⟩ : ∃ i ∈ Finset.univ, f i ≠ 0 := by
    by_contra hne
    push Not at hne
    rw [Finset.sum_eq_zero hne] at h1
    omega
  have hle : ∑ j ∈ Finset.univ.erase i, f j = 1 - f i := by
    rw [← h1, ← Finset.add_sum_erase _ f (Finset.mem_univ i)]; ring
  have hnn : 0 ≤ ∑ j ∈ Finset.univ.erase i, f j := Finset.sum_nonneg fun j _ => h0 j
  have hi0 := h0 i
  have hi1 : f i = 1 := by omega
  have hz : ∑ j ∈ Finset.univ.erase i, f j = 0 := by omega
  rw [Finset.sum_eq_zero_iff_of_nonneg fun j _ => h0 j] at hz
  refine ⟨i, fun j => ?_⟩
  by_cases hj : j = i
  · rw [if_pos hj, hj, hi1]
  · rw [if_neg hj, hz j (Finset.mem_erase.2 ⟨hj, Finset.mem_univ _⟩)]

theorem cleanTable_cell (V : Nat) {rows : List (List Int)} (n r : Nat) : (cleanTable M V rows).cell n r = wrap8 ((rows.getD n []).getD r 0) := by
  unfold Table.cell cleanTable
  dsimp only
  rw [List.getD_eq_getElem?_getD, List.getD_eq_getElem?_getD, List.getD_eq_getElem?_getD, List.getD_eq_getElem?_getD, List.getElem?_map]
  cases rows[n]? with
  | none => simp [wrap8]
  | some row =>
    rw [Option.map_some, Option.getD_some, Option.getD_some, List.getElem?_map]
    cases row[r]? <;> simp [wrap8]

/-- **C55** (shape). Whatever is drawn, `generate_clean_dataset` returns a table with the requested shape, in which every row holds
exactly one observation of each feature. -/
theorem generateCleanDataset_spec (hmst : MstContract mst) (hg : tree.Good) (N : Nat) :
    Sure (generateCleanDataset (M := M) mst tree N) fun t => t.numRows = N ∧ t.numCols = tree.numVertices ∧
      (∀ ty ∈ t.featureTypes, ty = tyMultinomial) ∧ Table.Ordered t ∧ (∀ v ≤ tree.numVertices, t.raggedIndex.getD v 0 = v * M) ∧
      (∀ row ∈ t.data, row.length = tree.numVertices * M) ∧
      ∀ n < N, ∀ v < tree.numVertices, ∃ i : Fin M, ∀ j : Fin M, t.cell n (v * M + j.val) = if j = i then 1 else 0 := by
  have hM := Nat.pos_of_ne_zero (NeZero.ne M)
  have h := clean_valid (K := K) (M := M) hg
  obtain ⟨srv, hs, s, -⟩ := server_init hmst h
  rw [generateClean_eq N hs]
  obtain ⟨c1, c2⟩ := server_sample_counts h s N (List.replicate tree.numVertices 1) none (by simp) (by simp; rfl)
    (fun x hx => by rw [List.eq_of_mem_replicate hx]; decide) (fun v hv _ => ⟨_, clean_own hv 0⟩)
  have hlast : (clean K M tree).raggedIndex.getLastD 0 = tree.numVertices * M := blocks_last _ _
  refine Sure.bind ⟨c1, fun o ho => ?_⟩
  obtain ⟨rows, rfl, r1, r2⟩ := c2 o ho
  refine ⟨rows, rfl, Sure.liftPy rfl ⟨?_, ?_, ?_, ⟨?_, ?_⟩, ?_, ?_, ?_⟩⟩
  · simp [Table.numRows, cleanTable, r1]
  · simp [Table.numCols, cleanTable]
  · intro ty hty; exact List.eq_of_mem_replicate hty
  · simp [Table.numCols, cleanTable, blocks]
  · exact h.mono
  · exact fun v hv => blocks_getD _ _ _ hv
  · intro row hrow
    obtain ⟨row', h1, rfl⟩ := List.mem_map.1 hrow
    rw [List.length_map, (r2 row' h1).1, hlast]
  · intro n hn v hv
    have hrow : rows.getD n [] ∈ rows := by
      rw [List.getD_eq_getElem _ _ (by omega)]; exact List.getElem_mem _
    obtain ⟨q1, q2⟩ := (r2 _ hrow).2 v hv
    have e : (List.replicate tree.numVertices (1 : Int)).getD v 0 = 1 := by
      rw [List.getD_eq_getElem _ _ (by simpa using hv), List.getElem_replicate]
    rw [e, clean_columns hv, Finset.sum_Ico_eq_sum_range, Nat.add_sub_cancel_left, Finset.sum_range] at q2
    obtain ⟨i, hi⟩ := exists_one (f := fun j : Fin M => (rows.getD n []).getD (v * M + j.val) 0) (fun j => q1 _ (clean_own hv j)) q2
    refine ⟨i, fun j => ?_⟩
    rw [cleanTable_cell, hi j]
    split <;> rfl

/-- **C55** (law). The rows are independent; in each of them the cells of some features are observed together with their probability
under the tree. -/
theorem generateCleanDataset_law (hmst : MstContract mst) (hg : tree.Good) (N : Nat) (S : Finset Nat) (hS : ∀ n ∈ S, n < N)
    (W : Nat → Finset Nat) (hW : ∀ n ∈ S, ∀ w ∈ W n, w < tree.numVertices) (cat : Nat → Nat → Fin M) :
    (generateCleanDataset (M := M) mst tree N : ExceptT PyErr (Expect K) _).run (onOk fun t =>
        ∏ n ∈ S, ∏ w ∈ W n, if t.cell n (w * M + (cat n w).val) = 1 then 1 else 0)
      = ∏ n ∈ S, sumLatent tree.numVertices fun z => latentProb (clean K M tree) z *
          ∏ w ∈ W n, featMean (clean K M tree) w (w * M + (cat n w).val) (z w) := by
  classical
  have h := clean_valid (K := K) (M := M) hg
  obtain ⟨srv, hs, s, -⟩ := server_init hmst h
  have hlast : (clean K M tree).raggedIndex.getLastD 0 = tree.numVertices * M := blocks_last _ _
  rw [generateClean_eq N hs, run_onOk_liftPy]
  set g : Int → K := fun y => if wrap8 y = 1 then 1 else 0 with hgdef
  have key := server_sample_exact h s N (List.replicate tree.numVertices 1) none (by simp) (by simp; rfl)
    (fun v hv => by
      rw [List.getD_eq_getElem _ _ (by rw [List.length_replicate]; exact hv), List.getElem_replicate]; decide)
    (fun v hv _ => ⟨_, clean_own hv 0⟩)
    (fun n row => if n ∈ S then ∏ w ∈ W n, g (row.getD (w * M + (cat n w).val) 0) else 1)
  have hsub : S ⊆ Finset.range N := fun n hn => Finset.mem_range.2 (hS n hn)
  have hprod : ∀ F : Nat → K, ∏ n ∈ Finset.range N, (if n ∈ S then F n else 1) = ∏ n ∈ S, F n := by
    intro F
    rw [Finset.prod_ite_mem, Finset.inter_eq_right.2 hsub]
  simp only [hprod] at key
  have e1 : (onOk fun rows : List (List Int) => onOk (fun t : Table => ∏ n ∈ S, ∏ w ∈ W n,
      if t.cell n (w * M + (cat n w).val) = 1 then (1 : K) else 0) (.ok (cleanTable M tree.numVertices rows)))
      = onOk fun rows => ∏ n ∈ S, ∏ w ∈ W n, g ((rows.getD n []).getD (w * M + (cat n w).val) 0) := by
    congr 1
    funext rows
    refine Finset.prod_congr rfl fun n _ => Finset.prod_congr rfl fun w _ => ?_
    rw [cleanTable_cell]
  rw [e1, key, ← hprod]
  refine Finset.prod_congr rfl fun n hn => ?_
  by_cases hnS : n ∈ S
  · simp only [if_pos hnS]
    rw [← clean_mean hg (W n) (hW n hnS) (cat n) g (if_neg (by decide)) (if_pos (by decide))]
    congr 1
    funext z x
    refine Finset.prod_congr rfl fun w hw => ?_
    have hlt : w * M + (cat n w).val < tree.numVertices * M := by
      have := Nat.mul_le_mul_right M (show w + 1 ≤ tree.numVertices from hW n hnS w hw)
      have := (cat n w).isLt
      rw [Nat.add_mul] at *
      omega
    rw [hlast, List.getD_eq_getElem _ _ (by simpa using hlt), List.getElem_map, List.getElem_range]
  · simp only [if_neg hnS]
    exact sampleMean_const h _ _ (fun v hv _ => ⟨_, clean_own hv 0⟩) 1

theorem sumLatent_pair (model : Model K M) (u v : Nat) (F : Fin M → Fin M → K) :
    sumLatent model.tree.numVertices (fun z => latentProb model z * F (z u) (z v)) = ∑ a, ∑ b, pairProb model u v a b * F a b := by
  unfold pairProb sumLatent
  simp only [Finset.sum_mul]
  rw [Finset.sum_congr rfl fun a _ => Finset.sum_comm, Finset.sum_comm]
  refine Finset.sum_congr rfl fun z _ => ?_
  set z' : Nat → Fin M := fun v => if h : v < model.tree.numVertices then z ⟨v, h⟩ else 0
  rw [Finset.sum_eq_single_of_mem (z' u) (Finset.mem_univ _) fun a _ ha =>
    Finset.sum_eq_zero fun b _ => by rw [if_neg fun h => ha h.1.symm, zero_mul]]
  rw [Finset.sum_eq_single_of_mem (z' v) (Finset.mem_univ _) fun b _ hb => by rw [if_neg fun h => hb h.2.symm, zero_mul]]
  rw [if_pos ⟨rfl, rfl⟩]

theorem uniformPair_noise (s t : K) (i j : Fin M) :
    ∑ a, ∑ b, uniformPair s a b * ((t * (if i = a then 1 else 0) + (1 - t) / M) * (t * (if j = b then 1 else 0) + (1 - t) / M))
      = uniformPair (s * t ^ 2) i j := by
  have hM := (M_pos (K := K) (M := M)).ne'
  have one : ∀ (s : K) (j : Fin M) (f : Fin M → K), (∀ b, f b = t * (if j = b then 1 else 0) + (1 - t) / M) → ∀ a,
      ∑ b, uniformPair s a b * f b = uniformPair (s * t) a j := by
    intro s j f hf a
    have e : ∀ b : Fin M, uniformPair s a b * f b = t * (if j = b then uniformPair s a b else 0) + (1 - t) / M * uniformPair s a b := by
      intro b
      rw [hf]
      split <;> ring
    have e2 : ∑ b, uniformPair s a b = 1 / (M : K) := by
      unfold uniformPair
      rw [← Finset.mul_sum, Finset.sum_add_distrib, ← Finset.mul_sum, Finset.sum_ite_eq]
      simp only [Finset.mem_univ, if_true, Finset.sum_const, Finset.card_univ, Fintype.card_fin, nsmul_eq_mul]
      field_simp; ring
    rw [Finset.sum_congr rfl fun b _ => e b, Finset.sum_add_distrib, ← Finset.mul_sum, Finset.sum_ite_eq, if_pos (Finset.mem_univ _),
      ← Finset.mul_sum, e2]
    unfold uniformPair
    split <;> field_simp <;> ring
  have hsymm : ∀ (s : K) (a b : Fin M), uniformPair s a b = uniformPair s b a := by
    intro s a b
    unfold uniformPair
    simp only [eq_comm (a := a)]
  have e1 : ∀ a, ∑ b, uniformPair s a b * ((t * (if i = a then 1 else 0) + (1 - t) / M) * (t * (if j = b then 1 else 0) + (1 - t) / M))
      = uniformPair (s * t) j a * (t * (if i = a then 1 else 0) + (1 - t) / M) := by
    intro a
    rw [hsymm _ j a, ← one s j _ (fun _ => rfl) a, Finset.sum_mul]
    exact Finset.sum_congr rfl fun b _ => by ring
  rw [Finset.sum_congr rfl fun a _ => e1 a, one _ i _ (fun _ => rfl), hsymm, mul_assoc, ← sq]

/-- **C55** (pairs). In independent rows, two features at distance `d` in the tree are both uniform, and agree beyond chance with
probability `(2/3)^d (200/201)^2`. -/
theorem generateCleanDataset_pair (hmst : MstContract mst) (hg : tree.Good) (N : Nat) (S : Finset Nat) (hS : ∀ n ∈ S, n < N)
    {u v d : Nat} (hu : u < tree.numVertices) (hv : v < tree.numVertices) (huv : u ≠ v) (hd : IsDist tree.getEdges u v d)
    (i j : Nat → Fin M) :
    (generateCleanDataset (M := M) mst tree N : ExceptT PyErr (Expect K) _).run (onOk fun t =>
        ∏ n ∈ S, if t.cell n (u * M + (i n).val) = 1 ∧ t.cell n (v * M + (j n).val) = 1 then 1 else 0)
      = ∏ n ∈ S, uniformPair ((2 / 3) ^ d * (200 / 201) ^ 2) (i n) (j n) := by
  have key := generateCleanDataset_law hmst hg N S hS (fun _ => {u, v}) (fun n _ w hw => by
    rcases Finset.mem_insert.1 hw with h | h
    · rw [h]; exact hu
    · rw [Finset.mem_singleton.1 h]; exact hv) (fun n w => if w = u then i n else j n)
  simp only [Finset.prod_pair huv, if_true, if_neg huv.symm] at key
  refine Eq.trans ?_ (key.trans (Finset.prod_congr rfl fun n _ => ?_))
  · refine congrArg (fun f => (generateCleanDataset (M := M) mst tree N : ExceptT PyErr (Expect K) _).run (onOk f)) (funext fun t => ?_)
    refine Finset.prod_congr rfl fun n _ => ?_
    by_cases h1 : t.cell n (u * M + (i n).val) = 1 <;> by_cases h2 : t.cell n (v * M + (j n).val) = 1 <;> simp [h1, h2]
  · rw [← uniformPair_noise]
    have := sumLatent_pair (clean K M tree) u v fun a b => featMean (clean K M tree) u (u * M + (i n).val) a *
      featMean (clean K M tree) v (v * M + (j n).val) b
    refine Eq.trans this (Finset.sum_congr rfl fun a _ => Finset.sum_congr rfl fun b _ => ?_)
    rw [clean_pairProb hg hu hv hd, clean_featMean hu, clean_featMean hv]

/-- **C55** (single cells). -/
theorem generateCleanDataset_cell (hmst : MstContract mst) (hg : tree.Good) (N : Nat) (S : Finset Nat) (hS : ∀ n ∈ S, n < N)
    {u : Nat} (hu : u < tree.numVertices) (i : Nat → Fin M) :
    (generateCleanDataset (M := M) mst tree N : ExceptT PyErr (Expect K) _).run (onOk fun t =>
        ∏ n ∈ S, if t.cell n (u * M + (i n).val) = 1 then 1 else 0) = ∏ _n ∈ S, 1 / (M : K) := by
  have hM := (M_pos (K := K) (M := M)).ne'
  have key := generateCleanDataset_law hmst hg N S hS (fun _ => {u}) (fun n _ w hw => by
    rw [Finset.mem_singleton.1 hw]; exact hu) (fun n w => i n)
  simp only [Finset.prod_singleton] at key
  refine key.trans (Finset.prod_congr rfl fun n _ => ?_)
  have := sumLatent_pair (clean K M tree) u u fun a b => featMean (clean K M tree) u (u * M + (i n).val) a
  refine Eq.trans this ?_
  simp only [clean_pairProb hg hu hu ⟨.nil u, fun n _ => Nat.zero_le n⟩, clean_featMean hu, pow_zero]
  unfold uniformPair
  simp only [sub_self, zero_div, add_zero, one_mul]
  have e : ∀ a : Fin M, ∑ b, 1 / (M : K) * (if a = b then 1 else 0) * (200 / 201 * (if i n = a then 1 else 0) + (1 - 200 / 201) / M)
      = 1 / (M : K) * (200 / 201 * (if i n = a then 1 else 0) + (1 - 200 / 201) / M) := by
    intro a
    rw [← Finset.sum_mul, ← Finset.mul_sum, Finset.sum_ite_eq, if_pos (Finset.mem_univ _), mul_one]
  rw [Finset.sum_congr rfl fun a _ => e a, ← Finset.mul_sum, Finset.sum_add_distrib, ← Finset.mul_sum, Finset.sum_ite_eq,
    if_pos (Finset.mem_univ _)]
  simp only [Finset.sum_const, Finset.card_univ, Fintype.card_fin, nsmul_eq_mul]
  field_simp
  ring

/-! ### The tree is determined by pairs -/

theorem exists_dist {V : Nat} {edges : List (Nat × Nat)} (ht : IsTree V edges) {u v : Nat} (hu : u < V) (hv : v < V) :
    ∃ d, IsDist edges u v d := by
  obtain ⟨D, par, R⟩ := exists_rooted ht hu
  exact ⟨D v, R.walk v hv, fun n hn => R.short v n hn⟩

theorem dist_one {edges : List (Nat × Nat)} {u v : Nat} (h : IsDist edges u v 1) : Adj edges u v := by
  cases h.1 with
  | cons h1 h2 => cases h2; exact h1

theorem sum_le_const {α : Type} {f : α → K} {c : K} : ∀ {l : List α}, (∀ x ∈ l, f x ≤ c) →
    (l.map f).sum ≤ l.length * c ∧ (l.length * c ≤ (l.map f).sum → ∀ x ∈ l, f x = c)
  | [], _ => by simp
  | x :: l, h => by
    obtain ⟨h1, h2⟩ := sum_le_const (l := l) fun y hy => h y (by simp [hy])
    have hx := h x (by simp)
    simp only [List.map_cons, List.sum_cons, List.length_cons, Nat.cast_add, Nat.cast_one, add_mul, one_mul]
    refine ⟨by linarith, fun hle y hy => ?_⟩
    rcases List.mem_cons.1 hy with rfl | hy
    · exact le_antisymm hx (by linarith)
    · exact h2 (by linarith) y hy

/-- Weights that fall from distance one to larger distances determine a tree: it is the only maximum spanning tree. -/
theorem recover {V : Nat} {T : List (Nat × Nat)} (hT : IsTree V T) (w : Nat → Nat → K) (φ : Nat → K)
    (hw : ∀ u < V, ∀ v < V, u ≠ v → ∀ d, IsDist T u v d → w u v = φ d) (hφ : ∀ d, 2 ≤ d → φ d < φ 1) {T' : List (Nat × Nat)}
    (hT' : IsTree V T') : total w T' ≤ total w T ∧ (total w T ≤ total w T' → SamePairs T' T) := by
  have hV := hT.card
  have hV' := hT'.card
  obtain ⟨_, _, R⟩ := exists_rooted hT (r := 0) (by omega)
  obtain ⟨_, _, R'⟩ := exists_rooted hT' (r := 0) (by omega)
  have ht : total w T = T.length * φ 1 := by
    have : ∀ p ∈ T, w p.1 p.2 = φ 1 := by
      rintro ⟨a, b⟩ hp
      have hadj : Adj T a b := .inl hp
      have hne : a ≠ b := fun e => R.irrefl (e ▸ hadj)
      refine hw _ (R.range _ _ hadj).1 _ (R.range _ _ hadj).2 hne 1 ⟨.cons hadj (.nil _), fun n hn => ?_⟩
      cases hn with
      | nil => exact absurd rfl hne
      | cons => omega
    unfold total
    rw [List.map_congr_left this, List.map_const', List.sum_replicate, nsmul_eq_mul]
  have hle : ∀ p ∈ T', w p.1 p.2 ≤ φ 1 ∧ (w p.1 p.2 = φ 1 → Adj T p.1 p.2) := by
    rintro ⟨a, b⟩ hp
    have hadj : Adj T' a b := .inl hp
    have hne : a ≠ b := fun e => R'.irrefl (e ▸ hadj)
    obtain ⟨h1, h2⟩ := R'.range _ _ hadj
    obtain ⟨d, hd⟩ := exists_dist hT h1 h2
    have e := hw _ h1 _ h2 hne d hd
    dsimp only
    rw [e]
    have hd0 : d ≠ 0 := by
      rintro rfl
      have := hd.1
      cases this
      exact hne rfl
    rcases Nat.lt_or_ge d 2 with h | h
    · have : d = 1 := by omega
      subst this
      exact ⟨le_rfl, fun _ => dist_one hd⟩
    · exact ⟨(hφ d h).le, fun e => absurd e (hφ d h).ne⟩
  obtain ⟨s1, s2⟩ := sum_le_const (f := fun p : Nat × Nat => w p.1 p.2) (c := φ 1) (l := T') fun p hp => (hle p hp).1
  have hlen : T'.length = T.length := by omega
  rw [hlen, ← ht] at s1 s2
  refine ⟨s1, fun h => ?_⟩
  have hall := s2 h
  have hsub : (T'.map fun e => s(e.1, e.2)) ⊆ T.map fun e => s(e.1, e.2) := by
    intro x hx
    obtain ⟨p, hp, rfl⟩ := List.mem_map.1 hx
    rcases (hle p hp).2 (hall p hp) with h | h
    · exact List.mem_map.2 ⟨_, h, rfl⟩
    · exact List.mem_map.2 ⟨_, h, Sym2.eq_swap⟩
  exact (List.subperm_of_subset R'.nodup hsub).perm_of_length_le (by simp [hlen])

/-- The probability that row `n` of a clean dataset shows category `i` of feature `u` and category `j` of feature `v`. -/
def cleanPair (mst : List (List K) → List Edge) (tree : TreeStructure) (N n u v : Nat) (i j : Fin M) : K :=
  (generateCleanDataset (M := M) mst tree N : ExceptT PyErr (Expect K) _).run
    (onOk fun t => if t.cell n (u * M + i.val) = 1 ∧ t.cell n (v * M + j.val) = 1 then 1 else 0)

theorem cleanPair_eq (hmst : MstContract mst) (hg : tree.Good) {N n : Nat} (hn : n < N) {u v d : Nat} (hu : u < tree.numVertices)
    (hv : v < tree.numVertices) (huv : u ≠ v) (hd : IsDist tree.getEdges u v d) :
    cleanPair (M := M) mst tree N n u v = uniformPair ((2 / 3) ^ d * (200 / 201) ^ 2) := by
  funext i j
  have := generateCleanDataset_pair hmst hg N {n} (by simpa using hn) hu hv huv hd (fun _ => i) (fun _ => j)
  simp only [Finset.prod_singleton] at this
  exact this

/-- **C55** (recovery by agreement). With two categories or more, the tree is the only maximum spanning tree of the probabilities
that two features agree. -/
theorem clean_recover_agreement (hmst : MstContract mst) (hg : tree.Good) (hM2 : 2 ≤ M) {N n : Nat} (hn : n < N) {T : List (Nat × Nat)}
    (hT : IsTree tree.numVertices T) :
    total (fun u v => ∑ i, cleanPair (M := M) mst tree N n u v i i) T
        ≤ total (fun u v => ∑ i, cleanPair (M := M) mst tree N n u v i i) tree.getEdges ∧
      (total (fun u v => ∑ i, cleanPair (M := M) mst tree N n u v i i) tree.getEdges
        ≤ total (fun u v => ∑ i, cleanPair (M := M) mst tree N n u v i i) T → SamePairs T tree.getEdges) := by
  have hM := M_pos (K := K) (M := M)
  have hM2' : (2 : K) ≤ M := by exact_mod_cast hM2
  refine recover hg.isTree _ (fun d => 1 / (M : K) + (1 - 1 / (M : K)) * ((2 / 3 : K) ^ d * (200 / 201) ^ 2)) ?_ ?_ hT
  · intro u hu v hv huv d hd
    rw [cleanPair_eq hmst hg hn hu hv huv hd]
    unfold uniformPair
    simp only [if_true, Finset.sum_const, Finset.card_univ, Fintype.card_fin, nsmul_eq_mul]
    field_simp
    ring
  · intro d hd
    have h1 : (0 : K) < 1 - 1 / M := by
      rw [sub_pos, div_lt_one hM]; linarith
    have h2 : ((2 : K) / 3) ^ d < (2 / 3) ^ 1 := pow_lt_pow_right_of_lt_one₀ (by norm_num) (by norm_num) (by omega)
    have h3 := mul_lt_mul_of_pos_left (mul_lt_mul_of_pos_right h2 (show (0 : K) < (200 / 201) ^ 2 by norm_num)) h1
    linarith

end

section
variable {M : Nat} [NeZero M] {tree : TreeStructure} {mst : List (List ℝ) → List Edge}

/-- `x log x` along the line from independence to equality. -/
theorem info_eq (s : ℝ) (hs0 : 0 ≤ s) (hs1 : s < 1) :
    mutualInfo (uniformPair (M := M) s) = 1 / M * ((1 + (M - 1) * s) * Real.log (1 + (M - 1) * s) + (M - 1) * ((1 - s) * Real.log (1 - s))) := by
  have hM := M_pos (K := ℝ) (M := M)
  have e1 : ∀ a : Fin M, ∑ b, uniformPair s a b = 1 / (M : ℝ) := by
    intro a
    unfold uniformPair
    rw [← Finset.mul_sum, Finset.sum_add_distrib, ← Finset.mul_sum, Finset.sum_ite_eq]
    simp only [Finset.mem_univ, if_true, Finset.sum_const, Finset.card_univ, Fintype.card_fin, nsmul_eq_mul]
    field_simp; ring
  have e2 : ∀ b : Fin M, ∑ a, uniformPair s a b = 1 / (M : ℝ) := by
    intro b
    unfold uniformPair
    rw [← Finset.mul_sum, Finset.sum_add_distrib, ← Finset.mul_sum, Finset.sum_ite_eq']
    simp only [Finset.mem_univ, if_true, Finset.sum_const, Finset.card_univ, Fintype.card_fin, nsmul_eq_mul]
    field_simp; ring
  unfold mutualInfo
  simp only [e1, e2]
  have e3 : ∀ a b : Fin M, uniformPair s a b * Real.log (uniformPair s a b / (1 / (M : ℝ) * (1 / M)))
      = 1 / M ^ 2 * ((if a = b then (1 + (M - 1) * s) * Real.log (1 + (M - 1) * s) - (1 - s) * Real.log (1 - s) else 0) +
        (1 - s) * Real.log (1 - s)) := by
    intro a b
    unfold uniformPair
    split
    · rw [show 1 / (M : ℝ) * (s * 1 + (1 - s) / M) / (1 / M * (1 / M)) = 1 + (M - 1) * s by field_simp; ring]
      field_simp; ring
    · rw [show 1 / (M : ℝ) * (s * 0 + (1 - s) / M) / (1 / M * (1 / M)) = 1 - s by field_simp; ring]
      field_simp; ring
  simp only [e3, ← Finset.mul_sum, Finset.sum_add_distrib, Finset.sum_ite_eq, Finset.mem_univ, if_true, Finset.sum_const,
    Finset.card_univ, Fintype.card_fin, nsmul_eq_mul]
  field_simp
  ring

theorem info_lt (hM2 : 2 ≤ M) {s t : ℝ} (hs : 0 < s) (hst : s < t) (ht : t < 1) :
    mutualInfo (uniformPair (M := M) s) < mutualInfo (uniformPair (M := M) t) := by
  have hM := M_pos (K := ℝ) (M := M)
  have hM2' : (2 : ℝ) ≤ M := by exact_mod_cast hM2
  rw [info_eq s hs.le (by linarith), info_eq t (by linarith) ht]
  refine mul_lt_mul_of_pos_left ?_ (by positivity)
  set φ : ℝ → ℝ := fun x => x * Real.log x with hφ
  have hconv := Real.strictConvexOn_mul_log
  set a := s / t with ha
  have ht0 : 0 < t := by linarith
  have ha0 : 0 < a := by positivity
  have ha1 : a < 1 := by rw [ha, div_lt_one ht0]; exact hst
  have hat : a * t = s := by rw [ha]; field_simp
  have c1 := hconv.2 (x := 1 + (M - 1) * t) (show (0 : ℝ) ≤ _ by nlinarith) (y := 1) (show (0 : ℝ) ≤ 1 by norm_num)
    (by nlinarith) ha0 (sub_pos.2 ha1) (by ring)
  have c2 := hconv.2 (x := 1 - t) (show (0 : ℝ) ≤ _ by linarith) (y := 1) (show (0 : ℝ) ≤ 1 by norm_num)
    (by linarith) ha0 (sub_pos.2 ha1) (by ring)
  have c3 := hconv.convexOn.2 (x := 1 + (M - 1) * t) (show (0 : ℝ) ≤ _ by nlinarith) (y := 1 - t) (show (0 : ℝ) ≤ _ by linarith)
    (show (0 : ℝ) ≤ 1 / M by positivity) (show (0 : ℝ) ≤ (M - 1) / M from div_nonneg (by linarith) hM.le) (by field_simp; ring)
  simp only [smul_eq_mul, Real.log_one, mul_zero, add_zero, mul_one] at c1 c2 c3
  rw [show a * (1 + (M - 1) * t) + (1 - a) = 1 + (M - 1) * s by rw [← hat]; ring] at c1
  rw [show a * (1 - t) + (1 - a) = 1 - s by rw [← hat]; ring] at c2
  rw [show 1 / (M : ℝ) * (1 + (M - 1) * t) + (M - 1) / M * (1 - t) = 1 by field_simp; ring, Real.log_one, mul_zero] at c3
  set A := (1 + (M - 1) * t) * Real.log (1 + (M - 1) * t)
  set B := (1 - t) * Real.log (1 - t)
  have c4 : 0 ≤ A + (M - 1) * B := by
    have : 1 / (M : ℝ) * A + (M - 1) / M * B = 1 / M * (A + (M - 1) * B) := by ring
    rw [this] at c3
    exact nonneg_of_mul_nonneg_right c3 (by positivity)
  have c5 : a * (A + (M - 1) * B) ≤ A + (M - 1) * B := by nlinarith
  have c6 := mul_lt_mul_of_pos_left c2 (show (0 : ℝ) < M - 1 by linarith)
  linarith

/-- **C55** (recovery by information). With two categories or more, the tree is the only maximum spanning tree of the mutual
informations of pairs of features. -/
theorem clean_recover_info (hmst : MstContract mst) (hg : tree.Good) (hM2 : 2 ≤ M) {N n : Nat} (hn : n < N) {T : List (Nat × Nat)}
    (hT : IsTree tree.numVertices T) :
    total (fun u v => mutualInfo (cleanPair (M := M) mst tree N n u v)) T
        ≤ total (fun u v => mutualInfo (cleanPair (M := M) mst tree N n u v)) tree.getEdges ∧
      (total (fun u v => mutualInfo (cleanPair (M := M) mst tree N n u v)) tree.getEdges
        ≤ total (fun u v => mutualInfo (cleanPair (M := M) mst tree N n u v)) T → SamePairs T tree.getEdges) := by
  refine recover hg.isTree _ (fun d => mutualInfo (uniformPair (M := M) ((2 / 3) ^ d * (200 / 201) ^ 2))) ?_ ?_ hT
  · intro u hu v hv huv d hd
    rw [cleanPair_eq hmst hg hn hu hv huv hd]
  · intro d hd
    refine info_lt hM2 (by positivity) ?_ (by norm_num)
    exact mul_lt_mul_of_pos_right (pow_lt_pow_right_of_lt_one₀ (by norm_num) (by norm_num) (by omega)) (by norm_num)

end

/-- A star with three leaves. -/
def starTree : TreeStructure := ⟨4, makeTree [(0, 1), (0, 2), (0, 3)]⟩

theorem starTree_good : starTree.Good where
  isTree := makeTree_isTree (isTree_of_smaller rfl (by decide) (by decide))
  sorted := ⟨_, rfl⟩

-- Two leaves of the star are at distance two: they agree with probability 1/3 + 2/3 * (4/9) * (200/201)^2 in three categories.
example {mst : List (List ℚ) → List Edge} (hmst : MstContract mst) (i : Fin 3) :
    cleanPair (M := 3) mst starTree 5 4 1 3 i i = 1 / 3 * ((2 / 3) ^ 2 * (200 / 201) ^ 2 + (1 - (2 / 3) ^ 2 * (200 / 201) ^ 2) / 3) := by
  have hd : IsDist starTree.getEdges 1 3 2 := by
    refine ⟨.cons (v := 0) (by decide +kernel) (.cons (v := 3) (by decide +kernel) (.nil _)), fun n hn => ?_⟩
    by_contra h
    have h01 : n = 0 ∨ n = 1 := by omega
    rcases h01 with rfl | rfl
    · cases hn
    · exact absurd (dist_one (edges := starTree.getEdges) (u := 1) (v := 3) ⟨hn, fun n hn => by
        by_contra h0
        have : n = 0 := by omega
        subst this
        cases hn⟩) (by decide +kernel)
  rw [cleanPair_eq hmst starTree_good (by decide) (by decide) (by decide) (by decide) hd]
  simp [uniformPair]

end TreeCat
