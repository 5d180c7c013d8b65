import Verif.Lemmas.RowDraw
import Verif.Lemmas.Likelihood
import Verif.Props.EstimateTree
import Verif.Spec.Serving

/-!
# The server's parameters and its inward messages
-/

set_option linter.unusedSectionVars false

namespace TreeCat

open Spec

section
variable {K : Type} [Field K] [LinearOrder K] [IsStrictOrderedRing K] {M : Nat} [NeZero M]
variable {model : Model K M}

/-! ### Blocks -/

theorem model_beg_le {model : Model K M} (h : Model.Valid model) {v w : Nat} (hvw : v ≤ w) (hw : w ≤ model.tree.numVertices) :
    model.raggedIndex.getD v 0 ≤ model.raggedIndex.getD w 0 := by
  have h1 : v < model.raggedIndex.length := by rw [h.ragged]; omega
  have h2 : w < model.raggedIndex.length := by rw [h.ragged]; omega
  rw [List.getD_eq_getElem _ _ h1, List.getD_eq_getElem _ _ h2]
  rcases Nat.lt_or_ge v w with h3 | h3
  · exact List.pairwise_iff_getElem.1 h.mono _ _ h1 h2 h3
  · have : v = w := by omega
    subst this; exact le_refl _

theorem mem_columns {v r : Nat} :
    r ∈ columns model v ↔ model.raggedIndex.getD v 0 ≤ r ∧ r < model.raggedIndex.getD (v + 1) 0 := Finset.mem_Ico

theorem columns_disjoint (h : Model.Valid model) {v w r : Nat} (hv : v < model.tree.numVertices)
    (hw : w < model.tree.numVertices) (h1 : r ∈ columns model v) (h2 : r ∈ columns model w) : v = w := by
  rw [mem_columns] at h1 h2
  by_contra hne
  rcases Nat.lt_or_gt_of_ne hne with h3 | h3
  · have := model_beg_le h (show v + 1 ≤ w by omega) (by omega); omega
  · have := model_beg_le h (show w + 1 ≤ v by omega) (by omega); omega

/-! ### Parameters -/

theorem M_pos : (0 : K) < M := by exact_mod_cast Nat.pos_of_ne_zero (NeZero.ne M)

theorem vertMean_eq (model : Model K M) (v : Nat) (m : Fin M) : vertProbsOf model.vertSS v m = vertMean model v m := by
  unfold vertProbsOf vertMean
  congr 1
  rw [Finset.sum_add_distrib, Finset.sum_const, Finset.card_univ, Fintype.card_fin, nsmul_eq_mul]
  ring

theorem edgeMean_eq (model : Model K M) (e : Nat) (a b : Fin M) : edgeProbsOf model.edgeSS e a b = edgeMean model e a b := by
  unfold edgeProbsOf edgeMean
  have hM := (M_pos (K := K) (M := M)).ne'
  congr 1
  · rw [div_div]
  · simp only [Finset.sum_add_distrib, Finset.sum_const, Finset.card_univ, Fintype.card_fin, nsmul_eq_mul]
    field_simp

theorem vertMean_pos (h : Model.Valid model) {v : Nat} (hv : v < model.tree.numVertices) (m : Fin M) : 0 < vertMean model v m := by
  have h0 : ∀ m, (0 : K) ≤ (model.vertSS v m : K) := fun m => by exact_mod_cast h.vert v hv m
  have hM := M_pos (K := K) (M := M)
  exact div_pos (by linarith [h0 m, one_half_pos (α := K)])
    (add_pos_of_nonneg_of_pos (Finset.sum_nonneg fun m _ => h0 m) (by positivity))

theorem edgeMean_pos (h : Model.Valid model) {c : Nat × Nat × Nat} (hc : c ∈ model.tree.treeGrid) (a b : Fin M) :
    0 < edgeMean model c.1 a b := by
  have h0 : ∀ a b, (0 : K) ≤ (model.edgeSS c.1 a b : K) := fun a b => by exact_mod_cast h.edge c hc a b
  have hM := M_pos (K := K) (M := M)
  exact div_pos (add_pos_of_nonneg_of_pos (h0 a b) (by positivity))
    (add_pos_of_nonneg_of_pos (Finset.sum_nonneg fun a _ => Finset.sum_nonneg fun b _ => h0 a b) (by positivity))

theorem featMean_pos (h : Model.Valid model) {v : Nat} (hv : v < model.tree.numVertices) {r : Nat} (hr : r ∈ columns model v)
    (m : Fin M) : 0 < featMean model v r m := by
  have h0 : ∀ r ∈ columns model v, (0 : K) ≤ (model.featSS r m : K) := fun r hr => by exact_mod_cast h.feat v hv r hr m
  have hM := M_pos (K := K) (M := M)
  refine div_pos (add_pos_of_nonneg_of_pos (h0 r hr) (by positivity))
    (add_pos_of_nonneg_of_pos (Finset.sum_nonneg fun r hr => h0 r hr) (div_pos ?_ (by positivity)))
  exact_mod_cast Finset.card_pos.2 ⟨r, hr⟩

theorem featMean_sum (h : Model.Valid model) {v : Nat} (hv : v < model.tree.numVertices) (hne : (columns model v).Nonempty)
    (m : Fin M) : ∑ r ∈ columns model v, featMean model v r m = 1 := by
  unfold featMean
  have h0 : ∀ r ∈ columns model v, (0 : K) ≤ (model.featSS r m : K) := fun r hr => by exact_mod_cast h.feat v hv r hr m
  have hM := M_pos (K := K) (M := M)
  rw [← Finset.sum_div, Finset.sum_add_distrib, Finset.sum_const, nsmul_eq_mul, mul_one_div]
  refine div_self (add_pos_of_nonneg_of_pos (Finset.sum_nonneg fun r hr => h0 r hr) (div_pos ?_ (by positivity))).ne'
  exact_mod_cast Finset.card_pos.2 hne

theorem vertMean_sum (h : Model.Valid model) {v : Nat} (hv : v < model.tree.numVertices) : ∑ m, vertMean model v m = 1 := by
  unfold vertMean
  have h0 : ∀ m, (0 : K) ≤ (model.vertSS v m : K) := fun m => by exact_mod_cast h.vert v hv m
  have hM := M_pos (K := K) (M := M)
  rw [← Finset.sum_div, Finset.sum_add_distrib, Finset.sum_const, Finset.card_univ, Fintype.card_fin, nsmul_eq_mul, mul_one_div]
  exact div_self (add_pos_of_nonneg_of_pos (Finset.sum_nonneg fun m _ => h0 m) (by positivity)).ne'

/-- The marginals of an edge are those of its ends. -/
theorem edgeMean_sum (hc : Model.Consistent model) {c : Nat × Nat × Nat}
    (hm : c ∈ model.tree.treeGrid) :
    (∀ a, ∑ b, edgeMean model c.1 a b = vertMean model c.2.1 a) ∧
      ∀ b, ∑ a, edgeMean model c.1 a b = vertMean model c.2.2 b := by
  have hM := M_pos (K := K) (M := M)
  obtain ⟨h1, h2⟩ := hc c hm
  have h1' : ∀ a, ∑ b, (model.edgeSS c.1 a b : K) = (model.vertSS c.2.1 a : K) := fun a => by exact_mod_cast h1 a
  have h2' : ∀ b, ∑ a, (model.edgeSS c.1 a b : K) = (model.vertSS c.2.2 b : K) := fun b => by exact_mod_cast h2 b
  have hs : ∑ a, ∑ b, (model.edgeSS c.1 a b : K) = ∑ b, (model.vertSS c.2.2 b : K) := by
    rw [Finset.sum_comm]; exact Finset.sum_congr rfl fun b _ => h2' b
  unfold edgeMean vertMean
  constructor
  · intro a
    rw [← Finset.sum_div, Finset.sum_add_distrib, h1', Finset.sum_congr rfl fun a _ => h1' a]
    congr 1
    simp only [Finset.sum_const, Finset.card_univ, Fintype.card_fin, nsmul_eq_mul]
    field_simp
  · intro b
    rw [← Finset.sum_div, Finset.sum_add_distrib, h2', hs]
    congr 1
    simp only [Finset.sum_const, Finset.card_univ, Fintype.card_fin, nsmul_eq_mul]
    field_simp

/-! ### `Server.init` -/

theorem grid_sorted_lt {V : Nat} {grid : Grid} (ht : IsTree V (gridEdges grid)) (hs : ∃ edges, grid = makeTree edges) :
    ∀ c ∈ grid, c.2.1 < c.2.2 := by
  intro c hc
  obtain ⟨edges, he⟩ := hs
  have hm : (c.2.1, c.2.2) ∈ gridEdges grid := List.mem_map.2 ⟨c, hc, rfl⟩
  have hne := IsTree.ne ht _ hm
  rw [he, gridEdges_makeTree, sortEdges] at hm
  have := (List.perm_insertionSort _ _).mem_iff.1 hm
  obtain ⟨p, -, hp⟩ := List.mem_map.1 this
  unfold sortPair at hp
  simp only at hne
  split at hp <;> · have h1 := congrArg Prod.fst hp; have h2 := congrArg Prod.snd hp; simp only at h1 h2; omega

theorem makeTree_nodup (edges : List Edge) : ((makeTree edges).map Prod.fst).Nodup := by
  unfold makeTree
  rw [List.mapIdx_eq_zipIdx_map, List.map_map]
  have : (Prod.fst ∘ fun (x : Edge × Nat) => (x.2, x.1.1, x.1.2)) = Prod.snd := rfl
  rw [this, List.zipIdx_map_snd]
  exact List.nodup_range'

theorem edgeTransOf_eq (vert : Nat → Fin M → K) : ∀ (grid : Grid) (edge : Nat → Fin M → Fin M → K), (grid.map Prod.fst).Nodup →
    (∀ c ∈ grid, edgeTransOf grid vert edge c.1 = fun a b => edge c.1 a b / (vert c.2.1 a * vert c.2.2 b)) ∧
    ∀ e, e ∉ grid.map Prod.fst → edgeTransOf grid vert edge e = edge e := by
  intro grid
  induction grid with
  | nil => intro edge _; exact ⟨by simp, fun _ _ => rfl⟩
  | cons c grid ih =>
    intro edge hn
    rw [List.map_cons, List.nodup_cons] at hn
    simp only [edgeTransOf, List.foldl_cons]
    obtain ⟨h1, h2⟩ := ih (Function.update (Function.update edge c.1 fun a b => edge c.1 a b / vert c.2.1 a) c.1
      fun a b => (Function.update edge c.1 fun a b => edge c.1 a b / vert c.2.1 a) c.1 a b / vert c.2.2 b) hn.2
    refine ⟨?_, ?_⟩
    · intro c' hc'
      rcases List.mem_cons.1 hc' with rfl | hc'
      · refine (h2 _ hn.1).trans ?_
        rw [Function.update_self]
        funext a b
        rw [Function.update_self, div_div]
      · refine (h1 c' hc').trans ?_
        have hne : c'.1 ≠ c.1 := fun h => hn.1 (by rw [← h]; exact List.mem_map_of_mem hc')
        rw [Function.update_of_ne hne, Function.update_of_ne hne]
    · intro e he
      rw [List.map_cons, List.mem_cons, not_or] at he
      refine (h2 e he.2).trans ?_
      rw [Function.update_of_ne he.1, Function.update_of_ne he.1]

theorem featCondOf_eq (h : Model.Valid model) : ∀ n, n ≤ model.tree.numVertices →
    (∀ v < n, ∀ r ∈ columns model v, featCondOf (K := K) model.raggedIndex n model.featSS r = featMean model v r) ∧
    ∀ r, (∀ v < n, r ∉ columns model v) → featCondOf (K := K) model.raggedIndex n model.featSS r
      = fun m => (model.featSS r m : K) + 1 / 2 / (M : K) := by
  have hM := (M_pos (K := K) (M := M)).ne'
  intro n
  induction n with
  | zero => intro _; exact ⟨fun v hv => by omega, fun r _ => rfl⟩
  | succ n ih =>
    intro hn
    obtain ⟨h1, h2⟩ := ih (by omega)
    have e : featCondOf (K := K) model.raggedIndex (n + 1) model.featSS
        = normBlock (featCondOf model.raggedIndex n model.featSS) (model.raggedIndex.getD n 0) (model.raggedIndex.getD (n + 1) 0) := by
      unfold featCondOf; rw [List.range_succ, List.foldl_append]; rfl
    rw [e]
    have hraw : ∀ r ∈ columns model n, featCondOf (K := K) model.raggedIndex n model.featSS r
        = fun m => (model.featSS r m : K) + 1 / 2 / (M : K) := by
      intro r hr
      refine h2 r fun v hv hr' => ?_
      have := columns_disjoint h (by omega) (by omega) hr hr'
      omega
    refine ⟨?_, ?_⟩
    · intro v hv r hr
      funext m
      by_cases hvn : v = n
      · subst hvn
        have hr' := mem_columns.1 hr
        unfold normBlock
        rw [if_pos hr', hraw r hr]
        unfold featMean
        have : ∑ r' ∈ Finset.Ico (model.raggedIndex.getD v 0) (model.raggedIndex.getD (v + 1) 0),
            featCondOf (K := K) model.raggedIndex v model.featSS r' m
            = ∑ r' ∈ columns model v, ((model.featSS r' m : K) + 1 / 2 / (M : K)) :=
          Finset.sum_congr rfl fun r' hr' => by rw [hraw r' hr']
        rw [this, Finset.sum_add_distrib, Finset.sum_const, nsmul_eq_mul, div_div, mul_one_div]
      · have hr' : ¬ (model.raggedIndex.getD n 0 ≤ r ∧ r < model.raggedIndex.getD (n + 1) 0) := by
          intro hc
          have := columns_disjoint h (by omega) (by omega) hr (mem_columns.2 hc)
          omega
        unfold normBlock
        rw [if_neg hr', h1 v (by omega) r hr]
    · intro r hr
      funext m
      have hr' : ¬ (model.raggedIndex.getD n 0 ≤ r ∧ r < model.raggedIndex.getD (n + 1) 0) :=
        fun hc => hr n (by omega) (mem_columns.2 hc)
      unfold normBlock
      rw [if_neg hr', h2 r fun v hv => hr v (by omega)]

/-- What the server holds. -/
structure Serves (model : Model K M) (srv : Server K M) : Prop where
  tree : srv.tree = model.tree
  ragged : srv.raggedIndex = model.raggedIndex
  vert : ∀ v, srv.vertProbs v = vertMean model v
  edge : ∀ e, srv.edgeProbs e = edgeMean model e
  trans : ∀ c ∈ model.tree.treeGrid, srv.edgeTrans c.1 = fun a b =>
    edgeMean model c.1 a b / (vertMean model c.2.1 a * vertMean model c.2.2 b)
  feat : ∀ v < model.tree.numVertices, ∀ r ∈ columns model v, srv.featCond r = featMean model v r
  program : makeProgram model.tree.treeGrid none = .ok srv.program
  logits : srv.edgeLogits = model.edgeLogits

/-- Logits by number as logits by pair. -/
theorem exists_logit {V : Nat} {l : List K} (h : l.length = V * (V - 1) / 2) :
    l = (completeGrid V).map fun p => l.getD (findCompleteEdge p.2.1 p.2.2) 0 := by
  apply List.ext_getElem?
  intro k
  rw [List.getElem?_map, completeGrid_getElem?]
  cases hp : (pairs V)[k]? with
  | none =>
    rw [List.getElem?_eq_none_iff, pairs_length, tri, ← h] at hp
    rw [List.getElem?_eq_none hp]; rfl
  | some p =>
    obtain ⟨h1, h2, h3⟩ := pairs_getElem?_some V k p hp
    have hk : k < l.length := by
      rw [h, ← h3]; exact fce_lt h1 h2
    simp only [Option.map_some, h3]
    rw [List.getElem?_eq_getElem hk, List.getD_eq_getElem _ _ hk]

theorem getEdges_eq (t : TreeStructure) : t.getEdges = gridEdges t.treeGrid := rfl

/-- A valid model has a server, and its parameters are the posterior means. -/
theorem server_init {mst : List (List K) → List Edge} (hmst : MstContract mst) (h : Model.Valid model) :
    ∃ srv, Server.init mst model = .ok srv ∧ Serves model srv ∧ IsTree model.tree.numVertices srv.estimatedTree ∧
      Canonical srv.estimatedTree := by
  have hV : 1 ≤ model.tree.numVertices := by have := h.isTree.card; omega
  have ht : IsTree model.tree.numVertices (gridEdges model.tree.treeGrid) := h.isTree
  obtain ⟨c, hc1, hc2⟩ := findCenter_spec ht
  obtain ⟨d, par, ch, eid, L, -, -, -, -, hp⟩ := makeProgram_some ht hc2.1
  have hp' : makeProgram model.tree.treeGrid none = .ok (progOf c par ch eid L) := by
    simp only [makeProgram, hc1, bind, Except.bind] at hp ⊢
    exact hp
  have hl : ∃ logit : Nat → Nat → K, model.edgeLogits
      = (completeGrid model.tree.numVertices).map fun p => logit p.2.1 p.2.2 := by
    exact ⟨fun a b => model.edgeLogits.getD (findCompleteEdge a b) 0, exists_logit h.logits⟩
  obtain ⟨logit, hlogit⟩ := hl
  obtain ⟨T, hT1, hT2, hT3, -⟩ := estimateTree_max mst hmst _ hV _ (makeCompleteGraph_eq _) logit
  rw [← hlogit] at hT1
  obtain ⟨last, hlast⟩ : ∃ x, model.raggedIndex.getLast? = some x := by
    cases hg : model.raggedIndex.getLast? with
    | none => rw [List.getLast?_eq_none_iff] at hg; have := h.ragged; rw [hg] at this; simp at this
    | some x => exact ⟨x, rfl⟩
  refine ⟨{ tree := model.tree, program := progOf c par ch eid L, raggedIndex := model.raggedIndex,
            vertProbs := vertProbsOf model.vertSS, edgeProbs := edgeProbsOf model.edgeSS
            edgeTrans := edgeTransOf model.tree.treeGrid (vertProbsOf model.vertSS) (edgeProbsOf model.edgeSS)
            featCond := featCondOf model.raggedIndex model.tree.numVertices model.featSS
            edgeLogits := model.edgeLogits, estimatedTree := T }, ?_, ?_, hT3, hT2⟩
  · simp only [Server.init, hlast, hp', bind, Except.bind, if_neg (show ¬ model.raggedIndex.length < model.tree.numVertices + 1 by
      rw [h.ragged]; omega), makeCompleteGraph_eq, hT1]
  · obtain ⟨edges, he⟩ := h.sorted
    have hid : (model.tree.treeGrid.map Prod.fst).Nodup := by rw [he]; exact makeTree_nodup edges
    refine ⟨rfl, rfl, fun v => funext fun m => vertMean_eq model v m,
      fun e => funext fun a => funext fun b => edgeMean_eq model e a b, ?_, ?_, hp', rfl⟩
    · intro c hc
      refine ((edgeTransOf_eq _ _ _ hid).1 c hc).trans ?_
      funext a b
      rw [edgeMean_eq, vertMean_eq, vertMean_eq]
    · exact (featCondOf_eq h _ (le_refl _)).1

end

end TreeCat
