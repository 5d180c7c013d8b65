import Verif.Props.Ensemble
import Verif.Props.ServerSample
import Verif.Props.Symmetry

/-!
# C102: queries do not depend on the names of the clusters

Two models that differ only in the names of the clusters, renamed feature by feature, give the same answers: log
probabilities, samples, marginals, perplexities and correlations. What a server answers is a fact about the data and not about
the numbers that training happened to give to the clusters.
-/

set_option linter.unusedSectionVars false

namespace TreeCat.Spec

/-- The second model is the first with the clusters of every feature `v` renamed by `σ v`. -/
structure RenamedModel {K : Type} [Field K] {M : Nat} (σ : Nat → Equiv.Perm (Fin M)) (model model' : Model K M) : Prop where
  tree : model'.tree = model.tree
  ragged : model'.raggedIndex = model.raggedIndex
  logits : model'.edgeLogits = model.edgeLogits
  vert : ∀ v < model.tree.numVertices, ∀ m, model'.vertSS v (σ v m) = model.vertSS v m
  edge : ∀ c ∈ model.tree.treeGrid, ∀ a b, model'.edgeSS c.1 (σ c.2.1 a) (σ c.2.2 b) = model.edgeSS c.1 a b
  feat : ∀ v < model.tree.numVertices, ∀ r ∈ columns model v, ∀ m, model'.featSS r (σ v m) = model.featSS r m

end TreeCat.Spec

namespace TreeCat

open Spec Util

section
variable {K : Type} [Field K] [LinearOrder K] [IsStrictOrderedRing K] {M : Nat} [NeZero M]
variable {σ : Nat → Equiv.Perm (Fin M)} {model model' : Model K M} {srv srv' : Server K M}

theorem RenamedModel.columns (R : RenamedModel σ model model') (v : Nat) : columns model' v = columns model v := by
  unfold Spec.columns; rw [R.ragged]

/-- A renamed model is a model. -/
theorem RenamedModel.valid (R : RenamedModel σ model model') (h : Model.Valid model) : Model.Valid model' where
  isTree := by rw [R.tree]; exact h.isTree
  sorted := by rw [R.tree]; exact h.sorted
  ragged := by rw [R.tree, R.ragged]; exact h.ragged
  mono := by rw [R.ragged]; exact h.mono
  vert v hv m := by
    rw [R.tree] at hv
    rw [← (σ v).apply_symm_apply m, R.vert v hv]; exact h.vert v hv _
  edge c hc a b := by
    rw [R.tree] at hc
    rw [← (σ c.2.1).apply_symm_apply a, ← (σ c.2.2).apply_symm_apply b, R.edge c hc]; exact h.edge c hc _ _
  feat v hv r hr m := by
    rw [R.tree] at hv
    rw [RenamedModel.columns R] at hr
    rw [← (σ v).apply_symm_apply m, R.feat v hv r hr]; exact h.feat v hv r hr _
  logits := by rw [R.tree, R.logits]; exact h.logits

theorem grid_range (h : Model.Valid model) {c : Nat × Nat × Nat} (hc : c ∈ model.tree.treeGrid) :
    c.2.1 < model.tree.numVertices ∧ c.2.2 < model.tree.numVertices :=
  h.isTree.range (c.2.1, c.2.2) (List.mem_map.2 ⟨c, hc, rfl⟩)

/-- The counts of a renamed model add up if those of the model do. -/
theorem RenamedModel.consistent (R : RenamedModel σ model model') (h : Model.Valid model) (hc : Model.Consistent model) :
    Model.Consistent model' := by
  intro c hm
  rw [R.tree] at hm
  obtain ⟨h1, h2⟩ := grid_range h hm
  refine ⟨fun a => ?_, fun b => ?_⟩
  · rw [← (σ c.2.1).apply_symm_apply a, R.vert _ h1, ← (hc c hm).1, ← Equiv.sum_comp (σ c.2.2)]
    exact Finset.sum_congr rfl fun b _ => R.edge c hm _ _
  · rw [← (σ c.2.2).apply_symm_apply b, R.vert _ h2, ← (hc c hm).2, ← Equiv.sum_comp (σ c.2.1)]
    exact Finset.sum_congr rfl fun b _ => R.edge c hm _ _

theorem vertMean_renamed (R : RenamedModel σ model model') {v : Nat} (hv : v < model.tree.numVertices) (m : Fin M) :
    vertMean model' v (σ v m) = vertMean model v m := by
  unfold vertMean
  rw [R.vert v hv, ← Equiv.sum_comp (σ v)]
  simp only [R.vert v hv]

theorem edgeMean_renamed (R : RenamedModel σ model model') {c : Nat × Nat × Nat} (hc : c ∈ model.tree.treeGrid) (a b : Fin M) :
    edgeMean model' c.1 (σ c.2.1 a) (σ c.2.2 b) = edgeMean model c.1 a b := by
  have e : ∑ a', ∑ b', (model'.edgeSS c.1 a' b' : K) = ∑ a', ∑ b', (model.edgeSS c.1 a' b' : K) := by
    rw [← Equiv.sum_comp (σ c.2.1)]
    refine Finset.sum_congr rfl fun a _ => ?_
    rw [← Equiv.sum_comp (σ c.2.2)]
    simp only [R.edge c hc]
  unfold edgeMean
  rw [R.edge c hc, e]

theorem featMean_renamed (R : RenamedModel σ model model') {v : Nat} (hv : v < model.tree.numVertices) {r : Nat}
    (hr : r ∈ columns model v) (m : Fin M) : featMean model' v r (σ v m) = featMean model v r m := by
  unfold featMean
  rw [R.feat v hv r hr, RenamedModel.columns R]
  congr 2
  exact Finset.sum_congr rfl fun r hr => by rw [R.feat v hv r hr]

theorem latentProb_renamed (R : RenamedModel σ model model') (h : Model.Valid model) {z z' : Nat → Fin M}
    (hz : ∀ v < model.tree.numVertices, z' v = σ v (z v)) : latentProb model' z' = latentProb model z := by
  unfold latentProb
  rw [R.tree]
  congr 1
  · refine Finset.prod_congr rfl fun v hv => ?_
    rw [Finset.mem_range] at hv
    rw [hz v hv, vertMean_renamed R hv]
  · congr 1
    refine List.map_congr_left fun c hc => ?_
    obtain ⟨h1, h2⟩ := grid_range h hc
    rw [hz _ h1, hz _ h2, edgeMean_renamed R hc, vertMean_renamed R h1, vertMean_renamed R h2]

theorem rowProb_renamed (R : RenamedModel σ model model') (data : Nat → Int) {z z' : Nat → Fin M}
    (hz : ∀ v < model.tree.numVertices, z' v = σ v (z v)) : rowProb model' data z' = rowProb model data z := by
  unfold rowProb
  rw [R.tree]
  refine Finset.prod_congr rfl fun v hv => ?_
  rw [Finset.mem_range] at hv
  rw [RenamedModel.columns R]
  refine Finset.prod_congr rfl fun r hr => ?_
  rw [hz v hv, featMean_renamed R hv hr]

theorem observe_renamed (R : RenamedModel σ model model') {z z' : Nat → Fin M}
    (hz : ∀ v < model.tree.numVertices, z' v = σ v (z v)) (k : (Nat → Int) → K) (vs : List Nat)
    (hvs : ∀ v ∈ vs, v < model.tree.numVertices) (x : Nat → Int) : observe model' z' vs x k = observe model z vs x k := by
  induction vs generalizing x with
  | nil => rfl
  | cons v vs ih =>
    have hv := hvs v (by simp)
    unfold observe
    rw [RenamedModel.columns R]
    refine Finset.sum_congr rfl fun r hr => ?_
    rw [hz v hv, featMean_renamed R hv hr, ih (fun w hw => hvs w (by simp [hw]))]

theorem sumLatent_renamed (σ : Nat → Equiv.Perm (Fin M)) (V : Nat) {f f' : (Nat → Fin M) → K}
    (hf : ∀ z z', (∀ v < V, z' v = σ v (z v)) → f' z' = f z) : sumLatent V f' = sumLatent V f := by
  unfold sumLatent
  rw [← Equiv.sum_comp (Equiv.piCongrRight fun v : Fin V => σ v)]
  refine Finset.sum_congr rfl fun z _ => hf _ _ fun v hv => ?_
  simp [hv]

/-- **C102**: the probability of a row. -/
theorem dataProb_renamed (R : RenamedModel σ model model') (h : Model.Valid model) (data : Nat → Int) :
    dataProb model' data = dataProb model data := by
  unfold dataProb
  rw [R.tree]
  refine sumLatent_renamed σ _ fun z z' hz => ?_
  rw [latentProb_renamed R h hz, rowProb_renamed R data hz]

theorem sampleMean_renamed (R : RenamedModel σ model model') (h : Model.Valid model) (data : Nat → Int) (counts : List Int)
    (k : (Nat → Int) → K) : sampleMean model' data counts (fun _ => k) = sampleMean model data counts fun _ => k := by
  unfold sampleMean
  rw [dataProb_renamed R h, R.tree]
  congr 1
  refine sumLatent_renamed σ _ fun z z' hz => ?_
  rw [latentProb_renamed R h hz, rowProb_renamed R data hz, observe_renamed R hz]
  intro v hv
  simp only [requested, List.mem_flatMap, List.mem_range, List.mem_replicate] at hv
  obtain ⟨w, hw, -, rfl⟩ := hv
  exact hw

/-- The joint distribution of two latent classes is renamed. -/
theorem pairProb_renamed (R : RenamedModel σ model model') (h : Model.Valid model) {v w : Nat} (hv : v < model.tree.numVertices)
    (hw : w < model.tree.numVertices) (a b : Fin M) : pairProb model' v w (σ v a) (σ w b) = pairProb model v w a b := by
  unfold pairProb
  rw [R.tree]
  refine sumLatent_renamed σ _ fun z z' hz => ?_
  rw [latentProb_renamed R h hz, hz v hv, hz w hw]
  simp only [EmbeddingLike.apply_eq_iff_eq]

/-- Two runs of training that end with the same tree, and with assignments that differ in the names of the clusters, return
renamed models. -/
theorem trainedModel_renamed {t : Table} {st st' : Trainer K M} (hm : Matches t st) (hm' : Matches t st')
    (hV : st.tree.numVertices = t.numCols) (ht : st'.tree = st.tree) (ha : st'.added = st.added)
    (hz : ∀ n ∈ st.added, ∀ v, st'.assign n v = σ v (st.assign n v)) (logits : List K) :
    RenamedModel σ (trainedModel t st logits) (trainedModel t st' logits) where
  tree := ht
  ragged := rfl
  logits := rfl
  vert v hv m := by
    have hv : v < t.numCols := hV ▸ hv
    change st'.vertSS v _ = st.vertSS v _
    rw [hm'.vert v hv, hm.vert v hv, ha, vertCount_rename hz]
  edge c hc a b := by
    obtain ⟨e, u, v⟩ := c
    have hc : (e, u, v) ∈ st.tree.treeGrid := hc
    change st'.edgeSS e (σ u a) (σ v b) = st.edgeSS e a b
    rw [hm'.edge e u v (by rw [ht]; exact hc), hm.edge e u v hc, ha, edgeCount_rename hz]
  feat v hv r hr m := by
    have hv : v < t.numCols := hV ▸ hv
    obtain ⟨h1, h2⟩ := Finset.mem_Ico.1 hr
    change st'.featSS r _ = st.featSS r _
    rw [hm'.feat v hv r h1 h2, hm.feat v hv r h1 h2, ha, featTotal_rename hz]

/-- **C102**, samples: the `N` rows that a server draws have the same law. -/
theorem server_sample_renamed (R : RenamedModel σ model model') (h : Model.Valid model) (s : Serves model srv)
    (s' : Serves model' srv') (N : Nat) (counts : List Int) (data : Option (List Int))
    (hd : ∀ d ∈ data, d.length = model.raggedIndex.getLastD 0) (hl : counts.length = model.tree.numVertices)
    (hc : ∀ v < model.tree.numVertices, counts.getD v 0 ≤ 127)
    (hne : ∀ v < model.tree.numVertices, 0 < counts.getD v 0 → (columns model v).Nonempty) (k : Nat → List Int → K) :
    (srv'.sample N counts data : ExceptT PyErr (Expect K) _).run (onOk fun rows => ∏ n ∈ Finset.range N, k n (rows.getD n []))
      = (srv.sample N counts data : ExceptT PyErr (Expect K) _).run
          (onOk fun rows => ∏ n ∈ Finset.range N, k n (rows.getD n [])) := by
  rw [server_sample_exact h s N counts data hd hl hc hne k,
    server_sample_exact (RenamedModel.valid R h) s' N counts data (by rw [R.ragged]; exact hd) (by rw [R.tree]; exact hl)
      (by rw [R.tree]; exact hc) (by intro v hv; rw [R.tree] at hv; rw [RenamedModel.columns R]; exact hne v hv) k, R.ragged]
  exact Finset.prod_congr rfl fun n _ => sampleMean_renamed R h _ _ _

/-- **C102**, marginals: the two servers run the same program, and it writes the same block for every feature. -/
theorem marginals_renamed (R : RenamedModel σ model model') (h : Model.Valid model) (hcons : Model.Consistent model)
    (s : Serves model srv) (s' : Serves model' srv') (data : List Int) (junk junk' : Nat → Fin M → K) {v : Nat}
    (hv : v < model.tree.numVertices) {c : Nat} (hc : c ∈ columns model v) :
    srv'.program = srv.program ∧
    marginalsWith srv' srv'.program junk' data c = marginalsWith srv srv.program junk data c := by
  have e : srv'.program = srv.program := by
    have := s'.program
    rw [R.tree, s.program] at this
    exact (Except.ok.inj this).symm
  obtain ⟨r, hr, hp⟩ := exists_plan_none h s.program
  refine ⟨e, ?_⟩
  rw [e, marginals_exact_partial h hcons s hr hp data junk hv hc,
    marginals_exact_partial (RenamedModel.valid R h) (RenamedModel.consistent R h hcons) s' (by rw [R.tree]; exact hr)
      (by rw [R.tree]; exact hp) data junk' (by rw [R.tree]; exact hv) (by rw [RenamedModel.columns R]; exact hc)]
  have ev : ∀ keep : Nat → Prop, evidenceOn model' keep (fun c => data.getD c 0) = evidenceOn model keep fun c => data.getD c 0 := by
    intro keep
    funext c
    unfold evidenceOn
    congr 1
    rw [R.tree]
    simp only [RenamedModel.columns R]
  rw [ev, R.tree]
  unfold predictive
  simp only [dataProb_renamed R h]

end

section
variable {M : Nat} [NeZero M] {σ : Nat → Equiv.Perm (Fin M)} {model model' : Model ℝ M} {srv srv' : Server ℝ M}

/-- **C102**, log probabilities: equal, not only equally distributed. -/
theorem server_logprob_renamed (R : RenamedModel σ model model') (h : Model.Valid model) (s : Serves model srv)
    (s' : Serves model' srv') (data : List (List Int)) (hd : ∀ row ∈ data, row.length = model.raggedIndex.getLastD 0) :
    srv'.logprob realNum data = srv.logprob realNum data := by
  obtain ⟨lp, h1, h2⟩ := server_logprob_of h s data hd
  obtain ⟨lp', h1', h2'⟩ := server_logprob_of (RenamedModel.valid R h) s' data (by rw [R.ragged]; exact hd)
  have : lp' = lp := by
    funext row
    apply Real.exp_injective
    rw [h2, h2', dataProb_renamed R h]
  rw [h1, h1', this]

/-- **C102**, perplexities of the latent classes. -/
theorem latentPerplexity_renamed (R : RenamedModel σ model model') (h : Model.Valid model) (s : Serves model srv)
    (s' : Serves model' srv') : srv'.latentPerplexity realNum = srv.latentPerplexity realNum := by
  rw [(latentPerplexity_spec h s).1, (latentPerplexity_spec (RenamedModel.valid R h) s').1, R.tree]
  refine List.map_congr_left fun v hv => ?_
  rw [List.mem_range] at hv
  unfold shannon
  rw [← Equiv.sum_comp (σ v)]
  simp only [vertMean_renamed R hv]

/-- **C102**, perplexities of the observations. -/
theorem observedPerplexity_renamed (R : RenamedModel σ model model') (h : Model.Valid model) (hc : Model.Consistent model)
    (s : Serves model srv) (s' : Serves model' srv') (hne : ∀ v < model.tree.numVertices, (columns model v).Nonempty)
    (counts : List Int) : srv'.observedPerplexity realNum (some counts) = srv.observedPerplexity realNum (some counts) := by
  rw [(observedPerplexity_partial h hc s hne counts).1,
    (observedPerplexity_partial (RenamedModel.valid R h) (RenamedModel.consistent R h hc) s'
      (by intro v hv; rw [R.tree] at hv; rw [RenamedModel.columns R]; exact hne v hv) counts).1, R.tree]
  congr 1
  refine List.map_congr_left fun v _ => ?_
  rw [RenamedModel.columns R]
  have : predictive model' (fun _ => 0) = predictive model fun _ => 0 := by
    funext c
    unfold predictive
    simp only [dataProb_renamed R h]
  rw [this]

/-- Mutual information does not depend on names. -/
theorem mutualInfo_renamed (f g : Equiv.Perm (Fin M)) {p q : Fin M → Fin M → ℝ} (e : ∀ a b, q (f a) (g b) = p a b) :
    mutualInfo q = mutualInfo p := by
  unfold mutualInfo
  rw [← Equiv.sum_comp f]
  refine Finset.sum_congr rfl fun a _ => ?_
  rw [← Equiv.sum_comp g]
  refine Finset.sum_congr rfl fun b _ => ?_
  rw [← Equiv.sum_comp g (fun b' => q (f a) b'), ← Equiv.sum_comp f (fun a' => q a' (g b))]
  simp only [e]

/-- **C102**, correlations of the latent classes. -/
theorem latentCorrelation_renamed (R : RenamedModel σ model model') (h : Model.Valid model) (hc : Model.Consistent model)
    (s : Serves model srv) (s' : Serves model' srv') (junk junk' : Nat → Fin M → Fin M → ℝ) :
    srv'.latentCorrelation realNum junk' = srv.latentCorrelation realNum junk := by
  rw [latentCorrelation_eq h hc s junk,
    latentCorrelation_eq (RenamedModel.valid R h) (RenamedModel.consistent R h hc) s' junk', R.tree]
  congr 1
  refine List.map_congr_left fun i hi => List.map_congr_left fun j hj => ?_
  rw [List.mem_range] at hi hj
  unfold rho
  rw [mutualInfo_renamed (σ i) (σ j) fun a b => pairProb_renamed R h hi hj a b]

end

/-- The path of three features, with the two clusters of its first feature exchanged. -/
def pathRenamed (K : Type) [Field K] : Model K 2 :=
  { pathModel K with
    edgeSS := fun e a b => if e = 0 then (if a = b then 0 else 1) else if a = b then 1 else 0
    featSS := fun r m => if r < 2 then (if r % 2 = m.val then 0 else 1) else if r % 2 = m.val then 1 else 0 }

theorem pathRenamed_spec (K : Type) [Field K] :
    RenamedModel (fun v => if v = 0 then Equiv.swap 0 1 else 1) (pathModel K) (pathRenamed K) where
  tree := rfl
  ragged := rfl
  logits := rfl
  vert v _ m := rfl
  edge c hc := by
    rw [pathModel_grid] at hc
    simp only [List.mem_cons, List.not_mem_nil, or_false] at hc
    rcases hc with rfl | rfl <;> simp only [pathModel, pathRenamed] <;> decide
  feat v hv r hr m := by
    have hv' : v < 3 := hv
    simp only [Spec.columns, Finset.mem_Ico] at hr
    have hr' : [0, 2, 4, 6].getD v 0 ≤ r ∧ r < [0, 2, 4, 6].getD (v + 1) 0 := hr
    simp only [pathModel, pathRenamed]
    have h3 : r < 6 := hr'.2.trans_le (by interval_cases v <;> decide)
    revert m
    interval_cases v <;> interval_cases r <;> first | decide | exact absurd hr' (by decide)

-- The two models differ, their servers exist, and the answers agree.
example : ∃ srv srv' : Server ℝ 2, Serves (pathModel ℝ) srv ∧ Serves (pathRenamed ℝ) srv' ∧ srv.edgeProbs 0 ≠ srv'.edgeProbs 0 ∧
    srv'.logprob realNum [[1, 0, 0, 0, 0, 2]] = srv.logprob realNum [[1, 0, 0, 0, 0, 2]] ∧
    srv'.latentCorrelation realNum (fun _ _ _ => 1) = srv.latentCorrelation realNum (fun _ _ _ => 1) := by
  have R := pathRenamed_spec ℝ
  obtain ⟨mst, hmst⟩ := exists_mst (K := ℝ)
  obtain ⟨srv, -, s, -⟩ := server_init hmst (pathModel_valid ℝ)
  obtain ⟨srv', -, s', -⟩ := server_init hmst (RenamedModel.valid R (pathModel_valid ℝ))
  refine ⟨srv, srv', s, s', fun e => ?_, server_logprob_renamed R (pathModel_valid ℝ) s s' _ (by simp [pathModel]),
    latentCorrelation_renamed R (pathModel_valid ℝ) (pathModel_consistent ℝ) s s' _ _⟩
  have := congrFun (congrFun e 0) 0
  rw [s.edge, s'.edge] at this
  simp [edgeMean, pathModel, pathRenamed] at this
  norm_num at this

end TreeCat
