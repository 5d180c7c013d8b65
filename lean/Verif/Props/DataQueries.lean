import Verif.Props.ServeImport

/-! # C78: the queries of `DataServer` that take no rows -/

set_option linter.unusedSectionVars false

namespace TreeCat

open Spec Util
open Config (Str)

variable {S : Schema} {fs : List (Str × Feature)}

section
variable {K : Type} [Field K] [LinearOrder K] [IsStrictOrderedRing K] {M : Nat} [NeZero M]
variable {models : List (Model K M)}

/-- The tree of a server has the largest summed logit of all spanning trees. -/
theorem server_estimatedTree {mst : List (List K) → List Edge} (hmst : MstContract mst) {model : Model K M} (h : Model.Valid model)
    {srv : Server K M} (hi : Server.init mst model = .ok srv) (T : List Edge) (hT : IsTree model.tree.numVertices T) :
    (T.map fun p => model.edgeLogits.getD (findCompleteEdge (min p.1 p.2) (max p.1 p.2)) 0).sum
      ≤ (srv.estimatedTree.map fun p => model.edgeLogits.getD (findCompleteEdge p.1 p.2) 0).sum := by
  have hV : 1 ≤ model.tree.numVertices := by have := h.isTree.card; omega
  obtain ⟨T', h1, -, -, h4⟩ := estimateTree_max mst hmst model.tree.numVertices hV _ (makeCompleteGraph_eq _) fun a b =>
    model.edgeLogits.getD (findCompleteEdge a b) 0
  rw [← exists_logit h.logits] at h1
  have e : srv.estimatedTree = T' := by
    simp only [Server.init] at hi
    split at hi
    · cases hi
    · simp only [bind, Except.bind] at hi
      split at hi
      · cases hi
      · split at hi
        · cases hi
        · simp only [makeCompleteGraph_eq, h1] at hi
          rw [← Except.ok.inj hi]
  rw [e]
  exact h4 T hT

/-- **C78**, `edge_logits` and `estimate_tree`: for one model and for an ensemble, the logits are the means of those of the
models, and the tree is a spanning tree of the features with the largest summed mean logit. -/
theorem dataServer_tree {mst : List (List K) → List Edge} (hmst : MstContract mst) (h : Describes S fs) (hfit : Fits fs) (table : Table)
    (ht : table.raggedIndex = S.raggedIndex) (himp : Imported fs table.data) (hne : table.data ≠ []) (E : Members models fs.length S.raggedIndex) :
    ∃ ds, DataServer.init mst S table models = .ok ds ∧ ds.featureNames = fs.map Prod.fst ∧
      ds.edgeLogits = ((List.range (fs.length * (fs.length - 1) / 2)).map fun k => meanOf models fun m => m.edgeLogits.getD k 0) ∧
      Canonical ds.estimateTree ∧ IsTree fs.length ds.estimateTree ∧ ∀ T, IsTree fs.length T →
        (T.map fun p => meanOf models fun m => m.edgeLogits.getD (findCompleteEdge (min p.1 p.2) (max p.1 p.2)) 0).sum
          ≤ (ds.estimateTree.map fun p => meanOf models fun m => m.edgeLogits.getD (findCompleteEdge p.1 p.2) 0).sum := by
  obtain ⟨counts, e, -, -⟩ := dataServer_counts h hfit himp hne
  rw [← ht] at e
  obtain ⟨ens, ee, -, -, h1, h2, h3, h4⟩ := ensemble_init hmst E
  unfold DataServer.init
  simp only [e, bind, Except.bind]
  split
  · rename_i model
    have hv := E.valid model (by simp)
    obtain ⟨srv, es, s1, s2, s3⟩ := server_init hmst hv
    have hmax := server_estimatedTree hmst hv es
    rw [E.size model (by simp)] at s2 hmax
    simp only [es]
    refine ⟨_, rfl, h.names, ?_, s3, s2, fun T hT => ?_⟩
    · simp only [DataServer.edgeLogits, s1.logits]
      have hl : model.edgeLogits.length = fs.length * (fs.length - 1) / 2 := by rw [hv.logits, E.size model (by simp)]
      rw [← hl]
      refine List.ext_getElem (by simp) fun k hk _ => ?_
      rw [List.getElem_map, List.getElem_range, meanOf]
      simp [List.getD_eq_getElem?_getD, hk]
    · simpa [meanOf, DataServer.estimateTree] using hmax T hT
  · simp only [ee]
    exact ⟨_, rfl, h.names, h1, h2, h3, h4⟩

/-- **C78**, `sample_tree`: for one model and for an ensemble, whatever is drawn, `n` spanning trees of the features. -/
theorem dataServer_sampleTrees {data : List (List Int)} (E : Members models fs.length S.raggedIndex) {ds : DataServer K M}
    (hd : Holds S fs data models ds) (num : ServeNum K) (junk : Nat → Nat) (n : Nat) :
    (∃ o, (ds.sampleTrees num junk n : ExceptT PyErr Poss _).run o) ∧
    ∀ o, (ds.sampleTrees num junk n : ExceptT PyErr Poss _).run o → ∃ ts, o = .ok ts ∧ ts.length = n ∧
      ∀ T ∈ ts, IsTree fs.length T ∧ Canonical T := by
  unfold DataServer.sampleTrees
  have hs := hd.server
  split at hs
  · rename_i srv hsrv
    obtain ⟨model, rfl, s1, s2, s3⟩ := hs
    have hz := E.size model (by simp)
    have := Sure.sampleTrees (E.valid model (by simp)) s1 (by rw [hz]; exact s2) s3 num junk n
    rw [hz] at this
    rw [hsrv]
    exact this
  · rename_i ens hsrv
    rw [hsrv]
    obtain ⟨h1, h2⟩ := ensemble_sampleTrees E hs.1 num junk n
    refine ⟨h1, fun o ho => ?_⟩
    obtain ⟨ts, e, hl, -, ht⟩ := h2 o ho
    exact ⟨ts, e, hl, ht⟩

end

section
variable {M : Nat} [NeZero M] {models : List (Model ℝ M)} {data : List (List Int)}

/-- **C78**, `latent_perplexity`: for one model and for an ensemble, the mean over the models of the perplexity of the class of
each feature, between 1 and the number of classes. -/
theorem dataServer_latentPerplexity (E : Members models fs.length S.raggedIndex) {ds : DataServer ℝ M} (hd : Holds S fs data models ds) :
    ds.latentPerplexity realNum = ((List.range fs.length).map fun v => meanOf models fun m => Real.exp (shannon Finset.univ (vertMean m v))) ∧
    ∀ p ∈ ds.latentPerplexity realNum, 1 ≤ p ∧ p ≤ M := by
  have key : ds.latentPerplexity realNum = ((List.range fs.length).map fun v => meanOf models fun m => Real.exp (shannon Finset.univ (vertMean m v))) ∧
      ∀ v < fs.length, 1 ≤ (meanOf models fun m => Real.exp (shannon Finset.univ (vertMean m v))) ∧
        (meanOf models fun m => Real.exp (shannon Finset.univ (vertMean m v))) ≤ M := by
    unfold DataServer.latentPerplexity
    have hs := hd.server
    split at hs
    · rename_i srv hsrv
      obtain ⟨model, rfl, s1, -⟩ := hs
      have := latentPerplexity_spec (E.valid model (by simp)) s1
      rw [E.size model (by simp)] at this
      rw [hsrv]
      simpa [meanOf] using this
    · rename_i ens hsrv
      rw [hsrv]
      exact ensemble_latentPerplexity E (hs.1.imp fun _ _ hh => hh.1)
  refine ⟨key.1, fun p hp => ?_⟩
  rw [key.1, List.mem_map] at hp
  obtain ⟨v, hv, rfl⟩ := hp
  exact key.2 v (List.mem_range.1 hv)

/-- **C78**, `observed_perplexity`, for features with at least one column: the mean over the models of the perplexity of a single
observation of each feature, between 1 and the number of columns. The counts of the dataset make no difference. -/
theorem dataServer_observedPerplexity (E : Members models fs.length S.raggedIndex) (h : Describes S fs) (hc : ∀ m ∈ models, Model.Consistent m)
    (hw : ∀ f ∈ fs, 0 < f.2.width) {ds : DataServer ℝ M} (hd : Holds S fs data models ds) :
    ∃ p : Nat → ℝ, ds.observedPerplexity realNum = .ok ((List.range fs.length).map p) ∧ ∀ (v : Nat) f, fs[v]? = some f →
      p v = (meanOf models fun m => Real.exp (shannon (columns m v) (predictive m fun _ => 0))) ∧ 1 ≤ p v ∧ p v ≤ f.2.width := by
  have hst : ∀ v (hv : v < fs.length), startOf fs (v + 1) = startOf fs v + fs[v].2.width := by
    intro v hv
    unfold startOf
    rw [List.take_add_one, List.getElem?_eq_getElem hv, List.map_append, List.sum_append]
    simp
  have hne : ∀ v < fs.length, S.raggedIndex.getD v 0 < S.raggedIndex.getD (v + 1) 0 := by
    intro v hv
    rw [startOf_getD h v (by omega), startOf_getD h (v + 1) (by omega), hst v hv]
    have := hw _ (List.getElem_mem hv)
    omega
  have key : ds.observedPerplexity realNum = .ok ((List.range fs.length).map fun v =>
      meanOf models fun m => Real.exp (shannon (columns m v) (predictive m fun _ => 0))) ∧
      ∀ v < fs.length, 1 ≤ (meanOf models fun m => Real.exp (shannon (columns m v) (predictive m fun _ => 0))) ∧
        (meanOf models fun m => Real.exp (shannon (columns m v) (predictive m fun _ => 0)))
          ≤ ((S.raggedIndex.getD (v + 1) 0 - S.raggedIndex.getD v 0 : Nat) : ℝ) := by
    unfold DataServer.observedPerplexity
    have hs := hd.server
    split at hs
    · rename_i srv hsrv
      obtain ⟨model, rfl, s1, -⟩ := hs
      have hi := E.index model (by simp)
      have := observedPerplexity_partial (E.valid model (by simp)) (hc model (by simp)) s1 (by
        intro v hv
        rw [E.size model (by simp)] at hv
        unfold columns
        rw [hi]
        exact Finset.nonempty_Ico.2 (hne v hv)) ds.counts
      rw [E.size model (by simp)] at this
      rw [hsrv]
      refine ⟨by simpa [meanOf] using this.1, fun v hv => ?_⟩
      have h2 := this.2 v hv
      have hcard : (columns model v).card = S.raggedIndex.getD (v + 1) 0 - S.raggedIndex.getD v 0 := by
        unfold columns
        rw [hi, Nat.card_Ico]
      rw [hcard] at h2
      simpa [meanOf] using h2
    · rename_i ens hsrv
      rw [hsrv]
      exact ensemble_observedPerplexity_partial E hc hne (hs.1.imp fun _ _ hh => hh.1) ds.counts
  refine ⟨_, key.1, fun v f hf => ⟨rfl, ?_⟩⟩
  have hv : v < fs.length := by
    by_contra hge
    rw [List.getElem?_eq_none (by omega)] at hf
    simp at hf
  have h2 := key.2 v hv
  rw [startOf_getD h v (by omega), startOf_getD h (v + 1) (by omega), hst v hv, Nat.add_sub_cancel_left] at h2
  rw [List.getElem?_eq_getElem hv] at hf
  rw [← Option.some.inj hf]
  exact h2

/-- **C78**, `latent_correlation`: for one model and for an ensemble, the means over the models of the correlations of the
classes; symmetric, in `[0, 1)`, and largest on the diagonal. -/
theorem dataServer_latentCorrelation (E : Members models fs.length S.raggedIndex) (hc : ∀ m ∈ models, Model.Consistent m) {ds : DataServer ℝ M}
    (hd : Holds S fs data models ds) (junk : Nat → Fin M → Fin M → ℝ) :
    ∃ r : Nat → Nat → ℝ, ds.latentCorrelation realNum junk = .ok ((List.range fs.length).map fun i => (List.range fs.length).map fun j => r i j) ∧
      (∀ i j, r i j = meanOf models fun m => rho (pairProb m i j)) ∧
      ∀ i < fs.length, ∀ j < fs.length, 0 ≤ r i j ∧ r i j < 1 ∧ r i j = r j i ∧ r i j ≤ r i i := by
  refine ⟨fun i j => meanOf models fun m => rho (pairProb m i j), ?_, fun _ _ => rfl, ?_⟩
  · unfold DataServer.latentCorrelation
    have hs := hd.server
    split at hs
    · rename_i srv hsrv
      obtain ⟨model, rfl, s1, -⟩ := hs
      have := latentCorrelation_eq (E.valid model (by simp)) (hc model (by simp)) s1 junk
      rw [E.size model (by simp)] at this
      rw [hsrv]
      simpa [meanOf] using this
    · rename_i ens hsrv
      rw [hsrv]
      exact (ensemble_latentCorrelation E hc (hs.1.imp fun _ _ hh => hh.1) junk).1
  · obtain ⟨mst, hmst⟩ := exists_mst (K := ℝ)
    obtain ⟨ens, -, hs, -⟩ := ensemble_init hmst E
    exact (ensemble_latentCorrelation E hc (hs.imp fun _ _ hh => hh.1) junk).2

end

/-! ### A dataset -/

theorem tinyModels_consistent (K : Type) [Field K] : ∀ m ∈ tinyModels K, Model.Consistent m := by
  intro m hm
  have := pathModel_consistent K
  simp only [tinyModels, List.mem_cons, List.not_mem_nil, or_false] at hm
  rcases hm with rfl | rfl <;> exact this

/-- All queries of a server over three rows with two models. -/
example : ∃ (ds : DataServer ℝ 2), ds.featureNames = ["decade", "genre", "rating"].map String.toList ∧ IsTree 3 ds.estimateTree ∧
    ds.edgeLogits = [0, 0, 0] := by
  obtain ⟨mst, hmst⟩ := exists_mst (K := ℝ)
  obtain ⟨h, hfit, -⟩ := tinySchema_describes
  obtain ⟨-, table, -, e, -, hd⟩ := tiny_serves (tinyModels_members ℝ)
  obtain ⟨ds, -, e1, e2, -, e3, -⟩ := dataServer_tree hmst h hfit
    ⟨tinySchema.featureTypes.map fun _ => 0, tinySchema.raggedIndex, [tinyCsv].flatMap (fileRows asciiText tinyFeatures)⟩ rfl (fileRows_imported [tinyCsv]) (by decide +kernel)
    (tinyModels_members ℝ)
  refine ⟨ds, e1.trans (by decide), e3, e2.trans ?_⟩
  have e4 : (List.range (tinyFeatures.length * (tinyFeatures.length - 1) / 2)) = [0, 1, 2] := by decide
  rw [e4]
  simp [meanOf, tinyModels, pathModel]

example : ∃ (ds : DataServer ℝ 2) (p : Nat → ℝ) (r : Nat → Nat → ℝ), ds.observedPerplexity realNum = .ok [p 0, p 1, p 2] ∧ (p 2 ≤ 2 ∧ p 1 ≤ 3) ∧
    ds.latentCorrelation realNum (fun _ _ _ => 7) = .ok [[r 0 0, r 0 1, r 0 2], [r 1 0, r 1 1, r 1 2], [r 2 0, r 2 1, r 2 2]] ∧ r 0 2 = r 2 0 ∧
    (∀ p ∈ ds.latentPerplexity realNum, 1 ≤ p ∧ p ≤ (2 : Nat)) ∧
    ∀ o, (ds.sampleTrees realNum (fun _ => 7) 4 : ExceptT PyErr Poss _).run o → ∃ ts, o = .ok ts ∧ ts.length = 4 ∧ ∀ T ∈ ts, IsTree 3 T ∧ Canonical T := by
  obtain ⟨h, hfit, -⟩ := tinySchema_describes
  obtain ⟨-, -, ds, -, -, hd⟩ := tiny_serves (tinyModels_members ℝ)
  obtain ⟨p, e1, e2⟩ := dataServer_observedPerplexity (tinyModels_members ℝ) h (tinyModels_consistent ℝ) (by decide) hd
  obtain ⟨r, e3, -, e4⟩ := dataServer_latentCorrelation (tinyModels_members ℝ) (tinyModels_consistent ℝ) hd fun _ _ _ => 7
  refine ⟨ds, p, r, e1, ⟨by simpa [Feature.width] using (e2 2 _ rfl).2.2, by simpa [Feature.width] using (e2 1 _ rfl).2.2⟩, e3, (e4 0 (by decide) 2 (by decide)).2.2.1,
    (dataServer_latentPerplexity (tinyModels_members ℝ) hd).2, (dataServer_sampleTrees (tinyModels_members ℝ) hd realNum (fun _ => 7) 4).2⟩

end TreeCat
