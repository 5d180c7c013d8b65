import Mathlib.Data.List.Perm.Basic
import Verif.Props.SymmetryServe
import Verif.Props.SymmetryCols

/-!
# C103: queries do not depend on the order of the features

Two models that differ only in the order of the features give the same answers about the same features, although the edges of
the tree are numbered and directed by that order, and the root of the propagation is chosen by it.
-/

set_option linter.unusedSectionVars false

namespace TreeCat.Spec

/-- The edge `c'` of the second model is the edge `c` of the first, perhaps the other way round: feature `v` of the second is
feature `τ v` of the first. -/
def SameEdge {K : Type} {M : Nat} (τ : Equiv.Perm Nat) (model model' : Model K M) (c' c : Nat × Nat × Nat) : Prop :=
  (c.2 = (τ c'.2.1, τ c'.2.2) ∧ ∀ a b, model'.edgeSS c'.1 a b = model.edgeSS c.1 a b) ∨
  (c.2 = (τ c'.2.2, τ c'.2.1) ∧ ∀ a b, model'.edgeSS c'.1 a b = model.edgeSS c.1 b a)

/-- First column of feature `v`. -/
def firstCol {K : Type} {M : Nat} (model : Model K M) (v : Nat) : Nat := model.raggedIndex.getD v 0

/-- Number of columns of feature `v`. -/
def numValues {K : Type} {M : Nat} (model : Model K M) (v : Nat) : Nat := model.raggedIndex.getD (v + 1) 0 - model.raggedIndex.getD v 0

/-- The second model is the first with its features in another order: feature `v` of the second is feature `τ v` of the
first. The edges of the two trees correspond one to one. -/
structure PermutedModel {K : Type} {M : Nat} (τ : Equiv.Perm Nat) (model model' : Model K M) : Prop where
  verts : model'.tree.numVertices = model.tree.numVertices
  maps : ∀ v, τ v < model.tree.numVertices ↔ v < model.tree.numVertices
  edges : ∃ l, List.Forall₂ (SameEdge τ model model') model'.tree.treeGrid l ∧ l.Perm model.tree.treeGrid
  vert : ∀ v < model.tree.numVertices, ∀ m, model'.vertSS v m = model.vertSS (τ v) m
  width : ∀ v < model.tree.numVertices, numValues model' v = numValues model (τ v)
  feat : ∀ v < model.tree.numVertices, ∀ c < numValues model' v, ∀ m,
    model'.featSS (firstCol model' v + c) m = model.featSS (firstCol model (τ v) + c) m

/-- The same observations in the two orders. -/
def SameRow {K : Type} {M : Nat} (τ : Equiv.Perm Nat) (model model' : Model K M) (data data' : Nat → Int) : Prop :=
  ∀ v < model.tree.numVertices, ∀ c < numValues model' v, data' (firstCol model' v + c) = data (firstCol model (τ v) + c)

end TreeCat.Spec

namespace TreeCat

open Spec Util

section
variable {K : Type} [Field K] {M : Nat} {τ : Equiv.Perm Nat} {model model' : Model K M}

theorem sum_columns {β : Type} [AddCommMonoid β] (model : Model K M) (v : Nat) (f : Nat → β) :
    ∑ r ∈ columns model v, f r = ∑ c ∈ Finset.range (numValues model v), f (firstCol model v + c) := by
  unfold columns; rw [Finset.sum_Ico_eq_sum_range]; rfl

theorem prod_columns {β : Type} [CommMonoid β] (model : Model K M) (v : Nat) (f : Nat → β) :
    ∏ r ∈ columns model v, f r = ∏ c ∈ Finset.range (numValues model v), f (firstCol model v + c) := by
  unfold columns; rw [Finset.prod_Ico_eq_prod_range]; rfl

theorem vertMean_permuted (P : PermutedModel τ model model') {v : Nat} (hv : v < model.tree.numVertices) (m : Fin M) :
    vertMean model' v m = vertMean model (τ v) m := by
  unfold vertMean
  simp only [P.vert v hv]

theorem featMean_permuted (P : PermutedModel τ model model') {v : Nat} (hv : v < model.tree.numVertices) {c : Nat}
    (hc : c < numValues model' v) (m : Fin M) :
    featMean model' v (firstCol model' v + c) m = featMean model (τ v) (firstCol model (τ v) + c) m := by
  unfold featMean
  have h : (columns model' v).card = (columns model (τ v)).card := by
    unfold columns; rw [Nat.card_Ico, Nat.card_Ico]; exact P.width v hv
  rw [P.feat v hv c hc, h, sum_columns, sum_columns, P.width v hv]
  congr 2
  refine Finset.sum_congr rfl fun i hi => ?_
  rw [P.feat v hv i (by rw [P.width v hv]; exact Finset.mem_range.1 hi)]

/-- The factor of an edge. -/
theorem edgeFactor_permuted (P : PermutedModel τ model model') {c c' : Nat × Nat × Nat} (e : SameEdge τ model model' c' c)
    (h1 : c'.2.1 < model.tree.numVertices) (h2 : c'.2.2 < model.tree.numVertices) {z z' : Nat → Fin M}
    (hz : ∀ v < model.tree.numVertices, z' v = z (τ v)) :
    edgeMean model' c'.1 (z' c'.2.1) (z' c'.2.2) / (vertMean model' c'.2.1 (z' c'.2.1) * vertMean model' c'.2.2 (z' c'.2.2))
      = edgeMean model c.1 (z c.2.1) (z c.2.2) / (vertMean model c.2.1 (z c.2.1) * vertMean model c.2.2 (z c.2.2)) := by
  rw [vertMean_permuted P h1, vertMean_permuted P h2, hz _ h1, hz _ h2]
  rcases e with ⟨e, he⟩ | ⟨e, he⟩
  · rw [e]
    unfold edgeMean
    simp only [he]
  · rw [e]
    unfold edgeMean
    simp only [he]
    rw [Finset.sum_comm, mul_comm (vertMean model (τ c'.2.1) _)]

theorem prod_forall₂ {α β γ : Type} [CommMonoid γ] {R : α → β → Prop} {f : α → γ} {g : β → γ} {l : List α} {l' : List β}
    (h : List.Forall₂ R l l') (e : ∀ a ∈ l, ∀ b, R a b → f a = g b) : (l.map f).prod = (l'.map g).prod := by
  induction h with
  | nil => rfl
  | cons hab _ ih =>
    rw [List.map_cons, List.map_cons, List.prod_cons, List.prod_cons, e _ (by simp) _ hab,
      ih fun a ha b => e a (by simp [ha]) b]

theorem prod_perm_range {β : Type} [CommMonoid β] {V : Nat} (hτ : ∀ v, τ v < V ↔ v < V) (f : Nat → β) :
    ∏ v ∈ Finset.range V, f (τ v) = ∏ v ∈ Finset.range V, f v := by
  refine Finset.prod_nbij' τ τ.symm ?_ ?_ ?_ ?_ ?_
  · intro v hv; exact Finset.mem_range.2 ((hτ v).2 (Finset.mem_range.1 hv))
  · intro v hv; exact Finset.mem_range.2 ((hτ _).1 (by simpa using hv))
  · simp
  · simp
  · simp

theorem latentProb_permuted (P : PermutedModel τ model model') (h' : Model.Valid model') {z z' : Nat → Fin M}
    (hz : ∀ v < model.tree.numVertices, z' v = z (τ v)) : latentProb model' z' = latentProb model z := by
  unfold latentProb
  obtain ⟨l, hl, hp⟩ := P.edges
  rw [P.verts, ← (hp.map _).prod_eq]
  congr 1
  · rw [← prod_perm_range P.maps fun v => vertMean model v (z v)]
    refine Finset.prod_congr rfl fun v hv => ?_
    rw [vertMean_permuted P (Finset.mem_range.1 hv), hz v (Finset.mem_range.1 hv)]
  · refine prod_forall₂ hl fun c' hc' c e => ?_
    have hr : c'.2.1 < model'.tree.numVertices ∧ c'.2.2 < model'.tree.numVertices :=
      h'.isTree.range (c'.2.1, c'.2.2) (List.mem_map.2 ⟨c', hc', rfl⟩)
    rw [P.verts] at hr
    exact edgeFactor_permuted P e hr.1 hr.2 hz

theorem rowProb_permuted (P : PermutedModel τ model model') {data data' : Nat → Int} (hd : SameRow τ model model' data data')
    {z z' : Nat → Fin M} (hz : ∀ v < model.tree.numVertices, z' v = z (τ v)) : rowProb model' data' z' = rowProb model data z := by
  unfold rowProb
  rw [P.verts, ← prod_perm_range P.maps fun v => ∏ r ∈ columns model v, featMean model v r (z v) ^ data r]
  refine Finset.prod_congr rfl fun v hv => ?_
  rw [Finset.mem_range] at hv
  rw [prod_columns, prod_columns, ← P.width v hv]
  refine Finset.prod_congr rfl fun c hc => ?_
  rw [Finset.mem_range] at hc
  rw [featMean_permuted P hv hc, hz v hv, hd v hv c hc]

theorem sumLatent_permuted [NeZero M] {V : Nat} (hτ : ∀ v, τ v < V ↔ v < V) {f f' : (Nat → Fin M) → K}
    (hf : ∀ z z', (∀ v < V, z' v = z (τ v)) → f' z' = f z) : sumLatent V f' = sumLatent V f := by
  unfold sumLatent
  let e : Fin V ≃ Fin V :=
    { toFun := fun v => ⟨τ v, (hτ v).2 v.isLt⟩
      invFun := fun v => ⟨τ.symm v, (hτ _).1 (by simp)⟩
      left_inv := fun v => by simp
      right_inv := fun v => by simp }
  rw [← Equiv.sum_comp (Equiv.arrowCongr e.symm (Equiv.refl (Fin M)))]
  refine Finset.sum_congr rfl fun z _ => hf _ _ fun v hv => ?_
  have := (hτ v).2 hv
  simp [hv, this, e, Equiv.arrowCongr]

/-- **C103**: the probability of a row. -/
theorem dataProb_permuted [NeZero M] (P : PermutedModel τ model model') (h' : Model.Valid model') {data data' : Nat → Int}
    (hd : SameRow τ model model' data data') : dataProb model' data' = dataProb model data := by
  unfold dataProb
  rw [P.verts]
  refine sumLatent_permuted P.maps fun z z' hz => ?_
  rw [latentProb_permuted P h' hz, rowProb_permuted P hd hz]

/-- The joint distribution of two latent classes. -/
theorem pairProb_permuted [NeZero M] (P : PermutedModel τ model model') (h' : Model.Valid model') {v w : Nat}
    (hv : v < model.tree.numVertices) (hw : w < model.tree.numVertices) (a b : Fin M) :
    pairProb model' v w a b = pairProb model (τ v) (τ w) a b := by
  unfold pairProb
  rw [P.verts]
  refine sumLatent_permuted P.maps fun z z' hz => ?_
  rw [latentProb_permuted P h' hz, hz v hv, hz w hw]

/-- Different features have different columns. -/
theorem firstCol_inj (h : Model.Valid model) {u w i c : Nat} (hu : u < model.tree.numVertices) (hw : w < model.tree.numVertices)
    (hi : i < numValues model w) (hc : c < numValues model u) (e : firstCol model w + i = firstCol model u + c) : w = u ∧ i = c := by
  have mono : ∀ a b, a ≤ b → b ≤ model.tree.numVertices → model.raggedIndex.getD a 0 ≤ model.raggedIndex.getD b 0 := by
    intro a b hab hb
    rcases Nat.lt_or_ge a b with hlt | hge
    · have hl := h.ragged
      rw [List.getD_eq_getElem _ _ (by omega), List.getD_eq_getElem _ _ (by omega)]
      exact List.pairwise_iff_getElem.1 h.mono a b (by omega) (by omega) hlt
    · rw [Nat.le_antisymm hab hge]
  have : w = u := by
    by_contra hne
    unfold numValues at hi hc
    unfold firstCol at e
    rcases Nat.lt_or_gt_of_ne hne with hlt | hlt
    · have := mono (w + 1) u hlt (by omega); omega
    · have := mono (u + 1) w hlt (by omega); omega
  subst this
  exact ⟨rfl, by omega⟩

theorem sameRow_iff (P : PermutedModel τ model model') (h : Model.Valid model) (h' : Model.Valid model') {v w c i : Nat}
    (hv : v < model.tree.numVertices) (hw : w < model.tree.numVertices) (hc : c < numValues model' v) (hi : i < numValues model' w) :
    firstCol model' w + i = firstCol model' v + c ↔ firstCol model (τ w) + i = firstCol model (τ v) + c := by
  constructor
  · intro e
    obtain ⟨rfl, rfl⟩ := firstCol_inj h' (by rw [P.verts]; exact hv) (by rw [P.verts]; exact hw) hi hc e
    rfl
  · intro e
    obtain ⟨e1, rfl⟩ := firstCol_inj h ((P.maps v).2 hv) ((P.maps w).2 hw) (by rw [← P.width w hw]; exact hi)
      (by rw [← P.width v hv]; exact hc) e
    rw [τ.injective e1]

theorem sameRow_update (P : PermutedModel τ model model') (h : Model.Valid model) (h' : Model.Valid model') {x x' : Nat → Int}
    (hx : SameRow τ model model' x x') {v c : Nat} (hv : v < model.tree.numVertices) (hc : c < numValues model' v) :
    SameRow τ model model' (Function.update x (firstCol model (τ v) + c) (x (firstCol model (τ v) + c) + 1))
      (Function.update x' (firstCol model' v + c) (x' (firstCol model' v + c) + 1)) := by
  intro w hw i hi
  have := sameRow_iff P h h' hv hw hc hi
  by_cases e : firstCol model (τ w) + i = firstCol model (τ v) + c
  · rw [this.2 e, e, Function.update_self, Function.update_self, hx v hv c hc]
  · rw [Function.update_of_ne e, Function.update_of_ne (fun e' => e (this.1 e')), hx w hw i hi]

theorem observe_permuted (P : PermutedModel τ model model') (h : Model.Valid model) (h' : Model.Valid model') {z z' : Nat → Fin M}
    (hz : ∀ v < model.tree.numVertices, z' v = z (τ v)) {k k' : (Nat → Int) → K}
    (hk : ∀ x x', SameRow τ model model' x x' → k' x' = k x) (vs : List Nat) (hvs : ∀ v ∈ vs, v < model.tree.numVertices)
    {x x' : Nat → Int} (hx : SameRow τ model model' x x') : observe model' z' vs x' k' = observe model z (vs.map τ) x k := by
  induction vs generalizing x x' with
  | nil => exact hk x x' hx
  | cons v vs ih =>
    have hv := hvs v (by simp)
    rw [List.map_cons]
    unfold observe
    rw [sum_columns, sum_columns, ← P.width v hv]
    refine Finset.sum_congr rfl fun c hc => ?_
    rw [Finset.mem_range] at hc
    rw [featMean_permuted P hv hc, hz v hv, ih (fun w hw => hvs w (by simp [hw])) (sameRow_update P h h' hx hv hc)]

theorem requested_permuted {V : Nat} (hτ : ∀ v, τ v < V ↔ v < V) {counts counts' : List Int}
    (hc : ∀ v < V, counts'.getD v 0 = counts.getD (τ v) 0) : ((requested V counts').map τ).Perm (requested V counts) := by
  have hr : ((List.range V).map τ).Perm (List.range V) := by
    refine (List.perm_ext_iff_of_nodup (List.nodup_range.map τ.injective) List.nodup_range).2 fun v => ?_
    rw [List.mem_map, List.mem_range]
    constructor
    · rintro ⟨w, hw, rfl⟩
      exact (hτ w).2 (List.mem_range.1 hw)
    · intro hv
      exact ⟨τ.symm v, List.mem_range.2 ((hτ _).1 (by simpa using hv)), by simp⟩
  have e : (requested V counts').map τ = ((List.range V).map τ).flatMap fun v => List.replicate (counts.getD v 0).toNat v := by
    unfold requested
    rw [List.map_flatMap, List.flatMap_map]
    refine List.flatMap_congr fun v hv => ?_
    rw [List.map_replicate, hc v (List.mem_range.1 hv)]
  rw [e]
  exact hr.flatMap_right _

theorem sampleMean_permuted [LinearOrder K] [IsStrictOrderedRing K] [NeZero M] (P : PermutedModel τ model model') (h : Model.Valid model) (h' : Model.Valid model')
    {data data' : Nat → Int} (hd : SameRow τ model model' data data') {counts counts' : List Int}
    (hc : ∀ v < model.tree.numVertices, counts'.getD v 0 = counts.getD (τ v) 0) {k k' : (Nat → Int) → K}
    (hk : ∀ x x', SameRow τ model model' x x' → k' x' = k x) :
    sampleMean model' data' counts' (fun _ => k') = sampleMean model data counts fun _ => k := by
  unfold sampleMean
  rw [dataProb_permuted P h' hd, P.verts]
  congr 1
  refine sumLatent_permuted P.maps fun z z' hz => ?_
  rw [latentProb_permuted P h' hz, rowProb_permuted P hd hz, observe_permuted P h h' hz hk _ ?_ (x := fun _ => 0) (fun _ _ _ _ => rfl),
    observe_perm k (requested_permuted P.maps hc)]
  intro v hv
  simp only [requested, List.mem_flatMap, List.mem_range, List.mem_replicate] at hv
  obtain ⟨w, hw, -, rfl⟩ := hv
  exact hw

end

section
variable {K : Type} [Field K] [LinearOrder K] [IsStrictOrderedRing K] {M : Nat} [NeZero M] {τ : Equiv.Perm Nat}
variable {model model' : Model K M} {srv srv' : Server K M}

/-- **C103**, samples: functions of the rows that agree when the rows are translated have the same expected values. -/
theorem server_sample_permuted (P : PermutedModel τ model model') (h : Model.Valid model) (h' : Model.Valid model')
    (s : Serves model srv) (s' : Serves model' srv') (N : Nat) {counts counts' : List Int}
    (hl : counts.length = model.tree.numVertices) (hl' : counts'.length = model.tree.numVertices)
    (hcc : ∀ v < model.tree.numVertices, counts'.getD v 0 = counts.getD (τ v) 0) {data data' : Option (List Int)}
    (hd : ∀ d ∈ data, d.length = model.raggedIndex.getLastD 0) (hd' : ∀ d ∈ data', d.length = model'.raggedIndex.getLastD 0)
    (hdd : SameRow τ model model' (fun r => (data.getD []).getD r 0) fun r => (data'.getD []).getD r 0)
    (hc : ∀ v < model.tree.numVertices, counts.getD v 0 ≤ 127)
    (hne : ∀ v < model.tree.numVertices, 0 < counts.getD v 0 → (columns model v).Nonempty) {k k' : Nat → List Int → K}
    (hk : ∀ n (row row' : List Int), row.length = model.raggedIndex.getLastD 0 → row'.length = model'.raggedIndex.getLastD 0 →
      SameRow τ model model' (fun r => row.getD r 0) (fun r => row'.getD r 0) → k' n row' = k n row) :
    (srv'.sample N counts' data' : ExceptT PyErr (Expect K) _).run (onOk fun rows => ∏ n ∈ Finset.range N, k' n (rows.getD n []))
      = (srv.sample N counts data : ExceptT PyErr (Expect K) _).run
          (onOk fun rows => ∏ n ∈ Finset.range N, k n (rows.getD n [])) := by
  rw [server_sample_exact h s N counts data hd hl hc hne k,
    server_sample_exact h' s' N counts' data' hd' (by rw [P.verts]; exact hl')
      (by intro v hv; rw [P.verts] at hv; rw [hcc v hv]; exact hc _ ((P.maps v).2 hv)) ?_ k']
  · refine Finset.prod_congr rfl fun n _ => sampleMean_permuted P h h' hdd hcc fun x x' hx => ?_
    refine hk n _ _ (by simp) (by simp) fun v hv c hcv => ?_
    have last : ∀ (m : Model K M), Model.Valid m → ∀ u < m.tree.numVertices, ∀ i < numValues m u,
        firstCol m u + i < m.raggedIndex.getLastD 0 := by
      intro m hm u hu i hi
      have hl := hm.ragged
      have e : m.raggedIndex.getLastD 0 = m.raggedIndex.getD m.tree.numVertices 0 := by
        rw [List.getLastD_eq_getLast?, List.getLast?_eq_getElem?, List.getD_eq_getElem?_getD, hl]; rfl
      have mono : m.raggedIndex.getD (u + 1) 0 ≤ m.raggedIndex.getD m.tree.numVertices 0 := by
        rcases Nat.lt_or_ge (u + 1) m.tree.numVertices with hlt | hge
        · rw [List.getD_eq_getElem _ _ (by omega), List.getD_eq_getElem _ _ (by omega)]
          exact List.pairwise_iff_getElem.1 hm.mono _ _ (by omega) (by omega) hlt
        · rw [show u + 1 = m.tree.numVertices from Nat.le_antisymm hu hge]
      unfold numValues at hi
      unfold firstCol
      omega
    have get : ∀ (R : Nat) (y : Nat → Int) (r : Nat), r < R → ((List.range R).map y).getD r 0 = y r := by
      intro R y r hr
      rw [List.getD_eq_getElem _ _ (by simpa using hr)]; simp
    beta_reduce
    rw [get _ _ _ (last model' h' v (by rw [P.verts]; exact hv) c hcv),
      get _ _ _ (last model h (τ v) ((P.maps v).2 hv) c (by rw [← P.width v hv]; exact hcv))]
    exact hx v hv c hcv
  · intro v hv hpos
    rw [P.verts] at hv
    rw [hcc v hv] at hpos
    have := hne (τ v) ((P.maps v).2 hv) hpos
    have hw := P.width v hv
    simp only [columns, Finset.nonempty_Ico, numValues] at this hw ⊢
    omega

end

section
variable {M : Nat} [NeZero M] {τ : Equiv.Perm Nat} {model model' : Model ℝ M} {srv srv' : Server ℝ M}

/-- **C103**, log probabilities of a list of rows, each translated to the other order. -/
theorem server_logprob_permuted (P : PermutedModel τ model model') (h : Model.Valid model) (h' : Model.Valid model')
    (s : Serves model srv) (s' : Serves model' srv') (data data' : List (List Int))
    (hd : ∀ row ∈ data, row.length = model.raggedIndex.getLastD 0)
    (hd' : ∀ row ∈ data', row.length = model'.raggedIndex.getLastD 0)
    (hs : List.Forall₂ (fun row row' => SameRow τ model model' (fun r => row.getD r 0) fun r => row'.getD r 0) data data') :
    srv'.logprob realNum data' = srv.logprob realNum data := by
  obtain ⟨lp, h1, h2⟩ := server_logprob_of h s data hd
  obtain ⟨lp', h1', h2'⟩ := server_logprob_of h' s' data' hd'
  rw [h1, h1']
  congr 1
  clear h1 h1' hd hd'
  induction hs with
  | nil => rfl
  | cons hab _ ih =>
    rw [List.map_cons, List.map_cons, ih]
    congr 2
    apply Real.exp_injective
    rw [h2, h2', dataProb_permuted P h' hab]

/-- **C103**, perplexities of the latent classes: that of feature `v` of the second model is that of feature `τ v` of the
first. -/
theorem latentPerplexity_permuted (P : PermutedModel τ model model') (h : Model.Valid model) (h' : Model.Valid model')
    (s : Serves model srv) (s' : Serves model' srv') {v : Nat} (hv : v < model.tree.numVertices) :
    ∃ x, (srv'.latentPerplexity realNum)[v]? = some x ∧ (srv.latentPerplexity realNum)[τ v]? = some x := by
  rw [(latentPerplexity_spec h s).1, (latentPerplexity_spec h' s').1, P.verts]
  have e : vertMean model' v = vertMean model (τ v) := funext fun m => vertMean_permuted P hv m
  refine ⟨Real.exp (shannon Finset.univ (vertMean model (τ v))), ?_, ?_⟩
  · rw [List.getElem?_map, List.getElem?_range hv, Option.map_some, e]
  · rw [List.getElem?_map, List.getElem?_range ((P.maps v).2 hv), Option.map_some]

/-- **C103**, perplexities of the observations. -/
theorem observedPerplexity_permuted (P : PermutedModel τ model model') (h : Model.Valid model) (h' : Model.Valid model')
    (hc : Model.Consistent model) (hc' : Model.Consistent model') (s : Serves model srv) (s' : Serves model' srv')
    (hne : ∀ v < model.tree.numVertices, (columns model v).Nonempty) (counts counts' : List Int) :
    ∃ l l', srv.observedPerplexity realNum (some counts) = .ok l ∧ srv'.observedPerplexity realNum (some counts') = .ok l' ∧
      ∀ v < model.tree.numVertices, ∃ x, l'[v]? = some x ∧ l[τ v]? = some x := by
  have hne' : ∀ v < model'.tree.numVertices, (columns model' v).Nonempty := by
    intro v hv
    rw [P.verts] at hv
    have := hne (τ v) ((P.maps v).2 hv)
    have hw := P.width v hv
    simp only [columns, Finset.nonempty_Ico, numValues] at this hw ⊢
    omega
  refine ⟨_, _, (observedPerplexity_partial h hc s hne counts).1, (observedPerplexity_partial h' hc' s' hne' counts').1, fun v hv => ?_⟩
  rw [P.verts]
  refine ⟨Real.exp (shannon (columns model (τ v)) (predictive model fun _ => 0)), ?_, ?_⟩
  · rw [List.getElem?_map, List.getElem?_range hv, Option.map_some]
    unfold shannon
    rw [sum_columns, sum_columns, P.width v hv]
    congr 2
    refine Finset.sum_congr rfl fun c hcv => ?_
    rw [Finset.mem_range, ← P.width v hv] at hcv
    unfold predictive
    congr 2
    · refine dataProb_permuted P h' fun w hw i hi => ?_
      congr 1
      have := sameRow_iff P h h' hv hw hcv hi
      simp only [this]
    · exact dataProb_permuted P h' fun w hw i hi => rfl
  · rw [List.getElem?_map, List.getElem?_range ((P.maps v).2 hv), Option.map_some]

/-- **C103**, correlations: the entry of features `v` and `w` of the second model is that of `τ v` and `τ w` of the first. -/
theorem latentCorrelation_permuted (P : PermutedModel τ model model') (h : Model.Valid model) (h' : Model.Valid model')
    (hc : Model.Consistent model) (hc' : Model.Consistent model') (s : Serves model srv) (s' : Serves model' srv')
    (junk junk' : Nat → Fin M → Fin M → ℝ) :
    ∃ A B : Nat → Nat → ℝ,
      srv.latentCorrelation realNum junk = .ok ((List.range model.tree.numVertices).map fun i =>
        (List.range model.tree.numVertices).map fun j => A i j) ∧
      srv'.latentCorrelation realNum junk' = .ok ((List.range model.tree.numVertices).map fun i =>
        (List.range model.tree.numVertices).map fun j => B i j) ∧
      ∀ i < model.tree.numVertices, ∀ j < model.tree.numVertices, B i j = A (τ i) (τ j) := by
  refine ⟨_, _, latentCorrelation_eq h hc s junk, by rw [← P.verts]; exact latentCorrelation_eq h' hc' s' junk', fun i hi j hj => ?_⟩
  have : pairProb model' i j = pairProb model (τ i) (τ j) := by
    funext a b; exact pairProb_permuted P h' hi hj a b
  rw [this]

end

/-- Two runs of training, on a table and on the same table with its features in another order, that end with the same
assignments and the same tree return permuted models. -/
theorem trainedModel_permuted {K : Type} [Field K] {M : Nat} {τ : Equiv.Perm Nat} {t t' : Table} (ht : Permuted τ t t')
    {st st' : Trainer K M} (hm : Matches t st) (hm' : Matches t' st') (hV : st.tree.numVertices = t.numCols)
    (hV' : st'.tree.numVertices = t'.numCols) (hT : IsTree t'.numCols st'.tree.getEdges)
    (hE : renamedTree τ st'.tree.getEdges = st.tree.getEdges)
    (ha : st'.added = st.added) (hr : st.added ⊆ Finset.range t.numRows)
    (hz : ∀ n ∈ st.added, ∀ v < t.numCols, st'.assign n v = st.assign n (τ v)) (logits logits' : List K) :
    PermutedModel τ (trainedModel t st logits) (trainedModel t' st' logits') where
  verts := by change st'.tree.numVertices = st.tree.numVertices; rw [hV, hV', ht.cols]
  maps := by change ∀ v, τ v < st.tree.numVertices ↔ v < st.tree.numVertices; rw [hV]; exact ht.maps
  edges := by
    change ∃ l, List.Forall₂ (SameEdge τ (trainedModel t st logits) (trainedModel t' st' logits')) st'.tree.treeGrid l ∧
      l.Perm st.tree.treeGrid
    have hp : (st'.tree.treeGrid.map fun c => sortPair (τ c.2.1, τ c.2.2)).Perm (st.tree.treeGrid.map fun c => (c.2.1, c.2.2)) := by
      have : (renamedTree τ st'.tree.getEdges).Perm (st'.tree.treeGrid.map fun c => sortPair (τ c.2.1, τ c.2.2)) := by
        rw [renamedTree_eq]
        unfold sortEdges TreeStructure.getEdges
        rw [List.map_map, List.map_map]
        exact List.perm_insertionSort edgeLe _
      rw [hE] at this
      exact this.symm
    have hf : List.Forall₂ (fun (e : Edge) (c : Nat × Nat × Nat) => e = (c.2.1, c.2.2)) (st.tree.treeGrid.map fun c => (c.2.1, c.2.2))
        st.tree.treeGrid := by
      rw [List.forall₂_map_left_iff, List.forall₂_same]
      exact fun _ _ => rfl
    obtain ⟨l, h1, h2⟩ := List.perm_comp_forall₂ hp hf
    refine ⟨l, ?_, h2⟩
    rw [List.forall₂_map_left_iff] at h1
    have hmem : ∀ c ∈ l, c ∈ st.tree.treeGrid := fun c hc => h2.mem_iff.1 hc
    obtain ⟨g, hg⟩ : ∃ g, g = st'.tree.treeGrid := ⟨_, rfl⟩
    have hmem' : ∀ c ∈ g, c ∈ st'.tree.treeGrid := by rw [hg]; exact fun c hc => hc
    rw [← hg] at h1 ⊢
    clear hp hf h2 hg
    induction h1 with
    | nil => exact .nil
    | @cons c' c g l e _ ih =>
      refine .cons ?_ (ih (fun c hc => hmem c (by simp [hc])) fun c hc => hmem' c (by simp [hc]))
      obtain ⟨i, u, v⟩ := c
      obtain ⟨i', u', v'⟩ := c'
      have hc := hmem (i, u, v) (by simp)
      have hc' := hmem' (i', u', v') (by simp)
      obtain ⟨hu, hv⟩ : u' < t.numCols ∧ v' < t.numCols := by
        have := hT.range (u', v') (List.mem_map.2 ⟨_, hc', rfl⟩)
        rwa [ht.cols] at this
      have key : ∀ x y : Nat, x < t.numCols → y < t.numCols → ∀ a b : Fin M,
          edgeCount st'.added st'.assign x y a b = edgeCount st.added st.assign (τ x) (τ y) a b := by
        intro x y hx hy a b
        unfold edgeCount
        rw [ha]
        congr 1
        refine Finset.filter_congr fun n hn => ?_
        rw [hz n hn x hx, hz n hn y hy]
      have hswap : ∀ x y : Nat, ∀ a b : Fin M, edgeCount st.added st.assign x y a b = edgeCount st.added st.assign y x b a := by
        intro x y a b
        unfold edgeCount
        congr 1
        exact Finset.filter_congr fun n _ => and_comm
      unfold sortPair at e
      by_cases hlt : τ v' < τ u'
      · right
        simp only [hlt, if_true, Prod.mk.injEq] at e
        refine ⟨by simp [e.1, e.2], fun a b => ?_⟩
        change st'.edgeSS i' a b = st.edgeSS i b a
        rw [hm'.edge i' u' v' hc', hm.edge i u v hc, key u' v' hu hv, hswap, e.1, e.2]
      · left
        simp only [hlt, if_false, Prod.mk.injEq] at e
        refine ⟨by simp [e.1, e.2], fun a b => ?_⟩
        change st'.edgeSS i' a b = st.edgeSS i a b
        rw [hm'.edge i' u' v' hc', hm.edge i u v hc, key u' v' hu hv, e.1, e.2]
  vert v hv m := by
    have hv : v < t.numCols := hV ▸ hv
    change st'.vertSS v m = st.vertSS (τ v) m
    rw [hm'.vert v (by rw [ht.cols]; exact hv), hm.vert (τ v) ((ht.maps v).2 hv), ha]
    unfold vertCount
    congr 2
    exact Finset.filter_congr fun n hn => by rw [hz n hn v hv]
  width v hv := ht.width v (hV ▸ hv)
  feat v hv c hc m := by
    have hv : v < t.numCols := hV ▸ hv
    have hc : c < t'.stop v - t'.beg v := hc
    have hw := ht.width v hv
    change st'.featSS (t'.beg v + c) m = st.featSS (t.beg (τ v) + c) m
    rw [hm'.feat v (by rw [ht.cols]; exact hv) _ (by omega) (by omega), hm.feat (τ v) ((ht.maps v).2 hv) _ (by omega) (by omega), ha]
    unfold featTotal
    rw [Finset.filter_congr fun n hn => by rw [hz n hn v hv]]
    refine Finset.sum_congr rfl fun n hn => ?_
    exact ht.cell n (Finset.mem_range.1 (hr (Finset.mem_filter.1 hn).1)) v hv c hc

/-- The path of three features with its first two features exchanged: a star. -/
def pathSwapped (K : Type) [Field K] : Model K 2 :=
  { pathModel K with tree := { numVertices := 3, treeGrid := makeTree [(0, 1), (0, 2)] } }

theorem pathSwapped_grid (K : Type) [Field K] : (pathSwapped K).tree.treeGrid = [(0, 0, 1), (1, 0, 2)] := by
  change makeTree [(0, 1), (0, 2)] = _
  decide +kernel

theorem pathSwapped_valid (K : Type) [Field K] : Model.Valid (pathSwapped K) where
  isTree := by
    change IsTree 3 ((pathSwapped K).tree.treeGrid.map fun c => (c.2.1, c.2.2))
    rw [pathSwapped_grid]
    exact isTree_of_smaller rfl (by decide) (by decide)
  sorted := ⟨_, rfl⟩
  ragged := rfl
  mono := (pathModel_valid K).mono
  vert v _ m := by simp only [pathModel, pathSwapped]; decide
  edge c _ a b := by simp only [pathModel, pathSwapped]; split_ifs <;> decide
  feat v _ r _ m := by simp only [pathModel, pathSwapped]; split_ifs <;> decide
  logits := by simp [pathModel, pathSwapped]

theorem pathSwapped_consistent (K : Type) [Field K] : Model.Consistent (pathSwapped K) := by
  intro c _
  simp only [pathModel, pathSwapped]
  decide

theorem pathSwapped_spec (K : Type) [Field K] : PermutedModel (Equiv.swap 0 1) (pathModel K) (pathSwapped K) where
  verts := rfl
  maps v := by
    change _ < 3 ↔ v < 3
    rcases v with _ | _ | v
    · simp
    · simp
    · rw [Equiv.swap_apply_of_ne_of_ne (by omega) (by omega)]
  edges := by
    rw [pathModel_grid, pathSwapped_grid]
    refine ⟨_, .cons (.inr ⟨by decide, ?_⟩) (.cons (.inl ⟨by decide, ?_⟩) .nil), .refl _⟩ <;>
      simp only [pathModel, pathSwapped] <;> decide
  vert v _ m := rfl
  width v hv := by
    have hv : v < 3 := hv
    unfold numValues
    simp only [pathModel, pathSwapped]
    interval_cases v <;> decide
  feat v hv c hc m := by
    have hv : v < 3 := hv
    have hc : c < 2 := by
      unfold numValues at hc
      simp only [pathModel, pathSwapped] at hc
      interval_cases v <;> simpa using hc
    unfold firstCol
    simp only [pathModel, pathSwapped]
    interval_cases v <;> interval_cases c <;> revert m <;> decide

-- The trees differ, and the same observation has the same probability.
example : ∃ srv srv' : Server ℝ 2, Serves (pathModel ℝ) srv ∧ Serves (pathSwapped ℝ) srv' ∧ srv.tree.treeGrid ≠ srv'.tree.treeGrid ∧
    srv'.logprob realNum [[0, 3, 1, 0, 0, 2]] = srv.logprob realNum [[1, 0, 0, 3, 0, 2]] := by
  have P := pathSwapped_spec ℝ
  obtain ⟨mst, hmst⟩ := exists_mst (K := ℝ)
  obtain ⟨srv, -, s, -⟩ := server_init hmst (pathModel_valid ℝ)
  obtain ⟨srv', -, s', -⟩ := server_init hmst (pathSwapped_valid ℝ)
  refine ⟨srv, srv', s, s', ?_, server_logprob_permuted P (pathModel_valid ℝ) (pathSwapped_valid ℝ) s s' _ _ (by simp [pathModel])
    (by simp [pathSwapped, pathModel]) (.cons (fun v hv c hc => ?_) .nil)⟩
  · rw [s.tree, s'.tree, pathModel_grid, pathSwapped_grid]; decide
  · have hv : v < 3 := hv
    have hc : c < 2 := by
      unfold numValues at hc
      simp only [pathModel, pathSwapped] at hc
      interval_cases v <;> simpa using hc
    unfold firstCol
    simp only [pathModel, pathSwapped]
    interval_cases v <;> interval_cases c <;> decide

/-! ### Marginals do depend on the order -/

/-- A path of four binary features whose values agreed in both rows. Read backwards it is the same model. -/
def longModel (K : Type) [Field K] : Model K 2 where
  tree := { numVertices := 4, treeGrid := makeTree [(0, 1), (1, 2), (2, 3)] }
  raggedIndex := [0, 2, 4, 6, 8]
  vertSS _ _ := 1
  edgeSS _ a b := if a = b then 1 else 0
  featSS r m := if r % 2 = m.val then 1 else 0
  edgeLogits := [0, 0, 0, 0, 0, 0]

theorem longModel_grid (K : Type) [Field K] : (longModel K).tree.treeGrid = [(0, 0, 1), (1, 1, 2), (2, 2, 3)] := by
  change makeTree [(0, 1), (1, 2), (2, 3)] = _
  decide +kernel

theorem longModel_valid (K : Type) [Field K] : Model.Valid (longModel K) where
  isTree := by
    change IsTree 4 ((longModel K).tree.treeGrid.map fun c => (c.2.1, c.2.2))
    rw [longModel_grid]
    exact isTree_of_smaller rfl (by decide) (by decide)
  sorted := ⟨_, rfl⟩
  ragged := rfl
  mono := by change [0, 2, 4, 6, 8].Pairwise (· ≤ ·); decide
  vert v _ m := by simp only [longModel]; decide
  edge c _ a b := by simp only [longModel]; split_ifs <;> decide
  feat v _ r _ m := by simp only [longModel]; split_ifs <;> decide
  logits := by simp [longModel]

theorem longModel_consistent (K : Type) [Field K] : Model.Consistent (longModel K) := by
  intro c _
  simp only [longModel]
  decide

/-- Reading backwards. -/
def backwards : Equiv.Perm Nat := Equiv.swap 0 3 * Equiv.swap 1 2

theorem longModel_backwards (K : Type) [Field K] : PermutedModel backwards (longModel K) (longModel K) where
  verts := rfl
  maps v := by
    change _ < 4 ↔ v < 4
    rcases v with _ | _ | _ | _ | v
    · decide
    · decide
    · decide
    · decide
    · unfold backwards
      rw [Equiv.Perm.mul_apply, Equiv.swap_apply_of_ne_of_ne (a := 1) (by omega) (by omega),
        Equiv.swap_apply_of_ne_of_ne (by omega) (by omega)]
  edges := by
    rw [longModel_grid]
    refine ⟨[(2, 2, 3), (1, 1, 2), (0, 0, 1)], .cons (.inr ⟨by decide, ?_⟩) (.cons (.inr ⟨by decide, ?_⟩) (.cons (.inr ⟨by decide, ?_⟩) .nil)), by decide⟩ <;>
      simp only [longModel] <;> decide
  vert v _ m := rfl
  width v hv := by
    have hv : v < 4 := hv
    unfold numValues
    simp only [longModel]
    interval_cases v <;> decide
  feat v hv c hc m := by
    have hv : v < 4 := hv
    have hc : c < 2 := by
      unfold numValues at hc
      simp only [longModel] at hc
      interval_cases v <;> simpa using hc
    unfold firstCol
    simp only [longModel]
    interval_cases v <;> interval_cases c <;> revert m <;> decide

theorem longModel_root : makeProgram (longModel ℚ).tree.treeGrid none = makeProgram (longModel ℚ).tree.treeGrid (some 1) := by
  rw [longModel_grid]
  decide +kernel

/-- Vertex 1 separates the ends of the longer path. -/
theorem longModel_above : ¬ Above (longModel ℚ).tree.getEdges 1 2 0 ∧ ¬ Above (longModel ℚ).tree.getEdges 1 0 2 := by
  have e : (longModel ℚ).tree.getEdges = [(0, 1), (1, 2), (2, 3)] := by
    rw [getEdges_eq, longModel_grid]; rfl
  rw [e]
  refine ⟨?_, ?_⟩
  · rintro (h | h)
    · exact absurd h (by decide)
    · exact h (.single ⟨by decide, by decide⟩)
  · rintro (h | h)
    · exact absurd h (by decide)
    · exact h (.single ⟨by decide, by decide⟩)

/-- **C103 is false of `marginals`**: on a path of four features, which is the same read backwards, an observation of the third
feature does not change the block of the first, while the same observation of the second feature changes the block of the
last. -/
theorem marginals_not_permuted : ∃ (srv : Server ℚ 2) (f : List Int → Nat → ℚ), PermutedModel backwards (longModel ℚ) (longModel ℚ) ∧
    Serves (longModel ℚ) srv ∧
    SameRow backwards (longModel ℚ) (longModel ℚ) (fun c => [0, 0, 0, 0, 0, 1, 0, 0].getD c 0) (fun c => [0, 0, 0, 1, 0, 0, 0, 0].getD c 0) ∧
    srv.marginals (fun _ _ => 1) [[0, 0, 0, 0, 0, 1, 0, 0], [0, 0, 0, 1, 0, 0, 0, 0]]
      = .ok ([[0, 0, 0, 0, 0, 1, 0, 0], [0, 0, 0, 1, 0, 0, 0, 0]].map f) ∧
    f [0, 0, 0, 0, 0, 1, 0, 0] 0 = 1 / 2 ∧ f [0, 0, 0, 1, 0, 0, 0, 0] 6 ≠ 1 / 2 := by
  obtain ⟨mst, hmst⟩ := exists_mst (K := ℚ)
  have hV := longModel_valid ℚ
  obtain ⟨srv, -, s, -⟩ := server_init hmst hV
  have hp : makeProgram (longModel ℚ).tree.treeGrid (some 1) = .ok srv.program := by rw [← longModel_root, s.program]
  refine ⟨srv, marginalsWith srv srv.program (fun _ _ => 1), longModel_backwards ℚ, s, ?_, ?_, ?_, ?_⟩
  · intro v hv c hc
    have hv : v < 4 := hv
    have hc : c < 2 := by
      unfold numValues at hc
      simp only [longModel] at hc
      interval_cases v <;> simpa using hc
    unfold firstCol
    simp only [longModel]
    interval_cases v <;> interval_cases c <;> decide
  · have : srv.raggedSize = 8 := by rw [Server.raggedSize, s.ragged]; rfl
    simp [Server.marginals, this, pyAssert, bind, Except.bind]
  · rw [marginals_exact_partial hV (longModel_consistent ℚ) s (by decide) hp _ _ (v := 0) (by decide) (by simp [columns, longModel])]
    have e : evidenceOn (longModel ℚ) (fun u => Above (longModel ℚ).tree.getEdges 1 u 0 ∨
        Above (longModel ℚ).tree.getEdges 1 0 u) (fun c => [0, 0, 0, 0, 0, 1, 0, 0].getD c 0) = fun _ => 0 := by
      funext c
      by_cases hc : c ∈ columns (longModel ℚ) 2
      · refine (evidenceOn_mem hV (by decide) hc).2 ?_
        rintro (h | h)
        · exact longModel_above.1 h
        · exact longModel_above.2 h
      · unfold evidenceOn
        split
        · have : c ≠ 5 := by rintro rfl; exact hc (by simp [columns, longModel])
          match c, this with
          | 0, _ => rfl
          | 1, _ => rfl
          | 2, _ => rfl
          | 3, _ => rfl
          | 4, _ => rfl
          | 6, _ => rfl
          | 7, _ => rfl
          | n + 8, _ => simp
        · rfl
    rw [e]
    decide +kernel
  · rw [marginals_exact_partial hV (longModel_consistent ℚ) s (by decide) hp _ _ (v := 3) (by decide) (by simp [columns, longModel])]
    have e : evidenceOn (longModel ℚ) (fun u => Above (longModel ℚ).tree.getEdges 1 u 3 ∨
        Above (longModel ℚ).tree.getEdges 1 3 u) (fun c => [0, 0, 0, 1, 0, 0, 0, 0].getD c 0)
        = fun c => [0, 0, 0, 1, 0, 0, 0, 0].getD c 0 := by
      funext c
      by_cases hc : c ∈ columns (longModel ℚ) 1
      · exact (evidenceOn_mem hV (by decide) hc).1 (.inl (.inl rfl))
      · unfold evidenceOn
        split
        · rfl
        · have : c ≠ 3 := by rintro rfl; exact hc (by simp [columns, longModel])
          match c, this with
          | 0, _ => rfl
          | 1, _ => rfl
          | 2, _ => rfl
          | 4, _ => rfl
          | 5, _ => rfl
          | 6, _ => rfl
          | 7, _ => rfl
          | n + 8, _ => simp
    rw [e]
    decide +kernel

end TreeCat
