import Verif.Lemmas.FloatSampleOut

/-! # The law of `sample` in float32

`TreeCatServer.sample` (serving.py:247-320) draws from the posterior when it is computed exactly (C19, C20). Here: how far its law is from the posterior when it is computed in float32, with
random numbers that are multiples of `2 ^ -53`. -/

namespace TreeCat

open Util Spec
open scoped BigOperators

/-! ### Specification -/

/-- What `np.random.rand` returns for each observation, as a function of the integers it draws. -/
def Spec.obsDraws {V : Nat} (d : Fin V × Fin 127 → Fin (2 ^ 53)) (v k : Nat) : ℚ := if h : v < V ∧ k < 127 then ((d (⟨v, h.1⟩, ⟨k, h.2⟩)).val : ℚ) / 2 ^ 53 else 0

/-- The value of `k` at the classes and observations that result; zero if an exception is raised. -/
def Spec.sampleValue {M : Nat} (k : (Nat → Fin M) → (Nat → Int) → ℝ) : Py (FloatDraw M) → ℝ
  | .ok s => k s.vertSample s.featSample
  | .error _ => 0

/-- The mean of `k` over all that `np.random.rand` can return while one sample is drawn. -/
noncomputable def Spec.floatSampleMean {M : Nat} [NeZero M] (A : ServeOps M) (srv : FloatServer M) (V : Nat) (counts data : List Int) (k : (Nat → Fin M) → (Nat → Int) → ℝ) : ℝ :=
  (∑ d : Fin V → Fin (2 ^ 53), (∑ dF : Fin V × Fin 127 → Fin (2 ^ 53), Spec.sampleValue k (srv.sample A counts data (Spec.drawsOf d) (Spec.obsDraws dF))) / ((2 ^ 53 : Nat) : ℝ) ^ (V * 127)) /
    ((2 ^ 53 : Nat) : ℝ) ^ V

/-- The error of a sample of `n` observations from a model of `V` features with at most `W` values and `M` clusters. -/
noncomputable def Spec.sampleErr (V M W n : Nat) : ℝ :=
  V * (M * (2 ^ (-23 : Int) + 2 ^ (-52 : Int)) + 2 * (2 * M * M + 6 * M + W + 56 : Nat) * 2 ^ (-23 : Int)) + n * (W * (2 ^ (-23 : Int) + 2 ^ (-52 : Int)) + 2 * (W + 7 : Nat) * 2 ^ (-23 : Int))

/-! ### The law -/

theorem average_close {α : Type} (s : Finset α) {x y : α → ℝ} {c N : ℝ} (hN : (s.card : ℝ) = N) (hN0 : 0 < N) (h : ∀ d ∈ s, |x d - y d| ≤ c) : |(∑ d ∈ s, x d) / N - (∑ d ∈ s, y d) / N| ≤ c := by
  rw [← sub_div, ← Finset.sum_sub_distrib, abs_div, abs_of_pos hN0, div_le_iff₀ hN0]
  calc _ ≤ ∑ d ∈ s, |x d - y d| := Finset.abs_sum_le_sum_abs _ _
    _ ≤ ∑ _d ∈ s, c := Finset.sum_le_sum h
    _ = c * N := by rw [Finset.sum_const, nsmul_eq_mul, hN, mul_comm]

theorem obsList_fst (counts : List Int) (B : List Nat) : (obsList counts B).map Prod.fst = B.flatMap fun v => List.replicate (counts.getD v 0).toNat v := by
  unfold obsList
  rw [List.map_flatMap]
  refine List.flatMap_congr fun v _ => ?_
  rw [List.map_map]
  show List.map (fun _ => v) _ = _
  rw [List.map_const', List.length_range]

theorem count_replicates (cnt : Nat → Nat) (v : Nat) : ∀ B : List Nat, B.Nodup → (B.flatMap fun v => List.replicate (cnt v) v).count v ≤ cnt v := by
  intro B
  induction B with
  | nil => intro _; simp
  | cons u B ih =>
    intro hn
    rw [List.nodup_cons] at hn
    rw [List.flatMap_cons, List.count_append, List.count_replicate]
    by_cases h : u = v
    · subst h
      have : (B.flatMap fun v => List.replicate (cnt v) v).count u = 0 := by
        rw [List.count_eq_zero]
        intro hm
        obtain ⟨w, hw, hw'⟩ := List.mem_flatMap.1 hm
        exact hn.1 (List.eq_of_mem_replicate hw' ▸ hw)
      simp [this]
    · have := ih hn.2
      simpa [h] using this

theorem obsList_nodup (counts : List Int) {B : List Nat} (h : B.Nodup) : (obsList counts B).Nodup := by
  unfold obsList
  rw [List.nodup_flatMap]
  refine ⟨fun v _ => List.Nodup.map (fun a b hab => (Prod.mk.inj hab).2) List.nodup_range, ?_⟩
  refine h.imp fun {v w} hvw => ?_
  intro b hb hb'
  obtain ⟨_, -, rfl⟩ := List.mem_map.1 hb
  obtain ⟨_, -, h2⟩ := List.mem_map.1 hb'
  exact hvw (Prod.mk.inj h2).1.symm

section
variable {M : Nat} [NeZero M] {A : ServeOps M} {model : Model ℝ M} {ε : ℝ}

/-- **C79**. For every model with counts below `2 ^ 24`, at most 128 clusters and features of at most `W ≤ 256` values, every row with at most one observation per feature, and every request for at most
127 observations of features that have values: unless a message underflows, the law of the classes and observations that `sample` draws in float32 is the posterior given the row up to an error
linear in the number of features and of observations. -/
theorem floatSample_near (N : Spec.ServeOpsNear A ε) (h : Model.Valid model) (S : Spec.SmallCounts model) {W : Nat} (hW : ∀ v < model.tree.numVertices, (columns model v).card ≤ W) (hW' : W ≤ 256)
    {data : List Int} (hrow : Spec.SingleRow model data) {counts : List Int} (hcounts : ∀ v < model.tree.numVertices, counts.getD v 0 ≤ 127)
    (hne : ∀ v < model.tree.numVertices, 0 < counts.getD v 0 → (columns model v).Nonempty) {srv : FloatServer M} (hs : FloatServer.init A model = .ok srv)
    (hcl : Spec.sampleClear A srv data srv.program srv.vert = true) {k : (Nat → Fin M) → (Nat → Int) → ℝ} {lo hi : ℝ} (hk : ∀ z x, lo ≤ k z x ∧ k z x ≤ hi) :
    |Spec.floatSampleMean A srv model.tree.numVertices counts data k - sampleMean model (fun r => data.getD r 0) counts k|
      ≤ Spec.sampleErr model.tree.numVertices M W (∑ v ∈ Finset.range model.tree.numVertices, (counts.getD v 0).toNat) * (hi - lo) := by
  obtain ⟨B, hp, hr⟩ := floatServer_bounds N.ok h S hs
  have SN := floatServer_near N h S hW hs
  obtain ⟨mst, hmst⟩ := exists_mst (K := ℝ)
  obtain ⟨esrv, -, s, -⟩ := server_init hmst h
  obtain ⟨r, hrV, hpc⟩ := exists_plan_none h hp
  obtain ⟨par, ch, eid, L, P, hp'⟩ := exists_plan h hrV
  have hpe : srv.program = progOf r par ch eid L := Except.ok.inj (hpc.symm.trans hp')
  have hids : ∀ e ∈ model.tree.treeGrid, e.1 < model.tree.numVertices - 1 := by
    have hlen : model.tree.treeGrid.length = model.tree.numVertices - 1 := by
      have := h.isTree.card
      simp only [TreeStructure.getEdges, List.length_map] at this
      omega
    rw [← hlen]
    obtain ⟨edges, hs⟩ := h.sorted
    rw [hs]
    exact makeTree_ids edges
  have T := P.topo
  have heid : ∀ v < model.tree.numVertices, v ≠ r → eid v < model.tree.numVertices - 1 := by
    intro v hv hvr
    have := hids _ (plan_grid P hv hvr)
    split at this <;> exact this
  have hne' : ∀ v < model.tree.numVertices, (counts.getD v 0).toNat ≠ 0 → (columns model v).Nonempty := fun v hv h0 => hne v hv (by omega)
  have hlh : 0 ≤ hi - lo := by linarith [(hk (fun _ => 0) fun _ => 0).1, (hk (fun _ => 0) fun _ => 0).2]
  -- the messages
  have hcl' : Spec.sampleClear A srv data (L.reverse.flatMap (inBlock ch eid) ++ (⟨.ROOT, r, 0, 0⟩ :: L.flatMap (outBlock r par eid))) srv.vert = true := by
    rw [hpe] at hcl
    unfold progOf at hcl
    rw [List.append_assoc] at hcl
    exact hcl
  obtain ⟨msgs, h1, h2, h3, h4, h5⟩ := sampleInward_near N S.clusters B SN hr s P hids hrow _ hcl'
  have hout := sampleClear_outs (r := r) (par := par) (eid := eid) L (show Spec.sampleClear A srv data (L.flatMap (outBlock r par eid)) msgs = true from h2)
  have hg : ∀ v < model.tree.numVertices, ∀ a, 0 < realOf msgs v a := fun v hv a => (msg_near (h3 v hv).1 (h4 v hv) a).pos
  have hψ : ∀ v < model.tree.numVertices, ∀ a b, 0 < servePsi r par eid esrv.edgeTrans v a b := by
    intro v hv a b
    unfold servePsi
    split
    · exact one_pos
    · next hvr => exact transAt_pos h s P hv hvr a b
  -- the observations
  set w := exactW r par eid esrv.edgeTrans (realOf msgs) with hw
  have hobs : ∀ v ∈ L.flatMap (fun v => List.replicate (counts.getD v 0).toNat v), v < model.tree.numVertices ∧ (columns model v).Nonempty := by
    intro v hv
    obtain ⟨u, hu, hu'⟩ := List.mem_flatMap.1 hv
    obtain rfl := List.eq_of_mem_replicate hu'
    have h0 : (counts.getD v 0).toNat ≠ 0 := by
      intro h0
      rw [h0] at hu'
      cases hu'
    exact ⟨T.mem.1 hu, hne' v (T.mem.1 hu) h0⟩
  set kz : (Nat → Fin M) → ℝ := fun z => observe model z (L.flatMap fun v => List.replicate (counts.getD v 0).toNat v) (fun _ => 0) (k z) with hkz
  have hkzr : ∀ z, lo ≤ kz z ∧ kz z ≤ hi := fun z => observe_range h (hk z) _ _ hobs
  have hwpos : ∀ v ∈ L, ∀ z a, 0 < w v z a := by
    intro v hv z a
    have hvV := T.mem.1 hv
    simp only [hw, exactW]
    split
    · exact hg v hvV a
    · next hvr => exact mul_pos (hg v hvV a) (transAt_pos h s P hvV hvr _ _)
  have b1 := chain_perturb T hg hψ (φ := fun v m => vertMean model v m * serveU model data v m) h5 (fun v hv z m => exactW_cond P esrv.edgeTrans (realOf msgs) hv z m) hkzr (fun _ => 0)
  have b2 := pickChain_average (n := 2 ^ 53) (by positivity) hkzr L T.nodup hwpos (ε := drawErr M (M * M + 2 * M + 19 + 2))
    (fun v hv z f hf => servePick_average N.ok S.clusters B SN s P heid (fun v hv => (h3 v hv).1) h4 hout hv z hf) (fun _ => 0) fun _ => ⟨0, by positivity⟩
  rw [sumOver_perm T.perm, sumOver_range] at b2
  -- the run
  set e : Nat × Nat → Fin model.tree.numVertices × Fin 127 := fun b => if h : b.1 < model.tree.numVertices ∧ b.2 < 127 then (⟨b.1, h.1⟩, ⟨b.2, h.2⟩) else (⟨r, hrV⟩, 0) with he
  have hmem : ∀ b ∈ obsList counts L, b.1 < model.tree.numVertices ∧ b.2 < 127 ∧ (columns model b.1).Nonempty := by
    intro b hb
    unfold obsList at hb
    obtain ⟨v, hv, hb⟩ := List.mem_flatMap.1 hb
    obtain ⟨i, hi', rfl⟩ := List.mem_map.1 hb
    rw [List.mem_range] at hi'
    have hvV := T.mem.1 hv
    have := hcounts v hvV
    exact ⟨hvV, by show i < 127; omega, hne' v hvV (by omega)⟩
  have hee : ∀ b ∈ obsList counts L, ∀ hb : b.1 < model.tree.numVertices ∧ b.2 < 127, e b = (⟨b.1, hb.1⟩, ⟨b.2, hb.2⟩) := fun b _ hb => by simp only [he, dif_pos hb]
  have hval : ∀ (d : Fin model.tree.numVertices → Fin (2 ^ 53)) (dF : Fin model.tree.numVertices × Fin 127 → Fin (2 ^ 53)), Spec.sampleValue k (srv.sample A counts data (Spec.drawsOf d) (Spec.obsDraws dF))
      = k (pickChain (servePick A srv r par eid msgs) L (fun _ => 0) fun v => (overlay (fun _ => (⟨0, by positivity⟩ : Fin (2 ^ 53))) d v).val)
        ((obsList counts L).foldl (fun f b => obsPick A srv b.1 (pickChain (servePick A srv r par eid msgs) L (fun _ => 0) (fun v => (overlay (fun _ => (⟨0, by positivity⟩ : Fin (2 ^ 53))) d v).val) b.1)
          (dF (e b)).val f) fun _ => 0) := by
    intro d dF
    have e1 : Spec.drawsOf d = fun v => (((overlay (fun _ => (⟨0, by positivity⟩ : Fin (2 ^ 53))) d v).val : Nat) : ℚ) / 2 ^ 53 := by
      funext v
      unfold Spec.drawsOf overlay
      split
      · rfl
      · simp
    have e2 : Spec.obsDraws dF = fun v i => (((if h : v < model.tree.numVertices ∧ i < 127 then (dF (⟨v, h.1⟩, ⟨i, h.2⟩)).val else 0 : Nat) : Nat) : ℚ) / 2 ^ 53 := by
      funext v i
      unfold Spec.obsDraws
      split
      · rfl
      · simp
    obtain ⟨s', h6, h7, h8⟩ := sampleProgram_pick (data := data) (counts := counts) N.ok B SN hr heid T hne' (d := fun v => (overlay (fun _ => (⟨0, by positivity⟩ : Fin (2 ^ 53))) d v).val)
      (dF := fun v i => if h : v < model.tree.numVertices ∧ i < 127 then (dF (⟨v, h.1⟩, ⟨i, h.2⟩)).val else 0)
      (fun v => (overlay (fun _ => (⟨0, by positivity⟩ : Fin (2 ^ 53))) d v).isLt) h3 (s0 := { messagesIn := srv.vert, messagesOut := srv.vert, vertSample := fun _ => 0, featSample := fun _ => 0 }) h1
    unfold FloatServer.sample
    rw [e1, e2, hpe, h6]
    show k s'.vertSample s'.featSample = _
    rw [h8, h7]
    congr 1
    unfold obsFold
    refine List.foldl_ext _ _ _ fun f b hb => ?_
    have hb' := hmem b hb
    rw [hee b hb ⟨hb'.1, hb'.2.1⟩]
    simp only [dif_pos (And.intro hb'.1 hb'.2.1)]
  have hnd : ((obsList counts L).map e).Nodup := by
    refine List.Nodup.map_on (fun b hb b' hb' hbb => ?_) (obsList_nodup counts T.nodup)
    have h6 := hmem b hb
    have h7 := hmem b' hb'
    rw [hee b hb ⟨h6.1, h6.2.1⟩, hee b' hb' ⟨h7.1, h7.2.1⟩] at hbb
    have h8 := Prod.mk.inj hbb
    exact Prod.ext (Fin.mk.inj h8.1) (Fin.mk.inj h8.2)
  have hB : ∀ b ∈ obsList counts L, b.1 < model.tree.numVertices ∧ (columns model b.1).Nonempty := fun b hb => ⟨(hmem b hb).1, (hmem b hb).2.2⟩
  have hcnt : ∀ v < model.tree.numVertices, ((obsList counts L).map Prod.fst).count v ≤ 127 := by
    intro v hv
    rw [obsList_fst]
    have h6 := count_replicates (fun v => (counts.getD v 0).toNat) v L T.nodup
    have h7 := hcounts v hv
    omega
  have hlen : L.length = model.tree.numVertices := by rw [T.perm.length_eq, List.length_range]
  have hobsLen : (obsList counts L).length = ∑ v ∈ Finset.range model.tree.numVertices, (counts.getD v 0).toNat := by
    have e1 : (obsList counts L).length = (L.map fun v => (counts.getD v 0).toNat).sum := by
      unfold obsList
      simp [List.length_flatMap]
    rw [e1, (T.perm.map _).sum_eq]
    rfl
  have b3 : |Spec.floatSampleMean A srv model.tree.numVertices counts data k
      - (∑ d : Fin model.tree.numVertices → Fin (2 ^ 53), kz (pickChain (servePick A srv r par eid msgs) L (fun _ => 0) fun v => (overlay (fun _ => (⟨0, by positivity⟩ : Fin (2 ^ 53))) d v).val)) /
        ((2 ^ 53 : Nat) : ℝ) ^ model.tree.numVertices| ≤ (obsList counts L).length * drawErr W (W + 7) * (hi - lo) := by
    unfold Spec.floatSampleMean
    refine average_close _ ?_ (by positivity) fun d _ => ?_
    · rw [Finset.card_univ, Fintype.card_fun, Fintype.card_fin, Fintype.card_fin]
      push_cast
      rfl
    · rw [Finset.sum_congr rfl fun dF _ => hval d dF]
      have := fun z => features_average N.ok h SN hr hW (le_trans hW' (by norm_num)) z e hnd hB hcnt (hk z)
      have := this (pickChain (servePick A srv r par eid msgs) L (fun _ => 0) fun v => (overlay (fun _ => (⟨0, by positivity⟩ : Fin (2 ^ 53))) d v).val)
      rw [Fintype.card_prod, Fintype.card_fin, Fintype.card_fin, obsList_fst] at this
      exact this
  rw [hlen] at b2
  have hκ : (L.map fun v => M + 5 + (W + 7) + 1 + (ch v).length * (M * M + 2 * M + 19 + M + 3)).sum ≤ model.tree.numVertices * (M * M + 4 * M + W + 35) := by
    have e1 : ∀ l : List Nat, (l.map fun v => M + 5 + (W + 7) + 1 + (ch v).length * (M * M + 2 * M + 19 + M + 3)).sum
        = l.length * (M + 5 + (W + 7) + 1) + (l.flatMap ch).length * (M * M + 2 * M + 19 + M + 3) := by
      intro l
      induction l with
      | nil => simp
      | cons v l ih =>
        rw [List.map_cons, List.sum_cons, ih, List.flatMap_cons, List.length_append, List.length_cons]
        ring
    rw [e1, hlen, T.sum_ch.length_eq]
    have e2 := T.filter_length
    calc _ ≤ model.tree.numVertices * (M + 5 + (W + 7) + 1) + model.tree.numVertices * (M * M + 2 * M + 19 + M + 3) := Nat.add_le_add_left (Nat.mul_le_mul_right _ (by omega)) _
      _ = _ := by ring
  have b4 : 2 * (((L.map fun v => M + 5 + (W + 7) + 1 + (ch v).length * (M * M + 2 * M + 19 + M + 3)).sum : Nat) : ℝ) * 2 ^ (-23 : Int) * (hi - lo)
      ≤ 2 * ((model.tree.numVertices * (M * M + 4 * M + W + 35) : Nat) : ℝ) * 2 ^ (-23 : Int) * (hi - lo) := by
    have : (((L.map fun v => M + 5 + (W + 7) + 1 + (ch v).length * (M * M + 2 * M + 19 + M + 3)).sum : Nat) : ℝ) ≤ ((model.tree.numVertices * (M * M + 4 * M + W + 35) : Nat) : ℝ) := by exact_mod_cast hκ
    have h23 : (0 : ℝ) < 2 ^ (-23 : Int) := by positivity
    gcongr
  have hexact : (∑ z : Fin model.tree.numVertices → Fin M, treeWeight r par L (fun v m => vertMean model v m * serveU model data v m) (servePsi r par eid esrv.edgeTrans) (overlay (fun _ => 0) z) *
        kz (overlay (fun _ => 0) z)) / ∑ z : Fin model.tree.numVertices → Fin M, treeWeight r par L (fun v m => vertMean model v m * serveU model data v m) (servePsi r par eid esrv.edgeTrans) (overlay (fun _ => 0) z)
      = sampleMean model (fun r => data.getD r 0) counts k := by
    unfold sampleMean dataProb sumLatent
    congr 1
    · refine Finset.sum_congr rfl fun z _ => ?_
      rw [serve_treeWeight s P]
      congr 1
      refine observe_perm _ ?_ _
      exact T.perm.flatMap_right _
    · exact Finset.sum_congr rfl fun z _ => serve_treeWeight s P data _
  rw [hexact] at b1
  have b5 := abs_sub_le (Spec.floatSampleMean A srv model.tree.numVertices counts data k) _ (sampleMean model (fun r => data.getD r 0) counts k) |>.trans
    (add_le_add b3 ((abs_sub_le _ _ _).trans (add_le_add b2 (b1.trans b4))))
  refine b5.trans (le_of_eq ?_)
  rw [hobsLen]
  unfold drawErr Spec.sampleErr
  push_cast
  ring

end

/-- The hypotheses can be met: an example with three features and four observations, in which no probability is wrong by more than 1/1000. -/
example : ∃ srv, FloatServer.init (numpyServe 2 floorLog) (exampleModel ℝ) = .ok srv ∧ ∀ E : (Nat → Fin 2) → (Nat → Int) → Bool,
    |Spec.floatSampleMean (numpyServe 2 floorLog) srv 3 [1, 2, 1] [1, 0, 0, 1, 0, 0, 0] (fun z x => if E z x then 1 else 0)
      - sampleMean (exampleModel ℝ) (fun r => [1, 0, 0, 1, 0, 0, 0].getD r 0) [1, 2, 1] (fun z x => if E z x then 1 else 0)| ≤ 1 / 1000 := by
  have hu : ((FloatServer.init (numpyServe 2 floorLog) (exampleModel ℝ)).toOption.map fun srv => Spec.sampleClear (numpyServe 2 floorLog) srv [1, 0, 0, 1, 0, 0, 0] srv.program srv.vert)
      = some true := by decide +kernel
  cases hs : FloatServer.init (numpyServe 2 floorLog) (exampleModel ℝ) with
  | error e => rw [hs] at hu; cases hu
  | ok srv =>
    rw [hs] at hu
    refine ⟨srv, rfl, fun E => le_trans (floatSample_near (numpyServe_near (by norm_num)) (exampleModel_valid ℝ)
      { clusters := by norm_num
        vert := fun v _ m => by simp only [exampleModel]; split_ifs <;> decide
        edge := fun c _ a b => by simp only [exampleModel]; split_ifs <;> decide
        feat := fun v _ r _ m => by simp only [exampleModel]; split_ifs <;> decide
        width := by
          change ∀ v < 3, (columns (exampleModel ℝ) v).card ≤ 256
          decide +kernel } (W := 3) (by
          change ∀ v < 3, (columns (exampleModel ℝ) v).card ≤ 3
          decide +kernel) (by norm_num) (data := [1, 0, 0, 1, 0, 0, 0]) ⟨fun r => by
            by_cases h : r < 7
            · revert r
              decide
            · rw [List.getD_eq_default _ _ (by simpa using h)], by
            change ∀ v < 3, ∑ r ∈ columns (exampleModel ℝ) v, ([1, 0, 0, 1, 0, 0, 0] : List Int).getD r 0 ≤ 1
            decide +kernel⟩ (counts := [1, 2, 1]) (by
            change ∀ v < 3, ([1, 2, 1] : List Int).getD v 0 ≤ 127
            decide) (by
            change ∀ v < 3, 0 < ([1, 2, 1] : List Int).getD v 0 → (columns (exampleModel ℝ) v).Nonempty
            decide +kernel) hs (Option.some.inj hu) (lo := 0) (hi := 1) (fun z x => by split_ifs <;> norm_num)) ?_⟩
    change Spec.sampleErr 3 2 3 4 * (1 - 0) ≤ _
    unfold Spec.sampleErr
    norm_num

end TreeCat
