import Verif.Lemmas.Server

/-!
# The inward messages of the server
-/

set_option linter.unusedSectionVars false

namespace TreeCat

open Spec

section
variable {K : Type} [Field K] [LinearOrder K] [IsStrictOrderedRing K] {M : Nat} [NeZero M]
variable {model : Model K M} {srv : Server K M}

/-- A program that visits the tree from a root. -/
structure Plan (model : Model K M) (r : Nat) (par : Nat → Nat) (ch : Nat → List Nat) (eid : Nat → Nat) (L : List Nat) : Prop where
  topo : Topo model.tree.numVertices r par ch L
  perm : ((L.filter (· ≠ r)).map (upEntry par eid)).Perm model.tree.treeGrid
  parent : ∀ v < model.tree.numVertices, v ≠ r → par v < model.tree.numVertices ∧ par v ≠ v

theorem exists_plan (h : Model.Valid model) {r : Nat} (hr : r < model.tree.numVertices) :
    ∃ par ch eid L, Plan model r par ch eid L ∧ makeProgram model.tree.treeGrid (some r) = .ok (progOf r par ch eid L) := by
  have ht : IsTree model.tree.numVertices (gridEdges model.tree.treeGrid) := h.isTree
  obtain ⟨d, par, ch, eid, L, R, T, he, -, hp⟩ := makeProgram_some ht hr
  refine ⟨par, ch, eid, L, ⟨T, grid_perm R T he (grid_sorted_lt ht h.sorted), ?_⟩, hp⟩
  intro v hv hvr
  obtain ⟨A, B, hL⟩ := List.append_of_mem (T.mem.2 hv)
  have hpA := T.before A v B hL hvr
  refine ⟨T.mem.1 (by rw [hL]; exact List.mem_append_left _ hpA), fun he => ?_⟩
  have := T.nodup
  rw [hL, List.nodup_append] at this
  exact this.2.2 _ hpA v (by simp) he

theorem exists_plan_none (h : Model.Valid model) {prog : List Instr} (hp : makeProgram model.tree.treeGrid none = .ok prog) :
    ∃ r, r < model.tree.numVertices ∧ makeProgram model.tree.treeGrid (some r) = .ok prog := by
  have ht : IsTree model.tree.numVertices (gridEdges model.tree.treeGrid) := h.isTree
  obtain ⟨c, hc1, hc2⟩ := findCenter_spec ht
  refine ⟨c, hc2.1, ?_⟩
  rw [← hp]
  simp only [makeProgram, hc1, bind, Except.bind]

/-- Factor of the observations of feature `v`. -/
def serveU (model : Model K M) (data : List Int) (v : Nat) (m : Fin M) : K :=
  ∏ r ∈ columns model v, featMean model v r m ^ data.getD r 0

/-- Potential of the edge from `c` to its parent (one for the root). -/
def servePsi (r : Nat) (par eid : Nat → Nat) (trans : Nat → Fin M → Fin M → K) (c : Nat) (m m' : Fin M) : K :=
  if c = r then 1 else transAt trans (eid c) (par c) c m m'

theorem serveU_pos (h : Model.Valid model) (data : List Int) {v : Nat} (hv : v < model.tree.numVertices) (m : Fin M) :
    0 < serveU model data v m :=
  Finset.prod_pos fun _ hr => zpow_pos (featMean_pos h hv hr m) _

theorem serveUp_foldl (srv : Server K M) (data : List Int) (v : Nat) (l : List Nat) (msgs : Nat → Fin M → K) :
    l.foldl (fun (msgs : Nat → Fin M → K) r => Function.update msgs v fun m => msgs v m * srv.featCond r m ^ (data.getD r 0)) msgs
      = Function.update msgs v fun m => msgs v m * (l.map fun r => srv.featCond r m ^ (data.getD r 0)).prod := by
  induction l generalizing msgs with
  | nil => simp
  | cons r l ih =>
    rw [List.foldl_cons, ih]
    simp only [Function.update_self, Function.update_idem, List.map_cons, List.prod_cons]
    congr 1; funext m; ring

theorem block_prod (s : Serves model srv) (v : Nat) (f : Nat → K) : ((srv.block v).map f).prod = ∏ r ∈ columns model v, f r := by
  unfold Server.block Server.beg Server.stop columns
  rw [s.ragged]; rfl

theorem serveUp_eq (s : Serves model srv) (data : List Int) {v : Nat} (hv : v < model.tree.numVertices)
    (msgs : Nat → Fin M → K) :
    serveUp srv data msgs v = Function.update msgs v fun m => msgs v m * serveU model data v m := by
  unfold serveUp
  rw [serveUp_foldl]
  congr 1; funext m; congr 1
  rw [block_prod s]
  exact Finset.prod_congr rfl fun r hr => by rw [s.feat v hv r hr]

variable {r : Nat} {par : Nat → Nat} {ch : Nat → List Nat} {L : List Nat} {eid : Nat → Nat}

theorem upEntry_mem (P : Plan model r par ch eid L) {v : Nat} (hv : v < model.tree.numVertices) (hvr : v ≠ r) :
    upEntry par eid v ∈ model.tree.treeGrid :=
  P.perm.mem_iff.1 (List.mem_map_of_mem (List.mem_filter.2 ⟨P.topo.mem.2 hv, by simpa using hvr⟩))

/-- The transition factor is that of the entry of the grid. -/
theorem transAt_eq (s : Serves model srv) (P : Plan model r par ch eid L) {v : Nat} (hv : v < model.tree.numVertices) (hvr : v ≠ r)
    (z : Nat → Fin M) : transAt srv.edgeTrans (eid v) (par v) v (z (par v)) (z v)
      = edgeMean model (upEntry par eid v).1 (z (upEntry par eid v).2.1) (z (upEntry par eid v).2.2) /
        (vertMean model (upEntry par eid v).2.1 (z (upEntry par eid v).2.1) *
          vertMean model (upEntry par eid v).2.2 (z (upEntry par eid v).2.2)) := by
  have h1 := s.trans _ (upEntry_mem P hv hvr)
  have h2 := (P.parent v hv hvr).2
  unfold upEntry at h1 ⊢
  unfold transAt
  by_cases hlt : par v < v
  · rw [if_pos hlt] at h1 ⊢
    rw [if_neg (by omega)]
    simp only at h1 ⊢
    rw [h1]
  · rw [if_neg hlt] at h1 ⊢
    rw [if_pos (by omega)]
    simp only at h1 ⊢
    rw [h1]

theorem transAt_pos (h : Model.Valid model) (s : Serves model srv) (P : Plan model r par ch eid L) {v : Nat}
    (hv : v < model.tree.numVertices) (hvr : v ≠ r) (a b : Fin M) : 0 < transAt srv.edgeTrans (eid v) (par v) v a b := by
  have h2 := (P.parent v hv hvr).2
  have hm := upEntry_mem P hv hvr
  have hr := h.isTree.range _ (show ((upEntry par eid v).2.1, (upEntry par eid v).2.2) ∈ model.tree.getEdges from
    List.mem_map.2 ⟨_, hm, rfl⟩)
  have := transAt_eq s P hv hvr (fun w => if w = v then b else a)
  rw [if_neg h2, if_pos rfl] at this
  rw [this]
  exact div_pos (edgeMean_pos h hm _ _) (mul_pos (vertMean_pos h hr.1 _) (vertMean_pos h hr.2 _))

theorem servePsi_pos (h : Model.Valid model) (s : Serves model srv) (P : Plan model r par ch eid L) {v : Nat}
    (hv : v < model.tree.numVertices) (m m' : Fin M) : 0 < servePsi r par eid srv.edgeTrans v m m' := by
  unfold servePsi
  split
  · exact one_pos
  · exact transAt_pos h s P hv (by assumption) _ _

theorem serveIn_eq (P : Plan model r par ch eid L) (msgs : Nat → Fin M → K) {v c : Nat} (hv : v < model.tree.numVertices)
    (hc : c ∈ ch v) (a : Fin M) :
    serveIn srv msgs v c (eid c) a = msgs v a * mu (servePsi r par eid srv.edgeTrans) msgs c a := by
  obtain ⟨h1, h2, rfl⟩ := (P.topo.ch_mem v hv c).1 hc
  unfold serveIn mu servePsi
  simp only [if_neg h2]

/-- The weight of the tree is the probability of latent classes and row. -/
theorem serve_treeWeight (s : Serves model srv) (P : Plan model r par ch eid L) (data : List Int) (z : Nat → Fin M) :
    treeWeight r par L (fun v m => vertMean model v m * serveU model data v m) (servePsi r par eid srv.edgeTrans) z
      = latentProb model z * rowProb model (fun r => data.getD r 0) z := by
  have e1 : (L.map fun v => vertMean model v (z v) * serveU model data v (z v)).prod
      = ∏ v ∈ Finset.range model.tree.numVertices, (vertMean model v (z v) * serveU model data v (z v)) := by
    rw [(P.topo.perm.map _).prod_eq]; rfl
  have e2 : ((L.filter (· ≠ r)).map fun v => servePsi r par eid srv.edgeTrans v (z (par v)) (z v)).prod
      = (model.tree.treeGrid.map fun c => edgeMean model c.1 (z c.2.1) (z c.2.2) /
      (vertMean model c.2.1 (z c.2.1) * vertMean model c.2.2 (z c.2.2))).prod := by
    rw [← (P.perm.map _).prod_eq, List.map_map]
    congr 1
    refine List.map_congr_left fun v hv => ?_
    rw [List.mem_filter] at hv
    have hvr : v ≠ r := by simpa using hv.2
    unfold servePsi
    rw [if_neg hvr]
    exact transAt_eq s P (P.topo.mem.1 hv.1) hvr z
  unfold treeWeight
  rw [e1, e2, Finset.prod_mul_distrib]
  unfold latentProb rowProb serveU
  ring

/-- An interpreter whose messages follow the server's UP and IN steps. -/
theorem serve_inward (h : Model.Valid model) (s : Serves model srv) (P : Plan model r par ch eid L) (data : List Int)
    {σ : Type} {step : σ → Instr → σ} {msg : σ → Nat → Fin M → K} {R : σ → K → Prop}
    (hup : ∀ s v, msg (step s ⟨.UP, v, 0, 0⟩) = serveUp srv data (msg s) v ∧ ∀ x, R s x → R (step s ⟨.UP, v, 0, 0⟩) x)
    (hin : ∀ s v c e, (∀ a, 0 < serveIn srv (msg s) v c e a) → ∃ k, 0 < k ∧
      msg (step s ⟨.IN, v, c, e⟩) = Function.update (msg s) v (fun a => serveIn srv (msg s) v c e a / k) ∧
      ∀ x, R s x → R (step s ⟨.IN, v, c, e⟩) (x * k)) :
    Inward σ model.tree.numVertices par ch eid step msg (fun _ _ => True) R (serveU model data)
      (servePsi r par eid srv.edgeTrans) where
  up st v hv _ := ⟨by rw [(hup st v).1, serveUp_eq s data hv], fun _ _ _ _ => trivial, (hup st v).2⟩
  inn st v c hv hc hpos := by
    obtain ⟨h1, h2, -⟩ := (P.topo.ch_mem v hv c).1 hc
    obtain ⟨k, hk, e1, e2⟩ := hin st v c (eid c) (fun a => by
      rw [serveIn_eq P _ hv hc]
      exact mul_pos (hpos v hv a) (mu_pos (servePsi_pos h s P h1) (hpos c h1) a))
    refine ⟨k, hk, ?_, fun _ _ _ => trivial, e2⟩
    rw [e1]
    congr 1; funext a
    rw [serveIn_eq P _ hv hc]
  u_pos v hv m := serveU_pos h data hv m
  ψ_pos v hv m m' := servePsi_pos h s P hv m m'

end

end TreeCat
