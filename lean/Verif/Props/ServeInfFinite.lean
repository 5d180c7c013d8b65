import Verif.Props.TreeSamplesInf

/-!
# C96, C97: servers of models without forbidden edges
-/

set_option linter.unusedSectionVars false

namespace TreeCat

open Spec Util

section
variable {K : Type} [Field K] [LinearOrder K] [IsStrictOrderedRing K] {M : Nat} [NeZero M]

theorem py_bind_ok_iff {α β : Type} (x : Py α) (f : α → Py β) (b : β) : x >>= f = .ok b ↔ ∃ a, x = .ok a ∧ f a = .ok b := by
  cases x with
  | error e => exact ⟨fun h => (by cases h), fun ⟨a, h, _⟩ => (by cases h)⟩
  | ok a => exact ⟨fun h => ⟨a, rfl, h⟩, fun ⟨a', h, h'⟩ => by cases h; exact h'⟩

/-- The part of a server that has to do with edge logits. -/
def Server.treePart (srv : Server K M) : TreeServerInf K :=
  ⟨srv.tree.numVertices, srv.edgeLogits.map fun x : K => (x : WithBot K), srv.estimatedTree⟩

/-- The part of an ensemble that has to do with edge logits. -/
def Ensemble.treePart (ens : Ensemble K M) : TreeEnsembleInf K :=
  ⟨ens.servers.map Server.treePart, ens.edgeLogits.map fun x : K => (x : WithBot K), ens.estimatedTree⟩

/-- **C96** (finite logits). A server of a model without `-inf` is the server of the other properties. -/
theorem serverInf_init_finite {mst : List (List K) → List Edge} {model : Model K M} {srv : Server K M} (h : Server.init mst model = .ok srv) :
    TreeServerInf.init mst model.tree.numVertices (model.edgeLogits.map fun x : K => (x : WithBot K)) = .ok srv.treePart := by
  unfold Server.init at h
  dsimp only at h
  split at h
  · cases h
  · rw [py_bind_ok_iff] at h
    obtain ⟨program, -, h⟩ := h
    split at h
    · cases h
    · rw [py_bind_ok_iff] at h
      obtain ⟨grid, hg, h⟩ := h
      rw [py_bind_ok_iff] at h
      obtain ⟨T, hT, h⟩ := h
      cases h
      unfold TreeServerInf.init
      rw [hg]
      simp only [bind, Except.bind, estimateTreeInf_finite, hT]
      rfl

variable {m : Type → Type} [Monad m] [LawfulMonad m] [Choose K m] [Shuffle m]

/-- **C96** (finite logits). Its trees are sampled in the same way, in every reading of the random choices. -/
theorem serverInf_sampleTrees_finite (num : ServeNum K) (junk : Nat → Nat) (srv : Server K M) (N : Nat) :
    (srv.treePart.sampleTrees (n := m) (fun x => x) num.exp junk N : ExceptT PyErr m _) = srv.sampleTrees num junk N := by
  unfold TreeServerInf.sampleTrees Server.sampleTrees
  refine bind_congr fun grid => ?_
  have e : (fun (s : List Edge × List (List Edge)) (_ : Nat) => (do
        let perm ← ExceptT.lift (Shuffle.permutation s.1.length)
        let out ← ExceptT.mk (sampleTreeInf num.exp junk grid srv.treePart.edgeLogits s.1 perm : ExceptT PyErr m _).run
        pure (out.1, s.2 ++ [out.1]) : ExceptT PyErr m (List Edge × List (List Edge))))
      = (fun s _ => (do
        let perm ← ExceptT.lift (Shuffle.permutation s.1.length)
        let edges ← sampleTree num.exp junk grid srv.edgeLogits s.1 perm
        pure (edges, s.2 ++ [edges]))) := by
    funext s _
    refine bind_congr fun perm => ?_
    rw [← sampleTreeInf_finite, bind_map_left]
    rfl
  rw [e]
  rfl

theorem zipWith_coe (xs ys : List K) : (xs.map fun x : K => (x : WithBot K)).zipWith (· + ·) (ys.map fun x : K => (x : WithBot K))
    = (xs.zipWith (· + ·) ys).map fun x : K => (x : WithBot K) := by
  induction xs generalizing ys with
  | nil => rfl
  | cons x xs ih =>
    cases ys with
    | nil => rfl
    | cons y ys =>
      simp only [List.map_cons, List.zipWith_cons_cons, ih]
      rfl

theorem foldl_coe (ss : List (Server K M)) : ∀ acc : List K,
    (ss.map Server.treePart).foldl (fun acc s => acc.zipWith (· + ·) s.edgeLogits) (acc.map fun x : K => (x : WithBot K))
      = (ss.foldl (fun acc s => acc.zipWith (· + ·) s.edgeLogits) acc).map fun x : K => (x : WithBot K) := by
  induction ss with
  | nil => intro acc; rfl
  | cons s ss ih =>
    intro acc
    rw [List.map_cons, List.foldl_cons, List.foldl_cons, ← ih]
    congr 1
    exact zipWith_coe acc s.edgeLogits

theorem mapM_init_finite {mst : List (List K) → List Edge} {V : Nat} : ∀ (models : List (Model K M)) (servers : List (Server K M)),
    (∀ m ∈ models, m.tree.numVertices = V) → models.mapM (Server.init mst) = .ok servers →
    (models.map fun m => m.edgeLogits.map fun x : K => (x : WithBot K)).mapM (TreeServerInf.init mst V) = .ok (servers.map Server.treePart) := by
  intro models
  induction models with
  | nil => intro servers _ h; cases h; rfl
  | cons model models ih =>
    intro servers hV h
    rw [List.mapM_cons, py_bind_ok_iff] at h
    obtain ⟨s, h1, h⟩ := h
    rw [py_bind_ok_iff] at h
    obtain ⟨ss, h2, h⟩ := h
    cases h
    have h3 := serverInf_init_finite h1
    rw [hV model (by simp)] at h3
    rw [List.map_cons, List.mapM_cons, h3, ih ss (fun m hm => hV m (by simp [hm])) h2]
    rfl

/-- **C96** (finite logits). So is an ensemble of models without `-inf`. -/
theorem ensembleInf_init_finite {mst : List (List K) → List Edge} {V : Nat} {models : List (Model K M)} (hV : ∀ m ∈ models, m.tree.numVertices = V)
    {ens : Ensemble K M} (h : Ensemble.init mst models = .ok ens) :
    TreeEnsembleInf.init mst V (models.map fun m => m.edgeLogits.map fun x : K => (x : WithBot K)) = .ok ens.treePart := by
  unfold Ensemble.init at h
  match models with
  | [] => cases h
  | first :: models =>
    simp only at h
    rw [py_bind_ok_iff] at h
    obtain ⟨servers, h1, h⟩ := h
    have h2 := mapM_init_finite _ _ hV h1
    match servers with
    | [] => cases h
    | s0 :: rest =>
      simp only at h
      rw [py_bind_ok_iff] at h
      obtain ⟨grid, h3, h⟩ := h
      rw [py_bind_ok_iff] at h
      obtain ⟨T, h4, h⟩ := h
      cases h
      unfold TreeEnsembleInf.init
      rw [List.map_cons] at h2 ⊢
      simp only
      rw [h2]
      simp only [bind, Except.bind, List.map_cons]
      have e1 : (s0.treePart).numVertices = s0.tree.numVertices := rfl
      have e2 : ((rest.map Server.treePart).foldl (fun acc s => acc.zipWith (· + ·) s.edgeLogits) s0.treePart.edgeLogits).map
          (divInf (s0.treePart :: rest.map Server.treePart).length)
          = ((rest.foldl (fun acc s => acc.zipWith (· + ·) s.edgeLogits) s0.edgeLogits).map
              fun x => x / (((s0 :: rest).length : Nat) : K)).map fun x : K => (x : WithBot K) := by
        rw [show s0.treePart.edgeLogits = s0.edgeLogits.map fun x : K => (x : WithBot K) from rfl, foldl_coe, List.map_map, List.map_map]
        refine List.map_congr_left fun x _ => ?_
        simp only [Function.comp, List.length_cons, List.length_map]
        rfl
      rw [e1, h3, e2]
      dsimp only
      rw [estimateTreeInf_finite, h4]
      rfl

/-- **C96** (finite logits). And its trees are sampled in the same way. -/
theorem ensembleInf_sampleTrees_finite (num : ServeNum K) (junk : Nat → Nat) (ens : Ensemble K M) (N : Nat) :
    (ens.treePart.sampleTrees (n := m) (fun x => x) num.exp junk N : ExceptT PyErr m _) = ens.sampleTrees num junk N := by
  unfold TreeEnsembleInf.sampleTrees Ensemble.sampleTrees
  have e0 : ens.treePart.servers.length = ens.servers.length := List.length_map _
  rw [e0]
  refine bind_congr fun subs => ?_
  have e1 : ∀ (l : List (Server K M × Nat)) (acc : List (List Edge)),
      ((l.map fun p => (p.1.treePart, p.2)).foldlM (fun samples p => do
        let more ← p.1.sampleTrees (n := m) (fun x => x) num.exp junk p.2
        pure (samples ++ more)) acc : ExceptT PyErr m _)
        = l.foldlM (fun samples p => do
          let more ← p.1.sampleTrees num junk p.2
          pure (samples ++ more)) acc := by
    intro l
    induction l with
    | nil => intro acc; rfl
    | cons p l ih =>
      intro acc
      rw [List.map_cons, List.foldlM_cons, List.foldlM_cons, serverInf_sampleTrees_finite]
      refine bind_congr fun acc => ih acc
  have e2 : ens.treePart.servers.zip subs = (ens.servers.zip subs).map fun p => (p.1.treePart, p.2) := by
    show (ens.servers.map Server.treePart).zip subs = _
    rw [List.zip_map_left]
    rfl
  rw [e2, e1]

/-- A server of a model of three features. -/
example {mst : List (List ℝ) → List Edge} (hmst : MstContract mst) (num : ServeNum ℝ) : ∃ srv, Server.init mst (exampleModel ℝ) = .ok srv ∧
    ∃ part, TreeServerInf.init mst 3 ((exampleModel ℝ).edgeLogits.map fun x : ℝ => (x : WithBot ℝ)) = .ok part ∧
      (part.sampleTrees (n := Expect ℝ) (fun x => x) num.exp id 5 : ExceptT PyErr (Expect ℝ) _) = srv.sampleTrees num id 5 := by
  obtain ⟨srv, h, -⟩ := server_init hmst (exampleModel_valid ℝ)
  exact ⟨srv, h, _, serverInf_init_finite h, serverInf_sampleTrees_finite num id srv 5⟩

/-- An ensemble of two. -/
example {mst : List (List ℝ) → List Edge} (hmst : MstContract mst) (num : ServeNum ℝ) : ∃ ens, Ensemble.init mst [exampleModel ℝ, otherModel ℝ] = .ok ens ∧
    ∃ part, TreeEnsembleInf.init mst 3 ([exampleModel ℝ, otherModel ℝ].map fun m => m.edgeLogits.map fun x : ℝ => (x : WithBot ℝ)) = .ok part ∧
      (part.sampleTrees (n := Expect ℝ) (fun x => x) num.exp id 5 : ExceptT PyErr (Expect ℝ) _) = ens.sampleTrees num id 5 := by
  obtain ⟨ens, h, -⟩ := ensemble_init hmst (two_members ℝ)
  exact ⟨ens, h, _, ensembleInf_init_finite (two_members ℝ).size h, ensembleInf_sampleTrees_finite num id ens 5⟩

end

end TreeCat
