import Mathlib.Analysis.SpecialFunctions.Log.Basic
import Verif.Lemmas.ServeMsg
import Verif.Props.Program

/-!
# C22: `logprob` is the exact marginal likelihood
-/

set_option linter.unusedSectionVars false

namespace TreeCat

open Spec

/-- The functions of `numpy` on the reals. -/
noncomputable def realNum : ServeNum ℝ := ⟨Real.exp, Real.log, Real.sqrt⟩

variable {M : Nat} [NeZero M] {model : Model ℝ M} {srv : Server ℝ M}

theorem logLoop_append (num : ServeNum ℝ) (srv : Server ℝ M) (data : List Int) (rest : List Instr) : ∀ (prog : List Instr)
    (_ : ∀ i ∈ prog, i.op = .UP ∨ i.op = .IN) (s : LogState ℝ M),
    logLoop num srv data (prog ++ rest) s = logLoop num srv data rest (prog.foldl (logStep num srv data) s) := by
  intro prog
  induction prog with
  | nil => intro _ s; rfl
  | cons i prog ih =>
    intro h s
    rw [List.cons_append, List.foldl_cons, ← ih (fun i hi => h i (by simp [hi]))]
    rcases h i (by simp) with hi | hi <;> simp only [logLoop, hi]

theorem log_inward (h : Model.Valid model) (s : Serves model srv) {r : Nat} {par : Nat → Nat} {ch : Nat → List Nat}
    {eid : Nat → Nat} {L : List Nat} (P : Plan model r par ch eid L) (data : List Int) :
    Inward (LogState ℝ M) model.tree.numVertices par ch eid (logStep realNum srv data) LogState.messages (fun _ _ => True)
      (fun s x => Real.exp s.logprob = x) (serveU model data) (servePsi r par eid srv.edgeTrans) := by
  refine serve_inward h s P data (fun st v => ⟨rfl, fun x hx => hx⟩) ?_
  intro st v c e hpos
  have ht : 0 < ∑ a, serveIn srv st.messages v c e a := Finset.sum_pos (fun a _ => hpos a) ⟨0, Finset.mem_univ _⟩
  refine ⟨_, ht, rfl, ?_⟩
  rintro x rfl
  simp only [logStep, realNum]
  rw [Real.exp_add, Real.exp_log ht]

/-- **C22.** With whatever root the program is made, `exp(logprob(row))` is the sum over all latent classes of the
probability of classes and row. -/
theorem logprob_exact (h : Model.Valid model) (s : Serves model srv) {r : Nat} (hr : r < model.tree.numVertices)
    {prog : List Instr} (hp : makeProgram model.tree.treeGrid (some r) = .ok prog) (data : List Int) :
    ∃ lp, logprobWith realNum srv prog data = some lp ∧ Real.exp lp = dataProb model fun r => data.getD r 0 := by
  obtain ⟨par, ch, eid, L, P, hp'⟩ := exists_plan h hr
  rw [hp] at hp'
  obtain rfl := Except.ok.inj hp'
  have I := log_inward h s P data
  have hv : srv.vertProbs = vertMean model := funext s.vert
  obtain ⟨S, sf, h0, h1, h2, h3, h4⟩ := I.spec P.topo ⟨srv.vertProbs, 0⟩
    (fun v hv' m => by simp only [hv]; exact vertMean_pos h hv' m) (fun _ _ => trivial) 1 Real.exp_zero
  have hsum : 0 < ∑ m, sf.messages r m := Finset.sum_pos (fun m _ => h3 r hr m) ⟨0, Finset.mem_univ _⟩
  refine ⟨sf.logprob + Real.log (∑ a, sf.messages r a), ?_, ?_⟩
  · unfold logprobWith progOf
    rw [List.append_assoc, logLoop_append _ _ _ _ _ (inBlocks_ops _), ← h0]
    rfl
  · rw [Real.exp_add, Real.exp_log hsum, h4, one_mul]
    rw [← sumOver_treeWeight P.topo (φ := fun v m => vertMean model v m * serveU model data v m) (b := sf.messages)
      (by simpa only [hv] using h2) (fun v hv m => (mu_pos (I.ψ_pos v hv) (h3 v hv) m).ne') hsum.ne' (fun _ => 0)]
    unfold dataProb sumLatent
    exact Finset.sum_congr rfl fun z _ => serve_treeWeight s P data _

/-- **C22** for the server of a model: every row gets its exact probability. -/
theorem server_logprob_exact {mst : List (List ℝ) → List Edge} (hmst : MstContract mst) (h : Model.Valid model)
    (data : List (List Int)) (hd : ∀ row ∈ data, row.length = model.raggedIndex.getLastD 0) :
    ∃ srv, Server.init mst model = .ok srv ∧ ∃ lps : List ℝ, srv.logprob realNum data = .ok (lps.map some) ∧
      lps.map Real.exp = data.map fun row => dataProb model fun r => row.getD r 0 := by
  obtain ⟨srv, h1, s, -⟩ := server_init hmst h
  refine ⟨srv, h1, ?_⟩
  obtain ⟨c, hc, hp⟩ := exists_plan_none h s.program
  have : ∀ row, ∃ lp, logprobWith realNum srv srv.program row = some lp ∧
      Real.exp lp = dataProb model fun r => row.getD r 0 := fun row => logprob_exact h s hc hp row
  choose lp hlp1 hlp2 using this
  refine ⟨data.map lp, ?_, ?_⟩
  · have ha : (data.all fun row => row.length == srv.raggedSize) = true := by
      rw [List.all_eq_true]
      intro row hrow
      rw [beq_iff_eq, hd row hrow, Server.raggedSize, s.ragged]
    simp only [Server.logprob, ha, pyAssert, if_true, bind, Except.bind]
    congr 1
    rw [List.map_map]
    exact List.map_congr_left fun row _ => hlp1 row
  · rw [List.map_map]
    exact List.map_congr_left fun row _ => hlp2 row

/-- The result does not depend on the root. -/
theorem logprob_root (h : Model.Valid model) (s : Serves model srv) {r r' : Nat} (hr : r < model.tree.numVertices)
    (hr' : r' < model.tree.numVertices) {prog prog' : List Instr} (hp : makeProgram model.tree.treeGrid (some r) = .ok prog)
    (hp' : makeProgram model.tree.treeGrid (some r') = .ok prog') (data : List Int) :
    logprobWith realNum srv prog data = logprobWith realNum srv prog' data := by
  obtain ⟨lp, h1, h2⟩ := logprob_exact h s hr hp data
  obtain ⟨lp', h1', h2'⟩ := logprob_exact h s hr' hp' data
  rw [h1, h1', Real.exp_injective (h2.trans h2'.symm)]

/-- A model of three features on a path, with statistics of two rows. -/
def exampleModel (K : Type) [Field K] : Model K 2 where
  tree := { numVertices := 3, treeGrid := makeTree [(0, 1), (1, 2)] }
  raggedIndex := [0, 2, 5, 7]
  vertSS v m := if (v, m) ∈ [((0 : Nat), (0 : Fin 2)), (0, 1), (1, 0), (2, 1)] then (if v = 0 then 1 else 2) else 0
  edgeSS e a b := if e = 0 then (if b = 0 then 1 else 0) else (if a = 0 ∧ b = 1 then 2 else 0)
  featSS r m := if (r, m) ∈ [((0 : Nat), (0 : Fin 2)), (1, 1), (3, 0), (6, 1)] then 1 else 0
  edgeLogits := [0, 0, 0]

theorem exampleModel_grid (K : Type) [Field K] : (exampleModel K).tree.treeGrid = [(0, 0, 1), (1, 1, 2)] := by
  change makeTree [(0, 1), (1, 2)] = _
  decide +kernel

theorem exampleModel_valid (K : Type) [Field K] : Model.Valid (exampleModel K) where
  isTree := by
    change IsTree 3 ((exampleModel K).tree.treeGrid.map fun c => (c.2.1, c.2.2))
    rw [exampleModel_grid]
    exact isTree_of_smaller rfl (by decide) (by decide)
  sorted := ⟨_, rfl⟩
  ragged := rfl
  mono := by change [0, 2, 5, 7].Pairwise (· ≤ ·); decide
  vert v _ m := by simp only [exampleModel]; split_ifs <;> decide
  edge c _ a b := by simp only [exampleModel]; split_ifs <;> decide
  feat v _ r _ m := by simp only [exampleModel]; split_ifs <;> decide
  logits := by simp [exampleModel]

theorem exampleModel_consistent (K : Type) [Field K] : Model.Consistent (exampleModel K) := by
  intro c hc
  rw [exampleModel_grid] at hc
  simp only [List.mem_cons, List.not_mem_nil, or_false] at hc
  rcases hc with rfl | rfl <;> simp only [exampleModel] <;> decide

/-- The hypotheses hold of a model that is not symmetric, and the probability is not trivial. -/
example : ∃ mst : List (List ℝ) → List Edge, MstContract mst ∧
    ∃ srv, Server.init mst (exampleModel ℝ) = .ok srv ∧ ∃ lps : List ℝ,
      srv.logprob realNum [[1, 0, 0, 2, 0, 0, 1]] = .ok (lps.map some) ∧
      lps.map Real.exp = [dataProb (exampleModel ℝ) fun r => [1, 0, 0, 2, 0, 0, 1].getD r 0] := by
  obtain ⟨mst, hmst⟩ := exists_mst (K := ℝ)
  exact ⟨mst, hmst, server_logprob_exact hmst (exampleModel_valid ℝ) [[1, 0, 0, 2, 0, 0, 1]]
    (by intro row h; rw [List.mem_singleton.1 h]; rfl)⟩

example : dataProb (exampleModel ℚ) (fun r => [1, 0, 0, 0, 0, 0, 0].getD r 0) = 1 / 2 := by decide +kernel

end TreeCat
