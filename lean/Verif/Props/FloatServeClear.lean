import Verif.Lemmas.FloatServeClear
import Verif.Props.FloatEnsemble
import Verif.Props.FloatSampleNear
import Verif.Props.FloatMarginalNear

/-!
# C70, C79 and C82 without underflow

The bounds on the errors of `logprob`, `sample` and the ensemble's `logprob` speak of underflow. For models with few rows, clusters and neighbours (`Spec.FewServe`) it cannot happen.
-/

namespace TreeCat

open Util Spec
open scoped BigOperators

section
set_option linter.unusedSectionVars false
variable {M : Nat} [NeZero M] {A : ServeOps M} {model : Model ℝ M} {ε : ℝ} {n j c d : Nat} {srv : FloatServer M} {data : List Int}

theorem exists_facts (N : Spec.ServeOpsNear A ε) (h : Model.Valid model) (hc : Model.Consistent model) (S : Spec.SmallCounts model) (hs : FloatServer.init A model = .ok srv) :
    ∃ kv kt kc esrv r par ch eid L, ServeFacts A model kv kt kc srv esrv ∧ Plan model r par ch eid L ∧ srv.program = progOf r par ch eid L := by
  obtain ⟨B, hp, hr⟩ := floatServer_bounds N.ok h S hs
  have SN := floatServer_near N h S S.width hs
  obtain ⟨mst, hmst⟩ := exists_mst (K := ℝ)
  obtain ⟨esrv, -, s, -⟩ := server_init hmst h
  obtain ⟨r, hc', hpc⟩ := exists_plan_none h hp
  obtain ⟨par, ch, eid, L, P, hp'⟩ := exists_plan h hc'
  have hM := S.clusters
  refine ⟨_, _, _, esrv, r, par, ch, eid, L, ⟨h, hc, hM, B, SN, s, hr, ?_, by omega, by nlinarith⟩, P, Except.ok.inj (hpc.symm.trans hp')⟩
  have hlen : model.tree.treeGrid.length = model.tree.numVertices - 1 := by
    have := h.isTree.card
    simp only [TreeStructure.getEdges, List.length_map] at this
    omega
  rw [← hlen]
  obtain ⟨edges, hs⟩ := h.sorted
  rw [hs]
  exact makeTree_ids edges

/-! ### `logprob` -/

theorem noUnderflow_of_inClear {r : Nat} {tail : List Instr} (prog : List Instr) (s : FloatLog M)
    (h : InClear A srv data false (fun f => A.sum ((List.finRange M).map f)) (fun _ => True) prog s.messages) : Spec.noUnderflow A srv data (prog ++ ⟨.ROOT, r, 0, 0⟩ :: tail) s = true := by
  induction prog generalizing s with
  | nil => rfl
  | cons i prog ih =>
    obtain ⟨op, v, v2, e⟩ := i
    cases op with
    | UP => exact ih _ h.2
    | IN =>
      obtain ⟨h1, h2, h3⟩ := h
      show ((List.finRange M).all (fun a => fltGe (-125) (floatServeIn A srv s.messages v v2 e a)) &&
        (List.finRange M).all (fun a => fltGe (-80) ((floatLogStep A srv data s ⟨.IN, v, v2, e⟩).messages v a)) &&
          Spec.noUnderflow A srv data (prog ++ ⟨.ROOT, r, 0, 0⟩ :: tail) (floatLogStep A srv data s ⟨.IN, v, v2, e⟩)) = true
      rw [Bool.and_eq_true, Bool.and_eq_true, List.all_eq_true, List.all_eq_true]
      refine ⟨⟨fun a _ => fltGe_iff.2 (h1 a).ge, fun a _ => fltGe_iff.2 ?_⟩, ih _ h3⟩
      show FGe (-80) (Function.update s.messages v _ v a)
      rw [Function.update_self]
      exact (h2 a).ge.weaken (by norm_num)
    | ROOT => exact h.elim
    | OUT => exact h.elim
    | DOWN => exact h.elim

/-- **C70** (no underflow). Nothing underflows in `logprob` if `FewServe` holds. -/
theorem floatLogprob_clear (N : Spec.ServeOpsNear A ε) (h : Model.Valid model) (hc : Model.Consistent model) (S : Spec.SmallCounts model) (F : Spec.FewServe model n j c d)
    (hrow : Spec.SingleRow model data) (hs : FloatServer.init A model = .ok srv) : Spec.noUnderflow A srv data srv.program ⟨srv.vert, some 0⟩ = true := by
  obtain ⟨kv, kt, kc, esrv, r, par, ch, eid, L, SF, P, hp⟩ := exists_facts N h hc S hs
  rw [hp, progOf, List.append_assoc]
  exact noUnderflow_of_inClear _ _ (inward_few N SF F hrow (scaleOk_sum S.clusters N.ok F.clusters) P (fun v hv => le_trans (children_degree P hv) (F.degree v hv)) (le_refl _) F.bits fun _ _ => trivial)

/-- **C70** without hypotheses on the run: for every model that training can return and that satisfies `FewServe`, `logprob` in float32 is the logarithm of the probability of the row up to the stated error. -/
theorem floatLogprob_near_few (N : Spec.ServeOpsNear A ε) (h : Model.Valid model) (hc : Model.Consistent model) (S : Spec.SmallCounts model) (F : Spec.FewServe model n j c d)
    (hV : model.tree.numVertices ≤ 2 ^ 20) {W : Nat} (hW : ∀ v < model.tree.numVertices, (columns model v).card ≤ W) (hrow : Spec.SingleRow model data) (hs : FloatServer.init A model = .ok srv) :
    ∃ q, srv.logprob A data = some (some q) ∧ |(q : ℝ) - Real.log (dataProb model fun r => data.getD r 0)| ≤ Spec.logprobError model.tree.numVertices M W ε :=
  floatLogprob_near N h S hV hW hrow hs (floatLogprob_clear N h hc S F hrow hs)

/-! ### `sample` -/

theorem sampleClear_of_inClear {tail : List Instr} (prog : List Instr) (msgs : Nat → Fin M → Flt)
    (h : InClear A srv data true fltMax (fun msgs => Spec.sampleClear A srv data tail msgs = true) prog msgs) : Spec.sampleClear A srv data (prog ++ tail) msgs = true := by
  induction prog generalizing msgs with
  | nil => exact h
  | cons i prog ih =>
    obtain ⟨op, v, v2, e⟩ := i
    cases op with
    | UP => exact ih _ h.2
    | IN =>
      obtain ⟨h1, h2, h3⟩ := h
      show (((List.finRange M).all fun a => fltGe (-125) (floatServeIn A srv msgs v v2 e a) && fltGe (-79) (msgStep A srv data msgs ⟨.IN, v, v2, e⟩ v a)) &&
        Spec.sampleClear A srv data (prog ++ tail) (msgStep A srv data msgs ⟨.IN, v, v2, e⟩)) = true
      rw [Bool.and_eq_true, List.all_eq_true]
      refine ⟨fun a _ => ?_, ih _ h3⟩
      rw [Bool.and_eq_true]
      refine ⟨fltGe_iff.2 (h1 a).ge, fltGe_iff.2 ?_⟩
      show FGe (-79) (Function.update msgs v _ v a)
      rw [Function.update_self]
      exact (h2 a).ge
    | ROOT => exact h.elim
    | OUT => exact h.elim
    | DOWN => exact h.elim

/-- The OP_OUT step. -/
theorem sampleOut_few {kv kt kc : Nat} {esrv : Server ℝ M} (O : Spec.ServeOpsOk A) (S : ServeFacts A model kv kt kc srv esrv) (F : Spec.FewServe model n j c d) {v w e : Nat} (hne : w ≠ v)
    (hg : OnGrid model.tree.treeGrid e w v) {msgs : Nat → Fin M → Flt} (hle : ∀ a, FLe 0 (msgs v a)) (hge : ∀ a, FGe (-79) (msgs v a)) (a b : Fin M) :
    FGe (-125) (Flt.div A.rnd (outRow A srv msgs v w e a b) (fltMax (outRow A srv msgs v w e a))) := by
  have ht : ∀ b, FBd (-(n + j : Int) - 1) (n + 1 : Int) (transAt srv.trans e w v a b) := fun b =>
    (transAt_near S.near S.exact hne hg a b).fbd (by have := S.few.2; omega) ((trans_few S.valid S.consistent F S.exact hne hg a).2.2 b).1 ((trans_few S.valid S.consistent F S.exact hne hg a).2.2 b).2
  have hw := F.wide
  have h1 : ∀ b, FGe (-79 + (-(n + j : Int) - 1)) (outRow A srv msgs v w e a b) := fun b => FGe.mul O.ops.rnd (hge b) (ht b).ge (by omega)
  have h2 : ∀ b, FLe (0 + (n + 1 : Int)) (outRow A srv msgs v w e a b) := fun b => FLe.mul O.ops.rnd (hle b) (ht b).le (by omega)
  exact ((scaleOk_max O 0 _ _ _ (by omega) (by omega) h1 h2).2 b).weaken (by omega)

theorem sampleClear_outward {kv kt kc : Nat} {esrv : Server ℝ M} (O : Spec.ServeOpsOk A) (S : ServeFacts A model kv kt kc srv esrv) (F : Spec.FewServe model n j c d)
    {r : Nat} {par : Nat → Nat} {ch : Nat → List Nat} {L : List Nat} {eid : Nat → Nat} (P : Plan model r par ch eid L) {msgs : Nat → Fin M → Flt}
    (hm : ∀ v < model.tree.numVertices, Msg (-48) 0 (msgs v) ∧ ∀ a, FGe (-79) (msgs v a)) :
    Spec.sampleClear A srv data ([⟨.ROOT, r, 0, 0⟩] ++ L.flatMap (outBlock r par eid)) msgs = true := by
  show (true && Spec.sampleClear A srv data (L.flatMap (outBlock r par eid)) msgs) = true
  rw [Bool.true_and]
  have key : ∀ l : List Nat, (∀ v ∈ l, v < model.tree.numVertices) → Spec.sampleClear A srv data (l.flatMap (outBlock r par eid)) msgs = true := by
    intro l
    induction l with
    | nil => exact fun _ => rfl
    | cons v l ih =>
      intro hl
      have hv := hl v List.mem_cons_self
      have hrest := ih fun w hw => hl w (List.mem_cons_of_mem _ hw)
      rw [List.flatMap_cons, outBlock]
      split
      · show (true && Spec.sampleClear A srv data (l.flatMap (outBlock r par eid)) msgs) = true
        rw [Bool.true_and]
        exact hrest
      · next hvr =>
        show (((List.finRange M).all fun a => (List.finRange M).all fun b =>
          fltGe (-125) (Flt.div A.rnd (outRow A srv msgs v (par v) (eid v) a b) (fltMax (outRow A srv msgs v (par v) (eid v) a)))) &&
            (true && Spec.sampleClear A srv data (l.flatMap (outBlock r par eid)) msgs)) = true
        rw [Bool.true_and, Bool.and_eq_true, List.all_eq_true]
        refine ⟨fun a _ => List.all_eq_true.2 fun b _ => fltGe_iff.2 ?_, hrest⟩
        exact sampleOut_few O S F (P.parent v hv hvr).2 (plan_grid P hv hvr) (hm v hv).1.1 (hm v hv).2 a b
  exact key L fun v hv => P.topo.mem.1 hv

/-- **C79** (no underflow). Nothing underflows in `sample` if `FewServe` holds. -/
theorem floatSample_clear (N : Spec.ServeOpsNear A ε) (h : Model.Valid model) (hc : Model.Consistent model) (S : Spec.SmallCounts model) (F : Spec.FewServe model n j c d)
    (hrow : Spec.SingleRow model data) (hs : FloatServer.init A model = .ok srv) : Spec.sampleClear A srv data srv.program srv.vert = true := by
  obtain ⟨kv, kt, kc, esrv, r, par, ch, eid, L, SF, P, hp⟩ := exists_facts N h hc S hs
  rw [hp, progOf, List.append_assoc]
  exact sampleClear_of_inClear _ _ (inward_few N SF F hrow (scaleOk_max N.ok j) P (fun v hv => le_trans (children_degree P hv) (F.degree v hv)) (le_refl _) F.bits fun msgs hm => sampleClear_outward N.ok SF F P hm)

/-- **C79** without hypotheses on the run. -/
theorem floatSample_near_few (N : Spec.ServeOpsNear A ε) (h : Model.Valid model) (hc : Model.Consistent model) (S : Spec.SmallCounts model) (F : Spec.FewServe model n j c d) {W : Nat}
    (hW : ∀ v < model.tree.numVertices, (columns model v).card ≤ W) (hW' : W ≤ 256) (hrow : Spec.SingleRow model data) {counts : List Int}
    (hcounts : ∀ v < model.tree.numVertices, counts.getD v 0 ≤ 127) (hne : ∀ v < model.tree.numVertices, 0 < counts.getD v 0 → (columns model v).Nonempty)
    (hs : FloatServer.init A model = .ok srv) {k : (Nat → Fin M) → (Nat → Int) → ℝ} {lo hi : ℝ} (hk : ∀ z x, lo ≤ k z x ∧ k z x ≤ hi) :
    |Spec.floatSampleMean A srv model.tree.numVertices counts data k - sampleMean model (fun r => data.getD r 0) counts k|
      ≤ Spec.sampleErr model.tree.numVertices M W (∑ v ∈ Finset.range model.tree.numVertices, (counts.getD v 0).toNat) * (hi - lo) :=
  floatSample_near N h S hW hW' hrow hcounts hne hs (floatSample_clear N h hc S F hrow hs) hk

/-! ### Ensembles -/

/-- **C82** without hypotheses on the runs of the members. -/
theorem floatEnsembleLogprob_near_few {exp : Flt → Flt} {η ηc : ℝ} (N : Spec.ServeOpsNear A ε) (hsum : Spec.SumClose A.sum) (hexp : Spec.ExpNear exp η) {V W : Nat} (hV : V ≤ 2 ^ 20)
    {models : List (Model ℝ M)} (hne : models ≠ []) (hn : models.length ≤ 2 ^ 20) (hη : models.length * η ≤ 1 / 4)
    (h : ∀ m ∈ models, Model.Valid m ∧ Spec.SmallCounts m ∧ m.tree.numVertices = V ∧ (∀ v < V, (columns m v).card ≤ W) ∧ Spec.SingleRow m data)
    (hf : ∀ m ∈ models, Model.Consistent m ∧ Spec.FewServe m n j c d)
    {servers : List (FloatServer M)} (hs : floatEnsemble A models = .ok servers) {logSize : ℚ} (hc : |(logSize : ℝ) - Real.log models.length| ≤ ηc) (hc1 : ηc ≤ 1) :
    ∃ q, floatEnsembleLogprob A exp logSize servers data = some (some q) ∧
      |(q : ℝ) - Real.log ((models.map fun m => dataProb m fun r => data.getD r 0).sum / models.length)| ≤ Spec.ensembleError V M W models.length ε η ηc := by
  refine floatEnsembleLogprob_near N hsum hexp hV hne hn hη h hs ?_ hc hc1
  clear hne hn hη hc
  induction models generalizing servers with
  | nil =>
    obtain rfl : servers = [] := by
      simp only [floatEnsemble, List.mapM_nil, pure, Except.pure] at hs
      exact (Except.ok.inj hs).symm
    simp
  | cons m models ih =>
    simp only [floatEnsemble, List.mapM_cons, bind, Except.bind] at hs
    cases hm : FloatServer.init A m with
    | error e => rw [hm] at hs; cases hs
    | ok srv =>
      rw [hm] at hs
      cases hr : models.mapM (FloatServer.init A) with
      | error e => simp only [hr] at hs; cases hs
      | ok rest =>
        simp only [hr] at hs
        obtain rfl : srv :: rest = servers := Except.ok.inj hs
        intro s hs'
        obtain ⟨a1, a2, -, -, a5⟩ := h m List.mem_cons_self
        rcases List.mem_cons.1 hs' with rfl | hs'
        · exact floatLogprob_clear N a1 (hf m List.mem_cons_self).1 a2 (hf m List.mem_cons_self).2 a5 hm
        · exact ih (fun m' hm' => h m' (List.mem_cons_of_mem _ hm')) (fun m' hm' => hf m' (List.mem_cons_of_mem _ hm')) hr s hs'

end

/-- The model with three features and two clusters: a probability of a class is at least `2 ^ -3`, that of a value at least `2 ^ -3`, and no feature has more than two neighbours. -/
theorem exampleReal_few : Spec.FewServe (exampleModel ℝ) 3 1 3 2 where
  clusters := by norm_num
  rows := by
    change ∀ v < 3, 2 * ∑ m, (exampleModel ℚ).vertSS v m + 2 ≤ 2 ^ 3
    decide +kernel
  values := by
    change ∀ v < 3, ∀ m, 2 * 2 * ∑ r ∈ columns (exampleModel ℚ) v, (exampleModel ℚ).featSS r m + (columns (exampleModel ℚ) v).card ≤ 2 ^ 3
    decide +kernel
  degree := by
    rw [exampleModel_grid]
    change ∀ v < 3, _
    decide
  bits := by norm_num
  wide := by norm_num

/-- The hypotheses are met: the error of `logprob` on a row with a missing value. -/
example : ∃ srv, FloatServer.init (numpyServe 2 floorLog) (exampleModel ℝ) = .ok srv ∧
    ∃ q, srv.logprob (numpyServe 2 floorLog) [1, 0, 0, 1, 0, 0, 0] = some (some q) ∧
      |(q : ℝ) - Real.log (dataProb (exampleModel ℝ) fun r => ([1, 0, 0, 1, 0, 0, 0] : List Int).getD r 0)| ≤ Spec.logprobError 3 2 3 (2 ^ (-16 : Int)) := by
  obtain ⟨srv, hs, -⟩ := floatLogprob_ok (numpyServe_near (M := 2) (by norm_num)).ok (exampleModel_valid ℝ) exampleReal_small (by change 3 ≤ _; norm_num) exampleReal_row
  refine ⟨srv, hs, ?_⟩
  exact floatLogprob_near_few (numpyServe_near (by norm_num)) (exampleModel_valid ℝ) (exampleModel_consistent ℝ) exampleReal_small exampleReal_few (by change 3 ≤ _; norm_num)
    (W := 3) (by change ∀ v < 3, (columns (exampleModel ℝ) v).card ≤ 3; decide +kernel) exampleReal_row hs

end TreeCat
