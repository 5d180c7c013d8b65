import Verif.Props.TrainInf

/-!
# C95: without `-inf` the program is `train`
-/

set_option linter.unusedSectionVars false

namespace TreeCat

open Util Spec

theorem pyGet_map {α β : Type} (f : α → β) (l : List α) (i : Nat) : pyGet (l.map f) i = f <$> pyGet l i := by
  unfold pyGet
  rw [List.getElem?_map]
  cases l[i]? <;> rfl

theorem pySet_map {α β : Type} (f : α → β) (l : List α) (i : Nat) (x : α) : pySet (l.map f) i (f x) = (List.map f) <$> pySet l i x := by
  unfold pySet
  rw [List.length_map]
  split
  · simp [Functor.map, Except.map, List.map_set]
  · rfl

theorem fancyAssign_map {α β : Type} (f : α → β) : ∀ (cs : List (Nat × Nat × α)) (sq : List (List α)),
    fancyAssign (sq.map (List.map f)) (cs.map fun c => (c.1, c.2.1, f c.2.2)) = (List.map (List.map f)) <$> fancyAssign sq cs := by
  intro cs
  induction cs with
  | nil => intro sq; rfl
  | cons c cs ih =>
    intro sq
    obtain ⟨i, j, x⟩ := c
    simp only [List.map_cons, fancyAssign, pyGet_map]
    cases pyGet sq i with
    | error _ => rfl
    | ok row =>
      simp only [Functor.map, Except.map, bind, Except.bind]
      rw [pySet_map f row j x]
      cases pySet row j x with
      | error _ => rfl
      | ok row =>
        simp only [Functor.map, Except.map]
        rw [pySet_map (List.map f) sq i row]
        cases pySet sq i row with
        | error _ => rfl
        | ok sq => exact ih sq

theorem triangularToSquare_map {α β : Type} [Zero α] [Zero β] (f : α → β) (hf : f 0 = 0) (grid : Grid) (tri : List α) :
    triangularToSquare grid (tri.map f) = (List.map (List.map f)) <$> triangularToSquare grid tri := by
  unfold triangularToSquare
  have hsq : ∀ V : Nat, List.replicate V (List.replicate V (0 : β)) = (List.replicate V (List.replicate V (0 : α))).map (List.map f) := by
    intro V; simp [hf]
  have h1 : (grid.zip (tri.map f)).map (fun p => (p.1.2.1, p.1.2.2, p.2)) =
      ((grid.zip tri).map fun p => (p.1.2.1, p.1.2.2, p.2)).map fun c => (c.1, c.2.1, f c.2.2) := by
    rw [List.zip_map_right, List.map_map, List.map_map]; rfl
  have h2 : (grid.zip (tri.map f)).map (fun p => (p.1.2.2, p.1.2.1, p.2)) =
      ((grid.zip tri).map fun p => (p.1.2.2, p.1.2.1, p.2)).map fun c => (c.1, c.2.1, f c.2.2) := by
    rw [List.zip_map_right, List.map_map, List.map_map]; rfl
  rw [h1, h2]
  dsimp only
  rw [List.length_map, hsq]
  cases pyAssert (grid.length == tri.length) with
  | error _ => rfl
  | ok _ =>
    simp only [bind, Except.bind]
    cases pyAssert (tri.length == triangleSize tri.length * (triangleSize tri.length - 1) / 2) with
    | error _ => rfl
    | ok _ =>
      simp only
      rw [fancyAssign_map]
      cases fancyAssign (List.replicate (triangleSize tri.length) (List.replicate (triangleSize tri.length) (0 : α))) _ with
      | error _ => rfl
      | ok sq =>
        simp only [Functor.map, Except.map]
        exact fancyAssign_map f _ sq

section
variable {K : Type} [Field K] [LinearOrder K]

theorem foldl_min_coe (xs : List K) : ∀ x : K, (xs.map fun x : K => (x : WithTop K)).foldl min (x : WithTop K) = ((xs.foldl min x : K) : WithTop K) := by
  induction xs with
  | nil => intro x; rfl
  | cons a xs ih =>
    intro x
    rw [List.map_cons, List.foldl_cons, List.foldl_cons, ← WithTop.coe_min, ih]

theorem treeWeightsInf_coe (grid : Grid) (logits : List K) :
    treeWeightsInf grid (logits.map fun x : K => (x : WithBot K)) =
      (List.map (List.map fun x : K => (x : WithTop K))) <$> treeWeights grid logits := by
  unfold treeWeightsInf treeWeights
  rw [List.length_map, triangularToSquare_map (fun x : K => (x : WithBot K)) WithBot.coe_zero]
  cases pyAssert (grid.length == logits.length) with
  | error _ => rfl
  | ok _ =>
    simp only [bind, Except.bind]
    cases triangularToSquare grid logits with
    | error _ => rfl
    | ok w =>
      simp only [Functor.map, Except.map]
      have hneg : (w.map (List.map fun x : K => (x : WithBot K))).map (fun r => r.map negLogit) =
          (w.map fun r => r.map fun x => x * (-1)).map (List.map fun x : K => (x : WithTop K)) := by
        simp only [List.map_map, Function.comp_def]
        rfl
      rw [hneg]
      generalize (w.map fun r => r.map fun x => x * (-1)) = w
      unfold matMin
      rw [← List.map_flatten]
      cases w.flatten with
      | nil => rfl
      | cons x xs =>
        simp only [List.map_cons]
        rw [foldl_min_coe]
        show Except.ok _ = Except.ok _
        simp only [List.map_map, Function.comp_def]
        rfl

/-- **C94** (finite logits). Without `-inf` this is the `estimate_tree` of the other properties, for all arguments. -/
theorem estimateTreeInf_finite (mst : List (List K) → List Edge) (grid : Grid) (logits : List K) :
    estimateTreeInf mst grid (logits.map fun x : K => (x : WithBot K)) = estimateTree mst grid logits := by
  unfold estimateTreeInf estimateTree
  rw [treeWeightsInf_coe]
  cases treeWeights grid logits with
  | error _ => rfl
  | ok w =>
    simp only [bind, Except.bind, Functor.map, Except.map]
    have : (w.map (List.map fun x : K => (x : WithTop K))).map (fun r => r.map dropInf) = w := by
      simp only [List.map_map, Function.comp_def]
      show w.map (fun r => r.map fun x => x) = w
      simp
    rw [this, List.length_map]

variable {M : Nat} [NeZero M] {m : Type → Type} [Monad m] [LawfulMonad m] [Choose K m] [Shuffle m]

theorem computeEdgeLogitsInf_coe (num : Num K) (t : Table) (treePrior : List K) (s : Trainer K M) :
    computeEdgeLogitsInf num t (treePrior.map fun x : K => (x : WithBot K)) s =
      (List.map fun x : K => (x : WithBot K)) <$> computeEdgeLogits num t treePrior s := by
  unfold computeEdgeLogitsInf computeEdgeLogits
  dsimp only
  rw [makeCompleteGraph_eq]
  simp only [bind, Except.bind]
  cases (completeGrid t.numCols).mapM (m := Py) _ with
  | error e => rfl
  | ok result =>
    simp only [Functor.map, Except.map, Except.ok.injEq]
    rw [List.zipWith_map_right, List.map_zipWith]
    simp only [WithBot.coe_add]

theorem trainM_liftPy_map {α β : Type} (f : α → β) (x : Py α) : (liftPy (f <$> x) : TrainM K M m β) = f <$> liftPy x := liftPy_map f x

theorem liftRand_map {α β : Type} (f : α → β) (x : ExceptT PyErr m α) : (liftRand (f <$> x) : TrainM K M m β) = f <$> liftRand x := by
  apply ExceptT.ext
  rw [ExceptT.run_map]
  funext s1
  show (StateT.lift (f <$> x).run : StateT (Trainer K M) m _) s1 = (Except.map f <$> (StateT.lift x.run : StateT (Trainer K M) m _)) s1
  rw [ExceptT.run_map]
  simp [StateT.lift, Functor.map, StateT.map]

theorem trainerSampleTreeInf_finite (num : Num K) (junk : Nat → Nat) (t : Table) (treePrior : List K) :
    (trainerSampleTreeInf (n := m) (fun x => x) num junk t (treePrior.map fun x : K => (x : WithBot K)) : TrainM K M m (List Edge)) =
      trainerSampleTree num junk t treePrior := by
  unfold trainerSampleTreeInf trainerSampleTree
  refine bind_congr fun s => bind_congr fun grid => ?_
  rw [computeEdgeLogitsInf_coe, trainM_liftPy_map, bind_map_left]
  refine bind_congr fun logits => ?_
  rw [List.length_map]
  refine bind_congr fun _ => bind_congr fun perm => ?_
  rw [← sampleTreeInf_finite, liftRand_map, map_eq_pure_bind]
  rfl

theorem trainerEstimateTreeInf_finite (num : Num K) (mst : List (List K) → List Edge) (t : Table) (treePrior : List K) :
    (trainerEstimateTreeInf num mst t (treePrior.map fun x : K => (x : WithBot K)) : TrainM K M m _) =
      (fun r => (r.1, r.2.map fun x : K => (x : WithBot K))) <$> trainerEstimateTree num mst t treePrior := by
  unfold trainerEstimateTreeInf trainerEstimateTree
  rw [map_bind]
  refine bind_congr fun s => ?_
  rw [map_bind]
  refine bind_congr fun grid => ?_
  rw [computeEdgeLogitsInf_coe, trainM_liftPy_map, bind_map_left, map_bind]
  refine bind_congr fun logits => ?_
  rw [estimateTreeInf_finite, map_bind]
  refine bind_congr fun edges => ?_
  rw [map_pure]

theorem runActionInf_finite (num : Num K) (junk : Nat → Nat) (t : Table) (treePrior : List K) (a : Action) :
    (runActionInf (n := m) (fun x => x) num junk t (treePrior.map fun x : K => (x : WithBot K)) a : TrainM K M m Unit) =
      runAction num junk t treePrior a := by
  cases a with
  | addRow r => rfl
  | removeRow r => rfl
  | sampleTree => rw [runActionInf, runAction, trainerSampleTreeInf_finite]

theorem fullScanInf_finite (num : Num K) (junk : Nat → Nat) (t : Table) (treePrior : List K) :
    (fullScanInf (n := m) (fun x => x) num junk t (treePrior.map fun x : K => (x : WithBot K)) : TrainM K M m Unit) =
      fullScan num junk t treePrior := by
  rw [fullScanInf, fullScan, trainerSampleTreeInf_finite]

/-- **C95** (finite prior). Without `-inf` in the prior this is the `train` of the other properties, for all arguments and in every reading of the random choices. -/
theorem trainInf_finite (num : Num K) (mst : List (List K) → List Edge) (junk : Nat → Nat) (fuel : Nat) (t : Table) (treePrior : List K)
    (cfg : TrainConfig) :
    (trainInf (n := m) (fun x => x) num mst junk fuel t (treePrior.map fun x : K => (x : WithBot K)) cfg : TrainM K M m _) =
      (List.map fun x : K => (x : WithBot K)) <$> train num mst junk fuel t treePrior cfg := by
  unfold trainInf train
  dsimp only
  have hact : runActionInf (n := m) (M := M) (fun x => x) num junk t (treePrior.map fun x : K => (x : WithBot K)) = runAction num junk t treePrior :=
    funext fun a => runActionInf_finite num junk t treePrior a
  rw [hact, fullScanInf_finite, trainerEstimateTreeInf_finite]
  rw [map_bind]; refine bind_congr fun s => ?_
  rw [map_bind]; refine bind_congr fun _ => ?_
  rw [map_bind]; refine bind_congr fun rows => ?_
  rw [map_bind]; refine bind_congr fun sch => ?_
  rw [map_bind]; refine bind_congr fun _ => ?_
  rw [map_bind]; refine bind_congr fun s1 => ?_
  rw [map_bind]; refine bind_congr fun _ => ?_
  rw [map_bind]; refine bind_congr fun _ => ?_
  rw [map_bind]; refine bind_congr fun s2 => ?_
  rw [map_bind]; refine bind_congr fun _ => ?_
  rw [map_bind, bind_map_left]; refine bind_congr fun r => ?_
  obtain ⟨edges, logits⟩ := r
  simp only
  split
  · rw [map_bind]; refine bind_congr fun _ => ?_
    rw [map_pure]
  · simp

end

section
/-! ### Examples -/

/-- A tree of three features without the pair (0, 1). -/
theorem star2_isTree : IsTree 3 [(0, 2), (1, 2)] := by
  refine ⟨by simp, by simp, ?_⟩
  have to2 : ∀ u < 3, Reach [(0, 2), (1, 2)] u 2 := by
    intro u hu
    have : u = 0 ∨ u = 1 ∨ u = 2 := by omega
    rcases this with rfl | rfl | rfl
    · exact .single (.inl (by simp))
    · exact .single (.inl (by simp))
    · exact .refl
  exact fun u hu v hv => (to2 u hu).trans (Reach.symm' (to2 v hv))

/-- Logarithms and exponentials of the reals. -/
noncomputable def realNumbers (g : ℝ → ℝ) : Num ℝ := { exp := Real.exp, gammaln := g }

/-- Training on three features where (0, 1) is forbidden: the model has the only tree that is left. -/
example (g : ℝ → ℝ) : ∃ (mst : List (List ℝ) → List Edge) (s0 : Trainer ℝ 2), Trainer.init exTable 3 = .ok s0 ∧
    (∃ p, outcomes (trainInf (n := Sampled ℝ) asPoss (realNumbers g) mst id 100 exTable [⊥, 0, 0] ⟨2, 1, 3, true⟩) s0 p) ∧
    ∀ r s, outcomes (trainInf (n := Sampled ℝ) asPoss (realNumbers g) mst id 100 exTable [⊥, 0, 0] ⟨2, 1, 3, true⟩) s0 (r, s) →
      (∃ logits, r = .ok logits) ∧ (0, 1) ∉ s.tree.getEdges := by
  obtain ⟨mst, m1, m2⟩ := exists_mstForest (K := ℝ)
  obtain ⟨s0, h1, h2, h3⟩ := trainInf_spec (M := 2) (realNumbers g) (fun x => (Real.exp_pos x).le) (Real.exp_pos 0) mst m1 m2 id exTable
    exTable_ordered (by decide) (by decide) (by decide) (by decide) [⊥, 0, 0] (by decide) ⟨2, 1, 3, true⟩ (by decide) (by decide) 100 (by decide)
  refine ⟨mst, s0, h1, h2, fun r s hr => ?_⟩
  obtain ⟨-, -, -, -, h4, -⟩ := h3 r s hr
  obtain ⟨logits, rfl, -, -, -, h5, -⟩ := h4 ⟨_, star2_isTree, by
    intro p hp
    rcases List.mem_cons.1 hp with rfl | hp
    · simp [findCompleteEdge]
    · rcases List.mem_cons.1 hp with rfl | hp
      · simp [findCompleteEdge]
      · cases hp⟩
  exact ⟨⟨_, rfl⟩, fun hc => h5 (.inl (by decide)) _ hc (by simp [findCompleteEdge])⟩

/-- Training on three features where feature 0 may not be joined to any other: training fails at its end. -/
example (g : ℝ → ℝ) : ∃ (mst : List (List ℝ) → List Edge) (s0 : Trainer ℝ 2), Trainer.init exTable 3 = .ok s0 ∧
    (∃ p, outcomes (trainInf (n := Sampled ℝ) asPoss (realNumbers g) mst id 100 exTable [⊥, ⊥, 0] ⟨2, 1, 3, true⟩) s0 p) ∧
    ∀ r s, outcomes (trainInf (n := Sampled ℝ) asPoss (realNumbers g) mst id 100 exTable [⊥, ⊥, 0] ⟨2, 1, 3, true⟩) s0 (r, s) →
      r = .error .assertion := by
  obtain ⟨mst, m1, m2⟩ := exists_mstForest (K := ℝ)
  obtain ⟨s0, h1, h2, h3⟩ := trainInf_spec (M := 2) (realNumbers g) (fun x => (Real.exp_pos x).le) (Real.exp_pos 0) mst m1 m2 id exTable
    exTable_ordered (by decide) (by decide) (by decide) (by decide) [⊥, ⊥, 0] (by decide) ⟨2, 1, 3, true⟩ (by decide) (by decide) 100 (by decide)
  refine ⟨mst, s0, h1, h2, fun r s hr => ?_⟩
  obtain ⟨-, -, -, -, -, h4⟩ := h3 r s hr
  refine (h4 ?_).1
  rintro ⟨T, hT, hb⟩
  have hV : exTable.numCols = 3 := rfl
  rw [hV] at hT
  have hbad : ∀ c < 3, c ≠ 0 → ([⊥, ⊥, 0] : List (WithBot ℝ)).getD (findCompleteEdge 0 c) 0 = ⊥ := by
    intro c hc h0
    have : c = 1 ∨ c = 2 := by omega
    rcases this with rfl | rfl <;> simp [findCompleteEdge]
  rcases Relation.ReflTransGen.cases_head (hT.conn 0 (by omega) 1 (by omega)) with h | ⟨c, h, -⟩
  · omega
  · rcases h with h | h
    · exact hb _ h (hbad c (hT.range _ h).2 fun hc => IsTree.ne hT _ h hc.symm)
    · refine hb _ h ?_
      simp only
      rw [fce_comm]
      exact hbad c (hT.range _ h).1 fun hc => IsTree.ne hT _ h hc

end

end TreeCat
