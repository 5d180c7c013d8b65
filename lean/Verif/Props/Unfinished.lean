import Verif.Model.Gauss
import Verif.Props.Train

/-!
# C66: the unfinished trainers

`TreeCatTrainer` is an instance of the abstract trainer; the other two never produce a model.
-/

namespace TreeCat

open Config

section base
variable {K : Type} [Field K] [LinearOrder K] {M : Nat} [NeZero M] {m : Type → Type} [Monad m] [LawfulMonad m]
  [Choose K m] [Shuffle m]

theorem treeCatOps_sampleTree (num : Num K) (junk : Nat → Nat) (t : Table) (prior : List K) :
    (treeCatOps (M := M) (m := m) num t prior).sampleTree num junk t.numCols = trainerSampleTree num junk t prior := by
  refine ExceptT.ext (StateT.ext fun s => ?_)
  unfold TrainerOps.sampleTree trainerSampleTree
  cases makeCompleteGraph t.numCols with
  | error e => simp [liftPy, ExceptT.run, ExceptT.bind, ExceptT.mk, bind, ExceptT.bindCont, get, getThe, MonadStateOf.get, liftM, monadLift, MonadLift.monadLift, ExceptT.lift, StateT.bind, StateT.get, StateT.run, StateT.pure, StateT.map, Functor.map, pure, treeCatOps]
  | ok grid =>
    cases hl : computeEdgeLogits num t prior s with
    | error e => simp [liftPy, ExceptT.run, ExceptT.bind, ExceptT.mk, bind, ExceptT.bindCont, get, getThe, MonadStateOf.get, liftM, monadLift, MonadLift.monadLift, ExceptT.lift, StateT.bind, StateT.get, StateT.run, StateT.pure, StateT.map, Functor.map, pure, treeCatOps, hl]
    | ok logits =>
      cases ha : pyAssert (logits.length == grid.length) with
      | error e => simp [liftPy, ExceptT.run, ExceptT.bind, ExceptT.mk, bind, ExceptT.bindCont, get, getThe, MonadStateOf.get, liftM, monadLift, MonadLift.monadLift, ExceptT.lift, StateT.bind, StateT.get, StateT.run, StateT.pure, StateT.map, Functor.map, pure, treeCatOps, hl, ha]
      | ok u => simp [liftPy, ExceptT.run, ExceptT.bind, ExceptT.mk, bind, ExceptT.bindCont, get, getThe, MonadStateOf.get, liftM, monadLift, MonadLift.monadLift, ExceptT.lift, StateT.bind, StateT.get, StateT.run, StateT.pure, StateT.map, Functor.map, pure, treeCatOps, hl, ha, liftDraw, liftRand]

theorem treeCatOps_estimateTree (num : Num K) (mst : List (List K) → List Edge) (t : Table) (prior : List K) :
    (treeCatOps (M := M) (m := m) num t prior).estimateTree mst t.numCols = trainerEstimateTree num mst t prior := by
  refine ExceptT.ext (StateT.ext fun s => ?_)
  unfold TrainerOps.estimateTree trainerEstimateTree
  cases makeCompleteGraph t.numCols with
  | error e => simp [liftPy, ExceptT.run, ExceptT.bind, ExceptT.mk, bind, ExceptT.bindCont, get, getThe, MonadStateOf.get, liftM, monadLift, MonadLift.monadLift, ExceptT.lift, StateT.bind, StateT.get, StateT.run, StateT.pure, StateT.map, Functor.map, pure, treeCatOps]
  | ok grid =>
    cases hl : computeEdgeLogits num t prior s with
    | error e => simp [liftPy, ExceptT.run, ExceptT.bind, ExceptT.mk, bind, ExceptT.bindCont, get, getThe, MonadStateOf.get, liftM, monadLift, MonadLift.monadLift, ExceptT.lift, StateT.bind, StateT.get, StateT.run, StateT.pure, StateT.map, Functor.map, pure, treeCatOps, hl]
    | ok logits => simp [liftPy, ExceptT.run, ExceptT.bind, ExceptT.mk, bind, ExceptT.bindCont, get, getThe, MonadStateOf.get, liftM, monadLift, MonadLift.monadLift, ExceptT.lift, StateT.bind, StateT.get, StateT.run, StateT.pure, StateT.map, Functor.map, pure, treeCatOps, hl]

/-- `TreeCatTrainer.train` is `TreeTrainer.train` with the methods of `TreeCatTrainer`. -/
theorem train_eq_base (num : Num K) (mst : List (List K) → List Edge) (junk : Nat → Nat) (fuel : Nat) (t : Table)
    (prior : List K) (cfg : TrainConfig) :
    (treeCatOps (M := M) (m := m) num t prior).train num mst junk fuel t.numRows t.numCols cfg =
      TreeCat.train num mst junk fuel t prior cfg := by
  have ha : (treeCatOps (M := M) (m := m) num t prior).runAction num junk t.numCols = runAction num junk t prior := by
    funext a
    cases a with
    | addRow r => rfl
    | removeRow r => rfl
    | sampleTree => simp only [TrainerOps.runAction, runAction, treeCatOps_sampleTree]; rfl
  have hs : (treeCatOps (M := M) (m := m) num t prior).fullScan num junk t.numRows t.numCols = fullScan num junk t prior := by
    simp only [TrainerOps.fullScan, fullScan, treeCatOps_sampleTree]; rfl
  simp only [TrainerOps.train, TrainerOps.trainRows, TreeCat.train, ha, hs, treeCatOps_estimateTree]
  rfl

end base

/-! ### TreeGaussTrainer -/

section run
variable {σ α β : Type} {m : Type → Type} [Monad m] [LawfulMonad m]

theorem liftPy_error_bind (e : PyErr) (f : α → ExceptT PyErr (StateT σ m) β) :
    (liftPy (.error e) >>= f) = liftPy (.error e) := by
  refine ExceptT.ext (StateT.ext fun s => ?_)
  simp [liftPy, ExceptT.run, ExceptT.bind, ExceptT.mk, bind, ExceptT.bindCont, StateT.bind, StateT.run, StateT.pure, pure]

theorem run_get_bind (f : σ → ExceptT PyErr (StateT σ m) β) (s : σ) : (get >>= f).run.run s = (f s).run.run s := by
  simp [ExceptT.run, ExceptT.bind, ExceptT.mk, bind, ExceptT.bindCont, get, getThe, MonadStateOf.get, liftM, monadLift, MonadLift.monadLift, ExceptT.lift, StateT.bind, StateT.get, StateT.run, StateT.map, Functor.map, pure]

theorem run_set_bind (s' : σ) (f : PUnit → ExceptT PyErr (StateT σ m) β) (s : σ) :
    (set s' >>= f).run.run s = (f ()).run.run s' := by
  simp [ExceptT.run, ExceptT.bind, ExceptT.mk, bind, ExceptT.bindCont, set, MonadStateOf.set, liftM, monadLift, MonadLift.monadLift, ExceptT.lift, StateT.bind, StateT.set, StateT.run, StateT.map, Functor.map, pure]

omit [LawfulMonad m] in
theorem run_liftPy (x : Py α) (s : σ) : (liftPy x : ExceptT PyErr (StateT σ m) α).run.run s = pure (x, s) := rfl

theorem run_liftDraw_bind (x : m α) (f : α → ExceptT PyErr (StateT σ m) β) (s : σ) :
    (liftDraw (ExceptT.lift x) >>= f).run.run s = x >>= fun a => (f a).run.run s := by
  simp [liftDraw, ExceptT.run, ExceptT.bind, ExceptT.mk, bind, ExceptT.bindCont, StateT.bind, StateT.run, ExceptT.lift, StateT.lift, pure]

theorem run_throw_bind (x : ExceptT PyErr (StateT σ m) α) (f : α → ExceptT PyErr (StateT σ m) β) (s s' : σ) (e : PyErr)
    (h : x.run.run s = pure (.error e, s')) : (x >>= f).run.run s = pure (.error e, s') := by
  have : (x >>= f).run.run s = x.run.run s >>= fun p => (ExceptT.bindCont f p.1).run p.2 := rfl
  rw [this, h, pure_bind]
  rfl

omit [LawfulMonad m] in
theorem stateForM_nil (f : α → ExceptT PyErr (StateT σ m) PUnit) : ([] : List α).forM f = pure ⟨⟩ := rfl

omit [LawfulMonad m] in
theorem stateForM_cons (f : α → ExceptT PyErr (StateT σ m) PUnit) (a : α) (l : List α) :
    (a :: l).forM f = (f a >>= fun _ => l.forM f) := rfl

end run

section gauss
variable {K : Type} [Field K] [LinearOrder K] {D : Nat} {m : Type → Type} [Monad m] [LawfulMonad m]
  [Choose K m] [Shuffle m] (num : Num K) (mst : List (List K) → List Edge) (junk : Nat → Nat)

theorem gauss_sampleTree (V : Nat) :
    (gaussOps (D := D) (m := m) V).sampleTree num junk V = liftPy (.error .notImplemented) := by
  simp only [TrainerOps.sampleTree, makeCompleteGraph_eq, liftPy_ok_bind, gaussOps, pyTODO, liftPy_error_bind]

theorem gauss_estimateTree (V : Nat) :
    (gaussOps (D := D) (m := m) (K := K) V).estimateTree mst V = liftPy (.error .notImplemented) := by
  simp only [TrainerOps.estimateTree, makeCompleteGraph_eq, liftPy_ok_bind, gaussOps, pyTODO, liftPy_error_bind]

theorem gauss_fullScan (N V : Nat) :
    (gaussOps (D := D) (m := m) V).fullScan num junk N V = liftPy (.error .notImplemented) := by
  simp only [TrainerOps.fullScan, gauss_sampleTree, liftPy_error_bind]

theorem gaussAddRow_run (V row : Nat) (s : GaussTrainer K D) (h : row ∉ s.added) (hr : row < s.data.length) :
    (gaussAddRow V row : GaussM K D m Unit).run.run s = pure (.error .notImplemented, { s with added := insert row s.added }) := by
  unfold gaussAddRow
  rw [run_get_bind, if_neg h]
  simp only [pyGet, List.getElem?_eq_getElem hr, liftPy_ok_bind, pyTODO, liftPy_error_bind, run_set_bind]
  rfl

end gauss

section poss
variable {K : Type} [Field K] [LinearOrder K] [IsStrictOrderedRing K] {D : Nat} (num : Num K)
  (mst : List (List K) → List Edge) (junk : Nat → Nat)

theorem gaussTrainRows_run (fuel N V : Nat) (cfg : TrainConfig) (s : GaussTrainer K D)
    (hs : s.added = ∅) (hN : s.data.length = N) (hf : (2 * cfg.initEpochs.toNat + 1) * N ≤ fuel) (rows : List Nat)
    (hp : rows.Perm (List.range N)) : ∃ r s',
    ((gaussOps V).trainRows num mst junk fuel N V cfg rows : GaussM K D Poss (List K)).run.run s = pure (r, s') ∧
    if 1 ≤ cfg.initEpochs ∧ 1 ≤ cfg.sampleTreeRate then
      r = .error .notImplemented ∧ (if N = 0 then s' = s else ∃ row < N, s' = { s with added := {row} })
    else r = .error .assertion ∧ s' = s := by
  have hc : pyAssert (((gaussOps (D := D) (m := Poss) (K := K) V).added s).card == 0) = .ok () := by
    show pyAssert (s.added.card == 0) = .ok ()
    rw [hs]; rfl
  split_ifs with hv hN0
  all_goals unfold TrainerOps.trainRows
  · obtain ⟨acts, ha, hl, -⟩ := annealingSchedule_spec rows N cfg.initEpochs.toNat (cfg.initEpochs : K)
      (cfg.sampleTreeRate : K) (by exact_mod_cast hv.1) (by exact_mod_cast hv.2)
      (by have : cfg.initEpochs ≤ (cfg.initEpochs.toNat : Int) := Int.self_le_toNat _
          exact_mod_cast this) hp fuel hf
    rw [ha, liftPy_ok_bind]
    subst hN0
    have hnil : acts = [] := by
      cases acts with
      | nil => rfl
      | cons a as =>
        cases a with
        | addRow r => exact absurd hl.1 (by omega)
        | removeRow r => exact absurd hl.1 (by simp)
        | sampleTree => exact absurd hl.1 (by simp)
    subst hnil
    rw [stateForM_nil, pure_bind, run_get_bind, hc, liftPy_ok_bind]
    have he : ((gaussOps V).estimateTree mst V : GaussM K D Poss (List Edge × List K)) = liftPy (.error .notImplemented) :=
      gauss_estimateTree mst V
    cases cfg.fullEpochs.toNat with
    | zero =>
      rw [List.replicate_zero, stateForM_nil, pure_bind, run_get_bind, hc, liftPy_ok_bind, he, liftPy_error_bind,
        run_liftPy]
      exact ⟨_, _, rfl, rfl, rfl⟩
    | succ n =>
      rw [List.replicate_succ, stateForM_cons, gauss_fullScan, liftPy_error_bind, liftPy_error_bind, run_liftPy]
      exact ⟨_, _, rfl, rfl, rfl⟩
  · obtain ⟨acts, ha, hl, -⟩ := annealingSchedule_spec rows N cfg.initEpochs.toNat (cfg.initEpochs : K)
      (cfg.sampleTreeRate : K) (by exact_mod_cast hv.1) (by exact_mod_cast hv.2)
      (by have : cfg.initEpochs ≤ (cfg.initEpochs.toNat : Int) := Int.self_le_toNat _
          exact_mod_cast this) hp fuel hf
    rw [ha, liftPy_ok_bind]
    cases acts with
    | nil => exact absurd hl (by
        intro h'
        have := congrArg Finset.card (show (∅ : Finset Nat) = Finset.range N from h')
        simp at this
        omega)
    | cons a as =>
      cases a with
      | removeRow r => exact absurd hl.1 (by simp)
      | sampleTree => exact absurd hl.1 (by simp)
      | addRow row =>
        have h1 : ((gaussOps V).runAction num junk V (.addRow row) : GaussM K D Poss Unit).run.run s = _ :=
          gaussAddRow_run (m := Poss) V row s (by simp [hs]) (hN ▸ hl.1)
        rw [stateForM_cons, bind_assoc]
        rw [run_throw_bind _ _ _ _ _ h1]
        exact ⟨_, _, rfl, rfl, row, hl.1, by simp [hs]⟩
  · rw [annealingSchedule_rejects fuel rows N _ _ (by
      by_contra hcon
      push Not at hcon
      exact hv ⟨by exact_mod_cast hcon.1, by exact_mod_cast hcon.2⟩), liftPy_error_bind, run_liftPy]
    exact ⟨_, _, rfl, rfl, rfl⟩

theorem gaussTrain_run (fuel N V : Nat) (cfg : TrainConfig) (s : GaussTrainer K D) (hs : s.added = ∅) :
    ((gaussOps V).train num mst junk fuel N V cfg : GaussM K D Poss (List K)).run.run s =
      (Shuffle.permutation N >>= fun rows =>
        ((gaussOps V).trainRows num mst junk fuel N V cfg rows : GaussM K D Poss (List K)).run.run s) := by
  unfold TrainerOps.train
  have hc : pyAssert (((gaussOps (D := D) (m := Poss) (K := K) V).added s).card == 0) = .ok () := by
    show pyAssert (s.added.card == 0) = .ok ()
    rw [hs]; rfl
  rw [run_get_bind, hc, liftPy_ok_bind, run_liftDraw_bind]

/-- `train()` of a new `TreeGaussTrainer` never returns a model: for every array, config and result
of the shuffle it raises `NotImplementedError`, or `AssertionError` if the schedule is refused. If there
is a row, one row stays marked as added, without any statistics. -/
theorem gaussTrain_raises (fuel N V : Nat) (cfg : TrainConfig) (s : GaussTrainer K D)
    (hs : s.added = ∅) (hN : s.data.length = N) (hf : (2 * cfg.initEpochs.toNat + 1) * N ≤ fuel) :
    (∃ p, ((gaussOps V).train num mst junk fuel N V cfg : GaussM K D Poss (List K)).run.run s p) ∧
    ∀ (r : Py (List K)) (s' : GaussTrainer K D),
    ((gaussOps V).train num mst junk fuel N V cfg : GaussM K D Poss (List K)).run.run s (r, s') →
    if 1 ≤ cfg.initEpochs ∧ 1 ≤ cfg.sampleTreeRate then
      r = .error .notImplemented ∧ (if N = 0 then s' = s else ∃ row < N, s' = { s with added := {row} })
    else r = .error .assertion ∧ s' = s := by
  rw [gaussTrain_run num mst junk fuel N V cfg s hs]
  constructor
  · obtain ⟨r, s', h1, -⟩ := gaussTrainRows_run num mst junk fuel N V cfg s hs hN hf (List.range N) (List.Perm.refl _)
    exact ⟨(r, s'), List.range N, List.Perm.refl _, by
      show ((gaussOps V).trainRows num mst junk fuel N V cfg (List.range N) : GaussM K D Poss (List K)).run.run s (r, s')
      rw [h1]; rfl⟩
  · rintro r s' ⟨rows, hp, h⟩
    obtain ⟨r', s'', h1, h2⟩ := gaussTrainRows_run num mst junk fuel N V cfg s hs hN hf rows hp
    rw [h1] at h
    cases h
    exact h2

/-- A second call of `train()` on the same object finds a row in the subsample and raises
`AssertionError`. -/
theorem gaussTrain_again (fuel N V : Nat) (cfg : TrainConfig) (s : GaussTrainer K D) (hs : s.added ≠ ∅) :
    ((gaussOps V).train num mst junk fuel N V cfg : GaussM K D Poss (List K)).run.run s = pure (.error .assertion, s) := by
  unfold TrainerOps.train
  have hc : pyAssert (((gaussOps (D := D) (m := Poss) (K := K) V).added s).card == 0) = .error .assertion := by
    show pyAssert (s.added.card == 0) = _
    simp [pyAssert, hs]
  rw [run_get_bind, hc, liftPy_error_bind, run_liftPy]

/-- `remove_row` of a row in the subsample raises `AttributeError` and has dropped the row. -/
theorem gaussRemoveRow_raises (row : Nat) (s : GaussTrainer K D) (h : row ∈ s.added) (hr : row < s.data.length) :
    (gaussRemoveRow row : GaussM K D Poss Unit).run.run s =
      pure (.error .attributeError, { s with added := s.added.erase row }) := by
  unfold gaussRemoveRow
  rw [run_get_bind, if_pos h, run_set_bind]
  simp only [pyGet, List.getElem?_eq_getElem hr, liftPy_ok_bind]
  rfl

end poss

/-! ### The code behind the missing sampler

The statistics are updated after the call of `TODO`, so this code is never reached. It could not work
either: with any observed cell it raises, whatever the dimension. -/

theorem foldl_update_off {α γ : Type} (key : γ → Nat) (g : γ → α → α) (l : List γ) (u : Nat) (hu : u ∉ l.map key)
    (f : Nat → α) : l.foldl (fun f p => Function.update f (key p) (g p (f (key p)))) f u = f u := by
  induction l generalizing f with
  | nil => rfl
  | cons p l ih =>
    rw [List.map_cons, List.mem_cons, not_or] at hu
    rw [List.foldl_cons, ih hu.2, Function.update_of_ne hu.1]

theorem foldl_update_on {α γ : Type} (key : γ → Nat) (g : γ → α → α) (l : List γ) (hn : (l.map key).Nodup) (p : γ)
    (hp : p ∈ l) (f : Nat → α) :
    l.foldl (fun f p => Function.update f (key p) (g p (f (key p)))) f (key p) = g p (f (key p)) := by
  induction l generalizing f with
  | nil => cases hp
  | cons q l ih =>
    rw [List.map_cons, List.nodup_cons] at hn
    rw [List.foldl_cons]
    rcases List.mem_cons.1 hp with rfl | hp
    · rw [foldl_update_off key g l _ hn.1, Function.update_self]
    · have hne : key p ≠ key q := fun h => hn.1 (h ▸ List.mem_map_of_mem hp)
      rw [ih hn.2 hp, Function.update_of_ne hne]

section dead
variable {K : Type} [Field K] [LinearOrder K] {D : Nat} {m : Type → Type} [Monad m] [LawfulMonad m]

theorem run_modify_bind {σ β : Type} (g : σ → σ) (f : PUnit → ExceptT PyErr (StateT σ m) β) (s : σ) :
    (modify g >>= f).run.run s = (f ()).run.run (g s) := by
  simp [ExceptT.run, ExceptT.bind, ExceptT.mk, bind, ExceptT.bindCont, modify, modifyGet, MonadStateOf.modifyGet, liftM, monadLift, MonadLift.monadLift, ExceptT.lift, StateT.bind, StateT.modifyGet, StateT.run, StateT.map, Functor.map, pure]

theorem gaussCell_raises (sign : K) (v : Nat) (z : Fin D → K) (x : K) (s : GaussTrainer K D) :
    ∃ s', (gaussCell sign v z x : GaussM K D m Unit).run.run s =
      pure (.error (if D ≤ 1 then .indexError else .valueError), s') := by
  unfold gaussCell
  rw [run_modify_bind]
  by_cases h : 1 < D
  · have e : (if D ≤ 1 then PyErr.indexError else .valueError) = .valueError := if_neg (by omega)
    have h2 : ¬ (D = 2 + D ∨ D = 1) := by omega
    rw [if_pos h, run_modify_bind, if_neg h2, e]
    exact ⟨_, rfl⟩
  · have e : (if D ≤ 1 then PyErr.indexError else .valueError) = .indexError := if_pos (by omega)
    rw [if_neg h, e]
    exact ⟨_, run_throw_bind _ _ _ _ _ rfl⟩

theorem gaussCells_raises (sign : K) (z : Nat → Fin D → K) (cells : List (Option K)) (k : Nat)
    (h : ∃ x, some x ∈ cells) (s : GaussTrainer K D) :
    ∃ s', (((cells.zipIdx k).forM fun p => match p.1 with
      | none => pure ()
      | some x => gaussCell sign p.2 (z p.2) x : GaussM K D m PUnit)).run.run s =
      pure (.error (if D ≤ 1 then .indexError else .valueError), s') := by
  induction cells generalizing k with
  | nil => obtain ⟨x, hx⟩ := h; cases hx
  | cons c cells ih =>
    rw [List.zipIdx_cons, stateForM_cons]
    cases c with
    | none =>
      simp only [pure_bind]
      exact ih (k + 1) (by simpa using h)
    | some x =>
      obtain ⟨s', h'⟩ := gaussCell_raises (m := m) sign k (z k) x s
      exact ⟨s', run_throw_bind _ _ _ _ _ h'⟩

/-- With an observed cell the update raises `IndexError` in dimension at most one and `ValueError`
in any other. -/
theorem gaussUpdate_raises (V : Nat) (sign : K) (cells : List (Option K)) (z : Nat → Fin D → K) (h : ∃ x, some x ∈ cells)
    (s : GaussTrainer K D) : ∃ s', (gaussUpdate V sign cells z : GaussM K D m Unit).run.run s =
      pure (.error (if D ≤ 1 then .indexError else .valueError), s') := by
  unfold gaussUpdate
  rw [run_modify_bind]
  exact gaussCells_raises sign z cells 0 h _

theorem gaussUpdate_missing (V : Nat) (sign : K) (cells : List (Option K)) (z : Nat → Fin D → K)
    (h : ∀ c ∈ cells, c = none) (s : GaussTrainer K D) :
    (gaussUpdate V sign cells z : GaussM K D m Unit).run.run s = pure (.ok (), gaussVertEdge V sign z s) := by
  unfold gaussUpdate
  rw [run_modify_bind]
  generalize gaussVertEdge V sign z s = s1
  generalize 0 = k
  induction cells generalizing k with
  | nil => rfl
  | cons c cells ih =>
    obtain rfl := h c List.mem_cons_self
    rw [List.zipIdx_cons, stateForM_cons]
    simp only [pure_bind]
    exact ih (fun c hc => h c (List.mem_cons_of_mem _ hc)) (k + 1)

omit [LinearOrder K] in
/-- What one row adds to the statistics of vertices and edges. -/
theorem gaussVertEdge_spec (V : Nat) (sign : K) (z : Nat → Fin D → K) (s : GaussTrainer K D) :
    (∀ v i j, (gaussVertEdge V sign z s).vertSS v i j =
      if v < V then s.vertSS v i j + sign * (z v i * z v j) else s.vertSS v i j) ∧
    ∀ e i j, (gaussVertEdge V sign z s).edgeSS e i j =
      if h : e < s.tree.treeGrid.length then
        s.edgeSS e i j + sign * (z s.tree.treeGrid[e].2.1 i * z s.tree.treeGrid[e].2.2 j)
      else s.edgeSS e i j := by
  constructor
  · intro v i j
    have h1 := foldl_update_off (fun v : Nat => v) (fun v (x : Fin D → Fin D → K) i j => x i j + sign * (z v i * z v j))
      (List.range V) v
    have h2 := foldl_update_on (fun v : Nat => v) (fun v (x : Fin D → Fin D → K) i j => x i j + sign * (z v i * z v j))
      (List.range V) (by simpa using List.nodup_range) v
    split_ifs with hv
    · exact congrFun (congrFun (h2 (by simpa using hv) s.vertSS) i) j
    · exact congrFun (congrFun (h1 (by simpa using hv) s.vertSS) i) j
  · intro e i j
    have h1 := foldl_update_off (fun p : (Nat × Nat × Nat) × Nat => p.2)
      (fun p (x : Fin D → Fin D → K) i j => x i j + sign * (z p.1.2.1 i * z p.1.2.2 j)) s.tree.treeGrid.zipIdx e
    have h2 := foldl_update_on (fun p : (Nat × Nat × Nat) × Nat => p.2)
      (fun p (x : Fin D → Fin D → K) i j => x i j + sign * (z p.1.2.1 i * z p.1.2.2 j)) s.tree.treeGrid.zipIdx
      (by rw [show (fun p : (Nat × Nat × Nat) × Nat => p.2) = Prod.snd from rfl, List.zipIdx_map_snd]
          exact List.nodup_range')
    split_ifs with he
    · exact congrFun (congrFun (h2 (s.tree.treeGrid[e], e) (by simp [List.mem_zipIdx_iff_getElem?, he]) s.edgeSS) i) j
    · refine congrFun (congrFun (h1 ?_ s.edgeSS) i) j
      rw [show (fun p : (Nat × Nat × Nat) × Nat => p.2) = Prod.snd from rfl, List.zipIdx_map_snd]
      simp only [List.mem_range'_1]
      omega

end dead

/-! ### train_model -/

section dispatch
variable {K β : Type} [Field K] [LinearOrder K] {D : Nat}

/-- **C66.** `train_model` returns a model only for `model_latent_dim = 0`, and then it is the model of
`TreeCatTrainer`. For any other dimension it raises: `AssertionError` if the dimension is negative or
there is one cluster (the table is not an array), `NotImplementedError` otherwise. -/
theorem trainModel_dispatch (cat : Table → List K → Config → Py β) (gauss : GaussTrainer K D → Config → Py β)
    (mog : Unit → Config → Py β) (t : Table) (prior : List K) (c : Config) (M L : Int)
    (hM : lookup c "model_num_clusters" = some M) (hL : lookup c "model_latent_dim" = some L) :
    trainModel (runTrainer cat gauss mog) t prior c =
      if M < 1 then .error .assertion
      else if L = 0 then cat t prior c
      else if L < 0 ∨ M = 1 then .error .assertion
      else .error .notImplemented := by
  simp only [trainModel, configGet, hM, hL, pickTrainer, pyAssert, bind, Except.bind]
  rcases lt_trichotomy L 0 with h | h | h
  · by_cases h1 : M < 1
    · simp [h1, show ¬ 1 ≤ M by omega]
    · simp [h1, show 1 ≤ M by omega, show ¬ 0 ≤ L by omega, show L ≠ 0 by omega, h]
  · subst h
    by_cases h1 : M < 1
    · simp [h1, show ¬ 1 ≤ M by omega]
    · simp [h1, show 1 ≤ M by omega, runTrainer]
  · by_cases h1 : M < 1
    · simp [h1, show ¬ 1 ≤ M by omega]
    · by_cases h2 : M = 1
      · subst h2
        simp [show 0 ≤ L by omega, show L ≠ 0 by omega, runTrainer, GaussTrainer.init, bind, Except.bind]
      · simp [h1, show 1 ≤ M by omega, show 0 ≤ L by omega, show L ≠ 0 by omega, h2, runTrainer, mogInit, pyTODO,
          show ¬ L < 0 by omega, bind, Except.bind]

end dispatch

/-! ### internalize_table -/

theorem mapM_internalizeType (l : List Nat) :
    l.mapM internalizeType = if ∀ ty ∈ l, ty ≤ 2 then .ok (l.map fun _ => 0) else .error .keyError := by
  induction l with
  | nil => rfl
  | cons ty l ih =>
    rw [List.mapM_cons, ih]
    by_cases h : ty ≤ 2
    · by_cases h' : ∀ ty ∈ l, ty ≤ 2
      · simp [internalizeType, h, if_pos h', bind, Except.bind, pure, Except.pure]
      · rw [if_neg h', if_neg (by simpa [h] using h')]
        simp [internalizeType, h, bind, Except.bind]
    · have e : ¬ ∀ x ∈ ty :: l, x ≤ 2 := fun h' => h (h' ty List.mem_cons_self)
      rw [if_neg e]
      simp [internalizeType, h, bind, Except.bind]

/-- `internalize_table` returns `None` for a table without features and raises for any other:
`KeyError` if a type is unknown, `NotImplementedError` otherwise. -/
theorem internalizeTable_spec (t : Table) :
    internalizeTable t = if t.featureTypes = [] then .ok () else if ∀ ty ∈ t.featureTypes, ty ≤ 2 then .error .notImplemented
      else .error .keyError := by
  unfold internalizeTable
  rw [mapM_internalizeType]
  cases h : t.featureTypes with
  | nil => rfl
  | cons ty l =>
    rw [if_neg (by simp : ¬ ty :: l = [])]
    split_ifs
    · rfl
    · rfl

/-! ### Examples -/

/-- A new trainer on an array of two rows, two features and one missing value. -/
example : ∃ s : GaussTrainer ℚ 3, GaussTrainer.init (.array 2 [[some 1, none], [some 2, some (1 / 2)]]) 1 = .ok s ∧
    s.added = ∅ ∧ s.data.length = 2 ∧ ∃ x, some x ∈ s.data[0]! := ⟨_, rfl, rfl, rfl, 1, by decide⟩

/-- A config of a TreeGauss model. -/
example : lookup [("model_num_clusters", 1), ("model_latent_dim", 3)] "model_num_clusters" = some 1 ∧
    lookup [("model_num_clusters", 1), ("model_latent_dim", 3)] "model_latent_dim" = some 3 := by decide

/-- A row of missing values. -/
example : ∀ c ∈ ([none, none] : List (Option ℚ)), c = none := by simp

end TreeCat
