import Verif.Lemmas.Train
import Verif.Model.FloatTrain
import Verif.Props.FloatRowLaw

/-! # The steps of training in floating point and exactly -/

set_option linter.unusedSectionVars false

namespace TreeCat

open Util Spec

/-! ### Code without random choices -/

section
variable {m : Type → Type} [Monad m] [LawfulMonad m] {σ α β : Type}

/-- From the state `s` the code returns `a` and leaves the state `s'`. -/
def Runs (x : ExceptT PyErr (StateT σ m) α) (s : σ) (a : α) (s' : σ) : Prop := x.run.run s = pure (.ok a, s')

theorem Runs.bind_run {x : ExceptT PyErr (StateT σ m) α} {s s' : σ} {a : α} (h : Runs x s a s') (f : α → ExceptT PyErr (StateT σ m) β) :
    (x >>= f).run.run s = (f a).run.run s' := by
  have e : (x >>= f).run.run s = x.run.run s >>= fun o => (match o.1 with
      | .ok a => (f a).run
      | .error e => pure (.error e) : StateT σ m (Except PyErr β)).run o.2 := by
    refine congrArg (x.run.run s >>= ·) (funext fun o => ?_)
    obtain ⟨r, s1⟩ := o
    cases r <;> rfl
  rw [e, show x.run.run s = pure (.ok a, s') from h, pure_bind]

theorem Runs.bind {x : ExceptT PyErr (StateT σ m) α} {s s' s'' : σ} {a : α} {b : β} {f : α → ExceptT PyErr (StateT σ m) β} (h : Runs x s a s') (h' : Runs (f a) s' b s'') :
    Runs (x >>= f) s b s'' := (h.bind_run f).trans h'

theorem Runs.pure {s : σ} (a : α) : Runs (Pure.pure a : ExceptT PyErr (StateT σ m) α) s a s := rfl

theorem Runs.get {s : σ} : Runs (MonadState.get : ExceptT PyErr (StateT σ m) σ) s s s := by
  show (StateT.get >>= fun a => Pure.pure (Except.ok a) : StateT σ m _).run s = _
  simp [StateT.run, StateT.get, StateT.bind, Bind.bind, Pure.pure, StateT.pure]

theorem Runs.set {s s' : σ} : Runs (MonadStateOf.set s' : ExceptT PyErr (StateT σ m) PUnit) s PUnit.unit s' := by
  show (StateT.set s' >>= fun a => Pure.pure (Except.ok a) : StateT σ m _).run s = _
  simp [StateT.run, StateT.set, StateT.bind, Bind.bind, Pure.pure, StateT.pure]

theorem Runs.modify {s : σ} {f : σ → σ} : Runs (modify f : ExceptT PyErr (StateT σ m) PUnit) s PUnit.unit (f s) := by
  show (StateT.modifyGet (fun s => (PUnit.unit, f s)) >>= fun a => Pure.pure (Except.ok a) : StateT σ m _).run s = _
  simp [StateT.run, StateT.modifyGet, StateT.bind, Bind.bind, Pure.pure, StateT.pure]

theorem Runs.liftPy {s : σ} {x : Py α} {a : α} (hx : x = .ok a) : Runs (TreeCat.liftPy x : ExceptT PyErr (StateT σ m) α) s a s := by
  subst hx; rfl

theorem Runs.forM {γ : Type} (f : γ → ExceptT PyErr (StateT σ m) PUnit) (g : σ → γ → σ) (l : List γ) (h : ∀ c ∈ l, ∀ s, Runs (f c) s PUnit.unit (g s c)) (s : σ) :
    Runs (l.forM f) s PUnit.unit (l.foldl g s) := by
  induction l generalizing s with
  | nil => rfl
  | cons c l ih => exact (h c (List.mem_cons_self ..) s).bind (ih (fun d hd => h d (List.mem_cons_of_mem _ hd)) _)

theorem Runs.onStats {M : Nat} {x : TrainM ℚ M m α} {s : FloatTrainer M} {a : α} {st : Trainer ℚ M} (h : Runs x s.stats a st) :
    Runs (TreeCat.onStats x) s a { s with stats := st } := by
  show (x.run.run s.stats >>= fun p => Pure.pure (p.1, ({ s with stats := p.2 } : FloatTrainer M))) = _
  rw [show x.run.run s.stats = Pure.pure (.ok a, st) from h, pure_bind]

end

/-! ### The methods -/

section
variable {m : Type → Type} [Monad m] [LawfulMonad m] {K : Type} [Field K] [LinearOrder K] {M : Nat} [NeZero M] {t : Table}

theorem Runs.updateStats (hm : AllMultinomial t) (row : Nat) (sign : Int) (z : Nat → Fin M) (s : Trainer K M) :
    Runs (TreeCat.updateStats t row sign z : TrainM K M m Unit) s () (statsUpdate t row sign z s) := by
  refine Runs.bind Runs.modify (Runs.forM _ (fun s v => featStats t row sign v (z v) s) _ (fun v _ s => ?_) _)
  rw [if_pos (hm.getD v)]
  exact Runs.modify

theorem Runs.removeRow (hm : AllMultinomial t) {row : Nat} {s : Trainer K M} (hr : row ∈ s.added) (hN : row < t.numRows) :
    Runs (TreeCat.removeRow t row : TrainM K M m Unit) s () (removed t row s) := by
  refine Runs.bind Runs.get ?_
  rw [if_pos hr]
  exact Runs.bind Runs.set (Runs.bind (Runs.liftPy (if_pos hN)) (Runs.updateStats hm row (-1) (s.assign row) _))

/-- The counts of pairs that `set_edges` computes. -/
def pairCounts (s : Trainer K M) (v1 v2 : Nat) : Fin M → Fin M → Int := fun m1 m2 =>
  ((((s.added.sort (· ≤ ·)).map s.assign).map fun a => (a v1).val * M + (a v2).val).count (m1.val * M + m2.val) : Int)

/-- The state after `set_edges`. -/
def edgesSet (edges : List Edge) (program : List Instr) (s : Trainer K M) : Trainer K M :=
  { s with
    tree := { s.tree with treeGrid := makeTree edges }
    program := program
    edgeSS := (makeTree edges).foldl (fun f c => Function.update f c.1 (pairCounts s c.2.1 c.2.2)) s.edgeSS
    edgeProbs := fun e a b => ((makeTree edges).foldl (fun f c => Function.update f c.1 (pairCounts s c.2.1 c.2.2)) s.edgeSS e a b : K) + edgePrior M }

theorem foldl_edgeSS (g : (Nat × Nat × Nat) → Fin M → Fin M → Int) (l : Grid) (s : Trainer K M) :
    l.foldl (fun s c => { s with edgeSS := Function.update s.edgeSS c.1 (g c) }) s
      = { s with edgeSS := l.foldl (fun f c => Function.update f c.1 (g c)) s.edgeSS } := by
  induction l generalizing s with
  | nil => rfl
  | cons c l ih => rw [List.foldl_cons, ih, List.foldl_cons]

theorem Runs.setEdges {s : Trainer K M} (hV : s.tree.numVertices = t.numCols) {edges : List Edge} (he : IsTree t.numCols edges) {prog : List Instr}
    (hp : makeProgram (makeTree edges) none = .ok prog) : Runs (TreeCat.setEdges edges : TrainM K M m Unit) s () (edgesSet edges prog s) := by
  have hset : s.tree.setEdges edges = .ok { s.tree with treeGrid := makeTree edges } := by
    unfold TreeStructure.setEdges pyAssert
    have := he.card
    rw [if_pos (by rw [hV]; simp only [beq_iff_eq]; omega)]
    rfl
  refine Runs.bind Runs.get (Runs.bind (Runs.liftPy hset) (Runs.bind Runs.modify (Runs.bind (Runs.liftPy hp) (Runs.bind Runs.modify ?_))))
  refine Runs.bind (Runs.forM _ (fun s' c => { s' with edgeSS := Function.update s'.edgeSS c.1 (pairCounts s c.2.1 c.2.2) }) _ (fun c hc s' => ?_) _) ?_
  · have hne : c.2.1 ≠ c.2.2 := by
      refine IsTree.ne (makeTree_isTree he) (c.2.1, c.2.2) ?_
      rw [gridEdges]
      exact List.mem_map.2 ⟨c, hc, rfl⟩
    refine Runs.bind (Runs.liftPy (a := pairCounts s c.2.1 c.2.2) (by unfold countPairs pyAssert; rw [if_pos (by simpa using hne)]; rfl)) Runs.modify
  · rw [foldl_edgeSS]
    exact Runs.modify

end

/-! ### The exact trainer over the reals -/

section
variable {M : Nat} [NeZero M] {t : Table}

theorem realTrainer_statsUpdate (row : Nat) (sign : Int) (z : Nat → Fin M) (s : Trainer ℚ M) :
    realTrainer (statsUpdate t row sign z s) = statsUpdate t row sign z (realTrainer s) := by
  rw [statsUpdate, statsUpdate, foldl_featStats, foldl_featStats]
  have key : ∀ (l : List ((Nat × Nat × Nat) × Nat)) (f : Nat → Fin M → Fin M → ℚ),
      (fun e a b => ((l.foldl (fun f p => bump3 f p.2 (z p.1.2.1) (z p.1.2.2) (sign : ℚ)) f e a b : ℚ) : ℝ))
        = l.foldl (fun f p => bump3 f p.2 (z p.1.2.1) (z p.1.2.2) (sign : ℝ)) fun e a b => ((f e a b : ℚ) : ℝ) := by
    intro l
    induction l with
    | nil => intro f; rfl
    | cons p l ih =>
      intro f
      rw [List.foldl_cons, ih, List.foldl_cons]
      congr 1
      funext e a b
      rw [bump3_apply, bump3_apply]
      split <;> push_cast <;> rfl
  unfold realTrainer
  simp only [vertEdgeStats]
  rw [← key]

theorem realTrainer_added (row : Nat) (z : Nat → Fin M) (s : Trainer ℚ M) : realTrainer (added t row z s) = added t row z (realTrainer s) :=
  realTrainer_statsUpdate row 1 z _

theorem realTrainer_removed (row : Nat) (s : Trainer ℚ M) : realTrainer (removed t row s) = removed t row (realTrainer s) :=
  realTrainer_statsUpdate row (-1) (s.assign row) _

theorem realTrainer_edgesSet (edges : List Edge) (prog : List Instr) (s : Trainer ℚ M) : realTrainer (edgesSet edges prog s) = edgesSet edges prog (realTrainer s) := by
  unfold realTrainer edgesSet
  simp only [Trainer.mk.injEq, true_and]
  constructor
  · rfl
  · funext e a b
    unfold edgePrior
    push_cast
    rfl

end

end TreeCat
