import Verif.Lemmas.Trainer
import Verif.Model.Seed

/-!
# Running programs with generators

A program that is run with generators does one of the things that the reading with arbitrary choices allows.
-/

set_option linter.unusedSectionVars false

namespace TreeCat

open Spec

section
variable {S K : Type} {host : Host S K} {α β : Type}

@[simp] theorem RunOn.from_pure (a : α) (g : Gens S) : (pure a : RunOn host α).from g = (.ok a, g) := rfl

@[simp] theorem RunOn.from_of (x : Gens S → Py α × Gens S) (g : Gens S) : (RunOn.of x : RunOn host α).from g = x g := rfl

@[simp] theorem RunOn.from_py (x : Py α) (g : Gens S) : (RunOn.py x : RunOn host α).from g = (x, g) := rfl

theorem RunOn.from_bind (x : RunOn host α) (f : α → RunOn host β) (g : Gens S) : (x >>= f).from g =
    match x.from g with
    | (.ok a, g') => (f a).from g'
    | (.error e, g') => (.error e, g') := by
  change (ExceptT.bindCont (fun a => f a) ((x.from g).1)).run (x.from g).2 = _
  rcases x.from g with ⟨_ | a, g'⟩ <;> rfl

theorem RunOn.from_bind_ok {x : RunOn host α} {f : α → RunOn host β} {g g' : Gens S} {a : α} (h : x.from g = (.ok a, g')) :
    (x >>= f).from g = (f a).from g' := by rw [RunOn.from_bind, h]

/-- Each run succeeds with a possible result. -/
def GenSim (x : RunOn host α) (y : Poss α) : Prop := ∀ g, ∃ a g', x.from g = (.ok a, g') ∧ y a

theorem GenSim.pure (a : α) : GenSim (host := host) (Pure.pure a) (Pure.pure a) := fun g => ⟨a, g, rfl, rfl⟩

theorem GenSim.bind {x : RunOn host α} {y : Poss α} {f : α → RunOn host β} {f' : α → Poss β} (h : GenSim x y) (hf : ∀ a, GenSim (f a) (f' a)) :
    GenSim (x >>= f) (y >>= f') := by
  intro g
  obtain ⟨a, g', e, ha⟩ := h g
  obtain ⟨b, g'', e', hb⟩ := hf a g'
  exact ⟨b, g'', by rw [RunOn.from_bind_ok e, e'], a, ha, hb⟩

/-! ### Exceptions of the program -/

/-- `GenSim` for programs that may raise. -/
def GenSimE (x : ExceptT PyErr (RunOn host) α) (y : ExceptT PyErr Poss α) : Prop := GenSim x.run y.run

theorem GenSimE.pure (a : α) : GenSimE (host := host) (Pure.pure a) (Pure.pure a) := GenSim.pure (host := host) (Except.ok (ε := PyErr) a)

theorem GenSimE.throw (e : PyErr) : GenSimE (host := host) (α := α) (throw e) (throw e) := GenSim.pure (host := host) (Except.error (α := α) e)

theorem GenSimE.liftPy (x : Py α) : GenSimE (host := host) (liftPy x) (liftPy x) := GenSim.pure (host := host) x

theorem GenSimE.bind {x : ExceptT PyErr (RunOn host) α} {y : ExceptT PyErr Poss α} {f : α → ExceptT PyErr (RunOn host) β} {f' : α → ExceptT PyErr Poss β}
    (h : GenSimE x y) (hf : ∀ a, GenSimE (f a) (f' a)) : GenSimE (x >>= f) (y >>= f') := by
  refine GenSim.bind (f := ExceptT.bindCont f) (f' := ExceptT.bindCont f') h fun r => ?_
  cases r with
  | ok a => exact hf a
  | error e => exact GenSim.pure (host := host) (Except.error e)

theorem GenSimE.lift {x : RunOn host α} {y : Poss α} (h : GenSim x y) : GenSimE (ExceptT.lift x) (ExceptT.lift y) := by
  intro g
  obtain ⟨a, g', e, ha⟩ := h g
  refine ⟨.ok a, g', ?_, a, ha, rfl⟩
  change ((fun a => Except.ok a) <$> x : RunOn host (Except PyErr α)).from g = _
  rw [map_eq_pure_bind, RunOn.from_bind_ok e]
  rfl

theorem GenSimE.foldlM {f : β → α → ExceptT PyErr (RunOn host) β} {f' : β → α → ExceptT PyErr Poss β} (l : List α)
    (h : ∀ b, ∀ a ∈ l, GenSimE (f b a) (f' b a)) (b : β) : GenSimE (l.foldlM f b) (l.foldlM f' b) := by
  induction l generalizing b with
  | nil => exact GenSimE.pure b
  | cons a l ih =>
    rw [List.foldlM_cons, List.foldlM_cons]
    exact GenSimE.bind (h b a (by simp)) fun b' => ih (fun b a ha => h b a (by simp [ha])) b'

/-! ### The generators -/

variable [Field K] [LinearOrder K]

theorem argmaxLt_lt (x : K) (cdf : List K) (h : cdf ≠ []) : Util.argmaxLt x cdf < cdf.length := by
  unfold Util.argmaxLt
  split
  · rename_i i hi
    exact (List.findIdx?_eq_some_iff_findIdx_eq.1 hi).1
  · exact List.length_pos_of_ne_nil h

theorem cumsumFrom_length (acc : K) (l : List K) : (Util.cumsumFrom acc l).length = l.length := by
  induction l generalizing acc with
  | nil => rfl
  | cons a l ih => simp [Util.cumsumFrom, ih]

/-- `sample_from_probs` returns an index of its argument, whatever the weights and the number drawn. -/
theorem sampleFromProbs_index (l : List K) (h : l ≠ []) (u : K) : ∃ i < l.length, Util.sampleFromProbs l u = .ok i := by
  have hl := cumsumFrom_length 0 l
  have hne : Util.cumsum l ≠ [] := by
    intro h'
    unfold Util.cumsum at h'
    rw [h'] at hl
    exact h (List.length_eq_zero_iff.1 hl.symm)
  refine ⟨Util.argmaxLt (u * (Util.cumsum l).getLast hne) (Util.cumsum l), ?_, ?_⟩
  · rw [← hl]
    exact argmaxLt_lt _ _ hne
  · unfold Util.sampleFromProbs
    simp only [List.getLast?_eq_some_getLast hne]

theorem GenSim.choose {n : Nat} (h : 0 < n) (p : Fin n → K) : GenSim (host := host) (Choose.choose p) (Choose.choose p) := by
  intro g
  obtain ⟨i, hi, e⟩ := sampleFromProbs_index (List.ofFn p) (by
    intro h'
    have := congrArg List.length h'
    simp at this
    omega) (host.rand g).1
  rw [List.length_ofFn] at hi
  refine ⟨⟨i, hi⟩, (host.rand g).2, ?_, trivial⟩
  change ((do
      let i ← Util.sampleFromProbs (List.ofFn p) (host.rand g).1
      if h : i < n then Except.ok ⟨i, h⟩ else Except.error PyErr.indexError : Py (Fin n)), (host.rand g).2) = _
  rw [e]
  change ((if h : i < n then Except.ok ⟨i, h⟩ else Except.error PyErr.indexError : Py (Fin n)), (host.rand g).2) = _
  rw [dif_pos hi]

/-- The permutations of numpy's generator are permutations. -/
def Permutes (host : Host S K) : Prop := ∀ n s, (host.numpy.permutation n s).1.Perm (List.range n)

theorem GenSim.permutation (hp : Permutes host) (n : Nat) : GenSim (host := host) (Shuffle.permutation n) (Shuffle.permutation n) :=
  fun g => ⟨_, _, rfl, hp n g.numpy⟩

/-! ### Methods of the trainer -/

variable {M : Nat} [NeZero M]

/-- `GenSimE` for methods of a trainer. -/
def GenSimT (x : TrainM K M (RunOn host) α) (y : TrainM K M Poss α) : Prop := ∀ s, GenSim (x.run.run s) (y.run.run s)

theorem GenSimT.pure (a : α) : GenSimT (host := host) (K := K) (M := M) (Pure.pure a) (Pure.pure a) :=
  fun s => GenSim.pure (host := host) (Except.ok (ε := PyErr) a, s)

theorem GenSimT.throw (e : PyErr) : GenSimT (host := host) (K := K) (M := M) (α := α) (throw e) (throw e) :=
  fun s => GenSim.pure (host := host) (Except.error (α := α) e, s)

theorem GenSimT.liftPy (x : Py α) : GenSimT (host := host) (K := K) (M := M) (TreeCat.liftPy x) (TreeCat.liftPy x) :=
  fun s => GenSim.pure (host := host) (x, s)

theorem GenSimT.get : GenSimT (host := host) (K := K) (M := M) MonadState.get MonadState.get :=
  fun s => GenSim.bind (f := fun p : Trainer K M × Trainer K M => Pure.pure (Except.ok (ε := PyErr) p.1, p.2))
    (f' := fun p : Trainer K M × Trainer K M => Pure.pure (Except.ok (ε := PyErr) p.1, p.2)) (GenSim.pure (host := host) (s, s)) fun _ => GenSim.pure _

theorem GenSimT.set (s : Trainer K M) :
    GenSimT (host := host) (K := K) (M := M) (α := PUnit) (MonadStateOf.set s) (MonadStateOf.set s) :=
  fun _ => GenSim.bind (f := fun p : PUnit × Trainer K M => Pure.pure (Except.ok (ε := PyErr) p.1, p.2))
    (f' := fun p : PUnit × Trainer K M => Pure.pure (Except.ok (ε := PyErr) p.1, p.2)) (GenSim.pure (host := host) (PUnit.unit, s)) fun _ => GenSim.pure _

theorem GenSimT.modify (f : Trainer K M → Trainer K M) :
    GenSimT (host := host) (K := K) (M := M) (α := PUnit) (modify f) (modify f) :=
  fun s => GenSim.bind (f := fun p : PUnit × Trainer K M => Pure.pure (Except.ok (ε := PyErr) p.1, p.2))
    (f' := fun p : PUnit × Trainer K M => Pure.pure (Except.ok (ε := PyErr) p.1, p.2)) (GenSim.pure (host := host) (PUnit.unit, f s)) fun _ => GenSim.pure _

theorem GenSimT.bind {x : TrainM K M (RunOn host) α} {y : TrainM K M Poss α} {f : α → TrainM K M (RunOn host) β} {f' : α → TrainM K M Poss β}
    (h : GenSimT x y) (hf : ∀ a, GenSimT (f a) (f' a)) : GenSimT (x >>= f) (y >>= f') := by
  intro s
  refine GenSim.bind (f := fun p : Except PyErr α × Trainer K M => (ExceptT.bindCont f p.1).run p.2)
    (f' := fun p : Except PyErr α × Trainer K M => (ExceptT.bindCont f' p.1).run p.2) (h s) fun p => ?_
  obtain ⟨r, s'⟩ := p
  cases r with
  | ok a => exact hf a s'
  | error e => exact GenSim.pure (host := host) (Except.error e, s')

theorem GenSimT.liftRand {x : ExceptT PyErr (RunOn host) α} {y : ExceptT PyErr Poss α} (h : GenSimE x y) :
    GenSimT (K := K) (M := M) (TreeCat.liftRand x) (TreeCat.liftRand y) := by
  intro s
  exact GenSim.bind (f := fun r => Pure.pure (r, s)) (f' := fun r => Pure.pure (r, s)) h fun r => GenSim.pure (host := host) (r, s)

theorem GenSimT.forM {f : α → TrainM K M (RunOn host) Unit} {f' : α → TrainM K M Poss Unit} (l : List α) (h : ∀ a ∈ l, GenSimT (f a) (f' a)) :
    GenSimT (l.forM f) (l.forM f') := by
  induction l with
  | nil => exact GenSimT.pure ()
  | cons a l ih =>
    exact GenSimT.bind (f := fun _ => l.forM f) (f' := fun _ => l.forM f') (h a (by simp)) fun _ => ih fun a ha => h a (by simp [ha])

theorem GenSimE.rowStep (t : Table) (row : Nat) (vert : Nat → Fin M → K) (edge : Nat → Fin M → Fin M → K) (s : RowState K M) (i : Instr) :
    GenSimE (host := host) (TreeCat.rowStep t row vert edge s i) (TreeCat.rowStep t row vert edge s i) := by
  have hM : 0 < M := Nat.pos_of_ne_zero (NeZero.ne M)
  unfold TreeCat.rowStep
  split
  · exact GenSimE.liftPy _
  · exact GenSimE.pure _
  · exact GenSimE.bind (GenSimE.lift (GenSim.choose hM _)) fun _ => GenSimE.pure _
  · exact GenSimE.bind (GenSimE.lift (GenSim.choose hM _)) fun _ => GenSimE.pure _
  · exact GenSimE.pure _

theorem GenSimE.sampleRow (t : Table) (row : Nat) (s : Trainer K M) :
    GenSimE (host := host) (TreeCat.sampleRow t row s) (TreeCat.sampleRow t row s) :=
  GenSimE.bind (GenSimE.foldlM _ (fun _ _ _ => GenSimE.rowStep _ _ _ _ _ _) _) fun _ => GenSimE.pure _

theorem GenSimT.updateStats (t : Table) (row : Nat) (sign : Int) (z : Nat → Fin M) :
    GenSimT (host := host) (TreeCat.updateStats t row sign z) (TreeCat.updateStats t row sign z) := by
  refine GenSimT.bind (GenSimT.modify _) fun _ => GenSimT.forM _ fun v _ => ?_
  split
  · exact GenSimT.modify _
  · exact GenSimT.throw _

theorem GenSimT.addRow (t : Table) (row : Nat) : GenSimT (host := host) (K := K) (M := M) (TreeCat.addRow t row) (TreeCat.addRow t row) := by
  refine GenSimT.bind GenSimT.get fun s => ?_
  split
  · exact GenSimT.throw _
  · exact GenSimT.bind (GenSimT.set _) fun _ => GenSimT.bind (GenSimT.liftPy _) fun _ => GenSimT.bind (GenSimT.liftRand (GenSimE.sampleRow _ _ _)) fun _ =>
      GenSimT.bind (GenSimT.modify _) fun _ => GenSimT.updateStats _ _ _ _

theorem GenSimT.removeRow (t : Table) (row : Nat) : GenSimT (host := host) (K := K) (M := M) (TreeCat.removeRow t row) (TreeCat.removeRow t row) := by
  refine GenSimT.bind GenSimT.get fun s => ?_
  split
  · exact GenSimT.bind (GenSimT.set _) fun _ => GenSimT.bind (GenSimT.liftPy _) fun _ => GenSimT.updateStats _ _ _ _
  · exact GenSimT.throw _

theorem GenSimT.setEdges (edges : List Edge) : GenSimT (host := host) (K := K) (M := M) (TreeCat.setEdges edges) (TreeCat.setEdges edges) :=
  GenSimT.bind GenSimT.get fun _ => GenSimT.bind (GenSimT.liftPy _) fun _ => GenSimT.bind (GenSimT.modify _) fun _ => GenSimT.bind (GenSimT.liftPy _) fun _ =>
    GenSimT.bind (GenSimT.modify _) fun _ => GenSimT.bind (GenSimT.forM _ fun _ _ => GenSimT.bind (GenSimT.liftPy _) fun _ => GenSimT.modify _) fun _ => GenSimT.modify _

theorem GenSimE.sampleTreeStep (expf : K → K) (grid : Grid) (logits : List K) (s : TreeState) (e : Nat) :
    GenSimE (host := host) (TreeCat.sampleTreeStep expf grid logits s e) (TreeCat.sampleTreeStep expf grid logits s e) := by
  refine GenSimE.bind (GenSimE.liftPy _) fun r => ?_
  obtain ⟨k1, s, num, probs⟩ := r
  dsimp only
  split
  · rename_i hp
    have hl : 0 < probs.length := by
      rcases probs with _ | ⟨p, ps⟩
      · simp at hp
      · simp
    refine GenSimE.bind ?_ fun i => ?_
    · refine GenSimE.lift ?_
      rw [map_eq_pure_bind, map_eq_pure_bind]
      exact GenSim.bind (GenSim.choose hl _) fun _ => GenSim.pure _
    · split
      · exact GenSimE.bind (GenSimE.liftPy _) fun _ => GenSimE.liftPy _
      · exact GenSimE.throw _
  · exact GenSimE.liftPy _

theorem GenSimE.sampleTree (expf : K → K) (junk : Nat → Nat) (grid : Grid) (logits : List K) (edges : List Edge) (perm : List Nat) :
    GenSimE (host := host) (TreeCat.sampleTree expf junk grid logits edges perm) (TreeCat.sampleTree expf junk grid logits edges perm) := by
  unfold TreeCat.sampleTree
  split
  · exact GenSimE.pure _
  · exact GenSimE.bind (GenSimE.liftPy _) fun _ => GenSimE.bind (GenSimE.foldlM _ (fun _ _ _ => GenSimE.sampleTreeStep _ _ _ _ _) _) fun _ =>
      GenSimE.bind (GenSimE.liftPy _) fun _ => GenSimE.bind (GenSimE.liftPy _) fun _ => GenSimE.pure _

theorem GenSimT.trainerSampleTree (hp : Permutes host) (num : Num K) (junk : Nat → Nat) (t : Table) (treePrior : List K) :
    GenSimT (host := host) (M := M) (TreeCat.trainerSampleTree num junk t treePrior) (TreeCat.trainerSampleTree num junk t treePrior) :=
  GenSimT.bind GenSimT.get fun _ => GenSimT.bind (GenSimT.liftPy _) fun _ => GenSimT.bind (GenSimT.liftPy _) fun _ => GenSimT.bind (GenSimT.liftPy _) fun _ =>
    GenSimT.bind (GenSimT.liftRand (GenSimE.lift (GenSim.permutation hp _))) fun _ => GenSimT.liftRand (GenSimE.sampleTree _ _ _ _ _ _)

theorem GenSimT.trainerEstimateTree (num : Num K) (mst : List (List K) → List Edge) (t : Table) (treePrior : List K) :
    GenSimT (host := host) (M := M) (TreeCat.trainerEstimateTree num mst t treePrior) (TreeCat.trainerEstimateTree num mst t treePrior) :=
  GenSimT.bind GenSimT.get fun _ => GenSimT.bind (GenSimT.liftPy _) fun _ => GenSimT.bind (GenSimT.liftPy _) fun _ => GenSimT.bind (GenSimT.liftPy _) fun _ => GenSimT.pure _

theorem GenSimT.runAction (hp : Permutes host) (num : Num K) (junk : Nat → Nat) (t : Table) (treePrior : List K) (a : Action) :
    GenSimT (host := host) (M := M) (TreeCat.runAction num junk t treePrior a) (TreeCat.runAction num junk t treePrior a) := by
  cases a with
  | addRow r => exact GenSimT.addRow t r
  | removeRow r => exact GenSimT.removeRow t r
  | sampleTree => exact GenSimT.bind (GenSimT.trainerSampleTree hp _ _ _ _) fun _ => GenSimT.setEdges _

theorem GenSimT.fullScan (hp : Permutes host) (num : Num K) (junk : Nat → Nat) (t : Table) (treePrior : List K) :
    GenSimT (host := host) (M := M) (TreeCat.fullScan num junk t treePrior) (TreeCat.fullScan num junk t treePrior) :=
  GenSimT.bind (GenSimT.trainerSampleTree hp _ _ _ _) fun _ => GenSimT.bind (GenSimT.setEdges _) fun _ => GenSimT.forM _ fun _ _ =>
    GenSimT.bind (GenSimT.removeRow _ _) fun _ => GenSimT.addRow _ _

theorem GenSimT.train (hp : Permutes host) (num : Num K) (mst : List (List K) → List Edge) (junk : Nat → Nat) (fuel : Nat) (t : Table)
    (treePrior : List K) (cfg : TrainConfig) : GenSimT (host := host) (M := M) (TreeCat.train num mst junk fuel t treePrior cfg) (TreeCat.train num mst junk fuel t treePrior cfg) := by
  refine GenSimT.bind GenSimT.get fun _ => GenSimT.bind (GenSimT.liftPy _) fun _ => GenSimT.bind (GenSimT.liftRand (GenSimE.lift (GenSim.permutation hp _))) fun _ =>
    GenSimT.bind (GenSimT.liftPy _) fun _ => GenSimT.bind (GenSimT.forM _ fun _ _ => GenSimT.runAction hp _ _ _ _ _) fun _ => GenSimT.bind GenSimT.get fun _ =>
    GenSimT.bind (GenSimT.liftPy _) fun _ => GenSimT.bind (GenSimT.forM _ fun _ _ => GenSimT.fullScan hp _ _ _ _) fun _ => GenSimT.bind GenSimT.get fun _ =>
    GenSimT.bind (GenSimT.liftPy _) fun _ => GenSimT.bind (GenSimT.trainerEstimateTree _ _ _ _) fun r => ?_
  obtain ⟨edges, logits⟩ := r
  dsimp only
  split
  · exact GenSimT.bind (GenSimT.setEdges _) fun _ => GenSimT.pure _
  · exact GenSimT.pure logits

end

end TreeCat
