import Verif.Model.Ensemble

/-!
# Model of the abstract trainer and of the unfinished trainers

`TreeTrainer` (training.py:119-284) as a function of the methods of a subclass, the classes
`TreeGaussTrainer` and `TreeMogTrainer` (training.py:641-816), and `internalize_table`
(tables.py:92-111). Missing values (`nan`) are `none`; other floats are elements of a field.
-/

namespace TreeCat

/-- `TODO(message)`, util.py:33-34. -/
def pyTODO {α : Type} : Py α := .error .notImplemented

/-! ### The abstract trainer -/

/-- The methods that `TreeTrainer.train` calls on `self`, and the two fields it reads,
training.py:157-193. -/
structure TrainerOps (σ K : Type) (m : Type → Type) where
  tree : σ → TreeStructure
  added : σ → Finset Nat
  addRow : Nat → ExceptT PyErr (StateT σ m) Unit
  removeRow : Nat → ExceptT PyErr (StateT σ m) Unit
  computeEdgeLogits : ExceptT PyErr (StateT σ m) (List K)
  setEdges : List Edge → ExceptT PyErr (StateT σ m) Unit

section base
variable {σ K : Type} [Field K] [LinearOrder K] {m : Type → Type} [Monad m] [Choose K m] [Shuffle m]

/-- A random computation inside a method. -/
def liftDraw {α : Type} (x : ExceptT PyErr m α) : ExceptT PyErr (StateT σ m) α := ExceptT.mk (StateT.lift x.run)

/-- `TreeTrainer.sample_tree()`, training.py:196-213. -/
def TrainerOps.sampleTree (ops : TrainerOps σ K m) (num : Num K) (junk : Nat → Nat) (V : Nat) :
    ExceptT PyErr (StateT σ m) (List Edge) := do
  let grid ← liftPy (makeCompleteGraph V)
  let logits ← ops.computeEdgeLogits
  liftPy (pyAssert (logits.length == grid.length))
  let s ← get
  let edges := (ops.tree s).getEdges
  let perm ← liftDraw (ExceptT.lift (Shuffle.permutation edges.length))
  liftDraw (TreeCat.sampleTree num.exp junk grid logits edges perm)

/-- `TreeTrainer.estimate_tree()`, training.py:215-228. -/
def TrainerOps.estimateTree (ops : TrainerOps σ K m) (mst : List (List K) → List Edge) (V : Nat) :
    ExceptT PyErr (StateT σ m) (List Edge × List K) := do
  let grid ← liftPy (makeCompleteGraph V)
  let logits ← ops.computeEdgeLogits
  let edges ← liftPy (TreeCat.estimateTree mst grid logits)
  pure (edges, logits)

/-- One action of the schedule, training.py:252-261. -/
def TrainerOps.runAction (ops : TrainerOps σ K m) (num : Num K) (junk : Nat → Nat) (V : Nat) :
    Action → ExceptT PyErr (StateT σ m) Unit
  | .addRow r => ops.addRow r
  | .removeRow r => ops.removeRow r
  | .sampleTree => do
    let edges ← ops.sampleTree num junk V
    ops.setEdges edges

/-- One full Gibbs scan, training.py:265-270. -/
def TrainerOps.fullScan (ops : TrainerOps σ K m) (num : Num K) (junk : Nat → Nat) (N V : Nat) :
    ExceptT PyErr (StateT σ m) Unit := do
  let edges ← ops.sampleTree num junk V
  ops.setEdges edges
  (List.range N).forM fun r => do
    ops.removeRow r
    ops.addRow r

/-- The part of `TreeTrainer.train()` after the shuffle of the rows, training.py:249-284. -/
def TrainerOps.trainRows (ops : TrainerOps σ K m) (num : Num K) (mst : List (List K) → List Edge) (junk : Nat → Nat)
    (fuel N V : Nat) (cfg : TrainConfig) (rows : List Nat) : ExceptT PyErr (StateT σ m) (List K) := do
  let schedule ← liftPy (annealingSchedule fuel rows N (cfg.initEpochs : K) (cfg.sampleTreeRate : K))
  schedule.forM (ops.runAction num junk V)
  let s ← get
  liftPy (pyAssert ((ops.added s).card == N))
  (List.replicate cfg.fullEpochs.toNat ()).forM fun _ => ops.fullScan num junk N V
  let s ← get
  liftPy (pyAssert ((ops.added s).card == N))
  let (edges, logits) ← ops.estimateTree mst V
  if cfg.estimateTree then ops.setEdges edges
  pure logits

/-- `TreeTrainer.train()`, training.py:231-284, for `N` rows and `V` features. Returns the edge
logits; the rest of the model is the final state. `fuel` bounds the annealing loop. -/
def TrainerOps.train (ops : TrainerOps σ K m) (num : Num K) (mst : List (List K) → List Edge) (junk : Nat → Nat)
    (fuel N V : Nat) (cfg : TrainConfig) : ExceptT PyErr (StateT σ m) (List K) := do
  let s ← get
  liftPy (pyAssert ((ops.added s).card == 0))
  let rows ← liftDraw (ExceptT.lift (Shuffle.permutation N))
  ops.trainRows num mst junk fuel N V cfg rows

/-- The methods of `TreeCatTrainer`, training.py:466-612. -/
def treeCatOps {M : Nat} [NeZero M] (num : Num K) (t : Table) (treePrior : List K) :
    TrainerOps (Trainer K M) K m where
  tree := Trainer.tree
  added := Trainer.added
  addRow := TreeCat.addRow t
  removeRow := TreeCat.removeRow t
  computeEdgeLogits := do
    let s ← get
    liftPy (TreeCat.computeEdgeLogits num t treePrior s)
  setEdges := TreeCat.setEdges

end base

/-! ### TreeGaussTrainer -/

/-- What may be passed as `data`: `train_model` passes a `Table`; the constructor wants an array
of floats with `V` columns. -/
inductive GaussInput (K : Type) where
  | table (t : Table)
  | array (V : Nat) (rows : List (List (Option K)))

/-- The state of a `TreeGaussTrainer`, training.py:148-154 and 712-720. `featSS v` has `D` rows and
`1 + 1 + D` columns, as it is allocated. -/
structure GaussTrainer (K : Type) (D : Nat) where
  tree : TreeStructure
  program : List Instr
  added : Finset Nat
  data : List (List (Option K))
  latent : Nat → Nat → Fin D → K
  vertSS : Nat → Fin D → Fin D → K
  edgeSS : Nat → Fin D → Fin D → K
  featSS : Nat → Fin D → Fin (2 + D) → K

section gauss
variable {K : Type} [Field K] [LinearOrder K] {D : Nat} {m : Type → Type} [Monad m] [Choose K m] [Shuffle m]

/-- `TreeGaussTrainer(data, tree_prior, config)`, training.py:130-154 and 696-720. -/
def GaussTrainer.init (data : GaussInput K) (priorLen : Nat) : Py (GaussTrainer K D) :=
  match data with
  | .table _ => .error .assertion
  | .array V rows => do
    pyAssert (decide (V ≤ 32768))
    pyAssert (priorLen == V * (V - 1) / 2)
    let tree ← TreeStructure.init V
    pyAssert (tree.numVertices == V)
    let program ← makeProgram tree.treeGrid none
    .ok { tree, program, added := ∅, data := rows, latent := fun _ _ _ => 0, vertSS := fun _ _ _ => 0,
          edgeSS := fun _ _ _ => 0, featSS := fun _ _ _ => 0 }

/-- Methods of the trainer. -/
abbrev GaussM (K : Type) (D : Nat) (m : Type → Type) := ExceptT PyErr (StateT (GaussTrainer K D) m)

/-- The loops over vertices and edges, training.py:653-659 and 677-683. -/
def gaussVertEdge (V : Nat) (sign : K) (z : Nat → Fin D → K) (s : GaussTrainer K D) : GaussTrainer K D :=
  { s with
    vertSS := (List.range V).foldl (fun f v => Function.update f v fun i j => f v i j + sign * (z v i * z v j)) s.vertSS
    edgeSS := s.tree.treeGrid.zipIdx.foldl
      (fun f p => Function.update f p.2 fun i j => f p.2 i j + sign * (z p.1.2.1 i * z p.1.2.2 j)) s.edgeSS }

/-- The statements for one observed cell `x`, training.py:663-666 and 687-690. `feat_ss[v] += 1`
adds to the whole block. `feat_ss[v, 1]` is the second of `D` rows. `feat_ss[v, 2:] += x * z` adds
a vector of length `D` to rows of length `2 + D`, which numpy accepts if the lengths agree or the
vector has length 1, and refuses otherwise, even if there is no such row. -/
def gaussCell (sign : K) (v : Nat) (z : Fin D → K) (x : K) : GaussM K D m Unit := do
  modify fun s => { s with featSS := Function.update s.featSS v fun i j => s.featSS v i j + sign }
  if 1 < D then
    modify fun s => { s with featSS := Function.update s.featSS v fun i j =>
      if i.val = 1 then s.featSS v i j + sign * x else s.featSS v i j }
  else throw .indexError
  if D = 2 + D ∨ D = 1 then
    modify fun s => { s with featSS := Function.update s.featSS v fun i j =>
      if 2 ≤ i.val then s.featSS v i j + sign * (x * z ⟨j.val % D, Nat.mod_lt _ (Nat.pos_of_ne_zero fun h => by
        subst h; exact i.elim0)⟩) else s.featSS v i j }
  else throw .valueError

/-- The update of the statistics, training.py:652-666 (`sign = 1`) and 676-690 (`sign = -1`). -/
def gaussUpdate (V : Nat) (sign : K) (cells : List (Option K)) (z : Nat → Fin D → K) : GaussM K D m Unit := do
  modify (gaussVertEdge V sign z)
  cells.zipIdx.forM fun p =>
    match p.1 with
    | none => pure ()
    | some x => gaussCell sign p.2 (z p.2) x

/-- `TreeGaussTrainer.add_row(row_id)`, training.py:722-734 with 641-666. -/
def gaussAddRow (V row : Nat) : GaussM K D m Unit := do
  let s ← get
  if row ∈ s.added then throw .assertion
  else do
    set { s with added := insert row s.added }
    let cells ← liftPy (pyGet s.data row)
    liftPy pyTODO
    gaussUpdate V 1 cells (s.latent row)

/-- `TreeGaussTrainer.remove_row(row_id)`, training.py:736-747. The last argument of the call is
`self._feat_s`, an attribute that does not exist. -/
def gaussRemoveRow (row : Nat) : GaussM K D m Unit := do
  let s ← get
  if row ∈ s.added then do
    set { s with added := s.added.erase row }
    let _ ← liftPy (pyGet s.data row)
    throw .attributeError
  else throw .assertion

/-- `TreeGaussTrainer.set_edges(edges)`, training.py:749-754. -/
def gaussSetEdges (edges : List Edge) : GaussM K D m Unit := do
  let s ← get
  let tree ← liftPy (s.tree.setEdges edges)
  modify fun s => { s with tree }
  let program ← liftPy (makeProgram tree.treeGrid none)
  modify fun s => { s with program }
  tree.treeGrid.forM fun c =>
    modify fun s => { s with edgeSS := Function.update s.edgeSS c.1 fun i j =>
      ((s.added.sort (· ≤ ·)).map fun r => s.latent r c.2.1 i * s.latent r c.2.2 j).sum }

/-- The methods of `TreeGaussTrainer`, training.py:693-769. -/
def gaussOps (V : Nat) : TrainerOps (GaussTrainer K D) K m where
  tree := GaussTrainer.tree
  added := GaussTrainer.added
  addRow := gaussAddRow V
  removeRow := gaussRemoveRow
  computeEdgeLogits := liftPy pyTODO
  setEdges := gaussSetEdges

/-- `TreeMogTrainer(data, tree_prior, config)`, training.py:798-799. -/
def mogInit {α : Type} : Py α := pyTODO

/-- What `train_model` runs, training.py:843-850: the constructor on the table, then `train`. The
three `train` methods are parameters. -/
def runTrainer {β : Type} (cat : Table → List K → Config.Config → Py β) (gauss : GaussTrainer K D → Config.Config → Py β)
    (mog : Unit → Config.Config → Py β) :
    TrainerKind → Table → List K → Config.Config → Py β
  | .treeCat, t, prior, c => cat t prior c
  | .treeGauss, t, prior, c => do
    let s ← GaussTrainer.init (.table t) prior.length
    gauss s c
  | .treeMog, _, _, c => do
    let s ← mogInit
    mog s c

end gauss

/-! ### internalize_table -/

/-- `_INTERNALIZE[ty]`, tables.py:92-96. -/
def internalizeType (ty : Nat) : Py Nat := if ty ≤ 2 then .ok 0 else .error .keyError

/-- `internalize_table(table)`, tables.py:99-111: returns `None`. -/
def internalizeTable (t : Table) : Py Unit := do
  let types ← t.featureTypes.mapM internalizeType
  (t.featureTypes.zip types).forM fun _ => pyTODO

end TreeCat
