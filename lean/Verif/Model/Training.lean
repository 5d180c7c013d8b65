import Mathlib.Data.Finset.Sort
import Mathlib.Data.Finset.Lattice.Fold
import Verif.Model.Structure
import Verif.Model.Anneal
import Verif.Model.Util
import Verif.Model.Config

/-!
# Model of `treecat/training.py` and `treecat/tables.py`

Latent classes are `Fin M`, so a vector over classes is a function `Fin M → K`.
Arrays indexed by vertices, edges, rows or ragged positions are functions of `Nat`:
accesses outside the array are not detected here, the indices that occur are shown to
be in range by the theorems about programs and trees. Counts are integers (int32
overflow is not modelled); floats are elements of an ordered field.

`gammaln` and `exp` are parameters (`Num`), `minimum_spanning_tree` is the parameter
`mst`. Logging, profiling and the seeding of the generators are not modelled.
-/

namespace TreeCat

/-- The transcendental functions that the code uses. -/
structure Num (K : Type) where
  exp : K → K
  gammaln : K → K

/-- Monads that can draw a random permutation of `0, ..., n - 1`, as
`np.random.shuffle` and `np.random.permutation` do. -/
class Shuffle (m : Type → Type) where
  permutation : Nat → m (List Nat)

/-- Any permutation may be drawn. -/
instance : Shuffle Poss where
  permutation n := fun l => l.Perm (List.range n)

/-! ### tables.py -/

/-- `Table`, tables.py:16-89: only the parts that the trainer uses. `data` is the list
of rows of multinomial counts. -/
structure Table where
  featureTypes : List Nat
  raggedIndex : List Nat
  data : List (List Int)
  deriving DecidableEq, Repr

/-- `Table(feature_types, ragged_index, data)`, tables.py:19-65, for a rectangular
array `data` with `R` columns (numpy arrays are rectangular, `R` is `data.shape[1]`).
The data are cast to int8. Categorical data are not used anywhere and are left out. -/
def Table.make (featureTypes raggedIndex : List Nat) (R : Nat) (data : List (List Int)) : Py Table := do
  pyAssert (raggedIndex.length == 1 + featureTypes.length)
  match raggedIndex.getLast? with
  | none => .error .indexError
  | some last => do
    pyAssert (R == last)
    .ok ⟨featureTypes, raggedIndex, data.map fun row => row.map Util.wrap8⟩

/-- `num_rows`, tables.py:67-69. -/
def Table.numRows (t : Table) : Nat := t.data.length

/-- `num_cols`, tables.py:71-73. -/
def Table.numCols (t : Table) : Nat := t.featureTypes.length

/-- `TY_MULTINOMIAL`, tables.py:11. -/
def tyMultinomial : Nat := 0

/-- `ragged_index[v]`. -/
def Table.beg (t : Table) (v : Nat) : Nat := t.raggedIndex.getD v 0

/-- `ragged_index[v + 1]`. -/
def Table.stop (t : Table) (v : Nat) : Nat := t.raggedIndex.getD (v + 1) 0

/-- `data[row_id, r]`. -/
def Table.cell (t : Table) (row r : Nat) : Int := (t.data.getD row []).getD r 0

/-- `data_row[beg:end].sum()` for the block of feature `v`, training.py:375, 406. -/
def Table.blockSum (t : Table) (row v : Nat) : Int :=
  ((List.range (t.stop v - t.beg v)).map fun c => t.cell row (t.beg v + c)).sum

/-! ### Statistics -/

section
variable {M : Nat}

/-- `count_pairs(assignments, v1, v2, M)`, training.py:37-50. `np.bincount` of the codes
`a1 * M + a2`, reshaped to M x M: the entry at `(m1, m2)` is the number of rows with
code `m1 * M + m2`. -/
def countPairs (rows : List (Nat → Fin M)) (v1 v2 : Nat) : Py (Fin M → Fin M → Int) := do
  pyAssert (v1 != v2)
  let pairs := rows.map fun a => (a v1).val * M + (a v2).val
  .ok fun m1 m2 => (pairs.count (m1.val * M + m2.val) : Int)

/-- `a[i, j] += x`. -/
def bump {ι κ α : Type} [DecidableEq ι] [DecidableEq κ] [Add α] (a : ι → κ → α) (i : ι) (j : κ) (x : α) :
    ι → κ → α :=
  Function.update a i (Function.update (a i) j (a i j + x))

/-- `a[e, m1, m2] += x`. -/
def bump3 {α : Type} [Add α] (a : Nat → Fin M → Fin M → α) (e : Nat) (m1 m2 : Fin M) (x : α) :
    Nat → Fin M → Fin M → α :=
  Function.update a e (bump (a e) m1 m2 x)

end

section
variable {K : Type} [Field K] [LinearOrder K] {M : Nat}

/-- `_vert_prior`, training.py:497. -/
def vertPrior : K := 1 / 2

/-- `_edge_prior`, training.py:498. -/
def edgePrior (M : Nat) : K := 1 / 2 / (M : K)

/-- `_feat_prior`, training.py:499. -/
def featPrior (M : Nat) : K := 1 / 2 / (M : K)

/-- `_meas_prior`, training.py:500-503. -/
def measPrior (M : Nat) (t : Table) (v : Nat) : K := featPrior M * ((t.stop v - t.beg v : Nat) : K)

/-- `logprob_dc(counts, prior, axis=1)` for one row of counts, training.py:53-60. -/
def logprobDC (num : Num K) (counts : Fin M → Int) (prior : K) : K :=
  ∑ m, num.gammaln ((counts m : K) + prior)

/-- The state of a `TreeCatTrainer`, training.py:148-154 and 486-521. The temporaries
`_vert_probs`, `_feat_probs` and `_meas_probs` are overwritten on each use and are not
part of the state. -/
structure Trainer (K : Type) (M : Nat) where
  tree : TreeStructure
  program : List Instr
  added : Finset Nat
  assign : Nat → Nat → Fin M
  vertSS : Nat → Fin M → Int
  edgeSS : Nat → Fin M → Fin M → Int
  featSS : Nat → Fin M → Int
  measSS : Nat → Fin M → Int
  edgeProbs : Nat → Fin M → Fin M → K

/-- `TreeCatTrainer(table, tree_prior, config)`, training.py:130-154 and 469-521. The type
assertions hold by typing. `priorLen` is the length of `tree_prior`. -/
def Trainer.init [NeZero M] (t : Table) (priorLen : Nat) : Py (Trainer K M) := do
  let V := t.numCols
  pyAssert (decide (V ≤ 32768))
  pyAssert (priorLen == V * (V - 1) / 2)
  let tree ← TreeStructure.init V
  pyAssert (tree.numVertices == V)
  let program ← makeProgram tree.treeGrid none
  pyAssert (decide (M ≤ 128))
  .ok { tree, program, added := ∅, assign := fun _ _ => 0, vertSS := fun _ _ => 0, edgeSS := fun _ _ _ => 0,
        featSS := fun _ _ => 0, measSS := fun _ _ => 0, edgeProbs := fun _ _ _ => edgePrior M }

/-! ### Sampling the latent row -/

/-- The arrays that `treecat_add_row` works on while it samples. -/
structure RowState (K : Type) (M : Nat) where
  messages : Nat → Fin M → K
  featProbs : Nat → Fin M → K
  measProbs : Nat → Fin M → K
  assign : Nat → Fin M

/-- The innermost statements of `treecat_add_cell`, training.py:302-305. -/
def addOne (v r : Nat) (s : RowState K M) : RowState K M :=
  { s with
    messages := Function.update s.messages v fun m => s.messages v m * s.featProbs r m / s.measProbs v m
    featProbs := Function.update s.featProbs r fun m => s.featProbs r m + 1
    measProbs := Function.update s.measProbs v fun m => s.measProbs v m + 1 }

/-- `treecat_add_cell`, training.py:287-307. -/
def addCell (t : Table) (row v : Nat) (s : RowState K M) : Py (RowState K M) :=
  if t.featureTypes.getD v 0 = tyMultinomial then
    .ok ((List.range (t.stop v - t.beg v)).foldl (fun s c =>
      (List.range (t.cell row (t.beg v + c)).toNat).foldl (fun s _ => addOne v (t.beg v + c) s) s) s)
  else .error .notImplemented

/-- `edge_probs[e, :, :]`, transposed if `v > v2`: the entry for value `a` of `v` and `b`
of `v2`, training.py:344-346. -/
def transAt (edge : Nat → Fin M → Fin M → K) (e v v2 : Nat) (a b : Fin M) : K :=
  if v2 < v then edge e b a else edge e a b

/-- `message.max()`. -/
def vecMax [NeZero M] (f : Fin M → K) : K := Finset.univ.sup' ⟨0, Finset.mem_univ _⟩ f

/-- The OP_IN branch, training.py:342-349. -/
def rowIn [NeZero M] (vert : Nat → Fin M → K) (edge : Nat → Fin M → Fin M → K) (v v2 e : Nat)
    (s : RowState K M) : RowState K M :=
  let msg := fun a => s.messages v a * (∑ b, transAt edge e v v2 a b * (s.messages v2 b / vert v2 b)) / vert v a
  { s with messages := Function.update s.messages v fun a => msg a / vecMax msg }

/-- The weights of the OP_OUT branch, training.py:353-359. -/
def rowOut (vert : Nat → Fin M → K) (edge : Nat → Fin M → Fin M → K) (v v2 e : Nat)
    (s : RowState K M) : Fin M → K :=
  fun b => s.messages v b * transAt edge e v2 v (s.assign v2) b / vert v b

variable {m : Type → Type} [Monad m] [Choose K m] [Shuffle m]

/-- `sample_from_probs(message)` for a vector over the latent classes. -/
def chooseClass (p : Fin M → K) : ExceptT PyErr m (Fin M) := ExceptT.lift (Choose.choose p)

/-- One instruction of the sampling loop, training.py:329-360. OP_DOWN does nothing. -/
def rowStep [NeZero M] (t : Table) (row : Nat) (vert : Nat → Fin M → K) (edge : Nat → Fin M → Fin M → K)
    (s : RowState K M) (i : Instr) : ExceptT PyErr m (RowState K M) :=
  match i.op with
  | .UP => liftPy (addCell t row i.v s)
  | .IN => pure (rowIn vert edge i.v i.v2 i.e s)
  | .ROOT => do
    let a ← chooseClass (s.messages i.v)
    pure { s with assign := Function.update s.assign i.v a }
  | .OUT => do
    let w := rowOut vert edge i.v i.v2 i.e s
    let a ← chooseClass w
    pure { s with messages := Function.update s.messages i.v w, assign := Function.update s.assign i.v a }
  | .DOWN => pure s

/-- The sampling part of `treecat_add_row`, training.py:327-360, with the scratch arrays
made by `add_row`, training.py:529-532. The row of `assignments` starts with its
old content. -/
def sampleRow [NeZero M] (t : Table) (row : Nat) (s : Trainer K M) : ExceptT PyErr m (Nat → Fin M) := do
  let vert := fun v a => (s.vertSS v a : K) + vertPrior
  let init : RowState K M :=
    { messages := vert
      featProbs := fun r a => (s.featSS r a : K) + featPrior M
      measProbs := fun v a => (s.measSS v a : K) + measPrior M t v
      assign := s.assign row }
  let st ← s.program.foldlM (rowStep t row vert s.edgeProbs) init
  pure st.assign

/-! ### Methods -/

/-- Code that changes a trainer and may raise. The state survives an exception. -/
abbrev TrainM (K : Type) (M : Nat) (m : Type → Type) := ExceptT PyErr (StateT (Trainer K M) m)

/-- A random computation inside a method. -/
def liftRand {α : Type} (x : ExceptT PyErr m α) : TrainM K M m α := ExceptT.mk (StateT.lift x.run)

/-- `feat_ss[beg:end, a] += sign * data_row[beg:end]` and the same for `meas_ss`,
training.py:373-375 and 404-406. -/
def featStats (t : Table) (row : Nat) (sign : Int) (v : Nat) (a : Fin M) (s : Trainer K M) : Trainer K M :=
  { s with
    featSS := (List.range (t.stop v - t.beg v)).foldl
      (fun f c => bump f (t.beg v + c) a (sign * t.cell row (t.beg v + c))) s.featSS
    measSS := bump s.measSS v a (sign * t.blockSum row v) }

/-- The loops over vertices and edges, training.py:363-369 and 394-400. -/
def vertEdgeStats (V : Nat) (sign : Int) (z : Nat → Fin M) (s : Trainer K M) : Trainer K M :=
  { s with
    vertSS := (List.range V).foldl (fun f v => bump f v (z v) sign) s.vertSS
    edgeSS := s.tree.treeGrid.zipIdx.foldl (fun f p => bump3 f p.2 (z p.1.2.1) (z p.1.2.2) sign) s.edgeSS
    edgeProbs := s.tree.treeGrid.zipIdx.foldl
      (fun f p => bump3 f p.2 (z p.1.2.1) (z p.1.2.2) (sign : K)) s.edgeProbs }

/-- The update of the statistics: the end of `treecat_add_row` (`sign = 1`),
training.py:362-377, and `treecat_remove_row` (`sign = -1`), training.py:393-408. -/
def updateStats (t : Table) (row : Nat) (sign : Int) (z : Nat → Fin M) : TrainM K M m Unit := do
  modify (vertEdgeStats t.numCols sign z)
  (List.range t.numCols).forM fun v =>
    if t.featureTypes.getD v 0 = tyMultinomial then modify (featStats t row sign v (z v))
    else throw .notImplemented

/-- `add_row(row_id)`, training.py:524-548. A row id beyond the table raises at line 537, after the
id has been put into the set. -/
def addRow [NeZero M] (t : Table) (row : Nat) : TrainM K M m Unit := do
  let s ← get
  if row ∈ s.added then throw .assertion
  else do
    set { s with added := insert row s.added }
    liftPy (if row < t.numRows then .ok () else .error .indexError)
    let z ← liftRand (sampleRow t row s)
    modify fun s => { s with assign := Function.update s.assign row z }
    updateStats t row 1 z

/-- `remove_row(row_id)`, training.py:551-566. A row id beyond the table raises at line 559. -/
def removeRow (t : Table) (row : Nat) : TrainM K M m Unit := do
  let s ← get
  if row ∈ s.added then do
    set { s with added := s.added.erase row }
    liftPy (if row < t.numRows then .ok () else .error .indexError)
    updateStats t row (-1) (s.assign row)
  else throw .assertion

/-- `set_edges(edges)`, training.py:186-193 and 568-574. -/
def setEdges (edges : List Edge) : TrainM K M m Unit := do
  let s ← get
  let tree ← liftPy (s.tree.setEdges edges)
  modify fun s => { s with tree }
  let program ← liftPy (makeProgram tree.treeGrid none)
  modify fun s => { s with program }
  let assignments := (s.added.sort (· ≤ ·)).map s.assign
  tree.treeGrid.forM fun c => do
    let counts ← liftPy (countPairs assignments c.2.1 c.2.2)
    modify fun s => { s with edgeSS := Function.update s.edgeSS c.1 counts }
  modify fun s => { s with edgeProbs := fun e a b => (s.edgeSS e a b : K) + edgePrior M }

/-- `treecat_compute_edge_logit(M, gammaln_table, assign1, assign2)`,
training.py:411-420. -/
def computeEdgeLogit (table : List K) (pairs : List (Fin M × Fin M)) : Py K := do
  let counts := pairs.foldl (fun (f : Fin M → Fin M → Nat) p => bump f p.1 p.2 1) fun _ _ => 0
  let terms ← (List.finRange M).flatMap (fun a => (List.finRange M).map fun b => counts a b) |>.mapM (pyGet table)
  .ok terms.sum

/-- `compute_edge_logits()`, training.py:577-594 with 423-463 (the parallel and the
sequential version differ only in the loop construct). The choice between all
assignments and those of the added rows is as in the source: it compares the number
of added rows with the number of *columns*. -/
def computeEdgeLogits (num : Num K) (t : Table) (treePrior : List K) (s : Trainer K M) : Py (List K) := do
  let V := t.numCols
  let N := t.numRows
  let vertLogits := fun v => logprobDC num (s.vertSS v) vertPrior
  let rows := if s.added.card = V then List.range N else s.added.sort (· ≤ ·)
  let assignments := rows.map s.assign
  let gammalnTable := (List.range (1 + N)).map fun (i : Nat) => num.gammaln ((i : K) + edgePrior M)
  let grid ← makeCompleteGraph V
  let result ← grid.mapM fun c => do
    let l ← computeEdgeLogit gammalnTable (assignments.map fun a => (a c.2.1, a c.2.2))
    .ok (l - vertLogits c.2.1 - vertLogits c.2.2)
  .ok (result.zipWith (· + ·) treePrior)

/-- `logprob()`, training.py:596-612. -/
def trainerLogprob (num : Num K) (t : Table) (s : Trainer K M) : Py K := do
  pyAssert (s.added.card == t.numRows)
  let V := t.numCols
  let vertexLogits := fun v => logprobDC num (s.vertSS v) vertPrior
  let lp := ((List.range V).map vertexLogits).sum
  let lp := s.tree.treeGrid.foldl (fun lp c =>
    lp + ((∑ a, logprobDC num (s.edgeSS c.1 a) (edgePrior M)) - vertexLogits c.2.1 - vertexLogits c.2.2)) lp
  .ok ((List.range V).foldl (fun lp v =>
    lp + ((List.range (t.stop v - t.beg v)).map fun c =>
        logprobDC num (s.featSS (t.beg v + c)) (featPrior M)).sum
      - logprobDC num (s.measSS v) (measPrior M t v)) lp)

/-- The trainer's `sample_tree()`, training.py:196-213. Returns the edges. -/
def trainerSampleTree (num : Num K) (junk : Nat → Nat) (t : Table) (treePrior : List K) :
    TrainM K M m (List Edge) := do
  let s ← get
  let grid ← liftPy (makeCompleteGraph t.numCols)
  let logits ← liftPy (computeEdgeLogits num t treePrior s)
  liftPy (pyAssert (logits.length == grid.length))
  let edges := s.tree.getEdges
  let perm ← liftRand (ExceptT.lift (Shuffle.permutation edges.length))
  liftRand (sampleTree num.exp junk grid logits edges perm)

/-- The trainer's `estimate_tree()`, training.py:215-228. -/
def trainerEstimateTree (num : Num K) (mst : List (List K) → List Edge) (t : Table) (treePrior : List K) :
    TrainM K M m (List Edge × List K) := do
  let s ← get
  let grid ← liftPy (makeCompleteGraph t.numCols)
  let logits ← liftPy (computeEdgeLogits num t treePrior s)
  let edges ← liftPy (estimateTree mst grid logits)
  pure (edges, logits)

/-- The config entries that `train` reads. -/
structure TrainConfig where
  initEpochs : Int
  fullEpochs : Int
  sampleTreeRate : Int
  estimateTree : Bool
  deriving DecidableEq, Repr

/-- One action of the schedule, training.py:252-261. -/
def runAction [NeZero M] (num : Num K) (junk : Nat → Nat) (t : Table) (treePrior : List K) :
    Action → TrainM K M m Unit
  | .addRow r => addRow t r
  | .removeRow r => removeRow t r
  | .sampleTree => do
    let edges ← trainerSampleTree num junk t treePrior
    setEdges edges

/-- One full Gibbs scan, training.py:265-270. -/
def fullScan [NeZero M] (num : Num K) (junk : Nat → Nat) (t : Table) (treePrior : List K) :
    TrainM K M m Unit := do
  let edges ← trainerSampleTree num junk t treePrior
  setEdges edges
  (List.range t.numRows).forM fun r => do
    removeRow t r
    addRow t r

/-- `train()`, training.py:231-284 and 614-638. Returns the edge logits; the rest of the
returned model (tree, assignments and sufficient statistics) is the final state. `fuel` bounds
the annealing loop. -/
def train [NeZero M] (num : Num K) (mst : List (List K) → List Edge) (junk : Nat → Nat) (fuel : Nat)
    (t : Table) (treePrior : List K) (cfg : TrainConfig) : TrainM K M m (List K) := do
  let N := t.numRows
  let s ← get
  liftPy (pyAssert (s.added.card == 0))
  let rows ← liftRand (ExceptT.lift (Shuffle.permutation N))
  let schedule ← liftPy (annealingSchedule fuel rows N (cfg.initEpochs : K) (cfg.sampleTreeRate : K))
  schedule.forM (runAction num junk t treePrior)
  let s ← get
  liftPy (pyAssert (s.added.card == N))
  (List.replicate cfg.fullEpochs.toNat ()).forM fun _ => fullScan num junk t treePrior
  let s ← get
  liftPy (pyAssert (s.added.card == N))
  let (edges, logits) ← trainerEstimateTree num mst t treePrior
  if cfg.estimateTree then setEdges edges
  pure logits

end

/-! ### Entry points -/

/-- The trainer that `train_model` picks, training.py:839-849. -/
inductive TrainerKind where
  | treeCat | treeGauss | treeMog
  deriving DecidableEq, Repr

/-- The checks and the dispatch of `train_model`, training.py:839-849. -/
def pickTrainer (M D : Int) : Py TrainerKind := do
  pyAssert (decide (1 ≤ M))
  pyAssert (decide (0 ≤ D))
  .ok (if D = 0 then .treeCat else if M = 1 then .treeGauss else .treeMog)

end TreeCat
