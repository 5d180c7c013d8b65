import Verif.Model.Training
import Verif.Model.TreeInf

/-!
# Training with forbidden edges

The tree prior is added to the edge logits, so that the prior `-inf` forbids an edge in `sample_tree` and `estimate_tree`. This is the program `train` of
`Model/Training.lean` with priors in `WithBot K`, where `⊥` is `-inf`; what does not look at the prior is taken from there.
-/

namespace TreeCat

section
variable {K : Type} [Field K] [LinearOrder K] {M : Nat} {m n : Type → Type} [Monad m] [Choose K m] [Shuffle m] [Monad n] [Choose K n]

/-- `compute_edge_logits()`, training.py:577-594 with 423-463, with a prior that may be `-inf`; compare `computeEdgeLogits`. -/
def computeEdgeLogitsInf (num : Num K) (t : Table) (treePrior : List (WithBot K)) (s : Trainer K M) : Py (List (WithBot K)) := do
  let V := t.numCols
  let N := t.numRows
  let vertLogits := fun v => logprobDC num (s.vertSS v) vertPrior
  let rows := if s.added.card = V then List.range N else s.added.sort (· ≤ ·)
  let assignments := rows.map s.assign
  let gammalnTable := (List.range (1 + N)).map fun (i : Nat) => num.gammaln ((i : K) + edgePrior M)
  let grid ← makeCompleteGraph V
  let result ← grid.mapM fun c => do
    let l ← computeEdgeLogit gammalnTable (assignments.map fun a => (a c.2.1, a c.2.2))
    .ok (l - vertLogits c.2.1 - vertLogits c.2.2)
  .ok (result.zipWith (fun (x : K) p => (x : WithBot K) + p) treePrior)

/-- The trainer's `sample_tree()`, training.py:196-213, with a prior that may be `-inf`; compare `trainerSampleTree`. Returns the edges; the counter of
infeasible proposals is left out. The indices inside `sample_tree` are drawn in a monad `n` of their own, so that they can be read more exactly than
the other random choices; in a run `n` is `m` and `inj` the identity. -/
def trainerSampleTreeInf (inj : {α : Type} → n α → m α) (num : Num K) (junk : Nat → Nat) (t : Table) (treePrior : List (WithBot K)) :
    TrainM K M m (List Edge) := do
  let s ← get
  let grid ← liftPy (makeCompleteGraph t.numCols)
  let logits ← liftPy (computeEdgeLogitsInf num t treePrior s)
  liftPy (pyAssert (logits.length == grid.length))
  let edges := s.tree.getEdges
  let perm ← liftRand (ExceptT.lift (Shuffle.permutation edges.length))
  let out ← liftRand (ExceptT.mk (inj (sampleTreeInf num.exp junk grid logits edges perm : ExceptT PyErr n _).run))
  pure out.1

/-- The trainer's `estimate_tree()`, training.py:215-228, with a prior that may be `-inf`; compare `trainerEstimateTree`. -/
def trainerEstimateTreeInf (num : Num K) (mst : List (List K) → List Edge) (t : Table) (treePrior : List (WithBot K)) :
    TrainM K M m (List Edge × List (WithBot K)) := do
  let s ← get
  let grid ← liftPy (makeCompleteGraph t.numCols)
  let logits ← liftPy (computeEdgeLogitsInf num t treePrior s)
  let edges ← liftPy (estimateTreeInf mst grid logits)
  pure (edges, logits)

/-- One action of the schedule, training.py:252-261; compare `runAction`. -/
def runActionInf [NeZero M] (inj : {α : Type} → n α → m α) (num : Num K) (junk : Nat → Nat) (t : Table) (treePrior : List (WithBot K)) :
    Action → TrainM K M m Unit
  | .addRow r => addRow t r
  | .removeRow r => removeRow t r
  | .sampleTree => do
    let edges ← trainerSampleTreeInf inj num junk t treePrior
    setEdges edges

/-- One full Gibbs scan, training.py:265-270; compare `fullScan`. -/
def fullScanInf [NeZero M] (inj : {α : Type} → n α → m α) (num : Num K) (junk : Nat → Nat) (t : Table) (treePrior : List (WithBot K)) :
    TrainM K M m Unit := do
  let edges ← trainerSampleTreeInf inj num junk t treePrior
  setEdges edges
  (List.range t.numRows).forM fun r => do
    removeRow t r
    addRow t r

/-- `train()`, training.py:231-284 and 614-638, with a prior that may be `-inf`; compare `train`. -/
def trainInf [NeZero M] (inj : {α : Type} → n α → m α) (num : Num K) (mst : List (List K) → List Edge) (junk : Nat → Nat) (fuel : Nat)
    (t : Table) (treePrior : List (WithBot K)) (cfg : TrainConfig) : TrainM K M m (List (WithBot K)) := do
  let N := t.numRows
  let s ← get
  liftPy (pyAssert (s.added.card == 0))
  let rows ← liftRand (ExceptT.lift (Shuffle.permutation N))
  let schedule ← liftPy (annealingSchedule fuel rows N (cfg.initEpochs : K) (cfg.sampleTreeRate : K))
  schedule.forM (runActionInf inj num junk t treePrior)
  let s ← get
  liftPy (pyAssert (s.added.card == N))
  (List.replicate cfg.fullEpochs.toNat ()).forM fun _ => fullScanInf inj num junk t treePrior
  let s ← get
  liftPy (pyAssert (s.added.card == N))
  let (edges, logits) ← trainerEstimateTreeInf num mst t treePrior
  if cfg.estimateTree then setEdges edges
  pure logits

end

end TreeCat
