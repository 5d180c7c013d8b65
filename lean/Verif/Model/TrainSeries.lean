import Verif.Model.Training

/-!
# The series `sample_tree_num_rows` that training records

`SERIES.sample_tree_num_rows` is a list in `util.py`; here it is an argument and a result. Compare `runAction`, `fullScan` and `train` in `Model/Training.lean`.
-/

namespace TreeCat

section
variable {K : Type} [Field K] [LinearOrder K] {M : Nat} {m : Type → Type} [Monad m] [Choose K m] [Shuffle m]

/-- The trainer's `sample_tree()`, training.py:196-213, with `SERIES.sample_tree_num_rows.append(len(self._added_rows))`, training.py:206. -/
def trainerSampleTreeSeries (num : Num K) (junk : Nat → Nat) (t : Table) (treePrior : List K) (series : List Nat) :
    TrainM K M m (List Edge × List Nat) := do
  let s ← get
  let series := series ++ [s.added.card]
  let edges ← trainerSampleTree num junk t treePrior
  pure (edges, series)

/-- One action of the schedule, training.py:252-261. -/
def runActionSeries [NeZero M] (num : Num K) (junk : Nat → Nat) (t : Table) (treePrior : List K) (series : List Nat) :
    Action → TrainM K M m (List Nat)
  | .addRow r => do
    addRow t r
    pure series
  | .removeRow r => do
    removeRow t r
    pure series
  | .sampleTree => do
    let (edges, series) ← trainerSampleTreeSeries num junk t treePrior series
    setEdges edges
    pure series

/-- One full Gibbs scan, training.py:265-270. -/
def fullScanSeries [NeZero M] (num : Num K) (junk : Nat → Nat) (t : Table) (treePrior : List K) (series : List Nat) :
    TrainM K M m (List Nat) := do
  let (edges, series) ← trainerSampleTreeSeries num junk t treePrior series
  setEdges edges
  (List.range t.numRows).forM fun r => do
    removeRow t r
    addRow t r
  pure series

/-- `train()`, training.py:231-284 and 614-638: the edge logits, and the series that was `series` before. -/
def trainSeries [NeZero M] (num : Num K) (mst : List (List K) → List Edge) (junk : Nat → Nat) (fuel : Nat)
    (t : Table) (treePrior : List K) (cfg : TrainConfig) (series : List Nat) : TrainM K M m (List K × List Nat) := do
  let N := t.numRows
  let s ← get
  liftPy (pyAssert (s.added.card == 0))
  let rows ← liftRand (ExceptT.lift (Shuffle.permutation N))
  let schedule ← liftPy (annealingSchedule fuel rows N (cfg.initEpochs : K) (cfg.sampleTreeRate : K))
  let series ← schedule.foldlM (runActionSeries num junk t treePrior) series
  let s ← get
  liftPy (pyAssert (s.added.card == N))
  let series ← (List.replicate cfg.fullEpochs.toNat ()).foldlM (fun series _ => fullScanSeries num junk t treePrior series) series
  let s ← get
  liftPy (pyAssert (s.added.card == N))
  let (edges, logits) ← trainerEstimateTree num mst t treePrior
  if cfg.estimateTree then setEdges edges
  pure (logits, series)

end

end TreeCat
