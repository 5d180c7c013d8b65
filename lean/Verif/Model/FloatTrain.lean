import Verif.Model.FloatAnneal
import Verif.Model.FloatLearn
import Verif.Model.FloatRow
import Verif.Model.FloatTree

/-!
# `train` in floating point (treecat/training.py:231-284 and 524-638)

The counts are integers and are exact. What is rounded is the array `edge_probs`, the loop of `add_row` (`Model/FloatRow`), the edge logits and the trees
(`Model/FloatLearn`) and the schedule (`Model/FloatAnneal`).
-/

namespace TreeCat

/-- A trainer in floating point: the trainer with the array `edge_probs` in float32. The exact `edgeProbs` in `stats` are not read. -/
structure FloatTrainer (M : Nat) where
  stats : Trainer ℚ M
  edge : Nat → Fin M → Fin M → ℚ

/-- Monads in which `np.random.rand()` can be called. The calls return independent numbers; `rands n` gives those of `n` calls, by an index. -/
class Rands (m : Type → Type) where
  rands : Nat → m (Nat → ℚ)

/-- `n` numbers `d / 2 ^ 53`, equally likely and independent. -/
noncomputable instance (rs rp : ℚ → ℚ) : Rands (FloatExpect rs rp (2 ^ 53)) where
  rands n := fun k => (∑ d : Fin n → Fin (2 ^ 53), k fun v => if h : v < n then ((d ⟨v, h⟩).val : ℚ) / 2 ^ 53 else 0) / ((2 ^ 53 : Nat) : ℝ) ^ n

/-- Code that changes a trainer in floating point and may raise. -/
abbrev FloatTrainM (M : Nat) (m : Type → Type) := ExceptT PyErr (StateT (FloatTrainer M) m)

section
variable {M : Nat} {m : Type → Type} [Monad m]

/-- Code on the counts. -/
def onStats {α : Type} (x : TrainM ℚ M m α) : FloatTrainM M m α :=
  ExceptT.mk fun s => do
    let (r, st) ← x.run.run s.stats
    pure (r, { s with stats := st })

/-- A random computation inside a method. -/
def floatRand {α : Type} (x : ExceptT PyErr m α) : FloatTrainM M m α := ExceptT.mk (StateT.lift x.run)

variable [Choose ℚ m] [Shuffle m] [Rands m]

/-- `add_row(row_id)`, training.py:524-548, see `addRow`. There is one draw for each vertex. -/
def floatTrainAddRow [NeZero M] (A : FloatOps M) (t : Table) (row : Nat) : FloatTrainM M m Unit := do
  let s ← get
  if row ∈ s.stats.added then throw .assertion
  else do
    set { s with stats := { s.stats with added := insert row s.stats.added } }
    liftPy (if row < t.numRows then .ok () else .error .indexError)
    let draw ← floatRand (ExceptT.lift (Rands.rands t.numCols))
    let r ← liftPy (floatAddRow A t row s.stats s.edge draw)
    modify fun s => { s with stats := { s.stats with assign := Function.update s.stats.assign row r.assign } }
    onStats (updateStats t row 1 r.assign)
    modify fun s => { s with edge := floatEdges true s.stats.tree.treeGrid r.assign s.edge }

/-- `remove_row(row_id)`, training.py:551-566, see `removeRow`. -/
def floatTrainRemoveRow (t : Table) (row : Nat) : FloatTrainM M m Unit := do
  onStats (removeRow t row)
  modify fun s => { s with edge := floatEdges false s.stats.tree.treeGrid (s.stats.assign row) s.edge }

/-- `set_edges(edges)`, training.py:186-193 and 568-574, see `setEdges`. -/
def floatTrainSetEdges (edges : List Edge) : FloatTrainM M m Unit := do
  onStats (setEdges edges)
  modify fun s => { s with edge := floatEdgeArray s.stats }

variable [NeZero M] (A : FloatOps M) (rs rd gl : ℚ → ℚ) (sum : List ℚ → ℚ) (fexp : ℚ → ℚ) (junk : Nat → Nat) (t : Table) (treePrior : List ℚ)

/-- One action of the schedule, training.py:252-261, see `runAction`. -/
def floatRunAction : Action → FloatTrainM M m Unit
  | .addRow r => floatTrainAddRow A t r
  | .removeRow r => floatTrainRemoveRow t r
  | .sampleTree => do
    let s ← get
    let edges ← floatRand (floatTrainerSampleTree rs rd gl sum fexp junk t treePrior s.stats)
    floatTrainSetEdges edges

/-- One full Gibbs scan, training.py:265-270, see `fullScan`. -/
def floatFullScan : FloatTrainM M m Unit := do
  let s ← get
  let edges ← floatRand (floatTrainerSampleTree rs rd gl sum fexp junk t treePrior s.stats)
  floatTrainSetEdges edges
  (List.range t.numRows).forM fun r => do
    floatTrainRemoveRow t r
    floatTrainAddRow A t r

/-- `train()`, training.py:231-284 and 614-638, see `train`. The schedule is computed in python floats, which `rd` rounds. -/
def floatTrain (mst : List (List ℚ) → List Edge) (fuel : Nat) (cfg : TrainConfig) : FloatTrainM M m (List ℚ) := do
  let N := t.numRows
  let s ← get
  liftPy (pyAssert (s.stats.added.card == 0))
  let rows ← floatRand (ExceptT.lift (Shuffle.permutation N))
  let schedule ← liftPy (floatAnnealingSchedule rd fuel rows N (cfg.initEpochs : ℚ) (cfg.sampleTreeRate : ℚ))
  schedule.forM (floatRunAction A rs rd gl sum fexp junk t treePrior)
  let s ← get
  liftPy (pyAssert (s.stats.added.card == N))
  (List.replicate cfg.fullEpochs.toNat ()).forM fun _ => floatFullScan A rs rd gl sum fexp junk t treePrior
  let s ← get
  liftPy (pyAssert (s.stats.added.card == N))
  let (edges, logits) ← liftPy (floatTrainerEstimateTree rs rd gl sum mst t treePrior s.stats)
  if cfg.estimateTree then floatTrainSetEdges edges
  pure logits

end

end TreeCat
