import Verif.Model.FloatEdge
import Verif.Model.FloatEstimate

/-!
# The trainer's trees in floating point (treecat/training.py:196-228)

`Model/FloatEdge` has the edge logits, `Model/FloatEstimate` the weights of `estimate_tree`. As in `Model/FloatTree`, `sample_tree` is run with
`fun x => fexp (rs x)` for the exponential function.
-/

namespace TreeCat

section
variable {K : Type} {M : Nat} (rs rd gl : ℚ → ℚ) (sum : List ℚ → ℚ)

/-- The trainer's `sample_tree()`, training.py:196-213, see `trainerSampleTree`, in floating point. The trainer is not changed; `edge_logits`, which is returned
as well, is the one of `floatEdgeLogits`. -/
def floatTrainerSampleTree {m : Type → Type} [Monad m] [Choose ℚ m] [Shuffle m] (fexp : ℚ → ℚ) (junk : Nat → Nat) (t : Table) (treePrior : List ℚ)
    (s : Trainer K M) : ExceptT PyErr m (List Edge) := do
  let grid ← ExceptT.mk (pure (makeCompleteGraph t.numCols))
  let logits ← ExceptT.mk (pure (floatEdgeLogits rs rd gl sum t treePrior s))
  ExceptT.mk (pure (pyAssert (logits.length == grid.length)))
  let edges := s.tree.getEdges
  let perm ← ExceptT.lift (Shuffle.permutation edges.length)
  sampleTree (fun x => fexp (rs x)) junk grid logits edges perm

/-- The trainer's `estimate_tree()`, training.py:215-228, see `trainerEstimateTree`, in floating point. -/
def floatTrainerEstimateTree (mst : List (List ℚ) → List Edge) (t : Table) (treePrior : List ℚ) (s : Trainer K M) : Py (List Edge × List ℚ) := do
  let grid ← makeCompleteGraph t.numCols
  let logits ← floatEdgeLogits rs rd gl sum t treePrior s
  let edges ← floatEstimateTree rs mst grid logits
  .ok (edges, logits)

end

end TreeCat
