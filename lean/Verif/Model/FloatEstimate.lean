import Mathlib.Data.Rat.Defs
import Mathlib.Algebra.Order.Ring.Rat
import Mathlib.Algebra.Field.Rat
import Verif.Model.Structure

/-!
# `estimate_tree` in floating point (treecat/structure.py:451-473)

`edge_logits` is a float32 array, and so is the matrix of weights: the three in-place operations round their results. `minimum_spanning_tree` converts the
matrix to float64, which is exact.
-/

namespace TreeCat

/-- The matrix handed to `minimum_spanning_tree`, structure.py:464-467, with every operation rounded by `rs`. -/
def floatTreeWeights (rs : ℚ → ℚ) (grid : Grid) (logits : List ℚ) : Py (List (List ℚ)) := do
  pyAssert (grid.length == logits.length)
  let w ← triangularToSquare grid logits
  let w := w.map fun r => r.map fun x => rs (x * (-1))
  let mn ← matMin w
  let w := w.map fun r => r.map fun x => rs (x - mn)
  .ok (w.map fun r => r.map fun x => rs (x + 1))

/-- `estimate_tree(grid, edge_logits)`, structure.py:451-473, see `estimateTree`, with the weights in floating point. -/
def floatEstimateTree (rs : ℚ → ℚ) (mst : List (List ℚ) → List Edge) (grid : Grid) (logits : List ℚ) : Py (List Edge) := do
  let w ← floatTreeWeights rs grid logits
  let edges := sortEdges (mst w)
  pyAssert ((edges.length : Int) == (w.length : Int) - 1)
  .ok edges

end TreeCat
