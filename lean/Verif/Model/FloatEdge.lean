import Mathlib.Data.Rat.Defs
import Mathlib.Algebra.Order.Ring.Rat
import Mathlib.Algebra.Field.Rat
import Verif.Model.EdgeLoop

/-!
# Edge logits in floating point (treecat/training.py:504-506 and 577-594)

`Model/EdgeLoop` has the two loops over abstract arithmetic. Here it is float32: `rs` rounds to float32 and `rd` to float64, `gl` stands for
`scipy.special.gammaln` on float32 numbers and `sum` for `np.sum` of float32 numbers, whose order of summation numpy does not document. There is no overflow.
-/

namespace TreeCat

/-- Sums and differences of float32 numbers. -/
def floatArith (rs : ℚ → ℚ) : Arith ℚ := ⟨0, fun a b => rs (a + b), fun a b => rs (a - b)⟩

/-- `gammaln(np.arange(1 + N, dtype=np.float32) + self._edge_prior)`, training.py:504-505, where `self._edge_prior = 0.5 / M` is a float64 number (training.py:498)
that is converted to the type of the array. -/
def floatGammalnTable (rs rd gl : ℚ → ℚ) (N M : Nat) : List ℚ :=
  (List.range (1 + N)).map fun (i : Nat) => gl (rs (rs i + rs (rd (1 / 2 / (M : ℚ)))))

/-- One entry of `logprob_dc(self._vert_ss, self._vert_prior, axis=1)`, training.py:583 and 43-59, with `self._vert_prior = 0.5`. -/
def floatVertLogit {M : Nat} (rs gl : ℚ → ℚ) (sum : List ℚ → ℚ) (counts : Fin M → Int) : ℚ :=
  sum ((List.finRange M).map fun m => gl (rs (rs (counts m) + 1 / 2)))

/-- `compute_edge_logits()`, training.py:577-594, see `computeEdgeLogits`, in floating point. The tree prior is a float32 array. By `edgeLogits_par` the
parallel loop gives the same. -/
def floatEdgeLogits {K : Type} {M : Nat} (rs rd gl : ℚ → ℚ) (sum : List ℚ → ℚ) (t : Table) (treePrior : List ℚ) (s : Trainer K M) : Py (List ℚ) := do
  let rows := if s.added.card = t.numCols then List.range t.numRows else s.added.sort (· ≤ ·)
  let grid ← makeCompleteGraph t.numCols
  let result ← edgeLogitsSeq (floatArith rs) grid (floatGammalnTable rs rd gl t.numRows M) (rows.map s.assign) fun v => floatVertLogit rs gl sum (s.vertSS v)
  .ok (result.zipWith (fun a b => rs (a + b)) treePrior)

end TreeCat
