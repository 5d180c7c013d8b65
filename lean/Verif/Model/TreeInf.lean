import Mathlib.Order.WithBot
import Verif.Model.Structure
import Verif.Model.Util

/-!
# `sample_tree` with forbidden edges

`sample_tree` accepts the logit `-inf` for an edge that must not be used, and counts in `COUNTERS.sample_tree_infeasible` the proposals without
any allowed edge. `sampleTree` in `Model/Structure.lean` has finite logits only. Here logits are in `WithBot K`, where `⊥` is `-inf`.
-/

namespace TreeCat

section
variable {K : Type} [Field K] [LinearOrder K] {m : Type → Type} [Monad m] [Choose K m]

/-- `valid_probs -= valid_probs.max(); valid_probs = np.exp(valid_probs)`, structure.py:409-410, where logits may be `-inf`. `none` is an array
of nan: when all logits are `-inf`, so is their maximum, and numpy computes `-inf - -inf = nan` and `exp(nan) = nan`. Simplification: the default
error state of numpy, in which an invalid operation gives a warning; the tests set it to raise instead (testutil.py:50-51). -/
def expNormalizeInf (expf : K → K) (logits : List (WithBot K)) : Py (Option (List K)) :=
  match logits with
  | [] => .error .valueError
  | l :: ls =>
    match ls.foldl max l with
    | none => .ok none
    | some mx => .ok (some ((l :: ls).map fun x => match x with
      | none => 0
      | some x => expf (x - mx)))

/-- structure.py:406-410 with logits that may be `-inf`; compare `proposeEdges`. -/
def proposeEdgesInf (expf : K → K) (grid : Grid) (logits : List (WithBot K)) (s : TreeState) (e : Nat) :
    Py (Nat × TreeState × Nat × Option (List K)) := do
  let (k1, N, comps) ← jitRemoveEdge grid s.e2k s.neighbors s.components e
  let (buf, num) ← findValidEdges comps s.validEdges
  let ls ← (buf.take num).mapM fun k => pyGet logits k
  let probs ← expNormalizeInf expf ls
  .ok (k1, ⟨s.e2k, N, comps, buf⟩, num, probs)

/-- structure.py:412-416: the edge `k2`, and how much is added to `COUNTERS.sample_tree_infeasible`. `nan > 0` is false. -/
def chooseEdgeInf (s : TreeState) (k1 num : Nat) (probs : Option (List K)) : ExceptT PyErr m (Nat × Nat) :=
  match probs with
  | none => pure (k1, 1)
  | some probs =>
    if 0 < probs.sum then do
      let i ← sampleIndex (m := m) probs
      if i < num then do
        let k2 ← liftPy (pyGet s.validEdges i)
        pure (k2, 0)
      else throw .indexError
    else pure (k1, 1)

/-- One iteration of the main loop of `sample_tree`, structure.py:405-417, on the arrays and the number of infeasible proposals so far. -/
def sampleTreeStepInf (expf : K → K) (grid : Grid) (logits : List (WithBot K)) (x : TreeState × Nat) (e : Nat) :
    ExceptT PyErr m (TreeState × Nat) := do
  let (k1, s, num, probs) ← liftPy (proposeEdgesInf expf grid logits x.1 e)
  let (k2, infeasible) ← chooseEdgeInf s k1 num probs
  let s ← liftPy (placeEdge grid s e k2)
  pure (s, x.2 + infeasible)

/-- `sample_tree(grid, edge_logits, edges)`, structure.py:364-428, with logits that may be `-inf`: the edges, and the number that is added to
`COUNTERS.sample_tree_infeasible`. -/
def sampleTreeInf (expf : K → K) (junk : Nat → Nat) (grid : Grid) (logits : List (WithBot K)) (edges : List Edge) (perm : List Nat) :
    ExceptT PyErr m (List Edge × Nat) := do
  if edges.length ≤ 1 then pure (edges, 0)
  else do
    let s ← liftPy (treeStateInit junk edges)
    let (s, infeasible) ← perm.foldlM (sampleTreeStepInf expf grid logits) (s, 0)
    let out ← liftPy (s.e2k.mapM fun k => do
      let c ← pyGet grid k
      .ok (c.2.1, c.2.2))
    let out := out.insertionSort edgeLe
    liftPy (pyAssert (out.length == edges.length))
    pure (out, infeasible)

end

/-! ### `estimate_tree` -/

section
variable {K : Type} [Field K] [LinearOrder K]

/-- `weights *= -1`, structure.py:465, of one logit; `⊤` is `inf`. -/
def negLogit : WithBot K → WithTop K
  | none => ⊤
  | some x => ((x * (-1) : K) : WithTop K)

/-- `weights -= min; weights += 1.0`, structure.py:466-467, of one entry, for a finite minimum. -/
def shiftWeight (mn : K) : WithTop K → WithTop K
  | none => ⊤
  | some x => ((x - mn + 1 : K) : WithTop K)

/-- The matrix handed to `minimum_spanning_tree`, structure.py:462-467, with logits that may be `-inf`; compare `treeWeights`. The minimum is finite, since
the diagonal is zero; the error in the other case stands for a matrix of nan, and `treeWeightsInf_spec` shows that it does not happen. -/
def treeWeightsInf (grid : Grid) (logits : List (WithBot K)) : Py (List (List (WithTop K))) := do
  pyAssert (grid.length == logits.length)
  let w ← triangularToSquare grid logits
  let w := w.map fun r => r.map negLogit
  match w.flatten with
  | [] => .error .valueError
  | x :: xs =>
    match xs.foldl min x with
    | none => .error .valueError
    | some mn => .ok (w.map fun r => r.map (shiftWeight mn))

/-- How scipy's `validate_graph` reads one entry of a dense matrix: an infinite entry, like zero, means that there is no edge (`infinity_null=True`). -/
def dropInf : WithTop K → K
  | none => 0
  | some x => x

/-- `estimate_tree(grid, edge_logits)`, structure.py:451-473, with logits that may be `-inf`; compare `estimateTree`. `mst` stands for scipy's
`minimum_spanning_tree` on the matrix in which zero means no edge. -/
def estimateTreeInf (mst : List (List K) → List Edge) (grid : Grid) (logits : List (WithBot K)) : Py (List Edge) := do
  let w ← treeWeightsInf grid logits
  let edges := sortEdges (mst (w.map fun r => r.map dropInf))
  pyAssert ((edges.length : Int) == (w.length : Int) - 1)
  .ok edges

end

/-- Results that may occur when indices are drawn by `sample_from_probs`, util.py:77-88. -/
def Sampled (_K : Type) (α : Type) : Type := Poss α

instance (K : Type) : Monad (Sampled K) := inferInstanceAs (Monad Poss)

instance (K : Type) : LawfulMonad (Sampled K) := inferInstanceAs (LawfulMonad Poss)

/-- Unlike in the reading `Poss`, an index is drawn only if `sample_from_probs` returns it, for some number in `[0, 1)` from `np.random.rand()`. -/
instance (K : Type) [Field K] [LinearOrder K] : Choose K (Sampled K) where
  choose p := fun i => ∃ u, 0 ≤ u ∧ u < 1 ∧ Util.sampleFromProbs (List.ofFn p) u = .ok i.val

end TreeCat
