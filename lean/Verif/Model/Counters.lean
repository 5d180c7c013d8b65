import Verif.Model.Structure
import Mathlib.Data.Char
import Mathlib.Data.List.Lex
import Mathlib.Data.Nat.Size
import Verif.Model.Profiling

/-!
# The statistics that `sample_tree` collects, and the report on them

util.py:223-225, 260-309 and structure.py:387, 402-424. `sampleTree` in `Model/Structure.lean` is `sample_tree` without them.
-/

namespace TreeCat

/-- What `sample_tree` writes to `COUNTERS`, `SERIES` and `HISTOGRAMS`: the counters `sample_tree_calls`, `sample_tree_infeasible`,
`sample_tree_accept` and `sample_tree_propose`, the series `sample_tree_accepted` and the histogram `sample_tree_log2_choices`.
An entry that does not exist reads as zero or empty, as in a `defaultdict`. -/
structure TreeStats where
  calls : Nat
  infeasible : Nat
  accept : Nat
  propose : Nat
  accepted : List Nat
  log2Choices : Nat → Nat

/-- The local variables `accepted` and `log2_choices` of the scan, and the number of infeasible proposals in it. -/
structure ScanStats where
  accepted : Nat
  log2Choices : List Nat
  infeasible : Nat

section
variable {K : Type} [Field K] [LinearOrder K] {m : Type → Type} [Monad m] [Choose K m]

/-- The choice of the edge `k2`, structure.py:412-416, and how much it adds to `COUNTERS.sample_tree_infeasible`. -/
def chooseEdge (s : TreeState) (k1 num : Nat) (probs : List K) : ExceptT PyErr m (Nat × Nat) := do
  if 0 < probs.sum then do
    let i ← sampleIndex (m := m) probs
    if i < num then do
      let k2 ← liftPy (pyGet s.validEdges i)
      pure (k2, 0)
    else throw .indexError
  else pure (k1, 1)

/-- One iteration of the main loop with its statistics, structure.py:405-420. `int.bit_length` is `Nat.size`. -/
def sampleTreeStepStats (expf : K → K) (grid : Grid) (logits : List K) (x : TreeState × ScanStats) (e : Nat) :
    ExceptT PyErr m (TreeState × ScanStats) := do
  let (k1, s, num, probs) ← liftPy (proposeEdges expf grid logits x.1 e)
  let (k2, infeasible) ← chooseEdge s k1 num probs
  let s ← liftPy (placeEdge grid s e k2)
  pure (s, { accepted := x.2.accepted + if k1 ≠ k2 then 1 else 0
             log2Choices := x.2.log2Choices ++ [num.size]
             infeasible := x.2.infeasible + infeasible })

/-- `sample_tree(grid, edge_logits, edges)`, structure.py:364-428, with its statistics. Simplification: they are returned with the
edges; what they are after an exception is not modelled. -/
def sampleTreeStats (expf : K → K) (junk : Nat → Nat) (grid : Grid) (logits : List K) (edges : List Edge) (perm : List Nat)
    (stats : TreeStats) : ExceptT PyErr m (List Edge × TreeStats) := do
  let stats := { stats with calls := stats.calls + 1 }
  if edges.length ≤ 1 then pure (edges, stats)
  else do
    let s ← liftPy (treeStateInit junk edges)
    let (s, scan) ← perm.foldlM (sampleTreeStepStats expf grid logits) (s, ⟨0, [], 0⟩)
    let stats := { stats with
      infeasible := stats.infeasible + scan.infeasible
      accept := stats.accept + scan.accepted
      propose := stats.propose + edges.length
      accepted := stats.accepted ++ [scan.accepted]
      log2Choices := fun b => stats.log2Choices b + scan.log2Choices.count b }
    let out ← liftPy (s.e2k.mapM fun k => do
      let c ← pyGet grid k
      .ok (c.2.1, c.2.2))
    let out := out.insertionSort edgeLe
    liftPy (pyAssert (out.length == edges.length))
    pure (out, stats)

end

/-- The lines of `log_profiling_stats`, util.py:284-309, without their formatting: the series, the histograms, the counters and the timers. -/
structure Report (K : Type) where
  series : List (List Char × List Nat)
  histograms : List (List Char × List (Nat × Nat))
  counters : List (List Char × Nat)
  timers : List (K × Nat × List Char)

/-- `log_profiling_stats()`, util.py:284-309, for the items of the four dicts. Names are distinct, so `sorted` compares names only;
`list.sort` is stable, also with `reverse=True`. -/
def logProfilingStats {K : Type} [LinearOrder K] (series : List (List Char × List Nat)) (histograms : List (List Char × List (Nat × Nat)))
    (counters : List (List Char × Nat)) (timers : List (List Char × Timer K)) : Report K where
  series := series.insertionSort fun a b => a.1 ≤ b.1
  histograms := (histograms.insertionSort fun a b => a.1 ≤ b.1).map fun h => (h.1, h.2.insertionSort fun a b => a.1 ≤ b.1)
  counters := counters.insertionSort fun a b => a.1 ≤ b.1
  timers := (timers.map fun t => (t.2.elapsed, t.2.count, t.1)).insertionSort fun a b => b.1 ≤ a.1

end TreeCat
