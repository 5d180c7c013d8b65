import Verif.Model.Serving
import Verif.Model.Ensemble

/-!
# Model of `treecat/generate.py`

Numbers that numpy draws and that no property speaks about are arguments: the logits of `generate_tree`, the counts of
`generate_dataset`, the assignments and logits of `generate_fake_model`. Files are in
`Verif/Model/GenerateFiles`.
-/

namespace TreeCat

open Util

/-- `np.arange(0, num_cats * (V + 1), num_cats)`, generate.py:38, 113. A step of zero raises. -/
def blockIndex (C V : Nat) : Py (List Nat) :=
  if C = 0 then .error .zeroDivision else .ok ((List.range (V + 1)).map fun i => i * C)

section
variable {K : Type} [Field K] [LinearOrder K] {m : Type → Type} [Monad m] [Choose K m] [Shuffle m]

/-- `generate_tree(num_cols)`, generate.py:79-87. `logits` is `np.random.random([K])`; the scan orders are drawn inside
`sample_tree`. -/
def generateTree (expf : K → K) (junk : Nat → Nat) (V : Nat) (logits : List K) : ExceptT PyErr m TreeStructure := do
  let tree ← liftPy (TreeStructure.init V)
  let grid ← liftPy (makeCompleteGraph V)
  let edges ← (List.range 10).foldlM (fun (edges : List Edge) _ => do
    let perm ← ExceptT.lift (Shuffle.permutation edges.length)
    sampleTree expf junk grid logits edges perm) tree.getEdges
  liftPy (tree.setEdges edges)

end

/-- `column[n, :] = x` for the columns `beg ... end` of an int8 array, generate.py:47. -/
def setBlock (data : Nat → Nat → Int) (n beg stop : Nat) (x : List Nat) : Nat → Nat → Int :=
  Function.update data n fun r => if beg ≤ r ∧ r < stop then wrap8 (x.getD (r - beg) 0) else data n r

/-- `generate_dataset(num_rows, num_cols, num_cats, rate)`, generate.py:28-58: `schema['ragged_index']`, the length of
`schema['tree_prior']` (zeros) and the table. `draw v n` is `np.random.multinomial(count, probs)` for row `n` of feature `v`, a
list of `num_cats` counts. -/
def generateDataset (draw : Nat → Nat → List Nat) (N V C : Nat) : Py (List Nat × Nat × Table) := do
  let ri ← blockIndex C V
  let data := (List.range V).foldl (fun data v =>
    (List.range N).foldl (fun data n => setBlock data n (ri.getD v 0) (ri.getD (v + 1) 0) (draw v n)) data) fun _ _ => 0
  let table ← Table.make (List.replicate V tyMultinomial) ri (V * C)
    ((List.range N).map fun n => (List.range (V * C)).map (data n))
  .ok (ri, V * (V - 1) / 2, table)

/-- The dict that `generate_fake_model` returns, generate.py:188-200: what a server reads, and the assignments and `meas_ss`. -/
structure FakeModel (K : Type) (M : Nat) where
  model : Model K M
  assign : Nat → Nat → Fin M
  measSS : Nat → Fin M → Int

section
variable {M : Nat}

/-- `vert_ss`, generate.py:171, 175-176. -/
def fakeVert (assign : Nat → Nat → Fin M) (N V : Nat) : Nat → Fin M → Int :=
  (List.range V).foldl (fun ss v => Function.update ss v fun a =>
    (((List.range N).map fun n => (assign n v).val).count a.val : Int)) fun _ _ => 0

/-- `edge_ss`, generate.py:172, 177-179. -/
def fakeEdge (assign : Nat → Nat → Fin M) (N : Nat) (grid : Grid) : Nat → Fin M → Fin M → Int :=
  grid.foldl (fun ss c => Function.update ss c.1 fun a b =>
    (((List.range N).map fun n => (assign n c.2.1).val * M + (assign n c.2.2).val).count (a.val * M + b.val) : Int)) fun _ _ _ => 0

/-- `feat_ss_block[:, assignments[n, v]] += data_block[n, :]; meas_ss[v, assignments[n, v]] += data_block[n, :].sum()`,
generate.py:185-186. -/
def fakeFeatStep (t : Table) (assign : Nat → Nat → Fin M) (v : Nat) (ss : (Nat → Fin M → Int) × (Nat → Fin M → Int)) (n : Nat) :
    (Nat → Fin M → Int) × (Nat → Fin M → Int) :=
  (fun r a => if t.beg v ≤ r ∧ r < t.stop v ∧ a = assign n v then ss.1 r a + t.cell n r else ss.1 r a,
    bump ss.2 v (assign n v) (t.blockSum n v))

/-- `feat_ss` and `meas_ss`, generate.py:173-174, 180-186, for a table whose last column is below `V * C`, as
`generate_dataset` makes it (numpy's truncation of slices beyond the array is not modelled). -/
def fakeFeat (t : Table) (assign : Nat → Nat → Fin M) (N V : Nat) : (Nat → Fin M → Int) × (Nat → Fin M → Int) :=
  (List.range V).foldl (fun ss v => (List.range N).foldl (fakeFeatStep t assign v) ss) (fun _ _ => 0, fun _ _ => 0)

variable {K : Type} [Field K] [LinearOrder K] {m : Type → Type} [Monad m] [Choose K m] [Shuffle m]

/-- `generate_fake_model(num_rows, num_cols, num_cats, num_components, dataset)`, generate.py:154-200, with the table of the dataset.
`treeLogits` are the logits inside `generate_tree`, `assign` is the array of assignments, `logits` is `np.exp(-np.random.rand(K))`.
`M` is `num_components`. -/
def generateFakeModel (expf : K → K) (junk : Nat → Nat) (treeLogits : List K) (assign : Nat → Nat → Fin M) (logits : List K)
    (t : Table) (N V : Nat) : ExceptT PyErr m (FakeModel K M) := do
  let tree ← generateTree expf junk V treeLogits
  let ss := fakeFeat t assign N V
  pure { model := { tree, raggedIndex := t.raggedIndex, vertSS := fakeVert assign N V, edgeSS := fakeEdge assign N tree.treeGrid
                    featSS := ss.1, edgeLogits := logits }
         assign, measSS := ss.2 }

/-- The random inputs of one call of `generate_fake_model`. -/
structure FakeDraws (K : Type) (M : Nat) where
  junk : Nat → Nat
  treeLogits : List K
  assign : Nat → Nat → Fin M
  logits : List K

/-- `generate_fake_ensemble(num_rows, num_cols, num_cats, num_components)`, generate.py:203-215: pairs of `model['config']` and the
rest of the model. `draws seed` is what the generators yield after `set_random_seed(seed)`. The copies of the config are values here. -/
def generateFakeEnsemble (expf : K → K) (draw : Nat → Nat → List Nat) (draws : Int → FakeDraws K M) (N V C : Nat) :
    ExceptT PyErr m (List (Config.Config × FakeModel K M)) := do
  let dataset ← liftPy (generateDataset draw N V C)
  let config ← liftPy (Config.makeConfig [("model_num_clusters", (M : Int)), ("seed", 0)])
  (List.range 3).mapM fun (subSeed : Nat) => do
    let seed ← liftPy (configGet config "seed")
    let subConfig := Config.assign config "seed" (seed + (subSeed : Int))
    let d := draws (seed + (subSeed : Int))
    let model ← generateFakeModel expf d.junk d.treeLogits d.assign d.logits dataset.2.2 N V
    pure (subConfig, model)

/-- `edge_precision * np.eye(M)`, generate.py:130, 133. -/
def eye (precision : Int) (a b : Fin M) : Int := if a = b then precision else 0

/-- The statistics in `generate_clean_dataset`, generate.py:119-145. `num_cats` is `M`, so the identity fits into each block. -/
def cleanModel (tree : TreeStructure) (ri : List Nat) : Model K M :=
  { tree, raggedIndex := ri
    vertSS := fun _ _ => 1
    edgeSS := tree.treeGrid.foldl (fun ss c => Function.update ss c.1 (eye 1)) fun _ _ _ => 0
    featSS := (List.range tree.numVertices).foldl (fun ss v r a =>
      if h : ri.getD v 0 ≤ r ∧ r < ri.getD (v + 1) 0 ∧ r - ri.getD v 0 < M then eye 100 ⟨r - ri.getD v 0, h.2.2⟩ a else ss r a) fun _ _ => 0
    edgeLogits := List.replicate (tree.numVertices * (tree.numVertices - 1) / 2) 0 }

/-- `generate_clean_dataset(tree, num_rows, num_cats)`, generate.py:90-151. `M` is `num_cats`. -/
def generateCleanDataset [NeZero M] (mst : List (List K) → List Edge) (tree : TreeStructure) (N : Nat) : ExceptT PyErr m Table := do
  let V := tree.numVertices
  let _config ← liftPy (Config.makeConfig [("model_num_clusters", (M : Int))])
  let ri ← liftPy (blockIndex M V)
  let srv ← liftPy (Server.init mst (cleanModel (K := K) (M := M) tree ri))
  let data ← srv.sample N (List.replicate V 1) none
  liftPy (Table.make (List.replicate V tyMultinomial) ri (V * M) data)

end

end TreeCat
