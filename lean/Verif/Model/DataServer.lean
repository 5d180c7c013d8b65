import Verif.Model.Format
import Verif.Model.Serving

/-!
# Model of `treecat/serving.py`: `DataServer`

The dataset is the pair that `import_data` pickles. `serve_model` is in
`Verif/Model/CommandLine`.
-/

namespace TreeCat

open Util
open Config (Str)

section
variable {K : Type} [Field K] [LinearOrder K] {M : Nat}

/-- `self._server`: a `TreeCatServer` or an `EnsembleServer`, serving.py:643-646. -/
inductive AnyServer (K : Type) (M : Nat) where
  | one (srv : Server K M)
  | many (ens : Ensemble K M)

/-- The attributes of a `DataServer`, serving.py:639-647. -/
structure DataServer (K : Type) (M : Nat) where
  schema : Schema
  table : Table
  counts : List Int
  server : AnyServer K M

/-- `DataServer(dataset, ensemble)`, serving.py:639-647. -/
def DataServer.init (mst : List (List K) → List Edge) (schema : Schema) (table : Table) (models : List (Model K M)) : Py (DataServer K M) := do
  let counts ← guessCounts table.raggedIndex (table.raggedIndex.getLastD 0) table.data
  match models with
  | [model] => do
    let srv ← Server.init mst model
    .ok ⟨schema, table, counts, .one srv⟩
  | _ => do
    let ens ← Ensemble.init mst models
    .ok ⟨schema, table, counts, .many ens⟩

/-- `feature_names`, serving.py:649-652. -/
def DataServer.featureNames (ds : DataServer K M) : List Str := ds.schema.featureNames

/-- `estimate_tree()`, serving.py:654-656. -/
def DataServer.estimateTree (ds : DataServer K M) : List Edge :=
  match ds.server with
  | .one srv => srv.estimatedTree
  | .many ens => ens.estimatedTree

/-- `edge_logits`, serving.py:662-665. -/
def DataServer.edgeLogits (ds : DataServer K M) : List K :=
  match ds.server with
  | .one srv => srv.edgeLogits
  | .many ens => ens.edgeLogits

/-- `data[:, beg:end].max(1)` for one row: `ValueError` if the block is empty. -/
def blockMax (row : List Int) (beg stop : Nat) : Py Int :=
  match (row.take stop).drop beg with
  | [] => .error .valueError
  | x :: xs => .ok (xs.foldl max x)

/-- `feature_density()`, serving.py:667-675. The mean over no rows would be `nan`; the constructor has
already raised for such a table. -/
def DataServer.featureDensity (ds : DataServer K M) : Py (List K) :=
  (List.range (ds.schema.raggedIndex.length - 1)).mapM fun v => do
    let beg ← pyGet ds.schema.raggedIndex v
    let stop ← pyGet ds.schema.raggedIndex (v + 1)
    let tops ← ds.table.data.mapM fun row => blockMax row beg stop
    .ok (((tops.filter fun x => x != 0).length : K) / (tops.length : K))

/-- `self._server.logprob(data)`. -/
def AnyServer.logprob (num : ServeNum K) (srv : AnyServer K M) (data : List (List Int)) : Py (List (Option K)) :=
  match srv with
  | .one srv => srv.logprob num data
  | .many ens => do
    let lps ← ens.logprob num data
    .ok (lps.map some)

/-- `data + other` for an int8 array and an array with one row, serving.py:734. -/
def addEvidence (data : List (List Int)) (other : List Int) : List (List Int) :=
  data.map fun row => (row.zipWith (· + ·) other).map wrap8

/-- `logprob(rows, evidence)`, serving.py:715-736. With evidence the second term is
`self._server.logprob(data + evidence)` with the dict itself: adding a dict to an array raises `TypeError`, or
if the array is empty gives an empty array of objects, which `logprob` refuses. -/
def DataServer.logprob (T : Text) (num : ServeNum K) (ds : DataServer K M) (rows : RowsArg) (evidence : Option (Dict Str Json)) : Py (List (Option K)) := do
  let data ← importRows T ds.schema rows
  match evidence with
  | none => ds.server.logprob num data
  | some evidence => do
    let ragged ← importRows T ds.schema (.list [evidence])
    let _ ← ds.server.logprob num (addEvidence data (ragged.headD []))
    if data.length * ds.schema.raggedIndex.getLastD 0 = 0 then .error .assertion else .error .typeError

/-- `median(counts, data)` of either server, serving.py:118-147; `EnsembleServer.marginals` is not
implemented, serving.py:574-576. -/
def AnyServer.median [NeZero M] (srv : AnyServer K M) (junk : Nat → Fin M → K) (counts : List Int) (data : List (List Int)) : Py (List (List Int)) :=
  match srv with
  | .one srv => srv.median junk counts data
  | .many _ => .error .notImplemented

/-- `self._server.ragged_size`. -/
def AnyServer.raggedSize : AnyServer K M → Nat
  | .one srv => srv.raggedSize
  | .many ens => ens.raggedIndex.getLastD 0

/-- `median(evidence)`, serving.py:756-768. The argument goes to `import_rows` as it is. -/
def DataServer.median [NeZero M] (T : Text) (junk : Nat → Fin M → K) (ds : DataServer K M) (evidence : RowsArg) : Py (List (Dict Str Json)) := do
  let ragged ← importRows T ds.schema evidence
  let data ← ds.server.median junk ds.counts ragged
  exportRows ds.schema ds.server.raggedSize data

/-- `mode(evidence)`, serving.py:770-782: `mode` is not implemented in either server. -/
def DataServer.mode (T : Text) (ds : DataServer K M) (evidence : RowsArg) : Py (List (Dict Str Json)) := do
  let _ ← importRows T ds.schema evidence
  .error .notImplemented

/-- `observed_perplexity()`, serving.py:677-688. -/
def DataServer.observedPerplexity (num : ServeNum K) (ds : DataServer K M) : Py (List K) :=
  match ds.server with
  | .one srv => srv.observedPerplexity num (some ds.counts)
  | .many ens => ens.observedPerplexity num (some ds.counts)

/-- `latent_perplexity()`, serving.py:690-700. -/
def DataServer.latentPerplexity (num : ServeNum K) (ds : DataServer K M) : List K :=
  match ds.server with
  | .one srv => srv.latentPerplexity num
  | .many ens => ens.latentPerplexity num

/-- `latent_correlation()`, serving.py:702-713. -/
def DataServer.latentCorrelation (num : ServeNum K) (ds : DataServer K M) (junk : Nat → Fin M → Fin M → K) : Py (List (List K)) :=
  match ds.server with
  | .one srv => srv.latentCorrelation num junk
  | .many ens => ens.latentCorrelation num junk

variable {m : Type → Type} [Monad m] [Choose K m] [Shuffle m]

/-- `self._server.sample(N, counts, data)`. -/
def AnyServer.sample [NeZero M] (srv : AnyServer K M) (N : Nat) (counts : List Int) (data : Option (List Int)) : ExceptT PyErr m (List (List Int)) :=
  match srv with
  | .one srv => srv.sample N counts data
  | .many ens => ens.sample N counts data

/-- `sample_tree(num_samples)`, serving.py:658-660. -/
def DataServer.sampleTrees (num : ServeNum K) (junk : Nat → Nat) (ds : DataServer K M) (n : Nat) : ExceptT PyErr m (List (List Edge)) :=
  match ds.server with
  | .one srv => srv.sampleTrees num junk n
  | .many ens => ens.sampleTrees num junk n

/-- `sample(N, evidence)`, serving.py:738-754. -/
def DataServer.sample [NeZero M] (T : Text) (ds : DataServer K M) (N : Nat) (evidence : Option (Dict Str Json)) :
    ExceptT PyErr m (List (Dict Str Json)) := do
  let data ← match evidence with
    | none => pure none
    | some evidence => do
      let rows ← liftPy (importRows T ds.schema (.list [evidence]))
      pure rows.head?
  let samples ← ds.server.sample N ds.counts data
  liftPy (exportRows ds.schema ds.server.raggedSize samples)

end

end TreeCat
