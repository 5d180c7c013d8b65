import Verif.Model.DataServer
import Verif.Model.FormatText
import Verif.Model.Ensemble

/-!
# The commands of the README: `guess-schema`, `import-data`, `train`, and `serve_model`

Each command is a function on the contents of the disk. Text files are modelled by their decoded
text (the locale is taken to be utf-8, the default of `csv_reader`); a file written by
`pickle_dump` is modelled by the serializer that wrote it and the object, because `pickle` and
`jsonpickle` are libraries.
-/

namespace TreeCat

open Util
open Config (Str)

/-- How a compressed file was written: by `pickle` or by `jsonpickle`, format.py:54-59. -/
inductive Codec where
  | pickle | json
  deriving DecidableEq, Repr

/-- The objects that the commands store: a dataset (a dict with the keys `schema` and `table`), a
model (a dict), an ensemble (a list of models). -/
inductive Stored (K : Type) (M : Nat) where
  | dataset (schema : Schema) (table : Table)
  | model (model : Model K M)
  | ensemble (models : List (Model K M))

/-- What a file holds. -/
inductive Content (K : Type) (M : Nat) where
  | text (text : Str)
  | packed (codec : Codec) (obj : Stored K M)

/-- The files by path. -/
abbrev Disk (K : Type) (M : Nat) := Str → Option (Content K M)

section
variable {K : Type} {M : Nat}

/-- Writing a whole file. Writing never fails: permissions and missing directories are not modelled. -/
def Disk.write (disk : Disk K M) (path : Str) (content : Content K M) : Disk K M :=
  fun p => if p = path then some content else disk p

/-- The choice of the serializer, format.py:53-62 and 67-76. -/
def codecOf (path : Str) : Py Codec :=
  if ".pkz".toList <:+ path then .ok .pickle
  else if ".jz".toList <:+ path then .ok .json
  else .error .valueError

/-- `pickle_dump(data, filename)`, format.py:52-62. -/
def pickleDump (disk : Disk K M) (obj : Stored K M) (path : Str) : Py (Disk K M) := do
  let codec ← codecOf path
  .ok (disk.write path (.packed codec obj))

/-- `pickle_load(filename)`, format.py:65-75. Unpacking a file that is no gzip file is an error of the
operating system (`OSError`), and a file of the other serializer cannot be decoded. -/
def pickleLoad (disk : Disk K M) (path : Str) : Py (Stored K M) := do
  let codec ← codecOf path
  match disk path with
  | none => .error .ioError
  | some (.text _) => .error .ioError
  | some (.packed codec' obj) => if codec = codec' then .ok obj else .error .valueError

/-- The text of a file opened by `csv_reader`, format.py:91-97. A gzip file is not valid utf-8
(`UnicodeDecodeError` is a `ValueError`). -/
def readText (disk : Disk K M) (path : Str) : Py Str :=
  match disk path with
  | none => .error .ioError
  | some (.packed _ _) => .error .valueError
  | some (.text text) => .ok text

/-- `os.path.basename(path)`, format.py:205: what comes after the last slash. -/
def basename (path : Str) : Str := (path.reverse.takeWhile (· != '/')).reverse

/-- `data_csvs_in.split(',')`, format.py:199 and 561. -/
def splitPaths (paths : Str) : List Str := paths.splitOn ','

/-- One data file of `guess_schema`: its base name and its text, format.py:199-205. -/
def readNamed (disk : Disk K M) (path : Str) : Py (Str × Str) := do
  let text ← readText disk path
  .ok (basename path, text)

/-- `guess_schema(data_csvs_in, types_csv_out, values_csv_out)`, format.py:185-264. -/
def guessSchemaCmd (T : Text) (disk : Disk K M) (dataCsvs typesOut valuesOut : Str) : Py (Disk K M) := do
  let files ← (splitPaths dataCsvs).mapM (readNamed disk)
  let tv ← guessSchemaText T files
  .ok ((disk.write typesOut (.text tv.1)).write valuesOut (.text tv.2))

/-- `if groups_csv_in:`, format.py:322. -/
def readGroups (disk : Disk K M) (path : Str) : Py (Option Str) :=
  if path = [] then .ok none else (readText disk path).map some

/-- `import_data(data_csvs_in, types_csv_in, values_csv_in, groups_csv_in, dataset_out)`, format.py:547-577.
All files are read before the work begins; which of several errors comes first is not modelled. -/
def importDataCmd (T : Text) (disk : Disk K M) (dataCsvs typesIn valuesIn groupsIn datasetOut : Str) : Py (Disk K M) := do
  let types ← readText disk typesIn
  let values ← readText disk valuesIn
  let groups ← readGroups disk groupsIn
  let csvs ← (splitPaths dataCsvs).mapM (readText disk)
  let st ← importDataText T csvs types values groups
  pickleDump disk (.dataset st.1 st.2) datasetOut

/-- The entries of the config that `train` reads, training.py:242-245 and 275. -/
def trainConfigOf (c : Config.Config) : Py TrainConfig := do
  let _ ← configGet c "seed"
  let initEpochs ← configGet c "learning_init_epochs"
  let fullEpochs ← configGet c "learning_full_epochs"
  let sampleTreeRate ← configGet c "learning_sample_tree_rate"
  let estimateTree ← configGet c "learning_estimate_tree"
  .ok ⟨initEpochs, fullEpochs, sampleTreeRate, decide (estimateTree ≠ 0)⟩

/-- `dataset['table']` and `dataset['schema']`, __main__.py:24-26. A model is a dict without these keys,
an ensemble is a list. -/
def asDataset : Stored K M → Py (Schema × Table)
  | .dataset schema table => .ok (schema, table)
  | .model _ => .error .keyError
  | .ensemble _ => .error .typeError

/-- `train(dataset_in, ensemble_out, **options)`, __main__.py:20-29. `run` constructs and runs the trainer,
as in `trainEnsemble`; `threads`, `schedule` and `pool` are those of `parallel_map`. -/
def trainCmd [DivisionRing K] (run : TrainerKind → Table → List K → Config.Config → Py (Model K M)) (threads : Nat) (schedule : List Nat)
    (pool : Util.PoolState) (disk : Disk K M) (datasetIn ensembleOut : Str) (options : List (String × Int)) : Py (Disk K M) := do
  let obj ← pickleLoad disk datasetIn
  let st ← asDataset obj
  let made := Config.makeConfigHeap Config.Heap.init options
  let a ← made.2
  let r ← trainEnsemble run st.2 (st.1.treePrior.map fun q : ℚ => (q : K)) threads schedule pool made.1 a
  let models ← r.2
  pickleDump disk (.ensemble models) ensembleOut

/-- `if isinstance(model, dict): model = [model]`, serving.py:801-802. A dataset is a dict too, but has
none of the keys that `TreeCatServer` reads. -/
def asEnsemble : Stored K M → Py (List (Model K M))
  | .dataset _ _ => .error .keyError
  | .model model => .ok [model]
  | .ensemble models => .ok models

/-- `serve_model(dataset, model)` with two paths, serving.py:785-803. -/
def serveModel [Field K] [LinearOrder K] (mst : List (List K) → List Edge) (disk : Disk K M) (dataset model : Str) : Py (DataServer K M) := do
  let d ← pickleLoad disk dataset
  let m ← pickleLoad disk model
  let st ← asDataset d
  let models ← asEnsemble m
  DataServer.init mst st.1 st.2 models

end

end TreeCat
