import Mathlib.Data.Rat.Floor
import Verif.Model.Generate
import Verif.Model.Ensemble

/-!
# Model of `treecat/generate.py`: the files of generated datasets and models

The directory `DATA` is a function from names to contents. A call returns the new directory and its result, because a
call that raises may already have written a file. `pickle_dump` and `pickle_load` are those of names ending in `.pkz`.
-/

namespace TreeCat

open Config (Str natDigits)

/-- What a generated file holds: a dataset (`ragged_index`, the length of `tree_prior`, and the table) or a model. -/
inductive GenStored (K : Type) (M : Nat) where
  | dataset (d : List Nat × Nat × Table)
  | model (m : Model K M)

/-- The files in `DATA`, by name. -/
abbrev GenDisk (K : Type) (M : Nat) := Str → Option (GenStored K M)

/-- The nearest number of tenths, ties to even, of the absolute value: what `'{:0.1f}'` prints of a float, which is a rational
number. -/
def tenths (q : ℚ) : Nat :=
  let f := ⌊|q| * 10⌋.toNat
  let r := |q| * 10 - f
  if r < 1 / 2 then f else if 1 / 2 < r then f + 1 else if f % 2 = 0 then f else f + 1

/-- `'{:0.1f}'.format(q)`, generate.py:67, 224. -/
def fmtTenths (q : ℚ) : Str := (if q < 0 then ['-'] else []) ++ natDigits (tenths q / 10) ++ '.' :: natDigits (tenths q % 10)

/-- `'{}-{}-{}-{:0.1f}'.format(num_rows, num_cols, num_cats, rate)`, generate.py:67-68, 224-225. -/
def fileStem (N V C : Nat) (rate : ℚ) : Str :=
  natDigits N ++ '-' :: (natDigits V ++ '-' :: (natDigits C ++ '-' :: fmtTenths rate))

/-- The name of a dataset, generate.py:67-68. -/
def datasetName (N V C : Nat) (rate : ℚ) : Str := fileStem N V C rate ++ ".dataset.pkz".toList

/-- The name of a model, generate.py:224-225. -/
def modelName (N V C : Nat) (rate : ℚ) : Str := fileStem N V C rate ++ ".model.pkz".toList

section
variable {K : Type} [Field K] {M : Nat}

/-- `generate_dataset(num_rows, num_cols, num_cats, rate)` with its draws, generate.py:28-58: `rng` are the counts that numpy draws
after `set_random_seed(0)`, a function of the arguments. `np.random.poisson` raises for a negative rate (it also raises
for a rate near the largest int64, which is not modelled). -/
def generateSeeded (rng : Nat → Nat → Nat → ℚ → Nat → Nat → List Nat) (N V C : Nat) (rate : ℚ) : Py (List Nat × Nat × Table) :=
  if 0 < C ∧ rate < 0 ∧ 0 < N ∧ 0 < V then .error .valueError else generateDataset (rng N V C rate) N V C

/-- `generate_dataset_file(num_rows, num_cols, num_cats, rate)`, generate.py:61-76. -/
def generateDatasetFile (rng : Nat → Nat → Nat → ℚ → Nat → Nat → List Nat) (disk : GenDisk K M) (N V C : Nat) (rate : ℚ) :
    GenDisk K M × Py Str :=
  match disk (datasetName N V C rate) with
  | some _ => (disk, .ok (datasetName N V C rate))
  | none =>
    match generateSeeded rng N V C rate with
    | .error e => (disk, .error e)
    | .ok d => (fun p => if p = datasetName N V C rate then some (.dataset d) else disk p, .ok (datasetName N V C rate))

/-- `pickle_load(dataset_path)['table']`, generate.py:234-235. -/
def loadTable (disk : GenDisk K M) (path : Str) : Py Table :=
  match disk path with
  | none => .error .ioError
  | some (.model _) => .error .keyError
  | some (.dataset d) => .ok d.2.2

/-- What `generate_model_file` trains, generate.py:236-238. -/
def trainGenerated (run : TrainerKind → Table → List K → Config.Config → Py (Model K M)) (disk : GenDisk K M) (V : Nat) (path : Str) :
    Py (Model K M) := do
  let table ← loadTable disk path
  let config ← Config.makeConfig [("learning_init_epochs", 5)]
  trainModel run table (List.replicate (V * (V - 1) / 2) 0) config

/-- `generate_model_file(num_rows, num_cols, num_cats, rate)`, generate.py:218-240. `run` constructs and runs the trainer, as in
`trainEnsemble`. -/
def generateModelFile (rng : Nat → Nat → Nat → ℚ → Nat → Nat → List Nat)
    (run : TrainerKind → Table → List K → Config.Config → Py (Model K M)) (disk : GenDisk K M) (N V C : Nat) (rate : ℚ) :
    GenDisk K M × Py Str :=
  match disk (modelName N V C rate) with
  | some _ => (disk, .ok (modelName N V C rate))
  | none =>
    match generateDatasetFile rng disk N V C rate with
    | (disk, .error e) => (disk, .error e)
    | (disk, .ok path) =>
      match trainGenerated run disk V path with
      | .error e => (disk, .error e)
      | .ok m => (fun p => if p = modelName N V C rate then some (.model m) else disk p, .ok (modelName N V C rate))

/-- The calls that touch `DATA`; `clean` is generate.py:243-247. -/
inductive GenCall where
  | dataset (N V C : Nat) (rate : ℚ)
  | model (N V C : Nat) (rate : ℚ)
  | clean
  deriving DecidableEq

/-- The directory after a call. -/
def GenCall.run (rng : Nat → Nat → Nat → ℚ → Nat → Nat → List Nat)
    (train : TrainerKind → Table → List K → Config.Config → Py (Model K M)) (disk : GenDisk K M) : GenCall → GenDisk K M
  | .dataset N V C rate => (generateDatasetFile rng disk N V C rate).1
  | .model N V C rate => (generateModelFile rng train disk N V C rate).1
  | .clean => fun _ => none

end

end TreeCat
