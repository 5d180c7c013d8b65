import Mathlib.Data.List.Sort
import Verif.Model.Ensemble
import Verif.Model.Format
import Verif.Model.Serving

/-!
# Model of `treecat/validate.py`

The csv file and the dataset are passed by content. The directory of models is a dict from file
names to models; a training subprocess is a function that returns the model it would write. The
subprocesses run with `-O`, which switches assertions off; the model keeps them. Printing and
profiling are left out.
-/

namespace TreeCat

open Util
open Config (Str Config makeConfig serializeConfig deserializeConfig)

/-- `a.T` of an array of the given number of columns. -/
def transposed {α : Type} (d : α) (cols : Nat) (a : List (List α)) : List (List α) :=
  (List.range cols).map fun j => a.map fun row => row.getD j d

/-- `split_data(ragged_index, num_rows, num_parts, partid)`, validate.py:34-61. The generator has just been seeded with a constant,
so `np.random.randint(num_parts, size=(N, V))` is a function `draw` of its arguments. `junk` is the
content of the uninitialised array in `make_ragged_mask`. The assertion on the shape of the result
holds by construction. -/
def splitData (draw : Nat → Nat → Nat → List (List Nat)) (junk : Nat → List Bool) (ri : List Nat) (N : Nat) (parts partid : Int) :
    Py (List (List Bool)) := do
  pyAssert (decide (0 ≤ partid) && decide (partid < parts))
  let V := ri.length - 1
  let dense := (draw parts.toNat N V).map fun row => row.map fun (x : Nat) => decide (partid = (x : Int))
  let mask ← makeRaggedMask junk ri (transposed false V dense)
  .ok (transposed false N mask)

/-- `a = data.copy(); a[mask] = 0`, validate.py:111-112,176-179. -/
def zeroWhere (mask : List (List Bool)) (data : List (List Int)) : List (List Int) :=
  List.zipWith (List.zipWith fun b x => if b then 0 else x) mask data

/-- `~mask`. -/
def maskNot (mask : List (List Bool)) : List (List Bool) := mask.map fun row => row.map not

/-! ### `read_param_csv` -/

/-- `options[key] = int(value)`, validate.py:90. -/
def paramCell (T : Text) (options : Dict String Int) (kv : Str × Str) : Py (Dict String Int) :=
  match T.parseInt kv.2 with
  | some i => .ok (Dict.set options (String.ofList kv.1) i)
  | none => .error .valueError

/-- The cells of a row, validate.py:89-90. -/
def paramCells (T : Text) (options : Dict String Int) (cells : List (Str × Str)) : Py (Dict String Int) := cells.foldlM (paramCell T) options

/-- One row of the file, validate.py:86-92. The state is the dict `options` and the configs so far. -/
def paramRow (T : Text) (header : List Str) (parts : Int) (s : Dict String Int × List Config) (row : List Str) : Py (Dict String Int × List Config) :=
  if row.length ≠ header.length then .ok s
  else do
    let first ← pyGet row 0
    if first.head? = some '#' then .ok s
    else do
      let options ← paramCells T s.1 (header.zip row)
      let new ← (List.range parts.toNat).mapM fun (partid : Nat) => makeConfig (("seed", (partid : Int)) :: options)
      .ok (options, s.2 ++ new)

/-- `read_param_csv(param_csv_path, **options)`, validate.py:64-93. -/
def readParamCsv (T : Text) (csv : List (List Str)) (options : Dict String Int) : Py (List Str × List Config) := do
  let parts := Dict.getD options "model_ensemble_size" 4
  pyAssert (!decide ("seed" ∈ Dict.keys options))
  match csv with
  | [] => .error .stopIteration
  | header :: rows => do
    pyAssert (!decide ("seed".toList ∈ header))
    pyAssert (!decide ("model_ensemble_size".toList ∈ header))
    let s ← rows.foldlM (paramRow T header parts) (options, [])
    .ok (header, s.2)

/-! ### Training -/

section
variable {K β ρ : Type}

/-- The table on which `train_task` trains, validate.py:104-113. -/
def trainingTable (draw : Nat → Nat → Nat → List (List Nat)) (junk : Nat → List Bool) (table : Table) (c : Config) : Py Table := do
  let parts ← configGet c "model_ensemble_size"
  let partid ← configGet c "seed"
  pyAssert (decide (0 ≤ partid) && decide (partid < parts))
  let mask ← splitData draw junk table.raggedIndex table.numRows parts partid
  Table.make table.featureTypes table.raggedIndex (table.raggedIndex.getLastD 0) (zeroWhere mask table.data)

/-- `train_task(dataset_path, model_path, config_str)`, validate.py:96-118. -/
def trainTask (draw : Nat → Nat → Nat → List (List Nat)) (junk : Nat → List Bool) (run : TrainerKind → Table → List K → Config → Py β)
    (table : Table) (prior : List K) (configStr : Str) : Py β := do
  let config ← deserializeConfig configStr
  let t ← trainingTable draw junk table config
  trainModel run t prior config

/-- The name of the file of a model, validate.py:124,158-159. -/
def modelPath (configStr : Str) : Str := "model.".toList ++ configStr ++ ".pkz".toList

/-- `process_train_task(task)`, validate.py:121-137. -/
def processTrainTask (draw : Nat → Nat → Nat → List (List Nat)) (junk : Nat → List Bool) (run : TrainerKind → Table → List K → Config → Py β)
    (table : Table) (prior : List K) (c : Config) : Py (Str × β) := do
  let s ← serializeConfig c
  let model ← trainTask draw junk run table prior s
  .ok (modelPath s, model)

/-- `train(dataset_path, param_csv_path, models_dir, **options)`, validate.py:140-150. The tasks run in
parallel; here they run in order, and write their files in order. The order depends on the number of epochs:
`configs.sort` is stable. -/
def trainAll (T : Text) (draw : Nat → Nat → Nat → List (List Nat)) (junk : Nat → List Bool) (run : TrainerKind → Table → List K → Config → Py β)
    (table : Table) (prior : List K) (csv : List (List Str)) (options : Dict String Int) (dir : Dict Str β) : Py (Dict Str β) := do
  let r ← readParamCsv T csv options
  let keyed ← r.2.mapM fun c => do
    let k ← configGet c "learning_init_epochs"
    .ok (k, c)
  let files ← (keyed.insertionSort fun a b => a.1 ≤ b.1).mapM fun kc => processTrainTask draw junk run table prior kc.2
  .ok (files.foldl (fun d f => Dict.set d f.1 f.2) dir)

/-! ### Evaluation -/

/-- `process_eval_task(task)`, validate.py:153-163: a missing file gives a result without scores. `evaluate` is the rest of
the function. -/
def processEvalTask (evaluate : β → Config → Py ρ) (dir : Dict Str β) (c : Config) : Py (Config × Option ρ) := do
  let s ← serializeConfig c
  match Dict.get? dir (modelPath s) with
  | none => .ok (c, none)
  | some model => do
    let r ← evaluate model c
    .ok (c, some r)

/-- `eval(dataset_path, param_csv_path, models_dir, result_path, **options)`, validate.py:207-226. -/
def evalAll (T : Text) (evaluate : β → Config → Py ρ) (csv : List (List Str)) (options : Dict String Int) (dir : Dict Str β) :
    Py (List (Config × Option ρ)) := do
  let r ← readParamCsv T csv options
  r.2.mapM (processEvalTask evaluate dir)

/-- The scores of a model, validate.py:199-204. `none` is not a number. -/
structure Scores (K : Type) where
  logprob : Option K
  l1Loss : K

variable [Field K] [LinearOrder K] {M : Nat}

/-- `np.mean(a - b)`; a mean over nothing or with an infinite entry is `none`. -/
def meanDiff (a b : List (Option K)) : Option K := do
  let ds ← (a.zip b).mapM fun ab => do
    let x ← ab.1
    let y ← ab.2
    some (x - y)
  if ds = [] then none else some (ds.sum / (ds.length : K))

/-- `np.abs(a - b).sum()` of two int8 arrays: the difference and its absolute value are int8, the sum is not. -/
def absDiff (a b : List (List Int)) : Int :=
  ((a.zip b).map fun rs => ((rs.1.zip rs.2).map fun xy => wrap8 |wrap8 (xy.1 - xy.2)|).sum).sum

/-- `mask.sum()`. -/
def maskSum (mask : List (List Bool)) : Nat := (mask.map fun row => row.count true).sum

/-- The rest of `process_eval_task`, validate.py:165-204. `junk1` and `junk2` are the contents of uninitialised
arrays. -/
def evaluateModel [NeZero M] (num : ServeNum K) (mst : List (List K) → List Edge) (draw : Nat → Nat → Nat → List (List Nat)) (junk1 : Nat → List Bool)
    (junk2 : Nat → Fin M → K) (table : Table) (model : Model K M) (c : Config) : Py (Scores K) := do
  let srv ← Server.init mst model
  let parts ← configGet c "model_ensemble_size"
  let partid ← configGet c "seed"
  pyAssert (decide (0 ≤ partid) && decide (partid < parts))
  let ri := table.raggedIndex
  let data := table.data
  let mask ← splitData draw junk1 ri table.numRows parts partid
  let training := zeroWhere mask data
  let validation := zeroWhere (maskNot mask) data
  let full ← srv.logprob num data
  let part ← srv.logprob num training
  let obs ← countObservations ri (ri.getLastD 0) data
  match obs with
  | [] => .error .valueError
  | o :: os => do
    let top := os.foldl rowMax o
    let median ← srv.median junk2 top training
    let observed := obs.map fun row => List.zipWith (fun a b => decide (a = b)) row top
    let ragged ← makeRaggedMask junk1 ri (transposed false (ri.length - 1) observed)
    let relevant := List.zipWith (List.zipWith and) (transposed false table.numRows ragged) mask
    let l1 := absDiff (zeroWhere (maskNot relevant) median) (zeroWhere (maskNot relevant) validation)
    .ok ⟨meanDiff full part, 1 / 2 * (l1 : K) / ((maskSum relevant : K) + 1 / 10)⟩

end

end TreeCat
