import Verif.Model.GenerateFiles
import Verif.Model.CommandLine

/-!
# Model of `treecat/profile.py`

The tools are programs of the operating system: `exit` gives the exit status of a launch. A call returns the launches it made, in
order, and what it raised. What `train_files` and `serve_files` do in the launched process is modelled on the directory `DATA` of
generated files; the temporary directory with the pickled config holds one file, so the config is passed as a value.
`profile.eval` is in `Model/ProfileEval.lean`.
-/

namespace TreeCat

open Util
open Config (Str)

/-- A started program: its arguments and its environment. -/
structure Launch where
  args : List Str
  env : Dict Str Str
  deriving DecidableEq

/-- What `run_with_tool` raises: `ValueError`, profile.py:55, or `CalledProcessError`, profile.py:29 (and in `subprocess.check_call`). -/
inductive ToolError where
  | unknownTool
  | calledProcess (status : Int) (args : List Str)
  deriving DecidableEq

/-- `check_call_env(cmd, env)`, profile.py:26-29. A program that is not installed (`OSError`) is not modelled. -/
def checkCallEnv (exit : Launch → Int) (l : Launch) : List Launch × Option ToolError :=
  ([l], if exit l ≠ 0 then some (.calledProcess (exit l) l.args) else none)

/-- `env.setdefault(key, value)`, profile.py:37-38. -/
def setDefault (env : Dict Str Str) (key value : Str) : Dict Str Str := if Dict.has env key then env else Dict.set env key value

/-- `run_with_tool(cmd, tool, dirname)`, profile.py:32-55. `python` is `sys.executable`, `darwin` tells the platform, `environ` is `os.environ`. -/
def runWithTool (exit : Launch → Int) (python : Str) (darwin : Bool) (environ : Dict Str Str) (cmd : List Str) (tool dirname : Str) :
    List Launch × Option ToolError :=
  let profilePath := dirname ++ "/profile_train.prof".toList
  let env := Dict.set environ "TREECAT_THREADS".toList "1".toList
  if tool = "timers".toList then
    let env := setDefault env "TREECAT_PROFILE".toList "1".toList
    let env := setDefault env "TREECAT_LOG_LEVEL".toList "20".toList
    checkCallEnv exit ⟨[python, "-O".toList] ++ cmd, env⟩
  else if tool = "time".toList then
    let gnuTime := if darwin then "gtime".toList else "/usr/bin/time".toList
    checkCallEnv exit ⟨[gnuTime, "-v".toList, python, "-O".toList] ++ cmd, env⟩
  else if tool = "snakeviz".toList then
    let r := checkCallEnv exit ⟨[python, "-m".toList, "cProfile".toList, "-o".toList, profilePath] ++ cmd, env⟩
    match r.2 with
    | some e => (r.1, some e)
    | none =>
      -- `check_call` without `env`: the process inherits `os.environ`
      let r' := checkCallEnv exit ⟨["snakeviz".toList, profilePath], environ⟩
      (r.1 ++ r'.1, r'.2)
  else if tool = "line_profiler".toList then
    checkCallEnv exit ⟨["kernprof".toList, "-l".toList, "-v".toList, "-o".toList, profilePath] ++ cmd, env⟩
  else if tool = "pdb".toList then checkCallEnv exit ⟨[python, "-m".toList, "pdb".toList] ++ cmd, env⟩
  else ([], some .unknownTool)

section
variable {K : Type} [Field K] [LinearOrder K] {M : Nat}

/-- `train_files(dataset_path, config_path)`, profile.py:59-68, which drops the ensemble; here it is returned. -/
def trainFiles (run : TrainerKind → Table → List K → Config.Config → Py (Model K M)) (threads : Nat) (schedule : List Nat) (pool : Util.PoolState)
    (disk : GenDisk K M) (path : Str) (config : Config.Config) : Py (List (Model K M)) := do
  let table ← loadTable disk path
  let V := table.numCols
  let r ← trainEnsemble run table (List.replicate (V * (V - 1) / 2) 0) threads schedule pool [config] 0
  r.2

/-- The configs and the dataset that `train(rows, cols, epochs, clusters, parallel, tool)` hands to `train_files`, profile.py:88-108, and
what that does. The dataset has the default number of categories and the default rate, generate.py:61. -/
def profileTrain (rng : Nat → Nat → Nat → ℚ → Nat → Nat → List Nat) (run : TrainerKind → Table → List K → Config.Config → Py (Model K M))
    (threads : Nat) (schedule : List Nat) (pool : Util.PoolState) (disk : GenDisk K M) (rows cols : Nat) (epochs clusters parallel : Int) :
    GenDisk K M × Py (List (Model K M)) :=
  match Config.makeConfig [("learning_init_epochs", epochs), ("model_num_clusters", clusters), ("model_ensemble_size", 1),
      ("learning_parallel", parallel)] with
  | .error e => (disk, .error e)
  | .ok config =>
    match generateDatasetFile rng disk rows cols 4 1 with
    | (disk, .error e) => (disk, .error e)
    | (disk, .ok path) => (disk, trainFiles run threads schedule pool disk path config)

/-- `pickle_load(model_path)` for a model, profile.py:76. A dataset is a dict without the key `suffstats`. -/
def loadModel (disk : GenDisk K M) (path : Str) : Py (Model K M) :=
  match disk path with
  | none => .error .ioError
  | some (.dataset _) => .error .keyError
  | some (.model m) => .ok m

/-- What `serve_files` computes and drops: the samples, their log probabilities, their medians and the correlations. -/
structure Served (K : Type) where
  samples : List (List Int)
  logprobs : List (Option K)
  medians : List (List Int)
  correlation : List (List K)

variable {m : Type → Type} [Monad m] [Choose K m] [Shuffle m]

/-- `serve_files(model_path, config_path, num_samples)`, profile.py:72-84. The config replaces that of the model; a server reads only its number
of clusters, which has to be the size of the arrays (other numbers are not modelled). -/
def serveFiles [NeZero M] (mst : List (List K) → List Edge) (num : ServeNum K) (junk : Nat → Fin M → K) (junk2 : Nat → Fin M → Fin M → K)
    (disk : GenDisk K M) (path : Str) (config : Config.Config) (numSamples : Nat) : ExceptT PyErr m (Served K) := do
  let model ← liftPy (loadModel disk path)
  let clusters ← liftPy (configGet config "model_num_clusters")
  liftPy (pyAssert (decide (clusters = M)))
  let srv ← liftPy (Server.init mst model)
  let counts := List.replicate model.tree.numVertices 1
  let samples ← srv.sample numSamples counts none
  let logprobs ← liftPy (srv.logprob num samples)
  let medians ← liftPy (srv.median junk counts samples)
  let correlation ← liftPy (srv.latentCorrelation num junk2)
  pure ⟨samples, logprobs, medians, correlation⟩

/-- `serve(rows, cols, cats, tool)`, profile.py:112-123, and what `serve_files` does. -/
def profileServe [NeZero M] (rng : Nat → Nat → Nat → ℚ → Nat → Nat → List Nat) (run : TrainerKind → Table → List K → Config.Config → Py (Model K M))
    (mst : List (List K) → List Edge) (num : ServeNum K) (junk : Nat → Fin M → K) (junk2 : Nat → Fin M → Fin M → K)
    (disk : GenDisk K M) (rows cols cats : Nat) : GenDisk K M × ExceptT PyErr m (Served K) :=
  match Config.makeConfig [] with
  | .error e => (disk, throw e)
  | .ok config =>
    match generateModelFile rng run disk rows cols cats 1 with
    | (disk, .error e) => (disk, throw e)
    | (disk, .ok path) => (disk, serveFiles mst num junk junk2 disk path config rows)

end

end TreeCat
