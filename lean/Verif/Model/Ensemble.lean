import Verif.Model.Training

/-!
# Model of `train_model` and `train_ensemble` (training.py:819-880)

Config dicts are mutable and passed by reference, so the loop that prepares the tasks
is modelled on a heap of dicts. A run of a trainer is a function `run` of the table,
the prior and the config: `train` seeds both generators from `config['seed']` before
the first draw (training.py:242), so the generator state at entry has no influence.
-/

namespace TreeCat

open Config

section
variable {K β : Type}

/-- `d[key]` raising `KeyError`. -/
def configGet (c : Config) (key : String) : Py Int :=
  match lookup c key with
  | some i => .ok i
  | none => .error .keyError

/-- `train_model(table, tree_prior, config)`, training.py:819-850. `run` constructs the
trainer of the given kind and trains it. -/
def trainModel (run : TrainerKind → Table → List K → Config → Py β) (t : Table) (prior : List K) (c : Config) :
    Py β := do
  let M ← configGet c "model_num_clusters"
  let D ← configGet c "model_latent_dim"
  let kind ← pickTrainer M D
  run kind t prior c

/-- The body of the loop of `train_ensemble`, training.py:876-879. The dict of the caller is
at address `a` of the heap; the result is the new heap and the address of `sub_config`. -/
def ensembleStep (a : Nat) (h : Heap) (subSeed : Nat) : Py (Heap × Nat) :=
  match h[a]? with
  | none => .error .nameError
  | some c => do
    let h := h ++ [c]
    let sub := h.length - 1
    match h[sub]? with
    | none => .error .nameError
    | some d => do
      let seed ← configGet d "seed"
      .ok (h.set sub (assign d "seed" (seed + subSeed)), sub)

/-- The loop of `train_ensemble`, training.py:874-879: the tasks are the addresses of their
configs (table and prior are the same objects in all of them). -/
def ensembleLoop (a : Nat) : List Nat → Heap → List Nat → Py (Heap × List Nat)
  | [], h, tasks => .ok (h, tasks)
  | i :: is, h, tasks => do
    let r ← ensembleStep a h i
    ensembleLoop a is r.1 (tasks ++ [r.2])

/-- `_train_model(task)`, training.py:853-855, for the task whose config is at address `sub`. -/
def runTask (run : TrainerKind → Table → List K → Config → Py β) (t : Table) (prior : List K) (h : Heap) (sub : Nat) :
    Py β :=
  match h[sub]? with
  | some d => trainModel run t prior d
  | none => .error .nameError

/-- `train_ensemble(table, tree_prior, config)`, training.py:858-880. Returns the heap after
the call and the result. A task reads its config when it runs, after the loop; no trainer
writes to its config. -/
def trainEnsemble (run : TrainerKind → Table → List K → Config → Py β) (t : Table) (prior : List K)
    (threads : Nat) (schedule : List Nat) (pool : Util.PoolState) (h : Heap) (a : Nat) :
    Py (Heap × Py (List β)) :=
  match h[a]? with
  | none => .error .nameError
  | some c => do
    let size ← configGet c "model_ensemble_size"
    let r ← ensembleLoop a (List.range size.toNat) h []
    .ok (r.1, (Util.parallelMap (runTask run t prior r.1) r.2 threads schedule pool).2)

end

end TreeCat
