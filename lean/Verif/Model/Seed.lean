import Verif.Model.CommandLine

/-!
# The random generators: `set_random_seed`, and training with them

A process has two generators with separate states: that of numpy, and that of the functions compiled by numba. Both are modelled by
what they return and their state after it. The programs of the other modules, written over a monad with random choices, are run here with
these generators.
-/

namespace TreeCat

open Config (Config Heap)

/-- A generator with states `S`: `seed n` is the state after `np.random.seed(n)`, `rand` is `np.random.rand()`, `permutation n` is
`np.random.permutation(n)`, or the order into which `np.random.shuffle` brings `n` elements. -/
structure Rng (S K : Type) where
  seed : Nat → S
  rand : S → K × S
  permutation : Nat → S → List Nat × S

/-- The generators of the processes of one program. `jit` says whether `sample_from_probs` is compiled, util.py:43-54 and 77. -/
structure Host (S K : Type) where
  numpy : Rng S K
  numba : Rng S K
  jit : Bool

/-- The states of the generators of one process. -/
structure Gens (S : Type) where
  numpy : S
  numba : S
  deriving DecidableEq

/-- Programs that draw from the generators of their process and may raise. The states survive an exception. -/
def RunOn {S K : Type} (_host : Host S K) : Type → Type := ExceptT PyErr (StateM (Gens S))

section
variable {S K : Type} {host : Host S K} {α β : Type}

instance : Monad (RunOn host) := inferInstanceAs (Monad (ExceptT PyErr (StateM (Gens S))))

instance : LawfulMonad (RunOn host) := inferInstanceAs (LawfulMonad (ExceptT PyErr (StateM (Gens S))))

/-- Run a program from given states. -/
def RunOn.from (x : RunOn host α) (g : Gens S) : Py α × Gens S := (ExceptT.run x).run g

/-- A program given by what it does from each state. -/
def RunOn.of (x : Gens S → Py α × Gens S) : RunOn host α := ExceptT.mk x

/-- A program that draws nothing. -/
def RunOn.py (x : Py α) : RunOn host α := RunOn.of fun g => (x, g)

/-- `np.random.rand()` inside `sample_from_probs`: the generator of numba, or that of numpy if nothing is compiled. -/
def Host.rand (host : Host S K) (g : Gens S) : K × Gens S :=
  if host.jit then ((host.numba.rand g.numba).1, { g with numba := (host.numba.rand g.numba).2 })
  else ((host.numpy.rand g.numpy).1, { g with numpy := (host.numpy.rand g.numpy).2 })

/-- `sample_from_probs(probs)`, util.py:77-88, on a vector of length `n`. -/
instance [Field K] [LinearOrder K] : Choose K (RunOn host) where
  choose {n} p := RunOn.of fun g =>
    ((do
      let i ← Util.sampleFromProbs (List.ofFn p) (host.rand g).1
      if h : i < n then .ok ⟨i, h⟩ else .error .indexError), (host.rand g).2)

/-- `np.random.shuffle` and `np.random.permutation` are called from Python code only, training.py:91, structure.py:405. -/
instance : Shuffle (RunOn host) where
  permutation n := RunOn.of fun g =>
    (.ok (host.numpy.permutation n g.numpy).1, { g with numpy := (host.numpy.permutation n g.numpy).2 })

/-- `set_random_seed(seed)`, util.py:57-65. `np.random.seed` raises `ValueError` for a seed outside of 32 bits. Without the compiler
the state of numba, which is never read, is set here although there is no such generator. -/
def setRandomSeed (host : Host S K) (seed : Int) : RunOn host Unit :=
  RunOn.of fun g =>
    if 0 ≤ seed ∧ seed < 2 ^ 32 then
      let g := { g with numpy := host.numpy.seed seed.toNat }
      let g := { g with numba := host.numba.seed seed.toNat }
      (.ok (), g)
    else (.error .valueError, g)

/-! ### Training -/

section
variable [Field K] [LinearOrder K] {M : Nat} [NeZero M]

/-- `TreeCatTrainer(table, tree_prior, config).train()`, training.py:850, 231-284: the trainer is made before the generators are
seeded. The number of clusters of the config is `M`. -/
def seededTrain (host : Host S K) (num : Num K) (mst : List (List K) → List Edge) (junk : Nat → Nat) (t : Table) (prior : List K)
    (c : Config) : RunOn host (Model K M) := do
  let s0 : Trainer K M ← RunOn.py (Trainer.init t prior.length)
  let seed ← RunOn.py (configGet c "seed")
  setRandomSeed host seed
  let cfg ← RunOn.py (trainConfigOf c)
  let r ← (train num mst junk ((2 * cfg.initEpochs.toNat + 1) * t.numRows) t prior cfg : TrainM K M (RunOn host) (List K)).run.run s0
  RunOn.py (r.1.map (trainedModel t r.2))

/-- The trainers of `train_model`. Those for continuous latent spaces return models of another type and are left out. -/
def seededRun (host : Host S K) (num : Num K) (mst : List (List K) → List Edge) (junk : Nat → Nat) :
    TrainerKind → Table → List K → Config → RunOn host (Model K M)
  | .treeCat, t, prior, c => seededTrain host num mst junk t prior c
  | _, _, _, _ => RunOn.py (.error .notImplemented)

end

/-- `train_model(table, tree_prior, config)`, training.py:819-850, in a process with generators. -/
def trainModelOn (run : TrainerKind → Table → List K → Config → RunOn host β) (t : Table) (prior : List K) (c : Config) : RunOn host β := do
  let M ← RunOn.py (configGet c "model_num_clusters")
  let D ← RunOn.py (configGet c "model_latent_dim")
  let kind ← RunOn.py (pickTrainer M D)
  run kind t prior c

/-- `_train_model(task)`, training.py:853-855, for the task whose config is at address `sub`. -/
def runTaskOn (run : TrainerKind → Table → List K → Config → RunOn host β) (t : Table) (prior : List K) (h : Heap) (sub : Nat) : RunOn host β :=
  match h[sub]? with
  | some d => trainModelOn run t prior d
  | none => RunOn.py (.error .nameError)

/-! ### `parallel_map` with generators -/

/-- Chunk `i` of the arguments. -/
def chunkOf (args : List α) (size i : Nat) : List α := (args.drop (i * size)).take size

/-- The generators of the workers before chunk `i` is run: chunk `k` is run by worker `owner k`, and a worker runs its chunks in
their order. Between chunks it keeps the states of its generators. -/
def workerGens (f : α → RunOn host β) (args : List α) (size : Nat) (owner : Nat → Nat) (gens : Nat → Gens S) : Nat → Nat → Gens S
  | 0 => gens
  | i + 1 =>
    let before := workerGens f args size owner gens i
    Function.update before (owner i) (((chunkOf args size i).mapM f).from (before (owner i))).2

/-- `completeChunk` for workers with generators. -/
def completeChunkOn (f : α → RunOn host β) (args : List α) (size : Nat) (owner : Nat → Nat) (gens : Nat → Gens S) (r : Util.MapResult β)
    (i : Nat) : Util.MapResult β :=
  match (((chunkOf args size i).mapM f).from (workerGens f args size owner gens i (owner i))).1 with
  | .ok ys =>
    { r with value := r.value.mapIdx fun j y => if i * size ≤ j ∧ j < i * size + size then ys[j - i * size]? else y }
  | .error e => { r with failure := r.failure.or (some e) }

/-- `Pool.map(fun, args)` for workers with generators. -/
def poolMapOn (f : α → RunOn host β) (args : List α) (size : Nat) (owner : Nat → Nat) (gens : Nat → Gens S) (schedule : List Nat) : Py (List β) :=
  let r := schedule.foldl (completeChunkOn f args size owner gens) ⟨args.map fun _ => none, none⟩
  match r.failure with
  | some e => .error e
  | none =>
    match r.value.mapM id with
    | some ys => .ok ys
    | none => .error .timeout

/-- Which worker runs which chunk, and the states of the generators of the workers when `Pool.map` is called. -/
structure Workers (S : Type) where
  owner : Nat → Nat
  gens : Nat → Gens S

/-- `parallel_map(fun, args)`, util.py:213-220, in a process whose generators have the states `g`. Returns the new `POOL`, the result, and
the new states of the generators of the calling process. -/
def parallelMapOn (f : α → RunOn host β) (args : List α) (threads : Nat) (schedule : List Nat) (pool : Util.PoolState) (w : Workers S)
    (g : Gens S) : Util.PoolState × Py (List β) × Gens S :=
  if args.length < 2 ∨ threads = 1 then (pool, (args.mapM f).from g)
  else
    let n := pool.getD threads
    (some n, poolMapOn f args (Util.chunkSize args.length n) w.owner w.gens schedule, g)

/-- `train_ensemble(table, tree_prior, config)`, training.py:858-880, in a process whose generators have the states `g`. -/
def trainEnsembleOn (run : TrainerKind → Table → List K → Config → RunOn host β) (t : Table) (prior : List K) (threads : Nat)
    (schedule : List Nat) (pool : Util.PoolState) (w : Workers S) (g : Gens S) (h : Heap) (a : Nat) : Py (Heap × Py (List β)) :=
  match h[a]? with
  | none => .error .nameError
  | some c => do
    let size ← configGet c "model_ensemble_size"
    let r ← ensembleLoop a (List.range size.toNat) h []
    .ok (r.1, (parallelMapOn (runTaskOn run t prior r.1) r.2 threads schedule pool w g).2.1)

end

end TreeCat
