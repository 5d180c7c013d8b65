import Mathlib.Algebra.Order.Field.Basic
import Mathlib.Algebra.BigOperators.Group.Finset.Basic
import Mathlib.Algebra.BigOperators.Fin
import Mathlib.Data.List.FinRange
import Verif.Model.Py

/-!
# Model of `treecat/util.py`

Floats are elements of a linearly ordered field `K`; rounding, `nan` and `inf`
are not modelled.
-/

namespace TreeCat.Util

open scoped BigOperators

section Sampling

variable {K : Type} [Field K] [LinearOrder K]

/-- `probs.cumsum()` continued from a partial sum, util.py:87. -/
def cumsumFrom (acc : K) : List K → List K
  | [] => []
  | p :: ps => (acc + p) :: cumsumFrom (acc + p) ps

/-- `probs.cumsum()`, util.py:87. -/
def cumsum (ps : List K) : List K := cumsumFrom 0 ps

/-- `(x < cdf).argmax()`, util.py:88: numpy's argmax of a boolean vector is the
first `True`, and 0 if there is none. -/
def argmaxLt (x : K) (cdf : List K) : Nat :=
  match cdf.findIdx? (fun c => decide (x < c)) with
  | some i => i
  | none => 0

/-- `sample_from_probs(probs)`, util.py:77-88, as a function of the number `u`
that `np.random.rand()` returns. `cdf[-1]` of an empty vector raises. -/
def sampleFromProbs (probs : List K) (u : K) : Py Nat :=
  let cdf := cumsum probs
  match cdf.getLast? with
  | none => .error .indexError
  | some total => .ok (argmaxLt (u * total) cdf)

/-- `sample_from_probs2(probs)`, util.py:91-105, on an N x M array given as its
list of rows, with the column of uniform draws `np.random.rand(N, 1)`. The shape
assertion (line 102) holds by typing. -/
def sampleFromProbs2 (probs : List (List K)) (u : List K) : Py (List Nat) :=
  (probs.zip u).mapM fun pu => sampleFromProbs pu.1 pu.2

end Sampling

/-- Conversion of an integer to `np.int8` (wrap around). -/
def wrap8 (i : Int) : Int := (i + 128) % 256 - 128

section Quantize

variable {K : Type} [Field K] [LinearOrder K]

/-- `probs.argmax()` on a vector: index of the first maximum; `none` (numpy
raises `ValueError`) for the empty vector. -/
def argmax {M : Nat} (f : Fin M → K) : Option (Fin M) :=
  (List.finRange M).foldl (fun best i =>
    match best with
    | none => some i
    | some j => if f j < f i then some i else some j) none

/-- One iteration of the loop of `quantize_from_probs2` on one row,
util.py:123-126. `result` is an int8 array. -/
def quantizeStep {M : Nat} (resolution : Nat) (s : (Fin M → Int) × (Fin M → K)) :
    Py ((Fin M → Int) × (Fin M → K)) :=
  match argmax s.2 with
  | none => .error .valueError
  | some i => .ok (Function.update s.1 i (wrap8 (s.1 i + 1)),
      Function.update s.2 i (s.2 i - 1 / (resolution : K)))

/-- `k` iterations of the loop, util.py:123-126. -/
def quantizeLoop {M : Nat} (resolution : Nat) :
    Nat → (Fin M → Int) × (Fin M → K) → Py ((Fin M → Int) × (Fin M → K))
  | 0, s => .ok s
  | k + 1, s => (quantizeStep resolution s).bind (quantizeLoop resolution k)

/-- One row of `quantize_from_probs2(probs, resolution)`, util.py:108-127. Rows do
not interact, so the N x M function is this on every row. A zero row total gives
nan in numpy; here it gives `0 / 0 = 0`, and the theorems assume a positive
total. -/
def quantizeRow {M : Nat} (probs : Fin M → K) (resolution : Nat) : Py (Fin M → Int) :=
  (quantizeLoop resolution resolution
    (fun _ => 0, fun i => probs i / ∑ j, probs j)).map (·.1)

/-- `quantize_from_probs2(probs, resolution)`, util.py:108-127. -/
def quantizeFromProbs2 {N M : Nat} (probs : Fin N → Fin M → K) (resolution : Nat) :
    Fin N → Py (Fin M → Int) :=
  fun n => quantizeRow (probs n) resolution

end Quantize

/-! ### Ragged arrays -/

/-- The loop of `make_ragged_index`, util.py:140-143, from the current offset. -/
def raggedFrom (acc : Nat) : List Nat → List Nat
  | [] => [acc]
  | w :: ws => acc :: raggedFrom (acc + w) ws

/-- `make_ragged_index(columns)`, util.py:130-145, on the list of column widths
`column.shape[-1]`. int32 overflow is not modelled. -/
def makeRaggedIndex (widths : List Nat) : List Nat := raggedFrom 0 widths

/-- Slice assignment `a[beg:end] = x` on the first axis. Positions outside the
array are ignored, as in numpy. -/
def sliceFill {α : Type} (a : List α) (beg stop : Nat) (x : α) : List α :=
  a.mapIdx fun i y => if beg ≤ i ∧ i < stop then x else y

/-- The loop of `make_ragged_mask`, util.py:164-166, over `v = i, i+1, ...`. -/
def raggedMaskLoop {α : Type} (ri : List Nat) (mask : List α) : Nat → Nat → List α → Py (List α)
  | 0, _, a => .ok a
  | k + 1, v, a => do
    let beg ← pyGet ri v
    let stop ← pyGet ri (v + 1)
    let x ← pyGet mask v
    raggedMaskLoop ri mask k (v + 1) (sliceFill a beg stop x)

/-- `make_ragged_mask(ragged_index, mask)`, util.py:148-167. The dtype assertion
holds by typing; a mask entry may itself be an array (type `α`). `np.empty`
returns unspecified contents: `junk`. -/
def makeRaggedMask {α : Type} (junk : Nat → α) (ri : List Nat) (mask : List α) : Py (List α) := do
  let R ← match ri.getLast? with
    | some R => .ok R
    | none => .error .indexError
  pyAssert (mask.length == ri.length - 1)
  raggedMaskLoop ri mask (ri.length - 1) 0 ((List.range R).map junk)

/-- `data[n, beg:end].sum()`, util.py:189, on one row. numpy accumulates int8
data in the platform integer; that wider overflow is not modelled. -/
def sliceSum (row : List Int) (beg stop : Nat) : Int := ((row.take stop).drop beg).sum

/-- One row of `count_observations(ragged_index, data)`, util.py:170-190. Storing
into the int8 array `counts` wraps. -/
def countRow (ri : List Nat) (row : List Int) : List Int :=
  (ri.zip ri.tail).map fun be => wrap8 (sliceSum row be.1 be.2)

/-- `count_observations(ragged_index, data)`, util.py:170-190, on the list of
rows of `data`, an N x R array. -/
def countObservations (ri : List Nat) (R : Nat) (data : List (List Int)) : Py (List (List Int)) := do
  let last ← match ri.getLast? with
    | some last => .ok last
    | none => .error .indexError
  pyAssert (R == last)
  .ok (data.map (countRow ri))

/-- Columnwise maximum of two rows. -/
def rowMax (a b : List Int) : List Int := a.zipWith max b

/-- `guess_counts(ragged_index, data)`, util.py:193-207. The max over an empty
axis raises `ValueError`. -/
def guessCounts (ri : List Nat) (R : Nat) (data : List (List Int)) : Py (List Int) := do
  let counts ← countObservations ri R data
  match counts with
  | [] => .error .valueError
  | c :: cs => .ok (cs.foldl rowMax c)

/-! ### `parallel_map` -/

section Parallel

variable {α β : Type}

/-- `list(map(fun, args))`: the first raise wins, util.py:217. -/
def serialMap (f : α → Py β) (args : List α) : Py (List β) := args.mapM f

/-- The chunk size of `multiprocessing.Pool.map` (CPython `Pool._map_async`):
`divmod(len(iterable), len(pool) * 4)`, rounded up. -/
def chunkSize (n threads : Nat) : Nat :=
  if n % (threads * 4) = 0 then n / (threads * 4) else n / (threads * 4) + 1

/-- State of a `multiprocessing.pool.MapResult`: the value list being filled, and
the exception of the first failing chunk to arrive, if any. -/
structure MapResult (β : Type) where
  value : List (Option β)
  failure : Option PyErr

/-- A worker finishes chunk `i` and its result is handled: CPython
`MapResult._set`. A successful chunk is stored at its own position
`value[i*chunksize:(i+1)*chunksize]`. -/
def completeChunk (f : α → Py β) (args : List α) (size : Nat) (r : MapResult β) (i : Nat) :
    MapResult β :=
  match ((args.drop (i * size)).take size).mapM f with
  | .ok ys =>
    { r with value := r.value.mapIdx fun j y =>
        if i * size ≤ j ∧ j < i * size + size then ys[j - i * size]? else y }
  | .error e => { r with failure := r.failure.or (some e) }

/-- `Pool.map(fun, args)` when workers finish chunks in the order `schedule`. -/
def poolMap (f : α → Py β) (args : List α) (size : Nat) (schedule : List Nat) : Py (List β) :=
  let r := schedule.foldl (completeChunk f args size) ⟨args.map fun _ => none, none⟩
  match r.failure with
  | some e => .error e
  | none =>
    match r.value.mapM id with
    | some ys => .ok ys
    | none => .error .timeout

/-- The module global `POOL`, util.py:210: the thread count it was built with. -/
abbrev PoolState := Option Nat

/-- `parallel_map(fun, args)`, util.py:213-220. `threads` is `TREECAT_THREADS`,
`schedule` the order in which the workers finish. Returns the new `POOL`. `fun` is
a function of its argument only (worker processes share no state). -/
def parallelMap (f : α → Py β) (args : List α) (threads : Nat) (schedule : List Nat)
    (pool : PoolState) : PoolState × Py (List β) :=
  if args.length < 2 ∨ threads = 1 then (pool, serialMap f args)
  else
    let n := pool.getD threads
    (some n, poolMap f args (chunkSize args.length n) schedule)

end Parallel

end TreeCat.Util
