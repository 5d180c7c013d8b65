import Verif.Model.Py

/-!
# Model of `treecat/config.py`

A config dict has nine fixed string keys and integer values (Python's `True` and
`False` are the integers 1 and 0 under `==` and `int`).  Dicts are association
lists with distinct keys; strings are lists of characters so that splitting and
joining can be reasoned about.
-/

namespace TreeCat.Config

/-- A Python `str`. -/
abbrev Str := List Char

/-- A config dict as an association list. -/
abbrev Config := List (String × Int)

/-- `DEFAULT_CONFIG`, config.py:6-16, in source order. -/
def defaultConfig : Config :=
  [ ("seed", 0),
    ("model_num_clusters", 32),
    ("model_latent_dim", 0),
    ("model_ensemble_size", 8),
    ("learning_init_epochs", 100),
    ("learning_full_epochs", 1),
    ("learning_estimate_tree", 1),
    ("learning_sample_tree_rate", 3),
    ("learning_parallel", 0) ]

/-- `d[key]`; `KeyError` is `none`. -/
def lookup (c : Config) (key : String) : Option Int :=
  match c with
  | [] => none
  | (k, v) :: c => if k = key then some v else lookup c key

/-- `d[key] = value` for a key already present (the only case that occurs). -/
def assign (c : Config) (key : String) (value : Int) : Config :=
  c.map fun (k, v) => if k = key then (k, value) else (k, v)

/-- The keys of a dict. -/
def keys (c : Config) : List String := c.map Prod.fst

/-- The loop body of `make_config`, config.py:22-26. Option values are already
integers here: `int(value)` is the identity on them. -/
def makeConfigStep (c : Config) (kv : String × Int) : Py Config :=
  if kv.1 ∈ keys c then .ok (assign c kv.1 kv.2) else .error .valueError

/-- `make_config(**options)`, config.py:19-27. `DEFAULT_CONFIG.copy()` is the
initial value of the fold; the options dict is a list of pairs. -/
def makeConfig (options : List (String × Int)) : Py Config :=
  options.foldlM makeConfigStep defaultConfig

/-! ### Aliasing: `make_config` on a heap of dicts

`make_config` returns a mutable dict. To state that callers never share state
with `DEFAULT_CONFIG`, the same function is also modelled on a heap. -/

/-- The live dict objects, by address. Address 0 is `DEFAULT_CONFIG`. -/
abbrev Heap := List Config

/-- The heap after importing the module, config.py:6-16. -/
def Heap.init : Heap := [defaultConfig]

/-- The loop of `make_config` mutating the dict at address `a` in place,
config.py:22-26. -/
def mutateLoop (h : Heap) (a : Nat) : List (String × Int) → Heap × Py Unit
  | [] => (h, .ok ())
  | kv :: opts =>
    match h[a]? with
    | none => (h, .error .keyError)
    | some c =>
      if kv.1 ∈ keys c then mutateLoop (h.set a (assign c kv.1 kv.2)) a opts
      else (h, .error .valueError)

/-- `make_config(**options)` on the heap, config.py:19-27: line 21 allocates a
copy of the dict at address 0, and the loop mutates that copy. -/
def makeConfigHeap (h : Heap) (options : List (String × Int)) : Heap × Py Nat :=
  let r := mutateLoop (h ++ [(h[0]?).getD []]) h.length options
  (r.1, r.2.map fun _ => h.length)

/-- What client code can do: call `make_config`, or assign to a key of a dict
that an earlier call returned (address at least 1). -/
inductive HeapOp where
  | make (options : List (String × Int))
  | mutate (addr : Nat) (key : String) (value : Int)

/-- One client operation. -/
def Heap.step (h : Heap) : HeapOp → Heap
  | .make opts => (makeConfigHeap h opts).1
  | .mutate addr key value =>
    match h[addr + 1]? with
    | some c => h.set (addr + 1) (assign c key value)
    | none => h

/-- The sorted key list `sorted(make_config().keys())`, config.py:32-33,40. -/
def sortedKeys : List String :=
  [ "learning_estimate_tree",
    "learning_full_epochs",
    "learning_init_epochs",
    "learning_parallel",
    "learning_sample_tree_rate",
    "model_ensemble_size",
    "model_latent_dim",
    "model_num_clusters",
    "seed" ]

/-- Decimal digits of a natural number, most significant first. -/
def natDigits (n : Nat) : Str :=
  if n < 10 then [Char.ofNat (48 + n)]
  else natDigits (n / 10) ++ [Char.ofNat (48 + n % 10)]

/-- `str(n)` of a Python int, config.py:34. -/
def intStr : Int → Str
  | .ofNat n => natDigits n
  | .negSucc n => '-' :: natDigits (n + 1)

/-- `'-'.join(parts)`, config.py:34. -/
def joinDash : List Str → Str
  | [] => []
  | [s] => s
  | s :: t :: rest => s ++ '-' :: joinDash (t :: rest)

/-- `s.split('-')`, config.py:41. -/
def splitDash : Str → List Str
  | [] => [[]]
  | c :: s =>
    if c = '-' then [] :: splitDash s
    else
      match splitDash s with
      | [] => [[c]]
      | t :: rest => (c :: t) :: rest

/-- Value of a nonempty string of ASCII digits. -/
def parseDigits (acc : Nat) : Str → Option Nat
  | [] => some acc
  | c :: s => if c.isDigit then parseDigits (10 * acc + (c.toNat - 48)) s else none

/-- `int(s)`, config.py:44, restricted to an optional sign and ASCII digits.
Python also accepts surrounding whitespace, underscores and non-ASCII digits;
`serialize_config` never produces them. -/
def parseInt (s : Str) : Option Int :=
  match s with
  | [] => none
  | '-' :: [] => none
  | '-' :: t => (parseDigits 0 t).map fun n => -(n : Int)
  | '+' :: [] => none
  | '+' :: t => (parseDigits 0 t).map fun n => (n : Int)
  | s => (parseDigits 0 s).map fun n => (n : Int)

/-- The dict's values in sorted key order, `[config[key] for key in keys]`. -/
def valuesInOrder (c : Config) : Option (List Int) :=
  sortedKeys.mapM (lookup c)

/-- `serialize_config`, config.py:30-34. The assertion compares the sorted key
lists; on association lists it says the keys are a permutation of the nine. -/
def serializeConfig (c : Config) : Py Str :=
  if (keys c).isPerm sortedKeys then
    match valuesInOrder c with
    | some vs => .ok (joinDash (vs.map intStr))
    | none => .error .keyError
  else .error .assertion

/-- The loop of `deserialize_config`, config.py:43-44. -/
def assignAll (c : Config) : List (String × Str) → Py Config
  | [] => .ok c
  | (k, s) :: rest =>
    match parseInt s with
    | some v => assignAll (assign c k v) rest
    | none => .error .valueError

/-- `deserialize_config`, config.py:37-45. -/
def deserializeConfig (s : Str) : Py Config :=
  let values := splitDash s
  if sortedKeys.length = values.length then
    assignAll defaultConfig (sortedKeys.zip values)
  else .error .assertion

end TreeCat.Config
