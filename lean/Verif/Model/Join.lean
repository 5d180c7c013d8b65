import Mathlib.Data.List.Sort
import Mathlib.Data.Char
import Mathlib.Data.List.Lex
import Verif.Model.Py

/-!
# format.py: joining tables

The operations of pandas that `pd_outer_join` uses, on tables whose cells may be missing.
-/

namespace TreeCat.Join

/-- Names of columns. -/
abbrev Name := List Char

/-- A `pd.DataFrame`: named columns and rows of cells, `none` where a value is missing (`nan`).
Simplification: a row is a function of the name, so two columns of one name hold the same cells. -/
structure DataFrame (α : Type) where
  columns : List Name
  rows : List (Name → Option α)

/-- A frame with an index: every row has a key. -/
structure Indexed (α : Type) where
  columns : List Name
  rows : List (Option α × (Name → Option α))

variable {α : Type} [DecidableEq α]

/-- `df.set_index(on)`. -/
def setIndex (on : Name) (df : DataFrame α) : Py (Indexed α) :=
  if on ∈ df.columns then .ok { columns := df.columns.erase on, rows := df.rows.map fun r => (r on, r) }
  else .error .keyError

def Indexed.keys (d : Indexed α) : List (Option α) := d.rows.map Prod.fst

/-- The rows with a key, or one row without values. -/
def Indexed.at (d : Indexed α) (k : Option α) : List (Name → Option α) :=
  if k ∈ d.keys then (d.rows.filter fun r => r.1 = k).map Prod.snd else [fun _ => none]

/-- `'_JOIN_'`. -/
def suffix : Name := ['_', 'J', 'O', 'I', 'N', '_']

/-- The name of a column of the right frame after the join. -/
def rename (l : Indexed α) (c : Name) : Name := if c ∈ l.columns then c ++ suffix else c

/-- `left.join(right, how='outer', rsuffix='_JOIN_')`: every pair of rows with one key, for every key of either frame.
Simplifications: pandas sorts the keys, here they come in the order in which they occur; if two columns of the
result would have one name, pandas warns or raises depending on its version, here it raises. -/
def join (l r : Indexed α) : Py (Indexed α) :=
  let columns := l.columns ++ r.columns.map (rename l)
  if ¬ columns.Nodup then .error .valueError
  else
    let keys := (l.keys ++ r.keys.filter fun k => k ∉ l.keys).dedup
    .ok { columns
          rows := keys.flatMap fun k => (l.at k).flatMap fun x => (r.at k).map fun y =>
            (k, fun c => if c ∈ l.columns then x c
              else match r.columns.find? fun c' => rename l c' = c with
                | some c' => y c'
                | none => none) }

/-- `result[left].fillna(result[right], inplace=True); del result[right]`, format.py:129-130. (The in-place
update reaches `result` in the versions of pandas of the time, not in those that copy on write.) -/
def fill (left right : Name) (d : Indexed α) : Indexed α :=
  { columns := d.columns.erase right
    rows := d.rows.map fun r => (r.1, fun c => if c = left then (r.2 left).orElse fun _ => r.2 right else r.2 c) }

/-- One pass of format.py:125-132. `df.columns` includes the key, `result` does not. What `rename` returns in
line 132 is discarded. -/
def mergeColumn (df : DataFrame α) (d : Indexed α) (right : Name) : Py (Indexed α) :=
  if suffix.isSuffixOf right then
    let left := right.take (right.length - 6)
    if left ∈ df.columns then
      if left ∈ d.columns then .ok (fill left right d) else .error .keyError
    else .ok d
  else .ok d

/-- One pass of the loop, format.py:122-132. -/
def joinStep (on : Name) (result : Indexed α) (df : DataFrame α) : Py (Indexed α) := do
  pyAssert (!(result.columns.any fun c => suffix.isSuffixOf c))
  let right ← setIndex on df
  let result ← join result right
  result.columns.foldlM (mergeColumn df) result

/-- `pd_outer_join(dfs, on)`, format.py:110-134, with a single column name for `on`. -/
def pdOuterJoin (dfs : List (DataFrame α)) (on : Name) : Py (Indexed α) :=
  match dfs with
  | [] => .error .indexError
  | df :: dfs => do
    let first ← setIndex on df
    let result ← dfs.foldlM (joinStep on) first
    pure { result with columns := result.columns.insertionSort (· ≤ ·) }

end TreeCat.Join
