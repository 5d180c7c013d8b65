import Mathlib.Algebra.Order.Field.Rat
import Mathlib.Data.List.Lex
import Mathlib.Data.Char
import Verif.Model.Config
import Verif.Model.Dict
import Verif.Model.Util
import Verif.Model.Structure
import Verif.Model.Training

/-!
# Model of `treecat/format.py`

A string is its list of characters. A csv file is the list of its rows as `csv.reader` yields
them (`Verif.Model.Csv` models reading and writing). Files are passed by content instead of by
name. Printing is left out, except where its arguments can raise. `cat`, pickling, fingerprints
and `join_csvs` (pure input and output) are not modelled.

Facts about Unicode tables and about the syntax of numbers are the parameter `Text`.
-/

namespace TreeCat

open Config (Str intStr)

/-- The string functions of Python whose tables are not modelled. -/
structure Text where
  /-- `s.lower()` -/
  lower : Str → Str
  /-- `int(s)`; `none` is a `ValueError`. -/
  parseInt : Str → Option Int
  /-- `float(s)`; `none` is a `ValueError`; only finite values. -/
  parseFloat : Str → Option ℚ

/-- `CATEGORICAL` and `ORDINAL`, format.py:34-36. -/
inductive FType where
  | categorical
  | ordinal
  deriving DecidableEq, Repr

/-- The string of a type, format.py:34-35; `none` is the empty string of an untyped feature. -/
def typeStr : Option FType → Str
  | none => []
  | some .categorical => "categorical".toList
  | some .ordinal => "ordinal".toList

/-- `typename in VALID_TYPES`, format.py:36,285. -/
def parseType (s : Str) : Option FType :=
  if s = "categorical".toList then some .categorical else if s = "ordinal".toList then some .ordinal else none

/-- `MAX_CATEGORIES`, format.py:37. -/
def maxCategories : Nat := 20

/-! ### `normalize_string` -/

/-- `str.isspace` of one character, which is also what `\s` matches. -/
def isSpace (c : Char) : Bool :=
  let n := c.toNat
  (9 ≤ n && n ≤ 13) || (28 ≤ n && n ≤ 32) || n == 0x85 || n == 0xA0 || n == 0x1680 || (0x2000 ≤ n && n ≤ 0x200A)
    || n == 0x2028 || n == 0x2029 || n == 0x202F || n == 0x205F || n == 0x3000

/-- `s.strip()`. -/
def strip (s : Str) : Str := ((s.dropWhile isSpace).reverse.dropWhile isSpace).reverse

/-- `re.sub(r'\s+', ' ', s)`: each maximal run of whitespace becomes one space. `inRun` says that
the character before was whitespace. -/
def collapse : Bool → Str → Str
  | _, [] => []
  | inRun, c :: s =>
    if isSpace c then (if inRun then collapse true s else ' ' :: collapse true s) else c :: collapse false s

/-- `NA_STRINGS.get(s, s)`, format.py:38-41,154. -/
def dropNA (s : Str) : Str := if s = "null".toList ∨ s = "none".toList then [] else s

/-- `normalize_string(string)`, format.py:152-154. -/
def normalize (T : Text) (s : Str) : Str := dropNA (collapse false (T.lower (strip s)))

/-! ### `guess_schema` -/

/-- `is_small_int(value)`, format.py:157-162. -/
def isSmallInt (T : Text) (value : Str) : Bool :=
  match T.parseInt value with
  | some i => decide (0 ≤ i) && decide (i ≤ (maxCategories : Int))
  | none => false

/-- `guess_feature_type(count, values)`, format.py:165-182. `len(values) <= min(count / 2, 20)` with
true division is split into two comparisons of integers. -/
def guessFeatureType (T : Text) (count : Nat) (values : List (Str × Nat)) : Option FType :=
  if values.length ≤ 1 then none
  else if values.length ≤ maxCategories ∧ values.all (fun vc => isSmallInt T vc.1) then some .ordinal
  else if 2 * values.length ≤ count ∧ values.length ≤ maxCategories then some .categorical
  else none

/-- The variables of `guess_schema` while it reads, format.py:195-198. -/
structure GuessState where
  totals : Dict Str Nat
  values : Dict Str (Dict Str Nat)
  names : List Str
  sources : Dict Str (List Str)
  deriving DecidableEq, Repr

/-- `feature_names |= set(header)`, format.py:203. Sets are lists without duplicates. -/
def setUnion (a : List Str) (b : List Str) : List Str := b.foldl (fun s x => if x ∈ s then s else s ++ [x]) a

/-- One cell of `guess_schema`, format.py:207-212. -/
def guessCell (T : Text) (s : GuessState) (nv : Str × Str) : GuessState :=
  let value := normalize T nv.2
  if value = [] then s
  else
    let counts := Dict.getD s.values nv.1 []
    { s with totals := Dict.set s.totals nv.1 (Dict.getD s.totals nv.1 0 + 1)
             values := Dict.set s.values nv.1 (Dict.set counts value (Dict.getD counts value 0 + 1)) }

/-- One file of `guess_schema`, format.py:199-212: its base name and its rows. -/
def guessFile (T : Text) (s : GuessState) (file : Str × List (List Str)) : Py GuessState :=
  match file.2 with
  | [] => .error .stopIteration
  | header :: rows =>
    let names := setUnion s.names header
    let sources := names.foldl (fun d name => Dict.set d name (Dict.getD d name [] ++ [file.1])) s.sources
    .ok (rows.foldl (fun s row => (header.zip row).foldl (guessCell T) s) { s with names, sources })

/-- `counts.most_common(n)` (CPython: `heapq.nlargest`, a stable sort by decreasing count). -/
def mostCommon (n : Nat) (counts : Dict Str Nat) : List (Str × Nat) :=
  (counts.insertionSort fun a b => b.2 ≤ a.2).take n

/-- The sort key `(-vc[1], vc[0])`, format.py:228: order of decreasing count, then value. -/
def valueLe (a b : Str × Nat) : Prop := b.2 < a.2 ∨ a.2 = b.2 ∧ a.1 ≤ b.1

instance : DecidableRel valueLe := fun _ _ => inferInstanceAs (Decidable (_ ∨ _))

/-- What is known about one feature after format.py:213-233. -/
structure Guess where
  name : Str
  type : Option FType
  total : Nat
  unique : Nat
  singletons : Nat
  sources : List Str
  values : List (Str × Nat)
  deriving DecidableEq, Repr

/-- Exclusion of singletons and guessing the type of one feature, format.py:213-233. -/
def guessFeature (T : Text) (s : GuessState) (name : Str) : Guess :=
  let counts := Dict.getD s.values name []
  let singles := counts.filter fun vc => vc.2 == 1
  let values := (mostCommon maxCategories (counts.filter fun vc => vc.2 != 1)).insertionSort valueLe
  { name, type := guessFeatureType T (Dict.getD s.totals name 0) values, total := Dict.getD s.totals name 0
    unique := counts.length, singletons := singles.length, sources := Dict.getD s.sources name [], values }

/-- All features in sorted order, format.py:195-233. -/
def guessFeatures (T : Text) (files : List (Str × List (List Str))) : Py (List Guess) := do
  let s ← files.foldlM (guessFile T) ⟨[], [], [], []⟩
  .ok ((s.names.insertionSort (· ≤ ·)).map (guessFeature T s))

/-- `sep.join(parts)` for a separator of one character. -/
def joinWith (sep : Char) : List Str → Str
  | [] => []
  | [s] => s
  | s :: t :: rest => s ++ sep :: joinWith sep (t :: rest)

/-- The rows of types.csv, format.py:240-257. -/
def typesRows (gs : List Guess) : List (List Str) :=
  ["name".toList, "type".toList, "total".toList, "unique".toList, "singletons".toList, "source".toList] ::
    gs.map fun g => [g.name, typeStr g.type, intStr g.total, intStr g.unique, intStr g.singletons, joinWith ',' g.sources]

/-- The rows of values.csv, format.py:260-264. -/
def valuesRows (gs : List Guess) : List (List Str) :=
  ["name".toList, "value".toList, "count".toList] ::
    gs.flatMap fun g => g.values.map fun vc => [g.name, vc.1, intStr vc.2]

/-- `guess_schema`, format.py:186-264: the rows of types.csv and of values.csv. -/
def guessSchema (T : Text) (files : List (Str × List (List Str))) : Py (List (List Str) × List (List Str)) := do
  let gs ← guessFeatures T files
  .ok (typesRows gs, valuesRows gs)

/-! ### `load_schema` -/

/-- The dict that `load_schema` returns, format.py:380-389. -/
structure Schema where
  featureNames : List Str
  featureIndex : Dict Str Nat
  featureTypes : Dict Str FType
  categoricalValues : Dict Str (List Str)
  categoricalIndex : Dict Str (Dict Str Nat)
  ordinalRanges : Dict Str (Int × Int)
  raggedIndex : List Nat
  treePrior : List ℚ
  deriving DecidableEq, Repr

/-- `header = next(reader)` followed by assertions on its lower-cased beginning, format.py:275-277,
295-297, 324-328. Returns the other rows. -/
def checkHeader (T : Text) (expected : List Str) (rows : List (List Str)) : Py (List (List Str)) :=
  match rows with
  | [] => .error .stopIteration
  | header :: rest => do
    let _ ← (List.range expected.length).mapM fun i => do
      let h ← pyGet header i
      pyAssert (T.lower h == expected.getD i [])
    .ok rest

/-- One row of types.csv, format.py:278-289. -/
def typesRow (s : List Str × Dict Str FType) (row : List Str) : Py (List Str × Dict Str FType) :=
  match row with
  | name :: typename :: _ =>
    if typename = [] then .ok s
    else match parseType typename with
      | none => .error .valueError
      | some ty => .ok (s.1 ++ [name], Dict.set s.2 name ty)
  | _ => .ok s

/-- Loading of types.csv, format.py:273-289. -/
def loadTypes (T : Text) (rows : List (List Str)) : Py (List Str × Dict Str FType) := do
  let rest ← checkHeader T ["name".toList, "type".toList] rows
  rest.foldlM typesRow ([], [])

/-- One row of values.csv, format.py:298-311. -/
def valuesRow (T : Text) (types : Dict Str FType) (s : Dict Str (List Str) × Dict Str (List Int)) (row : List Str) :
    Py (Dict Str (List Str) × Dict Str (List Int)) :=
  match row with
  | name :: value :: _ =>
    match Dict.get? types name with
    | none => .ok s
    | some .categorical => .ok (Dict.set s.1 name (Dict.getD s.1 name [] ++ [value]), s.2)
    | some .ordinal =>
      match T.parseInt value with
      | none => .error .valueError
      | some i => .ok (s.1, Dict.set s.2 name (Dict.getD s.2 name [] ++ [i]))
  | _ => .ok s

/-- Loading of values.csv, format.py:292-311. -/
def loadValues (T : Text) (types : Dict Str FType) (rows : List (List Str)) :
    Py (Dict Str (List Str) × Dict Str (List Int)) := do
  let rest ← checkHeader T ["name".toList, "value".toList] rows
  rest.foldlM (valuesRow T types) ([], [])

/-- The groups: logits, sources and targets, format.py:319-321. -/
structure Groups where
  logits : Dict Str ℚ
  sources : Dict Str (List Str)
  targets : Dict Str (List Str)
  deriving DecidableEq, Repr

/-- `group, logit, source, target = fields`, format.py:332. -/
def unpack4 (fields : List Str) : Py (Str × Str × Str × Str) :=
  match fields with
  | [a, b, c, d] => .ok (a, b, c, d)
  | _ => .error .valueError

/-- The part of the loop over groups.csv after the unpacking, format.py:333-338. -/
def addGroup (T : Text) (g : Groups) (r : Str × Str × Str × Str) : Py Groups := do
  let g ← if r.2.1 = [] then .ok g else match T.parseFloat r.2.1 with
    | none => .error .valueError
    | some x => .ok { g with logits := Dict.set g.logits r.1 x }
  let g := if r.2.2.1 = [] then g
    else { g with sources := Dict.set g.sources r.1 (setUnion (Dict.getD g.sources r.1 []) [r.2.2.1]) }
  .ok (if r.2.2.2 = [] then g
    else { g with targets := Dict.set g.targets r.1 (setUnion (Dict.getD g.targets r.1 []) [r.2.2.2]) })

/-- One row of groups.csv, format.py:329-338. The slice has at most three fields. -/
def groupsRow (T : Text) (g : Groups) (row : List Str) : Py Groups :=
  if row.length < 4 then .ok g
  else do
    let r ← unpack4 (row.take 3)
    addGroup T g r

/-- Loading of the optional groups.csv, format.py:319-338. -/
def loadGroups (T : Text) (rows : Option (List (List Str))) : Py Groups :=
  match rows with
  | none => .ok ⟨[], [], []⟩
  | some rows => do
    let rest ← checkHeader T ["group".toList, "logit".toList, "source".toList, "target".toList] rows
    rest.foldlM (groupsRow T) ⟨[], [], []⟩

/-- `{v: i for i, v in enumerate(values)}`, format.py:347. -/
def indexOf (values : List Str) : Dict Str Nat := Dict.ofList values.zipIdx

/-- The value indices of one feature, format.py:343-352. -/
def valueIndex (cats : Dict Str (List Str)) (ords : Dict Str (List Int))
    (s : Dict Str (List Str) × Dict Str (Dict Str Nat) × Dict Str (Int × Int)) (nt : Str × FType) :
    Py (Dict Str (List Str) × Dict Str (Dict Str Nat) × Dict Str (Int × Int)) :=
  match nt.2 with
  | .categorical =>
    let values := Dict.getD cats nt.1 []
    .ok (Dict.set s.1 nt.1 values, Dict.set s.2.1 nt.1 (indexOf values), s.2.2)
  | .ordinal => do
    let values := (Dict.getD ords nt.1 []).insertionSort (· ≤ ·)
    let first ← pyGet values 0
    .ok (s.1, s.2.1, Dict.set s.2.2 nt.1 (first, values.getLastD 0))

/-- The number of columns of a feature, format.py:359-364. -/
def featureDim (types : Dict Str FType) (cats : Dict Str (List Str)) (name : Str) : Nat :=
  match Dict.get? types name with
  | some .categorical => (Dict.getD cats name []).length
  | _ => 2

/-- The ragged index, format.py:355-366: running sums of the dimensions. int32 overflow is not modelled. -/
def raggedOf (dims : List Nat) : List Nat := dims.foldl (fun ri d => ri ++ [ri.getLastD 0 + d]) [0]

/-- The tree prior, format.py:370-380. -/
def treePriorOf (index : Dict Str Nat) (V : Nat) (g : Groups) : Py (List ℚ) :=
  g.logits.foldlM (fun prior gl =>
    (Dict.getD g.sources gl.1 []).foldlM (fun (prior : List ℚ) source =>
      match Dict.get? index source with
      | none => .error .keyError
      | some v1 =>
        (Dict.getD g.targets gl.1 []).foldlM (fun (prior : List ℚ) target =>
          match Dict.get? index target with
          | none => .error .keyError
          | some v2 => pySet prior (findCompleteEdge v1 v2) gl.2) prior) prior)
    (List.replicate (V * (V - 1) / 2) 0)

/-- `load_schema`, format.py:267-389. -/
def loadSchema (T : Text) (types values : List (List Str)) (groups : Option (List (List Str))) : Py Schema := do
  let (names, featureTypes) ← loadTypes T types
  let (cats, ords) ← loadValues T featureTypes values
  if names = [] then .error .valueError
  else do
    let g ← loadGroups T groups
    let (cats, categoricalIndex, ordinalRanges) ← featureTypes.foldlM (valueIndex cats ords) (cats, [], [])
    let featureIndex := Dict.ofList names.zipIdx
    let raggedIndex := raggedOf (names.map (featureDim featureTypes cats))
    let treePrior ← treePriorOf featureIndex names.length g
    .ok { featureNames := names, featureIndex, featureTypes, categoricalValues := cats, categoricalIndex
          ordinalRanges, raggedIndex, treePrior }

/-! ### `load_data` and `import_rows` -/

/-- Values of json data. -/
inductive Json where
  | str (s : Str)
  | int (i : Int)
  | bool (b : Bool)
  | float (q : ℚ)
  | nan
  | inf
  | null
  | container
  deriving DecidableEq, Repr

/-- `int(value)`: `none` is a `ValueError`. -/
def Json.toInt (T : Text) : Json → Py (Option Int)
  | .str s => .ok (T.parseInt s)
  | .int i => .ok (some i)
  | .bool b => .ok (some (if b then 1 else 0))
  | .float q => .ok (some (q.num.tdiv q.den))
  | .nan => .ok none
  | .inf => .error .overflow
  | .null => .error .typeError
  | .container => .error .typeError

/-- `index[value]` for a dict with string keys: `none` is a `KeyError`; lists and dicts are not hashable. -/
def Json.lookup (index : Dict Str Nat) : Json → Py (Option Nat)
  | .str s => .ok (Dict.get? index s)
  | .container => .error .typeError
  | _ => .ok none

/-- `prototype_row`, format.py:399. -/
def zeroRow (S : Schema) : List Int := List.replicate (S.raggedIndex.getLastD 0) 0

/-- Writing a category, format.py:429, 488, and an ordinal value, format.py:435-438, 495-498, into a
row of int8. -/
def writeCategory (row : List Int) (pos value : Nat) : Py (List Int) := pySet row (pos + value) 1

@[inherit_doc writeCategory]
def writeOrdinal (row : List Int) (pos : Nat) (value : Int) (minMax : Int × Int) : Py (List Int) :=
  if value < minMax.1 ∨ minMax.2 < value then .ok row
  else do
    let row ← pySet row (pos + 0) (Util.wrap8 (value - minMax.1))
    pySet row (pos + 1) (Util.wrap8 (minMax.2 - value))

/-- The column description of `load_data`, format.py:409-414. -/
structure ColMeta where
  type : FType
  pos : Nat
  index : Option (Dict Str Nat)
  minMax : Option (Int × Int)
  deriving DecidableEq, Repr

/-- `metas[i]` for one header name, format.py:407-414. -/
def colMeta (S : Schema) (name : Str) : Py (Option ColMeta) :=
  match Dict.get? S.featureTypes name with
  | none => .ok none
  | some type =>
    match Dict.get? S.featureIndex name with
    | none => .error .keyError
    | some v => do
      let pos ← pyGet S.raggedIndex v
      .ok (some ⟨type, pos, Dict.get? S.categoricalIndex name, Dict.get? S.ordinalRanges name⟩)

/-- One cell of `load_data`, format.py:417-441: the row and the number of cells. -/
def loadCell (T : Text) (s : List Int × Nat) (vm : Str × Option ColMeta) : Py (List Int × Nat) :=
  match vm.2 with
  | none => .ok s
  | some c =>
    let value := normalize T vm.1
    if value = [] then .ok s
    else match c.type with
      | .categorical =>
        match c.index with
        | none => .error .typeError
        | some index =>
          match Dict.get? index value with
          | none => .ok s
          | some i => do
            let row ← writeCategory s.1 c.pos i
            .ok (row, s.2 + 1)
      | .ordinal =>
        match T.parseInt value with
        | none => .ok s
        | some i =>
          match c.minMax with
          | none => .error .typeError
          | some mm =>
            if i < mm.1 ∨ mm.2 < i then .ok s
            else do
              let row ← writeOrdinal s.1 c.pos i mm
              .ok (row, s.2 + 1)

/-- One row of `load_data`, format.py:415-442. -/
def loadRow (T : Text) (S : Schema) (metas : List (Option ColMeta)) (cells : Nat) (row : List Str) : Py (List Int × Nat) :=
  (row.zip metas).foldlM (loadCell T) (zeroRow S, cells)

/-- `load_data(schema, data_csv_in)`, format.py:392-447. The summary on lines 443-444 divides by the
number of rows and by the number of features. -/
def loadData (T : Text) (S : Schema) (csv : List (List Str)) : Py (List (List Int)) :=
  match csv with
  | [] => .error .stopIteration
  | header :: rows => do
    let metas ← header.mapM (colMeta S)
    let r ← rows.foldlM (fun (s : List (List Int) × Nat) row => do
      let rc ← loadRow T S metas s.2 row
      .ok (s.1 ++ [rc.1], rc.2)) ([], 0)
    if r.1.length = 0 ∨ S.featureTypes.length = 0 then .error .zeroDivision else .ok r.1

/-- One cell of `import_rows`, format.py:476-500. -/
def importCell (T : Text) (S : Schema) (row : List Int) (nv : Str × Json) : Py (List Int) :=
  match Dict.get? S.featureIndex nv.1 with
  | none => .ok row
  | some v => do
    let pos ← pyGet S.raggedIndex v
    match Dict.get? S.featureTypes nv.1 with
    | none => .error .keyError
    | some .categorical =>
      match Dict.get? S.categoricalIndex nv.1 with
      | none => .error .keyError
      | some index => do
        match ← nv.2.lookup index with
        | none => .ok row
        | some i => writeCategory row pos i
    | some .ordinal =>
      match Dict.get? S.ordinalRanges nv.1 with
      | none => .error .keyError
      | some mm => do
        match ← nv.2.toInt T with
        | none => .ok row
        | some i => writeOrdinal row pos i mm

/-- The argument of `import_rows`: the callers pass a list of dicts or, by mistake, one dict. -/
inductive RowsArg where
  | list (rows : List (Dict Str Json))
  | dict (row : Dict Str Json)
  deriving DecidableEq, Repr

/-- `import_rows(schema, rows)`, format.py:450-501. -/
def importRows (T : Text) (S : Schema) (rows : RowsArg) : Py (List (List Int)) :=
  match rows with
  | .dict _ => .error .assertion
  | .list rows => rows.mapM fun row => row.foldlM (importCell T S) (zeroRow S)

/-! ### `export_rows` -/

/-- `cell.argmax()`: the first position of the largest entry. -/
def argmax (cell : List Int) : Nat := cell.findIdx fun x => cell.all fun y => decide (y ≤ x)

/-- One feature of one row of `export_rows`, format.py:528-544. -/
def exportCell (S : Schema) (row : List Int) (out : Dict Str Json) (vn : Nat × Str) : Py (Dict Str Json) := do
  let beg ← pyGet S.raggedIndex vn.1
  let stop ← pyGet S.raggedIndex (vn.1 + 1)
  let cell := (row.take stop).drop beg
  if cell.all (· == 0) then .ok out
  else match Dict.get? S.featureTypes vn.2 with
    | none => .error .keyError
    | some .categorical => do
      pyAssert (cell.sum == 1)
      match Dict.get? S.categoricalValues vn.2 with
      | none => .error .keyError
      | some values => do
        let value ← pyGet values (argmax cell)
        .ok (Dict.set out vn.2 (.str value))
    | some .ordinal =>
      match Dict.get? S.ordinalRanges vn.2 with
      | none => .error .keyError
      | some mm => do
        pyAssert (cell.sum == mm.2 - mm.1)
        .ok (Dict.set out vn.2 (.int (cell.getD 0 0 + mm.1)))

/-- `export_rows(schema, data)`, format.py:504-544, for an int8 array with `R` columns. -/
def exportRows (S : Schema) (R : Nat) (data : List (List Int)) : Py (List (Dict Str Json)) := do
  pyAssert (R == S.raggedIndex.getLastD 0)
  data.mapM fun row => ((List.range S.featureNames.length).zip S.featureNames).foldlM (exportCell S row) []

/-! ### `import_data` -/

/-- `import_data`, format.py:547-577: the schema and the table. The loop that prints warnings needs
`data[:, beg:end].max(1)`, which raises `ValueError` for an empty block. -/
def importData (T : Text) (csvs : List (List (List Str))) (types values : List (List Str))
    (groups : Option (List (List Str))) : Py (Schema × Table) := do
  let S ← loadSchema T types values groups
  let parts ← csvs.mapM (loadData T S)
  let data := parts.flatten
  if ((List.range S.featureNames.length).all fun v => decide (S.raggedIndex.getD v 0 < S.raggedIndex.getD (v + 1) 0)) then do
    let table ← Table.make (S.featureNames.map fun _ => tyMultinomial) S.raggedIndex (S.raggedIndex.getLastD 0) data
    .ok (S, table)
  else .error .valueError

end TreeCat
