import Mathlib.Data.Finset.Card
import Mathlib.Data.Rat.Floor
import Mathlib.Tactic.Linarith
import Verif.Model.Format

/-!
# Vocabulary for the statements about `format.py`
-/

namespace TreeCat.Spec

open Config (Str)

/-- The code points that Unicode gives the property White_Space, and the four information
separators, which Python counts as whitespace too. -/
def whitespace : List Nat :=
  [0x9, 0xA, 0xB, 0xC, 0xD, 0x1C, 0x1D, 0x1E, 0x1F, 0x20, 0x85, 0xA0, 0x1680, 0x2000, 0x2001, 0x2002, 0x2003, 0x2004,
    0x2005, 0x2006, 0x2007, 0x2008, 0x2009, 0x200A, 0x2028, 0x2029, 0x202F, 0x205F, 0x3000]

/-- The words of a string: its maximal runs without whitespace. -/
def words (s : Str) : List Str := (s.splitOnP fun c => whitespace.contains c.toNat).filter fun w => w ≠ []

theorem isSpace_eq (c : Char) : isSpace c = whitespace.contains c.toNat := by
  have hpt : ∀ n, List.contains whitespace n = decide (n ∈ whitespace) := fun n => by simp
  rw [Bool.eq_iff_iff, hpt, decide_eq_true_iff]
  simp only [isSpace, whitespace, List.mem_cons, List.not_mem_nil, or_false, Bool.or_eq_true, Bool.and_eq_true,
    decide_eq_true_iff, beq_iff_eq]
  omega

theorem words_eq (s : Str) : words s = (s.splitOnP isSpace).filter fun w => w ≠ [] := by
  rw [words]; congr 2; funext c; rw [isSpace_eq]

/-- What is assumed of `str.lower`: it works between whitespace, neither makes nor removes
whitespace, erases no string, and a second application changes nothing. -/
structure Lawful (T : Text) : Prop where
  nil : T.lower [] = []
  split : ∀ a w b, isSpace w → T.lower (a ++ w :: b) = T.lower a ++ w :: T.lower b
  noSpace : ∀ s, (∀ c ∈ s, isSpace c = false) → ∀ c ∈ T.lower s, isSpace c = false
  ne : ∀ s, s ≠ [] → T.lower s ≠ []
  idem : ∀ s, T.lower (T.lower s) = T.lower s
  ascii : ∀ s, (∀ c ∈ s, 'a'.toNat ≤ c.toNat ∧ c.toNat ≤ 'z'.toNat) → T.lower s = s

/-- Lower case of ASCII letters. -/
def asciiLower (c : Char) : Char := if 65 ≤ c.toNat ∧ c.toNat ≤ 90 then Char.ofNat (c.toNat + 32) else c

/-- The instance for ASCII text, used in examples. `int` strips whitespace and takes a sign and digits. -/
def asciiText : Text where
  lower s := s.map asciiLower
  parseInt s := Config.parseInt (strip s)
  parseFloat s := (Config.parseInt (strip s)).map fun i => (i : ℚ)

/-! ### Statistics of csv files -/

/-- The names of the columns of a file. -/
def headerOf (rows : List (List Str)) : List Str := rows.headD []

/-- The nonempty normalised cells of a file, each with the name of its column. Cells beyond the header are ignored. -/
def fileCells (T : Text) (rows : List (List Str)) : List (Str × Str) :=
  rows.tail.flatMap fun row => (((headerOf rows).zip row).map fun nv => (nv.1, normalize T nv.2)).filter fun nv => nv.2 ≠ []

/-- The cells of all files. -/
def cells (T : Text) (files : List (Str × List (List Str))) : List (Str × Str) := files.flatMap fun f => fileCells T f.2

/-- How often a value of a feature is observed. -/
def occurs (T : Text) (files : List (Str × List (List Str))) (name value : Str) : Nat := (cells T files).count (name, value)

/-- The observed values of a feature. -/
def observed (T : Text) (files : List (Str × List (List Str))) (name : Str) : Finset Str :=
  (((cells T files).filter fun nv => nv.1 = name).map Prod.snd).toFinset

/-- `values` are the most frequent of the values that were observed more than once, at most `n` of them, by
decreasing frequency and then in alphabetical order. -/
structure IsTop (T : Text) (files : List (Str × List (List Str))) (name : Str) (n : Nat) (values : List (Str × Nat)) : Prop where
  exact_count : ∀ vc ∈ values, vc.2 = occurs T files name vc.1 ∧ 2 ≤ vc.2
  sorted : values.Pairwise fun a b => b.2 < a.2 ∨ a.2 = b.2 ∧ a.1 < b.1
  len : values.length ≤ n
  top : ∀ v, 2 ≤ occurs T files name v → v ∈ values.map Prod.fst ∨ values.length = n ∧ ∀ vc ∈ values, occurs T files name v ≤ vc.2

/-- An integer between 0 and 20. -/
def SmallInt (T : Text) (v : Str) : Prop := ∃ i : Int, T.parseInt v = some i ∧ 0 ≤ i ∧ i ≤ 20

/-- The rule of `guess_feature_type`: at least two values; ordinal if all are small integers, otherwise categorical
if there are at least two observations per value. -/
def TypeRule (T : Text) (total : Nat) (values : List Str) : Option FType → Prop
  | some .ordinal => 2 ≤ values.length ∧ ∀ v ∈ values, SmallInt T v
  | some .categorical => 2 ≤ values.length ∧ (∃ v ∈ values, ¬ SmallInt T v) ∧ 2 * values.length ≤ total
  | none => values.length < 2 ∨ (∃ v ∈ values, ¬ SmallInt T v) ∧ total < 2 * values.length

/-! ### Schemas -/

/-- A feature: a categorical one with its values or an ordinal one with its least and largest value. -/
inductive Feature where
  | cat (values : List Str)
  | ord (lo hi : Int)
  deriving DecidableEq, Repr

def Feature.type : Feature → FType
  | .cat _ => .categorical
  | .ord _ _ => .ordinal

/-- The number of columns that a feature takes. -/
def Feature.width : Feature → Nat
  | .cat values => values.length
  | .ord _ _ => 2

/-- The sum of the widths of the features before `v`. -/
def startOf (fs : List (Str × Feature)) (v : Nat) : Nat := ((fs.take v).map fun f => f.2.width).sum

/-- The schema describes the list `fs` of named features. -/
structure Describes (S : Schema) (fs : List (Str × Feature)) : Prop where
  names : S.featureNames = fs.map Prod.fst
  nodup : (fs.map Prod.fst).Nodup
  index : ∀ n v, Dict.get? S.featureIndex n = some v ↔ (fs.map Prod.fst)[v]? = some n
  types : ∀ f ∈ fs, Dict.get? S.featureTypes f.1 = some f.2.type
  types_none : ∀ n, n ∉ fs.map Prod.fst → Dict.get? S.featureTypes n = none
  types_length : S.featureTypes.length = fs.length
  cats : ∀ n vs, (n, Feature.cat vs) ∈ fs → vs.Nodup ∧ Dict.get? S.categoricalValues n = some vs ∧
    ∃ ix, Dict.get? S.categoricalIndex n = some ix ∧ ∀ v i, Dict.get? ix v = some i ↔ vs[i]? = some v
  ords : ∀ n lo hi, (n, Feature.ord lo hi) ∈ fs → lo ≤ hi ∧ Dict.get? S.ordinalRanges n = some (lo, hi)
  ragged_length : S.raggedIndex.length = fs.length + 1
  ragged : ∀ v ≤ fs.length, S.raggedIndex[v]? = some (startOf fs v)

/-- The rows of types.csv that give a type to a feature. -/
def typedRows (rows : List (List Str)) : List (Str × FType) := rows.tail.filterMap fun row =>
  match row with
  | n :: t :: _ => if t = "categorical".toList then some (n, .categorical)
      else if t = "ordinal".toList then some (n, .ordinal) else none
  | _ => none

/-- The values that values.csv lists for a feature. -/
def valuesOf (rows : List (List Str)) (name : Str) : List Str := rows.tail.filterMap fun row =>
  match row with
  | n :: v :: _ => if n = name then some v else none
  | _ => none

/-- The feature that the two files describe. -/
def featureOf (T : Text) (values : List (List Str)) (nt : Str × FType) : Str × Feature :=
  match nt.2 with
  | .categorical => (nt.1, .cat (valuesOf values nt.1))
  | .ordinal =>
    let ints := (valuesOf values nt.1).filterMap T.parseInt
    (nt.1, .ord (ints.min?.getD 0) (ints.max?.getD 0))

/-- The features that types.csv and values.csv describe. -/
def featuresOf (T : Text) (types values : List (List Str)) : List (Str × Feature) := (typedRows types).map (featureOf T values)

/-- The two files are acceptable: the headers are right, every type is known, the values of ordinals are integers
and there is at least one, some feature has a type. -/
structure GoodCsv (T : Text) (types values : List (List Str)) : Prop where
  typesHeader : ∃ a b r, types.head? = some (a :: b :: r) ∧ T.lower a = "name".toList ∧ T.lower b = "type".toList
  valuesHeader : ∃ a b r, values.head? = some (a :: b :: r) ∧ T.lower a = "name".toList ∧ T.lower b = "value".toList
  known : ∀ row ∈ types.tail, ∀ n t r, row = n :: t :: r → t = [] ∨ t = "categorical".toList ∨ t = "ordinal".toList
  ints : ∀ n, (n, FType.ordinal) ∈ typedRows types → valuesOf values n ≠ [] ∧ ∀ v ∈ valuesOf values n, T.parseInt v ≠ none
  typed : typedRows types ≠ []

/-! ### Rows -/

/-- The integer that Python makes of a json value: a string is parsed, a boolean is 0 or 1, a number loses its fraction,
that is, it is rounded toward zero. `none` says that there is none; some values raise another exception. -/
def readInt (T : Text) : Json → Py (Option Int)
  | .str s => .ok (T.parseInt s)
  | .int i => .ok (some i)
  | .bool false => .ok (some 0)
  | .bool true => .ok (some 1)
  | .float q => .ok (some (if 0 ≤ q then ⌊q⌋ else ⌈q⌉))
  | .nan => .ok none
  | .inf => .error .overflow
  | .null | .container => .error .typeError

theorem toInt_eq (T : Text) (j : Json) : j.toInt T = readInt T j := by
  cases j with
  | bool b => cases b <;> rfl
  | float q =>
    simp only [Json.toInt, readInt]
    congr 2
    have hd : (0 : Int) ≤ q.den := by omega
    split
    · rename_i h
      rw [Rat.floor_def', Int.tdiv_eq_ediv_of_nonneg (Rat.num_nonneg.2 h)]
    · rename_i h
      have h' : 0 ≤ (-q).num := by rw [Rat.num_nonneg]; linarith
      have e : ⌈q⌉ = -⌊-q⌋ := by rw [Int.floor_neg, neg_neg]
      rw [e, Rat.floor_def', ← Int.tdiv_eq_ediv_of_nonneg h', Rat.num_neg_eq_neg_num, Rat.den_neg_eq_den, Int.neg_tdiv, neg_neg]
  | _ => rfl

/-- The value that a json value denotes for a feature, in canonical form: a category is itself, an ordinal is an
integer. `none` says that the value is not valid. Values that Python cannot convert or look up raise. -/
def readCell (T : Text) : Feature → Json → Py (Option Json)
  | .cat _, .container => .error .typeError
  | .cat vs, .str s => .ok (if s ∈ vs then some (.str s) else none)
  | .cat _, _ => .ok none
  | .ord lo hi, j => (readInt T j).map fun i? => i?.bind fun i => if lo ≤ i ∧ i ≤ hi then some (.int i) else none

/-- The canonical value of a feature in a row, if there is a valid one. -/
def valueOf (T : Text) (row : Dict Str Json) (f : Str × Feature) : Option Json :=
  match Dict.get? row f.1 with
  | none => none
  | some j => match readCell T f.2 j with
    | .ok x => x
    | .error _ => none

/-- A canonical value of a feature. -/
def Canon : Feature → Json → Prop
  | .cat vs, .str s => s ∈ vs
  | .ord lo hi, .int i => lo ≤ i ∧ i ≤ hi
  | _, _ => False

/-- The columns of a feature: zeros if it is not observed, one-hot for a category, and the distances from the ends of
the range for an ordinal. -/
def blockOf : Feature → Option Json → List Int
  | .cat vs, some (.str s) => vs.map fun v => if v = s then 1 else 0
  | .ord lo hi, some (.int i) => [i - lo, hi - i]
  | f, _ => List.replicate f.width 0

/-- The internal row with the given values. -/
def internalRow (fs : List (Str × Feature)) (x : Str × Feature → Option Json) : List Int := fs.flatMap fun f => blockOf f.2 (x f)

/-- The ranges of ordinals fit into int8. -/
def Fits (fs : List (Str × Feature)) : Prop := ∀ n lo hi, (n, Feature.ord lo hi) ∈ fs → hi - lo ≤ 127

end TreeCat.Spec
