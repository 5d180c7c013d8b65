import Verif.Model.Csv
import Verif.Model.Format

/-!
# `format.py` from file text to file text

The functions of `Verif.Model.Format` on the texts of files instead of on their rows. The model
reads all files before it works on them; reading never fails (`Csv.read_total`), so the order
does not matter.
-/

namespace TreeCat

open Config (Str)

/-- Reading the files of a list, each with its base name. -/
def readFiles (files : List (Str × Str)) : Py (List (Str × List (List Str))) := files.mapM fun f => do
  let rows ← Csv.read f.2
  .ok (f.1, rows)

/-- `guess_schema`, format.py:186-264: the texts of types.csv and values.csv. -/
def guessSchemaText (T : Text) (files : List (Str × Str)) : Py (Str × Str) := do
  let files ← readFiles files
  let (types, values) ← guessSchema T files
  .ok (Csv.write types, Csv.write values)

/-- `load_schema`, format.py:267-389. -/
def loadSchemaText (T : Text) (types values : Str) (groups : Option Str) : Py Schema := do
  let types ← Csv.read types
  let values ← Csv.read values
  let groups ← match groups with
    | none => .ok none
    | some g => do
      let rows ← Csv.read g
      .ok (some rows)
  loadSchema T types values groups

/-- `load_data`, format.py:392-447. -/
def loadDataText (T : Text) (S : Schema) (csv : Str) : Py (List (List Int)) := do
  let rows ← Csv.read csv
  loadData T S rows

/-- `import_data`, format.py:547-577. The list of data files comes from `split(',')` and is not empty. -/
def importDataText (T : Text) (csvs : List Str) (types values : Str) (groups : Option Str) : Py (Schema × Table) := do
  let csvs ← csvs.mapM Csv.read
  let types ← Csv.read types
  let values ← Csv.read values
  let groups ← match groups with
    | none => .ok none
    | some g => do
      let rows ← Csv.read g
      .ok (some rows)
  importData T csvs types values groups

end TreeCat
