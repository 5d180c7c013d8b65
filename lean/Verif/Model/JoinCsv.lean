import Mathlib.Logic.Function.Basic
import Verif.Model.Join

/-!
# format.py: joining csv files

`read_csv`, `join_csvs` and the two operations of pandas that read and write csv files. A file is the table of its
fields; the text of fields is the subject of `Model/Csv.lean`.
-/

namespace TreeCat.Join

/-- The fields of a csv file, line by line. -/
abbrev CsvTable := List (List Name)

/-- The cell of a line under a name of the header: missing if the line is too short or if the field is one of the strings
that pandas reads as missing (`''`, `'NA'`, `'nan'`, …). -/
def cellAt (isNa : Name → Bool) (header row : List Name) (c : Name) : Option Name :=
  if c ∈ header then
    let field := row.getD (header.idxOf c) []
    if isNa field then none else some field
  else none

/-- `read_csv(filename, encoding)`, format.py:106-107: `pd.read_csv(filename, dtype=object)` of the fields of a file.
Blank lines are skipped; a file without a header raises `EmptyDataError`, a `ValueError`; the cells stay strings.
Simplifications: the file is decoded; a header with an empty or repeated name, which pandas replaces by a made-up name,
and a line longer than the header, from which pandas either makes an index or raises, are rejected here. -/
def readCsv (isNa : Name → Bool) (file : CsvTable) : Py (DataFrame Name) :=
  match file.filter fun line => line ≠ [] with
  | [] => .error .valueError
  | header :: rows =>
    if header.Nodup ∧ [] ∉ header ∧ ∀ row ∈ rows, row.length ≤ header.length then
      .ok { columns := header, rows := rows.map (cellAt isNa header) }
    else .error .valueError

/-- `df.to_csv(csv_out)`, format.py:149: the name of the index and the columns, then the rows, each with its key; a missing
value is an empty field. -/
def toCsv (on : Name) (d : Indexed Name) : CsvTable :=
  (on :: d.columns) :: d.rows.map fun row => row.1.getD [] :: d.columns.map fun c => (row.2 c).getD []

/-- The csv file of a name; `FileNotFoundError` if there is none. -/
def openCsv (disk : Name → Option CsvTable) (path : Name) : Py CsvTable :=
  match disk path with
  | none => .error .ioError
  | some file => .ok file

/-- `join_csvs(column, csvs_in, csv_out)`, format.py:137-149, on the csv files of a disk. -/
def joinCsvs (isNa : Name → Bool) (disk : Name → Option CsvTable) (column csvsIn csvOut : Name) :
    Py (Name → Option CsvTable) := do
  let dfs ← (csvsIn.splitOn ',').mapM fun path => do
    let file ← openCsv disk path
    readCsv isNa file
  let df ← pdOuterJoin dfs column
  .ok (Function.update disk csvOut (some (toCsv column df)))

end TreeCat.Join
