import Verif.Model.Config
import Verif.Model.Py

/-!
# Csv files as `format.py` reads and writes them

format.py:91-103 opens files in text mode and uses `csv.reader` and `csv.writer` with their
defaults. Modelled is CPython's `_csv.c` for the `excel` dialect: delimiter `,`, quote `"`,
doubled quotes, no escape character, minimal quoting, line terminator `\r\n`, not strict.

Not modelled: encodings, NUL characters (an error in old versions of Python), and Python 2. The
limit of 131072 characters per field is in `Model/CsvLimit.lean`.
-/

namespace TreeCat.Csv

open Config (Str)

/-- The translation of line ends when a text file is read (`newline=None`). -/
def universal : Str → Str
  | [] => []
  | '\r' :: '\n' :: s => '\n' :: universal s
  | '\r' :: s => '\n' :: universal s
  | c :: s => c :: universal s

/-- The lines of a text with their line ends, as iterating over a file gives them. -/
def lines : Str → List Str
  | [] => []
  | c :: s =>
    if c = '\n' then [c] :: lines s
    else match lines s with
      | [] => [[c]]
      | l :: ls => (c :: l) :: ls

/-! ### `csv.reader` -/

/-- The states of the reader, `ParserState` of `_csv.c`, without those for escape characters. -/
inductive PState where
  | startRecord
  | startField
  | inField
  | inQuoted
  | quoteInQuoted
  | eatCrnl
  deriving DecidableEq, Repr

/-- The reader: its state, the field being read and the fields of the record before it. -/
structure Reader where
  state : PState
  field : Str
  fields : List Str
  deriving DecidableEq, Repr

/-- `parse_reset`. -/
def Reader.init : Reader := ⟨.startRecord, [], []⟩

/-- `parse_save_field`. -/
def Reader.save (r : Reader) (next : PState) : Reader := ⟨next, [], r.fields ++ [r.field]⟩

/-- `parse_add_char`. -/
def Reader.add (r : Reader) (c : Char) (next : PState) : Reader := ⟨next, r.field ++ [c], r.fields⟩

/-- `parse_process_char` at the start of a field. `none` is the end of the line. -/
def stepStart (r : Reader) : Option Char → Reader
  | none => r.save .startRecord
  | some c =>
    if c = '\n' ∨ c = '\r' then r.save .eatCrnl
    else if c = '"' then { r with state := .inQuoted }
    else if c = ',' then r.save .startField
    else r.add c .inField

/-- `parse_process_char`. `none` is the end of the line. -/
def step (r : Reader) (c? : Option Char) : Py Reader :=
  match r.state with
  | .startRecord =>
    match c? with
    | none => .ok r
    | some c => if c = '\n' ∨ c = '\r' then .ok { r with state := .eatCrnl } else .ok (stepStart r (some c))
  | .startField => .ok (stepStart r c?)
  | .inField =>
    match c? with
    | none => .ok (r.save .startRecord)
    | some c =>
      if c = '\n' ∨ c = '\r' then .ok (r.save .eatCrnl)
      else if c = ',' then .ok (r.save .startField)
      else .ok (r.add c .inField)
  | .inQuoted =>
    match c? with
    | none => .ok r
    | some c => if c = '"' then .ok { r with state := .quoteInQuoted } else .ok (r.add c .inQuoted)
  | .quoteInQuoted =>
    match c? with
    | none => .ok (r.save .startRecord)
    | some c =>
      if c = '"' then .ok (r.add c .inQuoted)
      else if c = ',' then .ok (r.save .startField)
      else if c = '\n' ∨ c = '\r' then .ok (r.save .eatCrnl)
      else .ok (r.add c .inField)
  | .eatCrnl =>
    match c? with
    | none => .ok { r with state := .startRecord }
    | some c => if c = '\n' ∨ c = '\r' then .ok r else .error .csvError

/-- One line: its characters and then its end. -/
def readLine (r : Reader) (line : Str) : Py Reader := do
  let r ← line.foldlM (fun r c => step r (some c)) r
  step r none

/-- `Reader_iternext` repeated until the lines are exhausted. -/
def readLines : List Str → Reader → Py (List (List Str))
  | [], r => if r.field ≠ [] ∨ r.state = .inQuoted then .ok [r.fields ++ [r.field]] else .ok []
  | l :: ls, r => do
    let r ← readLine r l
    if r.state = .startRecord then do
      let rest ← readLines ls Reader.init
      .ok (r.fields :: rest)
    else readLines ls r

/-- The rows that `csv_reader` yields for a file with this text, format.py:91-97. -/
def read (text : Str) : Py (List (List Str)) := readLines (lines (universal text)) Reader.init

/-! ### `csv.writer` -/

/-- The characters that force quoting: the delimiter, the quote and those of the line terminator. -/
def special (c : Char) : Bool := c == ',' || c == '"' || c == '\r' || c == '\n'

/-- A field between quotes, with quotes doubled. -/
def quote (f : Str) : Str := '"' :: (f.flatMap fun c => if c = '"' then ['"', '"'] else [c]) ++ ['"']

/-- `join_append`: one field. -/
def writeField (f : Str) : Str := if f.any special then quote f else f

/-- `writer.writerow(row)`: a row of one empty field is quoted. -/
def writeRow (row : List Str) : Str :=
  (if row = [[]] then quote [] else List.intercalate [','] (row.map writeField)) ++ ['\r', '\n']

/-- The text of the file that `csv_writer` makes of these rows, format.py:100-103, where line ends are `\n`. -/
def write (rows : List (List Str)) : Str := rows.flatMap writeRow

end TreeCat.Csv
