import Verif.Model.Csv

/-!
# The limit on the length of csv fields

CPython's `csv.reader` refuses fields of more than `csv.field_size_limit()` characters, by default 131072. treecat does not
change the limit, so it applies wherever format.py:91-97 is used. `Model/Csv.lean` is the reader without limit.
-/

namespace TreeCat.Csv

open Config (Str)

/-- `field_limit` of `_csv.c`. -/
def fieldLimit : Nat := 131072

/-- `parse_add_char` with its check. -/
def Reader.addL (limit : Nat) (r : Reader) (c : Char) (next : PState) : Py Reader :=
  if limit ≤ r.field.length then .error .csvError else .ok (r.add c next)

/-- `parse_process_char` at the start of a field. -/
def stepStartL (limit : Nat) (r : Reader) : Option Char → Py Reader
  | none => .ok (r.save .startRecord)
  | some c =>
    if c = '\n' ∨ c = '\r' then .ok (r.save .eatCrnl)
    else if c = '"' then .ok { r with state := .inQuoted }
    else if c = ',' then .ok (r.save .startField)
    else r.addL limit c .inField

/-- `parse_process_char`. -/
def stepL (limit : Nat) (r : Reader) (c? : Option Char) : Py Reader :=
  match r.state with
  | .startRecord =>
    match c? with
    | none => .ok r
    | some c => if c = '\n' ∨ c = '\r' then .ok { r with state := .eatCrnl } else stepStartL limit r (some c)
  | .startField => stepStartL limit r c?
  | .inField =>
    match c? with
    | none => .ok (r.save .startRecord)
    | some c =>
      if c = '\n' ∨ c = '\r' then .ok (r.save .eatCrnl)
      else if c = ',' then .ok (r.save .startField)
      else r.addL limit c .inField
  | .inQuoted =>
    match c? with
    | none => .ok r
    | some c => if c = '"' then .ok { r with state := .quoteInQuoted } else r.addL limit c .inQuoted
  | .quoteInQuoted =>
    match c? with
    | none => .ok (r.save .startRecord)
    | some c =>
      if c = '"' then r.addL limit c .inQuoted
      else if c = ',' then .ok (r.save .startField)
      else if c = '\n' ∨ c = '\r' then .ok (r.save .eatCrnl)
      else r.addL limit c .inField
  | .eatCrnl =>
    match c? with
    | none => .ok { r with state := .startRecord }
    | some c => if c = '\n' ∨ c = '\r' then .ok r else .error .csvError

/-- One line: its characters and then its end. -/
def readLineL (limit : Nat) (r : Reader) (line : Str) : Py Reader := do
  let r ← line.foldlM (fun r c => stepL limit r (some c)) r
  stepL limit r none

/-- `Reader_iternext` repeated until the lines are exhausted. -/
def readLinesL (limit : Nat) : List Str → Reader → Py (List (List Str))
  | [], r => if r.field ≠ [] ∨ r.state = .inQuoted then .ok [r.fields ++ [r.field]] else .ok []
  | l :: ls, r => do
    let r ← readLineL limit r l
    if r.state = .startRecord then do
      let rest ← readLinesL limit ls Reader.init
      .ok (r.fields :: rest)
    else readLinesL limit ls r

/-- The rows that `csv_reader` yields for a file with this text, or the exception if it is read to the end, format.py:91-97. -/
def readL (limit : Nat) (text : Str) : Py (List (List Str)) := readLinesL limit (lines (universal text)) Reader.init

end TreeCat.Csv
