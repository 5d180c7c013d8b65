import Verif.Model.Csv
import Verif.Model.Seed

/-!
# Context managers and the seeds of the tests: `np_printoptions`, `tempdir`, `in_tempdir`, `make_seed`

The state of a process that they change: the files, the working directory, numpy's print options. The body of a `with` statement is any
program on that state, which may return or raise.
-/

namespace TreeCat

open Config (Str)

/-- An absolute path: the names from the root on. -/
abbrev FilePath := List Str

/-- What there is at a path. -/
inductive Entry where
  | dir
  | file (text : Str)
  deriving DecidableEq, Repr

/-- A process: its files, working directory and print options (`Key` is the set of the options, which numpy fixes). -/
structure Process (Key V : Type) where
  files : FilePath → Option Entry
  cwd : FilePath
  options : Key → V

/-- A program on the state of the process. The state survives an exception. -/
def Act (Key V α : Type) : Type := Process Key V → Py α × Process Key V

section
variable {Key V α β : Type}

/-- One program after another; the second is skipped if the first raises. -/
def Act.andThen (x : Act Key V α) (f : α → Act Key V β) : Act Key V β := fun p =>
  match x p with
  | (.ok a, p) => f a p
  | (.error e, p) => (.error e, p)

/-- `try: x finally: fin`. An exception of `fin` replaces the outcome of `x`. -/
def Act.andFinally (x : Act Key V α) (fin : Act Key V Unit) : Act Key V α := fun p =>
  match x p with
  | (r, p) =>
    match fin p with
    | (.ok _, p) => (r, p)
    | (.error e, p) => (.error e, p)

/-- `shutil.rmtree(path)`: deletes the directory and all below it; `OSError` if there is no directory. Permissions are not modelled. -/
def rmtree (path : FilePath) : Act Key V Unit := fun p =>
  if p.files path = some .dir then (.ok (), { p with files := fun q => if path <+: q then none else p.files q })
  else (.error .ioError, p)

/-- `os.chdir(path)`. -/
def chdir (path : FilePath) : Act Key V Unit := fun p =>
  if p.files path = some .dir then (.ok (), { p with cwd := path }) else (.error .ioError, p)

/-- `os.getcwd()`, which raises if the directory has been deleted. -/
def getcwd : Act Key V FilePath := fun p => if p.files p.cwd = some .dir then (.ok p.cwd, p) else (.error .ioError, p)

/-- `tempfile.mkdtemp()`. `pick` chooses the name, or raises if there is no usable place. -/
def mkdtemp (pick : Process Key V → Py FilePath) : Act Key V FilePath := fun p =>
  match pick p with
  | .error e => (.error e, p)
  | .ok d => (.ok d, { p with files := fun q => if q = d then some .dir else p.files q })

/-- `with tempdir() as dirname: body(dirname)`, testutil.py:54-60. -/
def withTempdir (pick : Process Key V → Py FilePath) (body : FilePath → Act Key V α) : Act Key V α :=
  (mkdtemp pick).andThen fun dirname => (body dirname).andFinally (rmtree dirname)

/-- `with in_tempdir(): body()`, testutil.py:63-71. -/
def inTempdir (pick : Process Key V → Py FilePath) (body : Act Key V α) : Act Key V α :=
  getcwd.andThen fun old =>
    withTempdir pick fun new =>
      (chdir new).andThen fun _ => body.andFinally (chdir old)

/-- `np.set_printoptions(**kwargs)`. The values are not checked. -/
def setPrintoptions (kwargs : Key → Option V) : Act Key V Unit := fun p =>
  (.ok (), { p with options := fun k => (kwargs k).getD (p.options k) })

/-- `with np_printoptions(**kwargs): body()`, util.py:68-74. There is no `try`: an exception of the body, raised at the `yield`, skips the
last line. `np.get_printoptions()` returns all options. -/
def npPrintoptions (kwargs : Key → Option V) (body : Act Key V α) : Act Key V α := fun p =>
  let old := p.options
  ((setPrintoptions kwargs).andThen fun _ => body.andThen fun r =>
    (setPrintoptions fun k => some (old k)).andThen fun _ => fun p => (.ok r, p)) p

/-! ### Seeds of the tests -/

/-- A digit of `int(…, 0)` after `0x`. -/
def hexDigit (c : Char) : Option Nat :=
  if '0' ≤ c ∧ c ≤ '9' then some (c.toNat - '0'.toNat)
  else if 'a' ≤ c ∧ c ≤ 'f' then some (c.toNat - 'a'.toNat + 10)
  else if 'A' ≤ c ∧ c ≤ 'F' then some (c.toNat - 'A'.toNat + 10)
  else none

/-- `int('0x{}'.format(digest), 0)`, testutil.py:77. Underscores, which Python 3.6 allows between digits, do not occur in digests. -/
def hexInt (digest : Str) : Py Nat :=
  match digest with
  | [] => .error .valueError
  | _ => digest.foldlM (fun n c => match hexDigit c with
    | some d => .ok (16 * n + d)
    | none => .error .valueError) 0

/-- `open('/tmp/v1.json', 'w')` and `f.write(serialized)`, format.py:80-82. -/
def writeFile (path : FilePath) (text : Str) : Act Key V Unit := fun p =>
  if p.files path.dropLast = some .dir ∧ p.files path ≠ some .dir then
    (.ok (), { p with files := fun q => if q = path then some (.file text) else p.files q })
  else (.error .ioError, p)

/-- The file that `fingerprint` leaves behind, format.py:80. -/
def fingerprintFile : FilePath := ["tmp".toList, "v1.json".toList]

/-- `fingerprint(obj)`, format.py:78-88. `encode` is `json_dumps`, format.py:44-45; `sha1` is `hashlib.sha1(…).hexdigest()`, of the text
in utf-8 (Python 3) or as it is (Python 2). The printed line is not modelled. -/
def fingerprint (encode : β → Str) (sha1 : Str → Str) (obj : β) : Act Key V Str :=
  (writeFile fingerprintFile (encode obj)).andThen fun _ => fun p => (.ok (sha1 (encode obj)), p)

/-- `make_seed(*args)`, testutil.py:74-79. -/
def makeSeed (encode : β → Str) (sha1 : Str → Str) (args : β) : Act Key V Nat :=
  (fingerprint encode sha1 args).andThen fun digest => fun p =>
    ((do
      let bigseed ← hexInt digest
      .ok (bigseed % 2 ^ 32)), p)

end

end TreeCat
