import Verif.Model.FormatText
import Verif.Model.ProfileRun
import Verif.Model.Validate

/-!
# Model of `treecat/profile.py`: `eval`

The launched process runs `validate.eval` on the files that `validate.train` has written before; how it is launched is
`runWithTool` in `Model/ProfileRun.lean`. The temporary directory holds the models; `param.csv` is passed as a text.
-/

namespace TreeCat

open Util
open Config (Str Config)

/-- `param.csv`, profile.py:138. -/
def profileParams : Str := "learning_init_epochs\n2".toList

/-- `learning_init_epochs=2`, profile.py:139 and 147. `parsable` passes the argument of line 147 as a string, and both functions
of `validate` convert it. -/
def profileOptions : Dict String Int := [("learning_init_epochs", 2)]

section
variable {K : Type} [Field K] [LinearOrder K] {M : Nat}

/-- `dataset['table']` and `dataset['schema']['tree_prior']` of a generated dataset, validate.py:101-102, 108 and 171-172. -/
def loadDataset (disk : GenDisk K M) (path : Str) : Py (Table × List K) :=
  match disk path with
  | none => .error .ioError
  | some (.model _) => .error .keyError
  | some (.dataset d) => .ok (d.2.2, List.replicate d.2.1 0)

/-- `eval(rows, cols, cats, tool)`, profile.py:126-149, and what the launched `validate.eval` returns. `cats` is not used. -/
def profileEval [NeZero M] (T : Text) (rng : Nat → Nat → Nat → ℚ → Nat → Nat → List Nat) (draw : Nat → Nat → Nat → List (List Nat)) (junk1 : Nat → List Bool)
    (junk2 : Nat → Fin M → K) (run : TrainerKind → Table → List K → Config → Py (Model K M)) (mst : List (List K) → List Edge) (num : ServeNum K)
    (disk : GenDisk K M) (rows cols _cats : Nat) : GenDisk K M × Py (List (Config × Option (Scores K))) :=
  match generateDatasetFile rng disk rows cols 4 1 with
  | (disk, .error e) => (disk, .error e)
  | (disk, .ok path) => (disk, do
    let data ← loadDataset disk path
    let csv ← Csv.read profileParams
    let dir ← trainAll T draw junk1 run data.1 data.2 csv profileOptions []
    evalAll T (evaluateModel num mst draw junk1 junk2 data.1) csv profileOptions dir)

end

end TreeCat
