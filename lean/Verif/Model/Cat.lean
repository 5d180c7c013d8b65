import Verif.Model.CommandLine

/-!
# The command `cat`
-/

namespace TreeCat

open Config (Str)

/-- `cat(*paths)`, format.py:580-585: the objects printed, and how the call ends. The text printed for an object is not modelled. -/
def catCmd {K : Type} {M : Nat} (disk : Disk K M) : List Str → List (Stored K M) × Py Unit
  | [] => ([], .ok ())
  | path :: paths =>
    if ".pkz".toList <:+ path then
      match pickleLoad disk path with
      | .ok obj => (obj :: (catCmd disk paths).1, (catCmd disk paths).2)
      | .error e => ([], .error e)
    else ([], .error .assertion)

end TreeCat
