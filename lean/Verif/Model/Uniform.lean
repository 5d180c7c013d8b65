import Mathlib.Data.List.Permutation
import Mathlib.Data.Nat.Factorial.Basic
import Verif.Model.Training

/-!
# Uniform permutations
-/

namespace TreeCat

/-- `np.random.shuffle` and `np.random.permutation` draw every one of the `n!` orders with the same probability.
(Stated of numpy, not proved: numpy is outside the model.) -/
instance (K : Type) [Field K] : Shuffle (Expect K) where
  permutation n := fun k => (((List.range n).permutations.map k).sum) / (n.factorial : K)

end TreeCat
