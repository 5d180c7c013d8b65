import Mathlib.Data.Real.Basic
import Verif.Model.Float
import Verif.Model.Uniform

/-!
# Sampling trees in floating point (treecat/structure.py:364-428, treecat/util.py:77-88)

`sample_tree` is written once over a monad with a `choose` operation, see `Model/Structure`. In float32 it is the same program with `fun x => fexp (rs x)` for
the exponential function: `rs` rounds the difference `valid_probs - valid_probs.max()` and `fexp` stands for `np.exp` on float32 numbers. The reading of
`choose` is `FloatExpect` below. The sum `total_prob` is exact here; it is only compared with zero, and one of its terms is `np.exp(0) == 1`.
-/

namespace TreeCat

open Util

/-- Expected values over the draws of `np.random.rand()`, which are taken as the `n` numbers `d / n`, equally likely and independent. Cumulative sums are rounded
with `rs`, the product of the draw and the last sum with `rp`. -/
def FloatExpect (_rs _rp : ℚ → ℚ) (_n : Nat) (α : Type) : Type := (α → ℝ) → ℝ

section
variable (rs rp : ℚ → ℚ) (n : Nat)

instance : Monad (FloatExpect rs rp n) where
  pure a := fun k => k a
  bind x f := fun k => x fun a => f a k

instance : LawfulMonad (FloatExpect rs rp n) := LawfulMonad.mk'
  (id_map := fun _ => rfl) (pure_bind := fun _ _ => rfl) (bind_assoc := fun _ _ _ => rfl)

/-- The value of a drawn index; an exception counts zero. -/
def drawValue {N : Nat} (r : Py Nat) (k : Fin N → ℝ) : ℝ :=
  match r with
  | .ok i => if h : i < N then k ⟨i, h⟩ else 0
  | .error _ => 0

/-- `sample_from_probs(probs)`, util.py:77-88. -/
noncomputable instance : Choose ℚ (FloatExpect rs rp n) where
  choose p := fun k => (∑ d ∈ Finset.range n, drawValue (floatSample rs rp (List.ofFn p) ((d : ℚ) / n)) k) / n

/-- `np.random.permutation(N)`, as in the exact reading. -/
noncomputable instance : Shuffle (FloatExpect rs rp n) where
  permutation N := fun k => (((List.range N).permutations.map k).sum) / (N.factorial : ℝ)

end

end TreeCat
