import Mathlib.Algebra.Order.Field.Basic
import Mathlib.Algebra.BigOperators.Group.Finset.Basic
import Mathlib.Data.Fintype.Basic
import Mathlib.Order.SetNotation
import Verif.Model.Py

/-!
# Random choices

Code that draws from `sample_from_probs` is written once over a monad with a
`choose` operation. It is read in two ways:

* `Poss`: the set of all possible results, whatever is drawn (safety);
* `Expect K`: the expectation operator of the result's distribution (exact law).

`TreeCat.Util.sampleFromProbs_law` is the link between one call of the Python
function and `choose` of the expectation reading.
-/

namespace TreeCat

open scoped BigOperators

/-- Monads in which an index can be drawn from unnormalised weights. -/
class Choose (K : Type) (m : Type → Type) where
  choose : {n : Nat} → (Fin n → K) → m (Fin n)

/-- Results that may occur. -/
def Poss (α : Type) : Type := α → Prop

instance : Monad Poss where
  pure a := fun b => b = a
  bind x f := fun b => ∃ a, x a ∧ f a b

/-- Every index may be drawn. This includes draws of weight zero, so a safety
theorem in this reading does not depend on the weights. -/
instance (K : Type) : Choose K Poss where
  choose := fun _ _ => True

/-- Expectation operators: `x k` is the expected value of `k` over the results. -/
def Expect (K α : Type) : Type := (α → K) → K

instance (K : Type) : Monad (Expect K) where
  pure a := fun k => k a
  bind x f := fun k => x fun a => f a k

instance (K : Type) : LawfulMonad (Expect K) := LawfulMonad.mk'
  (id_map := fun _ => rfl) (pure_bind := fun _ _ => rfl) (bind_assoc := fun _ _ _ => rfl)

instance : LawfulMonad Poss := LawfulMonad.mk'
  (id_map := by
    intro α x; funext b
    apply propext
    constructor
    · rintro ⟨a, ha, hb⟩; cases hb; exact ha
    · intro h; exact ⟨b, h, rfl⟩)
  (pure_bind := by
    intro α β a f; funext b
    apply propext
    constructor
    · rintro ⟨c, hc, hb⟩; cases hc; exact hb
    · intro h; exact ⟨a, rfl, h⟩)
  (bind_assoc := by
    intro α β γ x f g; funext c
    apply propext
    constructor
    · rintro ⟨b, ⟨a, ha, hb⟩, hc⟩; exact ⟨a, ha, b, hb, hc⟩
    · rintro ⟨a, ha, b, hb, hc⟩; exact ⟨b, ⟨a, ha, hb⟩, hc⟩)

/-- Index `i` is drawn with probability `p i / sum p`. -/
instance (K : Type) [Field K] : Choose K (Expect K) where
  choose p := fun k => (∑ i, p i * k i) / ∑ i, p i

/-- A deterministic Python computation inside a random one. -/
def liftPy {m : Type → Type} [Monad m] {α : Type} (x : Py α) : ExceptT PyErr m α :=
  ExceptT.mk (pure x)

/-- `sample_from_probs(probs)`, util.py:77-88, for weights given as a list. -/
def sampleIndex {K : Type} {m : Type → Type} [Monad m] [Choose K m] (probs : List K) :
    ExceptT PyErr m Nat :=
  ExceptT.lift ((fun i : Fin probs.length => i.val) <$> Choose.choose fun i => probs[i])

end TreeCat
