import Mathlib.Algebra.BigOperators.Ring.Finset
import Mathlib.Algebra.BigOperators.Fin
import Mathlib.Data.Fin.Tuple.Basic
import Mathlib.Data.Fintype.Pi
import Mathlib.Logic.Equiv.Fin.Basic
import Mathlib.Tactic.Ring
import Verif.Lemmas.Program

/-!
# Sums over the values of some vertices
-/

set_option linter.unusedSectionVars false

namespace TreeCat

section
variable {K : Type} [CommSemiring K] {M : Nat}

/-- Sum of `f` over all values of the vertices in the list, the others being as in `z`. -/
def sumOver : List Nat → ((Nat → Fin M) → K) → (Nat → Fin M) → K
  | [], f, z => f z
  | x :: P, f, z => ∑ m, sumOver P f (Function.update z x m)

theorem sumOver_congr {P : List Nat} {f g : (Nat → Fin M) → K} {z : Nat → Fin M}
    (h : ∀ z', (∀ x, x ∉ P → z' x = z x) → f z' = g z') : sumOver P f z = sumOver P g z := by
  induction P generalizing z with
  | nil => exact h z (fun _ _ => rfl)
  | cons x P ih =>
    refine Finset.sum_congr rfl fun m _ => ih fun z' hz' => h z' fun y hy => ?_
    rw [hz' y (fun h => hy (by simp [h]))]
    exact Function.update_of_ne (fun h => hy (by simp [h])) _ _

theorem sumOver_mul_left (P : List Nat) (c : K) (f : (Nat → Fin M) → K) (z : Nat → Fin M) :
    sumOver P (fun z => c * f z) z = c * sumOver P f z := by
  induction P generalizing z with
  | nil => rfl
  | cons x P ih => simp only [sumOver, ih, Finset.mul_sum]

theorem sumOver_mul_right (P : List Nat) (c : K) (f : (Nat → Fin M) → K) (z : Nat → Fin M) :
    sumOver P (fun z => f z * c) z = sumOver P f z * c := by
  simp only [mul_comm _ c, sumOver_mul_left]

theorem sumOver_sum {ι : Type} (s : Finset ι) (P : List Nat) (f : ι → (Nat → Fin M) → K) (z : Nat → Fin M) :
    sumOver P (fun z => ∑ i ∈ s, f i z) z = ∑ i ∈ s, sumOver P (f i) z := by
  induction P generalizing z with
  | nil => rfl
  | cons x P ih => simp only [sumOver, ih]; exact Finset.sum_comm

theorem sumOver_append (A B : List Nat) (f : (Nat → Fin M) → K) (z : Nat → Fin M) :
    sumOver (A ++ B) f z = sumOver A (sumOver B f) z := by
  induction A generalizing z with
  | nil => rfl
  | cons x A ih => simp only [List.cons_append, sumOver, ih]

theorem sumOver_perm {A B : List Nat} (h : A.Perm B) (f : (Nat → Fin M) → K) (z : Nat → Fin M) :
    sumOver A f z = sumOver B f z := by
  induction h generalizing z with
  | nil => rfl
  | cons x _ ih => simp only [sumOver, ih]
  | swap x y l =>
    simp only [sumOver]
    by_cases hxy : x = y
    · subst hxy; rfl
    · rw [Finset.sum_comm]
      refine Finset.sum_congr rfl fun a _ => Finset.sum_congr rfl fun b _ => ?_
      rw [Function.update_comm (Ne.symm hxy)]
  | trans _ _ ih1 ih2 => rw [ih1, ih2]

/-- `z` on the vertices below `V`, `z0` elsewhere. -/
def overlay {α : Type} {V : Nat} (z0 : Nat → α) (z : Fin V → α) : Nat → α :=
  fun v => if h : v < V then z ⟨v, h⟩ else z0 v

theorem overlay_lt {α : Type} {V : Nat} (z0 : Nat → α) (z : Fin V → α) {v : Nat} (h : v < V) :
    overlay z0 z v = z ⟨v, h⟩ := dif_pos h

theorem overlay_ge {α : Type} {V : Nat} (z0 : Nat → α) (z : Fin V → α) {v : Nat} (h : ¬ v < V) :
    overlay z0 z v = z0 v := dif_neg h

theorem overlay_snoc {α : Type} {V : Nat} (z0 : Nat → α) (z : Fin V → α) (m : α) :
    overlay z0 (Fin.snoc z m : Fin (V + 1) → α) = Function.update (overlay z0 z) V m := by
  funext v
  rcases lt_trichotomy v V with h | h | h
  · rw [overlay_lt _ _ (by omega), Function.update_of_ne (by omega), overlay_lt _ _ h]
    have : (⟨v, by omega⟩ : Fin (V + 1)) = Fin.castSucc ⟨v, h⟩ := rfl
    rw [this, Fin.snoc_castSucc]
  · subst h
    rw [overlay_lt _ _ (by omega), Function.update_self]
    have : (⟨v, by omega⟩ : Fin (v + 1)) = Fin.last v := rfl
    rw [this, Fin.snoc_last]
  · rw [overlay_ge _ _ (by omega), Function.update_of_ne (by omega), overlay_ge _ _ (by omega)]

theorem sumOver_range (V : Nat) (f : (Nat → Fin M) → K) (z0 : Nat → Fin M) :
    sumOver (List.range V) f z0 = ∑ z : Fin V → Fin M, f (overlay z0 z) := by
  induction V generalizing f with
  | zero =>
    have : ∀ z : Fin 0 → Fin M, overlay z0 z = z0 := by
      intro z; funext v; exact overlay_ge _ _ (by omega)
    simp [sumOver, this]
  | succ V ih =>
    rw [List.range_succ, sumOver_append, ih]
    rw [← (Fin.snocEquiv fun _ => Fin M).sum_comp, Fintype.sum_prod_type, Finset.sum_comm]
    refine Finset.sum_congr rfl fun z _ => ?_
    simp only [sumOver]
    refine Finset.sum_congr rfl fun m _ => ?_
    have : (Fin.snocEquiv fun _ => Fin M) (m, z) = (Fin.snoc z m : Fin (V + 1) → Fin M) := rfl
    rw [this, overlay_snoc]

end

end TreeCat
