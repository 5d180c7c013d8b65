import Verif.Model.NoJit

/-!
# C110: switching compilation off leaves the functions as they are
-/

namespace TreeCat

variable {F : Type} (call : F → Decor F → Py (Decor F))

/-- **C110.** Under `@no_jit(*args, **kwargs)` the name of a function is bound to the function itself, unless the decorator has exactly one
argument, which is a callable other than `no_jit`; then it is bound to what that callable returns for the function. Both `@no_jit` and
`@no_jit(no_jit)` leave the function as it is. -/
theorem noJit_decorates (args : List (Decor F)) (kwargs : List String) (f : F) :
    Decor.decorate call .noJit (.fn f) = .ok (.fn f) ∧
    ((∀ g, args = [.fn g] → kwargs ≠ []) → Decor.decorate call (noJit args kwargs) (.fn f) = .ok (.fn f)) ∧
    ∀ g, args = [.fn g] → kwargs = [] → Decor.decorate call (noJit args kwargs) (.fn f) = call g (.fn f) := by
  refine ⟨rfl, fun h => ?_, fun g e1 e2 => by subst e1 e2; rfl⟩
  match args, h with
  | [], _ => rfl
  | [.noJit], _ => cases kwargs <;> rfl
  | [.value], _ => cases kwargs <;> rfl
  | [.fn g], h =>
    have := h g rfl
    unfold noJit
    cases kwargs with
    | nil => exact absurd rfl this
    | cons _ _ => rfl
  | _ :: _ :: _, _ => rfl

/-- The decorators that the code uses: `@jit(nopython=True, cache=True)`, `@jit(nopython=True, parallel=True)`, and one with a
signature (structure.py:86). -/
example (f : F) :
    Decor.decorate call (noJit [] ["nopython", "cache"]) (.fn f) = .ok (.fn f) ∧
    Decor.decorate call (noJit [] ["nopython", "parallel"]) (.fn f) = .ok (.fn f) ∧
    Decor.decorate call (noJit [.value] ["nopython", "cache"]) (.fn f) = .ok (.fn f) :=
  ⟨(noJit_decorates call [] _ f).2.1 (by simp), (noJit_decorates call [] _ f).2.1 (by simp), (noJit_decorates call [.value] _ f).2.1 (by simp)⟩

/-- A callable as the only argument takes the place of the function. -/
example : Decor.decorate (fun g _ => .ok (.fn (g + 1))) (noJit [.fn 5] []) (.fn 2) = .ok (.fn 6) :=
  (noJit_decorates (fun g _ => .ok (.fn (g + 1))) [.fn 5] [] 2).2.2 5 rfl rfl

end TreeCat
