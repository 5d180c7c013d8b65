import Verif.Model.Py

/-!
# Decorators with compilation switched off
-/

namespace TreeCat

/-- What can be passed to a decorator: `no_jit` itself, another callable, or a value that is not callable (a signature such as
`numba.int32(numba.int32, numba.int32)`). -/
inductive Decor (F : Type) where
  | noJit
  | fn (f : F)
  | value
  deriving DecidableEq

/-- `callable(x)`. -/
def Decor.callable {F : Type} : Decor F → Bool
  | .value => false
  | _ => true

/-- `no_jit(*args, **kwargs)`, util.py:37-40; of the keyword arguments only the names are kept. -/
def noJit {F : Type} (args : List (Decor F)) (kwargs : List String) : Decor F :=
  match args with
  | [a] => if kwargs.isEmpty && a.callable then a else .noJit
  | _ => .noJit

/-- `d(x)`: what `@d` binds the name of a function `x` to; `call` is the effect of calling another callable. -/
def Decor.decorate {F : Type} (call : F → Decor F → Py (Decor F)) (d x : Decor F) : Py (Decor F) :=
  match d with
  | .noJit => .ok (TreeCat.noJit [x] [])
  | .fn g => call g x
  | .value => .error .typeError

end TreeCat
