import Mathlib.Algebra.Order.Field.Basic
import Verif.Model.Py

/-!
# Model of the timers (util.py:223-282)

A program is a tree of primitive steps, decisions, handlers and calls of decorated functions, so
every terminating run of Python code that calls decorated functions is one. Times are elements of a
field. `TIMERS` is a function of the name, as a `defaultdict(ProfileTimer)` is.
-/

namespace TreeCat

/-- Terminating programs on a state `σ`. A primitive step may raise and takes some time. `handle p q`
is `try: p` with `except: q`. `call name p` calls a function with body `p` that is decorated with
`profile_timed`; `name` is its module and name, util.py:247. -/
inductive Prog (σ K : Type) where
  | prim (f : σ → Option PyErr × σ × K)
  | decide (g : σ → Prog σ K)
  | seq (p q : Prog σ K)
  | handle (p q : Prog σ K)
  | call (name : String) (p : Prog σ K)

/-- `ProfileTimer`, util.py:228-233. -/
structure Timer (K : Type) where
  elapsed : K
  count : Nat

/-- The state of the process: the program's own state, the clock and `TIMERS`. -/
structure World (σ K : Type) where
  user : σ
  now : K
  timers : String → Timer K

section
variable {σ K : Type} [Field K]

/-- `__enter__`, util.py:235-236. -/
def Timer.enter (t : Timer K) (now : K) : Timer K := { t with elapsed := t.elapsed - now }

/-- `__exit__`, util.py:238-240. -/
def Timer.exit (t : Timer K) (now : K) : Timer K := { elapsed := t.elapsed + now, count := t.count + 1 }

/-- Running a program; `profiling` is the flag `PROFILING`, util.py:24. The result is the exception
that was raised, if any. With the flag a decorated function is `with timer: return fun(...)`,
util.py:250-252: `__exit__` runs in any case and the exception is passed on. -/
def Prog.run (profiling : Bool) : Prog σ K → World σ K → Option PyErr × World σ K
  | .prim f, w =>
    let r := f w.user
    (r.1, { w with user := r.2.1, now := w.now + r.2.2 })
  | .decide g, w => (g w.user).run profiling w
  | .seq p q, w =>
    let r := p.run profiling w
    match r.1 with
    | none => q.run profiling r.2
    | some e => (some e, r.2)
  | .handle p q, w =>
    let r := p.run profiling w
    match r.1 with
    | none => (none, r.2)
    | some _ => q.run profiling r.2
  | .call name p, w =>
    if profiling then
      let w := { w with timers := Function.update w.timers name ((w.timers name).enter w.now) }
      let r := p.run profiling w
      (r.1, { r.2 with timers := Function.update r.2.timers name ((r.2.timers name).exit r.2.now) })
    else p.run profiling w

end

end TreeCat
