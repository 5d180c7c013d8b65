import Mathlib.Algebra.BigOperators.Group.List.Basic
import Mathlib.Tactic.Ring
import Mathlib.Tactic.NormNum
import Mathlib.Algebra.Order.Ring.Rat
import Verif.Model.Profiling

/-!
# C67: profiling does not change the program and counts every call once
-/

namespace TreeCat

namespace Spec

/-- A finished call: name, time at entry, time at exit. -/
structure CallRecord (K : Type) where
  name : String
  start : K
  stop : K

/-- What a program does without any timers: the calls that finish (normally or by an exception), in
order, the exception, the final state and the final time. -/
def history {σ K : Type} [Field K] : Prog σ K → σ → K → List (CallRecord K) × Option PyErr × σ × K
  | .prim f, u, t => ([], (f u).1, (f u).2.1, t + (f u).2.2)
  | .decide g, u, t => history (g u) u t
  | .seq p q, u, t =>
    let r := history p u t
    match r.2.1 with
    | none =>
      let r' := history q r.2.2.1 r.2.2.2
      (r.1 ++ r'.1, r'.2)
    | some _ => r
  | .handle p q, u, t =>
    let r := history p u t
    match r.2.1 with
    | none => r
    | some _ =>
      let r' := history q r.2.2.1 r.2.2.2
      (r.1 ++ r'.1, r'.2)
  | .call name p, u, t =>
    let r := history p u t
    (r.1 ++ [⟨name, t, r.2.2.2⟩], r.2)

end Spec

open Spec

section
variable {σ K : Type} [Field K]

/-- **C67.** With or without profiling a program raises the same exception, ends in the same state and
takes the same time. Without it no timer changes. With it each timer has counted every finished call
of its name once, including those that raised and those inside other calls, and has added up the times
between their entries and exits. -/
theorem profiling_spec (p : Prog σ K) : ∀ (profiling : Bool) (w : World σ K),
    let h := history p w.user w.now
    let r := p.run profiling w
    r.1 = h.2.1 ∧ r.2.user = h.2.2.1 ∧ r.2.now = h.2.2.2 ∧
    ∀ name, let calls := h.1.filter fun c => profiling && (c.name == name)
      (r.2.timers name).count = (w.timers name).count + calls.length ∧
      (r.2.timers name).elapsed = (w.timers name).elapsed + (calls.map fun c => c.stop - c.start).sum := by
  induction p with
  | prim f => intro profiling w; simp [Prog.run, history]
  | decide g ih => intro profiling w; exact ih w.user profiling w
  | seq p q ihp ihq =>
    intro profiling w
    obtain ⟨h1, h2, h3, h4⟩ := ihp profiling w
    simp only [Prog.run, history]
    rw [← h1]
    cases he : (p.run profiling w).1 with
    | none =>
      obtain ⟨g1, g2, g3, g4⟩ := ihq profiling (p.run profiling w).2
      simp only [h2, h3] at g1 g2 g3 g4
      refine ⟨g1, g2, g3, fun name => ?_⟩
      simp only [List.filter_append, List.length_append, List.map_append, List.sum_append]
      constructor
      · rw [(g4 name).1, (h4 name).1]; omega
      · rw [(g4 name).2, (h4 name).2]; ring
    | some e => exact ⟨by rw [← h1, he], h2, h3, h4⟩
  | handle p q ihp ihq =>
    intro profiling w
    obtain ⟨h1, h2, h3, h4⟩ := ihp profiling w
    simp only [Prog.run, history]
    rw [← h1]
    cases he : (p.run profiling w).1 with
    | none => exact ⟨by rw [← h1, he], h2, h3, h4⟩
    | some e =>
      obtain ⟨g1, g2, g3, g4⟩ := ihq profiling (p.run profiling w).2
      simp only [h2, h3] at g1 g2 g3 g4
      refine ⟨g1, g2, g3, fun name => ?_⟩
      simp only [List.filter_append, List.length_append, List.map_append, List.sum_append]
      constructor
      · rw [(g4 name).1, (h4 name).1]; omega
      · rw [(g4 name).2, (h4 name).2]; ring
  | call name p ih =>
    intro profiling w
    cases profiling with
    | false =>
      obtain ⟨h1, h2, h3, h4⟩ := ih false w
      simp only [Prog.run, history]
      refine ⟨h1, h2, h3, fun name' => ?_⟩
      have := h4 name'
      simpa using this
    | true =>
      obtain ⟨h1, h2, h3, h4⟩ := ih true
        { w with timers := Function.update w.timers name ((w.timers name).enter w.now) }
      simp only [Prog.run, history, if_true]
      refine ⟨h1, h2, h3, fun name' => ?_⟩
      have h := h4 name'
      have hn := h4 name
      by_cases hname : name' = name
      · subst hname
        simp only [Function.update_self, Timer.enter, Timer.exit, List.filter_append, List.length_append,
          List.map_append, List.sum_append, Bool.true_and] at h hn h3 ⊢
        rw [hn.1, hn.2, h3]
        simp
        exact ⟨by omega, by ring⟩
      · simp only [Function.update_of_ne hname, List.filter_append, List.length_append, List.map_append,
          List.sum_append, Bool.true_and] at h ⊢
        have hne : (name == name') = false := by simpa using fun h => hname h.symm
        simpa [hne] using h

end

/-- A function that calls itself once and then raises: both calls are counted, and the time of the
inner call is part of both. -/
example : let inner : Prog Unit ℚ := .call "f" (.prim fun _ => (none, (), 2))
    let p : Prog Unit ℚ := .call "f" (.seq inner (.prim fun _ => (some .valueError, (), 3)))
    let r := p.run true ⟨(), 10, fun _ => ⟨0, 0⟩⟩
    r.1 = some .valueError ∧ r.2.now = 15 ∧ (r.2.timers "f").count = 2 ∧ (r.2.timers "f").elapsed = 7 := by
  refine ⟨rfl, ?_, rfl, ?_⟩ <;> norm_num [Prog.run, Timer.enter, Timer.exit]

end TreeCat
