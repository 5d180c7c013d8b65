import Mathlib.Algebra.BigOperators.Group.List.Basic
import Mathlib.Algebra.Module.Prod
import Mathlib.Analysis.SpecialFunctions.Pow.Real

/-!
# Specification: points, forces and curves in the plane
-/

namespace TreeCat.Spec

/-- Points of the plane. -/
abbrev Point := ℝ × ℝ

/-- Euclidean distance. -/
noncomputable def dist2 (a b : Point) : ℝ := Real.sqrt ((a.1 - b.1) ^ 2 + (a.2 - b.2) ^ 2)

/-- The vector of length `s` from `a` in the direction of `b`. -/
noncomputable def pull (s : ℝ) (a b : Point) : Point := (s / dist2 a b) • (b - a)

/-- The attractive force of length `s` on `v` along each edge at `v`: every neighbour pulls. -/
noncomputable def force (s : ℝ) (pos : Nat → Point) (edges : List (Nat × Nat)) (v : Nat) : Point :=
  (edges.map fun e => (if e.2 = v then pull s (pos v) (pos e.1) else 0) + if e.1 = v then pull s (pos v) (pos e.2) else 0).sum

/-- In the unit disk. -/
def Inside (p : Point) : Prop := p.1 ^ 2 + p.2 ^ 2 ≤ 1

/-- The point of the cubic Bézier curve with these control points at time `t`. -/
noncomputable def bezier (p0 p1 p2 p3 : Point) (t : ℝ) : Point :=
  (1 - t) ^ 3 • p0 + (3 * (1 - t) ^ 2 * t) • p1 + (3 * (1 - t) * t ^ 2) • p2 + t ^ 3 • p3

/-- Place `v` of `V` on the circle, counted from the top against the clock. -/
noncomputable def onCircle (V v : Nat) : Point :=
  (Real.cos (2 * Real.pi * ((v + 1 / 2) / V + 1 / 4)), Real.sin (2 * Real.pi * ((v + 1 / 2) / V + 1 / 4)))

end TreeCat.Spec
