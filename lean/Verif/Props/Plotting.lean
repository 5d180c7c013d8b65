import Mathlib.Analysis.SpecialFunctions.Trigonometric.Angle
import Verif.Lemmas.Dict
import Verif.Lemmas.Program
import Verif.Model.Plotting
import Verif.Props.Order
import Verif.Props.SampleTree
import Verif.Spec.Plotting

/-!
# C57: the circular plot shows the tree

`contract_positions`, `plot_chord` and `plot_circular` of plotting.py.
-/

set_option linter.unusedSectionVars false

namespace TreeCat

open Spec

/-! ### numpy indexing -/

theorem gather_range {α : Type} (g : Nat → α) (V : Nat) (idx : List Nat) (h : ∀ i ∈ idx, i < V) :
    gather ((List.range V).map g) idx = .ok (idx.map g) :=
  mapM_ok _ g idx fun i hi => by
    unfold pyGet
    rw [List.getElem?_map, List.getElem?_range (h i hi)]
    rfl

theorem scatter_range {α : Type} (V : Nat) : ∀ (ps : List (Nat × α)) (g : Nat → α), (∀ p ∈ ps, p.1 < V) →
    ps.foldlM (fun xs p => pySet xs p.1 p.2) ((List.range V).map g)
      = (.ok ((List.range V).map (ps.foldl (fun g p => Function.update g p.1 p.2) g)) : Py (List α)) := by
  intro ps
  induction ps with
  | nil => intro g _; rfl
  | cons p ps ih =>
    intro g h
    have hp := h p (by simp)
    rw [List.foldlM_cons]
    unfold pySet
    rw [if_pos (by simpa using hp)]
    have e : ((List.range V).map g).set p.1 p.2 = (List.range V).map (Function.update g p.1 p.2) := by
      apply List.ext_getElem
      · simp
      · intro i h1 h2
        simp only [List.getElem_set, List.getElem_map, List.getElem_range, Function.update_apply]
        by_cases hi : p.1 = i
        · rw [if_pos hi, if_pos hi.symm]
        · rw [if_neg hi, if_neg (Ne.symm hi)]
    rw [e]
    exact ih _ fun q hq => h q (by simp [hq])

/-- The last value that is written to a place. -/
theorem foldl_update {α : Type} (v : Nat) : ∀ (ps : List (Nat × α)) (g : Nat → α),
    ps.foldl (fun g p => Function.update g p.1 p.2) g v = ((ps.reverse.find? fun p => p.1 = v).map Prod.snd).getD (g v) := by
  intro ps
  induction ps using List.reverseRecOn with
  | nil => intro g; rfl
  | append_singleton ps p ih =>
    intro g
    rw [List.foldl_append, List.reverse_append, List.foldl_cons, List.foldl_nil, List.reverse_singleton, List.singleton_append,
      List.find?_cons]
    by_cases h : p.1 = v
    · subst h; simp
    · rw [Function.update_of_ne (Ne.symm h), ih]
      simp [h]

theorem scatterOp_range {α β : Type} (op : α → β → α) (V : Nat) (g : Nat → α) (edges : List Edge) (key : Edge → Nat) (d : Edge → β)
    (h : ∀ e ∈ edges, key e < V) :
    scatterOp op ((List.range V).map g) (edges.map key) (edges.map d)
      = .ok ((List.range V).map fun v => match edges.reverse.find? fun e => key e = v with
          | some e => op (g v) (d e)
          | none => g v) := by
  unfold scatterOp
  have hk : ∀ i ∈ edges.map key, i < V := by
    intro i hi
    obtain ⟨e, he, rfl⟩ := List.mem_map.1 hi
    exact h e he
  rw [gather_range g V _ hk]
  simp only [bind, Except.bind, scatter]
  have e1 : (edges.map key).zip (((edges.map key).map g).zipWith op (edges.map d))
      = edges.map fun e => (key e, op (g (key e)) (d e)) := by
    induction edges with
    | nil => rfl
    | cons e es ih =>
      simp only [List.map_cons, List.zipWith_cons_cons, List.zip_cons_cons]
      rw [ih (fun x hx => h x (by simp [hx])) (fun x hx => hk x (by simp at hx ⊢; exact .inr hx))]
  rw [e1, scatter_range V _ g (by
    intro p hp
    obtain ⟨e, he, rfl⟩ := List.mem_map.1 hp
    exact h e he)]
  congr 1
  refine List.map_congr_left fun v _ => ?_
  rw [foldl_update, ← List.map_reverse, List.find?_map]
  have e2 : ((fun p : Nat × α => decide (p.1 = v)) ∘ fun e => (key e, op (g (key e)) (d e))) = fun e => decide (key e = v) := rfl
  rw [e2]
  cases hf : edges.reverse.find? fun e => decide (key e = v) with
  | none => rfl
  | some e =>
    have : key e = v := by simpa using List.find?_some hf
    simp [this]

theorem arrayMin_spec {K : Type} [Field K] [LinearOrder K] : ∀ {l : List K}, l ≠ [] → ∃ x ∈ l, arrayMin l = .ok x ∧ ∀ y ∈ l, x ≤ y := by
  intro l h
  cases l with
  | nil => exact absurd rfl h
  | cons a l =>
    clear h
    suffices H : ∀ (l : List K) (a : K), (l.foldl min a = a ∨ l.foldl min a ∈ l) ∧ l.foldl min a ≤ a ∧ ∀ y ∈ l, l.foldl min a ≤ y by
      obtain ⟨h1, h2, h3⟩ := H l a
      refine ⟨_, ?_, rfl, ?_⟩
      · rcases h1 with h | h
        · rw [h]; simp
        · simp [h]
      · intro y hy
        rcases List.mem_cons.1 hy with rfl | hy
        · exact h2
        · exact h3 y hy
    intro l
    induction l with
    | nil => intro a; simp
    | cons b l ih =>
      intro a
      rw [List.foldl_cons]
      obtain ⟨h1, h2, h3⟩ := ih (min a b)
      refine ⟨?_, h2.trans (min_le_left _ _), ?_⟩
      · rcases h1 with h | h
        · rcases min_choice a b with hm | hm
          · exact .inl (by rw [h, hm])
          · exact .inr (by rw [h, hm]; simp)
        · exact .inr (by simp [h])
      · intro y hy
        rcases List.mem_cons.1 hy with rfl | hy
        · exact h2.trans (min_le_right _ _)
        · exact h3 y hy

/-! ### `contract_positions` -/

/-- The functions of the real numbers. -/
noncomputable def realPlot : PlotNum ℝ where
  sqrt := Real.sqrt
  cos := Real.cos
  sin := Real.sin
  pi := Real.pi

theorem dist2_pos {a b : Point} (h : a ≠ b) : 0 < dist2 a b := by
  refine Real.sqrt_pos.2 ?_
  by_contra hc
  apply h
  have h1 := sq_nonneg (a.1 - b.1)
  have h2 := sq_nonneg (a.2 - b.2)
  have h3 : (a.1 - b.1) ^ 2 = 0 := by linarith
  have h4 : (a.2 - b.2) ^ 2 = 0 := by linarith
  exact Prod.ext (sub_eq_zero.1 (pow_eq_zero_iff two_ne_zero |>.1 h3)) (sub_eq_zero.1 (pow_eq_zero_iff two_ne_zero |>.1 h4))

theorem dist2_comm (a b : Point) : dist2 a b = dist2 b a := by
  unfold dist2
  congr 1
  ring

/-- What `contract_positions` adds to the position of `v` for the edges with key `v`: the pull along the last of them. -/
noncomputable def lastPull (s : ℝ) (pos : Nat → Point) (edges : List Edge) (key other : Edge → Nat) (v : Nat) : Point :=
  match edges.reverse.find? fun e => key e = v with
  | some e => pull s (pos v) (pos (other e))
  | none => 0

/-- **C57** (`contract_positions`, exactly). Every vertex moves along two edges at most: the last one in the list that has it as
second end and the last one that has it as first end. (Numpy applies `new[tails] += ...` once for each vertex.) -/
theorem contractPositions_spec {V : Nat} (pos : Nat → Point) (edges : List Edge) (hE : edges ≠ []) (hV : edges.length + 1 = V)
    (hr : ∀ e ∈ edges, e.1 < V ∧ e.2 < V) (hd : ∀ e ∈ edges, pos e.1 ≠ pos e.2) (step : ℝ) :
    ∃ s, (∀ e ∈ edges, s ≤ dist2 (pos e.1) (pos e.2)) ∧ (∃ e ∈ edges, s = dist2 (pos e.1) (pos e.2)) ∧ 0 < s ∧
      contractPositions realPlot ((List.range V).map pos) edges step = .ok ((List.range V).map fun v =>
        pos v + step • (lastPull s pos edges Prod.snd Prod.fst v + lastPull s pos edges Prod.fst Prod.snd v)) := by
  have hne : (edges.map fun e => dist2 (pos e.1) (pos e.2)) ≠ [] := by simpa using hE
  obtain ⟨s, hs, hmin, hle⟩ := arrayMin_spec hne
  obtain ⟨e0, he0, hs0⟩ := List.mem_map.1 hs
  have hpos : 0 < s := by rw [← hs0]; exact dist2_pos (hd e0 he0)
  refine ⟨s, fun e he => hle _ (List.mem_map.2 ⟨e, he, rfl⟩), ⟨e0, he0, hs0.symm⟩, hpos, ?_⟩
  have hh : ∀ i ∈ edges.map Prod.fst, i < V := by
    intro i hi
    obtain ⟨e, he, rfl⟩ := List.mem_map.1 hi
    exact (hr e he).1
  have ht : ∀ i ∈ edges.map Prod.snd, i < V := by
    intro i hi
    obtain ⟨e, he, rfl⟩ := List.mem_map.1 hi
    exact (hr e he).2
  have e1 : (((edges.map Prod.fst).map pos).zipWith (fun a b => (a.1 - b.1, a.2 - b.2)) ((edges.map Prod.snd).map pos) : List Point)
      = edges.map fun e => ((pos e.1).1 - (pos e.2).1, (pos e.1).2 - (pos e.2).2) := by
    rw [List.map_map, List.map_map, List.zipWith_map, List.zipWith_self]
    rfl
  have e2 : (edges.map fun e => ((pos e.1).1 - (pos e.2).1, (pos e.1).2 - (pos e.2).2)).map (norm2 realPlot)
      = edges.map fun e => dist2 (pos e.1) (pos e.2) := by
    rw [List.map_map]; rfl
  have e3 : ((edges.map fun e => ((pos e.1).1 - (pos e.2).1, (pos e.1).2 - (pos e.2).2)).zipWith
      (fun d r => (d.1 / r * s, d.2 / r * s)) (edges.map fun e => dist2 (pos e.1) (pos e.2)) : List Point)
      = edges.map fun e => pull s (pos e.2) (pos e.1) := by
    rw [List.zipWith_map, List.zipWith_self]
    refine List.map_congr_left fun e _ => ?_
    simp only [pull, dist2_comm (pos e.2) (pos e.1)]
    exact Prod.ext (by simp; ring) (by simp; ring)
  have a1 : (edges.length != 0) = true := by simpa using hE
  have a2 : (((List.range V).map pos).length == edges.length + 1) = true := by simpa using hV.symm
  have a3 : decide (0 < s) = true := by simpa using hpos
  unfold contractPositions
  dsimp only
  rw [gather_range pos V _ hh, gather_range pos V _ ht, a1, a2]
  simp only [bind, Except.bind, pyAssert, e1, e2, e3, hmin, a3, if_true]
  rw [scatterOp_range (fun (x : Point) (d : Point) => (x.1 + step * d.1, x.2 + step * d.2)) V pos edges Prod.snd _ fun e he => (hr e he).2]
  simp only
  rw [scatterOp_range (fun (x : Point) (d : Point) => (x.1 - step * d.1, x.2 - step * d.2)) V _ edges Prod.fst _ fun e he => (hr e he).1]
  congr 1
  refine List.map_congr_left fun v _ => ?_
  unfold lastPull
  cases h1 : edges.reverse.find? fun e => decide (e.2 = v) with
  | none =>
    cases h2 : edges.reverse.find? fun e => decide (e.1 = v) with
    | none => simp
    | some e =>
      have hv : e.1 = v := by simpa using List.find?_some h2
      subst hv
      simp only [pull, dist2_comm (pos e.2) (pos e.1)]
      exact Prod.ext (by simp; ring) (by simp; ring)
  | some e' =>
    have hv' : e'.2 = v := by simpa using List.find?_some h1
    subst hv'
    cases h2 : edges.reverse.find? fun e => decide (e.1 = e'.2) with
    | none => exact Prod.ext (by simp) (by simp)
    | some e =>
      have hv : e.1 = e'.2 := by simpa using List.find?_some h2
      simp only [pull, hv, dist2_comm (pos e.2) (pos e'.2)]
      exact Prod.ext (by simp; ring) (by simp; ring)

/-- A vertex that is an end of at most one edge on this side is pulled along that edge, so the result is the sum over the edges. -/
theorem lastPull_eq_sum (s : ℝ) (pos : Nat → Point) (key other : Edge → Nat) (v : Nat) : ∀ (edges : List Edge), (edges.map key).Nodup →
    lastPull s pos edges key other v = (edges.map fun e => if key e = v then pull s (pos v) (pos (other e)) else 0).sum := by
  intro edges
  induction edges using List.reverseRecOn with
  | nil => intro _; rfl
  | append_singleton es e ih =>
    intro h
    rw [List.map_append, List.nodup_append] at h
    have ih := ih h.1
    rw [List.map_append, List.sum_append]
    unfold lastPull at ih ⊢
    rw [List.reverse_append, List.reverse_singleton, List.singleton_append, List.find?_cons]
    by_cases hv : key e = v
    · have hz : (es.map fun e => if key e = v then pull s (pos v) (pos (other e)) else 0).sum = 0 := by
        apply List.sum_eq_zero
        intro x hx
        obtain ⟨e', he', rfl⟩ := List.mem_map.1 hx
        rw [if_neg]
        intro hc
        exact h.2.2 _ (List.mem_map.2 ⟨e', he', rfl⟩) _ (by simp) (hc.trans hv.symm)
      rw [hz]
      simp [hv]
    · simp only [hv, decide_false, Bool.false_eq_true]
      rw [ih]
      simp [hv]

/-- **C57** (`contract_positions`, as documented). If no vertex is twice the first end or twice the second end of an edge, then every
vertex is moved by the sum of the forces along all its edges. -/
theorem contractPositions_force_partial {V : Nat} (pos : Nat → Point) (edges : List Edge) (hE : edges ≠ []) (hV : edges.length + 1 = V)
    (hr : ∀ e ∈ edges, e.1 < V ∧ e.2 < V) (hd : ∀ e ∈ edges, pos e.1 ≠ pos e.2) (step : ℝ)
    (h1 : (edges.map Prod.fst).Nodup) (h2 : (edges.map Prod.snd).Nodup) :
    ∃ s, (∀ e ∈ edges, s ≤ dist2 (pos e.1) (pos e.2)) ∧ (∃ e ∈ edges, s = dist2 (pos e.1) (pos e.2)) ∧
      contractPositions realPlot ((List.range V).map pos) edges step
        = .ok ((List.range V).map fun v => pos v + step • force s pos edges v) := by
  obtain ⟨s, hs1, hs2, -, hs⟩ := contractPositions_spec pos edges hE hV hr hd step
  refine ⟨s, hs1, hs2, hs.trans ?_⟩
  congr 1
  refine List.map_congr_left fun v _ => ?_
  rw [lastPull_eq_sum s pos _ _ v edges h2, lastPull_eq_sum s pos _ _ v edges h1]
  unfold force
  rw [List.sum_map_add]

/-- The hypotheses are satisfiable. -/
example : ([(0, 1), (1, 2)].map Prod.fst : List Nat).Nodup ∧ ([(0, 1), (1, 2)].map Prod.snd : List Nat).Nodup := by decide

/-! ### In the disk -/

theorem sq_comb {w1 w2 w3 w4 : ℝ} (h1 : 0 ≤ w1) (h2 : 0 ≤ w2) (h3 : 0 ≤ w3) (h4 : 0 ≤ w4) (h : w1 + w2 + w3 + w4 = 1) (a b c d : ℝ) :
    (w1 * a + w2 * b + w3 * c + w4 * d) ^ 2 ≤ w1 * a ^ 2 + w2 * b ^ 2 + w3 * c ^ 2 + w4 * d ^ 2 := by
  obtain rfl : w1 = 1 - w2 - w3 - w4 := by linarith
  nlinarith [mul_nonneg (mul_nonneg h1 h2) (sq_nonneg (a - b)), mul_nonneg (mul_nonneg h1 h3) (sq_nonneg (a - c)),
    mul_nonneg (mul_nonneg h1 h4) (sq_nonneg (a - d)), mul_nonneg (mul_nonneg h2 h3) (sq_nonneg (b - c)),
    mul_nonneg (mul_nonneg h2 h4) (sq_nonneg (b - d)), mul_nonneg (mul_nonneg h3 h4) (sq_nonneg (c - d))]

/-- The disk is convex. -/
theorem inside_comb {w1 w2 w3 w4 : ℝ} (h1 : 0 ≤ w1) (h2 : 0 ≤ w2) (h3 : 0 ≤ w3) (h4 : 0 ≤ w4) (h : w1 + w2 + w3 + w4 = 1) {a b c d : Point}
    (ha : Inside a) (hb : Inside b) (hc : Inside c) (hd : Inside d) : Inside (w1 • a + w2 • b + w3 • c + w4 • d) := by
  unfold Inside at *
  have e1 := sq_comb h1 h2 h3 h4 h a.1 b.1 c.1 d.1
  have e2 := sq_comb h1 h2 h3 h4 h a.2 b.2 c.2 d.2
  simp only [Prod.fst_add, Prod.snd_add, Prod.smul_fst, Prod.smul_snd, smul_eq_mul]
  have f1 := mul_le_mul_of_nonneg_left ha h1
  have f2 := mul_le_mul_of_nonneg_left hb h2
  have f3 := mul_le_mul_of_nonneg_left hc h3
  have f4 := mul_le_mul_of_nonneg_left hd h4
  linarith

theorem inside_smul {c : ℝ} (h1 : -1 ≤ c) (h2 : c ≤ 1) {p : Point} (hp : Inside p) : Inside (c • p) := by
  unfold Inside at *
  simp only [Prod.smul_fst, Prod.smul_snd, smul_eq_mul]
  have : c ^ 2 ≤ 1 := by nlinarith
  nlinarith [sq_nonneg p.1, sq_nonneg p.2]

theorem onCircle_inside (V v : Nat) : Inside (onCircle V v) := by
  unfold Inside onCircle
  rw [Real.cos_sq_add_sin_sq]

/-- The pull along an edge is a part of the way to its other end. -/
theorem lastPull_part {s : ℝ} (hs : 0 < s) (pos : Nat → Point) (edges : List Edge) (key other : Edge → Nat) (v : Nat)
    (h : ∀ e ∈ edges, key e = v → s ≤ dist2 (pos v) (pos (other e))) (hp : ∀ e ∈ edges, Inside (pos (other e))) (hv : Inside (pos v)) :
    ∃ (r : ℝ) (q : Point), 0 ≤ r ∧ r ≤ 1 ∧ Inside q ∧ lastPull s pos edges key other v = r • (q - pos v) := by
  unfold lastPull
  cases hf : edges.reverse.find? fun e => decide (key e = v) with
  | none => exact ⟨0, pos v, le_rfl, zero_le_one, hv, by simp⟩
  | some e =>
    have he : e ∈ edges := by simpa using List.mem_of_find?_eq_some hf
    have hk : key e = v := by simpa using List.find?_some hf
    have hle := h e he hk
    exact ⟨s / dist2 (pos v) (pos (other e)), pos (other e), div_nonneg hs.le (hs.le.trans hle),
      (div_le_one (hs.trans_le hle)).2 hle, hp e he, rfl⟩

/-- **C57** (positions). Contraction by at most one half keeps every vertex in the disk. -/
theorem contractPositions_inside {V : Nat} (pos : Nat → Point) (edges : List Edge) (hr : ∀ e ∈ edges, e.1 < V ∧ e.2 < V) {step s : ℝ}
    (h0 : 0 ≤ step) (h1 : step ≤ 1 / 2) (hs : 0 < s) (hle : ∀ e ∈ edges, s ≤ dist2 (pos e.1) (pos e.2)) (hp : ∀ v < V, Inside (pos v))
    {v : Nat} (hv : v < V) :
    Inside (pos v + step • (lastPull s pos edges Prod.snd Prod.fst v + lastPull s pos edges Prod.fst Prod.snd v)) := by
  obtain ⟨r1, q1, a1, b1, c1, e1⟩ := lastPull_part hs pos edges Prod.snd Prod.fst v
    (fun e he hk => by rw [dist2_comm, ← hk]; exact hle e he) (fun e he => hp _ (hr e he).1) (hp v hv)
  obtain ⟨r2, q2, a2, b2, c2, e2⟩ := lastPull_part hs pos edges Prod.fst Prod.snd v
    (fun e he hk => by rw [← hk]; exact hle e he) (fun e he => hp _ (hr e he).2) (hp v hv)
  rw [e1, e2]
  have hw1 : 0 ≤ step * r1 := mul_nonneg h0 a1
  have hw2 : 0 ≤ step * r2 := mul_nonneg h0 a2
  have hw3 : step * r1 ≤ 1 / 2 := by nlinarith
  have hw4 : step * r2 ≤ 1 / 2 := by nlinarith
  have e : pos v + step • (r1 • (q1 - pos v) + r2 • (q2 - pos v))
      = (1 - step * r1 - step * r2) • pos v + (step * r1) • q1 + (step * r2) • q2 + (0 : ℝ) • pos v := by
    exact Prod.ext (by simp; ring) (by simp; ring)
  rw [e]
  exact inside_comb (by linarith) hw1 hw2 le_rfl (by ring) (hp v hv) c1 c2 (hp v hv)

theorem dist2_le_two {a b : Point} (ha : Inside a) (hb : Inside b) : dist2 a b ≤ 2 := by
  unfold dist2 Inside at *
  rw [Real.sqrt_le_left (by norm_num)]
  nlinarith [sq_nonneg (a.1 + b.1), sq_nonneg (a.2 + b.2)]

/-- The curve that a chord draws. -/
noncomputable def Chord.curve (c : Chord ℝ) (t : ℝ) : Point := bezier c.p0 c.p1 c.p2 c.p3 t

/-- **C57** (`plot_chord`). The chord between two points of the disk starts at the first, ends at the second and stays in the disk. -/
theorem plotChord_inside {a b : Point} (ha : Inside a) (hb : Inside b) {spacing : ℝ} (h0 : 0 ≤ spacing) (h1 : spacing ≤ 1) (alpha : Option ℝ) :
    (plotChord realPlot a b spacing alpha).curve 0 = a ∧ (plotChord realPlot a b spacing alpha).curve 1 = b ∧
      ∀ t, 0 ≤ t → t ≤ 1 → Inside ((plotChord realPlot a b spacing alpha).curve t) := by
  refine ⟨by simp [Chord.curve, bezier, plotChord], by simp [Chord.curve, bezier, plotChord], fun t ht0 ht1 => ?_⟩
  have hd0 : 0 ≤ dist2 a b := Real.sqrt_nonneg _
  have hd2 := dist2_le_two ha hb
  have key : (plotChord realPlot a b spacing alpha).curve t = bezier a ((1 - 2 / 3 * dist2 a b + 1 / 6 * dist2 a b ^ 2 - spacing) • a)
      ((1 - 2 / 3 * dist2 a b + 1 / 6 * dist2 a b ^ 2 - spacing) • b) b t := by
    unfold Chord.curve plotChord
    dsimp only
    congr 1
    · exact Prod.ext (mul_comm _ _) (mul_comm _ _)
    · exact Prod.ext (mul_comm _ _) (mul_comm _ _)
  rw [key]
  have hc1 : -1 ≤ 1 - 2 / 3 * dist2 a b + 1 / 6 * dist2 a b ^ 2 - spacing := by nlinarith
  have hc2 : 1 - 2 / 3 * dist2 a b + 1 / 6 * dist2 a b ^ 2 - spacing ≤ 1 := by nlinarith
  have hu : 0 ≤ 1 - t := by linarith
  unfold bezier
  exact inside_comb (by positivity) (by positivity) (by positivity) (by positivity) (by ring) ha (inside_smul hc1 hc2 ha)
    (inside_smul hc1 hc2 hb) hb

/-! ### The circle -/

/-- Different places on the circle are different points. -/
theorem onCircle_inj {V u v : Nat} (hu : u < V) (hv : v < V) (h : onCircle V u = onCircle V v) : u = v := by
  have hV : (0 : ℝ) < V := by exact_mod_cast (by omega : 0 < V)
  have h1 := Real.Angle.cos_sin_inj (congrArg Prod.fst h) (congrArg Prod.snd h)
  obtain ⟨k, hk⟩ := Real.Angle.angle_eq_iff_two_pi_dvd_sub.1 h1
  have hpi : (2 * Real.pi) ≠ 0 := by positivity
  have h2 : ((u : ℝ) + 1 / 2) / V + 1 / 4 - (((v : ℝ) + 1 / 2) / V + 1 / 4) = k := by
    apply mul_left_cancel₀ hpi
    rw [← hk]; ring
  have h3 : (u : ℝ) - v = k * V := by
    field_simp at h2
    linarith
  have h4 : (u : ℤ) - v = k * V := by exact_mod_cast h3
  have h5 : k = 0 := by
    by_contra hc
    rcases lt_or_gt_of_ne hc with hlt | hgt
    · have : k * V ≤ -1 * V := mul_le_mul_of_nonneg_right (by omega) (by omega)
      omega
    · have : 1 * (V : ℤ) ≤ k * V := mul_le_mul_of_nonneg_right (by omega) (by omega)
      omega
  rw [h5] at h4
  omega

theorem circlePoint_eq (V v : Nat) : circlePoint realPlot V v = onCircle V v := rfl

/-! ### Counting the sampled edges -/

theorem counter_spec : ∀ (l : List Edge) (d : Dict Edge Nat), (Dict.keys d).Nodup →
    (Dict.keys (l.foldl (fun d e => Dict.set d e (Dict.getD d e 0 + 1)) d)).Nodup ∧
    (∀ e, e ∈ Dict.keys (l.foldl (fun d e => Dict.set d e (Dict.getD d e 0 + 1)) d) ↔ e ∈ Dict.keys d ∨ e ∈ l) ∧
    ∀ e, Dict.getD (l.foldl (fun d e => Dict.set d e (Dict.getD d e 0 + 1)) d) e 0 = Dict.getD d e 0 + l.count e := by
  intro l
  induction l with
  | nil => intro d h; exact ⟨h, by simp, by simp⟩
  | cons a l ih =>
    intro d h
    rw [List.foldl_cons]
    obtain ⟨h1, h2, h3⟩ := ih _ (Dict.nodup_set h a (Dict.getD d a 0 + 1))
    refine ⟨h1, fun e => ?_, fun e => ?_⟩
    · rw [h2, Dict.mem_keys_set, List.mem_cons]
      tauto
    · rw [h3, Dict.getD_set, List.count_cons]
      by_cases he : a = e
      · subst he; simp; omega
      · rw [if_neg he, if_neg (by simpa using he)]; omega

theorem countEdges_spec (samples : List (List Edge)) (h : ∀ t ∈ samples, t.Nodup) :
    (Dict.keys (countEdges samples)).Nodup ∧ (∀ e, e ∈ Dict.keys (countEdges samples) ↔ ∃ t ∈ samples, e ∈ t) ∧
    ∀ p ∈ countEdges samples, p.2 = (samples.filter fun t => decide (p.1 ∈ t)).length := by
  have e0 : ∀ (ss : List (List Edge)) (d : Dict Edge Nat), ss.foldl (fun d sample => sample.foldl (fun d e => Dict.set d e (Dict.getD d e 0 + 1)) d) d
      = ss.flatten.foldl (fun d e => Dict.set d e (Dict.getD d e 0 + 1)) d := by
    intro ss
    induction ss with
    | nil => intro d; rfl
    | cons s ss ih => intro d; rw [List.foldl_cons, List.flatten_cons, List.foldl_append, ih]
  obtain ⟨h1, h2, h3⟩ := counter_spec samples.flatten [] List.nodup_nil
  unfold countEdges
  rw [e0]
  refine ⟨h1, fun e => ?_, fun p hp => ?_⟩
  · rw [h2, List.mem_flatten]
    simp [Dict.keys]
  · have h4 := h3 p.1
    have h5 := Dict.get?_of_mem (x := p.1) (v := p.2) h1 hp
    have h6 : Dict.getD (samples.flatten.foldl (fun d e => Dict.set d e (Dict.getD d e 0 + 1)) []) p.1 0 = p.2 := by
      exact (congrArg (fun o => Option.getD o 0) h5 : _)
    rw [h6] at h4
    rw [h4]
    have h7 : ∀ ss : List (List Edge), (∀ t ∈ ss, t.Nodup) → ss.flatten.count p.1 = (ss.filter fun t => decide (p.1 ∈ t)).length := by
      intro ss
      induction ss with
      | nil => intro _; rfl
      | cons t ss ih =>
        intro hs
        rw [List.flatten_cons, List.count_append, ih fun t ht => hs t (by simp [ht]), List.filter_cons, (hs t (by simp)).count]
        by_cases hm : p.1 ∈ t
        · simp [hm]; omega
        · simp [hm]
    rw [h7 samples h]
    show 0 + _ = _
    omega

/-! ### `plot_circular` -/

theorem find?_congr_mem {α : Type} {p q : α → Bool} : ∀ {l : List α}, (∀ x ∈ l, p x = q x) → l.find? p = l.find? q := by
  intro l
  induction l with
  | nil => intro _; rfl
  | cons a l ih =>
    intro h
    rw [List.find?_cons, List.find?_cons, h a (by simp), ih fun x hx => h x (by simp [hx])]

/-- Renaming the vertices. -/
theorem lastPull_rename (s : ℝ) (pos : Nat → Point) (edges : List Edge) (V : Nat) (hr : ∀ e ∈ edges, e.1 < V ∧ e.2 < V) (f : Nat → Nat)
    (hf : ∀ u < V, ∀ v < V, f u = f v → u = v) {v : Nat} (hv : v < V) :
    lastPull s pos (edges.map fun e => (f e.1, f e.2)) Prod.snd Prod.fst (f v) = lastPull s (fun u => pos (f u)) edges Prod.snd Prod.fst v ∧
    lastPull s pos (edges.map fun e => (f e.1, f e.2)) Prod.fst Prod.snd (f v) = lastPull s (fun u => pos (f u)) edges Prod.fst Prod.snd v := by
  unfold lastPull
  rw [← List.map_reverse, List.find?_map, List.find?_map]
  have e1 : edges.reverse.find? ((fun e : Edge => decide (e.2 = f v)) ∘ fun e => (f e.1, f e.2)) = edges.reverse.find? fun e => decide (e.2 = v) := by
    refine find?_congr_mem fun e he => ?_
    have := (hr e (by simpa using he)).2
    simp only [Function.comp]
    exact decide_eq_decide.2 ⟨fun h => hf _ this _ hv h, fun h => by rw [h]⟩
  have e2 : edges.reverse.find? ((fun e : Edge => decide (e.1 = f v)) ∘ fun e => (f e.1, f e.2)) = edges.reverse.find? fun e => decide (e.1 = v) := by
    refine find?_congr_mem fun e he => ?_
    have := (hr e (by simpa using he)).1
    simp only [Function.comp]
    exact decide_eq_decide.2 ⟨fun h => hf _ this _ hv h, fun h => by rw [h]⟩
  rw [e1, e2]
  constructor
  · cases edges.reverse.find? fun e => decide (e.2 = v) <;> rfl
  · cases edges.reverse.find? fun e => decide (e.1 = v) <;> rfl

theorem pyGet_range {α : Type} (g : Nat → α) {V i : Nat} (h : i < V) : pyGet ((List.range V).map g) i = .ok (g i) := by
  unfold pyGet
  rw [List.getElem?_map, List.getElem?_range h]
  rfl

/-- **C57** (`plot_circular`). For a tree on at least two features and sampled trees on the same features, the plot is drawn without
an exception. Every feature has its own place on the circle, is marked with its own name, density and perplexities, and is moved from
that place as `contractPositions_spec` says. The chords join exactly the positions of features that are neighbours in the tree. Every
edge of a sampled tree gives one chord, and its opacity is the part of the sampled trees that have the edge. -/
theorem plotCircular_spec {α : Type} {V : Nat} (h2 : 2 ≤ V) (inp : PlotInput ℝ α) (hT : IsTree V inp.edges) (iter : Nat → List Nat)
    (hnd : ∀ v < V, (iter v).Nodup) (hiter : ∀ v < V, ∀ u, u ∈ iter v ↔ Adj inp.edges v u)
    (name : Nat → α) (density observed latent : Nat → ℝ) (hname : inp.names = (List.range V).map name)
    (hdensity : inp.density = (List.range V).map density) (hobserved : inp.observed = (List.range V).map observed)
    (hlatent : inp.latent = (List.range V).map latent) (hS : ∀ t ∈ inp.samples, IsTree V t)
    (contract : ℝ) (h0 : 0 ≤ contract) (h1 : contract ≤ 1 / 2) :
    ∃ (place : Nat → Nat) (xy : Nat → Point) (s : ℝ) (d : Drawing ℝ α) (es : List Edge),
      plotCircular realPlot iter inp inp.samples.length contract = .ok d ∧
      (∀ v < V, place v < V) ∧ (∀ u < V, ∀ v < V, place u = place v → u = v) ∧
      (∀ e ∈ inp.edges, s ≤ dist2 (onCircle V (place e.1)) (onCircle V (place e.2))) ∧
      (∃ e ∈ inp.edges, s = dist2 (onCircle V (place e.1)) (onCircle V (place e.2))) ∧
      (∀ v < V, xy v = onCircle V (place v) + contract • (lastPull s (fun u => onCircle V (place u)) inp.edges Prod.snd Prod.fst v
        + lastPull s (fun u => onCircle V (place u)) inp.edges Prod.fst Prod.snd v)) ∧
      (∀ v < V, Inside (xy v)) ∧
      d.spots.length = V ∧
      (∀ v < V, d.spots[place v]? = some ⟨xy v, name v, 1 / 4 + 3 / 4 * density v, 2 * observed v, 2 * latent v⟩) ∧
      d.chords = inp.edges.map (fun e => plotChord realPlot (xy e.1) (xy e.2) (1 / V) none) ∧
      es.Nodup ∧ (∀ e, e ∈ es ↔ ∃ t ∈ inp.samples, e ∈ t) ∧
      d.sampled = es.map fun e => plotChord realPlot (xy e.1) (xy e.2) (1 / V)
        (some ((inp.samples.filter fun t => decide (e ∈ t)).length / inp.samples.length)) := by
  obtain ⟨order, inv, root, ho, hperm, hlen, hinv, -, -⟩ := orderVertices_spec V inp.edges hT iter hnd hiter
  obtain ⟨dd, par, R⟩ := exists_rooted hT (r := 0) (by omega)
  have hilen : inv.length = V := by simpa using hperm.length_eq
  -- the place of a feature, and the feature at a place
  set place : Nat → Nat := fun v => (order[v]?.join).getD 0 with hplace
  set feat : Nat → Nat := fun i => (inv[i]?).getD 0 with hfeat
  have hinv' : inv = (List.range V).map feat := by
    apply List.ext_getElem
    · simpa using hilen
    · intro i a b
      simp [hfeat, List.getElem?_eq_getElem a]
  have hp : ∀ v < V, order[v]? = some (some (place v)) ∧ place v < V ∧ feat (place v) = v := by
    intro v hv
    obtain ⟨i, hi, hiv⟩ := List.getElem_of_mem (hperm.mem_iff.2 (List.mem_range.2 hv))
    have hq : inv[i]? = some v := by rw [List.getElem?_eq_getElem hi, hiv]
    have ho := ((hinv i v).1 hq).2
    have hpl : place v = i := by simp [hplace, ho]
    rw [hpl]
    exact ⟨ho, by omega, by simp [hfeat, hq]⟩
  have hfl : ∀ i < V, feat i < V := by
    intro i hi
    have : feat i ∈ inv := by rw [hinv']; exact List.mem_map.2 ⟨i, List.mem_range.2 hi, rfl⟩
    exact List.mem_range.1 (hperm.mem_iff.1 this)
  have hinj : ∀ u < V, ∀ v < V, place u = place v → u = v := by
    intro u hu v hv h
    rw [← (hp u hu).2.2, h, (hp v hv).2.2]
  have hoa : ∀ v < V, orderAt order v = .ok (place v) := by
    intro v hv
    unfold orderAt pyGet
    rw [(hp v hv).1]
    rfl
  set edges' := inp.edges.map fun e => (place e.1, place e.2) with hedges'
  have hr' : ∀ e ∈ edges', e.1 < V ∧ e.2 < V := by
    intro e he
    obtain ⟨e0, he0, rfl⟩ := List.mem_map.1 he
    exact ⟨(hp _ (hT.range e0 he0).1).2.1, (hp _ (hT.range e0 he0).2).2.1⟩
  have hne' : edges' ≠ [] := by
    intro h
    have : inp.edges = [] := by simpa [hedges'] using h
    have hc := hT.card
    rw [this, List.length_nil] at hc
    omega
  have hd' : ∀ e ∈ edges', onCircle V e.1 ≠ onCircle V e.2 := by
    intro e he h
    have h3 := onCircle_inj (hr' e he).1 (hr' e he).2 h
    obtain ⟨e0, he0, rfl⟩ := List.mem_map.1 he
    have h4 := hinj _ (hT.range e0 he0).1 _ (hT.range e0 he0).2 h3
    refine R.irrefl (v := e0.1) (.inl ?_)
    have h5 : ((e0.1, e0.1) : Edge) = e0 := Prod.ext rfl h4
    rw [h5]
    exact he0
  obtain ⟨s, hs1, ⟨e1, he1, hs2⟩, hs0, hcon⟩ := contractPositions_spec (V := V) (onCircle V) edges' hne' (by simpa [hedges'] using hT.card) hr' hd' contract
  set pos' : Nat → Point := fun i => onCircle V i + contract • (lastPull s (onCircle V) edges' Prod.snd Prod.fst i
    + lastPull s (onCircle V) edges' Prod.fst Prod.snd i) with hpos'
  have hce : circlePoint realPlot V = onCircle V := funext fun v => circlePoint_eq V v
  have hXY : circlePositions realPlot V edges' contract = .ok ((List.range V).map pos') := by
    unfold circlePositions
    rw [hce]
    by_cases hc : contract = 0
    · have hz : pos' = onCircle V := funext fun i => by rw [hpos', hc]; simp
      rw [if_pos hc, hz]
    · rw [if_neg hc]
      exact hcon
  obtain ⟨c1, c2, c3⟩ := countEdges_spec inp.samples fun t ht => edge_nodup (hS t ht)
  have hspots : (List.range V).mapM (drawSpot ((List.range V).map pos') (inv.map name) (inv.map density) (inv.map observed) (inv.map latent))
      = .ok ((List.range V).map fun i => (⟨pos' i, name (feat i), 1 / 4 + 3 / 4 * density (feat i), 2 * observed (feat i), 2 * latent (feat i)⟩ : Spot ℝ α)) := by
    refine mapM_ok _ _ _ fun i hi => ?_
    have hi := List.mem_range.1 hi
    unfold drawSpot
    rw [hinv', List.map_map, List.map_map, List.map_map, List.map_map, pyGet_range _ hi, pyGet_range _ hi, pyGet_range _ hi, pyGet_range _ hi,
      pyGet_range _ hi]
    rfl
  have hchord : ∀ spacing alpha (e : Edge), e.1 < V → e.2 < V → drawChord realPlot ((List.range V).map pos') spacing alpha e
      = .ok (plotChord realPlot (pos' e.1) (pos' e.2) spacing alpha) := by
    intro spacing alpha e ha hb
    unfold drawChord
    rw [pyGet_range _ ha, pyGet_range _ hb]
    rfl
  have hchords : edges'.mapM (drawChord realPlot ((List.range V).map pos') (1 / (V : ℝ)) none)
      = .ok (edges'.map fun e => plotChord realPlot (pos' e.1) (pos' e.2) (1 / V) none) :=
    mapM_ok _ _ _ fun e he => hchord _ _ _ (hr' e he).1 (hr' e he).2
  have hsampled : (countEdges inp.samples).mapM (drawSampled realPlot ((List.range V).map pos') (1 / (V : ℝ)) order inp.samples.length)
      = .ok ((countEdges inp.samples).map fun ec => plotChord realPlot (pos' (place ec.1.1)) (pos' (place ec.1.2)) (1 / V)
          (some ((inp.samples.filter fun t => decide (ec.1 ∈ t)).length / inp.samples.length))) := by
    refine mapM_ok _ _ _ fun ec hec => ?_
    obtain ⟨t, ht, het⟩ := (c2 ec.1).1 (List.mem_map.2 ⟨ec, hec, rfl⟩)
    have hrt := (hS t ht).range _ het
    have hl : inp.samples.length ≠ 0 := by
      have := List.length_pos_of_mem ht
      omega
    unfold drawSampled
    simp only [hoa _ hrt.1, hoa _ hrt.2, bind, Except.bind, if_neg hl]
    rw [hchord _ _ _ (hp _ hrt.1).2.1 (hp _ hrt.2).2.1, c3 ec hec]
  have hedgesM : placeEdges order inp.edges = .ok edges' := by
    refine mapM_ok _ _ _ fun e he => ?_
    rw [hoa _ (hT.range e he).1, hoa _ (hT.range e he).2]
    rfl
  have hmem : ∀ i ∈ inv, i < V := fun i hi => List.mem_range.1 (hperm.mem_iff.1 hi)
  clear_value pos' edges' feat place
  refine ⟨place, fun v => pos' (place v), s,
      { spots := (List.range V).map fun i => (⟨pos' i, name (feat i), 1 / 4 + 3 / 4 * density (feat i), 2 * observed (feat i), 2 * latent (feat i)⟩ : Spot ℝ α)
        chords := edges'.map fun e => plotChord realPlot (pos' e.1) (pos' e.2) (1 / V) none
        sampled := (countEdges inp.samples).map fun ec => plotChord realPlot (pos' (place ec.1.1)) (pos' (place ec.1.2)) (1 / V)
          (some ((inp.samples.filter fun t => decide (ec.1 ∈ t)).length / inp.samples.length)) }, Dict.keys (countEdges inp.samples), ?main, fun v hv => (hp v hv).2.1, hinj, ?_, ?_, ?_, ?_, ?_, ?_, ?_, c1, c2, ?_⟩
  case main =>
    unfold plotCircular
    rw [hname, hdensity, hobserved, hlatent, ho]
    simp only [bind, Except.bind, hedgesM, gather_range _ V inv hmem, List.length_map, hilen, hXY, hspots, hchords, hsampled]
  · intro e he
    exact hs1 (place e.1, place e.2) (by rw [hedges']; exact List.mem_map.2 ⟨e, he, rfl⟩)
  · rw [hedges'] at he1
    obtain ⟨e0, he0, rfl⟩ := List.mem_map.1 he1
    exact ⟨e0, he0, hs2⟩
  · intro v hv
    obtain ⟨r1, r2⟩ := lastPull_rename s (onCircle V) inp.edges V hT.range place hinj hv
    simp only [hpos', hedges']
    rw [r1, r2]
  · intro v hv
    dsimp only
    rw [hpos']
    exact contractPositions_inside (V := V) (onCircle V) edges' hr' h0 h1 hs0 hs1 (fun v _ => onCircle_inside V v) (hp v hv).2.1
  · simp
  · intro v hv
    dsimp only
    rw [List.getElem?_map, List.getElem?_range (hp v hv).2.1, Option.map_some, (hp v hv).2.2]
  · dsimp only
    rw [hedges', List.map_map]
    rfl
  · dsimp only
    unfold Dict.keys
    rw [List.map_map]
    rfl

/-- **C57** (everything in the disk). Every chord of the plot starts and ends in the disk and stays in it. -/
theorem plotCircular_inside {α : Type} {V : Nat} (h2 : 2 ≤ V) (inp : PlotInput ℝ α) (hT : IsTree V inp.edges) (iter : Nat → List Nat)
    (hnd : ∀ v < V, (iter v).Nodup) (hiter : ∀ v < V, ∀ u, u ∈ iter v ↔ Adj inp.edges v u)
    (hname : inp.names.length = V) (hdensity : inp.density.length = V) (hobserved : inp.observed.length = V) (hlatent : inp.latent.length = V)
    (hS : ∀ t ∈ inp.samples, IsTree V t) (contract : ℝ) (h0 : 0 ≤ contract) (h1 : contract ≤ 1 / 2) :
    ∃ d, plotCircular realPlot iter inp inp.samples.length contract = .ok d ∧ (∀ x ∈ d.spots, Inside x.pos) ∧
      ∀ c ∈ d.chords ++ d.sampled, ∀ t, 0 ≤ t → t ≤ 1 → Inside (c.curve t) := by
  have hex : ∀ {β : Type} (l : List β), l.length = V → ∃ g : Nat → β, l = (List.range V).map g := by
    intro β l hl
    have b0 : β := l[0]'(by omega)
    refine ⟨fun i => l.getD i b0, ?_⟩
    apply List.ext_getElem
    · simpa using hl
    · intro i a b
      simp [List.getElem?_eq_getElem a]
  obtain ⟨name, hn⟩ := hex _ hname
  obtain ⟨dens, hde⟩ := hex _ hdensity
  obtain ⟨obs, hob⟩ := hex _ hobserved
  obtain ⟨lat, hla⟩ := hex _ hlatent
  obtain ⟨place, xy, s, d, es, hd, hp, hpi, -, -, -, hin, hlen, hsp, hc, -, hes, hsa⟩ :=
    plotCircular_spec h2 inp hT iter hnd hiter name dens obs lat hn hde hob hla hS contract h0 h1
  have hV1 : (0 : ℝ) ≤ 1 / V := by positivity
  have hV2 : (1 : ℝ) / V ≤ 1 := by
    rw [div_le_one (by exact_mod_cast (by omega : 0 < V))]
    exact_mod_cast (by omega : 1 ≤ V)
  refine ⟨d, hd, ?_, ?_⟩
  · intro x hx
    obtain ⟨i, hi, rfl⟩ := List.getElem_of_mem hx
    rw [hlen] at hi
    -- every place is the place of a feature
    have hsurj : ∃ v < V, place v = i := by
      have himg : (Finset.range V).image place = Finset.range V := by
        apply Finset.eq_of_subset_of_card_le
        · intro j hj
          obtain ⟨v, hv, rfl⟩ := Finset.mem_image.1 hj
          exact Finset.mem_range.2 (hp v (Finset.mem_range.1 hv))
        · rw [Finset.card_image_of_injOn]
          intro a ha b hb hab
          exact hpi a (by simpa using ha) b (by simpa using hb) hab
      have : i ∈ (Finset.range V).image place := by rw [himg]; exact Finset.mem_range.2 hi
      obtain ⟨v, hv, rfl⟩ := Finset.mem_image.1 this
      exact ⟨v, Finset.mem_range.1 hv, rfl⟩
    obtain ⟨v, hv, rfl⟩ := hsurj
    have h3 := hsp v hv
    rw [List.getElem?_eq_getElem (by omega), Option.some.injEq] at h3
    rw [h3]
    exact hin v hv
  · intro c hcm t ht0 ht1
    rcases List.mem_append.1 hcm with hm | hm
    · rw [hc] at hm
      obtain ⟨e, he, rfl⟩ := List.mem_map.1 hm
      exact (plotChord_inside (hin _ (hT.range e he).1) (hin _ (hT.range e he).2) hV1 hV2 _).2.2 t ht0 ht1
    · rw [hsa] at hm
      obtain ⟨e, he, rfl⟩ := List.mem_map.1 hm
      obtain ⟨tr, htr, het⟩ := (hes e).1 he
      exact (plotChord_inside (hin _ ((hS tr htr).range e het).1) (hin _ ((hS tr htr).range e het).2) hV1 hV2 _).2.2 t ht0 ht1

/-- The hypotheses are satisfiable: five features, two sampled trees. -/
example : ∃ d, plotCircular realPlot (dictNeighbors exTree) ⟨exTree, ["a", "b", "c", "d", "e"], [1, 1, 1, 1, 1 / 2], [2, 2, 2, 2, 2], [1, 1, 1, 1, 1], [exTree, exTree]⟩
    2 (8 / 100) = .ok d ∧ d.chords.length = 4 ∧ d.sampled.length = 4 := by
  have hT : IsTree 5 exTree := exTree_isTree
  obtain ⟨place, xy, s, d, es, hd, -, -, -, -, -, -, -, -, hc, hn, hes, hsa⟩ := plotCircular_spec (V := 5) (by norm_num)
    (⟨exTree, ["a", "b", "c", "d", "e"], [1, 1, 1, 1, 1 / 2], [2, 2, 2, 2, 2], [1, 1, 1, 1, 1], [exTree, exTree]⟩ : PlotInput ℝ String) hT
    (dictNeighbors exTree) (fun v _ => (dictNeighbors_spec exTree v).1) (fun v _ => (dictNeighbors_spec exTree v).2)
    (fun v => ["a", "b", "c", "d", "e"].getD v "") (fun v => [1, 1, 1, 1, 1 / 2].getD v 0) (fun _ => 2) (fun _ => 1) rfl rfl rfl rfl
    (by simpa using hT) (8 / 100) (by norm_num) (by norm_num)
  refine ⟨d, hd, by rw [hc]; rfl, ?_⟩
  rw [hsa, List.length_map]
  have : es.Perm exTree := (List.perm_ext_iff_of_nodup hn (edge_nodup hT)).2 fun e => by rw [hes]; simp
  exact this.length_eq

/-! ### Where the code and its documentation disagree -/

/-- A vertex with two edges on the same side is pulled by the last one only: here vertex 0 should move by `(1/10, 1/10)`. -/
theorem contractPositions_hub :
    contractPositions realPlot [(0, 0), (1, 0), (0, 1)] [(0, 1), (0, 2)] (1 / 10) = .ok [(0, 1 / 10), (9 / 10, 0), (0, 9 / 10)] ∧
    force 1 (fun v => [((0 : ℝ), (0 : ℝ)), (1, 0), (0, 1)].getD v 0) [(0, 1), (0, 2)] 0 = (1, 1) := by
  constructor
  · simp [contractPositions, scatterOp, scatter, gather, pyGet, pySet, pyAssert, arrayMin, norm2, realPlot, bind, Except.bind, List.mapM_cons, pure, Except.pure]
    norm_num
  · simp [force, pull, dist2]

/-- A model of a single feature cannot be plotted with the default arguments. -/
theorem plotCircular_single {α : Type} (iter : Nat → List Nat) (h0 : iter 0 = []) (inp : PlotInput ℝ α) (hE : inp.edges = []) (hn : inp.names.length = 1)
    (hd : inp.density.length = 1) (ho : inp.observed.length = 1) (hl : inp.latent.length = 1) (n : Nat) {contract : ℝ} (hc : contract ≠ 0) :
    plotCircular realPlot iter inp n contract = .error .assertion := by
  have h1 : orderVertices iter [] = .ok ([some 0], [0]) := by
    have := orderVertices_spec 1 [] ⟨rfl, by simp, fun u hu v hv => by
      obtain rfl : u = 0 := by omega
      obtain rfl : v = 0 := by omega
      exact .refl⟩ iter (fun v hv => by obtain rfl : v = 0 := by omega
                                        rw [h0]; exact List.nodup_nil) (fun v hv u => by
        obtain rfl : v = 0 := by omega
        rw [h0]; simp [Adj])
    obtain ⟨order, inv, root, h, hp, hlen, hi, -⟩ := this
    have hinv : inv = [0] := List.perm_singleton.1 hp
    have ho : order[0]? = some (some 0) := ((hi 0 0).1 (by rw [hinv]; rfl)).2
    have : order = [some 0] := by
      match order, hlen, ho with
      | [x], _, h => simpa using h
    rw [h, hinv, this]
  have hg : ∀ {β : Type} (l : List β), l.length = 1 → gather l [0] = .ok l := by
    intro β l h
    match l, h with
    | [x], _ => rfl
  unfold plotCircular
  rw [hE, h1]
  simp only [bind, Except.bind, placeEdges, List.mapM_nil, pure, Except.pure, hg _ hn, hg _ hd, hg _ ho, hg _ hl, circlePositions, if_neg hc]
  rfl

end TreeCat
