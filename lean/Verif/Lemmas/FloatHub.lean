import Verif.Lemmas.RowDraw
import Verif.Props.FloatRowLaw

/-!
# C77: underflow at a hub

Without the hypothesis that no message underflows, C77 fails for categorical data too. Sixty-four features hang on one; in the new row the
first 31 favour one class and the other 33 the other class.
-/

set_option linter.unusedSectionVars false
set_option maxRecDepth 20000

namespace TreeCat

open Util Spec
open scoped BigOperators

/-- The tree: every feature is joined to feature 0. -/
def hubEdges : List Edge := (List.range 64).map fun i => (0, i + 1)

/-- Binary features. In 16 rows all have the first value, in 16 rows the second, and there is the row to be added. -/
def hubTable : Table :=
  ⟨List.replicate 65 0, (List.range 66).map (2 * ·),
    List.replicate 16 ((List.range 65).flatMap fun _ => [1, 0]) ++ List.replicate 16 ((List.range 65).flatMap fun _ => [0, 1]) ++
      [[0, 0] ++ ((List.range 31).flatMap fun _ => [1, 0]) ++ (List.range 33).flatMap fun _ => [0, 1]]⟩

/-- The classes of the rows that are there. -/
def hubClass (n : Nat) : Fin 2 := if n < 16 then 0 else 1

def hubUp : List Instr := (List.range 65).reverse.map fun v => ⟨.UP, v, 0, 0⟩

def hubIns : List Instr := (List.range 64).map fun i => ⟨.IN, 0, i + 1, i⟩

def hubOut : List Instr := ⟨.DOWN, 0, 0, 0⟩ :: (List.range 64).flatMap fun i => [⟨.OUT, i + 1, 0, i⟩, ⟨.DOWN, i + 1, 0, 0⟩]

theorem hub_grid : makeTree hubEdges = (List.range 64).map fun i => (i, 0, i + 1) := by decide +kernel

theorem hub_center : findCenter (makeTree hubEdges) = .ok 0 := by decide +kernel

theorem hub_program : makeProgram (makeTree hubEdges) none = .ok (hubUp ++ (hubIns ++ ⟨.ROOT, 0, 0, 0⟩ :: hubOut)) := by decide +kernel

theorem hub_isTree : IsTree 65 hubEdges := by
  refine isTree_of_smaller (by decide) ?_ ?_
  · intro e he
    obtain ⟨v, hv, rfl⟩ := List.mem_map.1 he
    rw [List.mem_range] at hv
    simp only; omega
  · intro v hv h0
    refine ⟨0, by omega, .inr (List.mem_map.2 ⟨v - 1, ?_, ?_⟩)⟩
    · rw [List.mem_range]; omega
    · rw [Nat.sub_add_cancel (by omega)]

/-! ### The loop in float32 -/

/-- The message of a leaf after `OP_UP`. -/
def hubLeaf (v : Nat) (a : Fin 2) : Flt :=
  if v = 0 then some (33 / 2) else
    Flt.div float32 (Flt.mul float32 (some (33 / 2)) (some (if (v ≤ 31) = (a = 0) then 65 / 4 else 1 / 4))) (some (33 / 2))

/-- `OP_IN` at the hub, for arrays with the counts of the 32 rows. -/
def hubIn (m0 mc : Fin 2 → Flt) : Fin 2 → Flt :=
  (floatIn (numpyOps 2) (fun _ _ => 33 / 2) (fun _ a b => if a = b then 65 / 4 else 1 / 4) 0 1 0 ⟨fun v => if v = 0 then m0 else mc, fun _ _ => none, fun _ _ => none, fun _ => 0⟩).messages 0

def hubPair (p : ℚ × ℚ) (a : Fin 2) : Flt := some (if a = 0 then p.1 else p.2)

/-- The messages of the hub before any `OP_IN` and after each of the first 29. After the others, that of class 1 is zero. -/
def hubTrace : List (ℚ × ℚ) :=
  [(33 / 2, 33 / 2), (1, 4128799 / 2 ^ 27), (1, 4064317 / 2 ^ 32), (1, 2000421 / 2 ^ 36), (1, 15753433 / 2 ^ 44), (1, 7753701 / 2 ^ 48),
    (1, 7632607 / 2 ^ 53), (1, 1878351 / 2 ^ 56), (1, 14792125 / 2 ^ 64), (1, 14561107 / 2 ^ 69), (1, 14333697 / 2 ^ 74), (1, 14109839 / 2 ^ 79),
    (1, 13889477 / 2 ^ 84), (1, 13672557 / 2 ^ 89), (1, 841189 / 2 ^ 90), (1, 6624413 / 2 ^ 98), (1, 6520955 / 2 ^ 103), (1, 6419113 / 2 ^ 108),
    (1, 3159431 / 2 ^ 112), (1, 12440353 / 2 ^ 119), (1, 765379 / 2 ^ 120), (1, 6027405 / 2 ^ 128), (1, 741659 / 2 ^ 130), (1, 11681217 / 2 ^ 139),
    (1, 359337 / 2 ^ 139), (1, 11319201 / 2 ^ 149), (1, 348201 / 2 ^ 149), (1, 1339 / 2 ^ 146), (1, 165 / 2 ^ 148), (1, 5 / 2 ^ 148)]

def hubAt (i : Nat) : ℚ × ℚ := hubTrace.getD i (1, 0)

theorem hub_step : ∀ i < 64, ∀ a, hubIn (hubPair (hubAt i)) (hubLeaf (i + 1)) a = hubPair (hubAt (i + 1)) a := by decide +kernel

theorem hub_cells : ∀ v < 65, hubTable.beg v = 2 * v ∧ hubTable.stop v = 2 * v + 2 ∧
    hubTable.cell 32 (2 * v) = (if v = 0 ∨ 31 < v then 0 else 1) ∧ hubTable.cell 32 (2 * v + 1) = if 31 < v then 1 else 0 := by decide +kernel

theorem hub_multinomial : AllMultinomial hubTable := by
  intro ty hty
  simp only [hubTable] at hty
  rw [List.eq_of_mem_replicate hty]
  rfl

/-- The entries of the arrays at a vertex when the loop starts. -/
structure HubStart (s : FloatRow 2) (v : Nat) : Prop where
  msg : ∀ a, s.messages v a = some (33 / 2)
  left : ∀ a, s.featProbs (2 * v) a = some (if a = 0 then 65 / 4 else 1 / 4)
  right : ∀ a, s.featProbs (2 * v + 1) a = some (if a = 0 then 1 / 4 else 65 / 4)
  meas : ∀ a, s.measProbs v a = some (33 / 2)

theorem hub_cell {v : Nat} (hv : v < 65) {s : FloatRow 2} (h : HubStart s v) :
    ∃ s', floatAddCell (numpyOps 2) hubTable 32 v s = .ok s' ∧ s'.assign = s.assign ∧ (∀ a, s'.messages v a = hubLeaf v a) ∧
      ∀ w, w ≠ v → s'.messages w = s.messages w ∧ s'.measProbs w = s.measProbs w ∧ s'.featProbs (2 * w) = s.featProbs (2 * w) ∧
        s'.featProbs (2 * w + 1) = s.featProbs (2 * w + 1) := by
  obtain ⟨h1, h2, h3, h4⟩ := hub_cells v hv
  have hr : hubTable.stop v - hubTable.beg v = 2 := by omega
  unfold floatAddCell
  rw [if_pos (hub_multinomial.getD v), hr]
  refine ⟨_, rfl, ?_⟩
  simp only [List.range_succ, List.range_zero, List.nil_append, List.cons_append, List.foldl_cons, List.foldl_nil, h1, Nat.add_zero, h3, h4]
  by_cases h0 : v = 0
  · subst h0
    refine ⟨rfl, fun a => ?_, fun w _ => ⟨rfl, rfl, rfl, rfl⟩⟩
    simp [hubLeaf, h.msg]
  by_cases h31 : 31 < v
  · simp only [h0, h31, or_true, if_true, Int.toNat_zero, List.range_zero, List.foldl_nil, show (1 : Int).toNat = 1 from rfl, List.range_succ,
      List.nil_append, List.foldl_cons, floatAddOne]
    refine ⟨trivial, fun a => ?_, fun w hw => ⟨Function.update_of_ne hw _ _, Function.update_of_ne hw _ _, Function.update_of_ne (by omega) _ _,
      Function.update_of_ne (by omega) _ _⟩⟩
    rw [Function.update_self, h.msg, h.right, h.meas]
    simp only [hubLeaf, h0, if_false, show ¬ v ≤ 31 by omega, numpyOps]
    rcases (show a = 0 ∨ a = 1 by omega) with rfl | rfl <;> simp
  · simp only [h0, h31, or_self, if_false, Int.toNat_zero, List.range_zero, List.foldl_nil, show (1 : Int).toNat = 1 from rfl, List.range_succ,
      List.nil_append, List.foldl_cons, floatAddOne]
    refine ⟨trivial, fun a => ?_, fun w hw => ⟨Function.update_of_ne hw _ _, Function.update_of_ne hw _ _, Function.update_of_ne (by omega) _ _,
      Function.update_of_ne (by omega) _ _⟩⟩
    rw [Function.update_self, h.msg, h.left, h.meas]
    simp only [hubLeaf, h0, if_false, show v ≤ 31 by omega, numpyOps]
    rcases (show a = 0 ∨ a = 1 by omega) with rfl | rfl <;> simp

theorem hub_ups {vert : Nat → Fin 2 → ℚ} {edge : Nat → Fin 2 → Fin 2 → ℚ} (draw : Nat → ℚ) : ∀ (l : List Nat), l.Nodup → (∀ v ∈ l, v < 65) →
    ∀ s : FloatRow 2, (∀ v ∈ l, HubStart s v) →
    ∃ s', (l.map fun v => (⟨.UP, v, 0, 0⟩ : Instr)).foldlM (floatRowStep (numpyOps 2) hubTable 32 vert edge draw) s = .ok s' ∧ s'.assign = s.assign ∧
      (∀ v ∈ l, ∀ a, s'.messages v a = hubLeaf v a) ∧ ∀ w, w ∉ l → s'.messages w = s.messages w := by
  intro l
  induction l with
  | nil => intro _ _ s _; exact ⟨s, rfl, rfl, by simp, fun _ _ => rfl⟩
  | cons v l ih =>
    intro hn hl s hs
    rw [List.nodup_cons] at hn
    obtain ⟨s1, e1, e2, e3, e4⟩ := hub_cell (hl v (by simp)) (hs v (by simp))
    obtain ⟨s2, f1, f2, f3, f4⟩ := ih hn.2 (fun w hw => hl w (by simp [hw])) s1 fun w hw => by
      have hne : w ≠ v := by rintro rfl; exact hn.1 hw
      obtain ⟨g1, g2, g3, g4⟩ := e4 w hne
      have := hs w (by simp [hw])
      exact ⟨by rw [g1]; exact this.msg, by rw [g3]; exact this.left, by rw [g4]; exact this.right, by rw [g2]; exact this.meas⟩
    refine ⟨s2, ?_, f2.trans e2, fun w hw a => ?_, fun w hw => ?_⟩
    · rw [List.map_cons, List.foldlM_cons]
      simp only [floatRowStep, e1, bind, Except.bind]
      exact f1
    · rcases List.mem_cons.1 hw with rfl | hw
      · rw [f4 w hn.1]; exact e3 a
      · exact f3 w hw a
    · simp only [List.mem_cons, not_or] at hw
      rw [f4 w hw.2, (e4 w hw.1).1]

theorem hub_in {vert : Nat → Fin 2 → ℚ} {edge : Nat → Fin 2 → Fin 2 → ℚ} (hvert : ∀ v < 65, ∀ a, vert v a = 33 / 2)
    (hedge : ∀ e < 64, ∀ a b, edge e a b = if a = b then 65 / 4 else 1 / 4) {i : Nat} (hi : i < 64) (s : FloatRow 2) :
    (floatIn (numpyOps 2) vert edge 0 (i + 1) i s).messages 0 = hubIn (s.messages 0) (s.messages (i + 1)) := by
  have hmsg : floatInMsg (numpyOps 2) vert edge 0 (i + 1) i s = floatInMsg (numpyOps 2) (fun _ _ => 33 / 2) (fun _ a b => if a = b then 65 / 4 else 1 / 4) 0 1 0
      ⟨fun v => if v = 0 then s.messages 0 else s.messages (i + 1), fun _ _ => none, fun _ _ => none, fun _ => 0⟩ := by
    funext a
    have e1 : fltTrans edge i 0 (i + 1) a = fltTrans (fun _ a b => if a = b then 65 / 4 else 1 / 4) 0 0 1 a := by
      funext b
      simp only [fltTrans, Nat.not_lt_zero, if_false, hedge i hi]
    simp only [floatInMsg, e1, hvert 0 (by norm_num), hvert (i + 1) (by omega), if_true, one_ne_zero, if_false]
  unfold hubIn floatIn
  simp only [Function.update_self, hmsg]

theorem hub_ins {vert : Nat → Fin 2 → ℚ} {edge : Nat → Fin 2 → Fin 2 → ℚ} (hvert : ∀ v < 65, ∀ a, vert v a = 33 / 2)
    (hedge : ∀ e < 64, ∀ a b, edge e a b = if a = b then 65 / 4 else 1 / 4) (draw : Nat → ℚ) (s : FloatRow 2) (h0 : ∀ v < 65, ∀ a, s.messages v a = hubLeaf v a) :
    ∀ n ≤ 64, ∃ s', ((List.range n).map fun i => (⟨.IN, 0, i + 1, i⟩ : Instr)).foldlM (floatRowStep (numpyOps 2) hubTable 32 vert edge draw) s = .ok s' ∧
      s'.messages 0 = hubPair (hubAt n) ∧ ∀ v, v ≠ 0 → s'.messages v = s.messages v := by
  intro n
  induction n with
  | zero =>
    intro _
    refine ⟨s, rfl, funext fun a => ?_, fun _ _ => rfl⟩
    rw [h0 0 (by norm_num)]
    simp [hubLeaf, hubPair, hubAt, hubTrace]
  | succ n ih =>
    intro hn
    obtain ⟨s1, e1, e2, e3⟩ := ih (by omega)
    refine ⟨floatIn (numpyOps 2) vert edge 0 (n + 1) n s1, ?_, ?_, fun v hv => ?_⟩
    · rw [List.range_succ, List.map_append, List.foldlM_append, e1]
      rfl
    · rw [hub_in hvert hedge (by omega), e2, e3 (n + 1) (by omega)]
      have : s.messages (n + 1) = hubLeaf (n + 1) := funext (h0 (n + 1) (by omega))
      rw [this]
      exact funext (hub_step n (by omega))
    · rw [show (floatIn (numpyOps 2) vert edge 0 (n + 1) n s1).messages v = s1.messages v from Function.update_of_ne hv _ _]
      exact e3 v hv

theorem hub_class (u : ℚ) : floatClass (numpyOps 2) (hubPair (1, 0)) u = .ok 0 := by
  have hl : (List.finRange 2).map (hubPair (1, 0)) = [some 1, some 0] := by decide
  have hc : fltCumsum float32 (some 0) [some 1, some 0] = [some 1, some 1] := by decide +kernel
  unfold floatClass fltSample
  simp only [numpyOps, hl, hc]
  show Except.ok (Fin.ofNat 2 ((List.findIdx? id [Flt.lt (Flt.mul float64 (some u) (some 1)) (some 1), Flt.lt (Flt.mul float64 (some u) (some 1)) (some 1)]).getD 0)) = _
  generalize Flt.lt (Flt.mul float64 (some u) (some 1)) (some 1) = b
  cases b <;> rfl

theorem hub_class_ok (w : Fin 2 → Flt) (u : ℚ) : ∃ a, floatClass (numpyOps 2) w u = .ok a := by
  have hl : (List.finRange 2).map w = [w 0, w 1] := rfl
  unfold floatClass fltSample
  rw [hl]
  exact ⟨_, rfl⟩

theorem hub_outs {vert : Nat → Fin 2 → ℚ} {edge : Nat → Fin 2 → Fin 2 → ℚ} (draw : Nat → ℚ) : ∀ (l : List Instr), (∀ i ∈ l, i.op = .DOWN ∨ (i.op = .OUT ∧ i.v ≠ 0)) →
    ∀ s : FloatRow 2, ∃ s', l.foldlM (floatRowStep (numpyOps 2) hubTable 32 vert edge draw) s = .ok s' ∧ s'.assign 0 = s.assign 0 := by
  intro l
  induction l with
  | nil => intro _ s; exact ⟨s, rfl, rfl⟩
  | cons i l ih =>
    intro hl s
    obtain ⟨s1, e1, e2⟩ : ∃ s1, floatRowStep (numpyOps 2) hubTable 32 vert edge draw s i = .ok s1 ∧ s1.assign 0 = s.assign 0 := by
      rcases hl i (by simp) with ho | ⟨ho, hv⟩
      · exact ⟨s, by simp only [floatRowStep, ho], rfl⟩
      · obtain ⟨a, ha⟩ := hub_class_ok (floatOut (numpyOps 2) vert edge i.v i.v2 i.e s) (draw i.v)
        refine ⟨_, by simp only [floatRowStep, ho, ha, bind, Except.bind]; rfl, ?_⟩
        exact Function.update_of_ne (Ne.symm hv) _ _
    obtain ⟨s2, f1, f2⟩ := ih (fun j hj => hl j (by simp [hj])) s1
    refine ⟨s2, ?_, f2.trans e2⟩
    rw [List.foldlM_cons, e1]
    exact f1

theorem foldlM_then {α β : Type} {f : β → α → Py β} {l1 l2 : List α} {x y : β} {r : Py β} (h1 : l1.foldlM f x = .ok y) (h2 : l2.foldlM f y = r) :
    (l1 ++ l2).foldlM f x = r := by
  rw [List.foldlM_append, h1]
  exact h2

theorem foldlM_next {α β : Type} {f : β → α → Py β} {a : α} {l : List α} {x y : β} {r : Py β} (h1 : f x a = .ok y) (h2 : l.foldlM f y = r) :
    (a :: l).foldlM f x = r := by
  rw [List.foldlM_cons, h1]
  exact h2

/-- Whatever is drawn, the class of the hub is 0. -/
theorem hub_loop {vert feat meas : Nat → Fin 2 → ℚ} {edge : Nat → Fin 2 → Fin 2 → ℚ} {assign : Nat → Fin 2} (hvert : ∀ v < 65, ∀ a, vert v a = 33 / 2)
    (hedge : ∀ e < 64, ∀ a b, edge e a b = if a = b then 65 / 4 else 1 / 4)
    (hfeat : ∀ v < 65, ∀ a : Fin 2, feat (2 * v) a = (if a = 0 then 65 / 4 else 1 / 4) ∧ feat (2 * v + 1) a = if a = 0 then 1 / 4 else 65 / 4)
    (hmeas : ∀ v < 65, ∀ a, meas v a = 33 / 2) (draw : Nat → ℚ) :
    ∃ r, floatSampleRow (numpyOps 2) hubTable 32 vert edge feat meas assign draw (hubUp ++ (hubIns ++ ⟨.ROOT, 0, 0, 0⟩ :: hubOut)) = .ok r ∧ r.assign 0 = 0 := by
  obtain ⟨s1, e1, -, e2, -⟩ := hub_ups (vert := vert) (edge := edge) draw (List.range 65).reverse (List.nodup_reverse.2 List.nodup_range)
    (fun v hv => List.mem_range.1 (List.mem_reverse.1 hv)) (floatRowInit vert feat meas assign) fun v hv => by
      have hv := List.mem_range.1 (List.mem_reverse.1 hv)
      refine ⟨fun a => ?_, fun a => ?_, fun a => ?_, fun a => ?_⟩ <;> simp only [floatRowInit]
      · rw [hvert v hv]
      · rw [(hfeat v hv a).1]
      · rw [(hfeat v hv a).2]
      · rw [hmeas v hv]
  obtain ⟨s2, f1, f2, -⟩ := hub_ins hvert hedge draw s1 (fun v hv a => e2 v (by simpa using hv) a) 64 le_rfl
  have hat : hubAt 64 = (1, 0) := by decide +kernel
  rw [hat] at f2
  obtain ⟨r, g1, g2⟩ := hub_outs (vert := vert) (edge := edge) draw hubOut (fun i hi => by
    simp only [hubOut, List.mem_cons, List.mem_flatMap, List.mem_range, List.not_mem_nil, or_false] at hi
    rcases hi with rfl | ⟨j, -, rfl | rfl⟩
    · exact .inl rfl
    · exact .inr ⟨rfl, by simp⟩
    · exact .inl rfl) { s2 with assign := Function.update s2.assign 0 0 }
  refine ⟨r, ?_, g2.trans (Function.update_self (0 : Nat) (0 : Fin 2) s2.assign)⟩
  exact foldlM_then e1 (foldlM_then f1 (foldlM_next (by simp only [floatRowStep, f2, hub_class, bind, Except.bind]) g1))

end TreeCat
