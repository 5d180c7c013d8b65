import Verif.Props.FloatTrainer
import Verif.Props.Trainer

/-! # C65: the loop in floating point and the exact loop -/

namespace TreeCat

open Util Spec

/-! ### Without rounding -/

/-- Arithmetic without rounding. -/
def exactOps (M : Nat) : FloatOps M where
  rnd := id
  dot x y := (List.finRange M).foldl (fun acc b => Flt.add id acc (Flt.mul id (x b) (y b))) (some 0)
  rs := id
  rp := id

/-- An exact state as a state in floating point. -/
def toFloat {M : Nat} (x : RowState ℚ M) : FloatRow M :=
  ⟨fun v a => some (x.messages v a), fun r a => some (x.featProbs r a), fun v a => some (x.measProbs v a), x.assign⟩

/-- All arrays are positive. -/
structure AllPos {M : Nat} (x : RowState ℚ M) : Prop where
  messages : ∀ v a, 0 < x.messages v a
  feat : ∀ r a, 0 < x.featProbs r a
  meas : ∀ v a, 0 < x.measProbs v a

section
variable {M : Nat}

theorem exactDot (x y : Fin M → ℚ) : (exactOps M).dot (fun b => some (x b)) (fun b => some (y b)) = some (∑ b, x b * y b) := by
  have key : ∀ (l : List (Fin M)) (q : ℚ), l.foldl (fun acc b => Flt.add id acc (Flt.mul id (some (x b)) (some (y b)))) (some q) = some (q + (l.map fun b => x b * y b).sum) := by
    intro l
    induction l with
    | nil => intro q; simp
    | cons b l ih =>
      intro q
      rw [List.foldl_cons]
      have : Flt.add id (some q) (Flt.mul id (some (x b)) (some (y b))) = some (q + x b * y b) := rfl
      rw [this, ih, List.map_cons, List.sum_cons, add_assoc]
  show List.foldl _ _ _ = _
  rw [key, zero_add, ← List.ofFn_eq_map, List.sum_ofFn]

theorem exactMax [NeZero M] (g : Fin M → ℚ) : fltMax (fun a => some (g a)) = some (vecMax g) := by
  obtain ⟨r, h1, h2, a, h3⟩ := fltMax_spec (f := fun a => some (g a)) (g := g) fun _ => rfl
  rw [h1]
  congr 1
  apply le_antisymm
  · rw [h3]
    exact Finset.le_sup' g (Finset.mem_univ a)
  · exact Finset.sup'_le _ _ fun b _ => h2 b

theorem exactDiv (x : Flt) (a b : ℚ) (hx : x = some a) (hb : 0 < b) : Flt.div id x (some b) = some (a / b) := by
  subst hx
  simp [Flt.div, hb.ne']

theorem floatAddOne_exact {x : RowState ℚ M} (h : AllPos x) (v r : Nat) : floatAddOne (exactOps M) v r (toFloat x) = toFloat (addOne v r x) ∧ AllPos (addOne v r x) := by
  constructor
  · unfold floatAddOne toFloat addOne
    simp only [FloatRow.mk.injEq]
    refine ⟨?_, ?_, ?_, trivial⟩
    · funext w a
      by_cases hw : w = v
      · subst hw
        rw [Function.update_self, Function.update_self]
        exact exactDiv _ _ _ rfl (h.meas w a)
      · rw [Function.update_of_ne hw, Function.update_of_ne hw]
    · funext w a
      by_cases hw : w = r
      · subst hw
        rw [Function.update_self, Function.update_self]
        rfl
      · rw [Function.update_of_ne hw, Function.update_of_ne hw]
    · funext w a
      by_cases hw : w = v
      · subst hw
        rw [Function.update_self, Function.update_self]
        rfl
      · rw [Function.update_of_ne hw, Function.update_of_ne hw]
  · refine ⟨fun w a => ?_, fun w a => ?_, fun w a => ?_⟩
    · unfold addOne
      by_cases hw : w = v
      · subst hw
        simp only [Function.update_self]
        exact div_pos (mul_pos (h.messages w a) (h.feat r a)) (h.meas w a)
      · simp only [Function.update_of_ne hw]
        exact h.messages w a
    · unfold addOne
      by_cases hw : w = r
      · subst hw
        simp only [Function.update_self]
        have := h.feat w a
        linarith
      · simp only [Function.update_of_ne hw]
        exact h.feat w a
    · unfold addOne
      by_cases hw : w = v
      · subst hw
        simp only [Function.update_self]
        have := h.meas w a
        linarith
      · simp only [Function.update_of_ne hw]
        exact h.meas w a

theorem floatFold_exact {α : Type} (f : FloatRow M → α → FloatRow M) (g : RowState ℚ M → α → RowState ℚ M)
    (h : ∀ c x, AllPos x → f (toFloat x) c = toFloat (g x c) ∧ AllPos (g x c)) (l : List α) (x : RowState ℚ M) (hx : AllPos x) :
    l.foldl f (toFloat x) = toFloat (l.foldl g x) ∧ AllPos (l.foldl g x) := by
  induction l generalizing x with
  | nil => exact ⟨rfl, hx⟩
  | cons c l ih =>
    obtain ⟨h1, h2⟩ := h c x hx
    rw [List.foldl_cons, List.foldl_cons, h1]
    exact ih _ h2

theorem floatAddCell_exact {t : Table} {row v : Nat} {x : RowState ℚ M} (h : AllPos x) :
    (floatAddCell (exactOps M) t row v (toFloat x) = (addCell t row v x).map toFloat) ∧ ∀ x', addCell t row v x = .ok x' → AllPos x' := by
  obtain ⟨h1, h2⟩ := floatFold_exact
    (fun s c => (List.range (t.cell row (t.beg v + c)).toNat).foldl (fun s _ => floatAddOne (exactOps M) v (t.beg v + c) s) s)
    (fun s c => (List.range (t.cell row (t.beg v + c)).toNat).foldl (fun s _ => addOne v (t.beg v + c) s) s)
    (fun c x hx => floatFold_exact _ _ (fun _ x hx => floatAddOne_exact hx v _) _ x hx) (List.range (t.stop v - t.beg v)) x h
  unfold floatAddCell addCell
  split
  · refine ⟨by rw [h1]; rfl, fun x' hx' => ?_⟩
    obtain rfl := Except.ok.inj hx'
    exact h2
  · exact ⟨rfl, fun x' hx' => by cases hx'⟩

variable [NeZero M] {vert : Nat → Fin M → ℚ} {edge : Nat → Fin M → Fin M → ℚ}

omit [NeZero M] in
theorem rowTrans_pos (he : ∀ e a b, 0 < edge e a b) (e v v2 : Nat) (a b : Fin M) : 0 < transAt edge e v v2 a b := by
  unfold transAt
  split <;> exact he _ _ _

theorem floatIn_exact (hv : ∀ v a, 0 < vert v a) (he : ∀ e a b, 0 < edge e a b) {x : RowState ℚ M} (h : AllPos x) (v v2 e : Nat) :
    floatIn (exactOps M) vert edge v v2 e (toFloat x) = toFloat (rowIn vert edge v v2 e x) ∧ AllPos (rowIn vert edge v v2 e x) := by
  set msg := fun a => x.messages v a * (∑ b, transAt edge e v v2 a b * (x.messages v2 b / vert v2 b)) / vert v a with hmsg
  have hpos : ∀ a, 0 < msg a := fun a =>
    div_pos (mul_pos (h.messages v a) (Finset.sum_pos (fun b _ => mul_pos (rowTrans_pos he e v v2 a b) (div_pos (h.messages v2 b) (hv v2 b))) ⟨0, Finset.mem_univ _⟩)) (hv v a)
  have hmax : 0 < vecMax msg := lt_of_lt_of_le (hpos 0) (Finset.le_sup' msg (Finset.mem_univ 0))
  have e1 : floatInMsg (exactOps M) vert edge v v2 e (toFloat x) = fun a => some (msg a) := by
    funext a
    have h2 : (fun b => Flt.div (exactOps M).rnd ((toFloat x).messages v2 b) (some (vert v2 b))) = fun b => some (x.messages v2 b / vert v2 b) :=
      funext fun b => exactDiv _ _ _ rfl (hv v2 b)
    have h3 : fltTrans edge e v v2 a = fun b => some (transAt edge e v v2 a b) := rfl
    unfold floatInMsg
    rw [h2, h3, exactDot]
    exact exactDiv _ _ _ rfl (hv v a)
  constructor
  · unfold floatIn rowIn
    rw [e1, exactMax]
    simp only [toFloat, FloatRow.mk.injEq, and_self, and_true]
    funext w a
    by_cases hw : w = v
    · subst hw
      rw [Function.update_self, Function.update_self]
      exact exactDiv _ _ _ rfl hmax
    · rw [Function.update_of_ne hw, Function.update_of_ne hw]
  · refine ⟨fun w a => ?_, h.feat, h.meas⟩
    show 0 < Function.update x.messages v (fun a => msg a / vecMax msg) w a
    by_cases hw : w = v
    · subst hw
      rw [Function.update_self]
      exact div_pos (hpos a) hmax
    · rw [Function.update_of_ne hw]
      exact h.messages w a

omit [NeZero M] in
theorem floatOut_exact (hv : ∀ v a, 0 < vert v a) (x : RowState ℚ M) (v v2 e : Nat) :
    floatOut (exactOps M) vert edge v v2 e (toFloat x) = fun b => some (rowOut vert edge v v2 e x b) :=
  funext fun b => exactDiv _ _ _ rfl (hv v b)

/-- **C65** (the model). Without rounding, the loop in floating point is the loop of `Model/Training`: from positive arrays, it computes the same arrays for the
classes that it draws. -/
theorem floatRow_exact (hv : ∀ v a, 0 < vert v a) (he : ∀ e a b, 0 < edge e a b) (t : Table) (row : Nat) (draw : Nat → ℚ) (prog : List Instr) :
    ∀ (x : RowState ℚ M) (r' : FloatRow M), AllPos x → prog.foldlM (floatRowStep (exactOps M) t row vert edge draw) (toFloat x) = .ok r' →
      ∃ x', (prog.foldlM (rowStep t row vert edge) x : ExceptT PyErr Poss (RowState ℚ M)).run (.ok x') ∧ r' = toFloat x' ∧ AllPos x' := by
  induction prog with
  | nil =>
    intro x r' hx h
    obtain rfl := Except.ok.inj h
    exact ⟨x, rfl, rfl, hx⟩
  | cons i prog ih =>
    intro x r' hx h
    rw [List.foldlM_cons] at h
    simp only [bind, Except.bind] at h
    cases hstep : floatRowStep (exactOps M) t row vert edge draw (toFloat x) i with
    | error e => rw [hstep] at h; cases h
    | ok r1 =>
      rw [hstep] at h
      have key : ∃ x1, (rowStep t row vert edge x i : ExceptT PyErr Poss (RowState ℚ M)).run (.ok x1) ∧ r1 = toFloat x1 ∧ AllPos x1 := by
        obtain ⟨op, v, v2, e⟩ := i
        cases op with
        | UP =>
          obtain ⟨h1, h2⟩ := floatAddCell_exact (t := t) (row := row) (v := v) hx
          have hstep' : floatAddCell (exactOps M) t row v (toFloat x) = .ok r1 := hstep
          rw [h1] at hstep'
          cases hc : addCell t row v x with
          | error err => rw [hc] at hstep'; cases hstep'
          | ok x1 =>
            rw [hc] at hstep'
            refine ⟨x1, ?_, (Except.ok.inj hstep').symm, h2 x1 hc⟩
            show (liftPy (addCell t row v x) : ExceptT PyErr Poss _).run _
            rw [hc]
            rfl
        | IN =>
          obtain ⟨h1, h2⟩ := floatIn_exact hv he hx v v2 e
          obtain rfl := Except.ok.inj hstep
          exact ⟨_, rfl, h1, h2⟩
        | ROOT =>
          simp only [floatRowStep, bind, Except.bind] at hstep
          split at hstep
          · cases hstep
          · rename_i a _
            obtain rfl := Except.ok.inj hstep
            exact ⟨{ x with assign := Function.update x.assign v a }, ⟨.ok a, ⟨a, trivial, rfl⟩, rfl⟩, rfl, hx.messages, hx.feat, hx.meas⟩
        | OUT =>
          simp only [floatRowStep, bind, Except.bind] at hstep
          split at hstep
          · cases hstep
          · rename_i a _
            obtain rfl := Except.ok.inj hstep
            refine ⟨{ x with messages := Function.update x.messages v (rowOut vert edge v v2 e x), assign := Function.update x.assign v a },
              ⟨.ok a, ⟨a, trivial, rfl⟩, rfl⟩, ?_, ?_, hx.feat, hx.meas⟩
            · rw [floatOut_exact hv]
              simp only [toFloat, FloatRow.mk.injEq, and_self, and_true]
              funext w a'
              by_cases hw : w = v
              · subst hw
                rw [Function.update_self, Function.update_self]
              · rw [Function.update_of_ne hw, Function.update_of_ne hw]
            · intro w a'
              show 0 < Function.update x.messages v (rowOut vert edge v v2 e x) w a'
              by_cases hw : w = v
              · subst hw
                rw [Function.update_self]
                exact div_pos (mul_pos (hx.messages w a') (rowTrans_pos he _ _ _ _ _)) (hv w a')
              · rw [Function.update_of_ne hw]
                exact hx.messages w a'
        | DOWN =>
          obtain rfl := Except.ok.inj hstep
          exact ⟨x, rfl, rfl, hx⟩
      obtain ⟨x1, h1, rfl, h2⟩ := key
      obtain ⟨x', h3, h4, h5⟩ := ih x1 r' h2 h
      exact ⟨x', ⟨.ok x1, h1, h3⟩, h4, h5⟩

end

/-! ### Ordinal features: all weights become zero -/

/-- The arithmetic of numpy, with a left to right inner product. -/
def numpyOps (M : Nat) : FloatOps M := ⟨float32, seqDot float32, float32, float64⟩

theorem numpyOps_ok {M : Nat} (hM : M ≤ 2 ^ 24) : Spec.OpsOk (numpyOps M) :=
  ⟨float32_mono, seqDot_ok hM float32_mono, roundTo_isRounding (by norm_num) _, roundTo_isRounding (by norm_num) _⟩

/-- One observation in one class: message, `feat_probs` and `meas_probs`. -/
def cellStep (rnd : ℚ → ℚ) (x : Flt × Flt × Flt) : Flt × Flt × Flt :=
  (Flt.div rnd (Flt.mul rnd x.1 x.2.1) x.2.2, Flt.add rnd x.2.1 (some 1), Flt.add rnd x.2.2 (some 1))

theorem floatAddOne_iterate {M : Nat} (A : FloatOps M) (v r n : Nat) (s : FloatRow M) (a : Fin M) :
    (((List.range n).foldl (fun s _ => floatAddOne A v r s) s).messages v a, ((List.range n).foldl (fun s _ => floatAddOne A v r s) s).featProbs r a,
      ((List.range n).foldl (fun s _ => floatAddOne A v r s) s).measProbs v a) = (cellStep A.rnd)^[n] (s.messages v a, s.featProbs r a, s.measProbs v a) := by
  induction n with
  | zero => rfl
  | succ n ih =>
    rw [List.range_succ, List.foldl_append, Function.iterate_succ_apply', ← ih]
    simp only [List.foldl_cons, List.foldl_nil, floatAddOne, Function.update_self, cellStep]

/-- An ordinal feature with values from 0 to 100, observed three times: 0, 0 and 100. -/
def percentTable : Table := ⟨[0], [0, 2], [[0, 100], [0, 100], [100, 0]]⟩

theorem percent_sample (u : ℚ) : fltSample float32 float64 [some 0, some 0] u = .ok 0 := by
  have h1 : float32 0 = 0 := by decide +kernel
  have h2 : float64 0 = 0 := by decide +kernel
  simp [fltSample, fltCumsum, Flt.add, Flt.mul, Flt.lt, h1, h2]
  rfl

theorem percent_underflow : ((cellStep float32)^[100] (some (floatVert 1), some (floatFeat 2 0), some (floatMeas 2 2 100))).1 = some 0 := by
  have h0 : (some (floatVert 1), some (floatFeat 2 0), some (floatMeas 2 2 100)) = ((some (3 / 2), some (1 / 4), some (201 / 2)) : Flt × Flt × Flt) := by decide +kernel
  have h5 : (cellStep float32)^[5] (some (3 / 2), some (1 / 4), some (201 / 2)) = (some (11603079 / 9007199254740992), some (21 / 4), some (211 / 2)) := by decide +kernel
  have h10 : (cellStep float32)^[5] (some (11603079 / 9007199254740992), some (21 / 4), some (211 / 2)) = (some (15391881 / 9444732965739290427392), some (41 / 4), some (221 / 2)) := by decide +kernel
  have h15 : (cellStep float32)^[5] (some (15391881 / 9444732965739290427392), some (41 / 4), some (221 / 2)) = (some (1866955 / 77371252455336267181195264), some (61 / 4), some (231 / 2)) := by decide +kernel
  have h20 : (cellStep float32)^[5] (some (1866955 / 77371252455336267181195264), some (61 / 4), some (231 / 2)) = (some (16414123 / 10141204801825835211973625643008), some (81 / 4), some (241 / 2)) := by decide +kernel
  have h25 : (cellStep float32)^[5] (some (16414123 / 10141204801825835211973625643008), some (81 / 4), some (241 / 2)) = (some (3290263 / 10384593717069655257060992658440192), some (101 / 4), some (251 / 2)) := by decide +kernel
  have h30 : (cellStep float32)^[5] (some (3290263 / 10384593717069655257060992658440192), some (101 / 4), some (251 / 2)) = (some (1492845 / 10633823966279326983230456482242756608), some (121 / 4), some (261 / 2)) := by decide +kernel
  have h35 : (cellStep float32)^[5] (some (1492845 / 10633823966279326983230456482242756608), some (121 / 4), some (261 / 2)) = (some (10399351 / 87112285931760246646623899502532662132736), some (141 / 4), some (271 / 2)) := by decide +kernel
  have h40 : (cellStep float32)^[5] (some (10399351 / 87112285931760246646623899502532662132736), some (141 / 4), some (271 / 2)) = (some (15487171 / 89202980794122492566142873090593446023921664), some (161 / 4), some (281 / 2)) := by decide +kernel
  have h45 : (cellStep float32)^[5] (some (15487171 / 89202980794122492566142873090593446023921664), some (161 / 4), some (281 / 2)) = (some (141573 / 356811923176489970264571492362373784095686656), some (181 / 4), some (291 / 2)) := by decide +kernel
  have h50 : (cellStep float32)^[5] (some (141573 / 356811923176489970264571492362373784095686656), some (181 / 4), some (291 / 2)) = (some (953 / 713623846352979940529142984724747568191373312), some (201 / 4), some (301 / 2)) := by decide +kernel
  have h55 : (cellStep float32)^[5] (some (953 / 713623846352979940529142984724747568191373312), some (201 / 4), some (301 / 2)) = (some (5 / 713623846352979940529142984724747568191373312), some (221 / 4), some (311 / 2)) := by decide +kernel
  have h60 : (cellStep float32)^[5] (some (5 / 713623846352979940529142984724747568191373312), some (221 / 4), some (311 / 2)) = (some 0, some (241 / 4), some (321 / 2)) := by decide +kernel
  have h65 : (cellStep float32)^[5] (some 0, some (241 / 4), some (321 / 2)) = (some 0, some (261 / 4), some (331 / 2)) := by decide +kernel
  have h70 : (cellStep float32)^[5] (some 0, some (261 / 4), some (331 / 2)) = (some 0, some (281 / 4), some (341 / 2)) := by decide +kernel
  have h75 : (cellStep float32)^[5] (some 0, some (281 / 4), some (341 / 2)) = (some 0, some (301 / 4), some (351 / 2)) := by decide +kernel
  have h80 : (cellStep float32)^[5] (some 0, some (301 / 4), some (351 / 2)) = (some 0, some (321 / 4), some (361 / 2)) := by decide +kernel
  have h85 : (cellStep float32)^[5] (some 0, some (321 / 4), some (361 / 2)) = (some 0, some (341 / 4), some (371 / 2)) := by decide +kernel
  have h90 : (cellStep float32)^[5] (some 0, some (341 / 4), some (371 / 2)) = (some 0, some (361 / 4), some (381 / 2)) := by decide +kernel
  have h95 : (cellStep float32)^[5] (some 0, some (361 / 4), some (381 / 2)) = (some 0, some (381 / 4), some (391 / 2)) := by decide +kernel
  have h100 : (cellStep float32)^[5] (some 0, some (381 / 4), some (391 / 2)) = (some 0, some (401 / 4), some (401 / 2)) := by decide +kernel
  have e : (cellStep float32)^[100] = (((cellStep float32)^[5])^[20]) := by rw [← Function.iterate_mul]
  rw [h0, e]
  generalize (cellStep float32)^[5] = g at *
  simp only [Function.iterate_succ_apply, h5, h10, h15, h20, h25, h30, h35, h40, h45, h50, h55, h60, h65, h70, h75, h80, h85, h90, h95, h100, Function.iterate_zero, id]

/-- Its program. -/
def percentProgram : List Instr := [⟨.UP, 0, 0, 0⟩, ⟨.ROOT, 0, 0, 0⟩, ⟨.DOWN, 0, 0, 0⟩]

theorem percent_choose (s : Trainer ℚ 2) (hp : s.program = percentProgram) (row : Nat) (a : Fin 2) :
    (sampleRow percentTable row s : ExceptT PyErr Poss (Nat → Fin 2)).run (.ok (Function.update (s.assign row) 0 a)) := by
  have hm : AllMultinomial percentTable := by intro ty hty; simpa [percentTable, tyMultinomial] using hty
  obtain ⟨x1, h1, h2⟩ : ∃ x1 : RowState ℚ 2, addCell percentTable row 0 ⟨fun v a => (s.vertSS v a : ℚ) + vertPrior, fun r a => (s.featSS r a : ℚ) + featPrior 2,
      fun v a => (s.measSS v a : ℚ) + measPrior 2 percentTable v, s.assign row⟩ = .ok x1 ∧ x1.assign = s.assign row := by
    unfold addCell
    rw [if_pos (hm.getD 0)]
    refine ⟨_, rfl, ?_⟩
    refine List.foldlRecOn _ _ (motive := fun x : RowState ℚ 2 => x.assign = s.assign row) rfl fun s hs c _ => ?_
    exact List.foldlRecOn _ _ (motive := fun x : RowState ℚ 2 => x.assign = _) hs fun s hs _ _ => hs
  refine ⟨.ok { x1 with assign := Function.update x1.assign 0 a }, ?_, by rw [h2]; rfl⟩
  rw [hp]
  refine ⟨.ok x1, ?_, ?_⟩
  · show (liftPy (addCell percentTable row 0 _) : ExceptT PyErr Poss _).run _
    rw [h1]
    rfl
  · exact ⟨.ok { x1 with assign := Function.update x1.assign 0 a }, ⟨.ok a, ⟨a, trivial, rfl⟩, rfl⟩, ⟨_, rfl, rfl⟩⟩

theorem percent_cells : percentTable.beg 0 = 0 ∧ List.range (percentTable.stop 0 - 0) = [0, 1] ∧ (percentTable.cell 2 0).toNat = 100 ∧ (percentTable.cell 2 1).toNat = 0 := by
  decide +kernel

theorem percent_multinomial : AllMultinomial percentTable := by
  intro ty hty
  simpa [percentTable, tyMultinomial] using hty

theorem percent_addCell (init : FloatRow 2) {n : Nat} (hn : n = 100) :
    floatAddCell (numpyOps 2) percentTable 2 0 init = .ok ((List.range n).foldl (fun s _ => floatAddOne (numpyOps 2) 0 0 s) init) := by
  obtain ⟨h0, h1, h2, h3⟩ := percent_cells
  rw [← hn] at h2
  unfold floatAddCell
  rw [if_pos (percent_multinomial.getD 0)]
  simp only [h0, h1, List.foldl_cons, List.foldl_nil, Nat.zero_add, h2, h3, List.range_zero]

theorem percent_message (init : FloatRow 2) {n : Nat} (hn : n = 100) (a : Fin 2) (h1 : init.messages 0 a = some (floatVert 1))
    (h2 : init.featProbs 0 a = some (floatFeat 2 0)) (h3 : init.measProbs 0 a = some (floatMeas 2 2 100)) :
    ((List.range n).foldl (fun s _ => floatAddOne (numpyOps 2) 0 0 s) init).messages 0 a = some 0 := by
  have h4 := congrArg Prod.fst (floatAddOne_iterate (numpyOps 2) 0 0 n init a)
  have h5 : (numpyOps 2).rnd = float32 := rfl
  rw [h1, h2, h3, h5] at h4
  have h6 := percent_underflow
  rw [← hn] at h6
  exact h4.trans h6

theorem percent_loop {vert : Nat → Fin 2 → ℚ} {edge : Nat → Fin 2 → Fin 2 → ℚ} (draw : Nat → ℚ) (init : FloatRow 2) (h1 : ∀ a, init.messages 0 a = some (floatVert 1))
    (h2 : ∀ a, init.featProbs 0 a = some (floatFeat 2 0)) (h3 : ∀ a, init.measProbs 0 a = some (floatMeas 2 2 100)) :
    ∃ r, percentProgram.foldlM (floatRowStep (numpyOps 2) percentTable 2 vert edge draw) init = .ok r ∧ (∀ a, r.messages 0 a = some 0) ∧ r.assign 0 = 0 := by
  obtain ⟨n, hn⟩ : ∃ n, n = 100 := ⟨_, rfl⟩
  have hcell := percent_addCell init hn
  have hmsg := fun a => percent_message init hn a (h1 a) (h2 a) (h3 a)
  generalize (List.range n).foldl (fun s _ => floatAddOne (numpyOps 2) 0 0 s) init = r at hcell hmsg
  have hclass : floatClass (numpyOps 2) (r.messages 0) (draw 0) = .ok 0 := by
    have : r.messages 0 = fun _ => some 0 := funext hmsg
    rw [this]
    show (fltSample float32 float64 [some 0, some 0] (draw 0) >>= _) = _
    rw [percent_sample]
    rfl
  refine ⟨{ r with assign := Function.update r.assign 0 0 }, ?_, hmsg, by simp⟩
  simp only [percentProgram, List.foldlM_cons, List.foldlM_nil, floatRowStep, hcell, hclass, bind, Except.bind]
  rfl

theorem percent_exact (init : RowState ℚ 2) (h1 : ∀ a, init.messages 0 a = 3 / 2) (h2 : ∀ a, init.featProbs 0 a = 1 / 4) (h3 : ∀ a, init.measProbs 0 a = 201 / 2) :
    ∃ x : RowState ℚ 2, addCell percentTable 2 0 init = .ok x ∧ x.messages 0 0 = x.messages 0 1 ∧ 0 < x.messages 0 0 := by
  obtain ⟨c0, c1, c2, c3⟩ := percent_cells
  obtain ⟨n, hn⟩ : ∃ n, n = 100 := ⟨_, rfl⟩
  rw [← hn] at c2
  refine ⟨(List.range n).foldl (fun s _ => addOne 0 0 s) init, ?_, ?_⟩
  · unfold addCell
    rw [if_pos (percent_multinomial.getD 0)]
    simp only [c0, c1, List.foldl_cons, List.foldl_nil, Nat.zero_add, c2, c3, List.range_zero]
  · have := List.foldlRecOn (List.range n) (fun (s : RowState ℚ 2) _ => addOne 0 0 s)
      (motive := fun x : RowState ℚ 2 => (x.messages 0 0 = x.messages 0 1 ∧ 0 < x.messages 0 0) ∧ (x.featProbs 0 0 = x.featProbs 0 1 ∧ 0 < x.featProbs 0 0) ∧
        (x.measProbs 0 0 = x.measProbs 0 1 ∧ 0 < x.measProbs 0 0)) (b := init)
      ⟨⟨by rw [h1, h1], by rw [h1]; norm_num⟩, ⟨by rw [h2, h2], by rw [h2]; norm_num⟩, by rw [h3, h3], by rw [h3]; norm_num⟩ ?_
    · exact this.1
    · rintro x ⟨⟨h1, h4⟩, ⟨h2, h5⟩, h3, h6⟩ _ _
      simp only [addOne, Function.update_self]
      refine ⟨⟨by rw [h1, h2, h3], div_pos (mul_pos h4 h5) h6⟩, ⟨by rw [h2], by linarith⟩, by rw [h3], by linarith⟩

/-- **C65** fails for ordinal features. With values from 0 to 100, two classes, and a row of value 0 in either class, both weights of a row of value 100 are zero in
float32, so class 0 is drawn whatever the random number is. Exactly, the weights are equal and positive. -/
theorem floatAddRow_underflow : ∃ (s : Trainer ℚ 2) (edge : Nat → Fin 2 → Fin 2 → ℚ), FloatRun percentTable s edge ∧ 2 ∉ s.added ∧
    (∀ draw, ∃ r, floatAddRow (numpyOps 2) percentTable 2 s edge draw = .ok r ∧ (∀ a, r.messages 0 a = some 0) ∧ r.assign 0 = 0) ∧
    ∃ x : RowState ℚ 2, addCell percentTable 2 0 ⟨fun v a => (s.vertSS v a : ℚ) + vertPrior, fun r a => (s.featSS r a : ℚ) + featPrior 2,
      fun v a => (s.measSS v a : ℚ) + measPrior 2 percentTable v, s.assign 2⟩ = .ok x ∧ x.messages 0 0 = x.messages 0 1 ∧ 0 < x.messages 0 0 := by
  have hm := percent_multinomial
  have ht : Table.Ordered percentTable := ⟨by decide, by decide⟩
  obtain ⟨s0, h0, hg0, ha0⟩ := good_init (K := ℚ) (M := 2) (t := percentTable) (n := 0) (by decide) (by decide) (by decide) (by decide)
  have hgrid : s0.tree.treeGrid = [] := by
    have := hg0.isTree.card
    simp only [gridEdges, List.length_map, percentTable, Table.numCols, List.length_singleton] at this
    exact List.eq_nil_of_length_eq_zero (by omega)
  have hp0 : s0.program = percentProgram := by
    have h1 := hg0.program
    rw [hgrid] at h1
    have h2 : makeProgram [] none = .ok percentProgram := by decide +kernel
    rw [h2] at h1
    exact (Except.ok.inj h1).symm
  set z0 := Function.update (s0.assign 0) 0 (0 : Fin 2) with hz0
  have r0 := FloatRun.init h0
  have o1 := addRow_outcome hm (row := 0) (by rw [ha0]; simp) (by decide) (percent_choose s0 hp0 0 0)
  have r1 := r0.addRow o1
  have hp1 : (added percentTable 0 z0 s0).program = percentProgram := by
    simp only [added, statsUpdate_program]
    exact hp0
  have ha1 : (added percentTable 0 z0 s0).added = {0} := by
    simp only [added, statsUpdate_added, ha0]
    rfl
  have o2 := addRow_outcome hm (row := 1) (by rw [ha1]; decide) (by decide) (percent_choose (added percentTable 0 z0 s0) hp1 1 1)
  have r2 := r1.addRow o2
  set s1 := added percentTable 0 z0 s0 with hs1
  set z1 := Function.update (s1.assign 1) 0 (1 : Fin 2) with hz1
  set s2 := added percentTable 1 z1 s1 with hs2
  have hp2 : s2.program = percentProgram := by
    rw [hs2]
    simp only [added, statsUpdate_program]
    exact hp1
  have ha2 : s2.added = {1, 0} := by
    rw [hs2]
    simp only [added, statsUpdate_added, ha1]
  have hc1 : s2.assign 1 0 = 1 := by
    rw [hs2]
    simp only [added, statsUpdate_assign, Function.update_self, hz1]
  have hc0 : s2.assign 0 0 = 0 := by
    rw [hs2]
    simp only [added, statsUpdate_assign, ne_eq, zero_ne_one, not_false_eq_true, Function.update_of_ne, hs1, Function.update_self, hz0]
  obtain ⟨hg, -, -⟩ := floatRun_inv ht hm (by decide) r2
  have hf : ∀ a : Fin 2, ∃ n, s2.added.filter (fun n => s2.assign n 0 = a) = {n} ∧ (n = 0 ∨ n = 1) := by
    intro a
    rw [ha2]
    have h01 : (0 : Fin 2) ≠ 1 := by decide
    rcases (show a = 0 ∨ a = 1 by omega) with rfl | rfl
    · refine ⟨0, ?_, .inl rfl⟩
      rw [Finset.filter_insert, if_neg (by rw [hc1]; exact h01.symm), Finset.filter_singleton, if_pos hc0]
    · refine ⟨1, ?_, .inr rfl⟩
      rw [Finset.filter_insert, if_pos hc1, Finset.filter_singleton, if_neg (by rw [hc0]; exact h01)]
      rfl
  have hvert : ∀ a, s2.vertSS 0 a = 1 := by
    intro a
    obtain ⟨n, hn, -⟩ := hf a
    rw [hg.stats.vert 0 (by decide), vertCount, hn]
    rfl
  have hfeat : ∀ a, s2.featSS 0 a = 0 ∧ s2.featSS 1 a = 100 := by
    intro a
    obtain ⟨n, hn, h⟩ := hf a
    rw [hg.stats.feat 0 (by decide) 0 (by decide) (by decide), hg.stats.feat 0 (by decide) 1 (by decide) (by decide), featTotal, featTotal, hn,
      Finset.sum_singleton, Finset.sum_singleton]
    rcases h with rfl | rfl <;> decide +kernel
  have hmeas : ∀ a, s2.measSS 0 a = 100 := by
    intro a
    obtain ⟨n, hn, h⟩ := hf a
    rw [hg.stats.meas 0 (by decide), measTotal, hn, Finset.sum_singleton]
    rcases h with rfl | rfl <;> decide +kernel
  refine ⟨s2, _, r2, by rw [ha2]; decide, fun draw => ?_, ?_⟩
  · unfold floatAddRow floatSampleRow
    rw [hp2]
    refine percent_loop draw _ (fun a => ?_) (fun a => ?_) fun a => ?_
    · show some (floatVert (s2.vertSS 0 a)) = _
      rw [hvert]
    · show some (floatFeat 2 (s2.featSS 0 a)) = _
      rw [(hfeat a).1]
    · show some (floatMeas 2 (percentTable.stop 0 - percentTable.beg 0) (s2.measSS 0 a)) = _
      rw [hmeas]
      rfl
  · have hstart : ∀ a, (s2.vertSS 0 a : ℚ) + vertPrior = 3 / 2 ∧ (s2.featSS 0 a : ℚ) + featPrior 2 = 1 / 4 ∧ (s2.measSS 0 a : ℚ) + measPrior 2 percentTable 0 = 201 / 2 := by
      intro a
      rw [hvert, (hfeat a).1, hmeas]
      unfold vertPrior measPrior featPrior
      norm_num [percentTable, Table.stop, Table.beg]
    exact percent_exact _ (fun a => (hstart a).1) (fun a => (hstart a).2.1) fun a => (hstart a).2.2

/-! ### A case that meets the hypotheses -/

/-- Two categorical features; the second is not observed in the second row. -/
def twoTable : Table := ⟨[0, 0], [0, 2, 5], [[1, 0, 0, 1, 0], [0, 1, 0, 0, 0]]⟩

theorem twoTable_cell (n r : Nat) : 0 ≤ twoTable.cell n r ∧ twoTable.cell n r ≤ 1 := by
  unfold Table.cell twoTable
  match n with
  | 0 => match r with
    | 0 | 1 | 2 | 3 | 4 => decide
    | r + 5 => exact ⟨le_refl _, zero_le_one⟩
  | 1 => match r with
    | 0 | 1 | 2 | 3 | 4 => decide
    | r + 5 => exact ⟨le_refl _, zero_le_one⟩
  | n + 2 => exact ⟨le_refl _, zero_le_one⟩

theorem twoTable_categorical (row : Nat) : Spec.Categorical twoTable row := by
  refine ⟨fun r => (twoTable_cell row r).1, fun v hv => ?_⟩
  have hv : v = 0 ∨ v = 1 := by
    have : twoTable.numCols = 2 := rfl
    omega
  match row with
  | 0 => rcases hv with rfl | rfl <;> decide
  | 1 => rcases hv with rfl | rfl <;> decide
  | n + 2 => rcases hv with rfl | rfl <;> exact (by decide : (0 : Int) ≤ 1)

example : ∃ s edge r, FloatRun (M := 3) twoTable s edge ∧ floatAddRow (numpyOps 3) twoTable 0 s edge (fun _ => 1 / 2) = .ok r ∧
    ∀ v < 2, ∃ q, r.messages v (r.assign v) = some q ∧ 0 < q := by
  have hm : AllMultinomial twoTable := by intro ty hty; simpa [twoTable, tyMultinomial] using hty
  obtain ⟨s0, h0, -, -⟩ := good_init (K := ℚ) (M := 3) (t := twoTable) (n := 1) (by decide) (by decide) (by decide) (by decide)
  have hw : ∀ v < twoTable.numCols, twoTable.beg v < twoTable.stop v ∧ twoTable.stop v - twoTable.beg v ≤ 2 ^ 23 := by decide
  obtain ⟨⟨r, h1, h2⟩, -⟩ := floatAddRow_ok (numpyOps_ok (by norm_num)) ⟨by decide, by decide⟩ hm ⟨fun n r => (twoTable_cell n r).1, fun v hv => (hw v hv).1⟩ twoTable_categorical
    (by decide) (fun v hv => (hw v hv).2) (FloatRun.init h0) 0 (draw := fun _ => 1 / 2) fun _ => ⟨2 ^ 52, by norm_num, by norm_num⟩
  exact ⟨s0, _, r, FloatRun.init h0, h1, h2⟩

end TreeCat
