import Verif.Lemmas.FloatRow
import Verif.Props.Program
import Verif.Spec.Likelihood

/-! # C65: sampling the classes of a row in float32 -/

namespace TreeCat

open Util Spec

/-- The arrays that sampling reads are float32 numbers in the range that counts below `2 ^ 24` and up to 128 clusters give. -/
structure Spec.FloatStats {M : Nat} (t : Table) (E : Nat) (vert : Nat → Fin M → ℚ) (edge : Nat → Fin M → Fin M → ℚ) (feat meas : Nat → Fin M → ℚ) : Prop where
  vert : ∀ v < t.numCols, ∀ a, IsFloat 24 (-149) (vert v a) ∧ 1 / 2 ≤ vert v a ∧ vert v a ≤ 2 ^ 24
  edge : ∀ e < E, ∀ a b, IsFloat 24 (-149) (edge e a b) ∧ 1 / 2 ^ 9 ≤ edge e a b ∧ edge e a b ≤ 2 ^ 24
  feat : ∀ v < t.numCols, ∀ r, t.beg v ≤ r → r < t.stop v → ∀ a, IsFloat 24 (-149) (feat r a) ∧ 1 / 2 ^ 9 ≤ feat r a ∧ feat r a ≤ 2 * meas v a
  meas : ∀ v < t.numCols, ∀ a, IsFloat 24 (-149) (meas v a) ∧ meas v a ≤ 2 ^ 24

/-- Each feature has at most one observation in the row. -/
def Spec.Categorical (t : Table) (row : Nat) : Prop := (∀ r, 0 ≤ t.cell row r) ∧ ∀ v < t.numCols, t.blockSum row v ≤ 1

/-! ### Programs -/

/-- Vertices are updated once before messages pass, and are not touched after they have been drawn. -/
def Orderly (V E : Nat) : List Nat → List Nat → List Instr → Prop
  | _, _, [] => True
  | U, D, i :: is =>
    match i.op with
    | .UP => i.v < V ∧ i.v ∉ U ∧ i.v ∉ D ∧ Orderly V E (i.v :: U) D is
    | .IN => i.v < V ∧ i.v2 < V ∧ i.e < E ∧ i.v ∉ D ∧ i.v2 ∉ D ∧ Orderly V E U D is
    | .ROOT => i.v < V ∧ i.v ∉ D ∧ Orderly V E U (i.v :: D) is
    | .OUT => i.v < V ∧ i.v2 < V ∧ i.e < E ∧ i.v ∉ D ∧ Orderly V E U (i.v :: D) is
    | .DOWN => Orderly V E U D is

theorem orderly_ins {V E : Nat} {U D : List Nat} {v : Nat} (hv : v < V) (hD : D = []) (eid : Nat → Nat) (l : List Nat) (hl : ∀ c ∈ l, c < V ∧ eid c < E) (rest : List Instr)
    (h : Orderly V E U D rest) : Orderly V E U D (l.map (fun c => (⟨.IN, v, c, eid c⟩ : Instr)) ++ rest) := by
  induction l with
  | nil => exact h
  | cons c l ih =>
    have := hl c List.mem_cons_self
    exact ⟨hv, this.1, this.2, by simp [hD], by simp [hD], ih fun c hc => hl c (List.mem_cons_of_mem _ hc)⟩

theorem orderly_inBlocks {V E : Nat} {ch : Nat → List Nat} {eid : Nat → Nat} (hch : ∀ v < V, ∀ c ∈ ch v, c < V ∧ eid c < E) (l : List Nat) (hnd : l.Nodup)
    (hl : ∀ v ∈ l, v < V) (U : List Nat) (hU : ∀ v ∈ l, v ∉ U) (rest : List Instr) (h : ∀ U, Orderly V E U [] rest) :
    Orderly V E U [] (l.flatMap (inBlock ch eid) ++ rest) := by
  induction l generalizing U with
  | nil => exact h U
  | cons v l ih =>
    rw [List.nodup_cons] at hnd
    have hv := hl v List.mem_cons_self
    rw [List.flatMap_cons, List.append_assoc]
    refine ⟨hv, hU v List.mem_cons_self, by simp, ?_⟩
    refine orderly_ins hv rfl eid (ch v) (hch v hv) _ ?_
    refine ih hnd.2 (fun w hw => hl w (List.mem_cons_of_mem _ hw)) (v :: U) ?_
    intro w hw
    rw [List.mem_cons, not_or]
    exact ⟨fun e => hnd.1 (e ▸ hw), hU w (List.mem_cons_of_mem _ hw)⟩

theorem orderly_outBlocks {V E r : Nat} {par eid : Nat → Nat} (hpar : ∀ v < V, v ≠ r → par v < V ∧ eid v < E) (l : List Nat) (hnd : l.Nodup)
    (hl : ∀ v ∈ l, v < V) (U D : List Nat) (hD : ∀ v ∈ l, v ≠ r → v ∉ D) : Orderly V E U D (l.flatMap (outBlock r par eid)) := by
  induction l generalizing D with
  | nil => trivial
  | cons v l ih =>
    rw [List.nodup_cons] at hnd
    have hv := hl v List.mem_cons_self
    have hl' : ∀ w ∈ l, w < V := fun w hw => hl w (List.mem_cons_of_mem _ hw)
    rw [List.flatMap_cons]
    by_cases hvr : v = r
    · unfold outBlock
      rw [if_pos hvr]
      exact ih hnd.2 hl' D fun w hw => hD w (List.mem_cons_of_mem _ hw)
    · unfold outBlock
      rw [if_neg hvr]
      refine ⟨hv, (hpar v hv hvr).1, (hpar v hv hvr).2, hD v List.mem_cons_self hvr, ?_⟩
      refine ih hnd.2 hl' (v :: D) ?_
      intro w hw hwr
      rw [List.mem_cons, not_or]
      exact ⟨fun e => hnd.1 (e ▸ hw), hD w (List.mem_cons_of_mem _ hw) hwr⟩

theorem orderly_progOf {V E r : Nat} {par : Nat → Nat} {ch : Nat → List Nat} {eid : Nat → Nat} {L : List Nat} (T : Topo V r par ch L)
    (hpar : ∀ v < V, v ≠ r → par v < V ∧ eid v < E) : Orderly V E [] [] (progOf r par ch eid L) := by
  unfold progOf
  rw [List.append_assoc]
  refine orderly_inBlocks (fun v hv c hc => ?_) L.reverse (List.nodup_reverse.2 T.nodup) (fun v hv => T.mem.1 (List.mem_reverse.1 hv)) [] (by simp) _ ?_
  · obtain ⟨h1, h2, -⟩ := (T.ch_mem v hv c).1 hc
    exact ⟨h1, (hpar c h1 h2).2⟩
  · intro U
    refine ⟨T.root_lt, by simp, ?_⟩
    refine orderly_outBlocks hpar L T.nodup (fun v hv => T.mem.1 hv) U [r] ?_
    intro v _ hv
    simpa using hv

/-! ### One cell -/

theorem foldl_once {σ : Type} (f : Nat → σ → σ) (cnt : Nat → Nat) (l : List Nat) (h : (l.map cnt).sum ≤ 1) (s : σ) :
    l.foldl (fun s c => (List.range (cnt c)).foldl (fun s _ => f c s) s) s = s ∨
      ∃ c ∈ l, l.foldl (fun s c => (List.range (cnt c)).foldl (fun s _ => f c s) s) s = f c s := by
  induction l generalizing s with
  | nil => exact .inl rfl
  | cons c l ih =>
    rw [List.map_cons, List.sum_cons] at h
    rcases Nat.eq_zero_or_pos (cnt c) with hc | hc
    · simp only [List.foldl_cons, hc, List.range_zero, List.foldl_nil]
      rcases ih (by omega) s with h1 | ⟨d, hd, h1⟩
      · exact .inl h1
      · exact .inr ⟨d, List.mem_cons_of_mem _ hd, h1⟩
    · have hc1 : cnt c = 1 := by omega
      have hz : ∀ d ∈ l, cnt d = 0 := by
        intro d hd
        have : cnt d ≤ (l.map cnt).sum := List.single_le_sum (by simp) _ (List.mem_map_of_mem hd)
        omega
      refine .inr ⟨c, List.mem_cons_self, ?_⟩
      simp only [List.foldl_cons, hc1, List.range_one, List.foldl_nil]
      generalize f c s = s'
      clear ih h hc hc1
      induction l with
      | nil => rfl
      | cons d l ih2 =>
        simp only [List.foldl_cons, hz d List.mem_cons_self, List.range_zero, List.foldl_nil]
        exact ih2 fun d hd => hz d (List.mem_cons_of_mem _ hd)

section
set_option linter.unusedSectionVars false
variable {M : Nat} [NeZero M] {A : FloatOps M} {t : Table} {row E : Nat} {vert : Nat → Fin M → ℚ} {edge : Nat → Fin M → Fin M → ℚ}
  {feat meas : Nat → Fin M → ℚ}

theorem floatAddCell_once (A : FloatOps M) (hm : t.featureTypes.getD v 0 = tyMultinomial) (hrow : Spec.Categorical t row) (hv : v < t.numCols) (s : FloatRow M) :
    floatAddCell A t row v s = .ok s ∨ ∃ r, t.beg v ≤ r ∧ r < t.stop v ∧ floatAddCell A t row v s = .ok (floatAddOne A v r s) := by
  unfold floatAddCell
  rw [if_pos hm]
  have hsum : ((List.range (t.stop v - t.beg v)).map fun c => (t.cell row (t.beg v + c)).toNat).sum ≤ 1 := by
    have h1 := hrow.2 v hv
    have key : ∀ l : List Nat, (((l.map fun c => (t.cell row (t.beg v + c)).toNat).sum : Nat) : Int) = (l.map fun c => t.cell row (t.beg v + c)).sum := by
      intro l
      induction l with
      | nil => rfl
      | cons c l ih =>
        simp only [List.map_cons, List.sum_cons]
        rw [Nat.cast_add, ih, Int.toNat_of_nonneg (hrow.1 _)]
    have h2 := key (List.range (t.stop v - t.beg v))
    unfold Table.blockSum at h1
    omega
  rcases foldl_once (fun c s => floatAddOne A v (t.beg v + c) s) (fun c => (t.cell row (t.beg v + c)).toNat) _ hsum s with h | ⟨c, hc, h⟩
  · exact .inl (by rw [h])
  · have := List.mem_range.1 hc
    exact .inr ⟨t.beg v + c, by omega, by omega, by rw [h]⟩

/-! ### The invariant -/

/-- The state after a part of a program that has updated the vertices `U` and drawn the vertices `D`. -/
structure RowInv (t : Table) (feat meas : Nat → Fin M → ℚ) (U D : List Nat) (s : FloatRow M) : Prop where
  fresh : ∀ v < t.numCols, v ∉ U → v ∉ D → Msg (-1) 24 (s.messages v)
  updated : ∀ v < t.numCols, v ∉ D → Msg (-34) 25 (s.messages v)
  drawn : ∀ v < t.numCols, v ∈ D → Msg (-67) 50 (s.messages v) ∧ ∃ q, s.messages v (s.assign v) = some q ∧ 0 < q
  cells : ∀ v < t.numCols, v ∉ U → (∀ r, t.beg v ≤ r → r < t.stop v → ∀ a, s.featProbs r a = some (feat r a)) ∧ ∀ a, s.measProbs v a = some (meas v a)

theorem two_neg_one : (2 : ℚ) ^ (-1 : Int) = 1 / 2 := by norm_num
theorem two_neg_nine : (2 : ℚ) ^ (-9 : Int) = 1 / 2 ^ 9 := by norm_num
theorem two_twentyfour : (2 : ℚ) ^ (24 : Int) = 2 ^ 24 := by norm_num

theorem rowInv_init (S : Spec.FloatStats t E vert edge feat meas) (assign : Nat → Fin M) : RowInv t feat meas [] [] (floatRowInit vert feat meas assign) := by
  have hmsg : ∀ v < t.numCols, Msg (-1) 24 fun a => (some (vert v a) : Flt) := by
    intro v hv
    refine ⟨fun a => ?_, 0, ?_⟩
    · obtain ⟨h1, h2, h3⟩ := S.vert v hv a
      exact ⟨_, rfl, h1, by linarith, by rw [two_twentyfour]; exact h3⟩
    · obtain ⟨h1, h2, h3⟩ := S.vert v hv 0
      exact ⟨_, rfl, by rw [two_neg_one]; exact h2⟩
  exact ⟨fun v hv _ _ => hmsg v hv, fun v hv _ => (hmsg v hv).weaken (by norm_num) (by norm_num), fun v _ h => by simp at h,
    fun v _ _ => ⟨fun r _ _ a => rfl, fun a => rfl⟩⟩

/-- The update of a message by one observation. -/
theorem msg_addOne (O : Spec.OpsOk A) {f g h : Fin M → Flt} {x y : Fin M → ℚ} (hf : Msg (-1) 24 f) (hg : ∀ a, g a = some (x a))
    (hh : ∀ a, h a = some (y a)) (hx : ∀ a, IsFloat 24 (-149) (x a) ∧ 1 / 2 ^ 9 ≤ x a ∧ x a ≤ 2 * y a) (hy : ∀ a, y a ≤ 2 ^ 24) :
    Msg (-34) 25 fun a => Flt.div A.rnd (Flt.mul A.rnd (f a) (g a)) (h a) := by
  have hx0 : ∀ a, 0 < x a := fun a => lt_of_lt_of_le (by norm_num) (hx a).2.1
  have hy0 : ∀ a, 0 < y a := fun a => by have := hx0 a; have := (hx a).2.2; linarith
  refine ⟨fun a => ?_, ?_⟩
  · obtain ⟨q, hq, hqf, hq0, hq1⟩ := hf.1 a
    refine ⟨A.rnd (A.rnd (q * x a) / y a), by show Flt.div A.rnd (Flt.mul A.rnd (f a) (g a)) (h a) = _; rw [hq, hg a, hh a]; simp [Flt.div, Flt.mul, (hy0 a).ne'],
      O.rnd.float _, O.rnd.nonneg (div_nonneg (O.rnd.nonneg (mul_nonneg hq0 (hx0 a).le)) (hy0 a).le), O.rnd.le_of (isFloat_pow (by norm_num)) ?_⟩
    have hscale : IsFloat 24 (-149) (2 ^ (24 : Int) * x a) := by
      obtain ⟨m, e, h1, h2, h3⟩ := (hx a).1
      refine ⟨m, e + 24, h1, by omega, ?_⟩
      rw [h3, zpow_split]
      ring
    have h1 : A.rnd (q * x a) ≤ 2 ^ (24 : Int) * x a := O.rnd.le_of hscale (mul_le_mul_of_nonneg_right hq1 (hx0 a).le)
    rw [div_le_iff₀ (hy0 a)]
    have h2 : (2 : ℚ) ^ (24 : Int) * x a ≤ 2 ^ (24 : Int) * (2 * y a) := mul_le_mul_of_nonneg_left (hx a).2.2 (two_zpow_pos _).le
    have h3 : (2 : ℚ) ^ (25 : Int) = 2 ^ (24 : Int) * 2 := by norm_num
    rw [h3]
    linarith
  · obtain ⟨a, ha⟩ := hf.2
    refine ⟨a, ?_⟩
    have h1 : FGe (-9) (g a) := ⟨x a, hg a, by rw [two_neg_nine]; exact (hx a).2.1⟩
    have h2 := FGe.mul O.rnd ha h1 (by norm_num)
    have h3 := FGe.div O.rnd h2 (hy0 a) (by rw [two_twentyfour]; exact hy a) (b := 24) (by norm_num)
    show FGe (-34) (Flt.div A.rnd (Flt.mul A.rnd (f a) (g a)) (h a))
    rw [hh a]
    exact h3.weaken (by norm_num)

/-- The message of OP_IN before scaling. -/
theorem msg_in (O : Spec.OpsOk A) (hM : M ≤ 128) (S : Spec.FloatStats t E vert edge feat meas) {v v2 e : Nat} (hv : v < t.numCols) (hv2 : v2 < t.numCols) (he : e < E)
    {s : FloatRow M} (h : Msg (-34) 25 (s.messages v)) (h2 : Msg (-34) 25 (s.messages v2)) : Msg (-125) 83 (floatInMsg A vert edge v v2 e s) := by
  have hvl : ∀ w < t.numCols, ∀ a, (2 : ℚ) ^ (-1 : Int) ≤ vert w a := fun w hw a => by rw [two_neg_one]; exact (S.vert w hw a).2.1
  have hvu : ∀ w < t.numCols, ∀ a, vert w a ≤ (2 : ℚ) ^ (24 : Int) := fun w hw a => by rw [two_twentyfour]; exact (S.vert w hw a).2.2
  have hv0 : ∀ w < t.numCols, ∀ a, 0 < vert w a := fun w hw a => lt_of_lt_of_le (two_zpow_pos _) (hvl w hw a)
  -- the child's message divided by its prior
  have hc : ∀ b, FLe 26 (Flt.div A.rnd (s.messages v2 b) (some (vert v2 b))) := fun b =>
    (FLe.div O.rnd (h2.1 b) (hvl v2 hv2 b) (by norm_num)).weaken (by norm_num)
  choose y hy1 hy2 hy3 hy4 using hc
  set x : Fin M → Fin M → ℚ := fun a b => if v2 < v then edge e b a else edge e a b with hx
  have hxb : ∀ a b, IsFloat 24 (-149) (x a b) ∧ (2 : ℚ) ^ (-9 : Int) ≤ x a b ∧ x a b ≤ 2 ^ (24 : Int) := by
    intro a b
    rw [two_neg_nine, two_twentyfour, hx]
    by_cases hlt : v2 < v
    · simpa [hlt] using S.edge e he b a
    · simpa [hlt] using S.edge e he a b
  have hdot : ∀ a, ∃ d, A.dot (fltTrans edge e v v2 a) (fun b => Flt.div A.rnd (s.messages v2 b) (some (vert v2 b))) = some d ∧ IsFloat 24 (-149) d ∧ 0 ≤ d ∧
      (2 : ℚ) ^ (-67 : Int) ≤ d ∧ d ≤ 2 ^ (57 : Int) := by
    intro a
    obtain ⟨d, h3, h4, h5, h6, h7⟩ := O.dot (x a) y (fun b => ⟨(hxb a b).1, le_trans (two_zpow_pos _).le (hxb a b).2.1⟩) fun b => ⟨hy2 b, hy3 b⟩
    have he1 : fltTrans edge e v v2 a = fun b => some (x a b) := rfl
    have he2 : (fun b => Flt.div A.rnd (s.messages v2 b) (some (vert v2 b))) = fun b => some (y b) := funext hy1
    refine ⟨d, by rw [he1, he2]; exact h3, h4, h5, ?_, ?_⟩
    · obtain ⟨b, hb⟩ := h2.2
      obtain ⟨q, hq1, hq2⟩ := FGe.div O.rnd hb (hv0 v2 hv2 b) (hvu v2 hv2 b) (by norm_num)
      rw [hy1 b] at hq1
      obtain rfl := Option.some.inj hq1
      refine h6 (-67) (by norm_num) b ?_
      have : (2 : ℚ) ^ (-67 : Int) = 2 ^ (-9 : Int) * 2 ^ (-34 - 24 : Int) := by rw [← zpow_split]; norm_num
      rw [this]
      exact mul_le_mul (hxb a b).2.1 hq2 (two_zpow_pos _).le (le_trans (two_zpow_pos _).le (hxb a b).2.1)
    · have h8 := h7 50 (by norm_num) fun b => by
        have : (2 : ℚ) ^ (50 : Int) = 2 ^ (24 : Int) * 2 ^ (26 : Int) := by rw [← zpow_split]; norm_num
        rw [this]
        exact mul_le_mul (hxb a b).2.2 (hy4 b) (hy3 b) (two_zpow_pos _).le
      refine le_trans h8 ?_
      have hM' : (M : ℚ) ≤ 128 := by exact_mod_cast hM
      have : (2 : ℚ) ^ (57 : Int) = 128 * 2 ^ (50 : Int) := by norm_num
      rw [this]
      exact mul_le_mul_of_nonneg_right hM' (two_zpow_pos _).le
  refine ⟨fun a => ?_, ?_⟩
  · obtain ⟨d, hd, hd1, hd2, hd3, hd4⟩ := hdot a
    unfold floatInMsg
    rw [hd]
    have h3 := FLe.mul O.rnd (h.1 a) (y := some d) ⟨d, rfl, hd1, hd2, hd4⟩ (by norm_num)
    exact (FLe.div O.rnd h3 (hvl v hv a) (by norm_num)).weaken (by norm_num)
  · obtain ⟨a, ha⟩ := h.2
    obtain ⟨d, hd, hd1, hd2, hd3, hd4⟩ := hdot a
    refine ⟨a, ?_⟩
    unfold floatInMsg
    rw [hd]
    have h3 := FGe.mul O.rnd ha (y := some d) ⟨d, rfl, hd3⟩ (by norm_num)
    exact (FGe.div O.rnd h3 (hv0 v hv a) (hvu v hv a) (by norm_num)).weaken (by norm_num)

/-- The weights of OP_OUT. -/
theorem msg_out (O : Spec.OpsOk A) (S : Spec.FloatStats t E vert edge feat meas) {v v2 e : Nat} (hv : v < t.numCols) (he : e < E)
    {s : FloatRow M} (h : Msg (-34) 25 (s.messages v)) : Msg (-67) 50 (floatOut A vert edge v v2 e s) := by
  have hxb : ∀ b, ∃ q, fltTrans edge e v2 v (s.assign v2) b = some q ∧ IsFloat 24 (-149) q ∧ (2 : ℚ) ^ (-9 : Int) ≤ q ∧ q ≤ 2 ^ (24 : Int) := by
    intro b
    refine ⟨_, rfl, ?_⟩
    rw [two_neg_nine, two_twentyfour]
    by_cases hlt : v < v2
    · simpa [hlt] using S.edge e he b (s.assign v2)
    · simpa [hlt] using S.edge e he (s.assign v2) b
  refine ⟨fun b => ?_, ?_⟩
  · obtain ⟨q, hq, h1, h2, h3⟩ := hxb b
    unfold floatOut
    rw [hq]
    have h4 := FLe.mul O.rnd (h.1 b) (y := some q) ⟨q, rfl, h1, le_trans (two_zpow_pos _).le h2, h3⟩ (by norm_num)
    exact (FLe.div O.rnd h4 (by rw [two_neg_one]; exact (S.vert v hv b).2.1) (b := -1) (by norm_num)).weaken (by norm_num)
  · obtain ⟨b, hb⟩ := h.2
    obtain ⟨q, hq, h1, h2, h3⟩ := hxb b
    refine ⟨b, ?_⟩
    unfold floatOut
    rw [hq]
    have h4 := FGe.mul O.rnd hb (y := some q) ⟨q, rfl, h2⟩ (by norm_num)
    have h5 := S.vert v hv b
    exact (FGe.div O.rnd h4 (by linarith [h5.2.1]) (by rw [two_twentyfour]; exact h5.2.2) (b := 24) (by norm_num)).weaken (by norm_num)

/-! ### The steps -/

theorem rowInv_up (O : Spec.OpsOk A) (S : Spec.FloatStats t E vert edge feat meas) (ht : Table.Ordered t) (hrow : Spec.Categorical t row) {U D : List Nat} {s : FloatRow M}
    (I : RowInv t feat meas U D s) {v : Nat} (hv : v < t.numCols) (hm : t.featureTypes.getD v 0 = tyMultinomial) (hU : v ∉ U) (hD : v ∉ D) :
    ∃ s', floatAddCell A t row v s = .ok s' ∧ RowInv t feat meas (v :: U) D s' := by
  rcases floatAddCell_once A hm hrow hv s with h | ⟨r, hr1, hr2, h⟩
  · refine ⟨s, h, ?_⟩
    exact ⟨fun w hw h1 h2 => I.fresh w hw (fun h => h1 (List.mem_cons_of_mem _ h)) h2, I.updated, I.drawn,
      fun w hw h1 => I.cells w hw fun h => h1 (List.mem_cons_of_mem _ h)⟩
  · refine ⟨_, h, ?_⟩
    obtain ⟨hc1, hc2⟩ := I.cells v hv hU
    have hnew := msg_addOne O (I.fresh v hv hU hD) (hc1 r hr1 hr2) hc2 (S.feat v hv r hr1 hr2) fun a => (S.meas v hv a).2
    have hne : ∀ w, w ≠ v → (floatAddOne A v r s).messages w = s.messages w := fun w hw => Function.update_of_ne hw _ _
    have heq : (floatAddOne A v r s).messages v = fun a => Flt.div A.rnd (Flt.mul A.rnd (s.messages v a) (s.featProbs r a)) (s.measProbs v a) := Function.update_self _ _ _
    refine ⟨?_, ?_, ?_, ?_⟩
    · intro w hw h1 h2
      rw [List.mem_cons, not_or] at h1
      rw [hne w h1.1]
      exact I.fresh w hw h1.2 h2
    · intro w hw h2
      by_cases hwv : w = v
      · rw [hwv, heq]
        exact hnew
      · rw [hne w hwv]
        exact I.updated w hw h2
    · intro w hw h2
      have hwv : w ≠ v := fun e => hD (e ▸ h2)
      rw [hne w hwv]
      exact I.drawn w hw h2
    · intro w hw h1
      rw [List.mem_cons, not_or] at h1
      obtain ⟨h3, h4⟩ := I.cells w hw h1.2
      refine ⟨fun r' h5 h6 a => ?_, fun a => ?_⟩
      · have hrr : r' ≠ r := by
          intro e
          subst e
          rcases disjoint_blocks ht hv hw h1.1 h5 h6 with h7 | h7 <;> omega
        rw [show (floatAddOne A v r s).featProbs r' = s.featProbs r' from Function.update_of_ne hrr _ _]
        exact h3 r' h5 h6 a
      · rw [show (floatAddOne A v r s).measProbs w = s.measProbs w from Function.update_of_ne h1.1 _ _]
        exact h4 a

theorem rowInv_in (O : Spec.OpsOk A) (hM : M ≤ 128) (S : Spec.FloatStats t E vert edge feat meas) {U D : List Nat} {s : FloatRow M}
    (I : RowInv t feat meas U D s) {v v2 e : Nat} (hv : v < t.numCols) (hv2 : v2 < t.numCols) (he : e < E) (hD : v ∉ D) (hD2 : v2 ∉ D) :
    RowInv t feat meas U D (floatIn A vert edge v v2 e s) := by
  have hnew := (msg_in O hM S hv hv2 he (I.updated v hv hD) (I.updated v2 hv2 hD2)).scale O.rnd
  have hne : ∀ w, w ≠ v → (floatIn A vert edge v v2 e s).messages w = s.messages w := fun w hw => Function.update_of_ne hw _ _
  have heq : (floatIn A vert edge v v2 e s).messages v = _ := Function.update_self _ _ _
  refine ⟨?_, ?_, ?_, I.cells⟩
  · intro w hw h1 h2
    by_cases hwv : w = v
    · rw [hwv, heq]
      exact hnew.weaken (by norm_num) (by norm_num)
    · rw [hne w hwv]
      exact I.fresh w hw h1 h2
  · intro w hw h2
    by_cases hwv : w = v
    · rw [hwv, heq]
      exact hnew.weaken (by norm_num) (by norm_num)
    · rw [hne w hwv]
      exact I.updated w hw h2
  · intro w hw h2
    rw [hne w fun e => hD (e ▸ h2)]
    exact I.drawn w hw h2

theorem rowInv_root (O : Spec.OpsOk A) {U D : List Nat} {s : FloatRow M} (I : RowInv t feat meas U D s) {v : Nat} (hv : v < t.numCols) (hD : v ∉ D)
    {u : ℚ} (hu : Spec.IsDraw u) :
    ∃ a, floatClass A (s.messages v) u = .ok a ∧ RowInv t feat meas U (v :: D) { s with assign := Function.update s.assign v a } := by
  obtain ⟨a, q, h1, h2, h3⟩ := floatClass_ok O (I.updated v hv hD) hu
  refine ⟨a, h1, fun w hw h4 h5 => ?_, fun w hw h5 => ?_, fun w hw h5 => ?_, I.cells⟩
  · exact I.fresh w hw h4 fun h => h5 (List.mem_cons_of_mem _ h)
  · exact I.updated w hw fun h => h5 (List.mem_cons_of_mem _ h)
  · by_cases hwv : w = v
    · subst hwv
      refine ⟨(I.updated w hw hD).weaken (by norm_num) (by norm_num), q, ?_, h3⟩
      show s.messages w (Function.update s.assign w a w) = some q
      rw [Function.update_self]
      exact h2
    · obtain ⟨h6, q', h7, h8⟩ := I.drawn w hw ((List.mem_cons.1 h5).resolve_left hwv)
      refine ⟨h6, q', ?_, h8⟩
      show s.messages w (Function.update s.assign v a w) = some q'
      rw [Function.update_of_ne hwv]
      exact h7

theorem rowInv_out (O : Spec.OpsOk A) (S : Spec.FloatStats t E vert edge feat meas) {U D : List Nat} {s : FloatRow M} (I : RowInv t feat meas U D s) {v v2 e : Nat}
    (hv : v < t.numCols) (he : e < E) (hD : v ∉ D) {u : ℚ} (hu : Spec.IsDraw u) :
    ∃ a, floatClass A (floatOut A vert edge v v2 e s) u = .ok a ∧
      RowInv t feat meas U (v :: D) { s with messages := Function.update s.messages v (floatOut A vert edge v v2 e s), assign := Function.update s.assign v a } := by
  have hmsg := msg_out O S (v2 := v2) hv he (I.updated v hv hD)
  obtain ⟨a, q, h1, h2, h3⟩ := floatClass_ok O hmsg hu
  refine ⟨a, h1, fun w hw h4 h5 => ?_, fun w hw h5 => ?_, fun w hw h5 => ?_, I.cells⟩
  · rw [List.mem_cons, not_or] at h5
    show Msg (-1) 24 (Function.update s.messages v (floatOut A vert edge v v2 e s) w)
    rw [Function.update_of_ne h5.1]
    exact I.fresh w hw h4 h5.2
  · rw [List.mem_cons, not_or] at h5
    show Msg (-34) 25 (Function.update s.messages v (floatOut A vert edge v v2 e s) w)
    rw [Function.update_of_ne h5.1]
    exact I.updated w hw h5.2
  · show Msg (-67) 50 (Function.update s.messages v (floatOut A vert edge v v2 e s) w) ∧
      ∃ q, Function.update s.messages v (floatOut A vert edge v v2 e s) w (Function.update s.assign v a w) = some q ∧ 0 < q
    by_cases hwv : w = v
    · subst hwv
      rw [Function.update_self, Function.update_self]
      exact ⟨hmsg, q, h2, h3⟩
    · rw [Function.update_of_ne hwv, Function.update_of_ne hwv]
      exact I.drawn w hw ((List.mem_cons.1 h5).resolve_left hwv)

/-- Every message is a number. -/
theorem RowInv.numbers {U D : List Nat} {s : FloatRow M} (I : RowInv t feat meas U D s) {v : Nat} (hv : v < t.numCols) (a : Fin M) :
    ∃ q, s.messages v a = some q ∧ 0 ≤ q ∧ q ≤ 2 ^ 50 := by
  have h : FLe 50 (s.messages v a) := by
    by_cases hD : v ∈ D
    · exact (I.drawn v hv hD).1.1 a
    · exact ((I.updated v hv hD).1 a).weaken (by norm_num)
  obtain ⟨q, h1, -, h2, h3⟩ := h
  exact ⟨q, h1, h2, by exact_mod_cast h3⟩

/-- The vertices that a program draws. -/
def drawnBy (prog : List Instr) : List Nat := (prog.filter fun i => i.op = .ROOT ∨ i.op = .OUT).map fun i => i.v

theorem rowInv_run (O : Spec.OpsOk A) (hM : M ≤ 128) (S : Spec.FloatStats t E vert edge feat meas) (ht : Table.Ordered t) (hrow : Spec.Categorical t row)
    (hm : ∀ v < t.numCols, t.featureTypes.getD v 0 = tyMultinomial) {draw : Nat → ℚ} (hd : ∀ v, Spec.IsDraw (draw v)) (prog : List Instr) {U D : List Nat} {s : FloatRow M}
    (I : RowInv t feat meas U D s) (hord : Orderly t.numCols E U D prog) :
    (∃ U' D' s', prog.foldlM (floatRowStep A t row vert edge draw) s = .ok s' ∧ RowInv t feat meas U' D' s' ∧ ∀ v, v ∈ D ∨ v ∈ drawnBy prog → v ∈ D') ∧
      ∀ k ≤ prog.length, ∃ s', (prog.take k).foldlM (floatRowStep A t row vert edge draw) s = .ok s' ∧
        ∀ v < t.numCols, ∀ a, ∃ q, s'.messages v a = some q ∧ 0 ≤ q ∧ q ≤ 2 ^ 50 := by
  induction prog generalizing U D s with
  | nil =>
    refine ⟨⟨U, D, s, rfl, I, fun v h => by simpa [drawnBy] using h⟩, fun k _ => ⟨s, by simp [pure, Except.pure], fun v hv a => I.numbers hv a⟩⟩
  | cons i prog ih =>
    have step : ∀ {U' D' : List Nat} {s' : FloatRow M}, floatRowStep A t row vert edge draw s i = .ok s' → RowInv t feat meas U' D' s' → Orderly t.numCols E U' D' prog →
        (∀ v, v ∈ D ∨ v ∈ drawnBy [i] → v ∈ D') →
        (∃ U' D' s', (i :: prog).foldlM (floatRowStep A t row vert edge draw) s = .ok s' ∧ RowInv t feat meas U' D' s' ∧ ∀ v, v ∈ D ∨ v ∈ drawnBy (i :: prog) → v ∈ D') ∧
        ∀ k ≤ (i :: prog).length, ∃ s', ((i :: prog).take k).foldlM (floatRowStep A t row vert edge draw) s = .ok s' ∧
          ∀ v < t.numCols, ∀ a, ∃ q, s'.messages v a = some q ∧ 0 ≤ q ∧ q ≤ 2 ^ 50 := by
      intro U' D' s' h1 h2 h3 h4
      obtain ⟨⟨U'', D'', s'', h5, h6, h7⟩, h8⟩ := ih h2 h3
      refine ⟨⟨U'', D'', s'', ?_, h6, ?_⟩, ?_⟩
      · rw [List.foldlM_cons, h1]
        exact h5
      · intro v hv
        apply h7
        have e : drawnBy (i :: prog) = drawnBy [i] ++ drawnBy prog := by
          unfold drawnBy
          rw [← List.map_append, ← List.filter_append]
          rfl
        rw [e, List.mem_append] at hv
        rcases hv with hv | hv | hv
        · exact .inl (h4 v (.inl hv))
        · exact .inl (h4 v (.inr hv))
        · exact .inr hv
      · intro k hk
        cases k with
        | zero => exact ⟨s, rfl, fun v hv a => I.numbers hv a⟩
        | succ k =>
          obtain ⟨s3, h9, h10⟩ := h8 k (by simpa using hk)
          refine ⟨s3, ?_, h10⟩
          rw [List.take_succ_cons, List.foldlM_cons, h1]
          exact h9
    obtain ⟨op, v, v2, e⟩ := i
    cases op with
    | UP =>
      obtain ⟨hv, hU, hD, hrest⟩ := hord
      obtain ⟨s', h1, h2⟩ := rowInv_up O S ht hrow I hv (hm v hv) hU hD
      exact step h1 h2 hrest fun w hw => by simpa [drawnBy] using hw
    | IN =>
      obtain ⟨hv, hv2, he, hD, hD2, hrest⟩ := hord
      exact step rfl (rowInv_in O hM S I hv hv2 he hD hD2) hrest fun w hw => by simpa [drawnBy] using hw
    | ROOT =>
      obtain ⟨hv, hD, hrest⟩ := hord
      obtain ⟨a, h1, h2⟩ := rowInv_root O I hv hD (hd v)
      refine step (s' := { s with assign := Function.update s.assign v a }) ?_ h2 hrest fun w hw => ?_
      · simp only [floatRowStep, h1, bind, Except.bind]
      · simpa [drawnBy, or_comm] using hw
    | OUT =>
      obtain ⟨hv, hv2, he, hD, hrest⟩ := hord
      obtain ⟨a, h1, h2⟩ := rowInv_out O S I (v2 := v2) hv he hD (hd v)
      refine step (s' := { s with messages := Function.update s.messages v (floatOut A vert edge v v2 e s), assign := Function.update s.assign v a }) ?_ h2 hrest fun w hw => ?_
      · simp only [floatRowStep, h1, bind, Except.bind]
      · simpa [drawnBy, or_comm] using hw
    | DOWN => exact step rfl I hord fun w hw => by simpa [drawnBy] using hw

end

/-- **C65** for the grid of a tree. -/
theorem floatSampleRow_grid {M : Nat} [NeZero M] (hM : M ≤ 128) {A : FloatOps M} (O : Spec.OpsOk A) {t : Table} (ht : Table.Ordered t)
    (hm : ∀ v < t.numCols, t.featureTypes.getD v 0 = tyMultinomial) {grid : Grid} (htree : IsTree t.numCols (gridEdges grid)) (hids : ∀ c ∈ grid, c.1 < grid.length)
    {root : Nat} (hroot : root < t.numCols)
    {prog : List Instr} (hprog : makeProgram grid (some root) = .ok prog) {vert : Nat → Fin M → ℚ} {edge : Nat → Fin M → Fin M → ℚ}
    {feat meas : Nat → Fin M → ℚ} (S : Spec.FloatStats t (t.numCols - 1) vert edge feat meas) {row : Nat} (hrow : Spec.Categorical t row) (assign : Nat → Fin M)
    {draw : Nat → ℚ} (hd : ∀ v, Spec.IsDraw (draw v)) :
    (∃ s, floatSampleRow A t row vert edge feat meas assign draw prog = .ok s ∧ ∀ v < t.numCols, ∃ q, s.messages v (s.assign v) = some q ∧ 0 < q) ∧
      ∀ k ≤ prog.length, ∃ s, floatSampleRow A t row vert edge feat meas assign draw (prog.take k) = .ok s ∧
        ∀ v < t.numCols, ∀ a, ∃ q, s.messages v a = some q ∧ 0 ≤ q ∧ q ≤ 2 ^ 50 := by
  obtain ⟨d, par, ch, eid, L, Rt, T, h1, -, h2⟩ := makeProgram_some htree hroot
  rw [h2] at hprog
  obtain rfl := Except.ok.inj hprog
  have hgrid : grid.length = t.numCols - 1 := by
    have := htree.card
    simp only [gridEdges, List.length_map] at this
    omega
  have hpar : ∀ v < t.numCols, v ≠ root → par v < t.numCols ∧ eid v < t.numCols - 1 := by
    intro v hv hvr
    refine ⟨Rt.par_lt v hv hvr, ?_⟩
    rw [← hgrid]
    rcases h1 v hv hvr with h | h <;> exact hids _ h
  obtain ⟨⟨U, D, s, h3, h4, h5⟩, h6⟩ := rowInv_run O hM S ht hrow hm hd _ (rowInv_init S assign) (orderly_progOf T hpar)
  refine ⟨⟨s, h3, fun v hv => (h4.drawn v hv (h5 v (.inr ?_))).2⟩, h6⟩
  unfold drawnBy
  by_cases hvr : v = root
  · exact List.mem_map.2 ⟨⟨.ROOT, root, 0, 0⟩, List.mem_filter.2 ⟨mem_progOf.2 (.inr (.inl rfl)), by simp⟩, hvr.symm⟩
  · exact List.mem_map.2 ⟨⟨.OUT, v, par v, eid v⟩, List.mem_filter.2 ⟨mem_progOf.2 (.inr (.inr ⟨v, T.mem.2 hv, mem_outBlock.2 (.inr ⟨hvr, rfl⟩)⟩)), by simp⟩, rfl⟩
/-- **C65**. For every tree, every row with at most one observation per feature, all statistics in range and all draws, the loop in float32 finishes. All messages
are numbers between zero and `2 ^ 50` at all times, so nothing overflows and no `nan` appears, and every class that is drawn had a
positive weight. -/
theorem floatSampleRow_ok {M : Nat} [NeZero M] (hM : M ≤ 128) {A : FloatOps M} (O : Spec.OpsOk A) {t : Table} (ht : Table.Ordered t)
    (hm : ∀ v < t.numCols, t.featureTypes.getD v 0 = tyMultinomial) {edges : List Edge} (htree : IsTree t.numCols edges) {root : Nat} (hroot : root < t.numCols)
    {prog : List Instr} (hprog : makeProgram (makeTree edges) (some root) = .ok prog) {vert : Nat → Fin M → ℚ} {edge : Nat → Fin M → Fin M → ℚ}
    {feat meas : Nat → Fin M → ℚ} (S : Spec.FloatStats t (t.numCols - 1) vert edge feat meas) {row : Nat} (hrow : Spec.Categorical t row) (assign : Nat → Fin M)
    {draw : Nat → ℚ} (hd : ∀ v, Spec.IsDraw (draw v)) :
    (∃ s, floatSampleRow A t row vert edge feat meas assign draw prog = .ok s ∧ ∀ v < t.numCols, ∃ q, s.messages v (s.assign v) = some q ∧ 0 < q) ∧
      ∀ k ≤ prog.length, ∃ s, floatSampleRow A t row vert edge feat meas assign draw (prog.take k) = .ok s ∧
        ∀ v < t.numCols, ∀ a, ∃ q, s.messages v a = some q ∧ 0 ≤ q ∧ q ≤ 2 ^ 50 := by
  exact floatSampleRow_grid hM O ht hm (makeTree_isTree htree) (makeTree_ids edges) hroot hprog S hrow assign hd

end TreeCat
