import Verif.Lemmas.FloatDraws
import Verif.Lemmas.FloatServeNear
import Verif.Lemmas.RowDraw
import Verif.Props.FloatLogNear

/-! # The messages of a row in float32 -/

namespace TreeCat

open Util Spec
open scoped BigOperators

/-- Nothing underflows while messages pass inward: before and after it is scaled, every entry of every message is at least `2 ^ -85`. -/
def Spec.rowClear {M : Nat} [NeZero M] (A : FloatOps M) (t : Table) (row : Nat) (vert : Nat → Fin M → ℚ) (edge : Nat → Fin M → Fin M → ℚ) : List Instr → FloatRow M → Bool
  | [], _ => true
  | i :: prog, s =>
    match i.op with
    | .UP => match floatAddCell A t row i.v s with
      | .ok s' => rowClear A t row vert edge prog s'
      | .error _ => false
    | .IN =>
      (List.finRange M).all (fun a => fltGe (-85) (floatInMsg A vert edge i.v i.v2 i.e s a)) &&
        (List.finRange M).all (fun a => fltGe (-85) ((floatIn A vert edge i.v i.v2 i.e s).messages i.v a)) && rowClear A t row vert edge prog (floatIn A vert edge i.v i.v2 i.e s)
    | _ => true

/-- The arrays that sampling reads are within some roundings of exact ones. -/
structure RowNear {M : Nat} (t : Table) (E : Nat) (edge : Nat → Fin M → Fin M → ℚ) (feat meas : Nat → Fin M → ℚ) (edgeR : Nat → Fin M → Fin M → ℝ) (featR measR : Nat → Fin M → ℝ)
    (ke kf km : Nat) : Prop where
  edge : ∀ e < E, ∀ a b, Near ke (some (edge e a b)) (edgeR e a b)
  feat : ∀ v < t.numCols, ∀ r, t.beg v ≤ r → r < t.stop v → ∀ a, Near kf (some (feat r a)) (featR r a)
  meas : ∀ v < t.numCols, ∀ a, Near km (some (meas v a)) (measR v a)

theorem near_of_bounds {lo hi : Int} {x : Flt} (h1 : FLe hi x) (h2 : FGe lo x) : Near 0 x ((x.getD 0 : ℚ) : ℝ) := by
  obtain ⟨q, rfl, h3, -, -⟩ := h1
  obtain ⟨q', e, h4⟩ := h2
  obtain rfl := Option.some.inj e
  exact near_self h3 (lt_of_lt_of_le (two_zpow_pos _) h4)

theorem FGe.of_div {rnd : ℚ → ℚ} (R : MonoRounding 24 (-149) rnd) {lo b : Int} {x : Flt} {r : ℚ} (hlo : -149 ≤ lo - 1) (h : FGe lo (Flt.div rnd x (some r))) (hr : 2 ^ b ≤ r) :
    FGe (lo - 1 + b) x := by
  obtain ⟨q, h1, h2⟩ := h
  have hr0 : 0 < r := lt_of_lt_of_le (two_zpow_pos _) hr
  cases x with
  | none => simp [Flt.div] at h1
  | some p =>
    have e : Flt.div rnd (some p) (some r) = some (rnd (p / r)) := by simp [Flt.div, hr0.ne']
    rw [e] at h1
    obtain rfl := Option.some.inj h1
    refine ⟨p, rfl, ?_⟩
    have h3 : (2 : ℚ) ^ (lo - 1) ≤ p / r := by
      by_contra hcon
      have h4 := R.le_of (isFloat_pow hlo) (not_le.1 hcon).le
      have : (2 : ℚ) ^ (lo - 1) < 2 ^ lo := zpow_lt_zpow_right₀ (by norm_num) (by omega)
      linarith
    rw [le_div_iff₀ hr0] at h3
    refine le_trans ?_ h3
    rw [zpow_split]
    exact mul_le_mul_of_nonneg_left hr (two_zpow_pos _).le

section
set_option linter.unusedSectionVars false
variable {M : Nat} [NeZero M] {A : FloatOps M} {t : Table} {row E : Nat} {vert : Nat → Fin M → ℚ} {edge : Nat → Fin M → Fin M → ℚ}
  {feat meas : Nat → Fin M → ℚ} {edgeR : Nat → Fin M → Fin M → ℝ} {featR measR : Nat → Fin M → ℝ} {ke kf km : Nat}
  {r : Nat} {par : Nat → Nat} {ch : Nat → List Nat} {L : List Nat} {eid : Nat → Nat}

/-- The messages as reals. -/
def realMsg (s : FloatRow M) (v : Nat) (a : Fin M) : ℝ := ((s.messages v a).getD 0 : ℚ)

theorem realMsg_congr {s s' : FloatRow M} {v : Nat} (h : s.messages v = s'.messages v) : realMsg s v = realMsg s' v := by
  funext a
  unfold realMsg
  rw [h]

/-! ### One cell -/

theorem foldl_single {σ : Type} (f : Nat → σ → σ) (cnt : Nat → Nat) (l : List Nat) (s : σ) :
    ((∀ c ∈ l, cnt c = 0) → l.foldl (fun s c => (List.range (cnt c)).foldl (fun s _ => f c s) s) s = s) ∧
    ∀ c ∈ l, cnt c = 1 → l.Nodup → (∀ d ∈ l, d ≠ c → cnt d = 0) → l.foldl (fun s c => (List.range (cnt c)).foldl (fun s _ => f c s) s) s = f c s := by
  induction l generalizing s with
  | nil => exact ⟨fun _ => rfl, fun c hc => by simp at hc⟩
  | cons x l ih =>
    refine ⟨fun h => ?_, fun c hc h1 hnd h0 => ?_⟩
    · simp only [List.foldl_cons, h x List.mem_cons_self, List.range_zero, List.foldl_nil]
      exact (ih s).1 fun c hc => h c (List.mem_cons_of_mem _ hc)
    · rw [List.nodup_cons] at hnd
      by_cases hcx : c = x
      · subst hcx
        simp only [List.foldl_cons, h1, List.range_one, List.foldl_nil]
        exact (ih _).1 fun d hd => h0 d (List.mem_cons_of_mem _ hd) fun e => hnd.1 (e ▸ hd)
      · have hcl : c ∈ l := (List.mem_cons.1 hc).resolve_left hcx
        simp only [List.foldl_cons, h0 x List.mem_cons_self (Ne.symm hcx), List.range_zero, List.foldl_nil]
        exact (ih s).2 c hcl h1 hnd.2 fun d hd => h0 d (List.mem_cons_of_mem _ hd)

/-- A cell has no observation, and its factor is one, or it has one observation. -/
theorem floatAddCell_factor (A : FloatOps M) {v : Nat} (hm : t.featureTypes.getD v 0 = tyMultinomial) (hrow : Spec.Categorical t row) (hv : v < t.numCols) (s : FloatRow M)
    (featR measR : Nat → Fin M → ℝ) :
    (floatAddCell A t row v s = .ok s ∧ ∀ a, cellFactor t row featR measR v a = 1) ∨
      ∃ r, t.beg v ≤ r ∧ r < t.stop v ∧ floatAddCell A t row v s = .ok (floatAddOne A v r s) ∧ ∀ a, cellFactor t row featR measR v a = featR r a / measR v a := by
  set cnt : Nat → Nat := fun c => (t.cell row (t.beg v + c)).toNat with hcnt
  have hsum : ∑ c ∈ Finset.range (t.stop v - t.beg v), cnt c ≤ 1 := by
    have h1 := hrow.2 v hv
    have key : ∀ l : List Nat, (((l.map cnt).sum : Nat) : Int) = (l.map fun c => t.cell row (t.beg v + c)).sum := by
      intro l
      induction l with
      | nil => rfl
      | cons c l ih =>
        simp only [List.map_cons, List.sum_cons]
        rw [Nat.cast_add, ih, hcnt]
        simp only [Int.toNat_of_nonneg (hrow.1 _)]
    have h2 := key (List.range (t.stop v - t.beg v))
    have h3 : ((List.range (t.stop v - t.beg v)).map cnt).sum = ∑ c ∈ Finset.range (t.stop v - t.beg v), cnt c := by
      rw [← List.toFinset_range, List.sum_toFinset _ List.nodup_range]
    unfold Table.blockSum at h1
    omega
  unfold floatAddCell
  rw [if_pos hm]
  obtain ⟨f0, f1⟩ := foldl_single (fun c s => floatAddOne A v (t.beg v + c) s) cnt (List.range (t.stop v - t.beg v)) s
  by_cases hz : ∀ c ∈ List.range (t.stop v - t.beg v), cnt c = 0
  · left
    refine ⟨by rw [f0 hz], fun a => ?_⟩
    unfold cellFactor
    have h0 : ∀ c ∈ Finset.range (t.stop v - t.beg v), cnt c = 0 := fun c hc => hz c (List.mem_range.2 (Finset.mem_range.1 hc))
    rw [Finset.prod_eq_one fun c hc => ?_, Finset.sum_eq_zero h0, rise_zero, div_one]
    show rise _ (cnt c) = 1
    rw [h0 c hc, rise_zero]
  · right
    push Not at hz
    obtain ⟨c, hc, hne⟩ := hz
    have hc' : c ∈ Finset.range (t.stop v - t.beg v) := Finset.mem_range.2 (List.mem_range.1 hc)
    have hone : cnt c = 1 := by
      have := Finset.single_le_sum (f := cnt) (fun _ _ => Nat.zero_le _) hc'
      omega
    have hzero : ∀ d ∈ Finset.range (t.stop v - t.beg v), d ≠ c → cnt d = 0 := by
      intro d hd hdc
      have := Finset.sum_le_sum_of_subset (f := cnt) (s := {c, d}) (t := Finset.range (t.stop v - t.beg v)) (by
        intro x hx
        rcases Finset.mem_insert.1 hx with rfl | hx
        · exact hc'
        · rw [Finset.mem_singleton.1 hx]; exact hd)
      rw [Finset.sum_pair (Ne.symm hdc)] at this
      omega
    refine ⟨t.beg v + c, by omega, by have := List.mem_range.1 hc; omega, ?_, fun a => ?_⟩
    · rw [f1 c hc hone List.nodup_range fun d hd hdc => hzero d (Finset.mem_range.2 (List.mem_range.1 hd)) hdc]
    · unfold cellFactor
      have e1 : ∏ d ∈ Finset.range (t.stop v - t.beg v), rise (featR (t.beg v + d) a) (cnt d) = featR (t.beg v + c) a := by
        rw [Finset.prod_eq_single_of_mem c hc' fun d hd hdc => by rw [hzero d hd hdc, rise_zero], hone]
        simp [rise]
      have e2 : ∑ d ∈ Finset.range (t.stop v - t.beg v), cnt d = 1 := by
        rw [Finset.sum_eq_single_of_mem c hc' fun d hd hdc => hzero d hd hdc, hone]
      rw [e1, e2]
      simp [rise]

/-- The UP instruction. -/
theorem up_near (O : Spec.OpsOk A) (S : Spec.FloatStats t E vert edge feat meas) (Nr : RowNear t E edge feat meas edgeR featR measR ke kf km) (ht : Table.Ordered t)
    (hrow : Spec.Categorical t row) {U : List Nat} {s : FloatRow M} (I : RowInv t feat meas U [] s) {v : Nat} (hv : v < t.numCols) (hm : t.featureTypes.getD v 0 = tyMultinomial)
    (hU : v ∉ U) (hs : ∀ a, s.messages v a = some (vert v a)) :
    ∃ s', floatAddCell A t row v s = .ok s' ∧ RowInv t feat meas (v :: U) [] s' ∧ s'.assign = s.assign ∧ (∀ w, w ≠ v → s'.messages w = s.messages w) ∧
      (∀ a, FGe (-34) (s'.messages v a)) ∧ ∀ a, Close (kf + km + 2) (realMsg s' v a) (vert v a * cellFactor t row featR measR v a) := by
  obtain ⟨s', h1, h2⟩ := rowInv_up O S ht hrow I hv hm hU (by simp)
  refine ⟨s', h1, h2, ?_⟩
  have hvl : ∀ a, (2 : ℚ) ^ (-1 : Int) ≤ vert v a := fun a => by rw [two_neg_one]; exact (S.vert v hv a).2.1
  have hv0 : ∀ a, 0 < vert v a := fun a => lt_of_lt_of_le (two_zpow_pos _) (hvl a)
  have hge : ∀ a, FGe (-1) (s.messages v a) := fun a => ⟨vert v a, hs a, hvl a⟩
  have hnear : ∀ a, Near 0 (s.messages v a) (vert v a) := fun a => by rw [hs a]; exact near_self (S.vert v hv a).1 (hv0 a)
  rcases floatAddCell_factor A hm hrow hv s featR measR with ⟨h3, h4⟩ | ⟨q, h3, h4, h5, h6⟩
  · rw [h1] at h3
    obtain rfl := Except.ok.inj h3
    refine ⟨rfl, fun _ _ => rfl, fun a => (hge a).weaken (by norm_num), fun a => ?_⟩
    rw [h4 a, mul_one]
    exact (hnear a).close.mono (by omega)
  · rw [h1] at h5
    obtain rfl := Except.ok.inj h5
    have hne : ∀ w, w ≠ v → (floatAddOne A v q s).messages w = s.messages w := fun w hw => Function.update_of_ne hw _ _
    have heq : ∀ a, (floatAddOne A v q s).messages v a = Flt.div A.rnd (Flt.mul A.rnd (s.messages v a) (some (feat q a))) (some (meas v a)) := by
      intro a
      obtain ⟨hc1, hc2⟩ := I.cells v hv hU
      show Function.update s.messages v _ v a = _
      rw [Function.update_self, hc1 q h3 h4 a, hc2 a]
    have hg1 : ∀ a, FGe (-10) (Flt.mul A.rnd (s.messages v a) (some (feat q a))) := fun a =>
      FGe.weaken (by norm_num) (FGe.mul O.rnd (hge a) (b := -9) ⟨feat q a, rfl, two_neg_nine ▸ (S.feat v hv q h3 h4 a).2.1⟩ (by norm_num))
    have hm0 : ∀ a, 0 < meas v a := fun a => by
      have := (S.feat v hv q h3 h4 a).2
      linarith [this.1, this.2]
    have hg2 : ∀ a, FGe (-34) (Flt.div A.rnd (Flt.mul A.rnd (s.messages v a) (some (feat q a))) (some (meas v a))) := fun a =>
      FGe.div O.rnd (hg1 a) (hm0 a) (b := 24) (by rw [two_twentyfour]; exact (S.meas v hv a).2) (by norm_num)
    refine ⟨rfl, hne, fun a => by rw [heq a]; exact hg2 a, fun a => ?_⟩
    have h7 := (hnear a).mul O.rnd (Nr.feat v hv q h3 h4 a) ((hg1 a).weaken (by norm_num))
    have h8 := (h7.div O.rnd (Nr.meas v hv a) ((hg2 a).weaken (by norm_num))).close
    unfold realMsg
    rw [heq a, h6 a, ← mul_div_assoc]
    exact h8.mono (by omega)

/-! ### Messages from children -/

/-- The IN instruction. -/
theorem in_near (O : Spec.OpsOk A) (N : Spec.DotNear A.dot) (S : Spec.FloatStats t E vert edge feat meas) (Nr : RowNear t E edge feat meas edgeR featR measR ke kf km)
    {s : FloatRow M} {v c : Nat} (hv : v < t.numCols) (hc : c < t.numCols) (he : eid c < E) (hcr : c ≠ r) (hpar : par c = v) (hle : ∀ w < t.numCols, ∀ a, FLe 25 (s.messages w a))
    (hgv : ∀ a, FGe (-85) (s.messages v a)) (hgc : ∀ a, FGe (-85) (s.messages c a)) (hc1 : ∀ a, FGe (-85) (floatInMsg A vert edge v c (eid c) s a))
    (hc2 : ∀ a, FGe (-85) ((floatIn A vert edge v c (eid c) s).messages v a)) :
    ∃ γ : ℝ, 0 < γ ∧ ∀ a, Close (ke + M + 5) (realMsg (floatIn A vert edge v c (eid c) s) v a)
      (γ * (realMsg s v a * mu (rowPsi r par eid (fun v a => (vert v a : ℝ)) edgeR) (realMsg s) c a)) := by
  have hvl : ∀ w < t.numCols, ∀ a, (2 : ℚ) ^ (-1 : Int) ≤ vert w a := fun w hw a => by rw [two_neg_one]; exact (S.vert w hw a).2.1
  have hvu : ∀ w < t.numCols, ∀ a, vert w a ≤ (2 : ℚ) ^ (24 : Int) := fun w hw a => by rw [two_twentyfour]; exact (S.vert w hw a).2.2
  have hv0 : ∀ w < t.numCols, ∀ a, 0 < vert w a := fun w hw a => lt_of_lt_of_le (two_zpow_pos _) (hvl w hw a)
  have hvn : ∀ w < t.numCols, ∀ a, Near 0 (some (vert w a)) (vert w a) := fun w hw a => near_self (S.vert w hw a).1 (hv0 w hw a)
  have n1 : ∀ b, FGe (-109) (Flt.div A.rnd (s.messages c b) (some (vert c b))) := fun b => FGe.div O.rnd (hgc b) (hv0 c hc b) (hvu c hc b) (by norm_num)
  have n2 : ∀ b, Near (0 + 0 + 1) (Flt.div A.rnd (s.messages c b) (some (vert c b))) (realMsg s c b / vert c b) := fun b =>
    (near_of_bounds (hle c hc b) (hgc b)).div O.rnd (hvn c hc b) ((n1 b).weaken (by norm_num))
  have n3 : ∀ a b, Near ke (fltTrans edge (eid c) v c a b) (transAt edgeR (eid c) v c a b) := by
    intro a b
    unfold fltTrans transAt
    split
    · exact Nr.edge _ he b a
    · exact Nr.edge _ he a b
  have n4 : ∀ a b, FGe (-9) (fltTrans edge (eid c) v c a b) := by
    intro a b
    refine ⟨_, rfl, ?_⟩
    rw [two_neg_nine]
    split
    · exact (S.edge _ he b a).2.1
    · exact (S.edge _ he a b).2.1
  have n5 := fun a => Near.dot O.dot N (n3 a) n2 (by norm_num) (n4 a) n1
  have n6 : ∀ a, FGe (-87) (Flt.mul A.rnd (s.messages v a) (A.dot (fltTrans edge (eid c) v c a) fun b => Flt.div A.rnd (s.messages c b) (some (vert c b)))) := fun a =>
    FGe.of_div O.rnd (by norm_num) (hc1 a) (hvl v hv a)
  have n7 := fun a => ((near_of_bounds (hle v hv a) (hgv a)).mul O.rnd (n5 a) ((n6 a).weaken (by norm_num))).div O.rnd (hvn v hv a) ((hc1 a).weaken (by norm_num))
  choose g hg using fun a => n7 a
  obtain ⟨m, hm1, hm2, a0, hm3⟩ := fltMax_spec (f := floatInMsg A vert edge v c (eid c) s) (g := g) fun a => (hg a).1
  have hm : Near 0 (fltMax (floatInMsg A vert edge v c (eid c) s)) (m : ℝ) := by
    rw [hm1, hm3]
    exact near_self (hg a0).2.1 (hg a0).2.2.1
  have heq : ∀ a, (floatIn A vert edge v c (eid c) s).messages v a = Flt.div A.rnd (floatInMsg A vert edge v c (eid c) s a) (fltMax (floatInMsg A vert edge v c (eid c) s)) := by
    intro a
    show Function.update s.messages v _ v a = _
    rw [Function.update_self]
  have hm0 : (0 : ℝ) < m := hm.pos
  refine ⟨1 / m, by positivity, fun a => ?_⟩
  have n8 : Near _ (Flt.div A.rnd (floatInMsg A vert edge v c (eid c) s a) (fltMax (floatInMsg A vert edge v c (eid c) s))) _ :=
    (n7 a).div O.rnd hm (by have := hc2 a; rw [heq a] at this; exact this.weaken (by norm_num))
  have n9 := n8.close
  have e : (1 : ℝ) / m * (realMsg s v a * mu (rowPsi r par eid (fun v a => (vert v a : ℝ)) edgeR) (realMsg s) c a)
      = realMsg s v a * (∑ b, transAt edgeR (eid c) v c a b * (realMsg s c b / vert c b)) / vert v a / m := by
    have h1 : mu (rowPsi r par eid (fun v a => (vert v a : ℝ)) edgeR) (realMsg s) c a = (∑ b, transAt edgeR (eid c) v c a b * (realMsg s c b / vert c b)) / vert v a := by
      unfold mu
      rw [Finset.sum_div]
      refine Finset.sum_congr rfl fun b _ => ?_
      have h2 : (vert v a : ℝ) ≠ 0 := by exact_mod_cast (hv0 v hv a).ne'
      have h3 : (vert c b : ℝ) ≠ 0 := by exact_mod_cast (hv0 c hc b).ne'
      simp only [rowPsi, if_neg hcr, hpar]
      field_simp
    rw [h1]
    field_simp
  rw [e]
  unfold realMsg at n9 ⊢
  rw [heq a]
  exact n9.mono (by omega)

theorem rowClear_in {v c e : Nat} {Q : List Instr} {s : FloatRow M} (h : Spec.rowClear A t row vert edge (⟨.IN, v, c, e⟩ :: Q) s = true) :
    (∀ a, FGe (-85) (floatInMsg A vert edge v c e s a)) ∧ (∀ a, FGe (-85) ((floatIn A vert edge v c e s).messages v a)) ∧
      Spec.rowClear A t row vert edge Q (floatIn A vert edge v c e s) = true := by
  have h0 : ((List.finRange M).all (fun a => fltGe (-85) (floatInMsg A vert edge v c e s a)) &&
        (List.finRange M).all (fun a => fltGe (-85) ((floatIn A vert edge v c e s).messages v a)) && Spec.rowClear A t row vert edge Q (floatIn A vert edge v c e s)) = true := h
  rw [Bool.and_eq_true, Bool.and_eq_true, List.all_eq_true, List.all_eq_true] at h0
  exact ⟨fun a => fltGe_iff.1 (h0.1.1 a (List.mem_finRange a)), fun a => fltGe_iff.1 (h0.1.2 a (List.mem_finRange a)), h0.2⟩

/-- The IN instructions of one vertex. -/
theorem ins_near (O : Spec.OpsOk A) (N : Spec.DotNear A.dot) (hM : M ≤ 128) (S : Spec.FloatStats t E vert edge feat meas) (Nr : RowNear t E edge feat meas edgeR featR measR ke kf km)
    (draw : Nat → ℚ) {v : Nat} (hv : v < t.numCols) (Q : List Instr) : ∀ (cs : List Nat), (∀ c ∈ cs, c < t.numCols ∧ eid c < E ∧ c ≠ r ∧ par c = v ∧ c ≠ v) →
    ∀ {U : List Nat} {s : FloatRow M}, RowInv t feat meas U [] s → (∀ a, FGe (-85) (s.messages v a)) → (∀ c ∈ cs, ∀ a, FGe (-85) (s.messages c a)) →
    Spec.rowClear A t row vert edge (cs.map (fun c => (⟨.IN, v, c, eid c⟩ : Instr)) ++ Q) s = true →
    ∃ s', (cs.map fun c => (⟨.IN, v, c, eid c⟩ : Instr)).foldlM (floatRowStep A t row vert edge draw) s = .ok s' ∧ Spec.rowClear A t row vert edge Q s' = true ∧
      RowInv t feat meas U [] s' ∧ s'.assign = s.assign ∧ (∀ w, w ≠ v → s'.messages w = s.messages w) ∧ (∀ a, FGe (-85) (s'.messages v a)) ∧
      ∃ γ : ℝ, 0 < γ ∧ ∀ a, Close (cs.length * (ke + M + 5)) (realMsg s' v a)
        (γ * (realMsg s v a * (cs.map fun c => mu (rowPsi r par eid (fun v a => (vert v a : ℝ)) edgeR) (realMsg s) c a).prod)) := by
  intro cs
  induction cs with
  | nil =>
    intro _ U s I hg _ hcl
    refine ⟨s, rfl, hcl, I, rfl, fun _ _ => rfl, hg, 1, one_pos, fun a => ?_⟩
    have h1 := (near_of_bounds ((I.updated v hv (by simp)).1 a) (hg a)).close
    simpa [realMsg] using h1
  | cons c cs ih =>
    intro hcs U s I hg hgc hcl
    obtain ⟨c1, c2, c3, c4, c5⟩ := hcs c List.mem_cons_self
    obtain ⟨k1, k2, k3⟩ := rowClear_in hcl
    have I' := rowInv_in O hM S I hv c1 c2 (by simp) (by simp)
    have hne : ∀ w, w ≠ v → (floatIn A vert edge v c (eid c) s).messages w = s.messages w := fun w hw => Function.update_of_ne hw _ _
    obtain ⟨γ, hγ, h1⟩ := in_near O N S Nr hv c1 c2 c3 c4 (fun w hw a => (I.updated w hw (by simp)).1 a) hg (hgc c List.mem_cons_self) k1 k2
    obtain ⟨s', e1, e2, e3, e4, e5, e6, γ', hγ', e7⟩ := ih (fun d hd => hcs d (List.mem_cons_of_mem _ hd)) I' k2
      (fun d hd a => by rw [hne d (hcs d (List.mem_cons_of_mem _ hd)).2.2.2.2]; exact hgc d (List.mem_cons_of_mem _ hd) a) k3
    refine ⟨s', ?_, e2, e3, e4, fun w hw => by rw [e5 w hw, hne w hw], e6, γ' * γ, mul_pos hγ' hγ, fun a => ?_⟩
    · rw [List.map_cons, List.foldlM_cons]
      exact e1
    · have hmu : ∀ d ∈ cs, mu (rowPsi r par eid (fun v a => (vert v a : ℝ)) edgeR) (realMsg (floatIn A vert edge v c (eid c) s)) d a
          = mu (rowPsi r par eid (fun v a => (vert v a : ℝ)) edgeR) (realMsg s) d a := by
        intro d hd
        unfold mu
        rw [realMsg_congr (hne d (hcs d (List.mem_cons_of_mem _ hd)).2.2.2.2)]
      have e8 := e7 a
      rw [List.map_congr_left hmu] at e8
      have hpos : 0 < (cs.map fun d => mu (rowPsi r par eid (fun v a => (vert v a : ℝ)) edgeR) (realMsg s) d a).prod := by
        have := e8.2.1
        rw [mul_pos_iff_of_pos_left hγ'] at this
        exact (pos_iff_pos_of_mul_pos this).1 (h1 a).1
      have e9 := ((h1 a).scale hpos).scale hγ'
      have e10 := e8.trans (by
        rw [show γ' * (realMsg (floatIn A vert edge v c (eid c) s) v a * (cs.map fun d => mu (rowPsi r par eid (fun v a => (vert v a : ℝ)) edgeR) (realMsg s) d a).prod)
          = realMsg (floatIn A vert edge v c (eid c) s) v a * (cs.map fun d => mu (rowPsi r par eid (fun v a => (vert v a : ℝ)) edgeR) (realMsg s) d a).prod * γ' by ring]
        exact e9)
      rw [List.length_cons, Nat.add_mul, Nat.one_mul]
      rw [List.map_cons, List.prod_cons]
      convert e10 using 1
      ring

/-! ### The inward phase -/

theorem rowClear_up {v : Nat} {Q : List Instr} {s s' : FloatRow M} (h : Spec.rowClear A t row vert edge (⟨.UP, v, 0, 0⟩ :: Q) s = true) (h' : floatAddCell A t row v s = .ok s') :
    Spec.rowClear A t row vert edge Q s' = true := by
  simp only [Spec.rowClear, h'] at h
  exact h

/-- The inward phase: the final messages satisfy the local equations up to roundings. -/
theorem inward_near (O : Spec.OpsOk A) (N : Spec.DotNear A.dot) (hM : M ≤ 128) (S : Spec.FloatStats t E vert edge feat meas) (Nr : RowNear t E edge feat meas edgeR featR measR ke kf km)
    (ht : Table.Ordered t) (hrow : Spec.Categorical t row) (hm : ∀ v < t.numCols, t.featureTypes.getD v 0 = tyMultinomial) (T : Topo t.numCols r par ch L)
    (heid : ∀ v < t.numCols, v ≠ r → eid v < E) (assign : Nat → Fin M) (draw : Nat → ℚ) (tail : List Instr)
    (hcl : Spec.rowClear A t row vert edge (L.reverse.flatMap (inBlock ch eid) ++ tail) (floatRowInit vert feat meas assign) = true) :
    ∃ s, (L.reverse.flatMap (inBlock ch eid)).foldlM (floatRowStep A t row vert edge draw) (floatRowInit vert feat meas assign) = .ok s ∧ s.assign = assign ∧
      (∀ v < t.numCols, Msg (-34) 25 (s.messages v)) ∧ (∀ v < t.numCols, ∀ a, FGe (-85) (s.messages v a)) ∧
      ∀ v < t.numCols, ∃ γ : ℝ, 0 < γ ∧ ∀ a, Close (kf + km + 2 + (ch v).length * (ke + M + 5)) (realMsg s v a)
        (γ * (vert v a * cellFactor t row featR measR v a * ((ch v).map fun c => mu (rowPsi r par eid (fun v a => (vert v a : ℝ)) edgeR) (realMsg s) c a).prod)) := by
  have key : ∀ B C, L = C ++ B → ∃ s, (B.reverse.flatMap (inBlock ch eid)).foldlM (floatRowStep A t row vert edge draw) (floatRowInit vert feat meas assign) = .ok s ∧
      Spec.rowClear A t row vert edge (C.reverse.flatMap (inBlock ch eid) ++ tail) s = true ∧ s.assign = assign ∧ RowInv t feat meas B [] s ∧
      (∀ v ∈ C, ∀ a, s.messages v a = some (vert v a)) ∧ (∀ v ∈ B, ∀ a, FGe (-85) (s.messages v a)) ∧
      ∀ v ∈ B, ∃ γ : ℝ, 0 < γ ∧ ∀ a, Close (kf + km + 2 + (ch v).length * (ke + M + 5)) (realMsg s v a)
        (γ * (vert v a * cellFactor t row featR measR v a * ((ch v).map fun c => mu (rowPsi r par eid (fun v a => (vert v a : ℝ)) edgeR) (realMsg s) c a).prod)) := by
    intro B
    induction B with
    | nil =>
      intro C hL
      rw [List.append_nil] at hL
      subst hL
      exact ⟨_, rfl, hcl, rfl, rowInv_init S assign, fun v _ a => rfl, by simp, by simp⟩
    | cons x B ih =>
      intro C hL
      obtain ⟨s1, h1, h2, h3, h4, h5, h6, h7⟩ := ih (C ++ [x]) (by rw [hL]; simp)
      have hn := T.nodup
      rw [hL, List.nodup_append, List.nodup_cons] at hn
      have hxV : x < t.numCols := T.mem.1 (by rw [hL]; simp)
      have hxB : x ∉ B := hn.2.1.1
      have hchx : ∀ c ∈ ch x, c < t.numCols ∧ c ≠ r ∧ par c = x ∧ c ∈ B := by
        intro c hc
        obtain ⟨a1, a2, a3⟩ := (T.ch_mem x hxV c).1 hc
        refine ⟨a1, a2, a3, ?_⟩
        have hcL : c ∈ L := T.mem.2 a1
        rw [hL, List.mem_append, List.mem_cons] at hcL
        rcases hcL with hcC | rfl | hcB
        · exfalso
          obtain ⟨C1, C2, hC⟩ := List.append_of_mem hcC
          have := T.before C1 c (C2 ++ x :: B) (by rw [hL, hC]; simp) a2
          rw [a3] at this
          exact hn.2.2 x (by rw [hC]; simp [this]) x (by simp) rfl
        · exfalso
          have := T.before C c B hL a2
          rw [a3] at this
          exact hn.2.2 c this c (by simp) rfl
        · exact hcB
      have hBch : ∀ v ∈ B, ∀ c ∈ ch v, c ≠ x := by
        intro v hv c hc hcx
        subst hcx
        obtain ⟨a1, a2, a3⟩ := (T.ch_mem v (T.mem.1 (by rw [hL]; simp [hv])) c).1 hc
        have := T.before C c B hL a2
        rw [a3] at this
        exact hn.2.2 v this v (by simp [hv]) rfl
      rw [List.reverse_append, List.reverse_singleton, List.singleton_append, List.flatMap_cons] at h2
      have h2' : Spec.rowClear A t row vert edge (⟨.UP, x, 0, 0⟩ :: ((ch x).map (fun c => (⟨.IN, x, c, eid c⟩ : Instr)) ++ (C.reverse.flatMap (inBlock ch eid) ++ tail))) s1 = true := by
        rw [← h2]
        unfold inBlock
        simp
      obtain ⟨s2, u1, u2, u3, u4, u5, u6⟩ := up_near O S Nr ht hrow h4 hxV (hm x hxV) hxB (h5 x (by simp))
      have hcl2 := rowClear_up h2' u1
      obtain ⟨s3, i1, i2, i3, i4, i5, i6, γ, hγ, i7⟩ := ins_near O N hM S Nr draw hxV _ (ch x)
        (fun c hc => ⟨(hchx c hc).1, heid c (hchx c hc).1 (hchx c hc).2.1, (hchx c hc).2.1, (hchx c hc).2.2.1, fun e => hxB (e ▸ (hchx c hc).2.2.2)⟩) u2
        (fun a => (u5 a).weaken (by norm_num))
        (fun c hc a => by rw [u4 c fun e => hxB (e ▸ (hchx c hc).2.2.2)]; exact h6 c (hchx c hc).2.2.2 a) hcl2
      have hne : ∀ w, w ≠ x → s3.messages w = s1.messages w := fun w hw => by rw [i5 w hw, u4 w hw]
      have hmu : ∀ c, c ≠ x → ∀ a, mu (rowPsi r par eid (fun v a => (vert v a : ℝ)) edgeR) (realMsg s3) c a = mu (rowPsi r par eid (fun v a => (vert v a : ℝ)) edgeR) (realMsg s1) c a := by
        intro c hc a
        unfold mu
        rw [realMsg_congr (hne c hc)]
      refine ⟨s3, ?_, i2, by rw [i4, u3, h3], i3, ?_, ?_, ?_⟩
      · rw [List.reverse_cons, List.flatMap_append, List.foldlM_append, h1]
        show ([x].flatMap (inBlock ch eid)).foldlM (floatRowStep A t row vert edge draw) s1 = _
        rw [List.flatMap_singleton]
        unfold inBlock
        rw [List.foldlM_cons]
        show (floatAddCell A t row x s1 >>= _) = _
        rw [u1]
        exact i1
      · intro v hv a
        have hvx : v ≠ x := fun e => hn.2.2 v hv x (by simp) e
        rw [hne v hvx]
        exact h5 v (by simp [hv]) a
      · intro v hv a
        by_cases hvx : v = x
        · subst hvx; exact i6 a
        · rw [hne v hvx]
          exact h6 v ((List.mem_cons.1 hv).resolve_left hvx) a
      · intro v hv
        by_cases hvx : v = x
        · subst hvx
          refine ⟨γ, hγ, fun a => ?_⟩
          have e1 := i7 a
          have hmu2 : ∀ c ∈ ch v, mu (rowPsi r par eid (fun v a => (vert v a : ℝ)) edgeR) (realMsg s2) c a = mu (rowPsi r par eid (fun v a => (vert v a : ℝ)) edgeR) (realMsg s3) c a := by
            intro c hc
            have hcv : c ≠ v := fun e => hxB (e ▸ (hchx c hc).2.2.2)
            unfold mu
            rw [realMsg_congr (i5 c hcv)]
          rw [List.map_congr_left hmu2] at e1
          set P := ((ch v).map fun c => mu (rowPsi r par eid (fun v a => (vert v a : ℝ)) edgeR) (realMsg s3) c a).prod with hP
          have hpos : 0 < P := by
            have := e1.2.1
            rw [mul_pos_iff_of_pos_left hγ] at this
            exact (pos_iff_pos_of_mul_pos this).1 (u6 a).1
          have e2 := ((u6 a).scale hpos).scale hγ
          rw [show realMsg s2 v a * P * γ = γ * (realMsg s2 v a * P) by ring, mul_comm _ γ] at e2
          exact (e1.trans e2).mono (by omega)
        · obtain ⟨γ', hγ', h8⟩ := h7 v ((List.mem_cons.1 hv).resolve_left hvx)
          refine ⟨γ', hγ', fun a => ?_⟩
          have e1 := h8 a
          rw [List.map_congr_left fun c hc => hmu c (hBch v ((List.mem_cons.1 hv).resolve_left hvx) c hc) a, realMsg_congr (hne v hvx)]
          exact e1
  obtain ⟨s, h1, -, h3, h4, -, h6, h7⟩ := key L [] rfl
  exact ⟨s, h1, h3, fun v hv => h4.updated v hv (by simp), fun v hv => h6 v (T.mem.2 hv), fun v hv => h7 v (T.mem.2 hv)⟩

end

end TreeCat
