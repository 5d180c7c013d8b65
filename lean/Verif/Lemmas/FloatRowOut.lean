import Verif.Lemmas.FloatRowNear

/-! # The draws of a row in float32 -/

namespace TreeCat

open Util Spec
open scoped BigOperators

/-! ### Inexact messages -/

/-- Draws from messages that satisfy the local equations up to roundings have almost the law of the tree. -/
theorem chain_perturb {M V : Nat} [NeZero M] {r : Nat} {par : Nat → Nat} {ch : Nat → List Nat} {L : List Nat} (T : Topo V r par ch L) {g φ : Nat → Fin M → ℝ} {ψ : Nat → Fin M → Fin M → ℝ}
    (hg : ∀ v < V, ∀ a, 0 < g v a) (hψ : ∀ v < V, ∀ a b, 0 < ψ v a b) {κ : Nat → Nat}
    (hκ : ∀ v < V, ∃ γ : ℝ, 0 < γ ∧ ∀ a, Close (κ v) (g v a) (γ * (φ v a * ((ch v).map fun c => mu ψ g c a).prod)))
    {w : Nat → (Nat → Fin M) → Fin M → ℝ} (hw : ∀ v < V, ∀ z m, w v z m / ∑ m', w v z m' = condProb r par ψ g v (Function.update z v m))
    {k : (Nat → Fin M) → ℝ} {lo hi : ℝ} (hk : ∀ z, lo ≤ k z ∧ k z ≤ hi) (z0 : Nat → Fin M) :
    |chain w L z0 k - (∑ z : Fin V → Fin M, treeWeight r par L φ ψ (overlay z0 z) * k (overlay z0 z)) / ∑ z : Fin V → Fin M, treeWeight r par L φ ψ (overlay z0 z)|
      ≤ 2 * ((L.map κ).sum : Nat) * 2 ^ (-23 : Int) * (hi - lo) := by
  have hch : ∀ v < V, ∀ c ∈ ch v, c < V := fun v hv c hc => ((T.ch_mem v hv c).1 hc).1
  have hmu : ∀ v < V, ∀ a, 0 < mu ψ g v a := fun v hv a => mu_pos (hψ v hv) (hg v hv) a
  set P : Nat → Fin M → ℝ := fun v a => ((ch v).map fun c => mu ψ g c a).prod with hP
  have hP0 : ∀ v < V, ∀ a, 0 < P v a := fun v hv a => List.prod_pos fun x hx => by
    obtain ⟨c, hc, rfl⟩ := List.mem_map.1 hx
    exact hmu c (hch v hv c hc) a
  have hγ : ∃ γ : Nat → ℝ, ∀ v < V, 0 < γ v ∧ ∀ a, Close (κ v) (g v a) (γ v * (φ v a * P v a)) := by
    refine ⟨fun v => if h : v < V then (hκ v h).choose else 1, fun v hv => ?_⟩
    simp only [dif_pos hv]
    exact (hκ v hv).choose_spec
  obtain ⟨γ, hγ⟩ := hγ
  have hlaw := chain_law T (φ := fun v a => g v a / P v a) (ψ := ψ) (b := g) (S := fun _ => 1)
    (fun v hv a => by rw [one_mul, div_mul_cancel₀ _ (hP0 v hv a).ne']) (fun v hv a => (hmu v hv a).ne')
    (Finset.sum_pos (fun a _ => hg r T.root_lt a) ⟨0, Finset.mem_univ _⟩).ne' (fun v _ => one_ne_zero) hw k z0
  rw [hlaw]
  set Γ : ℝ := (L.map γ).prod with hΓ
  have hΓ0 : 0 < Γ := List.prod_pos fun x hx => by
    obtain ⟨v, hv, rfl⟩ := List.mem_map.1 hx
    exact (hγ v (T.mem.1 hv)).1
  have hclose : ∀ z : Nat → Fin M, Close (L.map κ).sum (treeWeight r par L (fun v a => g v a / P v a) ψ z) (Γ * treeWeight r par L φ ψ z) := by
    intro z
    have h1 : ∀ v ∈ L, Close (κ v) (g v (z v) / P v (z v)) (γ v * φ v (z v)) := by
      intro v hv
      have hvV := T.mem.1 hv
      have := ((hγ v hvV).2 (z v)).div (hP0 v hvV (z v))
      rwa [← mul_assoc, mul_div_assoc, div_self (hP0 v hvV (z v)).ne', mul_one] at this
    have h2 := Close.prod h1
    have h3 : 0 < ((L.filter (· ≠ r)).map fun v => ψ v (z (par v)) (z v)).prod := List.prod_pos fun x hx => by
      obtain ⟨v, hv, rfl⟩ := List.mem_map.1 hx
      exact hψ v (T.mem.1 (List.mem_filter.1 hv).1) _ _
    have h4 := h2.scale h3
    unfold treeWeight
    rw [prod_map_mul', mul_assoc] at h4
    exact h4
  have hE := close_expect (Finset.univ : Finset (Fin V → Fin M)) ⟨fun _ => 0, Finset.mem_univ _⟩ (fun z _ => hclose (overlay z0 z)) (fun z _ => hk (overlay z0 z))
  simp only [mul_assoc Γ] at hE
  rwa [← Finset.mul_sum, ← Finset.mul_sum, mul_div_mul_left _ _ hΓ0.ne'] at hE

section
variable {M : Nat} [NeZero M] {A : FloatOps M} {t : Table} {row E : Nat} {vert : Nat → Fin M → ℚ} {edge : Nat → Fin M → Fin M → ℚ}
  {feat meas : Nat → Fin M → ℚ} {edgeR : Nat → Fin M → Fin M → ℝ} {featR measR : Nat → Fin M → ℝ} {ke kf km : Nat}
  {r : Nat} {par : Nat → Nat} {ch : Nat → List Nat} {L : List Nat} {eid : Nat → Nat}

/-! ### The outward phase -/

/-- The class that is drawn for `v` when those before it are as in `z`. -/
def rowPick (A : FloatOps M) (vert : Nat → Fin M → ℚ) (edge : Nat → Fin M → Fin M → ℚ) (r : Nat) (par eid : Nat → Nat) (s : FloatRow M) (v : Nat) (z : Nat → Fin M) (d : Nat) : Fin M :=
  if v = r then floatPick A (s.messages r) d else floatPick A (floatOut A vert edge v (par v) (eid v) { s with assign := z }) d

theorem outward_pick (O : Spec.OpsOk A) (S : Spec.FloatStats t E vert edge feat meas) (heid : ∀ v < t.numCols, v ≠ r → eid v < E) {sf : FloatRow M}
    (hmsg : ∀ v < t.numCols, Msg (-34) 25 (sf.messages v)) {d : Nat → Nat} (hd : ∀ v, d v < 2 ^ 53) : ∀ (B : List Nat) (s : FloatRow M), B.Nodup → r ∉ B → (∀ v ∈ B, v < t.numCols) →
    (∀ v ∈ B, s.messages v = sf.messages v) → ∃ s', (B.flatMap (outBlock r par eid)).foldlM (floatRowStep A t row vert edge fun v => (d v : ℚ) / 2 ^ 53) s = .ok s' ∧
      s'.assign = pickChain (rowPick A vert edge r par eid sf) B s.assign d := by
  intro B
  induction B with
  | nil => intro s _ _ _ _; exact ⟨s, rfl, rfl⟩
  | cons v B ih =>
    intro s hn hr hlt hs
    rw [List.nodup_cons] at hn
    have hvr : v ≠ r := fun h => hr (by simp [h])
    have hv := hlt v List.mem_cons_self
    have hout : floatOut A vert edge v (par v) (eid v) s = floatOut A vert edge v (par v) (eid v) { sf with assign := s.assign } := by
      funext b
      unfold floatOut
      rw [hs v List.mem_cons_self]
    have hm := msg_out O S (v2 := par v) (s := { sf with assign := s.assign }) hv (heid v hv hvr) (hmsg v hv)
    have hpick := floatPick_ok O hm (hd v)
    have hp : rowPick A vert edge r par eid sf v s.assign (d v) = floatPick A (floatOut A vert edge v (par v) (eid v) { sf with assign := s.assign }) (d v) := if_neg hvr
    obtain ⟨s', h1, h2⟩ := ih { s with
        messages := Function.update s.messages v (floatOut A vert edge v (par v) (eid v) s)
        assign := Function.update s.assign v (rowPick A vert edge r par eid sf v s.assign (d v)) } hn.2 (fun h => hr (List.mem_cons_of_mem _ h))
      (fun w hw => hlt w (List.mem_cons_of_mem _ hw)) (fun w hw => by
        have hwv : w ≠ v := fun e => hn.1 (e ▸ hw)
        show Function.update s.messages v _ w = _
        rw [Function.update_of_ne hwv]
        exact hs w (List.mem_cons_of_mem _ hw))
    refine ⟨s', ?_, h2⟩
    rw [List.flatMap_cons]
    simp only [outBlock, if_neg hvr, List.cons_append, List.nil_append, List.foldlM_cons, floatRowStep]
    rw [hout, hpick, ← hp, ← hout]
    exact h1

theorem program_pick (O : Spec.OpsOk A) (S : Spec.FloatStats t E vert edge feat meas) (heid : ∀ v < t.numCols, v ≠ r → eid v < E) (T : Topo t.numCols r par ch L) {s0 sf : FloatRow M}
    (hmsg : ∀ v < t.numCols, Msg (-34) 25 (sf.messages v)) {d : Nat → Nat} (hd : ∀ v, d v < 2 ^ 53)
    (hin : (L.reverse.flatMap (inBlock ch eid)).foldlM (floatRowStep A t row vert edge fun v => (d v : ℚ) / 2 ^ 53) s0 = .ok sf) :
    ∃ s', (progOf r par ch eid L).foldlM (floatRowStep A t row vert edge fun v => (d v : ℚ) / 2 ^ 53) s0 = .ok s' ∧
      s'.assign = pickChain (rowPick A vert edge r par eid sf) L sf.assign d := by
  obtain ⟨B, rfl⟩ := T.head
  have hn := T.nodup
  rw [List.nodup_cons] at hn
  have hp : rowPick A vert edge r par eid sf r sf.assign (d r) = floatPick A (sf.messages r) (d r) := if_pos rfl
  obtain ⟨s', h1, h2⟩ := outward_pick (row := row) (par := par) O S heid hmsg hd B
    { sf with assign := Function.update sf.assign r (rowPick A vert edge r par eid sf r sf.assign (d r)) } hn.2 hn.1
    (fun v hv => T.mem.1 (List.mem_cons_of_mem _ hv)) (fun v _ => rfl)
  refine ⟨s', ?_, h2⟩
  unfold progOf
  rw [List.foldlM_append, List.foldlM_append, hin]
  simp only [List.flatMap_cons, outBlock, if_true, List.cons_append, List.nil_append, List.foldlM_cons, List.foldlM_nil, floatRowStep, bind, Except.bind, pure, Except.pure]
  rw [floatPick_ok O (hmsg r T.root_lt) (hd r), ← hp]
  exact h1

/-- The weights of a draw. -/
theorem out_near (O : Spec.OpsOk A) (S : Spec.FloatStats t E vert edge feat meas) (Nr : RowNear t E edge feat meas edgeR featR measR ke kf km)
    {s : FloatRow M} {v : Nat} (hv : v < t.numCols) (he : eid v < E) (hvr : v ≠ r) (hle : ∀ a, FLe 25 (s.messages v a)) (hge : ∀ a, FGe (-85) (s.messages v a)) (z : Nat → Fin M) (b : Fin M) :
    Near (ke + 2) (floatOut A vert edge v (par v) (eid v) { s with assign := z } b) (drawWeight r par eid (fun v a => (vert v a : ℝ)) edgeR (realMsg s) v z b) := by
  have hvl : (2 : ℚ) ^ (-1 : Int) ≤ vert v b := by rw [two_neg_one]; exact (S.vert v hv b).2.1
  have hv0 : 0 < vert v b := lt_of_lt_of_le (two_zpow_pos _) hvl
  have n3 : Near ke (fltTrans edge (eid v) (par v) v (z (par v)) b) (transAt edgeR (eid v) (par v) v (z (par v)) b) := by
    unfold fltTrans transAt
    split
    · exact Nr.edge _ he _ _
    · exact Nr.edge _ he _ _
  have n4 : FGe (-9) (fltTrans edge (eid v) (par v) v (z (par v)) b) := by
    refine ⟨_, rfl, ?_⟩
    rw [two_neg_nine]
    split
    · exact (S.edge _ he _ _).2.1
    · exact (S.edge _ he _ _).2.1
  have g1 := FGe.mul O.rnd (hge b) n4 (by norm_num)
  have g2 := FGe.div O.rnd g1 hv0 (b := 24) (by rw [two_twentyfour]; exact (S.vert v hv b).2.2) (by norm_num)
  have n5 := ((near_of_bounds (hle b) (hge b)).mul O.rnd n3 (g1.weaken (by norm_num))).div O.rnd (near_self (S.vert v hv b).1 hv0) (g2.weaken (by norm_num))
  have n6 := n5.mono (show 0 + ke + 1 + 0 + 1 ≤ ke + 2 by omega)
  simp only [drawWeight, if_neg hvr]
  exact n6

/-! ### Both phases -/

theorem inward_draw (draw draw' : Nat → ℚ) (prog : List Instr) (hp : ∀ i ∈ prog, i.op = .UP ∨ i.op = .IN) (s : FloatRow M) :
    prog.foldlM (floatRowStep A t row vert edge draw) s = prog.foldlM (floatRowStep A t row vert edge draw') s := by
  induction prog generalizing s with
  | nil => rfl
  | cons i prog ih =>
    rw [List.foldlM_cons, List.foldlM_cons]
    have : floatRowStep A t row vert edge draw s i = floatRowStep A t row vert edge draw' s i := by
      rcases hp i List.mem_cons_self with h | h <;> simp only [floatRowStep, h]
    rw [this]
    congr 1
    funext s'
    exact ih (fun j hj => hp j (List.mem_cons_of_mem _ hj)) s'

/-- The value of `k` at the classes that result; zero if an exception is raised. -/
def Spec.rowValue (k : (Nat → Fin M) → ℝ) : Py (FloatRow M) → ℝ
  | .ok s => k s.assign
  | .error _ => 0

/-- What `np.random.rand` returns for each vertex, as a function of the integers it draws. -/
def Spec.drawsOf {V : Nat} (d : Fin V → Fin (2 ^ 53)) (v : Nat) : ℚ := if h : v < V then ((d ⟨v, h⟩).val : ℚ) / 2 ^ 53 else 0

/-- The error of resampling a row of `V` features in `M` classes, when `ke` roundings separate `edge_probs` from the exact array and `kc` the arrays of the cells. -/
noncomputable def Spec.rowErr (V M ke kc : Nat) : ℝ := V * (M * (2 ^ (-23 : Int) + 2 ^ (-52 : Int)) + 2 * (2 * ke + kc + M + 9 : Nat) * 2 ^ (-23 : Int))

/-- Law of the loop in float32. -/
theorem floatSampleRow_near (O : Spec.OpsOk A) (N : Spec.DotNear A.dot) (hM : M ≤ 128) (S : Spec.FloatStats t E vert edge feat meas)
    (Nr : RowNear t E edge feat meas edgeR featR measR ke kf km) (ht : Table.Ordered t) (hrow : Spec.Categorical t row) (hm : ∀ v < t.numCols, t.featureTypes.getD v 0 = tyMultinomial)
    (T : Topo t.numCols r par ch L) (hpar : ∀ v < t.numCols, v ≠ r → par v < t.numCols) (heid : ∀ v < t.numCols, v ≠ r → eid v < E) (assign : Nat → Fin M)
    (hcl : Spec.rowClear A t row vert edge (progOf r par ch eid L) (floatRowInit vert feat meas assign) = true) {k : (Nat → Fin M) → ℝ} {lo hi : ℝ} (hk : ∀ z, lo ≤ k z ∧ k z ≤ hi) :
    |(∑ d : Fin t.numCols → Fin (2 ^ 53), Spec.rowValue k (floatSampleRow A t row vert edge feat meas assign (Spec.drawsOf d) (progOf r par ch eid L))) / ((2 ^ 53 : Nat) : ℝ) ^ t.numCols
      - (∑ z : Fin t.numCols → Fin M, treeWeight r par L (fun v a => (vert v a : ℝ) * cellFactor t row featR measR v a) (rowPsi r par eid (fun v a => (vert v a : ℝ)) edgeR) (overlay assign z) * k (overlay assign z)) /
        ∑ z : Fin t.numCols → Fin M, treeWeight r par L (fun v a => (vert v a : ℝ) * cellFactor t row featR measR v a) (rowPsi r par eid (fun v a => (vert v a : ℝ)) edgeR) (overlay assign z)|
      ≤ Spec.rowErr t.numCols M ke (kf + km) * (hi - lo) := by
  have hlh : lo ≤ hi := le_trans (hk assign).1 (hk assign).2
  have hcl' : Spec.rowClear A t row vert edge (L.reverse.flatMap (inBlock ch eid) ++ ([⟨.ROOT, r, 0, 0⟩] ++ L.flatMap (outBlock r par eid))) (floatRowInit vert feat meas assign) = true := by
    rw [← List.append_assoc]; exact hcl
  obtain ⟨sf, h1, h2, h3, h4, h5⟩ := inward_near O N hM S Nr ht hrow hm T heid assign (fun _ => 0) _ hcl'
  have hvl : ∀ v < t.numCols, ∀ a, 0 < vert v a := fun v hv a => lt_of_lt_of_le (by norm_num) (S.vert v hv a).2.1
  have hvR : ∀ v < t.numCols, ∀ a, (0 : ℝ) < vert v a := fun v hv a => by exact_mod_cast hvl v hv a
  have hnear : ∀ v < t.numCols, ∀ a, Near 0 (sf.messages v a) (realMsg sf v a) := fun v hv a => near_of_bounds ((h3 v hv).1 a) (h4 v hv a)
  have hg : ∀ v < t.numCols, ∀ a, 0 < realMsg sf v a := fun v hv a => (hnear v hv a).pos
  have htr : ∀ v < t.numCols, v ≠ r → ∀ a b, 0 < transAt edgeR (eid v) (par v) v a b := by
    intro v hv hvr a b
    unfold transAt
    split
    · exact (Nr.edge _ (heid v hv hvr) _ _).pos
    · exact (Nr.edge _ (heid v hv hvr) _ _).pos
  have hψ : ∀ v < t.numCols, ∀ a b, 0 < rowPsi r par eid (fun v a => (vert v a : ℝ)) edgeR v a b := by
    intro v hv a b
    unfold rowPsi
    split
    · exact one_pos
    · next hvr => exact div_pos (htr v hv hvr a b) (mul_pos (hvR _ (hpar v hv hvr) a) (hvR v hv b))
  set w := drawWeight r par eid (fun v a => (vert v a : ℝ)) edgeR (realMsg sf) with hw
  -- the draws
  have hpick : ∀ v ∈ L, ∀ z, ∀ f : Fin M → ℝ, (∀ a, lo ≤ f a ∧ f a ≤ hi) →
      |(∑ d ∈ Finset.range (2 ^ 53), f (rowPick A vert edge r par eid sf v z d)) / ((2 ^ 53 : Nat) : ℝ) - (∑ a, w v z a * f a) / ∑ a, w v z a| ≤ drawErr M (ke + 2) * (hi - lo) := by
    intro v hv z f hf
    have hvV := T.mem.1 hv
    by_cases hvr : v = r
    · subst hvr
      have e : ∀ a, w v z a = realMsg sf v a := fun a => by simp only [hw, drawWeight, if_true]
      simp only [e, rowPick, if_true]
      exact floatPick_average O hM (fun a => (hnear v hvV a).mono (Nat.zero_le (ke + 2))) hf
    · simp only [rowPick, if_neg hvr]
      exact floatPick_average O hM (fun a => out_near O S Nr hvV (heid v hvV hvr) hvr (h3 v hvV).1 (h4 v hvV) z a) hf
  have hwpos : ∀ v ∈ L, ∀ z a, 0 < w v z a := by
    intro v hv z a
    have hvV := T.mem.1 hv
    simp only [hw, drawWeight]
    split
    · exact hg v hvV a
    · next hvr => exact div_pos (mul_pos (hg v hvV a) (htr v hvV hvr _ _)) (hvR v hvV a)
  have b1 := chain_perturb T hg hψ h5 (fun v hv z m => drawWeight_cond T hvR hv z m) hk assign
  have b2 := pickChain_average (n := 2 ^ 53) (by positivity) hk L T.nodup hwpos hpick assign fun _ => ⟨0, by positivity⟩
  rw [sumOver_perm T.perm, sumOver_range] at b2
  have hval : ∀ d : Fin t.numCols → Fin (2 ^ 53), Spec.rowValue k (floatSampleRow A t row vert edge feat meas assign (Spec.drawsOf d) (progOf r par ch eid L))
      = k (pickChain (rowPick A vert edge r par eid sf) L assign fun v => (overlay (fun _ => (⟨0, by positivity⟩ : Fin (2 ^ 53))) d v).val) := by
    intro d
    have e : Spec.drawsOf d = fun v => (((overlay (fun _ => (⟨0, by positivity⟩ : Fin (2 ^ 53))) d v).val : Nat) : ℚ) / 2 ^ 53 := by
      funext v
      unfold Spec.drawsOf overlay
      split
      · rfl
      · simp
    obtain ⟨s', h6, h7⟩ := program_pick (row := row) (par := par) O S heid T h3 (fun v => (overlay (fun _ => (⟨0, by positivity⟩ : Fin (2 ^ 53))) d v).isLt)
      ((inward_draw _ _ _ (inBlocks_ops _) _).trans h1)
    unfold floatSampleRow
    rw [e, h6]
    show k s'.assign = _
    rw [h7, h2]
  rw [Finset.sum_congr rfl fun d _ => hval d]
  have hlen : L.length = t.numCols := by rw [T.perm.length_eq, List.length_range]
  rw [hlen] at b2
  have hκ : (L.map fun v => kf + km + 2 + (ch v).length * (ke + M + 5)).sum ≤ t.numCols * (kf + km + ke + M + 7) := by
    have e1 : ∀ l : List Nat, (l.map fun v => kf + km + 2 + (ch v).length * (ke + M + 5)).sum = l.length * (kf + km + 2) + (l.flatMap ch).length * (ke + M + 5) := by
      intro l
      induction l with
      | nil => simp
      | cons v l ih =>
        rw [List.map_cons, List.sum_cons, ih, List.flatMap_cons, List.length_append, List.length_cons]
        ring
    rw [e1, hlen, T.sum_ch.length_eq]
    have e2 := T.filter_length
    calc _ ≤ t.numCols * (kf + km + 2) + t.numCols * (ke + M + 5) := Nat.add_le_add_left (Nat.mul_le_mul_right _ (by omega)) _
      _ = _ := by ring
  have hd : 0 ≤ hi - lo := by linarith
  have h23 : (0 : ℝ) < 2 ^ (-23 : Int) := by positivity
  have b3 : 2 * (((L.map fun v => kf + km + 2 + (ch v).length * (ke + M + 5)).sum : Nat) : ℝ) * 2 ^ (-23 : Int) * (hi - lo)
      ≤ 2 * ((t.numCols * (kf + km + ke + M + 7) : Nat) : ℝ) * 2 ^ (-23 : Int) * (hi - lo) := by
    have : (((L.map fun v => kf + km + 2 + (ch v).length * (ke + M + 5)).sum : Nat) : ℝ) ≤ ((t.numCols * (kf + km + ke + M + 7) : Nat) : ℝ) := by exact_mod_cast hκ
    gcongr
  have b4 := abs_sub_le ((∑ d : Fin t.numCols → Fin (2 ^ 53), k (pickChain (rowPick A vert edge r par eid sf) L assign fun v => (overlay (fun _ => (⟨0, by positivity⟩ : Fin (2 ^ 53))) d v).val)) / ((2 ^ 53 : Nat) : ℝ) ^ t.numCols)
    (chain w L assign k) ((∑ z : Fin t.numCols → Fin M, treeWeight r par L (fun v a => (vert v a : ℝ) * cellFactor t row featR measR v a) (rowPsi r par eid (fun v a => (vert v a : ℝ)) edgeR) (overlay assign z) * k (overlay assign z)) /
        ∑ z : Fin t.numCols → Fin M, treeWeight r par L (fun v a => (vert v a : ℝ) * cellFactor t row featR measR v a) (rowPsi r par eid (fun v a => (vert v a : ℝ)) edgeR) (overlay assign z))
  refine le_trans b4 (le_trans (add_le_add b2 (le_trans b1 b3)) (le_of_eq ?_))
  unfold drawErr Spec.rowErr
  push_cast
  ring

end

end TreeCat
