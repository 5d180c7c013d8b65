import Verif.Lemmas.FloatSampleIn
import Verif.Props.FloatInfo

/-! # Small models do not underflow in queries -/

namespace TreeCat

open Util Spec
open scoped BigOperators

/-- Few rows, clusters and neighbours: there are at most `2 ^ j` clusters, a class of a vertex has a probability of at least `2 ^ -n` and a value of a feature of at least `2 ^ -c`, no feature has more than `d`
neighbours in the tree, and `n + c + 1 + d (n + 2 j + 3)` is at most 79. -/
structure Spec.FewServe {K : Type} {M : Nat} (model : Model K M) (n j c d : Nat) : Prop where
  clusters : M ≤ 2 ^ j
  rows : ∀ v < model.tree.numVertices, 2 * ∑ m, model.vertSS v m + M ≤ 2 ^ n
  values : ∀ v < model.tree.numVertices, ∀ m, 2 * M * ∑ r ∈ columns model v, model.featSS r m + (columns model v).card ≤ 2 ^ c
  degree : ∀ v < model.tree.numVertices, (model.tree.treeGrid.filter fun e => e.2.1 = v ∨ e.2.2 = v).length ≤ d
  bits : n + c + 1 + d * (n + 2 * j + 3) ≤ 79
  wide : 2 * n + j ≤ 44

theorem Near.fbd {k : Nat} {x : Flt} {y : ℝ} (h : Near k x y) (hk : k ≤ 2 ^ 20) {lo hi : Int} (h1 : (2 : ℝ) ^ lo ≤ y) (h2 : y ≤ 2 ^ hi) : FBd (lo - 1) (hi + 1) x := by
  have hκ : k * (2 : ℝ) ^ (-23 : Int) ≤ 1 / 4 := by
    have : (k : ℝ) ≤ 2 ^ 20 := by exact_mod_cast hk
    rw [show (2 : ℝ) ^ (-23 : Int) = 1 / 2 ^ 23 by norm_num]
    linarith
  obtain ⟨e, hf, -⟩ := h.get
  have h3 := h.rel.le_two hκ
  have h4 := h.rel.symm.le_two hκ
  refine ⟨x.getD 0, e, hf, ?_, ?_⟩
  · rw [← Rat.cast_le (K := ℝ)]
    push_cast
    rw [zpow_sub_one₀ two_ne_zero]
    linarith
  · rw [← Rat.cast_le (K := ℝ)]
    push_cast
    rw [zpow_add_one₀ two_ne_zero]
    linarith

section
set_option linter.unusedSectionVars false
variable {M : Nat} [NeZero M] {model : Model ℝ M} {n j c d : Nat}

theorem vertMean_few (h : Model.Valid model) (F : Spec.FewServe model n j c d) {v : Nat} (hv : v < model.tree.numVertices) (a : Fin M) : (2 : ℝ) ^ (-(n : Int)) ≤ vertMean model v a := by
  have h0 : ∀ m, (0 : ℝ) ≤ (model.vertSS v m : ℝ) := fun m => by exact_mod_cast h.vert v hv m
  have hM := M_pos (K := ℝ) (M := M)
  have hs : 0 ≤ ∑ m, (model.vertSS v m : ℝ) := Finset.sum_nonneg fun m _ => h0 m
  have h1 : 2 * ∑ m, (model.vertSS v m : ℝ) + M ≤ 2 ^ n := by exact_mod_cast F.rows v hv
  unfold vertMean
  rw [le_div_iff₀ (by positivity), zpow_neg, zpow_natCast, inv_mul_le_iff₀ (by positivity)]
  have : (0 : ℝ) ≤ 2 ^ n * (model.vertSS v a : ℝ) := mul_nonneg (by positivity) (h0 a)
  linarith

theorem edgeMean_few (h : Model.Valid model) (hc : Model.Consistent model) (F : Spec.FewServe model n j c d) {e : Nat × Nat × Nat} (he : e ∈ model.tree.treeGrid) (a b : Fin M) :
    (2 : ℝ) ^ (-(n + j : Int)) ≤ edgeMean model e.1 a b := by
  have h0 : ∀ a b, (0 : ℝ) ≤ (model.edgeSS e.1 a b : ℝ) := fun a b => by exact_mod_cast h.edge e he a b
  have hM := M_pos (K := ℝ) (M := M)
  have hv : e.2.1 < model.tree.numVertices := (h.isTree.range e.2 (List.mem_map.2 ⟨e, he, rfl⟩)).1
  have hs : ∑ a', ∑ b', (model.edgeSS e.1 a' b' : ℝ) = ∑ a', (model.vertSS e.2.1 a' : ℝ) := Finset.sum_congr rfl fun a' _ => by exact_mod_cast (hc e he).1 a'
  have hs0 : 0 ≤ ∑ m, (model.vertSS e.2.1 m : ℝ) := Finset.sum_nonneg fun m _ => by exact_mod_cast h.vert _ hv m
  have h1 : 2 * ∑ m, (model.vertSS e.2.1 m : ℝ) + M ≤ 2 ^ n := by exact_mod_cast F.rows _ hv
  have h2 : (M : ℝ) ≤ 2 ^ j := by exact_mod_cast F.clusters
  unfold edgeMean
  rw [hs, le_div_iff₀ (by positivity), zpow_neg, show (n + j : Int) = ((n + j : Nat) : Int) by push_cast; rfl, zpow_natCast, inv_mul_le_iff₀ (by positivity)]
  have h3 : (0 : ℝ) ≤ 2 ^ (n + j) * (model.edgeSS e.1 a b : ℝ) := mul_nonneg (by positivity) (h0 a b)
  have h4 : (2 : ℝ) ^ n / 2 ≤ 2 ^ (n + j) * (1 / (2 * M)) := by
    rw [pow_add, mul_one_div, le_div_iff₀ (by positivity)]
    have := mul_le_mul_of_nonneg_left h2 (show (0 : ℝ) ≤ 2 ^ n by positivity)
    linarith
  rw [mul_add]
  linarith

theorem featMean_few (h : Model.Valid model) (F : Spec.FewServe model n j c d) {v : Nat} (hv : v < model.tree.numVertices) {r : Nat} (hr : r ∈ columns model v) (a : Fin M) :
    (2 : ℝ) ^ (-(c : Int)) ≤ featMean model v r a := by
  have h0 : ∀ r ∈ columns model v, (0 : ℝ) ≤ (model.featSS r a : ℝ) := fun r hr => by exact_mod_cast h.feat v hv r hr a
  have hM := M_pos (K := ℝ) (M := M)
  have hs : 0 ≤ ∑ r ∈ columns model v, (model.featSS r a : ℝ) := Finset.sum_nonneg h0
  have hC : (0 : ℝ) < (columns model v).card := by exact_mod_cast Finset.card_pos.2 ⟨r, hr⟩
  have h1 : 2 * M * ∑ r ∈ columns model v, (model.featSS r a : ℝ) + (columns model v).card ≤ 2 ^ c := by exact_mod_cast F.values v hv a
  unfold featMean
  rw [le_div_iff₀ (by positivity), zpow_neg, zpow_natCast, inv_mul_le_iff₀ (by positivity), mul_add]
  have h3 : (0 : ℝ) ≤ 2 ^ c * (model.featSS r a : ℝ) := mul_nonneg (by positivity) (h0 r hr)
  have h4 : ∑ r ∈ columns model v, (model.featSS r a : ℝ) + (columns model v).card / (2 * M) ≤ 2 ^ c * (1 / (2 * M)) := by
    rw [mul_one_div, le_div_iff₀ (by positivity), add_mul, div_mul_cancel₀ _ (by positivity)]
    linarith
  linarith

/-- The transition factors: times the probabilities of one end they add up to one. -/
theorem trans_few (h : Model.Valid model) (hc : Model.Consistent model) (F : Spec.FewServe model n j c d) {srv : Server ℝ M} (s : Serves model srv) {e v w : Nat} (hne : v ≠ w)
    (hg : OnGrid model.tree.treeGrid e v w) (a : Fin M) :
    (∀ b, (2 : ℝ) ^ (-(n + j : Int)) ≤ transAt srv.edgeTrans e v w a b * vertMean model w b) ∧ ∑ b, transAt srv.edgeTrans e v w a b * vertMean model w b = 1 ∧
      ∀ b, (2 : ℝ) ^ (-(n + j : Int)) ≤ transAt srv.edgeTrans e v w a b ∧ transAt srv.edgeTrans e v w a b ≤ 2 ^ (n : Int) := by
  have key : ∃ E : Fin M → ℝ, v < model.tree.numVertices ∧ w < model.tree.numVertices ∧ (∀ b, (2 : ℝ) ^ (-(n + j : Int)) ≤ E b) ∧ ∑ b, E b = vertMean model v a ∧
      ∀ b, transAt srv.edgeTrans e v w a b = E b / (vertMean model v a * vertMean model w b) := by
    unfold OnGrid at hg
    unfold transAt
    by_cases hlt : v < w
    · rw [if_pos hlt] at hg
      obtain ⟨h1, h2⟩ := h.isTree.range (v, w) (List.mem_map.2 ⟨_, hg, rfl⟩)
      refine ⟨fun b => edgeMean model e a b, h1, h2, fun b => edgeMean_few h hc F hg a b, (edgeMean_sum hc hg).1 a, fun b => ?_⟩
      rw [if_neg (by omega)]
      have := s.trans _ hg
      simp only at this
      rw [this]
    · rw [if_neg hlt] at hg
      obtain ⟨h1, h2⟩ := h.isTree.range (w, v) (List.mem_map.2 ⟨_, hg, rfl⟩)
      refine ⟨fun b => edgeMean model e b a, h2, h1, fun b => edgeMean_few h hc F hg b a, (edgeMean_sum hc hg).2 a, fun b => ?_⟩
      rw [if_pos (by omega)]
      have := s.trans _ hg
      simp only at this
      rw [this, mul_comm (vertMean model v a)]
  obtain ⟨E, hv, hw, hE, hsum, hT⟩ := key
  have hva := vertMean_pos h hv a
  have hv1 := vertMean_le_one h hv a
  have hE0 : ∀ b, 0 ≤ E b := fun b => le_trans (by positivity) (hE b)
  have hwb := fun b => vertMean_pos h hw b
  have hTw : ∀ b, transAt srv.edgeTrans e v w a b * vertMean model w b = E b / vertMean model v a := fun b => by
    rw [hT b]
    field_simp [(hwb b).ne', hva.ne']
  have hdiv : ∀ b, E b ≤ E b / vertMean model v a := fun b => by
    rw [le_div_iff₀ hva]
    exact mul_le_of_le_one_right (hE0 b) hv1
  have h1 : ∀ b, (2 : ℝ) ^ (-(n + j : Int)) ≤ transAt srv.edgeTrans e v w a b * vertMean model w b := fun b => by
    rw [hTw b]
    exact le_trans (hE b) (hdiv b)
  have hT0 : ∀ b, 0 ≤ transAt srv.edgeTrans e v w a b := fun b => by
    rw [hT b]
    exact div_nonneg (hE0 b) (mul_pos hva (hwb b)).le
  refine ⟨h1, ?_, fun b => ⟨le_trans (h1 b) (mul_le_of_le_one_right (hT0 b) (vertMean_le_one h hw b)), ?_⟩⟩
  · simp only [hTw]
    rw [← Finset.sum_div, hsum, div_self hva.ne']
  · have h2 : E b ≤ vertMean model v a := hsum ▸ Finset.single_le_sum (fun b _ => hE0 b) (Finset.mem_univ b)
    have h3 := vertMean_few h F hw b
    rw [hT b, div_le_iff₀ (mul_pos hva (hwb b))]
    rw [zpow_neg, inv_le_iff_one_le_mul₀' (by positivity)] at h3
    calc E b ≤ vertMean model v a * 1 := by rw [mul_one]; exact h2
      _ ≤ vertMean model v a * (2 ^ (n : Int) * vertMean model w b) := mul_le_mul_of_nonneg_left h3 hva.le
      _ = _ := by ring

/-- The probability of at most one observation. -/
theorem serveU_few (h : Model.Valid model) (F : Spec.FewServe model n j c d) {data : List Int} (hrow : Spec.SingleRow model data) {v : Nat} (hv : v < model.tree.numVertices) (a : Fin M) :
    (2 : ℝ) ^ (-(c : Int)) ≤ serveU model data v a := by
  unfold serveU
  have h1 : ∀ r ∈ columns model v, ((2 : ℝ) ^ (-(c : Int))) ^ data.getD r 0 ≤ featMean model v r a ^ data.getD r 0 := fun r hr =>
    zpow_le_zpow_left₀ (hrow.1 r) (by positivity) (featMean_few h F hv hr a)
  refine le_trans ?_ (Finset.prod_le_prod (fun r _ => by positivity) h1)
  have hprod : ∏ r ∈ columns model v, ((2 : ℝ) ^ (-(c : Int))) ^ data.getD r 0 = ((2 : ℝ) ^ (-(c : Int))) ^ ∑ r ∈ columns model v, data.getD r 0 := by
    induction columns model v using Finset.induction_on with
    | empty => simp
    | insert r s hr ih => rw [Finset.prod_insert hr, Finset.sum_insert hr, zpow_add₀ (by positivity), ih]
  rw [hprod, ← zpow_mul]
  refine zpow_le_zpow_right₀ (by norm_num) ?_
  have h2 := hrow.2 v hv
  have h3 : 0 ≤ ∑ r ∈ columns model v, data.getD r 0 := Finset.sum_nonneg fun r _ => hrow.1 r
  nlinarith [Int.natCast_nonneg c]

end

section
set_option linter.unusedSectionVars false
variable {M : Nat} [NeZero M] {A : ServeOps M} {model : Model ℝ M} {ε : ℝ} {n j c d : Nat} {kv kt kc : Nat} {srv : FloatServer M} {esrv : Server ℝ M} {data : List Int}
  {r : Nat} {par : Nat → Nat} {ch : Nat → List Nat} {L : List Nat} {eid : Nat → Nat}

/-- What is used of a server and its model. -/
structure ServeFacts (A : ServeOps M) (model : Model ℝ M) (kv kt kc : Nat) (srv : FloatServer M) (esrv : Server ℝ M) : Prop where
  valid : Model.Valid model
  consistent : Model.Consistent model
  clusters : M ≤ 128
  bounds : ServeBounds model.tree.numVertices (model.tree.numVertices - 1) srv
  near : ServeNear model kv kt kc srv
  exact : Serves model esrv
  ragged : srv.raggedIndex = model.raggedIndex
  ids : ∀ c ∈ model.tree.treeGrid, c.1 < model.tree.numVertices - 1
  few : kv + kc + 1 ≤ 2 ^ 18 ∧ kt + M + 1 ≤ 2 ^ 18

theorem OnGrid.id_lt {grid : Grid} {E e v w : Nat} (hids : ∀ c ∈ grid, c.1 < E) (hg : OnGrid grid e v w) : e < E := by
  have := hids _ hg
  split at this <;> exact this

/-- The OP_UP step. -/
theorem serveUp_nearU (O : Spec.ServeOpsOk A) (S : ServeFacts A model kv kt kc srv esrv) (hrow : Spec.SingleRow model data) (skip : Bool) {v : Nat}
    (hv : v < model.tree.numVertices) {msgs : Nat → Fin M → Flt} (hm : msgs v = srv.vert v) (a : Fin M) :
    Near (kv + kc + 1) (floatServeUp A srv skip data msgs v v a) (vertMean model v a * serveU model data v a) := by
  have hmsg : Msg (-8) 0 (msgs v) := by rw [hm]; exact S.bounds.vert v hv
  have hblock : srv.block v = columnList model v := by
    unfold FloatServer.block columnList
    rw [S.ragged]
  have hfold := upFold_near O (fsrv := srv) (skip := skip) (data := data) (v := v) (msgs := msgs) (F := featMean model v) (kc := kc) (k := kv) (y := vertMean model v) hmsg.1
    (fun a => by rw [hm]; exact (S.near.vert v hv a).1) (fun a => by rw [hm]; exact (S.near.vert v hv a).2) (srv.block v) (S.bounds.cond v hv)
    (fun q hq a => S.near.cond v hv q (mem_columnList.1 (hblock ▸ hq)) a) hrow.1 (singleRow_sum hrow S.ragged v hv) a
  have hprod : ((srv.block v).map fun r => featMean model v r a ^ data.getD r 0).prod = serveU model data v a := by
    unfold serveU FloatServer.block columns
    rw [S.ragged]
    rfl
  rw [hprod] at hfold
  exact hfold.1

/-- At most one observation has probability at most one. -/
theorem serveU_le_one (h : Model.Valid model) (hrow : Spec.SingleRow model data) {v : Nat} (hv : v < model.tree.numVertices) (a : Fin M) : serveU model data v a ≤ 1 := by
  unfold serveU
  refine Finset.prod_le_one (fun r hr => zpow_nonneg (featMean_pos h hv hr a).le _) fun r hr => ?_
  obtain ⟨k, hk⟩ := Int.eq_ofNat_of_zero_le (hrow.1 r)
  rw [hk, zpow_natCast]
  have h1 : featMean model v r a ≤ 1 := by
    rw [← featMean_sum h hv ⟨r, hr⟩ a]
    exact Finset.single_le_sum (f := fun r => featMean model v r a) (fun r' hr' => (featMean_pos h hv hr' a).le) hr
  exact pow_le_one₀ (featMean_pos h hv hr a).le h1

theorem serveUp_few (O : Spec.ServeOpsOk A) (S : ServeFacts A model kv kt kc srv esrv) (F : Spec.FewServe model n j c d) (hrow : Spec.SingleRow model data) (skip : Bool) {v : Nat}
    (hv : v < model.tree.numVertices) {msgs : Nat → Fin M → Flt} (hm : msgs v = srv.vert v) (a : Fin M) : FGe (-(n + c + 1 : Int)) (floatServeUp A srv skip data msgs v v a) := by
  have hnear := serveUp_nearU O S hrow skip hv hm a
  have h1 := vertMean_few S.valid F hv a
  have h2 := serveU_few S.valid F hrow hv a
  have h3 : (2 : ℝ) ^ (-(n : Int) + -(c : Int)) ≤ vertMean model v a * serveU model data v a := by
    rw [zpow_add₀ two_ne_zero]
    exact mul_le_mul h1 h2 (by positivity) (vertMean_pos S.valid hv a).le
  have h4 : vertMean model v a * serveU model data v a ≤ 2 ^ (0 : Int) := by
    rw [zpow_zero]
    exact mul_le_one₀ (vertMean_le_one S.valid hv a) (serveU_pos S.valid data hv a).le (serveU_le_one S.valid hrow hv a)
  exact ((hnear.fbd (by have := S.few.1; omega) h3 h4).ge).weaken (by omega)

/-- The OP_IN step before scaling. -/
theorem serveIn_few (N : Spec.ServeOpsNear A ε) (S : ServeFacts A model kv kt kc srv esrv) (F : Spec.FewServe model n j c d) {v w e : Nat} (hw : w < model.tree.numVertices) (hne : v ≠ w)
    (hg : OnGrid model.tree.treeGrid e v w) {msgs : Nat → Fin M → Flt} {lo : Int} (hle : ∀ a, FLe 0 (msgs v a)) (hge : ∀ a, FGe (-lo) (msgs v a)) (hmw : Msg (-48) 0 (msgs w))
    (hgw : ∀ a, FGe (-79) (msgs w a)) (hlo : lo + (n + j + 49) ≤ 125) :
    ∃ i : Int, -48 ≤ i ∧ ∀ a, FGe (-lo + i - (n + j + 1)) (floatServeIn A srv msgs v w e a) ∧ FLe (i + 2) (floatServeIn A srv msgs v w e a) := by
  have he : e < model.tree.numVertices - 1 := hg.id_lt S.ids
  have hq := fun b => msg_near hmw.1 hgw b
  have hq0 : ∀ b, 0 < realOf msgs w b := fun b => (hq b).pos
  have hν := fun b => vertMean_pos S.valid hw b
  obtain ⟨b0, -, hb0⟩ := Finset.exists_max_image Finset.univ (fun b => realOf msgs w b / vertMean model w b) ⟨0, Finset.mem_univ 0⟩
  set W := realOf msgs w b0 / vertMean model w b0 with hW
  have hW0 : 0 < W := div_pos (hq0 b0) (hν b0)
  obtain ⟨i, hi1, hi2⟩ := exists_mem_Ico_zpow hW0 (one_lt_two)
  have hqW : ∀ b, realOf msgs w b ≤ W * vertMean model w b := fun b => (div_le_iff₀ (hν b)).1 (hb0 b (Finset.mem_univ b))
  have hi : -48 ≤ i := by
    obtain ⟨b, q, e, h1⟩ := hmw.2
    have h2 : (2 : ℝ) ^ (-48 : Int) ≤ realOf msgs w b := by
      unfold realOf
      rw [e]
      have := (Rat.cast_le (K := ℝ)).2 h1
      push_cast at this
      exact this
    have h3 : (2 : ℝ) ^ (-48 : Int) < 2 ^ (i + 1) :=
      lt_of_le_of_lt (le_trans h2 (le_trans (hqW b) (mul_le_of_le_one_right hW0.le (vertMean_le_one S.valid hw b)))) hi2
    have := (zpow_lt_zpow_iff_right₀ (by norm_num : (1 : ℝ) < 2)).1 h3
    omega
  refine ⟨i, hi, fun a => ?_⟩
  obtain ⟨t1, t2, t3⟩ := trans_few S.valid S.consistent F S.exact hne hg a
  have hT0 : ∀ b, 0 ≤ transAt esrv.edgeTrans e v w a b := fun b => le_trans (by positivity) (t3 b).1
  have hdot := Near.dot N.ok.ops.dot N.dot (fun b => transAt_near S.near S.exact hne hg a b) hq (i := -46) (j := -79) (by norm_num)
    (fun b => (transAt_bounds S.bounds he v w a b).ge) hgw
  have hup : ∑ b, transAt esrv.edgeTrans e v w a b * realOf msgs w b ≤ 2 ^ (i + 1) := by
    refine le_trans ?_ hi2.le
    calc _ ≤ ∑ b, transAt esrv.edgeTrans e v w a b * vertMean model w b * W := Finset.sum_le_sum fun b _ => by
          have := mul_le_mul_of_nonneg_left (hqW b) (hT0 b)
          linarith
      _ = W := by rw [← Finset.sum_mul, t2, one_mul]
  have hlow : (2 : ℝ) ^ (i - (n + j)) ≤ ∑ b, transAt esrv.edgeTrans e v w a b * realOf msgs w b := by
    calc (2 : ℝ) ^ (i - (n + j)) = 2 ^ (-(n + j : Int)) * 2 ^ i := by rw [← zpow_add₀ two_ne_zero]; congr 1; ring
      _ ≤ transAt esrv.edgeTrans e v w a b0 * vertMean model w b0 * W := mul_le_mul (t1 b0) hi1 (by positivity) (mul_nonneg (hT0 b0) (hν b0).le)
      _ = transAt esrv.edgeTrans e v w a b0 * realOf msgs w b0 := by rw [mul_assoc, hW, mul_div_cancel₀ _ (hν b0).ne']
      _ ≤ _ := Finset.single_le_sum (f := fun b => transAt esrv.edgeTrans e v w a b * realOf msgs w b) (fun b _ => mul_nonneg (hT0 b) (hq0 b).le) (Finset.mem_univ b0)
  have hb := hdot.fbd (by have := S.few.2; omega) hlow hup
  exact ⟨(FGe.mul N.ok.ops.rnd (hge a) hb.ge (by omega)).weaken (by omega), (FLe.mul N.ok.ops.rnd (hle a) hb.le (by omega)).weaken (by omega)⟩

/-- What is used of the number by which a message is divided, `np.max` or `np.sum`. -/
def ScaleOk (rnd : ℚ → ℚ) (j : Nat) (scale : (Fin M → Flt) → Flt) : Prop :=
  ∀ (lo hi : Int) (f : Fin M → Flt), -149 ≤ hi → -149 ≤ lo - hi - j → (∀ a, FGe lo (f a)) → (∀ a, FLe hi (f a)) →
    Msg (-8) 0 (fun a => Flt.div rnd (f a) (scale f)) ∧ ∀ a, FGe (lo - hi - j) (Flt.div rnd (f a) (scale f))

theorem scaleOk_max (O : Spec.ServeOpsOk A) (j : Nat) : ScaleOk (M := M) A.rnd j fltMax := by
  intro lo hi f h1 h2 hge hle
  refine ⟨(Msg.scale O.ops.rnd ⟨hle, 0, hge 0⟩).weaken (by norm_num) (le_refl _), fun a => ?_⟩
  choose g eg gf g0 gu using hle
  obtain ⟨m, hm1, hm2, a0, hm3⟩ := fltMax_spec (f := f) (g := g) eg
  have hm0 : 0 < m := by
    obtain ⟨q, e, h⟩ := hge a0
    rw [eg a0] at e
    obtain rfl := Option.some.inj e
    rw [hm3]
    exact lt_of_lt_of_le (two_zpow_pos _) h
  rw [hm1]
  exact (FGe.div O.ops.rnd (hge a) hm0 (b := hi) (by rw [hm3]; exact gu a0) (by omega)).weaken (by omega)

theorem scaleOk_sum (hM : M ≤ 128) (O : Spec.ServeOpsOk A) (hj : M ≤ 2 ^ j) : ScaleOk (M := M) A.rnd j fun f => A.sum ((List.finRange M).map f) := by
  intro lo hi f h1 h2 hge hle
  obtain ⟨⟨d, k1, k2, k3, k4⟩, k5⟩ := Msg.norm hM O h1 ⟨hle, 0, hge 0⟩
  refine ⟨k5, fun a => ?_⟩
  choose g eg gf g0 gu using hle
  obtain ⟨d', e1, -, -, -, e5⟩ := O.sum ((List.finRange M).map g) (by simp; omega) (by
    intro x hx
    obtain ⟨b, -, rfl⟩ := List.mem_map.1 hx
    exact ⟨gf b, g0 b⟩)
  have e2 : ((List.finRange M).map g).map some = (List.finRange M).map f := by
    rw [List.map_map]
    exact List.map_congr_left fun b _ => (eg b).symm
  rw [e2, k1] at e1
  obtain rfl := Option.some.inj e1
  have hd : d ≤ 2 ^ (hi + j) := by
    refine le_trans (e5 hi h1 ?_) ?_
    · intro x hx
      obtain ⟨b, -, rfl⟩ := List.mem_map.1 hx
      exact gu b
    · rw [List.length_map, List.length_finRange, zpow_split, mul_comm]
      refine mul_le_mul_of_nonneg_left ?_ (two_zpow_pos _).le
      rw [zpow_natCast]
      exact_mod_cast hj
  show FGe _ (Flt.div A.rnd (f a) (A.sum ((List.finRange M).map f)))
  rw [k1]
  exact (FGe.div O.ops.rnd (hge a) (lt_of_lt_of_le (two_zpow_pos _) k3) hd (by omega)).weaken (by omega)

/-! ### The inward instructions -/

/-- Nothing underflows in a program of inward instructions, and `T` holds of the final messages. -/
def InClear (A : ServeOps M) (srv : FloatServer M) (data : List Int) (skip : Bool) (scale : (Fin M → Flt) → Flt) (T : (Nat → Fin M → Flt) → Prop) : List Instr → (Nat → Fin M → Flt) → Prop
  | [], msgs => T msgs
  | i :: prog, msgs =>
    match i.op with
    | .UP => msgs i.v = srv.vert i.v ∧ InClear A srv data skip scale T prog (floatServeUp A srv skip data msgs i.v)
    | .IN => (∀ a, FBd (-125) 71 (floatServeIn A srv msgs i.v i.v2 i.e a)) ∧
        (∀ a, FBd (-79) 0 (Flt.div A.rnd (floatServeIn A srv msgs i.v i.v2 i.e a) (scale (floatServeIn A srv msgs i.v i.v2 i.e)))) ∧
        InClear A srv data skip scale T prog (Function.update msgs i.v fun a => Flt.div A.rnd (floatServeIn A srv msgs i.v i.v2 i.e a) (scale (floatServeIn A srv msgs i.v i.v2 i.e)))
    | _ => False

/-- The OP_IN steps of one vertex. -/
theorem ins_few (N : Spec.ServeOpsNear A ε) (S : ServeFacts A model kv kt kc srv esrv) (F : Spec.FewServe model n j c d) {skip : Bool} {scale : (Fin M → Flt) → Flt} (hs : ScaleOk A.rnd j scale)
    {T : (Nat → Fin M → Flt) → Prop} {lim : Int} (hlim : lim ≤ 79) {v : Nat} (hv : v < model.tree.numVertices) (Q : List Instr) : ∀ (cs : List Nat),
    (∀ w ∈ cs, w < model.tree.numVertices ∧ w ≠ v ∧ OnGrid model.tree.treeGrid (eid w) v w) → ∀ {U : List Nat} {msgs : Nat → Fin M → Flt} {lo : Int}, ServeInv model.tree.numVertices U msgs → 0 ≤ lo →
    (∀ a, FGe (-lo) (msgs v a)) → (∀ w ∈ cs, ∀ a, FGe (-79) (msgs w a)) → lo + cs.length * (n + 2 * j + 3) ≤ lim →
    (∀ msgs', ServeInv model.tree.numVertices U msgs' → (∀ w, w ≠ v → msgs' w = msgs w) → (∀ a, FGe (-lim) (msgs' v a)) → InClear A srv data skip scale T Q msgs') →
    InClear A srv data skip scale T (cs.map (fun w => (⟨.IN, v, w, eid w⟩ : Instr)) ++ Q) msgs := by
  intro cs
  induction cs with
  | nil =>
    intro _ U msgs lo I hlo hg _ hb hQ
    exact hQ msgs I (fun _ _ => rfl) fun a => (hg a).weaken (by simp at hb; omega)
  | cons w cs ih =>
    intro hcs U msgs lo I hlo hg hgc hb hQ
    obtain ⟨c1, c2, c3⟩ := hcs w List.mem_cons_self
    have hb' : lo + (n + 2 * j + 3) + cs.length * (n + 2 * j + 3) ≤ lim := by
      rw [List.length_cons] at hb
      push_cast at hb
      linarith
    have hcl : (0 : Int) ≤ cs.length * (n + 2 * j + 3) := by positivity
    obtain ⟨i, hi, hin⟩ := serveIn_few N S F c1 (Ne.symm c2) c3 (I.all v hv).1 hg (I.all w c1) (hgc w List.mem_cons_self) (by omega)
    obtain ⟨s1, s2⟩ := hs (-lo + i - (n + j + 1)) (i + 2) (floatServeIn A srv msgs v w (eid w)) (by omega) (by omega) (fun a => (hin a).1) fun a => (hin a).2
    rw [List.map_cons, List.cons_append]
    have hup := floatServeIn_ok S.clusters N.ok S.bounds (c3.id_lt S.ids) (I.all v hv) (I.all w c1)
    refine ⟨fun a => fbd_of (hup.1 a) ((hin a).1.weaken (by omega)), fun a => fbd_of (s1.1 a) ((s2 a).weaken (by omega)), ?_⟩
    have hne : ∀ u, u ≠ v → Function.update msgs v (fun a => Flt.div A.rnd (floatServeIn A srv msgs v w (eid w) a) (scale (floatServeIn A srv msgs v w (eid w)))) u = msgs u :=
      fun u hu => Function.update_of_ne hu _ _
    refine ih (fun u hu => hcs u (List.mem_cons_of_mem _ hu)) (serveInv_update I s1) (lo := lo + (n + 2 * j + 3)) (by omega) (fun a => ?_) (fun u hu a => ?_) hb' ?_
    · rw [Function.update_self]
      exact (s2 a).weaken (by omega)
    · rw [hne u (hcs u (List.mem_cons_of_mem _ hu)).2.1]
      exact hgc u (List.mem_cons_of_mem _ hu) a
    · intro msgs' I' hn' hg'
      exact hQ msgs' I' (fun u hu => by rw [hn' u hu, hne u hu]) hg'

/-- The inward phase. -/
theorem inward_few (N : Spec.ServeOpsNear A ε) (S : ServeFacts A model kv kt kc srv esrv) (F : Spec.FewServe model n j c d) (hrow : Spec.SingleRow model data) {skip : Bool}
    {scale : (Fin M → Flt) → Flt} (hs : ScaleOk A.rnd j scale) {T : (Nat → Fin M → Flt) → Prop} (P : Plan model r par ch eid L) (hch : ∀ v < model.tree.numVertices, (ch v).length ≤ d)
    {lim : Nat} (hlim : lim ≤ 79) (hbits : n + c + 1 + d * (n + 2 * j + 3) ≤ lim)
    (hT : ∀ msgs, (∀ v < model.tree.numVertices, Msg (-48) 0 (msgs v) ∧ ∀ a, FGe (-(lim : Int)) (msgs v a)) → T msgs) :
    InClear A srv data skip scale T (L.reverse.flatMap (inBlock ch eid)) srv.vert := by
  have TP := P.topo
  have key : ∀ C B, L = C ++ B → ∀ msgs : Nat → Fin M → Flt, ServeInv model.tree.numVertices B msgs → (∀ v ∈ C, msgs v = srv.vert v) →
      (∀ v ∈ B, ∀ a, FGe (-(lim : Int)) (msgs v a)) → InClear A srv data skip scale T (C.reverse.flatMap (inBlock ch eid)) msgs := by
    intro C
    induction C using List.reverseRecOn with
    | nil =>
      intro B hL msgs I _ hB
      exact hT msgs fun v hv => ⟨I.all v hv, hB v (by have := TP.mem.2 hv; rw [hL] at this; simpa using this)⟩
    | append_singleton C x ih =>
      intro B hL msgs I hC hB
      rw [List.append_assoc, List.singleton_append] at hL
      have hn := TP.nodup
      rw [hL, List.nodup_append, List.nodup_cons] at hn
      have hxV : x < model.tree.numVertices := TP.mem.1 (by rw [hL]; simp)
      have hxB : x ∉ B := hn.2.1.1
      have hchx : ∀ w ∈ ch x, w < model.tree.numVertices ∧ w ≠ r ∧ par w = x ∧ w ∈ B := by
        intro w hw
        obtain ⟨a1, a2, a3⟩ := (TP.ch_mem x hxV w).1 hw
        refine ⟨a1, a2, a3, ?_⟩
        have hcL : w ∈ L := TP.mem.2 a1
        rw [hL, List.mem_append, List.mem_cons] at hcL
        rcases hcL with hcC | rfl | hcB
        · exfalso
          obtain ⟨C1, C2, hC⟩ := List.append_of_mem hcC
          have := TP.before C1 w (C2 ++ x :: B) (by rw [hL, hC]; simp) a2
          rw [a3] at this
          exact hn.2.2 x (by rw [hC]; simp [this]) x (by simp) rfl
        · exfalso
          have := TP.before C w B hL a2
          rw [a3] at this
          exact hn.2.2 w this w (by simp) rfl
        · exact hcB
      have hprog : (C ++ [x]).reverse.flatMap (inBlock ch eid)
          = (⟨.UP, x, 0, 0⟩ : Instr) :: ((ch x).map (fun w => (⟨.IN, x, w, eid w⟩ : Instr)) ++ C.reverse.flatMap (inBlock ch eid)) := by
        rw [List.reverse_append, List.reverse_singleton, List.singleton_append, List.flatMap_cons, inBlock]
        simp
      rw [hprog]
      have hxv := hC x (by simp)
      refine ⟨hxv, ?_⟩
      show InClear A srv data skip scale T _ (floatServeUp A srv skip data msgs x)
      have u1 := serveInv_up (skip := skip) N.ok S.bounds hrow.1 (singleRow_sum hrow S.ragged) I hxV hxB
      have u2 := (floatServeUp_ok (skip := skip) N.ok (by norm_num) (I.fresh x hxV hxB) (S.bounds.cond x hxV) hrow.1 (singleRow_sum hrow S.ragged x hxV)).2
      have u3 := serveUp_few N.ok S F hrow skip hxV hxv
      have hcx : ∀ w ∈ ch x, w ≠ x := fun w hw e => hxB (e ▸ (hchx w hw).2.2.2)
      have hbits' : (n + c + 1 : Int) + (ch x).length * (n + 2 * j + 3) ≤ lim := by
        have h2 : (ch x).length * (n + 2 * j + 3) ≤ d * (n + 2 * j + 3) := Nat.mul_le_mul_right _ (hch x hxV)
        have h3 : n + c + 1 + (ch x).length * (n + 2 * j + 3) ≤ lim := by omega
        exact_mod_cast h3
      refine ins_few N S F hs (lim := lim) (by omega) hxV _ (ch x) (fun w hw => ⟨(hchx w hw).1, hcx w hw, ?_⟩) u1 (by omega) u3 (fun w hw a => ?_) hbits' ?_
      · have := plan_grid P (hchx w hw).1 (hchx w hw).2.1
        rwa [(hchx w hw).2.2.1] at this
      · rw [u2 w (hcx w hw)]
        exact (hB w (hchx w hw).2.2.2 a).weaken (by omega)
      · intro msgs' I' hn' hg'
        have hne : ∀ w, w ≠ x → msgs' w = msgs w := fun w hw => by rw [hn' w hw, u2 w hw]
        refine ih (x :: B) hL msgs' I' (fun v hv => ?_) fun v hv a => ?_
        · have hvx : v ≠ x := fun e => hn.2.2 v hv x (by simp) e
          rw [hne v hvx]
          exact hC v (by simp [hv])
        · by_cases hvx : v = x
          · subst hvx; exact hg' a
          · rw [hne v hvx]
            exact hB v ((List.mem_cons.1 hv).resolve_left hvx) a
  exact key L [] (by simp) _ (serveInv_init S.bounds) (fun v _ => rfl) (by simp)

/-- The children of a vertex are neighbours. -/
theorem children_degree (P : Plan model r par ch eid L) {v : Nat} (hv : v < model.tree.numVertices) :
    (ch v).length ≤ (model.tree.treeGrid.filter fun e => e.2.1 = v ∨ e.2.2 = v).length := by
  have T := P.topo
  have h1 : ∀ w ∈ ch v, w ∈ L.filter (· ≠ r) ∧ par w = v := by
    intro w hw
    obtain ⟨a1, a2, a3⟩ := (T.ch_mem v hv w).1 hw
    exact ⟨List.mem_filter.2 ⟨T.mem.2 a1, by simpa using a2⟩, a3⟩
  have h2 : (ch v).length ≤ ((L.filter (· ≠ r)).filter fun w => par w = v).length := by
    have hsub : (ch v).toFinset ⊆ ((L.filter (· ≠ r)).filter fun w => par w = v).toFinset := by
      intro w hw
      rw [List.mem_toFinset] at hw ⊢
      exact List.mem_filter.2 ⟨(h1 w hw).1, by simpa using (h1 w hw).2⟩
    have := Finset.card_le_card hsub
    rw [List.toFinset_card_of_nodup (T.ch_nodup v hv)] at this
    exact le_trans this (List.toFinset_card_le _)
  refine le_trans h2 ?_
  rw [← (P.perm.filter _).length_eq, List.filter_map, List.length_map]
  refine List.Sublist.length_le (List.monotone_filter_right _ fun w hw => ?_)
  simp only [decide_eq_true_eq, Function.comp_apply] at hw ⊢
  unfold upEntry
  split
  · exact Or.inl hw
  · exact Or.inr hw

end

end TreeCat
