import Verif.Lemmas.FloatRowOut
import Verif.Lemmas.FloatSampleFeat

/-! # The messages of a sample in float32 -/

namespace TreeCat

open Util Spec
open scoped BigOperators

section
variable {M : Nat} [NeZero M] (A : ServeOps M) (srv : FloatServer M) (data : List Int)

/-- What an instruction of `sample` does to `messages_in`. -/
def msgStep (msgs : Nat → Fin M → Flt) (i : Instr) : Nat → Fin M → Flt :=
  match i.op with
  | .UP => floatServeUp A srv true data msgs i.v
  | .IN => Function.update msgs i.v fun a => Flt.div A.rnd (floatServeIn A srv msgs i.v i.v2 i.e a) (fltMax (floatServeIn A srv msgs i.v i.v2 i.e))
  | _ => msgs

/-- The weights of the OP_OUT step, when the class of the parent is `a`. -/
def outRow (msgs : Nat → Fin M → Flt) (v v2 e : Nat) (a b : Fin M) : Flt := Flt.mul A.rnd (msgs v b) (transAt srv.trans e v2 v a b)

/-- No number that `sample` computes underflows: the entries of the messages that OP_IN writes are at least `2 ^ -79` after they are scaled and `2 ^ -125` before, and the scaled weights of OP_OUT
at least `2 ^ -125` whatever class the parent has. -/
def Spec.sampleClear : List Instr → (Nat → Fin M → Flt) → Bool
  | [], _ => true
  | i :: prog, msgs =>
    (match i.op with
      | .IN => (List.finRange M).all fun a => fltGe (-125) (floatServeIn A srv msgs i.v i.v2 i.e a) && fltGe (-79) (msgStep A srv data msgs i i.v a)
      | .OUT => (List.finRange M).all fun a => (List.finRange M).all fun b =>
          fltGe (-125) (Flt.div A.rnd (outRow A srv msgs i.v i.v2 i.e a b) (fltMax (outRow A srv msgs i.v i.v2 i.e a)))
      | _ => true) && Spec.sampleClear prog (msgStep A srv data msgs i)

end

section
set_option linter.unusedSectionVars false
variable {M : Nat} [NeZero M] {A : ServeOps M} {model : Model ℝ M} {ε : ℝ} {kv kt kc : Nat} {srv : FloatServer M} {esrv : Server ℝ M} {data : List Int}
  {r : Nat} {par : Nat → Nat} {ch : Nat → List Nat} {L : List Nat} {eid : Nat → Nat}

/-- The messages as reals. -/
def realOf (msgs : Nat → Fin M → Flt) (v : Nat) (a : Fin M) : ℝ := ((msgs v a).getD 0 : ℚ)

theorem realOf_congr {m m' : Nat → Fin M → Flt} {v : Nat} (h : m v = m' v) : realOf m v = realOf m' v := by
  funext a
  unfold realOf
  rw [h]

theorem msg_near {msgs : Nat → Fin M → Flt} {v : Nat} {lo : Int} (hle : ∀ a, FLe 0 (msgs v a)) (hge : ∀ a, FGe lo (msgs v a)) (a : Fin M) : Near 0 (msgs v a) (realOf msgs v a) :=
  near_of_bounds (hle a) (hge a)

theorem plan_grid (P : Plan model r par ch eid L) {v : Nat} (hv : v < model.tree.numVertices) (hvr : v ≠ r) : OnGrid model.tree.treeGrid (eid v) (par v) v := by
  have := upEntry_mem P hv hvr
  unfold upEntry at this
  exact this

/-- The OP_UP step. -/
theorem sampleUp_near (O : Spec.ServeOpsOk A) (B : ServeBounds model.tree.numVertices (model.tree.numVertices - 1) srv) (S : ServeNear model kv kt kc srv) (hr : srv.raggedIndex = model.raggedIndex)
    (hrow : Spec.SingleRow model data) {v : Nat} (hv : v < model.tree.numVertices) {msgs : Nat → Fin M → Flt} (hm : msgs v = srv.vert v) :
    (∀ w, w ≠ v → floatServeUp A srv true data msgs v w = msgs w) ∧ (∀ a, FGe (-79) (floatServeUp A srv true data msgs v v a)) ∧
      ∀ a, Close (kv + kc + 1) (realOf (floatServeUp A srv true data msgs v) v a) (vertMean model v a * serveU model data v a) := by
  have hmsg : Msg (-8) 0 (msgs v) := by rw [hm]; exact B.vert v hv
  have hblock : srv.block v = columnList model v := by
    unfold FloatServer.block columnList
    rw [hr]
  have hsum := singleRow_sum hrow hr v hv
  have hfold := fun a => upFold_near O (fsrv := srv) (skip := true) (data := data) (v := v) (msgs := msgs) (F := featMean model v) (kc := kc) (k := kv) (y := vertMean model v) hmsg.1
    (fun a => by rw [hm]; exact (S.vert v hv a).1) (fun a => by rw [hm]; exact (S.vert v hv a).2) (srv.block v) (B.cond v hv)
    (fun q hq a => S.cond v hv q (mem_columnList.1 (hblock ▸ hq)) a) hrow.1 hsum a
  have hprod : ∀ a, ((srv.block v).map fun r => featMean model v r a ^ data.getD r 0).prod = serveU model data v a := by
    intro a
    unfold serveU FloatServer.block columns
    rw [hr]
    rfl
  refine ⟨(floatServeUp_ok (skip := true) O (by norm_num) hmsg (B.cond v hv) hrow.1 hsum).2, fun a => (hfold a).2.weaken (by norm_num), fun a => ?_⟩
  have := (hfold a).1.close
  rw [hprod] at this
  exact this

/-- The OP_IN step. -/
theorem sampleIn_near (N : Spec.ServeOpsNear A ε) (B : ServeBounds model.tree.numVertices (model.tree.numVertices - 1) srv) (S : ServeNear model kv kt kc srv) (s : Serves model esrv)
    (P : Plan model r par ch eid L) (hids : ∀ c ∈ model.tree.treeGrid, c.1 < model.tree.numVertices - 1) {v c : Nat} (hv : v < model.tree.numVertices) (hc : c < model.tree.numVertices) (hcr : c ≠ r)
    (hpar : par c = v) {msgs : Nat → Fin M → Flt} (hle : ∀ w < model.tree.numVertices, ∀ a, FLe 0 (msgs w a)) (hgv : ∀ a, FGe (-79) (msgs v a)) (hgc : ∀ a, FGe (-79) (msgs c a))
    (h1 : ∀ a, FGe (-125) (floatServeIn A srv msgs v c (eid c) a)) (h2 : ∀ a, FGe (-79) (msgStep A srv data msgs ⟨.IN, v, c, eid c⟩ v a)) :
    ∃ γ : ℝ, 0 < γ ∧ ∀ a, Close (kt + M + 3) (realOf (msgStep A srv data msgs ⟨.IN, v, c, eid c⟩) v a)
      (γ * (realOf msgs v a * mu (servePsi r par eid esrv.edgeTrans) (realOf msgs) c a)) := by
  have hne : v ≠ c := fun e => (P.parent c hc hcr).2 (by rw [hpar, e])
  have hg : OnGrid model.tree.treeGrid (eid c) v c := hpar ▸ plan_grid P hc hcr
  have he : eid c < model.tree.numVertices - 1 := by
    have := hids _ hg
    split at this <;> exact this
  have hdot := fun a => Near.dot N.ok.ops.dot N.dot (fun b => transAt_near S s hne hg a b) (fun b => msg_near (hle c hc) hgc b) (i := -46) (j := -79) (by norm_num)
    (fun b => (transAt_bounds B he v c a b).ge) hgc
  have hin := fun a => (msg_near (hle v hv) hgv a).mul N.ok.ops.rnd (hdot a) (h1 a)
  have heq : ∀ a, msgStep A srv data msgs ⟨.IN, v, c, eid c⟩ v a = Flt.div A.rnd (floatServeIn A srv msgs v c (eid c) a) (fltMax (floatServeIn A srv msgs v c (eid c))) := by
    intro a
    show Function.update msgs v _ v a = _
    rw [Function.update_self]
  choose g hgg using fun a => hin a
  obtain ⟨m, hm1, -, a0, hm3⟩ := fltMax_spec (f := floatServeIn A srv msgs v c (eid c)) (g := g) fun a => (hgg a).1
  have hm : Near 0 (fltMax (floatServeIn A srv msgs v c (eid c))) (m : ℝ) := by
    rw [hm1, hm3]
    exact near_self (hgg a0).2.1 (hgg a0).2.2.1
  have hm0 : (0 : ℝ) < m := hm.pos
  refine ⟨1 / m, by positivity, fun a => ?_⟩
  have n8 : Near _ (Flt.div A.rnd (floatServeIn A srv msgs v c (eid c) a) (fltMax (floatServeIn A srv msgs v c (eid c)))) _ :=
    (hin a).div N.ok.ops.rnd hm (by have := h2 a; rw [heq a] at this; exact this.weaken (by norm_num))
  have n9 := n8.close
  have e : (1 : ℝ) / m * (realOf msgs v a * mu (servePsi r par eid esrv.edgeTrans) (realOf msgs) c a)
      = realOf msgs v a * (∑ b, transAt esrv.edgeTrans (eid c) v c a b * realOf msgs c b) / m := by
    have : mu (servePsi r par eid esrv.edgeTrans) (realOf msgs) c a = ∑ b, transAt esrv.edgeTrans (eid c) v c a b * realOf msgs c b := by
      unfold mu
      refine Finset.sum_congr rfl fun b _ => ?_
      simp only [servePsi, if_neg hcr, hpar]
    rw [this]
    ring
  rw [e]
  unfold realOf at n9 ⊢
  rw [heq a]
  exact n9.mono (by omega)

theorem sampleClear_in {v c e : Nat} {Q : List Instr} {msgs : Nat → Fin M → Flt} (h : Spec.sampleClear A srv data (⟨.IN, v, c, e⟩ :: Q) msgs = true) :
    (∀ a, FGe (-125) (floatServeIn A srv msgs v c e a)) ∧ (∀ a, FGe (-79) (msgStep A srv data msgs ⟨.IN, v, c, e⟩ v a)) ∧
      Spec.sampleClear A srv data Q (msgStep A srv data msgs ⟨.IN, v, c, e⟩) = true := by
  have h0 : (((List.finRange M).all fun a => fltGe (-125) (floatServeIn A srv msgs v c e a) && fltGe (-79) (msgStep A srv data msgs ⟨.IN, v, c, e⟩ v a)) &&
      Spec.sampleClear A srv data Q (msgStep A srv data msgs ⟨.IN, v, c, e⟩)) = true := h
  rw [Bool.and_eq_true, List.all_eq_true] at h0
  refine ⟨fun a => ?_, fun a => ?_, h0.2⟩
  · have := h0.1 a (List.mem_finRange a)
    rw [Bool.and_eq_true] at this
    exact fltGe_iff.1 this.1
  · have := h0.1 a (List.mem_finRange a)
    rw [Bool.and_eq_true] at this
    exact fltGe_iff.1 this.2

theorem sampleClear_out {v v2 e : Nat} {Q : List Instr} {msgs : Nat → Fin M → Flt} (h : Spec.sampleClear A srv data (⟨.OUT, v, v2, e⟩ :: Q) msgs = true) :
    (∀ a b, FGe (-125) (Flt.div A.rnd (outRow A srv msgs v v2 e a b) (fltMax (outRow A srv msgs v v2 e a)))) ∧ Spec.sampleClear A srv data Q msgs = true := by
  have h0 : (((List.finRange M).all fun a => (List.finRange M).all fun b =>
          fltGe (-125) (Flt.div A.rnd (outRow A srv msgs v v2 e a b) (fltMax (outRow A srv msgs v v2 e a)))) && Spec.sampleClear A srv data Q msgs) = true := h
  rw [Bool.and_eq_true, List.all_eq_true] at h0
  exact ⟨fun a b => fltGe_iff.1 (List.all_eq_true.1 (h0.1 a (List.mem_finRange a)) b (List.mem_finRange b)), h0.2⟩

/-- The OP_IN steps of one vertex. -/
theorem sampleIns_near (N : Spec.ServeOpsNear A ε) (hM : M ≤ 128) (B : ServeBounds model.tree.numVertices (model.tree.numVertices - 1) srv) (S : ServeNear model kv kt kc srv) (s : Serves model esrv)
    (P : Plan model r par ch eid L) (hids : ∀ c ∈ model.tree.treeGrid, c.1 < model.tree.numVertices - 1) {v : Nat} (hv : v < model.tree.numVertices) (Q : List Instr) : ∀ (cs : List Nat),
    (∀ c ∈ cs, c < model.tree.numVertices ∧ c ≠ r ∧ par c = v ∧ c ≠ v) → ∀ {U : List Nat} {msgs : Nat → Fin M → Flt}, ServeInv model.tree.numVertices U msgs → (∀ a, FGe (-79) (msgs v a)) →
    (∀ c ∈ cs, ∀ a, FGe (-79) (msgs c a)) → Spec.sampleClear A srv data (cs.map (fun c => (⟨.IN, v, c, eid c⟩ : Instr)) ++ Q) msgs = true →
    ∃ msgs', (cs.map fun c => (⟨.IN, v, c, eid c⟩ : Instr)).foldl (msgStep A srv data) msgs = msgs' ∧ Spec.sampleClear A srv data Q msgs' = true ∧
      ServeInv model.tree.numVertices U msgs' ∧ (∀ w, w ≠ v → msgs' w = msgs w) ∧ (∀ a, FGe (-79) (msgs' v a)) ∧
      ∃ γ : ℝ, 0 < γ ∧ ∀ a, Close (cs.length * (kt + M + 3)) (realOf msgs' v a) (γ * (realOf msgs v a * (cs.map fun c => mu (servePsi r par eid esrv.edgeTrans) (realOf msgs) c a).prod)) := by
  intro cs
  induction cs with
  | nil =>
    intro _ U msgs I hg _ hcl
    refine ⟨msgs, rfl, hcl, I, fun _ _ => rfl, hg, 1, one_pos, fun a => ?_⟩
    have h1 := (msg_near (I.all v hv).1 hg a).close
    simpa [realOf] using h1
  | cons c cs ih =>
    intro hcs U msgs I hg hgc hcl
    obtain ⟨c1, c3, c4, c5⟩ := hcs c List.mem_cons_self
    obtain ⟨k1, k2, k3⟩ := sampleClear_in hcl
    have he : eid c < model.tree.numVertices - 1 := by
      have := hids _ (plan_grid P c1 c3)
      split at this <;> exact this
    have hin := floatServeIn_ok hM N.ok B (v := v) (v2 := c) he (I.all v hv) (I.all c c1)
    have I' : ServeInv model.tree.numVertices U (msgStep A srv data msgs ⟨.IN, v, c, eid c⟩) := serveInv_update I ((hin.scale N.ok.ops.rnd).weaken (by norm_num) (le_refl _))
    have hne : ∀ w, w ≠ v → msgStep A srv data msgs ⟨.IN, v, c, eid c⟩ w = msgs w := fun w hw => Function.update_of_ne hw _ _
    obtain ⟨γ, hγ, h1⟩ := sampleIn_near N B S s P hids hv c1 c3 c4 (fun w hw => (I.all w hw).1) hg (hgc c List.mem_cons_self) k1 k2
    obtain ⟨msgs', e1, e2, e3, e5, e6, γ', hγ', e7⟩ := ih (fun d hd => hcs d (List.mem_cons_of_mem _ hd)) I' k2
      (fun d hd a => by rw [hne d (hcs d (List.mem_cons_of_mem _ hd)).2.2.2]; exact hgc d (List.mem_cons_of_mem _ hd) a) k3
    refine ⟨msgs', ?_, e2, e3, fun w hw => by rw [e5 w hw, hne w hw], e6, γ' * γ, mul_pos hγ' hγ, fun a => ?_⟩
    · rw [List.map_cons, List.foldl_cons]
      exact e1
    · have hmu : ∀ d ∈ cs, mu (servePsi r par eid esrv.edgeTrans) (realOf (msgStep A srv data msgs ⟨.IN, v, c, eid c⟩)) d a
          = mu (servePsi r par eid esrv.edgeTrans) (realOf msgs) d a := by
        intro d hd
        unfold mu
        rw [realOf_congr (hne d (hcs d (List.mem_cons_of_mem _ hd)).2.2.2)]
      have e8 := e7 a
      rw [List.map_congr_left hmu] at e8
      set X := (cs.map fun d => mu (servePsi r par eid esrv.edgeTrans) (realOf msgs) d a).prod with hX
      have hpos : 0 < X := by
        have := e8.2.1
        rw [mul_pos_iff_of_pos_left hγ'] at this
        exact (pos_iff_pos_of_mul_pos this).1 (h1 a).1
      have e9 := ((h1 a).scale hpos).scale hγ'
      have e10 := e8.trans (by
        rw [show γ' * (realOf (msgStep A srv data msgs ⟨.IN, v, c, eid c⟩) v a * X) = realOf (msgStep A srv data msgs ⟨.IN, v, c, eid c⟩) v a * X * γ' by ring]
        exact e9)
      rw [List.length_cons, Nat.add_mul, Nat.one_mul]
      rw [List.map_cons, List.prod_cons]
      convert e10 using 1
      ring

/-- The inward phase: the final messages satisfy the local equations up to roundings. -/
theorem sampleInward_near (N : Spec.ServeOpsNear A ε) (hM : M ≤ 128) (B : ServeBounds model.tree.numVertices (model.tree.numVertices - 1) srv) (S : ServeNear model kv kt kc srv)
    (hr : srv.raggedIndex = model.raggedIndex) (s : Serves model esrv) (P : Plan model r par ch eid L) (hids : ∀ c ∈ model.tree.treeGrid, c.1 < model.tree.numVertices - 1)
    (hrow : Spec.SingleRow model data) (tail : List Instr) (hcl : Spec.sampleClear A srv data (L.reverse.flatMap (inBlock ch eid) ++ tail) srv.vert = true) :
    ∃ msgs, (L.reverse.flatMap (inBlock ch eid)).foldl (msgStep A srv data) srv.vert = msgs ∧ Spec.sampleClear A srv data tail msgs = true ∧
      (∀ v < model.tree.numVertices, Msg (-48) 0 (msgs v)) ∧ (∀ v < model.tree.numVertices, ∀ a, FGe (-79) (msgs v a)) ∧
      ∀ v < model.tree.numVertices, ∃ γ : ℝ, 0 < γ ∧ ∀ a, Close (kv + kc + 1 + (ch v).length * (kt + M + 3)) (realOf msgs v a)
        (γ * (vertMean model v a * serveU model data v a * ((ch v).map fun c => mu (servePsi r par eid esrv.edgeTrans) (realOf msgs) c a).prod)) := by
  have T := P.topo
  have key : ∀ D C, L = C ++ D → ∃ msgs, (D.reverse.flatMap (inBlock ch eid)).foldl (msgStep A srv data) srv.vert = msgs ∧
      Spec.sampleClear A srv data (C.reverse.flatMap (inBlock ch eid) ++ tail) msgs = true ∧ ServeInv model.tree.numVertices D msgs ∧
      (∀ v ∈ C, msgs v = srv.vert v) ∧ (∀ v ∈ D, ∀ a, FGe (-79) (msgs v a)) ∧
      ∀ v ∈ D, ∃ γ : ℝ, 0 < γ ∧ ∀ a, Close (kv + kc + 1 + (ch v).length * (kt + M + 3)) (realOf msgs v a)
        (γ * (vertMean model v a * serveU model data v a * ((ch v).map fun c => mu (servePsi r par eid esrv.edgeTrans) (realOf msgs) c a).prod)) := by
    intro D
    induction D with
    | nil =>
      intro C hL
      rw [List.append_nil] at hL
      subst hL
      exact ⟨_, rfl, hcl, serveInv_init B, fun v _ => rfl, by simp, by simp⟩
    | cons x D ih =>
      intro C hL
      obtain ⟨m1, h1, h2, h4, h5, h6, h7⟩ := ih (C ++ [x]) (by rw [hL]; simp)
      have hn := T.nodup
      rw [hL, List.nodup_append, List.nodup_cons] at hn
      have hxV : x < model.tree.numVertices := T.mem.1 (by rw [hL]; simp)
      have hxD : x ∉ D := hn.2.1.1
      have hchx : ∀ c ∈ ch x, c < model.tree.numVertices ∧ c ≠ r ∧ par c = x ∧ c ∈ D := by
        intro c hc
        obtain ⟨a1, a2, a3⟩ := (T.ch_mem x hxV c).1 hc
        refine ⟨a1, a2, a3, ?_⟩
        have hcL : c ∈ L := T.mem.2 a1
        rw [hL, List.mem_append, List.mem_cons] at hcL
        rcases hcL with hcC | rfl | hcD
        · exfalso
          obtain ⟨C1, C2, hC⟩ := List.append_of_mem hcC
          have := T.before C1 c (C2 ++ x :: D) (by rw [hL, hC]; simp) a2
          rw [a3] at this
          exact hn.2.2 x (by rw [hC]; simp [this]) x (by simp) rfl
        · exfalso
          have := T.before C c D hL a2
          rw [a3] at this
          exact hn.2.2 c this c (by simp) rfl
        · exact hcD
      have hDch : ∀ v ∈ D, ∀ c ∈ ch v, c ≠ x := by
        intro v hv c hc hcx
        subst hcx
        obtain ⟨a1, a2, a3⟩ := (T.ch_mem v (T.mem.1 (by rw [hL]; simp [hv])) c).1 hc
        have := T.before C c D hL a2
        rw [a3] at this
        exact hn.2.2 v this v (by simp [hv]) rfl
      rw [List.reverse_append, List.reverse_singleton, List.singleton_append, List.flatMap_cons] at h2
      have h2' : Spec.sampleClear A srv data (⟨.UP, x, 0, 0⟩ :: ((ch x).map (fun c => (⟨.IN, x, c, eid c⟩ : Instr)) ++ (C.reverse.flatMap (inBlock ch eid) ++ tail))) m1 = true := by
        rw [← h2]
        unfold inBlock
        simp
      obtain ⟨u4, u5, u6⟩ := sampleUp_near N.ok B S hr hrow hxV (h5 x (by simp))
      have u2 := serveInv_up (skip := true) N.ok B hrow.1 (singleRow_sum hrow hr) h4 hxV hxD
      have hcl2 : Spec.sampleClear A srv data ((ch x).map (fun c => (⟨.IN, x, c, eid c⟩ : Instr)) ++ (C.reverse.flatMap (inBlock ch eid) ++ tail)) (floatServeUp A srv true data m1 x) = true := h2'
      obtain ⟨m3, i1, i2, i3, i5, i6, γ, hγ, i7⟩ := sampleIns_near N hM B S s P hids hxV _ (ch x)
        (fun c hc => ⟨(hchx c hc).1, (hchx c hc).2.1, (hchx c hc).2.2.1, fun e => hxD (e ▸ (hchx c hc).2.2.2)⟩) u2 u5
        (fun c hc a => by rw [u4 c fun e => hxD (e ▸ (hchx c hc).2.2.2)]; exact h6 c (hchx c hc).2.2.2 a) hcl2
      have hne : ∀ w, w ≠ x → m3 w = m1 w := fun w hw => by rw [i5 w hw, u4 w hw]
      have hmu : ∀ c, c ≠ x → ∀ a, mu (servePsi r par eid esrv.edgeTrans) (realOf m3) c a = mu (servePsi r par eid esrv.edgeTrans) (realOf m1) c a := by
        intro c hc a
        unfold mu
        rw [realOf_congr (hne c hc)]
      have hmu2 : ∀ c, c ≠ x → ∀ a, mu (servePsi r par eid esrv.edgeTrans) (realOf m3) c a = mu (servePsi r par eid esrv.edgeTrans) (realOf (floatServeUp A srv true data m1 x)) c a := by
        intro c hc a
        unfold mu
        rw [realOf_congr (i5 c hc)]
      refine ⟨m3, ?_, i2, i3, ?_, ?_, ?_⟩
      · rw [List.reverse_cons, List.flatMap_append, List.foldl_append, h1, List.flatMap_singleton]
        unfold inBlock
        rw [List.foldl_cons]
        exact i1
      · intro v hv
        have hvx : v ≠ x := fun e => hn.2.2 v hv x (by simp) e
        rw [hne v hvx]
        exact h5 v (by simp [hv])
      · intro v hv a
        by_cases hvx : v = x
        · subst hvx; exact i6 a
        · rw [hne v hvx]
          exact h6 v ((List.mem_cons.1 hv).resolve_left hvx) a
      · intro v hv
        by_cases hvx : v = x
        · subst hvx
          refine ⟨γ, hγ, fun a => ?_⟩
          have hch : ∀ c ∈ ch v, mu (servePsi r par eid esrv.edgeTrans) (realOf m3) c a = mu (servePsi r par eid esrv.edgeTrans) (realOf (floatServeUp A srv true data m1 v)) c a :=
            fun c hc => hmu2 c (fun e => hxD (e ▸ (hchx c hc).2.2.2)) a
          rw [List.map_congr_left hch]
          have e8 := i7 a
          set X := ((ch v).map fun c => mu (servePsi r par eid esrv.edgeTrans) (realOf (floatServeUp A srv true data m1 v)) c a).prod with hX
          have hpos : 0 < X := by
            have := e8.2.1
            rw [mul_pos_iff_of_pos_left hγ] at this
            exact (pos_iff_pos_of_mul_pos this).1 (u6 a).1
          have e9 := ((u6 a).scale hpos).scale hγ
          have e10 := e8.trans (by
            rw [show γ * (realOf (floatServeUp A srv true data m1 v) v a * X) = realOf (floatServeUp A srv true data m1 v) v a * X * γ by ring]
            exact e9)
          rw [show γ * (vertMean model v a * serveU model data v a * X) = vertMean model v a * serveU model data v a * X * γ by ring]
          exact e10.mono (by omega)
        · have hvD : v ∈ D := (List.mem_cons.1 hv).resolve_left hvx
          obtain ⟨γ', hγ', h8⟩ := h7 v hvD
          refine ⟨γ', hγ', fun a => ?_⟩
          rw [realOf_congr (hne v hvx), List.map_congr_left fun c hc => hmu c (hDch v hvD c hc) a]
          exact h8 a
  obtain ⟨msgs, h1, h2, h3, -, h5, h6⟩ := key L [] rfl
  exact ⟨msgs, h1, by simpa using h2, h3.all, fun v hv => h5 v (T.mem.2 hv), fun v hv => h6 v (T.mem.2 hv)⟩

end

end TreeCat
