import Verif.Lemmas.FloatSampleIn

/-! # The draws of a sample in float32 -/

namespace TreeCat

open Util Spec
open scoped BigOperators

section
set_option linter.unusedSectionVars false
variable {M : Nat} [NeZero M] {A : ServeOps M} {model : Model ℝ M} {ε : ℝ} {kv kt kc : Nat} {srv : FloatServer M} {esrv : Server ℝ M} {data counts : List Int}
  {r : Nat} {par : Nat → Nat} {ch : Nat → List Nat} {L : List Nat} {eid : Nat → Nat}

/-! ### The program as draws -/

/-- The weights from which the class of `v` is drawn. -/
def serveOutW (A : ServeOps M) (srv : FloatServer M) (r : Nat) (par eid : Nat → Nat) (msgs : Nat → Fin M → Flt) (v : Nat) (z : Nat → Fin M) : Fin M → Flt :=
  if v = r then msgs r else fun b => Flt.div A.rnd (outRow A srv msgs v (par v) (eid v) (z (par v)) b) (fltMax (outRow A srv msgs v (par v) (eid v) (z (par v))))

/-- The class that is drawn for `v` when those before it are as in `z`. -/
def servePick (A : ServeOps M) (srv : FloatServer M) (r : Nat) (par eid : Nat → Nat) (msgs : Nat → Fin M → Flt) (v : Nat) (z : Nat → Fin M) (d : Nat) : Fin M :=
  floatPick A.toFloatOps (serveOutW A srv r par eid msgs v z) d

/-- The observations in the order in which they are drawn. -/
def obsList (counts : List Int) (B : List Nat) : List (Nat × Nat) := B.flatMap fun v => (List.range (counts.getD v 0).toNat).map fun k => (v, k)

/-- The observations, for given classes. -/
def obsFold (A : ServeOps M) (srv : FloatServer M) (counts : List Int) (dF : Nat → Nat → Nat) (z : Nat → Fin M) (B : List Nat) (f : Nat → Int) : Nat → Int :=
  (obsList counts B).foldl (fun f b => obsPick A srv b.1 (z b.1) (dF b.1 b.2) f) f

theorem obsFold_cons (dF : Nat → Nat → Nat) (z : Nat → Fin M) (v : Nat) (B : List Nat) (f : Nat → Int) :
    obsFold A srv counts dF z (v :: B) f = obsFold A srv counts dF z B ((List.range (counts.getD v 0).toNat).foldl (fun f k => obsPick A srv v (z v) (dF v k) f) f) := by
  unfold obsFold obsList
  rw [List.flatMap_cons, List.foldl_append, List.foldl_map]

theorem pickChain_notMem (pick : Nat → (Nat → Fin M) → Nat → Fin M) (B : List Nat) (z : Nat → Fin M) (d : Nat → Nat) {v : Nat} (hv : v ∉ B) : pickChain pick B z d v = z v := by
  induction B generalizing z with
  | nil => rfl
  | cons u B ih =>
    simp only [pickChain]
    rw [ih _ fun h => hv (List.mem_cons_of_mem _ h), Function.update_of_ne fun e => hv (by simp [e])]

theorem serveOutW_msg (O : Spec.ServeOpsOk A) (B : ServeBounds model.tree.numVertices (model.tree.numVertices - 1) srv) (heid : ∀ v < model.tree.numVertices, v ≠ r → eid v < model.tree.numVertices - 1)
    {msgs : Nat → Fin M → Flt} (hmsg : ∀ v < model.tree.numVertices, Msg (-48) 0 (msgs v)) {v : Nat} (hv : v < model.tree.numVertices) (z : Nat → Fin M) :
    Msg (-48) 0 (serveOutW A srv r par eid msgs v z) := by
  unfold serveOutW
  split
  · next h => rw [← h]; exact hmsg v hv
  · next h =>
    have := floatServeOut_ok O B (s := { messagesIn := msgs, messagesOut := msgs, vertSample := z, featSample := fun _ => 0 }) (v := v) (v2 := par v) (heid v hv h) (hmsg v hv)
    exact (this.scale O.ops.rnd).weaken (by norm_num) (le_refl _)

/-- One OP_DOWN step. -/
theorem sampleDown_pick (O : Spec.ServeOpsOk A) (S : ServeNear model kv kt kc srv) (hr : srv.raggedIndex = model.raggedIndex)
    (hne : ∀ v < model.tree.numVertices, (counts.getD v 0).toNat ≠ 0 → (columns model v).Nonempty) {d : Nat → Nat} {dF : Nat → Nat → Nat} (hd : ∀ v, d v < 2 ^ 53)
    {v : Nat} (hv : v < model.tree.numVertices) {s : FloatDraw M} {lo hi : Int} (hout : Msg lo hi (s.messagesOut v)) :
    floatSampleStep A srv counts data (fun v => (d v : ℚ) / 2 ^ 53) (fun v k => (dF v k : ℚ) / 2 ^ 53) s ⟨.DOWN, v, 0, 0⟩
      = .ok { s with
          vertSample := Function.update s.vertSample v (floatPick A.toFloatOps (s.messagesOut v) (d v))
          featSample := (List.range (counts.getD v 0).toNat).foldl (fun f k => obsPick A srv v (floatPick A.toFloatOps (s.messagesOut v) (d v)) (dF v k) f) s.featSample } := by
  simp only [floatSampleStep]
  rw [floatPick_ok O.ops hout (hd v)]
  simp only [bind, Except.bind]
  rw [floatDrawFeatures_pick S hr hv _ (dF v) _ (hne v hv)]

theorem sampleOutward_pick (O : Spec.ServeOpsOk A) (B : ServeBounds model.tree.numVertices (model.tree.numVertices - 1) srv) (S : ServeNear model kv kt kc srv)
    (hr : srv.raggedIndex = model.raggedIndex) (heid : ∀ v < model.tree.numVertices, v ≠ r → eid v < model.tree.numVertices - 1)
    (hne : ∀ v < model.tree.numVertices, (counts.getD v 0).toNat ≠ 0 → (columns model v).Nonempty) {d : Nat → Nat} {dF : Nat → Nat → Nat} (hd : ∀ v, d v < 2 ^ 53)
    {msgs : Nat → Fin M → Flt} (hmsg : ∀ v < model.tree.numVertices, Msg (-48) 0 (msgs v)) : ∀ (D : List Nat) (s : FloatDraw M), D.Nodup → r ∉ D → (∀ v ∈ D, v < model.tree.numVertices) →
    s.messagesIn = msgs → ∃ s', (D.flatMap (outBlock r par eid)).foldlM (floatSampleStep A srv counts data (fun v => (d v : ℚ) / 2 ^ 53) fun v k => (dF v k : ℚ) / 2 ^ 53) s = .ok s' ∧
      s'.vertSample = pickChain (servePick A srv r par eid msgs) D s.vertSample d ∧ s'.featSample = obsFold A srv counts dF s'.vertSample D s.featSample := by
  intro D
  induction D with
  | nil => intro s _ _ _ _; exact ⟨s, rfl, rfl, rfl⟩
  | cons v D ih =>
    intro s hn hrD hlt hs
    rw [List.nodup_cons] at hn
    have hvr : v ≠ r := fun h => hrD (by simp [h])
    have hv := hlt v List.mem_cons_self
    have hw : serveOutW A srv r par eid msgs v s.vertSample
        = fun b => Flt.div A.rnd (floatServeOut A srv s v (par v) (eid v) b) (fltMax (floatServeOut A srv s v (par v) (eid v))) := by
      unfold serveOutW
      rw [if_neg hvr, ← hs]
      rfl
    have hm := serveOutW_msg O B heid hmsg (par := par) hv s.vertSample
    set s1 : FloatDraw M := { s with messagesOut := Function.update s.messagesOut v (serveOutW A srv r par eid msgs v s.vertSample) } with hs1
    have e1 : floatSampleStep A srv counts data (fun v => (d v : ℚ) / 2 ^ 53) (fun v k => (dF v k : ℚ) / 2 ^ 53) s ⟨.OUT, v, par v, eid v⟩ = .ok s1 := by
      simp only [floatSampleStep]
      rw [hs1, hw]
    have e2 : s1.messagesOut v = serveOutW A srv r par eid msgs v s.vertSample := Function.update_self ..
    have e3 := sampleDown_pick (data := data) O S hr hne hd (dF := dF) hv (s := s1) (e2 ▸ hm)
    rw [e2] at e3
    obtain ⟨s', h1, h2, h3⟩ := ih { s1 with
        vertSample := Function.update s.vertSample v (servePick A srv r par eid msgs v s.vertSample (d v))
        featSample := (List.range (counts.getD v 0).toNat).foldl (fun f k => obsPick A srv v (servePick A srv r par eid msgs v s.vertSample (d v)) (dF v k) f) s.featSample }
      hn.2 (fun h => hrD (List.mem_cons_of_mem _ h)) (fun w hw => hlt w (List.mem_cons_of_mem _ hw)) hs
    refine ⟨s', ?_, h2, ?_⟩
    · rw [List.flatMap_cons]
      simp only [outBlock, if_neg hvr, List.cons_append, List.nil_append, List.foldlM_cons]
      rw [e1]
      simp only [bind, Except.bind]
      rw [e3]
      exact h1
    · have hz : s'.vertSample v = servePick A srv r par eid msgs v s.vertSample (d v) := by
        rw [h2, pickChain_notMem _ _ _ _ hn.1]
        exact Function.update_self ..
      rw [obsFold_cons, hz]
      exact h3

/-- The inward phase only changes `messages_in`. -/
theorem sampleInward_fold (draw : Nat → ℚ) (drawF : Nat → Nat → ℚ) : ∀ (prog : List Instr), (∀ i ∈ prog, i.op = .UP ∨ i.op = .IN) → ∀ s : FloatDraw M,
    prog.foldlM (floatSampleStep A srv counts data draw drawF) s = .ok { s with messagesIn := prog.foldl (msgStep A srv data) s.messagesIn } := by
  intro prog
  induction prog with
  | nil => intro _ s; rfl
  | cons i prog ih =>
    intro hi s
    have h1 : floatSampleStep A srv counts data draw drawF s i = .ok { s with messagesIn := msgStep A srv data s.messagesIn i } := by
      rcases hi i List.mem_cons_self with h | h <;> simp only [floatSampleStep, msgStep, h]
    rw [List.foldlM_cons, h1]
    exact ih (fun j hj => hi j (List.mem_cons_of_mem _ hj)) _

theorem sampleProgram_pick (O : Spec.ServeOpsOk A) (B : ServeBounds model.tree.numVertices (model.tree.numVertices - 1) srv) (S : ServeNear model kv kt kc srv)
    (hr : srv.raggedIndex = model.raggedIndex) (heid : ∀ v < model.tree.numVertices, v ≠ r → eid v < model.tree.numVertices - 1) (T : Topo model.tree.numVertices r par ch L)
    (hne : ∀ v < model.tree.numVertices, (counts.getD v 0).toNat ≠ 0 → (columns model v).Nonempty) {d : Nat → Nat} {dF : Nat → Nat → Nat} (hd : ∀ v, d v < 2 ^ 53)
    {msgs : Nat → Fin M → Flt} (hmsg : ∀ v < model.tree.numVertices, Msg (-48) 0 (msgs v)) {s0 : FloatDraw M}
    (hin : (L.reverse.flatMap (inBlock ch eid)).foldl (msgStep A srv data) s0.messagesIn = msgs) :
    ∃ s', (progOf r par ch eid L).foldlM (floatSampleStep A srv counts data (fun v => (d v : ℚ) / 2 ^ 53) fun v k => (dF v k : ℚ) / 2 ^ 53) s0 = .ok s' ∧
      s'.vertSample = pickChain (servePick A srv r par eid msgs) L s0.vertSample d ∧ s'.featSample = obsFold A srv counts dF s'.vertSample L s0.featSample := by
  obtain ⟨D, rfl⟩ := T.head
  have hn := T.nodup
  rw [List.nodup_cons] at hn
  have hrV := T.root_lt
  set s1 : FloatDraw M := { s0 with messagesIn := msgs, messagesOut := Function.update s0.messagesOut r (msgs r) } with hs1
  have hw : serveOutW A srv r par eid msgs r s0.vertSample = msgs r := if_pos rfl
  have e2 : s1.messagesOut r = msgs r := Function.update_self ..
  have e3 := sampleDown_pick (data := data) O S hr hne hd (dF := dF) hrV (s := s1) (e2 ▸ hmsg r hrV)
  rw [e2, ← hw] at e3
  obtain ⟨s', h1, h2, h3⟩ := sampleOutward_pick (data := data) (par := par) O B S hr heid hne hd (dF := dF) hmsg D { s1 with
        vertSample := Function.update s0.vertSample r (servePick A srv r par eid msgs r s0.vertSample (d r))
        featSample := (List.range (counts.getD r 0).toNat).foldl (fun f k => obsPick A srv r (servePick A srv r par eid msgs r s0.vertSample (d r)) (dF r k) f) s0.featSample }
    hn.2 hn.1 (fun v hv => T.mem.1 (List.mem_cons_of_mem _ hv)) rfl
  refine ⟨s', ?_, h2, ?_⟩
  · unfold progOf
    rw [List.foldlM_append, List.foldlM_append, sampleInward_fold _ _ _ (inBlocks_ops _), hin]
    simp only [List.flatMap_cons, outBlock, if_true, List.cons_append, List.nil_append, List.foldlM_cons, List.foldlM_nil, bind, Except.bind, pure, Except.pure]
    have e1 : floatSampleStep A srv counts data (fun v => (d v : ℚ) / 2 ^ 53) (fun v k => (dF v k : ℚ) / 2 ^ 53) { s0 with messagesIn := msgs } ⟨.ROOT, r, 0, 0⟩ = .ok s1 := rfl
    rw [e1]
    simp only
    rw [e3]
    exact h1
  · have hz : s'.vertSample r = servePick A srv r par eid msgs r s0.vertSample (d r) := by
      rw [h2, pickChain_notMem _ _ _ _ hn.1]
      exact Function.update_self ..
    rw [obsFold_cons, hz]
    exact h3

/-! ### The weights of a draw -/

/-- The exact weights for the messages `g`. -/
def exactW (r : Nat) (par eid : Nat → Nat) (trans : Nat → Fin M → Fin M → ℝ) (g : Nat → Fin M → ℝ) (v : Nat) (z : Nat → Fin M) (m : Fin M) : ℝ :=
  if v = r then g v m else g v m * transAt trans (eid v) (par v) v (z (par v)) m

theorem exactW_cond (P : Plan model r par ch eid L) (trans : Nat → Fin M → Fin M → ℝ) (g : Nat → Fin M → ℝ) {v : Nat} (hv : v < model.tree.numVertices) (z : Nat → Fin M) (m : Fin M) :
    exactW r par eid trans g v z m / ∑ m', exactW r par eid trans g v z m' = condProb r par (servePsi r par eid trans) g v (Function.update z v m) := by
  unfold exactW condProb
  by_cases hvr : v = r
  · subst hvr
    simp only [if_true, Function.update_self]
  · have hne := (P.parent v hv hvr).2
    simp only [if_neg hvr, Function.update_self, Function.update_of_ne hne, mu, servePsi]
    congr 1
    · ring
    · exact Finset.sum_congr rfl fun m' _ => by ring

theorem sampleClear_outs {msgs : Nat → Fin M → Flt} : ∀ (D : List Nat), Spec.sampleClear A srv data (D.flatMap (outBlock r par eid)) msgs = true → ∀ v ∈ D, v ≠ r → ∀ a b,
    FGe (-125) (Flt.div A.rnd (outRow A srv msgs v (par v) (eid v) a b) (fltMax (outRow A srv msgs v (par v) (eid v) a))) := by
  intro D
  induction D with
  | nil => intro _ v hv; cases hv
  | cons u D ih =>
    intro h v hv hvr
    rw [List.flatMap_cons] at h
    by_cases hu : u = r
    · have h' : Spec.sampleClear A srv data (⟨.DOWN, u, 0, 0⟩ :: D.flatMap (outBlock r par eid)) msgs = true := by
        rw [← h, outBlock, if_pos hu]
        rfl
      exact ih h' v ((List.mem_cons.1 hv).resolve_left fun e => hvr (e.trans hu)) hvr
    · have h' : Spec.sampleClear A srv data (⟨.OUT, u, par u, eid u⟩ :: ⟨.DOWN, u, 0, 0⟩ :: D.flatMap (outBlock r par eid)) msgs = true := by
        rw [← h, outBlock, if_neg hu]
        rfl
      obtain ⟨h1, h2⟩ := sampleClear_out h'
      rcases List.mem_cons.1 hv with rfl | hv
      · exact h1
      · exact ih h2 v hv hvr

/-- One class, drawn in float32. -/
theorem servePick_average (O : Spec.ServeOpsOk A) (hM : M ≤ 128) (B : ServeBounds model.tree.numVertices (model.tree.numVertices - 1) srv) (S : ServeNear model kv kt kc srv) (s : Serves model esrv)
    (P : Plan model r par ch eid L) (heid : ∀ v < model.tree.numVertices, v ≠ r → eid v < model.tree.numVertices - 1) {msgs : Nat → Fin M → Flt}
    (hle : ∀ v < model.tree.numVertices, ∀ a, FLe 0 (msgs v a)) (hge : ∀ v < model.tree.numVertices, ∀ a, FGe (-79) (msgs v a))
    (hcl : ∀ v ∈ L, v ≠ r → ∀ a b, FGe (-125) (Flt.div A.rnd (outRow A srv msgs v (par v) (eid v) a b) (fltMax (outRow A srv msgs v (par v) (eid v) a))))
    {v : Nat} (hvL : v ∈ L) (z : Nat → Fin M) {f : Fin M → ℝ} {lo hi : ℝ} (hf : ∀ a, lo ≤ f a ∧ f a ≤ hi) :
    |(∑ d ∈ Finset.range (2 ^ 53), f (servePick A srv r par eid msgs v z d)) / ((2 ^ 53 : Nat) : ℝ)
      - (∑ a, exactW r par eid esrv.edgeTrans (realOf msgs) v z a * f a) / ∑ a, exactW r par eid esrv.edgeTrans (realOf msgs) v z a| ≤ drawErr M (kt + 2) * (hi - lo) := by
  have hv := P.topo.mem.1 hvL
  unfold servePick serveOutW exactW
  by_cases hvr : v = r
  · subst hvr
    simp only [if_true]
    exact floatPick_average O.ops hM (fun a => (msg_near (hle v hv) (hge v hv) a).mono (Nat.zero_le (kt + 2))) hf
  · simp only [if_neg hvr]
    have he := heid v hv hvr
    have hne := (P.parent v hv hvr).2
    have hgrid := plan_grid P hv hvr
    have hrow : ∀ b, Near (kt + 1) (outRow A srv msgs v (par v) (eid v) (z (par v)) b) (realOf msgs v b * transAt esrv.edgeTrans (eid v) (par v) v (z (par v)) b) := fun b =>
      ((msg_near (hle v hv) (hge v hv) b).mul O.ops.rnd (transAt_near S s hne hgrid (z (par v)) b)
        (FGe.mul O.ops.rnd (hge v hv b) (transAt_bounds B he _ _ _ _).ge (by norm_num) |>.weaken (by norm_num))).mono (by omega)
    choose g hgg using fun a => hrow a
    obtain ⟨m, hm1, -, a0, hm3⟩ := fltMax_spec (f := outRow A srv msgs v (par v) (eid v) (z (par v))) (g := g) fun a => (hgg a).1
    have hm : Near 0 (fltMax (outRow A srv msgs v (par v) (eid v) (z (par v)))) (m : ℝ) := by
      rw [hm1, hm3]
      exact near_self (hgg a0).2.1 (hgg a0).2.2.1
    have hm0 : (0 : ℝ) < m := hm.pos
    have hdiv : ∀ b, Near (kt + 2) (Flt.div A.rnd (outRow A srv msgs v (par v) (eid v) (z (par v)) b) (fltMax (outRow A srv msgs v (par v) (eid v) (z (par v)))))
        (realOf msgs v b * transAt esrv.edgeTrans (eid v) (par v) v (z (par v)) b / m) := fun b =>
      ((hrow b).div O.ops.rnd hm (hcl v hvL hvr _ b)).mono (by omega)
    have := floatPick_average O.ops hM hdiv hf
    rw [← Finset.sum_div, show (∑ a, realOf msgs v a * transAt esrv.edgeTrans (eid v) (par v) v (z (par v)) a / (m : ℝ) * f a)
      = (∑ a, realOf msgs v a * transAt esrv.edgeTrans (eid v) (par v) v (z (par v)) a * f a) / m by
        rw [Finset.sum_div]
        exact Finset.sum_congr rfl fun a _ => by ring, div_div_div_cancel_right₀ hm0.ne'] at this
    exact this

end

end TreeCat
