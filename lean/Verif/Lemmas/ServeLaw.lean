import Verif.Lemmas.ServeDraw

/-!
# Sampling from the server: the law of one sample
-/

set_option linter.unusedSectionVars false

namespace TreeCat

open Spec Util

section
variable {K : Type} [Field K] [LinearOrder K] [IsStrictOrderedRing K] {M : Nat} [NeZero M]
variable {model : Model K M} {srv : Server K M}

/-! ### Observations -/

theorem observe_append (z : Nat → Fin M) (gs : List Nat) (k : (Nat → Int) → K) : ∀ (fs : List Nat) (x : Nat → Int),
    observe model z (fs ++ gs) x k = observe model z fs x fun x => observe model z gs x k := by
  intro fs
  induction fs with
  | nil => intro x; rfl
  | cons v fs ih => intro x; simp only [List.cons_append, observe, ih]

theorem observe_congr_z {z z' : Nat → Fin M} (k : (Nat → Int) → K) : ∀ (fs : List Nat) (x : Nat → Int), (∀ v ∈ fs, z v = z' v) →
    observe model z fs x k = observe model z' fs x k := by
  intro fs
  induction fs with
  | nil => intro x _; rfl
  | cons v fs ih =>
    intro x h
    simp only [observe, h v (by simp)]
    exact Finset.sum_congr rfl fun r _ => by rw [ih _ fun v hv => h v (by simp [hv])]

theorem observe_congr {z : Nat → Fin M} {k k' : (Nat → Int) → K} : ∀ (fs : List Nat) (x : Nat → Int),
    (∀ x', (∀ r, (∀ v ∈ fs, r ∉ columns model v) → x' r = x r) → k x' = k' x') →
    observe model z fs x k = observe model z fs x k' := by
  intro fs
  induction fs with
  | nil => intro x h; exact h x fun _ _ => rfl
  | cons v fs ih =>
    intro x h
    simp only [observe]
    refine Finset.sum_congr rfl fun r hr => ?_
    congr 1
    refine ih _ fun x' hx' => h x' fun r' hr' => ?_
    rw [hx' r' fun w hw => hr' w (by simp [hw])]
    exact Function.update_of_ne (fun h => hr' v (by simp) (by rw [h]; exact hr)) _ _

theorem observe_perm {z : Nat → Fin M} (k : (Nat → Int) → K) {fs gs : List Nat} (h : fs.Perm gs) : ∀ x : Nat → Int,
    observe model z fs x k = observe model z gs x k := by
  induction h with
  | nil => intro x; rfl
  | cons v _ ih => intro x; simp only [observe, ih]
  | swap v w l =>
    intro x
    simp only [observe, Finset.mul_sum]
    rw [Finset.sum_comm]
    refine Finset.sum_congr rfl fun r _ => Finset.sum_congr rfl fun r' _ => ?_
    have : Function.update (Function.update x r' (x r' + 1)) r (Function.update x r' (x r' + 1) r + 1)
        = Function.update (Function.update x r (x r + 1)) r' (Function.update x r (x r + 1) r' + 1) := by
      by_cases hr : r = r'
      · subst hr; rfl
      · rw [Function.update_of_ne hr, Function.update_of_ne (Ne.symm hr), Function.update_comm hr]
    rw [this]
    ring
  | trans _ _ ih1 ih2 => intro x; rw [ih1, ih2]

/-- The observations drawn sum to one. -/
theorem observe_const (h : Model.Valid model) {z : Nat → Fin M} (a : K) : ∀ (fs : List Nat) (x : Nat → Int)
    (_ : ∀ v ∈ fs, v < model.tree.numVertices ∧ (columns model v).Nonempty),
    observe model z fs x (fun _ => a) = a := by
  intro fs
  induction fs with
  | nil => intro x _; rfl
  | cons v fs ih =>
    intro x hf
    simp only [observe]
    rw [Finset.sum_congr rfl fun r _ => by rw [ih _ fun v hv => hf v (by simp [hv])], ← Finset.sum_mul,
      featMean_sum h (hf v (by simp)).1 (hf v (by simp)).2, one_mul]

theorem wrap8_id {i : Int} (h0 : -128 ≤ i) (h1 : i ≤ 127) : wrap8 i = i := by unfold wrap8; omega

theorem block_sum (s : Serves model srv) (v : Nat) (f : Nat → K) :
    ∑ c : Fin (srv.stop v - srv.beg v), f (srv.beg v + c.val) = ∑ r ∈ columns model v, f r := by
  unfold columns
  rw [Finset.sum_Ico_eq_sum_range, ← Fin.sum_univ_eq_sum_range (fun i => f (model.raggedIndex.getD v 0 + i))]
  unfold Server.beg Server.stop
  rw [s.ragged]

theorem obsW_eq (h : Model.Valid model) (s : Serves model srv) {v : Nat} (hv : v < model.tree.numVertices)
    (hne : (columns model v).Nonempty) (z : Nat → Fin M) (G : (Nat → Int) → K) : ∀ (j : Nat) (x : Nat → Int),
    (∀ r ∈ columns model v, 0 ≤ x r ∧ x r + j ≤ 127) →
    obsW srv v (z v) j x G = observe model z (List.replicate j v) x G := by
  intro j
  induction j with
  | zero => intro x _; rfl
  | succ j ih =>
    intro x hx
    rw [obsW, List.replicate_succ, observe,
      block_sum s v (fun r => srv.featCond r (z v) * obsW srv v (z v) j (bumpOne x r) G),
      block_sum s v (fun r => srv.featCond r (z v))]
    have e : ∑ r ∈ columns model v, srv.featCond r (z v) = 1 := by
      rw [← featMean_sum h hv hne (z v)]
      exact Finset.sum_congr rfl fun r hr => by rw [s.feat v hv r hr]
    rw [e, div_one]
    refine Finset.sum_congr rfl fun r hr => ?_
    rw [s.feat v hv r hr]
    congr 1
    have hb : bumpOne x r = Function.update x r (x r + 1) := by
      funext r'
      unfold bumpOne
      by_cases hr' : r' = r
      · subst hr'
        have := hx r' hr
        rw [if_pos rfl, Function.update_self, wrap8_id (by omega) (by push_cast at this; omega)]
      · rw [if_neg hr', Function.update_of_ne hr']
    rw [hb]
    refine ih _ fun r' hr' => ?_
    have := hx r' hr'
    push_cast at this
    by_cases hr'' : r' = r
    · subst hr''; rw [Function.update_self]; omega
    · rw [Function.update_of_ne hr'']; omega

/-! ### Chains -/

theorem chain_sum {ι : Type} (t : Finset ι) (a : ι → K) (w : Nat → (Nat → Fin M) → Fin M → K) (f : ι → (Nat → Fin M) → K) :
    ∀ (B : List Nat) (z : Nat → Fin M), chain w B z (fun z' => ∑ i ∈ t, a i * f i z') = ∑ i ∈ t, a i * chain w B z (f i) := by
  intro B
  induction B with
  | nil => intro z; rfl
  | cons v B ih =>
    intro z
    simp only [chain, ih, Finset.mul_sum, ← mul_div_assoc]
    rw [Finset.sum_comm, Finset.sum_div]
    refine Finset.sum_congr rfl fun i _ => ?_
    congr 1
    exact Finset.sum_congr rfl fun m _ => by ring

theorem chain_congr {w : Nat → (Nat → Fin M) → Fin M → K} {k k' : (Nat → Fin M) → K} : ∀ (B : List Nat) (z : Nat → Fin M),
    (∀ z', (∀ v, v ∉ B → z' v = z v) → k z' = k' z') → chain w B z k = chain w B z k' := by
  intro B
  induction B with
  | nil => intro z h; exact h z fun _ _ => rfl
  | cons v B ih =>
    intro z h
    simp only [chain]
    congr 1
    refine Finset.sum_congr rfl fun m _ => ?_
    congr 1
    refine ih _ fun z' hz' => h z' fun u hu => ?_
    simp only [List.mem_cons, not_or] at hu
    rw [hz' u hu.2, Function.update_of_ne hu.1]

theorem observe_chain (z : Nat → Fin M) (w : Nat → (Nat → Fin M) → Fin M → K) (B : List Nat) (z0 : Nat → Fin M)
    (F : (Nat → Fin M) → (Nat → Int) → K) : ∀ (fs : List Nat) (x : Nat → Int),
    observe model z fs x (fun x' => chain w B z0 fun z' => F z' x') = chain w B z0 fun z' => observe model z fs x (F z') := by
  intro fs
  induction fs with
  | nil => intro x; rfl
  | cons v fs ih =>
    intro x
    simp only [observe, ih]
    rw [chain_sum]

/-! ### One sample -/

/-- Draws for one sample, in the order `B`. -/
def oneL (srv : Server K M) (w : Nat → (Nat → Fin M) → Fin M → K) (cnt : Nat → Nat) : List Nat → (Nat → Fin M) → (Nat → Int) →
    ((Nat → Fin M) → (Nat → Int) → K) → K
  | [], z, x, k => k z x
  | v :: B, z, x, k => (∑ m, w v z m * obsW srv v m (cnt v) x fun x => oneL srv w cnt B (Function.update z v m) x k) / ∑ m, w v z m

variable {r : Nat} {par : Nat → Nat} {ch : Nat → List Nat} {L : List Nat} {eid : Nat → Nat}

/-- The weights of the draw for vertex `v`. -/
def serveW (r : Nat) (par eid : Nat → Nat) (trans : Nat → Fin M → Fin M → K) (b : Nat → Fin M → K) (v : Nat)
    (z : Nat → Fin M) (m : Fin M) : K :=
  if v = r then b v m
  else b v m * transAt trans (eid v) (par v) v (z (par v)) m / vecMax fun m => b v m * transAt trans (eid v) (par v) v (z (par v)) m

theorem onePass_out (b : Nat → Fin M → K) (cnt : Nat → Nat) (k : (Nat → Fin M) → (Nat → Int) → K) : ∀ (B : List Nat), r ∉ B →
    ∀ c : Cell K M, onePass srv b cnt (B.flatMap (outBlock r par eid)) c (fun c => k c.z c.x)
      = oneL srv (serveW r par eid srv.edgeTrans b) cnt B c.z c.x k := by
  intro B
  induction B with
  | nil => intro _ c; rfl
  | cons v B ih =>
    intro hr c
    simp only [List.mem_cons, not_or] at hr
    rw [List.flatMap_cons]
    have hvr : v ≠ r := Ne.symm hr.1
    simp only [outBlock, if_neg hvr, List.cons_append, List.nil_append, onePass, oneStep, oneL, Function.update_self, ih hr.2,
      serveW]

theorem onePass_prog (T : Topo model.tree.numVertices r par ch L) (b : Nat → Fin M → K) (cnt : Nat → Nat)
    (k : (Nat → Fin M) → (Nat → Int) → K) (c : Cell K M) :
    onePass srv b cnt (⟨.ROOT, r, 0, 0⟩ :: L.flatMap (outBlock r par eid)) c (fun c => k c.z c.x)
      = oneL srv (serveW r par eid srv.edgeTrans b) cnt L c.z c.x k := by
  obtain ⟨B, rfl⟩ := T.head
  have hn := T.nodup
  rw [List.nodup_cons] at hn
  rw [List.flatMap_cons]
  simp only [outBlock, if_true, List.cons_append, List.nil_append, onePass, oneStep, oneL, Function.update_self,
    onePass_out b cnt k B hn.1, serveW]

theorem serveW_cond (h : Model.Valid model) (s : Serves model srv) (P : Plan model r par ch eid L) {b : Nat → Fin M → K}
    (hb : ∀ v < model.tree.numVertices, ∀ m, 0 < b v m) {v : Nat} (hv : v < model.tree.numVertices) (z : Nat → Fin M) (m : Fin M) :
    serveW r par eid srv.edgeTrans b v z m / ∑ m', serveW r par eid srv.edgeTrans b v z m'
      = condProb r par (servePsi r par eid srv.edgeTrans) b v (Function.update z v m) := by
  unfold serveW condProb
  by_cases hvr : v = r
  · subst hvr
    simp only [if_true, Function.update_self]
  · have hne := (P.parent v hv hvr).2
    simp only [if_neg hvr, Function.update_self, Function.update_of_ne hne, mu, servePsi]
    have hpos := vecMax_pos (f := fun m => b v m * transAt srv.edgeTrans (eid v) (par v) v (z (par v)) m)
      fun m => mul_pos (hb v hv m) (transAt_pos h s P hv hvr _ _)
    rw [← Finset.sum_div, div_div_div_cancel_right₀ hpos.ne']
    congr 1
    · ring
    · exact Finset.sum_congr rfl fun m' _ => by ring

theorem oneL_eq (h : Model.Valid model) (s : Serves model srv) (w : Nat → (Nat → Fin M) → Fin M → K) (cnt : Nat → Nat)
    (k : (Nat → Fin M) → (Nat → Int) → K) : ∀ (B : List Nat), B.Nodup → (∀ v ∈ B, v < model.tree.numVertices) →
    (∀ v ∈ B, cnt v ≤ 127) → (∀ v ∈ B, cnt v ≠ 0 → (columns model v).Nonempty) → ∀ (z : Nat → Fin M) (x : Nat → Int),
    (∀ v ∈ B, ∀ c ∈ columns model v, x c = 0) →
    oneL srv w cnt B z x k
      = chain w B z fun z' => observe model z' (B.flatMap fun v => List.replicate (cnt v) v) x (k z') := by
  intro B
  induction B with
  | nil => intro _ _ _ _ z x _; rfl
  | cons v B ih =>
    intro hn hV hc hne z x hx
    rw [List.nodup_cons] at hn
    have hv := hV v (by simp)
    simp only [oneL, chain]
    congr 1
    refine Finset.sum_congr rfl fun m _ => ?_
    congr 1
    have e1 : obsW srv v m (cnt v) x (fun x => oneL srv w cnt B (Function.update z v m) x k)
        = observe model (Function.update z v m) (List.replicate (cnt v) v) x
            fun x => oneL srv w cnt B (Function.update z v m) x k := by
      by_cases h0 : cnt v = 0
      · rw [h0]; rfl
      · have := obsW_eq h s hv (hne v (by simp) h0) (Function.update z v m)
          (fun x => oneL srv w cnt B (Function.update z v m) x k) (cnt v) x (fun r hr => by
            have h1 := hx v (by simp) r hr
            have h2 := hc v (by simp)
            omega)
        rw [Function.update_self] at this
        exact this
    rw [e1]
    have e2 : observe model (Function.update z v m) (List.replicate (cnt v) v) x
            (fun x => oneL srv w cnt B (Function.update z v m) x k)
        = observe model (Function.update z v m) (List.replicate (cnt v) v) x (fun x => chain w B (Function.update z v m) fun z' =>
            observe model z' (B.flatMap fun v => List.replicate (cnt v) v) x (k z')) := by
      refine observe_congr _ _ fun x' hx' => ?_
      refine ih hn.2 (fun v hv => hV v (by simp [hv])) (fun v hv => hc v (by simp [hv])) (fun v hv => hne v (by simp [hv]))
        _ _ fun u hu c hcu => ?_
      rw [hx' c fun v' hv' hcv => ?_]
      · exact hx u (by simp [hu]) c hcu
      · have := List.eq_of_mem_replicate hv'
        subst this
        have := columns_disjoint h hv (hV u (by simp [hu])) hcv hcu
        subst this
        exact hn.1 hu
    rw [e2, observe_chain]
    refine chain_congr _ _ fun z' hz' => ?_
    rw [List.flatMap_cons, observe_append]
    refine observe_congr_z _ _ _ fun u hu => ?_
    have := List.eq_of_mem_replicate hu
    subst this
    rw [hz' u hn.1]

/-! ### The inward phase -/

/-- The inward steps of `sample`. -/
def sampleIn (srv : Server K M) (data : List Int) (s : SampleState K M) (i : Instr) : SampleState K M :=
  match i.op with
  | .UP => { s with messagesIn := serveUp srv data s.messagesIn i.v }
  | .IN =>
    let msg := serveIn srv s.messagesIn i.v i.v2 i.e
    { s with messagesIn := Function.update s.messagesIn i.v fun a => msg a / vecMax msg }
  | _ => s

theorem foldlM_sampleIn {m : Type → Type} [Monad m] [LawfulMonad m] [Choose K m] (N : Nat) (counts data : List Int) (prog : List Instr)
    (hp : ∀ i ∈ prog, i.op = .UP ∨ i.op = .IN) (s : SampleState K M) :
    (prog.foldlM (sampleStep srv N counts data) s : ExceptT PyErr m _) = pure (prog.foldl (sampleIn srv data) s) := by
  induction prog generalizing s with
  | nil => rfl
  | cons i prog ih =>
    rw [List.foldlM_cons, List.foldl_cons]
    have : (sampleStep srv N counts data s i : ExceptT PyErr m _) = pure (sampleIn srv data s i) := by
      rcases hp i (by simp) with h | h <;> simp only [sampleStep, sampleIn, h]
    rw [this, pure_bind, ih (fun i hi => hp i (by simp [hi]))]

theorem sampleIn_cell (data : List Int) (n : Nat) : ∀ (prog : List Instr) (s : SampleState K M),
    (prog.foldl (sampleIn srv data) s).cell n = s.cell n := by
  intro prog
  induction prog with
  | nil => intro s; rfl
  | cons i prog ih =>
    intro s
    rw [List.foldl_cons, ih]
    unfold sampleIn
    split <;> rfl

theorem outBlocks_ops : ∀ i ∈ (⟨.ROOT, r, 0, 0⟩ :: L.flatMap (outBlock r par eid) : List Instr), i.op ≠ .UP ∧ i.op ≠ .IN := by
  intro i hi
  rcases List.mem_cons.1 hi with rfl | hi
  · exact ⟨by simp, by simp⟩
  · obtain ⟨v, -, hv⟩ := List.mem_flatMap.1 hi
    unfold outBlock at hv
    split at hv <;> simp at hv
    · rcases hv with rfl; exact ⟨by simp, by simp⟩
    · rcases hv with rfl | rfl <;> exact ⟨by simp, by simp⟩

theorem outBlocks_down (T : Topo model.tree.numVertices r par ch L) :
    ∀ i ∈ (⟨.ROOT, r, 0, 0⟩ :: L.flatMap (outBlock r par eid) : List Instr), i.v < model.tree.numVertices := by
  intro i hi
  rcases List.mem_cons.1 hi with rfl | hi
  · exact T.root_lt
  · obtain ⟨v, hvL, hv⟩ := List.mem_flatMap.1 hi
    have := T.mem.1 hvL
    unfold outBlock at hv
    split at hv <;> simp at hv
    · rcases hv with rfl; exact this
    · rcases hv with rfl | rfl <;> exact this

/-- The law of `sampleLoop`. -/
theorem sampleLoop_law (h : Model.Valid model) (s : Serves model srv) {prog : List Instr} (hr : r < model.tree.numVertices)
    (hp : makeProgram model.tree.treeGrid (some r) = .ok prog) (N : Nat) (counts data : List Int)
    (hc : ∀ v < model.tree.numVertices, counts.getD v 0 ≤ 127)
    (hne : ∀ v < model.tree.numVertices, 0 < counts.getD v 0 → (columns model v).Nonempty)
    (k : Nat → (Nat → Fin M) → (Nat → Int) → K) (T : Except PyErr (SampleState K M) → K)
    (hT : ∀ st, T (.ok st) = ∏ n ∈ Finset.range N, k n (fun v => st.vertSamples v n) (st.featSamples n)) :
    (sampleLoop srv prog N counts data : ExceptT PyErr (Expect K) _).run T
      = ∏ n ∈ Finset.range N, sampleMean model (fun r => data.getD r 0) counts (k n) := by
  obtain ⟨par, ch, eid, L, P, hp'⟩ := exists_plan h hr
  rw [hp] at hp'
  obtain rfl := Except.ok.inj hp'
  have hv : srv.vertProbs = vertMean model := funext s.vert
  have I : Inward (SampleState K M) model.tree.numVertices par ch eid (sampleIn srv data) SampleState.messagesIn (fun _ _ => True)
      (fun _ _ => True) (serveU model data) (servePsi r par eid srv.edgeTrans) := by
    refine serve_inward h s P data (fun st v => ⟨rfl, fun x hx => hx⟩) ?_
    intro st v c e hpos
    exact ⟨_, vecMax_pos hpos, rfl, fun _ _ => trivial⟩
  obtain ⟨S, sf, h0, h1, h2, h3, -⟩ := I.spec P.topo
    { messagesIn := srv.vertProbs, messagesOut := fun v _ => srv.vertProbs v
      vertSamples := fun _ _ => 0, featSamples := fun _ _ => 0 }
    (fun v hv' m => by simp only [hv]; exact vertMean_pos h hv' m) (fun _ _ => trivial) 1 trivial
  unfold sampleLoop progOf
  rw [List.append_assoc, List.foldlM_append, foldlM_sampleIn _ _ _ _ (inBlocks_ops _), pure_bind, ← h0]
  rw [List.singleton_append, sample_run srv sf.messagesIn N counts data (fun n c => k n c.z c.x) T hT _ outBlocks_ops
    (fun i hi _ hcnt hw => by
      have hiv := outBlocks_down P.topo i hi
      obtain ⟨c, hcc⟩ := hne i.v hiv (by omega)
      have := mem_columns.1 hcc
      rw [Server.stop, Server.beg, s.ragged] at hw
      omega) sf rfl]
  refine Finset.prod_congr rfl fun n _ => ?_
  have hcell : sf.cell n = ⟨srv.vertProbs, fun _ => 0, fun _ => 0⟩ := by rw [h0, sampleIn_cell]; rfl
  rw [hcell, onePass_prog P.topo, oneL_eq h s _ _ _ L P.topo.nodup (fun v hv => P.topo.mem.1 hv)
    (fun v hv => by have := hc v (P.topo.mem.1 hv); omega) (fun v hv h0 => hne v (P.topo.mem.1 hv) (by omega)) _ _ (fun _ _ _ _ => rfl)]
  rw [chain_law P.topo (φ := fun v m => vertMean model v m * serveU model data v m) (b := sf.messagesIn)
    (by simpa only [hv] using h2) (fun v hv m => (mu_pos (I.ψ_pos v hv) (h3 v hv) m).ne')
    (Finset.sum_pos (fun m _ => h3 r hr m) ⟨0, Finset.mem_univ _⟩).ne' (fun v hv => (h1 v hv).ne')
    (fun v hv z m => serveW_cond h s P h3 hv z m)]
  unfold sampleMean dataProb sumLatent
  congr 1
  · refine Finset.sum_congr rfl fun z _ => ?_
    rw [serve_treeWeight s P]
    congr 1
    refine observe_perm _ ?_ _
    exact P.topo.perm.flatMap_right _
  · exact Finset.sum_congr rfl fun z _ => serve_treeWeight s P data _

end

end TreeCat
