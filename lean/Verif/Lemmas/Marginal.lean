import Verif.Lemmas.Under
import Verif.Lemmas.RowCell
import Verif.Spec.Evidence
import Verif.Props.LogprobSum

/-!
# The messages of `marginals`
-/

set_option linter.unusedSectionVars false

namespace TreeCat

open Spec

section
variable {K : Type} [Field K] {M : Nat} {V r : Nat} {par : Nat → Nat} {ch : Nat → List Nat} {L : List Nat}

/-- The message equations have a solution. -/
theorem Topo.exists_messages (T : Topo V r par ch L) (φ : Nat → Fin M → K) (ψ : Nat → Fin M → Fin M → K) :
    ∃ b : Nat → Fin M → K, ∀ v < V, ∀ m, b v m = φ v m * ((ch v).map fun c => mu ψ b c m).prod := by
  have key : ∀ B A, L = A ++ B → ∃ b : Nat → Fin M → K, ∀ v ∈ B, ∀ m, b v m = φ v m * ((ch v).map fun c => mu ψ b c m).prod := by
    intro B
    induction B with
    | nil => intro A _; exact ⟨fun _ _ => 1, by simp⟩
    | cons x B ih =>
      intro A hL
      obtain ⟨b, hb⟩ := ih (A ++ [x]) (by rw [hL]; simp)
      have hn := T.nodup
      rw [hL, List.nodup_append, List.nodup_cons] at hn
      -- the children of the vertices of `x :: B` are not `x`
      have hch : ∀ v ∈ x :: B, x ∉ ch v := by
        intro v hv hx
        obtain ⟨h1, h2, h3⟩ := (T.ch_mem v (T.mem.1 (by rw [hL]; exact List.mem_append_right _ hv)) x).1 hx
        have := T.before A x B hL h2
        rw [h3] at this
        exact hn.2.2 v this v hv rfl
      refine ⟨Function.update b x fun m => φ x m * ((ch x).map fun c => mu ψ b c m).prod, fun v hv m => ?_⟩
      have e : ((ch v).map fun c => mu ψ (Function.update b x fun m => φ x m * ((ch x).map fun c => mu ψ b c m).prod) c m)
          = (ch v).map fun c => mu ψ b c m := by
        refine List.map_congr_left fun c hc => ?_
        unfold mu
        rw [Function.update_of_ne (by rintro rfl; exact hch v hv hc)]
      rw [e]
      by_cases hvx : v = x
      · subst hvx; rw [Function.update_self]
      · rw [Function.update_of_ne hvx]
        refine hb v ?_ m
        rcases List.mem_cons.1 hv with h | h
        · exact absurd h hvx
        · exact h
  obtain ⟨b, hb⟩ := key L [] rfl
  exact ⟨b, fun v hv => hb v (T.mem.2 hv)⟩

end

section
variable {K : Type} [Field K] [LinearOrder K] [IsStrictOrderedRing K] {M : Nat} [NeZero M]
variable {model : Model K M} {srv : Server K M}
variable {r : Nat} {par : Nat → Nat} {ch : Nat → List Nat} {L : List Nat} {eid : Nat → Nat}

theorem pos_of_messages {V : Nat} (T : Topo V r par ch L) {φ : Nat → Fin M → K} {ψ : Nat → Fin M → Fin M → K} {b : Nat → Fin M → K}
    (hb : ∀ v < V, ∀ m, b v m = φ v m * ((ch v).map fun c => mu ψ b c m).prod)
    (hφ : ∀ v < V, ∀ m, 0 < φ v m) (hψ : ∀ v < V, ∀ m m', 0 < ψ v m m') : ∀ v < V, ∀ m, 0 < b v m := by
  refine T.leafInduction fun v hv ih m => ?_
  rw [hb v hv m]
  refine mul_pos (hφ v hv m) (List.prod_pos fun x hx => ?_)
  obtain ⟨c, hc, rfl⟩ := List.mem_map.1 hx
  exact mu_pos (hψ c ((T.ch_mem v hv c).1 hc).1) (ih c hc) m

/-- The inward messages, and the probability of the row. -/
theorem serve_messages (h : Model.Valid model) (s : Serves model srv) (P : Plan model r par ch eid L) (data : List Int) :
    ∃ b : Nat → Fin M → K, (∀ v < model.tree.numVertices, ∀ m, 0 < b v m) ∧
      (∀ v < model.tree.numVertices, ∀ m, b v m = vertMean model v m * serveU model data v m *
        ((ch v).map fun c => mu (servePsi r par eid srv.edgeTrans) b c m).prod) ∧
      ∑ m, b r m = dataProb model fun r => data.getD r 0 := by
  obtain ⟨b, hb⟩ := P.topo.exists_messages (fun v m => vertMean model v m * serveU model data v m)
    (servePsi r par eid srv.edgeTrans)
  have hpos := pos_of_messages P.topo hb (fun v hv m => mul_pos (vertMean_pos h hv m) (serveU_pos h data hv m))
    (fun v hv => servePsi_pos h s P hv)
  refine ⟨b, hpos, hb, ?_⟩
  have hsum : 0 < ∑ m, b r m := Finset.sum_pos (fun m _ => hpos r P.topo.root_lt m) ⟨0, Finset.mem_univ _⟩
  have key := sumOver_treeWeight P.topo (φ := fun v m => vertMean model v m * serveU model data v m) (b := b)
    (S := fun _ => 1) (fun v hv m => by rw [one_mul]; exact hb v hv m)
    (fun v hv m => (mu_pos (servePsi_pos h s P hv) (hpos v hv) m).ne') hsum.ne' (fun _ => 0)
  have e : (L.map fun _ => (1 : K)).prod = 1 := by simp
  rw [e, one_mul] at key
  rw [← key]
  unfold dataProb sumLatent
  exact Finset.sum_congr rfl fun z _ => serve_treeWeight s P data _

/-- In a consistent model the message of a subtree without evidence is one. -/
theorem mu_vertMean (h : Model.Valid model) (hc : Model.Consistent model) (s : Serves model srv) (P : Plan model r par ch eid L)
    {v : Nat} (hv : v < model.tree.numVertices) (hv0 : v ≠ r) (m : Fin M) :
    mu (servePsi r par eid srv.edgeTrans) (vertMean model) v m = 1 := by
  unfold mu servePsi
  simp only [if_neg hv0]
  have h2 := P.parent v hv hv0
  have hp := (vertMean_pos h h2.1 m).ne'
  have hm := upEntry_mem P hv hv0
  obtain ⟨e1, e2⟩ := edgeMean_sum hc hm
  have ht := s.trans _ hm
  unfold transAt
  unfold upEntry at e1 e2 ht
  by_cases hlt : par v < v
  · rw [if_pos hlt] at e1 ht
    simp only [if_neg (show ¬ v < par v by omega)] at e1 ht ⊢
    rw [ht, ← div_self hp]
    conv_rhs => rw [← e1 m, Finset.sum_div]
    refine Finset.sum_congr rfl fun m' _ => ?_
    have := (vertMean_pos h hv m').ne'
    rw [e1 m]
    field_simp
  · rw [if_neg hlt] at e2 ht
    simp only [if_pos (show v < par v by omega)] at e2 ht ⊢
    rw [ht, ← div_self hp]
    conv_rhs => rw [← e2 m, Finset.sum_div]
    refine Finset.sum_congr rfl fun m' _ => ?_
    have := (vertMean_pos h hv m').ne'
    rw [e2 m]
    field_simp

theorem serveU_congr {data data' : List Int} {v : Nat} (hd : ∀ c ∈ columns model v, data.getD c 0 = data'.getD c 0) (m : Fin M) :
    serveU model data v m = serveU model data' v m :=
  Finset.prod_congr rfl fun c hc => by rw [hd c hc]

/-- Messages depend on the data of the subtree only. -/
theorem messages_congr {V : Nat} (T : Topo V r par ch L) {φ φ' : Nat → Fin M → K} {ψ : Nat → Fin M → Fin M → K}
    {b b' : Nat → Fin M → K}
    (hb : ∀ v < V, ∀ m, b v m = φ v m * ((ch v).map fun c => mu ψ b c m).prod)
    (hb' : ∀ v < V, ∀ m, b' v m = φ' v m * ((ch v).map fun c => mu ψ b' c m).prod) :
    ∀ w < V, (∀ x < V, Under par r w x → φ x = φ' x) → b w = b' w := by
  refine T.leafInduction fun w hw ih hφ => ?_
  funext m
  rw [hb w hw, hb' w hw, hφ w hw .self]
  congr 2
  refine List.map_congr_left fun c hc => ?_
  obtain ⟨h1, h2, rfl⟩ := (T.ch_mem w hw c).1 hc
  unfold mu
  rw [ih c hc fun x hx hcx => hφ x hx ((Under.step h2 .self).trans hcx)]

/-- Messages of subtrees without evidence. -/
theorem messages_vertMean (h : Model.Valid model) (hc : Model.Consistent model) (s : Serves model srv)
    (P : Plan model r par ch eid L) {data : List Int} {b : Nat → Fin M → K}
    (hb : ∀ v < model.tree.numVertices, ∀ m, b v m = vertMean model v m * serveU model data v m *
        ((ch v).map fun c => mu (servePsi r par eid srv.edgeTrans) b c m).prod) :
    ∀ w < model.tree.numVertices, (∀ x < model.tree.numVertices, Under par r w x → ∀ c ∈ columns model x, data.getD c 0 = 0) →
      b w = vertMean model w := by
  refine P.topo.leafInduction fun w hw ih hd => ?_
  funext m
  have e1 : serveU model data w m = 1 := Finset.prod_eq_one fun c hcw => by rw [hd w hw .self c hcw, zpow_zero]
  have e2 : ((ch w).map fun c => mu (servePsi r par eid srv.edgeTrans) b c m).prod = 1 := by
    refine List.prod_eq_one fun x hx => ?_
    obtain ⟨c, hc', rfl⟩ := List.mem_map.1 hx
    obtain ⟨h1, h2, rfl⟩ := (P.topo.ch_mem w hw c).1 hc'
    have : b c = vertMean model c := ih c hc' fun x hx hcx => hd x hx ((Under.step h2 .self).trans hcx)
    have e := mu_vertMean h hc s P h1 h2 m
    unfold mu at e ⊢
    rw [this]; exact e
  rw [hb w hw, e1, e2, mul_one, mul_one]

/-! ### The states of `marginals` -/

/-- The inward phase. -/
theorem marginal_inward (h : Model.Valid model) (s : Serves model srv) (P : Plan model r par ch eid L) (data : List Int)
    (junk : Nat → Fin M → K) :
    ∃ sf : MarginalState K M, sf = (L.reverse.flatMap (inBlock ch eid)).foldl (marginalStep srv data) ⟨srv.vertProbs, junk, fun _ => 0⟩ ∧
      (∀ v < model.tree.numVertices, ∀ m, 0 < sf.messagesIn v m) ∧
      (∃ S : Nat → K, (∀ v < model.tree.numVertices, 0 < S v) ∧
      (∀ v < model.tree.numVertices, ∀ m, S v * sf.messagesIn v m = vertMean model v m * serveU model data v m *
        ((ch v).map fun c => mu (servePsi r par eid srv.edgeTrans) sf.messagesIn c m).prod)) ∧
      (∀ v < model.tree.numVertices, ∀ m, sf.messagesOut v m = vertMean model v m * serveU model data v m) := by
  have hv : srv.vertProbs = vertMean model := funext s.vert
  have I : Inward (MarginalState K M) model.tree.numVertices par ch eid (marginalStep srv data) MarginalState.messagesIn (fun _ _ => True)
      (fun _ _ => True) (serveU model data) (servePsi r par eid srv.edgeTrans) := by
    refine serve_inward h s P data (fun st v => ⟨rfl, fun x hx => hx⟩) ?_
    intro st v c e hpos
    exact ⟨_, vecMax_pos hpos, rfl, fun _ _ => trivial⟩
  obtain ⟨S, sf, h0, h1, h2, h3, -⟩ := I.spec P.topo ⟨srv.vertProbs, junk, fun _ => 0⟩
    (fun v hv' m => by simp only [hv]; exact vertMean_pos h hv' m) (fun _ _ => trivial) 1 trivial
  simp only [hv] at h2
  refine ⟨sf, h0, h3, ⟨S, h1, h2⟩, ?_⟩
  -- `messages_out` is written by the UP steps
  have key : ∀ B A, L = A ++ B →
      (∀ v ∈ B, ∀ m, ((B.reverse.flatMap (inBlock ch eid)).foldl (marginalStep srv data)
        (⟨srv.vertProbs, junk, fun _ => 0⟩ : MarginalState K M)).messagesOut v m = vertMean model v m * serveU model data v m) ∧
      (∀ v ∈ A, ((B.reverse.flatMap (inBlock ch eid)).foldl (marginalStep srv data)
        (⟨srv.vertProbs, junk, fun _ => 0⟩ : MarginalState K M)).messagesIn v = vertMean model v) := by
    intro B
    induction B with
    | nil => intro A _; exact ⟨by simp, fun v _ => by simp [hv]⟩
    | cons x B ih =>
      intro A hL
      obtain ⟨i1, i2⟩ := ih (A ++ [x]) (by rw [hL]; simp)
      have hn := P.topo.nodup
      rw [hL, List.nodup_append, List.nodup_cons] at hn
      have hxV : x < model.tree.numVertices := P.topo.mem.1 (by rw [hL]; simp)
      simp only [List.reverse_cons, List.flatMap_append, List.foldl_append, List.flatMap_cons, List.flatMap_nil,
        List.append_nil]
      generalize (B.reverse.flatMap (inBlock ch eid)).foldl (marginalStep srv data)
        (⟨srv.vertProbs, junk, fun _ => 0⟩ : MarginalState K M) = st at i1 i2
      simp only [inBlock, List.foldl_cons]
      have hins : ∀ (cs : List Nat) (st : MarginalState K M),
          ((cs.map fun c => (⟨.IN, x, c, eid c⟩ : Instr)).foldl (marginalStep srv data) st).messagesOut = st.messagesOut ∧
          ∀ v, v ≠ x → ((cs.map fun c => (⟨.IN, x, c, eid c⟩ : Instr)).foldl (marginalStep srv data) st).messagesIn v
            = st.messagesIn v := by
        intro cs
        induction cs with
        | nil => intro st; exact ⟨rfl, fun _ _ => rfl⟩
        | cons c cs ih =>
          intro st
          rw [List.map_cons, List.foldl_cons]
          obtain ⟨j1, j2⟩ := ih (marginalStep srv data st ⟨.IN, x, c, eid c⟩)
          refine ⟨j1, fun v hvx => ?_⟩
          rw [j2 v hvx]
          exact Function.update_of_ne hvx _ _
      obtain ⟨j1, j2⟩ := hins (ch x) (marginalStep srv data st ⟨.UP, x, 0, 0⟩)
      refine ⟨fun v hvm m => ?_, fun v hvA => ?_⟩
      · rw [j1]
        simp only [marginalStep, serveUp_eq s data hxV, Function.update_self]
        by_cases hvx : v = x
        · subst hvx
          rw [Function.update_self, i2 v (by simp)]
        · rw [Function.update_of_ne hvx]
          refine i1 v ?_ m
          rcases List.mem_cons.1 hvm with h | h
          · exact absurd h hvx
          · exact h
      · have hvx : v ≠ x := fun e => hn.2.2 v hvA x (by simp) e
        rw [j2 v hvx]
        simp only [marginalStep, serveUp_eq s data hxV]
        rw [Function.update_of_ne hvx, i2 v (by simp [hvA])]
  intro v hv' m
  rw [h0]
  exact (key L [] rfl).1 v (P.topo.mem.2 hv') m

/-- What the outward phase multiplies the message of `v` by. -/
def fromParent (r : Nat) (par eid : Nat → Nat) (trans : Nat → Fin M → Fin M → K) (out : Nat → Fin M → K) (v : Nat) (a : Fin M) : K :=
  if v = r then 1 else ∑ b, servePsi r par eid trans v b a * out (par v) b

theorem transAt_swap (t : Nat → Fin M → Fin M → K) (e : Nat) {v w : Nat} (hvw : v ≠ w) (a b : Fin M) :
    transAt t e v w a b = transAt t e w v b a := by
  unfold transAt
  rcases Nat.lt_or_gt_of_ne hvw with h | h
  · rw [if_neg (by omega), if_pos h]
  · rw [if_pos h, if_neg (by omega)]

theorem fromParent_root {eid : Nat → Nat} {trans : Nat → Fin M → Fin M → K} {out : Nat → Fin M → K} {v : Nat} (hv : v = r) :
    fromParent r par eid trans out v = fun _ => 1 := by
  funext a; rw [fromParent, if_pos hv]

/-- The outward phase. -/
theorem marginal_outward (h : Model.Valid model) (s : Serves model srv) (P : Plan model r par ch eid L) (data : List Int)
    (s0 : MarginalState K M) :
    ∃ out inn : Nat → Fin M → K,
      (∀ v < model.tree.numVertices, ∀ a, out v a = s0.messagesOut v a * fromParent r par eid srv.edgeTrans out v a) ∧
      (∀ v < model.tree.numVertices, ∀ a, inn v a = s0.messagesIn v a * fromParent r par eid srv.edgeTrans out v a) ∧
      ∀ v < model.tree.numVertices, ∀ c ∈ columns model v,
        ((L.flatMap (outBlock r par eid)).foldl (marginalStep srv data) s0).result c
          = (∑ a, featMean model v c a * inn v a) / ∑ c' ∈ columns model v, ∑ a, featMean model v c' a * inn v a := by
  have key : ∀ A B, L = A ++ B →
      let st := (A.flatMap (outBlock r par eid)).foldl (marginalStep srv data) s0
      (∀ v ∈ A, ∀ a, st.messagesOut v a = s0.messagesOut v a * fromParent r par eid srv.edgeTrans st.messagesOut v a) ∧
      (∀ v ∈ A, ∀ a, st.messagesIn v a = s0.messagesIn v a * fromParent r par eid srv.edgeTrans st.messagesOut v a) ∧
      (∀ v ∈ A, ∀ c ∈ columns model v,
        st.result c = (∑ a, featMean model v c a * st.messagesIn v a) /
          ∑ c' ∈ columns model v, ∑ a, featMean model v c' a * st.messagesIn v a) ∧
      (∀ v ∈ B, st.messagesOut v = s0.messagesOut v ∧ st.messagesIn v = s0.messagesIn v) := by
    intro A
    induction A using List.reverseRecOn with
    | nil => intro B _; exact ⟨by simp, by simp, by simp, fun _ _ => ⟨rfl, rfl⟩⟩
    | append_singleton A x ih =>
      intro B hL
      have hL' : L = A ++ x :: B := by rw [hL]; simp
      obtain ⟨i1, i2, i3, i4⟩ := ih (x :: B) hL'
      have hn := P.topo.nodup
      rw [hL', List.nodup_append, List.nodup_cons] at hn
      have hxV : x < model.tree.numVertices := P.topo.mem.1 (by rw [hL']; simp)
      have hxA : ∀ v ∈ A, v ≠ x := fun v hv e => hn.2.2 v hv x (by simp) e
      have hpA : x ≠ r → par x ∈ A := P.topo.before A x B hL'
      have hparA : ∀ v ∈ A, v ≠ r → par v ∈ A := by
        intro v hv hvr
        obtain ⟨A1, A2, hA⟩ := List.append_of_mem hv
        have := P.topo.before A1 v (A2 ++ x :: B) (by rw [hL', hA]; simp) hvr
        rw [hA]; exact List.mem_append_left _ this
      simp only [List.flatMap_append, List.foldl_append, List.flatMap_cons, List.flatMap_nil, List.append_nil]
      generalize (A.flatMap (outBlock r par eid)).foldl (marginalStep srv data) s0 = st at i1 i2 i3 i4
      -- the state after the block of `x`
      have step : ∃ st' : MarginalState K M, st' = (outBlock r par eid x).foldl (marginalStep srv data) st ∧
          st'.messagesOut = Function.update st.messagesOut x (fun a => st.messagesOut x a *
            fromParent r par eid srv.edgeTrans st.messagesOut x a) ∧
          st'.messagesIn = Function.update st.messagesIn x (fun a => st.messagesIn x a *
            fromParent r par eid srv.edgeTrans st.messagesOut x a) ∧
          (∀ c, c ∉ columns model x → st'.result c = st.result c) ∧
          ∀ c ∈ columns model x, st'.result c = (∑ a, featMean model x c a * st'.messagesIn x a) /
          ∑ c' ∈ columns model x, ∑ a, featMean model x c' a * st'.messagesIn x a := by
        have hbeg : ∀ c, (srv.beg x ≤ c ∧ c < srv.stop x) ↔ c ∈ columns model x := by
          intro c; rw [mem_columns, Server.beg, Server.stop, s.ragged]
        have hIco : Finset.Ico (srv.beg x) (srv.stop x) = columns model x := by
          rw [Server.beg, Server.stop, s.ragged]; rfl
        have hdown : ∀ st : MarginalState K M, (∀ c, c ∉ columns model x →
              (marginalStep srv data st ⟨.DOWN, x, 0, 0⟩).result c = st.result c) ∧
            ∀ c ∈ columns model x, (marginalStep srv data st ⟨.DOWN, x, 0, 0⟩).result c
              = (∑ a, featMean model x c a * st.messagesIn x a) /
                ∑ c' ∈ columns model x, ∑ a, featMean model x c' a * st.messagesIn x a := by
          intro st
          refine ⟨fun c hc => ?_, fun c hc => ?_⟩
          · simp only [marginalStep, hbeg, if_neg hc]
          · simp only [marginalStep, hbeg, if_pos hc, hIco]
            congr 1
            · exact Finset.sum_congr rfl fun a _ => by rw [s.feat x hxV c hc]
            · exact Finset.sum_congr rfl fun c' hc' => Finset.sum_congr rfl fun a _ => by rw [s.feat x hxV c' hc']
        unfold outBlock
        by_cases hxr : x = r
        · rw [if_pos hxr]
          obtain ⟨d1, d2⟩ := hdown st
          refine ⟨_, rfl, ?_, ?_, d1, d2⟩
          · rw [fromParent_root hxr]
            simp [marginalStep]
          · rw [fromParent_root hxr]
            simp [marginalStep]
        · rw [if_neg hxr]
          obtain ⟨d1, d2⟩ := hdown (marginalStep srv data st ⟨.OUT, x, par x, eid x⟩)
          have hfp : ∀ a, (∑ b, transAt srv.edgeTrans (eid x) x (par x) a b * st.messagesOut (par x) b)
              = fromParent r par eid srv.edgeTrans st.messagesOut x a := by
            intro a
            unfold fromParent servePsi
            rw [if_neg hxr]
            refine Finset.sum_congr rfl fun b _ => ?_
            rw [if_neg hxr, transAt_swap _ _ (P.parent x hxV hxr).2]
          refine ⟨_, rfl, ?_, ?_, fun c hc => d1 c hc, fun c hc => d2 c hc⟩
          · change Function.update st.messagesOut x _ = _
            congr 1; funext a; rw [← hfp a]
          · change Function.update st.messagesIn x _ = _
            congr 1; funext a; rw [← hfp a]
      obtain ⟨st', e0, e1, e2, e3, e4⟩ := step
      rw [← e0]
      have hfp : ∀ v, (v ≠ r → par v ≠ x) → fromParent r par eid srv.edgeTrans st'.messagesOut v
          = fromParent r par eid srv.edgeTrans st.messagesOut v := by
        intro v hv
        funext a
        unfold fromParent
        split
        · rfl
        · rename_i hvr
          rw [e1]
          exact Finset.sum_congr rfl fun b _ => by rw [Function.update_of_ne (hv hvr)]
      have hfpA : ∀ v ∈ A ++ [x], fromParent r par eid srv.edgeTrans st'.messagesOut v
          = fromParent r par eid srv.edgeTrans st.messagesOut v := by
        intro v hv
        refine hfp v fun hvr => ?_
        rcases List.mem_append.1 hv with hv | hv
        · exact hxA _ (hparA v hv hvr)
        · rw [List.mem_singleton] at hv
          subst hv
          exact hxA _ (hpA hvr)
      refine ⟨fun v hv a => ?_, fun v hv a => ?_, fun v hv c hc => ?_, fun v hv => ?_⟩
      · rw [hfpA v hv, e1]
        rcases List.mem_append.1 hv with hv | hv
        · rw [Function.update_of_ne (hxA v hv)]; exact i1 v hv a
        · rw [List.mem_singleton] at hv
          subst hv
          rw [Function.update_self, (i4 v (by simp)).1]
      · rw [hfpA v hv, e2]
        rcases List.mem_append.1 hv with hv | hv
        · rw [Function.update_of_ne (hxA v hv)]; exact i2 v hv a
        · rw [List.mem_singleton] at hv
          subst hv
          rw [Function.update_self, (i4 v (by simp)).2]
      · rcases List.mem_append.1 hv with hv | hv
        · have hvV : v < model.tree.numVertices := P.topo.mem.1 (by rw [hL']; simp [hv])
          rw [e3 c fun hcx => hxA v hv (columns_disjoint h hvV hxV hc hcx), e2, Function.update_of_ne (hxA v hv)]
          exact i3 v hv c hc
        · rw [List.mem_singleton] at hv
          subst hv
          exact e4 c hc
      · have hvx : v ≠ x := by rintro rfl; exact hn.2.1.1 hv
        rw [e1, e2, Function.update_of_ne hvx, Function.update_of_ne hvx]
        exact i4 v (by simp [hv])
  obtain ⟨i1, i2, i3, -⟩ := key L [] (by simp)
  exact ⟨_, _, fun v hv => i1 v (P.topo.mem.2 hv), fun v hv => i2 v (P.topo.mem.2 hv), fun v hv => i3 v (P.topo.mem.2 hv)⟩

end

end TreeCat
