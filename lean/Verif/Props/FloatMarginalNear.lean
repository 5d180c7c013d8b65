import Verif.Props.FloatLogNear
import Verif.Props.FloatQuantMedian
import Verif.Props.Marginals

/-! # C72: the accuracy of `marginals` in float32 -/

namespace TreeCat

open Util Spec

/-- Whether a float is a number between `2 ^ lo` and `2 ^ hi`. -/
def fltIn (lo hi : Int) (x : Flt) : Bool := x.any fun q => decide ((2 : ℚ) ^ lo ≤ q ∧ q ≤ 2 ^ hi)

/-- No number that `marginals` computes underflows or overflows: the entries of the messages that OP_IN and OP_OUT write are at least `2 ^ -80`, the products that are needed for them at least
`2 ^ -125`, and the results at least `2 ^ -125`. The other numbers are in range for every model with small counts. -/
def Spec.marginalsSafe {M : Nat} [NeZero M] (A : ServeOps M) (srv : FloatServer M) (data : List Int) : List Instr → FloatMarginal M → Bool
  | [], _ => true
  | i :: prog, s =>
    (match i.op with
      | .IN => (List.finRange M).all fun a => fltIn (-125) 127 (floatServeIn A srv s.messagesIn i.v i.v2 i.e a) && fltIn (-80) 80 ((floatMarginalStep A srv data s i).messagesIn i.v a)
      | .OUT => (List.finRange M).all fun a => fltIn (-125) 127 (A.dot (transAt srv.trans i.e i.v i.v2 a) (s.messagesOut i.v2)) &&
          fltIn (-80) 80 ((floatMarginalStep A srv data s i).messagesIn i.v a) && fltIn (-80) 80 ((floatMarginalStep A srv data s i).messagesOut i.v a)
      | .DOWN => (srv.block i.v).all fun r => fltIn (-125) 127 ((floatMarginalStep A srv data s i).result r)
      | _ => true) && marginalsSafe A srv data prog (floatMarginalStep A srv data s i)

theorem fltIn_ge {lo hi : Int} {x : Flt} (h : fltIn lo hi x = true) : FGe lo x := by
  cases x with
  | none => exact absurd h (by simp [fltIn])
  | some q =>
    simp only [fltIn, Option.any_some, decide_eq_true_eq] at h
    exact ⟨q, rfl, h.1⟩

/-! ### Programs -/

/-- Away from the root every vertex receives a message from a vertex that has received its own, before its result is computed. -/
def Outwards (V : Nat) (G : Nat → Nat → Nat → Prop) : List Nat → List Nat → List Instr → Prop
  | _, Z, [] => ∀ w < V, w ∈ Z
  | O, Z, i :: is =>
    match i.op with
    | .OUT => i.v < V ∧ i.v2 < V ∧ i.v ≠ i.v2 ∧ G i.e i.v i.v2 ∧ i.v ∉ O ∧ i.v2 ∈ O ∧ Outwards V G (i.v :: O) Z is
    | .DOWN => i.v < V ∧ i.v ∈ O ∧ Outwards V G O (i.v :: Z) is
    | _ => False

theorem outwards_progOf {V r : Nat} {par : Nat → Nat} {ch : Nat → List Nat} {eid : Nat → Nat} {L : List Nat} (T : Topo V r par ch L) {G : Nat → Nat → Nat → Prop}
    (hpar : ∀ v < V, v ≠ r → par v < V ∧ par v ≠ v ∧ G (eid v) v (par v)) : Outwards V G [r] [] (L.flatMap (outBlock r par eid)) := by
  have key : ∀ (Y X : List Nat), L = X ++ Y → ∀ O Z : List Nat, (∀ w, w ∈ O ↔ w ∈ X ∨ w = r) → (∀ w, w ∈ Z ↔ w ∈ X) → Outwards V G O Z (Y.flatMap (outBlock r par eid)) := by
    intro Y
    induction Y with
    | nil =>
      intro X hX O Z _ hZ w hw
      rw [List.append_nil] at hX
      rw [hZ, ← hX]
      exact T.mem.2 hw
    | cons v Y ih =>
      intro X hX O Z hO hZ
      have hv : v < V := T.mem.1 (by rw [hX]; simp)
      have hvX : v ∉ X := by
        have := hX ▸ T.nodup
        rw [List.nodup_append] at this
        exact fun h => this.2.2 v h v (by simp) rfl
      rw [List.flatMap_cons, outBlock]
      have hZ' : ∀ w, w ∈ v :: Z ↔ w ∈ X ++ [v] := fun w => by
        rw [List.mem_cons, hZ, List.mem_append, List.mem_singleton]
        tauto
      split
      next hvr =>
        refine ⟨hv, (hO v).2 (.inr hvr), ih (X ++ [v]) (by rw [hX]; simp) O (v :: Z) (fun w => ?_) hZ'⟩
        rw [hO, List.mem_append, List.mem_singleton]
        subst hvr
        tauto
      next hvr =>
        obtain ⟨h1, h2, h3⟩ := hpar v hv hvr
        refine ⟨hv, h1, h2.symm, h3, fun h => ((hO v).1 h).elim hvX hvr, (hO _).2 (.inl (T.before _ _ _ hX hvr)), hv, List.mem_cons_self, ?_⟩
        refine ih (X ++ [v]) (by rw [hX]; simp) (v :: O) (v :: Z) (fun w => ?_) hZ'
        rw [List.mem_cons, hO, List.mem_append, List.mem_singleton]
        tauto
  exact key L [] (by simp) [r] [] (by simp) (by simp)

theorem OnGrid.symm {grid : Grid} {e v v2 : Nat} (h : OnGrid grid e v v2) (hne : v ≠ v2) : OnGrid grid e v2 v := by
  unfold OnGrid at h ⊢
  by_cases hlt : v < v2
  · rw [if_pos hlt] at h
    rwa [if_neg (by omega)]
  · rw [if_neg hlt] at h
    rwa [if_pos (by omega)]

section
set_option linter.unusedSectionVars false
variable {M : Nat} [NeZero M] {A : ServeOps M} {model : Model ℝ M} {ε : ℝ}

/-! ### Towards the root -/

/-- Where the computation in float32 stands relative to that in real numbers: `c` is the scale of the messages and `k` the number of roundings. -/
structure MargIn (model : Model ℝ M) (fsrv : FloatServer M) (kv kc kt K : Nat) (U D : List Nat) (f : FloatMarginal M) (g : MarginalState ℝ M) (c : Nat → ℝ) (k : Nat → Nat) : Prop where
  scale : ∀ v < model.tree.numVertices, 0 < c v
  near : ∀ v < model.tree.numVertices, ∀ a, Near (k v) (f.messagesIn v a) (c v * g.messagesIn v a) ∧ FGe (-80) (f.messagesIn v a)
  fresh : ∀ v < model.tree.numVertices, v ∉ U → f.messagesIn v = fsrv.vert v ∧ c v = 1 ∧ k v = kv
  out : ∀ v < model.tree.numVertices, v ∈ U → ∀ a, Near (kv + kc + 1) (f.messagesOut v a) (g.messagesOut v a) ∧ FGe (-80) (f.messagesOut v a)
  le : ∀ v < model.tree.numVertices, k v ≤ K
  budget : ∑ v ∈ Finset.range model.tree.numVertices, ((if v ∈ D then 0 else k v + kt + M + 3) + (if v ∈ U then 0 else kc + 1)) ≤ K

/-- The same on the way from the root; `J` bounds the roundings of `messages_out`, and the block of every vertex in `Z` is computed. -/
structure MargOut (model : Model ℝ M) (kv kc kt K Jmax kr : Nat) (O Z : List Nat) (f : FloatMarginal M) (g : MarginalState ℝ M) (c : Nat → ℝ) (J : Nat) : Prop where
  scale : ∀ v < model.tree.numVertices, 0 < c v
  inn : ∀ v < model.tree.numVertices, ∀ a, Near (if v ∈ O then K + J else K) (f.messagesIn v a) (c v * g.messagesIn v a) ∧ FGe (-80) (f.messagesIn v a)
  out : ∀ v < model.tree.numVertices, ∀ a, Near (if v ∈ O then J else kv + kc + 1) (f.messagesOut v a) (g.messagesOut v a) ∧ FGe (-80) (f.messagesOut v a)
  budget : J + ∑ v ∈ Finset.range model.tree.numVertices, (if v ∈ O then 0 else kv + kc + kt + M + 3) ≤ Jmax
  result : ∀ v ∈ Z, ∀ r ∈ columns model v, Near kr (f.result r) (g.result r)

theorem marginalsOut_near (N : Spec.ServeOpsNear A ε) (hM : M ≤ 128) (h : Model.Valid model) {kv kt kc K Jmax kr W : Nat} {fsrv : FloatServer M} {srv : Server ℝ M}
    (B : ServeBounds model.tree.numVertices (model.tree.numVertices - 1) fsrv) (S : ServeNear model kv kt kc fsrv) (s : Serves model srv) (hr : fsrv.raggedIndex = model.raggedIndex)
    (hids : ∀ c ∈ model.tree.treeGrid, c.1 < model.tree.numVertices - 1) (hW : ∀ v < model.tree.numVertices, (columns model v).card ≤ W) (hW' : W ≤ 256)
    (hkr : 2 * (kc + (K + Jmax) + (M + 1)) + W + 1 ≤ kr)
    {data : List Int} (prog : List Instr) {O Z : List Nat} (hZ : ∀ v ∈ Z, v < model.tree.numVertices)
    (hout : Outwards model.tree.numVertices (OnGrid model.tree.treeGrid) O Z prog) {f : FloatMarginal M} {g : MarginalState ℝ M} (hsafe : Spec.marginalsSafe A fsrv data prog f = true)
    {c : Nat → ℝ} {J : Nat} (I : MargOut model kv kc kt K Jmax kr O Z f g c J) :
    ∀ v < model.tree.numVertices, ∀ r ∈ columns model v,
      Near kr ((prog.foldl (floatMarginalStep A fsrv data) f).result r) ((prog.foldl (marginalStep srv data) g).result r) := by
  induction prog generalizing O Z f g J with
  | nil => exact fun v hv => I.result v (hout v hv)
  | cons i prog ih =>
    obtain ⟨op, v, v2, e⟩ := i
    cases op with
    | UP => exact absurd hout (by simp [Outwards])
    | IN => exact absurd hout (by simp [Outwards])
    | ROOT => exact absurd hout (by simp [Outwards])
    | OUT =>
      have hout' : v < model.tree.numVertices ∧ v2 < model.tree.numVertices ∧ v ≠ v2 ∧ OnGrid model.tree.treeGrid e v v2 ∧ v ∉ O ∧ v2 ∈ O ∧
        Outwards model.tree.numVertices (OnGrid model.tree.treeGrid) (v :: O) Z prog := hout
      obtain ⟨hv, hv2, hne, hg, hvO, hv2O, hrest⟩ := hout'
      have he : e < model.tree.numVertices - 1 := by
        have := hids _ hg
        split at this <;> exact this
      have hs0 : (((List.finRange M).all fun a => fltIn (-125) 127 (A.dot (transAt fsrv.trans e v v2 a) (f.messagesOut v2)) &&
          fltIn (-80) 80 ((floatMarginalStep A fsrv data f ⟨.OUT, v, v2, e⟩).messagesIn v a) && fltIn (-80) 80 ((floatMarginalStep A fsrv data f ⟨.OUT, v, v2, e⟩).messagesOut v a)) &&
          Spec.marginalsSafe A fsrv data prog (floatMarginalStep A fsrv data f ⟨.OUT, v, v2, e⟩)) = true := hsafe
      rw [Bool.and_eq_true, List.all_eq_true] at hs0
      obtain ⟨hs1, hs2⟩ := hs0
      have hgeI : ∀ a, FGe (-80) ((floatMarginalStep A fsrv data f ⟨.OUT, v, v2, e⟩).messagesIn v a) := fun a => by
        have := hs1 a (List.mem_finRange a)
        rw [Bool.and_eq_true, Bool.and_eq_true] at this
        exact fltIn_ge this.1.2
      have hgeO : ∀ a, FGe (-80) ((floatMarginalStep A fsrv data f ⟨.OUT, v, v2, e⟩).messagesOut v a) := fun a => by
        have := hs1 a (List.mem_finRange a)
        rw [Bool.and_eq_true, Bool.and_eq_true] at this
        exact fltIn_ge this.2
      have eI : ∀ a, (floatMarginalStep A fsrv data f ⟨.OUT, v, v2, e⟩).messagesIn v a = Flt.mul A.rnd (f.messagesIn v a) (A.dot (transAt fsrv.trans e v v2 a) (f.messagesOut v2)) := by
        intro a
        show Function.update f.messagesIn v _ v a = _
        rw [Function.update_self]
      have eO : ∀ a, (floatMarginalStep A fsrv data f ⟨.OUT, v, v2, e⟩).messagesOut v a = Flt.mul A.rnd (f.messagesOut v a) (A.dot (transAt fsrv.trans e v v2 a) (f.messagesOut v2)) := by
        intro a
        show Function.update f.messagesOut v _ v a = _
        rw [Function.update_self]
      have hdot := fun a => Near.dot N.ok.ops.dot N.dot (fun b => transAt_near S s hne hg a b) (fun b => by simpa only [if_pos hv2O] using (I.out v2 hv2 b).1) (i := -46) (j := -80) (by norm_num)
        (fun b => (transAt_bounds B he v v2 a b).ge) fun b => (I.out v2 hv2 b).2
      refine ih hZ hrest hs2 (g := marginalStep srv data g ⟨.OUT, v, v2, e⟩) (J := J + (kv + kc + kt + M + 3)) ⟨I.scale, ?_, ?_, ?_, I.result⟩
      · intro w hw a
        by_cases hwv : w = v
        · subst hwv
          refine ⟨?_, hgeI a⟩
          have e1 : (marginalStep srv data g ⟨.OUT, w, v2, e⟩).messagesIn w a = g.messagesIn w a * ∑ b, transAt srv.edgeTrans e w v2 a b * g.messagesOut v2 b := by
            show Function.update g.messagesIn w _ w a = _
            rw [Function.update_self]
          rw [e1, eI, if_pos List.mem_cons_self, ← mul_assoc]
          have h1 := (I.inn w hw a).1
          rw [if_neg hvO] at h1
          have hge := hgeI a
          rw [eI] at hge
          exact (Near.mul N.ok.ops.rnd h1 (hdot a) (hge.weaken (by norm_num))).mono (by omega)
        · have e1 : (floatMarginalStep A fsrv data f ⟨.OUT, v, v2, e⟩).messagesIn w = f.messagesIn w := Function.update_of_ne hwv _ _
          have e2 : (marginalStep srv data g ⟨.OUT, v, v2, e⟩).messagesIn w = g.messagesIn w := Function.update_of_ne hwv _ _
          rw [e1, e2]
          obtain ⟨h1, h2⟩ := I.inn w hw a
          refine ⟨h1.mono ?_, h2⟩
          by_cases hwO : w ∈ O
          · rw [if_pos hwO, if_pos (List.mem_cons_of_mem _ hwO)]
            omega
          · rw [if_neg hwO, if_neg (by rw [List.mem_cons, not_or]; exact ⟨hwv, hwO⟩)]
      · intro w hw a
        by_cases hwv : w = v
        · subst hwv
          refine ⟨?_, hgeO a⟩
          have e1 : (marginalStep srv data g ⟨.OUT, w, v2, e⟩).messagesOut w a = g.messagesOut w a * ∑ b, transAt srv.edgeTrans e w v2 a b * g.messagesOut v2 b := by
            show Function.update g.messagesOut w _ w a = _
            rw [Function.update_self]
          rw [e1, eO, if_pos List.mem_cons_self]
          have h1 := (I.out w hw a).1
          rw [if_neg hvO] at h1
          have hge := hgeO a
          rw [eO] at hge
          exact (Near.mul N.ok.ops.rnd h1 (hdot a) (hge.weaken (by norm_num))).mono (by omega)
        · have e1 : (floatMarginalStep A fsrv data f ⟨.OUT, v, v2, e⟩).messagesOut w = f.messagesOut w := Function.update_of_ne hwv _ _
          have e2 : (marginalStep srv data g ⟨.OUT, v, v2, e⟩).messagesOut w = g.messagesOut w := Function.update_of_ne hwv _ _
          rw [e1, e2]
          obtain ⟨h1, h2⟩ := I.out w hw a
          refine ⟨h1.mono ?_, h2⟩
          by_cases hwO : w ∈ O
          · rw [if_pos hwO, if_pos (List.mem_cons_of_mem _ hwO)]
            omega
          · rw [if_neg hwO, if_neg (by rw [List.mem_cons, not_or]; exact ⟨hwv, hwO⟩)]
      · have hc := sum_change_one hv (F := fun w => if w ∈ O then 0 else kv + kc + kt + M + 3) (F' := fun w => if w ∈ v :: O then 0 else kv + kc + kt + M + 3) (N := Nat)
          fun w hw => if_congr (by rw [List.mem_cons]; tauto) rfl rfl
        simp only [if_neg hvO, List.mem_cons_self, if_true] at hc
        have := I.budget
        omega
    | DOWN =>
      obtain ⟨hv, hvO, hrest⟩ := hout
      have hs0 : (((fsrv.block v).all fun r => fltIn (-125) 127 ((floatMarginalStep A fsrv data f ⟨.DOWN, v, v2, e⟩).result r)) &&
          Spec.marginalsSafe A fsrv data prog (floatMarginalStep A fsrv data f ⟨.DOWN, v, v2, e⟩)) = true := hsafe
      rw [Bool.and_eq_true, List.all_eq_true] at hs0
      obtain ⟨hs1, hs2⟩ := hs0
      have hblock : fsrv.block v = columnList model v := by
        unfold FloatServer.block columnList
        rw [hr]
      have hJ : J ≤ Jmax := by have := I.budget; omega
      have hmarg : ∀ r ∈ fsrv.block v, Near (kc + (K + Jmax) + (M + 1)) (A.dot (fsrv.cond r) (f.messagesIn v)) (c v * ∑ a, srv.featCond r a * g.messagesIn v a) ∧
          FGe (-126) (A.dot (fsrv.cond r) (f.messagesIn v)) := by
        intro r hrb
        have hrc : r ∈ columns model v := mem_columnList.1 (hblock ▸ hrb)
        have hin : ∀ b, Near (K + Jmax) (f.messagesIn v b) (c v * g.messagesIn v b) := fun b => by
          have := (I.inn v hv b).1
          rw [if_pos hvO] at this
          exact this.mono (by omega)
        have hcond := B.cond v hv r hrb
        have := Near.dot N.ok.ops.dot N.dot (fun b => S.cond v hv r hrc b) hin (i := -40) (j := -80) (by norm_num) (fun b => (hcond b).ge) fun b => (I.inn v hv b).2
        refine ⟨?_, ?_⟩
        · have e1 : ∑ b, featMean model v r b * (c v * g.messagesIn v b) = c v * ∑ a, srv.featCond r a * g.messagesIn v a := by
            rw [Finset.mul_sum, s.feat v hv r hrc]
            exact Finset.sum_congr rfl fun b _ => by ring
          rw [e1] at this
          exact this
        · obtain ⟨d, h1, -, -, h4, -⟩ := N.ok.ops.dot (fun b => (fsrv.cond r b).getD 0) (fun b => (f.messagesIn v b).getD 0)
            (fun b => ⟨(S.cond v hv r hrc b).get.2.1, (S.cond v hv r hrc b).get.2.2.1.le⟩) fun b => ⟨(hin b).get.2.1, (hin b).get.2.2.1.le⟩
          have ex : fsrv.cond r = fun b => some ((fsrv.cond r b).getD 0) := funext fun b => (S.cond v hv r hrc b).get.1
          have ey : f.messagesIn v = fun b => some ((f.messagesIn v b).getD 0) := funext fun b => (hin b).get.1
          rw [ex, ey, h1]
          refine ⟨d, rfl, h4 (-126) (by norm_num) 0 ?_⟩
          obtain ⟨p, hp, hp'⟩ := (hcond 0).ge
          obtain ⟨q, hq, hq'⟩ := (I.inn v hv 0).2
          rw [hp, hq]
          refine le_trans (zpow_mono (show (-126 : Int) ≤ -40 + -80 by norm_num)) ?_
          rw [zpow_split]
          exact mul_le_mul hp' hq' (two_zpow_pos _).le (le_trans (two_zpow_pos _).le hp')
      have hnew : ∀ r ∈ fsrv.block v, Near kr ((floatMarginalStep A fsrv data f ⟨.DOWN, v, v2, e⟩).result r) ((marginalStep srv data g ⟨.DOWN, v, v2, e⟩).result r) := by
        intro r hrb
        have hlen : (fsrv.block v).length ≤ W := by
          rw [hblock, length_columnList]
          exact hW v hv
        have hsum := Near.sum N.ok.sum N.sum (List.ne_nil_of_mem hrb) (le_trans hlen (le_trans hW' (by norm_num))) (fun r hr => (hmarg r hr).1) fun r hr => (hmarg r hr).2
        have hge := fltIn_ge (hs1 r hrb)
        have hrb' : srv.beg v ≤ r ∧ r < srv.stop v := by
          have := mem_columns.1 (mem_columnList.1 (hblock ▸ hrb))
          unfold Server.beg Server.stop
          rw [s.ragged]
          exact this
        have e1 : (floatMarginalStep A fsrv data f ⟨.DOWN, v, v2, e⟩).result r =
            Flt.div A.rnd (A.dot (fsrv.cond r) (f.messagesIn v)) (A.sum ((fsrv.block v).map fun r => A.dot (fsrv.cond r) (f.messagesIn v))) := if_pos hrb
        have e2 : (marginalStep srv data g ⟨.DOWN, v, v2, e⟩).result r =
            (∑ a, srv.featCond r a * g.messagesIn v a) / ∑ r' ∈ Finset.Ico (srv.beg v) (srv.stop v), ∑ a, srv.featCond r' a * g.messagesIn v a := if_pos hrb'
        have e3 : ((fsrv.block v).map fun r => c v * ∑ a, srv.featCond r a * g.messagesIn v a).sum
            = c v * ∑ r' ∈ Finset.Ico (srv.beg v) (srv.stop v), ∑ a, srv.featCond r' a * g.messagesIn v a := by
          unfold FloatServer.block
          rw [sum_range'_real, Finset.mul_sum, hr]
          unfold Server.beg Server.stop
          rw [s.ragged]
        rw [e1] at hge ⊢
        rw [e2]
        rw [e3] at hsum
        have := Near.div N.ok.ops.rnd (hmarg r hrb).1 hsum hge
        rw [mul_div_mul_left _ _ (I.scale v hv).ne'] at this
        exact this.mono (by omega)
      refine ih (Z := v :: Z) ?_ hrest hs2 (g := marginalStep srv data g ⟨.DOWN, v, v2, e⟩) (J := J) ⟨I.scale, I.inn, I.out, I.budget, ?_⟩
      · intro w hw
        rcases List.mem_cons.1 hw with rfl | hw
        · exact hv
        · exact hZ w hw
      · intro w hw r hrw
        by_cases hwv : w = v
        · subst hwv
          exact hnew r (hblock ▸ mem_columnList.2 hrw)
        · have hwZ : w ∈ Z := (List.mem_cons.1 hw).resolve_left hwv
          have hnot : r ∉ columns model v := fun hrv => hwv (columns_disjoint h (hZ w hwZ) hv hrw hrv)
          have e1 : (floatMarginalStep A fsrv data f ⟨.DOWN, v, v2, e⟩).result r = f.result r := if_neg fun hb => hnot (mem_columnList.1 (hblock ▸ hb))
          have e2 : (marginalStep srv data g ⟨.DOWN, v, v2, e⟩).result r = g.result r := if_neg fun hb => hnot (by
            rw [mem_columns]
            unfold Server.beg Server.stop at hb
            rw [s.ragged] at hb
            exact hb)
          rw [e1, e2]
          exact I.result w hwZ r hrw

theorem marginalsIn_near (N : Spec.ServeOpsNear A ε) (hM : M ≤ 128) (h : Model.Valid model) {kv kt kc K Jmax kr W : Nat} {fsrv : FloatServer M} {srv : Server ℝ M}
    (B : ServeBounds model.tree.numVertices (model.tree.numVertices - 1) fsrv) (S : ServeNear model kv kt kc fsrv) (s : Serves model srv) (hr : fsrv.raggedIndex = model.raggedIndex)
    (hids : ∀ c ∈ model.tree.treeGrid, c.1 < model.tree.numVertices - 1) (hW : ∀ v < model.tree.numVertices, (columns model v).card ≤ W) (hW' : W ≤ 256)
    (hkr : 2 * (kc + (K + Jmax) + (M + 1)) + W + 1 ≤ kr) (hJ : model.tree.numVertices * (kv + kc + kt + M + 3) ≤ Jmax)
    {data : List Int} (hd : ∀ r, 0 ≤ data.getD r 0) (hsum : ∀ v < model.tree.numVertices, ((fsrv.block v).map fun r => data.getD r 0).sum ≤ 1) (prog : List Instr) {U D : List Nat}
    (hin : Inwards model.tree.numVertices (OnGrid model.tree.treeGrid) (fun r rest => Outwards model.tree.numVertices (OnGrid model.tree.treeGrid) [r] [] rest) U D prog)
    {f : FloatMarginal M} {g : MarginalState ℝ M} (hsafe : Spec.marginalsSafe A fsrv data prog f = true)
    {c : Nat → ℝ} {k : Nat → Nat} (I : MargIn model fsrv kv kc kt K U D f g c k) :
    ∀ v < model.tree.numVertices, ∀ r ∈ columns model v,
      Near kr ((prog.foldl (floatMarginalStep A fsrv data) f).result r) ((prog.foldl (marginalStep srv data) g).result r) := by
  induction prog generalizing U D f g c k with
  | nil => exact absurd hin (by simp [Inwards])
  | cons i prog ih =>
    obtain ⟨op, v, v2, e⟩ := i
    cases op with
    | UP =>
      obtain ⟨hv, hU, hD, hrest⟩ := hin
      obtain ⟨f1, f2, f3⟩ := I.fresh v hv hU
      have hge : ∀ a, FGe (-32) (f.messagesIn v a) := fun a => by rw [f1]; exact (S.vert v hv a).2
      have hmsg : Msg (-8) 0 (f.messagesIn v) := by rw [f1]; exact B.vert v hv
      have hfold := fun a => upFold_near N.ok (fsrv := fsrv) (skip := false) (data := data) (v := v) (msgs := f.messagesIn) (F := featMean model v) (kc := kc) hmsg.1
        (fun a => (I.near v hv a).1) hge (fsrv.block v) (B.cond v hv) (fun r hr' a => S.cond v hv r (by
          have e : fsrv.block v = columnList model v := by
            unfold FloatServer.block columnList
            rw [hr]
          rw [e] at hr'
          exact mem_columnList.1 hr') a) hd (hsum v hv) a
      have hother := (floatServeUp_ok (skip := false) N.ok (by norm_num) hmsg (B.cond v hv) hd (hsum v hv)).2
      have hexact := serveUp_eq s data hv g.messagesIn
      have hprod : ∀ a, ((fsrv.block v).map fun r => featMean model v r a ^ data.getD r 0).prod = serveU model data v a := by
        intro a
        unfold serveU FloatServer.block columns
        rw [hr]
        rfl
      have hnewv : ∀ a, Near (k v + kc + 1) (floatServeUp A fsrv false data f.messagesIn v v a) (c v * serveUp srv data g.messagesIn v v a) ∧
          FGe (-80) (floatServeUp A fsrv false data f.messagesIn v v a) := by
        intro a
        rw [hexact, Function.update_self]
        have := hfold a
        rw [hprod] at this
        rw [← mul_assoc]
        exact ⟨this.1, this.2.weaken (by norm_num)⟩
      have hb := sum_change_one hv (F := fun w => (if w ∈ D then 0 else k w + kt + M + 3) + (if w ∈ U then 0 else kc + 1))
        (F' := fun w => (if w ∈ D then 0 else Function.update k v (k v + kc + 1) w + kt + M + 3) + (if w ∈ v :: U then 0 else kc + 1)) (N := Nat) (by
          intro w hw
          simp only [Function.update_of_ne hw]
          congr 1
          exact if_congr (by rw [List.mem_cons]; tauto) rfl rfl)
      simp only [Function.update_self, if_neg hD, if_neg hU, List.mem_cons_self, if_true] at hb
      have hbud : ∑ w ∈ Finset.range model.tree.numVertices, ((if w ∈ D then 0 else Function.update k v (k v + kc + 1) w + kt + M + 3) + (if w ∈ v :: U then 0 else kc + 1)) ≤ K := by
        have := I.budget
        omega
      refine ih hrest hsafe (g := marginalStep srv data g ⟨.UP, v, v2, e⟩) (c := c) (k := Function.update k v (k v + kc + 1)) ⟨I.scale, ?_, ?_, ?_, ?_, hbud⟩
      · intro w hw a
        show Near _ (floatServeUp A fsrv false data f.messagesIn v w a) (_ * serveUp srv data g.messagesIn v w a) ∧ FGe _ (floatServeUp A fsrv false data f.messagesIn v w a)
        by_cases hwv : w = v
        · subst hwv
          rw [Function.update_self]
          exact hnewv a
        · rw [hexact, Function.update_of_ne hwv, Function.update_of_ne hwv, hother w hwv]
          exact I.near w hw a
      · intro w hw hwU
        rw [List.mem_cons, not_or] at hwU
        show floatServeUp A fsrv false data f.messagesIn v w = _ ∧ _
        rw [hother w hwU.1, Function.update_of_ne hwU.1]
        exact I.fresh w hw hwU.2
      · intro w hw hwU a
        show Near _ (Function.update f.messagesOut v (floatServeUp A fsrv false data f.messagesIn v v) w a) (Function.update g.messagesOut v (serveUp srv data g.messagesIn v v) w a) ∧
          FGe _ (Function.update f.messagesOut v (floatServeUp A fsrv false data f.messagesIn v v) w a)
        by_cases hwv : w = v
        · subst hwv
          rw [Function.update_self, Function.update_self]
          have := hnewv a
          rw [f2, f3, one_mul] at this
          exact this
        · rw [Function.update_of_ne hwv, Function.update_of_ne hwv]
          exact I.out w hw ((List.mem_cons.1 hwU).resolve_left hwv) a
      · intro w hw
        by_cases hwv : w = v
        · subst hwv
          rw [Function.update_self]
          have h1 := Finset.single_le_sum (f := fun w' => (if w' ∈ D then 0 else Function.update k w (k w + kc + 1) w' + kt + M + 3) + (if w' ∈ w :: U then 0 else kc + 1))
            (fun _ _ => Nat.zero_le _) (Finset.mem_range.2 hw)
          simp only [Function.update_self, if_neg hD, List.mem_cons_self, if_true] at h1
          omega
        · rw [Function.update_of_ne hwv]
          exact I.le w hw
    | IN =>
      have hin' : v < model.tree.numVertices ∧ v2 < model.tree.numVertices ∧ v ≠ v2 ∧ OnGrid model.tree.treeGrid e v v2 ∧ v ∈ U ∧ v2 ∈ U ∧ v ∉ D ∧ v2 ∉ D ∧
        Inwards model.tree.numVertices (OnGrid model.tree.treeGrid) (fun r rest => Outwards model.tree.numVertices (OnGrid model.tree.treeGrid) [r] [] rest) U (v2 :: D) prog := hin
      obtain ⟨hv, hv2, hne, hg, hvU, hv2U, hD, hD2, hrest⟩ := hin'
      have he : e < model.tree.numVertices - 1 := by
        have := hids _ hg
        split at this <;> exact this
      have hs0 : (((List.finRange M).all fun a => fltIn (-125) 127 (floatServeIn A fsrv f.messagesIn v v2 e a) &&
          fltIn (-80) 80 ((floatMarginalStep A fsrv data f ⟨.IN, v, v2, e⟩).messagesIn v a)) &&
          Spec.marginalsSafe A fsrv data prog (floatMarginalStep A fsrv data f ⟨.IN, v, v2, e⟩)) = true := hsafe
      rw [Bool.and_eq_true, List.all_eq_true] at hs0
      obtain ⟨hs1, hs2⟩ := hs0
      have hge1 : ∀ a, FGe (-125) (floatServeIn A fsrv f.messagesIn v v2 e a) := fun a => by
        have := hs1 a (List.mem_finRange a)
        rw [Bool.and_eq_true] at this
        exact fltIn_ge this.1
      have hge2 : ∀ a, FGe (-80) ((floatMarginalStep A fsrv data f ⟨.IN, v, v2, e⟩).messagesIn v a) := fun a => by
        have := hs1 a (List.mem_finRange a)
        rw [Bool.and_eq_true] at this
        exact fltIn_ge this.2
      have hdot := fun a => Near.dot N.ok.ops.dot N.dot (fun b => transAt_near S s hne hg a b) (fun b => (I.near v2 hv2 b).1) (i := -46) (j := -80) (by norm_num)
        (fun b => (transAt_bounds B he v v2 a b).ge) fun b => (I.near v2 hv2 b).2
      have hin1 : ∀ a, Near (k v + (kt + k v2 + (M + 1)) + 1) (floatServeIn A fsrv f.messagesIn v v2 e a) (c v * c v2 * serveIn srv g.messagesIn v v2 e a) := by
        intro a
        have := Near.mul N.ok.ops.rnd (I.near v hv a).1 (hdot a) (hge1 a)
        have e1 : c v * g.messagesIn v a * ∑ b, transAt srv.edgeTrans e v v2 a b * (c v2 * g.messagesIn v2 b) = c v * c v2 * serveIn srv g.messagesIn v v2 e a := by
          unfold serveIn
          rw [show (∑ b, transAt srv.edgeTrans e v v2 a b * (c v2 * g.messagesIn v2 b)) = c v2 * ∑ b, transAt srv.edgeTrans e v v2 a b * g.messagesIn v2 b by
            rw [Finset.mul_sum]
            exact Finset.sum_congr rfl fun b _ => by ring]
          ring
        rw [e1] at this
        exact this
      have hcc : 0 < c v * c v2 := mul_pos (I.scale v hv) (I.scale v2 hv2)
      have hpos : ∀ a, 0 < serveIn srv g.messagesIn v v2 e a := fun a => pos_of_mul_pos_right (hin1 a).pos hcc.le
      obtain ⟨d, hd1, -, a0, hd2⟩ := fltMax_spec fun a => (hin1 a).get.1
      have hdf : IsFloat 24 (-149) d := hd2 ▸ (hin1 a0).get.2.1
      have hd0 : 0 < d := hd2 ▸ (hin1 a0).get.2.2.1
      have hdR : (0 : ℝ) < d := by exact_mod_cast hd0
      set T : ℝ := vecMax (serveIn srv g.messagesIn v v2 e) with hT
      have hTpos : 0 < T := lt_of_lt_of_le (hpos 0) (Finset.le_sup' _ (Finset.mem_univ 0))
      have hmsg : ∀ a, (floatMarginalStep A fsrv data f ⟨.IN, v, v2, e⟩).messagesIn v a = Flt.div A.rnd (floatServeIn A fsrv f.messagesIn v v2 e a) (some d) := by
        intro a
        rw [← hd1]
        show Function.update f.messagesIn v _ v a = _
        rw [Function.update_self]
      have hmsg' : ∀ a, (marginalStep srv data g ⟨.IN, v, v2, e⟩).messagesIn v a = serveIn srv g.messagesIn v v2 e a / T := by
        intro a
        show Function.update g.messagesIn v _ v a = _
        rw [Function.update_self]
      have hnew : ∀ a, Near (k v + (kt + k v2 + (M + 1)) + 2) ((floatMarginalStep A fsrv data f ⟨.IN, v, v2, e⟩).messagesIn v a)
          (c v * c v2 * T / d * (marginalStep srv data g ⟨.IN, v, v2, e⟩).messagesIn v a) := by
        intro a
        have hge := hge2 a
        rw [hmsg'] 
        rw [hmsg] at hge ⊢
        have := Near.div N.ok.ops.rnd (hin1 a) (near_self hdf hd0) (hge.weaken (by norm_num))
        have e1 : c v * c v2 * serveIn srv g.messagesIn v v2 e a / d = c v * c v2 * T / d * (serveIn srv g.messagesIn v v2 e a / T) := by
          field_simp
        rw [e1] at this
        exact this.mono (by omega)
      have hvD2 : v ∉ v2 :: D := by
        rw [List.mem_cons, not_or]
        exact ⟨hne, hD⟩
      have hb := sum_change_two (N := Nat) hv hv2 hne (F := fun w => (if w ∈ D then 0 else k w + kt + M + 3) + (if w ∈ U then 0 else kc + 1))
        (F' := fun w => (if w ∈ v2 :: D then 0 else Function.update k v (k v + (kt + k v2 + (M + 1)) + 2) w + kt + M + 3) + (if w ∈ U then 0 else kc + 1)) (by
          intro w hwv hwv2
          simp only [Function.update_of_ne hwv]
          congr 1
          exact if_congr (by rw [List.mem_cons]; tauto) rfl rfl)
      simp only [Function.update_self, if_pos hvU, if_pos hv2U, if_neg hD, if_neg hD2, if_neg hvD2, if_pos List.mem_cons_self] at hb
      have hbud : ∑ w ∈ Finset.range model.tree.numVertices,
          ((if w ∈ v2 :: D then 0 else Function.update k v (k v + (kt + k v2 + (M + 1)) + 2) w + kt + M + 3) + (if w ∈ U then 0 else kc + 1)) ≤ K := by
        have := I.budget
        omega
      refine ih hrest hs2 (g := marginalStep srv data g ⟨.IN, v, v2, e⟩) (c := Function.update c v (c v * c v2 * T / d))
        (k := Function.update k v (k v + (kt + k v2 + (M + 1)) + 2)) ⟨?_, ?_, ?_, I.out, ?_, hbud⟩
      · intro w hw
        by_cases hwv : w = v
        · subst hwv
          rw [Function.update_self]
          positivity
        · rw [Function.update_of_ne hwv]
          exact I.scale w hw
      · intro w hw a
        by_cases hwv : w = v
        · subst hwv
          rw [Function.update_self, Function.update_self]
          exact ⟨hnew a, hge2 a⟩
        · have e1 : (floatMarginalStep A fsrv data f ⟨.IN, v, v2, e⟩).messagesIn w = f.messagesIn w := Function.update_of_ne hwv _ _
          have e2 : (marginalStep srv data g ⟨.IN, v, v2, e⟩).messagesIn w = g.messagesIn w := Function.update_of_ne hwv _ _
          rw [Function.update_of_ne hwv, Function.update_of_ne hwv, e1, e2]
          exact I.near w hw a
      · intro w hw hwU
        have hwv : w ≠ v := fun h => hwU (h ▸ hvU)
        have e1 : (floatMarginalStep A fsrv data f ⟨.IN, v, v2, e⟩).messagesIn w = f.messagesIn w := Function.update_of_ne hwv _ _
        rw [e1, Function.update_of_ne hwv, Function.update_of_ne hwv]
        exact I.fresh w hw hwU
      · intro w hw
        by_cases hwv : w = v
        · subst hwv
          have h1 := Finset.single_le_sum (f := fun w' => (if w' ∈ v2 :: D then 0 else Function.update k w (k w + (kt + k v2 + (M + 1)) + 2) w' + kt + M + 3) + (if w' ∈ U then 0 else kc + 1))
            (fun _ _ => Nat.zero_le _) (Finset.mem_range.2 hw)
          simp only [Function.update_self, if_neg hvD2] at h1
          rw [Function.update_self]
          omega
        · rw [Function.update_of_ne hwv]
          exact I.le w hw
    | ROOT =>
      obtain ⟨hv, -, -, hall, hrest⟩ := hin
      refine marginalsOut_near N hM h B S s hr hids hW hW' hkr prog (O := [v]) (Z := []) (by simp) hrest (f := f) (g := g) hsafe (c := c) (J := kv + kc + 1) ⟨I.scale, ?_, ?_, ?_, by simp⟩
      · intro w hw a
        refine ⟨(I.near w hw a).1.mono ?_, (I.near w hw a).2⟩
        have := I.le w hw
        split <;> omega
      · intro w hw a
        refine ⟨(I.out w hw (hall w hw) a).1.mono ?_, (I.out w hw (hall w hw) a).2⟩
        split <;> omega
      · have hc := sum_change_one hv (F := fun _ => kv + kc + kt + M + 3) (F' := fun w => if w ∈ [v] then 0 else kv + kc + kt + M + 3) (N := Nat)
          fun w hw => if_neg (by simpa using hw)
        simp only [List.mem_cons_self, if_true, Finset.sum_const, Finset.card_range, smul_eq_mul] at hc
        omega
    | OUT => exact absurd hin (by simp [Inwards])
    | DOWN => exact absurd hin (by simp [Inwards])

/-- How many roundings a result of `marginals` has seen at most, for `V` features with at most `W` values and `M` clusters. -/
def Spec.marginalRoundings (V M W : Nat) : Nat := 4 * V * (M * M + 4 * M + W + 35) + 3 * W + 2 * M + 17

/-- **C72**, before the probabilities are interpreted. -/
theorem floatMarginals_near_exact (N : Spec.ServeOpsNear A ε) (h : Model.Valid model) (S : Spec.SmallCounts model) {W : Nat} (hW : ∀ v < model.tree.numVertices, (columns model v).card ≤ W)
    (hW' : W ≤ 256) {data : List Int} (hrow : Spec.SingleRow model data) {srv : FloatServer M} (hs : FloatServer.init A model = .ok srv) {junk : Nat → Fin M → Flt}
    (hsafe : Spec.marginalsSafe A srv data srv.program ⟨srv.vert, junk, fun _ => some 0⟩ = true) :
    ∃ esrv : Server ℝ M, Serves model esrv ∧ esrv.program = srv.program ∧ ∀ junk' : Nat → Fin M → ℝ, ∀ v < model.tree.numVertices, ∀ c ∈ columns model v,
      Near (Spec.marginalRoundings model.tree.numVertices M W) (srv.marginals A junk data c) (marginalsWith esrv esrv.program junk' data c) := by
  obtain ⟨B, hp, hr⟩ := floatServer_bounds N.ok h S hs
  have SN := floatServer_near N h S hW hs
  obtain ⟨mst, hmst⟩ := exists_mst (K := ℝ)
  obtain ⟨esrv, -, s, -⟩ := server_init hmst h
  have hpe : esrv.program = srv.program := Except.ok.inj (s.program.symm.trans hp)
  refine ⟨esrv, s, hpe, fun junk' => ?_⟩
  obtain ⟨c, hc, hpc⟩ := exists_plan_none h hp
  obtain ⟨par, ch, eid, L, P, hp'⟩ := exists_plan h hc
  have hprog : srv.program = progOf c par ch eid L := Except.ok.inj (hpc.symm.trans hp')
  have hids : ∀ e ∈ model.tree.treeGrid, e.1 < model.tree.numVertices - 1 := by
    have hlen : model.tree.treeGrid.length = model.tree.numVertices - 1 := by
      have := h.isTree.card
      simp only [TreeStructure.getEdges, List.length_map] at this
      omega
    rw [← hlen]
    obtain ⟨edges, hs⟩ := h.sorted
    rw [hs]
    exact makeTree_ids edges
  have hin : Inwards model.tree.numVertices (OnGrid model.tree.treeGrid) (fun r rest => Outwards model.tree.numVertices (OnGrid model.tree.treeGrid) [r] [] rest) [] [] srv.program := by
    rw [hprog]
    refine inwards_progOf P.topo (fun v hv hvr => ⟨(P.parent v hv hvr).1, (P.parent v hv hvr).2, upEntry_mem P hv hvr⟩) ?_
    exact outwards_progOf P.topo fun v hv hvr => ⟨(P.parent v hv hvr).1, (P.parent v hv hvr).2, OnGrid.symm (upEntry_mem P hv hvr) (P.parent v hv hvr).2⟩
  have hvert : esrv.vertProbs = vertMean model := funext s.vert
  have hbud : model.tree.numVertices * ((M + 5) + (M * M + 2 * M + 19) + M + 3 + (W + 7 + 1)) = model.tree.numVertices * (M * M + 4 * M + W + 35) := by
    congr 1
    ring
  rw [hpe]
  refine marginalsIn_near N S.clusters h B SN s hr hids hW hW' (K := model.tree.numVertices * (M * M + 4 * M + W + 35)) (Jmax := model.tree.numVertices * (M * M + 4 * M + W + 35)) ?_
    (Nat.mul_le_mul_left _ (by omega)) hrow.1 (singleRow_sum hrow hr) srv.program hin hsafe (c := fun _ => 1) (k := fun _ => M + 5)
    { scale := fun _ _ => one_pos
      near := fun v hv a => by
        refine ⟨?_, (SN.vert v hv a).2.weaken (by norm_num)⟩
        simp only [hvert, one_mul]
        exact (SN.vert v hv a).1
      fresh := fun v hv _ => ⟨rfl, rfl, rfl⟩
      out := fun v hv hU => by cases hU
      le := fun v hv => by
        have h1 : 1 * (M * M + 4 * M + W + 35) ≤ model.tree.numVertices * (M * M + 4 * M + W + 35) := Nat.mul_le_mul_right _ (by omega)
        have h2 : 0 ≤ M * M := Nat.zero_le _
        omega
      budget := by
        simp only [List.not_mem_nil, if_false, Finset.sum_const, Finset.card_range, smul_eq_mul]
        exact hbud.le }
  unfold Spec.marginalRoundings
  rw [mul_assoc]
  omega

/-- **C72**. For every model with counts below `2 ^ 24`, at most 128 clusters and features of at most `W ≤ 256` values, and every row with at most one observation per feature: unless a number underflows or
overflows, `marginals` computed in float32 are the probabilities of C26 up to a relative error that is linear in the number of features. -/
theorem floatMarginals_near (N : Spec.ServeOpsNear A ε) (h : Model.Valid model) (hcons : Model.Consistent model) (S : Spec.SmallCounts model) {W : Nat}
    (hW : ∀ v < model.tree.numVertices, (columns model v).card ≤ W)
    (hW' : W ≤ 256) {data : List Int} (hrow : Spec.SingleRow model data) {srv : FloatServer M} (hs : FloatServer.init A model = .ok srv) {junk : Nat → Fin M → Flt}
    (hsafe : Spec.marginalsSafe A srv data srv.program ⟨srv.vert, junk, fun _ => some 0⟩ = true) :
    ∃ r, IsCenter model.tree.numVertices model.tree.getEdges r ∧ ∀ v < model.tree.numVertices, ∀ c ∈ columns model v,
      ∃ q p, srv.marginals A junk data c = some q ∧ 0 < q ∧
        p = predictive model (evidenceOn model (fun u => Above model.tree.getEdges r u v ∨ Above model.tree.getEdges r v u) fun c => data.getD c 0) c ∧
        (q : ℝ) ≤ p * (1 + 2 ^ (-23 : Int)) ^ Spec.marginalRoundings model.tree.numVertices M W ∧ p ≤ q * (1 + 2 ^ (-23 : Int)) ^ Spec.marginalRoundings model.tree.numVertices M W := by
  obtain ⟨esrv, s, -, hnear⟩ := floatMarginals_near_exact N h S hW hW' hrow hs hsafe
  have ht : IsTree model.tree.numVertices (gridEdges model.tree.treeGrid) := h.isTree
  obtain ⟨r, hr1, hr2⟩ := findCenter_spec ht
  have hp : makeProgram model.tree.treeGrid (some r) = .ok esrv.program := by
    rw [← s.program]
    simp only [makeProgram, hr1, bind, Except.bind]
  refine ⟨r, hr2, fun v hv c hc => ?_⟩
  obtain ⟨q, h1, -, h3, h4, h5⟩ := hnear (fun _ _ => 0) v hv c hc
  rw [marginals_exact_partial h hcons s hr2.1 hp data _ hv hc] at h4 h5
  have e : (ulp : ℝ) = 1 + 2 ^ (-23 : Int) := by
    unfold ulp
    push_cast
    rfl
  rw [e] at h4 h5
  exact ⟨q, _, h1, h3, rfl, h4, h5⟩

/-- Distances to probabilities that are known up to a factor. -/
theorem l1_transfer {S : Finset Nat} {q : Nat → ℚ} {p : Nat → ℝ} {U : ℝ} (hU : 1 ≤ U) (hq : ∀ c ∈ S, 0 < q c ∧ (q c : ℝ) ≤ p c * U ∧ p c ≤ q c * U) (hp : ∑ c ∈ S, p c = 1) {R : Int} (hR : 0 ≤ R)
    {row other : Nat → Int} {E : ℚ} (h : ∑ c ∈ S, |R * q c / ∑ c ∈ S, q c - (row c : ℚ)| ≤ ∑ c ∈ S, |R * q c / ∑ c ∈ S, q c - (other c : ℚ)| + E) :
    ∑ c ∈ S, |R * p c - row c| ≤ ∑ c ∈ S, |R * p c - other c| + 2 * R * (U ^ 2 - 1) + E := by
  have h' := (Rat.cast_le (K := ℝ)).2 h
  push_cast at h'
  have hU0 : 0 < U := by linarith
  set s : ℝ := ∑ c ∈ S, (q c : ℝ) with hs
  have s1 : s ≤ U := by
    rw [hs]
    calc ∑ c ∈ S, (q c : ℝ) ≤ ∑ c ∈ S, p c * U := Finset.sum_le_sum fun c hc => (hq c hc).2.1
      _ = U := by rw [← Finset.sum_mul, hp, one_mul]
  have s2 : 1 ≤ s * U := by
    rw [← hp, hs, Finset.sum_mul]
    exact Finset.sum_le_sum fun c hc => (hq c hc).2.2
  have s0 : 0 < s := pos_of_mul_pos_left (lt_of_lt_of_le one_pos s2) hU0.le
  have hRR : (0 : ℝ) ≤ R := by exact_mod_cast hR
  have hdiff : ∀ c ∈ S, |R * p c - R * q c / s| ≤ R * (p c * (U ^ 2 - 1)) := by
    intro c hc
    obtain ⟨h0, h1, h2⟩ := hq c hc
    have h0' : (0 : ℝ) < q c := by exact_mod_cast h0
    have hpc : 0 < p c := pos_of_mul_pos_left (lt_of_lt_of_le h0' h1) hU0.le
    rw [mul_div_assoc, ← mul_sub, abs_mul, abs_of_nonneg hRR]
    refine mul_le_mul_of_nonneg_left ?_ hRR
    have u1 : (q c : ℝ) / s ≤ p c * U ^ 2 := by
      rw [div_le_iff₀ s0]
      calc (q c : ℝ) ≤ p c * U := h1
        _ = p c * U * 1 := by ring
        _ ≤ p c * U * (s * U) := mul_le_mul_of_nonneg_left s2 (by positivity)
        _ = _ := by ring
    have u2 : p c ≤ q c / s * U ^ 2 := by
      rw [div_mul_eq_mul_div, le_div_iff₀ s0]
      calc p c * s ≤ p c * U := mul_le_mul_of_nonneg_left s1 hpc.le
        _ ≤ (q c * U) * U := mul_le_mul_of_nonneg_right h2 hU0.le
        _ = _ := by ring
    have hU2 : 1 ≤ U ^ 2 := one_le_pow₀ hU
    rw [abs_le]
    generalize (q c : ℝ) / s = x at u1 u2
    constructor
    · linarith
    · by_contra hcon
      have h3 : x ≤ p c := by nlinarith
      have : x * (U ^ 2 - 1) ≤ p c * (U ^ 2 - 1) := mul_le_mul_of_nonneg_right h3 (by linarith)
      linarith
  have htot : ∑ c ∈ S, |R * p c - R * q c / s| ≤ R * (U ^ 2 - 1) := by
    refine le_trans (Finset.sum_le_sum hdiff) (le_of_eq ?_)
    rw [← Finset.mul_sum, ← Finset.sum_mul, hp, one_mul]
  have t1 : ∑ c ∈ S, |R * p c - row c| ≤ ∑ c ∈ S, |R * p c - R * q c / s| + ∑ c ∈ S, |R * q c / s - row c| := by
    rw [← Finset.sum_add_distrib]
    exact Finset.sum_le_sum fun c _ => abs_sub_le _ _ _
  have t2 : ∑ c ∈ S, |R * q c / s - other c| ≤ ∑ c ∈ S, |R * p c - R * q c / s| + ∑ c ∈ S, |R * p c - other c| := by
    rw [← Finset.sum_add_distrib]
    refine Finset.sum_le_sum fun c _ => ?_
    rw [abs_sub_comm (R * p c) (R * q c / s)]
    exact abs_sub_le _ _ _
  linarith

/-- **C72**. `median` in float32 under the same conditions, for counts up to 127: every block has exactly the requested count, and no other counts are closer to the exact probabilities of C26 by more than the
errors of `marginals` and of `quantize_from_probs2` add up to. -/
theorem floatMedian_near (N : Spec.ServeOpsNear A ε) (hsum : Spec.SumClose A.sum) (h : Model.Valid model) (hcons : Model.Consistent model) (S : Spec.SmallCounts model) {W : Nat}
    (hW : ∀ v < model.tree.numVertices, (columns model v).card ≤ W) (hne : ∀ v < model.tree.numVertices, (columns model v).Nonempty)
    (hW' : W ≤ 256) {data counts : List Int} (hrow : Spec.SingleRow model data) (hc : ∀ v < model.tree.numVertices, 0 ≤ counts.getD v 0 ∧ counts.getD v 0 ≤ 127)
    {srv : FloatServer M} (hs : FloatServer.init A model = .ok srv) {junk : Nat → Fin M → Flt}
    (hsafe : Spec.marginalsSafe A srv data srv.program ⟨srv.vert, junk, fun _ => some 0⟩ = true) :
    ∃ r, IsCenter model.tree.numVertices model.tree.getEdges r ∧ ∃ row, srv.median A junk counts data = .ok row ∧ ∀ v < model.tree.numVertices,
      (∀ c ∈ columns model v, 0 ≤ row c) ∧ ∑ c ∈ columns model v, row c = counts.getD v 0 ∧
      ∃ p : Nat → ℝ, p = predictive model (evidenceOn model (fun u => Above model.tree.getEdges r u v ∨ Above model.tree.getEdges r v u) fun c => data.getD c 0) ∧
        ∀ other : Nat → Int, ∑ c ∈ columns model v, other c = counts.getD v 0 →
          ∑ c ∈ columns model v, |counts.getD v 0 * p c - row c| ≤ ∑ c ∈ columns model v, |counts.getD v 0 * p c - other c| +
            2 * counts.getD v 0 * ((1 + 2 ^ (-23 : Int)) ^ (2 * Spec.marginalRoundings model.tree.numVertices M W) - 1) +
            2 * (columns model v).card * Spec.quantError (columns model v).card (counts.getD v 0).toNat := by
  obtain ⟨esrv, s, -, hnear⟩ := floatMarginals_near_exact N h S hW hW' hrow hs hsafe
  obtain ⟨-, -, hri⟩ := floatServer_bounds N.ok h S hs
  have ht : IsTree model.tree.numVertices (gridEdges model.tree.treeGrid) := h.isTree
  obtain ⟨r, hr1, hr2⟩ := findCenter_spec ht
  have hp : makeProgram model.tree.treeGrid (some r) = .ok esrv.program := by
    rw [← s.program]
    simp only [makeProgram, hr1, bind, Except.bind]
  have hnear' := hnear fun _ _ => 0
  obtain ⟨row, h1, h2⟩ := floatMedianRow_near h N.ok.ops.rnd N.ok.ops.rp.monoRounding hsum hri hc (fun v hv => le_trans (hW v hv) (le_trans hW' (by norm_num)))
    (marginal := srv.marginals A junk data) (p := fun c => (srv.marginals A junk data c).getD 0) (fun v hv => ⟨fun c hc => by
      obtain ⟨e1, e2, e3, -⟩ := (hnear' v hv c hc).get
      exact ⟨e1, e2, e3.le⟩, Finset.sum_pos (fun c hc => (hnear' v hv c hc).get.2.2.1) (hne v hv)⟩)
  refine ⟨r, hr2, row, h1, fun v hv => ⟨(h2 v hv).1, (h2 v hv).2.1, _, rfl, fun other hother => ?_⟩⟩
  have hq := (h2 v hv).2.2 other hother
  have hpe : ∀ c ∈ columns model v, marginalsWith esrv esrv.program (fun _ _ => 0) data c =
      predictive model (evidenceOn model (fun u => Above model.tree.getEdges r u v ∨ Above model.tree.getEdges r v u) fun c => data.getD c 0) c := fun c hc =>
    marginals_exact_partial h hcons s hr2.1 hp data _ hv hc
  obtain ⟨hpos, hone⟩ := marginals_sum h s hr2.1 hp data (fun _ _ => 0) hv (hne v hv)
  rw [Finset.sum_congr rfl hpe] at hone
  have hn : ∀ c ∈ columns model v, Near (Spec.marginalRoundings model.tree.numVertices M W) (srv.marginals A junk data c)
      (predictive model (evidenceOn model (fun u => Above model.tree.getEdges r u v ∨ Above model.tree.getEdges r v u) fun c => data.getD c 0) c) := fun c hc => hpe c hc ▸ hnear' v hv c hc
  generalize predictive model (evidenceOn model (fun u => Above model.tree.getEdges r u v ∨ Above model.tree.getEdges r v u) fun c => data.getD c 0) = p at hone hn ⊢
  have e : (1 + 2 ^ (-23 : Int) : ℝ) = (ulp : ℝ) := by
    unfold ulp
    push_cast
    rfl
  rw [e, mul_comm 2 (Spec.marginalRoundings _ _ _), pow_mul]
  have hU := ulpR_pow (Spec.marginalRoundings model.tree.numVertices M W)
  have := l1_transfer hU (fun c hc => (hn c hc).get.2.2) hone (hc v hv).1 hq
  push_cast at this
  linarith

end

theorem exampleReal_small : Spec.SmallCounts (exampleModel ℝ) where
  clusters := by norm_num
  vert := fun v _ m => by simp only [exampleModel]; split_ifs <;> decide
  edge := fun c _ a b => by simp only [exampleModel]; split_ifs <;> decide
  feat := fun v _ r _ m => by simp only [exampleModel]; split_ifs <;> decide
  width := by
    change ∀ v < 3, (columns (exampleModel ℝ) v).card ≤ 256
    decide +kernel

theorem exampleReal_row : Spec.SingleRow (exampleModel ℝ) [1, 0, 0, 1, 0, 0, 0] := ⟨fun r => by
  by_cases h : r < 7
  · revert r
    decide
  · rw [List.getD_eq_default _ _ (by simpa using h)], by
  change ∀ v < 3, ∑ r ∈ columns (exampleModel ℝ) v, ([1, 0, 0, 1, 0, 0, 0] : List Int).getD r 0 ≤ 1
  decide +kernel⟩

/-- The hypotheses can be met: an example with three features, in which the relative error of `marginals` is at most 1/10000, and `median` has the requested counts, whatever `np.empty_like` contains. -/
example : ∃ srv, FloatServer.init (numpyServe 2 floorLog) (exampleModel ℝ) = .ok srv ∧ ∃ r,
    (∀ v < 3, ∀ c ∈ columns (exampleModel ℝ) v, ∃ q, srv.marginals (numpyServe 2 floorLog) (fun _ _ => none) [1, 0, 0, 1, 0, 0, 0] c = some q ∧
      ((q : ℚ) : ℝ) ≤ predictive (exampleModel ℝ) (evidenceOn (exampleModel ℝ)
        (fun u => Above (exampleModel ℝ).tree.getEdges r u v ∨ Above (exampleModel ℝ).tree.getEdges r v u) fun c => [1, 0, 0, 1, 0, 0, 0].getD c 0) c * (1 + 1 / 10000)) ∧
    ∃ row, srv.median (numpyServe 2 floorLog) (fun _ _ => none) [1, 2, 3] [1, 0, 0, 1, 0, 0, 0] = .ok row ∧ ∑ c ∈ columns (exampleModel ℝ) 2, row c = 3 := by
  have hu : ((FloatServer.init (numpyServe 2 floorLog) (exampleModel ℝ)).toOption.map fun srv =>
      Spec.marginalsSafe (numpyServe 2 floorLog) srv [1, 0, 0, 1, 0, 0, 0] srv.program ⟨srv.vert, fun _ _ => none, fun _ => some 0⟩) = some true := by decide +kernel
  have hw : ∀ v < 3, (columns (exampleModel ℝ) v).card ≤ 3 := by decide +kernel
  have hne : ∀ v < 3, (columns (exampleModel ℝ) v).Nonempty := by decide +kernel
  cases hs : FloatServer.init (numpyServe 2 floorLog) (exampleModel ℝ) with
  | error e => rw [hs] at hu; cases hu
  | ok srv =>
    rw [hs] at hu
    obtain ⟨r, -, h1⟩ := floatMarginals_near (numpyServe_near (by norm_num)) (exampleModel_valid ℝ) (exampleModel_consistent ℝ) exampleReal_small (W := 3) hw (by norm_num) exampleReal_row hs
      (Option.some.inj hu)
    obtain ⟨r', -, row, h2, h3⟩ := floatMedian_near (numpyServe_near (by norm_num)) (seqSum_close float32_mono) (exampleModel_valid ℝ) (exampleModel_consistent ℝ) exampleReal_small (W := 3) hw hne
      (by norm_num) (counts := [1, 2, 3]) exampleReal_row (by change ∀ v < 3, _; decide) hs (Option.some.inj hu)
    refine ⟨srv, rfl, r, fun v hv c hc => ?_, row, h2, (h3 2 (by change 2 < 3; omega)).2.1⟩
    obtain ⟨q, p, e1, e0, e2, e3, e4⟩ := h1 v hv c hc
    refine ⟨q, e1, ?_⟩
    rw [← e2]
    refine le_trans e3 (mul_le_mul_of_nonneg_left ?_ ?_)
    · change (1 + (2 : ℝ) ^ (-23 : Int)) ^ Spec.marginalRoundings 3 2 3 ≤ _
      have h630 : (1 + (2 : ℚ) ^ (-23 : Int)) ^ Spec.marginalRoundings 3 2 3 ≤ 1 + 1 / 10000 := by decide +kernel
      have := (Rat.cast_le (K := ℝ)).2 h630
      push_cast at this
      exact this
    · have hq : (0 : ℝ) < q := by exact_mod_cast e0
      exact (pos_of_mul_pos_left (lt_of_lt_of_le hq e3) (by positivity)).le

end TreeCat
