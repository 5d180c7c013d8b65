import Verif.Props.FloatServeClear

/-!
# C72 without underflow

`marginals` and `median` scale the messages on the way to the root, but not on the way back: on that way a message loses up to `c + 1` bits per level.
-/

namespace TreeCat

open Util Spec
open scoped BigOperators

/-- Some vertex reaches every other over at most `h` edges, and the messages have enough bits for that. -/
structure Spec.Shallow {K : Type} {M : Nat} (model : Model K M) (n j c d h : Nat) : Prop where
  radius : ∃ u < model.tree.numVertices, EccLe model.tree.numVertices model.tree.getEdges u h
  deep : n + c + 2 + d * (n + 2 * j + 3) + (c + 1) * h ≤ 80

theorem fltIn_of {lo hi : Int} {x : Flt} (h1 : FGe lo x) (h2 : FLe hi x) : fltIn lo hi x = true := by
  obtain ⟨q, rfl, h3⟩ := h1
  obtain ⟨q', e, -, -, h4⟩ := h2
  obtain rfl := Option.some.inj e
  simp only [fltIn, Option.any_some, decide_eq_true_eq]
  exact ⟨h3, h4⟩

theorem Near.two {k : Nat} {x : Flt} {y : ℝ} (h : Near k x y) (hk : k ≤ 2 ^ 20) : y / 2 ≤ ((x.getD 0 : ℚ) : ℝ) ∧ ((x.getD 0 : ℚ) : ℝ) ≤ 2 * y := by
  have hκ : k * (2 : ℝ) ^ (-23 : Int) ≤ 1 / 4 := by
    have : (k : ℝ) ≤ 2 ^ 20 := by exact_mod_cast hk
    rw [show (2 : ℝ) ^ (-23 : Int) = 1 / 2 ^ 23 by norm_num]
    linarith
  have h3 := h.rel.le_two hκ
  have h4 := h.rel.symm.le_two hκ
  exact ⟨by linarith, h3⟩

section
set_option linter.unusedSectionVars false
variable {M : Nat} [NeZero M] {A : ServeOps M} {model : Model ℝ M} {ε : ℝ} {n j c d h : Nat} {kv kt kc : Nat} {srv : FloatServer M} {esrv : Server ℝ M} {data : List Int}
  {r : Nat} {par : Nat → Nat} {ch : Nat → List Nat} {L : List Nat} {eid : Nat → Nat}

/-- The entries of a message are the probabilities of the classes up to factors between `2 ^ -l` and `2 ^ u`. -/
def Ratio (model : Model ℝ M) (l u : Nat) (v : Nat) (f : Fin M → Flt) : Prop :=
  ∀ a, f a = some ((f a).getD 0) ∧ IsFloat 24 (-149) ((f a).getD 0) ∧ (2 : ℝ) ^ (-(l : Int)) * vertMean model v a ≤ ((f a).getD 0 : ℚ) ∧ (((f a).getD 0 : ℚ) : ℝ) ≤ 2 ^ (u : Int) * vertMean model v a

theorem Ratio.fbd (hv' : Model.Valid model) (F : Spec.FewServe model n j c d) {l u v : Nat} (hv : v < model.tree.numVertices) {f : Fin M → Flt} (h : Ratio model l u v f) (a : Fin M) :
    FBd (-(l + n : Int)) u (f a) := by
  obtain ⟨e, h1, h2, h3⟩ := h a
  refine ⟨_, e, h1, ?_, ?_⟩
  · rw [← Rat.cast_le (K := ℝ)]
    push_cast
    refine le_trans ?_ h2
    rw [neg_add, zpow_add₀ two_ne_zero]
    exact mul_le_mul_of_nonneg_left (vertMean_few hv' F hv a) (by positivity)
  · rw [← Rat.cast_le (K := ℝ)]
    push_cast
    exact le_trans h3 (mul_le_of_le_one_right (by positivity) (vertMean_le_one hv' hv a))

theorem Near.ratio {k : Nat} {v : Nat} {f : Fin M → Flt} {y : Fin M → ℝ} (hn : ∀ a, Near k (f a) (vertMean model v a * y a)) (hk : k ≤ 2 ^ 20) {l u : Nat} (h0 : ∀ a, 0 < vertMean model v a)
    (hl : ∀ a, (2 : ℝ) ^ (-(l : Int)) ≤ y a) (hu : ∀ a, y a ≤ 2 ^ (u : Int)) : Ratio model (l + 1) (u + 1) v f := by
  intro a
  obtain ⟨e, h1, -⟩ := (hn a).get
  obtain ⟨h2, h3⟩ := (hn a).two hk
  refine ⟨e, h1, le_trans ?_ h2, le_trans h3 ?_⟩
  · have := mul_le_mul_of_nonneg_left (hl a) (h0 a).le
    push_cast
    rw [neg_add, zpow_add₀ two_ne_zero, zpow_neg_one]
    linarith
  · have := mul_le_mul_of_nonneg_left (hu a) (h0 a).le
    push_cast
    rw [zpow_add_one₀ two_ne_zero]
    linarith

/-- The factor from the parent. -/
theorem fromParent_few (N : Spec.ServeOpsNear A ε) (S : ServeFacts A model kv kt kc srv esrv) (F : Spec.FewServe model n j c d) {v w e l u : Nat} (hw : w < model.tree.numVertices) (hne : v ≠ w)
    (hg : OnGrid model.tree.treeGrid e v w) {f : Fin M → Flt} (hR : Ratio model l u w f) (hl : l + n ≤ 80) (a : Fin M) :
    ∃ y, Near (kt + M + 1) (A.dot (transAt srv.trans e v w a) f) y ∧ (2 : ℝ) ^ (-(l : Int)) ≤ y ∧ y ≤ 2 ^ (u : Int) := by
  have he : e < model.tree.numVertices - 1 := hg.id_lt S.ids
  obtain ⟨t1, t2, t3⟩ := trans_few S.valid S.consistent F S.exact hne hg a
  have hT0 : ∀ b, 0 ≤ transAt esrv.edgeTrans e v w a b := fun b => le_trans (by positivity) (t3 b).1
  have hq : ∀ b, Near 0 (f b) ((f b).getD 0 : ℚ) := fun b => near_of_bounds (hR.fbd S.valid F hw b).le (hR.fbd S.valid F hw b).ge
  have hdot := Near.dot N.ok.ops.dot N.dot (fun b => transAt_near S.near S.exact hne hg a b) hq (i := -46) (j := -80) (by norm_num)
    (fun b => (transAt_bounds S.bounds he v w a b).ge) fun b => (hR.fbd S.valid F hw b).ge.weaken (by omega)
  refine ⟨_, hdot, ?_, ?_⟩
  · calc (2 : ℝ) ^ (-(l : Int)) = ∑ b, transAt esrv.edgeTrans e v w a b * vertMean model w b * 2 ^ (-(l : Int)) := by rw [← Finset.sum_mul, t2, one_mul]
      _ ≤ _ := Finset.sum_le_sum fun b _ => by
        have := mul_le_mul_of_nonneg_left (hR b).2.2.1 (hT0 b)
        linarith
  · calc _ ≤ ∑ b, transAt esrv.edgeTrans e v w a b * vertMean model w b * 2 ^ (u : Int) := Finset.sum_le_sum fun b _ => by
          have := mul_le_mul_of_nonneg_left (hR b).2.2.2 (hT0 b)
          linarith
      _ = _ := by rw [← Finset.sum_mul, t2, one_mul]

/-- The OP_DOWN step: the results are quotients of numbers of similar size. -/
theorem marginalDown_few (O : Spec.ServeOpsOk A) (S : ServeFacts A model kv kt kc srv esrv) (hW : ∀ v < model.tree.numVertices, (columns model v).card ≤ 256) {v : Nat} (hv : v < model.tree.numVertices)
    {f : Fin M → Flt} (hf : ∀ a, FBd (-80) 80 (f a)) {q : Nat} (hq : q ∈ srv.block v) :
    fltIn (-125) 127 (Flt.div A.rnd (A.dot (srv.cond q) f) (A.sum ((srv.block v).map fun q => A.dot (srv.cond q) f))) = true := by
  have hblock : srv.block v = columnList model v := by
    unfold FloatServer.block columnList
    rw [S.ragged]
  choose g eg gf gl gu using hf
  obtain ⟨a0, -, ha0⟩ := Finset.exists_max_image Finset.univ g ⟨0, Finset.mem_univ 0⟩
  have hg0 : 0 < g a0 := lt_of_lt_of_le (two_zpow_pos _) (gl a0)
  obtain ⟨i, hi1, hi2⟩ := exists_mem_Ico_zpow hg0 (one_lt_two)
  have hi : -80 ≤ i := by
    have := lt_of_le_of_lt (gl a0) hi2
    have := (zpow_lt_zpow_iff_right₀ (by norm_num : (1 : ℚ) < 2)).1 this
    omega
  have ef : f = fun a => some (g a) := funext eg
  have hdot : ∀ q ∈ srv.block v, ∃ x, A.dot (srv.cond q) f = some x ∧ IsFloat 24 (-149) x ∧ 2 ^ (i - 40) ≤ x ∧ x ≤ 2 ^ (i + 8) := by
    intro q hq
    choose k ek kf kl ku using S.bounds.cond v hv q hq
    obtain ⟨x, h1, h2, h3, h4, h5⟩ := O.ops.dot k g (fun b => ⟨kf b, le_trans (two_zpow_pos _).le (kl b)⟩) fun b => ⟨gf b, le_trans (two_zpow_pos _).le (gl b)⟩
    refine ⟨x, by rw [ef, show srv.cond q = fun a => some (k a) from funext ek, h1], h2, h4 _ (by omega) a0 ?_, ?_⟩
    · rw [show i - 40 = -40 + i by ring, zpow_split]
      exact mul_le_mul (kl a0) hi1 (two_zpow_pos _).le (le_trans (two_zpow_pos _).le (kl a0))
    · have := h5 (i + 1) (by omega) fun b => by
        have hgb := le_trans (ha0 b (Finset.mem_univ b)) hi2.le
        have hk1 : k b ≤ 1 := by simpa using ku b
        exact le_trans (mul_le_of_le_one_left (le_trans (two_zpow_pos _).le (gl b)) hk1) hgb
      refine le_trans this ?_
      rw [show i + 8 = 7 + (i + 1) by ring, zpow_split 7]
      refine mul_le_mul_of_nonneg_right ?_ (two_zpow_pos _).le
      have : (M : ℚ) ≤ 128 := by exact_mod_cast S.clusters
      norm_num
      exact_mod_cast this
  choose! x ex xf xl xu using hdot
  have emap : (srv.block v).map (fun q => A.dot (srv.cond q) f) = ((srv.block v).map x).map some := by
    rw [List.map_map]
    exact List.map_congr_left fun q hq => ex q hq
  have hlen : (srv.block v).length ≤ 256 := by
    rw [hblock, length_columnList]
    exact hW v hv
  obtain ⟨D, d1, d2, d3, d4, d5⟩ := O.sum ((srv.block v).map x) (by rw [List.length_map]; omega) (by
    intro y hy
    obtain ⟨q, hq, rfl⟩ := List.mem_map.1 hy
    exact ⟨xf q hq, le_trans (two_zpow_pos _).le (xl q hq)⟩)
  have hD1 : 2 ^ (i - 40) ≤ D := le_trans (xl q hq) (d4 _ (List.mem_map.2 ⟨q, hq, rfl⟩))
  have hD2 : D ≤ 2 ^ (i + 16) := by
    refine le_trans (d5 (i + 8) (by omega) ?_) ?_
    · intro y hy
      obtain ⟨q, hq, rfl⟩ := List.mem_map.1 hy
      exact xu q hq
    · rw [show i + 16 = 8 + (i + 8) by ring, zpow_split 8, List.length_map]
      refine mul_le_mul_of_nonneg_right ?_ (two_zpow_pos _).le
      have : ((srv.block v).length : ℚ) ≤ 256 := by exact_mod_cast hlen
      norm_num
      exact_mod_cast this
  have hx : FBd (i - 40) (i + 8) (A.dot (srv.cond q) f) := ⟨x q, ex q hq, xf q hq, xl q hq, xu q hq⟩
  have := FBd.div O.ops.rnd hx (y := A.sum ((srv.block v).map fun q => A.dot (srv.cond q) f)) (c := i - 40) (d := i + 16) ⟨D, by rw [emap, d1], d2, hD1, hD2⟩ (by omega) (by omega)
  exact fltIn_of (this.ge.weaken (by omega)) (this.le.weaken (by omega))

/-! ### The outward instructions -/

/-- The state on the way from the root, with `X` done. -/
structure OutFew (model : Model ℝ M) (kv kc c lim : Nat) (data : List Int) (dep : Nat → Nat) (r : Nat) (X : List Nat) (s : FloatMarginal M) : Prop where
  done : ∀ w < model.tree.numVertices, w ∈ X ∨ w = r → Ratio model ((c + 1) * (dep w + 1)) (dep w + 1) w (s.messagesOut w)
  fresh : ∀ w < model.tree.numVertices, ¬(w ∈ X ∨ w = r) → ∀ a, Near (kv + kc + 1) (s.messagesOut w a) (vertMean model w a * serveU model data w a)
  inn : ∀ w < model.tree.numVertices, w ∉ X → ∀ a, FLe 0 (s.messagesIn w a) ∧ FGe (-(lim : Int)) (s.messagesIn w a)

theorem marginalsOut_few (N : Spec.ServeOpsNear A ε) (S : ServeFacts A model kv kt kc srv esrv) (F : Spec.FewServe model n j c d) (hW : ∀ v < model.tree.numVertices, (columns model v).card ≤ 256)
    (hrow : Spec.SingleRow model data) (P : Plan model r par ch eid L) {dep : Nat → Nat} (hdep : ∀ v < model.tree.numVertices, v ≠ r → dep v = dep (par v) + 1)
    (hh : ∀ v < model.tree.numVertices, dep v ≤ h) {lim : Nat} (hlim : n + c + 1 ≤ lim) (hdeep : lim + 1 + (c + 1) * h ≤ 80) {s : FloatMarginal M} (I : OutFew model kv kc c lim data dep r [] s) :
    Spec.marginalsSafe A srv data (L.flatMap (outBlock r par eid)) s = true := by
  have T := P.topo
  have key : ∀ (Y X : List Nat), L = X ++ Y → ∀ s : FloatMarginal M, OutFew model kv kc c lim data dep r X s → Spec.marginalsSafe A srv data (Y.flatMap (outBlock r par eid)) s = true := by
    intro Y
    induction Y with
    | nil => exact fun _ _ _ _ => rfl
    | cons v Y ih =>
      intro X hX s I
      have hv : v < model.tree.numVertices := T.mem.1 (by rw [hX]; simp)
      have hvX : v ∉ X := by
        have := hX ▸ T.nodup
        rw [List.nodup_append] at this
        exact fun h => this.2.2 v h v (by simp) rfl
      have hcm : ∀ k, k ≤ h → (c + 1) * k ≤ (c + 1) * h := fun k hk => Nat.mul_le_mul_left _ hk
      have hhc : h ≤ (c + 1) * h := Nat.le_mul_of_pos_left _ (by omega)
      have down : ∀ s : FloatMarginal M, OutFew model kv kc c lim data dep r (X ++ [v]) s → (∀ a, FBd (-80) 80 (s.messagesIn v a)) →
          Spec.marginalsSafe A srv data (⟨.DOWN, v, 0, 0⟩ :: Y.flatMap (outBlock r par eid)) s = true := by
        intro s I hin
        show (((srv.block v).all fun r => fltIn (-125) 127 ((floatMarginalStep A srv data s ⟨.DOWN, v, 0, 0⟩).result r)) &&
          Spec.marginalsSafe A srv data (Y.flatMap (outBlock r par eid)) (floatMarginalStep A srv data s ⟨.DOWN, v, 0, 0⟩)) = true
        rw [Bool.and_eq_true, List.all_eq_true]
        refine ⟨fun q hq => ?_, ih (X ++ [v]) (by rw [hX]; simp) _ ⟨I.done, I.fresh, I.inn⟩⟩
        show fltIn (-125) 127 (if q ∈ srv.block v then _ else _) = true
        rw [if_pos hq]
        exact marginalDown_few N.ok S hW hv hin hq
      rw [List.flatMap_cons, outBlock]
      split
      · next hvr =>
        subst hvr
        refine down s ⟨fun w hw hwX => I.done w hw ?_, fun w hw hwX => I.fresh w hw ?_, fun w hw hwX => I.inn w hw ?_⟩ fun a => ?_
        · rw [List.mem_append, List.mem_singleton] at hwX
          tauto
        · rw [List.mem_append, List.mem_singleton] at hwX
          tauto
        · rw [List.mem_append, List.mem_singleton] at hwX
          tauto
        · exact fbd_of ((I.inn v hv hvX a).1.weaken (by omega)) ((I.inn v hv hvX a).2.weaken (by omega))
      · next hvr =>
        obtain ⟨hpV, hpv⟩ := P.parent v hv hvr
        have hpX : par v ∈ X := T.before _ _ _ hX hvr
        have hg : OnGrid model.tree.treeGrid (eid v) v (par v) := OnGrid.symm (plan_grid P hv hvr) hpv
        have hd := hdep v hv hvr
        have hdv := hh v hv
        have hdp := hcm (dep (par v) + 1) (by omega)
        have hRp := I.done (par v) hpV (Or.inl hpX)
        choose y hy1 hy2 hy3 using fun a => fromParent_few N S F hpV hpv.symm hg hRp (by omega) a
        have hfp : ∀ a, FBd (-((c + 1) * (dep (par v) + 1) : Nat) - 1 : Int) ((dep (par v) + 1 : Nat) + 1 : Int) (A.dot (transAt srv.trans (eid v) v (par v) a) (s.messagesOut (par v))) := fun a =>
          (hy1 a).fbd (by have := S.few.2; omega) (hy2 a) (hy3 a)
        have hfr := I.fresh v hv (by tauto)
        have hU1 := fun a => serveU_few S.valid F hrow hv a
        have hU2 := fun a => serveU_le_one S.valid hrow hv a
        have hν := fun a => vertMean_pos S.valid hv a
        have hfro : ∀ a, FBd (-(n + c + 1 : Int)) 1 (s.messagesOut v a) := fun a => by
          refine ((hfr a).fbd (by have := S.few.1; omega) (lo := -(n : Int) + -(c : Int)) (hi := 0) ?_ ?_).weaken (by omega) (by omega)
          · rw [zpow_add₀ two_ne_zero]
            exact mul_le_mul (vertMean_few S.valid F hv a) (hU1 a) (by positivity) (hν a).le
          · rw [zpow_zero]
            exact mul_le_one₀ (vertMean_le_one S.valid hv a) (serveU_pos S.valid data hv a).le (hU2 a)
        have hno : ∀ a, Near ((kv + kc + 1) + (kt + M + 1) + 1) (Flt.mul A.rnd (s.messagesOut v a) (A.dot (transAt srv.trans (eid v) v (par v) a) (s.messagesOut (par v))))
            (vertMean model v a * (serveU model data v a * y a)) := fun a => by
          rw [← mul_assoc]
          exact Near.mul N.ok.ops.rnd (hfr a) (hy1 a) ((FGe.mul N.ok.ops.rnd (hfro a).ge (hfp a).ge (by omega)).weaken (by omega))
        have hRv : Ratio model ((c + 1) * (dep v + 1)) (dep v + 1) v fun a => Flt.mul A.rnd (s.messagesOut v a) (A.dot (transAt srv.trans (eid v) v (par v) a) (s.messagesOut (par v))) := by
          have := Near.ratio (model := model) hno (by have := S.few; omega) (l := c + (c + 1) * (dep (par v) + 1)) (u := dep (par v) + 1) hν (fun a => ?_) fun a => ?_
          · rw [hd, show (c + 1) * (dep (par v) + 1 + 1) = c + (c + 1) * (dep (par v) + 1) + 1 by ring]
            exact this
          · push_cast
            push_cast at hy2
            rw [neg_add, zpow_add₀ two_ne_zero]
            exact mul_le_mul (hU1 a) (hy2 a) (by positivity) (serveU_pos S.valid data hv a).le
          · exact le_trans (mul_le_of_le_one_left (le_trans (by positivity) (hy2 a)) (hU2 a)) (hy3 a)
        have hin : ∀ a, FBd (-80) 80 (Flt.mul A.rnd (s.messagesIn v a) (A.dot (transAt srv.trans (eid v) v (par v) a) (s.messagesOut (par v)))) := fun a => by
          obtain ⟨i1, i2⟩ := I.inn v hv hvX a
          exact fbd_of ((FLe.mul N.ok.ops.rnd i1 (hfp a).le (by omega)).weaken (by omega)) ((FGe.mul N.ok.ops.rnd i2 (hfp a).ge (by omega)).weaken (by omega))
        show (((List.finRange M).all fun a => fltIn (-125) 127 (A.dot (transAt srv.trans (eid v) v (par v) a) (s.messagesOut (par v))) &&
            fltIn (-80) 80 ((floatMarginalStep A srv data s ⟨.OUT, v, par v, eid v⟩).messagesIn v a) && fltIn (-80) 80 ((floatMarginalStep A srv data s ⟨.OUT, v, par v, eid v⟩).messagesOut v a)) &&
          Spec.marginalsSafe A srv data (⟨.DOWN, v, 0, 0⟩ :: Y.flatMap (outBlock r par eid)) (floatMarginalStep A srv data s ⟨.OUT, v, par v, eid v⟩)) = true
        have eI : ∀ a, (floatMarginalStep A srv data s ⟨.OUT, v, par v, eid v⟩).messagesIn v a = Flt.mul A.rnd (s.messagesIn v a) (A.dot (transAt srv.trans (eid v) v (par v) a) (s.messagesOut (par v))) := by
          intro a
          show Function.update s.messagesIn v _ v a = _
          rw [Function.update_self]
        have eO : (floatMarginalStep A srv data s ⟨.OUT, v, par v, eid v⟩).messagesOut v = fun a => Flt.mul A.rnd (s.messagesOut v a) (A.dot (transAt srv.trans (eid v) v (par v) a) (s.messagesOut (par v))) := by
          show Function.update s.messagesOut v _ v = _
          rw [Function.update_self]
        have nI : ∀ w, w ≠ v → (floatMarginalStep A srv data s ⟨.OUT, v, par v, eid v⟩).messagesIn w = s.messagesIn w := fun w hw => Function.update_of_ne hw _ _
        have nO : ∀ w, w ≠ v → (floatMarginalStep A srv data s ⟨.OUT, v, par v, eid v⟩).messagesOut w = s.messagesOut w := fun w hw => Function.update_of_ne hw _ _
        rw [Bool.and_eq_true, List.all_eq_true]
        have hdvc := hcm (dep v) hdv
        refine ⟨fun a _ => ?_, down _ ⟨fun w hw hwX => ?_, fun w hw hwX => ?_, fun w hw hwX => ?_⟩ fun a => by rw [eI]; exact hin a⟩
        · rw [Bool.and_eq_true, Bool.and_eq_true, eI, eO]
          refine ⟨⟨fltIn_of ((hfp a).ge.weaken (by omega)) ((hfp a).le.weaken (by omega)), fltIn_of (hin a).ge (hin a).le⟩, ?_⟩
          have := hRv.fbd S.valid F hv a
          refine fltIn_of (this.ge.weaken ?_) (this.le.weaken (by omega))
          have e2 : (c + 1) * (dep v + 1) = (c + 1) * dep v + (c + 1) := by ring
          omega
        · by_cases hwv : w = v
          · subst hwv
            rw [eO]
            exact hRv
          · rw [nO w hwv]
            refine I.done w hw ?_
            rw [List.mem_append, List.mem_singleton] at hwX
            tauto
        · rw [List.mem_append, List.mem_singleton] at hwX
          rw [nO w (by tauto)]
          exact I.fresh w hw (by tauto)
        · rw [List.mem_append, List.mem_singleton] at hwX
          rw [nI w (by tauto)]
          exact I.inn w hw (by tauto)
  exact key L [] (by simp) s I

/-! ### The inward instructions -/

theorem marginalsSafe_of_inClear (N : Spec.ServeOpsNear A ε) (S : ServeFacts A model kv kt kc srv esrv) (hrow : Spec.SingleRow model data) {tail : List Instr} {T : (Nat → Fin M → Flt) → Prop}
    (hT : ∀ s : FloatMarginal M, T s.messagesIn → (∀ w < model.tree.numVertices, ∀ a, Near (kv + kc + 1) (s.messagesOut w a) (vertMean model w a * serveU model data w a)) →
      Spec.marginalsSafe A srv data tail s = true) (prog : List Instr) (s : FloatMarginal M)
    (h : InClear A srv data false fltMax T prog s.messagesIn)
    (hout : ∀ w < model.tree.numVertices, (∃ i ∈ prog, i.op = .UP ∧ i.v = w) ∨ ∀ a, Near (kv + kc + 1) (s.messagesOut w a) (vertMean model w a * serveU model data w a)) :
    Spec.marginalsSafe A srv data (prog ++ tail) s = true := by
  induction prog generalizing s with
  | nil => exact hT s h fun w hw => (hout w hw).resolve_left (by simp)
  | cons i prog ih =>
    obtain ⟨op, v, v2, e⟩ := i
    cases op with
    | UP =>
      show (true && Spec.marginalsSafe A srv data (prog ++ tail) (floatMarginalStep A srv data s ⟨.UP, v, v2, e⟩)) = true
      rw [Bool.true_and]
      refine ih _ h.2 fun w hw => ?_
      by_cases hwv : w = v
      · subst hwv
        refine Or.inr fun a => ?_
        show Near _ (Function.update s.messagesOut w _ w a) _
        rw [Function.update_self]
        exact serveUp_nearU N.ok S hrow false hw h.1 a
      · rcases hout w hw with ⟨i, hi, h1, h2⟩ | h3
        · rcases List.mem_cons.1 hi with rfl | hi
          · exact absurd h2.symm hwv
          · exact Or.inl ⟨i, hi, h1, h2⟩
        · refine Or.inr fun a => ?_
          show Near _ (Function.update s.messagesOut v _ w a) _
          rw [Function.update_of_ne hwv]
          exact h3 a
    | IN =>
      obtain ⟨h1, h2, h3⟩ := h
      show (((List.finRange M).all fun a => fltIn (-125) 127 (floatServeIn A srv s.messagesIn v v2 e a) && fltIn (-80) 80 ((floatMarginalStep A srv data s ⟨.IN, v, v2, e⟩).messagesIn v a)) &&
        Spec.marginalsSafe A srv data (prog ++ tail) (floatMarginalStep A srv data s ⟨.IN, v, v2, e⟩)) = true
      rw [Bool.and_eq_true, List.all_eq_true]
      refine ⟨fun a _ => ?_, ih _ h3 fun w hw => ?_⟩
      · rw [Bool.and_eq_true]
        refine ⟨fltIn_of (h1 a).ge ((h1 a).le.weaken (by norm_num)), ?_⟩
        show fltIn (-80) 80 (Function.update s.messagesIn v _ v a) = true
        rw [Function.update_self]
        exact fltIn_of ((h2 a).ge.weaken (by norm_num)) ((h2 a).le.weaken (by norm_num))
      · rcases hout w hw with ⟨i, hi, h1, h2⟩ | h3
        · rcases List.mem_cons.1 hi with rfl | hi
          · cases h1
          · exact Or.inl ⟨i, hi, h1, h2⟩
        · exact Or.inr h3
    | ROOT => exact h.elim
    | OUT => exact h.elim
    | DOWN => exact h.elim

/-- The server, its plan, and the depth of every vertex. -/
theorem exists_facts_depth (N : Spec.ServeOpsNear A ε) (hv : Model.Valid model) (hc : Model.Consistent model) (S : Spec.SmallCounts model) (hs : FloatServer.init A model = .ok srv)
    (hr : ∃ u < model.tree.numVertices, EccLe model.tree.numVertices model.tree.getEdges u h) :
    ∃ (kv kt kc : Nat) (esrv : Server ℝ M) (r : Nat) (par : Nat → Nat) (ch : Nat → List Nat) (eid : Nat → Nat) (L : List Nat) (dep : Nat → Nat), ServeFacts A model kv kt kc srv esrv ∧ Plan model r par ch eid L ∧ srv.program = progOf r par ch eid L ∧ dep r = 0 ∧
      (∀ v < model.tree.numVertices, v ≠ r → dep v = dep (par v) + 1) ∧ ∀ v < model.tree.numVertices, dep v ≤ h := by
  obtain ⟨B, hp, hr'⟩ := floatServer_bounds N.ok hv S hs
  have SN := floatServer_near N hv S S.width hs
  obtain ⟨mst, hmst⟩ := exists_mst (K := ℝ)
  obtain ⟨esrv, -, s, -⟩ := server_init hmst hv
  have ht : IsTree model.tree.numVertices (gridEdges model.tree.treeGrid) := hv.isTree
  obtain ⟨r, hc1, hc2⟩ := findCenter_spec ht
  obtain ⟨dep, par, ch, eid, L, R, T, he, -, hp'⟩ := makeProgram_some ht hc2.1
  have hpr : srv.program = progOf r par ch eid L := by
    simp only [makeProgram, hc1, bind, Except.bind] at hp hp'
    exact Except.ok.inj (hp.symm.trans hp')
  have hM := S.clusters
  refine ⟨_, _, _, esrv, r, par, ch, eid, L, dep, ⟨hv, hc, hM, B, SN, s, hr', ?_, by omega, by nlinarith⟩, ⟨T, grid_perm R T he (grid_sorted_lt ht hv.sorted), ?_⟩, hpr, R.d_root, R.d_par, ?_⟩
  · have hlen : model.tree.treeGrid.length = model.tree.numVertices - 1 := by
      have := hv.isTree.card
      simp only [TreeStructure.getEdges, List.length_map] at this
      omega
    rw [← hlen]
    obtain ⟨edges, hs⟩ := hv.sorted
    rw [hs]
    exact makeTree_ids edges
  · intro v hv hvr
    refine ⟨R.par_lt v hv hvr, fun e => ?_⟩
    have := R.d_par v hv hvr
    rw [e] at this
    omega
  · intro v hv
    obtain ⟨u, hu, hecc⟩ := hr
    obtain ⟨m, hm, hw⟩ := hc2.2 u hu h hecc v hv
    exact le_trans (R.short v m hw) hm

/-- **C72** (no underflow or overflow). Nothing underflows in `marginals` if `FewServe` and `Shallow` hold. -/
theorem floatMarginals_clear (N : Spec.ServeOpsNear A ε) (hv : Model.Valid model) (hc : Model.Consistent model) (S : Spec.SmallCounts model) (F : Spec.FewServe model n j c d)
    (D : Spec.Shallow model n j c d h) (hrow : Spec.SingleRow model data) (hs : FloatServer.init A model = .ok srv) (junk : Nat → Fin M → Flt) :
    Spec.marginalsSafe A srv data srv.program ⟨srv.vert, junk, fun _ => some 0⟩ = true := by
  obtain ⟨kv, kt, kc, esrv, r, par, ch, eid, L, dep, SF, P, hp, d0, d1, d2⟩ := exists_facts_depth N hv hc S hs D.radius
  have hdeep := D.deep
  rw [hp, progOf, List.append_assoc]
  have hin := inward_few (skip := false) N SF F hrow (scaleOk_max N.ok j) P (fun v hv => le_trans (children_degree P hv) (F.degree v hv)) (lim := n + c + 1 + d * (n + 2 * j + 3)) F.bits (le_refl _)
    (T := fun msgs => ∀ v < model.tree.numVertices, Msg (-48) 0 (msgs v) ∧ ∀ a, FGe (-((n + c + 1 + d * (n + 2 * j + 3) : Nat) : Int)) (msgs v a)) fun _ h => h
  refine marginalsSafe_of_inClear N SF hrow (fun s hT hout => ?_) _ _ hin fun w hw => Or.inl ?_
  · show (true && Spec.marginalsSafe A srv data (L.flatMap (outBlock r par eid)) s) = true
    rw [Bool.true_and]
    refine marginalsOut_few N SF F S.width hrow P d1 d2 (lim := n + c + 1 + d * (n + 2 * j + 3)) (by omega) (by omega) ⟨?_, fun w hw _ => hout w hw, fun w hw _ a => ⟨(hT w hw).1.1 a, (hT w hw).2 a⟩⟩
    rintro w hw (h | rfl)
    · cases h
    · rw [d0]
      have := Near.ratio (model := model) (hout w hw) (by have := SF.few.1; omega) (l := c) (u := 0) (fun a => vertMean_pos hv hw a) (fun a => serveU_few hv F hrow hw a)
        fun a => by simpa using serveU_le_one hv hrow hw a
      rw [zero_add, mul_one]
      exact this
  · refine ⟨⟨.UP, w, 0, 0⟩, List.mem_flatMap.2 ⟨w, List.mem_reverse.2 (P.topo.mem.2 hw), ?_⟩, rfl, rfl⟩
    simp [inBlock]

/-- **C72** without hypotheses on the run. -/
theorem floatMarginals_near_few (N : Spec.ServeOpsNear A ε) (hv : Model.Valid model) (hc : Model.Consistent model) (S : Spec.SmallCounts model) (F : Spec.FewServe model n j c d)
    (D : Spec.Shallow model n j c d h) {W : Nat} (hW : ∀ v < model.tree.numVertices, (columns model v).card ≤ W) (hW' : W ≤ 256) (hrow : Spec.SingleRow model data)
    (hs : FloatServer.init A model = .ok srv) {junk : Nat → Fin M → Flt} :
    ∃ r, IsCenter model.tree.numVertices model.tree.getEdges r ∧ ∀ v < model.tree.numVertices, ∀ c ∈ columns model v,
      ∃ q p, srv.marginals A junk data c = some q ∧ 0 < q ∧
        p = predictive model (evidenceOn model (fun u => Above model.tree.getEdges r u v ∨ Above model.tree.getEdges r v u) fun c => data.getD c 0) c ∧
        (q : ℝ) ≤ p * (1 + 2 ^ (-23 : Int)) ^ Spec.marginalRoundings model.tree.numVertices M W ∧ p ≤ q * (1 + 2 ^ (-23 : Int)) ^ Spec.marginalRoundings model.tree.numVertices M W :=
  floatMarginals_near N hv hc S hW hW' hrow hs (floatMarginals_clear N hv hc S F D hrow hs junk)

/-- **C72**, `median`, without hypotheses on the run. -/
theorem floatMedian_near_few (N : Spec.ServeOpsNear A ε) (hsum : Spec.SumClose A.sum) (hv : Model.Valid model) (hcons : Model.Consistent model) (S : Spec.SmallCounts model)
    (F : Spec.FewServe model n j c d) (D : Spec.Shallow model n j c d h) {W : Nat} (hW : ∀ v < model.tree.numVertices, (columns model v).card ≤ W)
    (hne : ∀ v < model.tree.numVertices, (columns model v).Nonempty) (hW' : W ≤ 256) {counts : List Int} (hrow : Spec.SingleRow model data)
    (hc : ∀ v < model.tree.numVertices, 0 ≤ counts.getD v 0 ∧ counts.getD v 0 ≤ 127) (hs : FloatServer.init A model = .ok srv) {junk : Nat → Fin M → Flt} :
    ∃ r, IsCenter model.tree.numVertices model.tree.getEdges r ∧ ∃ row, srv.median A junk counts data = .ok row ∧ ∀ v < model.tree.numVertices,
      (∀ c ∈ columns model v, 0 ≤ row c) ∧ ∑ c ∈ columns model v, row c = counts.getD v 0 ∧
      ∃ p : Nat → ℝ, p = predictive model (evidenceOn model (fun u => Above model.tree.getEdges r u v ∨ Above model.tree.getEdges r v u) fun c => data.getD c 0) ∧
        ∀ other : Nat → Int, ∑ c ∈ columns model v, other c = counts.getD v 0 →
          ∑ c ∈ columns model v, |counts.getD v 0 * p c - row c| ≤ ∑ c ∈ columns model v, |counts.getD v 0 * p c - other c| +
            2 * counts.getD v 0 * ((1 + 2 ^ (-23 : Int)) ^ (2 * Spec.marginalRoundings model.tree.numVertices M W) - 1) +
            2 * (columns model v).card * Spec.quantError (columns model v).card (counts.getD v 0).toNat :=
  floatMedian_near N hsum hv hcons S hW hne hW' hrow hc hs (floatMarginals_clear N hv hcons S F D hrow hs junk)

end

/-- The path of three features reaches its ends over one edge. -/
theorem exampleReal_shallow : Spec.Shallow (exampleModel ℝ) 3 1 3 2 1 where
  radius := by
    refine ⟨1, by change 1 < 3; omega, ?_⟩
    have hg : (exampleModel ℝ).tree.getEdges = [(0, 1), (1, 2)] := by
      unfold TreeStructure.getEdges
      rw [exampleModel_grid]
      rfl
    rw [hg]
    intro w hw
    change w < 3 at hw
    have h3 : w = 0 ∨ w = 1 ∨ w = 2 := by omega
    rcases h3 with rfl | rfl | rfl
    · exact ⟨1, le_refl _, .cons (Or.inr (by simp)) (.nil _)⟩
    · exact ⟨0, by norm_num, .nil _⟩
    · exact ⟨1, le_refl _, .cons (Or.inl (by simp)) (.nil _)⟩
  deep := by norm_num

/-- The hypotheses are met: every marginal probability is positive and finite, whatever is in the uninitialised array. -/
example (junk : Nat → Fin 2 → Flt) : ∃ srv, FloatServer.init (numpyServe 2 floorLog) (exampleModel ℝ) = .ok srv ∧
    ∀ v < 3, ∀ c ∈ columns (exampleModel ℝ) v, ∃ q, srv.marginals (numpyServe 2 floorLog) junk [1, 0, 0, 1, 0, 0, 0] c = some q ∧ 0 < q := by
  obtain ⟨srv, hs, -⟩ := floatLogprob_ok (numpyServe_near (M := 2) (by norm_num)).ok (exampleModel_valid ℝ) exampleReal_small (by change 3 ≤ _; norm_num) exampleReal_row
  refine ⟨srv, hs, ?_⟩
  obtain ⟨r, -, h⟩ := floatMarginals_near_few (numpyServe_near (by norm_num)) (exampleModel_valid ℝ) (exampleModel_consistent ℝ) exampleReal_small exampleReal_few exampleReal_shallow
    (W := 3) (by change ∀ v < 3, (columns (exampleModel ℝ) v).card ≤ 3; decide +kernel) (by norm_num) exampleReal_row hs (junk := junk)
  intro v hv c hc
  obtain ⟨q, p, h1, h2, -⟩ := h v hv c hc
  exact ⟨q, h1, h2⟩

end TreeCat
