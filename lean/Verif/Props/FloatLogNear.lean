import Verif.Lemmas.FloatServeNear
import Verif.Props.FloatAnneal
import Verif.Props.FloatServe
import Verif.Props.Logprob

/-! # C70: the accuracy of `logprob` in float32 -/

namespace TreeCat

open Util Spec

/-- Whether a float is a number and at least `2 ^ lo`. -/
def fltGe (lo : Int) (x : Flt) : Bool := x.any fun q => decide ((2 : ℚ) ^ lo ≤ q)

/-- No entry of a message underflows on the way to the root: before scaling the entries are at least `2 ^ -125`, and after scaling at least `2 ^ -80`. -/
def Spec.noUnderflow {M : Nat} (A : ServeOps M) (srv : FloatServer M) (data : List Int) : List Instr → FloatLog M → Bool
  | [], _ => true
  | i :: prog, s =>
    match i.op with
    | .ROOT => true
    | .IN =>
      (List.finRange M).all (fun a => fltGe (-125) (floatServeIn A srv s.messages i.v i.v2 i.e a)) &&
        (List.finRange M).all (fun a => fltGe (-80) ((floatLogStep A srv data s i).messages i.v a)) && noUnderflow A srv data prog (floatLogStep A srv data s i)
    | _ => noUnderflow A srv data prog (floatLogStep A srv data s i)

theorem fltGe_iff {lo : Int} {x : Flt} : fltGe lo x = true ↔ FGe lo x := by
  cases x with
  | none =>
    refine ⟨fun h => absurd h (by simp [fltGe]), ?_⟩
    rintro ⟨q, h, -⟩
    cases h
  | some q =>
    simp only [fltGe, Option.any_some, decide_eq_true_eq]
    exact ⟨fun h => ⟨q, rfl, h⟩, fun ⟨q', h1, h2⟩ => Option.some.inj h1 ▸ h2⟩

/-! ### Programs -/

/-- Towards the root every vertex is updated once before it receives messages, and sends one message after it has received all. `Q` is what holds of the rest of the program. -/
def Inwards (V : Nat) (G : Nat → Nat → Nat → Prop) (Q : Nat → List Instr → Prop) : List Nat → List Nat → List Instr → Prop
  | _, _, [] => False
  | U, D, i :: is =>
    match i.op with
    | .UP => i.v < V ∧ i.v ∉ U ∧ i.v ∉ D ∧ Inwards V G Q (i.v :: U) D is
    | .IN => i.v < V ∧ i.v2 < V ∧ i.v ≠ i.v2 ∧ G i.e i.v i.v2 ∧ i.v ∈ U ∧ i.v2 ∈ U ∧ i.v ∉ D ∧ i.v2 ∉ D ∧ Inwards V G Q U (i.v2 :: D) is
    | .ROOT => i.v < V ∧ (∀ w < V, w ≠ i.v → w ∈ D) ∧ i.v ∉ D ∧ (∀ w < V, w ∈ U) ∧ Q i.v is
    | _ => False

theorem inwards_ins {V : Nat} {G : Nat → Nat → Nat → Prop} {Q : Nat → List Instr → Prop} {U D : List Nat} {v : Nat} (hv : v < V) (hvU : v ∈ U) (hvD : v ∉ D) (eid : Nat → Nat) (l : List Nat) (hnd : l.Nodup)
    (hl : ∀ c ∈ l, c < V ∧ c ≠ v ∧ c ∈ U ∧ c ∉ D ∧ G (eid c) v c) (rest : List Instr) (h : ∀ D', (∀ w, w ∈ D' ↔ w ∈ l ∨ w ∈ D) → Inwards V G Q U D' rest) :
    Inwards V G Q U D (l.map (fun c => (⟨.IN, v, c, eid c⟩ : Instr)) ++ rest) := by
  induction l generalizing D with
  | nil => exact h D (by simp)
  | cons c l ih =>
    rw [List.nodup_cons] at hnd
    obtain ⟨h1, h2, h3, h4, h5⟩ := hl c List.mem_cons_self
    refine ⟨hv, h1, h2.symm, h5, hvU, h3, hvD, h4, ih (D := c :: D) ?_ hnd.2 ?_ ?_⟩
    · rw [List.mem_cons, not_or]
      exact ⟨h2.symm, hvD⟩
    · intro c' hc'
      obtain ⟨g1, g2, g3, g4, g5⟩ := hl c' (List.mem_cons_of_mem _ hc')
      refine ⟨g1, g2, g3, ?_, g5⟩
      rw [List.mem_cons, not_or]
      exact ⟨fun e => hnd.1 (e ▸ hc'), g4⟩
    · intro D' hD'
      refine h D' fun w => ?_
      rw [hD', List.mem_cons, List.mem_cons]
      tauto

theorem inwards_progOf {V r : Nat} {par : Nat → Nat} {ch : Nat → List Nat} {eid : Nat → Nat} {L : List Nat} (T : Topo V r par ch L) {G : Nat → Nat → Nat → Prop}
    (hpar : ∀ v < V, v ≠ r → par v < V ∧ par v ≠ v ∧ G (eid v) (par v) v) {Q : Nat → List Instr → Prop} (hQ : Q r (L.flatMap (outBlock r par eid))) : Inwards V G Q [] [] (progOf r par ch eid L) := by
  have key : ∀ (Y X : List Nat), L.reverse = X ++ Y → ∀ U D : List Nat, (∀ w, w ∈ U ↔ w ∈ X) → (∀ w, w ∈ D ↔ w < V ∧ w ≠ r ∧ par w ∈ X) →
      Inwards V G Q U D (Y.flatMap (inBlock ch eid) ++ ([⟨.ROOT, r, 0, 0⟩] ++ L.flatMap (outBlock r par eid))) := by
    intro Y
    induction Y with
    | nil =>
      intro X hX U D hU hD
      rw [List.append_nil] at hX
      refine ⟨T.root_lt, fun w hw hwr => (hD w).2 ⟨hw, hwr, ?_⟩, fun hr => ((hD r).1 hr).2.1 rfl, fun w hw => (hU w).2 ?_, hQ⟩
      · rw [← hX, List.mem_reverse, T.mem]
        exact (hpar w hw hwr).1
      · rw [← hX, List.mem_reverse, T.mem]
        exact hw
    | cons v Y ih =>
      intro X hX U D hU hD
      have hL : L = Y.reverse ++ v :: X.reverse := by
        have := congrArg List.reverse hX
        rw [List.reverse_reverse] at this
        rw [this]
        simp
      have hnd : (X ++ v :: Y).Nodup := hX ▸ List.nodup_reverse.2 T.nodup
      rw [List.nodup_append, List.nodup_cons] at hnd
      obtain ⟨hnX, ⟨hvY, hnY⟩, hdis⟩ := hnd
      have hv : v < V := T.mem.1 (by rw [hL]; simp)
      have hvX : v ∉ X := fun h => hdis v h v (by simp) rfl
      have hvD : v ∉ D := by
        intro h
        obtain ⟨-, hvr, hp⟩ := (hD v).1 h
        have := T.before _ _ _ hL hvr
        exact hdis _ hp _ (List.mem_cons_of_mem _ (List.mem_reverse.1 this)) rfl
      rw [List.flatMap_cons, List.append_assoc]
      refine ⟨hv, fun h => hvX ((hU v).1 h), hvD, ?_⟩
      refine inwards_ins hv List.mem_cons_self hvD eid (ch v) (T.ch_nodup v hv) ?_ _ ?_
      · intro c hc
        obtain ⟨h1, h2, h3⟩ := (T.ch_mem v hv c).1 hc
        obtain ⟨-, hp2, hp3⟩ := hpar c h1 h2
        have hcX : c ∈ X := by
          obtain ⟨A, B, hAB⟩ := List.append_of_mem (T.mem.2 h1)
          have hpA := T.before A c B hAB h2
          rw [h3] at hpA
          have hcL : c ∈ L := T.mem.2 h1
          rw [hL, List.mem_append, List.mem_cons, List.mem_reverse, List.mem_reverse] at hcL
          rcases hcL with hcY | hcv | hcX
          · exfalso
            obtain ⟨Y1, Y2, hY⟩ := List.append_of_mem (List.mem_reverse.2 hcY)
            have e : L = Y1 ++ c :: (Y2 ++ v :: X.reverse) := by rw [hL, hY]; simp
            have := T.before _ _ _ e h2
            rw [h3] at this
            have : v ∈ Y.reverse := by rw [hY]; exact List.mem_append_left _ this
            exact hvY (List.mem_reverse.1 this)
          · exact absurd (h3.trans hcv.symm) hp2
          · exact hcX
        refine ⟨h1, fun e => hp2 (h3.trans e.symm), List.mem_cons_of_mem _ ((hU c).2 hcX), ?_, h3 ▸ hp3⟩
        intro hcD
        have := ((hD c).1 hcD).2.2
        rw [h3] at this
        exact hvX this
      · intro D' hD'
        refine ih (X ++ [v]) (by rw [hX]; simp) _ D' ?_ ?_
        · intro w
          rw [List.mem_cons, hU, List.mem_append, List.mem_singleton]
          tauto
        · intro w
          rw [hD', hD, T.ch_mem v hv, List.mem_append, List.mem_singleton]
          tauto
  unfold progOf
  rw [List.append_assoc]
  exact key L.reverse [] (by simp) [] [] (by simp) (by simp)

/-! ### Sums over the vertices -/

theorem sum_change_one {N : Type} [AddCommMonoid N] {V v : Nat} (hv : v < V) {F F' : Nat → N} (h : ∀ w, w ≠ v → F' w = F w) :
    (∑ w ∈ Finset.range V, F' w) + F v = (∑ w ∈ Finset.range V, F w) + F' v := by
  have hm := Finset.mem_range.2 hv
  rw [← Finset.add_sum_erase _ F hm, ← Finset.add_sum_erase _ F' hm, Finset.sum_congr rfl fun w hw => h w (Finset.ne_of_mem_erase hw)]
  abel

theorem sum_change_two {N : Type} [AddCommMonoid N] {V v v2 : Nat} (hv : v < V) (hv2 : v2 < V) (hne : v ≠ v2) {F F' : Nat → N} (h : ∀ w, w ≠ v → w ≠ v2 → F' w = F w) :
    (∑ w ∈ Finset.range V, F' w) + (F v + F v2) = (∑ w ∈ Finset.range V, F w) + (F' v + F' v2) := by
  have hm := Finset.mem_range.2 hv
  have hm2 : v2 ∈ (Finset.range V).erase v := Finset.mem_erase.2 ⟨hne.symm, Finset.mem_range.2 hv2⟩
  rw [← Finset.add_sum_erase _ F hm, ← Finset.add_sum_erase _ F' hm, ← Finset.add_sum_erase _ F hm2, ← Finset.add_sum_erase _ F' hm2,
    Finset.sum_congr rfl fun w hw => h w (Finset.ne_of_mem_erase (Finset.mem_of_mem_erase hw)) (Finset.ne_of_mem_erase hw)]
  abel

section
set_option linter.unusedSectionVars false
variable {M : Nat} [NeZero M] {A : ServeOps M} {model : Model ℝ M} {ε : ℝ}

/-! ### Observations -/

theorem upFold_near (O : Spec.ServeOpsOk A) {fsrv : FloatServer M} {skip : Bool} {data : List Int} {v : Nat} {msgs : Nat → Fin M → Flt} {k kc : Nat} {y : Fin M → ℝ} (hle : ∀ a, FLe 0 (msgs v a))
    (hm : ∀ a, Near k (msgs v a) (y a)) (hge : ∀ a, FGe (-32) (msgs v a)) {F : Nat → Fin M → ℝ}
    (l : List Nat) (hc : ∀ r ∈ l, ∀ a, FBd (-40) 0 (fsrv.cond r a)) (hn : ∀ r ∈ l, ∀ a, Near kc (fsrv.cond r a) (F r a)) (hd : ∀ r, 0 ≤ data.getD r 0)
    (hsum : (l.map fun r => data.getD r 0).sum ≤ 1) (a : Fin M) :
    Near (k + kc + 1) (l.foldl (upStep A fsrv skip data v) msgs v a) (y a * (l.map fun r => F r a ^ data.getD r 0).prod) ∧ FGe (-72) (l.foldl (upStep A fsrv skip data v) msgs v a) := by
  induction l with
  | nil => exact ⟨by simpa using (hm a).mono (by omega), (hge a).weaken (by norm_num)⟩
  | cons r l ih =>
    have hc' : ∀ r ∈ l, ∀ a, FBd (-40) 0 (fsrv.cond r a) := fun r hr => hc r (List.mem_cons_of_mem _ hr)
    rw [List.map_cons, List.sum_cons] at hsum
    have h0 : 0 ≤ (l.map fun r => data.getD r 0).sum := List.sum_nonneg (by
      intro x hx
      obtain ⟨r, -, rfl⟩ := List.mem_map.1 hx
      exact hd r)
    have hr0 := hd r
    rw [List.foldl_cons]
    by_cases hr : data.getD r 0 = 0
    · rw [upStep_zero O hle (hc r List.mem_cons_self) hr, List.map_cons, List.prod_cons, hr, zpow_zero, one_mul]
      exact ih hc' (fun r hr => hn r (List.mem_cons_of_mem _ hr)) (by omega)
    · have hr1 : data.getD r 0 = 1 := by omega
      have hz : ∀ r ∈ l, data.getD r 0 = 0 := by
        intro r' hr'
        have : data.getD r' 0 ≤ (l.map fun r => data.getD r 0).sum := List.single_le_sum (by
          intro x hx
          obtain ⟨r, -, rfl⟩ := List.mem_map.1 hx
          exact hd r) _ (List.mem_map.2 ⟨r', hr', rfl⟩)
        have := hd r'
        omega
      have hstep : upStep A fsrv skip data v msgs r = Function.update msgs v fun m => Flt.mul A.rnd (msgs v m) (fsrv.cond r m) := by
        unfold upStep
        rw [hr1]
        simp only [one_ne_zero, beq_iff_eq, Bool.and_eq_true, and_false, if_false]
        congr 1
        funext a
        obtain ⟨q, h1, h2, h3, -⟩ := hc r List.mem_cons_self a
        rw [h1, (O.pow q h2 (le_trans (two_zpow_pos _).le h3)).2]
      rw [hstep]
      have hnew : ∀ a, FLe 0 (Flt.mul A.rnd (msgs v a) (fsrv.cond r a)) := fun a =>
        (FLe.mul O.ops.rnd (hle a) (hc r List.mem_cons_self a).le (by norm_num)).weaken (by norm_num)
      have hm' : ∀ a, FLe 0 (Function.update msgs v (fun m => Flt.mul A.rnd (msgs v m) (fsrv.cond r m)) v a) := by
        rw [Function.update_self]
        exact hnew
      have hge' : FGe (-72) (Flt.mul A.rnd (msgs v a) (fsrv.cond r a)) := (FGe.mul O.ops.rnd (hge a) (hc r List.mem_cons_self a).ge (by norm_num)).weaken (by norm_num)
      have hprod : (l.map fun r => F r a ^ data.getD r 0).prod = 1 := by
        rw [List.map_congr_left (g := fun _ => (1 : ℝ)) fun r hr => by rw [hz r hr, zpow_zero]]
        simp
      rw [upFold_zero O hm' l hc' hz, Function.update_self, List.map_cons, List.prod_cons, hprod, hr1, zpow_one, mul_one]
      exact ⟨Near.mul O.ops.rnd (hm a) (hn r List.mem_cons_self a) (hge'.weaken (by norm_num)), hge'⟩

/-! ### The loop -/

/-- The entry of the grid for an edge between two vertices. -/
def OnGrid (grid : Grid) (e v v2 : Nat) : Prop := (if v < v2 then (e, v, v2) else (e, v2, v)) ∈ grid

theorem transAt_near {kv kt kc : Nat} {fsrv : FloatServer M} {srv : Server ℝ M} (S : ServeNear model kv kt kc fsrv) (s : Serves model srv) {e v v2 : Nat} (hne : v ≠ v2)
    (hg : OnGrid model.tree.treeGrid e v v2) (a b : Fin M) : Near kt (transAt fsrv.trans e v v2 a b) (transAt srv.edgeTrans e v v2 a b) := by
  unfold OnGrid at hg
  unfold transAt
  by_cases h : v < v2
  · rw [if_pos h] at hg
    rw [if_neg (by omega), if_neg (by omega)]
    have h1 := S.trans _ hg a b
    have h2 := s.trans _ hg
    simp only at h1 h2
    rw [h2]
    exact h1
  · rw [if_neg h] at hg
    rw [if_pos (by omega), if_pos (by omega)]
    have h1 := S.trans _ hg b a
    have h2 := s.trans _ hg
    simp only at h1 h2
    rw [h2]
    exact h1

/-- The error of adding one logarithm. -/
noncomputable def logErr (V : Nat) (ε : ℝ) : ℝ := ε + 104 * V * 2 ^ (-23 : Int)

theorem logAdd_near (N : Spec.ServeOpsNear A ε) {V n : Nat} (hV : V ≤ 2 ^ 20) (hn : n + 1 ≤ V) {l d : ℚ} (hl : |l| ≤ 104 * n) (hd : IsFloat 24 (-149) d) (hd0 : 0 < d) (hd1 : d ≤ 2 ^ 127) {P : ℝ}
    (hP : |(l : ℝ) - P| ≤ n * logErr V ε) :
    ∃ l', Flt.add A.rnd (some l) (A.log (some d)) = some l' ∧ |l'| ≤ 104 * (n + 1 : Nat) ∧ |(l' : ℝ) - (P + Real.log d)| ≤ (n + 1 : Nat) * logErr V ε := by
  obtain ⟨l', h1, h2⟩ := logAdd_ok N.ok (by omega) hl hd hd0 hd1
  obtain ⟨x, hx, hx1⟩ := N.ok.log d hd hd0 hd1
  have hx2 := N.log d x hd hd0 hd1 hx
  refine ⟨l', h1, h2, ?_⟩
  rw [hx] at h1
  have e : A.rnd (l + x) = l' := Option.some.inj h1
  have hV0 : (1 : ℚ) ≤ V := by exact_mod_cast (by omega : 1 ≤ V)
  have hV1 : ((n : ℚ) + 1) ≤ V := by exact_mod_cast hn
  obtain ⟨j, hj1, hj2⟩ := exists_binade (show (0 : ℚ) < 104 * V by linarith)
  have hj : 0 ≤ j := by
    by_contra hcon
    have : (2 : ℚ) ^ (j + 1) ≤ 2 ^ (0 : Int) := zpow_mono (by omega)
    rw [zpow_zero] at this
    linarith
  have hlx : |l + x| ≤ 104 * V := by
    refine le_trans (abs_add_le _ _) ?_
    linarith
  have herr := N.ok.ops.rnd.error_abs (by norm_num) (j := j - 23) (by omega) (x := l + x) (by
    have : j - 23 + ((24 : Nat) : Int) = j + 1 := by push_cast; omega
    rw [this]
    linarith)
  have herr' : |A.rnd (l + x) - (l + x)| ≤ 104 * V * 2 ^ (-23 : Int) := by
    refine le_trans herr ?_
    rw [show j - 23 = j + (-23) by ring, zpow_split]
    exact mul_le_mul_of_nonneg_right hj1 (two_zpow_pos _).le
  rw [e] at herr'
  have herr2 : |(l' : ℝ) - (l + x)| ≤ 104 * V * 2 ^ (-23 : Int) := by
    have := (Rat.cast_le (K := ℝ)).2 herr'
    push_cast at this
    simpa using this
  unfold logErr at hP ⊢
  rw [abs_le] at herr2 hP hx2 ⊢
  push_cast
  constructor <;> linarith [herr2.1, herr2.2, hP.1, hP.2, hx2.1, hx2.2]

/-- Where the computation in float32 stands relative to that in real numbers: `γ` and `k` are the logarithms of the scales and the numbers of roundings of the messages, and `P` is the sum of
the logarithms of the totals of float32. -/
structure LogNear (model : Model ℝ M) (kc kt K : Nat) (ε : ℝ) (U D : List Nat) (f : FloatLog M) (g : LogState ℝ M) (γ : Nat → ℝ) (k : Nat → Nat) (P : ℝ) (l : ℚ) (n : Nat) : Prop where
  inv : ServeInv model.tree.numVertices U f.messages
  near : ∀ v < model.tree.numVertices, v ∉ D → ∀ a, Near (k v) (f.messages v a) (Real.exp (γ v) * g.messages v a) ∧ FGe (-80) (f.messages v a)
  fresh : ∀ v < model.tree.numVertices, v ∉ U → ∀ a, FGe (-32) (f.messages v a)
  gone : ∀ v ∈ D, γ v = 0
  budget : ∑ v ∈ Finset.range model.tree.numVertices, (k v + (if v ∈ U then 0 else kc + 1) + (if v ∈ D then 0 else kt + M + 3)) ≤ K
  sum : g.logprob = P + ∑ v ∈ Finset.range model.tree.numVertices, γ v
  log : f.logprob = some l
  small : |l| ≤ 104 * n
  err : |(l : ℝ) - P| ≤ n * logErr model.tree.numVertices ε
  count : n + ∑ v ∈ Finset.range model.tree.numVertices, (if v ∈ D then 0 else 1) = model.tree.numVertices

theorem floatLogLoop_near (N : Spec.ServeOpsNear A ε) (hM : M ≤ 128) (hV : model.tree.numVertices ≤ 2 ^ 20) {kv kt kc K : Nat} {fsrv : FloatServer M} {srv : Server ℝ M}
    (B : ServeBounds model.tree.numVertices (model.tree.numVertices - 1) fsrv) (S : ServeNear model kv kt kc fsrv) (s : Serves model srv) (hr : fsrv.raggedIndex = model.raggedIndex)
    (hids : ∀ c ∈ model.tree.treeGrid, c.1 < model.tree.numVertices - 1)
    {data : List Int} (hd : ∀ r, 0 ≤ data.getD r 0) (hsum : ∀ v < model.tree.numVertices, ((fsrv.block v).map fun r => data.getD r 0).sum ≤ 1) (prog : List Instr) {U D : List Nat}
    (hin : Inwards model.tree.numVertices (OnGrid model.tree.treeGrid) (fun _ _ => True) U D prog) {f : FloatLog M} {g : LogState ℝ M} (hnu : Spec.noUnderflow A fsrv data prog f = true)
    {γ : Nat → ℝ} {k : Nat → Nat} {P : ℝ} {l : ℚ} {n : Nat} (I : LogNear model kc kt K ε U D f g γ k P l n) :
    ∃ q lp, floatLogLoop A fsrv data prog f = some (some q) ∧ logLoop realNum srv data prog g = some lp ∧
      |(q : ℝ) - lp| ≤ (K + M : Nat) * 2 ^ (-23 : Int) + model.tree.numVertices * logErr model.tree.numVertices ε := by
  induction prog generalizing U D f g γ k P l n with
  | nil => exact absurd hin (by simp [Inwards])
  | cons i prog ih =>
    obtain ⟨op, v, v2, e⟩ := i
    cases op with
    | UP =>
      obtain ⟨hv, hU, hD, hrest⟩ := hin
      have hfold := fun a => upFold_near N.ok (fsrv := fsrv) (skip := false) (data := data) (v := v) (msgs := f.messages) (F := featMean model v) (kc := kc) (fun a => (I.inv.fresh v hv hU).1 a)
        (fun a => (I.near v hv hD a).1) (I.fresh v hv hU) (fsrv.block v) (B.cond v hv) (fun r hr' a => S.cond v hv r (by
          have e : fsrv.block v = columnList model v := by
            unfold FloatServer.block columnList
            rw [hr]
          rw [e] at hr'
          exact mem_columnList.1 hr') a) hd (hsum v hv) a
      have hother := (floatServeUp_ok (skip := false) N.ok (by norm_num) (I.inv.fresh v hv hU) (B.cond v hv) hd (hsum v hv)).2
      have hexact := serveUp_eq s data hv g.messages
      have hprod : ∀ a, ((fsrv.block v).map fun r => featMean model v r a ^ data.getD r 0).prod = serveU model data v a := by
        intro a
        unfold serveU FloatServer.block columns
        rw [hr]
        rfl
      have hnu' : Spec.noUnderflow A fsrv data prog (floatLogStep A fsrv data f ⟨.UP, v, v2, e⟩) = true := hnu
      refine ih hrest hnu' (g := logStep realNum srv data g ⟨.UP, v, v2, e⟩) (γ := γ) (k := Function.update k v (k v + kc + 1)) (P := P) (l := l) (n := n) ?_
      refine ⟨serveInv_up N.ok B hd hsum I.inv hv hU, ?_, ?_, I.gone, ?_, I.sum, I.log, I.small, I.err, I.count⟩
      · intro w hw hwD a
        show Near _ (floatServeUp A fsrv false data f.messages v w a) (_ * serveUp srv data g.messages v w a) ∧ FGe _ (floatServeUp A fsrv false data f.messages v w a)
        rw [hexact]
        by_cases hwv : w = v
        · subst hwv
          rw [Function.update_self, Function.update_self]
          have := hfold a
          rw [hprod] at this
          rw [← mul_assoc]
          exact ⟨this.1, this.2.weaken (by norm_num)⟩
        · rw [Function.update_of_ne hwv, Function.update_of_ne hwv, hother w hwv]
          exact I.near w hw hwD a
      · intro w hw hwU a
        rw [List.mem_cons, not_or] at hwU
        show FGe _ (floatServeUp A fsrv false data f.messages v w a)
        rw [hother w hwU.1]
        exact I.fresh w hw hwU.2 a
      · refine le_trans (le_of_eq ?_) I.budget
        refine Finset.sum_congr rfl fun w _ => ?_
        by_cases hwv : w = v
        · subst hwv
          rw [Function.update_self, if_pos List.mem_cons_self, if_neg hU]
          omega
        · rw [Function.update_of_ne hwv]
          congr 2
          exact if_congr (by rw [List.mem_cons]; tauto) rfl rfl
    | IN =>
      have hin' : v < model.tree.numVertices ∧ v2 < model.tree.numVertices ∧ v ≠ v2 ∧ OnGrid model.tree.treeGrid e v v2 ∧ v ∈ U ∧ v2 ∈ U ∧ v ∉ D ∧ v2 ∉ D ∧
        Inwards model.tree.numVertices (OnGrid model.tree.treeGrid) (fun _ _ => True) U (v2 :: D) prog := hin
      obtain ⟨hv, hv2, hne, hg, hvU, hv2U, hD, hD2, hrest⟩ := hin'
      have he : e < model.tree.numVertices - 1 := by
        have := hids _ hg
        split at this <;> exact this
      have hinm := floatServeIn_ok hM N.ok B (v := v) (v2 := v2) he (I.inv.all v hv) (I.inv.all v2 hv2)
      obtain ⟨d, h1, h2, h3, h4⟩ := msg_sum_log hM N.ok hinm (by norm_num) (by norm_num)
      have hnu0 : ((List.finRange M).all (fun a => fltGe (-125) (floatServeIn A fsrv f.messages v v2 e a)) &&
        (List.finRange M).all (fun a => fltGe (-80) ((floatLogStep A fsrv data f ⟨.IN, v, v2, e⟩).messages v a)) &&
          Spec.noUnderflow A fsrv data prog (floatLogStep A fsrv data f ⟨.IN, v, v2, e⟩)) = true := hnu
      rw [Bool.and_eq_true, Bool.and_eq_true, List.all_eq_true, List.all_eq_true] at hnu0
      obtain ⟨⟨hu1, hu2⟩, hnu'⟩ := hnu0
      have hge1 : ∀ a, FGe (-125) (floatServeIn A fsrv f.messages v v2 e a) := fun a => fltGe_iff.1 (hu1 a (List.mem_finRange a))
      have hge2 : ∀ a, FGe (-80) ((floatLogStep A fsrv data f ⟨.IN, v, v2, e⟩).messages v a) := fun a => fltGe_iff.1 (hu2 a (List.mem_finRange a))
      have hmsg : ∀ a, (floatLogStep A fsrv data f ⟨.IN, v, v2, e⟩).messages v a = Flt.div A.rnd (floatServeIn A fsrv f.messages v v2 e a) (some d) := by
        intro a
        rw [← h1]
        show Function.update f.messages v _ v a = _
        rw [Function.update_self]
      have hdot := fun a => Near.dot N.ok.ops.dot N.dot (fun b => transAt_near S s hne hg a b) (fun b => (I.near v2 hv2 hD2 b).1) (i := -46) (j := -80) (by norm_num)
        (fun b => (transAt_bounds B he v v2 a b).ge) fun b => (I.near v2 hv2 hD2 b).2
      have hin1 : ∀ a, Near (k v + (kt + k v2 + (M + 1)) + 1) (floatServeIn A fsrv f.messages v v2 e a) (Real.exp (γ v + γ v2) * serveIn srv g.messages v v2 e a) := by
        intro a
        have := Near.mul N.ok.ops.rnd (I.near v hv hD a).1 (hdot a) (hge1 a)
        have e1 : Real.exp (γ v) * g.messages v a * ∑ b, transAt srv.edgeTrans e v v2 a b * (Real.exp (γ v2) * g.messages v2 b) = Real.exp (γ v + γ v2) * serveIn srv g.messages v v2 e a := by
          unfold serveIn
          rw [Real.exp_add, show (∑ b, transAt srv.edgeTrans e v v2 a b * (Real.exp (γ v2) * g.messages v2 b)) = Real.exp (γ v2) * ∑ b, transAt srv.edgeTrans e v v2 a b * g.messages v2 b by
            rw [Finset.mul_sum]
            exact Finset.sum_congr rfl fun b _ => by ring]
          ring
        rw [e1] at this
        exact this
      have hpos : ∀ a, 0 < serveIn srv g.messages v v2 e a := fun a => pos_of_mul_pos_right (hin1 a).pos (Real.exp_pos _).le
      set T : ℝ := ∑ a, serveIn srv g.messages v v2 e a with hT
      have hTpos : 0 < T := Finset.sum_pos (fun a _ => hpos a) ⟨0, Finset.mem_univ _⟩
      have hdR : (0 : ℝ) < d := by exact_mod_cast h3
      have hnew : ∀ a, Near (k v + (kt + k v2 + (M + 1)) + 2) ((floatLogStep A fsrv data f ⟨.IN, v, v2, e⟩).messages v a)
          (Real.exp (γ v + γ v2 + Real.log T - Real.log d) * (serveIn srv g.messages v v2 e a / T)) := by
        intro a
        have hge := hge2 a
        rw [hmsg] at hge ⊢
        have := Near.div N.ok.ops.rnd (hin1 a) (near_self h2 h3) (hge.weaken (by norm_num))
        have e1 : Real.exp (γ v + γ v2) * serveIn srv g.messages v v2 e a / d = Real.exp (γ v + γ v2 + Real.log T - Real.log d) * (serveIn srv g.messages v v2 e a / T) := by
          rw [Real.exp_sub, Real.exp_add (γ v + γ v2), Real.exp_log hTpos, Real.exp_log hdR]
          field_simp
        rw [e1] at this
        exact this.mono (by omega)
      have hcount : n + 1 + ∑ w ∈ Finset.range model.tree.numVertices, (if w ∈ v2 :: D then 0 else 1) = model.tree.numVertices := by
        have hc := sum_change_one hv2 (F := fun w => if w ∈ D then 0 else 1) (F' := fun w => if w ∈ v2 :: D then 0 else 1) (N := Nat) fun w hw => if_congr (by rw [List.mem_cons]; tauto) rfl rfl
        simp only [if_neg hD2, List.mem_cons_self, if_true] at hc
        have := I.count
        omega
      obtain ⟨l', h5, h6, h7⟩ := logAdd_near N hV (by omega) I.small h2 h3 h4 I.err
      refine ih hrest hnu' (g := logStep realNum srv data g ⟨.IN, v, v2, e⟩) (γ := Function.update (Function.update γ v2 0) v (γ v + γ v2 + Real.log T - Real.log d))
        (k := Function.update (Function.update k v2 0) v (k v + (kt + k v2 + (M + 1)) + 2)) (P := P + Real.log d) (l := l') (n := n + 1) ?_
      refine ⟨serveInv_update I.inv (hinm.norm hM N.ok (by norm_num)).2, ?_, ?_, ?_, ?_, ?_, ?_, h6, h7, hcount⟩
      · intro w hw hwD a
        rw [List.mem_cons, not_or] at hwD
        by_cases hwv : w = v
        · subst hwv
          refine ⟨?_, hge2 a⟩
          rw [Function.update_self, Function.update_self]
          have : (logStep realNum srv data g ⟨.IN, w, v2, e⟩).messages w a = serveIn srv g.messages w v2 e a / T := by
            show Function.update g.messages w _ w a = _
            rw [Function.update_self]
          rw [this]
          exact hnew a
        · have e1 : (floatLogStep A fsrv data f ⟨.IN, v, v2, e⟩).messages w = f.messages w := Function.update_of_ne hwv _ _
          have e2 : (logStep realNum srv data g ⟨.IN, v, v2, e⟩).messages w = g.messages w := Function.update_of_ne hwv _ _
          rw [Function.update_of_ne hwv, Function.update_of_ne hwv, Function.update_of_ne hwD.1, Function.update_of_ne hwD.1, e1, e2]
          exact I.near w hw hwD.2 a
      · intro w hw hwU a
        have hwv : w ≠ v := fun h => hwU (h ▸ hvU)
        have e1 : (floatLogStep A fsrv data f ⟨.IN, v, v2, e⟩).messages w = f.messages w := Function.update_of_ne hwv _ _
        rw [e1]
        exact I.fresh w hw hwU a
      · intro w hw
        rcases List.mem_cons.1 hw with rfl | hw
        · rw [Function.update_of_ne hne.symm, Function.update_self]
        · have hwv : w ≠ v := fun h => hD (h ▸ hw)
          have hwv2 : w ≠ v2 := fun h => hD2 (h ▸ hw)
          rw [Function.update_of_ne hwv, Function.update_of_ne hwv2]
          exact I.gone w hw
      · have hc := sum_change_two (N := Nat) hv hv2 hne (F := fun w => k w + (if w ∈ U then 0 else kc + 1) + (if w ∈ D then 0 else kt + M + 3))
          (F' := fun w => Function.update (Function.update k v2 0) v (k v + (kt + k v2 + (M + 1)) + 2) w + (if w ∈ U then 0 else kc + 1) + (if w ∈ v2 :: D then 0 else kt + M + 3)) (by
            intro w hwv hwv2
            simp only [Function.update_of_ne hwv, Function.update_of_ne hwv2]
            congr 1
            exact if_congr (by rw [List.mem_cons]; tauto) rfl rfl)
        have hvD2 : v ∉ v2 :: D := by
          rw [List.mem_cons, not_or]
          exact ⟨hne, hD⟩
        simp only [Function.update_self, Function.update_of_ne hne.symm, if_pos hvU, if_pos hv2U, if_neg hD, if_neg hD2, if_neg hvD2, if_pos List.mem_cons_self] at hc
        have := I.budget
        omega
      · have hc := sum_change_two (N := ℝ) hv hv2 hne (F := γ) (F' := Function.update (Function.update γ v2 0) v (γ v + γ v2 + Real.log T - Real.log d)) (by
            intro w hwv hwv2
            simp only [Function.update_of_ne hwv, Function.update_of_ne hwv2])
        rw [Function.update_self, Function.update_of_ne hne.symm, Function.update_self] at hc
        have hs := I.sum
        show g.logprob + Real.log T = _
        linarith
      · show Flt.add A.rnd f.logprob (A.log (A.sum _)) = _
        rw [h1, I.log]
        exact h5
    | ROOT =>
      obtain ⟨hv, hall, hD, -⟩ := hin
      obtain ⟨d, h1, h2, h3, h4⟩ := msg_sum_log hM N.ok (I.inv.all v hv) (by norm_num) (by norm_num)
      have hcount : n + 1 = model.tree.numVertices := by
        have := I.count
        rw [Finset.sum_eq_single_of_mem v (Finset.mem_range.2 hv) fun w hw hwv => if_pos (hall w (Finset.mem_range.1 hw) hwv), if_neg hD] at this
        exact this
      obtain ⟨l', h5, h6, h7⟩ := logAdd_near N hV (by omega) I.small h2 h3 h4 I.err
      have hnear := Near.sum_fin N hM (fun a => (I.near v hv hD a).1) fun a => (I.near v hv hD a).2.weaken (by norm_num)
      rw [h1] at hnear
      have hpos : 0 < ∑ a, g.messages v a := by
        refine Finset.sum_pos (fun a _ => ?_) ⟨0, Finset.mem_univ _⟩
        exact pos_of_mul_pos_right (I.near v hv hD a).1.pos (Real.exp_pos _).le
      rw [← Finset.mul_sum] at hnear
      have hlog := hnear.log
      rw [Real.log_mul (Real.exp_pos _).ne' hpos.ne', Real.log_exp] at hlog
      have hγ : ∑ w ∈ Finset.range model.tree.numVertices, γ w = γ v :=
        Finset.sum_eq_single_of_mem v (Finset.mem_range.2 hv) fun w hw hwv => I.gone w (hall w (Finset.mem_range.1 hw) hwv)
      have hk : k v + M ≤ K + M := by
        have hb := I.budget
        have := Finset.single_le_sum (f := fun v => k v + (if v ∈ U then 0 else kc + 1) + (if v ∈ D then 0 else kt + M + 3)) (fun _ _ => Nat.zero_le _) (Finset.mem_range.2 hv)
        simp only at this
        omega
      refine ⟨l', g.logprob + Real.log (∑ a, g.messages v a), ?_, rfl, ?_⟩
      · show some (Flt.add A.rnd f.logprob (A.log (A.sum _))) = _
        rw [h1, I.log, h5]
      · have hs := I.sum
        rw [hγ] at hs
        have hk' : ((k v + M : Nat) : ℝ) * 2 ^ (-23 : Int) ≤ ((K + M : Nat) : ℝ) * 2 ^ (-23 : Int) := mul_le_mul_of_nonneg_right (by exact_mod_cast hk) (by positivity)
        rw [hs]
        rw [hcount] at h7
        rw [abs_le] at h7 hlog ⊢
        constructor <;> linarith [h7.1, h7.2, hlog.1, hlog.2]
    | OUT => exact absurd hin (by simp [Inwards])
    | DOWN => exact absurd hin (by simp [Inwards])

/-- The bound on the error of `logprob` for `V` features with at most `W` values and `M` clusters, when `np.log` is accurate to `ε`. -/
noncomputable def Spec.logprobError (V M W : Nat) (ε : ℝ) : ℝ :=
  ((V * (M * M + 4 * M + W + 35) + M : Nat) : ℝ) * 2 ^ (-23 : Int) + V * (ε + 104 * V * 2 ^ (-23 : Int))

/-- **C70**. For every model with counts below `2 ^ 24`, at most 128 clusters and features of at most `W ≤ 256` values, and every row with at most one observation per feature: unless an entry of a
message underflows, `logprob` computed in float32 is the logarithm of the probability of the row up to an error that is linear in the number of features, apart from the error of adding their logarithms. -/
theorem floatLogprob_near (N : Spec.ServeOpsNear A ε) (h : Model.Valid model) (S : Spec.SmallCounts model) (hV : model.tree.numVertices ≤ 2 ^ 20) {W : Nat}
    (hW : ∀ v < model.tree.numVertices, (columns model v).card ≤ W) {data : List Int} (hrow : Spec.SingleRow model data) {srv : FloatServer M} (hs : FloatServer.init A model = .ok srv)
    (hnu : Spec.noUnderflow A srv data srv.program ⟨srv.vert, some 0⟩ = true) :
    ∃ q, srv.logprob A data = some (some q) ∧ |(q : ℝ) - Real.log (dataProb model fun r => data.getD r 0)| ≤ Spec.logprobError model.tree.numVertices M W ε := by
  obtain ⟨B, hp, hr⟩ := floatServer_bounds N.ok h S hs
  have SN := floatServer_near N h S hW hs
  obtain ⟨mst, hmst⟩ := exists_mst (K := ℝ)
  obtain ⟨esrv, -, s, -⟩ := server_init hmst h
  obtain ⟨c, hc, hpc⟩ := exists_plan_none h hp
  obtain ⟨par, ch, eid, L, P, hp'⟩ := exists_plan h hc
  have hpe : srv.program = progOf c par ch eid L := Except.ok.inj (hpc.symm.trans hp')
  have hids : ∀ e ∈ model.tree.treeGrid, e.1 < model.tree.numVertices - 1 := by
    have hlen : model.tree.treeGrid.length = model.tree.numVertices - 1 := by
      have := h.isTree.card
      simp only [TreeStructure.getEdges, List.length_map] at this
      omega
    rw [← hlen]
    obtain ⟨edges, hs⟩ := h.sorted
    rw [hs]
    exact makeTree_ids edges
  have hin : Inwards model.tree.numVertices (OnGrid model.tree.treeGrid) (fun _ _ => True) [] [] srv.program := by
    rw [hpe]
    refine inwards_progOf P.topo (fun v hv hvr => ⟨(P.parent v hv hvr).1, (P.parent v hv hvr).2, ?_⟩) ?_
    · exact upEntry_mem P hv hvr
    · trivial
  obtain ⟨lp, h1, h2⟩ := logprob_exact h s hc hpc data
  have hvert : esrv.vertProbs = vertMean model := funext s.vert
  obtain ⟨q, lp', h3, h4, h5⟩ := floatLogLoop_near N S.clusters hV B SN s hr hids hrow.1 (singleRow_sum hrow hr) srv.program hin (f := ⟨srv.vert, some 0⟩) (g := ⟨esrv.vertProbs, 0⟩) hnu
    (γ := fun _ => 0) (k := fun _ => M + 5) (P := 0) (l := 0) (n := 0) (K := model.tree.numVertices * (M * M + 4 * M + W + 35))
    { inv := serveInv_init B
      near := fun v hv _ a => by
        refine ⟨?_, (SN.vert v hv a).2.weaken (by norm_num)⟩
        simp only [hvert, Real.exp_zero, one_mul]
        exact (SN.vert v hv a).1
      fresh := fun v hv _ a => (SN.vert v hv a).2
      gone := fun v hv => by cases hv
      budget := by
        simp only [List.not_mem_nil, if_false, Finset.sum_const, Finset.card_range, smul_eq_mul]
        exact Nat.mul_le_mul_left _ (by omega)
      sum := by simp
      log := rfl
      small := by simp
      err := by simp
      count := by simp }
  refine ⟨q, h3, ?_⟩
  have e : lp' = lp := Option.some.inj (h4.symm.trans h1)
  rw [← h2, Real.log_exp, ← e]
  exact h5

end

/-- The hypotheses can be met: an example with three features, in which the logarithm is correct up to 1/1000. -/
example : ∃ srv, FloatServer.init (numpyServe 2 floorLog) (exampleModel ℝ) = .ok srv ∧ ∃ q, srv.logprob (numpyServe 2 floorLog) [1, 0, 0, 1, 0, 0, 0] = some (some q) ∧
    |(q : ℝ) - Real.log (dataProb (exampleModel ℝ) fun r => [1, 0, 0, 1, 0, 0, 0].getD r 0)| ≤ 1 / 1000 := by
  have hu : ((FloatServer.init (numpyServe 2 floorLog) (exampleModel ℝ)).toOption.map fun srv => Spec.noUnderflow (numpyServe 2 floorLog) srv [1, 0, 0, 1, 0, 0, 0] srv.program ⟨srv.vert, some 0⟩)
      = some true := by decide +kernel
  cases hs : FloatServer.init (numpyServe 2 floorLog) (exampleModel ℝ) with
  | error e => rw [hs] at hu; cases hu
  | ok srv =>
    rw [hs] at hu
    obtain ⟨q, h1, h2⟩ := floatLogprob_near (numpyServe_near (by norm_num)) (exampleModel_valid ℝ)
      { clusters := by norm_num
        vert := fun v _ m => by simp only [exampleModel]; split_ifs <;> decide
        edge := fun c _ a b => by simp only [exampleModel]; split_ifs <;> decide
        feat := fun v _ r _ m => by simp only [exampleModel]; split_ifs <;> decide
        width := by
          change ∀ v < 3, (columns (exampleModel ℝ) v).card ≤ 256
          decide +kernel } (by decide) (W := 3) (by
          change ∀ v < 3, (columns (exampleModel ℝ) v).card ≤ 3
          decide +kernel) (data := [1, 0, 0, 1, 0, 0, 0]) ⟨fun r => by
            by_cases h : r < 7
            · revert r
              decide
            · rw [List.getD_eq_default _ _ (by simpa using h)], by
            change ∀ v < 3, ∑ r ∈ columns (exampleModel ℝ) v, ([1, 0, 0, 1, 0, 0, 0] : List Int).getD r 0 ≤ 1
            decide +kernel⟩ hs (Option.some.inj hu)
    refine ⟨srv, rfl, q, h1, le_trans h2 ?_⟩
    change Spec.logprobError 3 2 3 _ ≤ _
    unfold Spec.logprobError
    norm_num

end TreeCat
