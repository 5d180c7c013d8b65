import Verif.Props.FloatHub
import Verif.Lemmas.FloatSampleOut

/-!
# C79: underflow at a hub

`sample` has the weakness of the trainer (`Lemmas/FloatHub`) and of `logprob` (`Props/FloatLogBad`): sixty-four features hang on one; in the row the first 31 favour one class of it and the other 33 the other class.
-/

set_option linter.unusedSectionVars false
set_option maxRecDepth 20000

namespace TreeCat

open Util Spec
open scoped BigOperators

/-- The model for the 32 rows of `hubTable` that the trainer has seen, with 16 rows in each class. -/
def starModel : Model ℝ 2 where
  tree := { numVertices := 65, treeGrid := makeTree hubEdges }
  raggedIndex := (List.range 66).map (2 * ·)
  vertSS _ _ := 16
  edgeSS _ a b := if a = b then 16 else 0
  featSS r a := if (r % 2 = 0) = (a = 0) then 16 else 0
  edgeLogits := List.replicate 2080 0

/-- The row: nothing about the hub, the first value of 31 features and the second of 33. -/
def starRow : List Int := [0, 0] ++ ((List.range 31).flatMap fun _ => [1, 0]) ++ (List.range 33).flatMap fun _ => [0, 1]

noncomputable def hubOps : ServeOps 2 := numpyServe 2 floorLog

theorem starModel_grid : starModel.tree.treeGrid = (List.range 64).map fun i => (i, 0, i + 1) := hub_grid

theorem hub_getD : ∀ v < 66, ((List.range 66).map (2 * ·)).getD v 0 = 2 * v := by decide +kernel

theorem starModel_valid : Model.Valid starModel where
  isTree := by
    have e : starModel.tree.getEdges = hubEdges := by
      show (makeTree hubEdges).map (fun c => (c.2.1, c.2.2)) = _
      rw [hub_grid, List.map_map]
      rfl
    rw [e]
    exact hub_isTree
  sorted := ⟨_, rfl⟩
  ragged := by simp [starModel]
  mono := by
    show ((List.range 66).map (2 * ·)).Pairwise (· ≤ ·)
    decide +kernel
  vert v _ m := by simp [starModel]
  edge c _ a b := by simp only [starModel]; split_ifs <;> decide
  feat v _ r _ m := by simp only [starModel]; split_ifs <;> decide
  logits := by simp [starModel]

theorem hub_columns {v : Nat} (hv : v < 65) : columns starModel v = {2 * v, 2 * v + 1} := by
  unfold columns
  rw [show starModel.raggedIndex = (List.range 66).map (2 * ·) from rfl, hub_getD v (by omega), hub_getD (v + 1) (by omega)]
  ext r
  simp only [Finset.mem_Ico, Finset.mem_insert, Finset.mem_singleton]
  omega

theorem hub_columnList {v : Nat} (hv : v < 65) : columnList starModel v = [2 * v, 2 * v + 1] := by
  unfold columnList
  rw [show starModel.raggedIndex = (List.range 66).map (2 * ·) from rfl, hub_getD v (by omega), hub_getD (v + 1) (by omega), show 2 * (v + 1) - 2 * v = 2 by omega]
  rfl

theorem starModel_small : Spec.SmallCounts starModel where
  clusters := by norm_num
  vert _ _ _ := by norm_num [starModel]
  edge c _ a b := by simp only [starModel]; split_ifs <;> norm_num
  feat v _ r _ m := by simp only [starModel]; split_ifs <;> norm_num
  width v hv := by
    rw [hub_columns hv]
    exact (Finset.card_le_two).trans (by norm_num)

theorem starRow_get : ∀ v < 65, starRow.getD (2 * v) 0 = (if v = 0 ∨ 31 < v then 0 else 1) ∧ starRow.getD (2 * v + 1) 0 = if 31 < v then 1 else 0 := by decide +kernel

theorem starRow_nonneg (r : Nat) : 0 ≤ starRow.getD r 0 := by
  have h : ∀ x ∈ starRow, 0 ≤ x := by decide +kernel
  by_cases hr : r < starRow.length
  · rw [List.getD_eq_getElem _ _ hr]
    exact h _ (List.getElem_mem hr)
  · rw [List.getD_eq_default _ _ (by omega)]

theorem starRow_single : Spec.SingleRow starModel starRow := by
  refine ⟨starRow_nonneg, fun v hv => ?_⟩
  rw [hub_columns hv, Finset.sum_pair (by omega), (starRow_get v hv).1, (starRow_get v hv).2]
  split_ifs <;> omega

/-! ### The arrays of the server -/

def hubT (a b : Fin 2) : Flt := some (if a = b then 2065377 / 2 ^ 20 else 1016801 / 2 ^ 25)

def hubC (r : Nat) (a : Fin 2) : Flt := some (if (r % 2 = 0) = (a = 0) then 2065377 / 2 ^ 21 else 1016801 / 2 ^ 26)

/-- The message of a leaf after `OP_UP`. -/
def hubServeLeaf (v : Nat) (a : Fin 2) : Flt := some (if v = 0 then 1 / 2 else if (v ≤ 31) = (a = 0) then 2065377 / 2 ^ 22 else 1016801 / 2 ^ 27)

structure HubServer (srv : FloatServer 2) : Prop where
  program : srv.program = hubUp ++ (hubIns ++ ⟨.ROOT, 0, 0, 0⟩ :: hubOut)
  ragged : srv.raggedIndex = starModel.raggedIndex
  vert : ∀ v a, srv.vert v a = some (1 / 2)
  trans : ∀ e < 64, ∀ a b, srv.trans e a b = hubT a b
  cond : ∀ v < 65, ∀ a, srv.cond (2 * v) a = hubC (2 * v) a ∧ srv.cond (2 * v + 1) a = hubC (2 * v + 1) a

theorem hub_vert (v : Nat) (a : Fin 2) : floatVertProbs hubOps starModel.vertSS v a = some (1 / 2) := by
  show floatVertProbs (numpyServe 2 floorLog) (fun _ _ => 16) 0 0 = _
  decide +kernel

theorem hub_trans : ∀ a b : Fin 2, Flt.div float32 (Flt.div float32 (floatEdgeProbs (numpyServe 2 floorLog) (fun _ a b => if a = b then 16 else 0) 0 a b) (some (1 / 2))) (some (1 / 2)) = hubT a b := by
  decide +kernel

theorem hub_cond : ∀ a : Fin 2, ∀ i < 2, Flt.div float32 (fltPrior (numpyServe 2 floorLog) (if (i % 2 = 0) = (a = 0) then 16 else 0) (fltHalf (numpyServe 2 floorLog)))
    (seqSum float32 ([0, 1].map fun i : Nat => fltPrior (numpyServe 2 floorLog) (if (i % 2 = 0) = (a = 0) then 16 else 0) (fltHalf (numpyServe 2 floorLog)))) = hubC i a := by decide +kernel

theorem hub_server : ∃ srv, FloatServer.init hubOps starModel = .ok srv ∧ HubServer srv := by
  refine ⟨_, by
    unfold FloatServer.init
    rw [show starModel.tree.treeGrid = makeTree hubEdges from rfl, hub_program]
    rfl, rfl, rfl, hub_vert, fun e he a b => ?_, fun v hv a => ?_⟩
  · have hn : ((makeTree hubEdges).map Prod.fst).Nodup := by
      rw [hub_grid, List.map_map]
      show ((List.range 64).map fun i => i).Nodup
      rw [List.map_id']
      exact List.nodup_range
    have := (floatEdgeTrans_eq (A := hubOps) (floatVertProbs hubOps starModel.vertSS) (makeTree hubEdges) (floatEdgeProbs hubOps starModel.edgeSS) hn).1 (e, 0, e + 1)
      (by rw [hub_grid]; exact List.mem_map.2 ⟨e, List.mem_range.2 he, rfl⟩)
    refine (congrFun (congrFun this a) b).trans ?_
    simp only [hub_vert]
    exact hub_trans a b
  · have h1 := (floatFeatCond_eq (A := hubOps) starModel_valid 65 le_rfl).1 v hv
    have hm : ∀ i : Nat, (2 * v + i) % 2 = i % 2 := fun i => by omega
    have key : ∀ i < 2, floatFeatCond hubOps starModel.raggedIndex 65 starModel.featSS (2 * v + i) a = hubC (2 * v + i) a := by
      intro i hi
      rw [h1 (2 * v + i) (by rw [hub_columns hv]; simp only [Finset.mem_insert, Finset.mem_singleton]; omega), hub_columnList hv]
      have := hub_cond a i hi
      have e0 := hm 0
      have e1 := hm 1
      rw [Nat.add_zero] at e0
      unfold hubC at this ⊢
      rw [hm i, ← this]
      simp only [starModel, List.map_cons, List.map_nil, hm i, e0, e1]
      rfl
    exact ⟨key 0 (by norm_num), key 1 (by norm_num)⟩

/-! ### Messages -/

theorem hub_up {srv : FloatServer 2} (S : HubServer srv) (skip : Bool) {v : Nat} (hv : v < 65) {msgs : Nat → Fin 2 → Flt} (hm : ∀ a, msgs v a = some (1 / 2)) :
    floatServeUp hubOps srv skip starRow msgs v = Function.update msgs v (hubServeLeaf v) := by
  have hblock : srv.block v = [2 * v, 2 * v + 1] := by
    have := hub_columnList hv
    unfold columnList at this
    unfold FloatServer.block
    rw [S.ragged]
    exact this
  obtain ⟨d0, d1⟩ := starRow_get v hv
  have hm' : msgs v = fun _ => some (1 / 2) := funext hm
  have c0 : srv.cond (2 * v) = fun a => some (if a = 0 then 2065377 / 2 ^ 21 else 1016801 / 2 ^ 26) := funext fun a => by
    rw [(S.cond v hv a).1]
    simp [hubC]
  have c1 : srv.cond (2 * v + 1) = fun a => some (if a = 0 then 1016801 / 2 ^ 26 else 2065377 / 2 ^ 21) := funext fun a => by
    rw [(S.cond v hv a).2]
    unfold hubC
    rw [show (2 * v + 1) % 2 = 1 by omega]
    rcases (show a = 0 ∨ a = 1 by omega) with rfl | rfl <;> simp
  unfold floatServeUp
  simp only [hblock, List.foldl_cons, List.foldl_nil, c0, c1]
  by_cases h0 : v = 0
  · subst h0
    rw [if_pos (.inl rfl)] at d0
    rw [if_neg (by norm_num)] at d1
    rw [d0, d1]
    cases skip
    · simp only [Bool.false_and, Bool.false_eq_true, if_false, Function.update_idem, Function.update_self, hm']
      congr 1
      funext a
      revert a
      show ∀ a : Fin 2, Flt.mul float32 (Flt.mul float32 (some (1 / 2)) (fltPow float32 (some (if a = 0 then 2065377 / 2 ^ 21 else 1016801 / 2 ^ 26)) 0))
        (fltPow float32 (some (if a = 0 then 1016801 / 2 ^ 26 else 2065377 / 2 ^ 21)) 0) = hubServeLeaf 0 a
      decide +kernel
    · simp only [Bool.true_and, beq_self_eq_true, if_true]
      rw [show hubServeLeaf 0 = msgs 0 by rw [hm']; funext a; simp [hubServeLeaf], Function.update_eq_self]
  by_cases h31 : 31 < v
  · rw [if_pos (.inr h31)] at d0
    rw [if_pos h31] at d1
    rw [d0, d1]
    have hl : hubServeLeaf v = hubServeLeaf 32 := funext fun a => by simp [hubServeLeaf, h0, show ¬ v ≤ 31 by omega]
    rw [hl]
    cases skip
    · simp only [Bool.false_and, Bool.false_eq_true, if_false, Function.update_idem, Function.update_self, hm']
      congr 1
      funext a
      revert a
      show ∀ a : Fin 2, Flt.mul float32 (Flt.mul float32 (some (1 / 2)) (fltPow float32 (some (if a = 0 then 2065377 / 2 ^ 21 else 1016801 / 2 ^ 26)) 0))
        (fltPow float32 (some (if a = 0 then 1016801 / 2 ^ 26 else 2065377 / 2 ^ 21)) 1) = hubServeLeaf 32 a
      decide +kernel
    · simp only [Bool.true_and, beq_self_eq_true, if_true, show ((1 : Int) == 0) = false from rfl, Bool.false_eq_true, if_false, hm']
      congr 1
      funext a
      revert a
      show ∀ a : Fin 2, Flt.mul float32 (some (1 / 2)) (fltPow float32 (some (if a = 0 then 1016801 / 2 ^ 26 else 2065377 / 2 ^ 21)) 1) = hubServeLeaf 32 a
      decide +kernel
  · rw [if_neg (by omega)] at d0
    rw [if_neg h31] at d1
    rw [d0, d1]
    have hl : hubServeLeaf v = hubServeLeaf 1 := funext fun a => by simp [hubServeLeaf, h0, show v ≤ 31 by omega]
    rw [hl]
    cases skip
    · simp only [Bool.false_and, Bool.false_eq_true, if_false, Function.update_idem, Function.update_self, hm']
      congr 1
      funext a
      revert a
      show ∀ a : Fin 2, Flt.mul float32 (Flt.mul float32 (some (1 / 2)) (fltPow float32 (some (if a = 0 then 2065377 / 2 ^ 21 else 1016801 / 2 ^ 26)) 1))
        (fltPow float32 (some (if a = 0 then 1016801 / 2 ^ 26 else 2065377 / 2 ^ 21)) 0) = hubServeLeaf 1 a
      decide +kernel
    · simp only [Bool.true_and, beq_self_eq_true, if_true, show ((1 : Int) == 0) = false from rfl, Bool.false_eq_true, if_false, hm']
      congr 1
      funext a
      revert a
      show ∀ a : Fin 2, Flt.mul float32 (some (1 / 2)) (fltPow float32 (some (if a = 0 then 2065377 / 2 ^ 21 else 1016801 / 2 ^ 26)) 1) = hubServeLeaf 1 a
      decide +kernel

/-- `OP_IN` at the hub. -/
def hubServeIn (m0 mc : Fin 2 → Flt) (a : Fin 2) : Flt := Flt.mul float32 (m0 a) (seqDot float32 (hubT a) mc)

theorem hub_serveIn {srv : FloatServer 2} (S : HubServer srv) {i : Nat} (hi : i < 64) (msgs : Nat → Fin 2 → Flt) :
    floatServeIn hubOps srv msgs 0 (i + 1) i = hubServeIn (msgs 0) (msgs (i + 1)) := by
  funext a
  have : transAt srv.trans i 0 (i + 1) a = hubT a := by
    funext b
    unfold transAt
    rw [if_neg (by omega), S.trans i hi]
  unfold floatServeIn
  rw [this]
  rfl

theorem hub_upFold {srv : FloatServer 2} (S : HubServer srv) (skip : Bool) : ∀ (l : List Nat), l.Nodup → (∀ v ∈ l, v < 65) → ∀ msgs : Nat → Fin 2 → Flt, (∀ v ∈ l, ∀ a, msgs v a = some (1 / 2)) →
    (∀ v ∈ l, l.foldl (fun m v => floatServeUp hubOps srv skip starRow m v) msgs v = hubServeLeaf v) ∧
      ∀ w, w ∉ l → l.foldl (fun m v => floatServeUp hubOps srv skip starRow m v) msgs w = msgs w := by
  intro l
  induction l with
  | nil => intro _ _ _ _; exact ⟨by simp, fun _ _ => rfl⟩
  | cons v l ih =>
    intro hn hl msgs hm
    rw [List.nodup_cons] at hn
    rw [List.foldl_cons, hub_up S skip (hl v (by simp)) (hm v (by simp))]
    obtain ⟨h1, h2⟩ := ih hn.2 (fun w hw => hl w (by simp [hw])) (Function.update msgs v (hubServeLeaf v)) fun w hw a => by
      rw [Function.update_of_ne (by rintro rfl; exact hn.1 hw)]
      exact hm w (by simp [hw]) a
    refine ⟨fun w hw => ?_, fun w hw => ?_⟩
    · rcases List.mem_cons.1 hw with rfl | hw
      · rw [h2 w hn.1, Function.update_self]
      · exact h1 w hw
    · simp only [List.mem_cons, not_or] at hw
      rw [h2 w hw.2, Function.update_of_ne hw.1]

theorem hub_leaves {srv : FloatServer 2} (S : HubServer srv) (skip : Bool) : ∀ v < 65, (List.range 65).reverse.foldl (fun m v => floatServeUp hubOps srv skip starRow m v) srv.vert v = hubServeLeaf v := by
  intro v hv
  exact (hub_upFold S skip (List.range 65).reverse (List.nodup_reverse.2 List.nodup_range) (fun v hv => List.mem_range.1 (List.mem_reverse.1 hv)) srv.vert fun v _ a => S.vert v a).1 v (by simpa using hv)

/-! ### `sample` -/

/-- The messages of the hub in `sample` before any `OP_IN` and after each of the first 29. After the others, that of class 1 is zero. -/
def hubMax : List (ℚ × ℚ) :=
  [(1 / 2, 1 / 2), (1, 16515195 / 2 ^ 29), (1, 16257267 / 2 ^ 34), (1, 8001683 / 2 ^ 38), (1, 15753431 / 2 ^ 44), (1, 1938425 / 2 ^ 46), (1, 15265211 / 2 ^ 54), (1, 3756701 / 2 ^ 57),
    (1, 1849015 / 2 ^ 61), (1, 7280551 / 2 ^ 68), (1, 3583423 / 2 ^ 72), (1, 14109833 / 2 ^ 79), (1, 13889471 / 2 ^ 84), (1, 6836275 / 2 ^ 88), (1, 13459017 / 2 ^ 94), (1, 13248819 / 2 ^ 99),
    (1, 815119 / 2 ^ 100), (1, 3209555 / 2 ^ 107), (1, 6318859 / 2 ^ 113), (1, 6220173 / 2 ^ 118), (1, 12246057 / 2 ^ 124), (1, 6027401 / 2 ^ 128), (1, 11866535 / 2 ^ 134), (1, 1460151 / 2 ^ 136),
    (1, 11498775 / 2 ^ 144), (1, 11319191 / 2 ^ 149), (1, 348201 / 2 ^ 149), (1, 1339 / 2 ^ 146), (1, 165 / 2 ^ 148), (1, 5 / 2 ^ 148)]

def hubMaxAt (i : Nat) : ℚ × ℚ := hubMax.getD i (1, 0)

theorem hubMax_step : ∀ i < 64, ∀ a, Flt.div float32 (hubServeIn (hubPair (hubMaxAt i)) (hubServeLeaf (i + 1)) a) (fltMax (hubServeIn (hubPair (hubMaxAt i)) (hubServeLeaf (i + 1))))
    = hubPair (hubMaxAt (i + 1)) a := by decide +kernel

theorem hub_sampleIns {srv : FloatServer 2} (S : HubServer srv) {msgs : Nat → Fin 2 → Flt} (h0 : ∀ v < 65, msgs v = hubServeLeaf v) : ∀ n ≤ 64,
    (((List.range n).map fun i => (⟨.IN, 0, i + 1, i⟩ : Instr)).foldl (msgStep hubOps srv starRow) msgs) 0 = hubPair (hubMaxAt n) ∧
      ∀ v, v ≠ 0 → (((List.range n).map fun i => (⟨.IN, 0, i + 1, i⟩ : Instr)).foldl (msgStep hubOps srv starRow) msgs) v = msgs v := by
  intro n
  induction n with
  | zero =>
    intro _
    refine ⟨?_, fun _ _ => rfl⟩
    show msgs 0 = _
    rw [h0 0 (by norm_num)]
    funext a
    simp [hubServeLeaf, hubPair, hubMaxAt, hubMax]
  | succ n ih =>
    intro hn
    obtain ⟨e1, e2⟩ := ih (by omega)
    rw [List.range_succ, List.map_append, List.foldl_append]
    simp only [List.map_cons, List.map_nil, List.foldl_cons, List.foldl_nil]
    refine ⟨?_, fun v hv => ?_⟩
    · generalize ((List.range n).map fun i => (⟨.IN, 0, i + 1, i⟩ : Instr)).foldl (msgStep hubOps srv starRow) msgs = m at e1 e2 ⊢
      simp only [msgStep, Function.update_self]
      rw [hub_serveIn S (by omega), e1, e2 (n + 1) (by omega), h0 (n + 1) (by omega)]
      exact funext (hubMax_step n (by omega))
    · generalize ((List.range n).map fun i => (⟨.IN, 0, i + 1, i⟩ : Instr)).foldl (msgStep hubOps srv starRow) msgs = m at e1 e2 ⊢
      simp only [msgStep, Function.update_of_ne hv]
      exact e2 v hv

theorem hub_serveOuts {srv : FloatServer 2} (draw : Nat → ℚ) (drawF : Nat → Nat → ℚ) : ∀ (l : List Instr), (∀ i ∈ l, i.v ≠ 0 ∧ (i.op = .DOWN ∨ i.op = .OUT)) → ∀ s : FloatDraw 2,
    ∃ s', l.foldlM (floatSampleStep hubOps srv [] starRow draw drawF) s = .ok s' ∧ s'.vertSample 0 = s.vertSample 0 := by
  intro l
  induction l with
  | nil => intro _ s; exact ⟨s, rfl, rfl⟩
  | cons i l ih =>
    intro hl s
    obtain ⟨s1, e1, e2⟩ : ∃ s1, floatSampleStep hubOps srv [] starRow draw drawF s i = .ok s1 ∧ s1.vertSample 0 = s.vertSample 0 := by
      obtain ⟨hv, ho | ho⟩ := hl i (by simp)
      · obtain ⟨a, ha⟩ := hub_class_ok (s.messagesOut i.v) (draw i.v)
        have ha' : floatClass hubOps.toFloatOps (s.messagesOut i.v) (draw i.v) = .ok a := ha
        refine ⟨_, by simp only [floatSampleStep, ho, ha', bind, Except.bind]; rfl, ?_⟩
        exact Function.update_of_ne (Ne.symm hv) _ _
      · refine ⟨_, by simp only [floatSampleStep, ho]; rfl, ?_⟩
        rfl
    obtain ⟨s2, f1, f2⟩ := ih (fun j hj => hl j (by simp [hj])) s1
    refine ⟨s2, ?_, f2.trans e2⟩
    rw [List.foldlM_cons, e1]
    exact f1

/-- Whatever is drawn, the class of the hub is 0. -/
theorem hub_sample {srv : FloatServer 2} (S : HubServer srv) (draw : Nat → ℚ) (drawF : Nat → Nat → ℚ) : ∃ s, srv.sample hubOps [] starRow draw drawF = .ok s ∧ s.vertSample 0 = 0 := by
  set m1 := (List.range 65).reverse.foldl (fun m v => floatServeUp hubOps srv true starRow m v) srv.vert with hm1
  have hup : hubUp.foldl (msgStep hubOps srv starRow) srv.vert = m1 := by
    unfold hubUp
    rw [List.foldl_map]
    rfl
  obtain ⟨e1, -⟩ := hub_sampleIns S (msgs := m1) (hub_leaves S true) 64 le_rfl
  rw [show hubMaxAt 64 = (1, 0) by decide +kernel] at e1
  set s0 : FloatDraw 2 := { messagesIn := srv.vert, messagesOut := srv.vert, vertSample := fun _ => 0, featSample := fun _ => 0 } with hs0
  have hin := sampleInward_fold (A := hubOps) (srv := srv) (counts := []) (data := starRow) draw drawF (hubUp ++ hubIns) (by
    intro i hi
    rcases List.mem_append.1 hi with h | h
    · obtain ⟨v, -, rfl⟩ := List.mem_map.1 h
      exact .inl rfl
    · obtain ⟨v, -, rfl⟩ := List.mem_map.1 h
      exact .inr rfl) s0
  rw [List.foldl_append, hup] at hin
  obtain ⟨s, g1, g2⟩ := hub_serveOuts (srv := srv) draw drawF ((List.range 64).flatMap fun i => [⟨.OUT, i + 1, 0, i⟩, ⟨.DOWN, i + 1, 0, 0⟩]) (fun i hi => by
    simp only [List.mem_flatMap, List.mem_range, List.mem_cons, List.not_mem_nil, or_false] at hi
    obtain ⟨j, -, rfl | rfl⟩ := hi
    · exact ⟨by simp, .inr rfl⟩
    · exact ⟨by simp, .inl rfl⟩) { s0 with
      messagesIn := hubIns.foldl (msgStep hubOps srv starRow) m1
      messagesOut := Function.update s0.messagesOut 0 (hubPair (1, 0))
      vertSample := Function.update s0.vertSample 0 0 }
  refine ⟨s, ?_, g2.trans (Function.update_self (0 : Nat) (0 : Fin 2) s0.vertSample)⟩
  unfold FloatServer.sample
  rw [S.program, ← List.append_assoc]
  have hroot : floatSampleStep hubOps srv [] starRow draw drawF { s0 with messagesIn := hubIns.foldl (msgStep hubOps srv starRow) m1 } ⟨.ROOT, 0, 0, 0⟩ = .ok { s0 with
      messagesIn := hubIns.foldl (msgStep hubOps srv starRow) m1
      messagesOut := Function.update s0.messagesOut 0 (hubPair (1, 0)) } := by
    simp only [floatSampleStep]
    rw [show (hubIns.foldl (msgStep hubOps srv starRow) m1) 0 = hubPair (1, 0) from e1]
  have hc : floatClass hubOps.toFloatOps (hubPair (1, 0)) (draw 0) = .ok 0 := hub_class (draw 0)
  refine foldlM_then hin (foldlM_next hroot (foldlM_next ?_ g1))
  simp only [floatSampleStep, Function.update_self, hc, bind, Except.bind]
  rfl

end TreeCat
