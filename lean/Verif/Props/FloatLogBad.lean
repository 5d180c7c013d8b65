import Verif.Props.FloatLogNear

/-! # Where `logprob` is wrong in float32 -/

namespace TreeCat

open Util Spec

section
set_option linter.unusedSectionVars false
variable {M : Nat} [NeZero M] {A : ServeOps M} {ε : ℝ}

/-- The product of the totals whose logarithms `logprob` adds. -/
def floatTotals (A : ServeOps M) (srv : FloatServer M) (data : List Int) : List Instr → FloatLog M → Option ℚ
  | [], _ => none
  | i :: prog, s =>
    match i.op with
    | .ROOT => A.sum ((List.finRange M).map (s.messages i.v))
    | .IN => do
      let t ← A.sum ((List.finRange M).map (floatServeIn A srv s.messages i.v i.v2 i.e))
      let r ← floatTotals A srv data prog (floatLogStep A srv data s i)
      some (t * r)
    | _ => floatTotals A srv data prog (floatLogStep A srv data s i)

theorem floatLogLoop_totals (N : Spec.ServeOpsNear A ε) (hM : M ≤ 128) {V E : Nat} (hV : V ≤ 2 ^ 20) {srv : FloatServer M} (B : ServeBounds V E srv) {data : List Int} (hd : ∀ r, 0 ≤ data.getD r 0)
    (hsum : ∀ v < V, ((srv.block v).map fun r => data.getD r 0).sum ≤ 1) (prog : List Instr) (hroot : ∃ i ∈ prog, i.op = .ROOT) {U D : List Nat} (hord : Orderly V E U D prog)
    {s : FloatLog M} (I : ServeInv V U s.messages) {n : Nat} {l : ℚ} (hl : s.logprob = some l) (hl1 : |l| ≤ 104 * n) (hT : n + (prog.filter fun i => i.op = .IN).length + 1 ≤ V) {P : ℝ}
    (hP : |(l : ℝ) - P| ≤ n * logErr V ε) (hε : 0 ≤ logErr V ε) :
    ∃ q t, floatLogLoop A srv data prog s = some (some q) ∧ floatTotals A srv data prog s = some t ∧ 0 < t ∧ |(q : ℝ) - (P + Real.log t)| ≤ V * logErr V ε := by
  induction prog generalizing U D s n l P with
  | nil =>
    obtain ⟨i, hi, -⟩ := hroot
    cases hi
  | cons i prog ih =>
    obtain ⟨op, v, v2, e⟩ := i
    have hroot' : op ≠ .ROOT → ∃ i ∈ prog, i.op = .ROOT := by
      intro hop
      obtain ⟨i, hi, hi'⟩ := hroot
      rcases List.mem_cons.1 hi with rfl | hi
      · exact absurd hi' hop
      · exact ⟨i, hi, hi'⟩
    cases op with
    | UP =>
      obtain ⟨hv, hU, hD, hrest⟩ := hord
      exact ih (hroot' (by simp)) hrest (serveInv_up N.ok B hd hsum I hv hU) (s := ⟨floatServeUp A srv false data s.messages v, s.logprob⟩) hl hl1 (by simpa using hT) hP
    | IN =>
      obtain ⟨hv, hv2, he, hD, hD2, hrest⟩ := hord
      have hin := floatServeIn_ok hM N.ok B (v := v) (v2 := v2) he (I.all v hv) (I.all v2 hv2)
      obtain ⟨d, h1, h2, h3, h4⟩ := msg_sum_log hM N.ok hin (by norm_num) (by norm_num)
      have hT2 : n + 1 + (prog.filter fun i => i.op = .IN).length + 1 ≤ V := by
        rw [List.filter_cons_of_pos (by simp), List.length_cons] at hT
        omega
      obtain ⟨l', h5, h6, h7⟩ := logAdd_near N hV (by omega) hl1 h2 h3 h4 hP
      obtain ⟨q, t, h8, h9, h10, h11⟩ := ih (hroot' (by simp)) hrest (s := floatLogStep A srv data s ⟨.IN, v, v2, e⟩) (serveInv_update I (hin.norm hM N.ok (by norm_num)).2) (n := n + 1) (l := l') (by
        show Flt.add A.rnd s.logprob (A.log (A.sum _)) = _
        rw [h1, hl]
        exact h5) h6 hT2 h7
      refine ⟨q, d * t, h8, ?_, mul_pos h3 h10, ?_⟩
      · show (A.sum ((List.finRange M).map (floatServeIn A srv s.messages v v2 e))).bind (fun t => (floatTotals A srv data prog (floatLogStep A srv data s ⟨.IN, v, v2, e⟩)).bind fun r => some (t * r)) = _
        rw [h1, h9]
        rfl
      · have hd0 : (d : ℝ) ≠ 0 := by exact_mod_cast h3.ne'
        have ht0 : (t : ℝ) ≠ 0 := by exact_mod_cast h10.ne'
        push_cast
        rw [Real.log_mul hd0 ht0, ← add_assoc]
        exact h11
    | ROOT =>
      obtain ⟨hv, hD, hrest⟩ := hord
      obtain ⟨d, h1, h2, h3, h4⟩ := msg_sum_log hM N.ok (I.all v hv) (by norm_num) (by norm_num)
      obtain ⟨l', h5, h6, h7⟩ := logAdd_near N hV (n := n) (by omega) hl1 h2 h3 h4 hP
      refine ⟨l', d, ?_, h1, h3, le_trans h7 ?_⟩
      · show some (Flt.add A.rnd s.logprob (A.log (A.sum _))) = _
        rw [h1, hl, h5]
      · refine mul_le_mul_of_nonneg_right ?_ hε
        exact_mod_cast (by omega : n + 1 ≤ V)
    | OUT =>
      obtain ⟨hv, hv2, he, hD, hrest⟩ := hord
      exact ih (hroot' (by simp)) hrest I hl hl1 (by simpa using hT) hP
    | DOWN => exact ih (hroot' (by simp)) hord I hl hl1 (by simpa using hT) hP

end

/-! ### Probabilities of rational models -/

section
variable {M : Nat} {m : Model ℚ M} {m' : Model ℝ M}

/-- The same counts. -/
structure SameCounts (m : Model ℚ M) (m' : Model ℝ M) : Prop where
  tree : m'.tree = m.tree
  ragged : m'.raggedIndex = m.raggedIndex
  vert : m'.vertSS = m.vertSS
  edge : m'.edgeSS = m.edgeSS
  feat : m'.featSS = m.featSS

theorem vertMean_cast (h : SameCounts m m') (v : Nat) (a : Fin M) : vertMean m' v a = ((vertMean m v a : ℚ) : ℝ) := by
  unfold vertMean
  rw [h.vert]
  push_cast
  rfl

theorem edgeMean_cast (h : SameCounts m m') (e : Nat) (a b : Fin M) : edgeMean m' e a b = ((edgeMean m e a b : ℚ) : ℝ) := by
  unfold edgeMean
  rw [h.edge]
  push_cast
  rfl

theorem featMean_cast (h : SameCounts m m') (v r : Nat) (a : Fin M) : featMean m' v r a = ((featMean m v r a : ℚ) : ℝ) := by
  unfold featMean columns
  rw [h.feat, h.ragged]
  push_cast
  rfl

theorem latentProb_cast (h : SameCounts m m') (z : Nat → Fin M) : latentProb m' z = ((latentProb m z : ℚ) : ℝ) := by
  unfold latentProb
  rw [h.tree]
  push_cast
  congr 1
  · exact Finset.prod_congr rfl fun v _ => vertMean_cast h v _
  · rw [List.map_map]
    congr 1
    refine List.map_congr_left fun c _ => ?_
    simp only [Function.comp_apply]
    push_cast
    rw [edgeMean_cast h, vertMean_cast h, vertMean_cast h]

theorem rowProb_cast (h : SameCounts m m') (data : Nat → Int) (z : Nat → Fin M) : rowProb m' data z = ((rowProb m data z : ℚ) : ℝ) := by
  unfold rowProb columns
  rw [h.tree, h.ragged]
  push_cast
  refine Finset.prod_congr rfl fun v _ => Finset.prod_congr rfl fun r _ => ?_
  rw [featMean_cast h]

theorem dataProb_cast [NeZero M] (h : SameCounts m m') (data : Nat → Int) : dataProb m' data = ((dataProb m data : ℚ) : ℝ) := by
  unfold dataProb sumLatent
  rw [h.tree]
  push_cast
  refine Finset.sum_congr rfl fun z _ => ?_
  rw [latentProb_cast h, rowProb_cast h]

end

/-- The probability of a row with given classes is a lower bound of its probability. -/
theorem le_dataProb {K : Type} [Field K] [LinearOrder K] [IsStrictOrderedRing K] {M : Nat} [NeZero M] {model : Model K M} (h : Model.Valid model) (data : Nat → Int) (z : Fin model.tree.numVertices → Fin M) :
    latentProb model (fun v => if h : v < model.tree.numVertices then z ⟨v, h⟩ else 0) * rowProb model data (fun v => if h : v < model.tree.numVertices then z ⟨v, h⟩ else 0) ≤ dataProb model data := by
  refine Finset.single_le_sum (f := fun z : Fin model.tree.numVertices → Fin M => latentProb model (fun v => if h : v < model.tree.numVertices then z ⟨v, h⟩ else 0) *
    rowProb model data (fun v => if h : v < model.tree.numVertices then z ⟨v, h⟩ else 0)) (fun z _ => ?_) (Finset.mem_univ z)
  refine mul_nonneg (mul_nonneg ?_ ?_) ?_
  · exact Finset.prod_nonneg fun v hv => (vertMean_pos h (Finset.mem_range.1 hv) _).le
  · refine List.prod_nonneg fun x hx => ?_
    obtain ⟨c, hc, rfl⟩ := List.mem_map.1 hx
    obtain ⟨h1, h2⟩ := h.isTree.range c.2 (List.mem_map.2 ⟨c, hc, rfl⟩)
    exact div_nonneg (edgeMean_pos h hc _ _).le (mul_pos (vertMean_pos h h1 _) (vertMean_pos h h2 _)).le
  · exact Finset.prod_nonneg fun v hv => Finset.prod_nonneg fun r hr => zpow_nonneg (featMean_pos h (Finset.mem_range.1 hv) hr _).le _

/-! ### A hub with many neighbours -/

/-- One feature with 41 neighbours, all with two values, after 1024 rows: in one half all features are in the first class and have the first value, in the other half all are in the second class and have the second value. -/
def hubModel (K : Type) [Field K] : Model K 2 where
  tree := { numVertices := 42, treeGrid := makeTree ((List.range 41).map fun v => (0, v + 1)) }
  raggedIndex := (List.range 43).map (2 * ·)
  vertSS _ _ := 512
  edgeSS _ a b := if a = b then 512 else 0
  featSS r m := if r % 2 = m.val then 512 else 0
  edgeLogits := List.replicate 861 0

/-- A row with the first value for 16 of the neighbours, and the second value for the other 25. -/
def hubRow : List Int := (List.range 84).map fun r => if r < 2 then 0 else if r < 34 then (if r % 2 = 0 then 1 else 0) else (if r % 2 = 0 then 0 else 1)

theorem hubModel_grid (K : Type) [Field K] : (hubModel K).tree.treeGrid = (List.range 41).map fun v => (v, 0, v + 1) := by
  change makeTree ((List.range 41).map fun v => (0, v + 1)) = _
  decide +kernel

theorem hubModel_valid (K : Type) [Field K] : Model.Valid (hubModel K) where
  isTree := by
    change IsTree 42 ((hubModel K).tree.treeGrid.map fun c => (c.2.1, c.2.2))
    rw [hubModel_grid]
    exact isTree_of_smaller rfl (by decide +kernel) (by decide +kernel)
  sorted := ⟨_, rfl⟩
  ragged := rfl
  mono := by change ((List.range 43).map (2 * ·)).Pairwise (· ≤ ·); decide +kernel
  vert v _ m := by change (0 : Int) ≤ 512; decide
  edge c _ a b := by simp only [hubModel]; split_ifs <;> decide
  feat v _ r _ m := by simp only [hubModel]; split_ifs <;> decide
  logits := by
    change (List.replicate 861 (0 : K)).length = 42 * (42 - 1) / 2
    rw [List.length_replicate]

theorem hubModel_consistent (K : Type) [Field K] : Model.Consistent (hubModel K) := by
  intro c _
  constructor <;> simp only [hubModel] <;> decide

theorem hubModel_small (K : Type) [Field K] : Spec.SmallCounts (hubModel K) where
  clusters := by norm_num
  vert v _ m := by change (0 : Int) ≤ 512 ∧ (512 : Int) < 2 ^ 24; decide
  edge c _ a b := by simp only [hubModel]; split_ifs <;> decide
  feat v _ r _ m := by simp only [hubModel]; split_ifs <;> decide
  width := by
    change ∀ v < 42, (Finset.Ico (((List.range 43).map (2 * ·)).getD v 0) (((List.range 43).map (2 * ·)).getD (v + 1) 0)).card ≤ 256
    decide +kernel

theorem hubRow_single (K : Type) [Field K] : Spec.SingleRow (hubModel K) hubRow := by
  refine ⟨fun r => ?_, ?_⟩
  · unfold hubRow
    rw [List.getD_eq_getElem?_getD, List.getElem?_map]
    cases (List.range 84)[r]? with
    | none => decide
    | some x =>
      show (0 : Int) ≤ if x < 2 then 0 else if x < 34 then (if x % 2 = 0 then 1 else 0) else (if x % 2 = 0 then 0 else 1)
      split_ifs <;> decide
  · change ∀ v < 42, ∑ r ∈ Finset.Ico (((List.range 43).map (2 * ·)).getD v 0) (((List.range 43).map (2 * ·)).getD (v + 1) 0), hubRow.getD r 0 ≤ 1
    decide +kernel

/-- **C70**. When messages underflow, `logprob` is wrong in float32, without a warning: the second class of the hub underflows after 16 neighbours that speak for the first class, and cannot recover
when 25 neighbours speak for the second class. The result is too small by more than 49, which is a factor of `10 ^ 21` in the probability. -/
theorem floatLogprob_underflow : Model.Valid (hubModel ℝ) ∧ Model.Consistent (hubModel ℝ) ∧ Spec.SmallCounts (hubModel ℝ) ∧ Spec.SingleRow (hubModel ℝ) hubRow ∧
    ∃ srv, FloatServer.init (numpyServe 2 floorLog) (hubModel ℝ) = .ok srv ∧ ∃ q, srv.logprob (numpyServe 2 floorLog) hubRow = some (some q) ∧
      (q : ℝ) + 49 ≤ Real.log (dataProb (hubModel ℝ) fun r => hubRow.getD r 0) := by
  have hval := hubModel_valid ℝ
  have hsmall := hubModel_small ℝ
  have hrow := hubRow_single ℝ
  refine ⟨hval, hubModel_consistent ℝ, hsmall, hrow, ?_⟩
  have N := numpyServe_near (M := 2) (by norm_num)
  have htot : ((FloatServer.init (numpyServe 2 floorLog) (hubModel ℝ)).toOption.bind fun srv => (floatTotals (numpyServe 2 floorLog) srv hubRow srv.program ⟨srv.vert, some 0⟩).map
      fun t => decide (t ≤ 2 ^ (-250 : Int))) = some true := by decide +kernel
  obtain ⟨srv, hs, -⟩ := floatLogprob_ok N.ok hval hsmall (by decide) hrow
  refine ⟨srv, hs, ?_⟩
  have ht : IsTree (hubModel ℝ).tree.numVertices (gridEdges (hubModel ℝ).tree.treeGrid) := hval.isTree
  have hids : ∀ c ∈ (hubModel ℝ).tree.treeGrid, c.1 < (hubModel ℝ).tree.treeGrid.length := by
    obtain ⟨edges, hs⟩ := hval.sorted
    rw [hs]
    exact makeTree_ids edges
  obtain ⟨B, hp, hr⟩ := floatServer_bounds N.ok hval hsmall hs
  obtain ⟨h1, -, h2, h3, -⟩ := serve_program ht hids hp
  have hε : 0 ≤ logErr (hubModel ℝ).tree.numVertices (2 ^ (-16 : Int)) := by
    unfold logErr
    positivity
  obtain ⟨q, t, h4, h5, h6, h7⟩ := floatLogLoop_totals N hsmall.clusters (by decide) B hrow.1 (singleRow_sum hrow hr) srv.program h2 h1 (s := ⟨srv.vert, some 0⟩) (serveInv_init B) (n := 0) (l := 0) rfl (by simp)
    (by omega) (P := 0) (by simp) hε
  refine ⟨q, h4, ?_⟩
  rw [hs] at htot
  have htot' : (floatTotals (numpyServe 2 floorLog) srv hubRow srv.program ⟨srv.vert, some 0⟩).map (fun t => decide (t ≤ 2 ^ (-250 : Int))) = some true := htot
  rw [h5] at htot'
  have ht250 : t ≤ 2 ^ (-250 : Int) := of_decide_eq_true (Option.some.inj htot')
  have hlogt : Real.log t ≤ -250 * Real.log 2 := by
    have e : (-250 : ℝ) * Real.log 2 = Real.log ((2 : ℝ) ^ (-250 : Int)) := by
      rw [Real.log_zpow]
      norm_num
    rw [e]
    refine Real.log_le_log (by exact_mod_cast h6) ?_
    have : (t : ℝ) ≤ ((2 ^ (-250 : Int) : ℚ) : ℝ) := Rat.cast_le.2 ht250
    rwa [Rat.cast_zpow, Rat.cast_ofNat] at this
  have hsame : SameCounts (hubModel ℚ) (hubModel ℝ) := ⟨rfl, rfl, rfl, rfl, rfl⟩
  have hlow : (2 : ℚ) ^ (-178 : Int) ≤ dataProb (hubModel ℚ) fun r => hubRow.getD r 0 := by
    refine le_trans ?_ (le_dataProb (hubModel_valid ℚ) _ fun _ => 1)
    decide +kernel
  have hlogp : -178 * Real.log 2 ≤ Real.log (dataProb (hubModel ℝ) fun r => hubRow.getD r 0) := by
    have e : (-178 : ℝ) * Real.log 2 = Real.log ((2 : ℝ) ^ (-178 : Int)) := by
      rw [Real.log_zpow]
      norm_num
    rw [e, dataProb_cast hsame]
    refine Real.log_le_log (by positivity) ?_
    have := (Rat.cast_le (K := ℝ)).2 hlow
    rwa [Rat.cast_zpow, Rat.cast_ofNat] at this
  have herr : ((hubModel ℝ).tree.numVertices : ℝ) * logErr (hubModel ℝ).tree.numVertices (2 ^ (-16 : Int)) ≤ 1 / 10 := by
    change ((42 : Nat) : ℝ) * logErr 42 _ ≤ _
    unfold logErr
    norm_num
  have hl2 := Real.log_two_gt_d9
  rw [zero_add] at h7
  have h8 := le_trans (abs_le.1 h7).2 herr
  linarith

end TreeCat
