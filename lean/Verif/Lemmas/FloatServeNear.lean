import Verif.Lemmas.FloatNear
import Verif.Props.FloatServeExact

/-! # Relative errors of the arrays of the server -/

namespace TreeCat

open Util Spec

section
set_option linter.unusedSectionVars false
variable {M : Nat} [NeZero M] {A : ServeOps M} {model : Model ℝ M} {ε : ℝ}

theorem fltPrior_near (O : Spec.ServeOpsOk A) {c : Int} (h0 : 0 ≤ c) (h1 : c < 2 ^ 24) {p : ℚ} (hp : 2 ^ (-8 : Int) ≤ p) {k : Nat} {y : ℝ} (hy : 0 < y) (hp1 : (p : ℝ) ≤ y * (ulp : ℝ) ^ k)
    (hp2 : y ≤ p * (ulp : ℝ) ^ k) : Near (k + 2) (fltPrior A c p) (c + y) := by
  have R := O.ops.rnd
  have hc : A.rnd c = c := R.id (by
    have := isFloat_of_le (p := 24) (emin := -149) (e := 0) (by norm_num) (by norm_num) (m := c) (by rw [abs_of_nonneg h0]; exact h1.le)
    simpa using this)
  have hc0 : (0 : ℚ) ≤ c := by exact_mod_cast h0
  have hcR : (0 : ℝ) ≤ c := by exact_mod_cast h0
  have hp126 : (2 : ℚ) ^ (-126 : Int) ≤ p := le_trans (zpow_mono (by norm_num)) hp
  obtain ⟨q, hq, -, hq0, h2, h3⟩ := near_rnd R hp126 hp1 hp2
  obtain rfl := Option.some.inj hq
  have hr : (2 : ℚ) ^ (-126 : Int) ≤ A.rnd p := R.ge_of (isFloat_pow (by norm_num)) hp126
  have hu := ulpR_pow (k + 1)
  show Near (k + 1 + 1) (some (A.rnd (A.rnd c + A.rnd p))) _
  rw [hc]
  refine near_rnd R (by linarith) ?_ ?_
  · push_cast
    rw [add_mul]
    have := mul_le_mul_of_nonneg_left hu hcR
    linarith
  · push_cast
    rw [add_mul]
    have := mul_le_mul_of_nonneg_left hu hcR
    linarith

theorem fltHalf_near (O : Spec.ServeOpsOk A) (hM : M ≤ 128) : ((fltHalf A : ℚ) : ℝ) ≤ 1 / 2 / (M : ℝ) * (ulp : ℝ) ^ 1 ∧ 1 / 2 / (M : ℝ) ≤ (fltHalf A : ℚ) * (ulp : ℝ) ^ 1 := by
  have hM1 : (1 : ℚ) ≤ M := by exact_mod_cast Nat.one_le_iff_ne_zero.2 (NeZero.ne M)
  have hM2 : (M : ℚ) ≤ 128 := by exact_mod_cast hM
  obtain ⟨h1, h2⟩ := O.ops.rp.monoRounding.factor (by norm_num) (x := 1 / 2 / M) (by
    refine le_trans (zpow_mono (show (-1074 : Int) + (53 : Nat) - 1 ≤ -8 by norm_num)) ?_
    rw [le_div_iff₀ (by linarith)]
    norm_num
    linarith)
  rw [pow_one]
  constructor
  · have := (Rat.cast_le (K := ℝ)).2 h1
    push_cast at this
    exact this
  · have := (Rat.cast_le (K := ℝ)).2 h2
    push_cast at this
    exact this

theorem fltPriorHalf_near (O : Spec.ServeOpsOk A) (hM : M ≤ 128) {c : Int} (h0 : 0 ≤ c) (h1 : c < 2 ^ 24) : Near 3 (fltPrior A c (fltHalf A)) (c + 1 / 2 / (M : ℝ)) := by
  have hMR := M_pos (K := ℝ) (M := M)
  exact fltPrior_near O h0 h1 (fltHalf_bounds O hM).1 (by positivity) (fltHalf_near O hM).1 (fltHalf_near O hM).2

theorem Near.sum_fin (N : Spec.ServeOpsNear A ε) (hM : M ≤ 128) {k : Nat} {f : Fin M → Flt} {g : Fin M → ℝ} (h : ∀ a, Near k (f a) (g a)) (hb : ∀ a, FGe (-126) (f a)) :
    Near (k + M) (A.sum ((List.finRange M).map f)) (∑ a, g a) := by
  have hs := Near.sum N.ok.sum N.sum (l := List.finRange M) (by intro h; have := congrArg List.length h; simp at this; exact NeZero.ne M this) (by simp; omega)
    (fun a _ => h a) fun a _ => hb a
  have e : ((List.finRange M).map g).sum = ∑ a, g a := by rw [← List.ofFn_eq_map, List.sum_ofFn]
  rwa [List.length_finRange, e] at hs

theorem floatVertProbs_near (N : Spec.ServeOpsNear A ε) (S : Spec.SmallCounts model) {v : Nat} (hv : v < model.tree.numVertices) (a : Fin M) :
    Near (M + 5) (floatVertProbs A model.vertSS v a) (vertMean model v a) := by
  have hb : ∀ a, Near 2 (fltPrior A (model.vertSS v a) (1 / 2)) ((model.vertSS v a : ℝ) + 1 / 2) := fun a =>
    fltPrior_near N.ok (S.vert v hv a).1 (S.vert v hv a).2 (by norm_num) (k := 0) (by norm_num) (by norm_num) (by norm_num)
  have hg : ∀ a, FBd (-1) 24 (fltPrior A (model.vertSS v a) (1 / 2)) := fun a =>
    fltPrior_bounds N.ok (S.vert v hv a).1 (S.vert v hv a).2 (by norm_num) (by norm_num) (le_refl _)
  have hM := S.clusters
  have hs := Near.sum_fin N hM hb fun a => (hg a).ge.weaken (by norm_num)
  have hfin := (floatVertProbs_bounds N.ok S hv).2 a
  have := Near.div N.ok.ops.rnd (hb a) hs (hfin.ge.weaken (by norm_num))
  rw [← vertMean_eq]
  exact this.mono (by omega)

theorem floatEdgeProbs_near (N : Spec.ServeOpsNear A ε) (S : Spec.SmallCounts model) {c : Nat × Nat × Nat} (hc : c ∈ model.tree.treeGrid) (a b : Fin M) :
    Near (M * M + 7) (floatEdgeProbs A model.edgeSS c.1 a b) (edgeMean model c.1 a b) := by
  have hM := S.clusters
  have hb : ∀ a b, Near 3 (fltPrior A (model.edgeSS c.1 a b) (fltHalf A)) ((model.edgeSS c.1 a b : ℝ) + 1 / 2 / (M : ℝ)) := fun a b =>
    fltPriorHalf_near N.ok hM (S.edge c hc a b).1 (S.edge c hc a b).2
  obtain ⟨p1, p2⟩ := fltHalf_bounds N.ok hM
  have hg : ∀ a b, FBd (-8) 24 (fltPrior A (model.edgeSS c.1 a b) (fltHalf A)) := fun a b =>
    fltPrior_bounds N.ok (S.edge c hc a b).1 (S.edge c hc a b).2 (by norm_num) p1 p2
  have e : ((List.finRange M).flatMap fun a' => (List.finRange M).map fun b' => fltPrior A (model.edgeSS c.1 a' b') (fltHalf A))
      = ((List.finRange M).flatMap fun a' => (List.finRange M).map fun b' => (a', b')).map fun p => fltPrior A (model.edgeSS c.1 p.1 p.2) (fltHalf A) := by
    rw [List.map_flatMap]
    simp only [List.map_map]
    rfl
  have e2 : (((List.finRange M).flatMap fun a' => (List.finRange M).map fun b' => (a', b')).map fun p : Fin M × Fin M => (model.edgeSS c.1 p.1 p.2 : ℝ) + 1 / 2 / (M : ℝ)).sum
      = ∑ a', ∑ b', ((model.edgeSS c.1 a' b' : ℝ) + 1 / 2 / (M : ℝ)) := by
    rw [List.map_flatMap, List.flatMap_def, List.sum_flatten, List.map_map, ← List.ofFn_eq_map, List.sum_ofFn]
    refine Finset.sum_congr rfl fun a' _ => ?_
    simp only [Function.comp_apply, List.map_map]
    rw [← List.ofFn_eq_map, List.sum_ofFn]
    rfl
  have hlen : ((List.finRange M).flatMap fun a' => (List.finRange M).map fun b' => (a', b')).length = M * M := by
    simp only [List.length_flatMap, List.length_map, List.length_finRange, List.map_const', List.sum_replicate, smul_eq_mul]
  have hMM : M * M ≤ 2 ^ 24 := le_trans (Nat.mul_le_mul hM hM) (by norm_num)
  have hs := Near.sum N.ok.sum N.sum (l := (List.finRange M).flatMap fun a' => (List.finRange M).map fun b' => (a', b'))
    (by intro h; have := congrArg List.length h; rw [hlen] at this; have h0 := NeZero.pos M; have := Nat.mul_pos h0 h0; simp_all) (by rw [hlen]; exact hMM)
    (fun p _ => hb p.1 p.2) fun p _ => (hg p.1 p.2).ge.weaken (by norm_num)
  rw [e2, hlen, ← e] at hs
  have := Near.div N.ok.ops.rnd (hb a b) hs ((floatEdgeProbs_bounds N.ok S hc a b).ge.weaken (by norm_num))
  rw [← edgeMean_eq]
  exact this.mono (by omega)

theorem sum_range'_real (f : Nat → ℝ) (a b : Nat) : ((List.range' a (b - a)).map f).sum = ∑ r ∈ Finset.Ico a b, f r := by
  have : (List.range' a (b - a)).toFinset = Finset.Ico a b := by
    ext r
    rw [List.mem_toFinset, List.mem_range'_1, Finset.mem_Ico]
    omega
  rw [← this]
  exact (List.sum_toFinset _ List.nodup_range').symm

theorem floatFeat_near (N : Spec.ServeOpsNear A ε) (S : Spec.SmallCounts model) {v : Nat} (hv : v < model.tree.numVertices) {r : Nat} (hr : r ∈ columns model v) (m : Fin M) :
    Near ((columns model v).card + 7) (Flt.div A.rnd (fltPrior A (model.featSS r m) (fltHalf A)) (A.sum ((columnList model v).map fun r' => fltPrior A (model.featSS r' m) (fltHalf A)))) (featMean model v r m) := by
  have hM := S.clusters
  have hb : ∀ r ∈ columnList model v, Near 3 (fltPrior A (model.featSS r m) (fltHalf A)) ((model.featSS r m : ℝ) + 1 / 2 / (M : ℝ)) := fun r hr =>
    fltPriorHalf_near N.ok hM (S.feat v hv r (mem_columnList.1 hr) m).1 (S.feat v hv r (mem_columnList.1 hr) m).2
  obtain ⟨p1, p2⟩ := fltHalf_bounds N.ok hM
  have hg : ∀ r ∈ columnList model v, FBd (-8) 24 (fltPrior A (model.featSS r m) (fltHalf A)) := fun r hr =>
    fltPrior_bounds N.ok (S.feat v hv r (mem_columnList.1 hr) m).1 (S.feat v hv r (mem_columnList.1 hr) m).2 (by norm_num) p1 p2
  have hr' := mem_columnList.2 hr
  have hlen : (columnList model v).length ≤ 2 ^ 8 := by
    rw [length_columnList]
    exact S.width v hv
  have hs := Near.sum N.ok.sum N.sum (List.ne_nil_of_mem hr') (le_trans hlen (by norm_num)) hb fun r hr => (hg r hr).ge.weaken (by norm_num)
  have := Near.div N.ok.ops.rnd (hb r hr') hs ((floatFeat_bounds' N.ok S hv hr m).ge.weaken (by norm_num))
  have e : featMean model v r m = ((model.featSS r m : ℝ) + 1 / 2 / (M : ℝ)) / ((columnList model v).map fun r => (model.featSS r m : ℝ) + 1 / 2 / (M : ℝ)).sum := by
    unfold columnList featMean
    rw [sum_range'_real, Finset.sum_add_distrib, Finset.sum_const, nsmul_eq_mul, div_div, mul_one_div]
    rfl
  rw [e]
  refine this.mono ?_
  rw [length_columnList]
  omega

/-- The arrays of the server up to the given numbers of roundings. -/
structure ServeNear (model : Model ℝ M) (kv kt kc : Nat) (srv : FloatServer M) : Prop where
  vert : ∀ v < model.tree.numVertices, ∀ a, Near kv (srv.vert v a) (vertMean model v a) ∧ FGe (-32) (srv.vert v a)
  trans : ∀ c ∈ model.tree.treeGrid, ∀ a b, Near kt (srv.trans c.1 a b) (edgeMean model c.1 a b / (vertMean model c.2.1 a * vertMean model c.2.2 b))
  cond : ∀ v < model.tree.numVertices, ∀ r ∈ columns model v, ∀ a, Near kc (srv.cond r a) (featMean model v r a)

theorem floatServer_near (N : Spec.ServeOpsNear A ε) (h : Model.Valid model) (S : Spec.SmallCounts model) {W : Nat} (hW : ∀ v < model.tree.numVertices, (columns model v).card ≤ W)
    {srv : FloatServer M} (hs : FloatServer.init A model = .ok srv) : ServeNear model (M + 5) (M * M + 2 * M + 19) (W + 7) srv := by
  have O := N.ok
  have R := O.ops.rnd
  cases hp : makeProgram model.tree.treeGrid none with
  | error e =>
    simp only [FloatServer.init, hp, bind, Except.bind] at hs
    cases hs
  | ok prog =>
    simp only [FloatServer.init, hp, bind, Except.bind] at hs
    obtain rfl := Except.ok.inj hs
    refine ⟨fun v hv a => ⟨floatVertProbs_near N S hv a, ((floatVertProbs_bounds O S hv).2 a).ge⟩, fun c hc a b => ?_, fun v hv r hr a => ?_⟩
    · obtain ⟨edges, hsort⟩ := h.sorted
      have hnd : (model.tree.treeGrid.map Prod.fst).Nodup := by
        rw [hsort]
        exact makeTree_nodup edges
      obtain ⟨hv1, hv2⟩ : c.2.1 < model.tree.numVertices ∧ c.2.2 < model.tree.numVertices := h.isTree.range c.2 (List.mem_map.2 ⟨c, hc, rfl⟩)
      show Near _ (floatEdgeTrans A model.tree.treeGrid (floatVertProbs A model.vertSS) (floatEdgeProbs A model.edgeSS) c.1 a b) _
      rw [(floatEdgeTrans_eq (A := A) (floatVertProbs A model.vertSS) _ (floatEdgeProbs A model.edgeSS) hnd).1 c hc]
      have h1 := floatEdgeProbs_bounds O S hc a b
      have h2 := h1.div R ((floatVertProbs_bounds O S hv1).2 a) (by norm_num) (by norm_num)
      have h3 := h2.div R ((floatVertProbs_bounds O S hv2).2 b) (by norm_num) (by norm_num)
      have n1 := Near.div R (floatEdgeProbs_near N S hc a b) (floatVertProbs_near N S hv1 a) (h2.ge.weaken (by norm_num))
      have n2 := Near.div R n1 (floatVertProbs_near N S hv2 b) (h3.ge.weaken (by norm_num))
      rw [div_div] at n2
      exact n2.mono (by omega)
    · show Near _ (floatFeatCond A model.raggedIndex model.tree.numVertices model.featSS r a) _
      rw [(floatFeatCond_eq h _ (le_refl _)).1 v hv r hr]
      exact (floatFeat_near N S hv hr a).mono (by have := hW v hv; omega)

end

/-! ### numpy -/

theorem seqSum_near_fold {rnd : ℚ → ℚ} (R : MonoRounding 24 (-149) rnd) (l : List ℚ) (hl : ∀ x ∈ l, 2 ^ (-126 : Int) ≤ x) (k : Nat) (s q : ℚ) (hs : 0 ≤ s) (h1 : q ≤ s * ulp ^ k) (h2 : s ≤ q * ulp ^ k)
    (hq : 0 ≤ q) : ∃ d, (l.map some).foldl (Flt.add rnd) (some q) = some d ∧ d ≤ (s + l.sum) * ulp ^ (k + l.length) ∧ s + l.sum ≤ d * ulp ^ (k + l.length) := by
  induction l generalizing k s q with
  | nil => exact ⟨q, rfl, by simpa using h1, by simpa using h2⟩
  | cons x l ih =>
    have hx := hl x List.mem_cons_self
    have hx0 := two_zpow_pos (-126)
    have hp := ulp_pow_ge k
    have hu := ulp_pos
    obtain ⟨f1, f2⟩ := R.factor (by norm_num) (x := q + x) (by norm_num at hx ⊢; linarith)
    have hx1 : x ≤ x * ulp ^ k := le_mul_of_one_le_right (by linarith) hp
    have hr : 0 ≤ rnd (q + x) := R.nonneg (by linarith)
    obtain ⟨d, h3, h4, h5⟩ := ih (fun y hy => hl y (List.mem_cons_of_mem _ hy)) (k + 1) (s + x) (rnd (q + x)) (by linarith)
      (by
        calc rnd (q + x) ≤ (q + x) * ulp := f1
          _ ≤ ((s + x) * ulp ^ k) * ulp := mul_le_mul_of_nonneg_right (by linarith) hu.le
          _ = _ := by rw [pow_succ]; ring)
      (by
        calc s + x ≤ (q + x) * ulp ^ k := by linarith
          _ ≤ (rnd (q + x) * ulp) * ulp ^ k := mul_le_mul_of_nonneg_right f2 (by positivity)
          _ = _ := by rw [pow_succ]; ring) hr
    refine ⟨d, h3, ?_, ?_⟩
    · rw [List.sum_cons, List.length_cons, ← add_assoc, show k + (l.length + 1) = k + 1 + l.length by omega]
      exact h4
    · rw [List.sum_cons, List.length_cons, ← add_assoc, show k + (l.length + 1) = k + 1 + l.length by omega]
      exact h5

/-- Summation from left to right is accurate. -/
theorem seqSum_near {rnd : ℚ → ℚ} (R : MonoRounding 24 (-149) rnd) : Spec.SumNear (seqSum rnd) := by
  intro l _ h
  obtain ⟨d, h1, h2, h3⟩ := seqSum_near_fold R l (fun x hx => (h x hx).2) 0 0 0 (le_refl _) (by simp) (by simp) (le_refl _)
  exact ⟨d, h1, by simpa using h2, by simpa using h3⟩

/-- The inner product from left to right is accurate. -/
theorem seqDot_near {M : Nat} (hM : M ≤ 2 ^ 24) {rnd : ℚ → ℚ} (R : MonoRounding 24 (-149) rnd) : Spec.DotNear (M := M) (seqDot rnd) := by
  intro x y hx hy hxy
  have e : seqDot rnd (fun b => some (x b)) (fun b => some (y b)) = seqSum rnd (((List.finRange M).map fun b => rnd (x b * y b)).map some) := by
    unfold seqDot seqSum
    rw [List.map_map, List.foldl_map]
    rfl
  have hr : ∀ b, (2 : ℚ) ^ (-126 : Int) ≤ rnd (x b * y b) := fun b => R.ge_of (isFloat_pow (by norm_num)) (hxy b)
  obtain ⟨d, h1, h2, h3⟩ := seqSum_near R ((List.finRange M).map fun b => rnd (x b * y b)) (by simpa using hM) (by
    intro z hz
    obtain ⟨b, -, rfl⟩ := List.mem_map.1 hz
    exact ⟨R.float _, hr b⟩)
  have hf := fun b => R.factor (by norm_num) (x := x b * y b) (by have := hxy b; norm_num at this ⊢; exact this)
  have es : ((List.finRange M).map fun b => rnd (x b * y b)).sum = ∑ b, rnd (x b * y b) := by rw [← List.ofFn_eq_map, List.sum_ofFn]
  rw [List.length_map, List.length_finRange, es] at h2 h3
  have s1 : ∑ b, rnd (x b * y b) ≤ (∑ b, x b * y b) * ulp := by
    rw [Finset.sum_mul]
    exact Finset.sum_le_sum fun b _ => (hf b).1
  have s2 : ∑ b, x b * y b ≤ (∑ b, rnd (x b * y b)) * ulp := by
    rw [Finset.sum_mul]
    exact Finset.sum_le_sum fun b _ => (hf b).2
  have hu := ulp_pos
  refine ⟨d, e.trans h1, ?_, ?_⟩
  · calc d ≤ _ := h2
      _ ≤ ((∑ b, x b * y b) * ulp) * ulp ^ M := mul_le_mul_of_nonneg_right s1 (by positivity)
      _ = _ := by rw [pow_succ]; ring
  · calc ∑ b, x b * y b ≤ _ := s2
      _ ≤ (d * ulp ^ M) * ulp := mul_le_mul_of_nonneg_right h3 hu.le
      _ = _ := by rw [pow_succ]; ring

/-- The arithmetic of numpy satisfies the assumptions, with a logarithm that is accurate to `2 ^ -16`. -/
theorem numpyServe_near {M : Nat} (hM : M ≤ 2 ^ 24) : Spec.ServeOpsNear (numpyServe M floorLog) (2 ^ (-16 : Int)) where
  ok := numpyServe_ok hM
  sum := seqSum_near float32_mono
  dot := seqDot_near hM float32_mono
  log := by
    intro q l hq hq0 hq1 hl
    have h1 : 2 ^ (-149 : Int) ≤ q := hq.ge hq0
    have hb := floorLog_bounds h1 hq1
    have hfl : IsFloat 24 (-149) (floorLog q) := by
      have := isFloat_of_le (p := 24) (emin := -149) (by norm_num) (show (-149 : Int) ≤ -16 by norm_num) (m := ⌊Real.log q * 2 ^ 16⌋) (by
        unfold floorLog at hb
        rw [abs_div, div_le_iff₀ (by norm_num)] at hb
        have h2 : |(⌊Real.log q * 2 ^ 16⌋ : ℚ)| ≤ 2 ^ 24 := by
          refine le_trans hb ?_
          norm_num
        exact_mod_cast h2)
      unfold floorLog
      rw [div_eq_mul_inv]
      norm_num at this ⊢
      exact this
    have e : (numpyServe M floorLog).log (some q) = some (float32 (floorLog q)) := if_pos hq0
    rw [e, float32_mono.id hfl] at hl
    obtain rfl := Option.some.inj hl
    unfold floorLog
    have f1 := Int.floor_le (Real.log q * 2 ^ 16)
    have f2 := Int.lt_floor_add_one (Real.log q * 2 ^ 16)
    generalize ⌊Real.log q * 2 ^ 16⌋ = z at f1 f2
    push_cast
    rw [abs_le]
    norm_num at f1 f2 ⊢
    constructor <;> linarith

end TreeCat
