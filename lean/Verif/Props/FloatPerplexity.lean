import Verif.Props.FloatInfoNan

/-!
# C84: the perplexities in float32
-/

namespace TreeCat
open Util Spec

variable {M : Nat} [NeZero M] {A : ServeOps M} {model : Model ℝ M} {ε : ℝ}

/-- What is assumed of `np.exp` on float32: a relative error of at most `ηe`. -/
def Spec.ExpRel (ηe : ℝ) (exp : Flt → Flt) : Prop :=
  ∀ q : ℚ, IsFloat 24 (-149) q → |q| ≤ 16 → ∃ e : ℚ, exp (some q) = some e ∧ |(e : ℝ) - Real.exp q| ≤ ηe * Real.exp q

/-- The exponential of a number that is near an entropy. -/
theorem exp_entropy_near {exp : Flt → Flt} {ηe δ H : ℝ} (X : Spec.ExpRel ηe exp) (hηe : ηe ≤ 1 / 4) (hδ : δ ≤ 1 / 4) {q : ℚ} (hq : IsFloat 24 (-149) q) (hH0 : 0 ≤ H) (hH : H ≤ 15) (h : |(q : ℝ) - H| ≤ δ) :
    ∃ e : ℚ, exp (some q) = some e ∧ |(e : ℝ) - Real.exp H| ≤ (2 * δ + 2 * ηe) * Real.exp H := by
  have hq16 : |q| ≤ 16 := by
    have : |(q : ℝ)| ≤ ((16 : ℚ) : ℝ) := by
      rw [abs_le] at h ⊢
      push_cast
      constructor <;> linarith [h.1, h.2]
    exact_mod_cast this
  obtain ⟨e, e1, e2⟩ := X q hq hq16
  refine ⟨e, e1, ?_⟩
  have hδ0 : 0 ≤ δ := le_trans (abs_nonneg _) h
  have hx := Real.exp_pos (q : ℝ)
  have hX := Real.exp_pos H
  have hηe0 : 0 ≤ ηe := by
    by_contra hc
    have : ηe * Real.exp q < 0 := by nlinarith
    linarith [abs_nonneg ((e : ℝ) - Real.exp q)]
  -- exp q / exp H is in [1 - δ, 1 + 4/3 δ]
  have h1 : Real.exp q = Real.exp (q - H) * Real.exp H := by rw [← Real.exp_add, sub_add_cancel]
  rw [abs_le] at h
  have hlow : 1 - δ ≤ Real.exp (q - H) := by linarith [Real.add_one_le_exp ((q : ℝ) - H)]
  have hhigh : Real.exp (q - H) ≤ 1 + 3 / 2 * δ := by
    have h2 : Real.exp (q - H) ≤ Real.exp δ := Real.exp_le_exp.2 h.2
    have h3 : (1 - δ) * Real.exp δ ≤ 1 := by
      have h4 := Real.add_one_le_exp (-δ)
      have h5 : Real.exp (-δ) * Real.exp δ = 1 := by rw [← Real.exp_add]; simp
      nlinarith [Real.exp_pos δ]
    have h6 : Real.exp δ ≤ 1 + 3 / 2 * δ := by nlinarith [Real.exp_pos δ]
    linarith
  set t := Real.exp (q - H) with ht
  have ht0 : 0 < t := Real.exp_pos _
  rw [h1] at e2
  have e3 : |(e : ℝ) - Real.exp H| ≤ ηe * (t * Real.exp H) + |t - 1| * Real.exp H := by
    have e4 : (e : ℝ) - Real.exp H = (e - t * Real.exp H) + (t - 1) * Real.exp H := by ring
    rw [e4]
    refine le_trans (abs_add_le _ _) (add_le_add e2 ?_)
    rw [abs_mul, abs_of_pos hX]
  have e5 : |t - 1| ≤ 3 / 2 * δ := abs_le.2 ⟨by linarith, by linarith⟩
  have e6 : ηe * t ≤ ηe * (1 + 3 / 2 * δ) := mul_le_mul_of_nonneg_left hhigh hηe0
  have e7 : ηe * δ ≤ 1 / 4 * δ := mul_le_mul_of_nonneg_right hηe hδ0
  have e8 : ηe * t + |t - 1| ≤ 2 * δ + 2 * ηe := by nlinarith
  calc |(e : ℝ) - Real.exp H| ≤ (ηe * t + |t - 1|) * Real.exp H := by linarith
    _ ≤ _ := mul_le_mul_of_nonneg_right e8 hX.le

/-- **C84, latent**. `latent_perplexity` is a number for every vertex, near the exponential of the entropy of the vertex distribution. -/
theorem floatLatentPerplexity_near (N : Spec.ServeOpsNear A ε) (h : Model.Valid model) (S : Spec.SmallCounts model) {srv : FloatServer M} (hs : FloatServer.init A model = .ok srv)
    {u η ηe : ℝ} {E : EntropyOps} (O : Spec.EntropyOk 24 (-149) u η E) (hu0 : 0 ≤ u) (hu : M * u ≤ 1 / 64) (hη0 : 0 ≤ η) (hη : η ≤ 1) {exp : Flt → Flt} (X : Spec.ExpRel ηe exp) (hηe : ηe ≤ 1 / 4)
    (hsmall : Spec.entropyError 24 M u η ((M + 5) * 2 ^ (-23 : Int)) ≤ 1 / 4) :
    ∃ p : Nat → ℚ, srv.latentPerplexity E exp model.tree.numVertices = (List.range model.tree.numVertices).map (fun v => some (p v)) ∧
      ∀ v < model.tree.numVertices, |(p v : ℝ) - Real.exp (shannon Finset.univ (vertMean model v))| ≤
        (2 * Spec.entropyError 24 M u η ((M + 5) * 2 ^ (-23 : Int)) + 2 * ηe) * Real.exp (shannon Finset.univ (vertMean model v)) := by
  have hM := S.clusters
  have B := floatServer_near N h S (W := 256) S.width hs
  have key : ∀ v, ∃ p : ℚ, v < model.tree.numVertices → exp (floatEntropy E ((List.finRange M).map (srv.vert v))) = some p ∧ |(p : ℝ) - Real.exp (shannon Finset.univ (vertMean model v))| ≤
        (2 * Spec.entropyError 24 M u η ((M + 5) * 2 ^ (-23 : Int)) + 2 * ηe) * Real.exp (shannon Finset.univ (vertMean model v)) := by
    intro v
    by_cases hv : v < model.tree.numVertices
    · have hval : ∀ a, srv.vert v a = some ((srv.vert v a).getD 0) ∧ IsFloat 24 (-149) ((srv.vert v a).getD 0) ∧ 2 ^ (-100 : Int) ≤ (srv.vert v a).getD 0 := by
        intro a
        obtain ⟨q, q1, q2, -⟩ := (B.vert v hv a).1
        obtain ⟨q', q3, q4⟩ := (B.vert v hv a).2
        rw [q1] at q3 ⊢
        obtain rfl := Option.some.inj q3
        exact ⟨rfl, q2, le_trans (zpow_mono (by norm_num)) q4⟩
      obtain ⟨d, d1, d2, d3⟩ := floatEntropy_near O (le_refl _) (by norm_num) (finRange_ne_nil (M := M)) (by rw [List.length_finRange]; omega) hu0 (by rw [List.length_finRange]; exact hu) hη0 hη
        (f := fun a => (srv.vert v a).getD 0) (fun a _ => ⟨(hval a).2.1, .inr (hval a).2.2⟩) (κ := ((M + 5 : Nat) : ℝ) * 2 ^ (-23 : Int)) (by positivity) (by
          have : ((M + 5 : Nat) : ℝ) ≤ 133 := by exact_mod_cast (by omega : M + 5 ≤ 133)
          norm_num at *
          linarith) (g := vertMean model v) (fun a _ => (B.vert v hv a).1.rel) (by rw [list_finRange_sum, vertMean_sum h hv])
      rw [List.length_finRange, list_finRange_sum fun a => Real.negMulLog (vertMean model v a)] at d3
      push_cast at d3
      obtain ⟨r0, r1⟩ := perplexity_range Finset.univ (vertMean model v) (fun a _ => (vertMean_pos h hv a).le) (vertMean_sum h hv)
      have hlog := log_le_clusters hM
      have hH : shannon Finset.univ (vertMean model v) ≤ Real.log M := by
        rw [Finset.card_univ, Fintype.card_fin] at r1
        rw [← Real.log_exp (shannon _ _)]
        exact Real.log_le_log (Real.exp_pos _) r1
      obtain ⟨e, e1, e2⟩ := exp_entropy_near X hηe hsmall d2 (Real.one_le_exp_iff.1 r0) (by linarith) d3
      refine ⟨e, fun _ => ⟨?_, e2⟩⟩
      rw [← e1, ← d1]
      congr 2
      exact List.map_congr_left fun a _ => (hval a).1
    · exact ⟨0, fun h => absurd h hv⟩
  choose p hp using key
  refine ⟨p, ?_, fun v hv => (hp v hv).2⟩
  unfold FloatServer.latentPerplexity
  exact List.map_congr_left fun v hv => (hp v (List.mem_range.1 hv)).1

/-- **C84, observed**. `observed_perplexity` is a number for every vertex, near the exponential of the entropy of one observation of the feature. -/
theorem floatObservedPerplexity_near (N : Spec.ServeOpsNear A ε) (h : Model.Valid model) (hc : Model.Consistent model) (S : Spec.SmallCounts model)
    (hne : ∀ v < model.tree.numVertices, (columns model v).Nonempty) {W : Nat} (hW : ∀ v < model.tree.numVertices, (columns model v).card ≤ W) (hW256 : W ≤ 256) {srv : FloatServer M} (hs : FloatServer.init A model = .ok srv)
    {u η ηe : ℝ} {E : EntropyOps} (O : Spec.EntropyOk 24 (-149) u η E) (hu0 : 0 ≤ u) (hu : W * u ≤ 1 / 64) (hη0 : 0 ≤ η) (hη : η ≤ 1) {exp : Flt → Flt} (X : Spec.ExpRel ηe exp) (hηe : ηe ≤ 1 / 4)
    (hsmall : Spec.entropyError 24 W u η ((W + 2 * M + 13) * 2 ^ (-23 : Int)) ≤ 1 / 4) :
    ∃ p : Nat → ℚ, srv.observedPerplexity A E exp model.tree.numVertices = (List.range model.tree.numVertices).map (fun v => some (p v)) ∧
      ∀ v < model.tree.numVertices, |(p v : ℝ) - Real.exp (shannon (columns model v) (predictive model fun _ => 0))| ≤
        (2 * Spec.entropyError 24 W u η ((W + 2 * M + 13) * 2 ^ (-23 : Int)) + 2 * ηe) * Real.exp (shannon (columns model v) (predictive model fun _ => 0)) := by
  have hM := S.clusters
  have B := floatServer_near N h S hW hs
  obtain ⟨C, -, hrag⟩ := floatServer_bounds N.ok h S hs
  have hWR : (W : ℝ) ≤ 256 := by exact_mod_cast hW256
  have hMR : (M : ℝ) ≤ 128 := by exact_mod_cast hM
  have key : ∀ v, ∃ p : ℚ, v < model.tree.numVertices → exp (floatEntropy E ((srv.block v).map fun r => A.dot (srv.cond r) (srv.vert v))) = some p ∧
      |(p : ℝ) - Real.exp (shannon (columns model v) (predictive model fun _ => 0))| ≤
        (2 * Spec.entropyError 24 W u η ((W + 2 * M + 13) * 2 ^ (-23 : Int)) + 2 * ηe) * Real.exp (shannon (columns model v) (predictive model fun _ => 0)) := by
    intro v
    by_cases hv : v < model.tree.numVertices
    · have hb : srv.block v = columnList model v := by
        unfold FloatServer.block
        rw [hrag]
        rfl
      have hnear : ∀ r ∈ columnList model v, Near (W + 7 + (M + 5) + (M + 1)) (A.dot (srv.cond r) (srv.vert v)) (predictive model (fun _ => 0) r) := by
        intro r hr
        rw [predictive_empty h hc hv (mem_columnList.1 hr)]
        exact Near.dot N.ok.ops.dot N.dot (i := -40) (j := -32) (fun a => B.cond v hv r (mem_columnList.1 hr) a) (fun a => (B.vert v hv a).1) (by norm_num)
          (fun a => (C.cond v hv r (hb ▸ hr) a).ge) fun a => (B.vert v hv a).2
      have hκ : ((W + 7 + (M + 5) + (M + 1) : Nat) : ℝ) * 2 ^ (-23 : Int) ≤ 1 / 16 := by
        push_cast
        norm_num
        linarith
      have hlow : ∀ r ∈ columnList model v, (2 : ℝ) ^ (-74 : Int) ≤ predictive model (fun _ => 0) r := by
        intro r hr
        rw [predictive_empty h hc hv (mem_columnList.1 hr)]
        have h0 := Finset.single_le_sum (f := fun a => featMean model v r a * vertMean model v a) (fun a _ => mul_nonneg (featMean_pos h hv (mem_columnList.1 hr) a).le (vertMean_pos h hv a).le)
          (Finset.mem_univ (0 : Fin M))
        refine le_trans ?_ h0
        have h1 := near_bounds (B.cond v hv r (mem_columnList.1 hr) 0) (by push_cast; norm_num; linarith) (C.cond v hv r (hb ▸ hr) 0).ge
        have h2 := near_bounds (B.vert v hv 0).1 (by push_cast; norm_num; linarith) (B.vert v hv 0).2
        have h3 := mul_le_mul h1 h2 (by positivity) (featMean_pos h hv (mem_columnList.1 hr) 0).le
        refine le_trans (le_of_eq ?_) h3
        norm_num
      have hval : ∀ r ∈ columnList model v, A.dot (srv.cond r) (srv.vert v) = some ((A.dot (srv.cond r) (srv.vert v)).getD 0) ∧ IsFloat 24 (-149) ((A.dot (srv.cond r) (srv.vert v)).getD 0) ∧
          2 ^ (-100 : Int) ≤ (A.dot (srv.cond r) (srv.vert v)).getD 0 := by
        intro r hr
        have hl := (hnear r hr).rel.symm.le_two (by linarith)
        obtain ⟨q, q1, q2, -⟩ := hnear r hr
        rw [q1] at hl ⊢
        refine ⟨rfl, q2, ?_⟩
        have h2 := hlow r hr
        have h3 : (2 : ℝ) ^ (-100 : Int) * 2 ≤ 2 ^ (-74 : Int) := by norm_num
        simp only [Option.getD_some] at hl ⊢
        have h4 : ((2 ^ (-100 : Int) : ℚ) : ℝ) ≤ q := by
          push_cast
          linarith
        exact_mod_cast h4
      have hcard : (columnList model v).length = (columns model v).card := by
        unfold columnList columns
        simp
      have hlen : (columnList model v).length ≤ W := hcard ▸ hW v hv
      have hlenR : ((columnList model v).length : ℝ) ≤ W := by exact_mod_cast hlen
      have hnil : columnList model v ≠ [] := by
        intro hn
        rw [hn] at hcard
        have := Finset.card_pos.2 (hne v hv)
        simp at hcard
        omega
      have hsum : ∀ g : Nat → ℝ, ((columnList model v).map g).sum = ∑ r ∈ columns model v, g r := fun g => sum_range'_real g _ _
      obtain ⟨d, d1, d2, d3⟩ := floatEntropy_near O (le_refl _) (by norm_num) hnil (by omega) hu0 (le_trans (mul_le_mul_of_nonneg_right hlenR hu0) hu) hη0 hη
        (f := fun r => (A.dot (srv.cond r) (srv.vert v)).getD 0) (fun r hr => ⟨(hval r hr).2.1, .inr (hval r hr).2.2⟩) (κ := ((W + 7 + (M + 5) + (M + 1) : Nat) : ℝ) * 2 ^ (-23 : Int)) (by positivity) hκ
        (g := predictive model fun _ => 0) (fun r hr => (hnear r hr).rel) (by rw [hsum, predictive_empty_sum h hc hv (hne v hv)])
      rw [hsum fun r => Real.negMulLog (predictive model (fun _ => 0) r)] at d3
      have herr : Spec.entropyError 24 (columnList model v).length u η (((W + 7 + (M + 5) + (M + 1) : Nat) : ℝ) * 2 ^ (-23 : Int)) ≤ Spec.entropyError 24 W u η ((W + 2 * M + 13) * 2 ^ (-23 : Int)) := by
        have e : ((W + 7 + (M + 5) + (M + 1) : Nat) : ℝ) = W + 2 * M + 13 := by push_cast; ring
        rw [e]
        unfold Spec.entropyError
        have hpos : (0 : ℝ) < (columnList model v).length := by
          have : 0 < (columnList model v).length := List.length_pos_iff.2 hnil
          exact_mod_cast this
        have hone : (1 : ℝ) ≤ (columnList model v).length := by
          have : 1 ≤ (columnList model v).length := List.length_pos_iff.2 hnil
          exact_mod_cast this
        have hl : Real.log (columnList model v).length ≤ Real.log W := Real.log_le_log hpos hlenR
        have hl0 : 0 ≤ Real.log (columnList model v).length := Real.log_nonneg hone
        gcongr
      obtain ⟨r0, r1⟩ := perplexity_range (columns model v) (predictive model fun _ => 0) (fun c hcv => predictive_empty_nonneg h hc hv hcv) (predictive_empty_sum h hc hv (hne v hv))
      have hH : shannon (columns model v) (predictive model fun _ => 0) ≤ 15 := by
        have h1 : Real.exp (shannon (columns model v) (predictive model fun _ => 0)) ≤ (2 : ℝ) ^ 8 := by
          refine le_trans r1 ?_
          have : ((columns model v).card : ℝ) ≤ W := by exact_mod_cast hW v hv
          norm_num
          linarith
        have h2 := Real.log_le_log (Real.exp_pos _) h1
        rw [Real.log_exp, Real.log_pow] at h2
        have := Real.log_two_lt_d9
        norm_num at h2
        linarith
      obtain ⟨e, e1, e2⟩ := exp_entropy_near X hηe hsmall d2 (Real.one_le_exp_iff.1 r0) hH (le_trans d3 herr)
      refine ⟨e, fun _ => ⟨?_, e2⟩⟩
      rw [← e1, ← d1, hb]
      congr 2
      exact List.map_congr_left fun r hr => (hval r hr).1
    · exact ⟨0, fun h => absurd h hv⟩
  choose p hp using key
  refine ⟨p, ?_, fun v hv => (hp v hv).2⟩
  unfold FloatServer.observedPerplexity
  exact List.map_congr_left fun v hv => (hp v (List.mem_range.1 hv)).1

omit [NeZero M] in
theorem entropyError_example {n W : Nat} (h1 : 1 ≤ n) (h3 : n ≤ 3) {k : ℝ} (hk : k = W * (2 : ℝ) ^ (-23 : Int)) (hW : W ≤ 20) :
    Spec.entropyError 24 n (2 * 2 ^ (1 - (24 : Nat) : Int)) (10 * 2 ^ (1 - (24 : Nat) : Int)) k ≤ 2 / 10000 := by
  unfold Spec.entropyError
  have hn1 : (1 : ℝ) ≤ n := by exact_mod_cast h1
  have hn3 : (n : ℝ) ≤ 3 := by exact_mod_cast h3
  have hlog : Real.log n ≤ 2 := by linarith [Real.log_le_sub_one_of_pos (show (0 : ℝ) < n by linarith)]
  have hlog0 : 0 ≤ Real.log n := Real.log_nonneg hn1
  have hW' : (W : ℝ) ≤ 20 := by exact_mod_cast hW
  have hW0 : (0 : ℝ) ≤ W := by positivity
  subst hk
  have e : (2 : ℝ) ^ (1 - (24 : Nat) : Int) = 2 ^ (-23 : Int) := by norm_num
  rw [e]
  have hw : (2 : ℝ) ^ (-23 : Int) ≤ 1 / 8000000 := by norm_num
  have hw0 : (0 : ℝ) ≤ 2 ^ (-23 : Int) := by positivity
  generalize (2 : ℝ) ^ (-23 : Int) = w at *
  have b1 : 2 * (n : ℝ) * (10 * w) ≤ 60 * w := by nlinarith
  have b2 : 8 * ((W : ℝ) * w) + 9 * n * (2 * w) + 4 * w ≤ 218 * w := by nlinarith
  have b3 : (8 * ((W : ℝ) * w) + 9 * n * (2 * w) + 4 * w) * (Real.log n + 1) ≤ 218 * w * 3 := mul_le_mul b2 (by linarith) (by linarith) (by positivity)
  linarith

/-- The hypotheses can be met: three features with up to three values and two clusters, for which both perplexities are correct up to one in a thousand. -/
example : ∃ log srv, FloatServer.init (numpyServe 2 floorLog) (exampleModel ℝ) = .ok srv ∧
    ∃ p q : Nat → ℚ, srv.latentPerplexity ⟨float32, seqSum float32, entrOf float32 log⟩ (Option.map nearExp) 3 = (List.range 3).map (fun v => some (p v)) ∧
      srv.observedPerplexity (numpyServe 2 floorLog) ⟨float32, seqSum float32, entrOf float32 log⟩ (Option.map nearExp) 3 = (List.range 3).map (fun v => some (q v)) ∧
      ∀ v < 3, |(p v : ℝ) - Real.exp (shannon Finset.univ (vertMean (exampleModel ℝ) v))| ≤ 1 / 1000 * Real.exp (shannon Finset.univ (vertMean (exampleModel ℝ) v)) ∧
        |(q v : ℝ) - Real.exp (shannon (columns (exampleModel ℝ) v) (predictive (exampleModel ℝ) fun _ => 0))| ≤
          1 / 1000 * Real.exp (shannon (columns (exampleModel ℝ) v) (predictive (exampleModel ℝ) fun _ => 0)) := by
  obtain ⟨log, H⟩ := exists_goodLog' float32
  have O := seqEntropy_ok float32_mono (by norm_num) (by norm_num) (by norm_num) H
  have X : Spec.ExpRel (3 / 2 ^ 53) (Option.map nearExp) := fun q _ hq => ⟨nearExp q, rfl, (nearExp_error (by linarith)).2.2⟩
  have hsrv : ((FloatServer.init (numpyServe 2 floorLog) (exampleModel ℝ)).toOption.map fun _ => true) = some true := by decide +kernel
  cases hs : FloatServer.init (numpyServe 2 floorLog) (exampleModel ℝ) with
  | error e => rw [hs] at hsrv; cases hsrv
  | ok srv =>
    have b1 := entropyError_example (n := 2) (W := 7) (by norm_num) (by norm_num) (k := (2 + 5) * 2 ^ (-23 : Int)) (by norm_num) (by norm_num)
    have b2 := entropyError_example (n := 3) (W := 20) (by norm_num) (by norm_num) (k := (3 + 2 * 2 + 13) * 2 ^ (-23 : Int)) (by norm_num) (by norm_num)
    have hw : ∀ v < 3, (columns (exampleModel ℝ) v).card ≤ 3 := by decide +kernel
    have hne : ∀ v < 3, (columns (exampleModel ℝ) v).Nonempty := by
      intro v hv
      interval_cases v <;> exact ⟨_, Finset.left_mem_Ico.2 (by decide)⟩
    obtain ⟨p, p1, p2⟩ := floatLatentPerplexity_near (numpyServe_near (M := 2) (by norm_num)) (exampleModel_valid ℝ) exampleReal_small hs O (by positivity) (by norm_num) (by positivity) (by norm_num) X (by norm_num)
      (le_trans b1 (by norm_num))
    obtain ⟨q, q1, q2⟩ := floatObservedPerplexity_near (numpyServe_near (M := 2) (by norm_num)) (exampleModel_valid ℝ) (exampleModel_consistent ℝ) exampleReal_small hne (W := 3) hw (by norm_num) hs O (by positivity) (by norm_num)
      (by positivity) (by norm_num) X (by norm_num) (le_trans b2 (by norm_num))
    refine ⟨log, srv, rfl, p, q, p1, q1, fun v hv => ⟨le_trans (p2 v hv) (mul_le_mul_of_nonneg_right ?_ (Real.exp_pos _).le), le_trans (q2 v hv) (mul_le_mul_of_nonneg_right ?_ (Real.exp_pos _).le)⟩⟩
    · push_cast
      linarith
    · push_cast
      linarith

end TreeCat
