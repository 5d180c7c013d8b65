import Verif.Props.FloatTrainServe
import Verif.Props.QuickStart

/-!
# C85: training an ensemble, then `logprob` in float32

The members of an ensemble that `train_ensemble` trains on a table with few rows meet the hypotheses of C82.
-/

namespace TreeCat

open Util Spec Config

section
variable {M : Nat} [NeZero M] {A : ServeOps M} {ε : ℝ}

theorem floatEnsemble_exists {models : List (Model ℝ M)} (h : ∀ m ∈ models, Model.Valid m) : ∃ servers, floatEnsemble A models = .ok servers := by
  induction models with
  | nil => exact ⟨[], rfl⟩
  | cons m models ih =>
    obtain ⟨srv, e1⟩ := floatServer_exists (A := A) (h m (by simp))
    obtain ⟨rest, e2⟩ := ih fun m' hm' => h m' (by simp [hm'])
    exact ⟨srv :: rest, by simp only [floatEnsemble, List.mapM_cons, e1, bind, Except.bind] at e2 ⊢; rw [e2]; rfl⟩

/-- **C85** for ensembles: whatever training draws and however it is scheduled, `train_ensemble` on a table with few rows returns an ensemble whose float32 server gives the
logarithm of the mean of the members' exact probabilities of a row, up to the stated error. -/
theorem trainEnsemble_floatLogprob {exp : Flt → Flt} {η ηc : ℝ} (N : Spec.ServeOpsNear A ε) (hsum : Spec.SumClose A.sum) (hexp : Spec.ExpNear exp η)
    {num : Num ℝ} {mst : List (List ℝ) → List Edge} (hmst : MstContract mst)
    {junk : Nat → Nat} {run : TrainerKind → Table → List ℝ → Config → Py (Model ℝ M)} (hrun : Draws num mst junk run)
    (t : Table) (ht : Table.Ordered t) (hm : ∀ ty ∈ t.featureTypes, ty = tyMultinomial) (hV : 1 ≤ t.numCols) (hV' : t.numCols ≤ 32768) (prior : List ℝ)
    (hp : prior.length = t.numCols * (t.numCols - 1) / 2) {size : Int} (hn : 1 ≤ size) (hn' : size ≤ 2 ^ 20) (hη : size * η ≤ 1 / 4) {cfg : Config} {tc : TrainConfig}
    (htr : Trainable M size cfg tc) (threads : Nat) (schedule : List Nat) (pool : Util.PoolState) (hpool : Util.PoolOk threads pool)
    (hsch : Util.IsSchedule size.toNat (Util.chunkSize size.toNat (pool.getD threads)) schedule) (heap : Heap) (a : Nat) (ha : heap[a]? = some cfg)
    {n j c d W : Nat} (F : Spec.FewRows t M n j c d) (hd : t.numCols ≤ d + 1) (hW : ∀ v < t.numCols, t.stop v - t.beg v ≤ W)
    {logSize : ℚ} (hc : |(logSize : ℝ) - Real.log size| ≤ ηc) (hc1 : ηc ≤ 1) :
    ∃ heap' models servers, trainEnsemble run t prior threads schedule pool heap a = .ok (heap', .ok models) ∧ models.length = size.toNat ∧
      (∀ m ∈ models, Outcome num mst junk t prior tc (.ok m)) ∧ floatEnsemble A models = .ok servers ∧
      ∀ data : List Int, (∀ r, 0 ≤ data.getD r 0) → (∀ v < t.numCols, ∑ r ∈ Finset.Ico (t.beg v) (t.stop v), data.getD r 0 ≤ 1) → ∃ q, floatEnsembleLogprob A exp logSize servers data = some (some q) ∧
        |(q : ℝ) - Real.log ((models.map fun m => dataProb m fun r => data.getD r 0).sum / size)| ≤ Spec.ensembleError t.numCols M W size.toNat ε η ηc := by
  obtain ⟨heap', models, e, hl, hmem, hout⟩ := trainEnsemble_members hmst hrun t ht hm (fun n hn r => (F.categorical n hn).1 r) hV hV' prior hp hn htr
    threads schedule pool hpool hsch heap a ha
  obtain ⟨servers, es⟩ := floatEnsemble_exists (A := A) hmem.valid
  refine ⟨heap', models, servers, e, hl, hout, es, fun data hd0 hd1 => ?_⟩
  have hrow : ∀ m ∈ models, Spec.SingleRow m data := by
    intro m hm'
    refine ⟨hd0, fun v hv => ?_⟩
    rw [hmem.size m hm'] at hv
    unfold columns
    rw [hmem.index m hm']
    exact hd1 v hv
  have hsz : (models.length : ℝ) = size := by
    rw [hl]
    exact_mod_cast Int.toNat_of_nonneg (by omega : 0 ≤ size)
  have hfew : ∀ m ∈ models, Model.Consistent m ∧ Spec.SmallCounts m ∧ Spec.FewServe m n j c d := by
    intro m hm'
    obtain ⟨s0, f0, r, s, ho, er⟩ := hout m hm'
    obtain ⟨s0', f0', -, hall⟩ := trainedModel_few num mst hmst junk t ht hm hV hV' htr.pos.2 prior hp tc htr.init htr.rate _ (le_refl _) F
    rw [f0] at f0'
    cases f0'
    obtain ⟨logits, rfl, h1, h2, h3, h4, h5⟩ := hall r s ho
    cases er
    refine ⟨h3, h4, h5 ?_⟩
    have := degree_le (tree := s.tree) h2.isTree
    rw [h1] at this
    exact fun v hv => le_trans (this v hv) (by omega)
  have := floatEnsembleLogprob_near_few (A := A) N hsum hexp (V := t.numCols) (W := W) (by omega) hmem.ne (by omega) (by rw [hsz]; exact hη)
    (fun m hm' => ⟨hmem.valid m hm', (hfew m hm').2.1, hmem.size m hm', fun v hv => by
      unfold columns
      rw [hmem.index m hm', Nat.card_Ico]
      exact hW v hv, hrow m hm'⟩) (fun m hm' => ⟨(hfew m hm').1, (hfew m hm').2.2⟩) es (logSize := logSize) (by rw [hsz]; exact hc) hc1
  rw [hsz, hl] at this
  exact this

end

/-- Two models with four clusters, trained on `fewTable` and served: the probability of its first row is right to three digits. -/
example : ∃ mst run heap' models servers q, MstContract mst ∧ Draws (⟨Real.exp, Real.log⟩ : Num ℝ) mst (fun _ => 0) run ∧
    trainEnsemble run fewTable [0, 0, 0] 1 [0, 1] none [((makeConfig quickOptions).toOption.getD [])] 0 = .ok (heap', .ok models) ∧
    floatEnsemble (numpyServe 4 floorLog) models = .ok servers ∧
    floatEnsembleLogprob (numpyServe 4 floorLog) (fun x => x.map coarseExp) (floorLog 2) servers [1, 0, 0, 1, 0, 0, 1] = some (some q) ∧
    |(q : ℝ) - Real.log ((models.map fun m => dataProb m fun r => ([1, 0, 0, 1, 0, 0, 1] : List Int).getD r 0).sum / 2)| ≤ 1 / 1000 := by
  obtain ⟨mst, hmst⟩ := exists_mst (K := ℝ)
  obtain ⟨run, hrun⟩ := exists_draws (M := 4) (⟨Real.exp, Real.log⟩ : Num ℝ) mst fun _ => 0
  obtain ⟨cfg, hcfg, htr⟩ := quickOptions_trainable
  have hlog := numpyLog_two
  obtain ⟨heap', models, servers, e1, e2, -, e3, e4⟩ := trainEnsemble_floatLogprob (numpyServe_near (by norm_num)) (seqSum_close float32_mono) coarseExp_near hmst hrun
    fewTable ⟨by decide, by decide⟩ (by decide) (by decide) (by decide) [0, 0, 0] (by decide) (size := 2) (by decide) (by decide) (by norm_num) htr 1 [0, 1] none
    ⟨by decide, by simp⟩ (by unfold Util.IsSchedule; decide) [cfg] 0 rfl (fewRows_hundred (d := 2) (by norm_num) fewTable_categorical (by decide) (by decide)) (by decide)
    (W := 3) (by decide) (logSize := floorLog 2) (by exact_mod_cast hlog) (by norm_num)
  obtain ⟨q, q1, q2⟩ := e4 [1, 0, 0, 1, 0, 0, 1] (by
    intro r
    by_cases h : r < 7
    · revert r; decide
    · rw [List.getD_eq_default _ _ (by simpa using h)]) (by decide)
  refine ⟨mst, run, heap', models, servers, q, hmst, hrun, by rw [hcfg]; exact e1, e3, q1, ?_⟩
  refine le_trans (by exact_mod_cast q2) ?_
  change Spec.ensembleError 3 4 3 2 _ _ _ ≤ _
  unfold Spec.ensembleError Spec.logprobError
  norm_num

end TreeCat
