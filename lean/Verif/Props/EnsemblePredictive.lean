import Verif.Props.TrainPredictive

/-!
# C106: the mean square error of a trained ensemble

The members of an ensemble are trained by independent runs. The probability of a row that the server of the ensemble reports is the
mean of those of its members; its mean square distance to the posterior mean probability is at most `1 / (4 size)`, up to a term
that vanishes with the full epochs.
-/

set_option linter.unusedSectionVars false

namespace TreeCat

open Spec Real

open scoped BigOperators

/-- The mean of the probability of a row under the posterior of assignments and trees; with `learning_estimate_tree`, `best` are the
trees estimated from the assignments. -/
noncomputable def Spec.posteriorMean {M : Nat} [NeZero M] (t : Table) (prior : List ℝ) (S : Finset (List Edge)) (cfg : TrainConfig) (best : Latent t M → List Edge)
    (row : List Int) : ℝ :=
  (∑ a, ∑ T ∈ S, posterior t prior a T * dataProb (modelOf t (logitsOf t prior a) a (lastTree cfg best a T)) fun r => row.getD r 0) /
    ∑ a : Latent t M, ∑ T ∈ S, posterior t prior a T

/-- `train_model(table, tree_prior, config)`, training.py:819-850, from the new trainer `s`: the model that
`TreeTrainer.train` returns, or its error. -/
noncomputable def trainMember {M : Nat} [NeZero M] (num : Num ℝ) (mst : List (List ℝ) → List Edge) (junk : Nat → Nat) (fuel : Nat) (t : Table) (prior : List ℝ)
    (cfg : TrainConfig) (s : Trainer ℝ M) : ExceptT PyErr (Expect ℝ) (Model ℝ M) :=
  ExceptT.mk do
    let r ← (train num mst junk fuel t prior cfg : TrainM ℝ M (Expect ℝ) (List ℝ)).run.run s
    pure (r.1.map (trainedModel t r.2))

/-- `train_ensemble(table, tree_prior, config)`, training.py:858-882. Every member has its own seed; simplification: the members
are independent. -/
noncomputable def trainMembers {M : Nat} [NeZero M] (num : Num ℝ) (mst : List (List ℝ) → List Edge) (junk : Nat → Nat) (fuel : Nat) (t : Table) (prior : List ℝ)
    (cfg : TrainConfig) (s : Trainer ℝ M) (size : Nat) : ExceptT PyErr (Expect ℝ) (List (Model ℝ M)) :=
  (List.replicate size ()).mapM fun _ => trainMember num mst junk fuel t prior cfg s

/-- The probability of the row that the server of an ensemble reports: `exp(EnsembleServer(ensemble).logprob([row])[0])`. -/
noncomputable def ensembleProb {M : Nat} [NeZero M] (mst : List (List ℝ) → List Edge) (row : List Int) (models : List (Model ℝ M)) : ℝ :=
  match Ensemble.init mst models >>= fun ens => ens.logprob realNum [row] with
  | .ok [lp] => exp lp
  | _ => 0

section
variable {α : Type}

/-- Expected values over independent draws. -/
def independent (E : (α → ℝ) → ℝ) : Nat → (List α → ℝ) → ℝ
  | 0, F => F []
  | n + 1, F => E fun a => independent E n fun l => F (a :: l)

theorem independent_avg {D : α → Prop} {E : (α → ℝ) → ℝ} (h : Avg D (fun _ => False) E) :
    ∀ n, Avg (fun l : List α => l.length = n ∧ ∀ a ∈ l, D a) (fun _ => False) (independent E n)
  | 0 => ((Avg.point ([] : List α)).mono_dom fun l hl => by subst hl; exact ⟨rfl, by simp⟩).mono_hit fun _ h => h.elim
  | n + 1 => by
    have ih := independent_avg h n
    refine (Avg.bind (D2 := fun l : List α => l.length = n + 1 ∧ ∀ a ∈ l, D a) (F := fun a k => independent E n fun l => k (a :: l)) h fun a ha =>
      (ih.map (a :: ·)).mono_dom ?_).mono_hit fun _ h => h.elim
    rintro _ ⟨l, ⟨hl, hD⟩, rfl⟩
    refine ⟨by simp [hl], fun b hb => ?_⟩
    rcases List.mem_cons.1 hb with rfl | hb
    · exact ha
    · exact hD b hb

/-- The first two moments of a sum of independent terms. -/
theorem independent_moments {D : α → Prop} {E : (α → ℝ) → ℝ} (h : Avg D (fun _ => False) E) (q : α → ℝ) :
    ∀ n : Nat, independent E n (fun l => (l.map q).sum) = n * E q ∧
      independent E n (fun l => (l.map q).sum ^ 2) = n * E (fun a => q a ^ 2) + n * (n - 1) * E q ^ 2
  | 0 => by simp [independent]
  | n + 1 => by
    obtain ⟨h1, h2⟩ := independent_moments h q n
    have A := independent_avg h n
    have e1 : ∀ a, independent E n (fun l => ((a :: l).map q).sum) = q a + n * E q := by
      intro a
      rw [← h1, ← A.const (q a), ← A.add]
      simp only [List.map_cons, List.sum_cons]
    have e2 : ∀ a, independent E n (fun l => ((a :: l).map q).sum ^ 2)
        = (q a ^ 2 + (n * E (fun a => q a ^ 2) + n * (n - 1) * E q ^ 2)) + (2 * n * E q) * q a := by
      intro a
      have : (fun l : List α => ((a :: l).map q).sum ^ 2) = fun l => (q a ^ 2 + (l.map q).sum ^ 2) + (2 * q a) * (l.map q).sum := by
        funext l
        simp only [List.map_cons, List.sum_cons]
        ring
      rw [this, A.lin, A.add, A.const, h1, h2]
      ring
    constructor
    · change E (fun a => independent E n fun l => ((a :: l).map q).sum) = _
      simp only [e1]
      rw [h.add, h.const]
      push_cast; ring
    · change E (fun a => independent E n fun l => ((a :: l).map q).sum ^ 2) = _
      simp only [e2]
      rw [h.lin, h.add, h.const]
      push_cast; ring

/-- The mean square distance of a mean of independent values in `[0, 1]` to a number near their expected value. -/
theorem independent_mse {D : α → Prop} {E : (α → ℝ) → ℝ} (h : Avg D (fun _ => False) E) {p : α → ℝ} (hp : ∀ a, D a → 0 ≤ p a ∧ p a ≤ 1)
    {c δ : ℝ} (hc : |E p - c| ≤ δ) {n : Nat} (hn : 1 ≤ n) :
    independent E n (fun l => ((l.map p).sum / l.length - c) ^ 2) ≤ 1 / (4 * n) + δ ^ 2 := by
  have hn0 : (0 : ℝ) < n := by exact_mod_cast hn
  have A := independent_avg h n
  have e : independent E n (fun l => ((l.map p).sum / l.length - c) ^ 2) = independent E n fun l => 0 + (1 / (n : ℝ) ^ 2) * (l.map fun a => p a - c).sum ^ 2 := by
    refine A.congr _ _ fun l hl => ?_
    have : (l.map fun a => p a - c).sum = (l.map p).sum - n * c := by
      rw [← hl.1]
      clear hl
      induction l with
      | nil => simp
      | cons a l ih =>
        simp only [List.map_cons, List.sum_cons, List.length_cons, ih]
        push_cast; ring
    rw [this, hl.1]
    field_simp
    ring
  rw [e, A.lin, A.const, (independent_moments h (fun a => p a - c) n).2]
  have m1 : E (fun a => p a - c) = E p - c := by
    have := h.lin p (fun _ => c) (-1)
    rw [h.const] at this
    simpa [sub_eq_add_neg] using this
  have m2 : E (fun a => (p a - c) ^ 2) = E (fun a => p a ^ 2) + (-2 * c) * E p + c ^ 2 := by
    rw [← h.const (c ^ 2), ← h.lin, ← h.add]
    congr 1
    funext a
    ring
  have m3 : E (fun a => p a ^ 2) ≤ E p := by
    have := h.pos (fun a => p a + (-1) * p a ^ 2) fun a ha => by nlinarith [hp a ha]
    rw [h.lin] at this
    linarith
  rw [m1, m2]
  set x := E p with hx
  set y := E (fun a => p a ^ 2) with hy
  have hv : y - x ^ 2 ≤ 1 / 4 := by nlinarith [sq_nonneg (x - 1 / 2)]
  have hd : (x - c) ^ 2 ≤ δ ^ 2 := sq_le_sq' (by linarith [(abs_le.1 hc).1]) (abs_le.1 hc).2
  have : 0 + 1 / (n : ℝ) ^ 2 * ((n : ℝ) * (y + -2 * c * x + c ^ 2) + n * (n - 1) * (x - c) ^ 2) = (y - x ^ 2) / n + (x - c) ^ 2 := by
    field_simp
    ring
  rw [this]
  have h4 : (y - x ^ 2) / n ≤ 1 / 4 / n := div_le_div_of_nonneg_right hv hn0.le
  have h5 : (1 : ℝ) / 4 / n = 1 / (4 * n) := by field_simp
  linarith

end

section
variable {M : Nat} [NeZero M] {t : Table} {num : Num ℝ} {prior : List ℝ}

/-- The runs of training as an average over models. -/
theorem trainMember_avg (hn : ∀ x, 0 < x → num.gammaln x = log (Gamma x)) (hexp : num.exp = exp)
    (ht : Table.Ordered t) (hm : ∀ ty ∈ t.featureTypes, ty = tyMultinomial) (hc : Table.Counts t)
    (hV : 1 ≤ t.numCols) (hV' : t.numCols ≤ 32768) (hM : M ≤ 128)
    (hp : prior.length = t.numCols * (t.numCols - 1) / 2) (junk : Nat → Nat) {mst : List (List ℝ) → List Edge} (hmst : MstContract mst) {cfg : TrainConfig}
    (i1 : 1 ≤ cfg.initEpochs) (i2 : 1 ≤ cfg.sampleTreeRate) {fuel : Nat} (hf : (2 * cfg.initEpochs.toNat + 1) * t.numRows ≤ fuel) {s : Trainer ℝ M}
    (hs : Trainer.init t prior.length = .ok s) :
    Avg (fun m => ∃ u, Full t u ∧ m = trainedModel t u (logitsOf t prior (latent t u))) (fun _ => False) fun G =>
      (trainMember num mst junk fuel t prior cfg s).run (onOk G) := by
  classical
  obtain ⟨best, hbest⟩ := exists_best (M := M) (t := t) (prior := prior) hmst hV
  have htree : ∀ a, Canonical (best a) ∧ IsTree t.numCols (best a) := by
    intro a
    obtain ⟨T, e1, e2, e3, -⟩ := estimateTree_max mst hmst t.numCols hV _ (makeCompleteGraph_eq _) fun u v => logitOf t prior a u v
    have e : Except.ok (best a) = (.ok T : Py (List Edge)) := (hbest a).symm.trans e1
    cases e
    exact ⟨e2, e3⟩
  obtain ⟨s0, g1, g2, g3⟩ := good_init (K := ℝ) (M := M) hV hV' hM hp
  obtain rfl : s = s0 := by rw [hs] at g1; exact Except.ok.inj g1
  let F : (Model ℝ M → ℝ) → Except PyErr (List ℝ) × Trainer ℝ M → ℝ := fun G r => onOk G (r.1.map (trainedModel t r.2))
  have hF0 : ∀ G e u, F G (.error e, u) = 0 := fun _ _ _ => rfl
  let last : TrainM ℝ M (Expect ℝ) (List ℝ) := do
    let s ← get
    liftPy (pyAssert (s.added.card == t.numRows))
    let (edges, logits) ← trainerEstimateTree num mst t prior
    if cfg.estimateTree then setEdges edges
    pure logits
  have hlast : ∀ u : Trainer ℝ M, RowsAt t (Finset.range t.numRows) u →
      ∃ u', Full t u' ∧ ∀ G, last.run.run u (F G) = G (trainedModel t u' (logitsOf t prior (latent t u'))) := by
    intro u hu
    have hfull : Full t u := ⟨hu.1, hu.2⟩
    have hlog := hfull.logits hn hp
    have hest : Runs (trainerEstimateTree num mst t prior : TrainM ℝ M (Expect ℝ) _) u (best (latent t u), logitsOf t prior (latent t u)) u :=
      Runs.bind Runs.get (Runs.bind (Runs.liftPy (makeCompleteGraph_eq _)) (Runs.bind (Runs.liftPy hlog) (Runs.bind (Runs.liftPy (hbest _)) (Runs.pure _))))
    by_cases hb : cfg.estimateTree = true
    · obtain ⟨_, s', ⟨g1, a1, as1, t1⟩, h3⟩ := (Det.setEdges (best (latent t u)) u).of_tot (Tot.setEdges hu.1 (htree _).2)
      have hl : latent t s' = latent t u := by unfold latent; rw [as1]
      refine ⟨s', ⟨g1, a1.trans hu.2⟩, fun G => ?_⟩
      simp only [last]
      rw [Runs.get.bind_run, (Runs.liftPy (a := ()) (by rw [hu.2]; simp [pyAssert])).bind_run, hest.bind_run]
      simp only [hb, if_true]
      refine (h3 _).trans ?_
      rw [hl]
      rfl
    · refine ⟨u, hfull, fun G => ?_⟩
      simp only [last]
      rw [Runs.get.bind_run, (Runs.liftPy (a := ()) (by rw [hu.2]; simp [pyAssert])).bind_run, hest.bind_run]
      simp only [hb]
      rfl
  have hlastAvg : ∀ u : Trainer ℝ M, RowsAt t (Finset.range t.numRows) u →
      Avg (fun m => ∃ u, Full t u ∧ m = trainedModel t u (logitsOf t prior (latent t u))) (fun _ => False) fun G => last.run.run u (F G) := by
    intro u hu
    obtain ⟨u', h1, h2⟩ := hlast u hu
    have e : (fun G => last.run.run u (F G)) = fun G : Model ℝ M → ℝ => G (trainedModel t u' (logitsOf t prior (latent t u'))) := funext h2
    rw [e]
    exact ((Avg.point _).mono_dom fun m hm => ⟨u', h1, hm⟩).mono_hit fun _ h => h.elim
  have havg := actions_avg (M := M) hexp ht hm hc hp junk
  have hsched := fun rows hrows => annealingSchedule_spec rows t.numRows cfg.initEpochs.toNat (cfg.initEpochs : ℝ)
      (cfg.sampleTreeRate : ℝ) (by exact_mod_cast i1) (by exact_mod_cast i2)
      (by have : cfg.initEpochs ≤ (cfg.initEpochs.toNat : Int) := Int.self_le_toNat _
          exact_mod_cast this) hrows fuel hf
  have hrun : (fun G : Model ℝ M → ℝ => (trainMember num mst junk fuel t prior cfg s).run (onOk G))
      = fun G => ((List.range t.numRows).permutations.map fun rows => (match annealingSchedule fuel rows t.numRows (cfg.initEpochs : ℝ) (cfg.sampleTreeRate : ℝ) with
        | .ok acts => fun G => (acts.forM (runAction num junk t prior) : TrainM ℝ M (Expect ℝ) Unit).run.run s (okState fun u =>
            ((epochsActions t.numRows cfg.fullEpochs.toNat).forM (runAction num junk t prior) : TrainM ℝ M (Expect ℝ) Unit).run.run u (okState fun u' => last.run.run u' (F G)))
        | .error _ => fun _ => 0 : (Model ℝ M → ℝ) → ℝ) G).sum / (t.numRows.factorial : ℝ) := by
    funext G
    change (train num mst junk fuel t prior cfg : TrainM ℝ M (Expect ℝ) (List ℝ)).run.run s (F G) = _
    unfold train
    rw [Runs.get.bind_run, (Runs.liftPy (a := ()) (by rw [g3]; rfl)).bind_run]
    refine (exactRand_bind_run _ _ _ _).trans ?_
    refine (perm_avg t.numRows).congr _ _ fun rows hrows => ?_
    obtain ⟨acts, a1, a2, -⟩ := hsched rows hrows
    show (liftPy (annealingSchedule fuel rows t.numRows (cfg.initEpochs : ℝ) (cfg.sampleTreeRate : ℝ)) >>= _ : TrainM ℝ M (Expect ℝ) (List ℝ)).run.run s (F G) = _
    rw [(Runs.liftPy a1).bind_run, a1]
    refine exactBind_congr _ _ (fun _ _ => hF0 _ _ _) (havg _ _ _ a2 s ⟨g2, g3⟩) fun u hu => ?_
    rw [Runs.get.bind_run, (Runs.liftPy (a := ()) (by rw [hu.2]; simp [pyAssert])).bind_run]
    rw [replicate_actions (fullScan_actions (M := M) (m := Expect ℝ) num junk t prior) _]
    exact exactBind_congr _ _ (fun _ _ => hF0 _ _ _) (epochs_avg hexp ht hm hc hp junk _ u hu) fun _ _ => rfl
  rw [hrun]
  refine (Avg.bind (D2 := fun m => ∃ u, Full t u ∧ m = trainedModel t u (logitsOf t prior (latent t u))) (H2 := fun _ _ => False)
    (F := fun rows => (match annealingSchedule fuel rows t.numRows (cfg.initEpochs : ℝ) (cfg.sampleTreeRate : ℝ) with
        | .ok acts => fun G => (acts.forM (runAction num junk t prior) : TrainM ℝ M (Expect ℝ) Unit).run.run s (okState fun u =>
            ((epochsActions t.numRows cfg.fullEpochs.toNat).forM (runAction num junk t prior) : TrainM ℝ M (Expect ℝ) Unit).run.run u (okState fun u' => last.run.run u' (F G)))
        | .error _ => fun _ => 0 : (Model ℝ M → ℝ) → ℝ)) (perm_avg t.numRows) fun rows hrows => ?_).mono_hit fun _ h => h.elim
  obtain ⟨acts, a1, a2, -⟩ := hsched rows hrows
  simp only [a1]
  refine (Avg.bind (H2 := fun _ _ => False) (F := fun u G => ((epochsActions t.numRows cfg.fullEpochs.toNat).forM (runAction num junk t prior) : TrainM ℝ M (Expect ℝ) Unit).run.run u
    (okState fun u' => last.run.run u' (F G))) (havg _ _ _ a2 s ⟨g2, g3⟩) fun u hu => ?_).mono_hit (H' := fun _ => False) fun _ h => h.elim
  exact (Avg.bind (H2 := fun _ _ => False) (F := fun u' G => last.run.run u' (F G)) (epochs_avg hexp ht hm hc hp junk _ u hu) hlastAvg).mono_hit (H' := fun _ => False) fun _ h => h.elim

/-- The members are independent. -/
theorem trainMembers_run (mst : List (List ℝ) → List Edge) (junk : Nat → Nat) (fuel : Nat) (cfg : TrainConfig) (s : Trainer ℝ M) :
    ∀ (size : Nat) (G : List (Model ℝ M) → ℝ), (trainMembers num mst junk fuel t prior cfg s size).run (onOk G)
      = independent (fun G => (trainMember num mst junk fuel t prior cfg s).run (onOk G)) size G
  | 0, G => rfl
  | n + 1, G => by
    unfold trainMembers
    rw [List.replicate_succ, List.mapM_cons]
    refine congrArg (show (Except PyErr (Model ℝ M) → ℝ) → ℝ from (trainMember num mst junk fuel t prior cfg s).run) (funext fun r => ?_)
    cases r with
    | error e => rfl
    | ok m =>
      refine Eq.trans ?_ (trainMembers_run mst junk fuel cfg s n fun l => G (m :: l))
      refine congrArg (show (Except PyErr (List (Model ℝ M)) → ℝ) → ℝ from (trainMembers num mst junk fuel t prior cfg s n).run) (funext fun r => ?_)
      cases r <;> rfl

/-- What the server of an ensemble of trained models reports. -/
theorem ensembleProb_eq (ht : Table.Ordered t) (hc : Table.Counts t) {mst : List (List ℝ) → List Edge} (hmst : MstContract mst) {row : List Int}
    (hrow : row.length = t.raggedIndex.getLastD 0) {models : List (Model ℝ M)} (hne : models ≠ [])
    (hD : ∀ m ∈ models, ∃ u, Full t u ∧ m = trainedModel t u (logitsOf t prior (latent t u))) :
    ensembleProb mst row models = (models.map fun m => dataProb m fun r => row.getD r 0).sum / models.length := by
  have hlen : ∀ a : Latent t M, (logitsOf t prior a).length = t.numCols * (t.numCols - 1) / 2 := by
    intro a
    unfold logitsOf
    rw [List.length_map, completeGrid_length, tri]
  have E : Members models t.numCols t.raggedIndex :=
    ⟨hne, fun m hm => by obtain ⟨u, hu, rfl⟩ := hD m hm; exact (trainedModel_eq ht hc hu (hlen _)).1,
      fun m hm => by obtain ⟨u, hu, rfl⟩ := hD m hm; exact hu.numVertices, fun m hm => by obtain ⟨u, hu, rfl⟩ := hD m hm; rfl⟩
  obtain ⟨ens, h1, h2, -⟩ := ensemble_init hmst E
  obtain ⟨lps, h3, h4⟩ := ensemble_logprob E (ens := ens) (h2.imp fun _ _ h => h.1) [row] (by simpa using hrow)
  obtain ⟨lp, rfl⟩ : ∃ lp, lps = [lp] := by
    have := congrArg List.length h4
    exact List.length_eq_one_iff.1 (by simpa using this)
  simp only [ensembleProb, h1, bind, Except.bind, h3]
  simpa [meanOf] using h4

/-- **C106.** No run of training an ensemble fails. The probability of a row that the server of the ensemble reports has, over all
runs, an expected value within `ρ ^ n` of its posterior mean and a mean square distance to the posterior mean of at most
`1 / (4 * size) + (ρ ^ n) ^ 2`, for `n` full epochs. -/
theorem ensemble_predictive (hn : ∀ x, 0 < x → num.gammaln x = log (Gamma x)) (hexp : num.exp = exp)
    (ht : Table.Ordered t) (hm : ∀ ty ∈ t.featureTypes, ty = tyMultinomial) (hc : Table.Counts t)
    (hV : 1 ≤ t.numCols) (hV' : t.numCols ≤ 32768) (hM : M ≤ 128)
    (hp : prior.length = t.numCols * (t.numCols - 1) / 2) (S : Finset (List Edge))
    (hS : ∀ T, T ∈ S ↔ Canonical T ∧ IsTree t.numCols T) (junk : Nat → Nat) :
    ∃ ρ : ℝ, 0 ≤ ρ ∧ ρ < 1 ∧ ∀ {mst : List (List ℝ) → List Edge}, MstContract mst → ∀ {cfg : TrainConfig}, 1 ≤ cfg.initEpochs → 1 ≤ cfg.sampleTreeRate →
      ∀ {fuel : Nat}, (2 * cfg.initEpochs.toNat + 1) * t.numRows ≤ fuel → ∀ {s : Trainer ℝ M}, Trainer.init t prior.length = .ok s →
      ∀ {best : Latent t M → List Edge}, (∀ a, estimateTree mst (completeGrid t.numCols) (logitsOf t prior a) = .ok (best a)) →
      ∀ {row : List Int}, row.length = t.raggedIndex.getLastD 0 → (∀ x ∈ row, 0 ≤ x) → ∀ {size : Nat}, 1 ≤ size →
      (trainMembers num mst junk fuel t prior cfg s size).run (onOk fun _ => 1) = 1 ∧
      |(trainMembers num mst junk fuel t prior cfg s size).run (onOk (ensembleProb mst row)) - posteriorMean t prior S cfg best row|
        ≤ ρ ^ cfg.fullEpochs.toNat ∧
      (trainMembers num mst junk fuel t prior cfg s size).run (onOk fun models => (ensembleProb mst row models - posteriorMean t prior S cfg best row) ^ 2)
        ≤ 1 / (4 * size) + (ρ ^ cfg.fullEpochs.toNat) ^ 2 := by
  obtain ⟨ρ, h0, h1, h⟩ := train_converges_of (num := num) (M := M) hn hexp ht hm hc hV hV' hM prior hp S hS junk
  refine ⟨ρ, h0, h1, fun {mst} hmst {cfg} i1 i2 {fuel} hf {s} hs {best} hbest {row} hrow hpos {size} hsize => ?_⟩
  have hnn : ∀ r, 0 ≤ row.getD r 0 := by
    intro r
    rw [List.getD_eq_getElem?_getD]
    cases hr : row[r]? with
    | none => simp
    | some x => exact hpos x (List.mem_of_getElem? hr)
  have hlen : ∀ a : Latent t M, (logitsOf t prior a).length = t.numCols * (t.numCols - 1) / 2 := by
    intro a
    unfold logitsOf
    rw [List.length_map, completeGrid_length, tri]
  have hprob : ∀ u : Trainer ℝ M, Full t u → dataProb (trainedModel t u (logitsOf t prior (latent t u))) (fun r => row.getD r 0)
      = dataProb (modelOf t (logitsOf t prior (latent t u)) (latent t u) u.tree.getEdges) fun r => row.getD r 0 := fun u hu =>
    dataProb_renamed (trainedModel_eq ht hc hu (hlen _)).2 (modelOf_valid ht hc (hlen _) hu.toGood.canonical hu.isTree) _
  have A := trainMember_avg (num := num) (M := M) hn hexp ht hm hc hV hV' hM hp junk hmst i1 i2 hf hs
  have hnear : |(trainMember num mst junk fuel t prior cfg s).run (onOk fun m => dataProb m fun r => row.getD r 0) - posteriorMean t prior S cfg best row|
      ≤ ρ ^ cfg.fullEpochs.toNat := by
    have := h hmst i1 i2 hf hs hbest (fun logits a T => dataProb (modelOf t logits a T) fun r => row.getD r 0) 0 1 (fun a T hT =>
      dataProb_unit (modelOf_valid ht hc (hlen a) ((hS T).1 hT).1 ((hS T).1 hT).2) modelOf_consistent hnn)
      (fun r => onOk (fun m => dataProb m fun r => row.getD r 0) (r.1.map (trainedModel t r.2))) (fun u hu => hprob u hu) fun _ _ => rfl
    rw [sub_zero, mul_one] at this
    exact this
  have hunit : ∀ m : Model ℝ M, (∃ u, Full t u ∧ m = trainedModel t u (logitsOf t prior (latent t u))) →
      0 ≤ dataProb m (fun r => row.getD r 0) ∧ dataProb m (fun r => row.getD r 0) ≤ 1 := by
    rintro _ ⟨u, hu, rfl⟩
    rw [hprob u hu]
    exact dataProb_unit (modelOf_valid ht hc (hlen _) hu.toGood.canonical hu.isTree) modelOf_consistent hnn
  have B := independent_avg A size
  have hens : ∀ l : List (Model ℝ M), (l.length = size ∧ ∀ m ∈ l, ∃ u, Full t u ∧ m = trainedModel t u (logitsOf t prior (latent t u))) →
      ensembleProb mst row l = (l.map fun m => dataProb m fun r => row.getD r 0).sum / l.length := fun l hl =>
    ensembleProb_eq ht hc hmst hrow (by rintro rfl; simp at hl; omega) hl.2
  have hs0 : (0 : ℝ) < size := by exact_mod_cast hsize
  refine ⟨?_, ?_, ?_⟩
  · rw [trainMembers_run]
    exact B.one
  · rw [trainMembers_run, B.congr _ (fun l => 0 + (1 / (size : ℝ)) * (l.map fun m => dataProb m fun r => row.getD r 0).sum) fun l hl => by
      rw [hens l hl, hl.1]; ring, B.lin, B.const, (independent_moments A _ size).1]
    have e : 0 + 1 / (size : ℝ) * (size * (trainMember num mst junk fuel t prior cfg s).run (onOk fun m => dataProb m fun r => row.getD r 0))
        = (trainMember num mst junk fuel t prior cfg s).run (onOk fun m => dataProb m fun r => row.getD r 0) := by field_simp; ring
    rw [e]
    exact hnear
  · rw [trainMembers_run, B.congr _ (fun l => ((l.map fun m => dataProb m fun r => row.getD r 0).sum / l.length - posteriorMean t prior S cfg best row) ^ 2) fun l hl => by
      rw [hens l hl]]
    exact independent_mse A hunit hnear hsize

/-- **C106**, probabilities of large errors (Chebyshev's inequality): the probability reported by the server of the ensemble misses
the posterior mean by `ε` or more with a probability of at most `(1 / (4 * size) + (ρ ^ n) ^ 2) / ε ^ 2`. -/
theorem ensemble_misses (hn : ∀ x, 0 < x → num.gammaln x = log (Gamma x)) (hexp : num.exp = exp)
    (ht : Table.Ordered t) (hm : ∀ ty ∈ t.featureTypes, ty = tyMultinomial) (hc : Table.Counts t)
    (hV : 1 ≤ t.numCols) (hV' : t.numCols ≤ 32768) (hM : M ≤ 128)
    (hp : prior.length = t.numCols * (t.numCols - 1) / 2) (S : Finset (List Edge))
    (hS : ∀ T, T ∈ S ↔ Canonical T ∧ IsTree t.numCols T) (junk : Nat → Nat) :
    ∃ ρ : ℝ, 0 ≤ ρ ∧ ρ < 1 ∧ ∀ {mst : List (List ℝ) → List Edge}, MstContract mst → ∀ {cfg : TrainConfig}, 1 ≤ cfg.initEpochs → 1 ≤ cfg.sampleTreeRate →
      ∀ {fuel : Nat}, (2 * cfg.initEpochs.toNat + 1) * t.numRows ≤ fuel → ∀ {s : Trainer ℝ M}, Trainer.init t prior.length = .ok s →
      ∀ {best : Latent t M → List Edge}, (∀ a, estimateTree mst (completeGrid t.numCols) (logitsOf t prior a) = .ok (best a)) →
      ∀ {row : List Int}, row.length = t.raggedIndex.getLastD 0 → (∀ x ∈ row, 0 ≤ x) → ∀ {size : Nat}, 1 ≤ size → ∀ {ε : ℝ}, 0 < ε →
      (trainMembers num mst junk fuel t prior cfg s size).run (onOk fun models =>
        open Classical in if ε ≤ |ensembleProb mst row models - posteriorMean t prior S cfg best row| then 1 else 0)
        ≤ (1 / (4 * size) + (ρ ^ cfg.fullEpochs.toNat) ^ 2) / ε ^ 2 := by
  classical
  obtain ⟨ρ, h0, h1, h⟩ := ensemble_predictive (num := num) (M := M) hn hexp ht hm hc hV hV' hM hp S hS junk
  refine ⟨ρ, h0, h1, fun {mst} hmst {cfg} i1 i2 {fuel} hf {s} hs {best} hbest {row} hrow hpos {size} hsize {ε} hε => ?_⟩
  have hmse := (h hmst i1 i2 hf hs hbest hrow hpos hsize).2.2
  have B := independent_avg (trainMember_avg (num := num) (M := M) hn hexp ht hm hc hV hV' hM hp junk hmst i1 i2 hf hs) size
  rw [trainMembers_run] at hmse ⊢
  have hε2 : 0 < ε ^ 2 := by positivity
  have hle := B.pos (fun l => (ensembleProb mst row l - posteriorMean t prior S cfg best row) ^ 2
      + (-(ε ^ 2)) * if ε ≤ |ensembleProb mst row l - posteriorMean t prior S cfg best row| then 1 else 0) fun l _ => by
    split_ifs with hx
    · have := pow_le_pow_left₀ hε.le hx 2
      rw [sq_abs] at this
      linarith
    · rw [mul_zero, add_zero]
      exact sq_nonneg _
  rw [B.lin] at hle
  rw [le_div_iff₀ hε2]
  linarith

/-- **C106**, consistency: with enough full epochs and enough members, the probability reported for any row is within `ε` of its
posterior mean, except with a probability of at most `ε`. How many are enough depends on table, prior, number of clusters and `ε` only. -/
theorem ensemble_consistent (hn : ∀ x, 0 < x → num.gammaln x = log (Gamma x)) (hexp : num.exp = exp)
    (ht : Table.Ordered t) (hm : ∀ ty ∈ t.featureTypes, ty = tyMultinomial) (hc : Table.Counts t)
    (hV : 1 ≤ t.numCols) (hV' : t.numCols ≤ 32768) (hM : M ≤ 128)
    (hp : prior.length = t.numCols * (t.numCols - 1) / 2) (S : Finset (List Edge))
    (hS : ∀ T, T ∈ S ↔ Canonical T ∧ IsTree t.numCols T) (junk : Nat → Nat) {ε : ℝ} (hε : 0 < ε) :
    ∃ epochs members : Nat, ∀ {mst : List (List ℝ) → List Edge}, MstContract mst → ∀ {cfg : TrainConfig}, 1 ≤ cfg.initEpochs → 1 ≤ cfg.sampleTreeRate →
      ∀ {fuel : Nat}, (2 * cfg.initEpochs.toNat + 1) * t.numRows ≤ fuel → ∀ {s : Trainer ℝ M}, Trainer.init t prior.length = .ok s →
      ∀ {best : Latent t M → List Edge}, (∀ a, estimateTree mst (completeGrid t.numCols) (logitsOf t prior a) = .ok (best a)) →
      ∀ {row : List Int}, row.length = t.raggedIndex.getLastD 0 → (∀ x ∈ row, 0 ≤ x) → (epochs : Int) ≤ cfg.fullEpochs → ∀ {size : Nat}, members ≤ size →
      (trainMembers num mst junk fuel t prior cfg s size).run (onOk fun models =>
        open Classical in if ε ≤ |ensembleProb mst row models - posteriorMean t prior S cfg best row| then 1 else 0) ≤ ε := by
  obtain ⟨ρ, h0, h1, h⟩ := ensemble_misses (num := num) (M := M) hn hexp ht hm hc hV hV' hM hp S hS junk
  have hε3 : 0 < ε ^ 3 := by positivity
  obtain ⟨n0, hn0⟩ := exists_pow_lt_of_lt_one (half_pos hε3) h1
  obtain ⟨s0, hs0⟩ := exists_nat_gt (1 / ε ^ 3)
  refine ⟨n0, s0 + 1, fun {mst} hmst {cfg} i1 i2 {fuel} hf {s} hs {best} hbest {row} hrow hpos hep {size} hsize => ?_⟩
  refine (h hmst i1 i2 hf hs hbest hrow hpos (by omega) hε).trans ?_
  rw [div_le_iff₀ (by positivity)]
  have e1 : ρ ^ cfg.fullEpochs.toNat ≤ ρ ^ n0 := pow_le_pow_of_le_one h0 h1.le (by omega)
  have e2 : ρ ^ cfg.fullEpochs.toNat ≤ 1 := pow_le_one₀ h0 h1.le
  have e3 : 0 ≤ ρ ^ cfg.fullEpochs.toNat := pow_nonneg h0 _
  have e4 : (ρ ^ cfg.fullEpochs.toNat) ^ 2 ≤ ε ^ 3 / 2 := by nlinarith
  have e5 : (s0 : ℝ) + 1 ≤ size := by exact_mod_cast hsize
  have hpos' : (0 : ℝ) < size := by linarith [(Nat.cast_nonneg s0 : (0 : ℝ) ≤ s0)]
  have e6 : 1 / (4 * (size : ℝ)) ≤ ε ^ 3 / 4 := by
    rw [div_le_iff₀ (by positivity)]
    have : 1 ≤ ε ^ 3 * size := by
      have := (div_lt_iff₀ hε3).1 hs0
      nlinarith
    linarith
  calc 1 / (4 * (size : ℝ)) + (ρ ^ cfg.fullEpochs.toNat) ^ 2 ≤ ε ^ 3 := by linarith
    _ = ε * ε ^ 2 := by ring

end

/-- The hypotheses are met by `exTable` with two clusters and ensembles of any size. -/
example (num : Num ℝ) (hn : ∀ x, 0 < x → num.gammaln x = log (Gamma x)) (hexp : num.exp = exp) (junk : Nat → Nat) :
    ∃ (mst : List (List ℝ) → List Edge) (best : Latent exTable 2 → List Edge) (S : Finset (List Edge)) (s : Trainer ℝ 2) (ρ : ℝ),
      Trainer.init exTable 3 = .ok s ∧ ρ < 1 ∧ ∀ n size : Nat,
      (trainMembers num mst junk 100 exTable [0, 0, 0] ⟨3, n, 2, true⟩ s (size + 1)).run (onOk fun models =>
        (ensembleProb mst [0, 1, 1, 0, 0, 2] models - posteriorMean exTable [0, 0, 0] S ⟨3, n, 2, true⟩ best [0, 1, 1, 0, 0, 2]) ^ 2)
        ≤ 1 / (4 * (size + 1 : Nat)) + (ρ ^ n) ^ 2 := by
  have hm : ∀ ty ∈ exTable.featureTypes, ty = tyMultinomial := by decide
  obtain ⟨mst, hmst⟩ := exists_mst (K := ℝ)
  obtain ⟨S, hS⟩ := exists_trees exTable.numCols
  obtain ⟨s, hs, -, -⟩ := good_init (K := ℝ) (M := 2) (t := exTable) (by decide) (by decide) (by decide) rfl
  obtain ⟨best, hbest⟩ := exists_best (M := 2) (t := exTable) (prior := [0, 0, 0]) hmst (by decide)
  obtain ⟨ρ, r0, r1, h⟩ := ensemble_predictive (M := 2) hn hexp exTable_ordered hm exTable_counts (by decide) (by decide) (by decide)
    (prior := [0, 0, 0]) rfl S hS junk
  refine ⟨mst, best, S, s, ρ, hs, r1, fun n size => ?_⟩
  exact (h hmst (cfg := ⟨3, n, 2, true⟩) (show (1 : Int) ≤ 3 by decide) (show (1 : Int) ≤ 2 by decide) (show 14 ≤ 100 by decide) hs hbest
    (row := [0, 1, 1, 0, 0, 2]) (by decide) (by decide) (Nat.succ_le_succ (Nat.zero_le size))).2.2

/-- With 1000 members, errors of `1 / 10` or more have a probability of at most `1 / 40` plus a term that vanishes with the full epochs. -/
example (num : Num ℝ) (hn : ∀ x, 0 < x → num.gammaln x = log (Gamma x)) (hexp : num.exp = exp) (junk : Nat → Nat) :
    ∃ (mst : List (List ℝ) → List Edge) (best : Latent exTable 2 → List Edge) (S : Finset (List Edge)) (s : Trainer ℝ 2) (ρ : ℝ),
      Trainer.init exTable 3 = .ok s ∧ ρ < 1 ∧ ∀ n : Nat,
      (trainMembers num mst junk 100 exTable [0, 0, 0] ⟨3, n, 2, false⟩ s 1000).run (onOk fun models => open Classical in
        if 1 / 10 ≤ |ensembleProb mst [0, 1, 1, 0, 0, 2] models - posteriorMean exTable [0, 0, 0] S ⟨3, n, 2, false⟩ best [0, 1, 1, 0, 0, 2]| then 1 else 0)
        ≤ 1 / 40 + 100 * (ρ ^ n) ^ 2 := by
  have hm : ∀ ty ∈ exTable.featureTypes, ty = tyMultinomial := by decide
  obtain ⟨mst, hmst⟩ := exists_mst (K := ℝ)
  obtain ⟨S, hS⟩ := exists_trees exTable.numCols
  obtain ⟨s, hs, -, -⟩ := good_init (K := ℝ) (M := 2) (t := exTable) (by decide) (by decide) (by decide) rfl
  obtain ⟨best, hbest⟩ := exists_best (M := 2) (t := exTable) (prior := [0, 0, 0]) hmst (by decide)
  obtain ⟨ρ, r0, r1, h⟩ := ensemble_misses (M := 2) hn hexp exTable_ordered hm exTable_counts (by decide) (by decide) (by decide)
    (prior := [0, 0, 0]) rfl S hS junk
  refine ⟨mst, best, S, s, ρ, hs, r1, fun n => ?_⟩
  refine (h hmst (cfg := ⟨3, n, 2, false⟩) (show (1 : Int) ≤ 3 by decide) (show (1 : Int) ≤ 2 by decide) (show 14 ≤ 100 by decide) hs hbest
    (row := [0, 1, 1, 0, 0, 2]) (by decide) (by decide) (size := 1000) (by decide) (ε := 1 / 10) (by norm_num)).trans (le_of_eq ?_)
  change (1 / (4 * ((1000 : ℕ) : ℝ)) + (ρ ^ n) ^ 2) / (1 / 10) ^ 2 = _
  push_cast
  ring

/-- Errors of `1 / 100` or more become unlikely. -/
example (num : Num ℝ) (hn : ∀ x, 0 < x → num.gammaln x = log (Gamma x)) (hexp : num.exp = exp) (junk : Nat → Nat) :
    ∃ (mst : List (List ℝ) → List Edge) (best : Latent exTable 2 → List Edge) (S : Finset (List Edge)) (s : Trainer ℝ 2) (epochs members : Nat),
      Trainer.init exTable 3 = .ok s ∧
      (trainMembers num mst junk 100 exTable [0, 0, 0] ⟨3, epochs, 2, true⟩ s members).run (onOk fun models => open Classical in
        if 1 / 100 ≤ |ensembleProb mst [0, 1, 1, 0, 0, 2] models - posteriorMean exTable [0, 0, 0] S ⟨3, epochs, 2, true⟩ best [0, 1, 1, 0, 0, 2]| then 1 else 0)
        ≤ 1 / 100 := by
  have hm : ∀ ty ∈ exTable.featureTypes, ty = tyMultinomial := by decide
  obtain ⟨mst, hmst⟩ := exists_mst (K := ℝ)
  obtain ⟨S, hS⟩ := exists_trees exTable.numCols
  obtain ⟨s, hs, -, -⟩ := good_init (K := ℝ) (M := 2) (t := exTable) (by decide) (by decide) (by decide) rfl
  obtain ⟨best, hbest⟩ := exists_best (M := 2) (t := exTable) (prior := [0, 0, 0]) hmst (by decide)
  obtain ⟨epochs, members, h⟩ := ensemble_consistent (M := 2) hn hexp exTable_ordered hm exTable_counts (by decide) (by decide) (by decide)
    (prior := [0, 0, 0]) rfl S hS junk (ε := 1 / 100) (by norm_num)
  exact ⟨mst, best, S, s, epochs, members, hs, h hmst (cfg := ⟨3, epochs, 2, true⟩) (show (1 : Int) ≤ 3 by decide) (show (1 : Int) ≤ 2 by decide)
    (show 14 ≤ 100 by decide) hs hbest (row := [0, 1, 1, 0, 0, 2]) (by decide) (by decide) le_rfl le_rfl⟩

end TreeCat
