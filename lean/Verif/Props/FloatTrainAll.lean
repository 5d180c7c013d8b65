import Verif.Props.FloatClear

/-!
# C81: all of `train` in float32

`floatTrain` shuffles the rows, carries out the annealing schedule, runs the full epochs and estimates a tree. The theorems say that it returns, that its tree is nearly optimal, that
the law of its assignments is near that of exact training, and how far it is from the posterior.
-/

namespace TreeCat

open Util Spec

/-! ### The schedule -/

/-- A state of the loop with rational numbers, read over the reals. -/
noncomputable def AnnealState.real (s : AnnealState ℚ) : AnnealState ℝ := ⟨s.added, s.removed, (s.state : ℝ), s.numAssigned, (s.nextBatch : ℝ)⟩

theorem annealMove_real (rows : List Nat) (e r : ℚ) (s : AnnealState ℚ) :
    annealMove rows (e : ℝ) (r : ℝ) s.real = (annealMove rows e r s).map fun p => (p.1, p.2.real) := by
  unfold annealMove
  by_cases h : 0 ≤ s.state
  · have h' : (0 : ℝ) ≤ s.real.state := by simpa [AnnealState.real] using h
    rw [if_pos h, if_pos h']
    show (cycleGet rows s.added >>= _) = Except.map _ (cycleGet rows s.added >>= _)
    cases cycleGet rows s.added with
    | error => rfl
    | ok x => simp [bind, Except.bind, Except.map, AnnealState.real]
  · have h' : ¬ (0 : ℝ) ≤ s.real.state := by simpa [AnnealState.real] using h
    rw [if_neg h, if_neg h']
    show (cycleGet rows s.removed >>= _) = Except.map _ (cycleGet rows s.removed >>= _)
    cases cycleGet rows s.removed with
    | error => rfl
    | ok x => simp [bind, Except.bind, Except.map, AnnealState.real]

theorem annealLoop_real (rows : List Nat) (N : Nat) (e r : ℚ) : ∀ (fuel : Nat) (s : AnnealState ℚ), annealLoop rows N (e : ℝ) (r : ℝ) fuel s.real = annealLoop rows N e r fuel s := by
  intro fuel
  induction fuel with
  | zero => exact fun s => rfl
  | succ fuel ih =>
    intro s
    unfold annealLoop
    rw [annealMove_real]
    by_cases h : s.numAssigned < N
    swap
    · rw [if_neg h, if_neg (show ¬ s.real.numAssigned < N from h)]
    rw [if_pos h, if_pos (show s.real.numAssigned < N from h)]
    cases annealMove rows e r s with
    | error => rfl
    | ok p =>
      obtain ⟨a, s'⟩ := p
      simp only [Except.map, bind, Except.bind]
      have h2 : (0 < s'.real.numAssigned ∧ s'.real.nextBatch ≤ 0) ↔ (0 < s'.numAssigned ∧ s'.nextBatch ≤ 0) := by simp [AnnealState.real]
      by_cases h3 : 0 < s'.numAssigned ∧ s'.nextBatch ≤ 0
      · rw [if_pos h3, if_pos (h2.2 h3), ← ih]
        simp [AnnealState.real]
      · rw [if_neg h3, if_neg fun h => h3 (h2.1 h), ih]

/-- Exact schedules do not depend on the field in which they are computed. -/
theorem annealingSchedule_real (fuel : Nat) (rows : List Nat) (N : Nat) (e r : ℚ) : annealingSchedule fuel rows N (e : ℝ) (r : ℝ) = annealingSchedule fuel rows N e r := by
  have h1 : ((1 : ℝ) ≤ e) ↔ 1 ≤ e := by exact_mod_cast Iff.rfl
  have h2 : ((1 : ℝ) ≤ r) ↔ 1 ≤ r := by exact_mod_cast Iff.rfl
  have h3 : (⟨0, 0, 2 * (e : ℝ), 0, 0⟩ : AnnealState ℝ) = AnnealState.real ⟨0, 0, 2 * e, 0, 0⟩ := by simp [AnnealState.real]
  unfold annealingSchedule
  simp only [h1, h2, h3, annealLoop_real]

/-- Between two trees a row is added, so there are at most as many trees as additions. -/
theorem count_trees {l : List Action} (h : ∀ A B C, .sampleTree :: l = A ++ .sampleTree :: (B ++ .sampleTree :: C) → .sampleTree ∉ B → 1 ≤ numAdds B) : l.count .sampleTree ≤ numAdds l := by
  induction hn : l.length using Nat.strong_induction_on generalizing l with
  | _ n ih =>
    by_cases hs : Action.sampleTree ∈ l
    swap
    · rw [List.count_eq_zero.2 hs]
      exact Nat.zero_le _
    obtain ⟨B, C, rfl, hB⟩ := List.eq_append_cons_of_mem hs
    have h1 := h [] B C rfl hB
    have h2 := ih C.length (by rw [← hn]; simp; omega) (l := C) (fun A' B' C' e h' => h (.sampleTree :: B ++ A') B' C' (by rw [List.cons_append, e]; simp) h') rfl
    rw [List.count_append, List.count_eq_zero.2 hB, List.count_cons_self, numAdds_append]
    have : numAdds (.sampleTree :: C) = numAdds C := by simp [numAdds]
    omega

theorem Legal.split {N : Nat} : ∀ {A B : List Action} {S T : Finset Nat}, Legal N S (A ++ B) T → ∃ S', Legal N S A S' ∧ Legal N S' B T := by
  intro A
  induction A with
  | nil => exact fun h => ⟨_, rfl, h⟩
  | cons a A ih =>
    intro B S T h
    cases a with
    | addRow r =>
      obtain ⟨S', h1, h2⟩ := ih h.2.2
      exact ⟨S', ⟨h.1, h.2.1, h1⟩, h2⟩
    | removeRow r =>
      obtain ⟨S', h1, h2⟩ := ih h.2
      exact ⟨S', ⟨h.1, h1⟩, h2⟩
    | sampleTree =>
      obtain ⟨S', h1, h2⟩ := ih h.2
      exact ⟨S', ⟨h.1, h1⟩, h2⟩

theorem Legal.join {N : Nat} : ∀ {A B : List Action} {S S' T : Finset Nat}, Legal N S A S' → Legal N S' B T → Legal N S (A ++ B) T := by
  intro A
  induction A with
  | nil => rintro B S S' T rfl h; exact h
  | cons a A ih =>
    intro B S S' T h h'
    cases a with
    | addRow r => exact ⟨h.1, h.2.1, ih h.2.2 h'⟩
    | removeRow r => exact ⟨h.1, ih h.2 h'⟩
    | sampleTree => exact ⟨h.1, ih h.2 h'⟩

theorem Legal.card {N : Nat} : ∀ {A : List Action} {S S' : Finset Nat}, Legal N S A S' → S.card + numAdds A = S'.card + numRemoves A := by
  intro A
  induction A with
  | nil => rintro S S' rfl; rfl
  | cons a A ih =>
    intro S S' h
    cases a with
    | addRow r =>
      have := ih h.2.2
      rw [Finset.card_insert_of_notMem h.2.1] at this
      simp [numAdds, numRemoves] at this ⊢
      omega
    | removeRow r =>
      have := ih h.2
      rw [Finset.card_erase_of_mem h.1] at this
      have h0 := Finset.card_pos.2 ⟨r, h.1⟩
      simp [numAdds, numRemoves] at this ⊢
      omega
    | sampleTree =>
      have := ih h.2
      simp [numAdds, numRemoves] at this ⊢
      omega

/-- The schedule in python floats, for whole numbers of epochs and whole rates. It adds at most `epochs * N` rows and samples at most as many trees. -/
theorem floatSchedule_bounds {rd : ℚ → ℚ} (D : MonoRounding 53 (-1074) rd) {N : Nat} (hN0 : 0 < N) (hN : N ≤ 2 ^ 52) {E r : Int} (h1 : 1 ≤ E) (hE : E ≤ 2 ^ 51) (h2 : 1 ≤ r) (hr : r ≤ 2 ^ 52)
    {fuel : Nat} (hf : (2 * E.toNat + 1) * N ≤ fuel) {rows : List Nat} (hp : rows.Perm (List.range N)) :
    ∃ acts, floatAnnealingSchedule rd fuel rows N (E : ℚ) (r : ℚ) = .ok acts ∧ annealingSchedule fuel rows N (E : ℝ) (r : ℝ) = .ok acts ∧ Legal N ∅ acts (Finset.range N) ∧
      (numAdds acts : ℤ) ≤ E * N ∧ acts.count .sampleTree ≤ numAdds acts := by
  obtain ⟨acts, a1, a2, a3, a4, a5, a6, -⟩ := annealingSchedule_spec rows N E.toNat (E : ℚ) (r : ℚ) (by exact_mod_cast h1) (by exact_mod_cast h2)
    (by have : E ≤ (E.toNat : Int) := Int.self_le_toNat _
        exact_mod_cast this) hp fuel hf
  refine ⟨acts, by rw [floatAnnealingSchedule_exact D hE hr hN hp, a1], ?_, a2, ?_, ?_⟩
  · have := annealingSchedule_real fuel rows N (E : ℚ) (r : ℚ)
    rw [a1, Rat.cast_intCast, Rat.cast_intCast] at this
    exact this
  · rcases a4 with h0 | ⟨-, h0⟩
    · rw [a3, h0]
      push_cast
      nlinarith
    · have h3 : ((numAdds acts : ℤ) : ℚ) < ((E * ((N : ℤ) - 2) + 1 : ℤ) : ℚ) := by push_cast; exact h0
      have h4 : (numAdds acts : ℤ) < E * ((N : ℤ) - 2) + 1 := by exact_mod_cast h3
      nlinarith
  · obtain ⟨r0, rest, rfl⟩ := a5 hN0
    have k := count_trees (l := rest) fun A B C e hB => by
      have e' : Action.addRow r0 :: .sampleTree :: rest = (.addRow r0 :: A) ++ .sampleTree :: (B ++ .sampleTree :: C) := by rw [e]; rfl
      obtain ⟨-, q⟩ := a6 (.addRow r0 :: A) B C e' hB
      rw [e'] at a2
      obtain ⟨S', q1, q2⟩ := Legal.split (A := .addRow r0 :: A) a2
      have q3 := Legal.card (A := .addRow r0 :: A) q1
      have q4 := Finset.card_pos.2 q2.1
      rw [Finset.card_empty] at q3
      have q5 : (numAdds (.addRow r0 :: A) : ℚ) = S'.card + numRemoves (.addRow r0 :: A) := by exact_mod_cast (by omega : numAdds (.addRow r0 :: A) = S'.card + numRemoves (.addRow r0 :: A))
      by_contra hB0
      rw [show numAdds B = 0 by omega] at q
      have q6 : (1 : ℚ) ≤ S'.card := by exact_mod_cast q4
      rw [q5] at q
      push_cast at q
      linarith
    have e1 : numAdds (.addRow r0 :: .sampleTree :: rest) = numAdds rest + 1 := by simp [numAdds]
    have e2 : (Action.addRow r0 :: .sampleTree :: rest).count .sampleTree = rest.count .sampleTree + 1 := by simp
    omega

/-! ### The parts of `train` -/

theorem perm_avg (N : Nat) : Avg (fun rows => rows.Perm (List.range N)) (fun _ => False) fun k : List Nat → ℝ => ((List.range N).permutations.map k).sum / (N.factorial : ℝ) :=
  ((Avg.list (List.range N).permutations N.factorial (by rw [List.length_permutations, List.length_range]) (List.ne_nil_of_mem (List.mem_permutations.2 (List.Perm.refl _)))).mono_dom
    fun _ h => List.mem_permutations.1 h).mono_hit fun _ h => h.elim

/-- The schedule of `train`. -/
def scheduleOf (rd : ℚ → ℚ) (fuel N : Nat) (cfg : TrainConfig) (rows : List Nat) : List Action :=
  match floatAnnealingSchedule rd fuel rows N (cfg.initEpochs : ℚ) (cfg.sampleTreeRate : ℚ) with
  | .ok acts => acts
  | .error _ => []

/-- All that `train` does to the rows and to the tree before the last estimate. -/
def trainActions (rd : ℚ → ℚ) (fuel N : Nat) (cfg : TrainConfig) (rows : List Nat) : List Action := scheduleOf rd fuel N cfg rows ++ epochsActions N cfg.fullEpochs.toNat

theorem numAdds_epochs (N n : Nat) : numAdds (epochsActions N n) = n * N := by
  induction n with
  | zero => simp [epochsActions, numAdds]
  | succ n ih => rw [epochsActions, numAdds_append, numAdds_epoch, ih]; ring

theorem count_epochs (N n : Nat) : (epochsActions N n).count .sampleTree = n := by
  induction n with
  | zero => rfl
  | succ n ih => rw [epochsActions, List.count_append, count_epoch, ih]; ring

section
variable {rs rp : ℚ → ℚ} {M : Nat} {Q : FloatTrainer M → Prop} {β : Type}

theorem floatBind_congr (x : FloatTrainM M (FloatExpect rs rp (2 ^ 53)) Unit) (y : Unit → FloatTrainM M (FloatExpect rs rp (2 ^ 53)) β) {s : FloatTrainer M} {F : Except PyErr β × FloatTrainer M → ℝ}
    (hF : ∀ e u, F (.error e, u) = 0) (hx : Avg Q (fun _ => False) fun F => x.run.run s (okState F)) {G : FloatTrainer M → ℝ} (hG : ∀ u, Q u → (y ()).run.run u F = G u) :
    (x >>= y).run.run s F = x.run.run s (okState G) := by
  rw [← hx.congr _ _ hG]
  refine congrArg (show (Except PyErr Unit × FloatTrainer M → ℝ) → ℝ from x.run.run s) (funext fun o => ?_)
  obtain ⟨r, s'⟩ := o
  cases r with
  | error e => exact hF e s'
  | ok _ => rfl

theorem exactBind_congr {Q : Trainer ℝ M → Prop} (x : TrainM ℝ M (Expect ℝ) Unit) (y : Unit → TrainM ℝ M (Expect ℝ) β) {s : Trainer ℝ M} {F : Except PyErr β × Trainer ℝ M → ℝ}
    (hF : ∀ e u, F (.error e, u) = 0) (hx : Avg Q (fun _ => False) fun F => x.run.run s (okState F)) {G : Trainer ℝ M → ℝ} (hG : ∀ u, Q u → (y ()).run.run u F = G u) :
    (x >>= y).run.run s F = x.run.run s (okState G) := by
  rw [← hx.congr _ _ hG]
  refine congrArg (show (Except PyErr Unit × Trainer ℝ M → ℝ) → ℝ from x.run.run s) (funext fun o => ?_)
  obtain ⟨r, s'⟩ := o
  cases r with
  | error e => exact hF e s'
  | ok _ => rfl

theorem exactRand_bind_run {α β : Type} (x : ExceptT PyErr (Expect ℝ) α) (f : α → TrainM ℝ M (Expect ℝ) β) (s : Trainer ℝ M)
    (g : Except PyErr β × Trainer ℝ M → ℝ) : (liftRand x >>= f).run.run s g = x.run fun r => match r with
      | .ok a => (f a).run.run s g
      | .error e => g (.error e, s) := by
  refine congrArg (show (Except PyErr α → ℝ) → ℝ from x.run) (funext fun r => ?_)
  cases r <;> rfl

/-- Estimating a tree succeeds and changes nothing. -/
theorem exactEstimate_runs [NeZero M] {t : Table} {num : Num ℝ} {mst : List (List ℝ) → List Edge} (hmst : MstContract mst) (hV : 1 ≤ t.numCols) {treePrior : List ℝ}
    (hp : treePrior.length = t.numCols * (t.numCols - 1) / 2) {s : Trainer ℝ M} (h : Good t s) :
    ∃ T ex, Runs (trainerEstimateTree num mst t treePrior : TrainM ℝ M (Expect ℝ) _) s (T, ex) s ∧ IsTree t.numCols T := by
  have hl := zipWith_logits_length (fun c => edgeLogit num t s c.2.1 c.2.2) t.numCols hp
  set logits := ((completeGrid t.numCols).map (fun c => edgeLogit num t s c.2.1 c.2.2)).zipWith (· + ·) treePrior with hlog
  obtain ⟨T, h1, h2, h3, h4⟩ := estimateTree_max mst hmst t.numCols hV _ (makeCompleteGraph_eq _)
    fun a b => logits.getD (findCompleteEdge a b) 0
  rw [← logits_eq_map _ _ hl] at h1
  exact ⟨T, logits, Runs.bind Runs.get (Runs.bind (Runs.liftPy (makeCompleteGraph_eq _)) (Runs.bind (Runs.liftPy (computeEdgeLogits_eq num treePrior h.rows)) (Runs.bind (Runs.liftPy h1) (Runs.pure _)))), h3⟩

end

section
variable {rs rd rp gl fexp : ℚ → ℚ} {sum : List ℚ → ℚ} {γ η : ℝ} {M : Nat} [NeZero M] {t : Table} {A : FloatOps M} (O : Spec.OpsOk A) (N : Spec.DotNear A.dot) (ht : Table.Ordered t)
  (hm : AllMultinomial t) (hc : Table.Counts t)
  (hcat : ∀ row, Spec.Categorical t row) (hN : t.numRows < 2 ^ 14) (hw : ∀ v < t.numCols, t.stop v - t.beg v ≤ 2 ^ 23) {j : Nat} (hj : M = 2 ^ j)
  (R : IsRounding 24 (-149) rs) (D : IsRounding 53 (-1074) rd) (Rp : IsRounding 53 (-1074) rp) (G : GammalnOk gl γ) (hγ : 0 ≤ γ)
  (Su : SumAbsOk sum) (hexp : ExpOk fexp η) {num : Num ℝ} (hn : ∀ x, 0 < x → num.gammaln x = Real.log (Real.Gamma x))
  (hnum : num.exp = Real.exp) (hV : t.numCols ^ 2 ≤ 2 ^ 25) {prior : List ℚ} (hp : prior.length = t.numCols * (t.numCols - 1) / 2) (hpf : ∀ x ∈ prior, IsFloat 24 (-149) x)
  {P : ℝ} (hP : ∀ x ∈ prior, |(x : ℝ)| ≤ P) (junk : Nat → Nat) (hN0 : 0 < t.numRows) {cfg : TrainConfig} (h1 : 1 ≤ cfg.initEpochs) (hE : cfg.initEpochs ≤ 2 ^ 51)
  (h2 : 1 ≤ cfg.sampleTreeRate) (hr : cfg.sampleTreeRate ≤ 2 ^ 52) {fuel : Nat} (hf : (2 * cfg.initEpochs.toNat + 1) * t.numRows ≤ fuel)

include hN D hN0 h1 hE h2 hr hf in
theorem scheduleOf_bounds {rows : List Nat} (hr : rows.Perm (List.range t.numRows)) :
    floatAnnealingSchedule rd fuel rows t.numRows (cfg.initEpochs : ℚ) (cfg.sampleTreeRate : ℚ) = .ok (scheduleOf rd fuel t.numRows cfg rows) ∧
    annealingSchedule fuel rows t.numRows (cfg.initEpochs : ℝ) (cfg.sampleTreeRate : ℝ) = .ok (scheduleOf rd fuel t.numRows cfg rows) ∧
    Legal t.numRows ∅ (scheduleOf rd fuel t.numRows cfg rows) (Finset.range t.numRows) ∧
    (numAdds (scheduleOf rd fuel t.numRows cfg rows) : ℤ) ≤ cfg.initEpochs * t.numRows ∧ (scheduleOf rd fuel t.numRows cfg rows).count .sampleTree ≤ numAdds (scheduleOf rd fuel t.numRows cfg rows) := by
  obtain ⟨acts, a1, a2, a3⟩ := floatSchedule_bounds D.monoRounding hN0 (by omega) h1 hE h2 (by assumption) hf hr
  have e : scheduleOf rd fuel t.numRows cfg rows = acts := by unfold scheduleOf; rw [a1]
  rw [e]
  exact ⟨a1, a2, a3⟩

include hN D hN0 h1 hE h2 hr hf in
theorem trainActions_legal {rows : List Nat} (hp : rows.Perm (List.range t.numRows)) :
    Legal t.numRows ∅ (trainActions rd fuel t.numRows cfg rows) (Finset.range t.numRows) :=
  Legal.join (scheduleOf_bounds hN D hN0 h1 hE h2 hr hf hp).2.2.1 (legal_epochs hN0 _)

include O N ht hm hc hcat hN hw hj R D Rp G hγ Su hexp hn hnum hV hp hpf hP hN0 h1 hE h2 hr hf

/-- `floatTrain` carries out its actions and estimates a tree at the end. -/
theorem floatTrain_run {mst : List (List ℚ) → List Edge} (hmst : MstContract mst) {u : FloatTrainer M} (hu : FloatAt t ∅ u) {F : Except PyErr (List ℚ) × FloatTrainer M → ℝ}
    (hF : ∀ e u, F (.error e, u) = 0) {H : FloatTrainer M → ℝ}
    (hH : ∀ u T fl, FloatAt t (Finset.range t.numRows) u → floatTrainerEstimateTree rs rd gl sum mst t prior u.stats = .ok (T, fl) → Canonical T → IsTree t.numCols T →
      F (.ok fl, if cfg.estimateTree then treeTo u T else u) = H u) :
    (floatTrain A rs rd gl sum fexp junk t prior mst fuel cfg : FloatTrainM M (FloatExpect rs rp (2 ^ 53)) (List ℚ)).run.run u F
      = ((List.range t.numRows).permutations.map fun rows =>
          ((trainActions rd fuel t.numRows cfg rows).forM (floatRunAction A rs rd gl sum fexp junk t prior) : FloatTrainM M (FloatExpect rs rp (2 ^ 53)) Unit).run.run u (okState H)).sum /
        (t.numRows.factorial : ℝ) := by
  have sim : ∀ l S T, Legal t.numRows S l T → _ := Sim.actions O N ht hm hc hcat hN hw hj R D Rp G hγ Su hexp hn hnum hV hp hpf hP junk
  have hassert : ∀ u : FloatTrainer M, FloatAt t (Finset.range t.numRows) u → pyAssert (u.stats.added.card == t.numRows) = .ok () := fun u hu => by rw [hu.2]; simp [pyAssert]
  unfold floatTrain
  rw [Runs.get.bind_run, (Runs.liftPy (a := ()) (by rw [hu.2]; rfl)).bind_run]
  refine (floatRand_bind_run _ _ _ _).trans ?_
  refine (perm_avg t.numRows).congr _ _ fun rows hrows => ?_
  obtain ⟨a1, a2, a3, -⟩ := scheduleOf_bounds (rd := rd) hN D hN0 h1 hE h2 hr hf hrows
  show (liftPy (floatAnnealingSchedule rd fuel rows t.numRows (cfg.initEpochs : ℚ) (cfg.sampleTreeRate : ℚ)) >>= _ : FloatTrainM M (FloatExpect rs rp (2 ^ 53)) (List ℚ)).run.run u F = _
  rw [(Runs.liftPy a1).bind_run, trainActions, forM_app]
  refine (floatBind_congr _ _ hF ((sim _ _ _ a3).float u hu) fun u' hu' => ?_).trans (floatBind_run _ (fun _ => (epochsActions t.numRows cfg.fullEpochs.toNat).forM (floatRunAction A rs rd gl sum fexp junk t prior)) u H).symm
  rw [Runs.get.bind_run, (Runs.liftPy (hassert u' hu')).bind_run, replicate_actions (floatFullScan_actions (m := FloatExpect rs rp (2 ^ 53)) A rs rd gl sum fexp junk t prior) _]
  refine floatBind_congr _ _ hF ((sim _ _ _ (legal_epochs hN0 _)).float u' hu') fun u'' hu'' => ?_
  obtain ⟨B, hB⟩ := exists_rat_gt (logitFactor γ M * (3 * edgeScale M t.numRows + |P|))
  obtain ⟨T, fl, ex, e1, e2, e3, e4, -⟩ := floatTrainerEstimateTree_good R D G hγ Su (le_trans (floatRun_inv ht hm hN hu''.1).2.1 (by norm_num)) hn
    (good_realTrainer (floatRun_inv ht hm hN hu''.1).1) prior hp hpf hP hmst hB.le
  rw [Runs.get.bind_run, (Runs.liftPy (hassert u'' hu'')).bind_run, (Runs.liftPy (show floatTrainerEstimateTree rs rd gl sum mst t prior u''.stats = _ from e1)).bind_run, ← hH u'' T fl hu'' e1 e3 e4]
  by_cases hest : cfg.estimateTree = true
  · simp only [hest, if_true]
    rw [(floatSetEdges_runs ht hm hN hu'' e4).bind_run]
    rfl
  · simp only [hest]
    rfl

/-- `train` carries out its actions and estimates a tree at the end. -/
theorem exactTrain_run {mst : List (List ℝ) → List Edge} (hmst : MstContract mst) {u : FloatTrainer M} (hu : FloatAt t ∅ u) {F : Except PyErr (List ℝ) × Trainer ℝ M → ℝ}
    (hF : ∀ e u, F (.error e, u) = 0) {H : Trainer ℝ M → ℝ}
    (hH : ∀ u T ex, FloatAt t (Finset.range t.numRows) u → IsTree t.numCols T → F (.ok ex, realTrainer (if cfg.estimateTree then treeTo u T else u).stats) = H (realTrainer u.stats)) :
    (train num mst junk fuel t (prior.map fun x : ℚ => (x : ℝ)) cfg : TrainM ℝ M (Expect ℝ) (List ℝ)).run.run (realTrainer u.stats) F
      = ((List.range t.numRows).permutations.map fun rows =>
          ((trainActions rd fuel t.numRows cfg rows).forM (runAction num junk t (prior.map fun x : ℚ => (x : ℝ))) : TrainM ℝ M (Expect ℝ) Unit).run.run (realTrainer u.stats) (okState H)).sum /
        (t.numRows.factorial : ℝ) := by
  have sim : ∀ l S T, Legal t.numRows S l T → _ := Sim.actions O N ht hm hc hcat hN hw hj R D Rp G hγ Su hexp hn hnum hV hp hpf hP junk
  have hassert : ∀ u : FloatTrainer M, FloatAt t (Finset.range t.numRows) u → pyAssert ((realTrainer u.stats).added.card == t.numRows) = .ok () := fun u hu => by
    rw [show (realTrainer u.stats).added = _ from hu.2]; simp [pyAssert]
  unfold train
  rw [Runs.get.bind_run, (Runs.liftPy (a := ()) (by rw [show (realTrainer u.stats).added = _ from hu.2]; rfl)).bind_run]
  refine (exactRand_bind_run _ _ _ _).trans ?_
  refine (perm_avg t.numRows).congr _ _ fun rows hrows => ?_
  obtain ⟨a1, a2, a3, -⟩ := scheduleOf_bounds (rd := rd) hN D hN0 h1 hE h2 hr hf hrows
  show (liftPy (annealingSchedule fuel rows t.numRows (cfg.initEpochs : ℝ) (cfg.sampleTreeRate : ℝ)) >>= _ : TrainM ℝ M (Expect ℝ) (List ℝ)).run.run (realTrainer u.stats) F = _
  rw [(Runs.liftPy a2).bind_run, trainActions, forM_app]
  refine (exactBind_congr _ _ hF ((sim _ _ _ a3).exact u hu) ?_).trans
    (exactBind_run _ (fun _ => (epochsActions t.numRows cfg.fullEpochs.toNat).forM (runAction num junk t (prior.map fun x : ℚ => (x : ℝ)))) _ H).symm
  rintro _ ⟨u', hu', rfl⟩
  rw [Runs.get.bind_run, (Runs.liftPy (hassert u' hu')).bind_run, replicate_actions (fullScan_actions (M := M) (m := Expect ℝ) num junk t (prior.map fun x : ℚ => (x : ℝ))) _]
  refine exactBind_congr _ _ hF ((sim _ _ _ (legal_epochs hN0 _)).exact u' hu') ?_
  rintro _ ⟨u'', hu'', rfl⟩
  have hg := good_realTrainer (floatRun_inv ht hm hN hu''.1).1
  have hV1 : 1 ≤ t.numCols := by have := hg.isTree.card; omega
  obtain ⟨T, ex, e1, e2⟩ := exactEstimate_runs (num := num) hmst hV1 (treePrior := prior.map fun x : ℚ => (x : ℝ)) (by rw [List.length_map]; exact hp) hg
  rw [Runs.get.bind_run, (Runs.liftPy (hassert u'' hu'')).bind_run, e1.bind_run, ← hH u'' T ex hu'' e2]
  by_cases hest : cfg.estimateTree = true
  · simp only [hest, if_true]
    rw [(exactSetEdges_runs ht hm hN hu'' e2).bind_run]
    rfl
  · simp only [hest]
    rfl

/-! ### The theorems -/

/-- **C81** (success). Training in float32 returns whatever is drawn. All rows are then added, the result are the float32 edge logits of the final state, and with
`learning_estimate_tree` the exact total logit of the final tree is within the allowance of C76 of the maximum over all spanning trees. -/
theorem floatTrain_ok {mst : List (List ℚ) → List Edge} (hmst : MstContract mst) {B : ℚ} (hB : logitFactor γ M * (3 * edgeScale M t.numRows + |P|) ≤ B)
    {u : FloatTrainer M} (hu : FloatRun t u.stats u.edge) (hS : u.stats.added = ∅) {F : Except PyErr (List ℚ) × FloatTrainer M → ℝ} (hF0 : ∀ e u, F (.error e, u) = 0)
    (hF : ∀ logits u, FloatRun t u.stats u.edge → u.stats.added = Finset.range t.numRows → floatEdgeLogits rs rd gl sum t prior u.stats = .ok logits →
      (cfg.estimateTree = true → ∃ ex, computeEdgeLogits num t (prior.map fun x : ℚ => (x : ℝ)) (realTrainer u.stats) = .ok ex ∧ ∀ T', IsTree t.numCols T' →
        treeTotal ex T' ≤ treeTotal ex u.stats.tree.getEdges + ((t.numCols - 1 : Nat) : ℝ) * (2 * logitSlack γ M t.numRows P + ((1 + 1 / 2 ^ 25) / 2 ^ 21 * B + 1 / 2 ^ 23))) →
      F (.ok logits, u) = 1) :
    (floatTrain A rs rd gl sum fexp junk t prior mst fuel cfg : FloatTrainM M (FloatExpect rs rp (2 ^ 53)) (List ℚ)).run.run u F = 1 := by
  rw [floatTrain_run O N ht hm hc hcat hN hw hj R D Rp G hγ Su hexp hn hnum hV hp hpf hP junk hN0 h1 hE h2 hr hf hmst ⟨hu, hS⟩ hF0 (H := fun _ => 1) fun u T fl hu e1 e3 e4 => ?_]
  · refine ((perm_avg t.numRows).congr _ (fun _ => 1) fun rows hrows => ?_).trans (perm_avg t.numRows).one
    exact ((Sim.actions O N ht hm hc hcat hN hw hj R D Rp G hγ Su hexp hn hnum hV hp hpf hP junk _ _ _ (trainActions_legal hN D hN0 h1 hE h2 hr hf hrows)).float u ⟨hu, hS⟩).one
  have hlog : floatEdgeLogits rs rd gl sum t prior u.stats = .ok fl := by
    simp only [floatTrainerEstimateTree, makeCompleteGraph_eq, bind, Except.bind] at e1
    cases h : floatEdgeLogits rs rd gl sum t prior u.stats with
    | error e => rw [h] at e1; cases e1
    | ok l =>
      rw [h] at e1
      simp only at e1
      cases h' : floatEstimateTree rs mst (completeGrid t.numCols) l with
      | error e => rw [h'] at e1; cases e1
      | ok T' => rw [h'] at e1; cases e1; rfl
  by_cases hest : cfg.estimateTree = true
  swap
  · simp only [hest]
    exact hF fl u hu.1 hu.2 hlog fun h => absurd h hest
  simp only [hest, if_true]
  have hu' := treeTo_at ht hm hN hu e4
  refine hF fl _ hu'.1 hu'.2 hlog fun _ => ?_
  obtain ⟨T2, fl2, ex, q1, q2, -, -, q3⟩ := floatTrainerEstimateTree_good R D G hγ Su (le_trans (floatRun_inv ht hm hN hu.1).2.1 (by norm_num)) hn
    (good_realTrainer (floatRun_inv ht hm hN hu.1).1) prior hp hpf hP hmst hB
  have q4 : floatTrainerEstimateTree rs rd gl sum mst t prior u.stats = .ok (T2, fl2) := q1
  rw [e1] at q4
  cases q4
  have hT : (treeTo u T).stats.tree.getEdges = T := by
    change gridEdges (makeTree T) = T
    rw [gridEdges_makeTree, sortEdges_canonical e3]
  rw [hT]
  exact ⟨ex, q2, q3⟩

/-- The expected number of underflows in `train`. -/
noncomputable def trainUnclear (A : FloatOps M) (rs rd rp gl : ℚ → ℚ) (sum : List ℚ → ℚ) (fexp : ℚ → ℚ) (junk : Nat → Nat) (t : Table) (prior : List ℚ) (fuel : Nat) (cfg : TrainConfig)
    (u : FloatTrainer M) : ℝ :=
  ((List.range t.numRows).permutations.map fun rows => unclearCount A rs rd rp gl sum fexp junk t prior (trainActions rd fuel t.numRows cfg rows) u).sum / (t.numRows.factorial : ℝ)

/-- **C81** (law). Training in float32 and exact training, with any functions that return maximal spanning trees. For every function of the assignments and the tree with values in `[lo, hi]`, which
must not depend on the tree if that is estimated at the end, the expected values differ by at most `((E + n) N rowErr + (E N + n) treeErr + U) (hi - lo)`, for `E` annealing epochs and `n` full epochs,
where `U` is the expected number of underflows. -/
theorem floatTrain_near {mst : List (List ℚ) → List Edge} (hmst : MstContract mst) {mst' : List (List ℝ) → List Edge} (hmst' : MstContract mst')
    {u : FloatTrainer M} (hu : FloatRun t u.stats u.edge) (hS : u.stats.added = ∅) {f : Latent t M → List Edge → ℝ} (hfT : cfg.estimateTree = true → ∀ a T T', f a T = f a T')
    {lo hi : ℝ} (hflo : ∀ a T, Canonical T → IsTree t.numCols T → lo ≤ f a T ∧ f a T ≤ hi) :
    |(floatTrain A rs rd gl sum fexp junk t prior mst fuel cfg : FloatTrainM M (FloatExpect rs rp (2 ^ 53)) (List ℚ)).run.run u (floatEnd t f)
      - (train num mst' junk fuel t (prior.map fun x : ℚ => (x : ℝ)) cfg : TrainM ℝ M (Expect ℝ) (List ℝ)).run.run (realTrainer u.stats) (exactEnd t f)|
      ≤ ((cfg.initEpochs + cfg.fullEpochs.toNat) * t.numRows * Spec.rowErr t.numCols M 0 6 + (cfg.initEpochs * t.numRows + cfg.fullEpochs.toNat) * Spec.treeErr t.numCols M t.numRows γ η P
          + trainUnclear A rs rd rp gl sum fexp junk t prior fuel cfg u) * (hi - lo) := by
  set g : Trainer ℝ M → ℝ := fun s => f (fun n v => s.assign n v) s.tree.getEdges with hg
  have sim : ∀ l S T, Legal t.numRows S l T → _ := Sim.actions O N ht hm hc hcat hN hw hj R D Rp G hγ Su hexp hn hnum hV hp hpf hP junk
  have hbd : ∀ S, ∀ u : FloatTrainer M, FloatAt t S u → lo ≤ g (realTrainer u.stats) ∧ g (realTrainer u.stats) ≤ hi := fun S u hu => by
    have := good_realTrainer (floatRun_inv ht hm hN hu.1).1
    exact hflo _ _ this.canonical this.isTree
  have hspan : 0 ≤ hi - lo := by obtain ⟨a, b⟩ := hbd _ u ⟨hu, hS⟩; linarith
  rw [floatTrain_run O N ht hm hc hcat hN hw hj R D Rp G hγ Su hexp hn hnum hV hp hpf hP junk hN0 h1 hE h2 hr hf hmst ⟨hu, hS⟩ (fun _ _ => rfl) (H := fun u => g (realTrainer u.stats)) fun u T fl hu e1 e3 e4 => by
      by_cases hest : cfg.estimateTree = true
      · simp only [hest, if_true]
        exact hfT hest _ _ _
      · simp only [hest]
        rfl,
    exactTrain_run O N ht hm hc hcat hN hw hj R D Rp G hγ Su hexp hn hnum hV hp hpf hP junk hN0 h1 hE h2 hr hf hmst' ⟨hu, hS⟩ (fun _ _ => rfl) (H := g) fun u T ex hu e => by
      by_cases hest : cfg.estimateTree = true
      · simp only [hest, if_true]
        exact hfT hest _ _ _
      · simp only [hest]
        rfl]
  set c := (cfg.initEpochs + cfg.fullEpochs.toNat) * t.numRows * Spec.rowErr t.numCols M 0 6 + (cfg.initEpochs * t.numRows + cfg.fullEpochs.toNat) * Spec.treeErr t.numCols M t.numRows γ η P with hcdef
  have k0 : 0 ≤ Spec.treeErr t.numCols M t.numRows γ η P := by
    have k3 := hexp.eta_nonneg
    have k4 := Real.one_le_exp (mul_nonneg (zero_le_two (α := ℝ)) (logitSlack_nonneg (N := t.numRows) hγ (Nat.one_le_iff_ne_zero.2 (NeZero.ne M)) P))
    unfold Spec.treeErr
    have k5 : (0 : ℝ) ≤ (t.numCols : ℝ) ^ 2 / 4 * (2 ^ (-22 : Int) + 2 ^ (-52 : Int) + η) := by positivity
    exact mul_nonneg (Nat.cast_nonneg _) (by linarith)
  have k1 : 0 ≤ Spec.rowErr t.numCols M 0 6 := by unfold Spec.rowErr; positivity
  have key := (perm_avg t.numRows).near_le (f := fun rows => ((trainActions rd fuel t.numRows cfg rows).forM (floatRunAction A rs rd gl sum fexp junk t prior) : FloatTrainM M (FloatExpect rs rp (2 ^ 53)) Unit).run.run u
      (okState fun u => g (realTrainer u.stats)))
    (g := fun rows => ((trainActions rd fuel t.numRows cfg rows).forM (runAction num junk t (prior.map fun x : ℚ => (x : ℝ))) : TrainM ℝ M (Expect ℝ) Unit).run.run (realTrainer u.stats) (okState g))
    (e := fun rows => (c + 1 * unclearCount A rs rd rp gl sum fexp junk t prior (trainActions rd fuel t.numRows cfg rows) u) * (hi - lo)) fun rows hrows => by
      have h := (sim _ _ _ (trainActions_legal hN D hN0 h1 hE h2 hr hf hrows)).near u ⟨hu, hS⟩ g lo hi (hbd _)
      refine h.trans (mul_le_mul_of_nonneg_right ?_ hspan)
      rw [one_mul]
      refine add_le_add_left ?_ _
      obtain ⟨-, -, -, b1, b2⟩ := scheduleOf_bounds (rd := rd) hN D hN0 h1 hE h2 hr hf hrows
      rw [trainActions, numAdds_append, List.count_append, numAdds_epochs, count_epochs]
      have b3 : (numAdds (scheduleOf rd fuel t.numRows cfg rows) : ℝ) ≤ cfg.initEpochs * t.numRows := by exact_mod_cast b1
      have b4 : ((scheduleOf rd fuel t.numRows cfg rows).count .sampleTree : ℝ) ≤ numAdds (scheduleOf rd fuel t.numRows cfg rows) := by exact_mod_cast b2
      push_cast
      refine add_le_add (mul_le_mul_of_nonneg_right ?_ k1) (mul_le_mul_of_nonneg_right ?_ k0)
      · linarith
      · linarith
  rw [(perm_avg t.numRows).scale, (perm_avg t.numRows).lin, (perm_avg t.numRows).const, one_mul] at key
  exact key

end

section
variable {rs rd rp gl fexp : ℚ → ℚ} {sum : List ℚ → ℚ} {γ η : ℝ} {M : Nat} [NeZero M] {t : Table} {A : FloatOps M} (O : Spec.OpsOk A) (N : Spec.DotNear A.dot) (ht : Table.Ordered t)
  (hm : AllMultinomial t) (hc : Table.Counts t)
  (hcat : ∀ row, Spec.Categorical t row) (hN : t.numRows < 2 ^ 14) (hw : ∀ v < t.numCols, t.stop v - t.beg v ≤ 2 ^ 23) {j : Nat} (hj : M = 2 ^ j)
  (R : IsRounding 24 (-149) rs) (D : IsRounding 53 (-1074) rd) (Rp : IsRounding 53 (-1074) rp) (G : GammalnOk gl γ) (hγ : 0 ≤ γ)
  (Su : SumAbsOk sum) (hexp : ExpOk fexp η) {num : Num ℝ} (hn : ∀ x, 0 < x → num.gammaln x = Real.log (Real.Gamma x))
  (hnum : num.exp = Real.exp) (hV : t.numCols ^ 2 ≤ 2 ^ 25) {prior : List ℚ} (hp : prior.length = t.numCols * (t.numCols - 1) / 2) (hpf : ∀ x ∈ prior, IsFloat 24 (-149) x)
  {P : ℝ} (hP : ∀ x ∈ prior, |(x : ℝ)| ≤ P) (junk : Nat → Nat) (hN0 : 0 < t.numRows)
include O N ht hm hc hcat hN hw hj R D Rp G hγ Su hexp hn hnum hV hp hpf hP hN0

/-- **C81** (posterior). There is a rate `ρ < 1`, depending on table, prior and number of clusters only, such that for every config, every function that returns maximal spanning trees and every function
of the assignments and the tree as above, its expected value after training in float32 is within `(ρ ^ n + 2 (N rowErr + treeErr) / (1 - ρ) + 2 U) (hi - lo)` of its posterior mean, for `n` full epochs. -/
theorem floatTrain_posterior (hV1 : 1 ≤ t.numCols) (hM : M ≤ 128) (trees : Finset (List Edge)) (htrees : ∀ T, T ∈ trees ↔ Canonical T ∧ IsTree t.numCols T) :
    ∃ ρ : ℝ, 0 ≤ ρ ∧ ρ < 1 ∧ ∀ {mst : List (List ℚ) → List Edge}, MstContract mst → ∀ {cfg : TrainConfig}, 1 ≤ cfg.initEpochs → cfg.initEpochs ≤ 2 ^ 51 → 1 ≤ cfg.sampleTreeRate →
      cfg.sampleTreeRate ≤ 2 ^ 52 → ∀ {fuel : Nat}, (2 * cfg.initEpochs.toNat + 1) * t.numRows ≤ fuel → ∀ {u : FloatTrainer M}, FloatRun t u.stats u.edge → u.stats.added = ∅ →
      ∀ {f : Latent t M → List Edge → ℝ}, (cfg.estimateTree = true → ∀ a T T', f a T = f a T') → ∀ {lo hi : ℝ}, (∀ a, ∀ T ∈ trees, lo ≤ f a T ∧ f a T ≤ hi) →
      |(floatTrain A rs rd gl sum fexp junk t prior mst fuel cfg : FloatTrainM M (FloatExpect rs rp (2 ^ 53)) (List ℚ)).run.run u (floatEnd t f)
        - (∑ a, ∑ T ∈ trees, posterior t (prior.map fun x : ℚ => (x : ℝ)) a T * f a T) / ∑ a : Latent t M, ∑ T ∈ trees, posterior t (prior.map fun x : ℚ => (x : ℝ)) a T|
        ≤ (ρ ^ cfg.fullEpochs.toNat + 2 * (t.numRows * Spec.rowErr t.numCols M 0 6 + Spec.treeErr t.numCols M t.numRows γ η P) / (1 - ρ)
            + 2 * trainUnclear A rs rd rp gl sum fexp junk t prior fuel cfg u) * (hi - lo) := by
  obtain ⟨ρ, r0, r1, hpost⟩ := floatEpochs_posterior O N ht hm hc hcat hN hw hj R D Rp G hγ Su hexp hn hnum hV hp hpf hP junk hV1 hM hN0 trees htrees
  refine ⟨ρ, r0, r1, fun {mst} hmst {cfg} h1 hE h2 hr {fuel} hf {u} hu hS {f} hfT {lo hi} hflo => ?_⟩
  set pi := (∑ a, ∑ T ∈ trees, posterior t (prior.map fun x : ℚ => (x : ℝ)) a T * f a T) / ∑ a : Latent t M, ∑ T ∈ trees, posterior t (prior.map fun x : ℚ => (x : ℝ)) a T with hpi
  set c := ρ ^ cfg.fullEpochs.toNat + 2 * (t.numRows * Spec.rowErr t.numCols M 0 6 + Spec.treeErr t.numCols M t.numRows γ η P) / (1 - ρ) with hcdef
  have sim : ∀ l S T, Legal t.numRows S l T → _ := Sim.actions O N ht hm hc hcat hN hw hj R D Rp G hγ Su hexp hn hnum hV hp hpf hP junk
  have hspan : 0 ≤ hi - lo := by
    have hg := good_realTrainer (floatRun_inv ht hm hN hu).1
    obtain ⟨a, b⟩ := hflo (fun n v => u.stats.assign n v) _ ((htrees _).2 ⟨hg.canonical, hg.isTree⟩)
    linarith
  rw [floatTrain_run O N ht hm hc hcat hN hw hj R D Rp G hγ Su hexp hn hnum hV hp hpf hP junk hN0 h1 hE h2 hr hf hmst ⟨hu, hS⟩ (fun _ _ => rfl)
    (H := fun u => f (fun n v => u.stats.assign n v) u.stats.tree.getEdges) fun u T fl hu e1 e3 e4 => by
      by_cases hest : cfg.estimateTree = true
      · simp only [hest, if_true]
        exact hfT hest _ _ _
      · simp only [hest]
        rfl]
  have key := (perm_avg t.numRows).near_le (f := fun rows => ((trainActions rd fuel t.numRows cfg rows).forM (floatRunAction A rs rd gl sum fexp junk t prior) : FloatTrainM M (FloatExpect rs rp (2 ^ 53)) Unit).run.run u
      (okState fun u => f (fun n v => u.stats.assign n v) u.stats.tree.getEdges)) (g := fun _ => pi)
    (e := fun rows => (c + 2 * unclearCount A rs rd rp gl sum fexp junk t prior (trainActions rd fuel t.numRows cfg rows) u) * (hi - lo)) fun rows hrows => by
      obtain ⟨-, -, a3, -⟩ := scheduleOf_bounds (rd := rd) hN D hN0 h1 hE h2 hr hf hrows
      have s1 := (sim _ _ _ a3).float u ⟨hu, hS⟩
      have e1 : ((trainActions rd fuel t.numRows cfg rows).forM (floatRunAction A rs rd gl sum fexp junk t prior) : FloatTrainM M (FloatExpect rs rp (2 ^ 53)) Unit).run.run u
          (okState fun u => f (fun n v => u.stats.assign n v) u.stats.tree.getEdges)
          = ((scheduleOf rd fuel t.numRows cfg rows).forM (floatRunAction A rs rd gl sum fexp junk t prior) : FloatTrainM M (FloatExpect rs rp (2 ^ 53)) Unit).run.run u
            (okState fun u' => ((List.replicate cfg.fullEpochs.toNat ()).forM fun _ => floatFullScan A rs rd gl sum fexp junk t prior : FloatTrainM M (FloatExpect rs rp (2 ^ 53)) Unit).run.run u' (floatEnd t f)) := by
        rw [trainActions, forM_app, replicate_actions (floatFullScan_actions (m := FloatExpect rs rp (2 ^ 53)) A rs rd gl sum fexp junk t prior) _]
        exact floatBind_run _ (fun _ => (epochsActions t.numRows cfg.fullEpochs.toNat).forM (floatRunAction A rs rd gl sum fexp junk t prior)) u _
      rw [e1, ← s1.const pi]
      refine (s1.near_le (e := fun u' => (c + 2 * unclearCount A rs rd rp gl sum fexp junk t prior (epochsActions t.numRows cfg.fullEpochs.toNat) u') * (hi - lo)) fun u' hu' =>
        hpost u' hu'.1 hu'.2 f lo hi hflo _).trans ?_
      have q1 := unclear_append O N ht hm hc hcat hN hw hj R D Rp G hγ Su hexp hn hnum hV hp hpf hP junk _ (epochsActions t.numRows cfg.fullEpochs.toNat) _ _ a3 u ⟨hu, hS⟩
      have q2 := unclear_nonneg O N ht hm hc hcat hN hw hj R D Rp G hγ Su hexp hn hnum hV hp hpf hP junk _ _ _ a3 u ⟨hu, hS⟩
      rw [s1.scale, s1.lin (fun _ => c) (unclearCount A rs rd rp gl sum fexp junk t prior (epochsActions t.numRows cfg.fullEpochs.toNat)) 2, s1.const]
      refine mul_le_mul_of_nonneg_right ?_ hspan
      rw [trainActions, q1]
      linarith
  rw [(perm_avg t.numRows).scale, (perm_avg t.numRows).lin, (perm_avg t.numRows).const, (perm_avg t.numRows).const] at key
  exact key

end

section
variable {rs rd rp gl fexp : ℚ → ℚ} {sum : List ℚ → ℚ} {γ η : ℝ} {M : Nat} [NeZero M] {t : Table} {A : FloatOps M} (O : Spec.OpsOk A) (N : Spec.DotNear A.dot) (ht : Table.Ordered t)
  (hm : AllMultinomial t) (hc : Table.Counts t)
  (hcat : ∀ row, Spec.Categorical t row) (hN : t.numRows < 2 ^ 14) (hw : ∀ v < t.numCols, t.stop v - t.beg v ≤ 2 ^ 23) {k j : Nat} (F : Spec.FewBits t M k j)
  (R : IsRounding 24 (-149) rs) (D : IsRounding 53 (-1074) rd) (Rp : IsRounding 53 (-1074) rp) (G : GammalnOk gl γ) (hγ : 0 ≤ γ)
  (Su : SumAbsOk sum) (hexp : ExpOk fexp η) {num : Num ℝ} (hn : ∀ x, 0 < x → num.gammaln x = Real.log (Real.Gamma x))
  (hnum : num.exp = Real.exp) (hV : t.numCols ^ 2 ≤ 2 ^ 25) {prior : List ℚ} (hp : prior.length = t.numCols * (t.numCols - 1) / 2) (hpf : ∀ x ∈ prior, IsFloat 24 (-149) x)
  {P : ℝ} (hP : ∀ x ∈ prior, |(x : ℝ)| ≤ P) (junk : Nat → Nat) (hN0 : 0 < t.numRows)
include O N ht hm hc hcat hN hw F R D Rp G hγ Su hexp hn hnum hV hp hpf hP hN0

theorem trainUnclear_zero {cfg : TrainConfig} (h1 : 1 ≤ cfg.initEpochs) (hE : cfg.initEpochs ≤ 2 ^ 51) (h2 : 1 ≤ cfg.sampleTreeRate) (hr : cfg.sampleTreeRate ≤ 2 ^ 52) {fuel : Nat}
    (hf : (2 * cfg.initEpochs.toNat + 1) * t.numRows ≤ fuel) {u : FloatTrainer M} (hu : FloatRun t u.stats u.edge) (hS : u.stats.added = ∅) :
    trainUnclear A rs rd rp gl sum fexp junk t prior fuel cfg u = 0 :=
  ((perm_avg t.numRows).congr _ (fun _ => 0) fun rows hrows => unclear_zero O N ht hm hc hcat hN hw F R D Rp G hγ Su hexp hn hnum hV hp hpf hP junk _ _ _
    (trainActions_legal hN D hN0 h1 hE h2 hr hf hrows) u ⟨hu, hS⟩).trans ((perm_avg t.numRows).const 0)

/-- **C81** (law, few bits). With few features, rows and clusters nothing underflows. -/
theorem floatTrain_near_few {cfg : TrainConfig} (h1 : 1 ≤ cfg.initEpochs) (hE : cfg.initEpochs ≤ 2 ^ 51) (h2 : 1 ≤ cfg.sampleTreeRate) (hr : cfg.sampleTreeRate ≤ 2 ^ 52) {fuel : Nat}
    (hf : (2 * cfg.initEpochs.toNat + 1) * t.numRows ≤ fuel) {mst : List (List ℚ) → List Edge} (hmst : MstContract mst) {mst' : List (List ℝ) → List Edge} (hmst' : MstContract mst')
    {u : FloatTrainer M} (hu : FloatRun t u.stats u.edge) (hS : u.stats.added = ∅) {f : Latent t M → List Edge → ℝ} (hfT : cfg.estimateTree = true → ∀ a T T', f a T = f a T')
    {lo hi : ℝ} (hflo : ∀ a T, Canonical T → IsTree t.numCols T → lo ≤ f a T ∧ f a T ≤ hi) :
    |(floatTrain A rs rd gl sum fexp junk t prior mst fuel cfg : FloatTrainM M (FloatExpect rs rp (2 ^ 53)) (List ℚ)).run.run u (floatEnd t f)
      - (train num mst' junk fuel t (prior.map fun x : ℚ => (x : ℝ)) cfg : TrainM ℝ M (Expect ℝ) (List ℝ)).run.run (realTrainer u.stats) (exactEnd t f)|
      ≤ ((cfg.initEpochs + cfg.fullEpochs.toNat) * t.numRows * Spec.rowErr t.numCols M 0 6 + (cfg.initEpochs * t.numRows + cfg.fullEpochs.toNat) * Spec.treeErr t.numCols M t.numRows γ η P) * (hi - lo) := by
  have h := floatTrain_near O N ht hm hc hcat hN hw F.clusters R D Rp G hγ Su hexp hn hnum hV hp hpf hP junk hN0 h1 hE h2 hr hf hmst hmst' hu hS hfT hflo
  rwa [trainUnclear_zero O N ht hm hc hcat hN hw F R D Rp G hγ Su hexp hn hnum hV hp hpf hP junk hN0 h1 hE h2 hr hf hu hS, add_zero] at h

/-- **C81** (posterior, few bits). Then training in float32 ends within `ρ ^ n + 2 (N rowErr + treeErr) / (1 - ρ)` of the posterior. -/
theorem floatTrain_posterior_few (hV1 : 1 ≤ t.numCols) (hM : M ≤ 128) (trees : Finset (List Edge)) (htrees : ∀ T, T ∈ trees ↔ Canonical T ∧ IsTree t.numCols T) :
    ∃ ρ : ℝ, 0 ≤ ρ ∧ ρ < 1 ∧ ∀ {mst : List (List ℚ) → List Edge}, MstContract mst → ∀ {cfg : TrainConfig}, 1 ≤ cfg.initEpochs → cfg.initEpochs ≤ 2 ^ 51 → 1 ≤ cfg.sampleTreeRate →
      cfg.sampleTreeRate ≤ 2 ^ 52 → ∀ {fuel : Nat}, (2 * cfg.initEpochs.toNat + 1) * t.numRows ≤ fuel → ∀ {u : FloatTrainer M}, FloatRun t u.stats u.edge → u.stats.added = ∅ →
      ∀ {f : Latent t M → List Edge → ℝ}, (cfg.estimateTree = true → ∀ a T T', f a T = f a T') → ∀ {lo hi : ℝ}, (∀ a, ∀ T ∈ trees, lo ≤ f a T ∧ f a T ≤ hi) →
      |(floatTrain A rs rd gl sum fexp junk t prior mst fuel cfg : FloatTrainM M (FloatExpect rs rp (2 ^ 53)) (List ℚ)).run.run u (floatEnd t f)
        - (∑ a, ∑ T ∈ trees, posterior t (prior.map fun x : ℚ => (x : ℝ)) a T * f a T) / ∑ a : Latent t M, ∑ T ∈ trees, posterior t (prior.map fun x : ℚ => (x : ℝ)) a T|
        ≤ (ρ ^ cfg.fullEpochs.toNat + 2 * (t.numRows * Spec.rowErr t.numCols M 0 6 + Spec.treeErr t.numCols M t.numRows γ η P) / (1 - ρ)) * (hi - lo) := by
  obtain ⟨ρ, r0, r1, h⟩ := floatTrain_posterior O N ht hm hc hcat hN hw F.clusters R D Rp G hγ Su hexp hn hnum hV hp hpf hP junk hN0 hV1 hM trees htrees
  refine ⟨ρ, r0, r1, fun {mst} hmst {cfg} h1 hE h2 hr {fuel} hf {u} hu hS {f} hfT {lo hi} hflo => ?_⟩
  have := h hmst h1 hE h2 hr hf hu hS hfT hflo
  rwa [trainUnclear_zero O N ht hm hc hcat hN hw F R D Rp G hγ Su hexp hn hnum hV hp hpf hP junk hN0 h1 hE h2 hr hf hu hS, mul_zero, add_zero] at this

end

/-! ### A case that meets the hypotheses -/

/-- Training on a small table, from a new trainer, with three annealing epochs and any number of full epochs: it returns, it is near exact training, and near the posterior. -/
example (junk : Nat → Nat) : ∃ (gl fexp : ℚ → ℚ) (sum : List ℚ → ℚ) (num : Num ℝ) (mst : List (List ℚ) → List Edge) (mst' : List (List ℝ) → List Edge) (trees : Finset (List Edge)) (ρ : ℝ) (s0 : Trainer ℚ 2),
    Trainer.init twoTable 1 = .ok s0 ∧ 0 ≤ ρ ∧ ρ < 1 ∧ ∀ n : Nat,
    (floatTrain (numpyOps 2) float32 float64 gl sum fexp junk twoTable [0] mst 14 ⟨3, n, 1, true⟩ : FloatTrainM 2 (FloatExpect float32 float64 (2 ^ 53)) (List ℚ)).run.run ⟨s0, floatEdgeArray s0⟩
        (floatEnd twoTable fun _ _ => 1) = 1 ∧
    |(floatTrain (numpyOps 2) float32 float64 gl sum fexp junk twoTable [0] mst 14 ⟨3, n, 1, true⟩ : FloatTrainM 2 (FloatExpect float32 float64 (2 ^ 53)) (List ℚ)).run.run ⟨s0, floatEdgeArray s0⟩
        (floatEnd twoTable fun a _ => if a ⟨1, by decide⟩ ⟨0, by decide⟩ = a ⟨0, by decide⟩ ⟨0, by decide⟩ then 1 else 0)
      - (train num mst' junk 14 twoTable [0] ⟨3, n, 1, true⟩ : TrainM ℝ 2 (Expect ℝ) (List ℝ)).run.run (realTrainer s0)
        (exactEnd twoTable fun a _ => if a ⟨1, by decide⟩ ⟨0, by decide⟩ = a ⟨0, by decide⟩ ⟨0, by decide⟩ then 1 else 0)|
      ≤ (3 + n) * 2 * Spec.rowErr 2 2 0 6 + (6 + n) * Spec.treeErr 2 2 2 (1 / 2 ^ 20) (2 ^ (-24 : Int)) 0 ∧
    |(floatTrain (numpyOps 2) float32 float64 gl sum fexp junk twoTable [0] mst 14 ⟨3, n, 1, true⟩ : FloatTrainM 2 (FloatExpect float32 float64 (2 ^ 53)) (List ℚ)).run.run ⟨s0, floatEdgeArray s0⟩
        (floatEnd twoTable fun a _ => if a ⟨1, by decide⟩ ⟨0, by decide⟩ = a ⟨0, by decide⟩ ⟨0, by decide⟩ then 1 else 0)
      - (∑ a : Latent twoTable 2, ∑ T ∈ trees, posterior twoTable [0] a T * (if a ⟨1, by decide⟩ ⟨0, by decide⟩ = a ⟨0, by decide⟩ ⟨0, by decide⟩ then 1 else 0)) /
          ∑ a : Latent twoTable 2, ∑ T ∈ trees, posterior twoTable [0] a T|
      ≤ ρ ^ n + 2 * (2 * Spec.rowErr 2 2 0 6 + Spec.treeErr 2 2 2 (1 / 2 ^ 20) (2 ^ (-24 : Int)) 0) / (1 - ρ) := by
  obtain ⟨gl, hgl⟩ := exists_gammalnOk
  obtain ⟨trees, htrees⟩ := exists_trees twoTable.numCols
  obtain ⟨mst, hmst⟩ := exists_mst (K := ℚ)
  obtain ⟨mst', hmst'⟩ := exists_mst (K := ℝ)
  have hm : AllMultinomial twoTable := by intro ty hty; simpa [twoTable, tyMultinomial] using hty
  have ht : Table.Ordered twoTable := ⟨by decide, by decide⟩
  have hw : ∀ v < twoTable.numCols, twoTable.beg v < twoTable.stop v ∧ twoTable.stop v - twoTable.beg v ≤ 2 ^ 23 := by decide
  have hc : Table.Counts twoTable := ⟨fun n r => (twoTable_cell n r).1, fun v hv => (hw v hv).1⟩
  have hz : ∀ x ∈ ([0] : List ℚ), IsFloat 24 (-149) x := by
    intro x hx
    rw [List.mem_singleton.1 hx]
    exact isFloat_zero ..
  have hrun : FloatRun twoTable twoStart (floatEdgeArray twoStart) := FloatRun.init (n := 1) (except_get _)
  have h0 : twoStart.added = ∅ := by decide +kernel
  set num : Num ℝ := ⟨Real.exp, fun x => Real.log (Real.Gamma x)⟩
  have hcast : ([0] : List ℚ).map (fun x : ℚ => (x : ℝ)) = [0] := by simp
  obtain ⟨ρ, k0, k1, k2⟩ := floatTrain_posterior_few (numpyOps_ok (M := 2) (by norm_num)) (seqDot_near (by norm_num) float32_mono) ht hm hc twoTable_categorical (by decide) (fun v hv => (hw v hv).2) two_few
    float32_isRounding float64_isRounding float64_isRounding hgl (by norm_num) sumAbsOk_foldl floorExp_ok (num := num) (fun _ _ => rfl) rfl (by decide) (prior := [0]) (by decide) hz (P := 0) (by simp) junk
    (by decide) (by decide) (by norm_num) trees htrees
  rw [hcast] at k2
  obtain ⟨B, hB⟩ := exists_rat_gt (logitFactor (1 / 2 ^ 20) 2 * (3 * edgeScale 2 twoTable.numRows + |(0 : ℝ)|))
  have q1 : (1 : Int) ≤ 3 := by norm_num
  have q2 : (3 : Int) ≤ 2 ^ 51 := by norm_num
  have q3 : (1 : Int) ≤ 1 := le_refl _
  have q4 : (1 : Int) ≤ 2 ^ 52 := by norm_num
  have q5 : (2 * (3 : Int).toNat + 1) * twoTable.numRows ≤ 14 := by decide
  refine ⟨gl, floorExp, fun xs => xs.foldl (fun a x => float32 (a + x)) 0, num, mst, mst', trees, ρ, twoStart, except_get _, k0, k1, fun n => ⟨?_, ?_, ?_⟩⟩
  · exact floatTrain_ok (numpyOps_ok (M := 2) (by norm_num)) (seqDot_near (by norm_num) float32_mono) ht hm hc twoTable_categorical (by decide) (fun v hv => (hw v hv).2) (j := 1) rfl
      float32_isRounding float64_isRounding float64_isRounding hgl (by norm_num) sumAbsOk_foldl floorExp_ok (num := num) (fun _ _ => rfl) rfl (by decide) (prior := [0]) (by decide) hz (P := 0) (by simp) junk
      (by decide) (cfg := ⟨3, n, 1, true⟩) q1 q2 q3 q4 q5 hmst hB.le (u := ⟨twoStart, floatEdgeArray twoStart⟩) hrun h0 (fun _ _ => rfl) fun _ _ _ _ _ _ => rfl
  · have key := floatTrain_near_few (numpyOps_ok (M := 2) (by norm_num)) (seqDot_near (by norm_num) float32_mono) ht hm hc twoTable_categorical (by decide) (fun v hv => (hw v hv).2) two_few
      float32_isRounding float64_isRounding float64_isRounding hgl (by norm_num) sumAbsOk_foldl floorExp_ok (num := num) (fun _ _ => rfl) rfl (by decide) (prior := [0]) (by decide) hz (P := 0) (by simp) junk
      (by decide) (cfg := ⟨3, n, 1, true⟩) (fuel := 14) q1 q2 q3 q4 q5 hmst hmst' (u := ⟨twoStart, floatEdgeArray twoStart⟩) hrun h0
      (f := fun a _ => if a ⟨1, by decide⟩ ⟨0, by decide⟩ = a ⟨0, by decide⟩ ⟨0, by decide⟩ then 1 else 0) (fun _ _ _ _ => rfl) (lo := 0) (hi := 1) (fun a T _ _ => by split <;> norm_num)
    rw [hcast] at key
    refine key.trans (le_of_eq ?_)
    show ((((3 : Int) : ℝ) + ((n : Int).toNat : ℝ)) * (2 : Nat) * Spec.rowErr 2 2 0 6 + (((3 : Int) : ℝ) * (2 : Nat) + ((n : Int).toNat : ℝ)) * Spec.treeErr 2 2 2 (1 / 2 ^ 20) (2 ^ (-24 : Int)) 0) * (1 - 0) = _
    rw [Int.toNat_natCast]
    push_cast
    ring
  · have key := k2 hmst (cfg := ⟨3, n, 1, true⟩) (fuel := 14) q1 q2 q3 q4 q5 (u := ⟨twoStart, floatEdgeArray twoStart⟩) hrun h0
      (f := fun a _ => if a ⟨1, by decide⟩ ⟨0, by decide⟩ = a ⟨0, by decide⟩ ⟨0, by decide⟩ then 1 else 0) (fun _ _ _ _ => rfl) (lo := 0) (hi := 1) (fun a T _ => by split <;> norm_num)
    refine key.trans (le_of_eq ?_)
    show (ρ ^ ((n : Int).toNat) + 2 * ((2 : Nat) * Spec.rowErr 2 2 0 6 + Spec.treeErr 2 2 2 (1 / 2 ^ 20) (2 ^ (-24 : Int)) 0) / (1 - ρ)) * (1 - 0) = _
    rw [Int.toNat_natCast]
    push_cast
    ring

end TreeCat
