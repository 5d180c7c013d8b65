import Verif.Lemmas.FloatTrainSim
import Verif.Props.Convergence

/-!
# C80: training in float32

`Model/FloatTrain` says what `train` does in floating point. Its counts are exact, but the classes and the trees that it draws come from rounded weights. The theorems bound how far
the law of the assignments and the tree is from that of exact training, and from the posterior.
-/

namespace TreeCat

open Util Spec

/-- The value of a function of assignments and tree at the end of a run in floating point. -/
noncomputable def floatEnd {α : Type} {M : Nat} (t : Table) (f : Latent t M → List Edge → ℝ) : Except PyErr α × FloatTrainer M → ℝ :=
  okState fun u => f (fun n v => u.stats.assign n v) u.stats.tree.getEdges

/-- The same for an exact run. -/
noncomputable def exactEnd {α : Type} {M : Nat} (t : Table) (f : Latent t M → List Edge → ℝ) : Except PyErr α × Trainer ℝ M → ℝ :=
  okState fun s => f (fun n v => s.assign n v) s.tree.getEdges

/-! ### Epochs as lists of actions -/

/-- The actions of one full epoch: a tree, and every row is removed and added again. -/
def epochActions (N : Nat) : List Action := .sampleTree :: (List.range N).flatMap fun r => [.removeRow r, .addRow r]

/-- The actions of `n` full epochs. -/
def epochsActions (N : Nat) : Nat → List Action
  | 0 => []
  | n + 1 => epochActions N ++ epochsActions N n

theorem forM_app {m : Type → Type} [Monad m] [LawfulMonad m] {α : Type} (a b : List α) (g : α → m PUnit) : (a ++ b).forM g = a.forM g >>= fun _ => b.forM g := by
  induction a with
  | nil => exact (pure_bind (m := m) PUnit.unit fun _ => b.forM g).symm
  | cons x a ih =>
    show (g x >>= fun _ => (a ++ b).forM g) = (g x >>= fun _ => a.forM g) >>= _
    rw [ih, bind_assoc]

theorem forM_flatMap {m : Type → Type} [Monad m] [LawfulMonad m] {α β : Type} (l : List α) (f : α → List β) (g : β → m PUnit) :
    (l.flatMap f).forM g = l.forM fun a => (f a).forM g := by
  induction l with
  | nil => rfl
  | cons a l ih => rw [List.flatMap_cons, forM_app, ih]; rfl

section
variable {m : Type → Type} [Monad m] [LawfulMonad m] {M : Nat} [NeZero M]

theorem floatFullScan_actions [Choose ℚ m] [Shuffle m] [Rands m] (A : FloatOps M) (rs rd gl : ℚ → ℚ) (sum : List ℚ → ℚ) (fexp : ℚ → ℚ) (junk : Nat → Nat) (t : Table) (prior : List ℚ) :
    (floatFullScan A rs rd gl sum fexp junk t prior : FloatTrainM M m Unit) = (epochActions t.numRows).forM (floatRunAction A rs rd gl sum fexp junk t prior) := by
  show _ = floatRunAction A rs rd gl sum fexp junk t prior .sampleTree >>= fun _ => ((List.range t.numRows).flatMap fun r => [Action.removeRow r, .addRow r]).forM _
  have e : ∀ r, ([Action.removeRow r, .addRow r].forM (floatRunAction A rs rd gl sum fexp junk t prior) : FloatTrainM M m PUnit)
      = floatTrainRemoveRow t r >>= fun _ => floatTrainAddRow A t r := fun r => by
    show (floatTrainRemoveRow t r >>= fun _ => floatTrainAddRow A t r >>= fun _ => pure PUnit.unit : FloatTrainM M m PUnit) = _
    simp only [bind_pure_unit]
  rw [forM_flatMap, funext e]
  simp only [floatFullScan, floatRunAction, bind_assoc]

theorem fullScan_actions {K : Type} [Field K] [LinearOrder K] [Choose K m] [Shuffle m] (num : Num K) (junk : Nat → Nat) (t : Table) (prior : List K) :
    (fullScan num junk t prior : TrainM K M m Unit) = (epochActions t.numRows).forM (runAction num junk t prior) := by
  show _ = runAction num junk t prior .sampleTree >>= fun _ => ((List.range t.numRows).flatMap fun r => [Action.removeRow r, .addRow r]).forM _
  have e : ∀ r, ([Action.removeRow r, .addRow r].forM (runAction num junk t prior) : TrainM K M m PUnit) = removeRow t r >>= fun _ => addRow t r := fun r => by
    show (removeRow t r >>= fun _ => addRow t r >>= fun _ => pure PUnit.unit : TrainM K M m PUnit) = _
    simp only [bind_pure_unit]
  rw [forM_flatMap, funext e]
  simp only [fullScan, runAction, bind_assoc]

theorem replicate_actions {run : Action → m PUnit} {x : m PUnit} {N : Nat} (h : x = (epochActions N).forM run) (n : Nat) :
    ((List.replicate n ()).forM fun _ => x) = (epochsActions N n).forM run := by
  induction n with
  | zero => rfl
  | succ n ih =>
    rw [epochsActions, forM_app, ← ih, h]
    rfl

end

theorem legal_rows {N : Nat} : ∀ (l : List Nat), (∀ r ∈ l, r < N) → ∀ {rest : List Action} {T : Finset Nat}, Legal N (Finset.range N) rest T →
    Legal N (Finset.range N) (l.flatMap (fun r => [.removeRow r, .addRow r]) ++ rest) T := by
  intro l
  induction l with
  | nil => exact fun _ _ _ h => h
  | cons r l ih =>
    intro hl rest T h
    have hr := Finset.mem_range.2 (hl r (List.mem_cons_self ..))
    refine ⟨hr, hl r (List.mem_cons_self ..), Finset.notMem_erase _ _, ?_⟩
    rw [Finset.insert_erase hr]
    exact ih (fun r hr => hl r (List.mem_cons_of_mem _ hr)) h

theorem legal_epochs {N : Nat} (hN : 0 < N) (n : Nat) : Legal N (Finset.range N) (epochsActions N n) (Finset.range N) := by
  induction n with
  | zero => rfl
  | succ n ih =>
    rw [epochsActions, epochActions, List.cons_append]
    exact ⟨⟨0, Finset.mem_range.2 hN⟩, legal_rows _ (fun r hr => List.mem_range.1 hr) ih⟩

theorem numAdds_rows (l : List Nat) : numAdds (l.flatMap fun r => [.removeRow r, .addRow r]) = l.length := by
  induction l with
  | nil => rfl
  | cons r l ih =>
    rw [List.flatMap_cons, numAdds_append, ih, List.length_cons]
    simp [numAdds]
    omega

theorem numAdds_epoch (N : Nat) : numAdds (epochActions N) = N := by
  rw [epochActions, show numAdds (.sampleTree :: (List.range N).flatMap fun r => [.removeRow r, .addRow r]) = numAdds ((List.range N).flatMap fun r => [.removeRow r, .addRow r]) by simp [numAdds],
    numAdds_rows, List.length_range]

theorem count_rows (l : List Nat) : (l.flatMap fun r => [Action.removeRow r, .addRow r]).count .sampleTree = 0 := by
  rw [List.count_eq_zero, List.mem_flatMap]
  rintro ⟨r, -, h⟩
  simp at h

theorem count_epoch (N : Nat) : (epochActions N).count .sampleTree = 1 := by
  rw [epochActions, List.count_cons_self, count_rows]

/-! ### The theorems -/

section
variable {rs rd rp gl fexp : ℚ → ℚ} {sum : List ℚ → ℚ} {γ η : ℝ} {M : Nat} [NeZero M] {t : Table} {A : FloatOps M} (O : Spec.OpsOk A) (N : Spec.DotNear A.dot) (ht : Table.Ordered t)
  (hm : AllMultinomial t) (hc : Table.Counts t)
  (hcat : ∀ row, Spec.Categorical t row) (hN : t.numRows < 2 ^ 14) (hw : ∀ v < t.numCols, t.stop v - t.beg v ≤ 2 ^ 23) {j : Nat} (hj : M = 2 ^ j)
  (R : IsRounding 24 (-149) rs) (D : IsRounding 53 (-1074) rd) (Rp : IsRounding 53 (-1074) rp) (G : GammalnOk gl γ) (hγ : 0 ≤ γ)
  (Su : SumAbsOk sum) (hexp : ExpOk fexp η) {num : Num ℝ} (hn : ∀ x, 0 < x → num.gammaln x = Real.log (Real.Gamma x))
  (hnum : num.exp = Real.exp) (hV : t.numCols ^ 2 ≤ 2 ^ 25) {prior : List ℚ} (hp : prior.length = t.numCols * (t.numCols - 1) / 2) (hpf : ∀ x ∈ prior, IsFloat 24 (-149) x)
  {P : ℝ} (hP : ∀ x ∈ prior, |(x : ℝ)| ≤ P) (junk : Nat → Nat)
include O N ht hm hc hcat hN hw hj R D Rp G hγ Su hexp hn hnum hV hp hpf hP

/-- **C80** (actions). Carry out any legal list of actions, from any state that calls can lead to, in float32 and exactly. For every function of the assignments and the tree with
values in `[lo, hi]` the expected values at the end differ by at most `(a rowErr + b treeErr + U) (hi - lo)`, for `a` added rows, `b` sampled trees, and `U` the expected number
of times that something underflows while a row is added. -/
theorem floatActions_near {l : List Action} {S T : Finset Nat} (hl : Legal t.numRows S l T) {u : FloatTrainer M} (hu : FloatRun t u.stats u.edge) (hS : u.stats.added = S)
    {f : Latent t M → List Edge → ℝ} {lo hi : ℝ} (hf : ∀ a T, Canonical T → IsTree t.numCols T → lo ≤ f a T ∧ f a T ≤ hi) :
    |(l.forM (floatRunAction A rs rd gl sum fexp junk t prior) : FloatTrainM M (FloatExpect rs rp (2 ^ 53)) Unit).run.run u (floatEnd t f)
      - (l.forM (runAction num junk t (prior.map fun x : ℚ => (x : ℝ))) : TrainM ℝ M (Expect ℝ) Unit).run.run (realTrainer u.stats) (exactEnd t f)|
      ≤ (numAdds l * Spec.rowErr t.numCols M 0 6 + l.count .sampleTree * Spec.treeErr t.numCols M t.numRows γ η P + unclearCount A rs rd rp gl sum fexp junk t prior l u) * (hi - lo) :=
  (Sim.actions O N ht hm hc hcat hN hw hj R D Rp G hγ Su hexp hn hnum hV hp hpf hP junk l S T hl).near u ⟨hu, hS⟩ (fun s => f (fun n v => s.assign n v) s.tree.getEdges) lo hi
    fun u hu => by
      have := good_realTrainer (floatRun_inv ht hm hN hu.1).1
      exact hf _ _ this.canonical this.isTree

/-- **C80** (success). No action raises, and afterwards the rows are those that the actions lead to, in a state from which everything in C65 and C77 holds again. -/
theorem floatActions_ok {l : List Action} {S T : Finset Nat} (hl : Legal t.numRows S l T) {u : FloatTrainer M} (hu : FloatRun t u.stats u.edge) (hS : u.stats.added = S)
    (F : Except PyErr Unit × FloatTrainer M → ℝ) (hF : ∀ u, FloatRun t u.stats u.edge → u.stats.added = T → F (.ok (), u) = 1) (hF0 : ∀ e u, F (.error e, u) = 0) :
    (l.forM (floatRunAction A rs rd gl sum fexp junk t prior) : FloatTrainM M (FloatExpect rs rp (2 ^ 53)) Unit).run.run u F = 1 := by
  have h := (Sim.actions O N ht hm hc hcat hN hw hj R D Rp G hγ Su hexp hn hnum hV hp hpf hP junk l S T hl).float u ⟨hu, hS⟩
  rw [← h.one, show F = okState fun u => F (.ok (), u) from funext fun o => by
    obtain ⟨r, s⟩ := o
    cases r
    · exact hF0 _ _
    · rfl]
  exact h.congr _ _ fun u hu => hF u hu.1 hu.2

theorem unclear_append : ∀ (l l' : List Action) (S S' : Finset Nat), Legal t.numRows S l S' → ∀ u : FloatTrainer M, FloatAt t S u →
    unclearCount A rs rd rp gl sum fexp junk t prior (l ++ l') u = unclearCount A rs rd rp gl sum fexp junk t prior l u +
      (l.forM (floatRunAction A rs rd gl sum fexp junk t prior) : FloatTrainM M (FloatExpect rs rp (2 ^ 53)) Unit).run.run u
        (okState (unclearCount A rs rd rp gl sum fexp junk t prior l')) := by
  intro l l'
  induction l with
  | nil => exact fun S S' h u hu => (zero_add _).symm
  | cons a l ih =>
    have step : ∀ {S S1 S' : Finset Nat} {ε : FloatTrainer M → ℝ}, Sim (rs := rs) (rp := rp) (FloatAt t S) (FloatAt t S1) (floatRunAction A rs rd gl sum fexp junk t prior a)
        (runAction num junk t (prior.map fun x : ℚ => (x : ℝ)) a) ε → Legal t.numRows S1 l S' → ∀ u : FloatTrainer M, FloatAt t S u →
        unclearCount A rs rd rp gl sum fexp junk t prior (a :: l ++ l') u = unclearCount A rs rd rp gl sum fexp junk t prior (a :: l) u +
          ((a :: l).forM (floatRunAction A rs rd gl sum fexp junk t prior) : FloatTrainM M (FloatExpect rs rp (2 ^ 53)) Unit).run.run u
            (okState (unclearCount A rs rd rp gl sum fexp junk t prior l')) := by
      intro S S1 S' ε h1 h2 u hu
      have e := floatBind_run (floatRunAction A rs rd gl sum fexp junk t prior a : FloatTrainM M (FloatExpect rs rp (2 ^ 53)) Unit)
        (fun _ => l.forM (floatRunAction A rs rd gl sum fexp junk t prior)) u (unclearCount A rs rd rp gl sum fexp junk t prior l')
      have e' : ((a :: l).forM (floatRunAction A rs rd gl sum fexp junk t prior) : FloatTrainM M (FloatExpect rs rp (2 ^ 53)) Unit).run.run u
          (okState (unclearCount A rs rd rp gl sum fexp junk t prior l')) = _ := e
      rw [e', List.cons_append, unclearCount, unclearCount, add_assoc]
      congr 1
      rw [(h1.float u hu).congr _ _ fun u' hu' => ih S1 S' h2 u' hu']
      have := (h1.float u hu).lin (unclearCount A rs rd rp gl sum fexp junk t prior l)
        (fun u => (l.forM (floatRunAction A rs rd gl sum fexp junk t prior) : FloatTrainM M (FloatExpect rs rp (2 ^ 53)) Unit).run.run u (okState (unclearCount A rs rd rp gl sum fexp junk t prior l'))) 1
      simp only [one_mul] at this
      exact this
    intro S S' hl
    cases a with
    | addRow r => exact step (Sim.addRow O N ht hm hc hcat hN hw hj hl.1 hl.2.1) hl.2.2
    | removeRow r => exact step (Sim.removeRow ht hm hN hl.1) hl.2
    | sampleTree => exact step (Sim.sampleTree ht hm hN R D Rp G hγ Su hexp hn hnum hV hp hpf hP junk A S) hl.2

theorem unclear_nonneg : ∀ (l : List Action) (S S' : Finset Nat), Legal t.numRows S l S' → ∀ u : FloatTrainer M, FloatAt t S u → 0 ≤ unclearCount A rs rd rp gl sum fexp junk t prior l u := by
  intro l
  induction l with
  | nil => exact fun S S' h u hu => le_refl _
  | cons a l ih =>
    intro S S' hl u hu
    rw [unclearCount]
    have hrow : ∀ r, 0 ≤ rowUnclear A t r u := fun r => by unfold rowUnclear; split <;> norm_num
    cases a with
    | addRow r => exact add_nonneg (hrow r) (((Sim.addRow O N ht hm hc hcat hN hw hj hl.1 hl.2.1).float u hu).pos _ (ih _ _ hl.2.2))
    | removeRow r => exact add_nonneg (le_refl _) (((Sim.removeRow ht hm hN hl.1).float u hu).pos _ (ih _ _ hl.2))
    | sampleTree => exact add_nonneg (le_refl _) (((Sim.sampleTree ht hm hN R D Rp G hγ Su hexp hn hnum hV hp hpf hP junk A S).float u hu).pos _ (ih _ _ hl.2))

/-- **C80** (the posterior). From every state in which all rows are added, let training run `n` full epochs in float32. There is a rate `ρ < 1`, depending on table, prior and number
of clusters only, such that for every function of assignments and tree with values in `[lo, hi]` the expected value at the end is within
`(ρ ^ n + 2 (N rowErr + treeErr) / (1 - ρ) + 2 U) (hi - lo)` of its posterior mean, where `U` is the expected number of underflows. The rounding errors do not pile up. -/
theorem floatEpochs_posterior (hV1 : 1 ≤ t.numCols) (hM : M ≤ 128) (hN0 : 0 < t.numRows) (trees : Finset (List Edge)) (htrees : ∀ T, T ∈ trees ↔ Canonical T ∧ IsTree t.numCols T) :
    ∃ ρ : ℝ, 0 ≤ ρ ∧ ρ < 1 ∧ ∀ (u : FloatTrainer M), FloatRun t u.stats u.edge → u.stats.added = Finset.range t.numRows → ∀ (f : Latent t M → List Edge → ℝ) (lo hi : ℝ),
      (∀ a, ∀ T ∈ trees, lo ≤ f a T ∧ f a T ≤ hi) → ∀ n : Nat,
      |((List.replicate n ()).forM fun _ => floatFullScan A rs rd gl sum fexp junk t prior : FloatTrainM M (FloatExpect rs rp (2 ^ 53)) Unit).run.run u (floatEnd t f)
        - (∑ a, ∑ T ∈ trees, posterior t (prior.map fun x : ℚ => (x : ℝ)) a T * f a T) / ∑ a : Latent t M, ∑ T ∈ trees, posterior t (prior.map fun x : ℚ => (x : ℝ)) a T|
        ≤ (ρ ^ n + 2 * (t.numRows * Spec.rowErr t.numCols M 0 6 + Spec.treeErr t.numCols M t.numRows γ η P) / (1 - ρ)
            + 2 * unclearCount A rs rd rp gl sum fexp junk t prior (epochsActions t.numRows n) u) * (hi - lo) := by
  have hV' : t.numCols ≤ 32768 := by nlinarith
  obtain ⟨ρ, h0, h1, hconv⟩ := fullScan_converges_full (M := M) hn hnum ht hm hc hV1 hV' hM (prior.map fun x : ℚ => (x : ℝ)) (by rw [List.length_map]; exact hp) trees htrees junk
  refine ⟨ρ, h0, h1, fun u hu hS f lo hi hf n => ?_⟩
  set pi := (∑ a, ∑ T ∈ trees, posterior t (prior.map fun x : ℚ => (x : ℝ)) a T * f a T) / ∑ a : Latent t M, ∑ T ∈ trees, posterior t (prior.map fun x : ℚ => (x : ℝ)) a T with hpi
  set err := t.numRows * Spec.rowErr t.numCols M 0 6 + Spec.treeErr t.numCols M t.numRows γ η P with herr
  set X : List Action → FloatTrainM M (FloatExpect rs rp (2 ^ 53)) Unit := fun l => l.forM (floatRunAction A rs rd gl sum fexp junk t prior) with hX
  set Y : List Action → TrainM ℝ M (Expect ℝ) Unit := fun l => l.forM (runAction num junk t (prior.map fun x : ℚ => (x : ℝ))) with hY
  set U : List Action → FloatTrainer M → ℝ := unclearCount A rs rd rp gl sum fexp junk t prior with hU
  set g : Trainer ℝ M → ℝ := fun s => f (fun n v => s.assign n v) s.tree.getEdges with hg
  have sim : ∀ l S T, Legal t.numRows S l T → _ := Sim.actions O N ht hm hc hcat hN hw hj R D Rp G hγ Su hexp hn hnum hV hp hpf hP junk
  have hfull : ∀ u : FloatTrainer M, FloatAt t (Finset.range t.numRows) u → Full t (realTrainer u.stats) := fun u hu =>
    ⟨good_realTrainer (floatRun_inv ht hm hN hu.1).1, hu.2⟩
  have hbd : ∀ u : FloatTrainer M, FloatAt t (Finset.range t.numRows) u → lo ≤ g (realTrainer u.stats) ∧ g (realTrainer u.stats) ≤ hi := fun u hu =>
    hf _ _ ((htrees _).2 ⟨(hfull u hu).canonical, (hfull u hu).isTree⟩)
  have hspan : 0 ≤ hi - lo := by obtain ⟨a, b⟩ := hbd u ⟨hu, hS⟩; linarith
  -- the exact epochs
  have hexact : ∀ n, ∀ u : FloatTrainer M, FloatAt t (Finset.range t.numRows) u → |(Y (epochsActions t.numRows n)).run.run (realTrainer u.stats) (okState g) - pi| ≤ ρ ^ n * (hi - lo) := by
    intro n u hu
    have h := hconv (fun r a T => match r with
      | .ok _ => f a T
      | .error _ => 0) lo hi hf (realTrainer u.stats) (hfull u hu) n
    rw [replicate_actions (fullScan_actions (M := M) (m := Expect ℝ) num junk t (prior.map fun x : ℚ => (x : ℝ))) n] at h
    refine le_of_eq_of_le (congrArg (fun x : ℝ => |x - pi|) (congrArg (show (Except PyErr Unit × Trainer ℝ M → ℝ) → ℝ from (Y (epochsActions t.numRows n)).run.run (realTrainer u.stats)) (funext fun o => ?_))) h
    obtain ⟨r, s⟩ := o
    cases r <;> rfl
  have herr0 : 0 ≤ err := by
    have k1 : 0 ≤ Spec.rowErr t.numCols M 0 6 := by unfold Spec.rowErr; positivity
    have k2 : 0 ≤ Spec.treeErr t.numCols M t.numRows γ η P := by
      have k3 := hexp.eta_nonneg
      have k4 := Real.one_le_exp (mul_nonneg (zero_le_two (α := ℝ)) (logitSlack_nonneg (N := t.numRows) hγ (Nat.one_le_iff_ne_zero.2 (NeZero.ne M)) P))
      unfold Spec.treeErr
      have k5 : (0 : ℝ) ≤ (t.numCols : ℝ) ^ 2 / 4 * (2 ^ (-22 : Int) + 2 ^ (-52 : Int) + η) := by positivity
      exact mul_nonneg (Nat.cast_nonneg _) (by linarith)
    rw [herr]
    positivity
  have main : ∀ n, ∀ u : FloatTrainer M, FloatAt t (Finset.range t.numRows) u →
      |(X (epochsActions t.numRows n)).run.run u (okState fun u => g (realTrainer u.stats)) - (Y (epochsActions t.numRows n)).run.run (realTrainer u.stats) (okState g)|
        ≤ (2 * err * ∑ k ∈ Finset.range n, ρ ^ k + 2 * U (epochsActions t.numRows n) u) * (hi - lo) := by
    intro n
    induction n with
    | zero =>
      intro u hu
      show |g (realTrainer u.stats) - g (realTrainer u.stats)| ≤ _
      simp [hU, unclearCount, epochsActions]
    | succ n ih =>
      intro u hu
      have hep : Legal t.numRows (Finset.range t.numRows) (epochActions t.numRows) (Finset.range t.numRows) := by simpa [epochsActions] using legal_epochs hN0 1
      have s1 := sim (epochActions t.numRows) _ _ hep
      have e1 : (X (epochsActions t.numRows (n + 1))).run.run u (okState fun u => g (realTrainer u.stats))
          = (X (epochActions t.numRows)).run.run u (okState fun u' => (X (epochsActions t.numRows n)).run.run u' (okState fun u => g (realTrainer u.stats))) := by
        rw [hX, epochsActions]
        simp only
        rw [forM_app]
        exact floatBind_run _ (fun _ => X (epochsActions t.numRows n)) u _
      have e2 : (Y (epochsActions t.numRows (n + 1))).run.run (realTrainer u.stats) (okState g)
          = (Y (epochActions t.numRows)).run.run (realTrainer u.stats) (okState fun s' => (Y (epochsActions t.numRows n)).run.run s' (okState g)) := by
        rw [hY, epochsActions]
        simp only
        rw [forM_app]
        exact exactBind_run _ (fun _ => Y (epochsActions t.numRows n)) _ _
      have e3 : U (epochsActions t.numRows (n + 1)) u = U (epochActions t.numRows) u + (X (epochActions t.numRows)).run.run u (okState (U (epochsActions t.numRows n))) :=
        unclear_append O N ht hm hc hcat hN hw hj R D Rp G hγ Su hexp hn hnum hV hp hpf hP junk _ _ _ _ hep u hu
      rw [e1, e2, e3]
      have k1 := (s1.float u hu).near_le (f := fun u' => (X (epochsActions t.numRows n)).run.run u' (okState fun u => g (realTrainer u.stats)))
        (g := fun u' => (Y (epochsActions t.numRows n)).run.run (realTrainer u'.stats) (okState g)) ih
      have k2 := s1.near u hu (fun s' => (Y (epochsActions t.numRows n)).run.run s' (okState g)) (pi - ρ ^ n * (hi - lo)) (pi + ρ ^ n * (hi - lo)) fun u' hu' => by
        have := abs_le.1 (hexact n u' hu')
        constructor <;> linarith
      refine le_trans (abs_sub_le _ _ _) (le_trans (add_le_add k1 k2) ?_)
      rw [(s1.float u hu).scale]
      have h3 := (s1.float u hu).lin (fun _ => 2 * err * ∑ k ∈ Finset.range n, ρ ^ k) (U (epochsActions t.numRows n)) 2
      rw [(s1.float u hu).const] at h3
      rw [h3, numAdds_epoch, count_epoch, Nat.cast_one, one_mul, ← herr, Finset.sum_range_succ]
      have hU1 : 0 ≤ U (epochActions t.numRows) u := unclear_nonneg O N ht hm hc hcat hN hw hj R D Rp G hγ Su hexp hn hnum hV hp hpf hP junk _ _ _ hep u hu
      have hρ : ρ ^ n ≤ 1 := pow_le_one₀ h0 h1.le
      have hρ0 : 0 ≤ ρ ^ n := pow_nonneg h0 n
      have k3 : U (epochActions t.numRows) u * ρ ^ n ≤ U (epochActions t.numRows) u := mul_le_of_le_one_right hU1 hρ
      have k4 := mul_le_mul_of_nonneg_right k3 hspan
      nlinarith
  have hsum : ∑ k ∈ Finset.range n, ρ ^ k ≤ 1 / (1 - ρ) := by
    rw [le_div_iff₀ (by linarith), mul_comm, mul_neg_geom_sum]
    have := pow_nonneg h0 n
    linarith
  rw [replicate_actions (floatFullScan_actions (m := FloatExpect rs rp (2 ^ 53)) A rs rd gl sum fexp junk t prior) n]
  have k1 := main n u ⟨hu, hS⟩
  have k2 := hexact n u ⟨hu, hS⟩
  refine le_trans (abs_sub_le _ _ _) (le_trans (add_le_add k1 k2) ?_)
  have k3 := mul_le_mul_of_nonneg_left hsum (mul_nonneg (zero_le_two (α := ℝ)) herr0)
  rw [mul_one_div] at k3
  have k4 := mul_le_mul_of_nonneg_right k3 hspan
  linarith

end

/-! ### A case that meets the hypotheses -/

theorem two_start_clear : rowUnclear (numpyOps 2) twoTable 1 ⟨twoStart, floatEdgeArray twoStart⟩ = 0 := if_pos (by decide +kernel)

/-- A row is added to an empty trainer of two clusters, then a tree is sampled. Nothing underflows. -/
example : ∃ (gl fexp : ℚ → ℚ) (sum : List ℚ → ℚ) (num : Num ℝ), ∀ junk,
    |(([.addRow 1, .sampleTree] : List Action).forM (floatRunAction (numpyOps 2) float32 float64 gl sum fexp junk twoTable [0]) :
        FloatTrainM 2 (FloatExpect float32 float64 (2 ^ 53)) Unit).run.run ⟨twoStart, floatEdgeArray twoStart⟩ (floatEnd twoTable fun a _ => if a ⟨1, by decide⟩ ⟨0, by decide⟩ = 0 then 1 else 0)
      - (([.addRow 1, .sampleTree] : List Action).forM (runAction num junk twoTable [0]) : TrainM ℝ 2 (Expect ℝ) Unit).run.run (realTrainer twoStart)
        (exactEnd twoTable fun a _ => if a ⟨1, by decide⟩ ⟨0, by decide⟩ = 0 then 1 else 0)|
      ≤ Spec.rowErr 2 2 0 6 + Spec.treeErr 2 2 2 (1 / 2 ^ 20) (2 ^ (-24 : Int)) 0 := by
  obtain ⟨gl, hgl⟩ := exists_gammalnOk
  have hm : AllMultinomial twoTable := by intro ty hty; simpa [twoTable, tyMultinomial] using hty
  have ht : Table.Ordered twoTable := ⟨by decide, by decide⟩
  have hw : ∀ v < twoTable.numCols, twoTable.beg v < twoTable.stop v ∧ twoTable.stop v - twoTable.beg v ≤ 2 ^ 23 := by decide
  have hc : Table.Counts twoTable := ⟨fun n r => (twoTable_cell n r).1, fun v hv => (hw v hv).1⟩
  have hrun : FloatRun twoTable twoStart (floatEdgeArray twoStart) := FloatRun.init (n := 1) (except_get _)
  have hz : ∀ x ∈ ([0] : List ℚ), IsFloat 24 (-149) x := by
    intro x hx
    rw [List.mem_singleton.1 hx]
    exact isFloat_zero ..
  have h0 : twoStart.added = ∅ := by decide +kernel
  have hl : Legal twoTable.numRows ∅ [.addRow 1, .sampleTree] {1} := ⟨by decide, by decide, by decide, rfl⟩
  set num : Num ℝ := ⟨Real.exp, fun x => Real.log (Real.Gamma x)⟩
  refine ⟨gl, floorExp, fun xs => xs.foldl (fun a x => float32 (a + x)) 0, num, fun junk => ?_⟩
  have key := floatActions_near (numpyOps_ok (M := 2) (by norm_num)) (seqDot_near (by norm_num) float32_mono) ht hm hc twoTable_categorical (by decide) (fun v hv => (hw v hv).2) (j := 1) rfl
    float32_isRounding float64_isRounding float64_isRounding hgl (by norm_num) sumAbsOk_foldl floorExp_ok (num := num) (fun _ _ => rfl) rfl (by decide) (prior := [0]) (by decide) hz (P := 0) (by simp) junk
    hl (u := ⟨twoStart, floatEdgeArray twoStart⟩) hrun h0 (f := fun a _ => if a ⟨1, by decide⟩ ⟨0, by decide⟩ = 0 then 1 else 0) (lo := 0) (hi := 1) (fun a _ _ _ => by split <;> norm_num)
  have hu : unclearCount (numpyOps 2) float32 float64 float64 gl (fun xs => xs.foldl (fun a x => float32 (a + x)) 0) floorExp junk twoTable [0] [.addRow 1, .sampleTree] ⟨twoStart, floatEdgeArray twoStart⟩ = 0 := by
    have s1 := (Sim.addRow (rs := float32) (rp := float64) (S := ∅) (numpyOps_ok (M := 2) (by norm_num)) (seqDot_near (by norm_num) float32_mono) ht hm hc twoTable_categorical (by decide) (fun v hv => (hw v hv).2) (j := 1) rfl
      hl.1 hl.2.1).float ⟨twoStart, floatEdgeArray twoStart⟩ ⟨hrun, h0⟩
    have s2 : ∀ u : FloatTrainer 2, FloatAt twoTable (insert 1 ∅) u →
        unclearCount (numpyOps 2) float32 float64 float64 gl (fun xs => xs.foldl (fun a x => float32 (a + x)) 0) floorExp junk twoTable [0] [.sampleTree] u = 0 := fun u hu =>
      (zero_add _).trans (((Sim.sampleTree (num := num) ht hm (by decide) float32_isRounding float64_isRounding float64_isRounding hgl (by norm_num) sumAbsOk_foldl floorExp_ok (fun _ _ => rfl) rfl (by decide)
        (prior := [0]) (by decide) hz (P := 0) (by simp) junk (numpyOps 2) (insert 1 ∅)).float u hu).const 0)
    exact (congrArg₂ (· + ·) two_start_clear ((s1.congr _ (fun _ => 0) s2).trans (s1.const 0))).trans (zero_add _)
  rw [hu] at key
  have e1 : numAdds [.addRow 1, .sampleTree] = 1 := rfl
  have e2 : ([.addRow 1, .sampleTree] : List Action).count .sampleTree = 1 := rfl
  rw [e1, e2] at key
  have hcast : ([0] : List ℚ).map (fun x : ℚ => (x : ℝ)) = [0] := by simp
  rw [hcast] at key
  refine key.trans (le_of_eq ?_)
  show ((1 : Nat) * Spec.rowErr 2 2 0 6 + (1 : Nat) * Spec.treeErr 2 2 2 (1 / 2 ^ 20) (2 ^ (-24 : Int)) 0 + 0) * (1 - 0) = _
  rw [Nat.cast_one, one_mul, one_mul, add_zero, sub_zero, mul_one]

end TreeCat
