import Verif.Lemmas.FloatTrain
import Verif.Props.FloatLearn

/-! # Training in floating point follows exact training -/

namespace TreeCat

open Util Spec

/-! ### Two programs side by side -/

/-- The value of a function of the state at the end; an exception counts zero. -/
def okState {σ α : Type} (F : σ → ℝ) : Except PyErr α × σ → ℝ
  | (.ok _, s) => F s
  | (.error _, _) => 0

theorem Avg.near_le {α : Type} {D H : α → Prop} {E : (α → ℝ) → ℝ} (h : Avg D H E) {f g e : α → ℝ} (hfg : ∀ a, D a → |f a - g a| ≤ e a) : |E f - E g| ≤ E e := by
  have h1 := h.pos (fun a => e a + (-1) * (f a + (-1) * g a)) fun a ha => by have := (abs_le.1 (hfg a ha)).2; linarith
  have h2 := h.pos (fun a => e a + (-1) * (g a + (-1) * f a)) fun a ha => by have := (abs_le.1 (hfg a ha)).1; linarith
  rw [h.lin e, h.lin] at h1 h2
  rw [abs_le]
  constructor <;> linarith

theorem Avg.scale {α : Type} {D H : α → Prop} {E : (α → ℝ) → ℝ} (h : Avg D H E) (f : α → ℝ) (c : ℝ) : E (fun a => f a * c) = E f * c := by
  have h0 := h.lin (fun _ => 0) f c
  rw [h.const, zero_add] at h0
  rw [mul_comm, ← h0]
  exact congrArg E (funext fun a => by ring)

section
variable {rs rp : ℚ → ℚ} {M : Nat} {P Q R : FloatTrainer M → Prop}

/-- From states with `P`, the code in floating point and the exact code end in states with `Q`, and the means of a function of the state differ by at most `ε` of its range. -/
structure Sim (P Q : FloatTrainer M → Prop) (x : FloatTrainM M (FloatExpect rs rp (2 ^ 53)) Unit) (y : TrainM ℝ M (Expect ℝ) Unit) (ε : FloatTrainer M → ℝ) : Prop where
  float : ∀ s, P s → Avg Q (fun _ => False) fun F => x.run.run s (okState F)
  exact : ∀ s, P s → Avg (fun s' => ∃ u, Q u ∧ s' = realTrainer u.stats) (fun _ => False) fun F => y.run.run (realTrainer s.stats) (okState F)
  near : ∀ s, P s → ∀ (g : Trainer ℝ M → ℝ) (lo hi : ℝ), (∀ u, Q u → lo ≤ g (realTrainer u.stats) ∧ g (realTrainer u.stats) ≤ hi) →
    |x.run.run s (okState fun u => g (realTrainer u.stats)) - y.run.run (realTrainer s.stats) (okState g)| ≤ ε s * (hi - lo)

theorem floatBind_run (x : FloatTrainM M (FloatExpect rs rp (2 ^ 53)) Unit) (y : Unit → FloatTrainM M (FloatExpect rs rp (2 ^ 53)) Unit) (s : FloatTrainer M) (F : FloatTrainer M → ℝ) :
    (x >>= y).run.run s (okState F) = x.run.run s (okState fun u => (y ()).run.run u (okState F)) := by
  refine congrArg (x.run.run s) (funext fun o => ?_)
  obtain ⟨r, s'⟩ := o
  cases r <;> rfl

theorem exactBind_run (x : TrainM ℝ M (Expect ℝ) Unit) (y : Unit → TrainM ℝ M (Expect ℝ) Unit) (s : Trainer ℝ M) (F : Trainer ℝ M → ℝ) :
    (x >>= y).run.run s (okState F) = x.run.run s (okState fun u => (y ()).run.run u (okState F)) := by
  refine congrArg (x.run.run s) (funext fun o => ?_)
  obtain ⟨r, s'⟩ := o
  cases r <;> rfl

theorem Sim.pure : Sim (rs := rs) (rp := rp) P P (pure ()) (pure ()) fun _ => 0 where
  float s h := ((Avg.point s).mono_dom fun b hb => by subst hb; exact h).mono_hit fun _ h => h.elim
  exact s h := ((Avg.point (realTrainer s.stats)).mono_dom fun b hb => ⟨s, h, hb⟩).mono_hit fun _ h => h.elim
  near s h g lo hi hg := by
    show |g (realTrainer s.stats) - g (realTrainer s.stats)| ≤ _
    rw [sub_self, abs_zero, zero_mul]

theorem Sim.bind {x : FloatTrainM M (FloatExpect rs rp (2 ^ 53)) Unit} {y : TrainM ℝ M (Expect ℝ) Unit} {x' : Unit → FloatTrainM M (FloatExpect rs rp (2 ^ 53)) Unit}
    {y' : Unit → TrainM ℝ M (Expect ℝ) Unit} {ε ε' : FloatTrainer M → ℝ} (h : Sim P Q x y ε) (h' : Sim Q R (x' ()) (y' ()) ε') :
    Sim P R (x >>= x') (y >>= y') fun s => ε s + x.run.run s (okState ε') where
  float s hs := by
    have := Avg.bind (F := fun u k => (x' ()).run.run u (okState k)) (H2 := fun _ _ => False) (h.float s hs) fun u hu => h'.float u hu
    refine Eq.mp ?_ (this.mono_hit (H' := fun _ => False) fun _ h => h.elim)
    exact congrArg _ (funext fun F => (floatBind_run x x' s F).symm)
  exact s hs := by
    have := Avg.bind (F := fun u k => (y' ()).run.run u (okState k)) (H2 := fun _ _ => False) (h.exact s hs) (by
      rintro _ ⟨u, hu, rfl⟩
      exact h'.exact u hu)
    refine Eq.mp ?_ (this.mono_hit (H' := fun _ => False) fun _ h => h.elim)
    exact congrArg _ (funext fun F => (exactBind_run y y' _ F).symm)
  near s hs g lo hi hg := by
    rw [floatBind_run, exactBind_run]
    have k1 := (h.float s hs).near_le (f := fun u => (x' ()).run.run u (okState fun u => g (realTrainer u.stats)))
      (g := fun u => (y' ()).run.run (realTrainer u.stats) (okState g)) (e := fun u => ε' u * (hi - lo)) fun u hu => h'.near u hu g lo hi hg
    rw [(h.float s hs).scale] at k1
    have k2 := h.near s hs (fun s' => (y' ()).run.run s' (okState g)) lo hi fun u hu => (h'.exact u hu).mem (by
      rintro _ ⟨u', hu', rfl⟩
      exact hg u' hu')
    refine le_trans (abs_sub_le _ _ _) (le_trans (add_le_add k1 k2) (le_of_eq ?_))
    ring

theorem Sim.mono {x : FloatTrainM M (FloatExpect rs rp (2 ^ 53)) Unit} {y : TrainM ℝ M (Expect ℝ) Unit} {ε ε' : FloatTrainer M → ℝ} (h : Sim P Q x y ε)
    (hε : ∀ s, P s → ε s ≤ ε' s) : Sim P Q x y ε' where
  float := h.float
  exact := h.exact
  near s hs g lo hi hg := by
    refine le_trans (h.near s hs g lo hi hg) (mul_le_mul_of_nonneg_right (hε s hs) ?_)
    obtain ⟨h1, h2⟩ := (h.float s hs).mem (f := fun u => g (realTrainer u.stats)) hg
    linarith

/-- Two averages of a function differ by at most its range. -/
theorem Sim.top {x : FloatTrainM M (FloatExpect rs rp (2 ^ 53)) Unit} {y : TrainM ℝ M (Expect ℝ) Unit} {s : FloatTrainer M}
    (h1 : Avg Q (fun _ => False) fun F => x.run.run s (okState F))
    (h2 : Avg (fun s' => ∃ u, Q u ∧ s' = realTrainer u.stats) (fun _ => False) fun F => y.run.run (realTrainer s.stats) (okState F))
    {g : Trainer ℝ M → ℝ} {lo hi : ℝ} (hg : ∀ u, Q u → lo ≤ g (realTrainer u.stats) ∧ g (realTrainer u.stats) ≤ hi) :
    |x.run.run s (okState fun u => g (realTrainer u.stats)) - y.run.run (realTrainer s.stats) (okState g)| ≤ hi - lo := by
  obtain ⟨a1, a2⟩ := h1.mem (f := fun u => g (realTrainer u.stats)) hg
  obtain ⟨b1, b2⟩ := h2.mem (f := g) (by rintro _ ⟨u, hu, rfl⟩; exact hg u hu)
  rw [abs_le]
  constructor <;> linarith

/-- Code without random choices. -/
theorem Sim.runs {x : FloatTrainM M (FloatExpect rs rp (2 ^ 53)) Unit} {y : TrainM ℝ M (Expect ℝ) Unit} (f : FloatTrainer M → FloatTrainer M) (hx : ∀ s, P s → Runs x s () (f s))
    (hy : ∀ s, P s → Runs y (realTrainer s.stats) () (realTrainer (f s).stats)) (hQ : ∀ s, P s → Q (f s)) : Sim P Q x y fun _ => 0 where
  float s h := by
    refine Eq.mp ?_ (((Avg.point (f s)).mono_dom fun b hb => by subst hb; exact hQ s h).mono_hit (H' := fun _ => False) fun _ h => h.elim)
    exact congrArg _ (funext fun F => (congrFun (show x.run.run s = fun k => k (.ok (), f s) from hx s h) (okState F)).symm)
  exact s h := by
    refine Eq.mp ?_ (((Avg.point (realTrainer (f s).stats)).mono_dom (D' := fun s' => ∃ u, Q u ∧ s' = realTrainer u.stats) fun b hb => ⟨f s, hQ s h, hb⟩).mono_hit (H' := fun _ => False) fun _ h => h.elim)
    exact congrArg _ (funext fun F => (congrFun (show y.run.run (realTrainer s.stats) = fun k => k (.ok (), realTrainer (f s).stats) from hy s h) (okState F)).symm)
  near s h g lo hi hg := by
    rw [show x.run.run s = fun k => k (.ok (), f s) from hx s h, show y.run.run (realTrainer s.stats) = fun k => k (.ok (), realTrainer (f s).stats) from hy s h]
    show |g _ - g _| ≤ _
    rw [sub_self, abs_zero, zero_mul]

end

/-! ### The actions -/

/-- The states that calls can lead to, with the rows `S`. -/
def FloatAt {M : Nat} [NeZero M] (t : Table) (S : Finset Nat) (u : FloatTrainer M) : Prop := FloatRun t u.stats u.edge ∧ u.stats.added = S

/-- One if something underflows when the row is added. -/
noncomputable def rowUnclear {M : Nat} [NeZero M] (A : FloatOps M) (t : Table) (row : Nat) (u : FloatTrainer M) : ℝ :=
  if Spec.rowClear A t row (fun v a => floatVert (u.stats.vertSS v a)) u.edge u.stats.program
    (floatRowInit (fun v a => floatVert (u.stats.vertSS v a)) (fun r a => floatFeat M (u.stats.featSS r a)) (fun v a => floatMeas M (t.stop v - t.beg v) (u.stats.measSS v a)) (u.stats.assign row)) = true
  then 0 else 1

section
variable {rs rp : ℚ → ℚ} {M : Nat} [NeZero M] {t : Table}

theorem floatRand_bind_run {α β : Type} (x : ExceptT PyErr (FloatExpect rs rp (2 ^ 53)) α) (f : α → FloatTrainM M (FloatExpect rs rp (2 ^ 53)) β) (s : FloatTrainer M)
    (g : Except PyErr β × FloatTrainer M → ℝ) : (floatRand x >>= f).run.run s g = x.run fun r => match r with
      | .ok a => (f a).run.run s g
      | .error e => g (.error e, s) := by
  refine congrArg (show (Except PyErr α → ℝ) → ℝ from x.run) (funext fun r => ?_)
  cases r <;> rfl

theorem floatTrainAddRow_run {A : FloatOps M} (hm : AllMultinomial t) {row : Nat} {u : FloatTrainer M} (hr : row ∉ u.stats.added) (hN : row < t.numRows) (F : FloatTrainer M → ℝ) :
    (floatTrainAddRow A t row : FloatTrainM M (FloatExpect rs rp (2 ^ 53)) Unit).run.run u (okState F)
      = (∑ d : Fin t.numCols → Fin (2 ^ 53), Spec.rowValue (fun z => F ⟨added t row z u.stats, floatEdges true u.stats.tree.treeGrid z u.edge⟩)
          (floatAddRow A t row u.stats u.edge (Spec.drawsOf d))) / ((2 ^ 53 : Nat) : ℝ) ^ t.numCols := by
  unfold floatTrainAddRow
  rw [Runs.get.bind_run, if_neg hr, Runs.set.bind_run, (Runs.liftPy (if_pos hN)).bind_run]
  refine (floatRand_bind_run _ _ _ _).trans ?_
  refine congrArg (fun x : ℝ => x / ((2 ^ 53 : Nat) : ℝ) ^ t.numCols) (Finset.sum_congr rfl fun d _ => ?_)
  show (liftPy (floatAddRow A t row u.stats u.edge (Spec.drawsOf d)) >>= _ : FloatTrainM M (FloatExpect rs rp (2 ^ 53)) Unit).run.run _ (okState F) = _
  cases h : floatAddRow A t row u.stats u.edge (Spec.drawsOf d) with
  | error e => rfl
  | ok r =>
    rw [(Runs.liftPy rfl).bind_run, Runs.modify.bind_run, (Runs.onStats (Runs.updateStats hm row 1 r.assign _)).bind_run]
    show (show (Except PyErr Unit × FloatTrainer M → ℝ) → ℝ from (modify _ : FloatTrainM M (FloatExpect rs rp (2 ^ 53)) Unit).run.run _) (okState F) = _
    rw [show (modify _ : FloatTrainM M (FloatExpect rs rp (2 ^ 53)) Unit).run.run _ = _ from Runs.modify]
    show F _ = F _
    simp only [statsUpdate_tree]
    rfl

/-- Every draw that `np.random.rand` can return. -/
theorem drawsOf_isDraw {V : Nat} (d : Fin V → Fin (2 ^ 53)) (v : Nat) : Spec.IsDraw (Spec.drawsOf d v) := by
  unfold Spec.drawsOf
  split
  · exact ⟨_, (d _).2, rfl⟩
  · exact ⟨0, by norm_num, by norm_num⟩

theorem sum_draws (V : Nat) (c : ℝ) : (∑ _d : Fin V → Fin (2 ^ 53), c) / ((2 ^ 53 : Nat) : ℝ) ^ V = c := by
  rw [Finset.sum_const, Finset.card_univ, Fintype.card_fun, Fintype.card_fin, Fintype.card_fin, nsmul_eq_mul, Nat.cast_pow]
  exact mul_div_cancel_left₀ _ (pow_ne_zero _ (by norm_num))

/-- Every vector of classes leads to a state of `FloatRun`. -/
theorem overlay_run (ht : Table.Ordered t) (hm : AllMultinomial t) (hN : t.numRows < 2 ^ 14) {s : Trainer ℚ M} {edge : Nat → Fin M → Fin M → ℚ} (h : FloatRun t s edge)
    {row : Nat} (hr : row ∉ s.added) (hrow : row < t.numRows) (z : Fin t.numCols → Fin M) :
    FloatRun t (added t row (overlay (s.assign row) z) s) (floatEdges true s.tree.treeGrid (overlay (s.assign row) z) edge) := by
  obtain ⟨hg, -, -⟩ := floatRun_inv ht hm hN h
  have hprog := hg.program
  obtain ⟨c, h1, h2⟩ := findCenter_spec hg.isTree
  obtain ⟨d, par, ch, eid, L, R, T, he, -, hp⟩ := makeProgram_some hg.isTree h2.1
  simp only [makeProgram, h1, bind, Except.bind] at hprog hp
  rw [hprog] at hp
  have hz := sampleRow_poss_all (row := row) (s := s) hm.getD T (Except.ok.inj hp) (overlay (s.assign row) z) fun v hv => overlay_ge _ _ hv
  have := FloatRun.addRow h (addRow_outcome hm hr hrow hz)
  have hassign : (added t row (overlay (s.assign row) z) s).assign = Function.update s.assign row (overlay (s.assign row) z) := by simp only [added, statsUpdate_assign]
  rwa [hassign, Function.update_self] at this

end

section
variable {rs rp : ℚ → ℚ} {M : Nat} [NeZero M] {t : Table} {A : FloatOps M} (O : Spec.OpsOk A) (N : Spec.DotNear A.dot) (ht : Table.Ordered t) (hm : AllMultinomial t) (hc : Table.Counts t)
  (hcat : ∀ row, Spec.Categorical t row) (hN : t.numRows < 2 ^ 14) (hw : ∀ v < t.numCols, t.stop v - t.beg v ≤ 2 ^ 23) {j : Nat} (hj : M = 2 ^ j)
include O N ht hm hc hcat hN hw hj

theorem Sim.addRow {row : Nat} (hrow : row < t.numRows) {S : Finset Nat} (hS : row ∉ S) :
    Sim (rs := rs) (rp := rp) (FloatAt t S) (FloatAt t (insert row S)) (floatTrainAddRow A t row) (addRow t row) fun u => Spec.rowErr t.numCols M 0 6 + rowUnclear A t row u := by
  have hfl : ∀ u : FloatTrainer M, FloatAt t S u → ∀ (d : Fin t.numCols → Fin (2 ^ 53)), ∃ r, floatAddRow A t row u.stats u.edge (Spec.drawsOf d) = .ok r ∧
      FloatAt t (insert row S) (⟨added t row r.assign u.stats, floatEdges true u.stats.tree.treeGrid r.assign u.edge⟩ : FloatTrainer M) := by
    rintro u ⟨hu, rfl⟩ d
    obtain ⟨⟨r, h1, -⟩, -⟩ := floatAddRow_ok O ht hm hc hcat hN hw hu row (drawsOf_isDraw d)
    exact ⟨r, h1, floatAddRow_added hm hu hS hrow h1, by simp only [added, statsUpdate_added]⟩
  have hex : ∀ u : FloatTrainer M, FloatAt t S u → ∀ z : Fin t.numCols → Fin M,
      FloatAt t (insert row S) (⟨added t row (overlay (u.stats.assign row) z) u.stats, floatEdges true u.stats.tree.treeGrid (overlay (u.stats.assign row) z) u.edge⟩ : FloatTrainer M) := by
    rintro u ⟨hu, rfl⟩ z
    exact ⟨overlay_run ht hm hN hu hS hrow z, by simp only [added, statsUpdate_added]⟩
  have hrun : ∀ u : FloatTrainer M, FloatAt t S u → ∀ F : Trainer ℝ M → ℝ, (TreeCat.addRow t row : TrainM ℝ M (Expect ℝ) Unit).run.run (realTrainer u.stats) (okState F) =
      (∑ z : Fin t.numCols → Fin M, likelihood t (insert row u.stats.added) (Function.update u.stats.assign row (overlay (u.stats.assign row) z)) u.stats.tree.getEdges *
        F (realTrainer (added t row (overlay (u.stats.assign row) z) u.stats))) /
        ∑ z : Fin t.numCols → Fin M, likelihood t (insert row u.stats.added) (Function.update u.stats.assign row (overlay (u.stats.assign row) z)) u.stats.tree.getEdges := by
    rintro u ⟨hu, rfl⟩ F
    have := addRow_law_added ht hm hc (good_realTrainer (floatRun_inv ht hm hN hu).1) (row := row) hS hrow (okState F)
    simp only [okState] at this
    refine this.trans ?_
    simp only [realTrainer_added]
    rfl
  have hF : ∀ u, FloatAt t S u → Avg (FloatAt t (insert row S)) (fun _ => False) fun F => (floatTrainAddRow A t row : FloatTrainM M (FloatExpect rs rp (2 ^ 53)) Unit).run.run u (okState F) := by
    intro u hu
    have hu' : row ∉ u.stats.added := by rw [hu.2]; exact hS
    choose r h1 h2 using hfl u hu
    have e : ∀ F : FloatTrainer M → ℝ, (floatTrainAddRow A t row : FloatTrainM M (FloatExpect rs rp (2 ^ 53)) Unit).run.run u (okState F)
        = (∑ d : Fin t.numCols → Fin (2 ^ 53), F ⟨added t row (r d).assign u.stats, floatEdges true u.stats.tree.treeGrid (r d).assign u.edge⟩) / ((2 ^ 53 : Nat) : ℝ) ^ t.numCols := by
      intro F
      rw [floatTrainAddRow_run hm hu' hrow]
      refine congrArg (fun x : ℝ => x / ((2 ^ 53 : Nat) : ℝ) ^ t.numCols) (Finset.sum_congr rfl fun d _ => ?_)
      rw [h1 d]
      rfl
    have hden : (0 : ℝ) ≤ ((2 ^ 53 : Nat) : ℝ) ^ t.numCols := by positivity
    simp only [e]
    refine ⟨fun f g c => ?_, sum_draws _ 1, fun f g h => ?_, fun f h => ?_, fun _ _ _ h => h.elim⟩
    · rw [Finset.sum_add_distrib, ← Finset.mul_sum]
      ring
    · exact congrArg (fun x : ℝ => x / ((2 ^ 53 : Nat) : ℝ) ^ t.numCols) (Finset.sum_congr rfl fun d _ => h _ (h2 d))
    · exact div_nonneg (Finset.sum_nonneg fun d _ => h _ (h2 d)) hden
  have hE : ∀ u, FloatAt t S u → Avg (fun s' => ∃ u, FloatAt t (insert row S) u ∧ s' = realTrainer u.stats) (fun _ => False)
      fun F => (TreeCat.addRow t row : TrainM ℝ M (Expect ℝ) Unit).run.run (realTrainer u.stats) (okState F) := by
    intro u hu
    simp only [hrun u hu]
    have := (Avg.weights (Finset.univ : Finset (Fin t.numCols → Fin M)) Finset.univ_nonempty
      (fun z => likelihood t (insert row u.stats.added) (Function.update u.stats.assign row (overlay (u.stats.assign row) z)) u.stats.tree.getEdges)
      fun z _ => likelihood_pos hc _ _ _).map fun z => realTrainer (added t row (overlay (u.stats.assign row) z) u.stats)
    refine (this.mono_dom ?_).mono_hit fun _ h => h.elim
    rintro _ ⟨z, -, rfl⟩
    exact ⟨_, hex u hu z, rfl⟩
  refine ⟨hF, hE, fun u hu g lo hi hg => ?_⟩
  have hspan : 0 ≤ hi - lo := by
    obtain ⟨h1, h2⟩ := (hF u hu).mem (f := fun u => g (realTrainer u.stats)) hg
    linarith
  have herr : 0 ≤ Spec.rowErr t.numCols M 0 6 := by unfold Spec.rowErr; positivity
  by_cases hcl : Spec.rowClear A t row (fun v a => floatVert (u.stats.vertSS v a)) u.edge u.stats.program
    (floatRowInit (fun v a => floatVert (u.stats.vertSS v a)) (fun r a => floatFeat M (u.stats.featSS r a)) (fun v a => floatMeas M (t.stop v - t.beg v) (u.stats.measSS v a)) (u.stats.assign row)) = true
  · have hu' : row ∉ u.stats.added := by rw [hu.2]; exact hS
    have key := floatAddRow_law_pow O N ht hm hc hcat hN hw hj hu.1 hu' hcl (k := fun z => max lo (min hi (g (realTrainer (added t row z u.stats))))) (lo := lo) (hi := hi) fun z =>
      ⟨le_max_left _ _, max_le (by linarith) (min_le_left _ _)⟩
    have clamp : ∀ x, lo ≤ x ∧ x ≤ hi → max lo (min hi x) = x := fun x hx => by rw [min_eq_right hx.2, max_eq_right hx.1]
    rw [rowUnclear, if_pos hcl, add_zero, floatTrainAddRow_run hm hu' hrow, hrun u hu]
    refine le_trans (le_of_eq ?_) key
    congr 2
    · refine congrArg (fun x : ℝ => x / ((2 ^ 53 : Nat) : ℝ) ^ t.numCols) (Finset.sum_congr rfl fun d _ => ?_)
      obtain ⟨r, h1, h2⟩ := hfl u hu d
      rw [h1]
      exact (clamp _ (hg _ h2)).symm
    · refine congrArg (fun x : ℝ => x / _) (Finset.sum_congr rfl fun z _ => congrArg _ ?_)
      exact (clamp _ (hg _ (hex u hu z))).symm
  · rw [rowUnclear, if_neg hcl]
    refine le_trans (Sim.top (hF u hu) (hE u hu) hg) ?_
    nlinarith

omit O N hc hcat hw hj in
theorem Sim.removeRow {row : Nat} {S : Finset Nat} (hS : row ∈ S) :
    Sim (rs := rs) (rp := rp) (FloatAt (M := M) t S) (FloatAt t (S.erase row)) (floatTrainRemoveRow t row) (removeRow t row) fun _ => 0 := by
  have hrow : ∀ u : FloatTrainer M, FloatAt t S u → row < t.numRows := by
    rintro u ⟨hu, rfl⟩
    exact Finset.mem_range.1 ((floatRun_inv ht hm hN hu).1.rows hS)
  refine Sim.runs (fun u => ⟨removed t row u.stats, floatEdges false u.stats.tree.treeGrid (u.stats.assign row) u.edge⟩) (fun u hu => ?_) (fun u hu => ?_) fun u hu => ?_
  · have hr := hrow u hu
    obtain ⟨hu, rfl⟩ := hu
    refine (Runs.bind (Runs.onStats (Runs.removeRow hm hS hr)) Runs.modify).trans ?_
    simp only [removed, statsUpdate_tree, statsUpdate_assign]
  · have hr := hrow u hu
    obtain ⟨hu, rfl⟩ := hu
    simp only [realTrainer_removed]
    exact Runs.removeRow hm (s := realTrainer u.stats) hS hr
  · have hr := hrow u hu
    obtain ⟨hu, rfl⟩ := hu
    refine ⟨FloatRun.removeRow hu ?_, by simp only [removed, statsUpdate_added]⟩
    rw [show (TreeCat.removeRow t row : TrainM ℚ M Poss Unit).run.run u.stats = _ from Runs.removeRow hm hS hr]
    rfl

end

/-! ### Trees -/

/-- The error of `sample_tree` on `V` vertices, where `γ` bounds the error of `gammaln`, `η` that of `exp`, and `P` the prior of an edge. -/
noncomputable def Spec.treeErr (V M N : Nat) (γ η P : ℝ) : ℝ :=
  ((V - 1 : Nat) : ℝ) * ((V : ℝ) ^ 2 / 4 * (2 ^ (-22 : Int) + 2 ^ (-52 : Int) + η) + (Real.exp (2 * logitSlack γ M N P) - 1) / 2)

/-- The state after `set_edges`. -/
def treeTo {M : Nat} (u : FloatTrainer M) (T : List Edge) : FloatTrainer M :=
  let s := edgesSet T (match makeProgram (makeTree T) none with
    | .ok p => p
    | .error _ => []) u.stats
  ⟨s, floatEdgeArray s⟩

section
variable {rs rd rp gl fexp : ℚ → ℚ} {sum : List ℚ → ℚ} {γ η : ℝ} {M : Nat} [NeZero M] {t : Table} (ht : Table.Ordered t) (hm : AllMultinomial t) (hN : t.numRows < 2 ^ 14)
include ht hm hN

theorem treeTo_at {S : Finset Nat} {u : FloatTrainer M} (hu : FloatAt t S u) {T : List Edge} (hT : IsTree t.numCols T) : FloatAt t S (treeTo u T) := by
  obtain ⟨root, prog, hp, -, -⟩ := makeProgram_default _ T hT
  obtain ⟨hu, rfl⟩ := hu
  have hg := (floatRun_inv ht hm hN hu).1
  unfold treeTo
  simp only [hp]
  refine ⟨FloatRun.setEdges (edges := T) hu hT ?_, rfl⟩
  rw [show (TreeCat.setEdges T : TrainM ℚ M Poss Unit).run.run u.stats = _ from Runs.setEdges (t := t) hg.numVertices hT hp]
  rfl

theorem floatSetEdges_runs {S : Finset Nat} {u : FloatTrainer M} (hu : FloatAt t S u) {T : List Edge} (hT : IsTree t.numCols T) :
    Runs (floatTrainSetEdges T : FloatTrainM M (FloatExpect rs rp (2 ^ 53)) Unit) u () (treeTo u T) := by
  obtain ⟨root, prog, hp, -, -⟩ := makeProgram_default _ T hT
  have hg := (floatRun_inv ht hm hN hu.1).1
  unfold treeTo
  simp only [hp]
  exact Runs.bind (Runs.onStats (Runs.setEdges (t := t) hg.numVertices hT hp)) Runs.modify

theorem exactSetEdges_runs {S : Finset Nat} {u : FloatTrainer M} (hu : FloatAt t S u) {T : List Edge} (hT : IsTree t.numCols T) :
    Runs (setEdges T : TrainM ℝ M (Expect ℝ) Unit) (realTrainer u.stats) () (realTrainer (treeTo u T).stats) := by
  obtain ⟨root, prog, hp, -, -⟩ := makeProgram_default _ T hT
  have hg := (floatRun_inv ht hm hN hu.1).1
  unfold treeTo
  simp only [hp, realTrainer_edgesSet]
  exact Runs.setEdges (t := t) (s := realTrainer u.stats) hg.numVertices hT hp

variable (R : IsRounding 24 (-149) rs) (D : IsRounding 53 (-1074) rd) (Rp : IsRounding 53 (-1074) rp) (G : GammalnOk gl γ) (hγ : 0 ≤ γ)
    (Su : SumAbsOk sum) (hexp : ExpOk fexp η) {num : Num ℝ} (hn : ∀ x, 0 < x → num.gammaln x = Real.log (Real.Gamma x))
    (hnum : num.exp = Real.exp) (hV : t.numCols ^ 2 ≤ 2 ^ 25) {prior : List ℚ} (hp : prior.length = t.numCols * (t.numCols - 1) / 2) (hpf : ∀ x ∈ prior, IsFloat 24 (-149) x)
    {P : ℝ} (hP : ∀ x ∈ prior, |(x : ℝ)| ≤ P) (junk : Nat → Nat) (A : FloatOps M)
include R D Rp G hγ Su hexp hn hnum hV hp hpf hP

theorem Sim.sampleTree (S : Finset Nat) :
    Sim (rs := rs) (rp := rp) (FloatAt t S) (FloatAt t S) (floatRunAction A rs rd gl sum fexp junk t prior .sampleTree) (runAction num junk t (prior.map fun x : ℚ => (x : ℝ)) .sampleTree)
      fun _ => Spec.treeErr t.numCols M t.numRows γ η P := by
  have hM2 : ∀ u : FloatTrainer M, FloatAt t S u → M ≤ 2 ^ 31 := fun u hu => le_trans (floatRun_inv ht hm hN hu.1).2.1 (by norm_num)
  have htri : prior.length = tri t.numCols := hp
  have hF : ∀ u : FloatTrainer M, FloatAt t S u → ∃ fl ex : List _, floatEdgeLogits rs rd gl sum t prior u.stats = .ok fl ∧
      computeEdgeLogits num t (prior.map fun x : ℚ => (x : ℝ)) (realTrainer u.stats) = .ok ex ∧ fl.length = tri t.numCols ∧ ex.length = tri t.numCols := by
    intro u hu
    obtain ⟨fl, ex, h1, h2, h3, h4, -⟩ := floatEdgeLogits_good R D G hγ Su (hM2 u hu) hn (good_realTrainer (floatRun_inv ht hm hN hu.1).1) prior hp hpf
    exact ⟨fl, ex, h1, h2, by omega, by omega⟩
  have good : ∀ u : FloatTrainer M, FloatAt t S u → Good t u.stats := fun u hu => (floatRun_inv ht hm hN hu.1).1
  have hfloat : ∀ u : FloatTrainer M, FloatAt t S u → ∀ fl, floatEdgeLogits rs rd gl sum t prior u.stats = .ok fl → fl.length = tri t.numCols → ∀ F : FloatTrainer M → ℝ,
      (floatRunAction A rs rd gl sum fexp junk t prior .sampleTree : FloatTrainM M (FloatExpect rs rp (2 ^ 53)) Unit).run.run u (okState F)
        = floatTreeStep rs rp fexp t.numCols junk fl (fun T => F (treeTo u T)) u.stats.tree.getEdges := by
    intro u hu fl h1 h2 F
    unfold floatRunAction
    rw [Runs.get.bind_run]
    refine (floatRand_bind_run _ _ _ _).trans ?_
    refine Eq.trans (congrArg (show (Except PyErr (List Edge) → ℝ) → ℝ from (floatTrainerSampleTree rs rd gl sum fexp junk t prior u.stats : ExceptT PyErr (FloatExpect rs rp (2 ^ 53)) _).run)
      (funext fun r => (by cases r <;> rfl : _ = onTree (fun T => (floatTrainSetEdges T : FloatTrainM M (FloatExpect rs rp (2 ^ 53)) Unit).run.run u (okState F)) r))) ?_
    refine (floatTrainerSampleTree_run fexp junk h1 h2 _).trans ?_
    refine (floatTreeStep_avg R hexp (good_realTrainer (good u hu)).canonical (good u hu).isTree junk h2).congr _ _ fun T hT => ?_
    rw [show (floatTrainSetEdges T : FloatTrainM M (FloatExpect rs rp (2 ^ 53)) Unit).run.run u = fun k => k (.ok (), treeTo u T) from floatSetEdges_runs ht hm hN hu hT.2]
    rfl
  have hexact : ∀ u : FloatTrainer M, FloatAt t S u → ∀ ex, computeEdgeLogits num t (prior.map fun x : ℚ => (x : ℝ)) (realTrainer u.stats) = .ok ex → ex.length = tri t.numCols → ∀ F : Trainer ℝ M → ℝ,
      (runAction num junk t (prior.map fun x : ℚ => (x : ℝ)) .sampleTree : TrainM ℝ M (Expect ℝ) Unit).run.run (realTrainer u.stats) (okState F)
        = treeStep t.numCols junk ex (fun T => F (realTrainer (treeTo u T).stats)) u.stats.tree.getEdges := by
    intro u hu ex h1 h2 F
    refine (trainerSampleTree_run junk (okState F) h1 h2).trans ?_
    rw [hnum]
    refine Eq.trans (b := treeStep t.numCols junk ex (fun T => (setEdges T : TrainM ℝ M (Expect ℝ) Unit).run.run (realTrainer u.stats) (okState F)) u.stats.tree.getEdges) ?_ ?_
    · refine congrArg (fun x : ℝ => x / (u.stats.tree.getEdges.length.factorial : ℝ)) (congrArg List.sum (List.map_congr_left fun σ _ => ?_))
      refine congrArg (show (Except PyErr (List Edge) → ℝ) → ℝ from (TreeCat.sampleTree Real.exp junk (completeGrid t.numCols) ex u.stats.tree.getEdges σ : ExceptT PyErr (Expect ℝ) _).run)
        (funext fun r => ?_)
      cases r <;> rfl
    refine (treeStep_avg (T := u.stats.tree.getEdges) (good_realTrainer (good u hu)).canonical (good u hu).isTree h2).congr _ _ fun T hT => ?_
    rw [show (setEdges T : TrainM ℝ M (Expect ℝ) Unit).run.run (realTrainer u.stats) = fun k => k (.ok (), realTrainer (treeTo u T).stats) from exactSetEdges_runs ht hm hN hu hT.2]
    rfl
  refine ⟨fun u hu => ?_, fun u hu => ?_, fun u hu g lo hi hg => ?_⟩
  · obtain ⟨fl, ex, h1, h2, h3, h4⟩ := hF u hu
    refine Eq.mp (congrArg (Avg _ _) (funext fun F => (hfloat u hu fl h1 h3 F).symm)) ?_
    refine (((floatTreeStep_avg R hexp (good_realTrainer (good u hu)).canonical (good u hu).isTree junk h3).map (treeTo u)).mono_dom ?_).mono_hit fun _ h => h.elim
    rintro _ ⟨T, hT, rfl⟩
    exact treeTo_at ht hm hN hu hT.2
  · obtain ⟨fl, ex, h1, h2, h3, h4⟩ := hF u hu
    refine Eq.mp (congrArg (Avg _ _) (funext fun F => (hexact u hu ex h2 h4 F).symm)) ?_
    refine (((treeStep_avg (T := u.stats.tree.getEdges) (junk := junk) (good_realTrainer (good u hu)).canonical (good u hu).isTree h4).map fun T => realTrainer (treeTo u T).stats).mono_dom ?_).mono_hit fun _ h => h.elim
    rintro _ ⟨T, hT, rfl⟩
    exact ⟨_, treeTo_at ht hm hN hu hT.2, rfl⟩
  · obtain ⟨fl, ex, h1, h2, h3, h4⟩ := hF u hu
    rw [hfloat u hu fl h1 h3, hexact u hu ex h2 h4]
    have key := floatTrainerSampleTree_good R D Rp G hγ Su hexp (hM2 u hu) hn hnum hV (good_realTrainer (good u hu)) prior hp hpf hP junk (fun T => g (realTrainer (treeTo u T).stats)) lo hi
      fun T _ hT => hg _ (treeTo_at ht hm hN hu hT)
    rw [floatTrainerSampleTree_run fexp junk (s := realTrainer u.stats) h1 h3, trainerSampleTree_step hnum junk h2 h4] at key
    exact key

end

/-! ### Lists of actions -/

/-- One if the action adds a row and something underflows. -/
noncomputable def actionUnclear {M : Nat} [NeZero M] (A : FloatOps M) (t : Table) (u : FloatTrainer M) : Action → ℝ
  | .addRow r => rowUnclear A t r u
  | .removeRow _ => 0
  | .sampleTree => 0

/-- The expected number of times that something underflows when a row is added. -/
noncomputable def unclearCount {M : Nat} [NeZero M] (A : FloatOps M) (rs rd rp gl : ℚ → ℚ) (sum : List ℚ → ℚ) (fexp : ℚ → ℚ) (junk : Nat → Nat) (t : Table) (prior : List ℚ) :
    List Action → FloatTrainer M → ℝ
  | [], _ => 0
  | a :: l, u => actionUnclear A t u a +
    (floatRunAction A rs rd gl sum fexp junk t prior a : FloatTrainM M (FloatExpect rs rp (2 ^ 53)) Unit).run.run u (okState (unclearCount A rs rd rp gl sum fexp junk t prior l))

section
variable {rs rd rp gl fexp : ℚ → ℚ} {sum : List ℚ → ℚ} {γ η : ℝ} {M : Nat} [NeZero M] {t : Table} {A : FloatOps M} (O : Spec.OpsOk A) (N : Spec.DotNear A.dot) (ht : Table.Ordered t)
  (hm : AllMultinomial t) (hc : Table.Counts t)
  (hcat : ∀ row, Spec.Categorical t row) (hN : t.numRows < 2 ^ 14) (hw : ∀ v < t.numCols, t.stop v - t.beg v ≤ 2 ^ 23) {j : Nat} (hj : M = 2 ^ j)
  (R : IsRounding 24 (-149) rs) (D : IsRounding 53 (-1074) rd) (Rp : IsRounding 53 (-1074) rp) (G : GammalnOk gl γ) (hγ : 0 ≤ γ)
  (Su : SumAbsOk sum) (hexp : ExpOk fexp η) {num : Num ℝ} (hn : ∀ x, 0 < x → num.gammaln x = Real.log (Real.Gamma x))
  (hnum : num.exp = Real.exp) (hV : t.numCols ^ 2 ≤ 2 ^ 25) {prior : List ℚ} (hp : prior.length = t.numCols * (t.numCols - 1) / 2) (hpf : ∀ x ∈ prior, IsFloat 24 (-149) x)
  {P : ℝ} (hP : ∀ x ∈ prior, |(x : ℝ)| ≤ P) (junk : Nat → Nat)
include O N ht hm hc hcat hN hw hj R D Rp G hγ Su hexp hn hnum hV hp hpf hP

theorem Sim.actions : ∀ (l : List Action) (S T : Finset Nat), Legal t.numRows S l T →
    Sim (rs := rs) (rp := rp) (FloatAt t S) (FloatAt t T) (l.forM (floatRunAction A rs rd gl sum fexp junk t prior)) (l.forM (runAction num junk t (prior.map fun x : ℚ => (x : ℝ))))
      fun u => numAdds l * Spec.rowErr t.numCols M 0 6 + l.count .sampleTree * Spec.treeErr t.numCols M t.numRows γ η P + unclearCount A rs rd rp gl sum fexp junk t prior l u := by
  intro l
  induction l with
  | nil =>
    rintro S T rfl
    refine Sim.pure.mono fun u _ => ?_
    simp [numAdds, unclearCount]
  | cons a l ih =>
    have step : ∀ {S S' T : Finset Nat} {ε : FloatTrainer M → ℝ}, Sim (rs := rs) (rp := rp) (FloatAt t S) (FloatAt t S') (floatRunAction A rs rd gl sum fexp junk t prior a)
        (runAction num junk t (prior.map fun x : ℚ => (x : ℝ)) a) ε → Legal t.numRows S' l T →
        Sim (rs := rs) (rp := rp) (FloatAt t S) (FloatAt t T) ((a :: l).forM (floatRunAction A rs rd gl sum fexp junk t prior)) ((a :: l).forM (runAction num junk t (prior.map fun x : ℚ => (x : ℝ))))
          fun u => ε u + (numAdds l * Spec.rowErr t.numCols M 0 6 + l.count .sampleTree * Spec.treeErr t.numCols M t.numRows γ η P) +
            (floatRunAction A rs rd gl sum fexp junk t prior a : FloatTrainM M (FloatExpect rs rp (2 ^ 53)) Unit).run.run u (okState (unclearCount A rs rd rp gl sum fexp junk t prior l)) := by
      intro S S' T ε h1 h2
      refine (Sim.bind (x' := fun _ => l.forM (floatRunAction A rs rd gl sum fexp junk t prior)) (y' := fun _ => l.forM (runAction num junk t (prior.map fun x : ℚ => (x : ℝ)))) h1 (ih S' T h2)).mono fun u hu => ?_
      have := (h1.float u hu).lin (fun _ => numAdds l * Spec.rowErr t.numCols M 0 6 + l.count .sampleTree * Spec.treeErr t.numCols M t.numRows γ η P)
        (unclearCount A rs rd rp gl sum fexp junk t prior l) 1
      simp only [one_mul, (h1.float u hu).const] at this
      rw [this]
      linarith
    intro S T hl
    cases a with
    | addRow r =>
      obtain ⟨h1, h2, h3⟩ := hl
      refine (step (Sim.addRow O N ht hm hc hcat hN hw hj h1 h2) h3).mono fun u hu => le_of_eq ?_
      have e1 : numAdds (.addRow r :: l) = numAdds l + 1 := by simp [numAdds]
      have e2 : (Action.addRow r :: l).count .sampleTree = l.count .sampleTree := by simp
      rw [e1, e2, unclearCount, actionUnclear]
      push_cast
      ring
    | removeRow r =>
      obtain ⟨h1, h2⟩ := hl
      refine (step (Sim.removeRow ht hm hN h1) h2).mono fun u hu => le_of_eq ?_
      have e1 : numAdds (.removeRow r :: l) = numAdds l := by simp [numAdds]
      have e2 : (Action.removeRow r :: l).count .sampleTree = l.count .sampleTree := by simp
      rw [e1, e2, unclearCount, actionUnclear]
      ring
    | sampleTree =>
      obtain ⟨h1, h2⟩ := hl
      refine (step (Sim.sampleTree ht hm hN R D Rp G hγ Su hexp hn hnum hV hp hpf hP junk A S) h2).mono fun u hu => le_of_eq ?_
      have e1 : numAdds (.sampleTree :: l) = numAdds l := by simp [numAdds]
      have e2 : (Action.sampleTree :: l).count .sampleTree = l.count .sampleTree + 1 := by simp
      rw [e1, e2, unclearCount, actionUnclear]
      push_cast
      ring

end

end TreeCat
