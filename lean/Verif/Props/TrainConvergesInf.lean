import Verif.Props.ConvergenceInf
import Verif.Props.TrainConverges
import Verif.Props.ServeInfFinite

/-!
# C98: a whole run of `train` with forbidden edges converges to the posterior

training.py:231-284. The tree that training starts from may have forbidden edges; the first full epoch gets rid of them.
-/

set_option linter.unusedSectionVars false

namespace TreeCat

open Spec Real Util
open scoped BigOperators

/-! ### The law of `sample_tree` is on what it can return -/

/-- The law `x` is on the possible results `y`. -/
def Within {α : Type} (x : ExceptT PyErr (Expect ℝ) α) (y : ExceptT PyErr (Sampled ℝ) α) : Prop :=
  Avg (fun r => y.run r) (fun _ => False) (show (Except PyErr α → ℝ) → ℝ from x.run)

theorem Within.py {α : Type} (r : Py α) : Within (liftPy r) (liftPy r) :=
  ((Avg.point r).mono_dom fun b hb => (show b = r from hb)).mono_hit fun _ h => h.elim

theorem Within.pure {α : Type} (a : α) : Within (Pure.pure a) (Pure.pure a) := Within.py (.ok a)

theorem Within.bind {α β : Type} {x : ExceptT PyErr (Expect ℝ) α} {y : ExceptT PyErr (Sampled ℝ) α} (h : Within x y)
    {f : α → ExceptT PyErr (Expect ℝ) β} {g : α → ExceptT PyErr (Sampled ℝ) β} (hfg : ∀ a, y.run (.ok a) → Within (f a) (g a)) :
    Within (x >>= f) (y >>= g) := by
  have h1 := Avg.bind (D2 := fun r => (y >>= g).run r) (H2 := fun _ _ => False) (F := fun (r : Except PyErr α) (k : Except PyErr β → ℝ) => match r with
    | .ok a => (f a).run k
    | .error e => k (.error e)) h (by
      intro r hr
      cases r with
      | ok a => exact (hfg a hr).mono_dom fun b hb => (sampled_run_bind _ _ _).2 (.inl ⟨a, hr, hb⟩)
      | error e =>
        exact ((Avg.point (Except.error e : Except PyErr β)).mono_dom fun b hb => (sampled_run_bind _ _ _).2 (.inr ⟨e, hr, hb⟩)).mono_hit fun _ h => h.elim)
  refine (show Avg _ _ _ from ?_ : Within (x >>= f) (y >>= g))
  have e : (show (Except PyErr β → ℝ) → ℝ from (x >>= f).run) = fun k => (show (Except PyErr α → ℝ) → ℝ from x.run) fun r => match r with
    | .ok a => (f a).run k
    | .error e => k (.error e) := by
    funext k
    refine congrArg (show (Except PyErr α → ℝ) → ℝ from x.run) (funext fun r => ?_)
    cases r <;> rfl
  rw [e]
  exact h1.mono_hit fun _ h => h.elim

theorem Within.foldlM {σ α : Type} {f : σ → α → ExceptT PyErr (Expect ℝ) σ} {g : σ → α → ExceptT PyErr (Sampled ℝ) σ} (h : ∀ s a, Within (f s a) (g s a)) :
    ∀ (l : List α) (s : σ), Within (l.foldlM f s) (l.foldlM g s) := by
  intro l
  induction l with
  | nil => exact fun s => Within.pure s
  | cons a l ih =>
    intro s
    rw [List.foldlM_cons, List.foldlM_cons]
    exact (h s a).bind fun s' _ => ih s'

theorem Within.index {probs : List ℝ} (hp : ∀ p ∈ probs, 0 ≤ p) (hs : 0 < probs.sum) : Within (sampleIndex probs) (sampleIndex probs) := by
  classical
  have hsum : ∀ k : Fin probs.length → ℝ, (∑ i : Fin probs.length, probs[i] * k i) = ∑ i ∈ Finset.univ.filter (fun i : Fin probs.length => 0 < probs[i]), probs[i] * k i := by
    intro k
    symm
    refine Finset.sum_filter_of_ne fun i _ hi => ?_
    exact lt_of_le_of_ne (hp _ (List.getElem_mem _)) fun h0 => hi (by rw [← h0, zero_mul])
  have htot : (∑ i : Fin probs.length, probs[i]) = probs.sum := by
    rw [← Fin.sum_univ_getElem]; rfl
  have hfil : (∑ i : Fin probs.length, probs[i]) = ∑ i ∈ Finset.univ.filter (fun i : Fin probs.length => 0 < probs[i]), probs[i] := by
    have := hsum fun _ => 1
    simpa only [mul_one] using this
  have hne : (Finset.univ.filter (fun i : Fin probs.length => 0 < probs[i])).Nonempty := by
    by_contra h
    rw [Finset.not_nonempty_iff_eq_empty] at h
    rw [h, Finset.sum_empty, htot] at hfil
    exact hs.ne' hfil
  have h1 := (Avg.weights _ hne (fun i : Fin probs.length => probs[i]) fun i hi => (Finset.mem_filter.1 hi).2).map
    fun i => (Except.ok i.val : Except PyErr Nat)
  have e : (show (Except PyErr Nat → ℝ) → ℝ from (sampleIndex probs : ExceptT PyErr (Expect ℝ) Nat).run) = fun k =>
      (∑ i ∈ Finset.univ.filter (fun i : Fin probs.length => 0 < probs[i]), probs[i] * k (.ok i.val)) /
        ∑ i ∈ Finset.univ.filter (fun i : Fin probs.length => 0 < probs[i]), probs[i] := by
    funext k
    rw [← hfil, ← hsum]
    rfl
  unfold Within
  rw [e]
  refine (h1.mono_dom ?_).mono_hit fun _ h => h.elim
  rintro _ ⟨i, hi, rfl⟩
  have hpi : 0 < probs[i] := (Finset.mem_filter.1 hi).2
  refine ⟨i.val, ⟨i, ⟨(probs.take i).sum / probs.sum, ?_, ?_, ?_⟩, rfl⟩, rfl⟩
  · exact div_nonneg (List.sum_nonneg fun x hx => hp x (List.mem_of_mem_take hx)) hs.le
  · rw [div_lt_one hs]
    have h2 : probs.sum = (probs.take i).sum + (probs.drop i).sum := by rw [← List.sum_append, List.take_append_drop]
    have h3 : 0 < (probs.drop i).sum := by
      rw [List.drop_eq_getElem_cons i.isLt, List.sum_cons]
      exact add_pos_of_pos_of_nonneg hpi (List.sum_nonneg fun x hx => hp x (List.mem_of_mem_drop hx))
    linarith
  · have hofn : (List.ofFn fun i : Fin probs.length => probs[i]) = probs := List.ofFn_getElem
    have h4 : (probs.take i).sum / probs.sum < 1 := by
      rw [div_lt_one hs]
      have h2 : probs.sum = (probs.take i).sum + (probs.drop i).sum := by rw [← List.sum_append, List.take_append_drop]
      have h3 : 0 < (probs.drop i).sum := by
        rw [List.drop_eq_getElem_cons i.isLt, List.sum_cons]
        exact add_pos_of_pos_of_nonneg hpi (List.sum_nonneg fun x hx => hp x (List.mem_of_mem_drop hx))
      linarith
    rw [hofn]
    refine (sampleFromProbs_iff probs hp hs _ (div_nonneg (List.sum_nonneg fun x hx => hp x (List.mem_of_mem_take hx)) hs.le) h4 _).2 ⟨i.isLt, ?_, ?_⟩
    · rw [div_mul_cancel₀ _ hs.ne']
    · rw [div_mul_cancel₀ _ hs.ne', List.take_succ_eq_append_getElem i.isLt, List.sum_append, List.sum_singleton]
      exact lt_add_of_pos_right _ hpi

/-- Weights are not negative. -/
theorem expNormalizeInf_nonneg {expf : ℝ → ℝ} (hnn : ∀ x, 0 ≤ expf x) {ls : List (WithBot ℝ)} {probs : List ℝ}
    (h : expNormalizeInf expf ls = .ok (some probs)) : ∀ p ∈ probs, 0 ≤ p := by
  unfold expNormalizeInf at h
  split at h
  · cases h
  · split at h
    · cases h
    · cases h
      intro p hp
      obtain ⟨x, -, rfl⟩ := List.mem_map.1 hp
      cases x
      · exact le_rfl
      · exact hnn _

theorem Within.sampleTreeStepInf {expf : ℝ → ℝ} (hnn : ∀ x, 0 ≤ expf x) (grid : Grid) (logits : List (WithBot ℝ)) (x : TreeState × Nat) (e : Nat) :
    Within (sampleTreeStepInf expf grid logits x e) (sampleTreeStepInf expf grid logits x e) := by
  unfold TreeCat.sampleTreeStepInf
  refine (Within.py _).bind fun a ha => ?_
  obtain ⟨k1, s, num, probs⟩ := a
  refine Within.bind ?_ fun b _ => (Within.py _).bind fun _ _ => Within.pure _
  unfold chooseEdgeInf
  cases probs with
  | none => exact Within.pure _
  | some probs =>
    dsimp only
    split
    · rename_i hs
      refine (Within.index ?_ hs).bind fun i _ => ?_
      · have ha : .ok (k1, s, num, some probs) = proposeEdgesInf expf grid logits x.1 e := ha
        unfold proposeEdgesInf at ha
        obtain ⟨y1, -, ha⟩ := (py_bind_ok_iff _ _ _).1 ha.symm
        obtain ⟨y2, -, ha⟩ := (py_bind_ok_iff _ _ _).1 ha
        obtain ⟨y3, -, ha⟩ := (py_bind_ok_iff _ _ _).1 ha
        obtain ⟨y4, hy, ha⟩ := (py_bind_ok_iff _ _ _).1 ha
        cases ha
        exact expNormalizeInf_nonneg hnn hy
      · split
        · exact (Within.py _).bind fun _ _ => Within.pure _
        · exact Within.py (.error .indexError)
    · exact Within.pure _

/-- The law of `sample_tree` is on what it can return. -/
theorem Within.sampleTreeInf {expf : ℝ → ℝ} (hnn : ∀ x, 0 ≤ expf x) (junk : Nat → Nat) (grid : Grid) (logits : List (WithBot ℝ)) (edges : List Edge)
    (perm : List Nat) : Within (sampleTreeInf expf junk grid logits edges perm) (sampleTreeInf expf junk grid logits edges perm) := by
  unfold TreeCat.sampleTreeInf
  split
  · exact Within.pure _
  · refine (Within.py _).bind fun s _ => ?_
    refine (Within.foldlM (fun s a => Within.sampleTreeStepInf hnn grid logits s a) perm (s, 0)).bind fun x _ => ?_
    exact (Within.py _).bind fun out _ => (Within.py _).bind fun _ _ => Within.pure _

/-! ### States -/

section
variable {M : Nat} [NeZero M] {t : Table} {num : Num ℝ} {prior : List (WithBot ℝ)}

/-- A state with the rows `S` and a tree without forbidden edges. -/
def RowsAllowed (t : Table) (prior : List (WithBot ℝ)) (S : Finset Nat) (s : Trainer ℝ M) : Prop :=
  RowsAt t S s ∧ Canonical s.tree.getEdges ∧ AllowedTree t.numCols prior s.tree.getEdges

/-- Whatever the tree was, after `sample_tree` it has no forbidden edges. -/
theorem sampleTreeInf_state_avg (hexp : num.exp = exp) (hp : prior.length = t.numCols * (t.numCols - 1) / 2) (hfeas : ∃ T0, AllowedTree t.numCols prior T0)
    (junk : Nat → Nat) {S : Finset Nat} {s : Trainer ℝ M} (h : RowsAt t S s) :
    Avg (RowsAllowed t prior S) (fun _ => False) fun F =>
      ((trainerSampleTreeInf (n := Expect ℝ) (fun x => x) num junk t prior >>= fun edges => setEdges edges) : TrainM ℝ M (Expect ℝ) Unit).run.run s (okState F) := by
  obtain ⟨g, hS⟩ := h
  set logits := (completeGrid t.numCols).map fun c => edgeLogitInf num t prior s c.2.1 c.2.2 with hlog
  have hlen : logits.length = tri t.numCols := by rw [hlog, List.length_map, completeGrid_length]
  have hforb : ∀ T : List Edge, forbiddenCount (edgeLogitInf num t prior s) T = 0 ↔ ∀ p ∈ T, prior.getD (findCompleteEdge p.1 p.2) 0 ≠ ⊥ := by
    intro T
    rw [forbiddenCount_eq_zero]
    refine forall₂_congr fun p _ => ?_
    rw [Ne, edgeLogitInf_bot, fce_minmax]
  obtain ⟨T0, hT0⟩ := hfeas
  -- one scan order
  have hone : ∀ σ : List Nat, σ.Perm (List.range s.tree.getEdges.length) → Avg (RowsAllowed t prior S) (fun _ => False) fun F : Trainer ℝ M → ℝ =>
      (sampleTreeInf exp junk (completeGrid t.numCols) logits s.tree.getEdges σ : ExceptT PyErr (Expect ℝ) _).run fun r => match r with
        | .ok out => (setEdges out.1 : TrainM ℝ M (Expect ℝ) Unit).run.run s (okState F)
        | .error e => okState F ((.error e, s) : Except PyErr Unit × Trainer ℝ M) := by
    intro σ hσ
    have hw := Within.sampleTreeInf (expf := exp) (fun x => (exp_pos x).le) junk (completeGrid t.numCols) logits s.tree.getEdges σ
    obtain ⟨-, hl⟩ := sampleTreeInf_least (expf := exp) (fun x => (exp_pos x).le) (exp_pos 0) t.numCols _ (makeCompleteGraph_eq _) (edgeLogitInf num t prior s)
      s.tree.getEdges g.isTree junk σ hσ
    refine (Avg.bind (H2 := fun _ _ => False) (F := fun (r : Except PyErr (List Edge × Nat)) (F : Trainer ℝ M → ℝ) => match r with
        | .ok out => (setEdges out.1 : TrainM ℝ M (Expect ℝ) Unit).run.run s (okState F)
        | .error e => okState F ((.error e, s) : Except PyErr Unit × Trainer ℝ M)) hw fun r hr => ?_).mono_hit fun _ h => h.elim
    obtain ⟨T, n, rfl, h1, h2, h3, -⟩ := hl r hr
    have hC := h2 (.inr g.canonical)
    have hA : AllowedTree t.numCols prior T := by
      refine ⟨h1, (hforb T).1 (Nat.le_zero.1 ?_)⟩
      have := h3 T0 hT0.tree
      have e : (T0.countP fun p => decide (edgeLogitInf num t prior s (min p.1 p.2) (max p.1 p.2) = ⊥)) = 0 := (hforb T0).2 hT0.allowed
      rw [e] at this
      exact this
    obtain ⟨_, s', ⟨g1, a1, -, t1⟩, h5⟩ := (Det.setEdges T s).of_tot (Tot.setEdges g hA.tree)
    have hT : s'.tree.getEdges = T := by
      change gridEdges s'.tree.treeGrid = T
      rw [t1, gridEdges_makeTree, sortEdges_canonical hC]
    have e : (fun F : Trainer ℝ M → ℝ => (setEdges T : TrainM ℝ M (Expect ℝ) Unit).run.run s (okState F)) = fun F => F s' := funext fun F => h5 (okState F)
    show Avg _ _ fun F : Trainer ℝ M → ℝ => (setEdges T : TrainM ℝ M (Expect ℝ) Unit).run.run s (okState F)
    rw [e]
    refine ((Avg.point s').mono_dom ?_).mono_hit fun _ h => h.elim
    rintro _ rfl
    exact ⟨⟨g1, by rw [a1, hS]⟩, by rw [hT]; exact hC, by rw [hT]; exact hA⟩
  have e : (fun F => ((trainerSampleTreeInf (n := Expect ℝ) (fun x => x) num junk t prior >>= fun edges => setEdges edges) : TrainM ℝ M (Expect ℝ) Unit).run.run s (okState F))
      = fun F : Trainer ℝ M → ℝ => ((List.range s.tree.getEdges.length).permutations.map fun σ =>
        (sampleTreeInf exp junk (completeGrid t.numCols) logits s.tree.getEdges σ : ExceptT PyErr (Expect ℝ) _).run fun r => match r with
          | .ok out => (setEdges out.1 : TrainM ℝ M (Expect ℝ) Unit).run.run s (okState F)
          | .error e => okState F ((.error e, s) : Except PyErr Unit × Trainer ℝ M)).sum / (s.tree.getEdges.length.factorial : ℝ) := by
    funext F
    rw [trainerSampleTreeInf_run junk (okState F) (computeEdgeLogitsInf_map hp g.rows) hlen, hexp]
    refine congrArg (fun x : ℝ => x / (s.tree.getEdges.length.factorial : ℝ)) (congrArg List.sum (List.map_congr_left fun σ _ => ?_))
    refine congrArg (show (Except PyErr (List Edge × Nat) → ℝ) → ℝ from
      (sampleTreeInf exp junk (completeGrid t.numCols) logits s.tree.getEdges σ : ExceptT PyErr (Expect ℝ) _).run) (funext fun r => ?_)
    cases r with
    | ok a => rfl
    | error e => rfl
  rw [e]
  exact (Avg.bind (F := fun (σ : List Nat) (F : Trainer ℝ M → ℝ) =>
    (sampleTreeInf exp junk (completeGrid t.numCols) logits s.tree.getEdges σ : ExceptT PyErr (Expect ℝ) _).run fun r => match r with
      | .ok out => (setEdges out.1 : TrainM ℝ M (Expect ℝ) Unit).run.run s (okState F)
      | .error e => okState F ((.error e, s) : Except PyErr Unit × Trainer ℝ M)) (perm_avg s.tree.getEdges.length) hone).mono_hit fun _ h => h.elim

/-- A legal list of actions averages over states with the rows it says, and never fails. -/
theorem actionsInf_avg (hexp : num.exp = exp) (ht : Table.Ordered t) (hm : AllMultinomial t) (hc : Table.Counts t)
    (hp : prior.length = t.numCols * (t.numCols - 1) / 2) (hfeas : ∃ T0, AllowedTree t.numCols prior T0) (junk : Nat → Nat) :
    ∀ (l : List Action) (S S' : Finset Nat), Legal t.numRows S l S' → ∀ s : Trainer ℝ M, RowsAt t S s →
      Avg (RowsAt t S') (fun _ => False) fun F =>
        (l.forM (runActionInf (n := Expect ℝ) (fun x => x) num junk t prior) : TrainM ℝ M (Expect ℝ) Unit).run.run s (okState F) := by
  intro l
  induction l with
  | nil =>
    rintro S S' rfl s h
    exact ((Avg.point s).mono_dom fun _ hb => by subst hb; exact h).mono_hit fun _ h => h.elim
  | cons a l ih =>
    intro S S' hl s h
    have step : ∀ Q : Finset Nat, Avg (RowsAt t Q) (fun _ => False)
          (fun F => (runActionInf (n := Expect ℝ) (fun x => x) num junk t prior a : TrainM ℝ M (Expect ℝ) Unit).run.run s (okState F)) →
        Legal t.numRows Q l S' →
        Avg (RowsAt t S') (fun _ => False) fun F =>
          ((a :: l).forM (runActionInf (n := Expect ℝ) (fun x => x) num junk t prior) : TrainM ℝ M (Expect ℝ) Unit).run.run s (okState F) := by
      intro Q h1 h2
      have e : (fun F => ((a :: l).forM (runActionInf (n := Expect ℝ) (fun x => x) num junk t prior) : TrainM ℝ M (Expect ℝ) Unit).run.run s (okState F)) = fun F =>
          (runActionInf (n := Expect ℝ) (fun x => x) num junk t prior a : TrainM ℝ M (Expect ℝ) Unit).run.run s
            (okState fun u => (l.forM (runActionInf (n := Expect ℝ) (fun x => x) num junk t prior) : TrainM ℝ M (Expect ℝ) Unit).run.run u (okState F)) :=
        funext fun F => exactBind_run _ _ s F
      rw [e]
      exact (Avg.bind h1 fun u hu => ih Q S' h2 u hu).mono_hit fun _ h => h.elim
    cases a with
    | addRow r => exact step _ (addRow_avg ht hm hc hl.1 hl.2.1 h) hl.2.2
    | removeRow r => exact step _ (removeRow_avg ht hm hl.1 h) hl.2
    | sampleTree => exact step _ ((sampleTreeInf_state_avg hexp hp hfeas junk h).mono_dom fun _ h => h.1) hl.2

theorem fullScanInf_actions (junk : Nat → Nat) :
    (fullScanInf (n := Expect ℝ) (fun x => x) num junk t prior : TrainM ℝ M (Expect ℝ) Unit)
      = (epochActions t.numRows).forM (runActionInf (n := Expect ℝ) (fun x => x) num junk t prior) := by
  show _ = runActionInf (n := Expect ℝ) (fun x => x) num junk t prior .sampleTree >>= fun _ =>
    ((List.range t.numRows).flatMap fun r => [Action.removeRow r, .addRow r]).forM _
  have e : ∀ r, ([Action.removeRow r, .addRow r].forM (runActionInf (n := Expect ℝ) (fun x => x) num junk t prior) : TrainM ℝ M (Expect ℝ) PUnit)
      = removeRow t r >>= fun _ => addRow t r := fun r => by
    show (removeRow t r >>= fun _ => addRow t r >>= fun _ => pure PUnit.unit : TrainM ℝ M (Expect ℝ) PUnit) = _
    simp only [bind_pure_unit]
  rw [forM_flatMap, funext e]
  simp only [fullScanInf, runActionInf, bind_assoc]

/-- Full epochs keep all rows and never fail. -/
theorem epochsInf_avg (hexp : num.exp = exp) (ht : Table.Ordered t) (hm : AllMultinomial t) (hc : Table.Counts t)
    (hp : prior.length = t.numCols * (t.numCols - 1) / 2) (hfeas : ∃ T0, AllowedTree t.numCols prior T0) (junk : Nat → Nat) :
    ∀ (n : Nat) (s : Trainer ℝ M), RowsAt t (Finset.range t.numRows) s →
      Avg (RowsAt t (Finset.range t.numRows)) (fun _ => False) fun F =>
        ((List.replicate n ()).forM fun _ => fullScanInf (n := Expect ℝ) (fun x => x) num junk t prior : TrainM ℝ M (Expect ℝ) Unit).run.run s (okState F) := by
  have hrows : Legal t.numRows (Finset.range t.numRows) ((List.range t.numRows).flatMap fun r => [.removeRow r, .addRow r]) (Finset.range t.numRows) := by
    have := legal_rows (List.range t.numRows) (fun r hr => List.mem_range.1 hr) (rest := []) (T := Finset.range t.numRows) rfl
    rwa [List.append_nil] at this
  intro n
  induction n with
  | zero => exact fun s h => ((Avg.point s).mono_dom fun _ hb => by subst hb; exact h).mono_hit fun _ h => h.elim
  | succ n ih =>
    intro s h
    have e : (fun F => ((List.replicate (n + 1) ()).forM fun _ => fullScanInf (n := Expect ℝ) (fun x => x) num junk t prior : TrainM ℝ M (Expect ℝ) Unit).run.run s (okState F))
        = fun F => (runActionInf (n := Expect ℝ) (fun x => x) num junk t prior .sampleTree : TrainM ℝ M (Expect ℝ) Unit).run.run s (okState fun u1 =>
          (((List.range t.numRows).flatMap fun r => [.removeRow r, .addRow r]).forM (runActionInf (n := Expect ℝ) (fun x => x) num junk t prior) : TrainM ℝ M (Expect ℝ) Unit).run.run u1
            (okState fun u => ((List.replicate n ()).forM fun _ => fullScanInf (n := Expect ℝ) (fun x => x) num junk t prior : TrainM ℝ M (Expect ℝ) Unit).run.run u (okState F))) := by
      funext F
      refine (exactBind_run _ _ s F).trans ?_
      rw [fullScanInf_actions junk]
      exact exactBind_run _ _ s _
    rw [e]
    exact (Avg.bind ((sampleTreeInf_state_avg hexp hp hfeas junk h).mono_dom fun _ h => h.1) fun u1 hu1 =>
      Avg.bind (actionsInf_avg hexp ht hm hc hp hfeas junk _ _ _ hrows u1 hu1) fun u hu => ih u hu).mono_hit fun _ h => h.elim

/-! ### The whole run -/

/-- What is made of the end of a run: `f` of the returned logits, the assignments and the tree, and nothing if the run fails. -/
def atEndInf (f : List (WithBot ℝ) → Latent t M → List Edge → ℝ) : Except PyErr (List (WithBot ℝ)) × Trainer ℝ M → ℝ
  | (.ok logits, s) => f logits (latent t s) s.tree.getEdges
  | (.error _, _) => 0

/-- **C98** (whole run). Let the tree prior be `-inf` for some edges, so that some spanning tree is left. A run of `train` from a new trainer, whose first tree may have forbidden edges: there is a
rate `ρ < 1`, depending on table, prior and number of clusters only, such that for every config with at least one full epoch, every function that returns maximal spanning trees and every function
`f` of the returned logits, the assignments and the tree with values in `[lo, hi]`, its expected value at the end of training is within `ρ ^ (n - 1) (hi - lo)` of its mean under the posterior over
trees without forbidden edges, for `n` full epochs. The returned logits are those of the assignments, and with `learning_estimate_tree` the tree is the one `estimate_tree` returns for these
logits. No run fails (take `f` to be one everywhere). -/
theorem trainInf_converges (hn : ∀ x, 0 < x → num.gammaln x = log (Gamma x)) (hexp : num.exp = exp)
    (ht : Table.Ordered t) (hm : ∀ ty ∈ t.featureTypes, ty = tyMultinomial) (hc : Table.Counts t)
    (hV : 1 ≤ t.numCols) (hV' : t.numCols ≤ 32768) (hM : M ≤ 128) (prior : List (WithBot ℝ))
    (hp : prior.length = t.numCols * (t.numCols - 1) / 2) (S : Finset (List Edge))
    (hS : ∀ T, T ∈ S ↔ Canonical T ∧ AllowedTree t.numCols prior T) (hne : S.Nonempty) (junk : Nat → Nat) :
    ∃ ρ : ℝ, 0 ≤ ρ ∧ ρ < 1 ∧ ∀ {mst : List (List ℝ) → List Edge}, MstContract mst → MstForest mst → ∀ {cfg : TrainConfig}, 1 ≤ cfg.initEpochs → 1 ≤ cfg.sampleTreeRate →
      1 ≤ cfg.fullEpochs → ∀ {fuel : Nat}, (2 * cfg.initEpochs.toNat + 1) * t.numRows ≤ fuel → ∀ {s : Trainer ℝ M}, Trainer.init t prior.length = .ok s →
      ∀ {best : Latent t M → List Edge}, (∀ a, estimateTreeInf mst (completeGrid t.numCols) (logitsInf t prior a) = .ok (best a)) →
      ∀ (f : List (WithBot ℝ) → Latent t M → List Edge → ℝ) (lo hi : ℝ),
      (∀ a, ∀ T ∈ S, lo ≤ f (logitsInf t prior a) a T ∧ f (logitsInf t prior a) a T ≤ hi) →
      |(trainInf (n := Expect ℝ) (fun x => x) num mst junk fuel t prior cfg : TrainM ℝ M (Expect ℝ) (List (WithBot ℝ))).run.run s (atEndInf f)
        - (∑ a, ∑ T ∈ S, posterior t (finiteLogits prior) a T * f (logitsInf t prior a) a (lastTree cfg best a T)) /
            ∑ a : Latent t M, ∑ T ∈ S, posterior t (finiteLogits prior) a T|
        ≤ ρ ^ (cfg.fullEpochs.toNat - 1) * (hi - lo) := by
  classical
  obtain ⟨ρ, h0, h1, hconv⟩ := fullScanInf_epochs (num := num) (M := M) hn hexp ht hm hc prior hp S hS hne junk
  have hfeas : ∃ T0, AllowedTree t.numCols prior T0 := by
    obtain ⟨T0, hT0⟩ := hne
    exact ⟨T0, ((hS T0).1 hT0).2⟩
  refine ⟨ρ, h0, h1, fun {mst} hmst hforest {cfg} i1 i2 i3 {fuel} hf {s} hs {best} hbest f lo hi hb => ?_⟩
  -- the estimated trees are allowed
  have htree : ∀ a, Canonical (best a) ∧ AllowedTree t.numCols prior (best a) := by
    intro a
    obtain ⟨T0, hT0⟩ := hne
    obtain ⟨T, e1, e2, e3, -⟩ := (estimateTreeInf_list hmst hforest hV (logitsInf_length hp a)).1 ⟨T0, ((allowed_logitsInf hp a T0).2 ((hS T0).1 hT0)).2⟩
    have e : Except.ok (best a) = (.ok T : Py (List Edge)) := (hbest a).symm.trans e1
    cases e
    exact (allowed_logitsInf hp a _).1 ⟨e2, e3⟩
  obtain ⟨s0, g1, g2, g3⟩ := good_init (K := ℝ) (M := M) hV hV' hM hp
  obtain rfl : s = s0 := by rw [hs] at g1; exact Except.ok.inj g1
  -- the end of training, from a full state
  set H : Trainer ℝ M → ℝ := fun u => f (logitsInf t prior (latent t u)) (latent t u) (lastTree cfg best (latent t u) u.tree.getEdges) with hH
  set F : Except PyErr (List (WithBot ℝ)) × Trainer ℝ M → ℝ := atEndInf f with hF
  have hlast : ∀ u : Trainer ℝ M, RowsAt t (Finset.range t.numRows) u →
      ((do
        let s ← get
        liftPy (pyAssert (s.added.card == t.numRows))
        let (edges, logits) ← trainerEstimateTreeInf num mst t prior
        if cfg.estimateTree then setEdges edges
        pure logits : TrainM ℝ M (Expect ℝ) (List (WithBot ℝ)))).run.run u F = H u := by
    intro u hu
    have hfull : Full t u := ⟨hu.1, hu.2⟩
    have hlog := hfull.logitsInf (prior := prior) hn
    rw [Runs.get.bind_run, (Runs.liftPy (a := ()) (by rw [hu.2]; simp [pyAssert])).bind_run]
    have hest : Runs (trainerEstimateTreeInf num mst t prior : TrainM ℝ M (Expect ℝ) _) u (best (latent t u), logitsInf t prior (latent t u)) u :=
      Runs.bind Runs.get (Runs.bind (Runs.liftPy (makeCompleteGraph_eq _)) (Runs.bind (Runs.liftPy hlog) (Runs.bind (Runs.liftPy (hbest _)) (Runs.pure _))))
    rw [hest.bind_run]
    by_cases hb : cfg.estimateTree = true
    · obtain ⟨_, s', ⟨g1, a1, as1, t1⟩, h3⟩ := (Det.setEdges (best (latent t u)) u).of_tot (Tot.setEdges hu.1 (htree _).2.tree)
      have hT : s'.tree.getEdges = best (latent t u) := by
        change gridEdges s'.tree.treeGrid = _
        rw [t1, gridEdges_makeTree, sortEdges_canonical (htree _).1]
      simp only [hb, if_true]
      refine (h3 _).trans ?_
      show f (logitsInf t prior (latent t u)) (latent t s') s'.tree.getEdges = _
      rw [hT, show latent t s' = latent t u by unfold latent; rw [as1]]
      simp [hH, lastTree, hb]
    · simp only [hb]
      show f (logitsInf t prior (latent t u)) (latent t u) u.tree.getEdges = _
      simp [hH, lastTree, hb]
  -- the epochs, from a full state
  set pi := (∑ a, ∑ T ∈ S, posterior t (finiteLogits prior) a T * f (logitsInf t prior a) a (lastTree cfg best a T)) /
    ∑ a : Latent t M, ∑ T ∈ S, posterior t (finiteLogits prior) a T with hpi
  obtain ⟨q, q1, q2⟩ := hconv (fun r a T => match r with
      | .ok _ => f (logitsInf t prior a) a (lastTree cfg best a T)
      | .error _ => 0) lo hi (fun a T hT => hb a _ (by
        unfold lastTree
        split
        · exact (hS _).2 (htree a)
        · exact hT))
  have eH : (okState H : Except PyErr Unit × Trainer ℝ M → ℝ) = fun o => (fun (r : Except PyErr Unit) (a : Latent t M) (T : List Edge) => match r with
      | .ok _ => f (logitsInf t prior a) a (lastTree cfg best a T)
      | .error _ => 0) o.1 (latent t o.2) o.2.tree.getEdges := by
    funext o
    obtain ⟨r, s'⟩ := o
    cases r <;> rfl
  have hepochs : ∀ (n : Nat) (u : Trainer ℝ M), RowsAt t (Finset.range t.numRows) u →
      |((List.replicate (n + 1) ()).forM fun _ => fullScanInf (n := Expect ℝ) (fun x => x) num junk t prior : TrainM ℝ M (Expect ℝ) Unit).run.run u (okState H) - pi|
        ≤ ρ ^ n * (hi - lo) := by
    intro n u hu
    set G : Trainer ℝ M → ℝ := fun u =>
      ((List.replicate n ()).forM fun _ => fullScanInf (n := Expect ℝ) (fun x => x) num junk t prior : TrainM ℝ M (Expect ℝ) Unit).run.run u (okState H) with hG
    have e : ((List.replicate (n + 1) ()).forM fun _ => fullScanInf (n := Expect ℝ) (fun x => x) num junk t prior : TrainM ℝ M (Expect ℝ) Unit).run.run u (okState H)
        = ((trainerSampleTreeInf (n := Expect ℝ) (fun x => x) num junk t prior >>= fun edges => setEdges edges) : TrainM ℝ M (Expect ℝ) Unit).run.run u (okState fun u1 =>
          ((List.range t.numRows).forM fun r => do removeRow t r; addRow t r : TrainM ℝ M (Expect ℝ) Unit).run.run u1 (okState G)) := by
      refine (exactBind_run _ _ u H).trans ?_
      refine Eq.trans ?_ (exactBind_run (trainerSampleTreeInf (n := Expect ℝ) (fun x => x) num junk t prior >>= fun edges => setEdges edges)
        (fun _ => (List.range t.numRows).forM fun r => do removeRow t r; addRow t r) u G)
      show (fullScanInf (n := Expect ℝ) (fun x => x) num junk t prior : TrainM ℝ M (Expect ℝ) Unit).run.run u (okState G) = _
      unfold fullScanInf
      rw [bind_assoc]
    obtain ⟨P, p1, p2, -⟩ := KernA.rows (M := M) (t := t) (A := fun T => Canonical T ∧ AllowedTree t.numCols prior T) (S := S) (finiteLogits prior) ht hm hc
      (List.range t.numRows) fun r hr => List.mem_range.1 hr
    have hA := sampleTreeInf_state_avg hexp hp hfeas junk hu
    rw [e]
    have h3 := hA.near (f := fun u1 => ((List.range t.numRows).forM fun r => do removeRow t r; addRow t r : TrainM ℝ M (Expect ℝ) Unit).run.run u1 (okState G))
      (g := fun _ => pi) (ε := ρ ^ n * (hi - lo)) (by
        intro u1 hu1
        rw [p2 (okState G) (q n) (fun u2 hu2 hA2 => by
          show G u2 = _
          rw [hG]
          dsimp only
          rw [eH]
          exact q1 n u2 hu2 hA2) u1 ⟨hu1.1.1, hu1.1.2⟩ hu1.2]
        have h4 := (p1 (latent t u1, u1.tree.getEdges) hu1.2).near (f := q n) (g := fun _ => pi) (ε := ρ ^ n * (hi - lo)) fun ω hω => q2 n ω hω
        rwa [(p1 (latent t u1, u1.tree.getEdges) hu1.2).const] at h4)
    rwa [hA.const] at h3
  have havg := actionsInf_avg (M := M) hexp ht hm hc hp hfeas junk
  have hsched := fun rows hrows => annealingSchedule_spec rows t.numRows cfg.initEpochs.toNat (cfg.initEpochs : ℝ)
      (cfg.sampleTreeRate : ℝ) (by exact_mod_cast i1) (by exact_mod_cast i2)
      (by have : cfg.initEpochs ≤ (cfg.initEpochs.toNat : Int) := Int.self_le_toNat _
          exact_mod_cast this) hrows fuel hf
  have hrun : (trainInf (n := Expect ℝ) (fun x => x) num mst junk fuel t prior cfg : TrainM ℝ M (Expect ℝ) (List (WithBot ℝ))).run.run s F
      = ((List.range t.numRows).permutations.map fun rows => match annealingSchedule fuel rows t.numRows (cfg.initEpochs : ℝ) (cfg.sampleTreeRate : ℝ) with
        | .ok acts => (acts.forM (runActionInf (n := Expect ℝ) (fun x => x) num junk t prior) : TrainM ℝ M (Expect ℝ) Unit).run.run s (okState fun u =>
            ((List.replicate cfg.fullEpochs.toNat ()).forM fun _ => fullScanInf (n := Expect ℝ) (fun x => x) num junk t prior : TrainM ℝ M (Expect ℝ) Unit).run.run u (okState H))
        | .error _ => 0).sum / (t.numRows.factorial : ℝ) := by
    unfold trainInf
    rw [Runs.get.bind_run, (Runs.liftPy (a := ()) (by rw [g3]; rfl)).bind_run]
    refine (exactRand_bind_run _ _ _ _).trans ?_
    refine (perm_avg t.numRows).congr _ _ fun rows hrows => ?_
    obtain ⟨acts, a1, a2, -⟩ := hsched rows hrows
    show (liftPy (annealingSchedule fuel rows t.numRows (cfg.initEpochs : ℝ) (cfg.sampleTreeRate : ℝ)) >>= _ : TrainM ℝ M (Expect ℝ) (List (WithBot ℝ))).run.run s F = _
    rw [(Runs.liftPy a1).bind_run, a1]
    refine exactBind_congr _ _ (fun _ _ => rfl) (havg _ _ _ a2 s ⟨g2, g3⟩) fun u hu => ?_
    rw [Runs.get.bind_run, (Runs.liftPy (a := ()) (by rw [hu.2]; simp [pyAssert])).bind_run]
    exact exactBind_congr _ _ (fun _ _ => rfl) (epochsInf_avg hexp ht hm hc hp hfeas junk _ u hu) hlast
  rw [hrun]
  obtain ⟨n, hn'⟩ : ∃ n, cfg.fullEpochs.toNat = n + 1 := ⟨cfg.fullEpochs.toNat - 1, by omega⟩
  rw [hn', Nat.add_sub_cancel]
  have key := (perm_avg t.numRows).near (f := fun rows => match annealingSchedule fuel rows t.numRows (cfg.initEpochs : ℝ) (cfg.sampleTreeRate : ℝ) with
        | .ok acts => (acts.forM (runActionInf (n := Expect ℝ) (fun x => x) num junk t prior) : TrainM ℝ M (Expect ℝ) Unit).run.run s (okState fun u =>
            ((List.replicate (n + 1) ()).forM fun _ => fullScanInf (n := Expect ℝ) (fun x => x) num junk t prior : TrainM ℝ M (Expect ℝ) Unit).run.run u (okState H))
        | .error _ => 0) (g := fun _ => pi) (ε := ρ ^ n * (hi - lo)) fun rows hrows => by
    obtain ⟨acts, a1, a2, -⟩ := hsched rows hrows
    have h := havg _ _ _ a2 s ⟨g2, g3⟩
    simp only [a1]
    have h' := h.near (g := fun _ => pi) (hepochs n)
    rwa [h.const] at h'
  rwa [(perm_avg t.numRows).const] at key

/-- **C98** (limit). With more and more full epochs the expected value of every function of the returned logits, the assignments and the tree tends to its mean under the posterior over the
allowed trees. -/
theorem trainInf_tendsto (hn : ∀ x, 0 < x → num.gammaln x = log (Gamma x)) (hexp : num.exp = exp)
    (ht : Table.Ordered t) (hm : ∀ ty ∈ t.featureTypes, ty = tyMultinomial) (hc : Table.Counts t)
    (hV : 1 ≤ t.numCols) (hV' : t.numCols ≤ 32768) (hM : M ≤ 128) (prior : List (WithBot ℝ))
    (hp : prior.length = t.numCols * (t.numCols - 1) / 2) (S : Finset (List Edge))
    (hS : ∀ T, T ∈ S ↔ Canonical T ∧ AllowedTree t.numCols prior T) (hne : S.Nonempty) (junk : Nat → Nat)
    {mst : List (List ℝ) → List Edge} (hmst : MstContract mst) (hforest : MstForest mst) {cfg : TrainConfig} (h1 : 1 ≤ cfg.initEpochs) (h2 : 1 ≤ cfg.sampleTreeRate)
    {fuel : Nat} (hf : (2 * cfg.initEpochs.toNat + 1) * t.numRows ≤ fuel) {s : Trainer ℝ M} (hs : Trainer.init t prior.length = .ok s)
    {best : Latent t M → List Edge} (hbest : ∀ a, estimateTreeInf mst (completeGrid t.numCols) (logitsInf t prior a) = .ok (best a))
    (f : List (WithBot ℝ) → Latent t M → List Edge → ℝ) :
    Filter.Tendsto (fun n : Nat => (trainInf (n := Expect ℝ) (fun x => x) num mst junk fuel t prior { cfg with fullEpochs := n } :
        TrainM ℝ M (Expect ℝ) (List (WithBot ℝ))).run.run s (atEndInf f))
      Filter.atTop (nhds ((∑ a, ∑ T ∈ S, posterior t (finiteLogits prior) a T * f (logitsInf t prior a) a (lastTree cfg best a T)) /
        ∑ a : Latent t M, ∑ T ∈ S, posterior t (finiteLogits prior) a T)) := by
  obtain ⟨ρ, r0, r1, hconv⟩ := trainInf_converges (num := num) (M := M) hn hexp ht hm hc hV hV' hM prior hp S hS hne junk
  set B := ∑ a : Latent t M, ∑ T ∈ S, |f (logitsInf t prior a) a T| with hB
  have hb : ∀ a, ∀ T ∈ S, |f (logitsInf t prior a) a T| ≤ B := fun a T hT =>
    (Finset.single_le_sum (f := fun T => |f (logitsInf t prior a) a T|) (fun _ _ => abs_nonneg _) hT).trans
      (Finset.single_le_sum (f := fun a => ∑ T ∈ S, |f (logitsInf t prior a) a T|) (fun a _ => Finset.sum_nonneg fun _ _ => abs_nonneg _) (Finset.mem_univ a))
  rw [← Filter.tendsto_add_atTop_iff_nat 1]
  have h3 := fun n : Nat => hconv hmst hforest (cfg := { cfg with fullEpochs := (n + 1 : Nat) }) h1 h2 (by show (1 : Int) ≤ ((n + 1 : Nat) : Int); omega) hf hs hbest f (-B) B
    fun a T hT => abs_le.1 (hb a T hT)
  rw [tendsto_iff_dist_tendsto_zero]
  refine squeeze_zero (fun _ => dist_nonneg) (fun n => h3 n) ?_
  have e : ∀ n : Nat, (({ cfg with fullEpochs := (n + 1 : Nat) } : TrainConfig).fullEpochs).toNat - 1 = n := fun n => by
    show (((n + 1 : Nat) : Int)).toNat - 1 = n
    omega
  simp only [e]
  simpa using (tendsto_pow_atTop_nhds_zero_of_lt_one r0 r1).mul_const (B - -B : ℝ)

/-- **C98** (limit, estimated tree). With `learning_estimate_tree` the probability that training ends with a tree tends to the posterior probability, over the allowed trees, that the
estimate from the assignments is this tree. -/
theorem trainInf_tree_tendsto (hn : ∀ x, 0 < x → num.gammaln x = log (Gamma x)) (hexp : num.exp = exp)
    (ht : Table.Ordered t) (hm : ∀ ty ∈ t.featureTypes, ty = tyMultinomial) (hc : Table.Counts t)
    (hV : 1 ≤ t.numCols) (hV' : t.numCols ≤ 32768) (hM : M ≤ 128) (prior : List (WithBot ℝ))
    (hp : prior.length = t.numCols * (t.numCols - 1) / 2) (S : Finset (List Edge))
    (hS : ∀ T, T ∈ S ↔ Canonical T ∧ AllowedTree t.numCols prior T) (hne : S.Nonempty) (junk : Nat → Nat)
    {mst : List (List ℝ) → List Edge} (hmst : MstContract mst) (hforest : MstForest mst) {cfg : TrainConfig} (h1 : 1 ≤ cfg.initEpochs) (h2 : 1 ≤ cfg.sampleTreeRate)
    (he : cfg.estimateTree = true) {fuel : Nat} (hf : (2 * cfg.initEpochs.toNat + 1) * t.numRows ≤ fuel) {s : Trainer ℝ M} (hs : Trainer.init t prior.length = .ok s)
    {best : Latent t M → List Edge} (hbest : ∀ a, estimateTreeInf mst (completeGrid t.numCols) (logitsInf t prior a) = .ok (best a)) (T' : List Edge) :
    Filter.Tendsto (fun n : Nat => (trainInf (n := Expect ℝ) (fun x => x) num mst junk fuel t prior { cfg with fullEpochs := n } :
        TrainM ℝ M (Expect ℝ) (List (WithBot ℝ))).run.run s (atEndInf (t := t) fun _ _ T => if T = T' then 1 else 0))
      Filter.atTop (nhds ((∑ a : Latent t M with best a = T', ∑ T ∈ S, posterior t (finiteLogits prior) a T) /
        ∑ a : Latent t M, ∑ T ∈ S, posterior t (finiteLogits prior) a T)) := by
  have h := trainInf_tendsto (num := num) (M := M) hn hexp ht hm hc hV hV' hM prior hp S hS hne junk hmst hforest h1 h2 hf hs hbest fun _ _ T => if T = T' then 1 else 0
  have e : (∑ a : Latent t M, ∑ T ∈ S, posterior t (finiteLogits prior) a T * (if lastTree cfg best a T = T' then (1 : ℝ) else 0))
      = ∑ a : Latent t M with best a = T', ∑ T ∈ S, posterior t (finiteLogits prior) a T := by
    rw [Finset.sum_filter]
    refine Finset.sum_congr rfl fun a _ => ?_
    simp only [lastTree, he, if_true]
    by_cases hb : best a = T' <;> simp [hb]
  rwa [e] at h

end

/-- The hypotheses are met by `exTable` with two clusters and a prior that forbids (0, 1): training may start from a tree with this edge. -/
example (num : Num ℝ) (hn : ∀ x, 0 < x → num.gammaln x = log (Gamma x)) (hexp : num.exp = exp) (junk : Nat → Nat) :
    ∃ (mst : List (List ℝ) → List Edge) (best : Latent exTable 2 → List Edge) (S : Finset (List Edge)) (s : Trainer ℝ 2) (ρ : ℝ), 0 ≤ ρ ∧ ρ < 1 ∧
      Trainer.init exTable 3 = .ok s ∧ [(0, 2), (1, 2)] ∈ S ∧ ∀ n : Nat,
      |(trainInf (n := Expect ℝ) (fun x => x) num mst junk 100 exTable [⊥, 0, 0] ⟨3, n + 1, 2, true⟩ : TrainM ℝ 2 (Expect ℝ) (List (WithBot ℝ))).run.run s
          (atEndInf (t := exTable) fun _ _ T => if T = [(0, 2), (1, 2)] then 1 else 0)
        - (∑ a : Latent exTable 2, ∑ T ∈ S, posterior exTable (finiteLogits [⊥, 0, 0]) a T * (if lastTree ⟨3, n + 1, 2, true⟩ best a T = [(0, 2), (1, 2)] then 1 else 0)) /
          ∑ a : Latent exTable 2, ∑ T ∈ S, posterior exTable (finiteLogits [⊥, 0, 0]) a T| ≤ ρ ^ n * (1 - 0) := by
  have hm : ∀ ty ∈ exTable.featureTypes, ty = tyMultinomial := by decide
  obtain ⟨mst, hmst, hforest⟩ := exists_mstForest (K := ℝ)
  obtain ⟨S, hS⟩ := exists_allowedTrees exTable.numCols [⊥, 0, 0]
  have hC : Canonical [(0, 2), (1, 2)] := ⟨by decide, by decide⟩
  have hmem := (hS _).2 ⟨hC, star2_allowed⟩
  obtain ⟨s, hs, -, -⟩ := good_init (K := ℝ) (M := 2) (t := exTable) (by decide) (by decide) (by decide) rfl
  have hb : ∀ a : Latent exTable 2, ∃ T, estimateTreeInf mst (completeGrid exTable.numCols) (logitsInf exTable [⊥, 0, 0] a) = .ok T := fun a => by
    obtain ⟨T, e, -⟩ := (estimateTreeInf_list hmst hforest (V := exTable.numCols) (by decide) (logitsInf_length (t := exTable) (prior := [⊥, 0, 0]) rfl a)).1
      ⟨_, ((allowed_logitsInf (t := exTable) (prior := [⊥, 0, 0]) rfl a _).2 ⟨hC, star2_allowed⟩).2⟩
    exact ⟨T, e⟩
  choose best hbest using hb
  obtain ⟨ρ, h0, h1, h2⟩ := trainInf_converges (num := num) (M := 2) hn hexp exTable_ordered hm exTable_counts (by decide) (by decide) (by decide) [⊥, 0, 0] rfl S hS ⟨_, hmem⟩ junk
  refine ⟨mst, best, S, s, ρ, h0, h1, hs, hmem, fun n => ?_⟩
  have h3 := h2 hmst hforest (cfg := ⟨3, n + 1, 2, true⟩) (show (1 : Int) ≤ 3 by decide) (show (1 : Int) ≤ 2 by decide) (by show (1 : Int) ≤ (n : Int) + 1; omega) (fuel := 100) (show (2 * (3 : Int).toNat + 1) * exTable.numRows ≤ 100 by decide) hs hbest
    (fun _ _ T => if T = [(0, 2), (1, 2)] then 1 else 0) 0 1 fun a T _ => by split <;> simp
  have e : ((⟨3, n + 1, 2, true⟩ : TrainConfig).fullEpochs).toNat - 1 = n := by show ((n : Int) + 1).toNat - 1 = n; omega
  rw [e] at h3
  exact h3

/-- The same with more and more epochs. -/
example (num : Num ℝ) (hn : ∀ x, 0 < x → num.gammaln x = log (Gamma x)) (hexp : num.exp = exp) (junk : Nat → Nat) :
    ∃ (mst : List (List ℝ) → List Edge) (best : Latent exTable 2 → List Edge) (S : Finset (List Edge)) (s : Trainer ℝ 2), Trainer.init exTable 3 = .ok s ∧
      Filter.Tendsto (fun n : Nat => (trainInf (n := Expect ℝ) (fun x => x) num mst junk 100 exTable [⊥, 0, 0] ⟨3, n, 2, true⟩ : TrainM ℝ 2 (Expect ℝ) (List (WithBot ℝ))).run.run s
          (atEndInf (t := exTable) fun _ _ T => if T = [(0, 2), (1, 2)] then 1 else 0))
        Filter.atTop (nhds ((∑ a : Latent exTable 2 with best a = [(0, 2), (1, 2)], ∑ T ∈ S, posterior exTable (finiteLogits [⊥, 0, 0]) a T) /
          ∑ a : Latent exTable 2, ∑ T ∈ S, posterior exTable (finiteLogits [⊥, 0, 0]) a T)) := by
  have hm : ∀ ty ∈ exTable.featureTypes, ty = tyMultinomial := by decide
  obtain ⟨mst, hmst, hforest⟩ := exists_mstForest (K := ℝ)
  obtain ⟨S, hS⟩ := exists_allowedTrees exTable.numCols [⊥, 0, 0]
  have hC : Canonical [(0, 2), (1, 2)] := ⟨by decide, by decide⟩
  have hmem := (hS _).2 ⟨hC, star2_allowed⟩
  obtain ⟨s, hs, -, -⟩ := good_init (K := ℝ) (M := 2) (t := exTable) (by decide) (by decide) (by decide) rfl
  have hb : ∀ a : Latent exTable 2, ∃ T, estimateTreeInf mst (completeGrid exTable.numCols) (logitsInf exTable [⊥, 0, 0] a) = .ok T := fun a => by
    obtain ⟨T, e, -⟩ := (estimateTreeInf_list hmst hforest (V := exTable.numCols) (by decide) (logitsInf_length (t := exTable) (prior := [⊥, 0, 0]) rfl a)).1
      ⟨_, ((allowed_logitsInf (t := exTable) (prior := [⊥, 0, 0]) rfl a _).2 ⟨hC, star2_allowed⟩).2⟩
    exact ⟨T, e⟩
  choose best hbest using hb
  exact ⟨mst, best, S, s, hs, trainInf_tree_tendsto hn hexp exTable_ordered hm exTable_counts (by decide) (by decide) (by decide) [⊥, 0, 0] rfl S hS ⟨_, hmem⟩ junk hmst hforest
    (cfg := ⟨3, 0, 2, true⟩) (by decide) (by decide) rfl (by decide) hs hbest _⟩

end TreeCat
