import Verif.Props.Convergence
import Verif.Props.FloatTrainAll

/-!
# C52: a whole run of `train` converges to the posterior

training.py:231-284. `Verif.Props.Convergence` starts from a state in which all rows are added; here the run starts from the
constructor, goes through the annealing schedule of a random order of the rows, the full epochs, and the final estimate of
the tree (training.py:283). All numbers are exact.
-/

namespace TreeCat

open Spec Real

open scoped BigOperators

section
variable {M : Nat} [NeZero M] {t : Table} {num : Num ℝ} {prior : List ℝ}

/-- A state with the rows `S`. -/
def RowsAt (t : Table) (S : Finset Nat) (s : Trainer ℝ M) : Prop := Good t s ∧ s.added = S

theorem addRow_avg (ht : Table.Ordered t) (hm : AllMultinomial t) (hc : Table.Counts t) {S : Finset Nat} {row : Nat} (hN : row < t.numRows)
    (hr : row ∉ S) {s : Trainer ℝ M} (h : RowsAt t S s) :
    Avg (RowsAt t (insert row S)) (fun _ => False) fun F => (addRow t row : TrainM ℝ M (Expect ℝ) Unit).run.run s (okState F) := by
  obtain ⟨g, hS⟩ := h
  obtain ⟨after, h2, h3⟩ := addRow_law_good ht hm hc g (by rw [hS]; exact hr) hN
  have h1 := (Avg.weights (Finset.univ : Finset (Fin t.numCols → Fin M)) Finset.univ_nonempty
      (fun z => likelihood t (insert row s.added) (after z).assign s.tree.getEdges) fun z _ => likelihood_pos hc _ _ _).map after
  have e : (fun F => (addRow t row : TrainM ℝ M (Expect ℝ) Unit).run.run s (okState F)) = fun F : Trainer ℝ M → ℝ =>
      (∑ z, likelihood t (insert row s.added) (after z).assign s.tree.getEdges * F (after z)) /
          ∑ z, likelihood t (insert row s.added) (after z).assign s.tree.getEdges := funext fun F => h3 (okState F)
  rw [e]
  refine (h1.mono_dom ?_).mono_hit fun _ h => h.elim
  rintro _ ⟨z, -, rfl⟩
  obtain ⟨b1, b2, b3, b4, b5⟩ := h2 z
  refine ⟨⟨⟨b5, by rw [b2]; exact g.grid⟩, by rw [b2]; exact g.numVertices, by rw [b2]; exact g.isTree,
        by rw [b2]; exact g.sorted, by rw [b2, b3]; exact g.program, ?_⟩, by rw [b1, hS]⟩
  rw [b1]
  intro n hn
  rcases Finset.mem_insert.1 hn with rfl | hn
  · exact Finset.mem_range.2 hN
  · exact g.rows hn

theorem removeRow_avg (ht : Table.Ordered t) (hm : AllMultinomial t) {S : Finset Nat} {row : Nat}
    (hr : row ∈ S) {s : Trainer ℝ M} (h : RowsAt t S s) :
    Avg (RowsAt t (S.erase row)) (fun _ => False) fun F => (removeRow t row : TrainM ℝ M (Expect ℝ) Unit).run.run s (okState F) := by
  obtain ⟨_, s1, ⟨g1, a1, -, -⟩, h1⟩ := (Det.removeRow t row s).of_tot (Tot.removeRow ht hm h.1 (by rw [h.2]; exact hr))
  have e : (fun F => (removeRow t row : TrainM ℝ M (Expect ℝ) Unit).run.run s (okState F)) = fun F : Trainer ℝ M → ℝ => F s1 :=
    funext fun F => h1 (okState F)
  rw [e]
  refine ((Avg.point s1).mono_dom ?_).mono_hit fun _ h => h.elim
  rintro _ rfl
  exact ⟨g1, by rw [a1, h.2]⟩

theorem sampleTree_state_avg (hexp : num.exp = exp) (hp : prior.length = t.numCols * (t.numCols - 1) / 2) (junk : Nat → Nat) {S : Finset Nat}
    {s : Trainer ℝ M} (h : RowsAt t S s) :
    Avg (RowsAt t S) (fun _ => False) fun F =>
      ((trainerSampleTree num junk t prior >>= fun edges => setEdges edges) : TrainM ℝ M (Expect ℝ) Unit).run.run s (okState F) := by
  classical
  obtain ⟨g, hS⟩ := h
  set logits := ((completeGrid t.numCols).map (fun c => edgeLogit num t s c.2.1 c.2.2)).zipWith (· + ·) prior with hlog
  have hlen : logits.length = tri t.numCols := by
    rw [hlog, List.length_zipWith, List.length_map, completeGrid_length, hp]; exact min_self _
  have key : ∀ T : List Edge, ∃ s' : Trainer ℝ M, Canonical T ∧ IsTree t.numCols T → RowsAt t S s' ∧
      ∀ k, (setEdges T : TrainM ℝ M (Expect ℝ) Unit).run.run s k = k (.ok (), s') := by
    intro T
    by_cases hT : Canonical T ∧ IsTree t.numCols T
    · obtain ⟨_, s', ⟨g1, a1, -, -⟩, h3⟩ := (Det.setEdges T s).of_tot (Tot.setEdges g hT.2)
      exact ⟨s', fun _ => ⟨⟨g1, by rw [a1, hS]⟩, h3⟩⟩
    · exact ⟨s, fun h => absurd h hT⟩
  choose after hafter using key
  have h1 := (sampleTree_avg g.canonical g.isTree junk hlen).map after
  have e : (fun F => ((trainerSampleTree num junk t prior >>= fun edges => setEdges edges) : TrainM ℝ M (Expect ℝ) Unit).run.run s (okState F))
      = fun F : Trainer ℝ M → ℝ => ((List.range s.tree.getEdges.length).permutations.map fun σ =>
        (sampleTree exp junk (completeGrid t.numCols) logits s.tree.getEdges σ : ExceptT PyErr (Expect ℝ) _).run (onTree fun T => F (after T))).sum /
          (s.tree.getEdges.length.factorial : ℝ) := by
    funext F
    rw [trainerSampleTree_run junk (okState F) (computeEdgeLogits_eq num prior g.rows) hlen, hexp]
    refine congrArg (fun x : ℝ => x / (s.tree.getEdges.length.factorial : ℝ)) ?_
    refine congrArg List.sum (List.map_congr_left fun σ hσ => ?_)
    refine sampleTree_congr g.canonical g.isTree junk hlen (List.mem_permutations.1 hσ) _ _ fun T c1 c2 => ?_
    exact (hafter T ⟨c1, c2⟩).2 _
  rw [e]
  refine (h1.mono_dom ?_).mono_hit fun _ h => h.elim
  rintro _ ⟨T, hT, rfl⟩
  exact (hafter T hT).1

/-- A legal list of actions averages over states with the rows it says, and never fails. -/
theorem actions_avg (hexp : num.exp = exp) (ht : Table.Ordered t) (hm : AllMultinomial t) (hc : Table.Counts t)
    (hp : prior.length = t.numCols * (t.numCols - 1) / 2) (junk : Nat → Nat) : ∀ (l : List Action) (S S' : Finset Nat), Legal t.numRows S l S' →
    ∀ s : Trainer ℝ M, RowsAt t S s →
      Avg (RowsAt t S') (fun _ => False) fun F => (l.forM (runAction num junk t prior) : TrainM ℝ M (Expect ℝ) Unit).run.run s (okState F) := by
  intro l
  induction l with
  | nil =>
    rintro S S' rfl s h
    exact ((Avg.point s).mono_dom fun _ hb => by subst hb; exact h).mono_hit fun _ h => h.elim
  | cons a l ih =>
    intro S S' hl s h
    have step : ∀ Q : Finset Nat, Avg (RowsAt t Q) (fun _ => False) (fun F => (runAction num junk t prior a : TrainM ℝ M (Expect ℝ) Unit).run.run s (okState F)) →
        Legal t.numRows Q l S' →
        Avg (RowsAt t S') (fun _ => False) fun F => ((a :: l).forM (runAction num junk t prior) : TrainM ℝ M (Expect ℝ) Unit).run.run s (okState F) := by
      intro Q h1 h2
      have e : (fun F => ((a :: l).forM (runAction num junk t prior) : TrainM ℝ M (Expect ℝ) Unit).run.run s (okState F)) = fun F =>
          (runAction num junk t prior a : TrainM ℝ M (Expect ℝ) Unit).run.run s
            (okState fun u => (l.forM (runAction num junk t prior) : TrainM ℝ M (Expect ℝ) Unit).run.run u (okState F)) :=
        funext fun F => exactBind_run _ _ s F
      rw [e]
      exact (Avg.bind h1 fun u hu => ih Q S' h2 u hu).mono_hit fun _ h => h.elim
    cases a with
    | addRow r => exact step _ (addRow_avg ht hm hc hl.1 hl.2.1 h) hl.2.2
    | removeRow r => exact step _ (removeRow_avg ht hm hl.1 h) hl.2
    | sampleTree => exact step _ (sampleTree_state_avg hexp hp junk h) hl.2

/-- Full epochs keep all rows and never fail, even without rows. -/
theorem epochs_avg (hexp : num.exp = exp) (ht : Table.Ordered t) (hm : AllMultinomial t) (hc : Table.Counts t)
    (hp : prior.length = t.numCols * (t.numCols - 1) / 2) (junk : Nat → Nat) : ∀ (n : Nat) (s : Trainer ℝ M), RowsAt t (Finset.range t.numRows) s →
      Avg (RowsAt t (Finset.range t.numRows)) (fun _ => False) fun F =>
        ((epochsActions t.numRows n).forM (runAction num junk t prior) : TrainM ℝ M (Expect ℝ) Unit).run.run s (okState F) := by
  intro n
  induction n with
  | zero => exact fun s h => ((Avg.point s).mono_dom fun _ hb => by subst hb; exact h).mono_hit fun _ h => h.elim
  | succ n ih =>
    intro s h
    have hrows : Legal t.numRows (Finset.range t.numRows) ((List.range t.numRows).flatMap fun r => [.removeRow r, .addRow r]) (Finset.range t.numRows) := by
      have := legal_rows (List.range t.numRows) (fun r hr => List.mem_range.1 hr) (rest := []) (T := Finset.range t.numRows) rfl
      rwa [List.append_nil] at this
    have e : (fun F => ((epochsActions t.numRows (n + 1)).forM (runAction num junk t prior) : TrainM ℝ M (Expect ℝ) Unit).run.run s (okState F)) = fun F =>
        (runAction num junk t prior .sampleTree : TrainM ℝ M (Expect ℝ) Unit).run.run s (okState fun u =>
          (((List.range t.numRows).flatMap fun r => [.removeRow r, .addRow r]).forM (runAction num junk t prior) : TrainM ℝ M (Expect ℝ) Unit).run.run u (okState fun u' =>
            ((epochsActions t.numRows n).forM (runAction num junk t prior) : TrainM ℝ M (Expect ℝ) Unit).run.run u' (okState F))) := by
      funext F
      rw [epochsActions, epochActions, List.cons_append]
      refine (exactBind_run _ _ s F).trans ?_
      refine congrArg (show (Except PyErr Unit × Trainer ℝ M → ℝ) → ℝ from (runAction num junk t prior .sampleTree : TrainM ℝ M (Expect ℝ) Unit).run.run s) (congrArg okState (funext fun u => ?_))
      rw [forM_app]
      exact exactBind_run _ _ u F
    rw [e]
    exact (Avg.bind (sampleTree_state_avg hexp hp junk h) fun u hu =>
      Avg.bind (actions_avg hexp ht hm hc hp junk _ _ _ hrows u hu) fun u' hu' => ih u' hu').mono_hit fun _ h => h.elim

/-- The logits of the edges given the assignments of all rows. -/
noncomputable def logitsOf (t : Table) (prior : List ℝ) (a : Latent t M) : List ℝ :=
  (completeGrid t.numCols).map fun c => logitOf t prior a c.2.1 c.2.2

/-- The trees that are left when training ends. -/
def lastTree (cfg : TrainConfig) (best : Latent t M → List Edge) (a : Latent t M) (T : List Edge) : List Edge :=
  if cfg.estimateTree then best a else T

/-- What is made of the end of a run: `f` of the returned logits, the assignments and the tree, and nothing if the run fails. -/
def atEnd (f : List ℝ → Latent t M → List Edge → ℝ) : Except PyErr (List ℝ) × Trainer ℝ M → ℝ
  | (.ok logits, s) => f logits (latent t s) s.tree.getEdges
  | (.error _, _) => 0

/-- The same as `train_converges` below, for a function of the whole final state that agrees with `f` on the states with all rows, and is zero if the run fails. -/
theorem train_converges_of (hn : ∀ x, 0 < x → num.gammaln x = log (Gamma x)) (hexp : num.exp = exp)
    (ht : Table.Ordered t) (hm : ∀ ty ∈ t.featureTypes, ty = tyMultinomial) (hc : Table.Counts t)
    (hV : 1 ≤ t.numCols) (hV' : t.numCols ≤ 32768) (hM : M ≤ 128) (prior : List ℝ)
    (hp : prior.length = t.numCols * (t.numCols - 1) / 2) (S : Finset (List Edge))
    (hS : ∀ T, T ∈ S ↔ Canonical T ∧ IsTree t.numCols T) (junk : Nat → Nat) :
    ∃ ρ : ℝ, 0 ≤ ρ ∧ ρ < 1 ∧ ∀ {mst : List (List ℝ) → List Edge}, MstContract mst → ∀ {cfg : TrainConfig}, 1 ≤ cfg.initEpochs → 1 ≤ cfg.sampleTreeRate →
      ∀ {fuel : Nat}, (2 * cfg.initEpochs.toNat + 1) * t.numRows ≤ fuel → ∀ {s : Trainer ℝ M}, Trainer.init t prior.length = .ok s →
      ∀ {best : Latent t M → List Edge}, (∀ a, estimateTree mst (completeGrid t.numCols) (logitsOf t prior a) = .ok (best a)) →
      ∀ (f : List ℝ → Latent t M → List Edge → ℝ) (lo hi : ℝ),
      (∀ a, ∀ T ∈ S, lo ≤ f (logitsOf t prior a) a T ∧ f (logitsOf t prior a) a T ≤ hi) →
      ∀ F : Except PyErr (List ℝ) × Trainer ℝ M → ℝ, (∀ u, Full t u → F (.ok (logitsOf t prior (latent t u)), u) = f (logitsOf t prior (latent t u)) (latent t u) u.tree.getEdges) →
      (∀ e u, F (.error e, u) = 0) →
      |(train num mst junk fuel t prior cfg : TrainM ℝ M (Expect ℝ) (List ℝ)).run.run s F
        - (∑ a, ∑ T ∈ S, posterior t prior a T * f (logitsOf t prior a) a (lastTree cfg best a T)) / ∑ a : Latent t M, ∑ T ∈ S, posterior t prior a T|
        ≤ ρ ^ cfg.fullEpochs.toNat * (hi - lo) := by
  classical
  obtain ⟨ρ, h0, h1, hconv⟩ := fullScan_converges_full (num := num) (M := M) hn hexp ht hm hc hV hV' hM prior hp S hS junk
  refine ⟨ρ, h0, h1, fun {mst} hmst {cfg} i1 i2 {fuel} hf {s} hs {best} hbest f lo hi hb F hF hF0 => ?_⟩
  -- the estimated trees are spanning trees
  have htree : ∀ a, Canonical (best a) ∧ IsTree t.numCols (best a) := by
    intro a
    obtain ⟨T, e1, e2, e3, -⟩ := estimateTree_max mst hmst t.numCols hV _ (makeCompleteGraph_eq _) fun u v => logitOf t prior a u v
    have e : Except.ok (best a) = (.ok T : Py (List Edge)) := (hbest a).symm.trans e1
    cases e
    exact ⟨e2, e3⟩
  obtain ⟨s0, g1, g2, g3⟩ := good_init (K := ℝ) (M := M) hV hV' hM hp
  obtain rfl : s = s0 := by rw [hs] at g1; exact Except.ok.inj g1
  -- the end of training, from a full state
  set H : Trainer ℝ M → ℝ := fun u => f (logitsOf t prior (latent t u)) (latent t u) (lastTree cfg best (latent t u) u.tree.getEdges) with hH
  have hlast : ∀ u : Trainer ℝ M, RowsAt t (Finset.range t.numRows) u →
      ((do
        let s ← get
        liftPy (pyAssert (s.added.card == t.numRows))
        let (edges, logits) ← trainerEstimateTree num mst t prior
        if cfg.estimateTree then setEdges edges
        pure logits : TrainM ℝ M (Expect ℝ) (List ℝ))).run.run u F = H u := by
    intro u hu
    have hfull : Full t u := ⟨hu.1, hu.2⟩
    have hlog := hfull.logits hn hp
    rw [Runs.get.bind_run, (Runs.liftPy (a := ()) (by rw [hu.2]; simp [pyAssert])).bind_run]
    have hest : Runs (trainerEstimateTree num mst t prior : TrainM ℝ M (Expect ℝ) _) u (best (latent t u), logitsOf t prior (latent t u)) u :=
      Runs.bind Runs.get (Runs.bind (Runs.liftPy (makeCompleteGraph_eq _)) (Runs.bind (Runs.liftPy hlog) (Runs.bind (Runs.liftPy (hbest _)) (Runs.pure _))))
    rw [hest.bind_run]
    by_cases hb : cfg.estimateTree = true
    · obtain ⟨_, s', ⟨g1, a1, as1, t1⟩, h3⟩ := (Det.setEdges (best (latent t u)) u).of_tot (Tot.setEdges hu.1 (htree _).2)
      have hT : s'.tree.getEdges = best (latent t u) := by
        change gridEdges s'.tree.treeGrid = _
        rw [t1, gridEdges_makeTree, sortEdges_canonical (htree _).1]
      simp only [hb, if_true]
      refine (h3 _).trans ?_
      show F (.ok (logitsOf t prior (latent t u)), s') = _
      have hl : latent t s' = latent t u := by unfold latent; rw [as1]
      rw [← hl, hF _ ⟨g1, a1.trans hu.2⟩, hT, hl]
      simp [hH, lastTree, hb]
    · simp only [hb]
      show F (.ok (logitsOf t prior (latent t u)), u) = _
      rw [hF _ hfull]
      simp [hH, lastTree, hb]
  -- the epochs, from a full state
  set pi := (∑ a, ∑ T ∈ S, posterior t prior a T * f (logitsOf t prior a) a (lastTree cfg best a T)) / ∑ a : Latent t M, ∑ T ∈ S, posterior t prior a T with hpi
  have hepochs : ∀ u : Trainer ℝ M, RowsAt t (Finset.range t.numRows) u →
      |((List.replicate cfg.fullEpochs.toNat ()).forM fun _ => fullScan num junk t prior : TrainM ℝ M (Expect ℝ) Unit).run.run u (okState H) - pi| ≤ ρ ^ cfg.fullEpochs.toNat * (hi - lo) := by
    intro u hu
    have h := hconv (fun r a T => match r with
      | .ok _ => f (logitsOf t prior a) a (lastTree cfg best a T)
      | .error _ => 0) lo hi (fun a T hT => hb a _ (by
        unfold lastTree
        split
        · exact (hS _).2 (htree a)
        · exact hT)) u ⟨hu.1, hu.2⟩ cfg.fullEpochs.toNat
    have e : (okState H : Except PyErr Unit × Trainer ℝ M → ℝ) = fun o => (fun (r : Except PyErr Unit) (a : Latent t M) (T : List Edge) => match r with
      | .ok _ => f (logitsOf t prior a) a (lastTree cfg best a T)
      | .error _ => 0) o.1 (latent t o.2) o.2.tree.getEdges := by
      funext o
      obtain ⟨r, s'⟩ := o
      cases r <;> rfl
    rw [e]
    exact h
  have havg := actions_avg (M := M) hexp ht hm hc hp junk
  have hsched := fun rows hrows => annealingSchedule_spec rows t.numRows cfg.initEpochs.toNat (cfg.initEpochs : ℝ)
      (cfg.sampleTreeRate : ℝ) (by exact_mod_cast i1) (by exact_mod_cast i2)
      (by have : cfg.initEpochs ≤ (cfg.initEpochs.toNat : Int) := Int.self_le_toNat _
          exact_mod_cast this) hrows fuel hf
  have hrun : (train num mst junk fuel t prior cfg : TrainM ℝ M (Expect ℝ) (List ℝ)).run.run s F
      = ((List.range t.numRows).permutations.map fun rows => match annealingSchedule fuel rows t.numRows (cfg.initEpochs : ℝ) (cfg.sampleTreeRate : ℝ) with
        | .ok acts => (acts.forM (runAction num junk t prior) : TrainM ℝ M (Expect ℝ) Unit).run.run s (okState fun u =>
            ((List.replicate cfg.fullEpochs.toNat ()).forM fun _ => fullScan num junk t prior : TrainM ℝ M (Expect ℝ) Unit).run.run u (okState H))
        | .error _ => 0).sum / (t.numRows.factorial : ℝ) := by
    unfold train
    rw [Runs.get.bind_run, (Runs.liftPy (a := ()) (by rw [g3]; rfl)).bind_run]
    refine (exactRand_bind_run _ _ _ _).trans ?_
    refine (perm_avg t.numRows).congr _ _ fun rows hrows => ?_
    obtain ⟨acts, a1, a2, -⟩ := hsched rows hrows
    show (liftPy (annealingSchedule fuel rows t.numRows (cfg.initEpochs : ℝ) (cfg.sampleTreeRate : ℝ)) >>= _ : TrainM ℝ M (Expect ℝ) (List ℝ)).run.run s F = _
    rw [(Runs.liftPy a1).bind_run, a1]
    refine exactBind_congr _ _ (fun _ _ => hF0 _ _) (havg _ _ _ a2 s ⟨g2, g3⟩) fun u hu => ?_
    rw [Runs.get.bind_run, (Runs.liftPy (a := ()) (by rw [hu.2]; simp [pyAssert])).bind_run]
    rw [replicate_actions (fullScan_actions (M := M) (m := Expect ℝ) num junk t prior) _]
    exact exactBind_congr _ _ (fun _ _ => hF0 _ _) (epochs_avg hexp ht hm hc hp junk _ u hu) hlast
  rw [hrun]
  have key := (perm_avg t.numRows).near (f := fun rows => match annealingSchedule fuel rows t.numRows (cfg.initEpochs : ℝ) (cfg.sampleTreeRate : ℝ) with
        | .ok acts => (acts.forM (runAction num junk t prior) : TrainM ℝ M (Expect ℝ) Unit).run.run s (okState fun u =>
            ((List.replicate cfg.fullEpochs.toNat ()).forM fun _ => fullScan num junk t prior : TrainM ℝ M (Expect ℝ) Unit).run.run u (okState H))
        | .error _ => 0) (g := fun _ => pi) (ε := ρ ^ cfg.fullEpochs.toNat * (hi - lo)) fun rows hrows => by
    obtain ⟨acts, a1, a2, -⟩ := hsched rows hrows
    have h := havg _ _ _ a2 s ⟨g2, g3⟩
    simp only [a1]
    have h' := h.near (g := fun _ => pi) hepochs
    rwa [h.const] at h'
  rwa [(perm_avg t.numRows).const] at key

/-- **C52** (whole run). A run of `train` from a new trainer: there is a rate `ρ < 1`, depending on table, prior and number of clusters only, such that for every config, every
function that returns maximal spanning trees and every function `f` of the returned logits, the assignments and the tree with values in `[lo, hi]`, its expected value at the end of training
is within `ρ ^ n (hi - lo)` of its posterior mean, for `n` full epochs. The returned logits are those of the assignments, and with `learning_estimate_tree` the tree is the one
`estimate_tree` returns for these logits. No run fails (take `f` to be one everywhere). -/
theorem train_converges (hn : ∀ x, 0 < x → num.gammaln x = log (Gamma x)) (hexp : num.exp = exp)
    (ht : Table.Ordered t) (hm : ∀ ty ∈ t.featureTypes, ty = tyMultinomial) (hc : Table.Counts t)
    (hV : 1 ≤ t.numCols) (hV' : t.numCols ≤ 32768) (hM : M ≤ 128) (prior : List ℝ)
    (hp : prior.length = t.numCols * (t.numCols - 1) / 2) (S : Finset (List Edge))
    (hS : ∀ T, T ∈ S ↔ Canonical T ∧ IsTree t.numCols T) (junk : Nat → Nat) :
    ∃ ρ : ℝ, 0 ≤ ρ ∧ ρ < 1 ∧ ∀ {mst : List (List ℝ) → List Edge}, MstContract mst → ∀ {cfg : TrainConfig}, 1 ≤ cfg.initEpochs → 1 ≤ cfg.sampleTreeRate →
      ∀ {fuel : Nat}, (2 * cfg.initEpochs.toNat + 1) * t.numRows ≤ fuel → ∀ {s : Trainer ℝ M}, Trainer.init t prior.length = .ok s →
      ∀ {best : Latent t M → List Edge}, (∀ a, estimateTree mst (completeGrid t.numCols) (logitsOf t prior a) = .ok (best a)) →
      ∀ (f : List ℝ → Latent t M → List Edge → ℝ) (lo hi : ℝ),
      (∀ a, ∀ T ∈ S, lo ≤ f (logitsOf t prior a) a T ∧ f (logitsOf t prior a) a T ≤ hi) →
      |(train num mst junk fuel t prior cfg : TrainM ℝ M (Expect ℝ) (List ℝ)).run.run s (atEnd f)
        - (∑ a, ∑ T ∈ S, posterior t prior a T * f (logitsOf t prior a) a (lastTree cfg best a T)) / ∑ a : Latent t M, ∑ T ∈ S, posterior t prior a T|
        ≤ ρ ^ cfg.fullEpochs.toNat * (hi - lo) := by
  obtain ⟨ρ, h0, h1, h⟩ := train_converges_of (num := num) (M := M) hn hexp ht hm hc hV hV' hM prior hp S hS junk
  exact ⟨ρ, h0, h1, fun {mst} hmst {cfg} i1 i2 {fuel} hf {s} hs {best} hbest f lo hi hb =>
    h hmst i1 i2 hf hs hbest f lo hi hb (atEnd f) (fun _ _ => rfl) fun _ _ => rfl⟩

/-- **C52** (whole run, as a limit). With more and more full epochs the expected value of every function of the returned logits, the assignments and the tree tends to its posterior mean. -/
theorem train_tendsto (hn : ∀ x, 0 < x → num.gammaln x = log (Gamma x)) (hexp : num.exp = exp)
    (ht : Table.Ordered t) (hm : ∀ ty ∈ t.featureTypes, ty = tyMultinomial) (hc : Table.Counts t)
    (hV : 1 ≤ t.numCols) (hV' : t.numCols ≤ 32768) (hM : M ≤ 128) (prior : List ℝ)
    (hp : prior.length = t.numCols * (t.numCols - 1) / 2) (S : Finset (List Edge))
    (hS : ∀ T, T ∈ S ↔ Canonical T ∧ IsTree t.numCols T) (junk : Nat → Nat)
    {mst : List (List ℝ) → List Edge} (hmst : MstContract mst) {cfg : TrainConfig} (h1 : 1 ≤ cfg.initEpochs) (h2 : 1 ≤ cfg.sampleTreeRate)
    {fuel : Nat} (hf : (2 * cfg.initEpochs.toNat + 1) * t.numRows ≤ fuel) {s : Trainer ℝ M} (hs : Trainer.init t prior.length = .ok s)
    {best : Latent t M → List Edge} (hbest : ∀ a, estimateTree mst (completeGrid t.numCols) (logitsOf t prior a) = .ok (best a))
    (f : List ℝ → Latent t M → List Edge → ℝ) :
    Filter.Tendsto (fun n : Nat => (train num mst junk fuel t prior { cfg with fullEpochs := n } : TrainM ℝ M (Expect ℝ) (List ℝ)).run.run s (atEnd f))
      Filter.atTop (nhds ((∑ a, ∑ T ∈ S, posterior t prior a T * f (logitsOf t prior a) a (lastTree cfg best a T)) / ∑ a : Latent t M, ∑ T ∈ S, posterior t prior a T)) := by
  obtain ⟨ρ, r0, r1, hconv⟩ := train_converges (num := num) (M := M) hn hexp ht hm hc hV hV' hM prior hp S hS junk
  set B := ∑ a : Latent t M, ∑ T ∈ S, |f (logitsOf t prior a) a T| with hB
  have hb : ∀ a, ∀ T ∈ S, |f (logitsOf t prior a) a T| ≤ B := fun a T hT =>
    (Finset.single_le_sum (f := fun T => |f (logitsOf t prior a) a T|) (fun _ _ => abs_nonneg _) hT).trans
      (Finset.single_le_sum (f := fun a => ∑ T ∈ S, |f (logitsOf t prior a) a T|) (fun a _ => Finset.sum_nonneg fun _ _ => abs_nonneg _) (Finset.mem_univ a))
  have h3 := fun n : Nat => hconv hmst (cfg := { cfg with fullEpochs := n }) h1 h2 hf hs hbest f (-B) B fun a T hT => abs_le.1 (hb a T hT)
  rw [tendsto_iff_dist_tendsto_zero]
  refine squeeze_zero (fun _ => dist_nonneg) (fun n => h3 n) ?_
  simpa using (tendsto_pow_atTop_nhds_zero_of_lt_one r0 r1).mul_const (B - -B : ℝ)

/-- **C52** (whole run, estimated tree). With `learning_estimate_tree` the probability that training ends with a tree tends to the posterior probability that the estimate from the assignments is
this tree. -/
theorem train_tree_tendsto (hn : ∀ x, 0 < x → num.gammaln x = log (Gamma x)) (hexp : num.exp = exp)
    (ht : Table.Ordered t) (hm : ∀ ty ∈ t.featureTypes, ty = tyMultinomial) (hc : Table.Counts t)
    (hV : 1 ≤ t.numCols) (hV' : t.numCols ≤ 32768) (hM : M ≤ 128) (prior : List ℝ)
    (hp : prior.length = t.numCols * (t.numCols - 1) / 2) (S : Finset (List Edge))
    (hS : ∀ T, T ∈ S ↔ Canonical T ∧ IsTree t.numCols T) (junk : Nat → Nat)
    {mst : List (List ℝ) → List Edge} (hmst : MstContract mst) {cfg : TrainConfig} (h1 : 1 ≤ cfg.initEpochs) (h2 : 1 ≤ cfg.sampleTreeRate)
    (he : cfg.estimateTree = true) {fuel : Nat} (hf : (2 * cfg.initEpochs.toNat + 1) * t.numRows ≤ fuel) {s : Trainer ℝ M} (hs : Trainer.init t prior.length = .ok s)
    {best : Latent t M → List Edge} (hbest : ∀ a, estimateTree mst (completeGrid t.numCols) (logitsOf t prior a) = .ok (best a)) (T' : List Edge) :
    Filter.Tendsto (fun n : Nat => (train num mst junk fuel t prior { cfg with fullEpochs := n } : TrainM ℝ M (Expect ℝ) (List ℝ)).run.run s
        (atEnd (t := t) fun _ _ T => if T = T' then 1 else 0))
      Filter.atTop (nhds ((∑ a : Latent t M with best a = T', ∑ T ∈ S, posterior t prior a T) / ∑ a : Latent t M, ∑ T ∈ S, posterior t prior a T)) := by
  have h := train_tendsto (num := num) (M := M) hn hexp ht hm hc hV hV' hM prior hp S hS junk hmst h1 h2 hf hs hbest fun _ _ T => if T = T' then 1 else 0
  have e : (∑ a : Latent t M, ∑ T ∈ S, posterior t prior a T * (if lastTree cfg best a T = T' then (1 : ℝ) else 0)) = ∑ a : Latent t M with best a = T', ∑ T ∈ S, posterior t prior a T := by
    rw [Finset.sum_filter]
    refine Finset.sum_congr rfl fun a _ => ?_
    simp only [lastTree, he, if_true]
    by_cases hb : best a = T' <;> simp [hb]
  rwa [e] at h

end

/-- The hypotheses are met by `exTable` with two clusters and the zero prior: three epochs of annealing, then as many full epochs as wanted. -/
example (num : Num ℝ) (hn : ∀ x, 0 < x → num.gammaln x = log (Gamma x)) (hexp : num.exp = exp) (junk : Nat → Nat) :
    ∃ (mst : List (List ℝ) → List Edge) (best : Latent exTable 2 → List Edge) (S : Finset (List Edge)) (s : Trainer ℝ 2), Trainer.init exTable 3 = .ok s ∧
      Filter.Tendsto (fun n : Nat => (train num mst junk 100 exTable [0, 0, 0] ⟨3, n, 2, true⟩ : TrainM ℝ 2 (Expect ℝ) (List ℝ)).run.run s
          (atEnd (t := exTable) fun _ _ T => if T = [(0, 1), (0, 2)] then 1 else 0))
        Filter.atTop (nhds ((∑ a : Latent exTable 2 with best a = [(0, 1), (0, 2)], ∑ T ∈ S, posterior exTable [0, 0, 0] a T) /
          ∑ a : Latent exTable 2, ∑ T ∈ S, posterior exTable [0, 0, 0] a T)) := by
  have hm : ∀ ty ∈ exTable.featureTypes, ty = tyMultinomial := by decide
  obtain ⟨mst, hmst⟩ := exists_mst (K := ℝ)
  obtain ⟨S, hS⟩ := exists_trees exTable.numCols
  obtain ⟨s, hs, -, -⟩ := good_init (K := ℝ) (M := 2) (t := exTable) (by decide) (by decide) (by decide) rfl
  have hb : ∀ a : Latent exTable 2, ∃ T, estimateTree mst (completeGrid exTable.numCols) (logitsOf exTable [0, 0, 0] a) = .ok T := fun a => by
    obtain ⟨T, e, -⟩ := estimateTree_max mst hmst exTable.numCols (by decide) _ (makeCompleteGraph_eq _) fun u v => logitOf exTable [0, 0, 0] a u v
    exact ⟨T, e⟩
  choose best hbest using hb
  exact ⟨mst, best, S, s, hs, train_tree_tendsto hn hexp exTable_ordered hm exTable_counts (by decide) (by decide) (by decide) [0, 0, 0] rfl S hS junk hmst
    (cfg := ⟨3, 0, 2, true⟩) (by decide) (by decide) rfl (by decide) hs hbest _⟩

end TreeCat
