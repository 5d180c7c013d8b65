import Verif.Model.TrainInf
import Verif.Props.EstimateInf
import Verif.Props.Train
import Verif.Props.TreeInf
import Verif.Props.TreeInfGibbs

/-!
# C95: training with forbidden edges
-/

set_option linter.unusedSectionVars false

namespace TreeCat

open Util Spec

section
variable {K : Type} {M : Nat} {α β : Type}

/-! ### Outcomes that may be exceptions -/

/-- The method has an outcome, and `R` holds for all. -/
def Leads (x : TrainM K M Poss α) (s : Trainer K M) (R : Except PyErr α → Trainer K M → Prop) : Prop :=
  (∃ p, outcomes x s p) ∧ ∀ r s', outcomes x s (r, s') → R r s'

theorem Tot.leads_bind {x : TrainM K M Poss α} {f : α → TrainM K M Poss β} {s : Trainer K M} {R : Except PyErr β → Trainer K M → Prop}
    (h : Tot x s fun a s' => Leads (f a) s' R) : Leads (x >>= f) s R := by
  obtain ⟨⟨⟨r, s1⟩, hr⟩, h2⟩ := h
  constructor
  · obtain ⟨a, rfl, ha⟩ := h2 r s1 hr
    obtain ⟨p, hp⟩ := ha.1
    exact ⟨p, (outcomes_bind _ _ _ _).2 ⟨_, _, hr, hp⟩⟩
  · intro r s' hb
    obtain ⟨r1, s1, h3, h4⟩ := (outcomes_bind _ _ _ _).1 hb
    obtain ⟨a, rfl, ha⟩ := h2 r1 s1 h3
    exact ha.2 r s' h4

theorem Tot.leads {x : TrainM K M Poss α} {s : Trainer K M} {R : Except PyErr α → Trainer K M → Prop}
    (h : Tot x s fun a s' => R (.ok a) s') : Leads x s R :=
  ⟨h.1, fun r s' hr => by obtain ⟨a, rfl, hq⟩ := h.2 r s' hr; exact hq⟩

theorem Leads.bind_error {x : TrainM K M Poss α} {f : α → TrainM K M Poss β} {s : Trainer K M} {R : Except PyErr β → Trainer K M → Prop}
    (h : Leads x s fun r s' => ∃ e, r = .error e ∧ R (.error e) s') : Leads (x >>= f) s R := by
  obtain ⟨⟨⟨r, s1⟩, hr⟩, h2⟩ := h
  constructor
  · obtain ⟨e, rfl, he⟩ := h2 r s1 hr
    exact ⟨_, (outcomes_bind _ _ _ _).2 ⟨_, _, hr, rfl⟩⟩
  · intro r s' hb
    obtain ⟨r1, s1, h3, h4⟩ := (outcomes_bind _ _ _ _).1 hb
    obtain ⟨e, rfl, he⟩ := h2 r1 s1 h3
    cases h4
    exact he

theorem Leads.liftPy_error {s : Trainer K M} {x : Py α} {e : PyErr} {R : Except PyErr α → Trainer K M → Prop} (hx : x = .error e)
    (h : R (.error e) s) : Leads (liftPy x : TrainM K M Poss α) s R := by
  subst hx
  refine ⟨⟨(.error e, s), rfl⟩, fun r s' hr => ?_⟩
  cases hr
  exact h

end

/-- Lists of the right length are functions of the pairs. -/
theorem list_eq_map {α : Type} (d : α) (V : Nat) (l : List α) (hl : l.length = V * (V - 1) / 2) :
    l = (completeGrid V).map fun p => l.getD (findCompleteEdge p.2.1 p.2.2) d := by
  apply List.ext_getElem?
  intro k
  rw [List.getElem?_map, completeGrid_getElem?]
  cases hk : (pairs V)[k]? with
  | none =>
    have : (pairs V).length ≤ k := by rwa [List.getElem?_eq_none_iff] at hk
    rw [pairs_length] at this
    rw [List.getElem?_eq_none (by rw [hl]; exact this)]
    rfl
  | some p =>
    have h1 := pairs_getElem?_some V k p hk
    have h2 : k < l.length := by
      have : k < (pairs V).length := by
        by_contra hc
        rw [List.getElem?_eq_none (by omega)] at hk; cases hk
      rw [pairs_length] at this
      rw [hl]; exact this
    simp only [Option.map_some]
    rw [h1.2.2, List.getElem?_eq_getElem h2, List.getD_eq_getElem?_getD, List.getElem?_eq_getElem h2, Option.getD_some]

theorem except_mapM_length {α β : Type} (f : α → Py β) : ∀ (l : List α) (r : List β), l.mapM f = .ok r → r.length = l.length := by
  intro l
  induction l with
  | nil => intro r h; cases h; rfl
  | cons a l ih =>
    intro r h
    rw [List.mapM_cons] at h
    cases ha : f a with
    | error e => rw [ha] at h; cases h
    | ok b =>
      cases hl : l.mapM f with
      | error e => rw [ha, hl] at h; cases h
      | ok bs =>
        rw [ha, hl] at h
        cases h
        simp [ih bs hl]

section
variable {K : Type} [Field K] [LinearOrder K] {M : Nat} [NeZero M]

/-! ### Edge logits -/

variable {t : Table} {s : Trainer K M} {num : Num K} {treePrior : List (WithBot K)}

theorem computeEdgeLogitsInf_eq (num : Num K) (treePrior : List (WithBot K)) (s : Trainer K M) :
    computeEdgeLogitsInf num t treePrior s =
      (computeEdgeLogits num t (List.replicate (t.numCols * (t.numCols - 1) / 2) 0) s).map
        fun l => l.zipWith (fun (x : K) p => (x : WithBot K) + p) treePrior := by
  unfold computeEdgeLogitsInf computeEdgeLogits
  dsimp only
  rw [makeCompleteGraph_eq]
  simp only [bind, Except.bind]
  cases h : (completeGrid t.numCols).mapM (m := Py) _ with
  | error e => rfl
  | ok result =>
    have hl : result.length = t.numCols * (t.numCols - 1) / 2 := by
      rw [except_mapM_length _ _ _ h, completeGrid_length]; rfl
    have : result.zipWith (· + ·) (List.replicate (t.numCols * (t.numCols - 1) / 2) (0 : K)) = result := by
      rw [← hl]
      clear h hl
      induction result with
      | nil => rfl
      | cons a l ih => simp only [List.length_cons, List.replicate_succ, List.zipWith_cons_cons, add_zero, ih]
    simp only [Except.map, this]

/-- The edge logits as a function of the pair. -/
def edgeLogitInf (num : Num K) (t : Table) (treePrior : List (WithBot K)) (s : Trainer K M) (a b : Nat) : WithBot K :=
  ((edgeLogit num t s a b : K) : WithBot K) + treePrior.getD (findCompleteEdge a b) 0

theorem computeEdgeLogitsInf_map (hp : treePrior.length = t.numCols * (t.numCols - 1) / 2) (h : s.added ⊆ Finset.range t.numRows) :
    computeEdgeLogitsInf num t treePrior s = .ok ((completeGrid t.numCols).map fun c => edgeLogitInf num t treePrior s c.2.1 c.2.2) := by
  rw [computeEdgeLogitsInf_eq, computeEdgeLogits_eq _ _ h]
  simp only [Except.map, Except.ok.injEq]
  have h0 : ((completeGrid t.numCols).map fun c => edgeLogit num t s c.2.1 c.2.2).zipWith (· + ·)
      (List.replicate (t.numCols * (t.numCols - 1) / 2) (0 : K)) = (completeGrid t.numCols).map fun c => edgeLogit num t s c.2.1 c.2.2 := by
    have hl : ((completeGrid t.numCols).map fun c => edgeLogit num t s c.2.1 c.2.2).length = t.numCols * (t.numCols - 1) / 2 := by
      rw [List.length_map, completeGrid_length]; rfl
    generalize ((completeGrid t.numCols).map fun c => edgeLogit num t s c.2.1 c.2.2) = l at hl
    rw [← hl]
    clear hl
    induction l with
    | nil => rfl
    | cons a l ih => simp only [List.length_cons, List.replicate_succ, List.zipWith_cons_cons, add_zero, ih]
  rw [h0]
  conv_lhs => rw [list_eq_map 0 t.numCols treePrior hp]
  rw [List.zipWith_map]
  exact List.zipWith_self

theorem edgeLogitInf_bot (a b : Nat) :
    edgeLogitInf num t treePrior s a b = ⊥ ↔ treePrior.getD (findCompleteEdge a b) 0 = ⊥ := by
  unfold edgeLogitInf
  rw [WithBot.add_eq_bot]
  simp

/-! ### The number of forbidden edges -/

/-- The edges of a tree that the prior forbids. -/
abbrev priorCount (treePrior : List (WithBot K)) (T : List Edge) : Nat :=
  forbiddenCount (fun a b => treePrior.getD (findCompleteEdge a b) 0) T

theorem forbiddenCount_logits (T : List Edge) :
    forbiddenCount (edgeLogitInf num t treePrior s) T = priorCount treePrior T := by
  unfold priorCount forbiddenCount
  simp only [edgeLogitInf_bot]

theorem forbiddenCount_sortEdges (logit : Nat → Nat → WithBot K) (T : List Edge) :
    forbiddenCount logit (sortEdges T) = forbiddenCount logit T := by
  unfold forbiddenCount sortEdges
  rw [(List.perm_insertionSort edgeLe _).countP_eq, List.countP_map]
  apply List.countP_congr
  intro p _
  simp only [Function.comp, sortPair]
  split
  · simp only [min_comm, max_comm]
  · rfl

theorem forbiddenCount_eq_zero (logit : Nat → Nat → WithBot K) (T : List Edge) :
    forbiddenCount logit T = 0 ↔ ∀ p ∈ T, logit (min p.1 p.2) (max p.1 p.2) ≠ ⊥ := by
  unfold forbiddenCount
  rw [List.countP_eq_zero]
  simp

/-- The tree has as few forbidden edges as possible. -/
def FewForbidden (t : Table) (treePrior : List (WithBot K)) (s : Trainer K M) : Prop :=
  ∀ T', IsTree t.numCols T' → priorCount treePrior s.tree.getEdges ≤ priorCount treePrior T'

/-! ### Methods -/

variable [IsStrictOrderedRing K]

/-- Draws of `sample_tree` among all possible outcomes. -/
def asPoss {α : Type} (x : Sampled K α) : Poss α := x

theorem Tot.trainerSampleTreeInf (hnn : ∀ x, 0 ≤ num.exp x) (h0 : 0 < num.exp 0) (junk : Nat → Nat)
    (hp : treePrior.length = t.numCols * (t.numCols - 1) / 2) (h : Good t s) :
    Tot (TreeCat.trainerSampleTreeInf (n := Sampled K) asPoss num junk t treePrior) s fun edges s' => s' = s ∧ IsTree t.numCols edges ∧
      ∀ T', IsTree t.numCols T' → priorCount treePrior edges ≤ priorCount treePrior T' := by
  refine Tot.bind (Tot.get ?_)
  refine Tot.bind (Tot.liftPy (makeCompleteGraph_eq _) ?_)
  refine Tot.bind (Tot.liftPy (computeEdgeLogitsInf_map hp h.rows) ?_)
  refine Tot.bind (Tot.liftPy (a := ()) (by rw [List.length_map]; simp [pyAssert]) ?_)
  have hperm : Sure (ExceptT.lift (Shuffle.permutation s.tree.getEdges.length) : ExceptT PyErr Poss (List Nat))
      fun l => l.Perm (List.range s.tree.getEdges.length) := by
    refine ⟨⟨.ok (List.range _), ⟨List.range _, List.Perm.refl _, rfl⟩⟩, ?_⟩
    rintro r ⟨l, hl, h2⟩
    cases h2
    exact ⟨l, rfl, hl⟩
  refine Tot.bind (Tot.liftRand hperm.1 fun r hr => ?_)
  obtain ⟨perm, rfl, hperm⟩ := hperm.2 r hr
  refine ⟨perm, rfl, ?_⟩
  obtain ⟨h2, h3⟩ := sampleTreeInf_least hnn h0 t.numCols _ (makeCompleteGraph_eq _) (edgeLogitInf num t treePrior s) s.tree.getEdges
    h.isTree junk perm hperm
  refine Tot.bind (Tot.liftRand h2 fun r hr => ?_)
  obtain ⟨out, n, rfl, h5, -, h6, -⟩ := h3 r hr
  refine ⟨(out, n), rfl, Tot.pure ⟨rfl, h5, fun T' hT' => ?_⟩⟩
  have := h6 T' hT'
  rw [← forbiddenCount_logits (num := num) (t := t) (s := s), ← forbiddenCount_logits (num := num) (t := t) (s := s) T']
  exact this

theorem Tot.sampleSetInf (hnn : ∀ x, 0 ≤ num.exp x) (h0 : 0 < num.exp 0) (junk : Nat → Nat)
    (hp : treePrior.length = t.numCols * (t.numCols - 1) / 2) (h : Good t s) :
    Tot (do let edges ← TreeCat.trainerSampleTreeInf (n := Sampled K) asPoss num junk t treePrior; TreeCat.setEdges edges) s
      fun _ s' => Good t s' ∧ s'.added = s.added ∧ FewForbidden t treePrior s' := by
  refine Tot.bind ((Tot.trainerSampleTreeInf hnn h0 junk hp h).mono ?_)
  rintro edges s' ⟨rfl, he, hc⟩
  refine (Tot.setEdges h he).mono ?_
  rintro _ s1 ⟨h4, h5, -, h6⟩
  refine ⟨h4, h5, fun T' hT' => ?_⟩
  have : s1.tree.getEdges = sortEdges edges := by
    rw [← gridEdges_makeTree, ← h6]; rfl
  rw [this, priorCount, forbiddenCount_sortEdges]
  exact hc T' hT'

theorem FewForbidden.of_tree {s' : Trainer K M} (h : FewForbidden t treePrior s) (he : s'.tree = s.tree) : FewForbidden t treePrior s' := by
  unfold FewForbidden at h ⊢
  rw [he]
  exact h

theorem Tot.runActionInf (hnn : ∀ x, 0 ≤ num.exp x) (h0 : 0 < num.exp 0) (ht : Table.Ordered t) (hm : AllMultinomial t) (junk : Nat → Nat)
    (hp : treePrior.length = t.numCols * (t.numCols - 1) / 2) (acts : List Action) :
    ∀ (s : Trainer K M) (T : Finset Nat), Good t s → Legal t.numRows s.added acts T →
      Tot (acts.forM (TreeCat.runActionInf (n := Sampled K) asPoss num junk t treePrior)) s fun _ s' => Good t s' ∧ s'.added = T ∧
        (Action.sampleTree ∈ acts ∨ FewForbidden t treePrior s → FewForbidden t treePrior s') := by
  induction acts with
  | nil => intro s T h hl; exact Tot.pure (a := PUnit.unit) ⟨h, hl, by simp⟩
  | cons a acts ih =>
    intro s T h hl
    refine Tot.bind ?_
    cases a with
    | addRow r =>
      obtain ⟨h1, h2, h3⟩ := hl
      refine (Tot.addRow ht hm h h2 h1).mono ?_
      rintro _ s' ⟨h4, h5, h6, -⟩
      refine (ih s' T h4 (by rw [h5]; exact h3)).mono ?_
      rintro _ s2 ⟨g1, g2, g3⟩
      refine ⟨g1, g2, fun hc => g3 ?_⟩
      rcases hc with hc | hc
      · exact .inl (by simpa using hc)
      · exact .inr (hc.of_tree h6)
    | removeRow r =>
      obtain ⟨h1, h2⟩ := hl
      refine (Tot.removeRow ht hm h h1).mono ?_
      rintro _ s' ⟨h4, h5, h6, -⟩
      refine (ih s' T h4 (by rw [h5]; exact h2)).mono ?_
      rintro _ s2 ⟨g1, g2, g3⟩
      refine ⟨g1, g2, fun hc => g3 ?_⟩
      rcases hc with hc | hc
      · exact .inl (by simpa using hc)
      · exact .inr (hc.of_tree h6)
    | sampleTree =>
      obtain ⟨-, h2⟩ := hl
      refine (Tot.sampleSetInf hnn h0 junk hp h).mono ?_
      rintro _ s1 ⟨h4, h5, h6⟩
      refine (ih s1 T h4 (by rw [h5]; exact h2)).mono ?_
      rintro _ s2 ⟨g1, g2, g3⟩
      exact ⟨g1, g2, fun _ => g3 (.inr h6)⟩

theorem Tot.fullScanInf (hnn : ∀ x, 0 ≤ num.exp x) (h0 : 0 < num.exp 0) (ht : Table.Ordered t) (hm : AllMultinomial t) (junk : Nat → Nat)
    (hp : treePrior.length = t.numCols * (t.numCols - 1) / 2) (h : Good t s)
    (hs : s.added = Finset.range t.numRows) :
    Tot (TreeCat.fullScanInf (n := Sampled K) asPoss num junk t treePrior) s fun _ s' => Good t s' ∧ s'.added = Finset.range t.numRows ∧
      FewForbidden t treePrior s' := by
  refine Tot.bind ((Tot.trainerSampleTreeInf hnn h0 junk hp h).mono ?_)
  rintro edges s' ⟨rfl, he, hc⟩
  refine Tot.bind ((Tot.setEdges h he).mono ?_)
  rintro _ s1 ⟨h1, h2, -, h6⟩
  have hfew : FewForbidden t treePrior s1 := by
    intro T' hT'
    have : s1.tree.getEdges = sortEdges edges := by
      rw [← gridEdges_makeTree, ← h6]; rfl
    rw [this, priorCount, forbiddenCount_sortEdges]
    exact hc T' hT'
  refine Tot.forM _ _ (fun _ (s' : Trainer K M) => Good t s' ∧ s'.added = Finset.range t.numRows ∧ FewForbidden t treePrior s')
    ⟨h1, by rw [h2, hs], hfew⟩ ?_
  rintro done r rest hl s2 ⟨h3, h4, hf2⟩
  have hr : r < t.numRows := by
    have : r ∈ List.range t.numRows := by rw [hl]; simp
    simpa using this
  refine Tot.bind ((Tot.removeRow ht hm h3 (by rw [h4]; simpa using hr)).mono ?_)
  rintro _ s3 ⟨h5, h6, h7, -⟩
  refine (Tot.addRow ht hm h5 (by rw [h6]; simp) hr).mono ?_
  rintro _ s4 ⟨h8, h9, h10, -⟩
  refine ⟨h8, ?_, (hf2.of_tree h7).of_tree h10⟩
  rw [h9, h6, h4, Finset.insert_erase (by simpa using hr)]

/-- Edge logits depend on the rows and the assignments only. -/
theorem computeEdgeLogits_congr {prior : List K} {s s' : Trainer K M} (g : Good t s) (g' : Good t s') (ha : s'.added = s.added)
    (hb : s'.assign = s.assign) : computeEdgeLogits num t prior s' = computeEdgeLogits num t prior s := by
  rw [computeEdgeLogits_eq num prior g'.rows, computeEdgeLogits_eq num prior g.rows]
  congr 2
  refine List.map_congr_left fun c hc => ?_
  have hmem : c.2.1 < t.numCols ∧ c.2.2 < t.numCols := by
    obtain ⟨k, hk, hkc⟩ := List.getElem_of_mem hc
    have := completeGrid_getElem? t.numCols k
    rw [List.getElem?_eq_getElem hk, hkc] at this
    obtain ⟨p, hp, rfl⟩ := Option.map_eq_some_iff.1 this.symm
    have := pairs_getElem?_some _ _ _ hp
    exact ⟨by simp only; omega, this.2.1⟩
  have hv : ∀ v < t.numCols, s'.vertSS v = s.vertSS v := by
    intro v hv; funext m
    rw [g'.stats.vert v hv m, g.stats.vert v hv m, ha, hb]
  unfold edgeLogit logitRows
  rw [ha, hb, hv _ hmem.1, hv _ hmem.2]

/-- The logits are `-inf` exactly where the prior is. -/
theorem computeEdgeLogitsInf_bot (hp : treePrior.length = t.numCols * (t.numCols - 1) / 2) (h : s.added ⊆ Finset.range t.numRows)
    {logits : List (WithBot K)} (hl : computeEdgeLogitsInf num t treePrior s = .ok logits) :
    logits.length = treePrior.length ∧ ∀ i, logits.getD i 0 = ⊥ ↔ treePrior.getD i 0 = ⊥ := by
  rw [computeEdgeLogitsInf_eq, computeEdgeLogits_eq _ _ h] at hl
  simp only [Except.map, Except.ok.injEq] at hl
  have hlen := zipWith_logits_length (treePrior := List.replicate (t.numCols * (t.numCols - 1) / 2) (0 : K))
    (fun c => edgeLogit num t s c.2.1 c.2.2) t.numCols (List.length_replicate ..)
  generalize ((completeGrid t.numCols).map fun c => edgeLogit num t s c.2.1 c.2.2).zipWith (· + ·) _ = l at hl hlen
  subst hl
  refine ⟨by rw [List.length_zipWith, hlen, hp, min_self], fun i => ?_⟩
  rw [List.getD_eq_getElem?_getD, List.getD_eq_getElem?_getD, List.getElem?_zipWith]
  by_cases hi : i < treePrior.length
  · rw [List.getElem?_eq_getElem hi, List.getElem?_eq_getElem (show i < l.length by omega)]
    simp
  · rw [List.getElem?_eq_none (by omega), List.getElem?_eq_none (by omega)]

theorem Leads.trainInf {mst : List (List K) → List Edge} (hmst : MstContract mst) (hforest : MstForest mst)
    (hnn : ∀ x, 0 ≤ num.exp x) (h0 : 0 < num.exp 0) (ht : Table.Ordered t)
    (hm : AllMultinomial t) (hV : 1 ≤ t.numCols) (junk : Nat → Nat)
    (hp : treePrior.length = t.numCols * (t.numCols - 1) / 2) (cfg : TrainConfig) (h1 : 1 ≤ cfg.initEpochs)
    (h2 : 1 ≤ cfg.sampleTreeRate) (fuel : Nat) (hf : (2 * cfg.initEpochs.toNat + 1) * t.numRows ≤ fuel)
    (h : Good t s) (hs : s.added = ∅) :
    Leads (TreeCat.trainInf (n := Sampled K) asPoss num mst junk fuel t treePrior cfg) s fun r s' => Good t s' ∧
      s'.added = Finset.range t.numRows ∧
      (1 ≤ t.numRows ∨ 1 ≤ cfg.fullEpochs ∨ (cfg.estimateTree = true ∧ ∃ a, r = .ok a) → FewForbidden t treePrior s') ∧
      ((∃ T0, IsTree t.numCols T0 ∧ priorCount treePrior T0 = 0) → ∃ logits, r = .ok logits ∧
        computeEdgeLogitsInf num t treePrior s' = .ok logits ∧
        (cfg.estimateTree = true → ∀ T', IsTree t.numCols T' →
          (T'.map fun p => logits.getD (findCompleteEdge p.1 p.2) 0).sum
            ≤ (s'.tree.getEdges.map fun p => logits.getD (findCompleteEdge p.1 p.2) 0).sum)) ∧
      ((¬ ∃ T0, IsTree t.numCols T0 ∧ priorCount treePrior T0 = 0) → r = .error .assertion) := by
  refine Tot.leads_bind (Tot.get ?_)
  refine Tot.leads_bind (Tot.liftPy (a := ()) (by rw [hs]; rfl) ?_)
  have hperm : Sure (ExceptT.lift (Shuffle.permutation t.numRows) : ExceptT PyErr Poss (List Nat))
      fun l => l.Perm (List.range t.numRows) := by
    refine ⟨⟨.ok (List.range _), ⟨List.range _, List.Perm.refl _, rfl⟩⟩, ?_⟩
    rintro r ⟨l, hl, h2⟩
    cases h2
    exact ⟨l, rfl, hl⟩
  refine Tot.leads_bind (Tot.liftRand hperm.1 fun r hr => ?_)
  obtain ⟨rows, rfl, hperm⟩ := hperm.2 r hr
  refine ⟨rows, rfl, ?_⟩
  obtain ⟨acts, ha, hlegal, -, -, hfirst, -⟩ := annealingSchedule_spec rows t.numRows cfg.initEpochs.toNat (cfg.initEpochs : K)
    (cfg.sampleTreeRate : K) (by exact_mod_cast h1) (by exact_mod_cast h2)
    (by have : cfg.initEpochs ≤ (cfg.initEpochs.toNat : Int) := Int.self_le_toNat _
        exact_mod_cast this) hperm fuel hf
  refine Tot.leads_bind (Tot.liftPy ha ?_)
  refine Tot.leads_bind ((Tot.runActionInf hnn h0 ht hm junk hp acts s _ h (by rw [hs]; exact hlegal)).mono ?_)
  rintro _ s1 ⟨g1, e1, f1⟩
  have f1' : 1 ≤ t.numRows → FewForbidden t treePrior s1 := by
    intro hN
    obtain ⟨r, rest, rfl⟩ := hfirst hN
    exact f1 (.inl (by simp))
  refine Tot.leads_bind (Tot.get ?_)
  refine Tot.leads_bind (Tot.liftPy (a := ()) (by rw [e1]; simp [pyAssert]) ?_)
  refine Tot.leads_bind ((Tot.forM _ _ (fun done (s' : Trainer K M) => Good t s' ∧ s'.added = Finset.range t.numRows ∧
    (1 ≤ t.numRows ∨ 0 < done.length → FewForbidden t treePrior s'))
    ⟨g1, e1, fun hc => f1' (by simpa using hc)⟩ ?_).mono ?_)
  · rintro done c rest - s2 ⟨g2, e2, -⟩
    refine (Tot.fullScanInf hnn h0 ht hm junk hp g2 e2).mono ?_
    rintro _ s3 ⟨g3, e3, f3⟩
    exact ⟨g3, e3, fun _ => f3⟩
  · rintro _ s2 ⟨g2, e2, f2⟩
    have f2' : 1 ≤ t.numRows ∨ 1 ≤ cfg.fullEpochs → FewForbidden t treePrior s2 := by
      intro hc
      refine f2 (hc.imp id fun hc => ?_)
      rw [List.length_replicate]; omega
    refine Tot.leads_bind (Tot.get ?_)
    refine Tot.leads_bind (Tot.liftPy (a := ()) (by rw [e2]; simp [pyAssert]) ?_)
    have hlog : ∃ logits, computeEdgeLogitsInf num t treePrior s2 = .ok logits := ⟨_, computeEdgeLogitsInf_map hp g2.rows⟩
    obtain ⟨logits, hlog⟩ := hlog
    obtain ⟨hlen, hbot⟩ := computeEdgeLogitsInf_bot hp g2.rows hlog
    have hgrid := list_eq_map 0 t.numCols logits (hlen.trans hp)
    have hpc : ∀ T : List Edge, priorCount treePrior T = 0 ↔
        ∀ p ∈ T, logits.getD (findCompleteEdge (min p.1 p.2) (max p.1 p.2)) 0 ≠ ⊥ := by
      intro T
      rw [priorCount, forbiddenCount_eq_zero]
      exact forall₂_congr fun p _ => not_congr (hbot _).symm
    obtain ⟨hyes, hno⟩ := estimateTreeInf_max mst hmst hforest t.numCols hV _ (makeCompleteGraph_eq _)
      fun a b => logits.getD (findCompleteEdge a b) 0
    rw [← hgrid] at hyes hno
    by_cases hex : ∃ T0, IsTree t.numCols T0 ∧ priorCount treePrior T0 = 0
    · obtain ⟨T, e3, hcan, htree, hT0, hmax⟩ := hyes (by
        obtain ⟨T0, hT0, hz⟩ := hex
        exact ⟨T0, hT0, (hpc T0).1 hz⟩)
      have hz : priorCount treePrior T = 0 := by
        rw [hpc]
        intro p hp
        have := hcan.small_large p hp
        rw [min_eq_left (by omega), max_eq_right (by omega)]
        exact hT0 p hp
      have hest : Tot (trainerEstimateTreeInf num mst t treePrior) s2 fun r s' => s' = s2 ∧ r = (T, logits) := by
        refine Tot.bind (Tot.get ?_)
        refine Tot.bind (Tot.liftPy (makeCompleteGraph_eq _) ?_)
        refine Tot.bind (Tot.liftPy hlog ?_)
        exact Tot.bind (Tot.liftPy e3 (Tot.pure ⟨rfl, rfl⟩))
      refine Tot.leads_bind (hest.mono ?_)
      rintro ⟨edges, logits'⟩ s3 ⟨rfl, hr⟩
      cases hr
      simp only
      refine Tot.leads ?_
      split
      · refine Tot.bind ((Tot.setEdges g2 htree).mono ?_)
        rintro _ s4 ⟨g4, a4, b4, c4⟩
        have hge : s4.tree.getEdges = sortEdges T := by
          rw [← gridEdges_makeTree, ← c4]; rfl
        have hsort : sortEdges T = T := by
          refine Canonical.eq_of_perm (canonical_sortEdges htree) hcan ?_
          have h5 : T.map sortPair = T := by
            conv_rhs => rw [← List.map_id T]
            exact List.map_congr_left fun p hp => sortPair_of_le (Nat.le_of_lt (hcan.small_large p hp))
          unfold sortEdges
          rw [h5]
          exact List.perm_insertionSort edgeLe T
        refine Tot.pure ⟨g4, by rw [a4, e2], fun _ T' _ => ?_, fun _ => ⟨logits, rfl, ?_, fun _ T' hT' => ?_⟩, fun hc => absurd hex hc⟩
        · rw [hge, hsort, hz]
          exact Nat.zero_le _
        · rw [← hlog, computeEdgeLogitsInf_eq, computeEdgeLogitsInf_eq, computeEdgeLogits_congr g2 g4 a4 b4]
        · rw [hge, hsort]
          refine le_of_eq_of_le ?_ (hmax T' hT')
          congr 1
          refine List.map_congr_left fun p _ => ?_
          congr 1
          rcases Nat.le_total p.1 p.2 with hle | hle
          · rw [min_eq_left hle, max_eq_right hle]
          · rw [min_eq_right hle, max_eq_left hle, fce_comm]
      · rename_i hne
        refine Tot.pure ⟨g2, e2, fun hc => ?_, fun _ => ⟨logits, rfl, hlog, fun hc => absurd hc hne⟩, fun hc => absurd hex hc⟩
        rcases hc with hc | hc | hc
        · exact f2' (.inl hc)
        · exact f2' (.inr hc)
        · exact absurd hc.1 hne
    · have e3 := hno (by
        rintro ⟨T0, hT0, hz⟩
        exact hex ⟨T0, hT0, (hpc T0).2 hz⟩)
      refine Leads.bind_error ?_
      refine Tot.leads_bind (Tot.get ?_)
      refine Tot.leads_bind (Tot.liftPy (makeCompleteGraph_eq _) ?_)
      refine Tot.leads_bind (Tot.liftPy hlog ?_)
      refine Leads.bind_error (Leads.liftPy_error e3 ⟨_, rfl, _, rfl, g2, e2, fun hc => ?_, fun hc => absurd hc hex, fun _ => rfl⟩)
      rcases hc with hc | hc | ⟨-, a, hc⟩
      · exact f2' (.inl hc)
      · exact f2' (.inr hc)
      · cases hc

/-- **C95.** Some entries of the tree prior may be `-inf`, to forbid edges. For every table of at least one multinomial feature, every such prior, every valid
config and whatever is drawn at random: a trainer can be made. If some spanning tree has no forbidden edge, training completes; all rows are then in the
subsample, the statistics match the assignments, the returned logits are those of the final state and are `-inf` exactly for the forbidden edges. If moreover
there is a row, or a full scan, or the tree is estimated, then the tree has no forbidden edge. With `learning_estimate_tree` no spanning tree has a
larger total logit. If every spanning tree has a forbidden edge, training raises `AssertionError`, and only after the work is done: all rows are added, and
the tree has as few forbidden edges as possible. -/
theorem trainInf_spec (num : Num K) (hnn : ∀ x, 0 ≤ num.exp x) (h0 : 0 < num.exp 0) (mst : List (List K) → List Edge)
    (hmst : MstContract mst) (hforest : MstForest mst)
    (junk : Nat → Nat) (t : Table) (ht : Table.Ordered t) (hm : ∀ ty ∈ t.featureTypes, ty = tyMultinomial)
    (hV : 1 ≤ t.numCols) (hV' : t.numCols ≤ 32768) (hM : M ≤ 128) (treePrior : List (WithBot K))
    (hp : treePrior.length = t.numCols * (t.numCols - 1) / 2) (cfg : TrainConfig) (h1 : 1 ≤ cfg.initEpochs)
    (h2 : 1 ≤ cfg.sampleTreeRate) (fuel : Nat) (hf : (2 * cfg.initEpochs.toNat + 1) * t.numRows ≤ fuel) :
    ∃ s0 : Trainer K M, Trainer.init t treePrior.length = .ok s0 ∧
      (∃ p, outcomes (trainInf (n := Sampled K) asPoss num mst junk fuel t treePrior cfg) s0 p) ∧
      ∀ r s, outcomes (trainInf (n := Sampled K) asPoss num mst junk fuel t treePrior cfg) s0 (r, s) →
        s.added = Finset.range t.numRows ∧ IsTree t.numCols s.tree.getEdges ∧ Matches t s ∧ Spec.Consistent t s ∧
        ((∃ T0, IsTree t.numCols T0 ∧ ∀ p ∈ T0, treePrior.getD (findCompleteEdge p.1 p.2) 0 ≠ ⊥) → ∃ logits, r = .ok logits ∧
          computeEdgeLogitsInf num t treePrior s = .ok logits ∧ logits.length = treePrior.length ∧
          (∀ i, logits.getD i 0 = ⊥ ↔ treePrior.getD i 0 = ⊥) ∧
          (1 ≤ t.numRows ∨ 1 ≤ cfg.fullEpochs ∨ cfg.estimateTree = true →
            ∀ p ∈ s.tree.getEdges, treePrior.getD (findCompleteEdge p.1 p.2) 0 ≠ ⊥) ∧
          (cfg.estimateTree = true → ∀ T', IsTree t.numCols T' →
            (T'.map fun p => logits.getD (findCompleteEdge p.1 p.2) 0).sum
              ≤ (s.tree.getEdges.map fun p => logits.getD (findCompleteEdge p.1 p.2) 0).sum)) ∧
        ((¬ ∃ T0, IsTree t.numCols T0 ∧ ∀ p ∈ T0, treePrior.getD (findCompleteEdge p.1 p.2) 0 ≠ ⊥) → r = .error .assertion ∧
          (1 ≤ t.numRows ∨ 1 ≤ cfg.fullEpochs → ∀ T', IsTree t.numCols T' →
            (s.tree.getEdges.countP fun p => decide (treePrior.getD (findCompleteEdge p.1 p.2) 0 = ⊥)) ≤
              T'.countP fun p => decide (treePrior.getD (findCompleteEdge p.1 p.2) 0 = ⊥))) := by
  obtain ⟨s0, hi, hg, ha⟩ := good_init (K := K) (M := M) hV hV' hM hp
  obtain ⟨hex, hall⟩ := Leads.trainInf hmst hforest hnn h0 ht hm hV junk hp cfg h1 h2 fuel hf hg ha
  have hpc : ∀ T : List Edge, priorCount treePrior T = T.countP fun p => decide (treePrior.getD (findCompleteEdge p.1 p.2) 0 = ⊥) := by
    intro T
    refine List.countP_congr fun p _ => ?_
    rcases Nat.le_total p.1 p.2 with hle | hle
    · rw [min_eq_left hle, max_eq_right hle]
    · rw [min_eq_right hle, max_eq_left hle, fce_comm]
  have hz : ∀ T : List Edge, priorCount treePrior T = 0 ↔ ∀ p ∈ T, treePrior.getD (findCompleteEdge p.1 p.2) 0 ≠ ⊥ := by
    intro T
    rw [hpc, List.countP_eq_zero]
    simp
  refine ⟨s0, hi, hex, fun r s hr => ?_⟩
  obtain ⟨g, e, few, yes, no⟩ := hall r s hr
  refine ⟨e, g.isTree, g.stats, ?_, ?_, ?_⟩
  · refine matches_consistent g.stats e fun e v1 v2 he => ?_
    exact g.isTree.range (v1, v2) (List.mem_map.2 ⟨_, he, rfl⟩)
  · rintro ⟨T0, hT0, hT0'⟩
    obtain ⟨logits, rfl, hl, hmax⟩ := yes ⟨T0, hT0, (hz T0).2 hT0'⟩
    obtain ⟨b1, b2⟩ := computeEdgeLogitsInf_bot hp g.rows hl
    refine ⟨logits, rfl, hl, b1, b2, fun hc => ?_, hmax⟩
    rw [← hz]
    have := few (hc.imp id (Or.imp id fun h => ⟨h, _, rfl⟩)) T0 hT0
    rw [(hz T0).2 hT0'] at this
    omega
  · intro hc
    refine ⟨no fun ⟨T0, hT0, h⟩ => hc ⟨T0, hT0, (hz T0).1 h⟩, fun hN T' hT' => ?_⟩
    have := few (hN.imp id .inl) T' hT'
    rwa [hpc, hpc] at this

end

end TreeCat
