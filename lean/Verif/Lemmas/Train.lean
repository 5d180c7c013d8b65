import Verif.Lemmas.Trainer
import Verif.Props.Program
import Verif.Props.SampleTree
import Verif.Props.EstimateTree
import Verif.Props.Anneal

/-!
# Trainer methods succeed
-/

set_option linter.unusedSectionVars false

namespace TreeCat

open Spec

/-! ### Random computations that always succeed -/

section
variable {α β : Type}

/-- The computation has an outcome, always succeeds, and `Q` holds. -/
def Sure (x : ExceptT PyErr Poss α) (Q : α → Prop) : Prop :=
  (∃ r, x.run r) ∧ ∀ r, x.run r → ∃ a, r = .ok a ∧ Q a

theorem Sure.bind {x : ExceptT PyErr Poss α} {f : α → ExceptT PyErr Poss β} {Q : β → Prop}
    (h : Sure x fun a => Sure (f a) Q) : Sure (x >>= f) Q := by
  obtain ⟨⟨r, hr⟩, h2⟩ := h
  constructor
  · obtain ⟨a, rfl, ha⟩ := h2 r hr
    obtain ⟨p, hp⟩ := ha.1
    exact ⟨p, ⟨_, hr, hp⟩⟩
  · rintro r ⟨r1, h3, h4⟩
    obtain ⟨a, rfl, ha⟩ := h2 r1 h3
    exact ha.2 r h4

theorem Sure.pure {a : α} {Q : α → Prop} (h : Q a) : Sure (pure a : ExceptT PyErr Poss α) Q :=
  ⟨⟨.ok a, rfl⟩, fun r hr => by cases hr; exact ⟨a, rfl, h⟩⟩

theorem Sure.liftPy {x : Py α} {a : α} {Q : α → Prop} (hx : x = .ok a) (h : Q a) :
    Sure (TreeCat.liftPy x : ExceptT PyErr Poss α) Q := by
  subst hx; exact Sure.pure h

theorem Sure.foldlM {γ : Type} (f : β → γ → ExceptT PyErr Poss β) (P : β → Prop)
    (hs : ∀ b c, P b → Sure (f b c) P) (l : List γ) (b : β) (hb : P b) : Sure (l.foldlM f b) P := by
  induction l generalizing b with
  | nil => exact Sure.pure hb
  | cons c l ih =>
    rw [List.foldlM_cons]
    refine Sure.bind ⟨(hs b c hb).1, fun r hr => ?_⟩
    obtain ⟨a, h1, h2⟩ := (hs b c hb).2 r hr
    exact ⟨a, h1, ih a h2⟩

end

section
variable {K : Type} [Field K] [LinearOrder K] {M : Nat} [NeZero M]

theorem Sure.chooseClass (p : Fin M → K) : Sure (TreeCat.chooseClass p : ExceptT PyErr Poss _) fun _ => True := by
  refine ⟨⟨.ok 0, ⟨0, trivial, rfl⟩⟩, ?_⟩
  rintro r ⟨a, -, h⟩
  cases h
  exact ⟨_, rfl, trivial⟩

/-- Every feature is of the supported type. -/
def AllMultinomial (t : Table) : Prop := ∀ ty ∈ t.featureTypes, ty = tyMultinomial

theorem AllMultinomial.getD {t : Table} (h : AllMultinomial t) (v : Nat) :
    t.featureTypes.getD v 0 = tyMultinomial := by
  by_cases hv : v < t.featureTypes.length
  · rw [List.getD_eq_getElem _ _ hv]; exact h _ (List.getElem_mem hv)
  · rw [List.getD_eq_default _ _ (by omega)]; rfl

theorem Sure.rowStep {t : Table} (ht : AllMultinomial t) (row : Nat) (vert : Nat → Fin M → K)
    (edge : Nat → Fin M → Fin M → K) (s : RowState K M) (i : Instr) :
    Sure (TreeCat.rowStep t row vert edge s i) fun _ => True := by
  unfold TreeCat.rowStep
  split
  · refine Sure.liftPy (by unfold addCell; rw [if_pos (ht.getD _)]) trivial
  · exact Sure.pure trivial
  · refine Sure.bind ⟨(Sure.chooseClass _).1, fun r hr => ?_⟩
    obtain ⟨a, h1, -⟩ := (Sure.chooseClass _).2 r hr
    exact ⟨a, h1, Sure.pure trivial⟩
  · refine Sure.bind ⟨(Sure.chooseClass _).1, fun r hr => ?_⟩
    obtain ⟨a, h1, -⟩ := (Sure.chooseClass _).2 r hr
    exact ⟨a, h1, Sure.pure trivial⟩
  · exact Sure.pure trivial

theorem Sure.sampleRow {t : Table} (ht : AllMultinomial t) (row : Nat) (s : Trainer K M) :
    Sure (TreeCat.sampleRow t row s) fun _ => True := by
  unfold TreeCat.sampleRow
  refine Sure.bind ?_
  have := Sure.foldlM (TreeCat.rowStep t row (fun v a => (s.vertSS v a : K) + vertPrior) s.edgeProbs)
    (fun _ => True) (fun b c _ => Sure.rowStep ht row _ _ b c) s.program
    { messages := fun v a => (s.vertSS v a : K) + vertPrior
      featProbs := fun r a => (s.featSS r a : K) + featPrior M
      measProbs := fun v a => (s.measSS v a : K) + measPrior M t v
      assign := s.assign row } trivial
  refine ⟨this.1, fun r hr => ?_⟩
  obtain ⟨a, h1, -⟩ := this.2 r hr
  exact ⟨a, h1, Sure.pure trivial⟩

/-! ### States between calls -/

/-- What is true of every trainer between the steps of `train`. -/
structure Good (t : Table) (s : Trainer K M) : Prop extends Inv t s where
  numVertices : s.tree.numVertices = t.numCols
  isTree : IsTree t.numCols (gridEdges s.tree.treeGrid)
  sorted : ∃ edges, s.tree.treeGrid = makeTree edges
  program : makeProgram s.tree.treeGrid none = .ok s.program
  rows : s.added ⊆ Finset.range t.numRows

variable {t : Table} {s : Trainer K M} {row : Nat}

theorem Tot.addRow (ht : Table.Ordered t) (hm : AllMultinomial t) (h : Good t s) (hr : row ∉ s.added)
    (hN : row < t.numRows) :
    Tot (TreeCat.addRow t row) s fun _ s' => Good t s' ∧ s'.added = insert row s.added ∧ s'.tree = s.tree ∧
      ∀ n, n ≠ row → s'.assign n = s.assign n := by
  refine Tot.bind (Tot.get ?_)
  rw [if_neg hr]
  refine Tot.bind (Tot.set ?_)
  refine Tot.bind (Tot.liftPy (if_pos hN) ?_)
  refine Tot.bind (Tot.liftRand (Sure.sampleRow hm row s).1 fun r hr' => ?_)
  obtain ⟨z, hz, -⟩ := (Sure.sampleRow hm row s).2 r hr'
  refine ⟨z, hz, ?_⟩
  refine Tot.bind (Tot.modify ?_)
  refine (Tot.updateStats t (fun v _ => hm.getD v) _ _ _ _).mono ?_
  rintro _ s' rfl
  have ht' := @statsUpdate_tree K _ _ M t row 1 z
    { s with added := insert row s.added, assign := Function.update s.assign row z }
  refine ⟨⟨⟨matches_added ht h.grid h.stats hr, by rw [statsUpdate_tree]; exact h.grid⟩, ?_, ?_, ?_, ?_, ?_⟩, ?_, ?_, ?_⟩
  · rw [statsUpdate_tree]; exact h.numVertices
  · rw [statsUpdate_tree]; exact h.isTree
  · rw [statsUpdate_tree]; exact h.sorted
  · rw [statsUpdate_tree, statsUpdate_program]; exact h.program
  · rw [statsUpdate_added]
    exact Finset.insert_subset (by simpa using hN) h.rows
  · rw [statsUpdate_added]
  · rw [statsUpdate_tree]
  · intro n hn; rw [statsUpdate_assign]; exact Function.update_of_ne hn _ _

theorem Tot.removeRow (ht : Table.Ordered t) (hm : AllMultinomial t) (h : Good t s) (hr : row ∈ s.added) :
    Tot (TreeCat.removeRow t row) s fun _ s' => Good t s' ∧ s'.added = s.added.erase row ∧ s'.tree = s.tree ∧
      s'.assign = s.assign := by
  refine Tot.bind (Tot.get ?_)
  rw [if_pos hr]
  refine Tot.bind (Tot.set ?_)
  refine Tot.bind (Tot.liftPy (if_pos (by simpa using h.rows hr)) ?_)
  refine (Tot.updateStats t (fun v _ => hm.getD v) _ _ _ _).mono ?_
  rintro _ s' rfl
  refine ⟨⟨⟨matches_removed ht h.grid h.stats hr, by rw [statsUpdate_tree]; exact h.grid⟩, ?_, ?_, ?_, ?_, ?_⟩, ?_, ?_, ?_⟩
  · rw [statsUpdate_tree]; exact h.numVertices
  · rw [statsUpdate_tree]; exact h.isTree
  · rw [statsUpdate_tree]; exact h.sorted
  · rw [statsUpdate_tree, statsUpdate_program]; exact h.program
  · rw [statsUpdate_added]
    exact (Finset.erase_subset _ _).trans h.rows
  · rw [statsUpdate_added]
  · rw [statsUpdate_tree]
  · rw [statsUpdate_assign]

theorem IsTree.ne {V : Nat} {edges : List Edge} (h : IsTree V edges) : ∀ p ∈ edges, p.1 ≠ p.2 := by
  intro p hp hc
  obtain ⟨d, par, R⟩ := exists_rooted h (h.range p hp).1
  obtain ⟨a, b⟩ := p
  simp only at hc; subst hc
  exact R.irrefl (v := a) (.inl hp)

theorem Tot.of_part_succeeds {α : Type} {x : TrainM K M Poss α} {s : Trainer K M} {Q : α → Trainer K M → Prop}
    (h1 : Part x s Q) (h2 : Tot x s fun _ _ => True) : Tot x s Q := by
  refine ⟨h2.1, fun r s' hr => ?_⟩
  obtain ⟨a, rfl, -⟩ := h2.2 r s' hr
  exact ⟨a, rfl, h1 a s' hr⟩

theorem Tot.setEdges {edges : List Edge} (h : Good t s) (he : IsTree t.numCols edges) :
    Tot (TreeCat.setEdges edges) s fun _ s' => Good t s' ∧ s'.added = s.added ∧ s'.assign = s.assign ∧
      s'.tree.treeGrid = makeTree edges := by
  obtain ⟨root, prog, hprog, -, -⟩ := makeProgram_default _ edges he
  have hset : s.tree.setEdges edges = .ok { s.tree with treeGrid := makeTree edges } := by
    unfold TreeStructure.setEdges pyAssert
    have := he.card
    rw [if_pos (by rw [h.numVertices]; simp only [beq_iff_eq]; omega)]
    rfl
  refine (Tot.of_part_succeeds (Part.setEdges h.toInv) ?_).mono ?_
  · refine Tot.bind (Tot.get ?_)
    refine Tot.bind (Tot.liftPy hset ?_)
    refine Tot.bind (Tot.modify ?_)
    refine Tot.bind (Tot.liftPy hprog ?_)
    refine Tot.bind (Tot.modify ?_)
    refine Tot.bind ((Tot.forM _ _ (fun _ _ => True) trivial ?_).mono fun _ s' _ => Tot.modify trivial)
    rintro done c rest hl s1 -
    have hne : c.2.1 ≠ c.2.2 := by
      refine IsTree.ne (makeTree_isTree he) (c.2.1, c.2.2) ?_
      have hl : makeTree edges = done ++ c :: rest := hl
      rw [gridEdges, hl]; simp
    refine Tot.bind (Tot.liftPy (by unfold countPairs pyAssert; rw [if_pos (by simpa using hne)]; rfl) ?_)
    exact Tot.modify trivial
  · rintro _ s' ⟨h1, h2, h3, h4, h5, h6⟩
    refine ⟨⟨h6, by rw [h4]; exact h.numVertices, ?_, ⟨edges, h3⟩, h5, by rw [h1]; exact h.rows⟩, h1, h2, h3⟩
    rw [h3]; exact makeTree_isTree he

/-! ### Edge logits -/

theorem foldl_count_le (pairs : List (Fin M × Fin M)) (f : Fin M → Fin M → Nat) (n : Nat) (hf : ∀ a b, f a b ≤ n)
    (a b : Fin M) : pairs.foldl (fun (f : Fin M → Fin M → Nat) p => bump f p.1 p.2 1) f a b ≤ n + pairs.length := by
  induction pairs generalizing f n with
  | nil => exact hf a b
  | cons p l ih =>
    rw [List.foldl_cons, List.length_cons]
    have := ih (bump f p.1 p.2 1) (n + 1) (fun a b => by
      rw [bump_apply]; have := hf a b; split <;> omega)
    omega

theorem pyGet_mapM (l : List K) (is : List Nat) (h : ∀ i ∈ is, i < l.length) :
    is.mapM (pyGet l) = .ok (is.map fun i => l.getD i 0) := by
  apply mapM_ok
  intro i hi
  rw [pyGet_eq_ok, List.getElem?_eq_getElem (h i hi), List.getD_eq_getElem _ _ (h i hi)]

/-- The rows that `compute_edge_logits` uses. -/
def logitRows (t : Table) (s : Trainer K M) : List Nat :=
  if s.added.card = t.numCols then List.range t.numRows else s.added.sort (· ≤ ·)

theorem logitRows_length (h : s.added ⊆ Finset.range t.numRows) : (logitRows t s).length ≤ t.numRows := by
  unfold logitRows
  split
  · simp
  · rw [Finset.length_sort]
    exact (Finset.card_le_card h).trans (by simp)

theorem computeEdgeLogit_eq (table : List K) (pairs : List (Fin M × Fin M)) (h : pairs.length < table.length) :
    computeEdgeLogit table pairs = .ok (∑ a, ∑ b, table.getD (pairs.count (a, b)) 0) := by
  have hcount : ∀ (l : List (Fin M × Fin M)) (f : Fin M → Fin M → Nat) a b,
      l.foldl (fun (f : Fin M → Fin M → Nat) p => bump f p.1 p.2 1) f a b = f a b + l.count (a, b) := by
    intro l
    induction l with
    | nil => intro f a b; simp
    | cons p l ih =>
      intro f a b
      rw [List.foldl_cons, ih, bump_apply, List.count_cons]
      have : (p == (a, b)) = decide (p.1 = a ∧ p.2 = b) := by
        rw [beq_eq_decide]; congr 1; rw [Prod.ext_iff]
      rw [this]
      by_cases hp : p.1 = a ∧ p.2 = b
      · simp only [hp, and_self, if_true, decide_true]; omega
      · simp only [hp, if_false, decide_false, Bool.false_eq_true]; omega
  unfold computeEdgeLogit
  dsimp only
  rw [pyGet_mapM]
  · simp only [bind, Except.bind, Except.ok.injEq, List.map_flatMap, List.map_map]
    have e1 : ∀ g : Fin M → Fin M → K, ((List.finRange M).flatMap fun a => (List.finRange M).map fun b => g a b).sum
        = ∑ a, ∑ b, g a b := by
      intro g
      rw [List.flatMap_def, List.sum_flatten, List.map_map]
      have : ∀ f : Fin M → K, ((List.finRange M).map f).sum = ∑ a, f a := fun f => by
        rw [← List.ofFn_eq_map, List.sum_ofFn]
      rw [this]
      exact Finset.sum_congr rfl fun a _ => this _
    rw [← e1]
    congr 2
    funext a
    refine List.map_congr_left fun b _ => ?_
    simp only [Function.comp_apply]
    rw [hcount, Nat.zero_add]
  · intro i hi
    simp only [List.mem_flatMap, List.mem_finRange, List.mem_map, true_and] at hi
    obtain ⟨a, b, rfl⟩ := hi
    rw [hcount, Nat.zero_add]
    exact Nat.lt_of_le_of_lt List.count_le_length h

/-- The edge logit of two vertices, as computed. -/
def edgeLogit (num : Num K) (t : Table) (s : Trainer K M) (v1 v2 : Nat) : K :=
  (∑ a, ∑ b, num.gammaln (((logitRows t s).countP fun n => decide (s.assign n v1 = a ∧ s.assign n v2 = b) : Nat)
    + edgePrior M)) - logprobDC num (s.vertSS v1) vertPrior - logprobDC num (s.vertSS v2) vertPrior

theorem computeEdgeLogits_eq (num : Num K) (treePrior : List K) (h : s.added ⊆ Finset.range t.numRows) :
    computeEdgeLogits num t treePrior s = .ok ((completeGrid t.numCols).map
      (fun c => edgeLogit num t s c.2.1 c.2.2) |>.zipWith (· + ·) treePrior) := by
  have hlen := logitRows_length (K := K) (M := M) h
  unfold computeEdgeLogits
  dsimp only
  rw [makeCompleteGraph_eq]
  simp only [bind, Except.bind]
  rw [mapM_ok _ (fun c => edgeLogit num t s c.2.1 c.2.2)]
  intro c _
  rw [computeEdgeLogit_eq]
  · simp only [Except.ok.injEq, edgeLogit]
    congr 2
    refine Finset.sum_congr rfl fun a _ => Finset.sum_congr rfl fun b _ => ?_
    rw [List.map_map, List.count_eq_countP, List.countP_map]
    have e : (fun x : Nat => ((fun x => x == (a, b)) ∘ (fun a => (a c.2.1, a c.2.2)) ∘ s.assign) x)
        = fun n => decide (s.assign n c.2.1 = a ∧ s.assign n c.2.2 = b) := by
      funext n
      simp only [Function.comp_apply, beq_eq_decide]
      congr 1
      rw [Prod.ext_iff]
    have hb : (logitRows t s).countP (fun n => decide (s.assign n c.2.1 = a ∧ s.assign n c.2.2 = b)) < 1 + t.numRows :=
      Nat.lt_of_le_of_lt List.countP_le_length (by omega)
    rw [show ((if s.added.card = t.numCols then List.range t.numRows else s.added.sort (· ≤ ·)).countP
        ((fun x => x == (a, b)) ∘ (fun a => (a c.2.1, a c.2.2)) ∘ s.assign))
        = (logitRows t s).countP (fun n => decide (s.assign n c.2.1 = a ∧ s.assign n c.2.2 = b)) by
          rw [← e]; rfl]
    rw [List.getD_eq_getElem _ _ (by simpa using hb)]
    simp
  · simp only [List.length_map, List.length_range]
    have : (logitRows t s).length < 1 + t.numRows := by omega
    exact this

/-! ### Trees -/

variable [IsStrictOrderedRing K] {num : Num K} {treePrior : List K}

theorem zipWith_logits_length (f : Nat × Nat × Nat → K) (V : Nat) (hp : treePrior.length = V * (V - 1) / 2) :
    (((completeGrid V).map f).zipWith (· + ·) treePrior).length = V * (V - 1) / 2 := by
  rw [List.length_zipWith, List.length_map, completeGrid_length, hp, tri, min_self]

theorem Tot.trainerSampleTree (junk : Nat → Nat)
    (hp : treePrior.length = t.numCols * (t.numCols - 1) / 2) (h : Good t s) :
    Tot (TreeCat.trainerSampleTree num junk t treePrior) s fun edges s' => s' = s ∧ IsTree t.numCols edges := by
  refine Tot.bind (Tot.get ?_)
  refine Tot.bind (Tot.liftPy (makeCompleteGraph_eq _) ?_)
  refine Tot.bind (Tot.liftPy (computeEdgeLogits_eq num treePrior h.rows) ?_)
  have hl := zipWith_logits_length (fun c => edgeLogit num t s c.2.1 c.2.2) t.numCols hp
  refine Tot.bind (Tot.liftPy (a := ()) (by rw [hl, completeGrid_length, tri]; simp [pyAssert]) ?_)
  have hperm : Sure (ExceptT.lift (Shuffle.permutation s.tree.getEdges.length) : ExceptT PyErr Poss (List Nat))
      fun l => l.Perm (List.range s.tree.getEdges.length) := by
    refine ⟨⟨.ok (List.range _), ⟨List.range _, List.Perm.refl _, rfl⟩⟩, ?_⟩
    rintro r ⟨l, hl, h2⟩
    cases h2
    exact ⟨l, rfl, hl⟩
  refine Tot.bind (Tot.liftRand hperm.1 fun r hr => ?_)
  obtain ⟨perm, rfl, hperm⟩ := hperm.2 r hr
  refine ⟨perm, rfl, ?_⟩
  obtain ⟨grid, h1, h2, h3⟩ := sampleTree_isTree num.exp t.numCols s.tree.getEdges h.isTree junk
    (((completeGrid t.numCols).map (fun c => edgeLogit num t s c.2.1 c.2.2)).zipWith (· + ·) treePrior) hl perm hperm
  rw [makeCompleteGraph_eq] at h1
  cases h1
  refine Tot.liftRand h2 fun r hr => ?_
  obtain ⟨out, h4, h5, -⟩ := h3 r hr
  exact ⟨out, h4, rfl, h5⟩

/-- Any list of the right length is a function of the pairs. -/
theorem logits_eq_map (V : Nat) (l : List K) (hl : l.length = V * (V - 1) / 2) :
    l = (completeGrid V).map fun p => l.getD (findCompleteEdge p.2.1 p.2.2) 0 := by
  apply List.ext_getElem?
  intro k
  rw [List.getElem?_map, completeGrid_getElem?]
  cases hk : (pairs V)[k]? with
  | none =>
    have : (pairs V).length ≤ k := by rwa [List.getElem?_eq_none_iff] at hk
    rw [pairs_length] at this
    rw [List.getElem?_eq_none (by rw [hl]; exact this)]
    rfl
  | some p =>
    have h1 := pairs_getElem?_some V k p hk
    have h2 : k < l.length := by
      have : k < (pairs V).length := by
        by_contra hc
        rw [List.getElem?_eq_none (by omega)] at hk; cases hk
      rw [pairs_length] at this
      rw [hl]; exact this
    simp only [Option.map_some]
    rw [h1.2.2, List.getElem?_eq_getElem h2, List.getD_eq_getElem _ _ h2]

theorem Tot.trainerEstimateTree {mst : List (List K) → List Edge} (hmst : MstContract mst) (hV : 1 ≤ t.numCols)
    (hp : treePrior.length = t.numCols * (t.numCols - 1) / 2) (h : Good t s) :
    Tot (TreeCat.trainerEstimateTree num mst t treePrior) s fun r s' => s' = s ∧
      computeEdgeLogits num t treePrior s = .ok r.2 ∧ r.2.length = t.numCols * (t.numCols - 1) / 2 ∧
      IsTree t.numCols r.1 ∧ Canonical r.1 ∧ ∀ T', IsTree t.numCols T' →
        (T'.map fun p => r.2.getD (findCompleteEdge p.1 p.2) 0).sum
          ≤ (r.1.map fun p => r.2.getD (findCompleteEdge p.1 p.2) 0).sum := by
  refine Tot.bind (Tot.get ?_)
  refine Tot.bind (Tot.liftPy (makeCompleteGraph_eq _) ?_)
  refine Tot.bind (Tot.liftPy (computeEdgeLogits_eq num treePrior h.rows) ?_)
  have hl := zipWith_logits_length (fun c => edgeLogit num t s c.2.1 c.2.2) t.numCols hp
  set logits := ((completeGrid t.numCols).map (fun c => edgeLogit num t s c.2.1 c.2.2)).zipWith (· + ·) treePrior
  obtain ⟨T, h1, h2, h3, h4⟩ := estimateTree_max mst hmst t.numCols hV _ (makeCompleteGraph_eq _)
    fun a b => logits.getD (findCompleteEdge a b) 0
  rw [← logits_eq_map _ _ hl] at h1
  refine Tot.bind (Tot.liftPy h1 (Tot.pure ⟨rfl, computeEdgeLogits_eq num treePrior h.rows, hl, h3, h2, ?_⟩))
  intro T' hT'
  refine le_of_eq_of_le ?_ (h4 T' hT')
  congr 1
  refine List.map_congr_left fun p _ => ?_
  congr 1
  rcases Nat.le_total p.1 p.2 with hle | hle
  · rw [min_eq_left hle, max_eq_right hle]
  · rw [min_eq_right hle, max_eq_left hle, fce_comm]

/-! ### Schedules and scans -/

theorem Tot.runAction (ht : Table.Ordered t) (hm : AllMultinomial t) (junk : Nat → Nat)
    (hp : treePrior.length = t.numCols * (t.numCols - 1) / 2) (acts : List Action) :
    ∀ (s : Trainer K M) (T : Finset Nat), Good t s → Legal t.numRows s.added acts T →
      Tot (acts.forM (TreeCat.runAction num junk t treePrior)) s fun _ s' => Good t s' ∧ s'.added = T := by
  induction acts with
  | nil => intro s T h hl; exact Tot.pure (a := PUnit.unit) ⟨h, hl⟩
  | cons a acts ih =>
    intro s T h hl
    refine Tot.bind ?_
    cases a with
    | addRow r =>
      obtain ⟨h1, h2, h3⟩ := hl
      refine (Tot.addRow ht hm h h2 h1).mono ?_
      rintro _ s' ⟨h4, h5, -⟩
      exact ih s' T h4 (by rw [h5]; exact h3)
    | removeRow r =>
      obtain ⟨h1, h2⟩ := hl
      refine (Tot.removeRow ht hm h h1).mono ?_
      rintro _ s' ⟨h4, h5, -⟩
      exact ih s' T h4 (by rw [h5]; exact h2)
    | sampleTree =>
      obtain ⟨-, h2⟩ := hl
      refine Tot.bind ((Tot.trainerSampleTree junk hp h).mono ?_)
      rintro edges s' ⟨rfl, he⟩
      refine (Tot.setEdges h he).mono ?_
      rintro _ s1 ⟨h4, h5, -⟩
      exact ih s1 T h4 (by rw [h5]; exact h2)

theorem Tot.fullScan (ht : Table.Ordered t) (hm : AllMultinomial t) (junk : Nat → Nat)
    (hp : treePrior.length = t.numCols * (t.numCols - 1) / 2) (h : Good t s)
    (hs : s.added = Finset.range t.numRows) :
    Tot (TreeCat.fullScan num junk t treePrior) s fun _ s' => Good t s' ∧ s'.added = Finset.range t.numRows := by
  refine Tot.bind ((Tot.trainerSampleTree junk hp h).mono ?_)
  rintro edges s' ⟨rfl, he⟩
  refine Tot.bind ((Tot.setEdges h he).mono ?_)
  rintro _ s1 ⟨h1, h2, -⟩
  refine Tot.forM _ _ (fun _ (s' : Trainer K M) => Good t s' ∧ s'.added = Finset.range t.numRows) ⟨h1, by rw [h2, hs]⟩ ?_
  rintro done r rest hl s2 ⟨h3, h4⟩
  have hr : r < t.numRows := by
    have : r ∈ List.range t.numRows := by rw [hl]; simp
    simpa using this
  refine Tot.bind ((Tot.removeRow ht hm h3 (by rw [h4]; simpa using hr)).mono ?_)
  rintro _ s3 ⟨h5, h6, -⟩
  refine (Tot.addRow ht hm h5 (by rw [h6]; simp) hr).mono ?_
  rintro _ s4 ⟨h7, h8, -⟩
  refine ⟨h7, ?_⟩
  rw [h8, h6, h4, Finset.insert_erase (by simpa using hr)]

theorem Tot.train {mst : List (List K) → List Edge} (hmst : MstContract mst) (ht : Table.Ordered t)
    (hm : AllMultinomial t) (hV : 1 ≤ t.numCols) (junk : Nat → Nat)
    (hp : treePrior.length = t.numCols * (t.numCols - 1) / 2) (cfg : TrainConfig) (h1 : 1 ≤ cfg.initEpochs)
    (h2 : 1 ≤ cfg.sampleTreeRate) (fuel : Nat) (hf : (2 * cfg.initEpochs.toNat + 1) * t.numRows ≤ fuel)
    (h : Good t s) (hs : s.added = ∅) :
    Tot (TreeCat.train num mst junk fuel t treePrior cfg) s fun logits s' => Good t s' ∧
      s'.added = Finset.range t.numRows ∧ computeEdgeLogits num t treePrior s' = .ok logits ∧
      (cfg.estimateTree = true → ∀ T', IsTree t.numCols T' →
        (T'.map fun p => logits.getD (findCompleteEdge p.1 p.2) 0).sum
          ≤ (s'.tree.getEdges.map fun p => logits.getD (findCompleteEdge p.1 p.2) 0).sum) := by
  refine Tot.bind (Tot.get ?_)
  refine Tot.bind (Tot.liftPy (a := ()) (by rw [hs]; rfl) ?_)
  have hperm : Sure (ExceptT.lift (Shuffle.permutation t.numRows) : ExceptT PyErr Poss (List Nat))
      fun l => l.Perm (List.range t.numRows) := by
    refine ⟨⟨.ok (List.range _), ⟨List.range _, List.Perm.refl _, rfl⟩⟩, ?_⟩
    rintro r ⟨l, hl, h2⟩
    cases h2
    exact ⟨l, rfl, hl⟩
  refine Tot.bind (Tot.liftRand hperm.1 fun r hr => ?_)
  obtain ⟨rows, rfl, hperm⟩ := hperm.2 r hr
  refine ⟨rows, rfl, ?_⟩
  obtain ⟨acts, ha, hlegal, -⟩ := annealingSchedule_spec rows t.numRows cfg.initEpochs.toNat (cfg.initEpochs : K)
    (cfg.sampleTreeRate : K) (by exact_mod_cast h1) (by exact_mod_cast h2)
    (by have : cfg.initEpochs ≤ (cfg.initEpochs.toNat : Int) := Int.self_le_toNat _
        exact_mod_cast this) hperm fuel hf
  refine Tot.bind (Tot.liftPy ha ?_)
  refine Tot.bind ((Tot.runAction ht hm junk hp acts s _ h (by rw [hs]; exact hlegal)).mono ?_)
  rintro _ s1 ⟨g1, e1⟩
  refine Tot.bind (Tot.get ?_)
  refine Tot.bind (Tot.liftPy (a := ()) (by rw [e1]; simp [pyAssert]) ?_)
  refine Tot.bind ((Tot.forM _ _ (fun _ (s' : Trainer K M) => Good t s' ∧ s'.added = Finset.range t.numRows)
    ⟨g1, e1⟩ ?_).mono ?_)
  · rintro done c rest - s2 ⟨g2, e2⟩
    exact Tot.fullScan ht hm junk hp g2 e2
  · rintro _ s2 ⟨g2, e2⟩
    refine Tot.bind (Tot.get ?_)
    refine Tot.bind (Tot.liftPy (a := ()) (by rw [e2]; simp [pyAssert]) ?_)
    refine Tot.bind ((Tot.trainerEstimateTree (num := num) hmst hV hp g2).mono ?_)
    rintro ⟨edges, logits⟩ s3 ⟨rfl, hlog, hlen, htree, hcan, hmax⟩
    simp only
    have hlog' : ∀ s' : Trainer K M, s'.added = s3.added → s'.assign = s3.assign → Good t s' →
        computeEdgeLogits num t treePrior s' = .ok logits := by
      intro s' ha hb hg
      rw [← hlog, computeEdgeLogits_eq num treePrior hg.rows, computeEdgeLogits_eq num treePrior g2.rows]
      congr 2
      refine List.map_congr_left fun c hc => ?_
      have hmem : c.2.1 < t.numCols ∧ c.2.2 < t.numCols := by
        obtain ⟨k, hk, hkc⟩ := List.getElem_of_mem hc
        have := completeGrid_getElem? t.numCols k
        rw [List.getElem?_eq_getElem hk, hkc] at this
        obtain ⟨p, hp, rfl⟩ := Option.map_eq_some_iff.1 this.symm
        have := pairs_getElem?_some _ _ _ hp
        exact ⟨by simp only; omega, this.2.1⟩
      have hv : ∀ v < t.numCols, s'.vertSS v = s3.vertSS v := by
        intro v hv; funext m
        rw [hg.stats.vert v hv m, g2.stats.vert v hv m, ha, hb]
      unfold edgeLogit logitRows
      rw [ha, hb, hv _ hmem.1, hv _ hmem.2]
    split
    · refine Tot.bind ((Tot.setEdges g2 htree).mono ?_)
      rintro _ s4 ⟨g4, a4, b4, c4⟩
      refine Tot.pure ⟨g4, by rw [a4, e2], hlog' s4 a4 b4 g4, fun _ T' hT' => ?_⟩
      refine (hmax T' hT').trans_eq ?_
      have : s4.tree.getEdges = sortEdges edges := by
        rw [← gridEdges_makeTree, ← c4]; rfl
      rw [this, Canonical.eq_of_perm (canonical_sortEdges htree) hcan]
      have h5 : edges.map sortPair = edges := by
        conv_rhs => rw [← List.map_id edges]
        exact List.map_congr_left fun p hp => sortPair_of_le (Nat.le_of_lt (hcan.small_large p hp))
      have := List.perm_insertionSort edgeLe (edges.map sortPair)
      rw [h5] at this
      unfold sortEdges
      rw [h5]; exact this
    · rename_i hne
      exact Tot.pure ⟨g2, e2, hlog, fun h => absurd h hne⟩

theorem path_isTree (V : Nat) (hV : 1 ≤ V) : IsTree V ((List.range (V - 1)).map fun v => (v, v + 1)) := by
  refine isTree_of_smaller (by simp; omega) ?_ ?_
  · intro e he
    obtain ⟨v, hv, rfl⟩ := List.mem_map.1 he
    rw [List.mem_range] at hv
    simp only; omega
  · intro v hv h0
    refine ⟨v - 1, by omega, .inr (List.mem_map.2 ⟨v - 1, ?_, ?_⟩)⟩
    · rw [List.mem_range]; omega
    · rw [Nat.sub_add_cancel (by omega)]

/-- A new trainer. -/
theorem good_init {t : Table} {n : Nat} (hV : 1 ≤ t.numCols) (hV' : t.numCols ≤ 32768) (hM : M ≤ 128)
    (hn : n = t.numCols * (t.numCols - 1) / 2) : ∃ s0 : Trainer K M, Trainer.init t n = .ok s0 ∧ Good t s0 ∧
      s0.added = ∅ := by
  obtain ⟨root, prog, hprog, -, -⟩ := makeProgram_default _ _ (path_isTree t.numCols hV)
  have htree : TreeStructure.init t.numCols = .ok ⟨t.numCols, makeTree ((List.range (t.numCols - 1)).map fun v => (v, v + 1))⟩ := by
    unfold TreeStructure.init TreeStructure.setEdges pyAssert
    rw [if_pos (by simp; omega)]; rfl
  have hinit : ∃ s0 : Trainer K M, Trainer.init t n = .ok s0 := by
    unfold Trainer.init
    dsimp only
    rw [htree]
    simp only [bind, Except.bind, pyAssert, hn, hprog]
    simp [hV', hM]
  obtain ⟨s0, h0⟩ := hinit
  refine ⟨s0, h0, ?_⟩
  obtain ⟨h1, h2, h3, h4, h5⟩ := inv_init h0
  rw [htree, Except.ok.injEq] at h4
  refine ⟨⟨h1, h3, ?_, ⟨_, by rw [← h4]⟩, h5, by rw [h2]; exact Finset.empty_subset _⟩, h2⟩
  rw [← h4]
  exact makeTree_isTree (path_isTree _ hV)

end

end TreeCat
