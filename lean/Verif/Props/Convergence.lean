import Mathlib.Analysis.SpecificLimits.Basic
import Verif.Lemmas.Avg
import Verif.Props.Posterior

/-!
# C52: the full epochs of training converge to the posterior
-/

set_option linter.unusedSectionVars false

namespace TreeCat

open Spec Real
open scoped BigOperators

/-! ### One scan of the tree sampler can reach every tree -/

section
variable {V : Nat}

/-- A tree has an edge across every cut that a vertex pair is on two sides of. -/
theorem exists_cross {edges cut : List Edge} {u v : Nat} (h : Reach edges u v) (hc : ¬ Reach cut u v) :
    ∃ p ∈ edges, ¬ Reach cut p.1 p.2 := by
  by_contra hall
  push Not at hall
  apply hc
  induction h with
  | refl => exact Relation.ReflTransGen.refl
  | tail _ hbc ih =>
    refine Relation.ReflTransGen.trans (ih fun h => ?_) ?_
    · exact hc (h.trans (by
        rcases hbc with h1 | h1
        · exact hall _ h1
        · exact Reach.symm' (hall _ h1)))
    · rcases hbc with h1 | h1
      · exact hall _ h1
      · exact Reach.symm' (hall _ h1)

/-- From the labelled tree `ω` the slots can be moved to give `ω'`. -/
def Moves (V : Nat) : List Nat → List Nat → List Nat → Prop
  | [], ω, ω' => ω' = ω
  | e :: slots, ω, ω' => ∃ k ∈ validList V ω e, Moves V slots (ω.set e k) ω'

/-- Exchange: there is an edge of the other tree that can replace the edge in slot `e`. -/
theorem exists_exchange {ω τ : List Nat} (h : LTree V ω) (hτ : LTree V τ) {e : Nat} (he : e < ω.length) :
    ∃ k ∈ validList V ω e, k ∈ τ := by
  have h1 : ω[e] ∈ validList V ω e := by
    rw [mem_validList_iff h he, List.set_getElem_self]; exact h
  obtain ⟨hk, hnr⟩ := mem_validList.1 h1
  have hp := pairAt_lt hk
  obtain ⟨p, hp1, hp2⟩ := exists_cross (hτ.tree.conn _ (by omega) _ hp.2.1) hnr
  obtain ⟨k, hk1, rfl⟩ := List.mem_map.1 hp1
  exact ⟨k, mem_validList.2 ⟨hτ.ids k hk1, hp2⟩, hk1⟩

theorem exists_moves {τ : List Nat} (hτ : LTree V τ) : ∀ (slots : List Nat) (ω : List Nat), LTree V ω → slots.Nodup →
    (∀ e ∈ slots, e < ω.length) → ∃ ω', Moves V slots ω ω' ∧ LTree V ω' ∧ ω'.length = ω.length ∧
      (∀ e ∈ slots, ω'.getD e 0 ∈ τ) ∧ ∀ e, e ∉ slots → ω'.getD e 0 = ω.getD e 0 := by
  intro slots
  induction slots with
  | nil => intro ω h _ _; exact ⟨ω, rfl, h, rfl, by simp, fun _ _ => rfl⟩
  | cons e slots ih =>
    intro ω h hnd hlt
    have he := hlt e (List.mem_cons_self ..)
    obtain ⟨k, hk, hkτ⟩ := exists_exchange h hτ he
    have hset := (mem_validList_iff h he k).1 hk
    obtain ⟨hne, hnd'⟩ := List.nodup_cons.1 hnd
    obtain ⟨ω', h1, h2, h3, h4, h5⟩ := ih (ω.set e k) hset hnd' fun x hx => by
      rw [List.length_set]; exact hlt x (List.mem_cons_of_mem _ hx)
    refine ⟨ω', ⟨k, hk, h1⟩, h2, by rw [h3, List.length_set], ?_, ?_⟩
    · intro x hx
      rcases List.mem_cons.1 hx with rfl | hx
      · rw [h5 x hne, List.getD_eq_getElem _ _ (by simpa using he), List.getElem_set_self]
        exact hkτ
      · exact h4 x hx
    · intro x hx
      have hx1 : x ≠ e := fun hc => hx (by rw [hc]; exact List.mem_cons_self ..)
      rw [h5 x fun hc => hx (List.mem_cons_of_mem _ hc), List.getD_eq_getElem?_getD, List.getElem?_set_ne hx1.symm,
        List.getD_eq_getElem?_getD]

/-- A scan of all slots can reach every tree. -/
theorem exists_scan {ω τ : List Nat} (h : LTree V ω) (hτ : LTree V τ) :
    ∃ ω', Moves V (List.range ω.length) ω ω' ∧ canonOf V ω' = canonOf V τ := by
  obtain ⟨ω', h1, h2, h3, h4, -⟩ := exists_moves hτ (List.range ω.length) ω h List.nodup_range
    (fun e he => List.mem_range.1 he)
  refine ⟨ω', h1, canonOf_eq_of_perm ?_⟩
  have hsub : ω' ⊆ τ := by
    intro k hk
    obtain ⟨i, hi, rfl⟩ := List.mem_iff_getElem.1 hk
    have := h4 i (List.mem_range.2 (by omega))
    rwa [List.getD_eq_getElem _ _ hi] at this
  have h5 := h2.length
  have h6 := hτ.length
  exact (h2.nodup.subperm hsub).perm_of_length_le (by omega)

/-- A scan as an average over labelled trees. -/
theorem absRun_avg (logits : List ℝ) : ∀ (slots : List Nat), (∀ e ∈ slots, e + 1 < V) → ∀ ω, LTree V ω →
    Avg (LTree V) (Moves V slots ω) fun F => absRun (Expect ℝ) exp logits V ω slots F := by
  intro slots
  induction slots with
  | nil =>
    intro _ ω h
    exact ((Avg.point ω).mono_dom fun b hb => by subst hb; exact h).mono_hit fun b hb => hb
  | cons e slots ih =>
    intro hs ω h
    have he : e < ω.length := by
      have := hs e (List.mem_cons_self ..); have := h.length; omega
    have hne : (validList V ω e).toFinset.Nonempty := by
      refine ⟨ω[e], List.mem_toFinset.2 ?_⟩
      rw [mem_validList_iff h he, List.set_getElem_self]; exact h
    have h1 := Avg.weights (validList V ω e).toFinset hne (wt exp logits) fun k _ => exp_pos _
    have h2 := Avg.bind (F := fun k F => absRun (Expect ℝ) exp logits V (ω.set e k) slots F)
      (H2 := fun k => Moves V slots (ω.set e k)) h1 fun k hk =>
        ih (fun x hx => hs x (List.mem_cons_of_mem _ hx)) _ ((mem_validList_iff h he k).1 (List.mem_toFinset.1 hk))
    have h3 : (fun F => absRun (Expect ℝ) exp logits V ω (e :: slots) F) = fun F : List Nat → ℝ =>
        (∑ i ∈ (validList V ω e).toFinset, wt exp logits i * absRun (Expect ℝ) exp logits V (ω.set e i) slots F) /
          ∑ i ∈ (validList V ω e).toFinset, wt exp logits i := by
      funext F
      rw [absRun_cons, absStep_expect exp_pos exp_add]
    rw [h3]
    refine h2.mono_hit ?_
    rintro ω' ⟨k, hk, hm⟩
    exact ⟨k, List.mem_toFinset.2 hk, List.mem_toFinset.2 hk, hm⟩

/-- What is made of the result of `sample_tree`. -/
def onTree (f : List Edge → ℝ) : Except PyErr (List Edge) → ℝ
  | .ok T => f T
  | .error _ => 0

/-- One call of `sample_tree` with a random scan order is an average over spanning trees which gives weight to every
spanning tree. -/
theorem sampleTree_avg {T : List Edge} (hcan : Canonical T) (ht : IsTree V T) (junk : Nat → Nat) {logits : List ℝ}
    (hl : logits.length = tri V) :
    Avg (fun T => Canonical T ∧ IsTree V T) (fun T => Canonical T ∧ IsTree V T) fun f =>
      ((List.range T.length).permutations.map fun σ =>
        (sampleTree exp junk (completeGrid V) logits T σ : ExceptT PyErr (Expect ℝ) _).run (onTree f)).sum /
          (T.length.factorial : ℝ) := by
  have hV := ht.card
  have h1 := Avg.list (List.range T.length).permutations T.length.factorial
    (by rw [List.length_permutations, List.length_range])
    (List.ne_nil_of_mem (List.mem_permutations.2 (List.Perm.refl _)))
  have h2 := Avg.bind (D2 := fun T => Canonical T ∧ IsTree V T) (H2 := fun _ T => Canonical T ∧ IsTree V T)
    (F := fun σ f => (sampleTree exp junk (completeGrid V) logits T σ : ExceptT PyErr (Expect ℝ) _).run (onTree f)) h1 ?_
  · refine h2.mono_hit fun T' hT' => ⟨List.range T.length, ?_, ?_, hT'⟩ <;>
      exact List.mem_permutations.2 (List.Perm.refl _)
  intro σ hσ
  have hperm := List.mem_permutations.1 hσ
  have e1 : (fun f => (sampleTree exp junk (completeGrid V) logits T σ : ExceptT PyErr (Expect ℝ) _).run (onTree f))
      = fun f : List Edge → ℝ => if T.length ≤ 1 then f T else
          absRun (Expect ℝ) exp logits V (relabel σ (idsOf T)) (List.range T.length) fun ω => f (canonOf V ω) := by
    funext f
    exact sampleTree_expect exp_pos exp_add ht junk hl hperm (onTree f)
  rw [e1]
  have hlt : LTree V (relabel σ (idsOf T)) := by
    refine (ltree_ids ht).of_perm ?_
    have h1 : (idsOf T).length = T.length := by simp [idsOf]
    have h2 : (List.range T.length).map (fun i => (idsOf T).getD i 0) = idsOf T := by
      rw [← h1]; exact range_map_getD _
    have h3 := hperm.symm.map fun i => (idsOf T).getD i 0
    rw [h2] at h3
    exact h3
  by_cases hE : T.length ≤ 1
  · simp only [if_pos hE]
    refine ((Avg.point T).mono_dom fun b hb => by subst hb; exact ⟨hcan, ht⟩).mono_hit fun T' hT' => ?_
    -- with at most two vertices there is only one tree
    have hlen : T'.length = T.length := by have := hT'.2.card; omega
    cases hT : T with
    | nil => rw [hT] at hlen; exact List.length_eq_zero_iff.1 hlen
    | cons p l =>
      have hl0 : l = [] := by rw [hT] at hE; simpa using hE
      subst hl0
      obtain ⟨q, rfl⟩ : ∃ q, T' = [q] := by
        rw [hT] at hlen; exact List.length_eq_one_iff.1 (by simpa using hlen)
      have h1 := hT'.1.small_large q (List.mem_cons_self ..)
      have h2 := (hT'.2.range q (List.mem_cons_self ..)).2
      have h3 := hcan.small_large p (by rw [hT]; exact List.mem_cons_self ..)
      have h4 := (ht.range p (by rw [hT]; exact List.mem_cons_self ..)).2
      have hV2 : V = 2 := by rw [← hV, hT]; rfl
      have : q = p := Prod.ext (by omega) (by omega)
      rw [this]
  · simp only [if_neg hE]
    have h3 := absRun_avg (V := V) logits (List.range T.length) (fun e he => by
      have := List.mem_range.1 he; omega) _ hlt
    refine ((h3.map (canonOf V)).mono_dom ?_).mono_hit ?_
    · rintro b ⟨ω, hω, rfl⟩
      exact canonOf_spec hω
    · rintro T' ⟨hc', ht'⟩
      have hlen : (relabel σ (idsOf T)).length = T.length := by
        rw [relabel, List.length_map, hperm.length_eq, List.length_range]
      obtain ⟨ω', h4, h5⟩ := exists_scan hlt (ltree_ids ht')
      rw [hlen] at h4
      have h6 : canonOf V (idsOf T') = T' := canonOf_idsOf hc' ht'
      refine ⟨ω', h4, ?_, (h6.symm.trans h5.symm)⟩
      -- the end of the moves is a tree
      have key : ∀ (slots : List Nat) (ω : List Nat), LTree V ω → (∀ e ∈ slots, e < ω.length) → ∀ ω', Moves V slots ω ω' →
          LTree V ω' := by
        intro slots
        induction slots with
        | nil => intro ω h _ ω' hm; cases hm; exact h
        | cons e slots ih =>
          rintro ω h hlt ω' ⟨k, hk, hm⟩
          exact ih _ ((mem_validList_iff h (hlt e (List.mem_cons_self ..)) k).1 hk) (fun x hx => by
            rw [List.length_set]; exact hlt x (List.mem_cons_of_mem _ hx)) ω' hm
      exact key _ _ hlt (fun e he => by rw [hlen]; exact List.mem_range.1 he) _ h4

end

/-! ### Kernels of the steps of training -/

variable {M : Nat} [NeZero M] {t : Table} {s : Trainer ℝ M} {num : Num ℝ} {prior : List ℝ}

/-- Canonical spanning trees. -/
abbrev TreeOn (V : Nat) : Type := {T : List Edge // Canonical T ∧ IsTree V T}

noncomputable instance (V : Nat) : Fintype (TreeOn V) :=
  Fintype.subtype (exists_spanningTrees V).choose (exists_spanningTrees V).choose_spec

/-- Assignments and tree. -/
abbrev Pair (t : Table) (M : Nat) : Type := Latent t M × TreeOn t.numCols

/-- Those of a full state. -/
def Full.view (h : Full t s) : Pair t M := (latent t s, ⟨s.tree.getEdges, h.toGood.canonical, h.isTree⟩)

/-- `x` moves pairs of assignments and tree by averages which give weight to all pairs in relation `R`. -/
def Kern (x : TrainM ℝ M (Expect ℝ) Unit) (R : Pair t M → Pair t M → Prop) : Prop :=
  ∃ P : (Pair t M → ℝ) → Pair t M → ℝ, (∀ ω, Avg (fun _ => True) (R ω) fun f => P f ω) ∧
    ∀ (g : Except PyErr Unit × Trainer ℝ M → ℝ) (f : Pair t M → ℝ), (∀ s (h : Full t s), g (.ok (), s) = f h.view) →
      ∀ s (h : Full t s), x.run.run s g = P f h.view

theorem Kern.pure : Kern (t := t) (M := M) (pure ()) fun ω ω' => ω' = ω :=
  ⟨fun f => f, fun ω => (Avg.point ω).mono_dom fun _ _ => trivial, fun _ _ hg s h => hg s h⟩

theorem Kern.bind {x y : TrainM ℝ M (Expect ℝ) Unit} {R1 R2 : Pair t M → Pair t M → Prop} (hx : Kern x R1)
    (hy : Kern y R2) : Kern (x >>= fun _ => y) fun ω ω' => ∃ ω1, R1 ω ω1 ∧ R2 ω1 ω' := by
  obtain ⟨P, hP, hP'⟩ := hx
  obtain ⟨Q, hQ, hQ'⟩ := hy
  refine ⟨fun f => P (Q f), fun ω => ?_, fun g f hg s hs => ?_⟩
  · refine (Avg.bind (F := fun ω f => Q f ω) (hP ω) fun ω1 _ => hQ ω1).mono_hit ?_
    rintro ω' ⟨ω1, h1, h2⟩
    exact ⟨ω1, h1, trivial, h2⟩
  · refine Eq.trans ?_ (hP' (fun o => match o.1 with
      | .ok _ => y.run.run o.2 g
      | .error e => g (.error e, o.2)) (Q f) (fun s hs => hQ' g f hg s hs) s hs)
    refine congrArg (x.run.run s) (funext fun o => ?_)
    obtain ⟨r, s'⟩ := o
    cases r <;> rfl

theorem Kern.mono {x : TrainM ℝ M (Expect ℝ) Unit} {R R' : Pair t M → Pair t M → Prop} (h : Kern x R)
    (hR : ∀ ω ω', R' ω ω' → R ω ω') : Kern x R' := by
  obtain ⟨P, h1, h2⟩ := h
  exact ⟨P, fun ω => (h1 ω).mono_hit (hR ω), h2⟩

/-- Resampling a row gives weight to all values of that row. -/
theorem Kern.row (ht : Table.Ordered t) (hm : ∀ ty ∈ t.featureTypes, ty = tyMultinomial) (hc : Table.Counts t)
    {row : Nat} (hN : row < t.numRows) : Kern (t := t) (M := M) (do removeRow t row; addRow t row)
      fun ω ω' => ω'.2 = ω.2 ∧ ∀ n : Fin t.numRows, (n : Nat) ≠ row → ω'.1 n = ω.1 n := by
  set r : Fin t.numRows := ⟨row, hN⟩
  set L : Latent t M → List Edge → ℝ := fun a T => likelihood t (Finset.range t.numRows) a.total T with hLdef
  refine ⟨fun f ω => (∑ z, L (Function.update ω.1 r z) ω.2.1 * f (Function.update ω.1 r z, ω.2)) /
    ∑ z, L (Function.update ω.1 r z) ω.2.1, fun ω => ?_, fun g f hg s hs => ?_⟩
  · have h1 := (Avg.weights (Finset.univ : Finset (Fin t.numCols → Fin M)) Finset.univ_nonempty
      (fun z => L (Function.update ω.1 r z) ω.2.1) fun z _ => likelihood_pos hc _ _ _).map
        fun z => ((Function.update ω.1 r z, ω.2) : Pair t M)
    refine (h1.mono_dom fun _ _ => trivial).mono_hit ?_
    rintro ω' ⟨h2, h3⟩
    refine ⟨ω'.1 r, Finset.mem_univ _, Finset.mem_univ _, Prod.ext (funext fun n => ?_) h2⟩
    by_cases hn : n = r
    · rw [hn]
      change ω'.1 r = Function.update ω.1 r (ω'.1 r) r
      rw [Function.update_self]
    · exact (h3 n fun hc => hn (Fin.ext hc)).trans (Function.update_of_ne hn _ _).symm
  · have hmem : row ∈ s.added := by rw [hs.all]; simpa using hN
    obtain ⟨_, s1, ⟨g1, a1, t1, as1⟩, h1⟩ := (Det.removeRow t row s).of_tot (Tot.removeRow ht hm hs.toGood hmem)
    have hr1 : row ∉ s1.added := by rw [a1]; exact Finset.notMem_erase _ _
    have hins : insert row s1.added = Finset.range t.numRows := by
      rw [a1, hs.all]; exact Finset.insert_erase (Finset.mem_range.2 hN)
    obtain ⟨after, h2, h3⟩ := addRow_law_good ht hm hc g1 hr1 hN
    have hfull : ∀ z, Full t (after z) := fun z => by
      obtain ⟨b1, b2, b3, b4, b5⟩ := h2 z
      refine ⟨⟨⟨b5, by rw [b2]; exact g1.grid⟩, by rw [b2]; exact g1.numVertices, by rw [b2]; exact g1.isTree,
        by rw [b2]; exact g1.sorted, by rw [b2, b3]; exact g1.program, ?_⟩, by rw [b1, hins]⟩
      rw [b1, hins]
    have hlat : ∀ z, latent t (after z) = Function.update (latent t s) r z := fun z => by
      obtain ⟨-, -, -, b4, -⟩ := h2 z
      funext n v
      unfold latent
      rw [b4, as1]
      by_cases hn : n = r
      · subst hn
        rw [Function.update_self, Function.update_self]
        exact overlay_lt _ _ v.2
      · rw [Function.update_of_ne hn, Function.update_of_ne fun h => hn (Fin.ext h)]
    have hview : ∀ z, (hfull z).view = (Function.update hs.view.1 r z, hs.view.2) := fun z => by
      refine Prod.ext (hlat z) (Subtype.ext ?_)
      change (after z).tree.getEdges = s.tree.getEdges
      rw [(h2 z).2.1, t1]
    have hlik : ∀ z, likelihood t (insert row s1.added) (after z).assign s1.tree.getEdges
        = L (Function.update hs.view.1 r z) hs.view.2.1 := fun z => by
      change _ = L (Function.update (latent t s) r z) s.tree.getEdges
      rw [hins, t1, ← hlat z]
      exact likelihood_congr hs.isTree.range fun n hn v hv => (latentOf_total _ (Finset.mem_range.1 hn) hv).symm
    refine (h1 _).trans ((h3 g).trans ?_)
    simp only [hlik]
    congr 1
    refine Finset.sum_congr rfl fun z _ => ?_
    rw [hg _ (hfull z), hview]

/-- Resampling the tree gives weight to all trees. -/
theorem Kern.tree (hn : ∀ x, 0 < x → num.gammaln x = log (Gamma x)) (hexp : num.exp = exp)
    (hp : prior.length = t.numCols * (t.numCols - 1) / 2) (junk : Nat → Nat) :
    Kern (t := t) (M := M) (trainerSampleTree num junk t prior >>= fun edges => setEdges edges) fun ω ω' => ω'.1 = ω.1 := by
  classical
  set logits : Latent t M → List ℝ := fun a => (completeGrid t.numCols).map fun c => logitOf t prior a c.2.1 c.2.2
  have hlen : ∀ a, (logits a).length = tri t.numCols := fun a => by
    simp only [logits, List.length_map, completeGrid_length]
  refine ⟨fun f ω => ((List.range ω.2.1.length).permutations.map fun σ =>
      (sampleTree exp junk (completeGrid t.numCols) (logits ω.1) ω.2.1 σ : ExceptT PyErr (Expect ℝ) _).run
        (onTree fun T => if hT : Canonical T ∧ IsTree t.numCols T then f (ω.1, ⟨T, hT⟩) else 0)).sum /
        (ω.2.1.length.factorial : ℝ), fun ω => ?_, fun g f hg s hs => ?_⟩
  · have h1 := (sampleTree_avg ω.2.2.1 ω.2.2.2 junk (hlen ω.1)).subtype.map fun T => ((ω.1, T) : Pair t M)
    refine (h1.mono_dom fun _ _ => trivial).mono_hit ?_
    rintro ω' h2
    exact ⟨ω'.2, ω'.2.2, trivial, Prod.ext h2 rfl⟩
  · rw [trainerSampleTree_run junk g (hs.logits hn hp) (hlen _), hexp]
    refine congrArg (fun x : ℝ => x / (s.tree.getEdges.length.factorial : ℝ)) ?_
    refine congrArg List.sum (List.map_congr_left fun σ hσ => ?_)
    refine sampleTree_congr hs.toGood.canonical hs.isTree junk (hlen _) (List.mem_permutations.1 hσ) _ _ fun T h1 h2 => ?_
    obtain ⟨_, s', ⟨g1, a1, as1, t1⟩, h3⟩ := (Det.setEdges T s).of_tot (Tot.setEdges hs.toGood h2)
    have hT : s'.tree.getEdges = T := by
      change gridEdges s'.tree.treeGrid = T
      rw [t1, gridEdges_makeTree, sortEdges_canonical h1]
    have hf : Full t s' := ⟨g1, by rw [a1]; exact hs.all⟩
    refine (h3 g).trans ?_
    rw [hg s' hf, onTree, dif_pos ⟨h1, h2⟩]
    congr 1
    refine Prod.ext ?_ (Subtype.ext hT)
    change latent t s' = latent t s
    unfold latent
    rw [as1]

theorem Kern.rows (ht : Table.Ordered t) (hm : ∀ ty ∈ t.featureTypes, ty = tyMultinomial) (hc : Table.Counts t) :
    ∀ l : List Nat, (∀ r ∈ l, r < t.numRows) → Kern (t := t) (M := M) (l.forM fun r => do removeRow t r; addRow t r)
      fun ω ω' => ω'.2 = ω.2 ∧ ∀ n : Fin t.numRows, (n : Nat) ∉ l → ω'.1 n = ω.1 n := by
  intro l
  induction l with
  | nil =>
    intro _
    refine Kern.pure.mono fun ω ω' h => ?_
    exact Prod.ext (funext fun n => h.2 n (by simp)) h.1
  | cons r l ih =>
    intro hl
    have h := Kern.bind (Kern.row (M := M) ht hm hc (hl r (List.mem_cons_self ..)))
      (ih fun x hx => hl x (List.mem_cons_of_mem _ hx))
    refine Kern.mono h ?_
    rintro ω ω' ⟨h1, h2⟩
    refine ⟨(fun n => if (n : Nat) = r then ω'.1 n else ω.1 n, ω.2), ⟨rfl, fun n hn => if_neg hn⟩, h1, fun n hn => ?_⟩
    by_cases hr : (n : Nat) = r
    · simp only [if_pos hr]
    · simp only [if_neg hr]
      exact h2 n fun hc => (List.mem_cons.1 hc).elim hr hn

/-- A full epoch gives weight to everything. -/
theorem Kern.fullScan (hn : ∀ x, 0 < x → num.gammaln x = log (Gamma x)) (hexp : num.exp = exp) (ht : Table.Ordered t)
    (hm : ∀ ty ∈ t.featureTypes, ty = tyMultinomial) (hc : Table.Counts t)
    (hp : prior.length = t.numCols * (t.numCols - 1) / 2) (junk : Nat → Nat) :
    Kern (t := t) (M := M) (fullScan num junk t prior) fun _ _ => True := by
  have h := Kern.bind (Kern.tree (M := M) hn hexp hp junk)
    (Kern.rows ht hm hc (List.range t.numRows) fun r hr => List.mem_range.1 hr)
  obtain ⟨P, h1, h2⟩ := h
  refine ⟨P, fun ω => (h1 ω).mono_hit fun ω' _ => ⟨(ω.1, ω'.2), rfl, rfl, fun n hn => ?_⟩, fun g f hg s hs => ?_⟩
  · exact absurd (List.mem_range.2 n.2) hn
  · refine Eq.trans ?_ (h2 g f hg s hs)
    unfold TreeCat.fullScan
    rw [bind_assoc]

/-! ### Convergence -/

theorem epochs_run {x : TrainM ℝ M (Expect ℝ) PUnit} {P : (Pair t M → ℝ) → Pair t M → ℝ}
    (hP : ∀ (g : Except PyErr Unit × Trainer ℝ M → ℝ) (f : Pair t M → ℝ), (∀ s (h : Full t s), g (.ok (), s) = f h.view) →
      ∀ s (h : Full t s), x.run.run s g = P f h.view)
    (g : Except PyErr Unit × Trainer ℝ M → ℝ) (f : Pair t M → ℝ) (hg : ∀ s (h : Full t s), g (.ok (), s) = f h.view) :
    ∀ (n : Nat) s (h : Full t s), ((List.replicate n ()).forM fun _ => x : TrainM ℝ M (Expect ℝ) PUnit).run.run s g
      = P^[n] f h.view := by
  intro n
  induction n with
  | zero => exact fun s h => hg s h
  | succ n ih =>
    intro s h
    rw [Function.iterate_succ_apply']
    refine Eq.trans ?_ (hP (fun o => match o.1 with
      | .ok _ => ((List.replicate n ()).forM fun _ => x : TrainM ℝ M (Expect ℝ) PUnit).run.run o.2 g
      | .error e => g (.error e, o.2)) (P^[n] f) (fun s h => ih s h) s h)
    refine congrArg (x.run.run s) (funext fun o => ?_)
    obtain ⟨r, s'⟩ := o
    cases r <;> rfl

theorem posterior_pos (hc : Table.Counts t) (a : Latent t M) (T : List Edge) : 0 < posterior t prior a T :=
  mul_pos (likelihood_pos hc _ _ _) (exp_pos _)

/-- The full epochs converge from every full state. -/
theorem fullScan_converges_full (hn : ∀ x, 0 < x → num.gammaln x = log (Gamma x)) (hexp : num.exp = exp)
    (ht : Table.Ordered t) (hm : ∀ ty ∈ t.featureTypes, ty = tyMultinomial) (hc : Table.Counts t)
    (hV : 1 ≤ t.numCols) (hV' : t.numCols ≤ 32768) (hM : M ≤ 128) (prior : List ℝ)
    (hp : prior.length = t.numCols * (t.numCols - 1) / 2) (S : Finset (List Edge))
    (hS : ∀ T, T ∈ S ↔ Canonical T ∧ IsTree t.numCols T) (junk : Nat → Nat) :
    ∃ ρ : ℝ, 0 ≤ ρ ∧ ρ < 1 ∧ ∀ (f : Except PyErr Unit → Latent t M → List Edge → ℝ) (lo hi : ℝ),
      (∀ a, ∀ T ∈ S, lo ≤ f (.ok ()) a T ∧ f (.ok ()) a T ≤ hi) → ∀ s : Trainer ℝ M, Full t s → ∀ n : Nat,
      |((List.replicate n ()).forM fun _ => fullScan num junk t prior : TrainM ℝ M (Expect ℝ) Unit).run.run s
          (fun o => f o.1 (latent t o.2) o.2.tree.getEdges)
        - (∑ a, ∑ T ∈ S, posterior t prior a T * f (.ok ()) a T) / ∑ a : Latent t M, ∑ T ∈ S, posterior t prior a T|
        ≤ ρ ^ n * (hi - lo) := by
  classical
  obtain ⟨P, hP, hrun⟩ := Kern.fullScan (M := M) (prior := prior) hn hexp ht hm hc hp junk
  have hkeep := Keeps.fullScan (M := M) (prior := prior) hn hexp ht hm hc hp hS junk
  -- every pair is the view of a full state
  have hsurj : ∀ ω : Pair t M, ∃ (s : Trainer ℝ M) (h : Full t s), h.view = ω := by
    intro ω
    obtain ⟨s, hs⟩ := exists_holds ht hm hV hV' hM ω.1 ω.2.2.1 ω.2.2.2
    obtain ⟨h1, h2⟩ := hs.full ht hm
    exact ⟨s, h1, Prod.ext h2 (Subtype.ext hs.tree)⟩
  have hsum : ∀ F : Latent t M → List Edge → ℝ, (∑ ω : Pair t M, F ω.1 ω.2.1) = ∑ a, ∑ T ∈ S, F a T := by
    intro F
    rw [Fintype.sum_prod_type]
    exact Finset.sum_congr rfl fun a _ => (Finset.sum_subtype S hS (F a)).symm
  set Z := ∑ a : Latent t M, ∑ T ∈ S, posterior t prior a T with hZ
  have hZ' : Z = ∑ ω : Pair t M, posterior t prior ω.1 ω.2.1 := (hsum _).symm
  have : Nonempty (Pair t M) := by
    obtain ⟨s0, h0, g0, -⟩ := good_init (K := ℝ) (M := M) hV hV' hM rfl
    exact ⟨(fun _ _ => 0, ⟨_, g0.canonical, g0.isTree⟩)⟩
  have hZpos : 0 < Z := by
    rw [hZ']; exact Finset.sum_pos (fun ω _ => posterior_pos hc _ _) Finset.univ_nonempty
  have hinv : ∀ f : Pair t M → ℝ, (∑ ω, posterior t prior ω.1 ω.2.1 / Z * P f ω)
      = ∑ ω, posterior t prior ω.1 ω.2.1 / Z * f ω := by
    intro f
    set f' : Latent t M → List Edge → ℝ := fun a T => if hT : Canonical T ∧ IsTree t.numCols T then f (a, ⟨T, hT⟩) else 0
      with hf'
    have hf'' : ∀ ω : Pair t M, f' ω.1 ω.2.1 = f ω := fun ω => dif_pos ω.2.2
    set g : Except PyErr Unit × Trainer ℝ M → ℝ := fun o => f' (latent t o.2) o.2.tree.getEdges
    obtain ⟨h, h1, h2⟩ := hkeep g f' fun s _ => rfl
    have h3 : ∀ ω : Pair t M, P f ω = h ω.1 ω.2.1 := by
      intro ω
      obtain ⟨s, hs, rfl⟩ := hsurj ω
      exact (hrun g f (fun s hs => hf'' hs.view) s hs).symm.trans (h1 s hs)
    rw [← hsum, ← hsum] at h2
    simp only [h3, ← hf'', div_mul_eq_mul_div]
    rw [← Finset.sum_div, ← Finset.sum_div]
    exact congrArg (· / Z) h2
  obtain ⟨ρ, h0, h1, h2⟩ := doeblin P hP (fun ω => posterior t prior ω.1 ω.2.1 / Z)
    (fun ω => (div_pos (posterior_pos hc _ _) hZpos).le) (by rw [← Finset.sum_div, ← hZ', div_self hZpos.ne']) hinv
  refine ⟨ρ, h0, h1, fun f lo hi hb s hf n => ?_⟩
  have h3 := epochs_run hrun (fun o => f o.1 (latent t o.2) o.2.tree.getEdges) (fun ω => f (.ok ()) ω.1 ω.2.1)
    (fun s h => rfl) n s hf
  have h4 := h2 (fun ω => f (.ok ()) ω.1 ω.2.1) lo hi (fun ω => hb ω.1 ω.2.1 ((hS _).2 ω.2.2)) n hf.view
  have h5 : (∑ ω : Pair t M, posterior t prior ω.1 ω.2.1 / Z * f (.ok ()) ω.1 ω.2.1)
      = (∑ a, ∑ T ∈ S, posterior t prior a T * f (.ok ()) a T) / Z := by
    rw [← hsum, Finset.sum_div]
    exact Finset.sum_congr rfl fun ω _ => by ring
  rw [h5] at h4
  refine le_of_eq_of_le (congrArg (fun x : ℝ => |x - _|) h3) h4

/-- **C52.** From whatever tree and assignments training starts its full epochs, the distribution of tree and assignments
converges to the posterior, geometrically fast: there is a rate `ρ < 1` (depending on table, prior and number of
clusters) such that after `n` epochs the expected value of any function `f` with values in `[lo, hi]` is within
`ρ ^ n (hi - lo)` of its posterior mean. No epoch raises: `f` may depend on the result of the call, and only its values
for success matter. -/
theorem fullScan_converges (hn : ∀ x, 0 < x → num.gammaln x = log (Gamma x)) (hexp : num.exp = exp)
    (ht : Table.Ordered t) (hm : ∀ ty ∈ t.featureTypes, ty = tyMultinomial) (hc : Table.Counts t)
    (hV : 1 ≤ t.numCols) (hV' : t.numCols ≤ 32768) (hM : M ≤ 128) (prior : List ℝ)
    (hp : prior.length = t.numCols * (t.numCols - 1) / 2) (S : Finset (List Edge))
    (hS : ∀ T, T ∈ S ↔ Canonical T ∧ IsTree t.numCols T) (junk : Nat → Nat) :
    ∃ ρ : ℝ, 0 ≤ ρ ∧ ρ < 1 ∧ ∀ (f : Except PyErr Unit → Latent t M → List Edge → ℝ) (lo hi : ℝ),
      (∀ a, ∀ T ∈ S, lo ≤ f (.ok ()) a T ∧ f (.ok ()) a T ≤ hi) → ∀ (a : Latent t M) (T : List Edge) (s : Trainer ℝ M),
      StateHolds t a T s → ∀ n : Nat,
      |((List.replicate n ()).forM fun _ => fullScan num junk t prior : TrainM ℝ M (Expect ℝ) Unit).run.run s
          (fun o => f o.1 (latent t o.2) o.2.tree.getEdges)
        - (∑ a, ∑ T ∈ S, posterior t prior a T * f (.ok ()) a T) / ∑ a : Latent t M, ∑ T ∈ S, posterior t prior a T|
        ≤ ρ ^ n * (hi - lo) := by
  obtain ⟨ρ, h0, h1, h2⟩ := fullScan_converges_full hn hexp ht hm hc hV hV' hM prior hp S hS junk
  exact ⟨ρ, h0, h1, fun f lo hi hb a T s hs => h2 f lo hi hb s (hs.full ht hm).1⟩

/-- **C52**, as a limit: the probability of every pair of tree and assignments tends to its posterior probability. -/
theorem fullScan_tendsto (hn : ∀ x, 0 < x → num.gammaln x = log (Gamma x)) (hexp : num.exp = exp)
    (ht : Table.Ordered t) (hm : ∀ ty ∈ t.featureTypes, ty = tyMultinomial) (hc : Table.Counts t)
    (hV : 1 ≤ t.numCols) (hV' : t.numCols ≤ 32768) (hM : M ≤ 128) (prior : List ℝ)
    (hp : prior.length = t.numCols * (t.numCols - 1) / 2) (S : Finset (List Edge))
    (hS : ∀ T, T ∈ S ↔ Canonical T ∧ IsTree t.numCols T) (junk : Nat → Nat) {a : Latent t M} {T : List Edge}
    (hs : StateHolds t a T s) (a' : Latent t M) (T' : List Edge) (hT' : T' ∈ S) :
    Filter.Tendsto (fun n : Nat =>
        ((List.replicate n ()).forM fun _ => fullScan num junk t prior : TrainM ℝ M (Expect ℝ) Unit).run.run s
          fun o => if o.1 = .ok () ∧ latent t o.2 = a' ∧ o.2.tree.getEdges = T' then 1 else 0)
      Filter.atTop (nhds (posterior t prior a' T' / ∑ a : Latent t M, ∑ T ∈ S, posterior t prior a T)) := by
  obtain ⟨ρ, h0, h1, h2⟩ := fullScan_converges (num := num) hn hexp ht hm hc hV hV' hM prior hp S hS junk
  have h3 := h2 (fun r a T => if r = .ok () ∧ a = a' ∧ T = T' then 1 else 0) 0 1
    (fun a T _ => by split <;> norm_num) a T s hs
  have h4 : (∑ a : Latent t M, ∑ T ∈ S, posterior t prior a T *
      (if (.ok () : Except PyErr Unit) = .ok () ∧ a = a' ∧ T = T' then (1 : ℝ) else 0)) = posterior t prior a' T' := by
    rw [Finset.sum_eq_single a', Finset.sum_eq_single T']
    · simp
    · intro T _ hne; simp [hne]
    · intro h; exact absurd hT' h
    · intro a _ hne; simp [hne]
    · intro h; exact absurd (Finset.mem_univ _) h
  rw [h4] at h3
  rw [tendsto_iff_dist_tendsto_zero]
  refine squeeze_zero (fun _ => dist_nonneg) (fun n => h3 n) ?_
  simpa using (tendsto_pow_atTop_nhds_zero_of_lt_one h0 h1).mul_const (1 - 0 : ℝ)

/-- The hypotheses are met by `exTable` with two clusters, the zero prior and any assignments. -/
example (a : Latent exTable 2) : ∃ s, StateHolds exTable a [(0, 1), (0, 2)] s := by
  have hm : ∀ ty ∈ exTable.featureTypes, ty = tyMultinomial := by decide
  exact exists_holds exTable_ordered hm (by decide) (by decide) (by decide) a ⟨by decide, by decide⟩
    (isTree_of_smaller rfl (by decide) (by decide))

end TreeCat
