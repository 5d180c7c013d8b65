import Verif.Props.ServeInf
import Verif.Props.TreeInfGibbs
import Verif.Props.TreeSamples

/-!
# C97: the trees that servers sample come from the posterior over the trees without forbidden edges

Like C56, for models in which some edges are forbidden.
-/

set_option linter.unusedSectionVars false

namespace TreeCat

open Spec Util
open scoped BigOperators

/-! ### One scan can reach every allowed tree -/

section
variable {V : Nat} {q : Nat → ℝ}

/-- A labelled tree whose edges all have positive weight. -/
structure GoodL (q : Nat → ℝ) (V : Nat) (ω : List Nat) : Prop where
  ltree : LTree V ω
  pos : ∀ k ∈ ω, 0 < q k

/-- From the labelled tree `ω` the slots can be moved to give `ω'`, with positive weights. -/
def MovesQ (q : Nat → ℝ) (V : Nat) : List Nat → List Nat → List Nat → Prop
  | [], ω, ω' => ω' = ω
  | e :: slots, ω, ω' => ∃ k ∈ validList V ω e, 0 < q k ∧ MovesQ q V slots (ω.set e k) ω'

theorem GoodL.set {ω : List Nat} (h : GoodL q V ω) {e : Nat} (he : e < ω.length) {k : Nat} (hk : k ∈ validList V ω e) (hq : 0 < q k) :
    GoodL q V (ω.set e k) := by
  refine ⟨(mem_validList_iff h.ltree he k).1 hk, fun j hj => ?_⟩
  rcases List.mem_or_eq_of_mem_set hj with hj | rfl
  · exact h.pos j hj
  · exact hq

theorem exists_movesQ {τ : List Nat} (hτ : GoodL q V τ) : ∀ (slots : List Nat) (ω : List Nat), GoodL q V ω → slots.Nodup →
    (∀ e ∈ slots, e < ω.length) → ∃ ω', MovesQ q V slots ω ω' ∧ GoodL q V ω' ∧ ω'.length = ω.length ∧
      (∀ e ∈ slots, ω'.getD e 0 ∈ τ) ∧ ∀ e, e ∉ slots → ω'.getD e 0 = ω.getD e 0 := by
  intro slots
  induction slots with
  | nil => intro ω h _ _; exact ⟨ω, rfl, h, rfl, by simp, fun _ _ => rfl⟩
  | cons e slots ih =>
    intro ω h hnd hlt
    have he := hlt e (List.mem_cons_self ..)
    obtain ⟨k, hk, hkτ⟩ := exists_exchange h.ltree hτ.ltree he
    have hset := h.set he hk (hτ.pos k hkτ)
    obtain ⟨hne, hnd'⟩ := List.nodup_cons.1 hnd
    obtain ⟨ω', h1, h2, h3, h4, h5⟩ := ih (ω.set e k) hset hnd' fun x hx => by
      rw [List.length_set]; exact hlt x (List.mem_cons_of_mem _ hx)
    refine ⟨ω', ⟨k, hk, hτ.pos k hkτ, h1⟩, h2, by rw [h3, List.length_set], ?_, ?_⟩
    · intro x hx
      rcases List.mem_cons.1 hx with rfl | hx
      · rw [h5 x hne, List.getD_eq_getElem _ _ (by simpa using he), List.getElem_set_self]
        exact hkτ
      · exact h4 x hx
    · intro x hx
      have hx1 : x ≠ e := fun hc => hx (by rw [hc]; exact List.mem_cons_self ..)
      rw [h5 x fun hc => hx (List.mem_cons_of_mem _ hc), List.getD_eq_getElem?_getD, List.getElem?_set_ne hx1.symm,
        List.getD_eq_getElem?_getD]

theorem exists_scanQ {ω τ : List Nat} (h : GoodL q V ω) (hτ : GoodL q V τ) :
    ∃ ω', MovesQ q V (List.range ω.length) ω ω' ∧ GoodL q V ω' ∧ canonOf V ω' = canonOf V τ := by
  obtain ⟨ω', h1, h2, h3, h4, -⟩ := exists_movesQ hτ (List.range ω.length) ω h List.nodup_range
    (fun e he => List.mem_range.1 he)
  refine ⟨ω', h1, h2, canonOf_eq_of_perm ?_⟩
  have hsub : ω' ⊆ τ := by
    intro k hk
    obtain ⟨i, hi, rfl⟩ := List.mem_iff_getElem.1 hk
    have := h4 i (List.mem_range.2 (by omega))
    rwa [List.getD_eq_getElem _ _ hi] at this
  have h5 := h2.ltree.length
  have h6 := hτ.ltree.length
  exact (h2.ltree.nodup.subperm hsub).perm_of_length_le (by omega)

/-- A scan as an average over labelled trees without edges of weight zero. -/
theorem gRun_avg (hq : ∀ k, 0 ≤ q k) : ∀ (slots : List Nat), (∀ e ∈ slots, e + 1 < V) → ∀ ω, GoodL q V ω →
    Avg (GoodL q V) (MovesQ q V slots ω) fun F => gRun q V F slots ω := by
  intro slots
  induction slots with
  | nil =>
    intro _ ω h
    exact ((Avg.point ω).mono_dom fun b hb => by subst hb; exact h).mono_hit fun b hb => hb
  | cons e slots ih =>
    intro hs ω h
    have he : e < ω.length := by
      have := hs e (List.mem_cons_self ..); have := h.ltree.length; omega
    classical
    set s := (validList V ω e).toFinset.filter fun k => 0 < q k with hsdef
    have hmem : ∀ k, k ∈ s ↔ k ∈ validList V ω e ∧ 0 < q k := fun k => by rw [hsdef, Finset.mem_filter, List.mem_toFinset]
    have hne : s.Nonempty := ⟨ω[e], (hmem _).2 ⟨self_mem_validList h.ltree he, h.pos _ (List.getElem_mem he)⟩⟩
    have h1 := Avg.weights s hne q fun k hk => ((hmem k).1 hk).2
    have h2 := Avg.bind (F := fun k F => gRun q V F slots (ω.set e k))
      (H2 := fun k => MovesQ q V slots (ω.set e k)) h1 fun k hk =>
        ih (fun x hx => hs x (List.mem_cons_of_mem _ hx)) _ (h.set he ((hmem k).1 hk).1 ((hmem k).1 hk).2)
    have hsum : ∀ g : Nat → ℝ, ∑ k ∈ (validList V ω e).toFinset, q k * g k = ∑ k ∈ s, q k * g k := by
      intro g
      symm
      refine Finset.sum_subset (Finset.filter_subset _ _) fun k hk hn => ?_
      have : ¬ 0 < q k := fun hp => hn (by rw [Finset.mem_filter]; exact ⟨hk, hp⟩)
      rw [le_antisymm (not_lt.1 this) (hq k), zero_mul]
    have h3 : (fun F : List Nat → ℝ => gRun q V F (e :: slots) ω) = fun F =>
        (∑ i ∈ s, q i * gRun q V F slots (ω.set e i)) / ∑ i ∈ s, q i := by
      funext F
      have := hsum fun _ => 1
      simp only [mul_one] at this
      rw [gRun, gStep, hsum fun k => gRun q V F slots (ω.set e k), this]
    rw [h3]
    refine h2.mono_hit ?_
    rintro ω' ⟨k, hk, hk', hm⟩
    exact ⟨k, (hmem k).2 ⟨hk, hk'⟩, (hmem k).2 ⟨hk, hk'⟩, hm⟩

end

section
variable {V : Nat} {l : List (WithBot ℝ)} {junk : Nat → Nat}

/-- One call of `sample_tree` with a random scan order. -/
noncomputable def treeStepInf (V : Nat) (junk : Nat → Nat) (l : List (WithBot ℝ)) (f : List Edge → ℝ) (T : List Edge) : ℝ :=
  ((List.range T.length).permutations.map fun σ =>
    (sampleTreeInf Real.exp junk (completeGrid V) l T σ : ExceptT PyErr (Expect ℝ) _).run (onOk fun out => f out.1)).sum /
      (T.length.factorial : ℝ)

theorem goodL_iff (hl : l.length = tri V) {T : List Edge} (hT : IsTree V T) :
    GoodL (fun k => expOrZero Real.exp (l.getD k ⊥)) V (idsOf T) ↔ AllowedTree V l T := by
  have key : ∀ p ∈ T, (0 < expOrZero Real.exp (l.getD (findCompleteEdge p.1 p.2) ⊥) ↔ l.getD (findCompleteEdge p.1 p.2) 0 ≠ ⊥) := by
    intro p hp
    have hk : findCompleteEdge p.1 p.2 < l.length := by
      rw [hl]; exact (ltree_ids hT).ids _ (List.mem_map.2 ⟨p, hp, rfl⟩)
    rw [List.getD_eq_getElem _ _ hk, List.getD_eq_getElem _ _ hk, ← expOrZero_ne Real.exp_pos]
    exact ⟨ne_of_gt, fun h => lt_of_le_of_ne (expOrZero_nonneg Real.exp_pos _) h.symm⟩
  constructor
  · intro h
    exact ⟨hT, fun p hp => (key p hp).1 (h.pos _ (List.mem_map.2 ⟨p, hp, rfl⟩))⟩
  · intro h
    refine ⟨ltree_ids hT, fun k hk => ?_⟩
    obtain ⟨p, hp, rfl⟩ := List.mem_map.1 hk
    exact (key p hp).2 (h.allowed p hp)

theorem GoodL.of_perm {q : Nat → ℝ} {ω ω' : List Nat} (h : GoodL q V ω) (hp : ω.Perm ω') : GoodL q V ω' :=
  ⟨h.ltree.of_perm hp, fun k hk => h.pos k (hp.mem_iff.2 hk)⟩

/-- One call of `sample_tree` is an average over the allowed trees which gives weight to each of them. -/
theorem treeStepInf_avg {T : List Edge} (hcan : Canonical T) (hT : AllowedTree V l T) (hl : l.length = tri V) :
    Avg (fun T => Canonical T ∧ AllowedTree V l T) (fun T => Canonical T ∧ AllowedTree V l T) fun f => treeStepInf V junk l f T := by
  have ht := hT.tree
  have hV := ht.card
  set q : Nat → ℝ := fun k => expOrZero Real.exp (l.getD k ⊥) with hq
  have hgood : GoodL q V (idsOf T) := (goodL_iff hl ht).2 hT
  have h1 := Avg.list (List.range T.length).permutations T.length.factorial
    (by rw [List.length_permutations, List.length_range])
    (List.ne_nil_of_mem (List.mem_permutations.2 (List.Perm.refl _)))
  have h2 := Avg.bind (D2 := fun T => Canonical T ∧ AllowedTree V l T) (H2 := fun _ T => Canonical T ∧ AllowedTree V l T)
    (F := fun σ f => (sampleTreeInf Real.exp junk (completeGrid V) l T σ : ExceptT PyErr (Expect ℝ) _).run (onOk fun out => f out.1)) h1 ?_
  · refine h2.mono_hit fun T' hT' => ⟨List.range T.length, ?_, ?_, hT'⟩ <;>
      exact List.mem_permutations.2 (List.Perm.refl _)
  intro σ hσ
  have hperm := List.mem_permutations.1 hσ
  have e1 : (fun f => (sampleTreeInf Real.exp junk (completeGrid V) l T σ : ExceptT PyErr (Expect ℝ) _).run (onOk fun out => f out.1))
      = fun f : List Edge → ℝ => if T.length ≤ 1 then f T else
          gRun q V (fun ω => f (canonOf V ω)) (List.range T.length) (relabel σ (idsOf T)) := by
    funext f
    refine (sampleTreeInf_expect Real.exp_pos Real.exp_add ht junk hl ?_ hperm (onOk fun out => f out.1)).trans ?_
    · intro k hk
      exact (expOrZero_ne Real.exp_pos _).1 (ne_of_gt (hgood.pos k hk))
    · rfl
  rw [e1]
  have hlt : GoodL q V (relabel σ (idsOf T)) := by
    refine hgood.of_perm (relabel_perm ?_).symm
    have h1 : (idsOf T).length = T.length := by simp [idsOf]
    rw [h1]; exact hperm
  by_cases hE : T.length ≤ 1
  · simp only [if_pos hE]
    refine ((Avg.point T).mono_dom fun b hb => by subst hb; exact ⟨hcan, hT⟩).mono_hit fun T' hT' => ?_
    have hlen : T'.length = T.length := by have := hT'.2.tree.card; omega
    cases hT0 : T with
    | nil => rw [hT0] at hlen; exact List.length_eq_zero_iff.1 hlen
    | cons p ps =>
      have hl0 : ps = [] := by rw [hT0] at hE; simpa using hE
      subst hl0
      obtain ⟨p', rfl⟩ : ∃ p', T' = [p'] := by
        rw [hT0] at hlen; exact List.length_eq_one_iff.1 (by simpa using hlen)
      have h1 := hT'.1.small_large p' (List.mem_cons_self ..)
      have h2 := (hT'.2.tree.range p' (List.mem_cons_self ..)).2
      have h3 := hcan.small_large p (by rw [hT0]; exact List.mem_cons_self ..)
      have h4 := (ht.range p (by rw [hT0]; exact List.mem_cons_self ..)).2
      have hV2 : V = 2 := by rw [← hV, hT0]; rfl
      have : p' = p := Prod.ext (by omega) (by omega)
      rw [this]
  · simp only [if_neg hE]
    have h3 := gRun_avg (V := V) (q := q) (fun k => expOrZero_nonneg Real.exp_pos _) (List.range T.length) (fun e he => by
      have := List.mem_range.1 he; omega) _ hlt
    refine ((h3.map (canonOf V)).mono_dom ?_).mono_hit ?_
    · rintro b ⟨ω, hω, rfl⟩
      obtain ⟨h4, h5⟩ := canonOf_spec hω.ltree
      refine ⟨h4, (goodL_iff hl h5).1 (hω.of_perm ?_)⟩
      have h6 : (idsOf (canonOf V ω)).Perm (idsOf (treeOf V ω)) := (canonOf_perm V ω).map _
      rw [idsOf_treeOf hω.ltree.ids] at h6
      exact h6.symm
    · rintro T' ⟨hc', ht'⟩
      have hlen : (relabel σ (idsOf T)).length = T.length := by
        rw [relabel, List.length_map, hperm.length_eq, List.length_range]
      obtain ⟨ω', h4, h5, h6⟩ := exists_scanQ hlt ((goodL_iff hl ht'.tree).2 ht')
      rw [hlen] at h4
      exact ⟨ω', h4, h5, (canonOf_idsOf hc' ht'.tree).symm.trans h6.symm⟩

/-- The finite logits, and zero for the forbidden edges. -/
noncomputable def finiteLogits (l : List (WithBot ℝ)) : List ℝ := l.map fun x => x.unbotD 0

theorem expOrZero_prod (hl : l.length = tri V) {T : List Edge} (hC : Canonical T) (hT : IsTree V T) :
    (T.map fun p => expOrZero Real.exp (l.getD (p.1 + p.2 * (p.2 - 1) / 2) 0)).prod
      = if (∀ p ∈ T, l.getD (p.1 + p.2 * (p.2 - 1) / 2) 0 ≠ ⊥) then
          Real.exp ((T.map fun p => (finiteLogits l).getD (p.1 + p.2 * (p.2 - 1) / 2) 0).sum) else 0 := by
  split
  · rename_i h
    clear hC hT
    induction T with
    | nil => simp
    | cons p T ih =>
      rw [List.map_cons, List.prod_cons, List.map_cons, List.sum_cons, Real.exp_add, ih fun p hp => h p (List.mem_cons_of_mem _ hp)]
      congr 1
      have h1 := h p (List.mem_cons_self ..)
      have e : (finiteLogits l).getD (p.1 + p.2 * (p.2 - 1) / 2) 0 = (l.getD (p.1 + p.2 * (p.2 - 1) / 2) 0).unbotD 0 := by
        unfold finiteLogits
        rw [List.getD_eq_getElem?_getD, List.getElem?_map, List.getD_eq_getElem?_getD]
        cases l[p.1 + p.2 * (p.2 - 1) / 2]? <;> rfl
      rw [e]
      obtain ⟨x, hx⟩ := WithBot.ne_bot_iff_exists.1 h1
      rw [← hx]
      rfl
  · rename_i h
    push Not at h
    obtain ⟨p, hp, hb⟩ := h
    exact List.prod_eq_zero (List.mem_map.2 ⟨p, hp, by rw [hb]; rfl⟩)

/-- The weights of the allowed trees are invariant. -/
theorem treeStepInf_invariant (hl : l.length = V * (V - 1) / 2) (S : Finset (List Edge)) (hS : ∀ T, T ∈ S ↔ Canonical T ∧ AllowedTree V l T)
    (junk : Nat → Nat) (f : List Edge → ℝ) :
    ∑ T ∈ S, Real.exp ((T.map fun p => (finiteLogits l).getD (p.1 + p.2 * (p.2 - 1) / 2) 0).sum) * treeStepInf V junk l f T
      = ∑ T ∈ S, Real.exp ((T.map fun p => (finiteLogits l).getD (p.1 + p.2 * (p.2 - 1) / 2) 0).sum) * f T := by
  obtain ⟨A, hA⟩ := exists_spanningTrees V
  have hSA : S ⊆ A := fun T hT => (hA T).2 ⟨((hS T).1 hT).1, ((hS T).1 hT).2.tree⟩
  have hfce : ∀ {T : List Edge}, Canonical T → ∀ p ∈ T, findCompleteEdge p.1 p.2 = p.1 + p.2 * (p.2 - 1) / 2 := by
    intro T hT p hp
    have := hT.small_large p hp
    rw [findCompleteEdge, if_neg (by omega)]
  have hall : ∀ {T : List Edge}, Canonical T → IsTree V T →
      ((∀ p ∈ T, l.getD (p.1 + p.2 * (p.2 - 1) / 2) 0 ≠ ⊥) ↔ AllowedTree V l T) := by
    intro T hC hT
    refine ⟨fun h => ⟨hT, fun p hp => by rw [hfce hC p hp]; exact h p hp⟩, fun h p hp => ?_⟩
    have := h.allowed p hp
    rwa [hfce hC p hp] at this
  have h := sampleTreeInf_invariant Real.exp_pos Real.exp_add V junk
    (fun a b => l.getD (a + b * (b - 1) / 2) 0) _ (makeCompleteGraph_eq V) A hA
    (onOk fun out : List Edge × Nat => f out.1)
  have e : (completeGrid V).map (fun c => l.getD (c.2.1 + c.2.2 * (c.2.2 - 1) / 2) 0) = l := by
    refine Eq.trans ?_ (list_eq_map 0 V l hl).symm
    refine List.map_congr_left fun c hc => ?_
    obtain ⟨k, hk⟩ := List.mem_iff_getElem?.1 hc
    rw [completeGrid_getElem?] at hk
    cases hp : (pairs V)[k]? with
    | none => rw [hp] at hk; cases hk
    | some p =>
      rw [hp] at hk
      obtain ⟨h1, -, -⟩ := pairs_getElem?_some V k p hp
      cases hk
      simp only [findCompleteEdge, if_neg (show ¬ p.2 < p.1 by omega)]
  rw [e] at h
  have hdrop : ∀ G : List Edge → ℝ, (∑ T ∈ A, (T.map fun p => expOrZero Real.exp (l.getD (p.1 + p.2 * (p.2 - 1) / 2) 0)).prod * G T)
      = ∑ T ∈ S, Real.exp ((T.map fun p => (finiteLogits l).getD (p.1 + p.2 * (p.2 - 1) / 2) 0).sum) * G T := by
    classical
    intro G
    have hs := Finset.sum_subset hSA (f := fun T => (T.map fun p => expOrZero Real.exp (l.getD (p.1 + p.2 * (p.2 - 1) / 2) 0)).prod * G T) ?_
    · rw [← hs]
      refine Finset.sum_congr rfl fun T hT => ?_
      obtain ⟨hC, hT⟩ := (hS T).1 hT
      rw [expOrZero_prod hl hC hT.tree, if_pos ((hall hC hT.tree).2 hT)]
    · intro T hTA hTS
      obtain ⟨hC, hT⟩ := (hA T).1 hTA
      show _ * _ = _
      rw [expOrZero_prod hl hC hT, if_neg fun hc => hTS ((hS T).2 ⟨hC, (hall hC hT).1 hc⟩), zero_mul]
  exact ((hdrop fun T => treeStepInf V junk l f T).symm.trans h).trans (hdrop f)

/-- The chain converges to the posterior over the allowed trees. -/
theorem treeStepInf_converges (hl : l.length = V * (V - 1) / 2) (S : Finset (List Edge))
    (hS : ∀ T, T ∈ S ↔ Canonical T ∧ AllowedTree V l T) (hne : S.Nonempty) (junk : Nat → Nat) :
    ∃ ρ : ℝ, 0 ≤ ρ ∧ ρ < 1 ∧ ∀ (f : List Edge → ℝ) (lo hi : ℝ), (∀ T ∈ S, lo ≤ f T ∧ f T ≤ hi) → ∀ T ∈ S, ∀ n : Nat,
      |(treeStepInf V junk l)^[n] f T - ∑ T ∈ S, treePosterior (finiteLogits l) S T * f T| ≤ ρ ^ n * (hi - lo) := by
  classical
  let Ω : Type := {T : List Edge // Canonical T ∧ AllowedTree V l T}
  letI : Fintype Ω := Fintype.subtype S hS
  set P : (Ω → ℝ) → Ω → ℝ := fun f ω =>
    treeStepInf V junk l (fun T => if h : Canonical T ∧ AllowedTree V l T then f ⟨T, h⟩ else 0) ω.1 with hP
  have hsum : ∀ F : List Edge → ℝ, (∑ ω : Ω, F ω.1) = ∑ T ∈ S, F T := fun F => (Finset.sum_subtype S hS F).symm
  obtain ⟨T0, hT0⟩ := hne
  haveI hne : Nonempty Ω := ⟨⟨T0, (hS T0).1 hT0⟩⟩
  have hZ : 0 < ∑ T ∈ S, Real.exp ((T.map fun p => (finiteLogits l).getD (p.1 + p.2 * (p.2 - 1) / 2) 0).sum) := by
    rw [← hsum]
    exact Finset.sum_pos (fun _ _ => Real.exp_pos _) Finset.univ_nonempty
  obtain ⟨ρ, h0, h1, h2⟩ := doeblin P (fun ω => ((treeStepInf_avg ω.2.1 ω.2.2 hl).subtype).mono_hit fun ω _ => ω.2)
    (fun ω => treePosterior (finiteLogits l) S ω.1) (fun ω => div_nonneg (Real.exp_pos _).le hZ.le)
    (by rw [hsum]; unfold treePosterior; rw [← Finset.sum_div, div_self hZ.ne']) (by
      intro f
      have h' := treeStepInf_invariant hl S hS junk fun T => if h : Canonical T ∧ AllowedTree V l T then f ⟨T, h⟩ else 0
      rw [← hsum, ← hsum] at h'
      unfold treePosterior
      simp only [div_mul_eq_mul_div]
      rw [← Finset.sum_div, ← Finset.sum_div]
      refine congrArg (· / _) (h'.trans ?_)
      refine Finset.sum_congr rfl fun ω _ => congrArg (Real.exp _ * ·) ?_
      exact dif_pos ω.2)
  refine ⟨ρ, h0, h1, fun f lo hi hb T hT n => ?_⟩
  have hit : ∀ (n : Nat) (ω : Ω), (treeStepInf V junk l)^[n] f ω.1 = P^[n] (fun ω => f ω.1) ω := by
    intro n
    induction n with
    | zero => intro ω; rfl
    | succ n ih =>
      intro ω
      rw [Function.iterate_succ_apply', Function.iterate_succ_apply']
      refine (treeStepInf_avg ω.2.1 ω.2.2 hl).congr _ _ fun T h => ?_
      rw [dif_pos h]
      exact ih ⟨T, h⟩
  have h3 := h2 (fun ω => f ω.1) lo hi (fun ω => hb ω.1 ((hS _).2 ω.2)) n ⟨T, (hS T).1 hT⟩
  rw [← hit, hsum fun T => treePosterior (finiteLogits l) S T * f T] at h3
  exact h3

/-! ### Chains -/

/-- Several steps, each from the result of the step before. -/
noncomputable def chainOf (P : (List Edge → ℝ) → List Edge → ℝ) : Nat → List Edge → (List (List Edge) → ℝ) → ℝ
  | 0, _, F => F []
  | n + 1, T, F => P (fun T' => chainOf P n T' fun ts => F (T' :: ts)) T

variable {P : (List Edge → ℝ) → List Edge → ℝ} {D : List Edge → Prop}

theorem chainOf_avg (hP : ∀ T, D T → Avg D D fun f => P f T) : ∀ (n : Nat) {T : List Edge}, D T →
    Avg (fun ts : List (List Edge) => ts.length = n ∧ ∀ T ∈ ts, D T) (fun _ => False) (chainOf P n T) := by
  intro n
  induction n with
  | zero =>
    intro T _
    refine ((Avg.point ([] : List (List Edge))).mono_dom ?_).mono_hit fun _ h => h.elim
    rintro _ rfl
    exact ⟨rfl, by simp⟩
  | succ n ih =>
    intro T h1
    have hA := Avg.bind (D2 := fun ts : List (List Edge) => ts.length = n + 1 ∧ ∀ T ∈ ts, D T)
      (H2 := fun _ _ => False) (F := fun T' F => chainOf P n T' fun ts => F (T' :: ts))
      (hP T h1) fun T' h =>
        (((ih h).map fun ts => T' :: ts).mono_dom (by
          rintro _ ⟨ts, ⟨h3, h4⟩, rfl⟩
          refine ⟨by rw [List.length_cons, h3], fun T hT => ?_⟩
          rcases List.mem_cons.1 hT with rfl | hT
          · exact h
          · exact h4 T hT)).mono_hit fun _ h => h.elim
    exact hA.mono_hit fun _ h => h.elim

/-- The `i`-th tree of the chain. -/
theorem chainOf_get (hP : ∀ T, D T → Avg D D fun f => P f T) (f : List Edge → ℝ) : ∀ (n i : Nat), i < n → ∀ {T : List Edge}, D T →
    chainOf P n T (fun ts => f (ts.getD i [])) = P^[i + 1] f T := by
  intro n
  induction n with
  | zero => intro i hi; omega
  | succ n ih =>
    intro i hi T h1
    rw [Function.iterate_succ_apply']
    refine (hP T h1).congr _ _ fun T' h => ?_
    cases i with
    | zero => exact (chainOf_avg hP n h).const (f T')
    | succ i => exact ih i (by omega) h

/-- The sum over the trees of the chain. -/
theorem chainOf_sum (hP : ∀ T, D T → Avg D D fun f => P f T) (f : List Edge → ℝ) : ∀ (n : Nat) {T : List Edge}, D T →
    chainOf P n T (fun ts => (ts.map f).sum) = ∑ i ∈ Finset.range n, P^[i + 1] f T := by
  intro n
  induction n with
  | zero => intro T _; simp [chainOf]
  | succ n ih =>
    intro T h1
    rw [Finset.sum_range_succ']
    simp only [Function.iterate_succ_apply']
    have hA := hP T h1
    refine Eq.trans (hA.congr _ (fun T' => ∑ i ∈ Finset.range n, P^[i + 1] f T' + f T') fun T' h => ?_) ?_
    · have hB := chainOf_avg hP n h
      simp only [List.map_cons, List.sum_cons]
      rw [hB.add (fun _ => f T'), hB.const, ih h, add_comm]
    · rw [hA.add, hA.sum]
      simp only [Function.iterate_succ_apply', Function.iterate_zero, id]

end

/-! ### One server -/

section
variable {V : Nat} {srv : TreeServerInf ℝ}

/-- The trees of `sample_tree` are the chain from the estimated tree. -/
theorem serverInf_sampleTrees_chain (srv : TreeServerInf ℝ) (junk : Nat → Nat) (n : Nat) (F : List (List Edge) → ℝ) :
    (srv.sampleTrees (n := Expect ℝ) (fun x => x) Real.exp junk n : ExceptT PyErr (Expect ℝ) _).run (onOk F)
      = chainOf (treeStepInf srv.numVertices junk srv.edgeLogits) n srv.estimatedTree F := by
  unfold TreeServerInf.sampleTrees
  rw [makeCompleteGraph_eq, liftPy_okR, run_onOk_bind]
  have key : ∀ (l : List Nat) (T : List Edge) (acc : List (List Edge)),
      (l.foldlM (fun (s : List Edge × List (List Edge)) _ => do
        let perm ← ExceptT.lift (Shuffle.permutation s.1.length)
        let out ← ExceptT.mk (sampleTreeInf Real.exp junk (completeGrid srv.numVertices) srv.edgeLogits s.1 perm : ExceptT PyErr (Expect ℝ) _).run
        Pure.pure (out.1, s.2 ++ [out.1])) (T, acc) : ExceptT PyErr (Expect ℝ) _).run
          (onOk fun r => (Pure.pure r.2 : ExceptT PyErr (Expect ℝ) _).run (onOk F))
        = chainOf (treeStepInf srv.numVertices junk srv.edgeLogits) l.length T fun ts => F (acc ++ ts) := by
    intro l
    induction l with
    | nil => intro T acc; simp only [List.length_nil, chainOf, List.append_nil]; rfl
    | cons i l ih =>
      intro T acc
      rw [List.foldlM_cons, run_onOk_bind, run_onOk_bind, List.length_cons, chainOf, treeStepInf]
      change ((List.range T.length).permutations.map fun σ => ExceptT.run (do
          let out ← sampleTreeInf Real.exp junk (completeGrid srv.numVertices) srv.edgeLogits T σ
          Pure.pure (out.1, acc ++ [out.1]) : ExceptT PyErr (Expect ℝ) _) (onOk _)).sum / _ = _
      refine congrArg (fun f => ((List.range T.length).permutations.map f).sum / _) (funext fun σ => ?_)
      rw [run_onOk_bind]
      refine congrArg (fun f => (sampleTreeInf Real.exp junk (completeGrid srv.numVertices) srv.edgeLogits T σ : ExceptT PyErr (Expect ℝ) _).run (onOk f))
        (funext fun out => ?_)
      refine (ih out.1 (acc ++ [out.1])).trans ?_
      simp only [List.append_assoc, List.singleton_append]
  rw [key, List.length_range]
  rfl

/-- **C97** (each tree). Let some edges of a model be forbidden. Its server samples trees that converge to the posterior over the spanning trees without
forbidden edges, whose probabilities are proportional to the exponential of the sum of the edge logits: there is a rate `ρ < 1`, depending only on the
model, such that however many trees are requested, the expected value of any function `f` of the `i`-th tree with values in `[lo, hi]` is within
`ρ ^ (i + 1) (hi - lo)` of its posterior mean. The call does not raise: an exception would count zero, and constant functions have `hi - lo = 0`. -/
theorem serverInf_sampleTrees_converges {mst : List (List ℝ) → List Edge} (hmst : MstContract mst) (hforest : MstForest mst) (hV : 1 ≤ V)
    (l : List (WithBot ℝ)) (hl : l.length = V * (V - 1) / 2) (hs : TreeServerInf.init mst V l = .ok srv) (junk : Nat → Nat) (S : Finset (List Edge))
    (hS : ∀ T, T ∈ S ↔ Canonical T ∧ AllowedTree V l T) :
    ∃ ρ : ℝ, 0 ≤ ρ ∧ ρ < 1 ∧ ∀ (f : List Edge → ℝ) (lo hi : ℝ), (∀ T ∈ S, lo ≤ f T ∧ f T ≤ hi) → ∀ n i : Nat, i < n →
      |(srv.sampleTrees (n := Expect ℝ) (fun x => x) Real.exp junk n : ExceptT PyErr (Expect ℝ) _).run (onOk fun ts => f (ts.getD i []))
        - ∑ T ∈ S, treePosterior (finiteLogits l) S T * f T| ≤ ρ ^ (i + 1) * (hi - lo) := by
  obtain ⟨s1, s2⟩ := serverInf_init hmst hforest hV l hl
  have hex : ∃ T0, AllowedTree V l T0 := by
    by_contra hc
    rw [s2 hc] at hs
    cases hs
  obtain ⟨srv', e, rfl, e2, hC, hT, -⟩ := s1 hex
  obtain rfl : srv' = srv := Except.ok.inj (e.symm.trans hs)
  subst e2
  have hmem : srv'.estimatedTree ∈ S := (hS _).2 ⟨hC, hT⟩
  obtain ⟨ρ, h0, h1, h2⟩ := treeStepInf_converges hl S hS ⟨_, hmem⟩ junk
  refine ⟨ρ, h0, h1, fun f lo hi hb n i hi => ?_⟩
  rw [serverInf_sampleTrees_chain, chainOf_get (D := fun T => Canonical T ∧ AllowedTree srv'.numVertices srv'.edgeLogits T)
    (fun T h => treeStepInf_avg h.1 h.2 hl) f n i hi ⟨hC, hT⟩]
  exact h2 f lo _ hb _ hmem _

/-- The sum over the trees of a server. -/
theorem serverInf_sampleTrees_sum (srv : TreeServerInf ℝ) (hl : srv.edgeLogits.length = srv.numVertices * (srv.numVertices - 1) / 2)
    (hC : Canonical srv.estimatedTree) (hT : AllowedTree srv.numVertices srv.edgeLogits srv.estimatedTree) (junk : Nat → Nat) (S : Finset (List Edge))
    (hS : ∀ T, T ∈ S ↔ Canonical T ∧ AllowedTree srv.numVertices srv.edgeLogits T) :
    ∃ C : ℝ, 0 ≤ C ∧ ∀ (f : List Edge → ℝ) (lo hi : ℝ), (∀ T ∈ S, lo ≤ f T ∧ f T ≤ hi) → ∀ n : Nat,
      |(srv.sampleTrees (n := Expect ℝ) (fun x => x) Real.exp junk n : ExceptT PyErr (Expect ℝ) _).run (onOk fun ts => (ts.map f).sum)
        - n * ∑ T ∈ S, treePosterior (finiteLogits srv.edgeLogits) S T * f T| ≤ C * (hi - lo) := by
  have hmem : srv.estimatedTree ∈ S := (hS _).2 ⟨hC, hT⟩
  obtain ⟨ρ, h0, h1, h2⟩ := treeStepInf_converges hl S hS ⟨_, hmem⟩ junk
  refine ⟨(1 - ρ)⁻¹, inv_nonneg.2 (by linarith), fun f lo hi hb n => ?_⟩
  have hlohi : lo ≤ hi := (hb _ hmem).1.trans (hb _ hmem).2
  rw [serverInf_sampleTrees_chain, chainOf_sum (D := fun T => Canonical T ∧ AllowedTree srv.numVertices srv.edgeLogits T)
    (fun T h => treeStepInf_avg h.1 h.2 hl) f n ⟨hC, hT⟩]
  set π := ∑ T ∈ S, treePosterior (finiteLogits srv.edgeLogits) S T * f T
  have e1 : (∑ i ∈ Finset.range n, (treeStepInf srv.numVertices junk srv.edgeLogits)^[i + 1] f srv.estimatedTree) - n * π
      = ∑ i ∈ Finset.range n, ((treeStepInf srv.numVertices junk srv.edgeLogits)^[i + 1] f srv.estimatedTree - π) := by
    rw [Finset.sum_sub_distrib]; simp
  rw [e1]
  refine (Finset.abs_sum_le_sum_abs _ _).trans ?_
  refine (Finset.sum_le_sum fun i _ => h2 f lo hi hb _ hmem (i + 1)).trans ?_
  rw [← Finset.sum_mul]
  refine mul_le_mul_of_nonneg_right ?_ (by linarith)
  calc ∑ i ∈ Finset.range n, ρ ^ (i + 1) ≤ ∑ i ∈ Finset.range n, ρ ^ i :=
        Finset.sum_le_sum fun i _ => pow_le_pow_of_le_one h0 h1.le (Nat.le_succ i)
    _ ≤ ∑' i, ρ ^ i := (summable_geometric_of_lt_one h0 h1).sum_le_tsum _ fun i _ => pow_nonneg h0 i
    _ = (1 - ρ)⁻¹ := tsum_geometric_of_lt_one h0 h1

end

/-! ### Ensembles -/

section
variable {V : Nat} {models : List (List (WithBot ℝ))}

/-- **C97** (ensembles). The trees of an ensemble estimate the uniform mixture of the posteriors of its members, each over the trees without edges that this
member forbids: the expected sum of any function of the sampled trees is the number of trees times the mean under the mixture, up to a constant that does not
depend on the number of trees. -/
theorem ensembleInf_sampleTrees_mixture {mst : List (List ℝ) → List Edge} (hmst : MstContract mst) (hforest : MstForest mst) (hV : 1 ≤ V)
    (hne : models ≠ []) (hl : ∀ l ∈ models, l.length = V * (V - 1) / 2)
    {ens : TreeEnsembleInf ℝ} (hi : TreeEnsembleInf.init mst V models = .ok ens) (junk : Nat → Nat)
    (S : List (WithBot ℝ) → Finset (List Edge)) (hS : ∀ l ∈ models, ∀ T, T ∈ S l ↔ Canonical T ∧ AllowedTree V l T) :
    ∃ C : ℝ, ∀ (f : List Edge → ℝ) (lo hi : ℝ), (∀ l ∈ models, ∀ T ∈ S l, lo ≤ f T ∧ f T ≤ hi) → ∀ n : Nat,
      |(ens.sampleTrees (n := Expect ℝ) (fun x => x) Real.exp junk n : ExceptT PyErr (Expect ℝ) _).run (onOk fun ts => (ts.map f).sum)
        - n * ((models.map fun l => ∑ T ∈ S l, treePosterior (finiteLogits l) (S l) T * f T).sum / models.length)| ≤ C * (hi - lo) := by
  obtain ⟨i1, i2⟩ := ensembleInf_init hmst hforest hV models hne hl
  have hex : ∃ T0, ∀ l ∈ models, AllowedTree V l T0 := by
    by_contra hc
    rw [i2 hc] at hi
    cases hi
  obtain ⟨ens', e, hs, -⟩ := i1 hex
  obtain rfl : ens' = ens := Except.ok.inj (e.symm.trans hi)
  have hsize : 0 < ens'.servers.length := by rw [← hs.length_eq]; exact List.length_pos_of_ne_nil hne
  -- every member
  have hmem : ∀ srv ∈ ens'.servers, ∃ l ∈ models, srv.numVertices = V ∧ srv.edgeLogits = l ∧ Canonical srv.estimatedTree ∧
      AllowedTree V l srv.estimatedTree := fun srv h => forall₂_mem_right hs h
  have hone : ∀ srv ∈ ens'.servers, ∃ C : ℝ, ∀ (f : List Edge → ℝ) (lo hi : ℝ), (∀ T ∈ S srv.edgeLogits, lo ≤ f T ∧ f T ≤ hi) → ∀ n : Nat,
      |(srv.sampleTrees (n := Expect ℝ) (fun x => x) Real.exp junk n : ExceptT PyErr (Expect ℝ) _).run (onOk fun ts => (ts.map f).sum)
        - n * ∑ T ∈ S srv.edgeLogits, treePosterior (finiteLogits srv.edgeLogits) (S srv.edgeLogits) T * f T| ≤ C * (hi - lo) := by
    intro srv h
    obtain ⟨l, hm, rfl, rfl, h3, h4⟩ := hmem srv h
    obtain ⟨C, -, hC⟩ := serverInf_sampleTrees_sum srv (hl _ hm) h3 h4 junk (S srv.edgeLogits) (hS _ hm)
    exact ⟨C, hC⟩
  choose! C hC using hone
  refine ⟨(ens'.servers.map C).sum, fun f lo hi hb n => ?_⟩
  set σ : TreeServerInf ℝ → Nat → ℝ := fun srv k =>
    (srv.sampleTrees (n := Expect ℝ) (fun x => x) Real.exp junk k : ExceptT PyErr (Expect ℝ) _).run (onOk fun ts => (ts.map f).sum) with hσ
  set π : TreeServerInf ℝ → ℝ := fun srv => ∑ T ∈ S srv.edgeLogits, treePosterior (finiteLogits srv.edgeLogits) (S srv.edgeLogits) T * f T with hπ
  have havg : ∀ srv ∈ ens'.servers, ∀ k, Avg (fun ts : List (List Edge) => ts.length = k) (fun _ => False)
      fun F => (srv.sampleTrees (n := Expect ℝ) (fun x => x) Real.exp junk k : ExceptT PyErr (Expect ℝ) _).run (onOk F) := by
    intro srv h k
    obtain ⟨l, hm, rfl, rfl, h3, h4⟩ := hmem srv h
    refine Eq.mp (congrArg _ (funext fun F => (serverInf_sampleTrees_chain srv junk k F).symm)) ?_
    exact (chainOf_avg (D := fun T => Canonical T ∧ AllowedTree srv.numVertices srv.edgeLogits T)
      (fun T h => treeStepInf_avg h.1 h.2 (hl _ hm)) k ⟨h3, h4⟩).mono_dom fun ts h => h.1
  -- the members one after the other
  have hfold : ∀ (l : List (TreeServerInf ℝ × Nat)), (∀ p ∈ l, p.1 ∈ ens'.servers) → ∀ acc : List (List Edge),
      acc.length + (l.map Prod.snd).sum = n →
      (l.foldlM (fun samples p => do
        let more ← p.1.sampleTrees (n := Expect ℝ) (fun x => x) Real.exp junk p.2
        Pure.pure (samples ++ more)) acc : ExceptT PyErr (Expect ℝ) _).run (onOk fun samples => (do
          let samples ← ExceptT.lift (shuffled samples)
          liftPy (pyAssert (samples.length == n))
          Pure.pure samples : ExceptT PyErr (Expect ℝ) _).run (onOk fun ts => (ts.map f).sum))
        = (acc.map f).sum + (l.map fun p => σ p.1 p.2).sum := by
    intro l
    induction l with
    | nil =>
      intro _ acc hacc
      rw [List.map_nil, List.sum_nil, add_zero]
      exact shuffled_sum f n acc (by simpa using hacc)
    | cons p l ih =>
      intro hp acc hacc
      rw [List.foldlM_cons, run_onOk_bind, run_onOk_bind]
      have hA := havg p.1 (hp p (by simp)) p.2
      refine Eq.trans (hA.congr _ (fun more => ((acc.map f).sum + (l.map fun p => σ p.1 p.2).sum) + (more.map f).sum) fun more hm => ?_) ?_
      · refine Eq.trans (ih (fun q hq => hp q (List.mem_cons_of_mem _ hq)) (acc ++ more) ?_) ?_
        · rw [List.map_cons, List.sum_cons] at hacc
          rw [List.length_append, hm]; omega
        · rw [List.map_append, List.sum_append]; ring
      · rw [hA.add (fun _ => (acc.map f).sum + (l.map fun p => σ p.1 p.2).sum), hA.const, List.map_cons, List.sum_cons]
        ring
  -- the split
  have hrun : (ens'.sampleTrees (n := Expect ℝ) (fun x => x) Real.exp junk n : ExceptT PyErr (Expect ℝ) _).run (onOk fun ts => (ts.map f).sum)
      = ((List.range n).mapM (fun _ => Choose.choose (fun _ : Fin ens'.servers.length => (1 : ℝ))) : Expect ℝ _)
          fun ds => ∑ i : Fin ens'.servers.length, σ ens'.servers[i] (ds.count i) := by
    unfold TreeEnsembleInf.sampleTrees
    rw [run_onOk_bind]
    change ((List.range n).mapM (fun _ => Choose.choose (fun _ : Fin ens'.servers.length => (1 : ℝ))) : Expect ℝ _)
      (fun ds => _) = _
    rw [uniform_range, uniform_range]
    refine congrArg (· / _) (Finset.sum_congr rfl fun d _ => ?_)
    refine (run_onOk_bind _ _ _).trans ?_
    have hz := zip_counts ens'.servers fun i => (List.ofFn d).count i
    rw [hz, hfold _ ?_ [] ?_]
    · rw [List.map_nil, List.sum_nil, zero_add, List.map_map, Fin.sum_univ_def]
      rfl
    · intro p hp
      obtain ⟨i, -, rfl⟩ := List.mem_map.1 hp
      exact List.getElem_mem _
    · rw [List.map_map]
      have := count_total (List.ofFn d)
      rw [List.length_ofFn] at this
      simpa [Function.comp_def] using this
  have hmean : (models.map fun l => ∑ T ∈ S l, treePosterior (finiteLogits l) (S l) T * f T).sum / models.length
      = (∑ i : Fin ens'.servers.length, π ens'.servers[i]) / ens'.servers.length := by
    have h1 : models.map (fun l => ∑ T ∈ S l, treePosterior (finiteLogits l) (S l) T * f T) = ens'.servers.map π :=
      map_eq_of_forall₂ hs fun m srv h => by rw [hπ]; simp only [h.2.1]
    rw [h1, hs.length_eq, Fin.sum_univ_def]
    congr 2
    apply List.ext_getElem
    · simp
    · intro i _ _; simp
  rw [hrun, hmean]
  have hz : ((List.range n).mapM (fun _ => Choose.choose (fun _ : Fin ens'.servers.length => (1 : ℝ))) : Expect ℝ _)
      (fun ds => ∑ i : Fin ens'.servers.length, (ds.count i : ℝ) * π ens'.servers[i])
      = n * ((∑ i : Fin ens'.servers.length, π ens'.servers[i]) / ens'.servers.length) := by
    simp only [sum_counts]
    have := uniform_sum hsize (fun i => π ens'.servers[i]) (List.range n)
    rwa [List.length_range] at this
  rw [← hz, uniform_range, uniform_range, ← sub_div, ← Finset.sum_sub_distrib, abs_div, abs_of_nonneg (by positivity :
    (0 : ℝ) ≤ (ens'.servers.length : ℝ) ^ n), div_le_iff₀ (by positivity)]
  refine (Finset.abs_sum_le_sum_abs _ _).trans ?_
  have hbound : ∀ d : Fin n → Fin ens'.servers.length,
      |∑ i : Fin ens'.servers.length, σ ens'.servers[i] ((List.ofFn d).count i)
        - ∑ i : Fin ens'.servers.length, ((List.ofFn d).count i : ℝ) * π ens'.servers[i]| ≤ (ens'.servers.map C).sum * (hi - lo) := by
    intro d
    rw [← Finset.sum_sub_distrib]
    refine (Finset.abs_sum_le_sum_abs _ _).trans ?_
    refine (Finset.sum_le_sum fun (i : Fin ens'.servers.length) _ => hC ens'.servers[i] (List.getElem_mem _) f lo hi (by
      obtain ⟨l, hm, -, h2, -⟩ := hmem _ (List.getElem_mem i.isLt)
      show ∀ T ∈ S (ens'.servers[i.val]).edgeLogits, _
      rw [h2]
      exact hb l hm) _).trans ?_
    rw [← Finset.sum_mul, Fin.sum_univ_def]
    refine le_of_eq (congrArg (· * (hi - lo)) (congrArg List.sum ?_))
    apply List.ext_getElem
    · simp
    · intro i _ _; simp
  refine (Finset.sum_le_sum fun d _ => hbound d).trans (le_of_eq ?_)
  rw [Finset.sum_const, Finset.card_univ, Fintype.card_fun, Fintype.card_fin, Fintype.card_fin, nsmul_eq_mul]
  push_cast
  ring

/-- The trees without forbidden edges are finitely many. -/
theorem exists_allowedTrees (V : Nat) (l : List (WithBot ℝ)) : ∃ S : Finset (List Edge), ∀ T, T ∈ S ↔ Canonical T ∧ AllowedTree V l T := by
  classical
  obtain ⟨A, hA⟩ := exists_spanningTrees V
  refine ⟨A.filter fun T => AllowedTree V l T, fun T => ?_⟩
  rw [Finset.mem_filter, hA]
  exact ⟨fun h => ⟨h.1.1, h.2⟩, fun h => ⟨⟨h.1, h.2.tree⟩, h.2⟩⟩

/-- Four features of which 0 and 1 may not be joined. Two of the trees that are left: -/
theorem star3_allowed : Canonical [(0, 3), (1, 3), (2, 3)] ∧ AllowedTree 4 ([⊥, 0, 0, 0, 1, 2] : List (WithBot ℝ)) [(0, 3), (1, 3), (2, 3)] := by
  refine ⟨⟨by decide, by decide⟩, ?_, ?_⟩
  · refine ⟨by decide, by decide, ?_⟩
    have h : ∀ v < 4, Reach [(0, 3), (1, 3), (2, 3)] v 3 := by
      intro v hv
      have : v = 0 ∨ v = 1 ∨ v = 2 ∨ v = 3 := by omega
      rcases this with rfl | rfl | rfl | rfl
      · exact .single (.inl (by decide))
      · exact .single (.inl (by decide))
      · exact .single (.inl (by decide))
      · exact .refl
    exact fun u hu v hv => (h u hu).trans (Reach.symm' (h v hv))
  · intro p hp
    simp only [List.mem_cons, List.not_mem_nil, or_false] at hp
    rcases hp with rfl | rfl | rfl <;> simp [findCompleteEdge]

theorem star4_allowed : Canonical [(0, 2), (1, 2), (2, 3)] ∧ AllowedTree 4 ([⊥, 0, 0, 0, 1, 2] : List (WithBot ℝ)) [(0, 2), (1, 2), (2, 3)] := by
  refine ⟨⟨by decide, by decide⟩, ?_, ?_⟩
  · refine ⟨by decide, by decide, ?_⟩
    have h : ∀ v < 4, Reach [(0, 2), (1, 2), (2, 3)] v 2 := by
      intro v hv
      have : v = 0 ∨ v = 1 ∨ v = 2 ∨ v = 3 := by omega
      rcases this with rfl | rfl | rfl | rfl
      · exact .single (.inl (by decide))
      · exact .single (.inl (by decide))
      · exact .refl
      · exact .single (.inr (by decide))
    exact fun u hu v hv => (h u hu).trans (Reach.symm' (h v hv))
  · intro p hp
    simp only [List.mem_cons, List.not_mem_nil, or_false] at hp
    rcases hp with rfl | rfl | rfl <;> simp [findCompleteEdge]

example : ∃ (mst : List (List ℝ) → List Edge) (srv : TreeServerInf ℝ) (S : Finset (List Edge)) (ρ : ℝ), TreeServerInf.init mst 4 [⊥, 0, 0, 0, 1, 2] = .ok srv ∧
    [(0, 3), (1, 3), (2, 3)] ∈ S ∧ [(0, 2), (1, 2), (2, 3)] ∈ S ∧ ρ < 1 ∧ ∀ (f : List Edge → ℝ), (∀ T ∈ S, 0 ≤ f T ∧ f T ≤ 1) →
      |(srv.sampleTrees (n := Expect ℝ) (fun x => x) Real.exp id 9 : ExceptT PyErr (Expect ℝ) _).run (onOk fun ts => f (ts.getD 7 []))
        - ∑ T ∈ S, treePosterior (finiteLogits [⊥, 0, 0, 0, 1, 2]) S T * f T| ≤ ρ ^ 8 * (1 - 0) := by
  obtain ⟨mst, m1, m2⟩ := exists_mstForest (K := ℝ)
  obtain ⟨S, hS⟩ := exists_allowedTrees 4 [⊥, 0, 0, 0, 1, 2]
  obtain ⟨srv, h, -⟩ := (serverInf_init m1 m2 (V := 4) (by omega) [⊥, 0, 0, 0, 1, 2] rfl).1 ⟨_, star3_allowed.2⟩
  obtain ⟨ρ, -, h1, h2⟩ := serverInf_sampleTrees_converges m1 m2 (by omega) [⊥, 0, 0, 0, 1, 2] rfl h id S hS
  exact ⟨mst, srv, S, ρ, h, (hS _).2 star3_allowed, (hS _).2 star4_allowed, h1, fun f hf => h2 f 0 1 hf 9 7 (by omega)⟩

/-- Two models with different forbidden edges. -/
example : ∃ (mst : List (List ℝ) → List Edge) (ens : TreeEnsembleInf ℝ), TreeEnsembleInf.init mst 4 [[⊥, 0, 0, 0, 1, 2], [0, 0, 0, 0, 0, 0]] = .ok ens ∧
    ∃ S : List (WithBot ℝ) → Finset (List Edge), ∀ l ∈ ([[⊥, 0, 0, 0, 1, 2], [0, 0, 0, 0, 0, 0]] : List (List (WithBot ℝ))),
      ∀ T, T ∈ S l ↔ Canonical T ∧ AllowedTree 4 l T := by
  obtain ⟨mst, m1, m2⟩ := exists_mstForest (K := ℝ)
  choose S hS using exists_allowedTrees 4
  obtain ⟨ens, h, -⟩ := (ensembleInf_init m1 m2 (V := 4) (by omega) [[⊥, 0, 0, 0, 1, 2], [0, 0, 0, 0, 0, 0]] (by simp) (by simp)).1
    ⟨_, fun l hl => by
      simp only [List.mem_cons, List.not_mem_nil, or_false] at hl
      rcases hl with rfl | rfl
      · exact star3_allowed.2
      · refine ⟨star3_allowed.2.tree, fun p hp => ?_⟩
        simp only [List.mem_cons, List.not_mem_nil, or_false] at hp
        rcases hp with rfl | rfl | rfl <;> simp [findCompleteEdge]⟩
  exact ⟨mst, ens, h, S, fun l _ => hS l⟩

end

end TreeCat
