import Mathlib.Analysis.SpecialFunctions.Exp
import Mathlib.Data.List.Sublists
import Mathlib.Tactic.NormNum
import Verif.Lemmas.Gibbs

/-!
# C07: `sample_tree` is a Gibbs sampler for the tree posterior
-/

set_option linter.unusedSectionVars false

namespace TreeCat

open Spec
open scoped BigOperators

/-- There are finitely many canonical spanning trees. -/
theorem exists_spanningTrees (V : Nat) :
    ∃ S : Finset (List Edge), ∀ T, T ∈ S ↔ Canonical T ∧ IsTree V T := by
  classical
  refine ⟨((pairs V).insertionSort edgeLe).sublists.toFinset.filter fun T => Canonical T ∧ IsTree V T, ?_⟩
  intro T
  rw [Finset.mem_filter, List.mem_toFinset, List.mem_sublists, and_iff_right_iff_imp]
  rintro ⟨h1, h2⟩
  refine List.sublist_of_subperm_of_pairwise (r := edgeLe) ?_ ?_ (List.pairwise_insertionSort edgeLe _)
  · refine (edge_nodup h2).subperm fun p hp => ?_
    rw [List.mem_insertionSort, mem_pairs]
    exact ⟨h1.small_large p hp, (h2.range p hp).2⟩
  · exact h1.sorted.imp fun hab => by unfold edgeLe; omega

/-- The edge numbers of a list of edges. -/
def idsOf (T : List Edge) : List Nat := T.map fun p => findCompleteEdge p.1 p.2

theorem idsOf_treeOf {V : Nat} {ω : List Nat} (h : ∀ k ∈ ω, k < tri V) : idsOf (treeOf V ω) = ω := by
  unfold idsOf treeOf
  rw [List.map_map]
  conv_rhs => rw [← List.map_id ω]
  exact List.map_congr_left fun k hk => (pairAt_lt (h k hk)).2.2

theorem treeOf_idsOf {V : Nat} {T : List Edge} (h : Canonical T) (ht : IsTree V T) :
    treeOf V (idsOf T) = T := by
  have := (treeOf_ids ht).1
  unfold idsOf
  rw [this]
  conv_rhs => rw [← List.map_id T]
  exact List.map_congr_left fun p hp => sortPair_of_le (Nat.le_of_lt (h.small_large p hp))

theorem LTree.of_perm {V : Nat} {ω ω' : List Nat} (h : LTree V ω) (hp : ω.Perm ω') : LTree V ω' :=
  ⟨fun k hk => h.ids k (hp.mem_iff.2 hk), IsTree.of_perm h.tree (hp.map _)⟩

theorem LTree.nodup {V : Nat} {ω : List Nat} (h : LTree V ω) : ω.Nodup := (edge_nodup h.tree).of_map _

theorem canonOf_eq_of_perm {V : Nat} {ω ω' : List Nat} (hp : ω.Perm ω') : canonOf V ω = canonOf V ω' := by
  apply List.Perm.eq_of_pairwise' (r := edgeLe) (List.pairwise_insertionSort edgeLe _)
    (List.pairwise_insertionSort edgeLe _)
  exact (canonOf_perm V ω).trans ((hp.map _).trans (canonOf_perm V ω').symm)

theorem canonOf_idsOf {V : Nat} {T : List Edge} (h : Canonical T) (ht : IsTree V T) :
    canonOf V (idsOf T) = T := by
  have h1 := canonOf_spec (ltree_ids ht)
  refine Canonical.eq_of_perm h1.1 h ?_
  have h2 := canonOf_perm V (idsOf T)
  rwa [treeOf_idsOf h ht] at h2

theorem expect_lift_bind {K α β : Type} (x : Expect K α) (g : α → ExceptT PyErr (Expect K) β)
    (f : Except PyErr β → K) :
    (ExceptT.lift x >>= g).run f = x fun a => (g a).run f := rfl

section
variable {K : Type} [Field K] [LinearOrder K] [IsStrictOrderedRing K]
variable {expf : K → K} (hpos : ∀ x, 0 < expf x) (hadd : ∀ x y, expf (x + y) = expf x * expf y)
include hpos hadd

theorem sampleTree_expect {V : Nat} {T : List Edge} (ht : IsTree V T) (junk : Nat → Nat)
    {logits : List K} (hl : logits.length = tri V) {σ : List Nat} (hσ : σ.Perm (List.range T.length))
    (f : Except PyErr (List Edge) → K) :
    (sampleTree expf junk (completeGrid V) logits T σ : ExceptT PyErr (Expect K) _).run f
      = if T.length ≤ 1 then f (.ok T) else
          absRun (Expect K) expf logits V (relabel σ (idsOf T)) (List.range T.length)
            fun ω => f (.ok (canonOf V ω)) := by
  split
  · rename_i hE
    unfold sampleTree
    rw [if_pos hE]
    rfl
  · rename_i hE
    have hV := ht.card
    have hmem : ∀ e ∈ σ, e < T.length := fun e he => List.mem_range.1 (hσ.mem_iff.1 he)
    have hmem' : ∀ e ∈ σ, e + 1 < V := fun e he => by have := hmem e he; omega
    obtain ⟨fin, h1, h2⟩ := sampleTree_eq (m := Expect K) (probsOf_sum_pos hpos) ht (by omega) junk hl hmem
    rw [h1, expect_lift_bind]
    have hlt : LTree V (idsOf T) := ltree_ids ht
    have h3 := absRun_congr hpos hadd logits σ hmem' (idsOf T) hlt (fun ω => (fin ω).run f)
      (fun ω => f (.ok (canonOf V ω))) (fun ω hω => by rw [h2 ω hω]; rfl)
    refine h3.trans ?_
    have h4 := absRun_relabel hpos hadd logits (σ := σ) (fun ω => f (.ok (canonOf V ω)))
      (fun a b hab => by simp only [canonOf_eq_of_perm hab]) σ [] rfl (idsOf T) hlt
      (by simpa [idsOf] using hσ)
    rw [h4, List.length_nil, ← List.range_eq_range', hσ.length_eq, List.length_range]

/-- Weighted sums over trees of one call of `sample_tree`, summed over all scan
orders. -/
theorem sampleTree_invariant_aux {V : Nat} (junk : Nat → Nat) {logits : List K} (hl : logits.length = tri V)
    (S : Finset (List Edge)) (hS : ∀ T, T ∈ S ↔ Canonical T ∧ IsTree V T) (f : Except PyErr (List Edge) → K) :
    (∑ T ∈ S, wtL expf logits (idsOf T) * ((List.range T.length).permutations.map fun σ =>
        (sampleTree expf junk (completeGrid V) logits T σ : ExceptT PyErr (Expect K) _).run f).sum)
      = ∑ T ∈ S, wtL expf logits (idsOf T) * ((V - 1).factorial * f (.ok T)) := by
  by_cases hV : V ≤ 2
  · apply Finset.sum_congr rfl
    intro T hT
    obtain ⟨h1, h2⟩ := (hS T).1 hT
    have hE : T.length = V - 1 := by have := h2.card; omega
    congr 1
    have : ∀ σ ∈ (List.range T.length).permutations,
        (sampleTree expf junk (completeGrid V) logits T σ : ExceptT PyErr (Expect K) _).run f = f (.ok T) := by
      intro σ hσ
      rw [sampleTree_expect hpos hadd h2 junk hl (List.mem_permutations.1 hσ) f, if_pos (by omega)]
    rw [List.map_congr_left this, List.map_const', List.sum_replicate, List.length_permutations,
      List.length_range, nsmul_eq_mul, hE]
  classical
  set H : List Nat → K := fun ω => f (.ok (canonOf V ω)) with hH
  have hlen : ∀ T ∈ S, T.length = V - 1 := fun T hT => by have := ((hS T).1 hT).2.card; omega
  have hlt : ∀ T ∈ S, LTree V (idsOf T) := fun T hT => ltree_ids ((hS T).1 hT).2
  set fib : List Edge → Finset (List Nat) := fun T => (idsOf T).permutations.toFinset with hfib
  have hmf : ∀ T ω, ω ∈ fib T ↔ ω.Perm (idsOf T) := fun T ω => by
    rw [hfib, List.mem_toFinset, List.mem_permutations]
  have hdisj : (↑S : Set (List Edge)).PairwiseDisjoint fib := by
    intro T hT T' hT' hne
    rw [Function.onFun, Finset.disjoint_left]
    intro ω h1 h2
    apply hne
    rw [hmf] at h1 h2
    obtain ⟨a, b⟩ := (hS T).1 hT
    obtain ⟨a', b'⟩ := (hS T').1 hT'
    rw [← canonOf_idsOf a b, ← canonOf_idsOf a' b']
    exact canonOf_eq_of_perm (h1.symm.trans h2)
  have hΩ : ∀ ω, ω ∈ S.biUnion fib ↔ LTree V ω := by
    intro ω
    rw [Finset.mem_biUnion]
    constructor
    · rintro ⟨T, hT, h1⟩
      exact (hlt T hT).of_perm ((hmf T ω).1 h1).symm
    · intro h
      refine ⟨canonOf V ω, (hS _).2 (canonOf_spec h), (hmf _ _).2 ?_⟩
      have h1 : (idsOf (canonOf V ω)).Perm (idsOf (treeOf V ω)) := (canonOf_perm V ω).map _
      rw [idsOf_treeOf h.ids] at h1
      exact h1.symm
  have hsum : ∀ G : List Nat → K, (∑ ω ∈ S.biUnion fib, wtL expf logits ω * G ω)
      = ∑ T ∈ S, wtL expf logits (idsOf T) * ((idsOf T).permutations.map G).sum := by
    intro G
    rw [Finset.sum_biUnion hdisj]
    apply Finset.sum_congr rfl
    intro T hT
    rw [← List.sum_toFinset G (List.nodup_permutations _ (hlt T hT).nodup), Finset.mul_sum]
    apply Finset.sum_congr rfl
    intro ω hω
    rw [wtL_perm logits ((hmf T ω).1 hω)]
  have hinv := absRun_invariant hpos hadd logits (S.biUnion fib) hΩ (List.range (V - 1))
    (fun e he => by have := List.mem_range.1 he; omega) H
  rw [hsum, hsum] at hinv
  refine Eq.trans ?_ (hinv.trans ?_)
  · apply Finset.sum_congr rfl
    intro T hT
    obtain ⟨h1, h2⟩ := (hS T).1 hT
    have hE := hlen T hT
    congr 2
    have hids : (List.range T.length).map (fun i => (idsOf T).getD i 0) = idsOf T := by
      have h3 : (idsOf T).length = T.length := by simp [idsOf]
      rw [← h3]; exact range_map_getD _
    have hmap : (idsOf T).permutations = (List.range T.length).permutations.map fun σ => relabel σ (idsOf T) := by
      conv_lhs => rw [← hids]
      rw [← List.map_permutations]
      rfl
    rw [hmap, List.map_map]
    apply List.map_congr_left
    intro σ hσ
    rw [sampleTree_expect hpos hadd h2 junk hl (List.mem_permutations.1 hσ) f, if_neg (by omega), hE]
    rfl
  · apply Finset.sum_congr rfl
    intro T hT
    obtain ⟨h1, h2⟩ := (hS T).1 hT
    congr 1
    have : ∀ ω ∈ (idsOf T).permutations, H ω = f (.ok T) := by
      intro ω hω
      rw [hH]
      simp only
      rw [canonOf_eq_of_perm (List.mem_permutations.1 hω), canonOf_idsOf h1 h2]
    rw [List.map_congr_left this, List.map_const', List.sum_replicate, List.length_permutations, nsmul_eq_mul]
    have : (idsOf T).length = V - 1 := by rw [← hlen T hT]; simp [idsOf]
    rw [this]

omit hpos hadd in
theorem expf_list_sum (h0 : expf 0 = 1) (hadd : ∀ x y, expf (x + y) = expf x * expf y) (l : List K) :
    expf l.sum = (l.map expf).prod := by
  induction l with
  | nil => simpa using h0
  | cons a l ih => rw [List.sum_cons, hadd, ih, List.map_cons, List.prod_cons]

/-- **C07**. Let `logit u v` be any edge logits, given to `sample_tree` in the order
of the complete graph. Draw a tree with probability proportional to
`exp (sum of its logits)`, and a scan order uniformly; then the result of one call
of `sample_tree` has the same distribution as the tree drawn. Stated with
expectations: `f` is any function of the result (exceptions included), `S` is the set
of all spanning trees, and both sides are multiplied by the normalising constant
of the posterior. `expf` is any positive function with
`expf (x + y) = expf x * expf y`; see `sampleTree_stationary` for the exponential. -/
theorem sampleTree_invariant (V : Nat) (junk : Nat → Nat) (logit : Nat → Nat → K) (grid : Grid)
    (hgrid : makeCompleteGraph V = .ok grid) (S : Finset (List Edge))
    (hS : ∀ T, T ∈ S ↔ Canonical T ∧ IsTree V T) (f : Except PyErr (List Edge) → K) :
    (∑ T ∈ S, expf ((T.map fun p => logit p.1 p.2).sum) *
        (((List.range T.length).permutations.map fun σ =>
            (sampleTree expf junk grid (grid.map fun c => logit c.2.1 c.2.2) T σ :
              ExceptT PyErr (Expect K) _).run f).sum / T.length.factorial))
      = ∑ T ∈ S, expf ((T.map fun p => logit p.1 p.2).sum) * f (.ok T) := by
  rw [makeCompleteGraph_eq, Except.ok.injEq] at hgrid
  subst hgrid
  set logits := (completeGrid V).map fun c => logit c.2.1 c.2.2 with hlogits
  have hl : logits.length = tri V := by rw [hlogits, List.length_map, completeGrid_length]
  have h0 : expf 0 = 1 := by
    have h1 := hadd 0 0
    rw [add_zero] at h1
    have h2 := (hpos 0).ne'
    exact (mul_eq_left₀ h2).1 h1.symm
  have hw : ∀ T ∈ S, expf ((T.map fun p => logit p.1 p.2).sum) = wtL expf logits (idsOf T) := by
    intro T hT
    obtain ⟨h1, h2⟩ := (hS T).1 hT
    rw [expf_list_sum h0 hadd, List.map_map]
    unfold wtL idsOf
    rw [List.map_map]
    congr 1
    apply List.map_congr_left
    intro p hp
    simp only [Function.comp, wt]
    have hps := h1.small_large p hp
    have hpr := (h2.range p hp).2
    rw [hlogits, List.getD_eq_getElem?_getD, List.getElem?_map, completeGrid_getElem?,
      pairs_getElem? V p.1 p.2 hps hpr]
    rfl
  have hmain := sampleTree_invariant_aux hpos hadd junk hl S hS f
  have hfac : ((V - 1).factorial : K) ≠ 0 := by exact_mod_cast (V - 1).factorial_ne_zero
  have hlen : ∀ T ∈ S, T.length = V - 1 := fun T hT => by have := ((hS T).1 hT).2.card; omega
  have hL : ∀ T ∈ S, expf ((T.map fun p => logit p.1 p.2).sum) *
        (((List.range T.length).permutations.map fun σ =>
            (sampleTree expf junk (completeGrid V) logits T σ :
              ExceptT PyErr (Expect K) _).run f).sum / T.length.factorial)
      = (wtL expf logits (idsOf T) * ((List.range T.length).permutations.map fun σ =>
            (sampleTree expf junk (completeGrid V) logits T σ :
              ExceptT PyErr (Expect K) _).run f).sum) / (V - 1).factorial := by
    intro T hT
    rw [hw T hT, hlen T hT, mul_div_assoc]
  rw [Finset.sum_congr rfl hL, ← Finset.sum_div, hmain, Finset.sum_div]
  apply Finset.sum_congr rfl
  intro T hT
  rw [hw T hT, mul_div_assoc, mul_div_cancel_left₀ _ hfac]

/-- **C07** (one move). Moving one edge picks among exactly the edges that give a
spanning tree again, each with probability proportional to the exponential of its
logit. `s` is any state of the arrays reached from a spanning tree. -/
theorem sampleTreeStep_law (V : Nat) (logits : List K) (hl : logits.length = tri V) (s : TreeState)
    (I : StInv V s) (e : Nat) (he : e < s.e2k.length) (valid : Finset Nat)
    (hv : ∀ k, k ∈ valid ↔ k < tri V ∧ IsTree V (treeOf V (s.e2k.set e k))) (f : List Nat → K) :
    ((TreeState.e2k <$> sampleTreeStep expf (completeGrid V) logits s e :
        ExceptT PyErr (Expect K) (List Nat)).run fun r => match r with | .ok ω => f ω | .error _ => 0)
      = (∑ k ∈ valid, expf (logits.getD k 0) * f (s.e2k.set e k)) / ∑ k ∈ valid, expf (logits.getD k 0) := by
  have h1 := sampleTreeFold_eq (m := Expect K) (probsOf_sum_pos hpos) hl [e] s I (fun x hx => by
    rw [List.mem_singleton] at hx; subst hx
    have := I.ltree.length; omega)
  have h2 : valid = (validList V s.e2k e).toFinset := by
    ext k
    rw [hv, List.mem_toFinset, mem_validList_iff I.ltree he]
    constructor
    · rintro ⟨h3, h4⟩
      refine ⟨fun j hj => ?_, h4⟩
      rcases List.mem_or_eq_of_mem_set hj with h5 | h5
      · exact I.ltree.ids j h5
      · subst h5; exact h3
    · intro h; exact ⟨h.ids k (List.mem_set he k), h.tree⟩
  have h3 : (List.foldlM (sampleTreeStep expf (completeGrid V) logits) s [e] : ExceptT PyErr (Expect K) TreeState)
      = sampleTreeStep expf (completeGrid V) logits s e := by
    rw [List.foldlM_cons]
    simp
  rw [h3] at h1
  rw [h1, h2]
  have h4 := absStep_expect hpos hadd logits V s.e2k e f
  refine Eq.trans ?_ h4
  exact absRun_cons logits V s.e2k e [] f

end

/-- **C07** for the exponential function: the posterior over spanning trees with
probabilities `exp (sum of logits) / Z` is stationary for `sample_tree`: the
probability that one call returns `T'` is the probability of `T'`. -/
theorem sampleTree_stationary (V : Nat) (junk : Nat → Nat) (logit : Nat → Nat → ℝ) (grid : Grid)
    (hgrid : makeCompleteGraph V = .ok grid) (S : Finset (List Edge))
    (hS : ∀ T, T ∈ S ↔ Canonical T ∧ IsTree V T) (T' : List Edge) (hT' : T' ∈ S) :
    let Z := ∑ T ∈ S, Real.exp ((T.map fun p => logit p.1 p.2).sum)
    let post := fun T : List Edge => Real.exp ((T.map fun p => logit p.1 p.2).sum) / Z
    (∑ T ∈ S, post T * (((List.range T.length).permutations.map fun σ =>
        (sampleTree Real.exp junk grid (grid.map fun c => logit c.2.1 c.2.2) T σ :
          ExceptT PyErr (Expect ℝ) _).run fun r => if r = .ok T' then 1 else 0).sum / T.length.factorial))
      = post T' := by
  intro Z post
  have h := sampleTree_invariant Real.exp_pos Real.exp_add V junk logit grid hgrid S hS
    fun r => if r = .ok T' then 1 else 0
  have h2 : (∑ T ∈ S, Real.exp ((T.map fun p => logit p.1 p.2).sum) *
      (if (Except.ok T : Except PyErr (List Edge)) = .ok T' then (1 : ℝ) else 0))
      = Real.exp ((T'.map fun p => logit p.1 p.2).sum) := by
    simp only [Except.ok.injEq, mul_ite, mul_one, mul_zero]
    rw [Finset.sum_ite_eq' S T', if_pos hT']
  rw [h2] at h
  simp only [post]
  rw [← h, Finset.sum_div]
  apply Finset.sum_congr rfl
  intro T _
  ring

/-- Not vacuous: for every `V ≥ 1` there is a set as in `sampleTree_stationary`; on
five vertices it contains the example tree. -/
example : ∃ S : Finset (List Edge), (∀ T, T ∈ S ↔ Canonical T ∧ IsTree 5 T) ∧ exTree ∈ S := by
  obtain ⟨S, hS⟩ := exists_spanningTrees 5
  exact ⟨S, hS, (hS _).2 ⟨⟨by decide, by decide⟩, exTree_isTree⟩⟩

end TreeCat
