import Verif.Lemmas.GibbsInf
import Verif.Props.TreeInf

/-!
# C94: `sample_tree` with forbidden edges is a Gibbs sampler for the trees without them
-/

set_option linter.unusedSectionVars false

namespace TreeCat

open Spec Util
open scoped BigOperators

section
variable {K : Type} [Field K] [LinearOrder K]

/-! ### Finite logits -/

theorem expNormalizeInf_coe (expf : K → K) (ls : List K) :
    expNormalizeInf expf (ls.map fun x : K => (x : WithBot K)) = some <$> expNormalize expf ls := by
  cases ls with
  | nil => rfl
  | cons l ls =>
    have hfold : ∀ (ls : List K) (l : K), (ls.map fun x : K => (x : WithBot K)).foldl max (l : WithBot K) = ((ls.foldl max l : K) : WithBot K) := by
      intro ls
      induction ls with
      | nil => intro l; rfl
      | cons a ls ih =>
        intro l
        rw [List.map_cons, List.foldl_cons, List.foldl_cons, ← WithBot.coe_max, ih]
    have h1 : (ls.map fun x : K => (x : WithBot K)).foldl max (l : WithBot K) = some (ls.foldl max l) := hfold ls l
    rw [List.map_cons]
    simp only [expNormalizeInf, h1, expNormalize]
    rw [← List.map_cons, List.map_map]
    rfl

theorem mapM_pyGet_coe (logits : List K) (ks : List Nat) :
    (ks.mapM fun k => pyGet (logits.map fun x : K => (x : WithBot K)) k) = (fun ls => ls.map fun x : K => (x : WithBot K)) <$> (ks.mapM fun k => pyGet logits k) := by
  induction ks with
  | nil => rfl
  | cons k ks ih =>
    have hget : pyGet (logits.map fun x : K => (x : WithBot K)) k = (fun x : K => (x : WithBot K)) <$> pyGet logits k := by
      unfold pyGet
      rw [List.getElem?_map]
      cases logits[k]? <;> rfl
    rw [List.mapM_cons, List.mapM_cons, ih, hget]
    cases pyGet logits k with
    | error _ => rfl
    | ok x =>
      cases ks.mapM fun k => pyGet logits k with
      | error _ => rfl
      | ok _ => rfl

theorem proposeEdgesInf_coe (expf : K → K) (grid : Grid) (logits : List K) (s : TreeState) (e : Nat) :
    proposeEdgesInf expf grid (logits.map fun x : K => (x : WithBot K)) s e
      = (fun x => (x.1, x.2.1, x.2.2.1, some x.2.2.2)) <$> proposeEdges expf grid logits s e := by
  unfold proposeEdgesInf proposeEdges
  cases h1 : jitRemoveEdge grid s.e2k s.neighbors s.components e with
  | error _ => rfl
  | ok x =>
    obtain ⟨k1, N, comps⟩ := x
    simp only [bind, Except.bind]
    cases h2 : findValidEdges comps s.validEdges with
    | error _ => rfl
    | ok y =>
      obtain ⟨buf, num⟩ := y
      simp only
      rw [mapM_pyGet_coe]
      cases (buf.take num).mapM fun k => pyGet logits k with
      | error _ => rfl
      | ok ls =>
        have := expNormalizeInf_coe expf ls
        simp only [Functor.map, Except.map] at this ⊢
        rw [this]
        cases expNormalize expf ls with
        | error _ => rfl
        | ok _ => rfl

variable {m : Type → Type} [Monad m] [LawfulMonad m] [Choose K m]

theorem liftPy_map {α β : Type} (f : α → β) (x : Py α) : (liftPy (f <$> x) : ExceptT PyErr m β) = f <$> liftPy x := by
  cases x with
  | error er =>
    show (liftPy (.error er) : ExceptT PyErr m β) = _
    apply ExceptT.ext; simp [liftPy]
  | ok a =>
    show (liftPy (.ok (f a)) : ExceptT PyErr m β) = _
    apply ExceptT.ext; simp [liftPy]

theorem sampleTreeStepInf_coe (expf : K → K) (grid : Grid) (logits : List K) (s : TreeState) (n e : Nat) :
    (Prod.fst <$> sampleTreeStepInf expf grid (logits.map fun x : K => (x : WithBot K)) (s, n) e : ExceptT PyErr m TreeState)
      = sampleTreeStep expf grid logits s e := by
  unfold sampleTreeStepInf sampleTreeStep
  rw [proposeEdgesInf_coe, liftPy_map]
  simp only [map_eq_pure_bind, bind_assoc, pure_bind]
  congr 1
  funext x
  obtain ⟨k1, s, num, probs⟩ := x
  simp only [chooseEdgeInf]
  split
  · simp only [bind_assoc]
    congr 1
    funext i
    split
    · simp
    · apply ExceptT.ext; simp
  · simp

theorem sampleTreeFoldInf_coe (expf : K → K) (grid : Grid) (logits : List K) : ∀ (slots : List Nat) (s : TreeState) (n : Nat),
    (Prod.fst <$> slots.foldlM (sampleTreeStepInf expf grid (logits.map fun x : K => (x : WithBot K))) (s, n) : ExceptT PyErr m TreeState)
      = slots.foldlM (sampleTreeStep expf grid logits) s := by
  intro slots
  induction slots with
  | nil => intro s n; simp
  | cons e slots ih =>
    intro s n
    rw [List.foldlM_cons, List.foldlM_cons, ← sampleTreeStepInf_coe expf grid logits s n e]
    simp only [map_bind, bind_map_left]
    congr 1
    funext x
    exact ih x.1 x.2

/-- **C94** (finite logits). Without `-inf` this is the `sample_tree` of the other properties, for all arguments. -/
theorem sampleTreeInf_finite (expf : K → K) (junk : Nat → Nat) (grid : Grid) (logits : List K) (edges : List Edge) (perm : List Nat) :
    (Prod.fst <$> sampleTreeInf expf junk grid (logits.map fun x : K => (x : WithBot K)) edges perm : ExceptT PyErr m (List Edge))
      = sampleTree expf junk grid logits edges perm := by
  unfold sampleTreeInf sampleTree
  split
  · simp
  · simp only [map_bind]
    congr 1
    funext s
    rw [← sampleTreeFoldInf_coe expf grid logits perm s 0]
    simp only [bind_map_left]
    congr 1
    funext x
    simp

end

/-! ### Stationarity -/

/-- `np.exp` of a logit that may be `-inf`: the weight of an edge. -/
def expOrZero {K : Type} [Zero K] (expf : K → K) : WithBot K → K
  | none => 0
  | some x => expf x

section
variable {K : Type} [Field K] [LinearOrder K] [IsStrictOrderedRing K]
variable {expf : K → K} (hpos : ∀ x, 0 < expf x) (hadd : ∀ x y, expf (x + y) = expf x * expf y)
include hpos hadd

omit hadd in
theorem expOrZero_nonneg (x : WithBot K) : 0 ≤ expOrZero expf x := by
  cases x with
  | bot => exact le_rfl
  | coe x => exact (hpos x).le

omit hadd in
theorem expOrZero_ne (x : WithBot K) : expOrZero expf x ≠ 0 ↔ x ≠ ⊥ := by
  cases x with
  | bot => simp [show expOrZero expf (⊥ : WithBot K) = 0 from rfl]
  | coe x =>
    have : expOrZero expf (x : WithBot K) = expf x := rfl
    simp [this, (hpos x).ne']

theorem sampleTreeFoldInf_expect {V : Nat} {logits : List (WithBot K)} (hl : logits.length = tri V)
    (fin : TreeState × Nat → ExceptT PyErr (Expect K) (List Edge × Nat)) (hfin : ∀ x, LTree V x.1.e2k → fin x = pure (canonOf V x.1.e2k, x.2))
    (f : Except PyErr (List Edge × Nat) → K) (n : Nat) : ∀ (slots : List Nat), (∀ e ∈ slots, e + 1 < V) → ∀ s : TreeState, StInv V s →
      (∀ k ∈ s.e2k, logits.getD k ⊥ ≠ ⊥) →
      (slots.foldlM (sampleTreeStepInf expf (completeGrid V) logits) (s, n) >>= fin : ExceptT PyErr (Expect K) _).run f
        = gRun (fun k => expOrZero expf (logits.getD k ⊥)) V (fun ω => f (.ok (canonOf V ω, n))) slots s.e2k := by
  intro slots
  induction slots with
  | nil =>
    intro _ s I _
    rw [List.foldlM_nil, pure_bind, hfin _ I.ltree]
    rfl
  | cons e slots ih =>
    intro hs s I hfeas
    have he : e < s.e2k.length := by
      have := I.ltree.length
      have := hs e (by simp); omega
    obtain ⟨mx, probs, next, hprobs, -, -, h1, h2⟩ := sampleTreeStepInf_some (m := Expect K) (fun x => (hpos x).le) (hpos 0) hl I he
      (self_mem_validList I.ltree he) (hfeas _ (List.getElem_mem he)) n
    rw [List.foldlM_cons, h1, bind_assoc, expect_lift_bind]
    set G : List Nat → K := gRun (fun k => expOrZero expf (logits.getD k ⊥)) V (fun ω => f (.ok (canonOf V ω, n))) slots with hG
    have hw : ∀ k, infWeight expf mx (logits.getD k ⊥) = expOrZero expf (logits.getD k ⊥) * expf (-mx) := by
      intro k
      cases logits.getD k ⊥ with
      | bot => exact (zero_mul _).symm
      | coe x =>
        show expf (x - mx) = expf x * expf (-mx)
        rw [sub_eq_add_neg, hadd]
    have hlen : probs.length = (validList V s.e2k e).length := by rw [hprobs, List.length_map]
    have h3 : ∀ i : Fin probs.length, probs[i] * (slots.foldlM (sampleTreeStepInf expf (completeGrid V) logits) (next i.val, n) >>= fin : ExceptT PyErr (Expect K) _).run f
        = probs[i] * G (s.e2k.set e ((validList V s.e2k e).getD i.val 0)) := by
      intro i
      by_cases hz : probs[i] = 0
      · rw [hz, zero_mul, zero_mul]
      · congr 1
        have hi := h2 i.val i.isLt
        have hiv : i.val < (validList V s.e2k e).length := by have := i.isLt; omega
        rw [ih (fun e he => hs e (by simp [he])) (next i.val) hi.1 ?_, hi.2]
        intro k hk
        rw [hi.2] at hk
        rcases List.mem_or_eq_of_mem_set hk with hk | hk
        · exact hfeas k hk
        · rw [hk]
          intro hbot
          apply hz
          rw [List.getD_eq_getElem?_getD (l := validList V s.e2k e), List.getElem?_eq_getElem hiv, Option.getD_some] at hbot
          have : probs[i.val] = infWeight expf mx (logits.getD (validList V s.e2k e)[i.val] ⊥) := by
            subst hprobs
            rw [List.getElem_map]
          show probs[i.val] = 0
          rw [this, hbot]
          rfl
    have h4 : (((fun i : Fin probs.length => (next i.val, n)) <$> Choose.choose fun i : Fin probs.length => probs[i] : Expect K (TreeState × Nat))
          fun a => (slots.foldlM (sampleTreeStepInf expf (completeGrid V) logits) a >>= fin : ExceptT PyErr (Expect K) _).run f)
        = (∑ i : Fin probs.length, probs[i] * (slots.foldlM (sampleTreeStepInf expf (completeGrid V) logits) (next i.val, n) >>= fin :
            ExceptT PyErr (Expect K) _).run f) / ∑ i : Fin probs.length, probs[i] := rfl
    rw [h4, Finset.sum_congr rfl fun i _ => h3 i]
    have hmx : probs = (validList V s.e2k e).map fun k => expOrZero expf (logits.getD k ⊥) * expf (-mx) := by
      rw [hprobs]
      exact List.map_congr_left fun k _ => hw k
    have h5 := fin_sum_map hmx (fun k => G (s.e2k.set e k))
    have h6 := fin_sum_map hmx (fun _ => 1)
    simp only [mul_one] at h6
    rw [h5, h6, gRun, gStep]
    have hnd := nodup_validList V s.e2k e
    rw [List.sum_toFinset _ hnd, List.sum_toFinset _ hnd]
    have h7 : ((validList V s.e2k e).map fun k => expOrZero expf (logits.getD k ⊥) * expf (-mx) * G (s.e2k.set e k)).sum
        = expf (-mx) * ((validList V s.e2k e).map fun k => expOrZero expf (logits.getD k ⊥) * G (s.e2k.set e k)).sum := by
      rw [← List.sum_map_mul_left]
      congr 1
      apply List.map_congr_left
      intro k _; ring
    have h8 : ((validList V s.e2k e).map fun k => expOrZero expf (logits.getD k ⊥) * expf (-mx)).sum
        = expf (-mx) * ((validList V s.e2k e).map fun k => expOrZero expf (logits.getD k ⊥)).sum := by
      rw [← List.sum_map_mul_left]
      congr 1
      apply List.map_congr_left
      intro k _; ring
    rw [h7, h8, mul_div_mul_left _ _ (hpos _).ne']

theorem sampleTreeInf_expect {V : Nat} {T : List Edge} (ht : IsTree V T) (junk : Nat → Nat)
    {logits : List (WithBot K)} (hl : logits.length = tri V) (hfeas : ∀ k ∈ idsOf T, logits.getD k ⊥ ≠ ⊥)
    {σ : List Nat} (hσ : σ.Perm (List.range T.length)) (f : Except PyErr (List Edge × Nat) → K) :
    (sampleTreeInf expf junk (completeGrid V) logits T σ : ExceptT PyErr (Expect K) _).run f
      = if T.length ≤ 1 then f (.ok (T, 0)) else
          gRun (fun k => expOrZero expf (logits.getD k ⊥)) V (fun ω => f (.ok (canonOf V ω, 0))) (List.range T.length) (relabel σ (idsOf T)) := by
  split
  · rename_i hE
    unfold sampleTreeInf
    rw [if_pos hE]
    rfl
  · rename_i hE
    have hV := ht.card
    have hmem : ∀ e ∈ σ, e < T.length := fun e he => List.mem_range.1 (hσ.mem_iff.1 he)
    have hmem' : ∀ e ∈ σ, e + 1 < V := fun e he => by have := hmem e he; omega
    obtain ⟨s, h1, I, hs⟩ := treeStateInit_spec ht junk
    have hlt : LTree V (idsOf T) := ltree_ids ht
    have hfold := sampleTreeFoldInf_expect hpos hadd hl (fun x => do
          let out ← liftPy (x.1.e2k.mapM fun k => do
            let c ← pyGet (completeGrid V) k
            .ok (c.2.1, c.2.2))
          liftPy (pyAssert ((out.insertionSort edgeLe).length == T.length))
          pure (out.insertionSort edgeLe, x.2)) (fun x hω => by
        have := congrArg (fun y => y >>= fun T => (pure (T, x.2) : ExceptT PyErr (Expect K) (List Edge × Nat))) (finish_ok (m := Expect K) hω hV)
        simpa only [bind_assoc, pure_bind] using this) f 0 σ hmem' s I (by rw [hs]; exact hfeas)
    unfold sampleTreeInf
    rw [if_neg hE, h1, liftPy_ok_bind]
    refine hfold.trans ?_
    rw [hs]
    have h4 := gRun_relabel (fun k => expOrZero expf (logits.getD k ⊥)) (V := V) (σ := σ) (fun ω => f (.ok (canonOf V ω, 0)))
      (fun a b hab => by simp only [canonOf_eq_of_perm hab]) σ [] rfl (idsOf T) hlt (by simpa [idsOf] using hσ)
    refine h4.trans ?_
    rw [List.length_nil, ← List.range_eq_range', hσ.length_eq, List.length_range]

/-- Weighted sums over trees of one call of `sample_tree`, summed over all scan orders. -/
theorem sampleTreeInf_invariant_aux {V : Nat} (junk : Nat → Nat) {logits : List (WithBot K)} (hl : logits.length = tri V)
    (S : Finset (List Edge)) (hS : ∀ T, T ∈ S ↔ Canonical T ∧ IsTree V T) (f : Except PyErr (List Edge × Nat) → K) :
    (∑ T ∈ S, gWeight (fun k => expOrZero expf (logits.getD k ⊥)) (idsOf T) * ((List.range T.length).permutations.map fun σ =>
        (sampleTreeInf expf junk (completeGrid V) logits T σ : ExceptT PyErr (Expect K) _).run f).sum)
      = ∑ T ∈ S, gWeight (fun k => expOrZero expf (logits.getD k ⊥)) (idsOf T) * ((V - 1).factorial * f (.ok (T, 0))) := by
  set q : Nat → K := fun k => expOrZero expf (logits.getD k ⊥) with hq
  have hfeas : ∀ T : List Edge, gWeight q (idsOf T) ≠ 0 → ∀ k ∈ idsOf T, logits.getD k ⊥ ≠ ⊥ := fun T h k hk hb =>
    h (List.prod_eq_zero (List.mem_map.2 ⟨k, hk, by rw [hq]; simp only; rw [hb]; rfl⟩))
  by_cases hV : V ≤ 2
  · apply Finset.sum_congr rfl
    intro T hT
    obtain ⟨h1, h2⟩ := (hS T).1 hT
    have hE : T.length = V - 1 := by have := h2.card; omega
    by_cases hz : gWeight q (idsOf T) = 0
    · rw [hz, zero_mul, zero_mul]
    congr 1
    have : ∀ σ ∈ (List.range T.length).permutations,
        (sampleTreeInf expf junk (completeGrid V) logits T σ : ExceptT PyErr (Expect K) _).run f = f (.ok (T, 0)) := by
      intro σ hσ
      rw [sampleTreeInf_expect hpos hadd h2 junk hl (hfeas T hz) (List.mem_permutations.1 hσ) f, if_pos (by omega)]
    rw [List.map_congr_left this, List.map_const', List.sum_replicate, List.length_permutations,
      List.length_range, nsmul_eq_mul, hE]
  classical
  set H : List Nat → K := fun ω => f (.ok (canonOf V ω, 0)) with hH
  have hlen : ∀ T ∈ S, T.length = V - 1 := fun T hT => by have := ((hS T).1 hT).2.card; omega
  have hlt : ∀ T ∈ S, LTree V (idsOf T) := fun T hT => ltree_ids ((hS T).1 hT).2
  set fib : List Edge → Finset (List Nat) := fun T => (idsOf T).permutations.toFinset with hfib
  have hmf : ∀ T ω, ω ∈ fib T ↔ ω.Perm (idsOf T) := fun T ω => by
    rw [hfib, List.mem_toFinset, List.mem_permutations]
  have hdisj : (↑S : Set (List Edge)).PairwiseDisjoint fib := by
    intro T hT T' hT' hne
    rw [Function.onFun, Finset.disjoint_left]
    intro ω h1 h2
    apply hne
    rw [hmf] at h1 h2
    obtain ⟨a, b⟩ := (hS T).1 hT
    obtain ⟨a', b'⟩ := (hS T').1 hT'
    rw [← canonOf_idsOf a b, ← canonOf_idsOf a' b']
    exact canonOf_eq_of_perm (h1.symm.trans h2)
  have hΩ : ∀ ω, ω ∈ S.biUnion fib ↔ LTree V ω := by
    intro ω
    rw [Finset.mem_biUnion]
    constructor
    · rintro ⟨T, hT, h1⟩
      exact (hlt T hT).of_perm ((hmf T ω).1 h1).symm
    · intro h
      refine ⟨canonOf V ω, (hS _).2 (canonOf_spec h), (hmf _ _).2 ?_⟩
      have h1 : (idsOf (canonOf V ω)).Perm (idsOf (treeOf V ω)) := (canonOf_perm V ω).map _
      rw [idsOf_treeOf h.ids] at h1
      exact h1.symm
  have hsum : ∀ G : List Nat → K, (∑ ω ∈ S.biUnion fib, gWeight q ω * G ω)
      = ∑ T ∈ S, gWeight q (idsOf T) * ((idsOf T).permutations.map G).sum := by
    intro G
    rw [Finset.sum_biUnion hdisj]
    apply Finset.sum_congr rfl
    intro T hT
    rw [← List.sum_toFinset G (List.nodup_permutations _ (hlt T hT).nodup), Finset.mul_sum]
    apply Finset.sum_congr rfl
    intro ω hω
    rw [gWeight_perm q ((hmf T ω).1 hω)]
  have hinv := gRun_invariant (q := q) (fun k => expOrZero_nonneg hpos _) (S.biUnion fib) hΩ H (List.range (V - 1))
    (fun e he => by have := List.mem_range.1 he; omega)
  rw [hsum, hsum] at hinv
  refine Eq.trans ?_ (hinv.trans ?_)
  · apply Finset.sum_congr rfl
    intro T hT
    obtain ⟨h1, h2⟩ := (hS T).1 hT
    have hE := hlen T hT
    by_cases hz : gWeight q (idsOf T) = 0
    · rw [hz, zero_mul, zero_mul]
    congr 2
    have hids : (List.range T.length).map (fun i => (idsOf T).getD i 0) = idsOf T := by
      have h3 : (idsOf T).length = T.length := by simp [idsOf]
      rw [← h3]; exact range_map_getD _
    have hmap : (idsOf T).permutations = (List.range T.length).permutations.map fun σ => relabel σ (idsOf T) := by
      conv_lhs => rw [← hids]
      rw [← List.map_permutations]
      rfl
    rw [hmap, List.map_map]
    apply List.map_congr_left
    intro σ hσ
    rw [sampleTreeInf_expect hpos hadd h2 junk hl (hfeas T hz) (List.mem_permutations.1 hσ) f, if_neg (by omega), hE]
    rfl
  · apply Finset.sum_congr rfl
    intro T hT
    obtain ⟨h1, h2⟩ := (hS T).1 hT
    congr 1
    have : ∀ ω ∈ (idsOf T).permutations, H ω = f (.ok (T, 0)) := by
      intro ω hω
      rw [hH]
      simp only
      rw [canonOf_eq_of_perm (List.mem_permutations.1 hω), canonOf_idsOf h1 h2]
    rw [List.map_congr_left this, List.map_const', List.sum_replicate, List.length_permutations, nsmul_eq_mul]
    have : (idsOf T).length = V - 1 := by rw [← hlen T hT]; simp [idsOf]
    rw [this]

/-- **C94** (law). Let some edges be forbidden, by the logit `-inf`. Draw a spanning tree with probability proportional to the product of `exp` of
its logits, where `exp(-inf) = 0`, so a tree without forbidden edges; and draw a scan order uniformly. Then the result of one call of `sample_tree` has
the same distribution as the tree drawn, and nothing is added to `COUNTERS.sample_tree_infeasible`. Stated with expectations, like
`sampleTree_invariant`: `f` is any function of the result, exceptions and counter included, and both sides are multiplied by the normalising constant. -/
theorem sampleTreeInf_invariant (V : Nat) (junk : Nat → Nat) (logit : Nat → Nat → WithBot K) (grid : Grid)
    (hgrid : makeCompleteGraph V = .ok grid) (S : Finset (List Edge))
    (hS : ∀ T, T ∈ S ↔ Canonical T ∧ IsTree V T) (f : Except PyErr (List Edge × Nat) → K) :
    (∑ T ∈ S, (T.map fun p => expOrZero expf (logit p.1 p.2)).prod *
        (((List.range T.length).permutations.map fun σ =>
            (sampleTreeInf expf junk grid (grid.map fun c => logit c.2.1 c.2.2) T σ :
              ExceptT PyErr (Expect K) _).run f).sum / T.length.factorial))
      = ∑ T ∈ S, (T.map fun p => expOrZero expf (logit p.1 p.2)).prod * f (.ok (T, 0)) := by
  rw [makeCompleteGraph_eq, Except.ok.injEq] at hgrid
  subst hgrid
  set logits := (completeGrid V).map fun c => logit c.2.1 c.2.2 with hlogits
  have hl : logits.length = tri V := by rw [hlogits, List.length_map, completeGrid_length]
  have hw : ∀ T ∈ S, (T.map fun p => expOrZero expf (logit p.1 p.2)).prod = gWeight (fun k => expOrZero expf (logits.getD k ⊥)) (idsOf T) := by
    intro T hT
    obtain ⟨h1, h2⟩ := (hS T).1 hT
    unfold gWeight idsOf
    rw [List.map_map]
    congr 1
    apply List.map_congr_left
    intro p hp
    simp only [Function.comp]
    have hps := h1.small_large p hp
    have hpr := (h2.range p hp).2
    rw [hlogits, List.getD_eq_getElem?_getD, List.getElem?_map, completeGrid_getElem?,
      pairs_getElem? V p.1 p.2 hps hpr]
    rfl
  have hmain := sampleTreeInf_invariant_aux hpos hadd junk hl S hS f
  have hfac : ((V - 1).factorial : K) ≠ 0 := by exact_mod_cast (V - 1).factorial_ne_zero
  have hlen : ∀ T ∈ S, T.length = V - 1 := fun T hT => by have := ((hS T).1 hT).2.card; omega
  have hL : ∀ T ∈ S, (T.map fun p => expOrZero expf (logit p.1 p.2)).prod *
        (((List.range T.length).permutations.map fun σ =>
            (sampleTreeInf expf junk (completeGrid V) logits T σ :
              ExceptT PyErr (Expect K) _).run f).sum / T.length.factorial)
      = (gWeight (fun k => expOrZero expf (logits.getD k ⊥)) (idsOf T) * ((List.range T.length).permutations.map fun σ =>
            (sampleTreeInf expf junk (completeGrid V) logits T σ :
              ExceptT PyErr (Expect K) _).run f).sum) / (V - 1).factorial := by
    intro T hT
    rw [hw T hT, hlen T hT, mul_div_assoc]
  rw [Finset.sum_congr rfl hL, ← Finset.sum_div, hmain, Finset.sum_div]
  apply Finset.sum_congr rfl
  intro T hT
  rw [hw T hT, mul_div_assoc, mul_div_cancel_left₀ _ hfac]

end

/-- Four features of which 0 and 1 may not be joined. -/
example (f : Except PyErr (List Edge × Nat) → ℝ) : ∃ S : Finset (List Edge), (∀ T, T ∈ S ↔ Canonical T ∧ IsTree 4 T) ∧
    [(0, 1), (1, 2), (2, 3)] ∈ S ∧
    (∑ T ∈ S, (T.map fun p : Edge => expOrZero Real.exp (if p = (0, 1) then ⊥ else ((p.1 : ℝ) : WithBot ℝ))).prod *
        (((List.range T.length).permutations.map fun σ =>
            (sampleTreeInf Real.exp (fun _ => 7) (completeGrid 4) ((completeGrid 4).map fun c => if (c.2.1, c.2.2) = (0, 1) then ⊥ else ((c.2.1 : ℝ) : WithBot ℝ)) T σ :
              ExceptT PyErr (Expect ℝ) _).run f).sum / T.length.factorial))
      = ∑ T ∈ S, (T.map fun p : Edge => expOrZero Real.exp (if p = (0, 1) then ⊥ else ((p.1 : ℝ) : WithBot ℝ))).prod * f (.ok (T, 0)) := by
  obtain ⟨S, hS⟩ := exists_spanningTrees 4
  refine ⟨S, hS, (hS _).2 ⟨⟨by simp, by simp⟩, path4_isTree⟩, ?_⟩
  exact sampleTreeInf_invariant Real.exp_pos Real.exp_add 4 (fun _ => 7) (fun a b => if (a, b) = (0, 1) then ⊥ else ((a : ℝ) : WithBot ℝ)) _
    (makeCompleteGraph_eq 4) S hS f

end TreeCat
