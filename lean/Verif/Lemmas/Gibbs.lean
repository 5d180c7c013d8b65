import Mathlib.Data.List.Permutation
import Mathlib.Algebra.BigOperators.Fin
import Mathlib.Algebra.BigOperators.Field
import Mathlib.Algebra.Order.BigOperators.Group.Finset
import Mathlib.Tactic.FieldSimp
import Mathlib.Tactic.Ring
import Verif.Props.SampleTree

/-!
# The walk on labelled spanning trees is reversible

The exponential is any positive function that turns sums into products.
-/

set_option linter.unusedSectionVars false

namespace TreeCat

open Spec
open scoped BigOperators

section
variable {K : Type} [Field K] [LinearOrder K] [IsStrictOrderedRing K]

theorem fin_sum_map {ks : List Nat} {ps : List K} {q : Nat → K} (h : ps = ks.map q) (G : Nat → K) :
    (∑ i : Fin ps.length, ps[i] * G (ks.getD i.val 0)) = (ks.map fun k => q k * G k).sum := by
  subst h
  induction ks with
  | nil => exact Finset.sum_empty
  | cons a ks ih =>
    have : (∑ i : Fin ((a :: ks).map q).length, ((a :: ks).map q)[i] * G ((a :: ks).getD i.val 0))
        = ∑ i : Fin ((ks.map q).length + 1), ((a :: ks).map q)[i.val] * G ((a :: ks).getD i.val 0) := rfl
    rw [this, Fin.sum_univ_succ, List.map_cons (f := fun k => q k * G k), List.sum_cons, ← ih]
    rfl

/-- The weight of an edge number. -/
def wt (expf : K → K) (logits : List K) (k : Nat) : K := expf (logits.getD k 0)

/-- The weight of a labelled tree. -/
def wtL (expf : K → K) (logits : List K) (ω : List Nat) : K := (ω.map (wt expf logits)).prod

variable {expf : K → K} (hpos : ∀ x, 0 < expf x) (hadd : ∀ x y, expf (x + y) = expf x * expf y)
include hpos hadd

theorem absStep_expect (logits : List K) (V : Nat) (ω : List Nat) (e : Nat) (F : List Nat → K) :
    absStep (Expect K) expf logits V ω e F
      = (∑ k ∈ (validList V ω e).toFinset, wt expf logits k * F (ω.set e k)) /
          ∑ k ∈ (validList V ω e).toFinset, wt expf logits k := by
  have hc : ∃ mx, validProbs expf logits V ω e
      = (validList V ω e).map fun k => wt expf logits k * expf (-mx) := by
    unfold validProbs
    cases h : validList V ω e with
    | nil => exact ⟨0, rfl⟩
    | cons a ks =>
      refine ⟨(ks.map fun k => logits.getD k 0).foldl max (logits.getD a 0), ?_⟩
      have h0 : probsOf expf ((a :: ks).map fun k => logits.getD k 0)
          = ((a :: ks).map fun k => logits.getD k 0).map fun x =>
              expf (x - (ks.map fun k => logits.getD k 0).foldl max (logits.getD a 0)) := rfl
      rw [h0, List.map_map]
      apply List.map_congr_left
      intro k _
      simp only [Function.comp, wt]
      rw [sub_eq_add_neg, hadd]
  obtain ⟨mx, hmx⟩ := hc
  have h1 : absStep (Expect K) expf logits V ω e F
      = (∑ i : Fin (validProbs expf logits V ω e).length,
          (validProbs expf logits V ω e)[i] * F (ω.set e ((validList V ω e).getD i.val 0))) /
        ∑ i : Fin (validProbs expf logits V ω e).length, (validProbs expf logits V ω e)[i] := rfl
  have h2 := fin_sum_map hmx (fun k => F (ω.set e k))
  have h3 := fin_sum_map hmx (fun _ => 1)
  simp only [mul_one] at h3
  rw [h1, h2, h3]
  have hnd := nodup_validList V ω e
  rw [List.sum_toFinset _ hnd, List.sum_toFinset _ hnd]
  have h4 : ((validList V ω e).map fun k => wt expf logits k * expf (-mx) * F (ω.set e k)).sum
      = expf (-mx) * ((validList V ω e).map fun k => wt expf logits k * F (ω.set e k)).sum := by
    rw [← List.sum_map_mul_left]
    congr 1
    apply List.map_congr_left
    intro k _; ring
  have h5 : ((validList V ω e).map fun k => wt expf logits k * expf (-mx)).sum
      = expf (-mx) * ((validList V ω e).map fun k => wt expf logits k).sum := by
    rw [← List.sum_map_mul_left]
    congr 1
    apply List.map_congr_left
    intro k _; ring
  rw [h4, h5, mul_div_mul_left _ _ (hpos _).ne']

omit hadd in
theorem validSum_pos (logits : List K) {V : Nat} {ω : List Nat} (h : LTree V ω) {e : Nat} (he : e < ω.length) :
    0 < ∑ k ∈ (validList V ω e).toFinset, wt expf logits k :=
  Finset.sum_pos (fun _ _ => hpos _) ⟨ω[e], List.mem_toFinset.2 (self_mem_validList h he)⟩

omit hpos hadd in
theorem wtL_perm (logits : List K) {ω ω' : List Nat} (h : ω.Perm ω') :
    wtL expf logits ω = wtL expf logits ω' := (h.map _).prod_eq

omit hpos hadd in
theorem wtL_set (logits : List K) {ω : List Nat} {e : Nat} (he : e < ω.length) (k : Nat) :
    wtL expf logits (ω.set e k) * wt expf logits ω[e] = wtL expf logits ω * wt expf logits k := by
  rw [wtL_perm logits (List.set_perm_cons_eraseIdx he k),
    wtL_perm logits (List.getElem_cons_eraseIdx_perm he).symm]
  unfold wtL
  rw [List.map_cons, List.prod_cons, List.map_cons, List.prod_cons]
  ring

/-- One step at a fixed slot leaves the weights invariant. -/
theorem absStep_invariant (logits : List K) {V : Nat} (Ω : Finset (List Nat)) (hΩ : ∀ ω, ω ∈ Ω ↔ LTree V ω)
    {e : Nat} (he : e + 1 < V) (F : List Nat → K) :
    (∑ ω ∈ Ω, wtL expf logits ω * absStep (Expect K) expf logits V ω e F)
      = ∑ ω ∈ Ω, wtL expf logits ω * F ω := by
  have hlen : ∀ ω ∈ Ω, e < ω.length := fun ω hω => by
    have := ((hΩ ω).1 hω).length; omega
  have hL : ∀ ω ∈ Ω, wtL expf logits ω * absStep (Expect K) expf logits V ω e F
      = ∑ k ∈ (validList V ω e).toFinset, wtL expf logits ω * wt expf logits k * F (ω.set e k) /
          ∑ k ∈ (validList V ω e).toFinset, wt expf logits k := by
    intro ω _
    rw [absStep_expect hpos hadd, mul_div_assoc', Finset.mul_sum, Finset.sum_div]
    apply Finset.sum_congr rfl
    intro k _
    rw [mul_assoc]
  have hR : ∀ ω ∈ Ω, wtL expf logits ω * F ω
      = ∑ k ∈ (validList V ω e).toFinset, wtL expf logits ω * wt expf logits k * F ω /
          ∑ k ∈ (validList V ω e).toFinset, wt expf logits k := by
    intro ω hω
    have hp := validSum_pos hpos logits ((hΩ ω).1 hω) (hlen ω hω)
    rw [← Finset.sum_div, ← Finset.sum_mul, ← Finset.mul_sum]
    field_simp
  rw [Finset.sum_congr rfl hL, Finset.sum_congr rfl hR, Finset.sum_sigma', Finset.sum_sigma']
  have hmem : ∀ a ∈ Ω.sigma fun ω => (validList V ω e).toFinset,
      (⟨a.1.set e a.2, a.1.getD e 0⟩ : (_ : List Nat) × Nat) ∈ Ω.sigma fun ω => (validList V ω e).toFinset := by
    rintro ⟨ω, k⟩ ha
    rw [Finset.mem_sigma, List.mem_toFinset] at ha ⊢
    obtain ⟨h1, h2⟩ := ha
    have hω := (hΩ ω).1 h1
    have hl := hlen ω h1
    simp only at h1 h2 ⊢
    rw [validList_set, List.getD_eq_getElem?_getD, List.getElem?_eq_getElem hl]
    exact ⟨(hΩ _).2 ((mem_validList_iff hω hl k).1 h2), self_mem_validList hω hl⟩
  have hinv : ∀ a ∈ Ω.sigma fun ω => (validList V ω e).toFinset,
      (⟨(a.1.set e a.2).set e (a.1.getD e 0), (a.1.set e a.2).getD e 0⟩ : (_ : List Nat) × Nat) = a := by
    rintro ⟨ω, k⟩ ha
    rw [Finset.mem_sigma] at ha
    have hl := hlen ω ha.1
    simp only [List.set_set, List.getD_eq_getElem?_getD, List.getElem?_eq_getElem hl, Option.getD_some,
      List.set_getElem_self, List.getElem?_set_self hl]
  refine Finset.sum_nbij' (fun a => ⟨a.1.set e a.2, a.1.getD e 0⟩) (fun a => ⟨a.1.set e a.2, a.1.getD e 0⟩)
    hmem hmem hinv hinv ?_
  rintro ⟨ω, k⟩ ha
  rw [Finset.mem_sigma] at ha
  have hl := hlen ω ha.1
  simp only [validList_set, List.getD_eq_getElem?_getD, List.getElem?_eq_getElem hl, Option.getD_some]
  rw [wtL_set logits hl k]

omit hpos hadd in
theorem absRun_cons (logits : List K) (V : Nat) (ω : List Nat) (e : Nat) (slots : List Nat) (F : List Nat → K) :
    absRun (Expect K) expf logits V ω (e :: slots) F
      = absStep (Expect K) expf logits V ω e fun ω' => absRun (Expect K) expf logits V ω' slots F := by
  unfold absRun
  rw [List.foldlM_cons]
  rfl

/-- A scan of any list of slots leaves the weights invariant. -/
theorem absRun_invariant (logits : List K) {V : Nat} (Ω : Finset (List Nat)) (hΩ : ∀ ω, ω ∈ Ω ↔ LTree V ω) :
    ∀ (slots : List Nat), (∀ e ∈ slots, e + 1 < V) → ∀ F : List Nat → K,
      (∑ ω ∈ Ω, wtL expf logits ω * absRun (Expect K) expf logits V ω slots F)
        = ∑ ω ∈ Ω, wtL expf logits ω * F ω := by
  intro slots
  induction slots with
  | nil => intro _ F; rfl
  | cons e slots ih =>
    intro hs F
    simp only [absRun_cons]
    rw [absStep_invariant hpos hadd logits Ω hΩ (hs e (by simp))]
    exact ih (fun e he => hs e (by simp [he])) F

theorem absRun_congr (logits : List K) {V : Nat} : ∀ (slots : List Nat), (∀ e ∈ slots, e + 1 < V) →
    ∀ (ω : List Nat), LTree V ω → ∀ F G : List Nat → K, (∀ ω, LTree V ω → F ω = G ω) →
      absRun (Expect K) expf logits V ω slots F = absRun (Expect K) expf logits V ω slots G := by
  intro slots
  induction slots with
  | nil => intro _ ω h F G hFG; exact hFG ω h
  | cons e slots ih =>
    intro hs ω h F G hFG
    have he : e < ω.length := by
      have := h.length
      have := hs e (by simp); omega
    rw [absRun_cons, absRun_cons, absStep_expect hpos hadd, absStep_expect hpos hadd]
    congr 1
    apply Finset.sum_congr rfl
    intro k hk
    rw [ih (fun e he => hs e (by simp [he])) _ ((mem_validList_iff h he k).1 (List.mem_toFinset.1 hk)) F G hFG]

omit [Field K] [LinearOrder K] [IsStrictOrderedRing K] hpos hadd in
theorem validList_perm {V : Nat} {ω ω' : List Nat} {e j : Nat} (h : (ω.eraseIdx e).Perm (ω'.eraseIdx j)) :
    validList V ω e = validList V ω' j := by
  classical
  unfold validList
  apply crossIds_congr
  intro p _
  have hm : ∀ q, q ∈ (treeOf V ω).eraseIdx e ↔ q ∈ (treeOf V ω').eraseIdx j := by
    intro q
    unfold treeOf
    rw [List.eraseIdx_map, List.eraseIdx_map]
    exact (h.map _).mem_iff
  have hadj : Adj ((treeOf V ω).eraseIdx e) = Adj ((treeOf V ω').eraseIdx j) := by
    funext u v
    unfold Adj
    rw [hm, hm]
  have : Reach ((treeOf V ω).eraseIdx e) p.1 p.2 ↔ Reach ((treeOf V ω').eraseIdx j) p.1 p.2 := by
    unfold Reach
    rw [hadj]
  rw [Bool.eq_iff_iff, decide_eq_true_iff, decide_eq_true_iff, this]

/-- The labelled tree with slots renumbered in scan order. -/
def relabel (σ ω : List Nat) : List Nat := σ.map fun i => ω.getD i 0

omit [Field K] [LinearOrder K] [IsStrictOrderedRing K] hpos hadd in
theorem range_map_getD (ω : List Nat) : (List.range ω.length).map (fun i => ω.getD i 0) = ω := by
  apply List.ext_getElem
  · simp
  · intro i h1 h2
    simp [List.getD_eq_getElem?_getD, h2]

omit [Field K] [LinearOrder K] [IsStrictOrderedRing K] hpos hadd in
theorem relabel_perm {σ ω : List Nat} (h : σ.Perm (List.range ω.length)) : (relabel σ ω).Perm ω := by
  have := h.map fun i => ω.getD i 0
  rwa [range_map_getD] at this

omit [Field K] [LinearOrder K] [IsStrictOrderedRing K] hpos hadd in
theorem relabel_set {σ ω : List Nat} (h : σ.Perm (List.range ω.length)) {j : Nat} (hj : j < σ.length) (k : Nat) :
    relabel σ (ω.set σ[j] k) = (relabel σ ω).set j k := by
  have hnd : σ.Nodup := h.nodup_iff.2 List.nodup_range
  have hlt : ∀ i (hi : i < σ.length), σ[i] < ω.length := fun i hi =>
    List.mem_range.1 (h.mem_iff.1 (List.getElem_mem hi))
  unfold relabel
  apply List.ext_getElem
  · simp
  · intro i h1 h2
    have hi : i < σ.length := by simpa using h1
    rw [List.getElem_map, List.getElem_set, List.getElem_map, List.getD_eq_getElem?_getD,
      List.getD_eq_getElem?_getD, List.getElem?_set]
    by_cases hij : j = i
    · subst hij; simp [hlt j hi]
    · have : σ[j] ≠ σ[i] := fun hc => hij ((hnd.getElem_inj_iff).1 hc)
      rw [if_neg hij, if_neg this]

/-- Scanning in the order `σ` is scanning the renumbered tree in order. -/
theorem absRun_relabel (logits : List K) {V : Nat} {σ : List Nat} (F : List Nat → K)
    (hF : ∀ a b, a.Perm b → F a = F b) : ∀ (todo done : List Nat), σ = done ++ todo →
      ∀ ω, LTree V ω → σ.Perm (List.range ω.length) →
        absRun (Expect K) expf logits V ω todo F
          = absRun (Expect K) expf logits V (relabel σ ω) (List.range' done.length todo.length) F := by
  intro todo
  induction todo with
  | nil => intro done _ ω _ hp; exact hF _ _ (relabel_perm hp).symm
  | cons e todo ih =>
    intro done hσ ω h hp
    have hj : done.length < σ.length := by rw [hσ]; simp
    have he : σ[done.length] = e := by simp [hσ]
    have hel : e < ω.length := List.mem_range.1 (hp.mem_iff.1 (by rw [hσ]; simp))
    have hjr : done.length < (relabel σ ω).length := by simpa [relabel] using hj
    have hge : (relabel σ ω)[done.length] = ω[e] := by
      simp [relabel, he, List.getD_eq_getElem?_getD, hel]
    have hperm : (ω.eraseIdx e).Perm ((relabel σ ω).eraseIdx done.length) := by
      have h1 := List.getElem_cons_eraseIdx_perm hel
      have h2 := List.getElem_cons_eraseIdx_perm hjr
      rw [hge] at h2
      exact (h1.trans ((relabel_perm hp).symm.trans h2.symm)).cons_inv
    rw [List.length_cons, List.range'_succ, absRun_cons, absRun_cons, absStep_expect hpos hadd,
      absStep_expect hpos hadd, ← validList_perm hperm]
    congr 1
    apply Finset.sum_congr rfl
    intro k hk
    have hset := relabel_set hp hj k
    rw [he] at hset
    rw [← hset, ih (done ++ [e]) (by rw [hσ]; simp) (ω.set e k)
      ((mem_validList_iff h hel k).1 (List.mem_toFinset.1 hk)) (by rw [List.length_set]; exact hp),
      List.length_append, List.length_singleton]

end

end TreeCat
