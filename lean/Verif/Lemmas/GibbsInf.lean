import Verif.Lemmas.Gibbs

/-!
# The walk on labelled spanning trees with weights that may be zero
-/

set_option linter.unusedSectionVars false

namespace TreeCat

open Spec
open scoped BigOperators

section
variable {K : Type} [Field K] [LinearOrder K] [IsStrictOrderedRing K]

/-- The expectation of `F` after slot `e` is drawn anew with weights `q`. -/
noncomputable def gStep (q : Nat → K) (V : Nat) (ω : List Nat) (e : Nat) (F : List Nat → K) : K :=
  (∑ k ∈ (validList V ω e).toFinset, q k * F (ω.set e k)) / ∑ k ∈ (validList V ω e).toFinset, q k

/-- The expectation of `F` after a scan. -/
noncomputable def gRun (q : Nat → K) (V : Nat) (F : List Nat → K) : List Nat → List Nat → K
  | [], ω => F ω
  | e :: slots, ω => gStep q V ω e (gRun q V F slots)

/-- The weight of a labelled tree. -/
def gWeight (q : Nat → K) (ω : List Nat) : K := (ω.map q).prod

theorem gWeight_perm (q : Nat → K) {ω ω' : List Nat} (h : ω.Perm ω') : gWeight q ω = gWeight q ω' := (h.map _).prod_eq

theorem gWeight_set (q : Nat → K) {ω : List Nat} {e : Nat} (he : e < ω.length) (k : Nat) :
    gWeight q (ω.set e k) * q ω[e] = gWeight q ω * q k := by
  rw [gWeight_perm q (List.set_perm_cons_eraseIdx he k), gWeight_perm q (List.getElem_cons_eraseIdx_perm he).symm]
  unfold gWeight
  rw [List.map_cons, List.prod_cons, List.map_cons, List.prod_cons]
  ring

/-- One step at a fixed slot leaves the weights invariant. -/
theorem gStep_invariant {q : Nat → K} (hq : ∀ k, 0 ≤ q k) {V : Nat} (Ω : Finset (List Nat)) (hΩ : ∀ ω, ω ∈ Ω ↔ LTree V ω)
    {e : Nat} (he : e + 1 < V) (F : List Nat → K) :
    (∑ ω ∈ Ω, gWeight q ω * gStep q V ω e F) = ∑ ω ∈ Ω, gWeight q ω * F ω := by
  have hlen : ∀ ω ∈ Ω, e < ω.length := fun ω hω => by
    have := ((hΩ ω).1 hω).length; omega
  have hL : ∀ ω ∈ Ω, gWeight q ω * gStep q V ω e F
      = ∑ k ∈ (validList V ω e).toFinset, gWeight q ω * q k * F (ω.set e k) / ∑ k ∈ (validList V ω e).toFinset, q k := by
    intro ω _
    rw [gStep, mul_div_assoc', Finset.mul_sum, Finset.sum_div]
    apply Finset.sum_congr rfl
    intro k _
    rw [mul_assoc]
  have hR : ∀ ω ∈ Ω, gWeight q ω * F ω
      = ∑ k ∈ (validList V ω e).toFinset, gWeight q ω * q k * F ω / ∑ k ∈ (validList V ω e).toFinset, q k := by
    intro ω hω
    rw [← Finset.sum_div, ← Finset.sum_mul, ← Finset.mul_sum]
    by_cases hz : gWeight q ω = 0
    · simp [hz]
    · have hl := hlen ω hω
      have hqe : q ω[e] ≠ 0 := fun h0 => hz (List.prod_eq_zero (List.mem_map.2 ⟨_, List.getElem_mem hl, h0⟩))
      have hp : 0 < ∑ k ∈ (validList V ω e).toFinset, q k :=
        Finset.sum_pos' (fun k _ => hq k) ⟨ω[e], List.mem_toFinset.2 (self_mem_validList ((hΩ ω).1 hω) hl), lt_of_le_of_ne (hq _) hqe.symm⟩
      field_simp
  rw [Finset.sum_congr rfl hL, Finset.sum_congr rfl hR, Finset.sum_sigma', Finset.sum_sigma']
  have hmem : ∀ a ∈ Ω.sigma fun ω => (validList V ω e).toFinset,
      (⟨a.1.set e a.2, a.1.getD e 0⟩ : (_ : List Nat) × Nat) ∈ Ω.sigma fun ω => (validList V ω e).toFinset := by
    rintro ⟨ω, k⟩ ha
    rw [Finset.mem_sigma, List.mem_toFinset] at ha ⊢
    obtain ⟨h1, h2⟩ := ha
    have hω := (hΩ ω).1 h1
    have hl := hlen ω h1
    simp only at h1 h2 ⊢
    rw [validList_set, List.getD_eq_getElem?_getD, List.getElem?_eq_getElem hl]
    exact ⟨(hΩ _).2 ((mem_validList_iff hω hl k).1 h2), self_mem_validList hω hl⟩
  have hinv : ∀ a ∈ Ω.sigma fun ω => (validList V ω e).toFinset,
      (⟨(a.1.set e a.2).set e (a.1.getD e 0), (a.1.set e a.2).getD e 0⟩ : (_ : List Nat) × Nat) = a := by
    rintro ⟨ω, k⟩ ha
    rw [Finset.mem_sigma] at ha
    have hl := hlen ω ha.1
    simp only [List.set_set, List.getD_eq_getElem?_getD, List.getElem?_eq_getElem hl, Option.getD_some,
      List.set_getElem_self, List.getElem?_set_self hl]
  refine Finset.sum_nbij' (fun a => ⟨a.1.set e a.2, a.1.getD e 0⟩) (fun a => ⟨a.1.set e a.2, a.1.getD e 0⟩)
    hmem hmem hinv hinv ?_
  rintro ⟨ω, k⟩ ha
  rw [Finset.mem_sigma] at ha
  have hl := hlen ω ha.1
  simp only [validList_set, List.getD_eq_getElem?_getD, List.getElem?_eq_getElem hl, Option.getD_some]
  rw [gWeight_set q hl k]

/-- A scan of any list of slots leaves the weights invariant. -/
theorem gRun_invariant {q : Nat → K} (hq : ∀ k, 0 ≤ q k) {V : Nat} (Ω : Finset (List Nat)) (hΩ : ∀ ω, ω ∈ Ω ↔ LTree V ω) (F : List Nat → K) :
    ∀ (slots : List Nat), (∀ e ∈ slots, e + 1 < V) →
      (∑ ω ∈ Ω, gWeight q ω * gRun q V F slots ω) = ∑ ω ∈ Ω, gWeight q ω * F ω := by
  intro slots
  induction slots with
  | nil => intro _; rfl
  | cons e slots ih =>
    intro hs
    simp only [gRun]
    rw [gStep_invariant hq Ω hΩ (hs e (by simp))]
    exact ih fun e he => hs e (by simp [he])

/-- Scanning in the order `σ` is scanning the renumbered tree in order. -/
theorem gRun_relabel (q : Nat → K) {V : Nat} {σ : List Nat} (F : List Nat → K)
    (hF : ∀ a b, a.Perm b → F a = F b) : ∀ (todo done : List Nat), σ = done ++ todo →
      ∀ ω, LTree V ω → σ.Perm (List.range ω.length) →
        gRun q V F todo ω = gRun q V F (List.range' done.length todo.length) (relabel σ ω) := by
  intro todo
  induction todo with
  | nil => intro done _ ω _ hp; exact hF _ _ (relabel_perm hp).symm
  | cons e todo ih =>
    intro done hσ ω h hp
    have hj : done.length < σ.length := by rw [hσ]; simp
    have he : σ[done.length] = e := by simp [hσ]
    have hel : e < ω.length := List.mem_range.1 (hp.mem_iff.1 (by rw [hσ]; simp))
    have hjr : done.length < (relabel σ ω).length := by simpa [relabel] using hj
    have hge : (relabel σ ω)[done.length] = ω[e] := by
      simp [relabel, he, List.getD_eq_getElem?_getD, hel]
    have hperm : (ω.eraseIdx e).Perm ((relabel σ ω).eraseIdx done.length) := by
      have h1 := List.getElem_cons_eraseIdx_perm hel
      have h2 := List.getElem_cons_eraseIdx_perm hjr
      rw [hge] at h2
      exact (h1.trans ((relabel_perm hp).symm.trans h2.symm)).cons_inv
    rw [List.length_cons, List.range'_succ, gRun, gRun, gStep, gStep, ← validList_perm hperm]
    congr 1
    apply Finset.sum_congr rfl
    intro k hk
    have hset := relabel_set hp hj k
    rw [he] at hset
    rw [← hset, ih (done ++ [e]) (by rw [hσ]; simp) (ω.set e k)
      ((mem_validList_iff h hel k).1 (List.mem_toFinset.1 hk)) (by rw [List.length_set]; exact hp),
      List.length_append, List.length_singleton]

end

end TreeCat
