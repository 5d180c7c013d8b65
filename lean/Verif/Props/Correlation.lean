import Verif.Lemmas.Pair
import Verif.Props.Marginals
import Verif.Lemmas.Entropy

/-!
# C29: `latent_correlation` is exact

Entry `(i, j)` is `sqrt(1 - exp(-2 I))`, with `I` the mutual information of the latent classes of features `i` and `j` under the
joint distribution of the model. The matrix is symmetric, its entries are in `[0, 1)`, and the largest entry of each row is
the one on the diagonal.
-/

set_option linter.unusedSectionVars false

namespace TreeCat

open Spec

section
variable {K : Type} [Field K] [LinearOrder K] [IsStrictOrderedRing K] {M : Nat} [NeZero M]
variable {model : Model K M} {srv : Server K M}
variable {r : Nat} {par : Nat → Nat} {ch : Nat → List Nat} {L : List Nat} {eid : Nat → Nat}

/-- The messages that start at `r` are the joint distributions of the vertices with `r`. -/
theorem correlation_messages (h : Model.Valid model) (hc : Model.Consistent model) (s : Serves model srv) (hr : r < model.tree.numVertices)
    {prog : List Instr} (hp : makeProgram model.tree.treeGrid (some r) = .ok prog) (junk : Nat → Fin M → Fin M → K) :
    ∀ v < model.tree.numVertices, prog.foldl (correlationStep srv) junk v = pairProb model v r := by
  obtain ⟨par, ch, eid, L, P, hp'⟩ := exists_plan h hr
  rw [hp] at hp'
  obtain rfl := Except.ok.inj hp'
  have hin : ∀ (l : List Nat) (m : Nat → Fin M → Fin M → K), (l.flatMap (inBlock ch eid)).foldl (correlationStep srv) m = m := by
    intro l
    induction l with
    | nil => intro m; rfl
    | cons x l ih =>
      intro m
      rw [List.flatMap_cons, List.foldl_append, ih]
      unfold inBlock
      rw [List.foldl_cons]
      have : ∀ (cs : List Nat), (cs.map fun c => (⟨.IN, x, c, eid c⟩ : Instr)).foldl (correlationStep srv) m = m := by
        intro cs
        induction cs with
        | nil => rfl
        | cons c cs ih => rw [List.map_cons, List.foldl_cons]; exact ih
      exact this _
  unfold progOf
  rw [List.foldl_append, List.foldl_append, hin]
  simp only [List.foldl_cons, List.foldl_nil]
  have key : ∀ A B, L = A ++ B → ∀ v ∈ r :: A,
      (A.flatMap (outBlock r par eid)).foldl (correlationStep srv) (correlationStep srv junk ⟨.ROOT, r, 0, 0⟩) v = pairProb model v r := by
    intro A
    induction A using List.reverseRecOn with
    | nil =>
      intro B _ v hv
      obtain rfl : v = r := by simpa using hv
      funext a b
      rw [pair_root h hc s P]
      simp only [List.flatMap_nil, List.foldl_nil, correlationStep, Function.update_self, s.vert]
    | append_singleton A x ih =>
      intro B hL v hv
      have hL' : L = A ++ x :: B := by rw [hL]; simp
      have ih' := ih (x :: B) hL'
      have hxV : x < model.tree.numVertices := P.topo.mem.1 (by rw [hL']; simp)
      simp only [List.flatMap_append, List.foldl_append, List.flatMap_cons, List.flatMap_nil, List.append_nil]
      generalize (A.flatMap (outBlock r par eid)).foldl (correlationStep srv) (correlationStep srv junk ⟨.ROOT, r, 0, 0⟩) = st at ih'
      unfold outBlock
      by_cases hxr : x = r
      · rw [if_pos hxr]
        simp only [List.foldl_cons, List.foldl_nil, correlationStep]
        refine ih' v ?_
        simp only [List.mem_cons, List.mem_append, List.not_mem_nil, or_false] at hv ⊢
        rcases hv with h | h | h
        · exact .inl h
        · exact .inr h
        · exact .inl (h.trans hxr)
      · rw [if_neg hxr]
        simp only [List.foldl_cons, List.foldl_nil, correlationStep]
        by_cases hvx : v = x
        · subst hvx
          rw [Function.update_self]
          funext a c
          rw [pair_step h hc s P hxV hxr]
          refine Finset.sum_congr rfl fun b _ => ?_
          rw [ih' (par v) (by simp [P.topo.before A v B hL' hxr])]
        · rw [Function.update_of_ne hvx]
          refine ih' v ?_
          simp only [List.mem_cons, List.mem_append, List.not_mem_nil, or_false] at hv ⊢
          rcases hv with h | h | h
          · exact .inl h
          · exact .inr h
          · exact absurd h hvx
  intro v hv
  exact key L [] (by simp) v (by simp [P.topo.mem.2 hv])

theorem latentProb_pos' (h : Model.Valid model) (z : Nat → Fin M) : 0 < latentProb model z := by
  unfold latentProb
  refine mul_pos (Finset.prod_pos fun v hv => vertMean_pos h (Finset.mem_range.1 hv) _) (List.prod_pos fun x hx => ?_)
  obtain ⟨c, hc, rfl⟩ := List.mem_map.1 hx
  have hr := h.isTree.range (c.2.1, c.2.2) (List.mem_map.2 ⟨c, hc, rfl⟩)
  exact div_pos (edgeMean_pos h hc _ _) (mul_pos (vertMean_pos h hr.1 _) (vertMean_pos h hr.2 _))

theorem pairProb_nonneg (h : Model.Valid model) (v w : Nat) (a b : Fin M) : 0 ≤ pairProb model v w a b := by
  unfold pairProb sumLatent
  refine Finset.sum_nonneg fun z _ => ?_
  exact ite_nonneg (latentProb_pos' h _).le (le_refl _)

theorem pairProb_swap' (model : Model K M) (v w : Nat) : (fun a b => pairProb model v w b a) = pairProb model w v := by
  funext a b
  unfold pairProb
  simp only [and_comm]

theorem pairProb_swap (model : Model K M) (v w : Nat) (a b : Fin M) : pairProb model v w a b = pairProb model w v b a := by
  unfold pairProb
  simp only [and_comm]

/-- Summing out the first of the two. -/
theorem pairProb_marginal (model : Model K M) (v w : Nat) (b : Fin M) :
    ∑ a, pairProb model v w a b = sumLatent model.tree.numVertices fun z => if z w = b then latentProb model z else 0 := by
  unfold pairProb sumLatent
  rw [Finset.sum_comm]
  refine Finset.sum_congr rfl fun z _ => ?_
  simp only [ite_and]
  rw [Finset.sum_ite_eq Finset.univ, if_pos (Finset.mem_univ _)]

theorem pairProb_sum (h : Model.Valid model) (hc : Model.Consistent model) (s : Serves model srv) {v : Nat}
    (hv : v < model.tree.numVertices) (w : Nat) :
    ∑ a, ∑ b, pairProb model v w a b = 1 := by
  rw [Finset.sum_comm]
  simp only [pairProb_marginal]
  obtain ⟨par, ch, eid, L, P, -⟩ := exists_plan h hv
  rw [← latent_total h hc s P 1]
  unfold sumLatent
  rw [Finset.sum_comm]
  refine Finset.sum_congr rfl fun z _ => ?_
  rw [Finset.sum_ite_eq Finset.univ, if_pos (Finset.mem_univ _)]
  exact (mul_one _).symm

end

section
variable {M : Nat} [NeZero M] {model : Model ℝ M} {srv : Server ℝ M}

/-- **C29**: every entry is the correlation of the joint distribution of two latent variables. -/
theorem latentCorrelation_eq (h : Model.Valid model) (hc : Model.Consistent model) (s : Serves model srv) (junk : Nat → Fin M → Fin M → ℝ) :
    srv.latentCorrelation realNum junk = .ok ((List.range model.tree.numVertices).map fun i =>
      (List.range model.tree.numVertices).map fun j => rho (pairProb model i j)) := by
  unfold Server.latentCorrelation
  rw [s.tree]
  refine mapM_ok _ _ _ fun i hi => ?_
  rw [List.mem_range] at hi
  obtain ⟨par, ch, eid, L, P, hp⟩ := exists_plan h hi
  simp only [hp, bind, Except.bind]
  congr 1
  refine List.map_congr_left fun j hj => ?_
  rw [List.mem_range] at hj
  rw [correlation_messages h hc s hi hp junk j hj,
    correlation_eq _ (pairProb_nonneg h j i) (pairProb_sum h hc s hj i)]
  unfold rho
  rw [← mutualInfo_swap (pairProb model i j)]
  rw [pairProb_swap']

/-- **C29**: the matrix is symmetric, its entries are in `[0, 1)`, and no entry exceeds the diagonal of its row. -/
theorem latentCorrelation_spec (h : Model.Valid model) (hc : Model.Consistent model) (s : Serves model srv)
    (junk : Nat → Fin M → Fin M → ℝ) :
    ∃ m : Nat → Nat → ℝ, srv.latentCorrelation realNum junk = .ok ((List.range model.tree.numVertices).map fun i =>
        (List.range model.tree.numVertices).map fun j => m i j) ∧
      ∀ i < model.tree.numVertices, ∀ j < model.tree.numVertices,
        0 ≤ m i j ∧ m i j < 1 ∧ m i j = m j i ∧ m i j ≤ m i i ∧
        m i i ^ 2 = 1 - Real.exp (-2 * shannon Finset.univ (vertMean model i)) := by
  refine ⟨fun i j => rho (pairProb model i j), latentCorrelation_eq h hc s junk, fun i hi j hj => ?_⟩
  have hdiag : mutualInfo (pairProb model i i) = shannon Finset.univ (vertMean model i) := by
    obtain ⟨par, ch, eid, L, P, -⟩ := exists_plan h hi
    have e := pair_root h hc s P
    rw [mutualInfo_diag _ (pairProb_nonneg h i i) fun a b hab => by rw [e, if_neg hab]]
    congr 1
    funext b
    simp only [e]
    rw [Finset.sum_ite_eq' Finset.univ, if_pos (Finset.mem_univ _)]
  have hswap : mutualInfo (pairProb model i j) = mutualInfo (pairProb model j i) := by
    rw [← mutualInfo_swap (pairProb model i j), pairProb_swap']
  refine ⟨(rho_range _).1, (rho_range _).2, ?_, rho_mono ?_, ?_⟩
  · simp only [rho]; rw [hswap]
  · have hd : mutualInfo (pairProb model i i) = shannon Finset.univ (fun b => ∑ a, pairProb model i i a b) := by
      obtain ⟨par, ch, eid, L, P, -⟩ := exists_plan h hi
      exact mutualInfo_diag _ (pairProb_nonneg h i i) fun a b hab => by rw [pair_root h hc s P, if_neg hab]
    rw [hswap, hd]
    refine (mutualInfo_le _ (pairProb_nonneg h j i)).trans_eq ?_
    simp only [pairProb_marginal]
  · rw [rho_sq _ (pairProb_nonneg h i i) (pairProb_sum h hc s hi i), hdiag]

/-- The correlation of two features is zero just when their latent classes are independent. -/
theorem rho_eq_zero_iff (p : Fin M → Fin M → ℝ) (h0 : ∀ a b, 0 ≤ p a b) (h1 : ∑ a, ∑ b, p a b = 1) :
    rho p = 0 ↔ ∀ a b, p a b = (∑ b', p a b') * ∑ a', p a' b := by
  rw [← mutualInfo_eq_zero_iff p h0 h1]
  have := rho_sq p h0 h1
  constructor
  · intro h
    rw [h] at this
    have e : Real.exp (-2 * mutualInfo p) = 1 := by linarith
    rw [Real.exp_eq_one_iff] at e
    linarith
  · intro h
    rw [h] at this
    simpa using this

end

/-- The ends of a path are correlated through its middle: the theorems apply, and the joint distribution is not a product. -/
example (junk : Nat → Fin 2 → Fin 2 → ℝ) : ∃ srv : Server ℝ 2, Serves (pathModel ℝ) srv ∧
    srv.latentCorrelation realNum junk = .ok ((List.range 3).map fun i => (List.range 3).map fun j => rho (pairProb (pathModel ℝ) i j)) := by
  obtain ⟨mst, hmst⟩ := exists_mst (K := ℝ)
  obtain ⟨srv, -, s, -⟩ := server_init hmst (pathModel_valid ℝ)
  exact ⟨srv, s, latentCorrelation_eq (pathModel_valid ℝ) (pathModel_consistent ℝ) s junk⟩

example : pairProb (pathModel ℚ) 0 2 0 0 = 13 / 36 ∧ pairProb (pathModel ℚ) 0 2 0 1 = 5 / 36 ∧
    pairProb (pathModel ℚ) 0 1 0 0 = 5 / 12 := by decide +kernel

end TreeCat
