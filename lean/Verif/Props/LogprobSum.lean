import Mathlib.Algebra.BigOperators.Ring.Finset
import Verif.Props.Logprob

/-!
# C23: `logprob` is normalised and marginalises missing data
-/

set_option linter.unusedSectionVars false

namespace TreeCat

open Spec

namespace Spec

/-- The row `ev` with one more observation of each of the columns `c i`. -/
def withObs {ι : Type} [Fintype ι] (ev : List Int) (c : ι → Nat) : List Int :=
  ev.mapIdx fun r x => x + (Finset.univ.filter fun i => c i = r).card

/-- The choices of a column for the observation `i` of feature `f i`. -/
def choices {K : Type} {M : Nat} [Field K] {ι : Type} [Fintype ι] [DecidableEq ι] (model : Model K M) (f : ι → Nat) : Finset (ι → Nat) :=
  Fintype.piFinset fun i => columns model (f i)

end Spec

section
variable {K : Type} [Field K] [LinearOrder K] [IsStrictOrderedRing K] {M : Nat} [NeZero M]
variable {model : Model K M} {ι : Type} [Fintype ι] [DecidableEq ι]

theorem rowProb_add (h : Model.Valid model) (f : ι → Nat) (hf : ∀ i, f i < model.tree.numVertices) (x : Nat → Int)
    {c : ι → Nat} (hc : c ∈ choices model f) (z : Nat → Fin M) :
    rowProb model (fun r => x r + (Finset.univ.filter fun i => c i = r).card) z
      = rowProb model x z * ∏ i, featMean model (f i) (c i) (z (f i)) := by
  have hc' : ∀ i, c i ∈ columns model (f i) := Fintype.mem_piFinset.1 hc
  unfold rowProb
  have e1 : ∀ v ∈ Finset.range model.tree.numVertices,
      ∏ r ∈ columns model v, featMean model v r (z v) ^ (x r + ((Finset.univ.filter fun i => c i = r).card : Int))
      = (∏ r ∈ columns model v, featMean model v r (z v) ^ x r) *
        ∏ i, ∏ r ∈ columns model v, if c i = r then featMean model v r (z v) else 1 := by
    intro v hv
    rw [Finset.prod_comm, ← Finset.prod_mul_distrib]
    refine Finset.prod_congr rfl fun r hr => ?_
    rw [zpow_add₀ (featMean_pos h (Finset.mem_range.1 hv) hr _).ne', zpow_natCast, ← Finset.prod_filter, Finset.prod_const]
  rw [Finset.prod_congr rfl e1, Finset.prod_mul_distrib]
  congr 1
  rw [Finset.prod_comm]
  refine Finset.prod_congr rfl fun i _ => ?_
  rw [Finset.prod_eq_single (f i), Finset.prod_eq_single (c i), if_pos rfl]
  · intro r _ hr; rw [if_neg (Ne.symm hr)]
  · intro hn; exact absurd (hc' i) hn
  · intro v hv hne
    refine Finset.prod_eq_one fun r hr => ?_
    rw [if_neg]
    rintro rfl
    exact hne (columns_disjoint h (Finset.mem_range.1 hv) (hf i) hr (hc' i))
  · intro hn; exact absurd (Finset.mem_range.2 (hf i)) hn

/-- Summing over the outcomes of further observations. -/
theorem dataProb_sum (h : Model.Valid model) (f : ι → Nat) (hf : ∀ i, f i < model.tree.numVertices)
    (hne : ∀ i, (columns model (f i)).Nonempty) (x : Nat → Int) :
    ∑ c ∈ choices model f, dataProb model (fun r => x r + (Finset.univ.filter fun i => c i = r).card) = dataProb model x := by
  unfold dataProb sumLatent
  rw [Finset.sum_comm]
  refine Finset.sum_congr rfl fun z _ => ?_
  rw [← Finset.mul_sum]
  congr 1
  rw [Finset.sum_congr rfl fun c hc => rowProb_add h f hf x hc _, ← Finset.mul_sum]
  unfold choices
  rw [← Finset.prod_univ_sum (fun i => columns model (f i)) (fun i j => featMean model (f i) j
    (if h : f i < model.tree.numVertices then z ⟨f i, h⟩ else 0)), Finset.prod_eq_one, mul_one]
  intro i _
  exact featMean_sum h (hf i) (hne i) _

theorem dataProb_congr (h : Model.Valid model) {x y : Nat → Int} (hxy : ∀ r < model.raggedIndex.getLastD 0, x r = y r) :
    dataProb model x = dataProb model y := by
  unfold dataProb rowProb
  congr 1; funext z
  congr 1
  refine Finset.prod_congr rfl fun v hv => Finset.prod_congr rfl fun r hr => ?_
  rw [hxy r]
  have h1 := model_beg_le h (show v + 1 ≤ model.tree.numVertices from Finset.mem_range.1 hv) (le_refl _)
  have h2 := (mem_columns.1 hr).2
  have h3 : model.raggedIndex.getLastD 0 = model.raggedIndex.getD model.tree.numVertices 0 := by
    rw [List.getLastD_eq_getLast?, List.getLast?_eq_getElem?, h.ragged, List.getD_eq_getElem?_getD]
    rfl
  omega

/-- The latent classes have a probability distribution. -/
theorem latentProb_sum (h : Model.Valid model) (hc : Model.Consistent model) :
    sumLatent model.tree.numVertices (latentProb model) = 1 := by
  obtain ⟨mst, hmst⟩ := exists_mst (K := K)
  obtain ⟨srv, -, s, -⟩ := server_init hmst h
  have hV : 0 < model.tree.numVertices := by have := h.isTree.card; omega
  obtain ⟨par, ch, eid, L, P, -⟩ := exists_plan h hV
  have hmu : ∀ v < model.tree.numVertices, v ≠ 0 → ∀ m, mu (servePsi 0 par eid srv.edgeTrans) (vertMean model) v m = 1 := by
    intro v hv hv0 m
    unfold mu servePsi
    simp only [if_neg hv0]
    have h2 := P.parent v hv hv0
    have hp := (vertMean_pos h h2.1 m).ne'
    have hm := upEntry_mem P hv hv0
    obtain ⟨e1, e2⟩ := edgeMean_sum hc hm
    have ht := s.trans _ hm
    unfold transAt
    unfold upEntry at e1 e2 ht
    by_cases hlt : par v < v
    · rw [if_pos hlt] at e1 ht
      simp only [if_neg (show ¬ v < par v by omega)] at e1 ht ⊢
      rw [ht, ← div_self hp]
      conv_rhs => rw [← e1 m, Finset.sum_div]
      refine Finset.sum_congr rfl fun m' _ => ?_
      have := (vertMean_pos h hv m').ne'
      rw [e1 m]
      field_simp
    · rw [if_neg hlt] at e2 ht
      simp only [if_pos (show v < par v by omega)] at e2 ht ⊢
      rw [ht, ← div_self hp]
      conv_rhs => rw [← e2 m, Finset.sum_div]
      refine Finset.sum_congr rfl fun m' _ => ?_
      have := (vertMean_pos h hv m').ne'
      rw [e2 m]
      field_simp
  have key := sumOver_treeWeight P.topo (φ := fun v m => vertMean model v m * serveU model [] v m)
    (ψ := servePsi 0 par eid srv.edgeTrans) (b := vertMean model) (S := fun _ => 1) (by
      intro v hv m
      have : ((ch v).map fun c => mu (servePsi 0 par eid srv.edgeTrans) (vertMean model) c m).prod = 1 := by
        refine List.prod_eq_one fun x hx => ?_
        obtain ⟨c, hc', rfl⟩ := List.mem_map.1 hx
        obtain ⟨h1, h2, -⟩ := (P.topo.ch_mem v hv c).1 hc'
        exact hmu c h1 h2 m
      rw [this]
      simp [serveU])
    (fun v hv m => (mu_pos (servePsi_pos h s P hv) (vertMean_pos h hv) m).ne')
    (by rw [vertMean_sum h hV]; exact one_ne_zero) (fun _ => 0)
  rw [vertMean_sum h hV] at key
  simp only [serve_treeWeight s P] at key
  unfold sumLatent
  have e : (L.map fun _ => (1 : K)).prod = 1 := by simp
  rw [e, mul_one] at key
  rw [← key]
  refine Finset.sum_congr rfl fun z _ => ?_
  have e2 : rowProb model (fun r => ([] : List Int).getD r 0) (overlay (fun _ => 0) z) = 1 := by simp [rowProb]
  rw [e2, mul_one]
  rfl

theorem dataProb_zero (h : Model.Valid model) (hc : Model.Consistent model) : dataProb model (fun _ => 0) = 1 := by
  rw [← latentProb_sum h hc]
  unfold dataProb
  congr 1; funext z
  simp [rowProb]

theorem withObs_getD {ev : List Int} {c : ι → Nat} {r : Nat} (hr : r < ev.length) :
    (withObs ev c).getD r 0 = ev.getD r 0 + (Finset.univ.filter fun i => c i = r).card := by
  unfold withObs
  rw [List.getD_eq_getElem _ _ (by simpa using hr), List.getElem_mapIdx, List.getD_eq_getElem _ _ hr]

end

section
variable {M : Nat} [NeZero M] {model : Model ℝ M} {srv : Server ℝ M} {ι : Type} [Fintype ι] [DecidableEq ι]

/-- **C23.** Missing observations are marginalised: the probabilities of the outcomes of any family of further
observations (of any features, also repeated ones) add up to that of the row without them. -/
theorem logprob_marginal (h : Model.Valid model) (s : Serves model srv) (f : ι → Nat) (hf : ∀ i, f i < model.tree.numVertices)
    (hne : ∀ i, (columns model (f i)).Nonempty) (ev : List Int) (hev : ev.length = model.raggedIndex.getLastD 0) :
    ∃ lp : List Int → ℝ, (∀ row, logprobWith realNum srv srv.program row = some (lp row)) ∧
      ∑ c ∈ choices model f, Real.exp (lp (withObs ev c)) = Real.exp (lp ev) := by
  obtain ⟨r, hr, hp⟩ := exists_plan_none h s.program
  choose lp h1 h2 using fun row => logprob_exact h s hr hp row
  refine ⟨lp, h1, ?_⟩
  simp only [h2]
  rw [← dataProb_sum h f hf hne]
  refine Finset.sum_congr rfl fun c _ => dataProb_congr h fun r hr => ?_
  rw [withObs_getD (by omega)]

/-- **C23.** Conditional probabilities `logprob(row + evidence) - logprob(evidence)` are normalised. -/
theorem logprob_conditional (h : Model.Valid model) (s : Serves model srv) (f : ι → Nat) (hf : ∀ i, f i < model.tree.numVertices)
    (hne : ∀ i, (columns model (f i)).Nonempty) (ev : List Int) (hev : ev.length = model.raggedIndex.getLastD 0) :
    ∃ lp : List Int → ℝ, (∀ row, logprobWith realNum srv srv.program row = some (lp row)) ∧
      ∑ c ∈ choices model f, Real.exp (lp (withObs ev c) - lp ev) = 1 := by
  obtain ⟨lp, h1, h2⟩ := logprob_marginal h s f hf hne ev hev
  refine ⟨lp, h1, ?_⟩
  simp only [Real.exp_sub]
  rw [← Finset.sum_div, h2, div_self (Real.exp_ne_zero _)]

/-- **C23.** Under consistent statistics an all-missing row has log probability zero. -/
theorem logprob_missing (h : Model.Valid model) (hc : Model.Consistent model) (s : Serves model srv) (ev : List Int)
    (hev : ∀ x ∈ ev, x = 0) : logprobWith realNum srv srv.program ev = some 0 := by
  obtain ⟨r, hr, hp⟩ := exists_plan_none h s.program
  obtain ⟨lp, h1, h2⟩ := logprob_exact h s hr hp ev
  have : (fun r => ev.getD r 0) = fun _ => 0 := by
    funext r
    rcases Nat.lt_or_ge r ev.length with hr | hr
    · rw [List.getD_eq_getElem _ _ hr]; exact hev _ (List.getElem_mem hr)
    · rw [List.getD_eq_default _ _ hr]
  rw [this, dataProb_zero h hc, ← Real.exp_zero] at h2
  rw [h1, Real.exp_injective h2]

/-- **C23.** Under consistent statistics the probabilities of all fully observed categorical rows add up to one. -/
theorem logprob_normalised (h : Model.Valid model) (hc : Model.Consistent model) (s : Serves model srv)
    (hne : ∀ v < model.tree.numVertices, (columns model v).Nonempty) :
    ∃ lp : List Int → ℝ, (∀ row, logprobWith realNum srv srv.program row = some (lp row)) ∧
      ∑ c ∈ choices model (fun v : Fin model.tree.numVertices => v.val),
        Real.exp (lp (withObs (List.replicate (model.raggedIndex.getLastD 0) 0) c)) = 1 := by
  obtain ⟨lp, h1, h2⟩ := logprob_marginal h s (fun v : Fin model.tree.numVertices => v.val) (fun v => v.isLt)
    (fun v => hne v v.isLt) (List.replicate (model.raggedIndex.getLastD 0) 0) (by simp)
  refine ⟨lp, h1, ?_⟩
  have h3 := logprob_missing h hc s (List.replicate (model.raggedIndex.getLastD 0) 0) (fun x hx => List.eq_of_mem_replicate hx)
  rw [h1] at h3
  rw [h2, Option.some.inj h3, Real.exp_zero]

end

/-- The hypotheses hold of the example. -/
example : ∃ srv : Server ℝ 2, Serves (exampleModel ℝ) srv ∧ logprobWith realNum srv srv.program [0, 0, 0, 0, 0, 0, 0] = some 0 ∧
    ∃ lp : List Int → ℝ, (∀ row, logprobWith realNum srv srv.program row = some (lp row)) ∧
      ∑ c ∈ choices (exampleModel ℝ) (fun v : Fin 3 => v.val), Real.exp (lp (withObs [0, 0, 0, 0, 0, 0, 0] c)) = 1 := by
  obtain ⟨mst, hmst⟩ := exists_mst (K := ℝ)
  obtain ⟨srv, -, s, -⟩ := server_init hmst (exampleModel_valid ℝ)
  refine ⟨srv, s, logprob_missing (exampleModel_valid ℝ) (exampleModel_consistent ℝ) s _ (by decide), ?_⟩
  refine logprob_normalised (exampleModel_valid ℝ) (exampleModel_consistent ℝ) s ?_
  intro v hv
  have : v = 0 ∨ v = 1 ∨ v = 2 := by change v < 3 at hv; omega
  rcases this with rfl | rfl | rfl
  · exact ⟨0, by simp [columns, exampleModel]⟩
  · exact ⟨2, by simp [columns, exampleModel]⟩
  · exact ⟨5, by simp [columns, exampleModel]⟩

/-- There are twelve such rows. -/
example : (choices (exampleModel ℚ) (fun v : Fin 3 => v.val)).card = 12 := by decide +kernel

/-- Summing over the number of successes of a repeated binary observation needs the binomial coefficients that
`logprob` leaves out: with two observations of feature 0 the plain sum over the three rows is not one. -/
example : dataProb (exampleModel ℚ) (fun r => [2, 0, 0, 0, 0, 0, 0].getD r 0)
    + dataProb (exampleModel ℚ) (fun r => [1, 1, 0, 0, 0, 0, 0].getD r 0)
    + dataProb (exampleModel ℚ) (fun r => [0, 2, 0, 0, 0, 0, 0].getD r 0) ≠ 1 := by decide +kernel

end TreeCat
