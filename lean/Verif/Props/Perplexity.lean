import Verif.Lemmas.Pair
import Verif.Lemmas.Entropy
import Verif.Props.Marginals

/-!
# C28: perplexities

`latent_perplexity` is `exp` of the entropy of the latent class, between 1 and the number of classes. `observed_perplexity` is
`exp` of the entropy of one observation, between 1 and the number of categories, whatever counts are asked for: the test of
the argument is the wrong way round. `multinomial_entropy`, which would handle the counts, is right where it is implemented.
-/

set_option linter.unusedSectionVars false

namespace TreeCat

open Spec

section
variable {M : Nat} [NeZero M] {model : Model ℝ M} {srv : Server ℝ M}

/-- **C28**, latent: the perplexity of the latent classes, in `[1, M]`. -/
theorem latentPerplexity_spec (h : Model.Valid model) (s : Serves model srv) :
    srv.latentPerplexity realNum = ((List.range model.tree.numVertices).map fun v =>
      Real.exp (shannon Finset.univ (vertMean model v))) ∧
    ∀ v < model.tree.numVertices, 1 ≤ Real.exp (shannon Finset.univ (vertMean model v)) ∧
      Real.exp (shannon Finset.univ (vertMean model v)) ≤ M := by
  refine ⟨?_, fun v hv => ?_⟩
  · unfold Server.latentPerplexity
    rw [s.tree]
    refine List.map_congr_left fun v hv => ?_
    rw [s.vert, entropy_finRange _ (vertMean_sum h (List.mem_range.1 hv))]
    rfl
  · have := perplexity_range Finset.univ (vertMean model v) (fun m _ => (vertMean_pos h hv m).le) (vertMean_sum h hv)
    rw [Finset.card_univ, Fintype.card_fin] at this
    exact this

end

section
variable {K : Type} [Field K] [LinearOrder K] [IsStrictOrderedRing K] {M : Nat} [NeZero M]
variable {model : Model K M} {srv : Server K M}

/-- Means of functions of one latent class. -/
theorem latent_mean (h : Model.Valid model) (hc : Model.Consistent model) {v : Nat} (hv : v < model.tree.numVertices) (f : Fin M → K) :
    sumLatent model.tree.numVertices (fun z => latentProb model z * f (z v)) = ∑ a, vertMean model v a * f a := by
  obtain ⟨mst, hmst⟩ := exists_mst (K := K)
  obtain ⟨srv, -, s, -⟩ := server_init hmst h
  obtain ⟨par, ch, eid, L, P, -⟩ := exists_plan h hv
  have e : ∀ z : Nat → Fin M, latentProb model z * f (z v)
      = ∑ a, latentProb model z * if z v = a then f a else 0 := by
    intro z
    rw [← Finset.mul_sum, Finset.sum_ite_eq Finset.univ, if_pos (Finset.mem_univ _)]
  simp only [e]
  have e2 : ∀ a, sumLatent model.tree.numVertices (fun z => latentProb model z * if z v = a then f a else 0)
      = vertMean model v a * f a := by
    intro a
    obtain ⟨T, hT⟩ := P.topo.head
    rw [latent_step h hc s P (A := []) (B := T) hT (fun _ => f a) (fun _ _ _ => rfl) a]
    have : ∀ z : Nat → Fin M, condProb v par (servePsi v par eid srv.edgeTrans) (vertMean model) v (Function.update z v a)
        = vertMean model v a := by
      intro z
      rw [condProb, if_pos rfl, vertMean_sum h hv, div_one, Function.update_self]
    simp only [this]
    exact latent_total h hc s P _
  simp only [← e2]
  unfold sumLatent
  rw [Finset.sum_comm]

/-- The distribution of an observation when nothing is known. -/
theorem predictive_empty (h : Model.Valid model) (hc : Model.Consistent model) {v : Nat} (hv : v < model.tree.numVertices) {c : Nat}
    (hcv : c ∈ columns model v) : predictive model (fun _ => 0) c = ∑ a, featMean model v c a * vertMean model v a := by
  unfold predictive
  have e0 : dataProb model (fun _ => 0) = 1 := by
    unfold dataProb
    have := latentProb_sum h hc
    rw [← this]
    congr 1
    funext z
    have : rowProb model (fun _ => 0) z = 1 := Finset.prod_eq_one fun v _ => Finset.prod_eq_one fun c _ => by simp
    rw [this, mul_one]
  have e1 : dataProb model (fun c' => 0 + if c' = c then 1 else 0)
      = sumLatent model.tree.numVertices (fun z => latentProb model z * featMean model v c (z v)) := by
    unfold dataProb
    congr 1
    funext z
    congr 1
    unfold rowProb
    rw [Finset.prod_eq_single v]
    · rw [Finset.prod_eq_single c]
      · simp
      · intro c' _ hc'; simp [hc']
      · intro hn; exact absurd hcv hn
    · intro w hw hwv
      refine Finset.prod_eq_one fun c' hc' => ?_
      have : c' ≠ c := by
        rintro rfl
        exact hwv (columns_disjoint h (Finset.mem_range.1 hw) hv hc' hcv)
      simp [this]
    · intro hn; exact absurd (Finset.mem_range.2 hv) hn
  rw [e0, e1, div_one, latent_mean h hc hv]
  exact Finset.sum_congr rfl fun a _ => mul_comm _ _

theorem predictive_empty_sum (h : Model.Valid model) (hc : Model.Consistent model) {v : Nat} (hv : v < model.tree.numVertices)
    (hne : (columns model v).Nonempty) : ∑ c ∈ columns model v, predictive model (fun _ => 0) c = 1 := by
  rw [Finset.sum_congr rfl fun c hcv => predictive_empty h hc hv hcv, Finset.sum_comm, ← vertMean_sum h hv]
  refine Finset.sum_congr rfl fun a _ => ?_
  rw [← Finset.sum_mul, featMean_sum h hv hne, one_mul]

theorem predictive_empty_nonneg (h : Model.Valid model) (hc : Model.Consistent model) {v : Nat} (hv : v < model.tree.numVertices)
    {c : Nat} (hcv : c ∈ columns model v) : 0 ≤ predictive model (fun _ => 0) c := by
  rw [predictive_empty h hc hv hcv]
  exact Finset.sum_nonneg fun a _ => mul_nonneg (featMean_pos h hv hcv a).le (vertMean_pos h hv a).le

end

/-! ### `multinomial_entropy` -/

theorem getD_map_range {α : Type} (f : Nat → α) (d : α) {n : Nat} (hf : ∀ i, n ≤ i → f i = d) (i : Nat) :
    ((List.range n).map f).getD i d = f i := by
  rw [List.getD_eq_getElem?_getD, List.getElem?_map]
  by_cases h : i < n
  · rw [List.getElem?_range h]; rfl
  · rw [List.getElem?_eq_none (by simpa using h)]; exact (hf i (by omega)).symm

/-- Binomial probabilities. -/
noncomputable def binom (p q : ℝ) (n k : Nat) : ℝ := n.choose k * p ^ (n - k) * q ^ k

theorem convolve_binom (p q : ℝ) (n : Nat) :
    convolve ((List.range (n + 1)).map (binom p q n)) [p, q] = (List.range (n + 2)).map (binom p q (n + 1)) := by
  unfold convolve
  have hlen : ((List.range (n + 1)).map (binom p q n)).length + [p, q].length - 1 = n + 2 := by simp
  rw [hlen]
  refine List.map_congr_left fun k hk => ?_
  rw [List.mem_range] at hk
  have hz : ∀ i, n + 1 ≤ i → binom p q n i = 0 := fun i hi => by
    unfold binom; rw [Nat.choose_eq_zero_of_lt (by omega)]; simp
  simp only [getD_map_range _ _ hz]
  have hs : ((List.range (k + 1)).map fun i => binom p q n i * [p, q].getD (k - i) 0).sum
      = ∑ i ∈ Finset.range (k + 1), binom p q n i * [p, q].getD (k - i) 0 := rfl
  rw [hs]
  cases k with
  | zero =>
    simp [binom, pow_succ]
  | succ k =>
    rw [Finset.sum_range_succ, Finset.sum_range_succ, Finset.sum_eq_zero]
    · have e1 : k + 1 - k = 1 := by omega
      rw [e1, Nat.sub_self]
      simp only [List.getD_cons_zero, List.getD_cons_succ, zero_add]
      unfold binom
      rw [Nat.choose_succ_succ]
      have e2 : n + 1 - (k + 1) = n - k := by omega
      rw [e2, Nat.cast_add]
      by_cases hkn : k < n
      · have e3 : n - k = (n - (k + 1)) + 1 := by omega
        rw [e3]; ring
      · rw [Nat.choose_eq_zero_of_lt (show n < k + 1 by omega)]
        simp; ring
    · intro i hi
      rw [Finset.mem_range] at hi
      obtain ⟨j, hj⟩ : ∃ j, k + 1 - i = j + 2 := ⟨k + 1 - i - 2, by omega⟩
      rw [hj]; simp

theorem binom_one (p q : ℝ) : [p, q] = (List.range 2).map (binom p q 1) := by
  simp [binom, List.range_succ]

theorem binom_sum (p q : ℝ) (n : Nat) : ((List.range (n + 1)).map (binom p q n)).sum = (p + q) ^ n := by
  change ∑ k ∈ Finset.range (n + 1), binom p q n k = _
  rw [add_comm p q, add_pow]
  refine Finset.sum_congr rfl fun k _ => ?_
  unfold binom; ring

theorem foldlM_ok {α β : Type} (f : β → α → Py β) (g : β → α → β) (l : List α) (b : β) (hf : ∀ b a, f b a = .ok (g b a)) :
    l.foldlM f b = .ok (l.foldl g b) := by
  induction l generalizing b with
  | nil => rfl
  | cons a l ih => rw [List.foldlM_cons, hf]; exact ih _

/-- The counts of one draw. -/
theorem multinomialShannon_one {k : Nat} (p : Fin k → ℝ) : multinomialShannon p 1 = shannon Finset.univ p := by
  classical
  unfold multinomialShannon shannon
  symm
  refine Finset.sum_bij (fun i _ => Pi.single i 1) (fun i _ => ?_) (fun i _ j _ hij => ?_) (fun x hx => ?_) (fun i _ => ?_)
  · rw [Finset.Nat.mem_antidiagonalTuple]
    simp
  · by_contra hne
    have := congrFun hij i
    simp [hne] at this
  · rw [Finset.Nat.mem_antidiagonalTuple] at hx
    obtain ⟨i, hi⟩ : ∃ i, x i ≠ 0 := by
      by_contra hall
      push Not at hall
      simp [hall] at hx
    refine ⟨i, Finset.mem_univ _, ?_⟩
    rw [← Finset.add_sum_erase _ _ (Finset.mem_univ i)] at hx
    have h1 : x i = 1 := by omega
    have h2 : ∑ j ∈ Finset.univ.erase i, x j = 0 := by omega
    rw [Finset.sum_eq_zero_iff] at h2
    funext j
    by_cases hj : j = i
    · subst hj; rw [Pi.single_eq_same, h1]
    · rw [Pi.single_eq_of_ne hj, h2 j (by simp [hj])]
  · dsimp only
    rw [Nat.multinomial_single, Finset.prod_eq_single i]
    · simp
    · intro j _ hj; rw [Pi.single_eq_of_ne hj, pow_zero]
    · intro hn; exact absurd (Finset.mem_univ _) hn

theorem multinomialShannon_two (p q : ℝ) (n : Nat) :
    multinomialShannon ![p, q] n = ∑ k ∈ Finset.range (n + 1), Real.negMulLog (binom p q n k) := by
  unfold multinomialShannon shannon
  rw [Finset.Nat.antidiagonalTuple_two, Finset.sum_map, Finset.Nat.sum_antidiagonal_eq_sum_range_succ_mk,
    ← Finset.sum_range_reflect]
  refine Finset.sum_congr rfl fun k hk => ?_
  rw [Finset.mem_range] at hk
  have e1 : n + 1 - 1 - k = n - k := by omega
  have e2 : n - (n - k) = k := by omega
  simp only [e1, e2]
  congr 1
  change (Nat.multinomial Finset.univ ![n - k, k] : ℝ) * ∏ i, ![p, q] i ^ ![n - k, k] i = _
  simp only [Fin.prod_univ_two, Matrix.cons_val_zero, Matrix.cons_val_one]
  have : Nat.multinomial Finset.univ ![n - k, k] = n.choose k := by
    rw [Nat.multinomial_univ_two, show n - k + k = n by omega, Nat.choose_eq_factorial_div_factorial (by omega), mul_comm]
  rw [this]
  unfold binom; ring

/-- `multinomial_entropy` for one draw, or for two categories. -/
theorem multinomialEntropy_spec {k : Nat} (p : Fin k → ℝ) (h1 : ∑ i, p i = 1) (n : Nat) (hn : 0 < n) (hk : n = 1 ∨ k ≤ 2) :
    multinomialEntropy realNum ((List.finRange k).map p) (n : Int) = .ok (multinomialShannon p n) := by
  have hn' : decide ((0 : Int) < n) = true := by rw [decide_eq_true_eq]; exact_mod_cast hn
  unfold multinomialEntropy
  simp only [hn', pyAssert, if_true, bind, Except.bind]
  have ht : ((n : Int) - 1).toNat = n - 1 := by omega
  rw [ht]
  by_cases hn1 : n = 1
  · subst hn1
    rw [multinomialShannon_one, ← entropy_finRange p h1]
    rfl
  · have hk2 : k ≤ 2 := by omega
    have hf : ∀ (multi : List ℝ) (_ : Nat), (if 2 < ((List.finRange k).map p).length then (.error .notImplemented : Py (List ℝ))
        else .ok (convolve multi ((List.finRange k).map p))) = .ok (convolve multi ((List.finRange k).map p)) := by
      intro multi _
      rw [if_neg (by simpa using hk2)]
    rw [foldlM_ok _ (fun multi _ => convolve multi ((List.finRange k).map p)) _ _ hf]
    simp only
    congr 1
    match k, p, h1, hk2 with
    | 0, p, h1, _ => simp at h1
    | 1, p, h1, _ =>
      have hp : p 0 = 1 := by simpa using h1
      have e : (List.finRange 1).map p = [1] := by simp [List.finRange_succ, hp]
      rw [e]
      have : ∀ l : List Nat, l.foldl (fun (multi : List ℝ) _ => convolve multi [1]) [1] = [1] := by
        intro l
        induction l with
        | nil => rfl
        | cons a l ih =>
          rw [List.foldl_cons]
          have : convolve [(1 : ℝ)] [1] = [1] := by simp [convolve]
          rw [this, ih]
      rw [this, entropy_real _ (by simp)]
      unfold multinomialShannon shannon
      rw [Finset.Nat.antidiagonalTuple_one, Finset.sum_singleton]
      simp [hp, Nat.multinomial]
      rw [div_self (by exact_mod_cast (Nat.factorial_pos n).ne')]
      simp
    | 2, p, h1, _ =>
      have e : (List.finRange 2).map p = [p 0, p 1] := by simp [List.finRange_succ]
      have hp : p = ![p 0, p 1] := by
        funext i; match i with
        | 0 => rfl
        | 1 => rfl
      have hfold : ∀ j, (List.range j).foldl (fun (multi : List ℝ) _ => convolve multi [p 0, p 1]) [p 0, p 1]
          = (List.range (j + 2)).map (binom (p 0) (p 1) (j + 1)) := by
        intro j
        induction j with
        | zero => exact binom_one _ _
        | succ j ih => rw [List.range_succ, List.foldl_append, ih]; exact convolve_binom _ _ _
      rw [e, hfold, show n - 1 + 2 = n + 1 by omega, show n - 1 + 1 = n by omega]
      rw [Fin.sum_univ_two] at h1
      rw [entropy_real _ (by rw [binom_sum, h1, one_pow]), hp, multinomialShannon_two, List.map_map]
      rfl

/-- More than two categories are only implemented for one draw. -/
theorem multinomialEntropy_error (l : List ℝ) (hl : 2 < l.length) (n : Nat) (hn : 1 < n) :
    multinomialEntropy realNum l (n : Int) = .error .notImplemented := by
  have hn' : decide ((0 : Int) < n) = true := by rw [decide_eq_true_eq]; omega
  unfold multinomialEntropy
  simp only [hn', pyAssert, if_true, bind, Except.bind]
  obtain ⟨j, hj⟩ : ∃ j, ((n : Int) - 1).toNat = j + 1 := ⟨n - 2, by omega⟩
  rw [hj, List.range_succ_eq_map, List.foldlM_cons, if_pos hl]
  rfl

/-! ### `observed_perplexity` -/

section
variable {M : Nat} [NeZero M] {model : Model ℝ M} {srv : Server ℝ M}

/-- **C28**, observed, part: for one observation per feature, the perplexity of the observation, in `[1, dim]`. What is
missing is the dependence on the counts; see `observedPerplexity_ignores`. -/
theorem observedPerplexity_partial (h : Model.Valid model) (hc : Model.Consistent model) (s : Serves model srv)
    (hne : ∀ v < model.tree.numVertices, (columns model v).Nonempty) (counts : List Int) :
    srv.observedPerplexity realNum (some counts) = .ok ((List.range model.tree.numVertices).map fun v =>
        Real.exp (shannon (columns model v) (predictive model fun _ => 0))) ∧
    ∀ v < model.tree.numVertices, 1 ≤ Real.exp (shannon (columns model v) (predictive model fun _ => 0)) ∧
      Real.exp (shannon (columns model v) (predictive model fun _ => 0)) ≤ (columns model v).card := by
  refine ⟨?_, fun v hv => perplexity_range _ _ (fun c hcv => predictive_empty_nonneg h hc hv hcv)
    (predictive_empty_sum h hc hv (hne v hv))⟩
  have h1 : ((List.replicate model.tree.numVertices (1 : Int)).length == model.tree.numVertices) = true := by simp
  have h2 : (List.replicate model.tree.numVertices (1 : Int)).all (fun c => decide (0 < c)) = true := by
    rw [List.all_eq_true]
    intro c hcm
    rw [(List.mem_replicate.1 hcm).2]; decide
  have hm := mapM_ok (fun v => multinomialEntropy realNum (observedProbs srv v)
      ((List.replicate model.tree.numVertices (1 : Int)).getD v 0))
    (fun v => shannon (columns model v) (predictive model fun _ => 0)) (List.range model.tree.numVertices) (by
      intro v hv
      rw [List.mem_range] at hv
      have e1 : (List.replicate model.tree.numVertices (1 : Int)).getD v 0 = 1 := by
        simp [List.getD_eq_getElem?_getD, hv]
      have e2 : (((observedProbs srv v).map fun x => x)).sum = 1 ∧
          ((observedProbs srv v).map Real.negMulLog).sum = shannon (columns model v) (predictive model fun _ => 0) := by
        have hblock : ∀ f : Nat → ℝ, ((srv.block v).map f).sum = ∑ c ∈ columns model v, f c := by
          intro f
          unfold Server.block Server.beg Server.stop
          rw [s.ragged]
          rfl
        have hpt : ∀ c ∈ columns model v, ∑ a, srv.featCond c a * srv.vertProbs v a = predictive model (fun _ => 0) c := by
          intro c hcv
          rw [predictive_empty h hc hv hcv, s.feat v hv c hcv, s.vert]
        refine ⟨?_, ?_⟩
        · rw [observedProbs, List.map_map, hblock, ← predictive_empty_sum h hc hv (hne v hv)]
          exact Finset.sum_congr rfl fun c hcv => hpt c hcv
        · rw [observedProbs, List.map_map, hblock]
          exact Finset.sum_congr rfl fun c hcv => by simp only [Function.comp]; rw [hpt c hcv]
      rw [List.map_id'] at e2
      simp only [e1, multinomialEntropy, pyAssert, bind, Except.bind]
      rw [← e2.2, ← entropy_real _ e2.1]
      rfl)
  unfold Server.observedPerplexity
  rw [s.tree]
  simp only [h1, h2, pyAssert, if_true, bind, Except.bind, hm, List.map_map]
  rfl

/-- The counts are ignored. -/
theorem observedPerplexity_ignores (srv : Server ℝ M) (counts counts' : List Int) :
    srv.observedPerplexity realNum (some counts) = srv.observedPerplexity realNum (some counts') := rfl

/-- The default argument fails. -/
theorem observedPerplexity_none (srv : Server ℝ M) : srv.observedPerplexity realNum none = .error .attributeError := rfl

end

/-- **C28 is false of the code**: for two observations of a fair coin the perplexity of the counts is not what is returned. -/
theorem observedPerplexity_not_multinomial : ∃ srv : Server ℝ 2, Serves (pathModel ℝ) srv ∧ ∃ x : List ℝ,
    srv.observedPerplexity realNum (some [2, 1, 1]) = .ok x ∧
      x[0]? ≠ some (Real.exp (multinomialShannon ![predictive (pathModel ℝ) (fun _ => 0) 0, predictive (pathModel ℝ) (fun _ => 0) 1] 2)) := by
  obtain ⟨mst, hmst⟩ := exists_mst (K := ℝ)
  obtain ⟨srv, -, s, -⟩ := server_init hmst (pathModel_valid ℝ)
  have hV := pathModel_valid ℝ
  have hC := pathModel_consistent ℝ
  refine ⟨srv, s, _, (observedPerplexity_partial hV hC s ?_ _).1, ?_⟩
  · intro v hv
    have hv3 : v < 3 := hv
    interval_cases v <;> exact ⟨_, Finset.left_mem_Ico.2 (by decide)⟩
  · have c0 : columns (pathModel ℝ) 0 = {0, 1} := by decide +kernel
    have e : ∀ c ∈ columns (pathModel ℝ) 0, predictive (pathModel ℝ) (fun _ => 0) c = 1 / 2 := by
      intro c hc
      rw [predictive_empty hV hC (v := 0) (by decide) hc]
      rw [c0] at hc
      simp only [featMean, vertMean, c0, Finset.sum_pair (show (0 : Nat) ≠ 1 by decide)]
      simp only [Finset.mem_insert, Finset.mem_singleton] at hc
      rcases hc with rfl | rfl <;> norm_num [pathModel, Fin.sum_univ_two]
    have e0 := e 0 (by rw [c0]; simp)
    have e1 := e 1 (by rw [c0]; simp)
    have hlhs : shannon (columns (pathModel ℝ) 0) (predictive (pathModel ℝ) fun _ => 0) = Real.log 2 := by
      unfold shannon
      rw [c0, Finset.sum_pair (by decide), e0, e1]
      simp [Real.negMulLog]
      ring
    intro hx
    rw [e0, e1, multinomialShannon_two] at hx
    have hV3 : (List.range (pathModel ℝ).tree.numVertices) = 0 :: [1, 2] := rfl
    rw [hV3] at hx
    simp only [List.map_cons, List.getElem?_cons_zero, Option.some.injEq, hlhs, Real.exp_eq_exp] at hx
    simp only [Finset.sum_range_succ, Finset.sum_range_zero, binom, Real.negMulLog] at hx
    have h4 : Real.log (1 / 4) = -(2 * Real.log 2) := by
      rw [one_div, Real.log_inv, show (4 : ℝ) = 2 ^ 2 by norm_num, Real.log_pow]; norm_num
    have h2 : Real.log (1 / 2) = - Real.log 2 := by rw [one_div, Real.log_inv]
    norm_num at hx
    rw [h4, h2] at hx
    have := Real.log_pos (show (1 : ℝ) < 2 by norm_num)
    linarith

example : multinomialEntropy realNum ((List.finRange 3).map fun _ => (1 / 3 : ℝ)) ((1 : Nat) : Int)
    = .ok (multinomialShannon (fun _ : Fin 3 => (1 / 3 : ℝ)) 1) :=
  multinomialEntropy_spec _ (by norm_num) 1 (by decide) (.inl rfl)

example : multinomialEntropy realNum ((List.finRange 2).map ![(1 / 3 : ℝ), 2 / 3]) ((5 : Nat) : Int)
    = .ok (multinomialShannon ![(1 / 3 : ℝ), 2 / 3] 5) :=
  multinomialEntropy_spec _ (by simp [Fin.sum_univ_two]; norm_num) 5 (by decide) (.inr (by decide))

end TreeCat
