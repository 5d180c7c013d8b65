import Verif.Lemmas.ShufflePosition
import Verif.Model.ServeSplit
import Verif.Props.EnsembleSplit
import Verif.Props.TreeSamplesInf

/-!
# C90: the trees of an ensemble whose probabilities are rounded
-/

set_option linter.unusedSectionVars false

namespace TreeCat

open Util Spec

theorem weighted_sum {size : Nat} (w : Fin size → ℝ) (hw : ∑ i, w i = 1) (g : Fin size → ℝ) {α : Type} (l : List α) (c : ℝ) :
    (l.mapM (fun _ => Choose.choose w) : Expect ℝ (List (Fin size))) (fun ds => c + (ds.map g).sum) = c + l.length * ∑ i, w i * g i := by
  induction l generalizing c with
  | nil => rw [List.mapM_nil]; simp [Pure.pure]
  | cons a l ih =>
    rw [List.mapM_cons]
    change (∑ i : Fin size, w i * (l.mapM (fun _ => Choose.choose w) : Expect ℝ _) (fun is => c + ((i :: is).map g).sum)) / ∑ i : Fin size, w i = _
    simp only [List.map_cons, List.sum_cons, ← add_assoc, ih, hw, div_one]
    simp only [mul_add, Finset.sum_add_distrib, ← Finset.sum_mul, hw, List.length_cons, Nat.cast_add, Nat.cast_one]
    ring

section
variable {M : Nat} [NeZero M] {models : List (Model ℝ M)} {V : Nat} {ragged : List Nat} {num : ServeNum ℝ}

/-- **C90** (trees). The trees of an ensemble estimate the mixture of the posteriors of its members with the probabilities given to
`np.random.multinomial`: the expected sum of any function of the sampled trees is the number of trees times the mean under the mixture, up to
a constant that depends neither on the number of trees nor on the probabilities. -/
theorem ensemble_sampleTreesBy_mixture {mst : List (List ℝ) → List Edge} (hmst : MstContract mst) (E : Members models V ragged)
    {ens : Ensemble ℝ M} (hi : Ensemble.init mst models = .ok ens) (hexp : num.exp = Real.exp) (junk : Nat → Nat)
    (S : Finset (List Edge)) (hS : ∀ T, T ∈ S ↔ Canonical T ∧ IsTree V T) :
    ∃ C : ℝ, ∀ (pvals : List ℝ), pvals.length = models.length → (∀ p ∈ pvals, 0 ≤ p) → pvals.dropLast.sum ≤ 1 →
      ∀ (f : List Edge → ℝ) (lo hi : ℝ), (∀ T ∈ S, lo ≤ f T ∧ f T ≤ hi) → ∀ n : Nat,
      |(ens.sampleTreesBy num junk pvals n : ExceptT PyErr (Expect ℝ) _).run (onOk fun ts => (ts.map f).sum)
        - n * shareOf pvals models fun m => ∑ T ∈ S, treePosterior m.edgeLogits S T * f T| ≤ C * (hi - lo) := by
  obtain ⟨ens', e, hs, -⟩ := ensemble_init hmst E
  obtain rfl : ens' = ens := Except.ok.inj (e.symm.trans hi)
  have hmem : ∀ srv ∈ ens'.servers, ∃ m ∈ models, Serves m srv ∧ IsTree V srv.estimatedTree ∧ Canonical srv.estimatedTree :=
    fun srv h => forall₂_mem_right hs h
  have hV : ∀ {m}, m ∈ models → m.tree.numVertices = V := fun h => E.size _ h
  have hone : ∀ srv ∈ ens'.servers, ∃ C : ℝ, ∀ (f : List Edge → ℝ) (lo hi : ℝ), (∀ T ∈ S, lo ≤ f T ∧ f T ≤ hi) → ∀ n : Nat,
      |(srv.sampleTrees num junk n : ExceptT PyErr (Expect ℝ) _).run (onOk fun ts => (ts.map f).sum)
        - n * ∑ T ∈ S, treePosterior srv.edgeLogits S T * f T| ≤ C * (hi - lo) := by
    intro srv h
    obtain ⟨m, hm, h1, h2, h3⟩ := hmem srv h
    obtain ⟨C, -, hC⟩ := server_sampleTrees_sum (E.valid m hm) h1 (by rw [hV hm]; exact h2) h3 hexp junk S (by rw [hV hm]; exact hS)
    rw [h1.logits]
    exact ⟨C, hC⟩
  choose! C hC using hone
  refine ⟨(ens'.servers.map C).sum, fun pvals hpv hp0 hp1 f lo hi hb n => ?_⟩
  have hsz : ens'.servers.length = pvals.length := by rw [hpv, hs.length_eq]
  have hlt : ∀ j, j < pvals.length → j < ens'.servers.length := fun j h => by omega
  have hnep : pvals ≠ [] := by
    rintro rfl
    have := List.length_pos_of_ne_nil E.ne
    simp at hpv
    omega
  set σ : Server ℝ M → Nat → ℝ := fun srv k =>
    (srv.sampleTrees num junk k : ExceptT PyErr (Expect ℝ) _).run (onOk fun ts => (ts.map f).sum) with hσ
  set π : Server ℝ M → ℝ := fun srv => ∑ T ∈ S, treePosterior srv.edgeLogits S T * f T with hπ
  let w : Fin pvals.length → ℝ := fun i => if i.val + 1 = pvals.length then 1 - pvals.dropLast.sum else pvals.getD i.val 0
  have hw : ∑ i, w i = 1 := split_weights pvals hnep
  have hw0 : ∀ i, 0 ≤ w i := by
    intro i
    simp only [w]
    split
    · linarith
    · rw [List.getD_eq_getElem _ _ i.isLt]
      exact hp0 _ (List.getElem_mem _)
  have havg : ∀ srv ∈ ens'.servers, ∀ k, Avg (fun ts : List (List Edge) => ts.length = k) (fun _ => False)
      fun F => (srv.sampleTrees num junk k : ExceptT PyErr (Expect ℝ) _).run (onOk F) := by
    intro srv h k
    obtain ⟨m, hm, h1, h2, h3⟩ := hmem srv h
    have hl : srv.edgeLogits.length = tri srv.tree.numVertices := by rw [h1.logits, h1.tree]; exact (E.valid m hm).logits
    have h4 : IsTree srv.tree.numVertices srv.estimatedTree := by rw [h1.tree, hV hm]; exact h2
    refine Eq.mp (congrArg _ (funext fun F => (server_sampleTrees_chain hexp junk k F).symm)) ?_
    exact (treeChain_avg hl k h3 h4).mono_dom fun ts h => h.1
  -- the members one after the other
  have hfold : ∀ (l : List (Server ℝ M × Nat)), (∀ p ∈ l, p.1 ∈ ens'.servers) → ∀ acc : List (List Edge),
      acc.length + (l.map Prod.snd).sum = n →
      (l.foldlM (fun samples p => do
        let more ← p.1.sampleTrees num junk p.2
        Pure.pure (samples ++ more)) acc : ExceptT PyErr (Expect ℝ) _).run (onOk fun samples => (do
          let samples ← ExceptT.lift (shuffled samples)
          liftPy (pyAssert (samples.length == n))
          Pure.pure samples : ExceptT PyErr (Expect ℝ) _).run (onOk fun ts => (ts.map f).sum))
        = (acc.map f).sum + (l.map fun p => σ p.1 p.2).sum := by
    intro l
    induction l with
    | nil =>
      intro _ acc hacc
      rw [List.map_nil, List.sum_nil, add_zero]
      exact shuffled_sum f n acc (by simpa using hacc)
    | cons p l ih =>
      intro hp acc hacc
      rw [List.foldlM_cons, run_onOk_bind, run_onOk_bind]
      have hA := havg p.1 (hp p (by simp)) p.2
      refine Eq.trans (hA.congr _ (fun more => ((acc.map f).sum + (l.map fun p => σ p.1 p.2).sum) + (more.map f).sum) fun more hm => ?_) ?_
      · refine Eq.trans (ih (fun q hq => hp q (List.mem_cons_of_mem _ hq)) (acc ++ more) ?_) ?_
        · rw [List.map_cons, List.sum_cons] at hacc
          rw [List.length_append, hm]; omega
        · rw [List.map_append, List.sum_append]; ring
      · rw [hA.add (fun _ => (acc.map f).sum + (l.map fun p => σ p.1 p.2).sum), hA.const, List.map_cons, List.sum_cons]
        ring
  -- the split
  have hrun : (ens'.sampleTreesBy num junk pvals n : ExceptT PyErr (Expect ℝ) _).run (onOk fun ts => (ts.map f).sum)
      = ((List.range n).mapM (fun _ => Choose.choose w) : Expect ℝ _)
          fun ds => ∑ i : Fin pvals.length, σ (ens'.servers[i.val]'(hlt _ i.isLt)) (ds.count i) := by
    unfold Ensemble.sampleTreesBy
    rw [run_onOk_bind]
    change ((List.range n).mapM (fun _ => Choose.choose w) : Expect ℝ _) (fun ds => _) = _
    rw [weighted_range w hw, weighted_range w hw]
    refine Finset.sum_congr rfl fun d _ => congrArg _ ?_
    refine (run_onOk_bind _ _ _).trans ?_
    have hz : ens'.servers.zip ((List.finRange pvals.length).map fun i => (List.ofFn d).count i)
        = (List.finRange pvals.length).map fun i => (ens'.servers[i.val]'(hlt _ i.isLt), (List.ofFn d).count i) := by
      apply List.ext_getElem
      · simp [hsz]
      · intro i h1 h2
        simp
    rw [hz, hfold _ ?_ [] ?_]
    · rw [List.map_nil, List.sum_nil, zero_add, List.map_map, Fin.sum_univ_def]
      rfl
    · intro p hp
      obtain ⟨i, -, rfl⟩ := List.mem_map.1 hp
      exact List.getElem_mem _
    · rw [List.map_map]
      have := count_total (List.ofFn d)
      rw [List.length_ofFn] at this
      simpa [Function.comp_def] using this
  have hmean : (shareOf pvals models fun m => ∑ T ∈ S, treePosterior m.edgeLogits S T * f T)
      = ∑ i : Fin pvals.length, w i * π (ens'.servers[i.val]'(hlt _ i.isLt)) := by
    have h1 : models.map (fun m => ∑ T ∈ S, treePosterior m.edgeLogits S T * f T) = ens'.servers.map π :=
      map_eq_of_forall₂ hs fun m srv h => by rw [hπ]; simp only [h.1.logits]
    rw [shareOf, ← List.sum_ofFn]
    congr 1
    apply List.ext_getElem
    · simp [hpv]
      have := List.length_pos_of_ne_nil E.ne
      omega
    · intro j h2 h3
      rw [List.length_ofFn] at h3
      rw [List.getElem_zipWith, List.getElem_ofFn]
      have h4 : (∑ T ∈ S, treePosterior (models[j]'(hpv ▸ h3)).edgeLogits S T * f T) = π (ens'.servers[j]'(hlt _ h3)) := by
        have h5 := congrArg (fun l => l[j]?) h1
        simp only [List.getElem?_map, List.getElem?_eq_getElem (hpv ▸ h3 : j < models.length), List.getElem?_eq_getElem (hlt _ h3),
          Option.map_some, Option.some.injEq] at h5
        exact h5
      rw [h4]
      congr 1
      simp only [w]
      by_cases hj : j + 1 = pvals.length
      · rw [if_pos hj, List.getElem_append_right (by simp; omega)]
        simp
      · rw [if_neg hj, List.getElem_append_left (by simp; omega), List.getElem_dropLast, List.getD_eq_getElem _ _ h3]
  rw [hrun, hmean]
  have hz : ((List.range n).mapM (fun _ => Choose.choose w) : Expect ℝ _)
      (fun ds => ∑ i : Fin pvals.length, (ds.count i : ℝ) * π (ens'.servers[i.val]'(hlt _ i.isLt)))
      = n * ∑ i : Fin pvals.length, w i * π (ens'.servers[i.val]'(hlt _ i.isLt)) := by
    simp only [sum_counts]
    have := weighted_sum w hw (fun i => π (ens'.servers[i.val]'(hlt _ i.isLt))) (List.range n) 0
    simpa using this
  have hW : ∑ d : Fin n → Fin pvals.length, ∏ k, w (d k) = 1 := by
    have h1 := weighted_sum w hw (fun _ => 0) (List.range n) 1
    rw [weighted_range w hw] at h1
    have e : ∀ d : Fin n → Fin pvals.length, ((List.ofFn d).map fun _ => (0 : ℝ)).sum = 0 := fun d => by
      rw [List.map_const', List.sum_replicate, nsmul_zero]
    simpa only [e, add_zero, mul_one, Finset.sum_const_zero, mul_zero] using h1
  rw [← hz, weighted_range w hw, weighted_range w hw, ← Finset.sum_sub_distrib]
  refine (Finset.abs_sum_le_sum_abs _ _).trans ?_
  have hbound : ∀ d : Fin n → Fin pvals.length,
      |∑ i : Fin pvals.length, σ (ens'.servers[i.val]'(hlt _ i.isLt)) ((List.ofFn d).count i)
        - ∑ i : Fin pvals.length, ((List.ofFn d).count i : ℝ) * π (ens'.servers[i.val]'(hlt _ i.isLt))| ≤ (ens'.servers.map C).sum * (hi - lo) := by
    intro d
    rw [← Finset.sum_sub_distrib]
    refine (Finset.abs_sum_le_sum_abs _ _).trans ?_
    refine (Finset.sum_le_sum fun (i : Fin pvals.length) _ => hC (ens'.servers[i.val]'(hlt _ i.isLt)) (List.getElem_mem _) f lo hi hb _).trans ?_
    rw [← Finset.sum_mul, Fin.sum_univ_def]
    refine le_of_eq (congrArg (· * (hi - lo)) (congrArg List.sum ?_))
    apply List.ext_getElem
    · simp [hsz]
    · intro i _ _; simp
  calc ∑ d : Fin n → Fin pvals.length, |(∏ k, w (d k)) * ∑ i : Fin pvals.length, σ (ens'.servers[i.val]'(hlt _ i.isLt)) ((List.ofFn d).count i)
        - (∏ k, w (d k)) * ∑ i : Fin pvals.length, ((List.ofFn d).count i : ℝ) * π (ens'.servers[i.val]'(hlt _ i.isLt))|
      ≤ ∑ d : Fin n → Fin pvals.length, (∏ k, w (d k)) * ((ens'.servers.map C).sum * (hi - lo)) := by
        refine Finset.sum_le_sum fun d _ => ?_
        rw [← mul_sub, abs_mul, abs_of_nonneg (Finset.prod_nonneg fun k _ => hw0 (d k))]
        exact mul_le_mul_of_nonneg_left (hbound d) (Finset.prod_nonneg fun k _ => hw0 (d k))
    _ = (ens'.servers.map C).sum * (hi - lo) := by rw [← Finset.sum_mul, hW, one_mul]

/-- The probabilities of the members are acceptable. -/
theorem memberWeights {rs : ℚ → ℚ} (R : IsRounding 24 (-149) rs) {size : Nat} (h1 : 1 ≤ size) (h2 : size ≤ 2 ^ 24) :
    (∀ p ∈ (memberProbs rs size).map fun q : ℚ => (q : ℝ), 0 ≤ p) ∧ ((memberProbs rs size).map fun q : ℚ => (q : ℝ)).dropLast.sum ≤ 1 := by
  have hrest := memberProbs_rest R h1 h2
  obtain ⟨k, hk⟩ := memberProb_grid R h1 h2
  constructor
  · intro p hp
    obtain ⟨q, hq, rfl⟩ := List.mem_map.1 hp
    have := List.eq_of_mem_replicate hq
    rw [this, hk]
    positivity
  · unfold memberProbs
    rw [List.map_replicate, List.dropLast_replicate, List.sum_replicate, nsmul_eq_mul]
    exact_mod_cast hrest.le

/-- Means under the posterior are between the bounds. -/
theorem treePosterior_unit (logits : List ℝ) {S : Finset (List Edge)} {f : List Edge → ℝ} (hf : ∀ T ∈ S, 0 ≤ f T ∧ f T ≤ 1) :
    0 ≤ (∑ T ∈ S, treePosterior logits S T * f T) ∧ (∑ T ∈ S, treePosterior logits S T * f T) ≤ 1 := by
  have hZ : 0 ≤ ∑ T ∈ S, Real.exp ((T.map fun p => logits.getD (p.1 + p.2 * (p.2 - 1) / 2) 0).sum) := Finset.sum_nonneg fun T _ => (Real.exp_pos _).le
  have hq : ∀ T, 0 ≤ treePosterior logits S T := fun T => div_nonneg (Real.exp_pos _).le hZ
  refine ⟨Finset.sum_nonneg fun T hT => mul_nonneg (hq T) (hf T hT).1, (Finset.sum_le_sum fun T hT => mul_le_of_le_one_right (hq T) (hf T hT).2).trans ?_⟩
  unfold treePosterior
  rw [← Finset.sum_div]
  exact div_self_le_one _

/-- **C90** (trees, single precision). For an ensemble of at most 2^24 members, with the probabilities of the members in single precision, the expected number
of sampled trees with some property is the number of trees times the probability of the property under the uniform mixture of the posteriors, up to a constant
and an error of 2^-24 for each tree. -/
theorem ensemble_sampleTreesBy_near {rs : ℚ → ℚ} (R : IsRounding 24 (-149) rs) {mst : List (List ℝ) → List Edge} (hmst : MstContract mst) (E : Members models V ragged)
    (hsize : models.length ≤ 2 ^ 24) {ens : Ensemble ℝ M} (hi : Ensemble.init mst models = .ok ens) (hexp : num.exp = Real.exp) (junk : Nat → Nat)
    (S : Finset (List Edge)) (hS : ∀ T, T ∈ S ↔ Canonical T ∧ IsTree V T) :
    ∃ C : ℝ, ∀ (f : List Edge → ℝ), (∀ T ∈ S, 0 ≤ f T ∧ f T ≤ 1) → ∀ n : Nat,
      |(ens.sampleTreesBy num junk ((memberProbs rs models.length).map fun q : ℚ => (q : ℝ)) n : ExceptT PyErr (Expect ℝ) _).run (onOk fun ts => (ts.map f).sum)
        - n * meanOf models fun m => ∑ T ∈ S, treePosterior m.edgeLogits S T * f T| ≤ C + n / 2 ^ 24 := by
  obtain ⟨C, hC⟩ := ensemble_sampleTreesBy_mixture hmst E hi hexp junk S hS
  have h1s : 1 ≤ models.length := List.length_pos_of_ne_nil E.ne
  have hw := memberWeights R h1s hsize
  refine ⟨C, fun f hf n => ?_⟩
  have h3 := hC ((memberProbs rs models.length).map fun q : ℚ => (q : ℝ)) (by simp [memberProbs]) hw.1 hw.2 f 0 1 hf n
  have h4 := shareOf_near R E.ne hsize (fun m => ∑ T ∈ S, treePosterior m.edgeLogits S T * f T) (fun m _ => (treePosterior_unit m.edgeLogits hf).1)
    fun m _ => (treePosterior_unit m.edgeLogits hf).2
  have h5 : |(n : ℝ) * shareOf ((memberProbs rs models.length).map fun q : ℚ => (q : ℝ)) models (fun m => ∑ T ∈ S, treePosterior m.edgeLogits S T * f T)
      - n * meanOf models fun m => ∑ T ∈ S, treePosterior m.edgeLogits S T * f T| ≤ n / 2 ^ 24 := by
    rw [← mul_sub, abs_mul, abs_of_nonneg (by positivity : (0 : ℝ) ≤ n)]
    calc (n : ℝ) * _ ≤ n * (1 / 2 ^ 24) := mul_le_mul_of_nonneg_left h4 (by positivity)
      _ = _ := by ring
  have := abs_sub_le ((ens.sampleTreesBy num junk ((memberProbs rs models.length).map fun q : ℚ => (q : ℝ)) n : ExceptT PyErr (Expect ℝ) _).run (onOk fun ts => (ts.map f).sum))
    (n * shareOf ((memberProbs rs models.length).map fun q : ℚ => (q : ℝ)) models fun m => ∑ T ∈ S, treePosterior m.edgeLogits S T * f T)
    (n * meanOf models fun m => ∑ T ∈ S, treePosterior m.edgeLogits S T * f T)
  linarith

theorem shuffledTrees_position (x : ExceptT PyErr (Expect ℝ) (List (List Edge))) (f : List Edge → ℝ) {n i : Nat} (hi : i < n) :
    (x >>= fun samples => ExceptT.lift (shuffled samples) >>= fun samples => liftPy (pyAssert (samples.length == n)) >>= fun _ => Pure.pure samples).run
        (onOk fun ts => f (ts.getD i []))
      = (x >>= fun samples => ExceptT.lift (shuffled samples) >>= fun samples => liftPy (pyAssert (samples.length == n)) >>= fun _ => Pure.pure samples).run
        (onOk fun ts => (ts.map fun T => f T / n).sum) := by
  rw [run_onOk_bind, run_onOk_bind]
  refine congrArg (fun F => x.run (onOk F)) (funext fun samples => ?_)
  refine (shuffled_position f [] hi samples).trans ?_
  simp only [div_eq_mul_inv, List.sum_map_mul_right]

/-- All positions of the list of trees have the same law. -/
theorem ensemble_sampleTrees_position (junk : Nat → Nat) (ens : Ensemble ℝ M) (f : List Edge → ℝ) {n i : Nat} (hi : i < n) :
    (ens.sampleTrees num junk n : ExceptT PyErr (Expect ℝ) _).run (onOk fun ts => f (ts.getD i []))
      = (ens.sampleTrees num junk n : ExceptT PyErr (Expect ℝ) _).run (onOk fun ts => (ts.map fun T => f T / n).sum) := by
  unfold Ensemble.sampleTrees
  rw [run_onOk_bind, run_onOk_bind]
  exact congrArg (fun F => (ExceptT.lift (splitSamples (K := ℝ) n ens.servers.length) : ExceptT PyErr (Expect ℝ) _).run (onOk F)) (funext fun subs => shuffledTrees_position _ f hi)

theorem ensemble_sampleTreesBy_position (junk : Nat → Nat) (pvals : List ℝ) (ens : Ensemble ℝ M) (f : List Edge → ℝ) {n i : Nat} (hi : i < n) :
    (ens.sampleTreesBy num junk pvals n : ExceptT PyErr (Expect ℝ) _).run (onOk fun ts => f (ts.getD i []))
      = (ens.sampleTreesBy num junk pvals n : ExceptT PyErr (Expect ℝ) _).run (onOk fun ts => (ts.map fun T => f T / n).sum) := by
  unfold Ensemble.sampleTreesBy
  rw [run_onOk_bind, run_onOk_bind]
  exact congrArg (fun F => (ExceptT.lift (splitBy (K := ℝ) n pvals) : ExceptT PyErr (Expect ℝ) _).run (onOk F)) (funext fun subs => shuffledTrees_position _ f hi)

/-- **C56** (ensembles, each tree). Each of the `n` trees of an ensemble, in whatever position, follows the uniform mixture of the posteriors of the members, up to
a constant divided by `n`. -/
theorem ensemble_sampleTrees_each {mst : List (List ℝ) → List Edge} (hmst : MstContract mst) (E : Members models V ragged)
    {ens : Ensemble ℝ M} (hi : Ensemble.init mst models = .ok ens) (hexp : num.exp = Real.exp) (junk : Nat → Nat)
    (S : Finset (List Edge)) (hS : ∀ T, T ∈ S ↔ Canonical T ∧ IsTree V T) :
    ∃ C : ℝ, ∀ (f : List Edge → ℝ) (lo hi : ℝ), (∀ T ∈ S, lo ≤ f T ∧ f T ≤ hi) → ∀ n i : Nat, i < n →
      |(ens.sampleTrees num junk n : ExceptT PyErr (Expect ℝ) _).run (onOk fun ts => f (ts.getD i []))
        - meanOf models fun m => ∑ T ∈ S, treePosterior m.edgeLogits S T * f T| ≤ C * (hi - lo) / n := by
  obtain ⟨C, hC⟩ := ensemble_sampleTrees_mixture hmst E hi hexp junk S hS
  refine ⟨C, fun f lo hi hb n i hin => ?_⟩
  have hn : (0 : ℝ) < n := by exact_mod_cast (by omega : 0 < n)
  rw [ensemble_sampleTrees_position junk ens f hin]
  have h := hC (fun T => f T / n) (lo / n) (hi / n) (fun T hT => ⟨div_le_div_of_nonneg_right (hb T hT).1 hn.le, div_le_div_of_nonneg_right (hb T hT).2 hn.le⟩) n
  have e : (n : ℝ) * meanOf models (fun m => ∑ T ∈ S, treePosterior m.edgeLogits S T * (f T / n)) = meanOf models fun m => ∑ T ∈ S, treePosterior m.edgeLogits S T * f T := by
    unfold meanOf
    simp only [← mul_div_assoc, ← Finset.sum_div]
    simp only [div_eq_mul_inv, List.sum_map_mul_right]
    field_simp
  rw [e] at h
  exact h.trans (le_of_eq (by ring))

/-- **C97** (ensembles, each tree). The same for models with forbidden edges: each of the `n` trees follows the uniform mixture of the posteriors over the trees that the
members allow, up to a constant divided by `n`. -/
theorem ensembleInf_sampleTrees_each {mst : List (List ℝ) → List Edge} (hmst : MstContract mst) (hforest : MstForest mst) (hV : 1 ≤ V)
    {models : List (List (WithBot ℝ))} (hne : models ≠ []) (hl : ∀ l ∈ models, l.length = V * (V - 1) / 2)
    {ens : TreeEnsembleInf ℝ} (hi : TreeEnsembleInf.init mst V models = .ok ens) (junk : Nat → Nat)
    (S : List (WithBot ℝ) → Finset (List Edge)) (hS : ∀ l ∈ models, ∀ T, T ∈ S l ↔ Canonical T ∧ AllowedTree V l T) :
    ∃ C : ℝ, ∀ (f : List Edge → ℝ) (lo hi : ℝ), (∀ l ∈ models, ∀ T ∈ S l, lo ≤ f T ∧ f T ≤ hi) → ∀ n i : Nat, i < n →
      |(ens.sampleTrees (n := Expect ℝ) (fun x => x) Real.exp junk n : ExceptT PyErr (Expect ℝ) _).run (onOk fun ts => f (ts.getD i []))
        - (models.map fun l => ∑ T ∈ S l, treePosterior (finiteLogits l) (S l) T * f T).sum / models.length| ≤ C * (hi - lo) / n := by
  obtain ⟨C, hC⟩ := ensembleInf_sampleTrees_mixture hmst hforest hV hne hl hi junk S hS
  refine ⟨C, fun f lo hi hb n i hin => ?_⟩
  have hn : (0 : ℝ) < n := by exact_mod_cast (by omega : 0 < n)
  have hpos : (ens.sampleTrees (n := Expect ℝ) (fun x => x) Real.exp junk n : ExceptT PyErr (Expect ℝ) _).run (onOk fun ts => f (ts.getD i []))
      = (ens.sampleTrees (n := Expect ℝ) (fun x => x) Real.exp junk n : ExceptT PyErr (Expect ℝ) _).run (onOk fun ts => (ts.map fun T => f T / n).sum) := by
    unfold TreeEnsembleInf.sampleTrees
    rw [run_onOk_bind, run_onOk_bind]
    exact congrArg (fun F => (ExceptT.lift (splitSamples (K := ℝ) n ens.servers.length) : ExceptT PyErr (Expect ℝ) _).run (onOk F))
      (funext fun subs => shuffledTrees_position _ f hin)
  rw [hpos]
  have h := hC (fun T => f T / n) (lo / n) (hi / n) (fun l hl T hT => ⟨div_le_div_of_nonneg_right (hb l hl T hT).1 hn.le, div_le_div_of_nonneg_right (hb l hl T hT).2 hn.le⟩) n
  have e : (n : ℝ) * ((models.map fun l => ∑ T ∈ S l, treePosterior (finiteLogits l) (S l) T * (f T / n)).sum / models.length)
      = (models.map fun l => ∑ T ∈ S l, treePosterior (finiteLogits l) (S l) T * f T).sum / models.length := by
    simp only [← mul_div_assoc, ← Finset.sum_div]
    simp only [div_eq_mul_inv, List.sum_map_mul_right]
    field_simp
  rw [e] at h
  exact h.trans (le_of_eq (by ring))

/-- **C90** (each tree). The same with the probabilities of the members in single precision: for functions between zero and one the error is at most a constant divided by `n`, and 2^-24. -/
theorem ensemble_sampleTreesBy_each {rs : ℚ → ℚ} (R : IsRounding 24 (-149) rs) {mst : List (List ℝ) → List Edge} (hmst : MstContract mst) (E : Members models V ragged)
    (hsize : models.length ≤ 2 ^ 24) {ens : Ensemble ℝ M} (hi : Ensemble.init mst models = .ok ens) (hexp : num.exp = Real.exp) (junk : Nat → Nat)
    (S : Finset (List Edge)) (hS : ∀ T, T ∈ S ↔ Canonical T ∧ IsTree V T) :
    ∃ C : ℝ, ∀ (f : List Edge → ℝ), (∀ T ∈ S, 0 ≤ f T ∧ f T ≤ 1) → ∀ n i : Nat, i < n →
      |(ens.sampleTreesBy num junk ((memberProbs rs models.length).map fun q : ℚ => (q : ℝ)) n : ExceptT PyErr (Expect ℝ) _).run (onOk fun ts => f (ts.getD i []))
        - meanOf models fun m => ∑ T ∈ S, treePosterior m.edgeLogits S T * f T| ≤ C / n + 1 / 2 ^ 24 := by
  obtain ⟨C, hC⟩ := ensemble_sampleTreesBy_mixture hmst E hi hexp junk S hS
  have h1s : 1 ≤ models.length := List.length_pos_of_ne_nil E.ne
  have hw := memberWeights R h1s hsize
  refine ⟨C, fun f hf n i hin => ?_⟩
  have hn : (0 : ℝ) < n := by exact_mod_cast (by omega : 0 < n)
  rw [ensemble_sampleTreesBy_position junk _ ens f hin]
  have h := hC ((memberProbs rs models.length).map fun q : ℚ => (q : ℝ)) (by simp [memberProbs]) hw.1 hw.2 (fun T => f T / n) (0 / n) (1 / n)
    (fun T hT => ⟨div_le_div_of_nonneg_right (hf T hT).1 hn.le, div_le_div_of_nonneg_right (hf T hT).2 hn.le⟩) n
  have e : (n : ℝ) * shareOf ((memberProbs rs models.length).map fun q : ℚ => (q : ℝ)) models (fun m => ∑ T ∈ S, treePosterior m.edgeLogits S T * (f T / n))
      = shareOf ((memberProbs rs models.length).map fun q : ℚ => (q : ℝ)) models fun m => ∑ T ∈ S, treePosterior m.edgeLogits S T * f T := by
    unfold shareOf
    rw [show ∀ l : List ℝ, (n : ℝ) * l.sum = (l.map fun x => (n : ℝ) * x).sum from fun l => by rw [List.sum_map_mul_left]; simp, List.map_zipWith]
    congr 1
    refine congrArg (fun F => List.zipWith F _ _) (funext fun p => funext fun m => ?_)
    simp only [← mul_div_assoc, ← Finset.sum_div]
    field_simp
  rw [e] at h
  have h4 := shareOf_near R E.ne hsize (fun m => ∑ T ∈ S, treePosterior m.edgeLogits S T * f T) (fun m _ => (treePosterior_unit m.edgeLogits hf).1)
    fun m _ => (treePosterior_unit m.edgeLogits hf).2
  refine (abs_sub_le _ _ _).trans (add_le_add (h.trans (le_of_eq (by ring))) h4)

/-- The hypotheses are met: an ensemble of two models over three features, and the trees with the edge (0, 1). -/
example {mst : List (List ℝ) → List Edge} (hmst : MstContract mst) (hexp : num.exp = Real.exp) (junk : Nat → Nat) :
    ∃ (ens : Ensemble ℝ 2) (S : Finset (List Edge)) (C : ℝ), Ensemble.init mst [exampleModel ℝ, otherModel ℝ] = .ok ens ∧ [(0, 1), (0, 2)] ∈ S ∧ ∀ n : Nat,
      |(ens.sampleTreesBy num junk ((memberProbs float32 2).map fun q : ℚ => (q : ℝ)) n : ExceptT PyErr (Expect ℝ) _).run
          (onOk fun ts => (ts.map fun T => if (0, 1) ∈ T then (1 : ℝ) else 0).sum)
        - n * meanOf [exampleModel ℝ, otherModel ℝ] fun m => ∑ T ∈ S, treePosterior m.edgeLogits S T * (if (0, 1) ∈ T then (1 : ℝ) else 0)| ≤ C + n / 2 ^ 24 := by
  obtain ⟨ens, h, -⟩ := ensemble_init hmst (two_members ℝ)
  obtain ⟨S, hS⟩ := exists_spanningTrees 3
  obtain ⟨C, hC⟩ := ensemble_sampleTreesBy_near float32_isRounding hmst (two_members ℝ) (by decide) h hexp junk S hS
  exact ⟨ens, S, C, h, (hS _).2 ⟨⟨by decide, by decide⟩, isTree_of_smaller rfl (by decide) (by decide)⟩,
    fun n => hC (fun T => if (0, 1) ∈ T then 1 else 0) (fun T _ => by split <;> norm_num) n⟩

/-- The first tree of an ensemble that returns many. -/
example {mst : List (List ℝ) → List Edge} (hmst : MstContract mst) (hexp : num.exp = Real.exp) (junk : Nat → Nat) :
    ∃ (ens : Ensemble ℝ 2) (S : Finset (List Edge)) (C : ℝ), Ensemble.init mst [exampleModel ℝ, otherModel ℝ] = .ok ens ∧ [(0, 1), (0, 2)] ∈ S ∧ ∀ n : Nat,
      |(ens.sampleTrees num junk (n + 1) : ExceptT PyErr (Expect ℝ) _).run (onOk fun ts => if (0, 1) ∈ ts.getD 0 [] then (1 : ℝ) else 0)
        - meanOf [exampleModel ℝ, otherModel ℝ] fun m => ∑ T ∈ S, treePosterior m.edgeLogits S T * (if (0, 1) ∈ T then (1 : ℝ) else 0)| ≤ C * (1 - 0) / (n + 1 : Nat) := by
  obtain ⟨ens, h, -⟩ := ensemble_init hmst (two_members ℝ)
  obtain ⟨S, hS⟩ := exists_spanningTrees 3
  obtain ⟨C, hC⟩ := ensemble_sampleTrees_each hmst (two_members ℝ) h hexp junk S hS
  exact ⟨ens, S, C, h, (hS _).2 ⟨⟨by decide, by decide⟩, isTree_of_smaller rfl (by decide) (by decide)⟩,
    fun n => hC (fun T => if (0, 1) ∈ T then 1 else 0) 0 1 (fun T _ => by split <;> norm_num) (n + 1) 0 (by omega)⟩

/-- The last tree of an ensemble of two models with different forbidden edges. -/
example (junk : Nat → Nat) : ∃ (mst : List (List ℝ) → List Edge) (ens : TreeEnsembleInf ℝ) (S : List (WithBot ℝ) → Finset (List Edge)) (C : ℝ),
    TreeEnsembleInf.init mst 4 [[⊥, 0, 0, 0, 1, 2], [0, 0, 0, 0, 0, 0]] = .ok ens ∧ [(0, 3), (1, 3), (2, 3)] ∈ S [⊥, 0, 0, 0, 1, 2] ∧ ∀ n : Nat,
      |(ens.sampleTrees (n := Expect ℝ) (fun x => x) Real.exp junk (n + 1) : ExceptT PyErr (Expect ℝ) _).run (onOk fun ts => if (0, 1) ∈ ts.getD n [] then (1 : ℝ) else 0)
        - (([[⊥, 0, 0, 0, 1, 2], [0, 0, 0, 0, 0, 0]] : List (List (WithBot ℝ))).map fun l =>
            ∑ T ∈ S l, treePosterior (finiteLogits l) (S l) T * (if (0, 1) ∈ T then (1 : ℝ) else 0)).sum / (2 : Nat)| ≤ C * (1 - 0) / (n + 1 : Nat) := by
  obtain ⟨mst, m1, m2⟩ := exists_mstForest (K := ℝ)
  choose S hS using exists_allowedTrees 4
  obtain ⟨ens, h, -⟩ := (ensembleInf_init m1 m2 (V := 4) (by omega) [[⊥, 0, 0, 0, 1, 2], [0, 0, 0, 0, 0, 0]] (by simp) (by simp)).1
    ⟨_, fun l hl => by
      simp only [List.mem_cons, List.not_mem_nil, or_false] at hl
      rcases hl with rfl | rfl
      · exact star3_allowed.2
      · refine ⟨star3_allowed.2.tree, fun p hp => ?_⟩
        simp only [List.mem_cons, List.not_mem_nil, or_false] at hp
        rcases hp with rfl | rfl | rfl <;> simp [findCompleteEdge]⟩
  obtain ⟨C, hC⟩ := ensembleInf_sampleTrees_each m1 m2 (V := 4) (by omega) (by simp) (by simp) h junk S fun l _ => hS l
  exact ⟨mst, ens, S, C, h, (hS _ _).2 star3_allowed,
    fun n => hC (fun T => if (0, 1) ∈ T then 1 else 0) 0 1 (fun l _ T _ => by split <;> norm_num) (n + 1) n (by omega)⟩

end

end TreeCat
