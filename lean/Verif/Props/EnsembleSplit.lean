import Verif.Lemmas.FloatTree
import Verif.Props.EnsembleLaw
import Verif.Props.SampleLogprob
import Verif.Props.ServeSeed

/-!
# C90: the law of the samples of an ensemble whose probabilities are rounded
-/

set_option linter.unusedSectionVars false

namespace TreeCat

open Util Spec

namespace Spec

/-- The mean over the models with the given probabilities, of which the last is not read. -/
def shareOf {K : Type} [Field K] {M : Nat} (pvals : List K) (models : List (Model K M)) (f : Model K M → K) : K :=
  ((List.zipWith (fun p model => p * f model) (pvals.dropLast ++ [1 - pvals.dropLast.sum]) models)).sum

end Spec

section
variable {K : Type} [Field K]

/-- Independent draws with the same weights. -/
theorem weighted_mapM {size : Nat} (w : Fin size → K) (hw : ∑ i, w i = 1) {α : Type} (l : List α) (G : List (Fin size) → K) :
    (l.mapM (fun _ => Choose.choose w) : Expect K (List (Fin size))) G = ∑ d : Fin l.length → Fin size, (∏ n, w (d n)) * G (List.ofFn d) := by
  induction l generalizing G with
  | nil =>
    rw [List.mapM_nil]
    simp [Pure.pure]
  | cons a l ih =>
    rw [List.mapM_cons]
    change (∑ i : Fin size, w i * (l.mapM (fun _ => Choose.choose w) : Expect K _) (fun is => G (i :: is))) / ∑ i : Fin size, w i = _
    simp only [ih, hw, div_one, Finset.mul_sum]
    rw [List.length_cons, ← Fintype.sum_prod_type' (f := fun i d => w i * ((∏ n, w (d n)) * G (i :: List.ofFn d)))]
    refine Fintype.sum_equiv (Fin.consEquiv fun _ => Fin size) _ _ fun p => ?_
    simp [Fin.consEquiv, List.ofFn_succ, Fin.prod_univ_succ, mul_assoc]

theorem weighted_range {size : Nat} (w : Fin size → K) (hw : ∑ i, w i = 1) (N : Nat) (G : List (Fin size) → K) :
    ((List.range N).mapM (fun _ => Choose.choose w) : Expect K (List (Fin size))) G = ∑ d : Fin N → Fin size, (∏ n, w (d n)) * G (List.ofFn d) := by
  have h := weighted_mapM w hw (List.range N) G
  have hN : (List.range N).length = N := List.length_range
  generalize List.range N = l at h hN
  subst hN
  exact h

/-- The product over a list does not depend on its order. -/
theorem ofFn_perm_prod {size N : Nat} (w : Fin size → K) (d : Fin N → Fin size) {p : List Nat} (hp : p.Perm (List.range N)) :
    ((p.filterMap fun i => (List.ofFn d)[i]?).map w).prod = ∏ n, w (d n) := by
  have h := hp.filterMap fun i => (List.ofFn d)[i]?
  have e : ((List.range N).filterMap fun i => (List.ofFn d)[i]?) = List.ofFn d := by
    have := range_filterMap (List.ofFn d)
    rwa [List.length_ofFn] at this
  rw [e] at h
  rw [(h.map w).prod_eq, List.map_ofFn, List.prod_ofFn]
  rfl

end

section
variable {K : Type} [Field K] [LinearOrder K] [IsStrictOrderedRing K] {M : Nat} [NeZero M]
variable {models : List (Model K M)} {V : Nat} {ragged : List Nat}

/-- The weights of the draws add up to one. -/
theorem split_weights (pvals : List K) (hne : pvals ≠ []) :
    ∑ i : Fin pvals.length, (if i.val + 1 = pvals.length then 1 - pvals.dropLast.sum else pvals.getD i.val 0) = 1 := by
  obtain ⟨l, x, rfl⟩ : ∃ l x, pvals = l ++ [x] := ⟨_, _, (List.dropLast_append_getLast hne).symm⟩
  rw [List.dropLast_concat, Finset.sum_fin_eq_sum_range]
  rw [List.length_append, List.length_singleton, Finset.sum_range_succ, dif_pos (by omega), if_pos rfl]
  have : ∀ i ∈ Finset.range l.length, (if _ : i < l.length + 1 then if i + 1 = l.length + 1 then 1 - l.sum else (l ++ [x]).getD i 0 else 0)
      = l.getD i 0 := by
    intro i hi
    rw [Finset.mem_range] at hi
    rw [dif_pos (by omega), if_neg (by omega), List.getD_append _ _ _ _ hi]
  rw [Finset.sum_congr rfl this, ← list_sum_range]
  ring

theorem mapIdx_mul_prod {β : Type} (w : β → K) (F : Nat → β → K) (l : List β) :
    (l.mapIdx fun n i => w i * F n i).prod = (l.map w).prod * (l.mapIdx F).prod := by
  induction l generalizing F with
  | nil => simp
  | cons a l ih => rw [List.mapIdx_cons, List.prod_cons, ih fun n => F (n + 1), List.map_cons, List.prod_cons, List.mapIdx_cons, List.prod_cons]; ring

/-- **C90.** The `N` samples of an ensemble are independent, and each is drawn from the mixture of the laws of its members with the
probabilities given to `np.random.multinomial`. -/
theorem ensemble_sampleBy_exact (E : Members models V ragged) {ens : Ensemble K M} (hs : List.Forall₂ Serves models ens.servers)
    (pvals : List K) (hpv : pvals.length = models.length)
    (N : Nat) (counts : List Int) (data : Option (List Int)) (hd : ∀ d ∈ data, d.length = ragged.getLastD 0)
    (hl : counts.length = V) (hc : ∀ v < V, counts.getD v 0 ≤ 127)
    (hne : ∀ v < V, 0 < counts.getD v 0 → ragged.getD v 0 < ragged.getD (v + 1) 0) (k : Nat → List Int → K) :
    (ens.sampleBy pvals N counts data : ExceptT PyErr (Expect K) _).run (onOk fun rows => ∏ n ∈ Finset.range N, k n (rows.getD n []))
      = ∏ n ∈ Finset.range N, shareOf pvals models fun model =>
          sampleMean model (fun r => (data.getD []).getD r 0) counts fun _ x => k n ((List.range (ragged.getLastD 0)).map x) := by
  have hpos : 0 < models.length := List.length_pos_of_ne_nil E.ne
  have hnep : pvals ≠ [] := by rintro rfl; simp at hpv; omega
  have hsz : ens.servers.length = pvals.length := by rw [hpv, hs.length_eq]
  let w : Fin pvals.length → K := fun i => if i.val + 1 = pvals.length then 1 - pvals.dropLast.sum else pvals.getD i.val 0
  have hw : ∑ i, w i = 1 := split_weights pvals hnep
  let μ : Fin pvals.length → (List Int → K) → K := fun i f =>
    sampleMean (models[i.val]'(hpv ▸ i.isLt)) (fun r => (data.getD []).getD r 0) counts fun _ x => f ((List.range (ragged.getLastD 0)).map x)
  have hmean : ∀ n, ∑ i, w i * μ i (k n) = shareOf pvals models fun model =>
      sampleMean model (fun r => (data.getD []).getD r 0) counts fun _ x => k n ((List.range (ragged.getLastD 0)).map x) := by
    intro n
    rw [shareOf, ← List.sum_ofFn]
    congr 1
    obtain ⟨l, x, hlx⟩ : ∃ l x, pvals = l ++ [x] := ⟨_, _, (List.dropLast_append_getLast hnep).symm⟩
    apply List.ext_getElem
    · rw [List.length_zipWith, List.length_ofFn, hpv]
      simp
      omega
    · intro j h1 h2
      rw [List.getElem_ofFn, List.getElem_zipWith]
      congr 1
      rw [List.length_ofFn] at h1
      simp only [w]
      by_cases hj : j + 1 = pvals.length
      · rw [if_pos hj, List.getElem_append_right (by simp; omega)]
        simp
      · rw [if_neg hj, List.getElem_append_left (by simp; omega), List.getElem_dropLast, List.getD_eq_getElem _ _ h1]
  let perms := (List.range N).permutations.toFinset
  have hperms : ∀ p ∈ perms, p.Perm (List.range N) := fun p hp => List.mem_permutations.1 (List.mem_toFinset.1 hp)
  have given := ensemble_given E hs N counts data hd hl hc hne k hsz hpv.symm μ rfl
  have e : (ens.sampleBy pvals N counts data : ExceptT PyErr (Expect K) _) = (ExceptT.lift (splitBy (K := K) N pvals) >>= fun subs =>
      ((ens.servers.zip subs).mapM fun p => p.1.sample p.2 counts data) >>= finish N) := by
    unfold Ensemble.sampleBy
    rfl
  rw [e]
  refine (run_bindE _ _ _).trans ?_
  change ((List.range N).mapM (fun _ => Choose.choose w) : Expect K (List (Fin pvals.length)))
    (fun draws => (((ens.servers.zip ((List.finRange pvals.length).map fun i => draws.count i)).mapM fun p => p.1.sample p.2 counts data)
      >>= finish N).run (onOk fun rows => ∏ n ∈ Finset.range N, k n (rows.getD n []))) = _
  rw [weighted_range w hw]
  have e2 : ∀ d : Fin N → Fin pvals.length,
      (∏ n, w (d n)) * (((ens.servers.zip ((List.finRange pvals.length).map fun i => (List.ofFn d).count i)).mapM fun p => p.1.sample p.2 counts data)
        >>= finish N).run (onOk fun rows => ∏ n ∈ Finset.range N, k n (rows.getD n []))
      = ∑ p ∈ perms, (1 / (N.factorial : K)) * ((p.filterMap fun i => (List.ofFn d)[i]?).mapIdx fun n i => w i * μ i (k n)).prod := by
    intro d
    rw [run_bindE, given d, Finset.mul_sum]
    refine Finset.sum_congr rfl fun p hp => ?_
    rw [mapIdx_mul_prod, ofFn_perm_prod w d (hperms p hp)]
    ring
  rw [Finset.sum_congr rfl fun d _ => e2 d, Finset.sum_comm, Finset.sum_congr rfl fun p hp => by
    rw [← Finset.mul_sum, draws_perm _ (hperms p hp)], Finset.sum_const, ← Finset.prod_congr rfl fun n _ => hmean n,
    List.toFinset_card_of_nodup (List.nodup_permutations _ List.nodup_range),
    List.length_permutations, List.length_range, nsmul_eq_mul, ← mul_assoc, mul_one_div_cancel, one_mul]
  exact_mod_cast N.factorial_ne_zero

/-- Equal probabilities give the plain mean. -/
theorem shareOf_uniform (hne : models ≠ []) (f : Model K M → K) : shareOf (List.replicate models.length (1 / (models.length : K))) models f = meanOf models f := by
  obtain ⟨l, x, rfl⟩ : ∃ l x, models = l ++ [x] := ⟨_, _, (List.dropLast_append_getLast hne).symm⟩
  have hpos : ((l.length : K) + 1) ≠ 0 := by positivity
  unfold shareOf meanOf
  rw [List.length_append, List.length_singleton, List.dropLast_replicate, Nat.add_sub_cancel, List.sum_replicate]
  rw [List.zipWith_append (by simp)]
  have : List.zipWith (fun p model => p * f model) (List.replicate l.length (1 / ((l.length + 1 : Nat) : K))) l = l.map fun model => 1 / ((l.length + 1 : Nat) : K) * f model := by
    rw [← List.map_const' , List.zipWith_map_left, List.zipWith_self]
  rw [this, List.sum_append, List.sum_map_mul_left, List.map_append, List.sum_append]
  simp
  field_simp
  ring

theorem shareOf_memberProbs (rs : ℚ → ℚ) (l : List (Model K M)) (x : Model K M) (f : Model K M → K) :
    shareOf ((memberProbs rs (l.length + 1)).map fun q : ℚ => (q : K)) (l ++ [x]) f
      = ((rs (1 / rs ((l.length + 1 : Nat) : ℚ)) : ℚ) : K) * (l.map f).sum + (1 - l.length * ((rs (1 / rs ((l.length + 1 : Nat) : ℚ)) : ℚ) : K)) * f x := by
  set p := rs (1 / rs ((l.length + 1 : Nat) : ℚ)) with hp
  unfold shareOf memberProbs
  rw [List.map_replicate, List.dropLast_replicate, Nat.add_sub_cancel, List.sum_replicate, List.zipWith_append (by simp)]
  have : List.zipWith (fun p model => p * f model) (List.replicate l.length ((p : ℚ) : K)) l = l.map fun model => ((p : ℚ) : K) * f model := by
    rw [← List.map_const', List.zipWith_map_left, List.zipWith_self]
  rw [← hp, this, List.sum_append, List.sum_map_mul_left]
  simp

/-- The mean of numbers between zero and one. -/
theorem shareOf_unit {rs : ℚ → ℚ} (R : IsRounding 24 (-149) rs) (hne : models ≠ []) (hsize : models.length ≤ 2 ^ 24) (f : Model K M → K)
    (h0 : ∀ m ∈ models, 0 ≤ f m) (h1 : ∀ m ∈ models, f m ≤ 1) :
    0 ≤ shareOf ((memberProbs rs models.length).map fun q : ℚ => (q : K)) models f ∧
      shareOf ((memberProbs rs models.length).map fun q : ℚ => (q : K)) models f ≤ 1 := by
  have h1s : 1 ≤ models.length := List.length_pos_of_ne_nil hne
  have hrest := memberProbs_rest R h1s hsize
  obtain ⟨k, hk⟩ := memberProb_grid R h1s hsize
  obtain ⟨l, x, rfl⟩ : ∃ l x, models = l ++ [x] := ⟨_, _, (List.dropLast_append_getLast hne).symm⟩
  have hlen : (l ++ [x]).length = l.length + 1 := by simp
  rw [hlen] at hrest hk ⊢
  rw [Nat.add_sub_cancel] at hrest
  rw [shareOf_memberProbs]
  have hp0 : 0 ≤ rs (1 / rs ((l.length + 1 : Nat) : ℚ)) := by rw [hk]; positivity
  set p := rs (1 / rs ((l.length + 1 : Nat) : ℚ))
  have hpK : (0 : K) ≤ ((p : ℚ) : K) := by exact_mod_cast hp0
  have hrK : (l.length : K) * ((p : ℚ) : K) ≤ 1 := by exact_mod_cast hrest.le
  have a0 : 0 ≤ (l.map f).sum := List.sum_nonneg (by
    intro y hy; obtain ⟨m, hm, rfl⟩ := List.mem_map.1 hy; exact h0 m (by simp [hm]))
  have a1 : (l.map f).sum ≤ l.length := by
    have := List.sum_le_card_nsmul (l.map f) 1 (by intro y hy; obtain ⟨m, hm, rfl⟩ := List.mem_map.1 hy; exact h1 m (by simp [hm]))
    simpa using this
  have b0 := h0 x (by simp)
  have b1 := h1 x (by simp)
  constructor
  · exact add_nonneg (mul_nonneg hpK a0) (mul_nonneg (by linarith) b0)
  · have c1 := mul_le_mul_of_nonneg_left a1 hpK
    have c2 := mul_le_mul_of_nonneg_left b1 (by linarith : (0 : K) ≤ 1 - l.length * ((p : ℚ) : K))
    linarith

/-- What rounding does to the mean of numbers between zero and one. -/
theorem shareOf_near {rs : ℚ → ℚ} (R : IsRounding 24 (-149) rs) (hne : models ≠ []) (hsize : models.length ≤ 2 ^ 24) (f : Model K M → K)
    (h0 : ∀ m ∈ models, 0 ≤ f m) (h1 : ∀ m ∈ models, f m ≤ 1) :
    |shareOf ((memberProbs rs models.length).map fun q : ℚ => (q : K)) models f - meanOf models f| ≤ 1 / 2 ^ 24 := by
  have h1s : 1 ≤ models.length := List.length_pos_of_ne_nil hne
  have hnear := memberProb_near R h1s hsize
  obtain ⟨l, x, rfl⟩ : ∃ l x, models = l ++ [x] := ⟨_, _, (List.dropLast_append_getLast hne).symm⟩
  have hlen : (l ++ [x]).length = l.length + 1 := by simp
  rw [hlen] at hnear hsize ⊢
  have key : shareOf ((memberProbs rs (l.length + 1)).map fun q : ℚ => (q : K)) (l ++ [x]) f - meanOf (l ++ [x]) f
      = ((rs (1 / rs ((l.length + 1 : Nat) : ℚ)) - 1 / ((l.length + 1 : Nat) : ℚ) : ℚ) : K) * ((l.map f).sum - l.length * f x) := by
    have hpos : ((l.length : K) + 1) ≠ 0 := by positivity
    rw [shareOf_memberProbs]
    unfold meanOf
    rw [hlen, List.map_append, List.sum_append]
    push_cast
    simp
    field_simp
    ring
  rw [key, abs_mul]
  have hs : |(l.map f).sum - l.length * f x| ≤ l.length := by
    have a0 : 0 ≤ (l.map f).sum := List.sum_nonneg (by
      intro y hy; obtain ⟨m, hm, rfl⟩ := List.mem_map.1 hy; exact h0 m (by simp [hm]))
    have a1 : (l.map f).sum ≤ l.length := by
      have := List.sum_le_card_nsmul (l.map f) 1 (by intro y hy; obtain ⟨m, hm, rfl⟩ := List.mem_map.1 hy; exact h1 m (by simp [hm]))
      simpa using this
    have b0 := h0 x (by simp)
    have b1 := h1 x (by simp)
    have c : (0 : K) ≤ l.length := by positivity
    rw [abs_le]
    constructor <;> nlinarith
  have hq : |rs (1 / rs ((l.length + 1 : Nat) : ℚ)) - 1 / ((l.length + 1 : Nat) : ℚ)| * l.length ≤ 1 / 2 ^ 24 := by
    have hn : ((l.length + 1 : Nat) : ℚ) ≤ 2 ^ 24 := by exact_mod_cast hsize
    have hn0 : (0 : ℚ) < ((l.length + 1 : Nat) : ℚ) := by positivity
    have hc : ((l.length + 1 : Nat) : ℚ) = l.length + 1 := by push_cast; ring
    have h150 : (2 : ℚ) ^ (-150 : Int) ≤ 1 / 2 ^ 100 := by norm_num
    have hl0 : (0 : ℚ) ≤ l.length := by positivity
    set s : ℚ := ((l.length + 1 : Nat) : ℚ) with hs'
    have hi : 1 / 2 ^ 24 ≤ 1 / s := one_div_le_one_div_of_le hn0 hn
    have hinv : s * (1 / s) = 1 := by field_simp
    calc |rs (1 / rs s) - 1 / s| * l.length ≤ (1 / s / 2 ^ 24 + 1 / 2 ^ 100) * l.length := by gcongr; linarith
      _ = (s * (1 / s) - 1 / s) / 2 ^ 24 + (s - 1) / 2 ^ 100 := by rw [hc]; ring
      _ ≤ (1 - 1 / s) / 2 ^ 24 + 2 ^ 24 / 2 ^ 100 := by rw [hinv]; gcongr; linarith
      _ ≤ 1 / 2 ^ 24 := by nlinarith
  calc |((rs (1 / rs ((l.length + 1 : Nat) : ℚ)) - 1 / ((l.length + 1 : Nat) : ℚ) : ℚ) : K)| * |(l.map f).sum - l.length * f x|
      ≤ |((rs (1 / rs ((l.length + 1 : Nat) : ℚ)) - 1 / ((l.length + 1 : Nat) : ℚ) : ℚ) : K)| * l.length := by gcongr
    _ = ((|rs (1 / rs ((l.length + 1 : Nat) : ℚ)) - 1 / ((l.length + 1 : Nat) : ℚ)| * l.length : ℚ) : K) := by push_cast; ring
    _ ≤ ((1 / 2 ^ 24 : ℚ) : K) := by exact_mod_cast hq
    _ = 1 / 2 ^ 24 := by push_cast; ring

theorem prod_range_near {A B : Nat → K} {c : K} (hA : ∀ n, 0 ≤ A n ∧ A n ≤ 1) (hB : ∀ n, 0 ≤ B n ∧ B n ≤ 1) (h : ∀ n, |A n - B n| ≤ 1 / c) (N : Nat) :
    |∏ n ∈ Finset.range N, A n - ∏ n ∈ Finset.range N, B n| ≤ N / c := by
  induction N with
  | zero => simp
  | succ N ih =>
    rw [Finset.prod_range_succ, Finset.prod_range_succ]
    have a0 : 0 ≤ ∏ n ∈ Finset.range N, B n := Finset.prod_nonneg fun n _ => (hB n).1
    have a1 : ∏ n ∈ Finset.range N, B n ≤ 1 := Finset.prod_le_one (fun n _ => (hB n).1) fun n _ => (hB n).2
    have e : (∏ n ∈ Finset.range N, A n) * A N - (∏ n ∈ Finset.range N, B n) * B N
        = (∏ n ∈ Finset.range N, A n - ∏ n ∈ Finset.range N, B n) * A N + (∏ n ∈ Finset.range N, B n) * (A N - B N) := by ring
    rw [e]
    refine (abs_add_le _ _).trans ?_
    rw [abs_mul, abs_mul, abs_of_nonneg (hA N).1, abs_of_nonneg a0]
    have b1 := mul_le_of_le_one_right (abs_nonneg (∏ n ∈ Finset.range N, A n - ∏ n ∈ Finset.range N, B n)) (hA N).2
    have b2 := mul_le_of_le_one_left (abs_nonneg (A N - B N)) a1
    have := h N
    push_cast
    rw [add_div]
    linarith

/-- Expected values are between those of the bounds. -/
theorem sampleMean_unit {model : Model K M} (h : Model.Valid model) (data : Nat → Int) (counts : List Int)
    (hne : ∀ v < model.tree.numVertices, 0 < counts.getD v 0 → (columns model v).Nonempty) (k : (Nat → Int) → K) (h0 : ∀ x, 0 ≤ k x) (h1 : ∀ x, k x ≤ 1) :
    0 ≤ sampleMean model data counts (fun _ x => k x) ∧ sampleMean model data counts (fun _ x => k x) ≤ 1 := by
  have e := sampleMean_const h data counts hne 1
  rw [sampleMean_choices h data counts fun _ => 1] at e
  rw [sampleMean_choices h data counts k]
  have hp : ∀ c : Fin (requested model.tree.numVertices counts).length → Nat, 0 ≤ dataProb model (fun r => data r + tally c r) / dataProb model data :=
    fun c => (div_pos (dataProb_pos h _) (dataProb_pos h _)).le
  refine ⟨Finset.sum_nonneg fun c _ => mul_nonneg (hp c) (h0 _), ?_⟩
  rw [← e]
  exact Finset.sum_le_sum fun c _ => mul_le_mul_of_nonneg_left (h1 _) (hp c)

/-- **C90.** An ensemble of at most 2^24 members, with the probabilities of the members in single precision: the law of the `N` rows
differs from that of independent rows of the uniform mixture by at most `N / 2 ^ 24`, for all functions that are products of functions of
the rows between zero and one, such as the probability that every row is in a given set. -/
theorem ensemble_sampleBy_near {rs : ℚ → ℚ} (R : IsRounding 24 (-149) rs) (E : Members models V ragged) (hsize : models.length ≤ 2 ^ 24)
    {ens : Ensemble K M} (hs : List.Forall₂ Serves models ens.servers)
    (N : Nat) (counts : List Int) (data : Option (List Int)) (hd : ∀ d ∈ data, d.length = ragged.getLastD 0)
    (hl : counts.length = V) (hc : ∀ v < V, counts.getD v 0 ≤ 127)
    (hne : ∀ v < V, 0 < counts.getD v 0 → ragged.getD v 0 < ragged.getD (v + 1) 0) (k : Nat → List Int → K)
    (h0 : ∀ n row, 0 ≤ k n row) (h1 : ∀ n row, k n row ≤ 1) :
    |(ens.sampleBy ((memberProbs rs models.length).map fun q : ℚ => (q : K)) N counts data : ExceptT PyErr (Expect K) _).run
        (onOk fun rows => ∏ n ∈ Finset.range N, k n (rows.getD n []))
      - ∏ n ∈ Finset.range N, meanOf models fun model =>
          sampleMean model (fun r => (data.getD []).getD r 0) counts fun _ x => k n ((List.range (ragged.getLastD 0)).map x)| ≤ N / 2 ^ 24 := by
  rw [ensemble_sampleBy_exact E hs _ (by simp [memberProbs]) N counts data hd hl hc hne k]
  have hunit : ∀ n, ∀ m ∈ models, 0 ≤ sampleMean m (fun r => (data.getD []).getD r 0) counts (fun _ x => k n ((List.range (ragged.getLastD 0)).map x)) ∧
      sampleMean m (fun r => (data.getD []).getD r 0) counts (fun _ x => k n ((List.range (ragged.getLastD 0)).map x)) ≤ 1 := by
    intro n m hm
    refine sampleMean_unit (E.valid m hm) _ counts ?_ (fun x => k n ((List.range (ragged.getLastD 0)).map x)) (fun _ => h0 _ _) fun _ => h1 _ _
    rw [E.size m hm]
    intro v hv h
    unfold columns
    rw [E.index m hm]
    exact Finset.nonempty_Ico.2 (hne v hv h)
  have hnear := fun n => shareOf_near R E.ne hsize (fun model => sampleMean model (fun r => (data.getD []).getD r 0) counts fun _ x =>
    k n ((List.range (ragged.getLastD 0)).map x)) (fun m hm => (hunit n m hm).1) fun m hm => (hunit n m hm).2
  have hB : ∀ n, 0 ≤ (meanOf models fun model => sampleMean model (fun r => (data.getD []).getD r 0) counts fun _ x =>
      k n ((List.range (ragged.getLastD 0)).map x)) ∧ (meanOf models fun model => sampleMean model (fun r => (data.getD []).getD r 0) counts fun _ x =>
      k n ((List.range (ragged.getLastD 0)).map x)) ≤ 1 := by
    intro n
    have hpos : (0 : K) < models.length := by exact_mod_cast List.length_pos_of_ne_nil E.ne
    unfold meanOf
    constructor
    · refine div_nonneg (List.sum_nonneg ?_) hpos.le
      intro y hy; obtain ⟨m, hm, rfl⟩ := List.mem_map.1 hy; exact (hunit n m hm).1
    · rw [div_le_one hpos]
      have := List.sum_le_card_nsmul (models.map fun model => sampleMean model (fun r => (data.getD []).getD r 0) counts fun _ x =>
        k n ((List.range (ragged.getLastD 0)).map x)) 1 (by intro y hy; obtain ⟨m, hm, rfl⟩ := List.mem_map.1 hy; exact (hunit n m hm).2)
      simpa using this
  have hA : ∀ n, 0 ≤ (shareOf ((memberProbs rs models.length).map fun q : ℚ => (q : K)) models fun model => sampleMean model (fun r => (data.getD []).getD r 0) counts fun _ x =>
      k n ((List.range (ragged.getLastD 0)).map x)) ∧ (shareOf ((memberProbs rs models.length).map fun q : ℚ => (q : K)) models fun model =>
      sampleMean model (fun r => (data.getD []).getD r 0) counts fun _ x => k n ((List.range (ragged.getLastD 0)).map x)) ≤ 1 := by
    intro n
    exact shareOf_unit R E.ne hsize _ (fun m hm => (hunit n m hm).1) fun m hm => (hunit n m hm).2
  exact prod_range_near hA hB hnear N

end

/-- Three members, whose probabilities are rounded up; the probability that the first two rows are equal to given ones. -/
example (row row' : List Int) : ∃ models : List (Model ℚ 2), ∃ ens : Ensemble ℚ 2, models.length = 3 ∧
    memberProbs float32 3 ≠ List.replicate 3 (1 / 3) ∧
    |(ens.sampleBy ((memberProbs float32 3).map fun q : ℚ => (q : ℚ)) 2 [1, 2, 0] none : ExceptT PyErr (Expect ℚ) _).run
        (onOk fun rows => ∏ n ∈ Finset.range 2, if rows.getD n [] = [row, row'].getD n [] then 1 else 0)
      - ∏ n ∈ Finset.range 2, meanOf models fun model =>
          sampleMean model (fun _ => 0) [1, 2, 0] fun _ x => if (List.range 6).map x = [row, row'].getD n [] then 1 else 0| ≤ 2 / 2 ^ 24 := by
  obtain ⟨mst, hmst⟩ := exists_mst (K := ℚ)
  have E : Members [pathModel ℚ, { pathModel ℚ with featSS := fun r m => if r % 2 = m.val then 0 else 3 }, pathModel ℚ] 3 [0, 2, 4, 6] := by
    refine ⟨by simp, fun m hm => ?_, fun m hm => ?_, fun m hm => ?_⟩ <;> simp only [List.mem_cons, List.not_mem_nil, or_false] at hm
    · rcases hm with rfl | rfl | rfl
      · exact pathModel_valid ℚ
      · have h := pathModel_valid ℚ
        exact ⟨h.isTree, h.sorted, h.ragged, h.mono, h.vert, h.edge, fun _ _ _ _ _ => by dsimp only; split <;> decide, h.logits⟩
      · exact pathModel_valid ℚ
    · rcases hm with rfl | rfl | rfl <;> rfl
    · rcases hm with rfl | rfl | rfl <;> rfl
  obtain ⟨ens, -, h1, -⟩ := ensemble_init hmst E
  refine ⟨[pathModel ℚ, { pathModel ℚ with featSS := fun r m => if r % 2 = m.val then 0 else 3 }, pathModel ℚ], ens, rfl, by decide +kernel, ?_⟩
  have := ensemble_sampleBy_near float32_isRounding E (by decide) (h1.imp fun m s h => h.1) 2 [1, 2, 0] none (by simp) rfl
    (by intro v hv; interval_cases v <;> decide) (by intro v hv _; interval_cases v <;> decide)
    (fun n r => if r = [row, row'].getD n [] then 1 else 0) (fun n r => by split <;> norm_num) fun n r => by split <;> norm_num
  simp only [Option.getD_none, List.getD_nil] at this
  exact this

end TreeCat
