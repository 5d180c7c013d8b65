import Verif.Props.Correlation
import Verif.Props.Perplexity

/-!
# C30: an ensemble averages its members

The probability of a row is the mean of the members' probabilities, so that it is normalised if theirs are. The
edge logits, perplexities and correlations are means too, and stay in range.
-/

set_option linter.unusedSectionVars false

namespace TreeCat

namespace Spec

/-- Mean of a quantity over the members of an ensemble. -/
def meanOf {K : Type} [Field K] {M : Nat} (models : List (Model K M)) (f : Model K M → K) : K :=
  (models.map f).sum / models.length

/-- The models are about the same features. -/
structure Members {K : Type} [Field K] {M : Nat} (models : List (Model K M)) (V : Nat) (ragged : List Nat) : Prop where
  ne : models ≠ []
  valid : ∀ m ∈ models, Model.Valid m
  size : ∀ m ∈ models, m.tree.numVertices = V
  index : ∀ m ∈ models, m.raggedIndex = ragged

end Spec

open Spec

section
variable {K : Type} [Field K] [LinearOrder K] [IsStrictOrderedRing K] {M : Nat} [NeZero M]
variable {models : List (Model K M)} {V : Nat} {ragged : List Nat}

theorem mapM_forall₂ {α β : Type} (f : α → Py β) (R : α → β → Prop) (l : List α) (h : ∀ a ∈ l, ∃ b, f a = .ok b ∧ R a b) :
    ∃ bs, l.mapM f = .ok bs ∧ List.Forall₂ R l bs := by
  induction l with
  | nil => exact ⟨[], rfl, .nil⟩
  | cons a l ih =>
    obtain ⟨b, h1, h2⟩ := h a (by simp)
    obtain ⟨bs, h3, h4⟩ := ih fun a ha => h a (by simp [ha])
    exact ⟨b :: bs, by simp only [List.mapM_cons, h1, h3, bind, Except.bind]; rfl, .cons h2 h4⟩

/-- Adding up vectors of the same length. -/
theorem foldl_zipWith_add {A : Type} [AddCommMonoid A] (n : Nat) (rest : List (List A)) : ∀ x : List A, (∀ y ∈ x :: rest, y.length = n) →
    rest.foldl (fun acc y => acc.zipWith (· + ·) y) x = (List.range n).map fun k => ((x :: rest).map fun y => y.getD k 0).sum := by
  induction rest with
  | nil =>
    intro x hx
    have hn := hx x (by simp)
    simp only [List.foldl_nil, List.map_cons, List.map_nil, List.sum_cons, List.sum_nil, add_zero]
    apply List.ext_getElem
    · simp [hn]
    · intro i h1 h2
      simp [h1]
  | cons y rest ih =>
    intro x hx
    have hn := hx x (by simp)
    have hm := hx y (by simp)
    have hl : (x.zipWith (· + ·) y).length = n := by rw [List.length_zipWith, hn, hm, min_self]
    rw [List.foldl_cons, ih (x.zipWith (· + ·) y)]
    · refine List.map_congr_left fun k hk => ?_
      rw [List.mem_range] at hk
      simp only [List.map_cons, List.sum_cons]
      rw [← add_assoc]
      congr 1
      rw [List.getD_eq_getElem _ _ (by omega), List.getElem_zipWith, List.getD_eq_getElem _ _ (by omega),
        List.getD_eq_getElem _ _ (by omega)]
    · intro z hz
      rcases List.mem_cons.1 hz with rfl | hz
      · exact hl
      · exact hx z (by simp [hz])

theorem getD_map_lt {α β : Type} (f : α → β) (d : β) (l : List α) {i : Nat} (h : i < l.length) : (l.map f).getD i d = f l[i] := by
  rw [List.getD_eq_getElem _ _ (by simpa using h), List.getElem_map]

/-- Means of vectors, one for each member. -/
theorem meanOver_eq (f : Model K M → Nat → K) (n : Nat) (hne : models ≠ []) :
    meanOver models.length (models.map fun m => (List.range n).map (f m)) = (List.range n).map fun k => meanOf models fun m => f m k := by
  cases models with
  | nil => exact absurd rfl hne
  | cons m rest =>
    unfold meanOver
    rw [List.map_cons]
    dsimp only
    rw [foldl_zipWith_add n _ _ (by
      intro y hy
      rcases List.mem_cons.1 hy with rfl | hy
      · simp
      · obtain ⟨m', -, rfl⟩ := List.mem_map.1 hy; simp), List.map_map]
    refine List.map_congr_left fun k hk => ?_
    rw [List.mem_range] at hk
    unfold meanOf
    simp only [Function.comp, List.map_cons, List.map_map]
    have e : ∀ m : Model K M, ((List.range n).map (f m)).getD k 0 = f m k := fun m => by
      rw [getD_map_lt _ _ _ (by simpa using hk)]; simp
    rw [e]
    simp only [Function.comp_def, e]

/-- **C30**: the members of an ensemble serve their models; the edge logits are the means of theirs; the estimated tree has
the largest total mean logit. -/
theorem ensemble_init {mst : List (List K) → List Edge} (hmst : MstContract mst) (E : Members models V ragged) :
    ∃ ens, Ensemble.init mst models = .ok ens ∧
      List.Forall₂ (fun m srv => Serves m srv ∧ IsTree V srv.estimatedTree ∧ Canonical srv.estimatedTree) models ens.servers ∧
      ens.raggedIndex = ragged ∧
      ens.edgeLogits = ((List.range (V * (V - 1) / 2)).map fun k => meanOf models fun m => m.edgeLogits.getD k 0) ∧
      Canonical ens.estimatedTree ∧ IsTree V ens.estimatedTree ∧ ∀ T, IsTree V T →
        (T.map fun p => meanOf models fun m => m.edgeLogits.getD (findCompleteEdge (min p.1 p.2) (max p.1 p.2)) 0).sum
          ≤ (ens.estimatedTree.map fun p => meanOf models fun m => m.edgeLogits.getD (findCompleteEdge p.1 p.2) 0).sum := by
  obtain ⟨servers, h1, h2⟩ := mapM_forall₂ (Server.init mst)
    (fun m srv => Serves m srv ∧ IsTree V srv.estimatedTree ∧ Canonical srv.estimatedTree) models (by
      intro m hm
      obtain ⟨srv, h1, h2, h3, h4⟩ := server_init hmst (E.valid m hm)
      rw [E.size m hm] at h3
      exact ⟨srv, h1, h2, h3, h4⟩)
  have hlen := h2.length_eq
  -- the logits of the servers are those of the models
  have hlog : servers.map Server.edgeLogits = models.map Model.edgeLogits := by
    clear h1 hlen E
    induction h2 with
    | nil => rfl
    | cons h _ ih => rw [List.map_cons, List.map_cons, ih, h.1.logits]
  have hll : ∀ m ∈ models, m.edgeLogits.length = V * (V - 1) / 2 := fun m hm => by rw [(E.valid m hm).logits, E.size m hm]
  cases models with
  | nil => exact absurd rfl E.ne
  | cons m rest =>
    cases servers with
    | nil => cases h2
    | cons s0 srest =>
      have hV : 1 ≤ V := by
        have := (E.valid m (by simp)).isTree.card
        rw [E.size m (by simp)] at this; omega
      have hs0 : s0.tree.numVertices = V := by
        cases h2 with
        | cons h _ => rw [h.1.tree, E.size m (by simp)]
      have hsum : srest.foldl (fun acc s => acc.zipWith (· + ·) s.edgeLogits) s0.edgeLogits
          = (List.range (V * (V - 1) / 2)).map fun k => ((m :: rest).map fun m => m.edgeLogits.getD k 0).sum := by
        have e : srest.foldl (fun acc s => acc.zipWith (· + ·) s.edgeLogits) s0.edgeLogits
            = (srest.map Server.edgeLogits).foldl (fun acc y => acc.zipWith (· + ·) y) s0.edgeLogits := by
          rw [List.foldl_map]
        rw [List.map_cons, List.map_cons, List.cons.injEq] at hlog
        rw [e, hlog.1, hlog.2, foldl_zipWith_add (V * (V - 1) / 2)]
        · simp only [List.map_cons, List.map_map, Function.comp_def]
        · intro y hy
          rcases List.mem_cons.1 hy with rfl | hy
          · exact hll m (by simp)
          · obtain ⟨m', hm', rfl⟩ := List.mem_map.1 hy
            exact hll m' (by simp [hm'])
      have hmean : (srest.foldl (fun acc s => acc.zipWith (· + ·) s.edgeLogits) s0.edgeLogits).map
          (fun x => x / ((s0 :: srest).length : K))
          = (List.range (V * (V - 1) / 2)).map fun k => meanOf (m :: rest) fun m => m.edgeLogits.getD k 0 := by
        rw [hsum, List.map_map, ← hlen]
        rfl
      have hgl := exists_logit (l := (List.range (V * (V - 1) / 2)).map fun k => meanOf (m :: rest) fun m => m.edgeLogits.getD k 0)
        (V := V) (by simp)
      obtain ⟨T, hT1, hT2, hT3, hT4⟩ := estimateTree_max mst hmst V hV _ (makeCompleteGraph_eq _) fun a b =>
        ((List.range (V * (V - 1) / 2)).map fun k => meanOf (m :: rest) fun m => m.edgeLogits.getD k 0).getD (findCompleteEdge a b) 0
      rw [← hgl] at hT1
      refine ⟨{ raggedIndex := m.raggedIndex, servers := s0 :: srest, edgeLogits := _, estimatedTree := T }, ?_, h2,
        E.index m (by simp), rfl, hT2, hT3, ?_⟩
      · simp only [Ensemble.init, h1, bind, Except.bind, hs0, makeCompleteGraph_eq, hmean, hT1]
      · have hz : ∀ k, ((List.range (V * (V - 1) / 2)).map fun k => meanOf (m :: rest) fun m => m.edgeLogits.getD k 0).getD k 0
            = meanOf (m :: rest) fun m => m.edgeLogits.getD k 0 := by
          refine getD_map_range _ _ fun k hk => ?_
          unfold meanOf
          rw [List.sum_eq_zero, zero_div]
          intro x hx
          obtain ⟨m', hm', rfl⟩ := List.mem_map.1 hx
          rw [List.getD_eq_default _ _ (by rw [hll m' hm']; exact hk)]
        simp only [hz] at hT4
        exact hT4

end

section
variable {M : Nat} [NeZero M] {models : List (Model ℝ M)} {V : Nat} {ragged : List Nat}

theorem exp_logsumexp (xs : List ℝ) (hne : xs ≠ []) : Real.exp (logsumexp realNum xs) = (xs.map Real.exp).sum := by
  cases xs with
  | nil => exact absurd rfl hne
  | cons x rest =>
    unfold logsumexp
    dsimp only
    generalize rest.foldl max x = top
    have hpos : ∀ l : List ℝ, 0 ≤ (l.map fun y => Real.exp (y - top)).sum := fun l =>
      List.sum_nonneg fun z hz => by obtain ⟨y, -, rfl⟩ := List.mem_map.1 hz; exact (Real.exp_pos _).le
    have h0 : 0 < (((x :: rest)).map fun y => Real.exp (y - top)).sum := by
      rw [List.map_cons, List.sum_cons]
      have := hpos rest
      have := Real.exp_pos (x - top)
      linarith
    have e : Real.exp (Real.log ((((x :: rest)).map fun y => Real.exp (y - top)).sum) + top)
        = (((x :: rest)).map fun y => Real.exp (y - top)).sum * Real.exp top := by
      rw [Real.exp_add, Real.exp_log h0]
    refine e.trans ?_
    rw [← List.sum_map_mul_right]
    congr 1
    refine List.map_congr_left fun y _ => ?_
    rw [← Real.exp_add]; ring_nf

theorem members_pos (E : Members models V ragged) : (0 : ℝ) < models.length := by
  have := List.length_pos_of_ne_nil E.ne
  exact_mod_cast this

/-- The rows of log probabilities of the members. -/
theorem server_logprob_of {model : Model ℝ M} {srv : Server ℝ M} (h : Model.Valid model) (s : Serves model srv) (data : List (List Int))
    (hd : ∀ row ∈ data, row.length = model.raggedIndex.getLastD 0) :
    ∃ lp : List Int → ℝ, srv.logprob realNum data = .ok (data.map fun row => some (lp row)) ∧
      ∀ row, Real.exp (lp row) = dataProb model fun r => row.getD r 0 := by
  obtain ⟨r, hr, hp⟩ := exists_plan_none h s.program
  choose lp h1 h2 using fun row => logprob_exact h s hr hp row
  refine ⟨lp, ?_, h2⟩
  have hR : srv.raggedSize = model.raggedIndex.getLastD 0 := by rw [Server.raggedSize, s.ragged]
  have : (data.all fun row => row.length == srv.raggedSize) = true := by
    rw [List.all_eq_true]; intro row hrow; rw [hR, hd row hrow]; simp
  have e : logprobWith realNum srv srv.program = fun row => some (lp row) := funext h1
  simp only [Server.logprob, this, pyAssert, if_true, bind, Except.bind, e]

/-- **C30**: the probability of a row is the mean of its probabilities under the members. -/
theorem ensemble_logprob (E : Members models V ragged) {ens : Ensemble ℝ M} (hs : List.Forall₂ Serves models ens.servers)
    (data : List (List Int)) (hd : ∀ row ∈ data, row.length = ragged.getLastD 0) :
    ∃ lps, ens.logprob realNum data = .ok lps ∧
      lps.map Real.exp = data.map fun row => meanOf models fun m => dataProb m fun r => row.getD r 0 := by
  obtain ⟨fs, h1, h2⟩ : ∃ fs : List (List Int → ℝ), ens.servers.mapM (fun s => s.logprob realNum data)
      = .ok (fs.map fun f => data.map fun row => some (f row)) ∧
      ∀ row, fs.map (fun f => Real.exp (f row)) = models.map fun m => dataProb m fun r => row.getD r 0 := by
    have hv := E.valid
    have hi := E.index
    clear E
    generalize ens.servers = servers at hs
    induction hs with
    | nil => exact ⟨[], rfl, fun _ => rfl⟩
    | @cons m s models servers hms _ ih =>
      obtain ⟨fs, h1, h2⟩ := ih (fun m hm => hv m (by simp [hm])) (fun m hm => hi m (by simp [hm]))
      obtain ⟨f, h3, h4⟩ := server_logprob_of (hv m (by simp)) hms data (by rw [hi m (by simp)]; exact hd)
      refine ⟨f :: fs, ?_, fun row => ?_⟩
      · simp only [List.mapM_cons, h3, h1, bind, Except.bind]
        rfl
      · rw [List.map_cons, List.map_cons, h2, h4]
  have hlen : fs.length = models.length := by
    have := congrArg List.length (h2 [])
    simpa using this
  have hne : fs ≠ [] := by
    intro e; rw [e] at hlen; exact E.ne (List.length_eq_zero_iff.1 hlen.symm)
  have hpos := (members_pos E)
  have hrow : ∀ row, Real.exp (logsumexp realNum (fs.map fun f => f row) - Real.log (models.length : ℝ))
      = meanOf models fun m => dataProb m fun r => row.getD r 0 := by
    intro row
    rw [Real.exp_sub, exp_logsumexp _ (by simpa using hne), Real.exp_log hpos, List.map_map]
    have := h2 row
    unfold meanOf
    rw [← this]
    rfl
  have hsl : (ens.servers.length : ℝ) = models.length := by rw [hs.length_eq]
  refine ⟨(List.range data.length).map fun n => logsumexp realNum (fs.map fun f => f (data.getD n [])) - Real.log (models.length : ℝ),
    ?_, ?_⟩
  · unfold Ensemble.logprob
    simp only [h1, bind, Except.bind]
    refine mapM_ok _ _ _ fun n hn => ?_
    rw [List.mem_range] at hn
    have : (fs.map fun f => data.map fun row => some (f row)).mapM (fun lp => (lp.getD n none))
        = some (fs.map fun f => f (data.getD n [])) := by
      clear hrow h2 hlen hne h1
      induction fs with
      | nil => rfl
      | cons f fs ih =>
        have e : (data.map fun row => some (f row)).getD n none = some (f (data.getD n [])) := by
          rw [getD_map_lt _ _ _ hn, List.getD_eq_getElem _ _ hn]
        rw [List.map_cons, List.mapM_cons, e, ih]
        rfl
    rw [this, hsl]
    rfl
  · rw [List.map_map]
    apply List.ext_getElem
    · simp
    · intro n h1 h2
      simp only [List.length_map] at h2
      simp only [List.getElem_map, List.getElem_range, Function.comp]
      rw [hrow, List.getD_eq_getElem _ _ h2]

theorem meanOf_sum {ι : Type} (s : Finset ι) (f : ι → Model ℝ M → ℝ) :
    ∑ i ∈ s, meanOf models (f i) = meanOf models fun m => ∑ i ∈ s, f i m := by
  unfold meanOf
  rw [← Finset.sum_div]
  congr 1
  induction models with
  | nil => simp
  | cons m l ih => simp only [List.map_cons, List.sum_cons, Finset.sum_add_distrib, ih]

theorem meanOf_congr {f g : Model ℝ M → ℝ} (h : ∀ m ∈ models, f m = g m) : meanOf models f = meanOf models g := by
  unfold meanOf
  rw [List.map_congr_left h]

theorem meanOf_const (E : Members models V ragged) (a : ℝ) : meanOf models (fun _ => a) = a := by
  unfold meanOf
  have := (members_pos E)
  rw [List.map_const', List.sum_replicate, nsmul_eq_mul]
  field_simp

theorem meanOf_le (E : Members models V ragged) {f g : Model ℝ M → ℝ} (h : ∀ m ∈ models, f m ≤ g m) :
    meanOf models f ≤ meanOf models g := by
  unfold meanOf
  exact div_le_div_of_nonneg_right (List.sum_le_sum h) (members_pos E).le

theorem meanOf_lt (E : Members models V ragged) {f g : Model ℝ M → ℝ} (h : ∀ m ∈ models, f m < g m) :
    meanOf models f < meanOf models g := by
  unfold meanOf
  refine div_lt_div_of_pos_right ?_ (members_pos E)
  obtain ⟨m, hm⟩ := List.exists_mem_of_ne_nil _ E.ne
  exact List.sum_lt_sum _ _ (fun m hm => (h m hm).le) ⟨m, hm, h m hm⟩

/-- **C30**: adding observations of any features to a row, in all ways, the probabilities add up to that of the row; so the
probabilities of the rows with given counts add up to one. -/
theorem ensemble_logprob_sum (E : Members models V ragged) {ι : Type} [Fintype ι] [DecidableEq ι] (f : ι → Nat) (hf : ∀ i, f i < V)
    (model : Model ℝ M) (hm : model ∈ models) (hne : ∀ i, (columns model (f i)).Nonempty) (x : Nat → Int) :
    (∑ c ∈ choices model f, meanOf models fun m => dataProb m (fun r => x r + (Finset.univ.filter fun i => c i = r).card))
      = (meanOf models fun m => dataProb m x) ∧
    ((∀ m ∈ models, Model.Consistent m) → (meanOf models fun m => dataProb m fun _ => 0) = 1) := by
  refine ⟨?_, fun hc => ?_⟩
  · rw [meanOf_sum]
    refine meanOf_congr fun m' hm' => ?_
    have hcol : ∀ v, columns model v = columns m' v := fun v => by
      unfold columns; rw [E.index model hm, E.index m' hm']
    have hch : choices model f = choices m' f := by
      unfold choices; simp only [hcol]
    rw [hch]
    refine dataProb_sum (E.valid m' hm') f (fun i => by rw [E.size m' hm']; exact hf i) (fun i => by rw [← hcol]; exact hne i) x
  · rw [meanOf_congr (g := fun _ => 1) fun m hm => dataProb_zero (E.valid m hm) (hc m hm), meanOf_const E]

/-- **C28**, ensembles: the mean perplexity, in `[1, M]`. -/
theorem ensemble_latentPerplexity (E : Members models V ragged) {ens : Ensemble ℝ M} (hs : List.Forall₂ Serves models ens.servers) :
    ens.latentPerplexity realNum = ((List.range V).map fun v =>
      meanOf models fun m => Real.exp (shannon Finset.univ (vertMean m v))) ∧
    ∀ v < V, 1 ≤ (meanOf models fun m => Real.exp (shannon Finset.univ (vertMean m v))) ∧
      (meanOf models fun m => Real.exp (shannon Finset.univ (vertMean m v))) ≤ M := by
  refine ⟨?_, fun v hv => ⟨?_, ?_⟩⟩
  · unfold Ensemble.latentPerplexity
    have e : ens.servers.map (Server.latentPerplexity realNum)
        = models.map fun m => (List.range V).map fun v => Real.exp (shannon Finset.univ (vertMean m v)) := by
      have hv := E.valid
      have hz := E.size
      clear E
      generalize ens.servers = servers at hs
      induction hs with
      | nil => rfl
      | @cons m s models servers hms _ ih =>
        rw [List.map_cons, List.map_cons, ih (fun m hm => hv m (by simp [hm])) (fun m hm => hz m (by simp [hm])),
          (latentPerplexity_spec (hv m (by simp)) hms).1, hz m (by simp)]
    rw [e, ← hs.length_eq]
    exact meanOver_eq _ _ E.ne
  · rw [← meanOf_const E 1]
    exact meanOf_le E fun m hm => ((latentPerplexity_spec (E.valid m hm) (srv := _)
      (Classical.choose_spec (server_init (Classical.choose_spec (exists_mst (K := ℝ))) (E.valid m hm))).2.1).2 v
        (by rw [E.size m hm]; exact hv)).1
  · rw [← meanOf_const E (M : ℝ)]
    exact meanOf_le E fun m hm => ((latentPerplexity_spec (E.valid m hm) (srv := _)
      (Classical.choose_spec (server_init (Classical.choose_spec (exists_mst (K := ℝ))) (E.valid m hm))).2.1).2 v
        (by rw [E.size m hm]; exact hv)).2

/-- **C28**, ensembles: the mean perplexity of one observation, in `[1, dim]`. As for one server, the counts are ignored. -/
theorem ensemble_observedPerplexity_partial (E : Members models V ragged) (hc : ∀ m ∈ models, Model.Consistent m)
    (hne : ∀ v < V, ragged.getD v 0 < ragged.getD (v + 1) 0) {ens : Ensemble ℝ M} (hs : List.Forall₂ Serves models ens.servers)
    (counts : List Int) :
    ens.observedPerplexity realNum (some counts) = .ok ((List.range V).map fun v =>
      meanOf models fun m => Real.exp (shannon (columns m v) (predictive m fun _ => 0))) ∧
    ∀ v < V, 1 ≤ (meanOf models fun m => Real.exp (shannon (columns m v) (predictive m fun _ => 0))) ∧
      (meanOf models fun m => Real.exp (shannon (columns m v) (predictive m fun _ => 0)))
        ≤ ((ragged.getD (v + 1) 0 - ragged.getD v 0 : Nat) : ℝ) := by
  have hne' : ∀ m ∈ models, ∀ v < m.tree.numVertices, (columns m v).Nonempty := by
    intro m hm v hv
    rw [E.size m hm] at hv
    unfold columns
    rw [E.index m hm]
    exact Finset.nonempty_Ico.2 (hne v hv)
  have hcard : ∀ m ∈ models, ∀ v, (columns m v).card = ragged.getD (v + 1) 0 - ragged.getD v 0 := by
    intro m hm v
    unfold columns
    rw [E.index m hm, Nat.card_Ico]
  have hrange : ∀ m ∈ models, ∀ v < V, 1 ≤ Real.exp (shannon (columns m v) (predictive m fun _ => 0)) ∧
      Real.exp (shannon (columns m v) (predictive m fun _ => 0)) ≤ (columns m v).card := by
    intro m hm v hv
    have hv' : v < m.tree.numVertices := by rw [E.size m hm]; exact hv
    exact perplexity_range _ _ (fun c hcv => predictive_empty_nonneg (E.valid m hm) (hc m hm) hv' hcv)
      (predictive_empty_sum (E.valid m hm) (hc m hm) hv' (hne' m hm v hv'))
  refine ⟨?_, fun v hv => ⟨?_, ?_⟩⟩
  · unfold Ensemble.observedPerplexity
    have e : ens.servers.mapM (fun s => s.observedPerplexity realNum (some counts))
        = .ok (models.map fun m => (List.range V).map fun v => Real.exp (shannon (columns m v) (predictive m fun _ => 0))) := by
      have hv := E.valid
      have hz := E.size
      clear E hrange hcard
      generalize ens.servers = servers at hs
      induction hs with
      | nil => rfl
      | @cons m s models servers hms _ ih =>
        have := (observedPerplexity_partial (hv m (by simp)) (hc m (by simp)) hms (hne' m (by simp)) counts).1
        rw [hz m (by simp)] at this
        simp only [List.mapM_cons, this, bind, Except.bind, ih (fun m hm => hc m (by simp [hm]))
          (fun m hm => hne' m (by simp [hm])) (fun m hm => hv m (by simp [hm])) (fun m hm => hz m (by simp [hm]))]
        rfl
    simp only [e, bind, Except.bind]
    rw [← hs.length_eq, meanOver_eq _ _ E.ne]
  · rw [← meanOf_const E 1]
    exact meanOf_le E fun m hm => (hrange m hm v hv).1
  · rw [← meanOf_const E (((ragged.getD (v + 1) 0 - ragged.getD v 0 : Nat) : ℝ))]
    refine meanOf_le E fun m hm => ?_
    rw [← hcard m hm v]
    exact (hrange m hm v hv).2

/-- **C30**: the correlations are the means of those of the members; the matrix keeps its properties. -/
theorem ensemble_latentCorrelation (E : Members models V ragged) (hc : ∀ m ∈ models, Model.Consistent m)
    {ens : Ensemble ℝ M} (hs : List.Forall₂ Serves models ens.servers) (junk : Nat → Fin M → Fin M → ℝ) :
    ens.latentCorrelation realNum junk = .ok ((List.range V).map fun i => (List.range V).map fun j =>
      meanOf models fun m => rho (pairProb m i j)) ∧
    ∀ i < V, ∀ j < V, 0 ≤ (meanOf models fun m => rho (pairProb m i j)) ∧ (meanOf models fun m => rho (pairProb m i j)) < 1 ∧
      (meanOf models fun m => rho (pairProb m i j)) = (meanOf models fun m => rho (pairProb m j i)) ∧
      (meanOf models fun m => rho (pairProb m i j)) ≤ meanOf models fun m => rho (pairProb m i i) := by
  refine ⟨?_, fun i hi j hj => ?_⟩
  · unfold Ensemble.latentCorrelation
    have e : ens.servers.mapM (fun s => s.latentCorrelation realNum junk)
        = .ok (models.map fun m => (List.range V).map fun i => (List.range V).map fun j => rho (pairProb m i j)) := by
      have hv := E.valid
      have hz := E.size
      clear E
      generalize ens.servers = servers at hs
      induction hs with
      | nil => rfl
      | @cons m s models servers hms _ ih =>
        have := latentCorrelation_eq (hv m (by simp)) (hc m (by simp)) hms junk
        rw [hz m (by simp)] at this
        simp only [List.mapM_cons, this, bind, Except.bind, ih (fun m hm => hc m (by simp [hm]))
          (fun m hm => hv m (by simp [hm])) (fun m hm => hz m (by simp [hm]))]
        rfl
    simp only [e, bind, Except.bind]
    rw [← hs.length_eq]
    have hne := E.ne
    clear E hc hs e
    cases models with
    | nil => exact absurd rfl hne
    | cons m rest =>
      rw [List.map_cons]
      dsimp only
      have key : ∀ (rest : List (Model ℝ M)) (f : Nat → Nat → ℝ),
          (rest.map fun m => (List.range V).map fun i => (List.range V).map fun j => rho (pairProb m i j)).foldl
            (fun acc y => acc.zipWith (fun r r' => r.zipWith (· + ·) r') y) ((List.range V).map fun i => (List.range V).map fun j => f i j)
          = (List.range V).map fun i => (List.range V).map fun j => f i j + (rest.map fun m => rho (pairProb m i j)).sum := by
        intro rest
        induction rest with
        | nil => intro f; simp
        | cons m rest ih =>
          intro f
          rw [List.map_cons, List.foldl_cons]
          have : ((List.range V).map fun i => (List.range V).map fun j => f i j).zipWith (fun r r' => r.zipWith (· + ·) r')
              ((List.range V).map fun i => (List.range V).map fun j => rho (pairProb m i j))
              = (List.range V).map fun i => (List.range V).map fun j => f i j + rho (pairProb m i j) := by
            rw [List.zipWith_map, List.zipWith_self]
            refine List.map_congr_left fun i _ => ?_
            rw [List.zipWith_map, List.zipWith_self]
          rw [this, ih]
          simp only [List.map_cons, List.sum_cons, add_assoc]
      rw [key, List.map_map]
      simp only [Function.comp_def, List.map_map]
      rfl
  · have hspec : ∀ m ∈ models, 0 ≤ rho (pairProb m i j) ∧ rho (pairProb m i j) < 1 ∧
        rho (pairProb m i j) = rho (pairProb m j i) ∧ rho (pairProb m i j) ≤ rho (pairProb m i i) := by
      intro m hm
      obtain ⟨mst, hmst⟩ := exists_mst (K := ℝ)
      obtain ⟨srv, -, s, -⟩ := server_init hmst (E.valid m hm)
      obtain ⟨f, h1, h2⟩ := latentCorrelation_spec (E.valid m hm) (hc m hm) s junk
      rw [latentCorrelation_eq (E.valid m hm) (hc m hm) s junk] at h1
      rw [E.size m hm] at h1 h2
      have h3 : ∀ i < V, ∀ j < V, rho (pairProb m i j) = f i j := by
        intro i hi j hj
        have h4 := Except.ok.inj h1
        have h5 := List.map_eq_map_iff.1 h4 i (by simpa using hi)
        exact List.map_eq_map_iff.1 h5 j (by simpa using hj)
      obtain ⟨a, b, c, d, -⟩ := h2 i hi j hj
      rw [h3 i hi j hj, h3 j hj i hi, h3 i hi i hi]
      exact ⟨a, b, c, d⟩
    refine ⟨?_, ?_, meanOf_congr fun m hm => (hspec m hm).2.2.1, meanOf_le E fun m hm => (hspec m hm).2.2.2⟩
    · rw [← meanOf_const E 0]
      exact meanOf_le E fun m hm => (hspec m hm).1
    · conv_rhs => rw [← meanOf_const E 1]
      exact meanOf_lt E fun m hm => (hspec m hm).2.1

/-- An ensemble of two different models of the same features. -/
example : Members [pathModel ℝ, { pathModel ℝ with vertSS := fun _ _ => 2, edgeSS := fun _ _ _ => 1 }] 3 [0, 2, 4, 6] where
  ne := by simp
  valid m hm := by
    simp only [List.mem_cons, List.not_mem_nil, or_false] at hm
    rcases hm with rfl | rfl
    · exact pathModel_valid ℝ
    · have h := pathModel_valid ℝ
      exact ⟨h.isTree, h.sorted, h.ragged, h.mono, fun _ _ _ => by simp, fun _ _ _ _ => by simp, h.feat, h.logits⟩
  size m hm := by
    simp only [List.mem_cons, List.not_mem_nil, or_false] at hm
    rcases hm with rfl | rfl <;> rfl
  index m hm := by
    simp only [List.mem_cons, List.not_mem_nil, or_false] at hm
    rcases hm with rfl | rfl <;> rfl

end

end TreeCat
