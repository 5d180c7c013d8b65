import Verif.Lemmas.Linear
import Verif.Props.EnsembleSample

/-!
# C45: the law of the samples of an ensemble
-/

set_option linter.unusedSectionVars false

namespace TreeCat

open Spec Util

section
variable {K : Type} [Field K] {β ι : Type}

/-- What to expect of a result that may be an exception. -/
def thenE {α β : Type} (f : α → ExceptT PyErr (Expect K) β) (T : Except PyErr β → K) : Except PyErr α → K
  | .ok a => (f a).run T
  | .error e => T (.error e)

theorem run_bindE {α β : Type} (x : ExceptT PyErr (Expect K) α) (f : α → ExceptT PyErr (Expect K) β) (T : Except PyErr β → K) :
    (x >>= f).run T = x.run (thenE f T) := by
  refine congrArg (fun T => x.run T) (funext fun r => ?_)
  cases r <;> rfl

theorem run_congrE {α : Type} (x : ExceptT PyErr (Expect K) α) {T T' : Except PyErr α → K} (h : ∀ r, T r = T' r) :
    x.run T = x.run T' := congrArg (fun T => x.run T) (funext h)

/-- Draws of members one after the other, laid end to end. -/
theorem parts_law (act : ι → ExceptT PyErr (Expect K) (List β)) (cnt : ι → Nat) (μ : ι → (β → K) → K) {τ : Type} (S : Finset τ) :
    ∀ (l : List ι)
      (_ : ∀ i ∈ l, ∀ (c : τ → K) (k : τ → Nat → β → K) (T : Except PyErr (List β) → K), (∀ e, T (.error e) = 0) →
        (∀ rows, rows.length = cnt i → T (.ok rows) = ∑ t ∈ S, c t * (rows.mapIdx (k t)).prod) →
        (act i).run T = ∑ t ∈ S, c t * ∏ n ∈ Finset.range (cnt i), μ i (k t n))
      (c : τ → K) (k : τ → Nat → β → K) (T : Except PyErr (List (List β)) → K), (∀ e, T (.error e) = 0) →
      (∀ parts, parts.flatten.length = (l.map cnt).sum → T (.ok parts) = ∑ t ∈ S, c t * (parts.flatten.mapIdx (k t)).prod) →
      (l.mapM act).run T
        = ∑ t ∈ S, c t * ((l.flatMap fun i => List.replicate (cnt i) i).mapIdx fun j i => μ i (k t j)).prod
  | [], _, c, k, T, h0, hT => by
    rw [List.mapM_nil]
    change T (.ok []) = _
    rw [hT [] rfl]
    rfl
  | i :: l, H, c, k, T, h0, hT => by
    rw [List.mapM_cons]
    have hrep : ∀ (n : Nat) (f : Nat → ι → K), ((List.replicate n i).mapIdx f).prod = ∏ j ∈ Finset.range n, f j i := by
      intro n f
      rw [mapIdx_prod _ _ i, List.length_replicate]
      refine Finset.prod_congr rfl fun j hj => ?_
      rw [List.getD_eq_getElem _ _ (by simpa using hj), List.getElem_replicate]
    have step := H i (by simp) (fun t => c t * ((l.flatMap fun i => List.replicate (cnt i) i).mapIdx fun j i' => μ i' (k t (j + cnt i))).prod)
      k (thenE (fun rows => (l.mapM act >>= fun parts => pure (rows :: parts))) T) h0 fun rows hrows => by
        change (l.mapM act >>= fun parts => pure (rows :: parts)).run T = _
        refine (run_bindE _ _ T).trans ?_
        refine (parts_law act cnt μ S l (fun i hi => H i (by simp [hi])) (fun t => c t * (rows.mapIdx (k t)).prod)
          (fun t j => k t (j + cnt i)) (thenE (fun parts => pure (rows :: parts)) T) h0 fun parts hp => ?_).trans ?_
        · change T (.ok (rows :: parts)) = _
          rw [hT (rows :: parts) (by rw [List.flatten_cons, List.length_append, hrows, hp, List.map_cons, List.sum_cons])]
          refine Finset.sum_congr rfl fun t _ => ?_
          rw [List.flatten_cons, List.mapIdx_append, List.prod_append, hrows, mul_assoc]
        · refine Finset.sum_congr rfl fun t _ => ?_
          ring
    refine (run_bindE _ _ T).trans ?_
    refine Eq.trans step ?_
    refine Finset.sum_congr rfl fun t _ => ?_
    rw [List.flatMap_cons, List.mapIdx_append, List.prod_append, hrep, List.length_replicate]
    ring

end

section
variable {K : Type} [Field K] [LinearOrder K] [IsStrictOrderedRing K] {M : Nat} [NeZero M]

/-- `sample` after its assertions. -/
theorem server_sample_eq {model : Model K M} {srv : Server K M} (s : Serves model srv) (N : Nat) (counts : List Int)
    (data : Option (List Int)) (hd : ∀ d ∈ data, d.length = model.raggedIndex.getLastD 0)
    (hl : counts.length = model.tree.numVertices) :
    (srv.sample N counts data : ExceptT PyErr (Expect K) _)
      = (sampleLoop srv srv.program N counts (data.getD (List.replicate (model.raggedIndex.getLastD 0) 0)) >>= fun st =>
          pure ((List.range N).map fun n => (List.range (model.raggedIndex.getLastD 0)).map fun r => st.featSamples n r)) := by
  have hR : srv.raggedSize = model.raggedIndex.getLastD 0 := by rw [Server.raggedSize, s.ragged]
  have hl' : ((data.getD (List.replicate (model.raggedIndex.getLastD 0) 0)).length == model.raggedIndex.getLastD 0) = true := by
    rw [beq_iff_eq]
    cases data with
    | none => simp
    | some d => exact hd d rfl
  have hl'' : (counts.length == srv.tree.numVertices) = true := by rw [beq_iff_eq, hl, s.tree]
  simp only [Server.sample, hR]
  rw [hl', hl'']
  rfl

theorem server_sample_lin {model : Model K M} {srv : Server K M} (h : Model.Valid model) (s : Serves model srv) (N : Nat)
    (counts : List Int) (data : Option (List Int)) (hd : ∀ d ∈ data, d.length = model.raggedIndex.getLastD 0)
    (hl : counts.length = model.tree.numVertices) (hc : ∀ v < model.tree.numVertices, counts.getD v 0 ≤ 127)
    (hne : ∀ v < model.tree.numVertices, 0 < counts.getD v 0 → (columns model v).Nonempty)
    {τ : Type} (S : Finset τ) (c : τ → K) (k : τ → Nat → List Int → K) (T : Except PyErr (List (List Int)) → K)
    (h0 : ∀ e, T (.error e) = 0)
    (hT : ∀ rows, rows.length = N → T (.ok rows) = ∑ t ∈ S, c t * (rows.mapIdx (k t)).prod) :
    (srv.sample N counts data : ExceptT PyErr (Expect K) _).run T
      = ∑ t ∈ S, c t * ∏ n ∈ Finset.range N, sampleMean model (fun r => (data.getD []).getD r 0) counts fun _ x =>
          k t n ((List.range (model.raggedIndex.getLastD 0)).map x) := by
  rw [server_sample_eq s N counts data hd hl]
  have key : (sampleLoop srv srv.program N counts (data.getD (List.replicate (model.raggedIndex.getLastD 0) 0)) :
      ExceptT PyErr (Expect K) _).run (fun r => ∑ t ∈ S, c t * onOk (fun st => ∏ n ∈ Finset.range N,
        k t n ((List.range (model.raggedIndex.getLastD 0)).map (st.featSamples n))) r) = _ :=
    Linear.sampleLoop srv srv.program N counts _ τ S c _
  refine Eq.trans ?_ (key.trans ?_)
  · refine (run_bindE _ _ T).trans (run_congrE _ fun r => ?_)
    cases r with
    | error e => change T (.error e) = _; rw [h0]; simp [onOk]
    | ok st =>
      change T (.ok _) = _
      rw [hT _ (by simp)]
      refine Finset.sum_congr rfl fun t _ => ?_
      rw [mapIdx_prod _ _ []]
      simp only [onOk, List.length_map, List.length_range]
      congr 1
      refine Finset.prod_congr rfl fun n hn => ?_
      rw [Finset.mem_range] at hn
      rw [List.getD_eq_getElem _ _ (by simpa using hn), List.getElem_map, List.getElem_range]
  · refine Finset.sum_congr rfl fun t _ => ?_
    congr 1
    rw [← server_sample_exact h s N counts data hd hl hc hne, server_sample_eq s N counts data hd hl]
    refine Eq.trans ?_ (run_bindE _ _ _).symm
    refine run_congrE _ fun r => ?_
    cases r with
    | error e => rfl
    | ok st =>
      change ∏ n ∈ Finset.range N, _ = ∏ n ∈ Finset.range N, _
      refine Finset.prod_congr rfl fun n hn => ?_
      rw [Finset.mem_range] at hn
      rw [List.getD_eq_getElem _ _ (by simpa using hn), List.getElem_map, List.getElem_range]

variable {models : List (Model K M)} {V : Nat} {ragged : List Nat}

theorem owners_perm {size : Nat} (draws : List (Fin size)) :
    ((List.finRange size).flatMap fun i => List.replicate (draws.count i) i).Perm draws := by
  rw [List.perm_iff_count]
  intro i
  rw [List.count_flatMap]
  have : (List.map (List.count i ∘ fun i => List.replicate (draws.count i) i) (List.finRange size))
      = (List.finRange size).map fun j => if j = i then draws.count i else 0 := by
    refine List.map_congr_left fun j _ => ?_
    simp only [Function.comp_apply, List.count_replicate]
    by_cases h : j = i
    · subst h; simp
    · simp [h]
  rw [this, ← List.ofFn_eq_map, List.sum_ofFn]
  simp

/-- The end of `sample`: shuffle what the members returned. -/
def finish (N : Nat) (parts : List (List (List Int))) : ExceptT PyErr (Expect K) (List (List Int)) := do
  let samples ← ExceptT.lift (shuffled parts.flatten)
  liftPy (pyAssert (samples.length == N))
  pure samples

theorem finish_run (N : Nat) (parts : List (List (List Int))) (hp : parts.flatten.length = N) (F : List (List Int) → K) :
    (finish N parts : ExceptT PyErr (Expect K) _).run (onOk F)
      = ((List.range N).permutations.map fun p => F (p.filterMap fun i => parts.flatten[i]?)).sum / (N.factorial : K) := by
  unfold finish
  refine (run_bindE _ _ _).trans ?_
  change ((List.range parts.flatten.length).permutations.map fun p =>
    (do liftPy (pyAssert ((p.filterMap fun i => parts.flatten[i]?).length == N)); pure (p.filterMap fun i => parts.flatten[i]?) :
      ExceptT PyErr (Expect K) _).run (onOk F)).sum / (parts.flatten.length.factorial : K) = _
  rw [hp]
  congr 2
  refine List.map_congr_left fun p hp' => ?_
  have hl : (p.filterMap fun i => parts.flatten[i]?).length = N := by
    have h := (List.mem_permutations.1 hp').filterMap fun i => parts.flatten[i]?
    rw [h.length_eq, ← hp, range_filterMap]
  change (do liftPy (pyAssert ((p.filterMap fun i => parts.flatten[i]?).length == N)); pure (p.filterMap fun i => parts.flatten[i]?) :
    ExceptT PyErr (Expect K) _).run (onOk F) = _
  rw [hl, beq_self_eq_true]
  rfl

/-- The samples of an ensemble, given how many each member draws. -/
theorem ensemble_given (E : Members models V ragged) {ens : Ensemble K M} (hs : List.Forall₂ Serves models ens.servers)
    (N : Nat) (counts : List Int) (data : Option (List Int)) (hd : ∀ d ∈ data, d.length = ragged.getLastD 0)
    (hl : counts.length = V) (hc : ∀ v < V, counts.getD v 0 ≤ 127)
    (hne : ∀ v < V, 0 < counts.getD v 0 → ragged.getD v 0 < ragged.getD (v + 1) 0) (k : Nat → List Int → K)
    {size : Nat} (hsz : ens.servers.length = size) (hlen : models.length = size) (μ : Fin size → (List Int → K) → K)
    (hμ : μ = fun i f => sampleMean (models[i.val]'(hlen ▸ i.isLt)) (fun r => (data.getD []).getD r 0) counts fun _ x =>
      f ((List.range (ragged.getLastD 0)).map x)) (d : Fin N → Fin size) :
    ((ens.servers.zip ((List.finRange size).map fun i => (List.ofFn d).count i)).mapM fun p => p.1.sample p.2 counts data :
        ExceptT PyErr (Expect K) _).run (thenE (finish N) (onOk fun rows => ∏ n ∈ Finset.range N, k n (rows.getD n [])))
      = ∑ p ∈ (List.range N).permutations.toFinset,
          (1 / (N.factorial : K)) * ((p.filterMap fun i => (List.ofFn d)[i]?).mapIdx fun n i => μ i (k n)).prod := by
  let perms := (List.range N).permutations.toFinset
  have hperms : ∀ p ∈ perms, p.Perm (List.range N) := fun p hp => List.mem_permutations.1 (List.mem_toFinset.1 hp)
  have hsum : ∀ F : List Nat → K, ((List.range N).permutations.map F).sum = ∑ p ∈ perms, F p := fun F =>
    (List.sum_toFinset F (List.nodup_permutations _ List.nodup_range)).symm
  have hz : ens.servers.zip ((List.finRange size).map fun i => (List.ofFn d).count i)
      = (List.finRange size).map fun i => (ens.servers[i.val]'(hsz ▸ i.isLt), (List.ofFn d).count i) := by
    apply List.ext_getElem
    · simp [hsz]
    · intro j h1 h2
      simp
  rw [hz, List.mapM_map]
  have hp := owners_perm (List.ofFn d)
  have hcount : ((List.finRange size).map fun i => (List.ofFn d).count i).sum = N := by
    have := hp.length_eq
    rw [List.length_flatMap] at this
    simpa using this
  have main := parts_law (fun i : Fin size => ((ens.servers[i.val]'(hsz ▸ i.isLt)).sample ((List.ofFn d).count i) counts data :
    ExceptT PyErr (Expect K) _)) (fun i => (List.ofFn d).count i) μ perms (List.finRange size)
    (fun i _ c k T h0 hT => by
      have hi : i.val < models.length := hlen ▸ i.isLt
      have hm : models[i.val] ∈ models := List.getElem_mem _
      have hS : Serves (models[i.val]) (ens.servers[i.val]'(hsz ▸ i.isLt)) := List.Forall₂.get hs _ _
      have := server_sample_lin (E.valid _ hm) hS ((List.ofFn d).count i) counts data (by rw [E.index _ hm]; exact hd)
        (by rw [hl, E.size _ hm]) (by rw [E.size _ hm]; exact hc)
        (by rw [E.size _ hm]; intro v hv h; unfold columns; rw [E.index _ hm]; exact Finset.nonempty_Ico.2 (hne v hv h))
        perms c k T h0 hT
      rw [this]
      simp only [hμ, E.index _ hm])
    (fun _ => 1 / (N.factorial : K)) (fun p j => k (p.idxOf j))
  refine (main _ (fun e => rfl) ?_).trans ?_
  rotate_left
  · rw [← Finset.mul_sum, ← Finset.mul_sum]
    congr 1
    have e1 := perm_sum (fun l => (l.mapIdx fun n i => μ i (k n)).prod) hp
    have hln : ((List.finRange size).flatMap fun i => List.replicate ((List.ofFn d).count i) i).length = N := by
      rw [hp.length_eq, List.length_ofFn]
    rw [hln, List.length_ofFn, hsum, hsum] at e1
    rw [← e1]
    refine Finset.sum_congr rfl fun p hp' => ?_
    rw [perm_prod _ (by rw [hln]; exact hperms p hp')]
  · intro parts hparts
    rw [hcount] at hparts
    change (finish N parts : ExceptT PyErr (Expect K) _).run _ = _
    rw [finish_run N parts hparts, hsum, div_eq_mul_one_div, mul_comm, Finset.mul_sum]
    refine Finset.sum_congr rfl fun p hp' => ?_
    rw [← perm_prod _ (by rw [hparts]; exact hperms p hp'), mapIdx_prod _ _ []]
    have hl : (p.filterMap fun i => parts.flatten[i]?).length = N := by
      have h := (hperms p hp').filterMap fun i => parts.flatten[i]?
      rw [h.length_eq, ← hparts, range_filterMap]
    rw [hl]

/-- **C45.** The `N` samples of an ensemble are independent, and each is drawn from the uniform mixture of the laws of its
members. -/
theorem ensemble_sample_exact (E : Members models V ragged) {ens : Ensemble K M} (hs : List.Forall₂ Serves models ens.servers)
    (N : Nat) (counts : List Int) (data : Option (List Int)) (hd : ∀ d ∈ data, d.length = ragged.getLastD 0)
    (hl : counts.length = V) (hc : ∀ v < V, counts.getD v 0 ≤ 127)
    (hne : ∀ v < V, 0 < counts.getD v 0 → ragged.getD v 0 < ragged.getD (v + 1) 0) (k : Nat → List Int → K) :
    (ens.sample N counts data : ExceptT PyErr (Expect K) _).run (onOk fun rows => ∏ n ∈ Finset.range N, k n (rows.getD n []))
      = ∏ n ∈ Finset.range N, meanOf models fun model =>
          sampleMean model (fun r => (data.getD []).getD r 0) counts fun _ x => k n ((List.range (ragged.getLastD 0)).map x) := by
  have hlen := hs.length_eq
  have hpos : 0 < models.length := List.length_pos_of_ne_nil E.ne
  generalize hsz : ens.servers.length = size at *
  -- the law of member `i`
  let μ : Fin size → (List Int → K) → K := fun i f =>
    sampleMean (models[i.val]'(hlen ▸ i.isLt)) (fun r => (data.getD []).getD r 0) counts fun _ x => f ((List.range (ragged.getLastD 0)).map x)
  have hmean : ∀ n, (∑ i, μ i (k n)) / (size : K) = meanOf models fun model =>
      sampleMean model (fun r => (data.getD []).getD r 0) counts fun _ x => k n ((List.range (ragged.getLastD 0)).map x) := by
    intro n
    rw [meanOf, hlen, ← List.sum_ofFn]
    congr 2
    apply List.ext_getElem
    · simp [hlen]
    · intro j h1 h2
      simp [μ]
  let perms := (List.range N).permutations.toFinset
  have hperms : ∀ p ∈ perms, p.Perm (List.range N) := fun p hp => List.mem_permutations.1 (List.mem_toFinset.1 hp)
  -- given the numbers of samples
  have given : ∀ d : Fin N → Fin size,
      ((ens.servers.zip ((List.finRange size).map fun i => (List.ofFn d).count i)).mapM fun p => p.1.sample p.2 counts data :
        ExceptT PyErr (Expect K) _).run (thenE (finish N) (onOk fun rows => ∏ n ∈ Finset.range N, k n (rows.getD n [])))
      = ∑ p ∈ perms, (1 / (N.factorial : K)) * ((p.filterMap fun i => (List.ofFn d)[i]?).mapIdx fun n i => μ i (k n)).prod :=
    ensemble_given E hs N counts data hd hl hc hne k hsz hlen μ rfl
  have e : (ens.sample N counts data : ExceptT PyErr (Expect K) _) = (ExceptT.lift (splitSamples (K := K) N size) >>= fun subs =>
      ((ens.servers.zip subs).mapM fun p => p.1.sample p.2 counts data) >>= finish N) := by
    unfold Ensemble.sample
    rw [hsz]
    rfl
  rw [e]
  refine (run_bindE _ _ _).trans ?_
  change ((List.range N).mapM (fun _ => Choose.choose (fun _ : Fin size => (1 : K))) : Expect K (List (Fin size)))
    (fun draws => (((ens.servers.zip ((List.finRange size).map fun i => draws.count i)).mapM fun p => p.1.sample p.2 counts data)
      >>= finish N).run (onOk fun rows => ∏ n ∈ Finset.range N, k n (rows.getD n []))) = _
  rw [uniform_range]
  have e2 : ∀ d : Fin N → Fin size,
      (((ens.servers.zip ((List.finRange size).map fun i => (List.ofFn d).count i)).mapM fun p => p.1.sample p.2 counts data)
        >>= finish N).run (onOk fun rows => ∏ n ∈ Finset.range N, k n (rows.getD n []))
      = ∑ p ∈ perms, (1 / (N.factorial : K)) * ((p.filterMap fun i => (List.ofFn d)[i]?).mapIdx fun n i => μ i (k n)).prod :=
    fun d => (run_bindE _ _ _).trans (given d)
  rw [Finset.sum_congr rfl fun d _ => e2 d, Finset.sum_comm, Finset.sum_congr rfl fun p hp => by
    rw [← Finset.mul_sum, draws_perm _ (hperms p hp)], Finset.sum_const, ← Finset.prod_congr rfl fun n _ => hmean n,
    Finset.prod_div_distrib, Finset.prod_const, Finset.card_range, List.toFinset_card_of_nodup (List.nodup_permutations _ List.nodup_range),
    List.length_permutations, List.length_range, nsmul_eq_mul, ← mul_assoc, mul_one_div_cancel, one_mul]
  exact_mod_cast N.factorial_ne_zero

end

end TreeCat
