import Verif.Props.EnsembleLaw
import Verif.Props.EnsemblePredictive

/-!
# C106: rows drawn from a trained ensemble
-/

set_option linter.unusedSectionVars false

namespace TreeCat

open Spec Real

open scoped BigOperators

/-- The expected value of `k` of the `i`-th of `N` rows that the server of an ensemble draws:
`EnsembleServer(ensemble).sample(N, counts, data)[i]`. -/
noncomputable def ensembleDrawn {M : Nat} [NeZero M] (mst : List (List ℝ) → List Edge) (N : Nat) (counts : List Int) (data : Option (List Int)) (i : Nat)
    (k : List Int → ℝ) (models : List (Model ℝ M)) : ℝ :=
  match Ensemble.init mst models with
  | .ok ens => (ens.sample N counts data : ExceptT PyErr (Expect ℝ) _).run (onOk fun rows => k (rows.getD i []))
  | .error _ => 0

/-- The mean, under the posterior of assignments and trees, of the expected value of `k` of a row drawn given assignments, tree and
evidence. -/
noncomputable def Spec.posteriorDrawn {M : Nat} [NeZero M] (t : Table) (prior : List ℝ) (S : Finset (List Edge)) (cfg : TrainConfig) (best : Latent t M → List Edge)
    (counts : List Int) (data : Option (List Int)) (k : List Int → ℝ) : ℝ :=
  (∑ a, ∑ T ∈ S, posterior t prior a T * sampleMean (modelOf t (logitsOf t prior a) a (lastTree cfg best a T)) (fun r => (data.getD []).getD r 0) counts
      fun _ x => k ((List.range (t.raggedIndex.getLastD 0)).map x)) /
    ∑ a : Latent t M, ∑ T ∈ S, posterior t prior a T

section
variable {M : Nat} [NeZero M] {t : Table} {num : Num ℝ} {prior : List ℝ}

/-- What the server of an ensemble of trained models draws. -/
theorem ensembleDrawn_eq (ht : Table.Ordered t) (hc : Table.Counts t) {mst : List (List ℝ) → List Edge} (hmst : MstContract mst) {N : Nat} {counts : List Int}
    {data : Option (List Int)} (hd : ∀ d ∈ data, d.length = t.raggedIndex.getLastD 0) (hcl : counts.length = t.numCols)
    (h127 : ∀ v < t.numCols, counts.getD v 0 ≤ 127) {i : Nat} (hi : i < N) (k : List Int → ℝ) {models : List (Model ℝ M)} (hne : models ≠ [])
    (hD : ∀ m ∈ models, ∃ u, Full t u ∧ m = trainedModel t u (logitsOf t prior (latent t u))) :
    ensembleDrawn mst N counts data i k models = (models.map fun m => sampleMean m (fun r => (data.getD []).getD r 0) counts
      fun _ x => k ((List.range (t.raggedIndex.getLastD 0)).map x)).sum / models.length := by
  have hlen : ∀ a : Latent t M, (logitsOf t prior a).length = t.numCols * (t.numCols - 1) / 2 := by
    intro a
    unfold logitsOf
    rw [List.length_map, completeGrid_length, tri]
  have E : Members models t.numCols t.raggedIndex :=
    ⟨hne, fun m hm => by obtain ⟨u, hu, rfl⟩ := hD m hm; exact (trainedModel_eq ht hc hu (hlen _)).1,
      fun m hm => by obtain ⟨u, hu, rfl⟩ := hD m hm; exact hu.numVertices, fun m hm => by obtain ⟨u, hu, rfl⟩ := hD m hm; rfl⟩
  obtain ⟨ens, h1, h2, -⟩ := ensemble_init hmst E
  have key := ensemble_sample_exact E (ens := ens) (h2.imp fun _ _ h => h.1) N counts data hd hcl h127 (fun v hv _ => hc.width v hv)
    fun n row => if n = i then k row else 1
  have e1 : ∀ rows : List (List Int), (∏ n ∈ Finset.range N, if n = i then k (rows.getD n []) else 1) = k (rows.getD i []) := fun rows => by
    rw [Finset.prod_ite_eq' (Finset.range N) i, if_pos (Finset.mem_range.2 hi)]
  have e2 : ∀ n, n ≠ i → (meanOf models fun m => sampleMean m (fun r => (data.getD []).getD r 0) counts
      fun _ x => if n = i then k ((List.range (t.raggedIndex.getLastD 0)).map x) else 1) = 1 := by
    intro n hn
    simp only [if_neg hn]
    unfold meanOf
    rw [List.map_congr_left (g := fun _ => (1 : ℝ)) fun m hm => sampleMean_const (E.valid m hm) _ counts (fun v hv _ => by
      unfold columns
      rw [E.index m hm]
      rw [E.size m hm] at hv
      exact Finset.nonempty_Ico.2 (hc.width v hv)) 1, List.map_const', List.sum_replicate, nsmul_eq_mul, mul_one]
    exact div_self (by exact_mod_cast (List.length_pos_of_ne_nil hne).ne')
  rw [Finset.prod_eq_single i (fun n _ hn => e2 n hn) (fun h => absurd (Finset.mem_range.2 hi) h)] at key
  simp only [e1, if_true] at key
  simp only [ensembleDrawn, h1]
  rw [key]
  rfl

/-- **C106** for samples. Every row that the server of a trained ensemble draws has, over all runs of training, the law of the
posterior mixture up to `ρ ^ n`; and given the ensemble, the expected value of a function of the row with values in `[0, 1]` has a mean
square distance to its posterior mean of at most `1 / (4 * size) + (ρ ^ n) ^ 2`. (With evidence, the mixture is that of the rows
drawn by the members given the evidence; see C45.) -/
theorem ensemble_drawn (hn : ∀ x, 0 < x → num.gammaln x = log (Gamma x)) (hexp : num.exp = exp)
    (ht : Table.Ordered t) (hm : ∀ ty ∈ t.featureTypes, ty = tyMultinomial) (hc : Table.Counts t)
    (hV : 1 ≤ t.numCols) (hV' : t.numCols ≤ 32768) (hM : M ≤ 128)
    (hp : prior.length = t.numCols * (t.numCols - 1) / 2) (S : Finset (List Edge))
    (hS : ∀ T, T ∈ S ↔ Canonical T ∧ IsTree t.numCols T) (junk : Nat → Nat) :
    ∃ ρ : ℝ, 0 ≤ ρ ∧ ρ < 1 ∧ ∀ {mst : List (List ℝ) → List Edge}, MstContract mst → ∀ {cfg : TrainConfig}, 1 ≤ cfg.initEpochs → 1 ≤ cfg.sampleTreeRate →
      ∀ {fuel : Nat}, (2 * cfg.initEpochs.toNat + 1) * t.numRows ≤ fuel → ∀ {s : Trainer ℝ M}, Trainer.init t prior.length = .ok s →
      ∀ {best : Latent t M → List Edge}, (∀ a, estimateTree mst (completeGrid t.numCols) (logitsOf t prior a) = .ok (best a)) →
      ∀ {N : Nat} {counts : List Int} {data : Option (List Int)}, (∀ d ∈ data, d.length = t.raggedIndex.getLastD 0) →
      counts.length = t.numCols → (∀ v < t.numCols, counts.getD v 0 ≤ 127) → ∀ {i : Nat}, i < N →
      ∀ {k : List Int → ℝ}, (∀ row, 0 ≤ k row) → (∀ row, k row ≤ 1) → ∀ {size : Nat}, 1 ≤ size →
      |(trainMembers num mst junk fuel t prior cfg s size).run (onOk (ensembleDrawn mst N counts data i k)) - posteriorDrawn t prior S cfg best counts data k|
        ≤ ρ ^ cfg.fullEpochs.toNat ∧
      (trainMembers num mst junk fuel t prior cfg s size).run (onOk fun models =>
          (ensembleDrawn mst N counts data i k models - posteriorDrawn t prior S cfg best counts data k) ^ 2)
        ≤ 1 / (4 * size) + (ρ ^ cfg.fullEpochs.toNat) ^ 2 := by
  obtain ⟨ρ, h0, h1, h⟩ := train_converges_of (num := num) (M := M) hn hexp ht hm hc hV hV' hM prior hp S hS junk
  refine ⟨ρ, h0, h1, fun {mst} hmst {cfg} i1 i2 {fuel} hf {s} hs {best} hbest {N counts data} hd hcl h127 {i} hi {k} k0 k1 {size} hsize => ?_⟩
  have hlen : ∀ a : Latent t M, (logitsOf t prior a).length = t.numCols * (t.numCols - 1) / 2 := by
    intro a
    unfold logitsOf
    rw [List.length_map, completeGrid_length, tri]
  obtain ⟨p, hpdef⟩ : ∃ p : Model ℝ M → ℝ, p = fun m => sampleMean m (fun r => (data.getD []).getD r 0) counts
    fun _ x => k ((List.range (t.raggedIndex.getLastD 0)).map x) := ⟨_, rfl⟩
  have hval : ∀ u : Trainer ℝ M, Full t u → Model.Valid (modelOf t (logitsOf t prior (latent t u)) (latent t u) u.tree.getEdges) := fun u hu =>
    modelOf_valid ht hc (hlen _) hu.toGood.canonical hu.isTree
  have hprob : ∀ u : Trainer ℝ M, Full t u → p (trainedModel t u (logitsOf t prior (latent t u)))
      = p (modelOf t (logitsOf t prior (latent t u)) (latent t u) u.tree.getEdges) := fun u hu => by
    rw [hpdef]
    exact sampleMean_renamed (trainedModel_eq ht hc hu (hlen _)).2 (hval u hu) _ _ _
  have hun : ∀ a T, Canonical T → IsTree t.numCols T → 0 ≤ p (modelOf t (logitsOf t prior a) a T) ∧ p (modelOf t (logitsOf t prior a) a T) ≤ 1 := by
    intro a T hC hT
    rw [hpdef]
    exact sampleMean_unit (modelOf_valid (a := a) ht hc (hlen a) hC hT) (fun r => (data.getD []).getD r 0) counts
      (fun v hv _ => Finset.nonempty_Ico.2 (hc.width v hv)) (fun x => k ((List.range (t.raggedIndex.getLastD 0)).map x)) (fun _ => k0 _) fun _ => k1 _
  have A := trainMember_avg (num := num) (M := M) hn hexp ht hm hc hV hV' hM hp junk hmst i1 i2 hf hs
  have hnear : |(trainMember num mst junk fuel t prior cfg s).run (onOk p) - posteriorDrawn t prior S cfg best counts data k| ≤ ρ ^ cfg.fullEpochs.toNat := by
    have := h hmst i1 i2 hf hs hbest (fun logits a T => p (modelOf t logits a T)) 0 1 (fun a T hT => hun a T ((hS T).1 hT).1 ((hS T).1 hT).2)
      (fun r => onOk p (r.1.map (trainedModel t r.2))) (fun u hu => hprob u hu) fun _ _ => rfl
    rw [sub_zero, mul_one] at this
    simp only [hpdef] at this ⊢
    exact this
  have hunit : ∀ m : Model ℝ M, (∃ u, Full t u ∧ m = trainedModel t u (logitsOf t prior (latent t u))) → 0 ≤ p m ∧ p m ≤ 1 := by
    rintro _ ⟨u, hu, rfl⟩
    rw [hprob u hu]
    exact hun _ _ hu.toGood.canonical hu.isTree
  have B := independent_avg A size
  have hens : ∀ l : List (Model ℝ M), (l.length = size ∧ ∀ m ∈ l, ∃ u, Full t u ∧ m = trainedModel t u (logitsOf t prior (latent t u))) →
      ensembleDrawn mst N counts data i k l = (l.map p).sum / l.length := fun l hl => by
    rw [hpdef]
    exact ensembleDrawn_eq ht hc hmst hd hcl h127 hi k (by rintro rfl; simp at hl; omega) hl.2
  have hs0 : (0 : ℝ) < size := by exact_mod_cast hsize
  refine ⟨?_, ?_⟩
  · rw [trainMembers_run, B.congr _ (fun l => 0 + (1 / (size : ℝ)) * (l.map p).sum) fun l hl => by
      rw [hens l hl, hl.1]; ring, B.lin, B.const, (independent_moments A _ size).1]
    have e : 0 + 1 / (size : ℝ) * (size * (trainMember num mst junk fuel t prior cfg s).run (onOk p))
        = (trainMember num mst junk fuel t prior cfg s).run (onOk p) := by field_simp; ring
    rw [e]
    exact hnear
  · rw [trainMembers_run, B.congr _ (fun l => ((l.map p).sum / l.length - posteriorDrawn t prior S cfg best counts data k) ^ 2) fun l hl => by
      rw [hens l hl]]
    exact independent_mse A hunit hnear hsize

end

/-- The second of three rows of `exTable`, drawn given an observation of the last feature: whether the first feature has its second value. -/
example (num : Num ℝ) (hn : ∀ x, 0 < x → num.gammaln x = log (Gamma x)) (hexp : num.exp = exp) (junk : Nat → Nat) :
    ∃ (mst : List (List ℝ) → List Edge) (best : Latent exTable 2 → List Edge) (S : Finset (List Edge)) (s : Trainer ℝ 2) (ρ : ℝ),
      Trainer.init exTable 3 = .ok s ∧ ρ < 1 ∧ ∀ n size : Nat,
      |(trainMembers num mst junk 100 exTable [0, 0, 0] ⟨3, n, 2, false⟩ s (size + 1)).run (onOk
          (ensembleDrawn mst 3 [1, 1, 0] (some [0, 0, 0, 0, 0, 1]) 1 fun row => if row.getD 1 0 = 1 then 1 else 0))
        - posteriorDrawn exTable [0, 0, 0] S ⟨3, n, 2, false⟩ best [1, 1, 0] (some [0, 0, 0, 0, 0, 1]) fun row => if row.getD 1 0 = 1 then 1 else 0| ≤ ρ ^ n := by
  have hm : ∀ ty ∈ exTable.featureTypes, ty = tyMultinomial := by decide
  obtain ⟨mst, hmst⟩ := exists_mst (K := ℝ)
  obtain ⟨S, hS⟩ := exists_trees exTable.numCols
  obtain ⟨s, hs, -, -⟩ := good_init (K := ℝ) (M := 2) (t := exTable) (by decide) (by decide) (by decide) rfl
  obtain ⟨best, hbest⟩ := exists_best (M := 2) (t := exTable) (prior := [0, 0, 0]) hmst (by decide)
  obtain ⟨ρ, r0, r1, h⟩ := ensemble_drawn (M := 2) hn hexp exTable_ordered hm exTable_counts (by decide) (by decide) (by decide)
    (prior := [0, 0, 0]) rfl S hS junk
  refine ⟨mst, best, S, s, ρ, hs, r1, fun n size => ?_⟩
  have u : ∀ p : Prop, [Decidable p] → (0 : ℝ) ≤ (if p then 1 else 0) ∧ (if p then 1 else 0) ≤ (1 : ℝ) := fun p _ => by split_ifs <;> norm_num
  exact (h hmst (cfg := ⟨3, n, 2, false⟩) (show (1 : Int) ≤ 3 by decide) (show (1 : Int) ≤ 2 by decide) (show 14 ≤ 100 by decide) hs hbest
    (N := 3) (by intro d hd; cases hd; decide) (by decide) (by decide) (by decide) (fun _ => (u _).1) (fun _ => (u _).2) (Nat.succ_le_succ (Nat.zero_le size))).1

end TreeCat
