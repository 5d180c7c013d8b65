import Verif.Props.EnsembleDrawn
import Verif.Props.EnsembleTail

/-!
# C109: rows drawn from a trained ensemble
-/

set_option linter.unusedSectionVars false

namespace TreeCat

open Spec Real

open scoped BigOperators

section
variable {M : Nat} [NeZero M] {t : Table} {num : Num ℝ} {prior : List ℝ}

/-- **C109** for samples. Given the ensemble, the expected value of a function of a drawn row with values in `[0, 1]` misses its posterior
mean by `ρ ^ n + ε` or more with a probability, over all runs of training, of at most `2 * exp (- size * ε ^ 2 / 2)`. -/
theorem ensemble_drawn_tail (hn : ∀ x, 0 < x → num.gammaln x = log (Gamma x)) (hexp : num.exp = exp)
    (ht : Table.Ordered t) (hm : ∀ ty ∈ t.featureTypes, ty = tyMultinomial) (hc : Table.Counts t)
    (hV : 1 ≤ t.numCols) (hV' : t.numCols ≤ 32768) (hM : M ≤ 128)
    (hp : prior.length = t.numCols * (t.numCols - 1) / 2) (S : Finset (List Edge))
    (hS : ∀ T, T ∈ S ↔ Canonical T ∧ IsTree t.numCols T) (junk : Nat → Nat) :
    ∃ ρ : ℝ, 0 ≤ ρ ∧ ρ < 1 ∧ ∀ {mst : List (List ℝ) → List Edge}, MstContract mst → ∀ {cfg : TrainConfig}, 1 ≤ cfg.initEpochs → 1 ≤ cfg.sampleTreeRate →
      ∀ {fuel : Nat}, (2 * cfg.initEpochs.toNat + 1) * t.numRows ≤ fuel → ∀ {s : Trainer ℝ M}, Trainer.init t prior.length = .ok s →
      ∀ {best : Latent t M → List Edge}, (∀ a, estimateTree mst (completeGrid t.numCols) (logitsOf t prior a) = .ok (best a)) →
      ∀ {N : Nat} {counts : List Int} {data : Option (List Int)}, (∀ d ∈ data, d.length = t.raggedIndex.getLastD 0) →
      counts.length = t.numCols → (∀ v < t.numCols, counts.getD v 0 ≤ 127) → ∀ {i : Nat}, i < N →
      ∀ {k : List Int → ℝ}, (∀ row, 0 ≤ k row) → (∀ row, k row ≤ 1) → ∀ {size : Nat}, 1 ≤ size → ∀ {ε : ℝ}, 0 ≤ ε →
      (trainMembers num mst junk fuel t prior cfg s size).run (onOk fun models => open Classical in
          if ρ ^ cfg.fullEpochs.toNat + ε ≤ |ensembleDrawn mst N counts data i k models - posteriorDrawn t prior S cfg best counts data k| then 1 else 0)
        ≤ 2 * exp (-(size * ε ^ 2 / 2)) := by
  classical
  obtain ⟨ρ, h0, h1, h⟩ := train_converges_of (num := num) (M := M) hn hexp ht hm hc hV hV' hM prior hp S hS junk
  refine ⟨ρ, h0, h1, fun {mst} hmst {cfg} i1 i2 {fuel} hf {s} hs {best} hbest {N counts data} hd hcl h127 {i} hi {k} k0 k1 {size} hsize {ε} hε => ?_⟩
  have hlen : ∀ a : Latent t M, (logitsOf t prior a).length = t.numCols * (t.numCols - 1) / 2 := by
    intro a
    unfold logitsOf
    rw [List.length_map, completeGrid_length, tri]
  obtain ⟨p, hpdef⟩ : ∃ p : Model ℝ M → ℝ, p = fun m => sampleMean m (fun r => (data.getD []).getD r 0) counts
    fun _ x => k ((List.range (t.raggedIndex.getLastD 0)).map x) := ⟨_, rfl⟩
  have hval : ∀ u : Trainer ℝ M, Full t u → Model.Valid (modelOf t (logitsOf t prior (latent t u)) (latent t u) u.tree.getEdges) := fun u hu =>
    modelOf_valid ht hc (hlen _) hu.toGood.canonical hu.isTree
  have hprob : ∀ u : Trainer ℝ M, Full t u → p (trainedModel t u (logitsOf t prior (latent t u)))
      = p (modelOf t (logitsOf t prior (latent t u)) (latent t u) u.tree.getEdges) := fun u hu => by
    rw [hpdef]
    exact sampleMean_renamed (trainedModel_eq ht hc hu (hlen _)).2 (hval u hu) _ _ _
  have hun : ∀ a T, Canonical T → IsTree t.numCols T → 0 ≤ p (modelOf t (logitsOf t prior a) a T) ∧ p (modelOf t (logitsOf t prior a) a T) ≤ 1 := by
    intro a T hC hT
    rw [hpdef]
    exact sampleMean_unit (modelOf_valid (a := a) ht hc (hlen a) hC hT) (fun r => (data.getD []).getD r 0) counts
      (fun v hv _ => Finset.nonempty_Ico.2 (hc.width v hv)) (fun x => k ((List.range (t.raggedIndex.getLastD 0)).map x)) (fun _ => k0 _) fun _ => k1 _
  have A := trainMember_avg (num := num) (M := M) hn hexp ht hm hc hV hV' hM hp junk hmst i1 i2 hf hs
  have hnear : |(trainMember num mst junk fuel t prior cfg s).run (onOk p) - posteriorDrawn t prior S cfg best counts data k| ≤ ρ ^ cfg.fullEpochs.toNat := by
    have := h hmst i1 i2 hf hs hbest (fun logits a T => p (modelOf t logits a T)) 0 1 (fun a T hT => hun a T ((hS T).1 hT).1 ((hS T).1 hT).2)
      (fun r => onOk p (r.1.map (trainedModel t r.2))) (fun u hu => hprob u hu) fun _ _ => rfl
    rw [sub_zero, mul_one] at this
    simp only [hpdef] at this ⊢
    exact this
  have hunit : ∀ m : Model ℝ M, (∃ u, Full t u ∧ m = trainedModel t u (logitsOf t prior (latent t u))) → 0 ≤ p m ∧ p m ≤ 1 := by
    rintro _ ⟨u, hu, rfl⟩
    rw [hprob u hu]
    exact hun _ _ hu.toGood.canonical hu.isTree
  have B := independent_avg A size
  have hens : ∀ l : List (Model ℝ M), (l.length = size ∧ ∀ m ∈ l, ∃ u, Full t u ∧ m = trainedModel t u (logitsOf t prior (latent t u))) →
      ensembleDrawn mst N counts data i k l = (l.map p).sum / l.length := fun l hl => by
    rw [hpdef]
    exact ensembleDrawn_eq ht hc hmst hd hcl h127 hi k (by rintro rfl; simp at hl; omega) hl.2
  rw [trainMembers_run, B.congr _ (fun l => if ρ ^ cfg.fullEpochs.toNat + ε ≤ |(l.map p).sum / l.length - posteriorDrawn t prior S cfg best counts data k|
      then 1 else 0) fun l hl => by rw [hens l hl]]
  exact independent_hoeffding A hunit hnear hsize hε

end

/-- The second of three rows of `exTable`, drawn given an observation of the last feature: whether the first feature has its second value. -/
example (num : Num ℝ) (hn : ∀ x, 0 < x → num.gammaln x = log (Gamma x)) (hexp : num.exp = exp) (junk : Nat → Nat) :
    ∃ (mst : List (List ℝ) → List Edge) (best : Latent exTable 2 → List Edge) (S : Finset (List Edge)) (s : Trainer ℝ 2) (ρ : ℝ),
      Trainer.init exTable 3 = .ok s ∧ ρ < 1 ∧ ∀ n size : Nat,
      (trainMembers num mst junk 100 exTable [0, 0, 0] ⟨3, n, 2, false⟩ s (size + 1)).run (onOk fun models => open Classical in
          if ρ ^ n + 1 / 10 ≤ |ensembleDrawn mst 3 [1, 1, 0] (some [0, 0, 0, 0, 0, 1]) 1 (fun row => if row.getD 1 0 = 1 then 1 else 0) models
            - posteriorDrawn exTable [0, 0, 0] S ⟨3, n, 2, false⟩ best [1, 1, 0] (some [0, 0, 0, 0, 0, 1]) fun row => if row.getD 1 0 = 1 then 1 else 0| then 1 else 0)
        ≤ 2 * exp (-((size + 1 : Nat) * (1 / 10) ^ 2 / 2)) := by
  have hm : ∀ ty ∈ exTable.featureTypes, ty = tyMultinomial := by decide
  obtain ⟨mst, hmst⟩ := exists_mst (K := ℝ)
  obtain ⟨S, hS⟩ := exists_trees exTable.numCols
  obtain ⟨s, hs, -, -⟩ := good_init (K := ℝ) (M := 2) (t := exTable) (by decide) (by decide) (by decide) rfl
  obtain ⟨best, hbest⟩ := exists_best (M := 2) (t := exTable) (prior := [0, 0, 0]) hmst (by decide)
  obtain ⟨ρ, r0, r1, h⟩ := ensemble_drawn_tail (M := 2) hn hexp exTable_ordered hm exTable_counts (by decide) (by decide) (by decide)
    (prior := [0, 0, 0]) rfl S hS junk
  refine ⟨mst, best, S, s, ρ, hs, r1, fun n size => ?_⟩
  have u : ∀ p : Prop, [Decidable p] → (0 : ℝ) ≤ (if p then 1 else 0) ∧ (if p then 1 else 0) ≤ (1 : ℝ) := fun p _ => by split_ifs <;> norm_num
  exact h hmst (cfg := ⟨3, n, 2, false⟩) (show (1 : Int) ≤ 3 by decide) (show (1 : Int) ≤ 2 by decide) (show 14 ≤ 100 by decide) hs hbest
    (N := 3) (by intro d hd; cases hd; decide) (by decide) (by decide) (by decide) (fun _ => (u _).1) (fun _ => (u _).2) (Nat.succ_le_succ (Nat.zero_le size)) (by norm_num)

end TreeCat
