import Verif.Props.TrainPredictive

/-!
# C105: what a trained model reports does not depend on the order of the rows
-/

set_option linter.unusedSectionVars false

namespace TreeCat

open Spec Real

open scoped BigOperators

section
variable {M : Nat} [NeZero M] {t : Table} {data : List (List Int)}

/-- The model of given assignments does not depend on the order of the rows. -/
theorem modelOf_moved {e : Fin (reordered t data).numRows ≃ Fin t.numRows}
    (he : ∀ (i : Fin (reordered t data).numRows) (r : Nat), (reordered t data).cell i r = t.cell (e i) r) (logits : List ℝ) (a : Latent t M) (T : List Edge) :
    modelOf (reordered t data) logits (moved e a) T = modelOf t logits a T := by
  unfold modelOf
  simp only [vertCount_moved, edgeCount_moved, featTotal_moved he]
  rfl

/-- **C105** for rows. Training on a table with its rows in another order and serving the result reports the same probabilities in
expectation, up to `2 * ρ ^ n` for `n` full epochs, with or without `learning_estimate_tree`. -/
theorem train_predictive_reordered {num : Num ℝ} (hn : ∀ x, 0 < x → num.gammaln x = log (Gamma x)) (hexp : num.exp = exp)
    (ht : Table.Ordered t) (hm : ∀ ty ∈ t.featureTypes, ty = tyMultinomial) (hc : Table.Counts t)
    (hV : 1 ≤ t.numCols) (hV' : t.numCols ≤ 32768) (hM : M ≤ 128) {prior : List ℝ}
    (hp : prior.length = t.numCols * (t.numCols - 1) / 2) (junk : Nat → Nat) (hdata : data.Perm t.data) :
    ∃ ρ : ℝ, 0 ≤ ρ ∧ ρ < 1 ∧ ∀ {mst : List (List ℝ) → List Edge}, MstContract mst → ∀ {cfg : TrainConfig}, 1 ≤ cfg.initEpochs → 1 ≤ cfg.sampleTreeRate →
      ∀ {fuel : Nat}, (2 * cfg.initEpochs.toNat + 1) * t.numRows ≤ fuel → ∀ {s s' : Trainer ℝ M}, Trainer.init t prior.length = .ok s →
      Trainer.init (reordered t data) prior.length = .ok s' → ∀ {row : List Int}, row.length = t.raggedIndex.getLastD 0 → (∀ x ∈ row, 0 ≤ x) →
      |(train num mst junk fuel (reordered t data) prior cfg : TrainM ℝ M (Expect ℝ) (List ℝ)).run.run s' (reported mst (reordered t data) row)
        - (train num mst junk fuel t prior cfg : TrainM ℝ M (Expect ℝ) (List ℝ)).run.run s (reported mst t row)| ≤ 2 * ρ ^ cfg.fullEpochs.toNat := by
  obtain ⟨e, hget⟩ : ∃ e : Fin (reordered t data).numRows ≃ Fin t.numRows, ∀ i : Fin (reordered t data).numRows, t.data[(e i : Nat)]'(e i).isLt = data[(i : Nat)]'i.isLt := perm_equiv hdata
  have he : ∀ (i : Fin (reordered t data).numRows) (r : Nat), (reordered t data).cell i r = t.cell (e i) r := fun i r => by
    unfold Table.cell
    rw [List.getD_eq_getElem _ _ i.isLt, List.getD_eq_getElem _ _ (e i).isLt, hget i]
  have hlen : (reordered t data).numRows = t.numRows := hdata.length_eq
  have ht' : Table.Ordered (reordered t data) := ⟨ht.length, ht.mono⟩
  have hc' : Table.Counts (reordered t data) := by
    refine ⟨fun n r => ?_, hc.width⟩
    by_cases h : n < (reordered t data).numRows
    · rw [he ⟨n, h⟩ r]
      exact hc.nonneg _ _
    · unfold Table.cell
      rw [List.getD_eq_default _ _ (not_lt.1 h)]
      simp
  obtain ⟨S, hS⟩ := exists_trees t.numCols
  obtain ⟨ρ, h0, h1, hconv⟩ := train_predictive (num := num) (M := M) hn hexp ht hm hc hV hV' hM hp S hS junk
  obtain ⟨ρ', h0', h1', hconv'⟩ := train_predictive (num := num) (M := M) (t := reordered t data) hn hexp ht' hm hc' hV hV' hM hp S hS junk
  refine ⟨max ρ ρ', le_max_of_le_left h0, max_lt h1 h1', fun {mst} hmst {cfg} i1 i2 {fuel} hf {s s'} hs hs' {row} hr hpos => ?_⟩
  obtain ⟨best, hbest⟩ := exists_best (M := M) (t := t) (prior := prior) hmst hV
  obtain ⟨best', hbest'⟩ := exists_best (M := M) (t := reordered t data) (prior := prior) hmst hV
  have hbb : ∀ a, best' (moved e a) = best a := fun a => by
    have h := hbest' (moved e a)
    rw [logitsOf_moved] at h
    exact (Except.ok.inj ((hbest a).symm.trans h)).symm
  have e1 := hconv hmst i1 i2 hf hs hbest hr hpos
  have e2 := hconv' hmst i1 i2 (hlen.symm ▸ hf) hs' hbest' hr hpos
  let mv : Latent t M ≃ Latent (reordered t data) M :=
    { toFun := moved e
      invFun := fun b n v => b (e.symm n) v
      left_inv := fun a => by funext n v; simp [moved]
      right_inv := fun a => by funext n v; simp [moved] }
  have hsum : ∀ (g : Model ℝ M → ℝ), (∑ a : Latent (reordered t data) M, ∑ T ∈ S, posterior (reordered t data) prior a T *
        g (modelOf (reordered t data) (logitsOf (reordered t data) prior a) a (lastTree cfg best' a T)))
      = ∑ a : Latent t M, ∑ T ∈ S, posterior t prior a T * g (modelOf t (logitsOf t prior a) a (lastTree cfg best a T)) := by
    intro g
    rw [← Equiv.sum_comp mv]
    refine Finset.sum_congr rfl fun a _ => Finset.sum_congr rfl fun T _ => ?_
    change posterior (reordered t data) prior (moved e a) T * g (modelOf (reordered t data) (logitsOf (reordered t data) prior (moved e a)) (moved e a) (lastTree cfg best' (moved e a) T)) = _
    rw [posterior_moved he, logitsOf_moved, modelOf_moved he]
    unfold lastTree
    rw [hbb]
  have htot : (∑ a : Latent (reordered t data) M, ∑ T ∈ S, posterior (reordered t data) prior a T) = ∑ a : Latent t M, ∑ T ∈ S, posterior t prior a T := by
    simpa using hsum fun _ => 1
  have hd := hsum fun m => dataProb m fun r => row.getD r 0
  beta_reduce at hd
  rw [hd, htot] at e2
  have p1 : ρ ^ cfg.fullEpochs.toNat ≤ max ρ ρ' ^ cfg.fullEpochs.toNat := pow_le_pow_left₀ h0 (le_max_left _ _) _
  have p2 : ρ' ^ cfg.fullEpochs.toNat ≤ max ρ ρ' ^ cfg.fullEpochs.toNat := pow_le_pow_left₀ h0' (le_max_right _ _) _
  clear hconv hconv' hsum hd
  rw [abs_le] at e1 e2 ⊢
  constructor
  · linarith [e1.1, e1.2, e2.1, e2.2]
  · linarith [e1.1, e1.2, e2.1, e2.2]

end

/-- `exTable` with its two rows exchanged. -/
example (num : Num ℝ) (hn : ∀ x, 0 < x → num.gammaln x = log (Gamma x)) (hexp : num.exp = exp) (junk : Nat → Nat) :
    ∃ (mst : List (List ℝ) → List Edge) (s s' : Trainer ℝ 2) (ρ : ℝ), ρ < 1 ∧ Trainer.init exTable 3 = .ok s ∧
      Trainer.init (reordered exTable [[0, 3, 1, 0, 0, 0], [1, 0, 0, 2, 0, 1]]) 3 = .ok s' ∧ ∀ n : Nat,
      |(train num mst junk 100 (reordered exTable [[0, 3, 1, 0, 0, 0], [1, 0, 0, 2, 0, 1]]) [1, 2, 3] ⟨3, n, 2, true⟩ : TrainM ℝ 2 (Expect ℝ) (List ℝ)).run.run s'
          (reported mst (reordered exTable [[0, 3, 1, 0, 0, 0], [1, 0, 0, 2, 0, 1]]) [0, 4, 1, 0, 0, 2])
        - (train num mst junk 100 exTable [1, 2, 3] ⟨3, n, 2, true⟩ : TrainM ℝ 2 (Expect ℝ) (List ℝ)).run.run s (reported mst exTable [0, 4, 1, 0, 0, 2])|
        ≤ 2 * ρ ^ n := by
  have hm : ∀ ty ∈ exTable.featureTypes, ty = tyMultinomial := by decide
  obtain ⟨mst, hmst⟩ := exists_mst (K := ℝ)
  obtain ⟨s, hs, -, -⟩ := good_init (K := ℝ) (M := 2) (t := exTable) (by decide) (by decide) (by decide) rfl
  obtain ⟨s', hs', -, -⟩ := good_init (K := ℝ) (M := 2) (t := reordered exTable [[0, 3, 1, 0, 0, 0], [1, 0, 0, 2, 0, 1]]) (by decide) (by decide) (by decide) rfl
  obtain ⟨ρ, r0, r1, h⟩ := train_predictive_reordered (M := 2) hn hexp exTable_ordered hm exTable_counts (by decide) (by decide) (by decide)
    (prior := [1, 2, 3]) rfl junk (data := [[0, 3, 1, 0, 0, 0], [1, 0, 0, 2, 0, 1]]) (by decide)
  refine ⟨mst, s, s', ρ, r1, hs, hs', fun n => ?_⟩
  exact h hmst (cfg := ⟨3, n, 2, true⟩) (show (1 : Int) ≤ 3 by decide) (show (1 : Int) ≤ 2 by decide) (show 14 ≤ 100 by decide) hs hs'
    (row := [0, 4, 1, 0, 0, 2]) (by decide) (by decide)

end TreeCat
