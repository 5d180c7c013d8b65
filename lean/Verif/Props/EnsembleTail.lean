import Mathlib.Analysis.Convex.SpecificFunctions.Basic
import Mathlib.Analysis.SpecialFunctions.Trigonometric.Series
import Verif.Props.EnsemblePredictive

/-!
# C109: large errors of a trained ensemble are exponentially unlikely
-/

set_option linter.unusedSectionVars false

namespace TreeCat

open Spec Real

open scoped BigOperators

section
variable {α : Type} {D : α → Prop} {E : (α → ℝ) → ℝ}

theorem Avg.mulLeft {H : α → Prop} (h : Avg D H E) (f : α → ℝ) (c : ℝ) : E (fun a => c * f a) = c * E f := by
  have := h.lin (fun _ => 0) f c
  rw [h.const, zero_add] at this
  simpa using this

theorem Avg.mono {H : α → Prop} (h : Avg D H E) {f g : α → ℝ} (hfg : ∀ a, D a → f a ≤ g a) : E f ≤ E g := by
  have := h.pos (fun a => g a + (-1) * f a) fun a ha => by linarith [hfg a ha]
  rw [h.lin] at this
  linarith

/-- The expected value of a product of independent factors. -/
theorem independent_prod (h : Avg D (fun _ => False) E) (f : α → ℝ) : ∀ n, independent E n (fun l => (l.map f).prod) = E f ^ n
  | 0 => by simp [independent]
  | n + 1 => by
    change E (fun a => independent E n fun l => ((a :: l).map f).prod) = _
    have e : ∀ a, independent E n (fun l => ((a :: l).map f).prod) = E f ^ n * f a := fun a => by
      simp only [List.map_cons, List.prod_cons]
      rw [(independent_avg h n).mulLeft, independent_prod h f n, mul_comm]
    simp only [e]
    rw [h.mulLeft, pow_succ]

/-- Sums of independent centred terms in `[-1, 1]`. -/
theorem independent_tail (h : Avg D (fun _ => False) E) {y : α → ℝ} (hy : ∀ a, D a → |y a| ≤ 1) (h0 : E y = 0) (n : Nat) {ε : ℝ} (hε : 0 ≤ ε) :
    independent E n (fun l => open Classical in if n * ε ≤ (l.map y).sum then 1 else 0) ≤ exp (-(n * ε ^ 2 / 2)) := by
  classical
  have A := independent_avg h n
  have hmgf : E (fun a => exp (y a * ε)) ≤ exp (ε ^ 2 / 2) := by
    refine (h.mono fun a ha => exp_mul_le_cosh_add_mul_sinh (hy a ha) ε).trans ?_
    have : E (fun a => cosh ε + y a * sinh ε) = cosh ε := by
      have := h.lin (fun _ => cosh ε) y (sinh ε)
      rw [h.const, h0, mul_zero, add_zero] at this
      simpa only [mul_comm] using this
    rw [this]
    exact cosh_le_exp_half_sq ε
  have hm0 : 0 ≤ E (fun a => exp (y a * ε)) := h.pos _ fun a _ => (exp_pos _).le
  calc independent E n (fun l => if n * ε ≤ (l.map y).sum then 1 else 0)
      ≤ independent E n fun l => exp (-(n * ε ^ 2)) * (l.map fun a => exp (y a * ε)).prod := by
        refine A.mono fun l hl => ?_
        clear hl
        have e : (l.map fun a => exp (y a * ε)).prod = exp ((l.map y).sum * ε) := by
          clear * -
          induction l with
          | nil => simp
          | cons a l ih => simp only [List.map_cons, List.prod_cons, List.sum_cons, ih, ← exp_add]; ring_nf
        rw [e, ← exp_add]
        split_ifs with hx
        · exact one_le_exp (by nlinarith)
        · exact (exp_pos _).le
    _ = exp (-(n * ε ^ 2)) * E (fun a => exp (y a * ε)) ^ n := by rw [A.mulLeft, independent_prod h]
    _ ≤ exp (-(n * ε ^ 2)) * exp (ε ^ 2 / 2) ^ n := mul_le_mul_of_nonneg_left (pow_le_pow_left₀ hm0 hmgf n) (exp_pos _).le
    _ = exp (-(n * ε ^ 2 / 2)) := by
        rw [← exp_nat_mul, ← exp_add]
        ring_nf

/-- Means of independent values in `[0, 1]`. -/
theorem independent_hoeffding (h : Avg D (fun _ => False) E) {p : α → ℝ} (hp : ∀ a, D a → 0 ≤ p a ∧ p a ≤ 1) {c δ : ℝ} (hc : |E p - c| ≤ δ) {n : Nat} (hn : 1 ≤ n)
    {ε : ℝ} (hε : 0 ≤ ε) :
    independent E n (fun l => open Classical in if δ + ε ≤ |(l.map p).sum / l.length - c| then 1 else 0) ≤ 2 * exp (-(n * ε ^ 2 / 2)) := by
  classical
  have A := independent_avg h n
  have hn0 : (0 : ℝ) < n := by exact_mod_cast hn
  have m0 : 0 ≤ E p := h.pos _ fun a ha => (hp a ha).1
  have m1 : E p ≤ 1 := by
    have := h.mono (g := fun _ => 1) fun a ha => (hp a ha).2
    rwa [h.one] at this
  have hsum : ∀ (σ : ℝ) (l : List α), l.length = n → (l.map fun a => σ * (p a - E p)).sum = σ * ((l.map p).sum - n * E p) := by
    intro σ l hl
    rw [← hl]
    clear hl
    induction l with
    | nil => simp
    | cons a l ih =>
      simp only [List.map_cons, List.sum_cons, List.length_cons, ih]
      push_cast; ring
  have side : ∀ σ : ℝ, |σ| = 1 → independent E n (fun l => if n * ε ≤ (l.map fun a => σ * (p a - E p)).sum then 1 else 0) ≤ exp (-(n * ε ^ 2 / 2)) := by
    intro σ hσ
    refine independent_tail h (y := fun a => σ * (p a - E p)) (fun a ha => ?_) ?_ n hε
    · rw [abs_mul, hσ, one_mul, abs_le]
      constructor <;> linarith [(hp a ha).1, (hp a ha).2]
    · rw [h.mulLeft]
      have := h.lin p (fun _ => E p) (-1)
      rw [h.const] at this
      have e : E (fun a => p a - E p) = 0 := by
        rw [show (fun a => p a - E p) = fun a => p a + (-1) * E p from funext fun a => by ring, this]; ring
      rw [e, mul_zero]
  have s1 := side 1 (by simp)
  have s2 := side (-1) (by simp)
  refine (A.mono (g := fun l => (if n * ε ≤ (l.map fun a => 1 * (p a - E p)).sum then 1 else 0) + (if n * ε ≤ (l.map fun a => -1 * (p a - E p)).sum then 1 else 0))
    fun l hl => ?_).trans ?_
  · rw [hsum 1 l hl.1, hsum (-1) l hl.1, hl.1]
    have hmean : (l.map p).sum = n * ((l.map p).sum / n) := by field_simp
    have key : δ + ε ≤ |(l.map p).sum / n - c| → n * ε ≤ 1 * ((l.map p).sum - n * E p) ∨ n * ε ≤ -1 * ((l.map p).sum - n * E p) := by
      intro hx
      have h2 := abs_le.1 hc
      generalize (l.map p).sum / (n : ℝ) = x at *
      rw [hmean]
      rcases le_abs.1 hx with hx | hx
      · left; nlinarith
      · right; nlinarith
    have u : ∀ q : Prop, [Decidable q] → (0 : ℝ) ≤ if q then 1 else 0 := fun q _ => by split_ifs <;> norm_num
    by_cases hx : δ + ε ≤ |(l.map p).sum / n - c|
    · rw [if_pos hx]
      rcases key hx with hk | hk
      · rw [if_pos hk]; linarith [u (n * ε ≤ -1 * ((l.map p).sum - n * E p))]
      · rw [if_pos hk]; linarith [u (n * ε ≤ 1 * ((l.map p).sum - n * E p))]
    · rw [if_neg hx]
      exact add_nonneg (u _) (u _)
  · rw [A.add]
    linarith

end

section
variable {M : Nat} [NeZero M] {num : Num ℝ} {t : Table} {prior : List ℝ}

/-- **C109**, exponentially small probabilities of large errors (Hoeffding's method): the probability reported by the server of the
ensemble misses the posterior mean by `ρ ^ n + ε` or more with a probability of at most `2 * exp (- size * ε ^ 2 / 2)`. -/
theorem ensemble_tail (hn : ∀ x, 0 < x → num.gammaln x = log (Gamma x)) (hexp : num.exp = exp)
    (ht : Table.Ordered t) (hm : ∀ ty ∈ t.featureTypes, ty = tyMultinomial) (hc : Table.Counts t)
    (hV : 1 ≤ t.numCols) (hV' : t.numCols ≤ 32768) (hM : M ≤ 128)
    (hp : prior.length = t.numCols * (t.numCols - 1) / 2) (S : Finset (List Edge))
    (hS : ∀ T, T ∈ S ↔ Canonical T ∧ IsTree t.numCols T) (junk : Nat → Nat) :
    ∃ ρ : ℝ, 0 ≤ ρ ∧ ρ < 1 ∧ ∀ {mst : List (List ℝ) → List Edge}, MstContract mst → ∀ {cfg : TrainConfig}, 1 ≤ cfg.initEpochs → 1 ≤ cfg.sampleTreeRate →
      ∀ {fuel : Nat}, (2 * cfg.initEpochs.toNat + 1) * t.numRows ≤ fuel → ∀ {s : Trainer ℝ M}, Trainer.init t prior.length = .ok s →
      ∀ {best : Latent t M → List Edge}, (∀ a, estimateTree mst (completeGrid t.numCols) (logitsOf t prior a) = .ok (best a)) →
      ∀ {row : List Int}, row.length = t.raggedIndex.getLastD 0 → (∀ x ∈ row, 0 ≤ x) → ∀ {size : Nat}, 1 ≤ size → ∀ {ε : ℝ}, 0 ≤ ε →
      (trainMembers num mst junk fuel t prior cfg s size).run (onOk fun models =>
        open Classical in if ρ ^ cfg.fullEpochs.toNat + ε ≤ |ensembleProb mst row models - posteriorMean t prior S cfg best row| then 1 else 0)
        ≤ 2 * exp (-(size * ε ^ 2 / 2)) := by
  classical
  obtain ⟨ρ, h0, h1, h⟩ := train_converges_of (num := num) (M := M) hn hexp ht hm hc hV hV' hM prior hp S hS junk
  refine ⟨ρ, h0, h1, fun {mst} hmst {cfg} i1 i2 {fuel} hf {s} hs {best} hbest {row} hrow hpos {size} hsize {ε} hε => ?_⟩
  have hnn : ∀ r, 0 ≤ row.getD r 0 := by
    intro r
    rw [List.getD_eq_getElem?_getD]
    cases hr : row[r]? with
    | none => simp
    | some x => exact hpos x (List.mem_of_getElem? hr)
  have hlen : ∀ a : Latent t M, (logitsOf t prior a).length = t.numCols * (t.numCols - 1) / 2 := by
    intro a
    unfold logitsOf
    rw [List.length_map, completeGrid_length, tri]
  have hprob : ∀ u : Trainer ℝ M, Full t u → dataProb (trainedModel t u (logitsOf t prior (latent t u))) (fun r => row.getD r 0)
      = dataProb (modelOf t (logitsOf t prior (latent t u)) (latent t u) u.tree.getEdges) fun r => row.getD r 0 := fun u hu =>
    dataProb_renamed (trainedModel_eq ht hc hu (hlen _)).2 (modelOf_valid ht hc (hlen _) hu.toGood.canonical hu.isTree) _
  have A := trainMember_avg (num := num) (M := M) hn hexp ht hm hc hV hV' hM hp junk hmst i1 i2 hf hs
  have hnear : |(trainMember num mst junk fuel t prior cfg s).run (onOk fun m => dataProb m fun r => row.getD r 0) - posteriorMean t prior S cfg best row|
      ≤ ρ ^ cfg.fullEpochs.toNat := by
    have := h hmst i1 i2 hf hs hbest (fun logits a T => dataProb (modelOf t logits a T) fun r => row.getD r 0) 0 1 (fun a T hT =>
      dataProb_unit (modelOf_valid ht hc (hlen a) ((hS T).1 hT).1 ((hS T).1 hT).2) modelOf_consistent hnn)
      (fun r => onOk (fun m => dataProb m fun r => row.getD r 0) (r.1.map (trainedModel t r.2))) (fun u hu => hprob u hu) fun _ _ => rfl
    rw [sub_zero, mul_one] at this
    exact this
  have hunit : ∀ m : Model ℝ M, (∃ u, Full t u ∧ m = trainedModel t u (logitsOf t prior (latent t u))) →
      0 ≤ dataProb m (fun r => row.getD r 0) ∧ dataProb m (fun r => row.getD r 0) ≤ 1 := by
    rintro _ ⟨u, hu, rfl⟩
    rw [hprob u hu]
    exact dataProb_unit (modelOf_valid ht hc (hlen _) hu.toGood.canonical hu.isTree) modelOf_consistent hnn
  have hens : ∀ l : List (Model ℝ M), (l.length = size ∧ ∀ m ∈ l, ∃ u, Full t u ∧ m = trainedModel t u (logitsOf t prior (latent t u))) →
      ensembleProb mst row l = (l.map fun m => dataProb m fun r => row.getD r 0).sum / l.length := fun l hl =>
    ensembleProb_eq ht hc hmst hrow (by rintro rfl; simp at hl; omega) hl.2
  rw [trainMembers_run, (independent_avg A size).congr _ (fun l => if ρ ^ cfg.fullEpochs.toNat + ε
      ≤ |(l.map fun m => dataProb m fun r => row.getD r 0).sum / l.length - posteriorMean t prior S cfg best row| then 1 else 0) fun l hl => by
    rw [hens l hl]]
  exact independent_hoeffding A hunit hnear hsize hε

/-- **C109**, several rows at once: the probability that the server of the ensemble misses the posterior mean of any of the rows by
`ρ ^ n + ε` or more is at most `2 * exp (- size * ε ^ 2 / 2)` times the number of rows. -/
theorem ensemble_tail_rows (hn : ∀ x, 0 < x → num.gammaln x = log (Gamma x)) (hexp : num.exp = exp)
    (ht : Table.Ordered t) (hm : ∀ ty ∈ t.featureTypes, ty = tyMultinomial) (hc : Table.Counts t)
    (hV : 1 ≤ t.numCols) (hV' : t.numCols ≤ 32768) (hM : M ≤ 128)
    (hp : prior.length = t.numCols * (t.numCols - 1) / 2) (S : Finset (List Edge))
    (hS : ∀ T, T ∈ S ↔ Canonical T ∧ IsTree t.numCols T) (junk : Nat → Nat) :
    ∃ ρ : ℝ, 0 ≤ ρ ∧ ρ < 1 ∧ ∀ {mst : List (List ℝ) → List Edge}, MstContract mst → ∀ {cfg : TrainConfig}, 1 ≤ cfg.initEpochs → 1 ≤ cfg.sampleTreeRate →
      ∀ {fuel : Nat}, (2 * cfg.initEpochs.toNat + 1) * t.numRows ≤ fuel → ∀ {s : Trainer ℝ M}, Trainer.init t prior.length = .ok s →
      ∀ {best : Latent t M → List Edge}, (∀ a, estimateTree mst (completeGrid t.numCols) (logitsOf t prior a) = .ok (best a)) →
      ∀ {rows : List (List Int)}, (∀ row ∈ rows, row.length = t.raggedIndex.getLastD 0) → (∀ row ∈ rows, ∀ x ∈ row, 0 ≤ x) →
      ∀ {size : Nat}, 1 ≤ size → ∀ {ε : ℝ}, 0 ≤ ε →
      (trainMembers num mst junk fuel t prior cfg s size).run (onOk fun models => open Classical in
        if ∃ row ∈ rows, ρ ^ cfg.fullEpochs.toNat + ε ≤ |ensembleProb mst row models - posteriorMean t prior S cfg best row| then 1 else 0)
        ≤ rows.length * (2 * exp (-(size * ε ^ 2 / 2))) := by
  classical
  obtain ⟨ρ, h0, h1, h⟩ := ensemble_tail (num := num) (M := M) hn hexp ht hm hc hV hV' hM hp S hS junk
  refine ⟨ρ, h0, h1, fun {mst} hmst {cfg} i1 i2 {fuel} hf {s} hs {best} hbest {rows} => ?_⟩
  intro hrows hpos size hsize ε hε
  have B := independent_avg (trainMember_avg (num := num) (M := M) hn hexp ht hm hc hV hV' hM hp junk hmst i1 i2 hf hs) size
  have h := fun row h1 h2 => h hmst i1 i2 hf hs hbest (row := row) h1 h2 hsize hε
  simp only [trainMembers_run] at h ⊢
  induction rows with
  | nil =>
    simp only [List.not_mem_nil, false_and, exists_false, if_false, List.length_nil, Nat.cast_zero, zero_mul]
    exact (B.const 0).le
  | cons row rows ih =>
    have e1 := h row (hrows row (by simp)) (hpos row (by simp))
    have e2 := ih (fun r hr => hrows r (by simp [hr])) fun r hr => hpos r (by simp [hr])
    refine (B.mono (g := fun l => (if ρ ^ cfg.fullEpochs.toNat + ε ≤ |ensembleProb mst row l - posteriorMean t prior S cfg best row| then 1 else 0)
      + if ∃ r ∈ rows, ρ ^ cfg.fullEpochs.toNat + ε ≤ |ensembleProb mst r l - posteriorMean t prior S cfg best r| then 1 else 0) fun l _ => ?_).trans ?_
    · have u : ∀ q : Prop, [Decidable q] → (0 : ℝ) ≤ if q then 1 else 0 := fun q _ => by split_ifs <;> norm_num
      by_cases hx : ∃ r ∈ row :: rows, ρ ^ cfg.fullEpochs.toNat + ε ≤ |ensembleProb mst r l - posteriorMean t prior S cfg best r|
      · rw [if_pos hx]
        obtain ⟨r, hr, hx⟩ := hx
        rcases List.mem_cons.1 hr with rfl | hr
        · rw [if_pos hx]
          exact le_add_of_nonneg_right (u _)
        · have hr' : ∃ r ∈ rows, ρ ^ cfg.fullEpochs.toNat + ε ≤ |ensembleProb mst r l - posteriorMean t prior S cfg best r| := ⟨r, hr, hx⟩
          rw [if_pos hr']
          exact le_add_of_nonneg_left (u _)
      · rw [if_neg hx]
        exact add_nonneg (u _) (u _)
    · rw [B.add]
      push_cast [List.length_cons]
      linarith

end

/-- With 2000 members, errors of `1 / 10` beyond the bias have a probability of at most `2 * exp (- 10)`. -/
example (num : Num ℝ) (hn : ∀ x, 0 < x → num.gammaln x = log (Gamma x)) (hexp : num.exp = exp) (junk : Nat → Nat) :
    ∃ (mst : List (List ℝ) → List Edge) (best : Latent exTable 2 → List Edge) (S : Finset (List Edge)) (s : Trainer ℝ 2) (ρ : ℝ),
      Trainer.init exTable 3 = .ok s ∧ ρ < 1 ∧ ∀ n : Nat,
      (trainMembers num mst junk 100 exTable [0, 0, 0] ⟨3, n, 2, false⟩ s 2000).run (onOk fun models => open Classical in
        if ρ ^ n + 1 / 10 ≤ |ensembleProb mst [0, 1, 1, 0, 0, 2] models - posteriorMean exTable [0, 0, 0] S ⟨3, n, 2, false⟩ best [0, 1, 1, 0, 0, 2]|
          then 1 else 0)
        ≤ 2 * exp (-10) := by
  have hm : ∀ ty ∈ exTable.featureTypes, ty = tyMultinomial := by decide
  obtain ⟨mst, hmst⟩ := exists_mst (K := ℝ)
  obtain ⟨S, hS⟩ := exists_trees exTable.numCols
  obtain ⟨s, hs, -, -⟩ := good_init (K := ℝ) (M := 2) (t := exTable) (by decide) (by decide) (by decide) rfl
  obtain ⟨best, hbest⟩ := exists_best (M := 2) (t := exTable) (prior := [0, 0, 0]) hmst (by decide)
  obtain ⟨ρ, r0, r1, h⟩ := ensemble_tail (M := 2) hn hexp exTable_ordered hm exTable_counts (by decide) (by decide) (by decide)
    (prior := [0, 0, 0]) rfl S hS junk
  refine ⟨mst, best, S, s, ρ, hs, r1, fun n => ?_⟩
  refine (h hmst (cfg := ⟨3, n, 2, false⟩) (show (1 : Int) ≤ 3 by decide) (show (1 : Int) ≤ 2 by decide) (show 14 ≤ 100 by decide) hs hbest
    (row := [0, 1, 1, 0, 0, 2]) (by decide) (by decide) (size := 2000) (by decide) (ε := 1 / 10) (by norm_num)).trans (le_of_eq ?_)
  congr 2
  push_cast
  norm_num

/-- Two rows at once. -/
example (num : Num ℝ) (hn : ∀ x, 0 < x → num.gammaln x = log (Gamma x)) (hexp : num.exp = exp) (junk : Nat → Nat) :
    ∃ (mst : List (List ℝ) → List Edge) (best : Latent exTable 2 → List Edge) (S : Finset (List Edge)) (s : Trainer ℝ 2) (ρ : ℝ),
      Trainer.init exTable 3 = .ok s ∧ ρ < 1 ∧ ∀ n size : Nat,
      (trainMembers num mst junk 100 exTable [0, 0, 0] ⟨3, n, 2, false⟩ s (size + 1)).run (onOk fun models => open Classical in
        if ∃ row ∈ ([[0, 1, 1, 0, 0, 2], [1, 0, 0, 0, 1, 0]] : List (List Int)), ρ ^ n + 1 / 10 ≤ |ensembleProb mst row models - posteriorMean exTable [0, 0, 0] S ⟨3, n, 2, false⟩ best row|
          then 1 else 0)
        ≤ 4 * exp (-((size + 1 : Nat) / 200)) := by
  have hm : ∀ ty ∈ exTable.featureTypes, ty = tyMultinomial := by decide
  obtain ⟨mst, hmst⟩ := exists_mst (K := ℝ)
  obtain ⟨S, hS⟩ := exists_trees exTable.numCols
  obtain ⟨s, hs, -, -⟩ := good_init (K := ℝ) (M := 2) (t := exTable) (by decide) (by decide) (by decide) rfl
  obtain ⟨best, hbest⟩ := exists_best (M := 2) (t := exTable) (prior := [0, 0, 0]) hmst (by decide)
  obtain ⟨ρ, r0, r1, h⟩ := ensemble_tail_rows (M := 2) hn hexp exTable_ordered hm exTable_counts (by decide) (by decide) (by decide)
    (prior := [0, 0, 0]) rfl S hS junk
  refine ⟨mst, best, S, s, ρ, hs, r1, fun n size => ?_⟩
  have key := h hmst (cfg := ⟨3, n, 2, false⟩) (show (1 : Int) ≤ 3 by decide) (show (1 : Int) ≤ 2 by decide) (show 14 ≤ 100 by decide) hs hbest
    (rows := [[0, 1, 1, 0, 0, 2], [1, 0, 0, 0, 1, 0]]) (by decide) (by decide) (Nat.succ_le_succ (Nat.zero_le size)) (ε := 1 / 10) (by norm_num)
  refine key.trans (le_of_eq ?_)
  have e : -(((size + 1 : ℕ) : ℝ) * (1 / 10) ^ 2 / 2) = -((size + 1 : ℕ) / 200) := by ring
  rw [← e]
  simp only [List.length_cons, List.length_nil]
  push_cast
  ring

end TreeCat
