import Batteries.Data.List.Perm
import Verif.Props.TrainConverges

/-!
# C100: the symmetries of the posterior, and of training

The clusters of a feature have no meaning but the one that the data give them, and the order of the rows of a table has none. The annealing and
the full epochs of training go through clusters and rows in a certain order; what training leads to does not depend on it.
-/

set_option linter.unusedSectionVars false

namespace TreeCat

open Spec Real

open scoped BigOperators

section
variable {M : Nat}

/-! ### Renaming the clusters -/

section
variable {rows : Finset Nat} {a b : Nat → Nat → Fin M} {σ : Nat → Equiv.Perm (Fin M)} (h : ∀ n ∈ rows, ∀ v, b n v = σ v (a n v))
include h

theorem vertCount_rename (v : Nat) (m : Fin M) : vertCount rows b v (σ v m) = vertCount rows a v m := by
  unfold vertCount
  congr 1
  refine Finset.filter_congr fun n hn => ?_
  rw [h n hn v, (σ v).apply_eq_iff_eq]

theorem edgeCount_rename (u v : Nat) (l m : Fin M) : edgeCount rows b u v (σ u l) (σ v m) = edgeCount rows a u v l m := by
  unfold edgeCount
  congr 1
  refine Finset.filter_congr fun n hn => ?_
  rw [h n hn u, h n hn v, (σ u).apply_eq_iff_eq, (σ v).apply_eq_iff_eq]

theorem featTotal_rename (t : Table) (v r : Nat) (m : Fin M) : featTotal t rows b v r (σ v m) = featTotal t rows a v r m := by
  unfold featTotal
  refine Finset.sum_congr (Finset.filter_congr fun n hn => ?_) fun _ _ => rfl
  rw [h n hn v, (σ v).apply_eq_iff_eq]

theorem measTotal_rename (t : Table) (v : Nat) (m : Fin M) : measTotal t rows b v (σ v m) = measTotal t rows a v m := by
  unfold measTotal
  refine Finset.sum_congr (Finset.filter_congr fun n hn => ?_) fun _ _ => rfl
  rw [h n hn v, (σ v).apply_eq_iff_eq]

theorem vertGamma_rename (v : Nat) : vertGamma rows b v = vertGamma rows a v := by
  unfold vertGamma
  rw [← Equiv.prod_comp (σ v)]
  simp only [vertCount_rename h]

theorem edgeGamma_rename (e : Nat × Nat) : edgeGamma rows b e = edgeGamma rows a e := by
  unfold edgeGamma
  rw [← Equiv.prod_comp (σ e.1)]
  refine Finset.prod_congr rfl fun l _ => ?_
  rw [← Equiv.prod_comp (σ e.2)]
  simp only [edgeCount_rename h]

theorem featGamma_rename (t : Table) (v : Nat) : featGamma t rows b v = featGamma t rows a v := by
  unfold featGamma
  congr 1
  · refine Finset.prod_congr rfl fun r _ => ?_
    rw [← Equiv.prod_comp (σ v)]
    simp only [featTotal_rename h]
  · rw [← Equiv.prod_comp (σ v)]
    simp only [measTotal_rename h]

theorem likelihood_rename (t : Table) (T : List Edge) : likelihood t rows b T = likelihood t rows a T := by
  unfold likelihood
  simp only [vertGamma_rename h, edgeGamma_rename h, featGamma_rename h]

end

variable [NeZero M] {t : Table}

/-- The assignments after the clusters of each feature `v` have been renamed by `σ v`. -/
def renamed (σ : Fin t.numCols → Equiv.Perm (Fin M)) (a : Latent t M) : Latent t M := fun n v => σ v (a n v)

theorem total_renamed (σ : Fin t.numCols → Equiv.Perm (Fin M)) (a : Latent t M) : ∀ n ∈ Finset.range t.numRows, ∀ v,
    (renamed σ a).total n v = (if h : v < t.numCols then σ ⟨v, h⟩ else 1) (a.total n v) := by
  intro n hn v
  have hn := Finset.mem_range.1 hn
  unfold Latent.total
  by_cases hv : v < t.numCols
  · simp [hn, hv, renamed]
  · simp [hv]

/-- **C100.** The posterior does not depend on the names of the clusters. -/
theorem posterior_renamed (σ : Fin t.numCols → Equiv.Perm (Fin M)) (prior : List ℝ) (a : Latent t M) (T : List Edge) :
    posterior t prior (renamed σ a) T = posterior t prior a T := by
  unfold posterior
  rw [likelihood_rename (total_renamed σ a)]

theorem logitsOf_renamed (σ : Fin t.numCols → Equiv.Perm (Fin M)) (prior : List ℝ) (a : Latent t M) :
    logitsOf t prior (renamed σ a) = logitsOf t prior a := by
  unfold logitsOf logitOf
  simp only [vertGamma_rename (total_renamed σ a), edgeGamma_rename (total_renamed σ a)]

/-- Renaming as a bijection. -/
def renameEquiv (σ : Fin t.numCols → Equiv.Perm (Fin M)) : Equiv.Perm (Latent t M) where
  toFun := renamed σ
  invFun := renamed fun v => (σ v).symm
  left_inv a := by funext n v; simp [renamed]
  right_inv a := by funext n v; simp [renamed]

variable {num : Num ℝ} {prior : List ℝ}

theorem exists_best {mst : List (List ℝ) → List Edge} (hmst : MstContract mst) (hV : 1 ≤ t.numCols) :
    ∃ best : Latent t M → List Edge, ∀ a, estimateTree mst (completeGrid t.numCols) (logitsOf t prior a) = .ok (best a) := by
  have hb : ∀ a : Latent t M, ∃ T, estimateTree mst (completeGrid t.numCols) (logitsOf t prior a) = .ok T := fun a => by
    obtain ⟨T, e, -⟩ := estimateTree_max mst hmst t.numCols hV _ (makeCompleteGraph_eq _) fun u v => logitOf t prior a u v
    exact ⟨T, e⟩
  choose best hbest using hb
  exact ⟨best, hbest⟩

theorem posteriorMean_renamed (σ : Fin t.numCols → Equiv.Perm (Fin M)) {mst : List (List ℝ) → List Edge} {cfg : TrainConfig} {best : Latent t M → List Edge}
    (hbest : ∀ a, estimateTree mst (completeGrid t.numCols) (logitsOf t prior a) = .ok (best a)) (S : Finset (List Edge)) (f : List ℝ → Latent t M → List Edge → ℝ) :
    (∑ a, ∑ T ∈ S, posterior t prior a T * f (logitsOf t prior a) (renamed σ a) (lastTree cfg best a T))
      = ∑ a, ∑ T ∈ S, posterior t prior a T * f (logitsOf t prior a) a (lastTree cfg best a T) := by
  have hb : ∀ a, best (renamed σ a) = best a := fun a => by
    have := hbest (renamed σ a)
    rw [logitsOf_renamed, hbest] at this
    exact (Except.ok.inj this).symm
  refine Eq.trans ?_ (Equiv.sum_comp (renameEquiv σ) fun a => ∑ T ∈ S, posterior t prior a T * f (logitsOf t prior a) a (lastTree cfg best a T))
  refine Finset.sum_congr rfl fun a _ => Finset.sum_congr rfl fun T _ => ?_
  change _ = posterior t prior (renamed σ a) T * f (logitsOf t prior (renamed σ a)) (renamed σ a) (lastTree cfg best (renamed σ a) T)
  rw [posterior_renamed, logitsOf_renamed]
  unfold lastTree
  rw [hb]

/-- **C100.** Training does not prefer one name of a cluster to another: for every renaming of the clusters, the expected value at the end of training of a function of the logits, the
assignments and the tree is the same as that of the function of the renamed assignments, up to an error that vanishes with the full epochs. -/
theorem train_renamed (hn : ∀ x, 0 < x → num.gammaln x = log (Gamma x)) (hexp : num.exp = exp)
    (ht : Table.Ordered t) (hm : ∀ ty ∈ t.featureTypes, ty = tyMultinomial) (hc : Table.Counts t)
    (hV : 1 ≤ t.numCols) (hV' : t.numCols ≤ 32768) (hM : M ≤ 128) (prior : List ℝ)
    (hp : prior.length = t.numCols * (t.numCols - 1) / 2) (junk : Nat → Nat) :
    ∃ ρ : ℝ, 0 ≤ ρ ∧ ρ < 1 ∧ ∀ {mst : List (List ℝ) → List Edge}, MstContract mst → ∀ {cfg : TrainConfig}, 1 ≤ cfg.initEpochs → 1 ≤ cfg.sampleTreeRate →
      ∀ {fuel : Nat}, (2 * cfg.initEpochs.toNat + 1) * t.numRows ≤ fuel → ∀ {s : Trainer ℝ M}, Trainer.init t prior.length = .ok s →
      ∀ (σ : Fin t.numCols → Equiv.Perm (Fin M)) (f : List ℝ → Latent t M → List Edge → ℝ) (lo hi : ℝ), (∀ l a T, lo ≤ f l a T ∧ f l a T ≤ hi) →
      |(train num mst junk fuel t prior cfg : TrainM ℝ M (Expect ℝ) (List ℝ)).run.run s (atEnd fun l a T => f l (renamed σ a) T)
        - (train num mst junk fuel t prior cfg : TrainM ℝ M (Expect ℝ) (List ℝ)).run.run s (atEnd f)| ≤ 2 * ρ ^ cfg.fullEpochs.toNat * (hi - lo) := by
  obtain ⟨S, hS⟩ := exists_trees t.numCols
  obtain ⟨ρ, h0, h1, hconv⟩ := train_converges (num := num) (M := M) hn hexp ht hm hc hV hV' hM prior hp S hS junk
  refine ⟨ρ, h0, h1, fun {mst} hmst {cfg} i1 i2 {fuel} hf {s} hs σ f lo hi hb => ?_⟩
  obtain ⟨best, hbest⟩ := exists_best (M := M) (prior := prior) hmst hV
  have e1 := hconv hmst i1 i2 hf hs hbest (fun l a T => f l (renamed σ a) T) lo hi fun a T _ => hb _ _ _
  have e2 := hconv hmst i1 i2 hf hs hbest f lo hi fun a T _ => hb _ _ _
  rw [posteriorMean_renamed σ hbest] at e1
  rw [abs_le] at *
  constructor <;> linarith [e1.1, e1.2, e2.1, e2.2]

/-- **C100.** Every cluster is as likely as every other for every row and every feature at the end of training, up to an error that vanishes with the full epochs. -/
theorem train_uniform (hn : ∀ x, 0 < x → num.gammaln x = log (Gamma x)) (hexp : num.exp = exp)
    (ht : Table.Ordered t) (hm : ∀ ty ∈ t.featureTypes, ty = tyMultinomial) (hc : Table.Counts t)
    (hV : 1 ≤ t.numCols) (hV' : t.numCols ≤ 32768) (hM : M ≤ 128) (prior : List ℝ)
    (hp : prior.length = t.numCols * (t.numCols - 1) / 2) (junk : Nat → Nat) :
    ∃ ρ : ℝ, 0 ≤ ρ ∧ ρ < 1 ∧ ∀ {mst : List (List ℝ) → List Edge}, MstContract mst → ∀ {cfg : TrainConfig}, 1 ≤ cfg.initEpochs → 1 ≤ cfg.sampleTreeRate →
      ∀ {fuel : Nat}, (2 * cfg.initEpochs.toNat + 1) * t.numRows ≤ fuel → ∀ {s : Trainer ℝ M}, Trainer.init t prior.length = .ok s →
      ∀ (n : Fin t.numRows) (v : Fin t.numCols) (m : Fin M),
      |(train num mst junk fuel t prior cfg : TrainM ℝ M (Expect ℝ) (List ℝ)).run.run s (atEnd fun _ (a : Latent t M) _ => if a n v = m then 1 else 0) - 1 / M|
        ≤ ρ ^ cfg.fullEpochs.toNat := by
  obtain ⟨S, hS⟩ := exists_trees t.numCols
  obtain ⟨ρ, h0, h1, hconv⟩ := train_converges (num := num) (M := M) hn hexp ht hm hc hV hV' hM prior hp S hS junk
  refine ⟨ρ, h0, h1, fun {mst} hmst {cfg} i1 i2 {fuel} hf {s} hs n v m => ?_⟩
  obtain ⟨best, hbest⟩ := exists_best (M := M) (prior := prior) hmst hV
  have e1 := hconv hmst i1 i2 hf hs hbest (fun _ a _ => if a n v = m then 1 else 0) 0 1 fun a T _ => by
    split <;> norm_num
  rw [sub_zero, mul_one] at e1
  set W : Fin M → ℝ := fun k => ∑ a : Latent t M, ∑ T ∈ S, posterior t prior a T * (if a n v = k then 1 else 0) with hW
  have hswap : ∀ k, W k = W m := by
    intro k
    have := posteriorMean_renamed (t := t) (prior := prior) (cfg := cfg) (fun _ => Equiv.swap k m) hbest S (fun _ a _ => if a n v = m then 1 else 0)
    rw [hW]
    dsimp only
    rw [← this]
    refine Finset.sum_congr rfl fun a _ => Finset.sum_congr rfl fun T _ => ?_
    congr 1
    refine if_congr ?_ rfl rfl
    unfold renamed
    rw [Equiv.swap_apply_eq_iff, Equiv.swap_apply_right]
  have htot : ∑ k, W k = ∑ a : Latent t M, ∑ T ∈ S, posterior t prior a T := by
    rw [hW, Finset.sum_comm]
    refine Finset.sum_congr rfl fun a _ => ?_
    rw [Finset.sum_comm]
    refine Finset.sum_congr rfl fun T _ => ?_
    simp
  have hne : S.Nonempty := by
    obtain ⟨T, -, e2, e3, -⟩ := estimateTree_max mst hmst t.numCols hV _ (makeCompleteGraph_eq _) fun u v => logitOf (M := M) t prior (fun _ _ => 0) u v
    exact ⟨T, (hS T).2 ⟨e2, e3⟩⟩
  have hpos : 0 < ∑ a : Latent t M, ∑ T ∈ S, posterior t prior a T :=
    Finset.sum_pos (fun a _ => Finset.sum_pos (fun T _ => posterior_pos hc a T) hne) ⟨fun _ _ => 0, Finset.mem_univ _⟩
  have hM0 : (M : ℝ) ≠ 0 := by exact_mod_cast NeZero.ne M
  have hfrac : W m / (∑ a : Latent t M, ∑ T ∈ S, posterior t prior a T) = 1 / M := by
    rw [← htot] at hpos ⊢
    rw [Finset.sum_congr rfl fun k _ => hswap k, Finset.sum_const, Finset.card_univ, Fintype.card_fin, nsmul_eq_mul] at hpos ⊢
    have : W m ≠ 0 := fun h => by rw [h, mul_zero] at hpos; exact lt_irrefl _ hpos
    field_simp
  rw [← hfrac]
  exact e1

end

/-! ### The order of the rows -/

theorem perm_equiv {α : Type} [DecidableEq α] {l l' : List α} (h : l.Perm l') : ∃ e : Fin l.length ≃ Fin l'.length, ∀ i : Fin l.length, l'[(e i : Nat)] = l[(i : Nat)] := by
  have hinj := h.subperm.idxInj_injective
  have hb : Function.Bijective h.subperm.idxInj := (Fintype.bijective_iff_injective_and_card _).2 ⟨hinj, by simp [h.length_eq]⟩
  exact ⟨Equiv.ofBijective _ hb, fun _ => h.subperm.getElem_idxInj_eq_getElem⟩

section
variable {M : Nat} [NeZero M] {t : Table} {data : List (List Int)}

/-- The table with its rows in another order. -/
abbrev reordered (t : Table) (data : List (List Int)) : Table := { t with data := data }

theorem sum_reordered {β : Type} [AddCommMonoid β] {N N' : Nat} (e : Fin N ≃ Fin N') (p : Nat → Prop) (p' : Nat → Prop) [DecidablePred p] [DecidablePred p'] (f f' : Nat → β)
    (hp : ∀ i : Fin N, p i ↔ p' (e i)) (hf : ∀ i : Fin N, f i = f' (e i)) :
    ∑ n ∈ (Finset.range N).filter p, f n = ∑ n ∈ (Finset.range N').filter p', f' n := by
  rw [Finset.sum_filter, Finset.sum_filter, Finset.sum_range, Finset.sum_range, ← Equiv.sum_comp e]
  refine Finset.sum_congr rfl fun i _ => ?_
  rw [hf i]
  exact if_congr (hp i) rfl rfl

/-- The assignments, moved with the rows. -/
def moved (e : Fin (reordered t data).numRows ≃ Fin t.numRows) (a : Latent t M) : Latent (reordered t data) M := fun n v => a (e n) v

theorem total_moved (e : Fin (reordered t data).numRows ≃ Fin t.numRows) (a : Latent t M) (i : Fin (reordered t data).numRows) (v : Nat) :
    (moved e a).total i v = a.total (e i) v := by
  unfold Latent.total
  by_cases hv : v < t.numCols
  · rw [dif_pos ⟨i.isLt, hv⟩, dif_pos ⟨(e i).isLt, hv⟩]
    rfl
  · rw [dif_neg fun h => hv h.2, dif_neg fun h => hv h.2]

variable {e : Fin (reordered t data).numRows ≃ Fin t.numRows} (he : ∀ (i : Fin (reordered t data).numRows) (r : Nat), (reordered t data).cell i r = t.cell (e i) r)

theorem vertCount_moved (a : Latent t M) (v : Nat) (m : Fin M) :
    vertCount (Finset.range (reordered t data).numRows) (moved e a).total v m = vertCount (Finset.range t.numRows) a.total v m := by
  unfold vertCount
  rw [Finset.card_eq_sum_ones, Finset.card_eq_sum_ones]
  exact sum_reordered e _ _ _ _ (fun i => by rw [total_moved]) fun _ => rfl

theorem edgeCount_moved (a : Latent t M) (u v : Nat) (l m : Fin M) :
    edgeCount (Finset.range (reordered t data).numRows) (moved e a).total u v l m = edgeCount (Finset.range t.numRows) a.total u v l m := by
  unfold edgeCount
  rw [Finset.card_eq_sum_ones, Finset.card_eq_sum_ones]
  exact sum_reordered e _ _ _ _ (fun i => by rw [total_moved, total_moved]) fun _ => rfl

include he in
theorem featTotal_moved (a : Latent t M) (v r : Nat) (m : Fin M) :
    featTotal (reordered t data) (Finset.range (reordered t data).numRows) (moved e a).total v r m = featTotal t (Finset.range t.numRows) a.total v r m :=
  sum_reordered e _ _ _ _ (fun i => by rw [total_moved]) fun i => he i r

include he in
theorem measTotal_moved (a : Latent t M) (v : Nat) (m : Fin M) :
    measTotal (reordered t data) (Finset.range (reordered t data).numRows) (moved e a).total v m = measTotal t (Finset.range t.numRows) a.total v m :=
  sum_reordered e _ _ _ _ (fun i => by rw [total_moved]) fun i => Finset.sum_congr rfl fun r _ => he i r

theorem vertGamma_moved (a : Latent t M) (v : Nat) :
    vertGamma (Finset.range (reordered t data).numRows) (moved e a).total v = vertGamma (Finset.range t.numRows) a.total v := by
  unfold vertGamma
  simp only [vertCount_moved]

theorem edgeGamma_moved (a : Latent t M) (u : Nat × Nat) :
    edgeGamma (Finset.range (reordered t data).numRows) (moved e a).total u = edgeGamma (Finset.range t.numRows) a.total u := by
  unfold edgeGamma
  simp only [edgeCount_moved]

include he in
/-- **C100.** The posterior does not depend on the order of the rows. -/
theorem posterior_moved (prior : List ℝ) (a : Latent t M) (T : List Edge) : posterior (reordered t data) prior (moved e a) T = posterior t prior a T := by
  unfold posterior likelihood featGamma
  simp only [vertGamma_moved, edgeGamma_moved, featTotal_moved he, measTotal_moved he]
  rfl

theorem logitsOf_moved (prior : List ℝ) (a : Latent t M) : logitsOf (reordered t data) prior (moved e a) = logitsOf t prior a := by
  unfold logitsOf logitOf
  simp only [vertGamma_moved, edgeGamma_moved]
  rfl

/-- **C100.** Training on a table with its rows in another order leads to the same: the expected value at the end of training of a function of the logits and the tree is the same for both tables,
up to an error that vanishes with the full epochs. -/
theorem train_reordered {num : Num ℝ} (hn : ∀ x, 0 < x → num.gammaln x = log (Gamma x)) (hexp : num.exp = exp)
    (ht : Table.Ordered t) (hm : ∀ ty ∈ t.featureTypes, ty = tyMultinomial) (hc : Table.Counts t)
    (hV : 1 ≤ t.numCols) (hV' : t.numCols ≤ 32768) (hM : M ≤ 128) (prior : List ℝ)
    (hp : prior.length = t.numCols * (t.numCols - 1) / 2) (junk : Nat → Nat) (hdata : data.Perm t.data) :
    ∃ ρ : ℝ, 0 ≤ ρ ∧ ρ < 1 ∧ ∀ {mst : List (List ℝ) → List Edge}, MstContract mst → ∀ {cfg : TrainConfig}, 1 ≤ cfg.initEpochs → 1 ≤ cfg.sampleTreeRate →
      ∀ {fuel : Nat}, (2 * cfg.initEpochs.toNat + 1) * t.numRows ≤ fuel → ∀ {s s' : Trainer ℝ M}, Trainer.init t prior.length = .ok s →
      Trainer.init (reordered t data) prior.length = .ok s' → ∀ (f : List ℝ → List Edge → ℝ) (lo hi : ℝ), (∀ l T, lo ≤ f l T ∧ f l T ≤ hi) →
      |(train num mst junk fuel (reordered t data) prior cfg : TrainM ℝ M (Expect ℝ) (List ℝ)).run.run s' (atEnd (t := reordered t data) fun l _ T => f l T)
        - (train num mst junk fuel t prior cfg : TrainM ℝ M (Expect ℝ) (List ℝ)).run.run s (atEnd (t := t) fun l _ T => f l T)| ≤ 2 * ρ ^ cfg.fullEpochs.toNat * (hi - lo) := by
  obtain ⟨e, hget⟩ : ∃ e : Fin (reordered t data).numRows ≃ Fin t.numRows, ∀ i : Fin (reordered t data).numRows, t.data[(e i : Nat)]'(e i).isLt = data[(i : Nat)]'i.isLt := perm_equiv hdata
  have he : ∀ (i : Fin (reordered t data).numRows) (r : Nat), (reordered t data).cell i r = t.cell (e i) r := fun i r => by
    unfold Table.cell
    rw [List.getD_eq_getElem _ _ i.isLt, List.getD_eq_getElem _ _ (e i).isLt, hget i]
  have hlen : (reordered t data).numRows = t.numRows := hdata.length_eq
  have ht' : Table.Ordered (reordered t data) := ⟨ht.length, ht.mono⟩
  have hc' : Table.Counts (reordered t data) := by
    refine ⟨fun n r => ?_, hc.width⟩
    by_cases h : n < (reordered t data).numRows
    · rw [he ⟨n, h⟩ r]
      exact hc.nonneg _ _
    · unfold Table.cell
      rw [List.getD_eq_default _ _ (not_lt.1 h)]
      simp
  obtain ⟨S, hS⟩ := exists_trees t.numCols
  obtain ⟨ρ, h0, h1, hconv⟩ := train_converges (num := num) (M := M) hn hexp ht hm hc hV hV' hM prior hp S hS junk
  obtain ⟨ρ', h0', h1', hconv'⟩ := train_converges (num := num) (M := M) (t := reordered t data) hn hexp ht' hm hc' hV hV' hM prior hp S hS junk
  refine ⟨max ρ ρ', le_max_of_le_left h0, max_lt h1 h1', fun {mst} hmst {cfg} i1 i2 {fuel} hf {s s'} hs hs' f lo hi hb => ?_⟩
  obtain ⟨best, hbest⟩ := exists_best (M := M) (t := t) (prior := prior) hmst hV
  obtain ⟨best', hbest'⟩ := exists_best (M := M) (t := reordered t data) (prior := prior) hmst hV
  have hbb : ∀ a, best' (moved e a) = best a := fun a => by
    have h := hbest' (moved e a)
    rw [logitsOf_moved] at h
    exact (Except.ok.inj ((hbest a).symm.trans h)).symm
  have e1 := hconv hmst i1 i2 hf hs hbest (fun l _ T => f l T) lo hi fun a T _ => hb _ _
  have e2 := hconv' hmst i1 i2 (hlen.symm ▸ hf) hs' hbest' (fun l _ T => f l T) lo hi fun a T _ => hb _ _
  let mv : Latent t M ≃ Latent (reordered t data) M :=
    { toFun := moved e
      invFun := fun b n v => b (e.symm n) v
      left_inv := fun a => by funext n v; simp [moved]
      right_inv := fun a => by funext n v; simp [moved] }
  have hsum : ∀ (g : List ℝ → List Edge → ℝ), (∑ a : Latent (reordered t data) M, ∑ T ∈ S, posterior (reordered t data) prior a T * g (logitsOf (reordered t data) prior a) (lastTree cfg best' a T))
      = ∑ a : Latent t M, ∑ T ∈ S, posterior t prior a T * g (logitsOf t prior a) (lastTree cfg best a T) := by
    intro g
    rw [← Equiv.sum_comp mv]
    refine Finset.sum_congr rfl fun a _ => Finset.sum_congr rfl fun T _ => ?_
    change posterior (reordered t data) prior (moved e a) T * g (logitsOf (reordered t data) prior (moved e a)) (lastTree cfg best' (moved e a) T) = _
    rw [posterior_moved he, logitsOf_moved]
    unfold lastTree
    rw [hbb]
  have htot : (∑ a : Latent (reordered t data) M, ∑ T ∈ S, posterior (reordered t data) prior a T) = ∑ a : Latent t M, ∑ T ∈ S, posterior t prior a T := by
    simpa using hsum fun _ _ => 1
  rw [hsum f, htot] at e2
  beta_reduce at e1
  have hlh : 0 ≤ hi - lo := by linarith [(hb [] []).1, (hb [] []).2]
  have p1 : ρ ^ cfg.fullEpochs.toNat * (hi - lo) ≤ max ρ ρ' ^ cfg.fullEpochs.toNat * (hi - lo) :=
    mul_le_mul_of_nonneg_right (pow_le_pow_left₀ h0 (le_max_left _ _) _) hlh
  have p2 : ρ' ^ cfg.fullEpochs.toNat * (hi - lo) ≤ max ρ ρ' ^ cfg.fullEpochs.toNat * (hi - lo) :=
    mul_le_mul_of_nonneg_right (pow_le_pow_left₀ h0' (le_max_right _ _) _) hlh
  clear hconv hconv' hsum
  rw [abs_le] at e1 e2 ⊢
  constructor
  · linarith [e1.1, e1.2, e2.1, e2.2]
  · linarith [e1.1, e1.2, e2.1, e2.2]

end

/-- `exTable` with two clusters, its rows reversed: after `n` full epochs each cluster has probability about one half, and the probability of each tree is about the same as for `exTable`. -/
example (num : Num ℝ) (hn : ∀ x, 0 < x → num.gammaln x = log (Gamma x)) (hexp : num.exp = exp) (junk : Nat → Nat) :
    exTable.data.reverse ≠ exTable.data ∧
    ∃ (mst : List (List ℝ) → List Edge) (s s' : Trainer ℝ 2) (ρ : ℝ), ρ < 1 ∧ Trainer.init exTable 3 = .ok s ∧ Trainer.init (reordered exTable exTable.data.reverse) 3 = .ok s' ∧ ∀ n : Nat,
      |(train num mst junk 100 exTable [0, 0, 0] ⟨3, n, 2, true⟩ : TrainM ℝ 2 (Expect ℝ) (List ℝ)).run.run s
          (atEnd (t := exTable) fun _ a _ => if a (1 : Fin 2) (2 : Fin 3) = 1 then 1 else 0) - 1 / (2 : Nat)| ≤ ρ ^ n ∧
      |(train num mst junk 100 (reordered exTable exTable.data.reverse) [0, 0, 0] ⟨3, n, 2, true⟩ : TrainM ℝ 2 (Expect ℝ) (List ℝ)).run.run s'
          (atEnd (t := reordered exTable exTable.data.reverse) fun _ _ T => if T = [(0, 1), (0, 2)] then 1 else 0)
        - (train num mst junk 100 exTable [0, 0, 0] ⟨3, n, 2, true⟩ : TrainM ℝ 2 (Expect ℝ) (List ℝ)).run.run s
          (atEnd (t := exTable) fun _ _ T => if T = [(0, 1), (0, 2)] then 1 else 0)| ≤ 2 * ρ ^ n * (1 - 0) := by
  have hm : ∀ ty ∈ exTable.featureTypes, ty = tyMultinomial := by decide
  obtain ⟨mst, hmst⟩ := exists_mst (K := ℝ)
  obtain ⟨s, hs, -, -⟩ := good_init (K := ℝ) (M := 2) (t := exTable) (by decide) (by decide) (by decide) rfl
  obtain ⟨s', hs', -, -⟩ := good_init (K := ℝ) (M := 2) (t := reordered exTable exTable.data.reverse) (by decide) (by decide) (by decide) rfl
  obtain ⟨ρ, r0, r1, h⟩ := train_uniform (M := 2) hn hexp exTable_ordered hm exTable_counts (by decide) (by decide) (by decide) [0, 0, 0] rfl junk
  obtain ⟨ρ', r0', r1', h'⟩ := train_reordered (M := 2) hn hexp exTable_ordered hm exTable_counts (by decide) (by decide) (by decide) [0, 0, 0] rfl junk
    (data := exTable.data.reverse) (List.reverse_perm _)
  refine ⟨by decide, mst, s, s', max ρ ρ', max_lt r1 r1', hs, hs', fun n => ⟨?_, ?_⟩⟩
  · exact (h hmst (cfg := ⟨3, n, 2, true⟩) (show (1 : Int) ≤ 3 by decide) (show (1 : Int) ≤ 2 by decide) (show 14 ≤ 100 by decide) hs _ _ _).trans (pow_le_pow_left₀ r0 (le_max_left _ _) _)
  · refine (h' hmst (cfg := ⟨3, n, 2, true⟩) (show (1 : Int) ≤ 3 by decide) (show (1 : Int) ≤ 2 by decide) (show 14 ≤ 100 by decide) hs hs' (fun _ T => if T = [(0, 1), (0, 2)] then 1 else 0) 0 1 fun l T => by split <;> norm_num).trans ?_
    have := pow_le_pow_left₀ r0' (le_max_right ρ ρ') n
    simp only [Int.toNat_natCast]
    linarith

end TreeCat
