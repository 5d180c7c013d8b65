import Verif.Props.Symmetry

/-!
# C101: training prefers no order of the features
-/

set_option linter.unusedSectionVars false

namespace TreeCat

open Spec Real

open scoped BigOperators

namespace Spec

/-- `t'` has the features of `t` in another order: its feature `v` is feature `τ v` of `t`. -/
structure Permuted (τ : Equiv.Perm Nat) (t t' : Table) : Prop where
  cols : t'.numCols = t.numCols
  rows : t'.numRows = t.numRows
  maps : ∀ v, τ v < t.numCols ↔ v < t.numCols
  width : ∀ v < t.numCols, t'.stop v - t'.beg v = t.stop (τ v) - t.beg (τ v)
  cell : ∀ n < t.numRows, ∀ v < t.numCols, ∀ c < t'.stop v - t'.beg v, t'.cell n (t'.beg v + c) = t.cell n (t.beg (τ v) + c)

/-- `prior'` gives each pair of features of the new order the value that `prior` gives them in the old one. -/
def PermutedPrior (τ : Equiv.Perm Nat) (V : Nat) (prior prior' : List ℝ) : Prop :=
  ∀ v < V, ∀ u < v, prior'.getD (u + v * (v - 1) / 2) 0 = prior.getD (min (τ u) (τ v) + max (τ u) (τ v) * (max (τ u) (τ v) - 1) / 2) 0

/-- The tree, with each vertex `v` called `τ v`: its edges, smaller vertex first, in lexicographic order. -/
def renamedTree (τ : Equiv.Perm Nat) (T : List (Nat × Nat)) : List (Nat × Nat) :=
  (T.map fun e => (min (τ e.1) (τ e.2), max (τ e.1) (τ e.2))).insertionSort fun a b => a.1 < b.1 ∨ a.1 = b.1 ∧ a.2 ≤ b.2

end Spec

theorem renamedTree_eq (τ : Equiv.Perm Nat) (T : List Edge) : renamedTree τ T = sortEdges (T.map fun e => (τ e.1, τ e.2)) := by
  unfold renamedTree sortEdges
  rw [List.map_map]
  have : (sortPair ∘ fun e : Edge => (τ e.1, τ e.2)) = fun e => (min (τ e.1) (τ e.2), max (τ e.1) (τ e.2)) := funext fun e => sortPair_eq _
  rw [this]
  rfl

/-! ### Trees -/

section
variable {τ : Equiv.Perm Nat} {V : Nat}

theorem renamedTree_isTree (hτ : ∀ v, τ v < V ↔ v < V) {T : List Edge} (hT : IsTree V T) : Canonical (renamedTree τ T) ∧ IsTree V (renamedTree τ T) := by
  have h : IsTree V (T.map fun e => (τ e.1, τ e.2)) := by
    refine ⟨by simpa using hT.card, ?_, ?_⟩
    · intro e he
      obtain ⟨p, hp, rfl⟩ := List.mem_map.1 he
      exact ⟨(hτ _).2 (hT.range p hp).1, (hτ _).2 (hT.range p hp).2⟩
    · intro u hu v hv
      have hc := hT.conn (τ.symm u) ((hτ _).1 (by simpa using hu)) (τ.symm v) ((hτ _).1 (by simpa using hv))
      have := hc.lift (p := Adj (T.map fun e => (τ e.1, τ e.2))) τ fun a b hab => by
        rcases hab with hab | hab
        · exact .inl (List.mem_map.2 ⟨_, hab, rfl⟩)
        · exact .inr (List.mem_map.2 ⟨_, hab, rfl⟩)
      unfold Function.onFun at this
      simpa using this
  rw [renamedTree_eq]
  exact ⟨canonical_sortEdges h, (sortEdges_samePairs _).isTree h⟩

theorem samePairs_map {l l' : List Edge} (h : SamePairs l l') (g : Nat → Nat) : SamePairs (l.map fun e => (g e.1, g e.2)) (l'.map fun e => (g e.1, g e.2)) := by
  unfold SamePairs at *
  have := h.map (Sym2.map g)
  simpa [List.map_map, Function.comp_def] using this

theorem renamedTree_symm {T : List Edge} (hT : Canonical T) : renamedTree τ.symm (renamedTree τ T) = T := by
  have h : SamePairs ((renamedTree τ T).map fun e => (τ.symm e.1, τ.symm e.2)) T := by
    rw [renamedTree_eq]
    have := samePairs_map (sortEdges_samePairs (T.map fun e => (τ e.1, τ e.2))) τ.symm
    simpa [List.map_map, Function.comp_def] using this
  rw [renamedTree_eq]
  exact (sortEdges_eq_of_samePairs h).trans (sortEdges_canonical hT)

theorem sum_renamedTree (hτ : ∀ v, τ v < V ↔ v < V) {S : Finset (List Edge)} (hS : ∀ T, T ∈ S ↔ Canonical T ∧ IsTree V T) (F : List Edge → ℝ) :
    ∑ T ∈ S, F (renamedTree τ T) = ∑ T ∈ S, F T := by
  have hτ' : ∀ v, τ.symm v < V ↔ v < V := fun v => by rw [← hτ, τ.apply_symm_apply]
  refine Finset.sum_bij' (fun T _ => renamedTree τ T) (fun T _ => renamedTree τ.symm T) ?_ ?_ ?_ ?_ ?_
  · exact fun T hT => (hS _).2 (renamedTree_isTree hτ ((hS _).1 hT).2)
  · exact fun T hT => (hS _).2 (renamedTree_isTree hτ' ((hS _).1 hT).2)
  · exact fun T hT => renamedTree_symm ((hS _).1 hT).1
  · intro T hT
    have := renamedTree_symm (τ := τ.symm) ((hS _).1 hT).1
    rwa [Equiv.symm_symm] at this
  · exact fun _ _ => rfl

/-- A product over the edges of the renamed tree. -/
theorem prod_renamedTree {β : Type} [CommMonoid β] (F : Edge → β) (hF : ∀ e : Edge, F (e.2, e.1) = F e) (T : List Edge) :
    ((renamedTree τ T).map F).prod = (T.map fun e => F (τ e.1, τ e.2)).prod := by
  have hs : ∀ e, F (sortPair e) = F e := fun e => by
    unfold sortPair
    split
    · exact hF e
    · rfl
  rw [renamedTree_eq]
  unfold sortEdges
  rw [((List.perm_insertionSort edgeLe _).map F).prod_eq, List.map_map, List.map_map]
  congr 1
  exact List.map_congr_left fun e _ => hs _

theorem sum_renamedEdges {β : Type} [AddCommMonoid β] (F : Edge → β) (T : List Edge) :
    ((renamedTree τ T).map F).sum = (T.map fun e => F (sortPair (τ e.1, τ e.2))).sum := by
  rw [renamedTree_eq]
  unfold sortEdges
  rw [((List.perm_insertionSort edgeLe _).map F).sum_eq, List.map_map, List.map_map]
  rfl

end

/-! ### The posterior -/

section
variable {M : Nat} {τ : Equiv.Perm Nat} {t t' : Table} {rows : Finset Nat} {a : Nat → Nat → Fin M}

theorem edgeGamma_swap (u v : Nat) : edgeGamma rows a (v, u) = edgeGamma rows a (u, v) := by
  unfold edgeGamma
  rw [Finset.prod_comm]
  refine Finset.prod_congr rfl fun l _ => Finset.prod_congr rfl fun m _ => ?_
  unfold edgeCount
  simp only [and_comm]

theorem featGamma_permuted (h : Permuted τ t t') (hr : rows ⊆ Finset.range t.numRows) {v : Nat} (hv : v < t.numCols) :
    featGamma t' rows (fun n v => a n (τ v)) v = featGamma t rows a (τ v) := by
  have hcell : ∀ n ∈ rows, ∀ c < t.stop (τ v) - t.beg (τ v), t'.cell n (t'.beg v + c) = t.cell n (t.beg (τ v) + c) := fun n hn c hc =>
    h.cell n (Finset.mem_range.1 (hr hn)) v hv c (by rw [h.width v hv]; exact hc)
  unfold featGamma
  rw [h.width v hv]
  congr 1
  · rw [Finset.prod_Ico_eq_prod_range, Finset.prod_Ico_eq_prod_range, h.width v hv]
    refine Finset.prod_congr rfl fun c hc => Finset.prod_congr rfl fun m _ => ?_
    have : featTotal t' rows (fun n v => a n (τ v)) v (t'.beg v + c) m = featTotal t rows a (τ v) (t.beg (τ v) + c) m :=
      Finset.sum_congr rfl fun n hn => hcell n (Finset.mem_filter.1 hn).1 c (Finset.mem_range.1 hc)
    rw [this]
  · refine Finset.prod_congr rfl fun m _ => ?_
    have : measTotal t' rows (fun n v => a n (τ v)) v m = measTotal t rows a (τ v) m := by
      refine Finset.sum_congr rfl fun n hn => ?_
      rw [Finset.sum_Ico_eq_sum_range, Finset.sum_Ico_eq_sum_range, h.width v hv]
      exact Finset.sum_congr rfl fun c hc => hcell n (Finset.mem_filter.1 hn).1 c (Finset.mem_range.1 hc)
    rw [this]

theorem likelihood_permuted (h : Permuted τ t t') (hr : rows ⊆ Finset.range t.numRows) (T : List Edge) :
    likelihood t' rows (fun n v => a n (τ v)) T = likelihood t rows a (renamedTree τ T) := by
  have hprod : ∀ F : Nat → ℝ, ∏ v ∈ Finset.range t.numCols, F (τ v) = ∏ v ∈ Finset.range t.numCols, F v := fun F =>
    Finset.prod_equiv τ (fun v => by simp only [Finset.mem_range, h.maps]) fun _ _ => rfl
  unfold likelihood
  rw [h.cols, prod_renamedTree _ (fun e => by rw [edgeGamma_swap e.1 e.2, mul_comm]), ← hprod (vertGamma rows a), ← hprod (featGamma t rows a)]
  congr 1
  exact Finset.prod_congr rfl fun v hv => featGamma_permuted h hr (Finset.mem_range.1 hv)

theorem treeLogPrior_permuted {prior prior' : List ℝ} {V : Nat} (hp : PermutedPrior τ V prior prior') {T : List Edge} (hC : Canonical T) (hT : IsTree V T) :
    treeLogPrior prior' T = treeLogPrior prior (renamedTree τ T) := by
  unfold treeLogPrior
  rw [sum_renamedEdges]
  congr 1
  refine List.map_congr_left fun e he => ?_
  rw [hp e.2 (hT.range e he).2 e.1 (hC.small_large e he), sortPair_eq]

variable [NeZero M]

theorem permuted_symm_lt (h : Permuted τ t t') (v : Fin t.numCols) : τ.symm v < t'.numCols := by
  rw [h.cols, ← h.maps, τ.apply_symm_apply]
  exact v.isLt

/-- The assignments for the features in the old order. -/
def oldOrder (h : Permuted τ t t') (b : Latent t' M) : Latent t M := fun n v => b ⟨n, n.isLt.trans_eq h.rows.symm⟩ ⟨τ.symm v, permuted_symm_lt h v⟩

theorem total_oldOrder (h : Permuted τ t t') (b : Latent t' M) : b.total = fun n v => (oldOrder h b).total n (τ v) := by
  funext n v
  unfold Latent.total
  by_cases hn : n < t.numRows ∧ v < t.numCols
  · rw [dif_pos (by rw [h.rows, h.cols]; exact hn), dif_pos ⟨hn.1, (h.maps v).2 hn.2⟩]
    simp [oldOrder]
  · rw [dif_neg (by rw [h.rows, h.cols]; exact hn), dif_neg (by rw [h.maps v]; exact hn)]

/-- **C101.** The posterior does not depend on the order of the features. -/
theorem posterior_permuted (h : Permuted τ t t') {prior prior' : List ℝ} (hp : PermutedPrior τ t.numCols prior prior') (b : Latent t' M) {T : List Edge} (hC : Canonical T)
    (hT : IsTree t.numCols T) : posterior t' prior' b T = posterior t prior (oldOrder h b) (renamedTree τ T) := by
  unfold posterior
  rw [total_oldOrder h b, h.rows, likelihood_permuted h (Finset.Subset.refl _), treeLogPrior_permuted hp hC hT]

/-- **C101.** Training on a table with its features in another order leads to the same: without `learning_estimate_tree`, the expected value at the end of training of a function of assignments
and tree is the same for both tables up to an error that vanishes with the full epochs, when features and vertices are translated; and with `learning_estimate_tree` this holds for functions of the assignments. -/
theorem train_permuted {num : Num ℝ} (hn : ∀ x, 0 < x → num.gammaln x = log (Gamma x)) (hexp : num.exp = exp)
    (ht : Table.Ordered t) (hm : ∀ ty ∈ t.featureTypes, ty = tyMultinomial) (hc : Table.Counts t)
    (ht' : Table.Ordered t') (hm' : ∀ ty ∈ t'.featureTypes, ty = tyMultinomial) (hc' : Table.Counts t')
    (hV : 1 ≤ t.numCols) (hV' : t.numCols ≤ 32768) (hM : M ≤ 128) {prior prior' : List ℝ}
    (hl : prior.length = t.numCols * (t.numCols - 1) / 2) (hl' : prior'.length = t.numCols * (t.numCols - 1) / 2) (junk : Nat → Nat)
    (h : Permuted τ t t') (hp : PermutedPrior τ t.numCols prior prior') :
    ∃ ρ : ℝ, 0 ≤ ρ ∧ ρ < 1 ∧ ∀ {mst : List (List ℝ) → List Edge}, MstContract mst → ∀ {cfg : TrainConfig}, 1 ≤ cfg.initEpochs → 1 ≤ cfg.sampleTreeRate →
      ∀ {fuel : Nat}, (2 * cfg.initEpochs.toNat + 1) * t.numRows ≤ fuel → ∀ {s s' : Trainer ℝ M}, Trainer.init t prior.length = .ok s →
      Trainer.init t' prior'.length = .ok s' → ∀ (f : Latent t M → List Edge → ℝ) (lo hi : ℝ), (∀ a T, lo ≤ f a T ∧ f a T ≤ hi) →
      (cfg.estimateTree = false ∨ ∀ a T T', f a T = f a T') →
      |(train num mst junk fuel t' prior' cfg : TrainM ℝ M (Expect ℝ) (List ℝ)).run.run s' (atEnd (t := t') fun _ b T => f (oldOrder h b) (renamedTree τ T))
        - (train num mst junk fuel t prior cfg : TrainM ℝ M (Expect ℝ) (List ℝ)).run.run s (atEnd (t := t) fun _ a T => f a T)| ≤ 2 * ρ ^ cfg.fullEpochs.toNat * (hi - lo) := by
  obtain ⟨S, hS⟩ := exists_trees t.numCols
  obtain ⟨ρ, h0, h1, hconv⟩ := train_converges (num := num) (M := M) hn hexp ht hm hc hV hV' hM prior hl S hS junk
  obtain ⟨ρ', h0', h1', hconv'⟩ := train_converges (num := num) (M := M) (t := t') hn hexp ht' hm' hc' (by rw [h.cols]; exact hV) (by rw [h.cols]; exact hV') hM prior'
    (by rw [h.cols]; exact hl') S (by rw [h.cols]; exact hS) junk
  refine ⟨max ρ ρ', le_max_of_le_left h0, max_lt h1 h1', fun {mst} hmst {cfg} i1 i2 {fuel} hf {s s'} hs hs' f lo hi hb hcase => ?_⟩
  obtain ⟨best, hbest⟩ := exists_best (M := M) (t := t) (prior := prior) hmst hV
  obtain ⟨best', hbest'⟩ := exists_best (M := M) (t := t') (prior := prior') hmst (by rw [h.cols]; exact hV)
  have e1 := hconv hmst i1 i2 hf hs hbest (fun _ a T => f a T) lo hi fun a T _ => hb _ _
  have e2 := hconv' hmst i1 i2 (h.rows.symm ▸ hf) hs' hbest' (fun _ b T => f (oldOrder h b) (renamedTree τ T)) lo hi fun a T _ => hb _ _
  have hlast : ∀ a T, f a (lastTree cfg best a T) = f a T := fun a T => by
    rcases hcase with hcase | hcase
    · simp [lastTree, hcase]
    · exact hcase _ _ _
  have hlast' : ∀ b T, f (oldOrder h b) (renamedTree τ (lastTree cfg best' b T)) = f (oldOrder h b) (renamedTree τ T) := fun b T => by
    rcases hcase with hcase | hcase
    · simp [lastTree, hcase]
    · exact hcase _ _ _
  let mv : Latent t' M ≃ Latent t M :=
    { toFun := oldOrder h
      invFun := fun a n v => a ⟨n, n.isLt.trans_eq h.rows⟩ ⟨τ v, (h.maps v).2 (v.isLt.trans_eq h.cols)⟩
      left_inv := fun a => by funext n v; simp [oldOrder]
      right_inv := fun a => by funext n v; simp [oldOrder] }
  have hsum : ∀ g : Latent t M → List Edge → ℝ, (∑ b : Latent t' M, ∑ T ∈ S, posterior t' prior' b T * g (oldOrder h b) (renamedTree τ T))
      = ∑ a : Latent t M, ∑ T ∈ S, posterior t prior a T * g a T := by
    intro g
    refine Eq.trans ?_ (Equiv.sum_comp mv fun a => ∑ T ∈ S, posterior t prior a T * g a T)
    refine Finset.sum_congr rfl fun b _ => ?_
    refine Eq.trans ?_ (sum_renamedTree h.maps hS _)
    refine Finset.sum_congr rfl fun T hT => ?_
    rw [posterior_permuted h hp b ((hS T).1 hT).1 ((hS T).1 hT).2]
    rfl
  have htot : (∑ b : Latent t' M, ∑ T ∈ S, posterior t' prior' b T) = ∑ a : Latent t M, ∑ T ∈ S, posterior t prior a T := by
    simpa using hsum fun _ _ => 1
  simp only [hlast] at e1
  simp only [hlast'] at e2
  rw [hsum f, htot] at e2
  have hlh : 0 ≤ hi - lo := by linarith [(hb (fun _ _ => 0) []).1, (hb (fun _ _ => 0) []).2]
  have p1 : ρ ^ cfg.fullEpochs.toNat * (hi - lo) ≤ max ρ ρ' ^ cfg.fullEpochs.toNat * (hi - lo) :=
    mul_le_mul_of_nonneg_right (pow_le_pow_left₀ h0 (le_max_left _ _) _) hlh
  have p2 : ρ' ^ cfg.fullEpochs.toNat * (hi - lo) ≤ max ρ ρ' ^ cfg.fullEpochs.toNat * (hi - lo) :=
    mul_le_mul_of_nonneg_right (pow_le_pow_left₀ h0' (le_max_right _ _) _) hlh
  clear hconv hconv' hsum
  rw [abs_le] at e1 e2 ⊢
  constructor
  · linarith [e1.1, e1.2, e2.1, e2.2]
  · linarith [e1.1, e1.2, e2.1, e2.2]

end

/-- `exTable` with its first two features swapped. -/
def swapTable : Table := ⟨[0, 0, 0], [0, 3, 5, 6], [[0, 2, 0, 1, 0, 1], [1, 0, 0, 0, 3, 0]]⟩

theorem swapTable_permuted : Permuted (Equiv.swap 0 1) exTable swapTable := by
  have hv : exTable.numCols = 3 := rfl
  refine ⟨rfl, rfl, fun v => ?_, by decide, by decide⟩
  rw [hv]
  rcases v with _ | _ | v
  · simp
  · simp
  · rw [Equiv.swap_apply_of_ne_of_ne (by omega) (by omega)]

theorem swapTable_counts : Table.Counts swapTable := by
  refine ⟨fun n r => ?_, by decide⟩
  have hall : ∀ l ∈ swapTable.data, ∀ x ∈ l, (0 : Int) ≤ x := by decide
  unfold Table.cell
  by_cases hn : n < swapTable.data.length
  · rw [List.getD_eq_getElem _ _ hn]
    by_cases hr : r < swapTable.data[n].length
    · rw [List.getD_eq_getElem _ _ hr]
      exact hall _ (List.getElem_mem hn) _ (List.getElem_mem hr)
    · rw [List.getD_eq_default _ _ (by omega)]
  · rw [List.getD_eq_default swapTable.data _ (by omega)]; simp

theorem swapTable_prior : PermutedPrior (Equiv.swap 0 1) exTable.numCols [1, 2, 3] [1, 3, 2] := by
  intro v hv u hu
  have hV : exTable.numCols = 3 := rfl
  have hcase : (v = 1 ∧ u = 0) ∨ (v = 2 ∧ u = 0) ∨ (v = 2 ∧ u = 1) := by omega
  have e0 : Equiv.swap (0 : Nat) 1 0 = 1 := by decide
  have e1 : Equiv.swap (0 : Nat) 1 1 = 0 := by decide
  have e2 : Equiv.swap (0 : Nat) 1 2 = 2 := by decide
  rcases hcase with ⟨rfl, rfl⟩ | ⟨rfl, rfl⟩ | ⟨rfl, rfl⟩ <;> simp only [e0, e1, e2] <;> norm_num

/-- The star around feature 0 of `exTable` is the star around feature 1 of the table with these two features swapped, and after many epochs it is about as probable. -/
example (num : Num ℝ) (hn : ∀ x, 0 < x → num.gammaln x = log (Gamma x)) (hexp : num.exp = exp) (junk : Nat → Nat) :
    renamedTree (Equiv.swap 0 1) [(0, 1), (1, 2)] = [(0, 1), (0, 2)] ∧
    ∃ (mst : List (List ℝ) → List Edge) (s s' : Trainer ℝ 2) (ρ : ℝ), ρ < 1 ∧ Trainer.init exTable 3 = .ok s ∧ Trainer.init swapTable 3 = .ok s' ∧ ∀ n : Nat,
      |(train num mst junk 100 swapTable [1, 3, 2] ⟨3, n, 2, false⟩ : TrainM ℝ 2 (Expect ℝ) (List ℝ)).run.run s'
          (atEnd (t := swapTable) fun _ _ T => if renamedTree (Equiv.swap 0 1) T = [(0, 1), (0, 2)] then 1 else 0)
        - (train num mst junk 100 exTable [1, 2, 3] ⟨3, n, 2, false⟩ : TrainM ℝ 2 (Expect ℝ) (List ℝ)).run.run s
          (atEnd (t := exTable) fun _ _ T => if T = [(0, 1), (0, 2)] then 1 else 0)| ≤ 2 * ρ ^ n * (1 - 0) := by
  have hm : ∀ ty ∈ exTable.featureTypes, ty = tyMultinomial := by decide
  have hm' : ∀ ty ∈ swapTable.featureTypes, ty = tyMultinomial := by decide
  obtain ⟨mst, hmst⟩ := exists_mst (K := ℝ)
  obtain ⟨s, hs, -, -⟩ := good_init (K := ℝ) (M := 2) (t := exTable) (by decide) (by decide) (by decide) rfl
  obtain ⟨s', hs', -, -⟩ := good_init (K := ℝ) (M := 2) (t := swapTable) (by decide) (by decide) (by decide) rfl
  obtain ⟨ρ, r0, r1, h⟩ := train_permuted (M := 2) hn hexp exTable_ordered hm exTable_counts ⟨by decide, by decide⟩ hm' swapTable_counts (by decide) (by decide) (by decide)
    (prior := [1, 2, 3]) (prior' := [1, 3, 2]) rfl rfl junk swapTable_permuted swapTable_prior
  refine ⟨by decide, mst, s, s', ρ, r1, hs, hs', fun n => ?_⟩
  exact h hmst (cfg := ⟨3, n, 2, false⟩) (show (1 : Int) ≤ 3 by decide) (show (1 : Int) ≤ 2 by decide) (show 14 ≤ 100 by decide) hs hs'
    (fun _ T => if T = [(0, 1), (0, 2)] then 1 else 0) 0 1 (fun a T => by split <;> norm_num) (.inl rfl)

end TreeCat
