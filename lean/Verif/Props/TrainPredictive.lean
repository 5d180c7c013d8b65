import Verif.Props.EnsembleSplit
import Verif.Props.Evaluate
import Verif.Props.LogprobSum
import Verif.Props.SymmetryServeCols
import Verif.Props.TrainedModel

/-!
# C104: training and then serving computes a posterior mean

The probability of a row that the server of a trained model reports depends on the random assignments and on the random tree of
training. Its expected value over all runs tends, with the full epochs, to its mean under the posterior of assignments and
trees.
-/

set_option linter.unusedSectionVars false

namespace TreeCat

open Spec Real

open scoped BigOperators

namespace Spec

variable {M : Nat} [NeZero M]

/-- The model of given assignments and a given tree: the counts of all rows. -/
def modelOf (t : Table) (logits : List ℝ) (a : Latent t M) (T : List (Nat × Nat)) : Model ℝ M where
  tree := { numVertices := t.numCols, treeGrid := T.mapIdx fun e v => (e, v.1, v.2) }
  raggedIndex := t.raggedIndex
  vertSS v m := vertCount (Finset.range t.numRows) a.total v m
  edgeSS e l m := edgeCount (Finset.range t.numRows) a.total (T.getD e (0, 0)).1 (T.getD e (0, 0)).2 l m
  featSS r m := ∑ v ∈ Finset.range t.numCols with t.beg v ≤ r ∧ r < t.stop v, featTotal t (Finset.range t.numRows) a.total v r m
  edgeLogits := logits

end Spec

/-- The probability of the row that the server of the trained model reports: `exp(TreeCatServer(train(...)).logprob([row])[0])`. -/
noncomputable def reported {M : Nat} [NeZero M] (mst : List (List ℝ) → List Edge) (t : Table) (row : List Int) :
    Except PyErr (List ℝ) × Trainer ℝ M → ℝ
  | (.ok logits, u) => match Server.init mst (trainedModel t u logits) >>= fun srv => srv.logprob realNum [row] with
    | .ok [some lp] => exp lp
    | _ => 0
  | (.error _, _) => 0

/-- The expected value of the product of `k n` of the `n`-th row, for `N` rows that the server of the trained model draws:
`TreeCatServer(train(...)).sample(N, counts, data)`. -/
noncomputable def drawn {M : Nat} [NeZero M] (mst : List (List ℝ) → List Edge) (t : Table) (N : Nat) (counts : List Int) (data : Option (List Int))
    (k : Nat → List Int → ℝ) : Except PyErr (List ℝ) × Trainer ℝ M → ℝ
  | (.ok logits, u) => match Server.init mst (trainedModel t u logits) with
    | .ok srv => (srv.sample N counts data : ExceptT PyErr (Expect ℝ) _).run (onOk fun rows => ∏ n ∈ Finset.range N, k n (rows.getD n []))
    | .error _ => 0
  | (.error _, _) => 0

section
variable {M : Nat} [NeZero M] {t : Table} {logits : List ℝ} {a : Latent t M} {T : List Edge}

theorem mapIdx_mem {T : List Edge} {c : Nat × Nat × Nat} (hc : c ∈ T.mapIdx fun e v => (e, v.1, v.2)) :
    T.getD c.1 (0, 0) = (c.2.1, c.2.2) ∧ (c.2.1, c.2.2) ∈ T := by
  obtain ⟨i, hi, rfl⟩ := List.mem_mapIdx.1 hc
  rw [List.getD_eq_getElem _ _ hi]
  exact ⟨rfl, List.getElem_mem hi⟩

theorem modelOf_edges : (modelOf t logits a T).tree.getEdges = T := by
  apply List.ext_getElem?
  intro i
  simp only [modelOf, TreeStructure.getEdges, List.getElem?_map, List.getElem?_mapIdx]
  cases T[i]? <;> rfl

theorem modelOf_valid (ht : Table.Ordered t) (hc : Table.Counts t) (hl : logits.length = t.numCols * (t.numCols - 1) / 2)
    (hC : Canonical T) (hT : IsTree t.numCols T) : Model.Valid (modelOf t logits a T) where
  isTree := by rw [modelOf_edges]; exact hT
  sorted := ⟨T, by
    change T.mapIdx _ = makeTree T
    unfold makeTree
    rw [sortEdges_canonical hC]⟩
  ragged := ht.length
  mono := ht.mono
  vert v _ m := Int.natCast_nonneg _
  edge c _ l m := Int.natCast_nonneg _
  feat v _ r _ m := by
    change 0 ≤ ∑ v ∈ Finset.range t.numCols with t.beg v ≤ r ∧ r < t.stop v, featTotal t (Finset.range t.numRows) a.total v r m
    exact Finset.sum_nonneg fun _ _ => Finset.sum_nonneg fun n _ => hc.nonneg n r
  logits := hl

theorem modelOf_consistent : Model.Consistent (modelOf t logits a T) := by
  intro c hc
  obtain ⟨e, -⟩ := mapIdx_mem hc
  simp only [modelOf, e, edgeCount, vertCount]
  refine ⟨fun l => sum_card_filter _ _ _, fun m => ?_⟩
  simp only [and_comm (a := a.total _ c.2.1 = _)]
  exact sum_card_filter _ _ _

/-- A trained model is the model of its assignments and its tree. -/
theorem trainedModel_eq (ht : Table.Ordered t) (hc : Table.Counts t) {u : Trainer ℝ M} (hu : Full t u)
    (hl : logits.length = t.numCols * (t.numCols - 1) / 2) :
    Model.Valid (trainedModel t u logits) ∧
    RenamedModel (fun _ => 1) (modelOf t logits (latent t u) u.tree.getEdges) (trainedModel t u logits) := by
  have hmod : Model.Valid (modelOf t logits (latent t u) u.tree.getEdges) :=
    modelOf_valid ht hc hl hu.toGood.canonical hu.isTree
  have hcnt : ∀ n ∈ Finset.range t.numRows, ∀ v < t.numCols, (latent t u).total n v = u.assign n v := fun n hn v hv =>
    latentOf_total u (Finset.mem_range.1 hn) hv
  have htree : u.tree = (modelOf t logits (latent t u) u.tree.getEdges).tree := by
    obtain ⟨edges, he⟩ := hu.sorted
    have h1 := hu.numVertices
    have h2 : u.tree.treeGrid = u.tree.getEdges.mapIdx fun e v => (e, v.1, v.2) := by
      have : u.tree.getEdges = sortEdges edges := by
        change gridEdges u.tree.treeGrid = _
        rw [he, gridEdges_makeTree]
      rw [this, he]
      rfl
    cases hu' : u.tree with
    | mk nv grid =>
      rw [hu'] at h1 h2
      simp only [modelOf, TreeStructure.mk.injEq]
      exact ⟨h1, h2⟩
  have R : RenamedModel (fun _ => 1) (modelOf t logits (latent t u) u.tree.getEdges) (trainedModel t u logits) := by
    refine ⟨htree, rfl, rfl, ?_, ?_, ?_⟩
    · intro v hv m
      have hv : v < t.numCols := hv
      change u.vertSS v m = (vertCount (Finset.range t.numRows) (latent t u).total v m : Int)
      rw [hu.stats.vert v hv, hu.all]
      unfold vertCount
      congr 2
      exact Finset.filter_congr fun n hn => by rw [hcnt n hn v hv]
    · intro c hcm l m
      obtain ⟨e, hmem⟩ := mapIdx_mem hcm
      obtain ⟨h1, h2⟩ := hu.isTree.range _ hmem
      have hg : (c.1, c.2.1, c.2.2) ∈ u.tree.treeGrid := by rw [htree]; exact hcm
      change u.edgeSS c.1 l m = (edgeCount (Finset.range t.numRows) (latent t u).total (u.tree.getEdges.getD c.1 (0, 0)).1
        (u.tree.getEdges.getD c.1 (0, 0)).2 l m : Int)
      rw [e, hu.stats.edge _ _ _ hg, hu.all]
      unfold edgeCount
      congr 2
      exact Finset.filter_congr fun n hn => by rw [hcnt n hn _ h1, hcnt n hn _ h2]
    · intro v hv r hr m
      have hv : v < t.numCols := hv
      obtain ⟨h1, h2⟩ := Finset.mem_Ico.1 hr
      change t.beg v ≤ r at h1
      change r < t.stop v at h2
      change u.featSS r m = ∑ v ∈ Finset.range t.numCols with t.beg v ≤ r ∧ r < t.stop v,
        featTotal t (Finset.range t.numRows) (latent t u).total v r m
      have e : (Finset.range t.numCols).filter (fun w => t.beg w ≤ r ∧ r < t.stop w) = {v} := by
        ext w
        rw [Finset.mem_filter, Finset.mem_range, Finset.mem_singleton]
        constructor
        · rintro ⟨hw, h3, h4⟩
          refine (firstCol_inj hmod (u := v) (w := w) (i := r - t.beg w) (c := r - t.beg v) hv hw ?_ ?_ ?_).1
          · change _ < t.stop w - t.beg w; omega
          · change _ < t.stop v - t.beg v; omega
          · change t.beg w + _ = t.beg v + _; omega
        · rintro rfl; exact ⟨hv, h1, h2⟩
      rw [e, Finset.sum_singleton, hu.stats.feat v hv r h1 h2, hu.all]
      unfold featTotal
      have : (Finset.range t.numRows).filter (fun n => (latent t u).total n v = m)
          = (Finset.range t.numRows).filter fun n => u.assign n v = m :=
        Finset.filter_congr fun n hn => by rw [hcnt n hn v hv]
      rw [this]
  exact ⟨RenamedModel.valid R hmod, R⟩

theorem dataProb_unit {model : Model ℝ M} (h : Model.Valid model) (hc : Model.Consistent model) {x : Nat → Int} (hx : ∀ r, 0 ≤ x r) :
    0 ≤ dataProb model x ∧ dataProb model x ≤ 1 :=
  ⟨(dataProb_pos h x).le, (dataProb_anti h fun _ _ r _ => hx r).trans (dataProb_zero h hc).le⟩

theorem reported_eq (ht : Table.Ordered t) (hc : Table.Counts t) {mst : List (List ℝ) → List Edge} (hmst : MstContract mst)
    {u : Trainer ℝ M} (hu : Full t u) (hl : logits.length = t.numCols * (t.numCols - 1) / 2) {row : List Int}
    (hrow : row.length = t.raggedIndex.getLastD 0) :
    reported mst t row (.ok logits, u) = dataProb (modelOf t logits (latent t u) u.tree.getEdges) fun r => row.getD r 0 := by
  obtain ⟨hv, R⟩ := trainedModel_eq ht hc hu hl
  have hmod : Model.Valid (modelOf t logits (latent t u) u.tree.getEdges) :=
    modelOf_valid ht hc hl hu.toGood.canonical hu.isTree
  obtain ⟨srv, hi, s, -⟩ := server_init hmst hv
  obtain ⟨lp, h1, h2⟩ := server_logprob_of hv s [row] (by simpa [trainedModel] using hrow)
  simp only [reported, hi, bind, Except.bind, h1, List.map_cons, List.map_nil]
  rw [h2, dataProb_renamed R hmod]

theorem drawn_eq (ht : Table.Ordered t) (hc : Table.Counts t) {mst : List (List ℝ) → List Edge} (hmst : MstContract mst)
    {u : Trainer ℝ M} (hu : Full t u) (hl : logits.length = t.numCols * (t.numCols - 1) / 2) (N : Nat) {counts : List Int}
    {data : Option (List Int)} (hd : ∀ d ∈ data, d.length = t.raggedIndex.getLastD 0) (hcl : counts.length = t.numCols)
    (h127 : ∀ v < t.numCols, counts.getD v 0 ≤ 127) (k : Nat → List Int → ℝ) :
    drawn mst t N counts data k (.ok logits, u) = ∏ n ∈ Finset.range N,
      sampleMean (modelOf t logits (latent t u) u.tree.getEdges) (fun r => (data.getD []).getD r 0) counts fun _ x =>
        k n ((List.range (t.raggedIndex.getLastD 0)).map x) := by
  obtain ⟨hv, R⟩ := trainedModel_eq ht hc hu hl
  have hmod : Model.Valid (modelOf t logits (latent t u) u.tree.getEdges) :=
    modelOf_valid ht hc hl hu.toGood.canonical hu.isTree
  obtain ⟨srv, hi, s, -⟩ := server_init hmst hv
  have hV : (trainedModel t u logits).tree.numVertices = t.numCols := hu.numVertices
  simp only [drawn, hi]
  rw [server_sample_exact hv s N counts data hd (by rw [hV]; exact hcl) (by rw [hV]; exact h127)
    (by rw [hV]; exact fun v hv _ => Finset.nonempty_Ico.2 (hc.width v hv)) k]
  exact Finset.prod_congr rfl fun n _ => sampleMean_renamed R hmod _ _ _

variable {num : Num ℝ} {prior : List ℝ}

/-- **C104.** The expected value, over all runs of training, of the probability of a row that the server of the trained model
reports is within `ρ ^ n` of the mean of this probability under the posterior of assignments and trees, for `n` full epochs. -/
theorem train_predictive (hn : ∀ x, 0 < x → num.gammaln x = log (Gamma x)) (hexp : num.exp = exp)
    (ht : Table.Ordered t) (hm : ∀ ty ∈ t.featureTypes, ty = tyMultinomial) (hc : Table.Counts t)
    (hV : 1 ≤ t.numCols) (hV' : t.numCols ≤ 32768) (hM : M ≤ 128)
    (hp : prior.length = t.numCols * (t.numCols - 1) / 2) (S : Finset (List Edge))
    (hS : ∀ T, T ∈ S ↔ Canonical T ∧ IsTree t.numCols T) (junk : Nat → Nat) :
    ∃ ρ : ℝ, 0 ≤ ρ ∧ ρ < 1 ∧ ∀ {mst : List (List ℝ) → List Edge}, MstContract mst → ∀ {cfg : TrainConfig}, 1 ≤ cfg.initEpochs → 1 ≤ cfg.sampleTreeRate →
      ∀ {fuel : Nat}, (2 * cfg.initEpochs.toNat + 1) * t.numRows ≤ fuel → ∀ {s : Trainer ℝ M}, Trainer.init t prior.length = .ok s →
      ∀ {best : Latent t M → List Edge}, (∀ a, estimateTree mst (completeGrid t.numCols) (logitsOf t prior a) = .ok (best a)) →
      ∀ {row : List Int}, row.length = t.raggedIndex.getLastD 0 → (∀ x ∈ row, 0 ≤ x) →
      |(train num mst junk fuel t prior cfg : TrainM ℝ M (Expect ℝ) (List ℝ)).run.run s (reported mst t row)
        - (∑ a, ∑ T ∈ S, posterior t prior a T *
            dataProb (modelOf t (logitsOf t prior a) a (lastTree cfg best a T)) fun r => row.getD r 0) /
          ∑ a : Latent t M, ∑ T ∈ S, posterior t prior a T| ≤ ρ ^ cfg.fullEpochs.toNat := by
  obtain ⟨ρ, h0, h1, h⟩ := train_converges_of (num := num) (M := M) hn hexp ht hm hc hV hV' hM prior hp S hS junk
  refine ⟨ρ, h0, h1, fun {mst} hmst {cfg} i1 i2 {fuel} hf {s} hs {best} hbest {row} hrow hpos => ?_⟩
  have hlen : ∀ a : Latent t M, (logitsOf t prior a).length = t.numCols * (t.numCols - 1) / 2 := by
    intro a
    unfold logitsOf
    rw [List.length_map, completeGrid_length, tri]
  have hnn : ∀ r, 0 ≤ row.getD r 0 := by
    intro r
    by_cases hr : r < row.length
    · rw [List.getD_eq_getElem _ _ hr]; exact hpos _ (List.getElem_mem hr)
    · rw [List.getD_eq_default _ _ (by omega)]
  have := h hmst i1 i2 hf hs hbest (fun logits a T => dataProb (modelOf t logits a T) fun r => row.getD r 0) 0 1 (fun a T hT =>
    dataProb_unit (modelOf_valid ht hc (hlen a) ((hS T).1 hT).1 ((hS T).1 hT).2) modelOf_consistent hnn) (reported mst t row)
    (fun u hu => reported_eq ht hc hmst hu (hlen _) hrow) fun _ _ => rfl
  simpa using this

/-- **C104** for samples. The rows that the server of a trained model draws have, over all runs of training, the law of the mixture
under the posterior of assignments and trees of independent rows given both, up to `ρ ^ n` for `n` full epochs: for products of
functions of the rows with values in `[0, 1]`, such as the probability that every row is in a given set. -/
theorem train_sample (hn : ∀ x, 0 < x → num.gammaln x = log (Gamma x)) (hexp : num.exp = exp)
    (ht : Table.Ordered t) (hm : ∀ ty ∈ t.featureTypes, ty = tyMultinomial) (hc : Table.Counts t)
    (hV : 1 ≤ t.numCols) (hV' : t.numCols ≤ 32768) (hM : M ≤ 128)
    (hp : prior.length = t.numCols * (t.numCols - 1) / 2) (S : Finset (List Edge))
    (hS : ∀ T, T ∈ S ↔ Canonical T ∧ IsTree t.numCols T) (junk : Nat → Nat) :
    ∃ ρ : ℝ, 0 ≤ ρ ∧ ρ < 1 ∧ ∀ {mst : List (List ℝ) → List Edge}, MstContract mst → ∀ {cfg : TrainConfig}, 1 ≤ cfg.initEpochs → 1 ≤ cfg.sampleTreeRate →
      ∀ {fuel : Nat}, (2 * cfg.initEpochs.toNat + 1) * t.numRows ≤ fuel → ∀ {s : Trainer ℝ M}, Trainer.init t prior.length = .ok s →
      ∀ {best : Latent t M → List Edge}, (∀ a, estimateTree mst (completeGrid t.numCols) (logitsOf t prior a) = .ok (best a)) →
      ∀ (N : Nat) {counts : List Int} {data : Option (List Int)}, (∀ d ∈ data, d.length = t.raggedIndex.getLastD 0) →
      counts.length = t.numCols → (∀ v < t.numCols, counts.getD v 0 ≤ 127) →
      ∀ k : Nat → List Int → ℝ, (∀ n row, 0 ≤ k n row) → (∀ n row, k n row ≤ 1) →
      |(train num mst junk fuel t prior cfg : TrainM ℝ M (Expect ℝ) (List ℝ)).run.run s (drawn mst t N counts data k)
        - (∑ a, ∑ T ∈ S, posterior t prior a T * ∏ n ∈ Finset.range N,
            sampleMean (modelOf t (logitsOf t prior a) a (lastTree cfg best a T)) (fun r => (data.getD []).getD r 0) counts fun _ x =>
              k n ((List.range (t.raggedIndex.getLastD 0)).map x)) /
          ∑ a : Latent t M, ∑ T ∈ S, posterior t prior a T| ≤ ρ ^ cfg.fullEpochs.toNat := by
  obtain ⟨ρ, h0, h1, h⟩ := train_converges_of (num := num) (M := M) hn hexp ht hm hc hV hV' hM prior hp S hS junk
  refine ⟨ρ, h0, h1, fun {mst} hmst {cfg} i1 i2 {fuel} hf {s} hs {best} hbest N {counts data} hd hcl h127 k k0 k1 => ?_⟩
  have hlen : ∀ a : Latent t M, (logitsOf t prior a).length = t.numCols * (t.numCols - 1) / 2 := by
    intro a
    unfold logitsOf
    rw [List.length_map, completeGrid_length, tri]
  have := h hmst i1 i2 hf hs hbest (fun logits a T => ∏ n ∈ Finset.range N,
      sampleMean (modelOf t logits a T) (fun r => (data.getD []).getD r 0) counts fun _ x =>
        k n ((List.range (t.raggedIndex.getLastD 0)).map x)) 0 1 (fun a T hT => by
      have hu := fun n => sampleMean_unit (modelOf_valid (a := a) ht hc (hlen a) ((hS T).1 hT).1 ((hS T).1 hT).2)
        (fun r => (data.getD []).getD r 0) counts (fun v hv _ => Finset.nonempty_Ico.2 (hc.width v hv))
        (fun x => k n ((List.range (t.raggedIndex.getLastD 0)).map x)) (fun _ => k0 _ _) fun _ => k1 _ _
      exact ⟨Finset.prod_nonneg fun n _ => (hu n).1, Finset.prod_le_one (fun n _ => (hu n).1) fun n _ => (hu n).2⟩)
    (drawn mst t N counts data k) (fun u hu => drawn_eq ht hc hmst hu (hlen _) N hd hcl h127 k) fun _ _ => rfl
  simpa using this

end

/-- The hypotheses are met by `exTable` with two clusters and the zero prior. -/
example (num : Num ℝ) (hn : ∀ x, 0 < x → num.gammaln x = log (Gamma x)) (hexp : num.exp = exp) (junk : Nat → Nat) :
    ∃ (mst : List (List ℝ) → List Edge) (best : Latent exTable 2 → List Edge) (S : Finset (List Edge)) (s : Trainer ℝ 2) (ρ : ℝ),
      Trainer.init exTable 3 = .ok s ∧ ρ < 1 ∧ ∀ n : Nat,
      |(train num mst junk 100 exTable [0, 0, 0] ⟨3, n, 2, true⟩ : TrainM ℝ 2 (Expect ℝ) (List ℝ)).run.run s (reported mst exTable [0, 1, 1, 0, 0, 2])
        - (∑ a, ∑ T ∈ S, posterior exTable [0, 0, 0] a T *
            dataProb (modelOf exTable (logitsOf exTable [0, 0, 0] a) a (best a)) fun r => [0, 1, 1, 0, 0, 2].getD r 0) /
          ∑ a : Latent exTable 2, ∑ T ∈ S, posterior exTable [0, 0, 0] a T| ≤ ρ ^ n := by
  have hm : ∀ ty ∈ exTable.featureTypes, ty = tyMultinomial := by decide
  obtain ⟨mst, hmst⟩ := exists_mst (K := ℝ)
  obtain ⟨S, hS⟩ := exists_trees exTable.numCols
  obtain ⟨s, hs, -, -⟩ := good_init (K := ℝ) (M := 2) (t := exTable) (by decide) (by decide) (by decide) rfl
  obtain ⟨best, hbest⟩ := exists_best (M := 2) (t := exTable) (prior := [0, 0, 0]) hmst (by decide)
  obtain ⟨ρ, -, r1, h⟩ := train_predictive (M := 2) (prior := [0, 0, 0]) hn hexp exTable_ordered hm exTable_counts (by decide) (by decide)
    (by decide) rfl S hS junk
  refine ⟨mst, best, S, s, ρ, hs, r1, fun n => ?_⟩
  exact h hmst (cfg := ⟨3, n, 2, true⟩) (show (1 : Int) ≤ 3 by decide) (show (1 : Int) ≤ 2 by decide) (show 14 ≤ 100 by decide) hs hbest
    (row := [0, 1, 1, 0, 0, 2]) (by decide) (by decide)

/-- Two rows with one observation of each feature, given an observation of the first. -/
example (num : Num ℝ) (hn : ∀ x, 0 < x → num.gammaln x = log (Gamma x)) (hexp : num.exp = exp) (junk : Nat → Nat) (A : Set (List Int)) [DecidablePred (· ∈ A)] :
    ∃ (mst : List (List ℝ) → List Edge) (best : Latent exTable 2 → List Edge) (S : Finset (List Edge)) (s : Trainer ℝ 2) (ρ : ℝ),
      Trainer.init exTable 3 = .ok s ∧ ρ < 1 ∧ ∀ n : Nat,
      |(train num mst junk 100 exTable [0, 0, 0] ⟨3, n, 2, true⟩ : TrainM ℝ 2 (Expect ℝ) (List ℝ)).run.run s
          (drawn mst exTable 2 [1, 1, 1] (some [1, 0, 0, 0, 0, 0]) fun _ row => if row ∈ A then 1 else 0)
        - (∑ a, ∑ T ∈ S, posterior exTable [0, 0, 0] a T * ∏ _n ∈ Finset.range 2,
            sampleMean (modelOf exTable (logitsOf exTable [0, 0, 0] a) a (best a)) (fun r => [1, 0, 0, 0, 0, 0].getD r 0) [1, 1, 1] fun _ x =>
              if (List.range 6).map x ∈ A then 1 else 0) /
          ∑ a : Latent exTable 2, ∑ T ∈ S, posterior exTable [0, 0, 0] a T| ≤ ρ ^ n := by
  have hm : ∀ ty ∈ exTable.featureTypes, ty = tyMultinomial := by decide
  obtain ⟨mst, hmst⟩ := exists_mst (K := ℝ)
  obtain ⟨S, hS⟩ := exists_trees exTable.numCols
  obtain ⟨s, hs, -, -⟩ := good_init (K := ℝ) (M := 2) (t := exTable) (by decide) (by decide) (by decide) rfl
  obtain ⟨best, hbest⟩ := exists_best (M := 2) (t := exTable) (prior := [0, 0, 0]) hmst (by decide)
  obtain ⟨ρ, -, r1, h⟩ := train_sample (M := 2) (prior := [0, 0, 0]) hn hexp exTable_ordered hm exTable_counts (by decide) (by decide)
    (by decide) rfl S hS junk
  refine ⟨mst, best, S, s, ρ, hs, r1, fun n => ?_⟩
  exact h hmst (cfg := ⟨3, n, 2, true⟩) (show (1 : Int) ≤ 3 by decide) (show (1 : Int) ≤ 2 by decide) (show 14 ≤ 100 by decide) hs hbest
    2 (counts := [1, 1, 1]) (data := some [1, 0, 0, 0, 0, 0]) (by intro d hd; cases hd; rfl) rfl (by decide)
    (fun _ row => if row ∈ A then 1 else 0) (fun _ row => by split <;> norm_num) fun _ row => by split <;> norm_num

end TreeCat
