import Mathlib.Analysis.SpecialFunctions.Exp
import Verif.Lemmas.Train
import Verif.Props.Trainer

/-!
# C18: training completes and returns a consistent model
-/

set_option linter.unusedSectionVars false

namespace TreeCat

open Spec

section
variable {K : Type} [Field K] [LinearOrder K] [IsStrictOrderedRing K] {M : Nat} [NeZero M]

namespace Spec

/-- The identities between the statistics of a model trained on all rows of a table. -/
structure Consistent (t : Table) (s : Trainer K M) : Prop where
  vert_total : ∀ v < t.numCols, ∑ m, s.vertSS v m = t.numRows
  vert_nonneg : ∀ v < t.numCols, ∀ m, 0 ≤ s.vertSS v m
  edge_left : ∀ e v1 v2, (e, v1, v2) ∈ s.tree.treeGrid → ∀ m1, ∑ m2, s.edgeSS e m1 m2 = s.vertSS v1 m1
  edge_right : ∀ e v1 v2, (e, v1, v2) ∈ s.tree.treeGrid → ∀ m2, ∑ m1, s.edgeSS e m1 m2 = s.vertSS v2 m2
  edge_nonneg : ∀ e v1 v2, (e, v1, v2) ∈ s.tree.treeGrid → ∀ m1 m2, 0 ≤ s.edgeSS e m1 m2
  feat_total : ∀ v < t.numCols, ∀ r, t.beg v ≤ r → r < t.stop v →
    ∑ m, s.featSS r m = ∑ n ∈ Finset.range t.numRows, t.cell n r
  meas : ∀ v < t.numCols, ∀ m, ∑ r ∈ Finset.Ico (t.beg v) (t.stop v), s.featSS r m = s.measSS v m

end Spec

theorem sum_card_filter (rows : Finset Nat) (p : Nat → Prop) [DecidablePred p] (f : Nat → Fin M) :
    ∑ m, ((rows.filter fun n => p n ∧ f n = m).card : Int) = (rows.filter p).card := by
  have h := Finset.card_eq_sum_card_fiberwise (s := rows.filter p) (t := Finset.univ) (f := f)
    (fun _ _ => Finset.mem_coe.2 (Finset.mem_univ _))
  rw [h]
  push_cast
  refine Finset.sum_congr rfl fun m _ => ?_
  rw [Finset.filter_filter]

theorem matches_consistent {t : Table} {s : Trainer K M} (h : Matches t s) (hs : s.added = Finset.range t.numRows)
    (hg : ∀ e v1 v2, (e, v1, v2) ∈ s.tree.treeGrid → v1 < t.numCols ∧ v2 < t.numCols) : Spec.Consistent t s where
  vert_total v hv := by
    have := sum_card_filter s.added (fun _ => True) (fun n => s.assign n v)
    simp only [true_and, Finset.filter_true] at this
    rw [hs] at this
    simp only [h.vert v hv, vertCount, hs, this, Finset.card_range]
  vert_nonneg v hv m := by rw [h.vert v hv]; exact Int.natCast_nonneg _
  edge_left e v1 v2 he m1 := by
    simp only [h.edge e v1 v2 he, edgeCount, h.vert v1 (hg _ _ _ he).1, vertCount]
    exact sum_card_filter _ _ _
  edge_right e v1 v2 he m2 := by
    simp only [h.edge e v1 v2 he, edgeCount, h.vert v2 (hg _ _ _ he).2, vertCount]
    have := sum_card_filter s.added (fun n => s.assign n v2 = m2) (fun n => s.assign n v1)
    simp only [and_comm (a := s.assign _ v1 = _)]
    exact this
  edge_nonneg e v1 v2 he m1 m2 := by rw [h.edge e v1 v2 he]; exact Int.natCast_nonneg _
  feat_total v hv r h1 h2 := by
    simp only [h.feat v hv r h1 h2, featTotal, hs]
    exact Finset.sum_fiberwise _ _ _
  meas v hv m := by
    rw [h.meas v hv, measTotal, Finset.sum_comm]
    refine Finset.sum_congr rfl fun r hr => ?_
    rw [Finset.mem_Ico] at hr
    exact h.feat v hv r hr.1 hr.2 m

/-- **C18.** For every table of at least one multinomial feature, every tree prior, every valid config and
whatever is drawn at random: a trainer can be made, training it completes without an
exception, all rows are then in the subsample, the tree is a spanning tree, the statistics
match the assignments and satisfy the marginal identities, the returned logits are those
of the final state, and with `learning_estimate_tree` no spanning tree has a larger total logit. -/
theorem train_spec (num : Num K) (mst : List (List K) → List Edge) (hmst : MstContract mst)
    (junk : Nat → Nat) (t : Table) (ht : Table.Ordered t) (hm : ∀ ty ∈ t.featureTypes, ty = tyMultinomial)
    (hV : 1 ≤ t.numCols) (hV' : t.numCols ≤ 32768) (hM : M ≤ 128) (treePrior : List K)
    (hp : treePrior.length = t.numCols * (t.numCols - 1) / 2) (cfg : TrainConfig) (h1 : 1 ≤ cfg.initEpochs)
    (h2 : 1 ≤ cfg.sampleTreeRate) (fuel : Nat) (hf : (2 * cfg.initEpochs.toNat + 1) * t.numRows ≤ fuel) :
    ∃ s0 : Trainer K M, Trainer.init t treePrior.length = .ok s0 ∧
      (∃ p, outcomes (train num mst junk fuel t treePrior cfg) s0 p) ∧
      ∀ r s, outcomes (train num mst junk fuel t treePrior cfg) s0 (r, s) → ∃ logits, r = .ok logits ∧
        s.added = Finset.range t.numRows ∧ IsTree t.numCols s.tree.getEdges ∧
        Matches t s ∧ Spec.Consistent t s ∧
        computeEdgeLogits num t treePrior s = .ok logits ∧ logits.length = t.numCols * (t.numCols - 1) / 2 ∧
        (cfg.estimateTree = true → ∀ T', IsTree t.numCols T' →
          (T'.map fun p => logits.getD (findCompleteEdge p.1 p.2) 0).sum
            ≤ (s.tree.getEdges.map fun p => logits.getD (findCompleteEdge p.1 p.2) 0).sum) := by
  obtain ⟨s0, h0, hg, ha⟩ := good_init (K := K) (M := M) hV hV' hM hp
  obtain ⟨hex, hall⟩ := Tot.train hmst ht hm hV junk hp cfg h1 h2 fuel hf hg ha
  refine ⟨s0, h0, hex, fun r s hr => ?_⟩
  obtain ⟨logits, rfl, h3, h4, h5, h6⟩ := hall r s hr
  refine ⟨logits, rfl, h4, h3.isTree, h3.stats, ?_, h5, ?_, h6⟩
  · refine matches_consistent h3.stats h4 fun e v1 v2 he => ?_
    exact h3.isTree.range (v1, v2) (List.mem_map.2 ⟨_, he, rfl⟩)
  · rw [computeEdgeLogits_eq num treePrior h3.rows] at h5
    cases h5
    exact zipWith_logits_length _ _ hp

end

/-- `exTable` meets the hypotheses. -/
example : Table.Ordered exTable ∧ (∀ ty ∈ exTable.featureTypes, ty = tyMultinomial) ∧ exTable.numCols = 3 ∧
    exTable.numRows = 2 := ⟨exTable_ordered, by decide, rfl, rfl⟩

/-- `Real.exp` meets the hypothesis on `exp`. -/
example : ∀ x, 0 < Real.exp x := Real.exp_pos

end TreeCat
