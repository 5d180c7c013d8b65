import Verif.Props.LogprobSum
import Verif.Props.Train

/-!
# C22 and C23 for trained models

The hypotheses on models in the theorems about the server hold of whatever `train` returns.
-/

set_option linter.unusedSectionVars false

namespace TreeCat

open Spec

section
variable {K : Type} [Field K] [LinearOrder K] [IsStrictOrderedRing K] {M : Nat} [NeZero M]

/-- Whatever is drawn at random, the model that `train` returns is valid and consistent. -/
theorem trainedModel_valid (num : Num K) (mst : List (List K) → List Edge) (hmst : MstContract mst)
    (junk : Nat → Nat) (t : Table) (ht : Table.Ordered t) (hm : ∀ ty ∈ t.featureTypes, ty = tyMultinomial)
    (hc : ∀ n < t.numRows, ∀ r, 0 ≤ t.cell n r)
    (hV : 1 ≤ t.numCols) (hV' : t.numCols ≤ 32768) (hM : M ≤ 128) (treePrior : List K)
    (hp : treePrior.length = t.numCols * (t.numCols - 1) / 2) (cfg : TrainConfig) (h1 : 1 ≤ cfg.initEpochs)
    (h2 : 1 ≤ cfg.sampleTreeRate) (fuel : Nat) (hf : (2 * cfg.initEpochs.toNat + 1) * t.numRows ≤ fuel) :
    ∃ s0 : Trainer K M, Trainer.init t treePrior.length = .ok s0 ∧
      (∃ p, outcomes (train num mst junk fuel t treePrior cfg) s0 p) ∧
      ∀ r s, outcomes (train num mst junk fuel t treePrior cfg) s0 (r, s) → ∃ logits, r = .ok logits ∧
        (trainedModel t s logits).tree.numVertices = t.numCols ∧
        Model.Valid (trainedModel t s logits) ∧ Model.Consistent (trainedModel t s logits) := by
  obtain ⟨s0, h0, hg, ha⟩ := good_init (K := K) (M := M) hV hV' hM hp
  obtain ⟨hex, hall⟩ := Tot.train hmst ht hm hV junk hp cfg h1 h2 fuel hf hg ha
  refine ⟨s0, h0, hex, fun r s hr => ?_⟩
  obtain ⟨logits, rfl, h3, h4, h5, h6⟩ := hall r s hr
  have hcons := matches_consistent h3.stats h4 fun e v1 v2 he =>
    h3.isTree.range (v1, v2) (List.mem_map.2 ⟨_, he, rfl⟩)
  have hl : logits.length = t.numCols * (t.numCols - 1) / 2 := by
    rw [computeEdgeLogits_eq num treePrior h3.rows] at h5
    cases h5
    exact zipWith_logits_length _ _ hp
  have hn : (trainedModel t s logits).tree.numVertices = t.numCols := h3.numVertices
  refine ⟨logits, rfl, hn, ?_, ?_⟩
  · refine { isTree := by rw [hn]; exact h3.isTree, sorted := h3.sorted, ragged := by rw [hn]; exact ht.length,
             mono := ht.mono, vert := by rw [hn]; exact hcons.vert_nonneg, edge := fun c hc => hcons.edge_nonneg _ _ _ hc,
             feat := ?_, logits := by rw [hn]; exact hl }
    rw [hn]
    intro v hv r hr m
    obtain ⟨ha, hb⟩ := mem_columns.1 hr
    have := h3.stats.feat v hv r ha hb m
    change 0 ≤ s.featSS r m
    rw [this]
    refine Finset.sum_nonneg fun n hn => hc n ?_ r
    rw [h4] at hn
    exact Finset.mem_range.1 (Finset.mem_filter.1 hn).1
  · intro c hc
    exact ⟨fun a => hcons.edge_left c.1 c.2.1 c.2.2 hc a, fun b => hcons.edge_right c.1 c.2.1 c.2.2 hc b⟩

end

/-- Training and then serving: the probabilities that the server assigns to the fully observed categorical rows
add up to one, whatever training drew. -/
theorem train_serve_normalised {M : Nat} [NeZero M] (num : Num ℝ)
    (mst : List (List ℝ) → List Edge) (hmst : MstContract mst)
    (junk : Nat → Nat) (t : Table) (ht : Table.Ordered t) (hm : ∀ ty ∈ t.featureTypes, ty = tyMultinomial)
    (hc : ∀ n < t.numRows, ∀ r, 0 ≤ t.cell n r) (hw : ∀ v < t.numCols, t.beg v < t.stop v)
    (hV : 1 ≤ t.numCols) (hV' : t.numCols ≤ 32768) (hM : M ≤ 128) (treePrior : List ℝ)
    (hp : treePrior.length = t.numCols * (t.numCols - 1) / 2) (cfg : TrainConfig) (h1 : 1 ≤ cfg.initEpochs)
    (h2 : 1 ≤ cfg.sampleTreeRate) (fuel : Nat) (hf : (2 * cfg.initEpochs.toNat + 1) * t.numRows ≤ fuel) :
    ∃ s0 : Trainer ℝ M, Trainer.init t treePrior.length = .ok s0 ∧
      (∃ p, outcomes (train num mst junk fuel t treePrior cfg) s0 p) ∧
      ∀ r s, outcomes (train num mst junk fuel t treePrior cfg) s0 (r, s) → ∃ logits srv, r = .ok logits ∧
        Server.init mst (trainedModel t s logits) = .ok srv ∧
        ∃ lp : List Int → ℝ, (∀ row, logprobWith realNum srv srv.program row = some (lp row)) ∧
          ∑ c ∈ Fintype.piFinset (fun v : Fin t.numCols => Finset.Ico (t.beg v) (t.stop v)),
            Real.exp (lp (withObs (List.replicate (t.raggedIndex.getLastD 0) 0) c)) = 1 := by
  obtain ⟨s0, h0, hex, hall⟩ := trainedModel_valid num mst hmst junk t ht hm hc hV hV' hM treePrior hp cfg h1 h2 fuel hf
  refine ⟨s0, h0, hex, fun r s hr => ?_⟩
  obtain ⟨logits, rfl, hn, hv, hcs⟩ := hall r s hr
  obtain ⟨srv, e1, e2, -⟩ := server_init hmst hv
  refine ⟨logits, srv, rfl, e1, ?_⟩
  have hcol : ∀ v, columns (trainedModel t s logits) v = Finset.Ico (t.beg v) (t.stop v) := fun v => rfl
  obtain ⟨lp, h3, h4⟩ := logprob_marginal hv e2 (fun v : Fin t.numCols => v.val) (fun v => by rw [hn]; exact v.isLt)
    (fun v => by rw [hcol]; exact Finset.nonempty_Ico.2 (hw v v.isLt)) (List.replicate (t.raggedIndex.getLastD 0) 0)
    (by simp [trainedModel])
  refine ⟨lp, h3, ?_⟩
  have h5 := logprob_missing hv hcs e2 (List.replicate (t.raggedIndex.getLastD 0) 0) (fun x hx => List.eq_of_mem_replicate hx)
  rw [h3] at h5
  rw [Option.some.inj h5, Real.exp_zero] at h4
  exact h4

/-- `exTable` meets the hypotheses. -/
example : Table.Ordered exTable ∧ (∀ ty ∈ exTable.featureTypes, ty = tyMultinomial) ∧
    (∀ n < exTable.numRows, ∀ r < 6, 0 ≤ exTable.cell n r) ∧ (∀ v < exTable.numCols, exTable.beg v < exTable.stop v) :=
  ⟨exTable_ordered, by decide, by decide, by decide⟩

end TreeCat
