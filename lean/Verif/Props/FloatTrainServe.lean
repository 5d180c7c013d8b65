import Verif.Props.FloatMarginalClear
import Verif.Props.FloatRow
import Verif.Props.TrainedModel

/-!
# C85: training, then queries in float32

The hypotheses of C70, C79 and C82 hold of whatever `train` returns for a table with few rows.
-/

namespace TreeCat

open Util Spec
open scoped BigOperators

section
set_option linter.unusedSectionVars false
variable {K : Type} [Field K] [LinearOrder K] [IsStrictOrderedRing K] {M : Nat} [NeZero M] {t : Table} {s : Trainer K M} {logits : List K}

theorem vertCount_sum_card (rows : Finset Nat) (assign : Nat → Nat → Fin M) (v : Nat) : ∑ m, vertCount rows assign v m = rows.card := by
  unfold vertCount
  exact (Finset.card_eq_sum_card_fiberwise (fun _ _ => Finset.mem_univ _)).symm

/-- The rows with a value of `v`, by class: no more than the rows. -/
theorem featTotal_sum_le (rows : Finset Nat) (assign : Nat → Nat → Fin M) {v : Nat} (hv : v < t.numCols) (hcat : ∀ row ∈ rows, Spec.Categorical t row) (m : Fin M) :
    ∑ r ∈ Finset.Ico (t.beg v) (t.stop v), featTotal t rows assign v r m ≤ rows.card := by
  unfold featTotal
  rw [Finset.sum_comm]
  have h1 : ∑ n ∈ rows.filter (fun n => assign n v = m), ∑ r ∈ Finset.Ico (t.beg v) (t.stop v), t.cell n r ≤ ∑ n ∈ rows.filter (fun n => assign n v = m), (1 : Int) := by
    refine Finset.sum_le_sum fun n hn => ?_
    rw [← blockSum_eq]
    exact (hcat n (Finset.mem_filter.1 hn).1).2 v hv
  refine le_trans h1 ?_
  rw [Finset.sum_const, nsmul_eq_mul, mul_one]
  exact_mod_cast Finset.card_filter_le _ _

/-- The counts in a trained model are those of the rows of the table. -/
theorem trained_small (hg : Good t s) (hcat : ∀ row ∈ s.added, Spec.Categorical t row) (hM : M ≤ 128) (hN : t.numRows < 2 ^ 24) (hw : ∀ v < t.numCols, t.stop v - t.beg v ≤ 256) :
    Spec.SmallCounts (trainedModel t s logits) := by
  have hcard : s.added.card ≤ t.numRows := by simpa using Finset.card_le_card hg.rows
  have hn : (trainedModel t s logits).tree.numVertices = t.numCols := hg.numVertices
  refine ⟨hM, ?_, ?_, ?_, ?_⟩
  · rw [hn]
    intro v hv m
    change 0 ≤ s.vertSS v m ∧ s.vertSS v m < 2 ^ 24
    rw [hg.stats.vert v hv]
    have : vertCount s.added s.assign v m ≤ s.added.card := Finset.card_filter_le _ _
    omega
  · intro e he a b
    change 0 ≤ s.edgeSS e.1 a b ∧ s.edgeSS e.1 a b < 2 ^ 24
    rw [hg.stats.edge e.1 e.2.1 e.2.2 he]
    have : edgeCount s.added s.assign e.2.1 e.2.2 a b ≤ s.added.card := Finset.card_filter_le _ _
    omega
  · rw [hn]
    intro v hv r hr m
    obtain ⟨h1, h2⟩ := mem_columns.1 hr
    change 0 ≤ s.featSS r m ∧ s.featSS r m < 2 ^ 24
    rw [hg.stats.feat v hv r h1 h2]
    have h3 := featTotal_sum_le s.added s.assign hv hcat m
    have h0 : ∀ r, 0 ≤ featTotal t s.added s.assign v r m := fun r => Finset.sum_nonneg fun n hn => (hcat n (Finset.mem_filter.1 hn).1).1 r
    have h4 : featTotal t s.added s.assign v r m ≤ ∑ r ∈ Finset.Ico (t.beg v) (t.stop v), featTotal t s.added s.assign v r m :=
      Finset.single_le_sum (f := fun r => featTotal t s.added s.assign v r m) (fun r _ => h0 r) (Finset.mem_Ico.2 ⟨h1, h2⟩)
    have := h0 r
    omega
  · rw [hn]
    intro v hv
    change (Finset.Ico (t.beg v) (t.stop v)).card ≤ 256
    rw [Nat.card_Ico]
    exact hw v hv

theorem trained_few (hg : Good t s) (hcat : ∀ row ∈ s.added, Spec.Categorical t row) {n j c d : Nat} (hj : M ≤ 2 ^ j) (hn : 2 * t.numRows + M ≤ 2 ^ n)
    (hc : ∀ v < t.numCols, 2 * M * t.numRows + (t.stop v - t.beg v) ≤ 2 ^ c) (hd : ∀ v < t.numCols, (s.tree.treeGrid.filter fun e => e.2.1 = v ∨ e.2.2 = v).length ≤ d)
    (hbits : n + c + 1 + d * (n + 2 * j + 3) ≤ 79) (hwide : 2 * n + j ≤ 44) : Spec.FewServe (trainedModel t s logits) n j c d := by
  have hcard : s.added.card ≤ t.numRows := by simpa using Finset.card_le_card hg.rows
  have hnv : (trainedModel t s logits).tree.numVertices = t.numCols := hg.numVertices
  refine ⟨hj, ?_, ?_, by rw [hnv]; exact hd, hbits, hwide⟩
  · rw [hnv]
    intro v hv
    change 2 * ∑ m, s.vertSS v m + (M : Int) ≤ 2 ^ n
    have h1 : ∑ m, s.vertSS v m = (s.added.card : Int) := by
      rw [← vertCount_sum_card s.added s.assign v]
      push_cast
      exact Finset.sum_congr rfl fun m _ => hg.stats.vert v hv m
    have h2 : (2 * t.numRows + M : Int) ≤ 2 ^ n := by exact_mod_cast hn
    rw [h1]
    omega
  · rw [hnv]
    intro v hv m
    change 2 * (M : Int) * ∑ r ∈ Finset.Ico (t.beg v) (t.stop v), s.featSS r m + ((Finset.Ico (t.beg v) (t.stop v)).card : Int) ≤ 2 ^ c
    have h1 : ∑ r ∈ Finset.Ico (t.beg v) (t.stop v), s.featSS r m ≤ t.numRows := by
      rw [Finset.sum_congr rfl fun r hr => hg.stats.feat v hv r (Finset.mem_Ico.1 hr).1 (Finset.mem_Ico.1 hr).2 m]
      exact le_trans (featTotal_sum_le s.added s.assign hv hcat m) (by exact_mod_cast hcard)
    have h2 : (2 * M * t.numRows + (t.stop v - t.beg v : Nat) : Int) ≤ 2 ^ c := by exact_mod_cast hc v hv
    rw [Nat.card_Ico]
    refine le_trans ?_ h2
    exact add_le_add_left (mul_le_mul_of_nonneg_left h1 (by positivity)) _

end

/-- The counting hypotheses on a table: categorical rows, of which there are so few that no query can underflow in a tree in which no feature has more than `d` neighbours. -/
structure Spec.FewRows (t : Table) (M n j c d : Nat) : Prop where
  categorical : ∀ row < t.numRows, Spec.Categorical t row
  clusters : M ≤ 2 ^ j
  rows : 2 * t.numRows + M ≤ 2 ^ n
  values : ∀ v < t.numCols, 2 * M * t.numRows + (t.stop v - t.beg v) ≤ 2 ^ c
  width : ∀ v < t.numCols, t.stop v - t.beg v ≤ 256
  bits : n + c + 1 + d * (n + 2 * j + 3) ≤ 79
  wide : 2 * n + j ≤ 44

/-- No vertex has more than `d` neighbours. -/
def Spec.DegreeAtMost (tree : TreeStructure) (d : Nat) : Prop := ∀ v < tree.numVertices, (tree.treeGrid.filter fun e => e.2.1 = v ∨ e.2.2 = v).length ≤ d

section
variable {M : Nat} [NeZero M] {A : ServeOps M} {ε : ℝ}

/-- Whatever is drawn at random, the model that `train` returns for a table with few rows meets the hypotheses of the bounds on the errors of queries. -/
theorem trainedModel_few (num : Num ℝ) (mst : List (List ℝ) → List Edge) (hmst : MstContract mst) (junk : Nat → Nat) (t : Table) (ht : Table.Ordered t)
    (hm : ∀ ty ∈ t.featureTypes, ty = tyMultinomial) (hV : 1 ≤ t.numCols) (hV' : t.numCols ≤ 32768) (hM : M ≤ 128) (treePrior : List ℝ)
    (hp : treePrior.length = t.numCols * (t.numCols - 1) / 2) (cfg : TrainConfig) (h1 : 1 ≤ cfg.initEpochs) (h2 : 1 ≤ cfg.sampleTreeRate) (fuel : Nat)
    (hf : (2 * cfg.initEpochs.toNat + 1) * t.numRows ≤ fuel) {n j c d : Nat} (F : Spec.FewRows t M n j c d) :
    ∃ s0 : Trainer ℝ M, Trainer.init t treePrior.length = .ok s0 ∧ (∃ p, outcomes (train num mst junk fuel t treePrior cfg) s0 p) ∧
      ∀ r s, outcomes (train num mst junk fuel t treePrior cfg) s0 (r, s) → ∃ logits, r = .ok logits ∧
        (trainedModel t s logits).tree.numVertices = t.numCols ∧ Model.Valid (trainedModel t s logits) ∧ Model.Consistent (trainedModel t s logits) ∧
        Spec.SmallCounts (trainedModel t s logits) ∧ (Spec.DegreeAtMost s.tree d → Spec.FewServe (trainedModel t s logits) n j c d) := by
  obtain ⟨s0, h0, hex, hall⟩ := trainedModel_valid num mst hmst junk t ht hm (fun n hn r => (F.categorical n hn).1 r) hV hV' hM treePrior hp cfg h1 h2 fuel hf
  obtain ⟨s0', h0', hg, ha⟩ := good_init (K := ℝ) (M := M) hV hV' hM hp
  obtain rfl : s0 = s0' := Except.ok.inj (h0.symm.trans h0')
  obtain ⟨-, hall'⟩ := Tot.train hmst ht hm hV junk hp cfg h1 h2 fuel hf hg ha
  refine ⟨s0, h0, hex, fun r s hr => ?_⟩
  obtain ⟨logits, rfl, hn, hv, hcs⟩ := hall r s hr
  obtain ⟨-, -, h3, h4, -⟩ := hall' _ s hr
  have hcat : ∀ row ∈ s.added, Spec.Categorical t row := fun row hrow => F.categorical row (by simpa [h4] using hrow)
  have hN : t.numRows < 2 ^ 24 := by
    have := F.wide
    have h5 : (2 : Nat) ^ n ≤ 2 ^ 22 := Nat.pow_le_pow_right (by norm_num) (by omega)
    have := F.rows
    omega
  refine ⟨logits, rfl, hn, hv, hcs, trained_small h3 hcat hM hN F.width, fun hd => ?_⟩
  exact trained_few h3 hcat F.clusters F.rows F.values (fun v hv => hd v (by rw [h3.numVertices]; exact hv)) F.bits F.wide

/-- In a tree with `V` vertices none has more than `V - 1` neighbours. -/
theorem degree_le {V : Nat} {tree : TreeStructure} (h : IsTree V (gridEdges tree.treeGrid)) : Spec.DegreeAtMost tree (V - 1) := fun v _ => by
  refine le_trans (List.length_filter_le _ _) ?_
  have := h.card
  simp only [gridEdges, List.length_map] at this
  omega

theorem floatServer_exists {model : Model ℝ M} (h : Model.Valid model) : ∃ srv, FloatServer.init A model = .ok srv := by
  have ht : IsTree model.tree.numVertices (gridEdges model.tree.treeGrid) := h.isTree
  obtain ⟨c, hc1, hc2⟩ := findCenter_spec ht
  obtain ⟨d, par, ch, eid, L, -, -, -, -, hp⟩ := makeProgram_some ht hc2.1
  have hp' : makeProgram model.tree.treeGrid none = .ok (progOf c par ch eid L) := by
    simp only [makeProgram, hc1, bind, Except.bind] at hp ⊢
    exact hp
  simp only [FloatServer.init, hp', bind, Except.bind]
  exact ⟨_, rfl⟩

/-- A hundred rows, four clusters and features of at most 16 values are few enough for trees in which no feature has more than four neighbours. -/
theorem fewRows_hundred {t : Table} {d : Nat} (hd : d ≤ 4) (hcat : ∀ row < t.numRows, Spec.Categorical t row) (hN : t.numRows ≤ 100) (hw : ∀ v < t.numCols, t.stop v - t.beg v ≤ 16) : Spec.FewRows t 4 8 2 10 d where
  categorical := hcat
  clusters := by norm_num
  rows := by norm_num; omega
  values v hv := by have := hw v hv; norm_num; omega
  width v hv := by have := hw v hv; omega
  bits := by omega
  wide := by norm_num

/-- **C85**: training on a table with few rows and then asking the float32 server for the logarithm of the probability of a row, or for a sample, gives what exact arithmetic gives for the trained model, up to the
stated errors, whatever training drew. -/
theorem train_floatServe (N : Spec.ServeOpsNear A ε) (num : Num ℝ) (mst : List (List ℝ) → List Edge) (hmst : MstContract mst) (junk : Nat → Nat) (t : Table) (ht : Table.Ordered t)
    (hm : ∀ ty ∈ t.featureTypes, ty = tyMultinomial) (hV : 1 ≤ t.numCols) (hV' : t.numCols ≤ 32768) (hM : M ≤ 128) (treePrior : List ℝ)
    (hp : treePrior.length = t.numCols * (t.numCols - 1) / 2) (cfg : TrainConfig) (h1 : 1 ≤ cfg.initEpochs) (h2 : 1 ≤ cfg.sampleTreeRate) (fuel : Nat)
    (hf : (2 * cfg.initEpochs.toNat + 1) * t.numRows ≤ fuel) {n j c d W : Nat} (F : Spec.FewRows t M n j c d) (hW : ∀ v < t.numCols, t.stop v - t.beg v ≤ W) (hW' : W ≤ 256) :
    ∃ s0 : Trainer ℝ M, Trainer.init t treePrior.length = .ok s0 ∧ (∃ p, outcomes (train num mst junk fuel t treePrior cfg) s0 p) ∧
      ∀ r s, outcomes (train num mst junk fuel t treePrior cfg) s0 (r, s) → ∃ logits, r = .ok logits ∧
        (Spec.DegreeAtMost s.tree d ∨ t.numCols ≤ d + 1 →
          ∃ srv, FloatServer.init A (trainedModel t s logits) = .ok srv ∧
            ∀ data, Spec.SingleRow (trainedModel t s logits) data →
              (∃ q, srv.logprob A data = some (some q) ∧
                |(q : ℝ) - Real.log (dataProb (trainedModel t s logits) fun r => data.getD r 0)| ≤ Spec.logprobError t.numCols M W ε) ∧
              ∀ counts : List Int, (∀ v < t.numCols, counts.getD v 0 ≤ 127) → (∀ v < t.numCols, 0 < counts.getD v 0 → t.beg v < t.stop v) →
                ∀ (k : (Nat → Fin M) → (Nat → Int) → ℝ) (lo hi : ℝ), (∀ z x, lo ≤ k z x ∧ k z x ≤ hi) →
                  |Spec.floatSampleMean A srv t.numCols counts data k - sampleMean (trainedModel t s logits) (fun r => data.getD r 0) counts k|
                    ≤ Spec.sampleErr t.numCols M W (∑ v ∈ Finset.range t.numCols, (counts.getD v 0).toNat) * (hi - lo)) := by
  obtain ⟨s0, h0, hex, hall⟩ := trainedModel_few num mst hmst junk t ht hm hV hV' hM treePrior hp cfg h1 h2 fuel hf F
  refine ⟨s0, h0, hex, fun r s hr => ?_⟩
  obtain ⟨logits, rfl, hn, hv, hcs, hS, hF⟩ := hall r s hr
  refine ⟨logits, rfl, fun hd => ?_⟩
  have hd' : Spec.DegreeAtMost s.tree d := by
    rcases hd with hd | hd
    · exact hd
    · have := degree_le (tree := s.tree) hv.isTree
      rw [hn] at this
      exact fun v hv => le_trans (this v hv) (by omega)
  have hWm : ∀ v < (trainedModel t s logits).tree.numVertices, (columns (trainedModel t s logits) v).card ≤ W := by
    rw [hn]
    intro v hv
    change (Finset.Ico (t.beg v) (t.stop v)).card ≤ W
    rw [Nat.card_Ico]
    exact hW v hv
  obtain ⟨srv, e⟩ := floatServer_exists (A := A) hv
  refine ⟨srv, e, fun data hrow => ⟨?_, fun counts hc1 hc2 k lo hi hk => ?_⟩⟩
  · have := floatLogprob_near_few N hv hcs hS (hF hd') (by rw [hn]; omega) hWm hrow e
    rw [hn] at this
    exact this
  · have := floatSample_near_few N hv hcs hS (hF hd') hWm hW' hrow (counts := counts) (by rw [hn]; exact hc1)
      (by rw [hn]; exact fun v hv h => Finset.nonempty_Ico.2 (hc2 v hv h)) e hk
    rw [hn] at this
    exact this

/-- **C85**, `marginals` and `median`: if moreover some feature reaches every other over at most `h` edges of the trained tree, and `n + c + 2 + d (n + 2 j + 3) + (c + 1) h` is at most 80, then `marginals` and `median` of the
float32 server are right up to the stated errors. -/
theorem train_floatMarginals (N : Spec.ServeOpsNear A ε) (hsum : Spec.SumClose A.sum) (num : Num ℝ) (mst : List (List ℝ) → List Edge) (hmst : MstContract mst) (junk : Nat → Nat) (t : Table)
    (ht : Table.Ordered t) (hm : ∀ ty ∈ t.featureTypes, ty = tyMultinomial) (hne : ∀ v < t.numCols, t.beg v < t.stop v) (hV : 1 ≤ t.numCols) (hV' : t.numCols ≤ 32768) (hM : M ≤ 128)
    (treePrior : List ℝ) (hp : treePrior.length = t.numCols * (t.numCols - 1) / 2) (cfg : TrainConfig) (h1 : 1 ≤ cfg.initEpochs) (h2 : 1 ≤ cfg.sampleTreeRate) (fuel : Nat)
    (hf : (2 * cfg.initEpochs.toNat + 1) * t.numRows ≤ fuel) {n j c d h W : Nat} (F : Spec.FewRows t M n j c d) (hdeep : n + c + 2 + d * (n + 2 * j + 3) + (c + 1) * h ≤ 80)
    (hW : ∀ v < t.numCols, t.stop v - t.beg v ≤ W) (hW' : W ≤ 256) :
    ∃ s0 : Trainer ℝ M, Trainer.init t treePrior.length = .ok s0 ∧ (∃ p, outcomes (train num mst junk fuel t treePrior cfg) s0 p) ∧
      ∀ r s, outcomes (train num mst junk fuel t treePrior cfg) s0 (r, s) → ∃ logits, r = .ok logits ∧
        (Spec.DegreeAtMost s.tree d → (∃ u < t.numCols, EccLe t.numCols s.tree.getEdges u h) →
          ∃ srv, FloatServer.init A (trainedModel t s logits) = .ok srv ∧
            ∀ (junk : Nat → Fin M → Flt) (data : List Int), Spec.SingleRow (trainedModel t s logits) data →
              (∃ r, IsCenter t.numCols s.tree.getEdges r ∧ ∀ v < t.numCols, ∀ c ∈ Finset.Ico (t.beg v) (t.stop v),
                ∃ q p, srv.marginals A junk data c = some q ∧ 0 < q ∧
                  p = predictive (trainedModel t s logits) (evidenceOn (trainedModel t s logits) (fun u => Above s.tree.getEdges r u v ∨ Above s.tree.getEdges r v u) fun c => data.getD c 0) c ∧
                  (q : ℝ) ≤ p * (1 + 2 ^ (-23 : Int)) ^ Spec.marginalRoundings t.numCols M W ∧ p ≤ q * (1 + 2 ^ (-23 : Int)) ^ Spec.marginalRoundings t.numCols M W) ∧
              ∀ counts : List Int, (∀ v < t.numCols, 0 ≤ counts.getD v 0 ∧ counts.getD v 0 ≤ 127) →
                ∃ r, IsCenter t.numCols s.tree.getEdges r ∧ ∃ row, srv.median A junk counts data = .ok row ∧ ∀ v < t.numCols,
                  (∀ c ∈ Finset.Ico (t.beg v) (t.stop v), 0 ≤ row c) ∧ ∑ c ∈ Finset.Ico (t.beg v) (t.stop v), row c = counts.getD v 0 ∧
                  ∃ p : Nat → ℝ,
                    p = predictive (trainedModel t s logits) (evidenceOn (trainedModel t s logits) (fun u => Above s.tree.getEdges r u v ∨ Above s.tree.getEdges r v u) fun c => data.getD c 0) ∧
                    ∀ other : Nat → Int, ∑ c ∈ Finset.Ico (t.beg v) (t.stop v), other c = counts.getD v 0 →
                      ∑ c ∈ Finset.Ico (t.beg v) (t.stop v), |counts.getD v 0 * p c - row c| ≤ ∑ c ∈ Finset.Ico (t.beg v) (t.stop v), |counts.getD v 0 * p c - other c| +
                        2 * counts.getD v 0 * ((1 + 2 ^ (-23 : Int)) ^ (2 * Spec.marginalRoundings t.numCols M W) - 1) +
                        2 * (t.stop v - t.beg v : Nat) * Spec.quantError (t.stop v - t.beg v) (counts.getD v 0).toNat) := by
  obtain ⟨s0, h0, hex, hall⟩ := trainedModel_few num mst hmst junk t ht hm hV hV' hM treePrior hp cfg h1 h2 fuel hf F
  refine ⟨s0, h0, hex, fun r s hr => ?_⟩
  obtain ⟨logits, rfl, hn, hv, hcs, hS, hF⟩ := hall r s hr
  refine ⟨logits, rfl, fun hd hecc => ?_⟩
  have hcard : ∀ v, (columns (trainedModel t s logits) v).card = t.stop v - t.beg v := fun v => Nat.card_Ico _ _
  have hWm : ∀ v < (trainedModel t s logits).tree.numVertices, (columns (trainedModel t s logits) v).card ≤ W := by
    rw [hn]
    intro v hv
    rw [hcard]
    exact hW v hv
  have hD : Spec.Shallow (trainedModel t s logits) n j c d h := ⟨by rw [hn]; exact hecc, hdeep⟩
  obtain ⟨srv, e⟩ := floatServer_exists (A := A) hv
  refine ⟨srv, e, fun junk data hrow => ⟨?_, fun counts hc => ?_⟩⟩
  · have := floatMarginals_near_few N hv hcs hS (hF hd) hD hWm hW' hrow e (junk := junk)
    rw [hn] at this
    exact this
  · have := floatMedian_near_few N hsum hv hcs hS (hF hd) hD hWm (by rw [hn]; exact fun v hv => Finset.nonempty_Ico.2 (hne v hv)) hW' hrow (counts := counts) (by rw [hn]; exact hc) e (junk := junk)
    simp only [hn, hcard] at this
    exact this

end

/-- Three categorical features and three rows, one cell of which is missing. -/
def fewTable : Table := ⟨[0, 0, 0], [0, 2, 5, 7], [[1, 0, 0, 1, 0, 0, 1], [0, 1, 1, 0, 0, 0, 0], [1, 0, 0, 0, 1, 1, 0]]⟩

theorem fewTable_categorical : ∀ row < fewTable.numRows, Spec.Categorical fewTable row := by
  intro row hrow
  refine ⟨fun r => ?_, ?_⟩
  · by_cases h : r < 7
    · revert r
      revert row
      decide
    · have h7 : ∀ row < fewTable.numRows, (fewTable.data.getD row []).length = 7 := by decide
      unfold Table.cell
      rw [List.getD_eq_default _ _ (by rw [h7 row hrow]; omega)]
  · revert row
    decide

/-- `fewTable` meets the hypotheses. -/
example : Table.Ordered fewTable ∧ (∀ ty ∈ fewTable.featureTypes, ty = tyMultinomial) ∧ Spec.FewRows fewTable 4 8 2 10 4 ∧ fewTable.numCols ≤ 4 + 1 ∧
    (∀ v < fewTable.numCols, fewTable.beg v < fewTable.stop v) ∧ Spec.FewRows fewTable 4 8 2 10 2 ∧ 8 + 10 + 2 + 2 * (8 + 2 * 2 + 3) + (10 + 1) * 1 ≤ 80 :=
  ⟨⟨by decide, by decide⟩, by decide, fewRows_hundred (by norm_num) fewTable_categorical (by decide) (by decide), by decide, by decide,
    fewRows_hundred (by norm_num) fewTable_categorical (by decide) (by decide), by norm_num⟩

end TreeCat
