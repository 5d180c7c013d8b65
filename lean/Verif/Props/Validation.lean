import Verif.Model.ProfileEval
import Verif.Props.CrossValidation
import Verif.Props.Evaluate
import Verif.Props.ProfileRun

/-!
# C93: cross-validation from the file of parameters to the scores
-/

set_option linter.unusedSectionVars false

namespace TreeCat

open Spec Util
open Config (Str Config DictEq lookup makeConfig)

namespace Spec

/-- A config for fold `partid` of `parts` and for training with `M` clusters. -/
structure FoldConfig (M : Nat) (c : Config) (parts partid : Int) (cfg : TrainConfig) : Prop where
  good : GoodConfig c
  trainable : Trainable M parts c cfg
  seed : lookup c "seed" = some partid
  range : 0 ≤ partid ∧ partid < parts

/-- The data without the cells of a fold. -/
def WithoutFold (draw : Nat → Nat → Nat → List (List Nat)) (ws : List Nat) (N : Nat) (parts partid : Int) (data training : List (List Int)) : Prop :=
  Shape N ws.sum training ∧ ∀ i < N, ∀ v p, InBlock ws v p →
    at2 0 training i p = if (foldOf draw parts.toNat N ws.length i v : Int) = partid then 0 else at2 0 data i p

end Spec

/-- One training, given that it has some outcome. -/
theorem trainModel_draws {K : Type} [Field K] [LinearOrder K] [IsStrictOrderedRing K] {M : Nat} [NeZero M] {num : Num K}
    {mst : List (List K) → List Edge} (hmst : MstContract mst)
    {junk : Nat → Nat} {run : TrainerKind → Table → List K → Config → Py (Model K M)} (hrun : Draws num mst junk run)
    (t : Table) (ht : Table.Ordered t) (hm : ∀ ty ∈ t.featureTypes, ty = tyMultinomial)
    (hc : ∀ n < t.numRows, ∀ r, 0 ≤ t.cell n r) (hV : 1 ≤ t.numCols) (hV' : t.numCols ≤ 32768) (prior : List K)
    (hp : prior.length = t.numCols * (t.numCols - 1) / 2) {n : Int} (hn : 1 ≤ n) {c : Config} {cfg : TrainConfig} (htr : Trainable M n c cfg) :
    ∃ m, trainModel run t prior c = .ok m ∧ Outcome num mst junk t prior cfg (.ok m) ∧
      m.tree.numVertices = t.numCols ∧ m.raggedIndex = t.raggedIndex ∧ Model.Valid m := by
  obtain ⟨s, hs, hs0, hs1⟩ := htr.seed
  obtain ⟨s0, e0, ⟨p, hp0⟩, hall⟩ := trainedModel_valid (M := M) num mst hmst junk t ht hm hc hV hV' htr.pos.2 prior hp cfg htr.init htr.rate
    ((2 * cfg.initEpochs.toNat + 1) * t.numRows) (le_refl _)
  have h1 : (1 : Int) ≤ M := by have := htr.pos.1; omega
  have hpick : trainModel run t prior c = run .treeCat t prior c := by
    simp [trainModel, configGet, htr.clusters, htr.dim, pickTrainer, pyAssert, h1, bind, Except.bind]
  obtain ⟨s0', e0', r, st, ho, er⟩ := hrun t prior c cfg htr.read htr.clusters ⟨s, hs, by omega, by omega⟩ ⟨_, s0, e0, p.1, p.2, hp0, rfl⟩
  rw [e0] at e0'
  cases e0'
  obtain ⟨logits, rfl, v1, v2, -⟩ := hall r st ho
  exact ⟨trainedModel t st logits, by rw [hpick, er]; rfl, ⟨s0, e0, _, st, ho, rfl⟩, v1, rfl, v2⟩

theorem ordered_ragged (types : List Nat) (ws : List Nat) (data : List (List Int)) (h : types.length = ws.length) :
    Table.Ordered ⟨types, makeRaggedIndex ws, data⟩ := by
  obtain ⟨g1, g2, -⟩ := makeRaggedIndex_spec ws
  refine ⟨by rw [g1, ← h]; rfl, ?_⟩
  rw [List.pairwise_iff_getElem]
  intro i j hi hj hij
  change i < (makeRaggedIndex ws).length at hi
  change j < (makeRaggedIndex ws).length at hj
  have e1 := g2 i (by omega)
  have e2 := g2 j (by omega)
  rw [List.getElem?_eq_getElem hi, Option.some.injEq] at e1
  rw [List.getElem?_eq_getElem hj, Option.some.injEq] at e2
  change (makeRaggedIndex ws)[i] ≤ (makeRaggedIndex ws)[j]
  rw [e1, e2]
  exact blockStart_mono ws hij.le

section
variable {T : Text} {M : Nat} [NeZero M] {num : Num ℝ} {mst : List (List ℝ) → List Edge} {draw : Nat → Nat → Nat → List (List Nat)} {junk : Nat → Nat}
  {run : TrainerKind → Table → List ℝ → Config → Py (Model ℝ M)}

/-- One training with the data without a fold. -/
theorem trainFor_fold (hmst : MstContract mst) (hd : Randint draw) (hrun : Draws num mst junk run)
    (ws : List Nat) (hV : 1 ≤ ws.length) (hV' : ws.length ≤ 32768) (table : Table) (hri : table.raggedIndex = makeRaggedIndex ws)
    (hlen : table.featureTypes.length = ws.length) (hty : ∀ ty ∈ table.featureTypes, ty = tyMultinomial)
    (hsh : Shape table.numRows ws.sum table.data) (h8 : ∀ row ∈ table.data, ∀ x ∈ row, 0 ≤ x ∧ x ≤ 127)
    (prior : List ℝ) (hp : prior.length = ws.length * (ws.length - 1) / 2) (junk1 : Nat → List Bool)
    {c : Config} {parts partid : Int} {cfg : TrainConfig} (hf : FoldConfig M c parts partid cfg) :
    ∃ model training, trainFor draw junk1 run table prior c = .ok model ∧ Model.Valid model ∧ model.raggedIndex = table.raggedIndex ∧
      WithoutFold draw ws table.numRows parts partid table.data training ∧
      Outcome num mst junk ⟨table.featureTypes, table.raggedIndex, training⟩ prior cfg (.ok model) := by
  obtain ⟨training, e1, hs, ht⟩ := trainingTable_spec hd junk1 ws table hri hlen hsh
    (fun row hrow x hx => ⟨by have := (h8 row hrow x hx).1; omega, (h8 row hrow x hx).2⟩) c parts partid hf.trainable.size hf.seed hf.range
  have hcell : ∀ n < table.numRows, ∀ r, 0 ≤ at2 0 training n r := by
    intro n hn r
    by_cases hr : r < ws.sum
    · obtain ⟨v, hv⟩ := inBlock_exists ws r hr
      rw [ht n hn v r hv]
      split
      · exact le_refl _
      · have hn' : n < table.data.length := hn
        have hrow : table.data[n] ∈ table.data := List.getElem_mem hn'
        have hl := hsh.2 _ hrow
        have hr' : r < table.data[n].length := by omega
        have e : at2 0 table.data n r = table.data[n][r] := by
          unfold at2
          rw [List.getD_eq_getElem?_getD, List.getD_eq_getElem?_getD, List.getElem?_eq_getElem hn', Option.getD_some,
            List.getElem?_eq_getElem hr', Option.getD_some]
        rw [e]
        exact (h8 _ hrow _ (List.getElem_mem _)).1
    · have hn' : n < training.length := by rw [hs.1]; exact hn
      have hl := hs.2 _ (List.getElem_mem hn')
      have e : at2 0 training n r = 0 := by
        simp only [at2, List.getD_eq_getElem?_getD, List.getElem?_eq_getElem hn', Option.getD_some]
        rw [List.getElem?_eq_none (by omega), Option.getD_none]
      exact e.ge
  have hrows : (⟨table.featureTypes, table.raggedIndex, training⟩ : Table).numRows = table.numRows := hs.1
  have hcols : (⟨table.featureTypes, table.raggedIndex, training⟩ : Table).numCols = ws.length := hlen
  obtain ⟨m, e2, ho, hnv, hmr, hval⟩ := trainModel_draws hmst hrun ⟨table.featureTypes, table.raggedIndex, training⟩
    (by rw [hri]; exact ordered_ragged _ _ _ hlen) hty (fun n hn r => hcell n (by rw [← hrows]; exact hn) r) (by rw [hcols]; exact hV)
    (by rw [hcols]; exact hV') prior (by rw [hcols]; exact hp) (by have := hf.range; omega) hf.trainable
  refine ⟨m, training, ?_, hval, hmr, ⟨hs, ht⟩, ho⟩
  unfold trainFor
  rw [e1]
  exact e2

/-- **C93.** `validate.train` followed by `validate.eval` with the same file of parameters and the same options completes, whatever is drawn in training, and
returns for each config, in the order of the file, finite scores of a model that is an outcome of training with this config on the data without the fold of
the config. -/
theorem validation_runs (hmst : MstContract mst) (hd : Randint draw) (hrun : Draws num mst junk run)
    (hcongr : ∀ kind t p c d, DictEq c d → run kind t p c = run kind t p d)
    (ws : List Nat) (hV : 1 ≤ ws.length) (hV' : ws.length ≤ 32768) (table : Table) (hri : table.raggedIndex = makeRaggedIndex ws)
    (hlen : table.featureTypes.length = ws.length) (hty : ∀ ty ∈ table.featureTypes, ty = tyMultinomial)
    (hsh : Shape table.numRows ws.sum table.data) (hN : 0 < table.numRows) (h8 : ∀ row ∈ table.data, ∀ x ∈ row, 0 ≤ x ∧ x ≤ 127)
    (h127 : ∀ i < table.numRows, ∀ v < ws.length, observations ws table.data i v ≤ 127)
    (prior : List ℝ) (hp : prior.length = ws.length * (ws.length - 1) / 2)
    (csv : List (List Str)) (options : Dict String Int) (header : List Str) (configs : List Config) (hread : readParamCsv T csv options = .ok (header, configs))
    (hc : ∀ c ∈ configs, ∃ parts partid cfg, FoldConfig M c parts partid cfg) (junk1 : Nat → List Bool) (junk2 : Nat → Fin M → ℝ) (dir : Dict Str (Model ℝ M)) :
    ∃ dir' results, trainAll T draw junk1 run table prior csv options dir = .ok dir' ∧
      evalAll T (evaluateModel realNum mst draw junk1 junk2 table) csv options dir' = .ok results ∧
      List.Forall₂ (fun c (r : Config × Option (Scores ℝ)) => r.1 = c ∧ ∀ parts partid cfg, FoldConfig M c parts partid cfg → ∃ training model lp l1,
        WithoutFold draw ws table.numRows parts partid table.data training ∧
        Outcome num mst junk ⟨table.featureTypes, table.raggedIndex, training⟩ prior cfg (.ok model) ∧
        evaluateModel realNum mst draw junk1 junk2 table model c = .ok ⟨some lp, l1⟩ ∧ r.2 = some ⟨some lp, l1⟩ ∧ lp ≤ 0 ∧ 0 ≤ l1) configs results := by
  have hone : ∀ c ∈ configs, ∃ model lp l1, trainFor draw junk1 run table prior c = .ok model ∧
      evaluateModel realNum mst draw junk1 junk2 table model c = .ok ⟨some lp, l1⟩ ∧ lp ≤ 0 ∧ 0 ≤ l1 ∧
      ∀ parts partid cfg, FoldConfig M c parts partid cfg → ∃ training, WithoutFold draw ws table.numRows parts partid table.data training ∧
        Outcome num mst junk ⟨table.featureTypes, table.raggedIndex, training⟩ prior cfg (.ok model) := by
    intro c hcm
    obtain ⟨parts, partid, cfg, hf⟩ := hc c hcm
    obtain ⟨m, training, e2, hval, hmr, hs, ho⟩ := trainFor_fold hmst hd hrun ws hV hV' table hri hlen hty hsh h8 prior hp junk1 hf
    obtain ⟨lp, l1, e3, h1, h2, -⟩ := evaluateModel_bounds hmst hd hval ws (by rw [hmr]; exact hri) table hri hsh hN
      (fun row hrow x hx => (h8 row hrow x hx).1) h127 c parts partid hf.trainable.size hf.seed hf.range junk1 junk2 127 (by norm_num) (by
        intro i hi v hv
        have h3 : (observations ws table.data i v : ℝ) ≤ 127 := by exact_mod_cast h127 i hi v hv
        rcases Nat.eq_zero_or_pos (ws.getD v 0) with h4 | h4
        · have h5 : observations ws table.data i v = 0 := by
            rw [List.getD_eq_getElem?_getD, List.getElem?_eq_getElem hv, Option.getD_some] at h4
            unfold observations
            rw [blockStart_succ ws v hv, h4, Nat.add_zero, Finset.Ico_self, Finset.sum_empty]
          rw [h5, h4]
          simp
        · have h5 : (1 : ℝ) ≤ ws.getD v 0 := by exact_mod_cast h4
          linarith)
    refine ⟨m, lp, l1, e2, e3, h1, h2, ?_⟩
    · intro parts' partid' cfg' hf'
      have e4 := hf'.trainable.size
      rw [hf.trainable.size, Option.some.injEq] at e4
      have e5 := hf'.seed
      rw [hf.seed, Option.some.injEq] at e5
      have e6 := hf'.trainable.read
      rw [hf.trainable.read, Except.ok.injEq] at e6
      subst e4 e5 e6
      exact ⟨training, hs, ho⟩
  haveI : Nonempty (Model ℝ M) := ⟨⟨⟨0, []⟩, [], fun _ _ => 0, fun _ _ _ => 0, fun _ _ => 0, []⟩⟩
  choose! model lp l1 k1 k2 k3 k4 k5 using hone
  obtain ⟨dir', e1, e2⟩ := train_eval (ρ := Scores ℝ) hcongr table prior csv options header configs hread
    (fun c hcm => by obtain ⟨_, _, _, hf⟩ := hc c hcm; exact hf.good) model k1 dir
  refine ⟨dir', configs.map fun c => (c, some ⟨some (lp c), l1 c⟩), e1, ?_, ?_⟩
  · rw [e2]
    clear e1 e2 hread hc k1 k3 k4 k5
    induction configs with
    | nil => rfl
    | cons c l ih =>
      rw [List.mapM_cons, k2 c (by simp), ih fun c hc => k2 c (by simp [hc])]
      rfl
  · rw [List.forall₂_map_right_iff, List.forall₂_same]
    intro c hcm
    refine ⟨rfl, fun parts partid cfg hf => ?_⟩
    obtain ⟨training, h1, h2⟩ := k5 c hcm parts partid cfg hf
    exact ⟨training, model c, lp c, l1 c, h1, h2, k2 c hcm, rfl, k3 c hcm, k4 c hcm⟩

/-- **C93.** Without rows training completes, and the evaluation raises ValueError. -/
theorem validation_empty (hmst : MstContract mst) (hd : Randint draw) (hrun : Draws num mst junk run)
    (hcongr : ∀ kind t p c d, DictEq c d → run kind t p c = run kind t p d)
    (ws : List Nat) (hV : 1 ≤ ws.length) (hV' : ws.length ≤ 32768) (table : Table) (hri : table.raggedIndex = makeRaggedIndex ws)
    (hlen : table.featureTypes.length = ws.length) (hty : ∀ ty ∈ table.featureTypes, ty = tyMultinomial) (hN : table.data = [])
    (prior : List ℝ) (hp : prior.length = ws.length * (ws.length - 1) / 2)
    (csv : List (List Str)) (options : Dict String Int) (header : List Str) (configs : List Config) (hread : readParamCsv T csv options = .ok (header, configs))
    (hne : configs ≠ []) (hc : ∀ c ∈ configs, ∃ parts partid cfg, FoldConfig M c parts partid cfg) (junk1 : Nat → List Bool) (junk2 : Nat → Fin M → ℝ)
    (dir : Dict Str (Model ℝ M)) :
    ∃ dir', trainAll T draw junk1 run table prior csv options dir = .ok dir' ∧
      evalAll T (evaluateModel realNum mst draw junk1 junk2 table) csv options dir' = .error .valueError := by
  have hone : ∀ c ∈ configs, ∃ model, trainFor draw junk1 run table prior c = .ok model ∧
      evaluateModel realNum mst draw junk1 junk2 table model c = .error .valueError := by
    intro c hcm
    obtain ⟨parts, partid, cfg, hf⟩ := hc c hcm
    obtain ⟨m, training, e2, hval, hmr, hs, ho⟩ := trainFor_fold hmst hd hrun ws hV hV' table hri hlen hty (by rw [Table.numRows, hN]; exact ⟨rfl, by simp⟩)
      (by rw [hN]; simp) prior hp junk1 hf
    refine ⟨m, e2, ?_⟩
    obtain ⟨srv, hsrv, -⟩ := server_init hmst hval
    obtain ⟨mask, hmask, -⟩ := (splitData_spec hd junk1 ws table.numRows parts partid).1 hf.range
    have hlast := (makeRaggedIndex_spec ws).2.2
    have hlastD : (makeRaggedIndex ws).getLastD 0 = ws.sum := by rw [List.getLastD_eq_getLast?, hlast]; rfl
    simp [evaluateModel, hsrv, configGet, hf.trainable.size, hf.seed, hf.range, hri, hmask, hN, Server.logprob, zeroWhere, countObservations, pyAssert,
      bind, Except.bind, hlast, hlastD]
  haveI : Nonempty (Model ℝ M) := ⟨⟨⟨0, []⟩, [], fun _ _ => 0, fun _ _ _ => 0, fun _ _ => 0, []⟩⟩
  choose! model k1 k2 using hone
  obtain ⟨dir', e1, e2⟩ := train_eval (ρ := Scores ℝ) hcongr table prior csv options header configs hread
    (fun c hcm => by obtain ⟨_, _, _, hf⟩ := hc c hcm; exact hf.good) model k1 dir
  refine ⟨dir', e1, ?_⟩
  rw [e2]
  cases configs with
  | nil => exact absurd rfl hne
  | cons c l =>
    rw [List.mapM_cons, k2 c (by simp)]
    rfl

/-! ### `profile.eval` -/

/-- The table of a generated dataset in terms of blocks. -/
theorem generated_blocks {rng : Nat → Nat → Nat → ℚ → Nat → Nat → List Nat} {N V C : Nat} {rate : ℚ} (hC : 0 < C)
    {d : List Nat × Nat × Table} (h : generateSeeded rng N V C rate = .ok d)
    (hsmall : ∀ v < V, ∀ n < N, ∑ c ∈ Finset.range C, (rng N V C rate v n).getD c 0 ≤ 127) :
    d.2.2.numRows = N ∧ d.2.2.featureTypes.length = (List.replicate V C).length ∧ (∀ ty ∈ d.2.2.featureTypes, ty = tyMultinomial) ∧
      d.2.1 = V * (V - 1) / 2 ∧ d.2.2.raggedIndex = makeRaggedIndex (List.replicate V C) ∧ Shape N (List.replicate V C).sum d.2.2.data ∧
      (∀ row ∈ d.2.2.data, ∀ x ∈ row, 0 ≤ x ∧ x ≤ 127) ∧ ∀ i < N, ∀ v < V, observations (List.replicate V C) d.2.2.data i v ≤ 127 := by
  have hcell : ∀ v < V, ∀ n < N, ∀ c < C, (rng N V C rate v n).getD c 0 ≤ 127 := fun v hv n hn c hc =>
    (Finset.single_le_sum (f := fun c => (rng N V C rate v n).getD c 0) (fun _ _ => Nat.zero_le _) (Finset.mem_range.2 hc)).trans (hsmall v hv n hn)
  unfold generateSeeded at h
  split at h
  · cases h
  obtain ⟨t, e, h1, h2, h3, h4, h5, h6, h7⟩ := generateDataset_spec (rng N V C rate) N V C hC
  rw [e] at h
  cases h
  have hstart : ∀ v ≤ V, blockStart (List.replicate V C) v = v * C := by
    intro v hv
    unfold blockStart
    rw [List.take_replicate, List.sum_replicate, Nat.min_eq_left hv]
    rfl
  obtain ⟨g1, g2, -⟩ := makeRaggedIndex_spec (List.replicate V C)
  rw [List.length_replicate] at g1 g2
  have hl : t.raggedIndex.length = V + 1 := by rw [h4.length, h2]
  have hsum : (List.replicate V C).sum = V * C := by rw [List.sum_replicate]; rfl
  have hat : ∀ i < N, ∀ v < V, ∀ c < C, at2 0 t.data i (v * C + c) = (rng N V C rate v i).getD c 0 := fun i hi v hv c hc =>
    (h7 i hi v hv c hc).2 (hcell v hv i hi c hc)
  refine ⟨h1, by rw [List.length_replicate]; exact h2, h3, rfl, ?_, ⟨h1, fun row hrow => by rw [h6 row hrow, hsum]⟩, ?_, ?_⟩
  · refine List.ext_getElem? fun i => ?_
    by_cases hi : i ≤ V
    · change t.raggedIndex[i]? = _
      rw [g2 i hi, hstart i hi, ← h5 i hi, List.getD_eq_getElem?_getD, List.getElem?_eq_getElem (by omega), Option.getD_some]
    · change t.raggedIndex[i]? = _
      rw [List.getElem?_eq_none (by omega), List.getElem?_eq_none (by omega)]
  · intro row hrow x hx
    obtain ⟨i, hi, rfl⟩ := List.getElem_of_mem hrow
    obtain ⟨p, hp, rfl⟩ := List.getElem_of_mem hx
    have hpl : p < V * C := by rw [← h6 _ hrow]; exact hp
    have hv : p / C < V := Nat.div_lt_of_lt_mul (by rwa [Nat.mul_comm])
    have hi' : i < N := by rw [← h1]; exact hi
    have := hat i hi' (p / C) hv (p % C) (Nat.mod_lt _ hC)
    rw [Nat.div_add_mod' p C] at this
    have e : at2 0 t.data i p = t.data[i][p] := by
      simp only [at2, List.getD_eq_getElem?_getD, List.getElem?_eq_getElem hi, Option.getD_some]
      rw [List.getElem?_eq_getElem hp, Option.getD_some]
    rw [← e, this]
    have := hcell (p / C) hv i hi' (p % C) (Nat.mod_lt _ hC)
    omega
  · intro i hi v hv
    unfold observations
    rw [hstart v hv.le, hstart (v + 1) hv, Finset.sum_Ico_eq_sum_range, Nat.succ_mul, Nat.add_sub_cancel_left,
      Finset.sum_congr rfl fun c hc => hat i hi v hv c (Finset.mem_range.1 hc)]
    exact_mod_cast hsmall v hv i hi

theorem configLookup_mem {c : Config} {k : String} {v : Int} (h : lookup c k = some v) : (k, v) ∈ c := by
  induction c with
  | nil => cases h
  | cons kv c ih =>
    obtain ⟨k', v'⟩ := kv
    unfold lookup at h
    split at h
    · rename_i e
      cases h
      subst e
      exact List.mem_cons_self
    · exact List.mem_cons_of_mem _ (ih h)

theorem profileParams_read : Csv.read profileParams = .ok [["learning_init_epochs".toList], ["2".toList]] := by decide +kernel

/-- The configs of `profile.eval`. -/
theorem profileEval_configs (hT : T.parseInt "2".toList = some 2) :
    ∃ configs, readParamCsv T [["learning_init_epochs".toList], ["2".toList]] profileOptions = .ok (["learning_init_epochs".toList], configs) ∧
      configs.length = 4 ∧ ∀ (p : Nat) c, configs[p]? = some c → FoldConfig 32 c 8 p ⟨2, 1, 3, true⟩ := by
  refine ⟨(List.range 4).map fun (p : Nat) => [("seed", (p : Int)), ("model_num_clusters", 32), ("model_latent_dim", 0), ("model_ensemble_size", 8),
    ("learning_init_epochs", 2), ("learning_full_epochs", 1), ("learning_estimate_tree", 1), ("learning_sample_tree_rate", 3), ("learning_parallel", 0)], ?_, rfl, ?_⟩
  · have h1 : paramCell T profileOptions ("learning_init_epochs".toList, "2".toList) = .ok profileOptions := by
      unfold paramCell
      rw [hT]
      rfl
    have h2 : paramCells T profileOptions (["learning_init_epochs".toList].zip ["2".toList]) = .ok profileOptions := by
      change paramCell T profileOptions ("learning_init_epochs".toList, "2".toList) >>= (fun o => (.ok o : Py (Dict String Int))) = _
      rw [h1]
      rfl
    have h3 : paramRow T ["learning_init_epochs".toList] 4 (profileOptions, []) ["2".toList] =
        ((List.range 4).mapM fun (partid : Nat) => makeConfig (("seed", (partid : Int)) :: profileOptions)) >>= fun new => .ok (profileOptions, new) := by
      unfold paramRow
      rw [h2]
      rfl
    change (paramRow T ["learning_init_epochs".toList] 4 (profileOptions, []) ["2".toList] >>= fun s => (.ok s : Py (Dict String Int × List Config))) >>=
      (fun s => (.ok (["learning_init_epochs".toList], s.2) : Py (List Str × List Config))) = _
    rw [h3]
    rfl
  · intro p c hc
    have hp : p < 4 := by
      have := (List.getElem?_eq_some_iff.1 hc).1
      simpa using this
    rw [List.getElem?_map, List.getElem?_range hp, Option.map_some, Option.some.injEq] at hc
    subst hc
    refine ⟨⟨?_, ?_⟩, ⟨rfl, rfl, rfl, rfl, by decide, by decide, by decide, p, rfl, by omega, by omega⟩, rfl, by omega, by omega⟩
    · exact List.Perm.refl _
    · intro k v hk
      have hmem := configLookup_mem hk
      simp only [List.mem_cons, Prod.mk.injEq, List.not_mem_nil, or_false] at hmem
      omega

/-- **C93.** `profile.eval` completes for every positive number of rows, after any history of generated files and whatever is drawn in training: it
scores four models. Model `p` is trained with two epochs on the data without fold `p` of eight, so the cells of the folds 4 to 7 are never held out. -/
theorem profileEval_runs {run : TrainerKind → Table → List ℝ → Config → Py (Model ℝ 32)} (hT : T.parseInt "2".toList = some 2) (hmst : MstContract mst)
    (hd : Randint draw) (hrun : Draws num mst junk run) (hcongr : ∀ kind t p c d, DictEq c d → run kind t p c = run kind t p d)
    (rng : Nat → Nat → Nat → ℚ → Nat → Nat → List Nat) (history : List GenCall) (rows cols cats : Nat) (hN : 0 < rows) (hV : 1 ≤ cols) (hV' : cols ≤ 32768)
    (hsmall : ∀ rate' v n, ∑ c ∈ Finset.range 4, (rng rows cols 4 rate' v n).getD c 0 ≤ 127) (junk1 : Nat → List Bool) (junk2 : Nat → Fin 32 → ℝ) :
    ∃ disk' d rate' results, profileEval T rng draw junk1 junk2 run mst realNum (history.foldl (GenCall.run rng run) fun _ => none) rows cols cats =
        (disk', .ok results) ∧ SameTenth 1 rate' ∧ generateSeeded rng rows cols 4 rate' = .ok d ∧ results.length = 4 ∧
      ∀ (p : Nat) r, results[p]? = some r → ∃ training model lp l1, FoldConfig 32 r.1 8 p ⟨2, 1, 3, true⟩ ∧
        WithoutFold draw (List.replicate cols 4) rows 8 p d.2.2.data training ∧
        Outcome num mst junk ⟨d.2.2.featureTypes, d.2.2.raggedIndex, training⟩ (List.replicate (cols * (cols - 1) / 2) 0) ⟨2, 1, 3, true⟩ (.ok model) ∧
        evaluateModel realNum mst draw junk1 junk2 d.2.2 model r.1 = .ok ⟨some lp, l1⟩ ∧ r.2 = some ⟨some lp, l1⟩ ∧ lp ≤ 0 ∧ 0 ≤ l1 := by
  rcases generateDatasetFile_spec rng run history rows cols 4 1 _ rfl with ⟨e, -, hg⟩ | ⟨disk', path, d, rate', e1, e2, e3, e4, -⟩
  · exfalso
    unfold generateSeeded at hg
    rw [if_neg fun h => absurd h.2.1 (by norm_num)] at hg
    obtain ⟨t, e, _⟩ := generateDataset_spec (rng rows cols 4 1) rows cols 4 (by decide)
    rw [e] at hg
    cases hg
  · obtain ⟨t1, t2, t3, t4, t5, t6, t7, t8⟩ := generated_blocks (by decide) e3 fun v _ n _ => hsmall rate' v n
    obtain ⟨configs, k1, k2, k3⟩ := profileEval_configs hT
    obtain ⟨dir', results, f1, f2, f3⟩ := validation_runs hmst hd hrun hcongr (List.replicate cols 4)
      (by rw [List.length_replicate]; exact hV) (by rw [List.length_replicate]; exact hV') d.2.2 t5 t2 t3 (by rw [t1]; exact t6) (by rw [t1]; exact hN) t7
      (by rw [t1, List.length_replicate]; exact t8) (List.replicate (cols * (cols - 1) / 2) 0) (by rw [List.length_replicate, List.length_replicate])
      _ profileOptions _ configs k1 (fun c hc => by
        obtain ⟨p, hp⟩ := List.getElem?_of_mem hc
        exact ⟨_, _, _, k3 p c hp⟩) junk1 junk2 []
    refine ⟨disk', d, rate', results, ?_, e4, e3, by rw [← f3.length_eq, k2], ?_⟩
    · simp only [profileEval, e1, loadDataset, e2, t4, profileParams_read, f1, f2, bind, Except.bind]
    · intro p r hr
      have hp : p < results.length := (List.getElem?_eq_some_iff.1 hr).1
      have hp' : p < configs.length := by rw [f3.length_eq]; exact hp
      have hrel := f3.get hp' hp
      simp only [List.get_eq_getElem] at hrel
      rw [(List.getElem?_eq_some_iff.1 hr).2] at hrel
      obtain ⟨h1, h2⟩ := hrel
      have hf := k3 p _ (List.getElem?_eq_getElem hp')
      obtain ⟨training, model, lp, l1, a1, a2, a3, a4, a5, a6⟩ := h2 _ _ _ hf
      rw [t1] at a1
      rw [h1]
      exact ⟨training, model, lp, l1, hf, a1, a2, a3, a4, a5, a6⟩

/-- **C93.** `profile.eval` on no rows raises ValueError, after it has trained four models. -/
theorem profileEval_empty {run : TrainerKind → Table → List ℝ → Config → Py (Model ℝ 32)} (hT : T.parseInt "2".toList = some 2) (hmst : MstContract mst)
    (hd : Randint draw) (hrun : Draws num mst junk run) (hcongr : ∀ kind t p c d, DictEq c d → run kind t p c = run kind t p d)
    (rng : Nat → Nat → Nat → ℚ → Nat → Nat → List Nat) (history : List GenCall) (cols cats : Nat) (hV : 1 ≤ cols) (hV' : cols ≤ 32768)
    (junk1 : Nat → List Bool) (junk2 : Nat → Fin 32 → ℝ) :
    (profileEval T rng draw junk1 junk2 run mst realNum (history.foldl (GenCall.run rng run) fun _ => none) 0 cols cats).2 = .error .valueError := by
  rcases generateDatasetFile_spec rng run history 0 cols 4 1 _ rfl with ⟨e, -, hg⟩ | ⟨disk', path, d, rate', e1, e2, e3, e4, -⟩
  · exfalso
    unfold generateSeeded at hg
    rw [if_neg fun h => absurd h.2.1 (by norm_num)] at hg
    obtain ⟨t, e, _⟩ := generateDataset_spec (rng 0 cols 4 1) 0 cols 4 (by decide)
    rw [e] at hg
    cases hg
  · obtain ⟨t1, t2, t3, t4, t5, t6, -, -⟩ := generated_blocks (by decide) e3 fun v _ n hn => absurd hn (Nat.not_lt_zero n)
    obtain ⟨configs, k1, k2, k3⟩ := profileEval_configs hT
    obtain ⟨dir', f1, f2⟩ := validation_empty hmst hd hrun hcongr (List.replicate cols 4)
      (by rw [List.length_replicate]; exact hV) (by rw [List.length_replicate]; exact hV') d.2.2 t5 t2 t3 (List.length_eq_zero_iff.1 t6.1)
      (List.replicate (cols * (cols - 1) / 2) 0) (by rw [List.length_replicate, List.length_replicate])
      _ profileOptions _ configs k1 (by rintro rfl; cases k2) (fun c hc => by
        obtain ⟨p, hp⟩ := List.getElem?_of_mem hc
        exact ⟨_, _, _, k3 p c hp⟩) junk1 junk2 []
    simp only [profileEval, e1, loadDataset, e2, t4, profileParams_read, f1, f2, bind, Except.bind]

end

/-- There is a way to train that depends only on the values of the config. -/
theorem exists_draws_congr {K : Type} [Field K] [LinearOrder K] [IsStrictOrderedRing K] {M : Nat} [NeZero M] (num : Num K) (mst : List (List K) → List Edge)
    (junk : Nat → Nat) : ∃ run : TrainerKind → Table → List K → Config → Py (Model K M), Draws num mst junk run ∧
      ∀ kind t p c d, DictEq c d → run kind t p c = run kind t p d := by
  classical
  have : ∀ (t : Table) (prior : List K) (cfg : TrainConfig), ∃ result : Py (Model K M),
      (∃ result : Py (Model K M), Outcome num mst junk t prior cfg result) → Outcome num mst junk t prior cfg result := by
    intro t prior cfg
    by_cases h : ∃ result : Py (Model K M), Outcome num mst junk t prior cfg result
    · obtain ⟨result, ho⟩ := h
      exact ⟨result, fun _ => ho⟩
    · exact ⟨.error .assertion, fun ho => absurd ho h⟩
  choose f hf using this
  refine ⟨fun _ t prior c => match trainConfigOf c with | .ok cfg => f t prior cfg | .error e => .error e, ?_, ?_⟩
  · intro t prior c cfg e _ _ h
    simp only [e]
    exact hf t prior cfg h
  · intro kind t p c d h
    have : trainConfigOf c = trainConfigOf d := by
      unfold trainConfigOf configGet
      rw [h "seed", h "learning_init_epochs", h "learning_full_epochs", h "learning_sample_tree_rate", h "learning_estimate_tree"]
    simp only [this]

/-- Two rows and three columns with one observation per cell; and no rows. -/
example : ∃ (mst : _) (run : TrainerKind → Table → List ℝ → Config → Py (Model ℝ 32)) (draw : _) (disk : GenDisk ℝ 32) (results : _), profileEval asciiText (fun _ _ _ _ _ n => [n % 2, 1 - n % 2]) draw (fun _ => []) (fun _ _ => 0) run mst realNum
    (fun _ => none) 2 3 7 = (disk, .ok results) ∧ results.length = 4 ∧
    (profileEval asciiText (fun _ _ _ _ _ n => [n % 2, 1 - n % 2]) draw (fun _ => []) (fun _ _ => 0) run mst realNum (fun _ => none) 0 3 7).2 =
      .error .valueError := by
  obtain ⟨mst, hmst⟩ := exists_mst (K := ℝ)
  obtain ⟨run, hrun, hcongr⟩ := exists_draws_congr (M := 32) (⟨Real.exp, Real.log⟩ : Num ℝ) mst fun _ => 0
  have hd : Randint (fun P N V => List.replicate N (List.replicate V (P - 1))) := by
    intro P N V hP
    refine ⟨by simp, fun row hrow => ?_⟩
    rw [List.eq_of_mem_replicate hrow]
    refine ⟨by simp, fun x hx => ?_⟩
    rw [List.eq_of_mem_replicate hx]
    omega
  obtain ⟨disk, d, rate', results, e, -, -, hl, -⟩ := profileEval_runs (T := asciiText) (by decide) hmst hd hrun hcongr (fun _ _ _ _ _ n => [n % 2, 1 - n % 2]) [] 2 3 7
    (by decide) (by decide) (by decide) (by intro _ _ n; simp [Finset.sum_range_succ]; omega) (fun _ => []) (fun _ _ => 0)
  exact ⟨mst, run, _, disk, results, e, hl, profileEval_empty (by decide) hmst hd hrun hcongr _ [] 3 7 (by decide) (by decide) _ _⟩

end TreeCat
