import Verif.Props.FloatServeExact

/-! # Where the server fails in float32 -/

namespace TreeCat

open Util Spec

/-! ### `marginals` -/

/-- Twenty nine features with two values in a chain, with one cluster, after 511 rows that have the first value everywhere. -/
def chainModel : Model ℚ 1 where
  tree := { numVertices := 29, treeGrid := makeTree ((List.range 28).map fun v => (v, v + 1)) }
  raggedIndex := (List.range 30).map (2 * ·)
  vertSS _ _ := 511
  edgeSS _ _ _ := 511
  featSS r _ := if r % 2 = 0 then 511 else 0
  edgeLogits := List.replicate 406 0

/-- The row with the second value everywhere. -/
def chainRow : List Int := (List.range 58).map fun r => if r % 2 = 0 then 0 else 1

theorem chainModel_grid : chainModel.tree.treeGrid = (List.range 28).map fun v => (v, v, v + 1) := by decide +kernel

theorem chainModel_valid : Model.Valid chainModel where
  isTree := by
    change IsTree 29 (chainModel.tree.treeGrid.map fun c => (c.2.1, c.2.2))
    rw [chainModel_grid]
    exact isTree_of_smaller rfl (by decide +kernel) (by decide +kernel)
  sorted := ⟨_, rfl⟩
  ragged := rfl
  mono := by change ((List.range 30).map (2 * ·)).Pairwise (· ≤ ·); decide +kernel
  vert v _ m := by change (0 : Int) ≤ 511; decide
  edge c _ a b := by change (0 : Int) ≤ 511; decide
  feat v _ r _ m := by simp only [chainModel]; split_ifs <;> decide
  logits := List.length_replicate

theorem chainModel_small : Spec.SmallCounts chainModel where
  clusters := by norm_num
  vert v _ m := by change (0 : Int) ≤ 511 ∧ (511 : Int) < 2 ^ 24; decide
  edge c _ a b := by change (0 : Int) ≤ 511 ∧ (511 : Int) < 2 ^ 24; decide
  feat v _ r _ m := by simp only [chainModel]; split_ifs <;> decide
  width := by
    change ∀ v < 29, (columns chainModel v).card ≤ 256
    decide +kernel

theorem chainRow_single : Spec.SingleRow chainModel chainRow := by
  refine ⟨fun r => ?_, ?_⟩
  · unfold chainRow
    rw [List.getD_eq_getElem?_getD, List.getElem?_map]
    cases (List.range 58)[r]? with
    | none => decide
    | some x =>
      show (0 : Int) ≤ if x % 2 = 0 then 0 else 1
      split_ifs <;> decide
  · change ∀ v < 29, ∑ r ∈ columns chainModel v, chainRow.getD r 0 ≤ 1
    decide +kernel

/-- **C68**. `marginals` is not safe in float32: unlike `messages_in`, `messages_out` is never scaled. On a chain of 29 features it underflows to zero, and the result of the
first feature is `0 / 0`, although the marginal probabilities are 1023/1024 and 1/1024, and `logprob` and `sample` work for the same model and row. -/
theorem floatMarginals_nan : Model.Valid chainModel ∧ Spec.SmallCounts chainModel ∧ Spec.SingleRow chainModel chainRow ∧
    (∃ srv, FloatServer.init (numpyServe 1 floorLog) chainModel = .ok srv ∧ ∀ r < 2, srv.marginals (numpyServe 1 floorLog) (fun _ _ => some 0) chainRow r = none) ∧
    (∃ srv, FloatServer.init (numpyServe 1 floorLog) chainModel = .ok srv ∧ ∃ q, srv.logprob (numpyServe 1 floorLog) chainRow = some (some q)) ∧
    ∃ srv, FloatServer.init (exactServe 1 ⟨id, id, id⟩) chainModel = .ok srv ∧
      srv.marginals (exactServe 1 ⟨id, id, id⟩) (fun _ _ => some 1) chainRow 0 = some (1023 / 1024) ∧ srv.marginals (exactServe 1 ⟨id, id, id⟩) (fun _ _ => some 1) chainRow 1 = some (1 / 1024) := by
  refine ⟨chainModel_valid, chainModel_small, chainRow_single, ?_, ?_, ?_⟩
  · have h : ((FloatServer.init (numpyServe 1 floorLog) chainModel).toOption.map fun srv => (List.range 2).map (srv.marginals (numpyServe 1 floorLog) (fun _ _ => some 0) chainRow))
        = some [none, none] := by decide +kernel
    cases hs : FloatServer.init (numpyServe 1 floorLog) chainModel with
    | error e => rw [hs] at h; cases h
    | ok srv =>
      rw [hs] at h
      have h' := Option.some.inj h
      refine ⟨srv, rfl, fun r hr => ?_⟩
      have := congrArg (fun l => l[r]?) h'
      simp only [List.getElem?_map] at this
      rcases r with _ | _ | r
      · exact Option.some.inj this
      · exact Option.some.inj this
      · omega
  · obtain ⟨srv, h1, q, h2, -⟩ := floatLogprob_ok (numpyServe_ok (M := 1) (by norm_num)) chainModel_valid chainModel_small (by decide) chainRow_single
    exact ⟨srv, h1, q, h2⟩
  · have h : ((FloatServer.init (exactServe 1 ⟨id, id, id⟩) chainModel).toOption.map fun srv => (List.range 2).map (srv.marginals (exactServe 1 ⟨id, id, id⟩) (fun _ _ => some 1) chainRow))
        = some [some (1023 / 1024), some (1 / 1024)] := by decide +kernel
    cases hs : FloatServer.init (exactServe 1 ⟨id, id, id⟩) chainModel with
    | error e => rw [hs] at h; cases h
    | ok srv =>
      rw [hs] at h
      have h' := Option.some.inj h
      exact ⟨srv, rfl, Option.some.inj (congrArg (fun l => l[0]?) h'), Option.some.inj (congrArg (fun l => l[1]?) h')⟩

/-! ### Ordinal rows -/

/-- One ordinal feature with the values 0 to 100, after four rows of value 90. -/
def ordinalModel : Model ℚ 1 where
  tree := { numVertices := 1, treeGrid := [] }
  raggedIndex := [0, 2]
  vertSS _ _ := 4
  edgeSS _ _ _ := 0
  featSS r _ := if r = 0 then 360 else 40
  edgeLogits := []

theorem ordinalModel_valid : Model.Valid ordinalModel where
  isTree := by
    change IsTree 1 []
    exact isTree_of_smaller rfl (by decide) (by decide)
  sorted := ⟨[], by decide +kernel⟩
  ragged := rfl
  mono := by change [0, 2].Pairwise (· ≤ ·); decide
  vert v _ m := by simp [ordinalModel]
  edge c _ a b := by simp [ordinalModel]
  feat v _ r _ m := by simp only [ordinalModel]; split_ifs <;> decide
  logits := rfl

theorem ordinalModel_small : Spec.SmallCounts ordinalModel where
  clusters := by norm_num
  vert v _ m := by simp [ordinalModel]
  edge c _ a b := by simp [ordinalModel]
  feat v _ r _ m := by simp only [ordinalModel]; split_ifs <;> decide
  width := by
    change ∀ v < 1, (columns ordinalModel v).card ≤ 256
    decide +kernel

/-- **C68**. The condition that each feature is observed at most once is needed: an ordinal value is 100 observations, and the probability of value 10 underflows, so that `logprob` is
minus infinity. Exactly, it is a number. -/
theorem floatLogprob_ordinal : Model.Valid ordinalModel ∧ Spec.SmallCounts ordinalModel ∧
    (∃ srv, FloatServer.init (numpyServe 1 floorLog) ordinalModel = .ok srv ∧ srv.logprob (numpyServe 1 floorLog) [10, 90] = some none) ∧
    ∀ num : ServeNum ℚ, ∃ srv, FloatServer.init (exactServe 1 num) ordinalModel = .ok srv ∧ ∃ q, srv.logprob (exactServe 1 num) [10, 90] = some (some q) := by
  refine ⟨ordinalModel_valid, ordinalModel_small, ?_, ?_⟩
  · have h : ((FloatServer.init (numpyServe 1 floorLog) ordinalModel).toOption.map fun srv => srv.logprob (numpyServe 1 floorLog) [10, 90]) = some (some none) := by decide +kernel
    cases hs : FloatServer.init (numpyServe 1 floorLog) ordinalModel with
    | error e => rw [hs] at h; cases h
    | ok srv =>
      rw [hs] at h
      exact ⟨srv, rfl, Option.some.inj h⟩
  · intro num
    obtain ⟨mst, hmst⟩ := exists_mst (K := ℚ)
    obtain ⟨srv, h1, h2, -⟩ := server_init hmst ordinalModel_valid
    obtain ⟨fsrv, h3, S⟩ := serverInit_exact (num := num) (fun v m => by simp [ordinalModel]) (fun e a b => by simp [ordinalModel])
      (fun r m => by simp only [ordinalModel]; split_ifs <;> decide) h1
    refine ⟨fsrv, h3, ?_⟩
    rw [floatLogprob_exact S]
    have hp : srv.program = [⟨.UP, 0, 0, 0⟩, ⟨.ROOT, 0, 0, 0⟩, ⟨.DOWN, 0, 0, 0⟩] := by
      have h4 := h2.program
      have h5 : makeProgram ordinalModel.tree.treeGrid none = .ok [⟨.UP, 0, 0, 0⟩, ⟨.ROOT, 0, 0, 0⟩, ⟨.DOWN, 0, 0, 0⟩] := by decide +kernel
      rw [h4] at h5
      exact Except.ok.inj h5
    rw [hp]
    exact ⟨_, rfl⟩

/-! ### The hypotheses can be met -/

/-- The model of three features with two clusters in `Props/Logprob`. -/
theorem exampleModel_small : Spec.SmallCounts (exampleModel ℚ) where
  clusters := by norm_num
  vert v _ m := by simp only [exampleModel]; split_ifs <;> decide
  edge c _ a b := by simp only [exampleModel]; split_ifs <;> decide
  feat v _ r _ m := by simp only [exampleModel]; split_ifs <;> decide
  width := by
    change ∀ v < 3, (columns (exampleModel ℚ) v).card ≤ 256
    decide +kernel

theorem exampleRow_single : Spec.SingleRow (exampleModel ℚ) [1, 0, 0, 1, 0, 0, 0] := by
  refine ⟨fun r => ?_, ?_⟩
  · by_cases h : r < 7
    · revert r
      decide
    · rw [List.getD_eq_default _ _ (by simpa using h)]
  · change ∀ v < 3, ∑ r ∈ columns (exampleModel ℚ) v, ([1, 0, 0, 1, 0, 0, 0] : List Int).getD r 0 ≤ 1
    decide +kernel

example : ∃ srv, FloatServer.init (numpyServe 2 floorLog) (exampleModel ℚ) = .ok srv ∧ ∃ q, srv.logprob (numpyServe 2 floorLog) [1, 0, 0, 1, 0, 0, 0] = some (some q) ∧ |q| ≤ 104 * 3 :=
  floatLogprob_ok (numpyServe_ok (by norm_num)) (exampleModel_valid ℚ) exampleModel_small (by decide) exampleRow_single

example : ∃ srv s, FloatServer.init (numpyServe 2 floorLog) (exampleModel ℚ) = .ok srv ∧
    srv.sample (numpyServe 2 floorLog) [1, 2, 0] [1, 0, 0, 1, 0, 0, 0] (fun _ => 1 / 2) (fun _ _ => 1 / 4) = .ok s ∧ ∑ r ∈ columns (exampleModel ℚ) 1, s.featSample r = 2 := by
  obtain ⟨srv, hs, -⟩ := floatLogprob_ok (numpyServe_ok (by norm_num)) (exampleModel_valid ℚ) exampleModel_small (by decide) exampleRow_single
  obtain ⟨⟨s, h1, h2⟩, -⟩ := floatSample_ok (numpyServe_ok (by norm_num)) (exampleModel_valid ℚ) exampleModel_small (by
      change ∀ v < 3, (columns (exampleModel ℚ) v).Nonempty
      decide +kernel) exampleRow_single (counts := [1, 2, 0]) (by
      intro v
      by_cases h : v < 3
      · revert v
        decide
      · rw [List.getD_eq_default _ _ (by simpa using h)]
        decide) (draw := fun _ => 1 / 2) (drawF := fun _ _ => 1 / 4) (fun _ => ⟨2 ^ 52, by norm_num, by norm_num⟩) (fun _ _ => ⟨2 ^ 51, by norm_num, by norm_num⟩) hs
  exact ⟨srv, s, hs, h1, (h2 1 (by decide)).1⟩

end TreeCat
