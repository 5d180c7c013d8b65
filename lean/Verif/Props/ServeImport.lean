import Verif.Props.DataServer

/-! # C32, C33: from csv files to a server; C48: `feature_density` -/

set_option linter.unusedSectionVars false

namespace TreeCat

open Spec Util
open Config (Str)

variable {T : Text} {S : Schema} {fs : List (Str × Feature)}

/-- The rows of csv files are imported rows. -/
theorem fileRows_imported (csvs : List (List (List Str))) : Imported fs (csvs.flatMap (fileRows T fs)) := by
  intro row hrow
  obtain ⟨csv, -, hrow⟩ := List.mem_flatMap.1 hrow
  cases csv with
  | nil => simp [fileRows] at hrow
  | cons header rows =>
    obtain ⟨r, -, rfl⟩ := List.mem_map.1 hrow
    exact ⟨_, fun f _ j hj => valueOf_canon _ f j hj, rfl⟩

section
variable {K : Type} [Field K] [LinearOrder K] [IsStrictOrderedRing K] {M : Nat} [NeZero M]
variable {models : List (Model K M)}

/-- **C32**: what `import_data` makes of at least one csv file can be served, with any models of its features. -/
theorem importData_serves {mst : List (List K) → List Edge} (hmst : MstContract mst) (types values : List (List Str)) (groups : Option (List (List Str)))
    (hS : loadSchema T types values groups = .ok S) (h : Describes S fs) (hfit : Fits fs) (hne : fs ≠ []) (hw : ∀ f ∈ fs, 0 < f.2.width)
    (csvs : List (List (List Str))) (hc : ∀ csv ∈ csvs, DataFile csv) (hcne : csvs ≠ []) (E : Members models fs.length S.raggedIndex) :
    ∃ table, importData T csvs types values groups = .ok (S, table) ∧
      ∃ ds, DataServer.init mst S table models = .ok ds ∧ Holds S fs (csvs.flatMap (fileRows T fs)) models ds := by
  refine ⟨_, importData_spec types values groups hS h hfit hne hw csvs hc, ?_⟩
  refine dataServer_init hmst h hfit _ rfl (fileRows_imported csvs) ?_ E
  obtain ⟨csv, csvs, rfl⟩ := List.exists_cons_of_ne_nil hcne
  obtain ⟨header, rows, rfl, -, hr⟩ := hc csv (by simp)
  obtain ⟨r, rows, rfl⟩ := List.exists_cons_of_ne_nil hr
  simp [fileRows]

theorem foldl_max_ge (l : List Int) (x : Int) : x ≤ l.foldl max x ∧ ∀ a ∈ l, a ≤ l.foldl max x := by
  induction l generalizing x with
  | nil => simp
  | cons y l ih =>
    obtain ⟨h1, h2⟩ := ih (max x y)
    rw [List.foldl_cons]
    refine ⟨(le_max_left _ _).trans h1, fun a ha => ?_⟩
    rcases List.mem_cons.1 ha with rfl | ha
    · exact (le_max_right _ _).trans h1
    · exact h2 a ha

theorem foldl_max_mem (l : List Int) (x : Int) : l.foldl max x ∈ x :: l := by
  induction l generalizing x with
  | nil => simp
  | cons y l ih =>
    rw [List.foldl_cons]
    rcases List.mem_cons.1 (ih (max x y)) with e | hm
    · rw [e]
      rcases max_choice x y with e | e <;> rw [e] <;> simp
    · simp [hm]

/-- The largest count of a block of an imported row is 0 iff the feature is missing. -/
theorem blockMax_spec (h : Describes S fs) (x : Str × Feature → Option Json) (hx : ∀ f ∈ fs, ∀ j, x f = some j → Canon f.2 j)
    (v : Nat) (f : Str × Feature) (hf : fs[v]? = some f) (hw : 0 < f.2.width) :
    ∃ t, blockMax (internalRow fs x) (startOf fs v) (startOf fs (v + 1)) = .ok t ∧ (t = 0 ↔ x f = none ∨ Hidden f.2) := by
  have hm := List.mem_of_getElem? hf
  have hb : (fs.map fun f => blockOf f.2 (x f)).map List.length = fs.map fun f => f.2.width := by
    rw [List.map_map]; exact List.map_congr_left fun f _ => blockOf_length _ _
  have e : ((internalRow fs x).take (startOf fs (v + 1))).drop (startOf fs v) = blockOf f.2 (x f) := by
    unfold internalRow
    rw [List.flatMap_def, flatten_slice fs _ hb v (blockOf f.2 (x f)) (by rw [List.getElem?_map, hf]; rfl)]
  have hnn : ∀ a ∈ blockOf f.2 (x f), 0 ≤ a := by
    intro a ha
    cases hF : f.2 with
    | cat vs =>
      rw [hF] at ha
      unfold blockOf at ha
      split at ha
      · obtain ⟨_, _, rfl⟩ := List.mem_map.1 ha
        split <;> decide
      · rename_i heq _; cases heq
      · simp only [List.mem_replicate] at ha; omega
    | ord lo hi =>
      cases hxf : x f with
      | none =>
        rw [hF, hxf] at ha
        simp [blockOf] at ha
        omega
      | some j =>
        have hc := hx f hm j hxf
        rw [hF] at hc ha
        rw [hxf] at ha
        cases j with
        | int i =>
          have hc : lo ≤ i ∧ i ≤ hi := hc
          simp [blockOf] at ha
          omega
        | _ => exact absurd hc (by simp [Canon])
  obtain ⟨b1, b2⟩ := blockOf_sum f.2 (fun vs e => (h.cats f.1 vs (by rw [← e]; exact hm)).1) (x f) (hx f hm)
  have hsum : (blockOf f.2 (x f)).sum = 0 ↔ x f = none ∨ Hidden f.2 := by
    constructor
    · intro h0
      by_contra hcon
      rw [not_or] at hcon
      rw [b2 hcon.1] at h0
      obtain ⟨n, F⟩ := f
      cases F with
      | cat vs => simp [Feature.total] at h0
      | ord lo hi => exact hcon.2 (by simp only [Feature.total] at h0; simp only [Hidden]; omega)
    · rintro (h0 | hh)
      · exact b1 h0
      · by_cases h0 : x f = none
        · exact b1 h0
        · rw [b2 h0]
          obtain ⟨n, F⟩ := f
          cases F with
          | cat vs => simp [Hidden] at hh
          | ord lo hi => simp only [Hidden] at hh; simp only [Feature.total]; omega
  unfold blockMax
  rw [e]
  have hlen : (blockOf f.2 (x f)).length = f.2.width := blockOf_length _ _
  cases hbl : blockOf f.2 (x f) with
  | nil => rw [hbl] at hlen; simp at hlen; omega
  | cons a l =>
    rw [hbl] at hnn hsum
    refine ⟨_, rfl, ?_⟩
    rw [← hsum]
    obtain ⟨g1, g2⟩ := foldl_max_ge l a
    constructor
    · intro h0
      rw [h0] at g1 g2
      refine List.sum_eq_zero fun y hy => le_antisymm ?_ (hnn y hy)
      rcases List.mem_cons.1 hy with rfl | hy
      · exact g1
      · exact g2 y hy
    · intro h0
      have := foldl_max_mem l a
      rw [nonneg_sum_zero _ hnn h0] at this
      exact List.eq_of_mem_replicate this

/-- **C48**: `feature_density()` succeeds on imported rows and returns, for each feature, the fraction of the rows in which it is
observed: a number in `[0, 1]`. An ordinal with only one possible value is never observed. -/
theorem featureDensity_spec (h : Describes S fs) (hw : ∀ f ∈ fs, 0 < f.2.width) (xs : List (Str × Feature → Option Json))
    (hx : ∀ x ∈ xs, ∀ f ∈ fs, ∀ j, x f = some j → Canon f.2 j) {ds : DataServer K M} (hd : Holds S fs (xs.map (internalRow fs)) models ds) :
    ∃ density : List K, ds.featureDensity = .ok density ∧ density.length = fs.length ∧ (∀ d ∈ density, 0 ≤ d ∧ d ≤ 1) ∧
      ∀ (v : Nat) f, fs[v]? = some f →
        (¬ Hidden f.2 → density[v]? = some (((xs.filter fun x => (x f).isSome).length : K) / (xs.length : K))) ∧
        (Hidden f.2 → density[v]? = some 0) := by
  classical
  have hl : S.raggedIndex.length - 1 = fs.length := by
    rw [(describes_raggedIndex h).1]
    simp [(makeRaggedIndex_spec _).1]
  let d : Nat → K := fun v => match fs[v]? with
    | none => 0
    | some f => ((xs.filter fun x => decide (¬ (x f = none ∨ Hidden f.2))).length : K) / (xs.length : K)
  have hd' : ds.featureDensity = .ok ((List.range fs.length).map d) := by
    unfold DataServer.featureDensity
    rw [hd.schema, hd.stored, hl]
    refine mapM_ok _ d _ fun v hv => ?_
    have hv := List.mem_range.1 hv
    have hf : fs[v]? = some fs[v] := List.getElem?_eq_getElem hv
    have hm := List.getElem_mem hv
    have e1 : pyGet S.raggedIndex v = .ok (startOf fs v) := by unfold pyGet; rw [h.ragged v (by omega)]
    have e2 : pyGet S.raggedIndex (v + 1) = .ok (startOf fs (v + 1)) := by unfold pyGet; rw [h.ragged (v + 1) (by omega)]
    have htops : ∃ tops, (xs.map (internalRow fs)).mapM (fun row => blockMax row (startOf fs v) (startOf fs (v + 1))) = .ok tops ∧
        List.Forall₂ (fun x t => t = 0 ↔ x fs[v] = none ∨ Hidden fs[v].2) xs tops := by
      clear hd
      induction xs with
      | nil => exact ⟨[], rfl, .nil⟩
      | cons x xs ih =>
        obtain ⟨tops, t1, t2⟩ := ih fun y hy => hx y (by simp [hy])
        obtain ⟨t, t3, t4⟩ := blockMax_spec h x (hx x (by simp)) v fs[v] hf (hw _ hm)
        refine ⟨t :: tops, ?_, .cons t4 t2⟩
        rw [List.map_cons, List.mapM_cons, t3, t1]
        rfl
    obtain ⟨tops, t1, t2⟩ := htops
    have hc : (tops.filter fun x => x != 0).length = (xs.filter fun x => decide (¬ (x fs[v] = none ∨ Hidden fs[v].2))).length := by
      clear * - t2
      induction t2 with
      | nil => rfl
      | @cons x t xs tops hxt _ ih =>
        by_cases ht : t = 0
        · have hp := hxt.1 ht
          rw [List.filter_cons_of_neg (by simp [ht]), List.filter_cons_of_neg (by rw [decide_eq_true_iff]; exact not_not.2 hp), ih]
        · have hp := mt hxt.2 ht
          rw [List.filter_cons_of_pos (by simp [ht]), List.filter_cons_of_pos (by rw [decide_eq_true_iff]; exact hp), List.length_cons, List.length_cons, ih]
    simp only [e1, e2, t1, bind, Except.bind]
    rw [hc, ← t2.length_eq]
    simp only [d, hf]
  refine ⟨_, hd', by simp, ?_, ?_⟩
  · intro y hy
    obtain ⟨v, hv, rfl⟩ := List.mem_map.1 hy
    have hv := List.mem_range.1 hv
    have hf : fs[v]? = some fs[v] := List.getElem?_eq_getElem hv
    simp only [d, hf]
    exact ⟨by positivity, div_le_one_of_le₀ (by exact_mod_cast List.length_filter_le _ _) (by positivity)⟩
  · intro v f hf
    have hv := getElem?_lt hf
    have e : ((List.range fs.length).map d)[v]? = some (d v) := by simp [hv]
    rw [e]
    simp only [d, hf]
    constructor
    · intro hh
      congr 4
      refine congrArg (fun p => xs.filter p) (funext fun x => ?_)
      cases hxf : x f <;> simp [hh]
    · intro hh
      simp [hh]

end

/-! ### A dataset -/

/-- Two models of the features of the test data. -/
def tinyModels (K : Type) [Field K] : List (Model K 2) :=
  [{ pathModel K with raggedIndex := [0, 3, 6, 8] }, { pathModel K with raggedIndex := [0, 3, 6, 8], featSS := fun r m => if r % 3 = m.val then 2 else 1 }]

def tinyCsv : List (List Str) := [["genre", "rating"], ["drama", "4"], ["family", " 5"], ["?", ""]].map fun r => r.map String.toList

theorem tinyModels_members (K : Type) [Field K] : Members (tinyModels K) tinyFeatures.length tinySchema.raggedIndex := by
  have e : tinySchema.raggedIndex = [0, 3, 6, 8] := by decide +kernel
  rw [e]
  have h := pathModel_valid K
  refine ⟨by simp [tinyModels], fun m hm => ?_, fun m hm => ?_, fun m hm => ?_⟩ <;> simp only [tinyModels, List.mem_cons, List.not_mem_nil, or_false] at hm
  · rcases hm with rfl | rfl
    · exact ⟨h.isTree, h.sorted, rfl, (by decide : [0, 3, 6, 8].Pairwise (· ≤ ·)), h.vert, h.edge, fun _ _ r _ m => by simp only [pathModel]; split <;> decide, h.logits⟩
    · exact ⟨h.isTree, h.sorted, rfl, (by decide : [0, 3, 6, 8].Pairwise (· ≤ ·)), h.vert, h.edge, fun _ _ _ _ _ => by dsimp only; split <;> decide, h.logits⟩
  · rcases hm with rfl | rfl <;> rfl
  · rcases hm with rfl | rfl <;> rfl

/-- A server over a csv file with the schema of the test data. -/
theorem tiny_serves {K : Type} [Field K] [LinearOrder K] [IsStrictOrderedRing K] {M : Nat} [NeZero M] {models : List (Model K M)}
    (E : Members models tinyFeatures.length tinySchema.raggedIndex) :
    ∃ mst table ds, importData asciiText [tinyCsv] tinyTypes tinyValues none = .ok (tinySchema, table) ∧
      DataServer.init mst tinySchema table models = .ok ds ∧
      Holds tinySchema tinyFeatures [[0, 0, 0, 1, 0, 0, 1, 1], [0, 0, 0, 0, 1, 0, 2, 0], [0, 0, 0, 0, 0, 0, 0, 0]] models ds := by
  obtain ⟨mst, hmst⟩ := exists_mst (K := K)
  obtain ⟨h, hfit, -⟩ := tinySchema_describes
  obtain ⟨table, e1, ds, e2, hd⟩ := importData_serves (T := asciiText) hmst tinyTypes tinyValues none (by decide +kernel) h hfit (by decide)
    (by decide) [tinyCsv] (by
      intro csv hcsv
      rw [List.mem_singleton.1 hcsv]
      exact ⟨_, _, rfl, by decide, by decide⟩) (by simp) E
  refine ⟨mst, table, ds, e1, e2, ?_⟩
  have e : [tinyCsv].flatMap (fileRows asciiText tinyFeatures) =
      [[0, 0, 0, 1, 0, 0, 1, 1], [0, 0, 0, 0, 1, 0, 2, 0], [0, 0, 0, 0, 0, 0, 0, 0]] := by decide +kernel
  rwa [e] at hd

/-- Every sample has a genre and a rating and no decade. -/
example : ∃ ds : DataServer ℚ 2, ∀ o, (ds.sample asciiText 5 (some [("rating".toList, .int 4)]) : ExceptT PyErr Poss _).run o →
    ∃ rows, o = .ok rows ∧ rows.length = 5 ∧ ∀ row ∈ rows, "genre".toList ∈ Dict.keys row ∧ "decade".toList ∉ Dict.keys row := by
  obtain ⟨-, -, ds, -, -, hd⟩ := tiny_serves (tinyModels_members ℚ)
  obtain ⟨h, hfit, hh⟩ := tinySchema_describes
  refine ⟨ds, fun o ho => ?_⟩
  obtain ⟨rows, e, hl, hrows⟩ := (dataServer_sample (T := asciiText) h hfit (tinyModels_members ℚ) hd 5 (some [("rating".toList, .int 4)]) (by
    intro row hrow
    simp only [Option.mem_def, Option.some.injEq] at hrow
    subst hrow
    refine ⟨by decide, ?_⟩
    intro nj hnj F hF
    simp only [List.mem_singleton] at hnj
    subst hnj
    simp only [tinyFeatures, List.mem_cons, Prod.mk.injEq, List.not_mem_nil, or_false] at hF
    rcases hF with ⟨hF, -⟩ | ⟨hF, -⟩ | ⟨-, rfl⟩
    · exact absurd hF (by decide)
    · exact absurd hF (by decide)
    · exact ⟨_, rfl⟩)).2 o ho
  refine ⟨rows, e, hl, fun row hrow => ?_⟩
  obtain ⟨-, -, hr⟩ := hrows row hrow
  refine ⟨(hr 1 _ rfl (hh _ (by simp [tinyFeatures]))).2 ⟨[0, 0, 0, 1, 0, 0, 1, 1], by simp, by decide⟩, fun hin => ?_⟩
  obtain ⟨row, hrow, hne⟩ := (hr 0 _ rfl (hh _ (by simp [tinyFeatures]))).1 hin
  revert hne
  revert row
  decide

/-- The features of the three rows: no decade, two genres and two ratings. -/
example : ∃ (ds : DataServer ℚ 2) (density : List ℚ), ds.featureDensity = .ok density ∧ density = [0, 2 / 3, 2 / 3] := by
  obtain ⟨-, -, ds, -, -, hd⟩ := tiny_serves (tinyModels_members ℚ)
  obtain ⟨h, hfit, hh⟩ := tinySchema_describes
  let rows : List (Dict Str Json) := [[("genre".toList, .str "drama".toList), ("rating".toList, .int 4)],
    [("genre".toList, .str "family".toList), ("rating".toList, .int 5)], []]
  have e : [[0, 0, 0, 1, 0, 0, 1, 1], [0, 0, 0, 0, 1, 0, 2, 0], [0, 0, 0, 0, 0, 0, 0, 0]] =
      (rows.map (valueOf asciiText)).map (internalRow tinyFeatures) := by decide +kernel
  rw [e] at hd
  obtain ⟨density, e1, e2, -, e3⟩ := featureDensity_spec h (by decide) _ (by
    intro x hx
    obtain ⟨row, -, rfl⟩ := List.mem_map.1 hx
    exact fun f _ j hj => valueOf_canon row f j hj) hd
  refine ⟨ds, density, e1, ?_⟩
  have h0 := (e3 0 _ rfl).1 (hh _ (by simp [tinyFeatures]))
  have h1 := (e3 1 _ rfl).1 (hh _ (by simp [tinyFeatures]))
  have h2 := (e3 2 _ rfl).1 (hh _ (by simp [tinyFeatures]))
  have c0 : ((rows.map (valueOf asciiText)).filter fun x => (x ("decade".toList, .cat (["1950s", "2010s", "1970s"].map String.toList))).isSome).length = 0 := by decide +kernel
  have c1 : ((rows.map (valueOf asciiText)).filter fun x => (x ("genre".toList, .cat (["drama", "family", "fantasy"].map String.toList))).isSome).length = 2 := by decide +kernel
  have c2 : ((rows.map (valueOf asciiText)).filter fun x => (x ("rating".toList, .ord 3 5)).isSome).length = 2 := by decide +kernel
  rw [c0] at h0
  rw [c1] at h1
  rw [c2] at h2
  refine List.ext_getElem? fun v => ?_
  match v with
  | 0 => rw [h0]; simp
  | 1 => rw [h1]; simp [rows]
  | 2 => rw [h2]; simp [rows]
  | v + 3 => rw [List.getElem?_eq_none (by rw [e2]; simp [tinyFeatures]), List.getElem?_eq_none (by simp)]

/-- The probability of a rating, and the failure of the query given a genre. -/
example : ∃ (ds : DataServer ℝ 2) (lp : ℝ), ds.logprob asciiText realNum (.list [[("rating".toList, .int 4)]]) none = .ok [some lp] ∧
    Real.exp lp = meanOf (tinyModels ℝ) (fun m => dataProb m fun r => [0, 0, 0, 0, 0, 0, 1, 1].getD r 0) ∧
    ∃ e, ds.logprob asciiText realNum (.list [[("rating".toList, .int 4)]]) (some [("genre".toList, .str "drama".toList)]) = .error e := by
  obtain ⟨-, -, ds, -, -, hd⟩ := tiny_serves (tinyModels_members ℝ)
  obtain ⟨h, hfit, hh⟩ := tinySchema_describes
  obtain ⟨lps, e1, e2⟩ := dataServer_logprob_partial (T := asciiText) h hfit (tinyModels_members ℝ) hd [[("rating".toList, .int 4)]] (by
    intro row hrow
    rw [List.mem_singleton.1 hrow]
    refine ⟨by decide, ?_⟩
    intro nj hnj F hF
    rw [List.mem_singleton.1 hnj] at hF ⊢
    simp only [tinyFeatures, List.mem_cons, Prod.mk.injEq, List.not_mem_nil, or_false] at hF
    rcases hF with ⟨hF, -⟩ | ⟨hF, -⟩ | ⟨-, rfl⟩
    · exact absurd hF (by decide)
    · exact absurd hF (by decide)
    · exact ⟨_, rfl⟩)
  obtain ⟨lp, rfl⟩ := List.length_eq_one_iff.1 (by simpa using congrArg List.length e2)
  refine ⟨ds, lp, e1, ?_, dataServer_logprob_evidence _ _ _ _⟩
  simp only [List.map_cons, List.map_nil, List.cons.injEq, and_true] at e2
  rw [e2]
  have e : internalRow tinyFeatures (valueOf asciiText [("rating".toList, .int 4)]) = [0, 0, 0, 0, 0, 0, 1, 1] := by decide +kernel
  rw [e]

/-- The median given nothing, from a single model. -/
example : ∃ (ds : DataServer ℚ 2) (row : Dict Str Json), ds.median asciiText (fun _ _ => 1) (.list [[]]) = .ok [row] ∧
    "genre".toList ∈ Dict.keys row := by
  obtain ⟨h, hfit, hh⟩ := tinySchema_describes
  have E : Members [(tinyModels ℚ).head (by simp [tinyModels])] tinyFeatures.length tinySchema.raggedIndex := by
    have E := tinyModels_members ℚ
    refine ⟨by simp, fun m hm => E.valid m ?_, fun m hm => E.size m ?_, fun m hm => E.index m ?_⟩ <;>
      (rw [List.mem_singleton.1 hm]; exact List.head_mem _)
  obtain ⟨mst, table, ds, -, ei, hd⟩ := tiny_serves E
  obtain ⟨srv, hsrv⟩ : ∃ srv, ds.server = .one srv := by
    unfold DataServer.init at ei
    cases hc : guessCounts table.raggedIndex (table.raggedIndex.getLastD 0) table.data with
    | error e => rw [hc] at ei; simp [bind, Except.bind] at ei
    | ok counts =>
      simp only [hc, bind, Except.bind] at ei
      split at ei
      · simp at ei
      · injection ei with ei
        exact ⟨_, by rw [← ei]⟩
  obtain ⟨rows, e1, e2, e3⟩ := dataServer_median_partial (T := asciiText) h hfit E hd srv hsrv (fun _ _ => 1) [[]] (by simp [Readable, Dict.keys])
  obtain ⟨row, rfl⟩ := List.length_eq_one_iff.1 e2
  refine ⟨ds, row, e1, ?_⟩
  obtain ⟨-, -, hr⟩ := e3 row (by simp)
  exact (hr 1 _ rfl (hh _ (by simp [tinyFeatures]))).2 ⟨[0, 0, 0, 1, 0, 0, 1, 1], by simp, by decide⟩

end TreeCat
