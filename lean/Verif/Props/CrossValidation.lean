import Verif.Props.Folds
import Verif.Props.ReadParams

/-! # C49: training and evaluation with the same file of parameters -/

namespace TreeCat

open Spec
open Config (Str Config IsConfig DictEq serializeConfig deserializeConfig)

variable {T : Text} {K β ρ : Type} {draw : Nat → Nat → Nat → List (List Nat)} {junk : Nat → List Bool}
  {run : TrainerKind → Table → List K → Config → Py β}

/-- Configs with nonnegative values, which survive serialisation. -/
def Spec.GoodConfig (c : Config) : Prop := IsConfig c ∧ ∀ k v, Config.lookup c k = some v → 0 ≤ v

/-- What training for a config means: without serialisation and files. -/
def Spec.trainFor (draw : Nat → Nat → Nat → List (List Nat)) (junk : Nat → List Bool) (run : TrainerKind → Table → List K → Config → Py β)
    (table : Table) (prior : List K) (c : Config) : Py β := do
  let t ← trainingTable draw junk table c
  trainModel run t prior c

theorem trainFor_congr (hrun : ∀ kind t p c d, DictEq c d → run kind t p c = run kind t p d) (table : Table) (prior : List K) {c d : Config} (h : DictEq c d) :
    trainFor draw junk run table prior c = trainFor draw junk run table prior d := by
  unfold trainFor trainingTable trainModel configGet
  simp only [h "model_ensemble_size", h "seed", h "model_num_clusters", h "model_latent_dim"]
  simp only [hrun _ _ _ c d h]

theorem modelPath_inj {s t : Str} (h : modelPath s = modelPath t) : s = t := by
  unfold modelPath at h
  rw [List.append_assoc, List.append_assoc] at h
  exact List.append_cancel_right (List.append_cancel_left h)

theorem mapM_congr_mem {α γ : Type} (f g : α → Py γ) (l : List α) (h : ∀ a ∈ l, f a = g a) : l.mapM f = l.mapM g := by
  induction l with
  | nil => rfl
  | cons a l ih => rw [List.mapM_cons, List.mapM_cons, h a (by simp), ih fun b hb => h b (by simp [hb])]

/-- One training task writes the model for its config. -/
theorem processTrainTask_spec (hrun : ∀ kind t p c d, DictEq c d → run kind t p c = run kind t p d) (table : Table) (prior : List K) (c : Config)
    (hc : GoodConfig c) : ∃ s, serializeConfig c = .ok s ∧
      processTrainTask draw junk run table prior c = (trainFor draw junk run table prior c).map fun model => (modelPath s, model) := by
  obtain ⟨s, d, h1, h2, h3, h4⟩ := Config.deserialize_serialize_partial c hc.1 hc.2
  refine ⟨s, h1, ?_⟩
  rw [← trainFor_congr hrun table prior h4]
  unfold processTrainTask trainTask trainFor
  simp only [h1, h2, bind, Except.bind]
  cases trainingTable draw junk table d with
  | error e => rfl
  | ok t =>
    simp only
    cases trainModel run t prior d <;> rfl

theorem get?_foldl_set {α γ : Type} [DecidableEq α] (l : List (α × γ)) (d : Dict α γ) (x : α) (y : γ) (hx : ∃ kv ∈ l, kv.1 = x) (hy : ∀ kv ∈ l, kv.1 = x → kv.2 = y) :
    Dict.get? (l.foldl (fun d kv => Dict.set d kv.1 kv.2) d) x = some y := by
  have gen : ∀ (l : List (α × γ)) (d : Dict α γ), (∀ kv ∈ l, kv.1 = x → kv.2 = y) → (Dict.get? d x = some y ∨ ∃ kv ∈ l, kv.1 = x) →
      Dict.get? (l.foldl (fun d kv => Dict.set d kv.1 kv.2) d) x = some y := by
    intro l
    induction l with
    | nil => rintro d - (h | ⟨_, h, -⟩); exacts [h, absurd h (by simp)]
    | cons kv l ih =>
      intro d hy h
      rw [List.foldl_cons]
      refine ih _ (fun kv' hkv => hy kv' (by simp [hkv])) ?_
      rw [Dict.get?_set]
      by_cases hk : kv.1 = x
      · rw [if_pos hk, hy kv (by simp) hk]; exact .inl rfl
      · rw [if_neg hk]
        rcases h with h | ⟨kv', hkv, hk'⟩
        · exact .inl h
        · rcases List.mem_cons.1 hkv with rfl | hkv
          · exact absurd hk' hk
          · exact .inr ⟨kv', hkv, hk'⟩
  exact gen l d hy (.inr hx)

/-- **C49**: `train` followed by `eval` with the same file and the same options evaluates, for each config, the model trained for this config
(on the data without its fold), whatever was in the directory before. -/
theorem train_eval (hrun : ∀ kind t p c d, DictEq c d → run kind t p c = run kind t p d) (table : Table) (prior : List K) (csv : List (List Str))
    (options : Dict String Int) (header : List Str) (configs : List Config) (hr : readParamCsv T csv options = .ok (header, configs))
    (hc : ∀ c ∈ configs, GoodConfig c) (model : Config → β) (ht : ∀ c ∈ configs, trainFor draw junk run table prior c = .ok (model c)) (dir : Dict Str β) :
    ∃ dir', trainAll T draw junk run table prior csv options dir = .ok dir' ∧ ∀ evaluate : β → Config → Py ρ,
      evalAll T evaluate csv options dir' = configs.mapM fun c => (evaluate (model c) c).map fun r => (c, some r) := by
  have hkey : ∀ c ∈ configs, ∃ k, configGet c "learning_init_epochs" = .ok k := by
    intro c hcm
    obtain ⟨i, hi⟩ := Option.isSome_iff_exists.1 ((Config.lookup_isSome c "learning_init_epochs").2 ((hc c hcm).1.symm.subset (by decide)))
    exact ⟨i, by simp [configGet, hi]⟩
  obtain ⟨keyed, ek, hk⟩ := mapM_forall₂ (fun c => do
    let k ← configGet c "learning_init_epochs"
    (.ok (k, c) : Py (Int × Config))) (fun c kc => kc.2 = c) configs fun c hcm => by
      obtain ⟨k, hk⟩ := hkey c hcm
      exact ⟨(k, c), by simp only [hk, bind, Except.bind], rfl⟩
  have hmem : ∀ c, (∃ kc ∈ keyed.insertionSort fun a b => a.1 ≤ b.1, kc.2 = c) ↔ c ∈ configs := by
    intro c
    constructor
    · rintro ⟨kc, hkc, rfl⟩
      obtain ⟨c, h1, h2⟩ := forall₂_mem_right hk ((List.mem_insertionSort _).1 hkc)
      rw [h2]
      exact h1
    · intro hcm
      obtain ⟨kc, h1, h2⟩ := forall₂_mem_left hk hcm
      exact ⟨kc, (List.mem_insertionSort _).2 h1, h2⟩
  obtain ⟨files, ef, hf⟩ := mapM_forall₂ (fun kc : Int × Config => processTrainTask draw junk run table prior kc.2)
    (fun kc f => ∃ s, serializeConfig kc.2 = .ok s ∧ f = (modelPath s, model kc.2)) (keyed.insertionSort fun a b => a.1 ≤ b.1) fun kc hkc => by
      have hcm := (hmem kc.2).1 ⟨kc, hkc, rfl⟩
      obtain ⟨s, h1, h2⟩ := processTrainTask_spec hrun table prior kc.2 (hc _ hcm)
      rw [ht _ hcm] at h2
      exact ⟨_, h2, s, h1, rfl⟩
  refine ⟨files.foldl (fun d f => Dict.set d f.1 f.2) dir, ?_, fun evaluate => ?_⟩
  · unfold trainAll
    rw [hr]
    change (configs.mapM fun c => do
        let k ← configGet c "learning_init_epochs"
        (.ok (k, c) : Py (Int × Config))) >>= (fun keyed : List (Int × Config) =>
      ((keyed.insertionSort fun a b => a.1 ≤ b.1).mapM fun kc => processTrainTask draw junk run table prior kc.2) >>=
      (fun files : List (Str × β) => (.ok (files.foldl (fun d f => Dict.set d f.1 f.2) dir) : Py (Dict Str β)))) = _
    rw [ek]
    change ((keyed.insertionSort fun a b => a.1 ≤ b.1).mapM fun kc => processTrainTask draw junk run table prior kc.2) >>=
      (fun files : List (Str × β) => (.ok (files.foldl (fun d f => Dict.set d f.1 f.2) dir) : Py (Dict Str β))) = _
    rw [ef]
    rfl
  · unfold evalAll
    simp only [hr, bind, Except.bind]
    refine mapM_congr_mem _ _ _ fun c hcm => ?_
    obtain ⟨s, hs, -⟩ := processTrainTask_spec (draw := draw) (junk := junk) hrun table prior c (hc c hcm)
    have hget : Dict.get? (files.foldl (fun d f => Dict.set d f.1 f.2) dir) (modelPath s) = some (model c) := by
      refine get?_foldl_set files dir _ _ ?_ ?_
      · obtain ⟨kc, h1, rfl⟩ := (hmem c).2 hcm
        obtain ⟨f, h2, s', h3, h4⟩ := forall₂_mem_left hf h1
        rw [hs] at h3
        injection h3 with h3
        exact ⟨f, h2, by rw [h4, h3]⟩
      · intro f hfm hfp
        obtain ⟨kc, h1, s', h3, rfl⟩ := forall₂_mem_right hf hfm
        have hs' : s' = s := modelPath_inj hfp
        have hcm' := (hmem kc.2).1 ⟨kc, h1, rfl⟩
        have he : DictEq kc.2 c := Config.serialize_injective kc.2 c (hc _ hcm').1 (hc _ hcm).1 (by rw [h3, hs, hs'])
        have := trainFor_congr (draw := draw) (junk := junk) hrun table prior he
        rw [ht _ hcm', ht _ hcm] at this
        injection this
    unfold processEvalTask
    simp only [hs, hget, bind, Except.bind]
    cases evaluate (model c) c <;> rfl

/-! ### Which cells are held out -/

/-- The config holds out the cell of row `i` and feature `v` of a table with `N` rows and `V` features. -/
def Spec.HoldsOut (draw : Nat → Nat → Nat → List (List Nat)) (N V i v : Nat) (c : Config) : Prop :=
  ∃ parts partid : Int, Config.lookup c "model_ensemble_size" = some parts ∧ Config.lookup c "seed" = some partid ∧
    (foldOf draw parts.toNat N V i v : Int) = partid

section
variable (header : List Str) (rows : List (List Str)) (options : Dict String Int) (hne : header ≠ [])
  (hh : ∀ n ∈ header, String.ofList n ∈ Config.keys Config.defaultConfig ∧ n ≠ "seed".toList ∧ n ≠ "model_ensemble_size".toList)
  (ho : (Dict.keys options).Nodup) (hk : ∀ k ∈ Dict.keys options, k ∈ Config.keys Config.defaultConfig ∧ k ≠ "seed")
  (hp : ∀ row ∈ rows, usable header row = true → ∀ cell ∈ row, T.parseInt cell ≠ none)
include hne hh ho hk hp

omit hne hh ho hk hp in
theorem lastCell_mem {cells : List (Str × Str)} {key : String} {v : Int} (h : lastCell T cells key = some v) :
    ∃ kv ∈ cells, T.parseInt kv.2 = some v := by
  unfold lastCell at h
  obtain ⟨kv, h1, h2⟩ := Option.bind_eq_some_iff.1 h
  exact ⟨kv, List.mem_reverse.1 (List.mem_of_find?_eq_some h1), h2⟩

/-- With nonnegative options and cells, the configs of the file survive serialisation, as `train_eval` requires. -/
theorem readParamCsv_good (h0 : ∀ k v, Dict.get? options k = some v → 0 ≤ v)
    (h1 : ∀ row ∈ rows, usable header row = true → ∀ cell ∈ row, ∀ v, T.parseInt cell = some v → 0 ≤ v) :
    ∃ configs, readParamCsv T (header :: rows) options = .ok (header, configs) ∧ ∀ c ∈ configs, GoodConfig c := by
  obtain ⟨configs, e, h⟩ := (readParamCsv_spec header rows options hne hh ho hk).1 hp
  refine ⟨configs, e, fun c hc => ?_⟩
  obtain ⟨rp, hrp, g1, g2⟩ := forall₂_mem_right h hc
  obtain ⟨row, hrow, hpr⟩ := List.mem_flatMap.1 hrp
  obtain ⟨p, -, rfl⟩ := List.mem_map.1 hpr
  obtain ⟨hr1, hr2⟩ := List.mem_filter.1 hrow
  refine ⟨by unfold IsConfig; rw [g1], fun k v hv => ?_⟩
  rw [g2] at hv
  split at hv
  · injection hv with hv
    omega
  · rcases Option.or_eq_some_iff.1 hv with hv | ⟨-, hv⟩
    · rcases Option.or_eq_some_iff.1 hv with hv | ⟨-, hv⟩
      · obtain ⟨kv, hkv, hv⟩ := lastCell_mem hv
        exact h1 row hr1 hr2 kv.2 (List.of_mem_zip hkv).2 v hv
      · exact h0 k v hv
    · have hd : ∀ kv ∈ Config.defaultConfig, 0 ≤ kv.2 := by decide
      obtain ⟨kv, hkv, rfl⟩ : ∃ kv ∈ Config.defaultConfig, kv.2 = v := by
        rw [lookup_eq_get?] at hv
        exact ⟨(k, v), Dict.mem_of_get? hv, rfl⟩
      exact hd kv hkv

/-- **C49**: with the option `model_ensemble_size`, every cell is held out by exactly one of the configs of each row of
parameters. Missing: without the option this is false (`crossValidation_default`). -/
theorem crossValidation_partial (hd : Randint draw) (P : Nat) (hP : 0 < P) (hm : Dict.get? options "model_ensemble_size" = some (P : Int)) :
    ∃ blocks : List (List Config), readParamCsv T (header :: rows) options = .ok (header, blocks.flatten) ∧
      List.Forall₂ (fun row block => List.Forall₂ (RowConfig T header options) ((List.range P).map fun p => (row, p)) block ∧
        ∀ N V i v, i < N → v < V → ∃! p : Nat, ∃ c, block[p]? = some c ∧ HoldsOut draw N V i v c) (rows.filter (usable header)) blocks := by
  obtain ⟨configs, e, h⟩ := (readParamCsv_spec header rows options hne hh ho hk).1 hp
  have hparts : (Dict.getD options "model_ensemble_size" 4).toNat = P := by unfold Dict.getD; rw [hm]; rfl
  rw [hparts] at h
  have split : ∀ (l : List (List Str)) (cs : List Config), List.Forall₂ (RowConfig T header options) (l.flatMap fun row => (List.range P).map fun p => (row, p)) cs →
      ∃ blocks : List (List Config), cs = blocks.flatten ∧
        List.Forall₂ (fun row block => List.Forall₂ (RowConfig T header options) ((List.range P).map fun p => (row, p)) block) l blocks := by
    intro l
    induction l with
    | nil => intro cs h; cases h; exact ⟨[], rfl, .nil⟩
    | cons row l ih =>
      intro cs h
      rw [List.flatMap_cons, List.forall₂_iff_zip] at h
      obtain ⟨hl, hz⟩ := h
      rw [List.length_append] at hl
      have h1 : List.Forall₂ (RowConfig T header options) ((List.range P).map fun p => (row, p)) (cs.take ((List.range P).map fun p => (row, p)).length) := by
        rw [List.forall₂_iff_zip]
        refine ⟨by rw [List.length_take]; omega, fun {a b} hab => hz ?_⟩
        rw [← List.take_append_drop ((List.range P).map fun p => (row, p)).length cs, List.zip_append (by rw [List.length_take]; omega)]
        exact List.mem_append_left _ hab
      have h2 : List.Forall₂ (RowConfig T header options) (l.flatMap fun row => (List.range P).map fun p => (row, p))
          (cs.drop ((List.range P).map fun p => (row, p)).length) := by
        rw [List.forall₂_iff_zip]
        refine ⟨by rw [List.length_drop]; omega, fun {a b} hab => hz ?_⟩
        rw [← List.take_append_drop ((List.range P).map fun p => (row, p)).length cs, List.zip_append (by rw [List.length_take]; omega)]
        exact List.mem_append_right _ hab
      obtain ⟨blocks, e, hb⟩ := ih _ h2
      exact ⟨_ :: blocks, by rw [List.flatten_cons, ← e, List.take_append_drop], .cons h1 hb⟩
  obtain ⟨blocks, rfl, hb⟩ := split _ _ h
  refine ⟨blocks, e, hb.imp fun row block hblock => ⟨hblock, fun N V i v hi hv => ?_⟩⟩
  have hget : ∀ (p : Nat) c, block[p]? = some c → p < P ∧ Config.lookup c "model_ensemble_size" = some (P : Int) ∧ Config.lookup c "seed" = some (p : Int) := by
    intro p c hc
    have hl := hblock.length_eq
    simp only [List.length_map, List.length_range] at hl
    have hlt := (List.getElem?_eq_some_iff.1 hc).1
    have hrel := hblock.get (i := p) (by simpa [hl] using hlt) hlt
    simp only [List.get_eq_getElem, List.getElem_map, List.getElem_range] at hrel
    rw [(List.getElem?_eq_some_iff.1 hc).2] at hrel
    obtain ⟨-, h2⟩ := hrel
    refine ⟨by omega, ?_, by rw [h2]; rfl⟩
    rw [h2, if_neg (by decide), hm]
    have : lastCell T (header.zip row) "model_ensemble_size" = none := by
      unfold lastCell
      rw [List.find?_eq_none.2]
      · rfl
      · intro kv hkv hcon
        refine (hh kv.1 (List.of_mem_zip (List.mem_reverse.1 hkv)).1).2.2 ?_
        rw [← String.toList_ofList (l := kv.1), eq_of_beq hcon]
    rw [this]
    rfl
  have hlt := (randint_shape hd P N V hP).2 i hi v hv
  have hl := hblock.length_eq
  simp only [List.length_map, List.length_range] at hl
  have hb : block[foldOf draw P N V i v]? = some block[foldOf draw P N V i v] := List.getElem?_eq_getElem (by omega)
  refine ⟨foldOf draw P N V i v, ⟨_, hb, P, foldOf draw P N V i v, (hget _ _ hb).2.1, (hget _ _ hb).2.2, rfl⟩, ?_⟩
  rintro p ⟨c, hc, parts, partid, h1, h2, h3⟩
  obtain ⟨-, g1, g2⟩ := hget p c hc
  rw [g1] at h1
  rw [g2] at h2
  injection h1 with h1
  injection h2 with h2
  subst h1
  subst h2
  simpa using h3.symm

/-- **C49** is false without the option `model_ensemble_size`: cells in the folds 4 to 7 of 8 are never held out. -/
theorem crossValidation_default (hm : "model_ensemble_size" ∉ Dict.keys options) (N V i v : Nat) (hf : 4 ≤ foldOf draw 8 N V i v) :
    ∃ configs, readParamCsv T (header :: rows) options = .ok (header, configs) ∧ ∀ c ∈ configs, ¬ HoldsOut draw N V i v c := by
  obtain ⟨configs, e, h⟩ := readParamCsv_default header rows options hne hh ho hk hp hm
  refine ⟨configs, e, fun c hc => ?_⟩
  rintro ⟨parts, partid, h1, h2, h3⟩
  obtain ⟨g1, p, hlt, g2⟩ := h c hc
  rw [g1] at h1
  rw [g2] at h2
  injection h1 with h1
  injection h2 with h2
  subst h1
  subst h2
  have : foldOf draw (8 : Int).toNat N V i v = p := by exact_mod_cast h3
  change foldOf draw 8 N V i v = p at this
  omega

end

/-- Two folds over a table with two rows and a ternary and a binary feature: a trainer that returns its data, the directory with a
foreign file, and an evaluation that returns the model. -/
example :
    let draw : Nat → Nat → Nat → List (List Nat) := fun _ _ _ => [[0, 1], [1, 1]]
    let table : Table := ⟨[0, 1], [0, 3, 5], [[1, 0, 0, 2, 3], [0, 1, 0, 4, 1]]⟩
    let csv : List (List Str) := [["learning_full_epochs"], ["3"]].map fun l => l.map String.toList
    let run : TrainerKind → Table → List ℚ → Config → Py (List (List Int)) := fun _ t _ _ => .ok t.data
    (do
      let dir ← trainAll asciiText draw (fun _ => []) run table [] csv [("model_ensemble_size", 2)] [("x".toList, [])]
      let r ← evalAll asciiText (fun m _ => .ok m) csv [("model_ensemble_size", 2)] dir
      .ok (r.map Prod.snd) : Py (List (Option (List (List Int))))) =
    .ok [some [[0, 0, 0, 2, 3], [0, 1, 0, 4, 1]], some [[1, 0, 0, 0, 0], [0, 0, 0, 0, 0]]] := by decide +kernel

end TreeCat
