import Verif.Lemmas.Dict
import Verif.Lemmas.Lists
import Verif.Model.Validate
import Verif.Props.Config
import Verif.Spec.Format

/-! # C44: `read_param_csv` -/

namespace TreeCat

open Config (Str Config)

namespace Spec

/-- The row counts: it has as many cells as the header and is not a comment. -/
def usable (header row : List Str) : Bool := row.length == header.length && (row.headD []).head? != some '#'

/-- The number in the last column with the given name. -/
def lastCell (T : Text) (cells : List (Str × Str)) (key : String) : Option Int :=
  (cells.reverse.find? fun kv => String.ofList kv.1 == key).bind fun kv => T.parseInt kv.2

end Spec

open Spec

variable {T : Text}

theorem lookup_eq_get? (c : Config) (key : String) : Config.lookup c key = Dict.get? c key := by
  induction c with
  | nil => rfl
  | cons kv c ih => simp only [Config.lookup, Dict.get?, ih]

theorem lastCell_append (cells : List (Str × Str)) (kv : Str × Str) (key : String) :
    lastCell T (cells ++ [kv]) key = if String.ofList kv.1 = key then T.parseInt kv.2 else lastCell T cells key := by
  unfold lastCell
  rw [List.reverse_append, List.reverse_singleton, List.singleton_append, List.find?_cons]
  by_cases h : String.ofList kv.1 = key
  · simp [h]
  · rw [if_neg h, beq_eq_false_iff_ne.2 h]

/-- Assigning the cells of a row. -/
theorem paramCells_spec (options : Dict String Int) (cells : List (Str × Str)) :
    ((∀ kv ∈ cells, T.parseInt kv.2 ≠ none) → ∃ o, paramCells T options cells = .ok o ∧
      (∀ key, Dict.get? o key = (lastCell T cells key).or (Dict.get? options key)) ∧
      ((Dict.keys options).Nodup → (Dict.keys o).Nodup) ∧
      ∀ key, key ∈ Dict.keys o ↔ key ∈ Dict.keys options ∨ ∃ kv ∈ cells, String.ofList kv.1 = key) ∧
    ((∃ kv ∈ cells, T.parseInt kv.2 = none) → paramCells T options cells = .error .valueError) := by
  induction cells using List.reverseRecOn with
  | nil => exact ⟨fun _ => ⟨options, rfl, fun key => by simp [lastCell], fun h => h, fun key => by simp⟩, by simp⟩
  | append_singleton cells kv ih =>
    unfold paramCells at ih ⊢
    rw [List.foldlM_append]
    constructor
    · intro h
      obtain ⟨o, e, h1, h2, h3⟩ := ih.1 fun kv' hkv => h kv' (by simp [hkv])
      obtain ⟨i, hi⟩ := Option.ne_none_iff_exists'.1 (h kv (by simp))
      refine ⟨Dict.set o (String.ofList kv.1) i, ?_, ?_, fun hn => Dict.nodup_set (h2 hn) _ _, ?_⟩
      · simp only [e, bind, Except.bind, List.foldlM_cons, List.foldlM_nil, paramCell, hi]
        rfl
      · intro key
        rw [Dict.get?_set, lastCell_append, h1, hi]
        split <;> simp
      · intro key
        rw [Dict.mem_keys_set, h3]
        simp only [List.mem_append, List.mem_singleton, or_and_right, exists_or, exists_eq_left]
        rw [eq_comm (a := key)]
        exact or_comm.trans or_assoc
    · rintro ⟨kv', hkv, hn⟩
      by_cases hc : ∃ kv ∈ cells, T.parseInt kv.2 = none
      · rw [ih.2 hc]; rfl
      · obtain ⟨o, e, -⟩ := ih.1 fun kv'' h h' => hc ⟨kv'', h, h'⟩
        rcases List.mem_append.1 hkv with hkv | hkv
        · exact absurd ⟨kv', hkv, hn⟩ hc
        · rw [List.mem_singleton.1 hkv] at hn
          simp only [e, bind, Except.bind, List.foldlM_cons, paramCell, hn]

/-- What the configs of a row hold. -/
def RowConfig (T : Text) (header : List Str) (options : Dict String Int) (rp : List Str × Nat) (c : Config) : Prop :=
  Config.keys c = Config.keys Config.defaultConfig ∧ ∀ key, Config.lookup c key =
    if key = "seed" then some (rp.2 : Int)
    else ((lastCell T (header.zip rp.1) key).or (Dict.get? options key)).or (Config.lookup Config.defaultConfig key)

theorem usable_iff {header row : List Str} (hne : header ≠ []) :
    usable header row = true ↔ row.length = header.length ∧ ∃ first, row[0]? = some first ∧ first.head? ≠ some '#' := by
  unfold usable
  simp only [Bool.and_eq_true, beq_iff_eq, bne_iff_ne]
  constructor
  · rintro ⟨h1, h2⟩
    refine ⟨h1, ?_⟩
    cases row with
    | nil => exact absurd (List.length_eq_zero_iff.1 h1.symm) hne
    | cons r row => exact ⟨r, rfl, h2⟩
  · rintro ⟨h1, first, h2, h3⟩
    refine ⟨h1, ?_⟩
    cases row with
    | nil => simp at h2
    | cons r row =>
      simp only [List.getElem?_cons_zero, Option.some.injEq] at h2
      rw [List.headD_cons, h2]
      exact h3

/-- The options between rows: away from the columns they are those given. -/
structure RowOptions (header : List Str) (options o : Dict String Int) : Prop where
  nodup : (Dict.keys o).Nodup
  known : ∀ k ∈ Dict.keys o, k ∈ Config.keys Config.defaultConfig ∧ k ≠ "seed"
  same : ∀ key, (∀ n ∈ header, String.ofList n ≠ key) → Dict.get? o key = Dict.get? options key

theorem rowOptions_step {header : List Str} (hh : ∀ n ∈ header, String.ofList n ∈ Config.keys Config.defaultConfig ∧ n ≠ "seed".toList)
    {options o : Dict String Int} (ho : RowOptions header options o) (row : List Str) (hl : row.length = header.length) (hp : ∀ cell ∈ row, T.parseInt cell ≠ none) :
    ∃ o', paramCells T o (header.zip row) = .ok o' ∧ RowOptions header options o' ∧
      ∀ key, Dict.get? o' key = (lastCell T (header.zip row) key).or (Dict.get? options key) := by
  obtain ⟨o', e, h1, h2, h3⟩ := (paramCells_spec (T := T) o (header.zip row)).1 fun kv hkv => hp _ (List.of_mem_zip hkv).2
  have hnone : ∀ key, (∀ n ∈ header, String.ofList n ≠ key) → lastCell T (header.zip row) key = none := by
    intro key hk
    unfold lastCell
    rw [List.find?_eq_none.2]
    · rfl
    · intro kv hkv
      simpa using hk kv.1 (List.of_mem_zip (List.mem_reverse.1 hkv)).1
  have hsome : ∀ key, (∃ n ∈ header, String.ofList n = key) → (lastCell T (header.zip row) key).isSome := by
    rintro key ⟨n, hn, rfl⟩
    have : n ∈ (header.zip row).map Prod.fst := by rwa [List.map_fst_zip (by omega)]
    obtain ⟨kv, hkv, rfl⟩ := List.mem_map.1 this
    unfold lastCell
    cases hf : (header.zip row).reverse.find? fun kv' => String.ofList kv'.1 == String.ofList kv.1 with
    | none =>
      rw [List.find?_eq_none] at hf
      exact absurd (hf kv (List.mem_reverse.2 hkv)) (by simp)
    | some kv' =>
      have hm := List.mem_reverse.1 (List.mem_of_find?_eq_some hf)
      simpa [Option.isSome_iff_ne_none] using hp _ (List.of_mem_zip hm).2
  refine ⟨o', e, ⟨h2 ho.nodup, ?_, ?_⟩, ?_⟩
  · intro k hk
    rcases (h3 k).1 hk with hk | ⟨kv, hkv, rfl⟩
    · exact ho.known k hk
    · have := hh kv.1 (List.of_mem_zip hkv).1
      refine ⟨this.1, fun hs => this.2 ?_⟩
      rw [← String.toList_ofList (l := kv.1), hs]
  · intro key hk
    rw [h1, hnone key hk, ho.same key hk]
    rfl
  · intro key
    rw [h1]
    by_cases hk : ∃ n ∈ header, String.ofList n = key
    · obtain ⟨i, hi⟩ := Option.isSome_iff_exists.1 (hsome key hk)
      rw [hi]
      rfl
    · push Not at hk
      rw [ho.same key hk]

/-- The configs of one row. -/
theorem rowConfigs {header : List Str} {options o' : Dict String Int} (ho : RowOptions header options o') (row : List Str)
    (hget : ∀ key, Dict.get? o' key = (lastCell T (header.zip row) key).or (Dict.get? options key)) (n : Nat) :
    ∃ cs, ((List.range n).mapM fun (p : Nat) => Config.makeConfig (("seed", (p : Int)) :: o')) = .ok cs ∧
      List.Forall₂ (RowConfig T header options) ((List.range n).map fun p => (row, p)) cs := by
  obtain ⟨cs, e, h⟩ := mapM_forall₂ (fun (p : Nat) => Config.makeConfig (("seed", (p : Int)) :: o')) (fun p c => RowConfig T header options (row, p) c)
    (List.range n) fun p _ => by
      have hn : (Config.keys (("seed", (p : Int)) :: o')).Nodup := by
        refine List.nodup_cons.2 ⟨fun h => (ho.known _ h).2 rfl, ho.nodup⟩
      have hk : ∀ k ∈ Config.keys (("seed", (p : Int)) :: o'), k ∈ Config.keys Config.defaultConfig := by
        intro k hk
        rcases List.mem_cons.1 hk with rfl | hk
        · change "seed" ∈ _; decide
        · exact (ho.known k hk).1
      obtain ⟨c, e, h1, h2, h3⟩ := Config.makeConfig_ok _ hn hk
      refine ⟨c, e, h1, fun key => ?_⟩
      split
      · rename_i hs
        exact h2 key _ (by rw [hs]; simp)
      · rename_i hs
        rw [← hget key]
        cases hg : Dict.get? o' key with
        | some i => exact h2 key i (List.mem_cons_of_mem _ (Dict.mem_of_get? hg))
        | none =>
          rw [Option.none_or]
          refine h3 key fun hk => ?_
          rcases List.mem_cons.1 hk with rfl | hk
          · exact hs rfl
          · exact (Dict.get?_eq_none o' key).1 hg hk
  refine ⟨cs, e, ?_⟩
  rw [List.forall₂_map_left_iff]
  exact h

/-- The rows of the file. -/
theorem paramRows_spec {header : List Str} (hne : header ≠ []) (hh : ∀ n ∈ header, String.ofList n ∈ Config.keys Config.defaultConfig ∧ n ≠ "seed".toList)
    (parts : Int) {options : Dict String Int} (rows : List (List Str)) (o : Dict String Int) (ho : RowOptions header options o) (cs : List Config) :
    ((∀ row ∈ rows, usable header row = true → ∀ cell ∈ row, T.parseInt cell ≠ none) →
      ∃ o' new, rows.foldlM (paramRow T header parts) (o, cs) = .ok (o', cs ++ new) ∧
        List.Forall₂ (RowConfig T header options)
          ((rows.filter (usable header)).flatMap fun row => (List.range parts.toNat).map fun p => (row, p)) new) ∧
    ((∃ row ∈ rows, usable header row = true ∧ ∃ cell ∈ row, T.parseInt cell = none) →
      rows.foldlM (paramRow T header parts) (o, cs) = .error .valueError) := by
  induction rows generalizing o cs with
  | nil => exact ⟨fun _ => ⟨o, [], by rw [List.append_nil]; rfl, .nil⟩, by simp⟩
  | cons row rows ih =>
    rw [List.foldlM_cons]
    by_cases hu : usable header row = true
    · obtain ⟨hl, first, hf, hc⟩ := (usable_iff hne).1 hu
      have step : paramRow T header parts (o, cs) row = (do
          let options ← paramCells T o (header.zip row)
          let new ← (List.range parts.toNat).mapM fun (partid : Nat) => Config.makeConfig (("seed", (partid : Int)) :: options)
          .ok (options, cs ++ new)) := by
        unfold paramRow
        rw [if_neg (by simpa using hl)]
        simp only [pyGet, hf, bind, Except.bind, if_neg hc]
      by_cases hp : ∀ cell ∈ row, T.parseInt cell ≠ none
      · obtain ⟨o', e, ho', hget⟩ := rowOptions_step hh ho row hl hp
        obtain ⟨new, e2, hnew⟩ := rowConfigs ho' row hget parts.toNat
        have step' : paramRow T header parts (o, cs) row = .ok (o', cs ++ new) := by
          rw [step, e]
          simp only [bind, Except.bind]
          rw [e2]
        rw [step']
        obtain ⟨ih1, ih2⟩ := ih o' ho' (cs ++ new)
        constructor
        · intro h
          obtain ⟨o'', new', e3, h3⟩ := ih1 fun r hr => h r (by simp [hr])
          refine ⟨o'', new ++ new', ?_, ?_⟩
          · rw [← List.append_assoc]; exact e3
          · rw [List.filter_cons_of_pos hu, List.flatMap_cons]
            exact List.rel_append hnew h3
        · rintro ⟨r, hr, hur, hcell⟩
          rcases List.mem_cons.1 hr with rfl | hr
          · obtain ⟨cell, h1, h2⟩ := hcell
            exact absurd h2 (hp cell h1)
          · exact ih2 ⟨r, hr, hur, hcell⟩
      · push Not at hp
        obtain ⟨cell, h1, h2⟩ := hp
        refine ⟨fun h => absurd h2 (h row (by simp) hu cell h1), fun _ => ?_⟩
        have : cell ∈ (header.zip row).map Prod.snd := by rwa [List.map_snd_zip (by omega)]
        obtain ⟨kv, hkv, rfl⟩ := List.mem_map.1 this
        rw [step, (paramCells_spec (T := T) o (header.zip row)).2 ⟨kv, hkv, h2⟩]
        rfl
    · have step : paramRow T header parts (o, cs) row = .ok (o, cs) := by
        unfold paramRow
        split
        · rfl
        · rename_i hl
          simp only [ne_eq, not_not] at hl
          cases row with
          | nil => exact absurd (List.length_eq_zero_iff.1 hl.symm) hne
          | cons r row =>
            have : r.head? = some '#' := by
              by_contra hr
              exact hu ((usable_iff hne).2 ⟨hl, r, rfl, hr⟩)
            simp only [pyGet, List.getElem?_cons_zero, bind, Except.bind, this, if_true]
      rw [step]
      obtain ⟨ih1, ih2⟩ := ih o ho cs
      constructor
      · intro h
        rw [List.filter_cons_of_neg hu]
        exact ih1 fun r hr => h r (by simp [hr])
      · rintro ⟨r, hr, hur, hcell⟩
        rcases List.mem_cons.1 hr with rfl | hr
        · exact absurd hur hu
        · exact ih2 ⟨r, hr, hur, hcell⟩

/-- **C44**: with known options and columns, `read_param_csv` returns the header and, for each usable row in order, one config per
fold. The seed of the config is the fold, and the other entries come from the row, from the options, and from the defaults, in
this order. If a usable row has a cell that is not a number it raises. -/
theorem readParamCsv_spec (header : List Str) (rows : List (List Str)) (options : Dict String Int) (hne : header ≠ [])
    (hh : ∀ n ∈ header, String.ofList n ∈ Config.keys Config.defaultConfig ∧ n ≠ "seed".toList ∧ n ≠ "model_ensemble_size".toList)
    (ho : (Dict.keys options).Nodup) (hk : ∀ k ∈ Dict.keys options, k ∈ Config.keys Config.defaultConfig ∧ k ≠ "seed") :
    ((∀ row ∈ rows, usable header row = true → ∀ cell ∈ row, T.parseInt cell ≠ none) →
      ∃ configs, readParamCsv T (header :: rows) options = .ok (header, configs) ∧
        List.Forall₂ (RowConfig T header options) ((rows.filter (usable header)).flatMap fun row =>
          (List.range (Dict.getD options "model_ensemble_size" 4).toNat).map fun p => (row, p)) configs) ∧
    ((∃ row ∈ rows, usable header row = true ∧ ∃ cell ∈ row, T.parseInt cell = none) →
      readParamCsv T (header :: rows) options = .error .valueError) := by
  have h1 : ¬ "seed" ∈ Dict.keys options := fun h => (hk _ h).2 rfl
  have h2 : ¬ "seed".toList ∈ header := fun h => (hh _ h).2.1 rfl
  have h3 : ¬ "model_ensemble_size".toList ∈ header := fun h => (hh _ h).2.2 rfl
  obtain ⟨g1, g2⟩ := paramRows_spec (T := T) hne (fun n hn => ⟨(hh n hn).1, (hh n hn).2.1⟩) (Dict.getD options "model_ensemble_size" 4) rows options
    ⟨ho, hk, fun _ _ => rfl⟩ []
  unfold readParamCsv
  simp only [h1, h2, h3, decide_false, Bool.not_false, pyAssert, if_true, bind, Except.bind]
  constructor
  · intro h
    obtain ⟨o', new, e, hnew⟩ := g1 h
    rw [e]
    exact ⟨_, rfl, hnew⟩
  · intro h
    rw [g2 h]

/-- **C44**: an empty file, and a `seed` among the options or the columns, raise. -/
theorem readParamCsv_raises (csv : List (List Str)) (options : Dict String Int) :
    ("seed" ∈ Dict.keys options → readParamCsv T csv options = .error .assertion) ∧
    ("seed" ∉ Dict.keys options → readParamCsv T [] options = .error .stopIteration) ∧
    (∀ header rows, csv = header :: rows → "seed".toList ∈ header ∨ "model_ensemble_size".toList ∈ header →
      readParamCsv T csv options = .error .assertion) := by
  unfold readParamCsv
  refine ⟨fun h => ?_, fun h => ?_, ?_⟩
  · simp only [h, decide_true, Bool.not_true, pyAssert, bind, Except.bind]
    rfl
  · simp only [h, decide_false, Bool.not_false, pyAssert, bind, Except.bind]
    rfl
  · rintro header rows rfl h
    by_cases h0 : "seed" ∈ Dict.keys options
    · simp only [h0, decide_true, Bool.not_true, pyAssert, bind, Except.bind]
      rfl
    · by_cases h1 : "seed".toList ∈ header
      · simp only [h0, h1, decide_true, decide_false, Bool.not_true, Bool.not_false, pyAssert, bind, Except.bind]
        rfl
      · simp only [h0, h1, h.resolve_left h1, decide_true, decide_false, Bool.not_true, Bool.not_false, pyAssert, bind, Except.bind]
        rfl

/-- Without the option `model_ensemble_size` the configs name the folds 0 to 3, but each of them says that there are 8 folds. -/
theorem readParamCsv_default (header : List Str) (rows : List (List Str)) (options : Dict String Int) (hne : header ≠ [])
    (hh : ∀ n ∈ header, String.ofList n ∈ Config.keys Config.defaultConfig ∧ n ≠ "seed".toList ∧ n ≠ "model_ensemble_size".toList)
    (ho : (Dict.keys options).Nodup) (hk : ∀ k ∈ Dict.keys options, k ∈ Config.keys Config.defaultConfig ∧ k ≠ "seed")
    (hp : ∀ row ∈ rows, usable header row = true → ∀ cell ∈ row, T.parseInt cell ≠ none) (hm : "model_ensemble_size" ∉ Dict.keys options) :
    ∃ configs, readParamCsv T (header :: rows) options = .ok (header, configs) ∧ ∀ c ∈ configs,
      Config.lookup c "model_ensemble_size" = some 8 ∧ ∃ p : Nat, p < 4 ∧ Config.lookup c "seed" = some (p : Int) := by
  obtain ⟨configs, e, h⟩ := (readParamCsv_spec header rows options hne hh ho hk).1 hp
  refine ⟨configs, e, fun c hc => ?_⟩
  have hget := (Dict.get?_eq_none options "model_ensemble_size").2 hm
  obtain ⟨rp, hrp, h1, h2⟩ := forall₂_mem_right h hc
  constructor
  · rw [h2, if_neg (by decide), hget]
    have : lastCell T (header.zip rp.1) "model_ensemble_size" = none := by
      unfold lastCell
      rw [List.find?_eq_none.2]
      · rfl
      · intro kv hkv hcon
        refine (hh kv.1 (List.of_mem_zip (List.mem_reverse.1 hkv)).1).2.2 ?_
        rw [← String.toList_ofList (l := kv.1), eq_of_beq hcon]
    rw [this]
    rfl
  · obtain ⟨row, -, hrow⟩ := List.mem_flatMap.1 hrp
    obtain ⟨p, hp, rfl⟩ := List.mem_map.1 hrow
    refine ⟨p, ?_, by rw [h2]; rfl⟩
    have := List.mem_range.1 hp
    unfold Dict.getD at this
    rw [hget] at this
    exact this

/-- Two usable rows, a comment and a short row, with two folds. -/
example : ((readParamCsv asciiText ([["learning_init_epochs", "model_num_clusters"], ["3", "8"], ["#4", "8"], ["5"], ["6", "9"]].map fun l => l.map String.toList)
    [("model_ensemble_size", 2), ("model_num_clusters", 7)]).map fun r => r.2.map fun c =>
      ["seed", "model_ensemble_size", "learning_init_epochs", "model_num_clusters", "learning_full_epochs"].map (Config.lookup c)) =
    .ok [[some 0, some 2, some 3, some 8, some 1], [some 1, some 2, some 3, some 8, some 1],
      [some 0, some 2, some 6, some 9, some 1], [some 1, some 2, some 6, some 9, some 1]] := by decide +kernel

end TreeCat
