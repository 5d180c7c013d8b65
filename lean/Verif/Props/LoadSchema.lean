import Verif.Lemmas.Schema
import Verif.Props.Complete

/-! # C38: `load_schema` builds consistent indices -/

namespace TreeCat

open Spec
open Config (Str)

variable {T : Text}

/-! ### The three files -/

theorem typesHeader_iff (x y : Str) (rows : List (List Str)) :
    (∃ rest, checkHeader T [x, y] rows = .ok rest) ↔ ∃ a b r, rows.head? = some (a :: b :: r) ∧ T.lower a = x ∧ T.lower b = y := by
  constructor
  · rintro ⟨rest, h⟩
    obtain ⟨a, b, r, rfl, ha, hb⟩ := (checkHeader_two x y rows rest).1 h
    exact ⟨a, b, r, rfl, ha, hb⟩
  · rintro ⟨a, b, r, h, ha, hb⟩
    obtain ⟨rest, rfl⟩ := List.head?_eq_some_iff.1 h
    exact ⟨rest, (checkHeader_two x y _ rest).2 ⟨a, b, r, rfl, ha, hb⟩⟩

theorem checkHeader_tail {x y : Str} {rows rest : List (List Str)} (h : checkHeader T [x, y] rows = .ok rest) : rest = rows.tail := by
  obtain ⟨a, b, r, rfl, -, -⟩ := (checkHeader_two x y rows rest).1 h
  rfl

theorem loadTypes_ok (rows : List (List Str)) (s : List Str × Dict Str FType) : loadTypes T rows = .ok s ↔
    (∃ a b r, rows.head? = some (a :: b :: r) ∧ T.lower a = "name".toList ∧ T.lower b = "type".toList) ∧
    (∀ row ∈ rows.tail, KnownRow row) ∧ s = ((typedRows rows).map Prod.fst, Dict.ofList (typedRows rows)) := by
  unfold loadTypes
  rw [← typesHeader_iff]
  cases hc : checkHeader T ["name".toList, "type".toList] rows with
  | error e => simp [bind, Except.bind]
  | ok rest =>
    have := checkHeader_tail hc
    subst this
    simp only [bind, Except.bind]
    obtain ⟨h1, h2⟩ := typesRows_fold rows.tail ([], [])
    by_cases hk : ∀ row ∈ rows.tail, KnownRow row
    · rw [h1 hk, typedRows_eq]
      simp only [List.nil_append, Except.ok.injEq]
      exact ⟨fun h => ⟨⟨_, rfl⟩, hk, h.symm⟩, fun h => h.2.2.symm⟩
    · rw [h2 hk]
      exact ⟨fun h => by simp at h, fun h => absurd h.2.1 hk⟩

theorem loadValues_ok (types : Dict Str FType) (rows : List (List Str)) :
    ((∃ a b r, rows.head? = some (a :: b :: r) ∧ T.lower a = "name".toList ∧ T.lower b = "value".toList) →
      (∀ row ∈ rows.tail, IntRow T types row) →
        ∃ s, loadValues T types rows = .ok s ∧ Collected T types rows.tail ([], []) s) ∧
    ∀ s, loadValues T types rows = .ok s →
      (∃ a b r, rows.head? = some (a :: b :: r) ∧ T.lower a = "name".toList ∧ T.lower b = "value".toList) ∧
      (∀ row ∈ rows.tail, IntRow T types row) ∧ Collected T types rows.tail ([], []) s := by
  unfold loadValues
  rw [← typesHeader_iff]
  cases hc : checkHeader T ["name".toList, "value".toList] rows with
  | error e => simp [bind, Except.bind]
  | ok rest =>
    have := checkHeader_tail hc
    subst this
    simp only [bind, Except.bind]
    obtain ⟨h1, h2⟩ := valuesRows_fold (T := T) types rows.tail ([], [])
    by_cases hk : ∀ row ∈ rows.tail, IntRow T types row
    · obtain ⟨s, e, c⟩ := h1 hk
      rw [e]
      refine ⟨fun _ _ => ⟨s, rfl, c⟩, fun s' h => ?_⟩
      injection h with h; subst h
      exact ⟨⟨_, rfl⟩, hk, c⟩
    · rw [h2 hk]
      exact ⟨fun _ h => absurd h hk, fun s' h => by simp at h⟩

/-- groups.csv is absent or has no row of four or more fields below its header. -/
def NoGroups (T : Text) (groups : Option (List (List Str))) : Prop := ∀ rows, groups = some rows →
  (∃ a b c d r, rows.head? = some (a :: b :: c :: d :: r) ∧ T.lower a = "group".toList ∧ T.lower b = "logit".toList ∧
    T.lower c = "source".toList ∧ T.lower d = "target".toList) ∧ ∀ row ∈ rows.tail, row.length < 4

theorem checkHeader_four {w x y z : Str} {rows rest : List (List Str)} (h : checkHeader T [w, x, y, z] rows = .ok rest) :
    ∃ a b c d r, rows = (a :: b :: c :: d :: r) :: rest ∧ T.lower a = w ∧ T.lower b = x ∧ T.lower c = y ∧ T.lower d = z := by
  unfold checkHeader at h
  cases rows with
  | nil => simp at h
  | cons header rest' =>
    simp only [List.length_cons, List.length_nil, Nat.zero_add, Nat.reduceAdd, List.range_succ, List.range_zero, List.nil_append,
      List.cons_append, List.mapM_cons, List.mapM_nil, pyGet, pyAssert, bind, Except.bind] at h
    rcases header with _ | ⟨a, header⟩
    · simp at h
    by_cases ha : T.lower a = w
    swap
    · simp [ha] at h
    rcases header with _ | ⟨b, header⟩
    · simp [ha] at h
    by_cases hb : T.lower b = x
    swap
    · simp [ha, hb] at h
    rcases header with _ | ⟨c, header⟩
    · simp [ha, hb] at h
    by_cases hc : T.lower c = y
    swap
    · simp [ha, hb, hc] at h
    rcases header with _ | ⟨d, header⟩
    · simp [ha, hb, hc] at h
    by_cases hd : T.lower d = z
    swap
    · simp [ha, hb, hc, hd] at h
    simp [ha, hb, hc, hd, pure, Except.pure] at h
    exact ⟨a, b, c, d, header, by rw [h], ha, hb, hc, hd⟩

theorem groupsRow_long (g : Groups) (row : List Str) (h : 4 ≤ row.length) : groupsRow T g row = .error .valueError := by
  unfold groupsRow
  rw [if_neg (by omega)]
  rcases row with _ | ⟨a, _ | ⟨b, _ | ⟨c, row⟩⟩⟩
  · simp at h
  · simp at h
  · simp at h
  · rfl

theorem loadGroups_ok (groups : Option (List (List Str))) :
    (NoGroups T groups → loadGroups T groups = .ok ⟨[], [], []⟩) ∧ ∀ g, loadGroups T groups = .ok g → NoGroups T groups := by
  cases groups with
  | none => exact ⟨fun _ => rfl, fun g _ rows h => by simp at h⟩
  | some rows =>
    have key : ∀ (l : List (List Str)) (g : Groups), ((∀ row ∈ l, row.length < 4) → l.foldlM (groupsRow T) g = .ok g) ∧
        ((∃ row ∈ l, 4 ≤ row.length) → l.foldlM (groupsRow T) g = .error .valueError) := by
      intro l
      induction l with
      | nil => intro g; exact ⟨fun _ => rfl, fun ⟨r, h, _⟩ => by simp at h⟩
      | cons row l ih =>
        intro g
        constructor
        · intro h
          have e : groupsRow T g row = .ok g := by unfold groupsRow; rw [if_pos (h row (by simp))]
          rw [List.foldlM_cons, e]
          exact (ih g).1 fun r hr => h r (by simp [hr])
        · rintro ⟨r, hr, h4⟩
          by_cases h0 : row.length < 4
          · have e : groupsRow T g row = .ok g := by unfold groupsRow; rw [if_pos h0]
            rw [List.foldlM_cons, e]
            refine (ih g).2 ⟨r, ?_, h4⟩
            rcases List.mem_cons.1 hr with rfl | hr
            · omega
            · exact hr
          · rw [List.foldlM_cons, groupsRow_long g row (by omega)]
            rfl
    constructor
    · intro h
      obtain ⟨⟨a, b, c, d, r, h0, ha, hb, hc, hd⟩, h1⟩ := h rows rfl
      obtain ⟨rest, rfl⟩ := List.head?_eq_some_iff.1 h0
      have e : checkHeader T ["group".toList, "logit".toList, "source".toList, "target".toList] ((a :: b :: c :: d :: r) :: rest) = .ok rest := by
        refine checkHeader_ok _ _ _ (by simp) ?_
        intro i hi
        match i, hi with
        | 0, _ => exact ha
        | 1, _ => exact hb
        | 2, _ => exact hc
        | 3, _ => exact hd
      simp only [loadGroups, e, bind, Except.bind]
      exact (key rest _).1 h1
    · intro g h rows' hr
      injection hr with hr; subst hr
      simp only [loadGroups, bind, Except.bind] at h
      cases hc : checkHeader T ["group".toList, "logit".toList, "source".toList, "target".toList] rows with
      | error e => rw [hc] at h; simp at h
      | ok rest =>
        obtain ⟨a, b, c, d, r, rfl, h1, h2, h3, h4⟩ := checkHeader_four hc
        refine ⟨⟨a, b, c, d, r, rfl, h1, h2, h3, h4⟩, fun row hrow => ?_⟩
        by_contra hlt
        rw [hc] at h
        simp only at h
        rw [(key rest _).2 ⟨row, hrow, by omega⟩] at h
        simp at h

/-! ### The schema -/

/-- The dict of types holds the last type given to each name. -/
theorem typesDict_keys (l : List (Str × FType)) : (Dict.keys (Dict.ofList l)).Nodup ∧ ∀ n, n ∈ Dict.keys (Dict.ofList l) ↔ n ∈ l.map Prod.fst := by
  have key : ∀ (l : List (Str × FType)) (d : Dict Str FType), (Dict.keys d).Nodup →
      (Dict.keys (l.foldl (fun d kv => Dict.set d kv.1 kv.2) d)).Nodup ∧
      ∀ n, n ∈ Dict.keys (l.foldl (fun d kv => Dict.set d kv.1 kv.2) d) ↔ n ∈ Dict.keys d ∨ n ∈ l.map Prod.fst := by
    intro l
    induction l with
    | nil => intro d hd; exact ⟨hd, fun n => by simp⟩
    | cons kv l ih =>
      intro d hd
      obtain ⟨h1, h2⟩ := ih (Dict.set d kv.1 kv.2) (Dict.nodup_set hd _ _)
      refine ⟨h1, fun n => ?_⟩
      rw [List.foldl_cons, h2, Dict.mem_keys_set, List.map_cons, List.mem_cons]
      tauto
  obtain ⟨h1, h2⟩ := key l [] (by simp [Dict.keys])
  exact ⟨h1, fun n => by rw [Dict.ofList, h2]; simp [Dict.keys]⟩

/-- What `load_schema` has computed when it returns, without any assumption about names. -/
theorem loadSchema_parts (types values : List (List Str)) (groups : Option (List (List Str))) (S : Schema)
    (h : loadSchema T types values groups = .ok S) :
    ∃ cats ords, loadTypes T types = .ok ((typedRows types).map Prod.fst, Dict.ofList (typedRows types)) ∧
      loadValues T (Dict.ofList (typedRows types)) values = .ok (cats, ords) ∧ typedRows types ≠ [] ∧ NoGroups T groups ∧
      Indexed cats ords (Dict.ofList (typedRows types)) (cats, [], []) (S.categoricalValues, S.categoricalIndex, S.ordinalRanges) ∧
      S.featureNames = (typedRows types).map Prod.fst ∧ S.featureTypes = Dict.ofList (typedRows types) ∧
      S.featureIndex = Dict.ofList S.featureNames.zipIdx ∧
      S.raggedIndex = Util.makeRaggedIndex (S.featureNames.map (featureDim S.featureTypes S.categoricalValues)) ∧
      S.treePrior = List.replicate (S.featureNames.length * (S.featureNames.length - 1) / 2) 0 := by
  unfold loadSchema at h
  simp only [bind, Except.bind] at h
  split at h
  · simp at h
  rename_i s hs
  obtain ⟨names, ft⟩ := s
  obtain ⟨-, -, he⟩ := (loadTypes_ok types _).1 hs
  injection he with he1 he2
  subst he1 he2
  split at h
  · simp at h
  rename_i s hv
  obtain ⟨cats, ords⟩ := s
  simp only at h
  split at h
  · simp at h
  rename_i hne
  split at h
  · simp at h
  rename_i g hg
  have hng := (loadGroups_ok groups).2 g hg
  rw [(loadGroups_ok groups).1 hng] at hg
  injection hg with hg
  subst hg
  obtain ⟨i1, i2⟩ := valueIndex_fold cats ords _ (typesDict_keys (typedRows types)).1 (cats, [], [])
  by_cases hord : ∀ n, (n, FType.ordinal) ∈ Dict.ofList (typedRows types) → Dict.getD ords n [] ≠ []
  swap
  · rw [i2 hord] at h; simp at h
  obtain ⟨s', e, hi⟩ := i1 hord
  rw [e] at h
  obtain ⟨c, ci, rg⟩ := s'
  simp only [treePriorOf, List.foldlM_nil, pure, Except.pure] at h
  injection h with h
  subst h
  exact ⟨cats, ords, hs, hv, fun h0 => hne (by rw [h0]; rfl), hng, hi, rfl, rfl, rfl, raggedOf_eq _, rfl⟩

/-- **C38**, for all files: whenever `load_schema` returns, the names are those with a type in order, `feature_index`
gives the last position of each name, and the ragged index starts at 0 and grows by the number of categories of
each categorical feature and by 2 for each ordinal one. -/
theorem loadSchema_indices (types values : List (List Str)) (groups : Option (List (List Str))) (S : Schema)
    (h : loadSchema T types values groups = .ok S) :
    S.featureNames = (typedRows types).map Prod.fst ∧
    (∀ n i, Dict.get? S.featureIndex n = some i ↔ S.featureNames[i]? = some n ∧ ∀ j, i < j → S.featureNames[j]? ≠ some n) ∧
    S.raggedIndex.length = S.featureNames.length + 1 ∧ S.raggedIndex[0]? = some 0 ∧
    ∀ i n, S.featureNames[i]? = some n → ∃ p w, S.raggedIndex[i]? = some p ∧ S.raggedIndex[i + 1]? = some (p + w) ∧
      ((Dict.get? S.featureTypes n = some .categorical ∧ ∃ vs, Dict.get? S.categoricalValues n = some vs ∧ vs = valuesOf values n ∧ w = vs.length) ∨
       (Dict.get? S.featureTypes n = some .ordinal ∧ w = 2)) := by
  obtain ⟨cats, ords, ht, hv, hne, -, hi, h1, h2, h3, h4, -⟩ := loadSchema_parts types values groups S h
  have hlen : S.raggedIndex.length = S.featureNames.length + 1 := by
    rw [h4, (Util.makeRaggedIndex_spec _).1, List.length_map]
  refine ⟨h1, fun n i => by rw [h3]; exact get?_indexOf_last _ n i, hlen, ?_, fun i n hn => ?_⟩
  · rw [h4, (Util.makeRaggedIndex_spec _).2.1 0 (by omega)]; rfl
  · have hlt : i < S.featureNames.length := by
      by_contra hge
      rw [List.getElem?_eq_none (by omega)] at hn; simp at hn
    have hd := hn
    rw [List.getElem?_eq_getElem hlt] at hd
    injection hd with hd
    refine ⟨Util.blockStart (S.featureNames.map (featureDim S.featureTypes S.categoricalValues)) i, featureDim S.featureTypes S.categoricalValues n,
      by rw [h4]; exact (Util.makeRaggedIndex_spec _).2.1 i (by rw [List.length_map]; omega), ?_, ?_⟩
    · rw [h4, (Util.makeRaggedIndex_spec _).2.1 (i + 1) (by rw [List.length_map]; omega), Util.blockStart_succ _ i (by rw [List.length_map]; omega)]
      rw [List.getElem_map, hd]
    · have hmem : n ∈ Dict.keys S.featureTypes := by
        rw [h2, (typesDict_keys _).2, ← h1]
        exact List.mem_of_getElem? hn
      obtain ⟨ty, hty⟩ := (Dict.mem_keys _ _).1 hmem
      have hin := Dict.mem_of_get? hty
      rw [hty]
      cases ty with
      | categorical =>
        left
        rw [h2] at hin hty
        have hc := (hi.cats n hin).1
        have hcol := ((loadValues_ok (T := T) _ values).2 _ hv).2.2.cats n hty
        refine ⟨rfl, _, hc, ?_, ?_⟩
        · rw [hcol, valuesOf_eq]; rfl
        · unfold featureDim
          rw [h2, hty, Dict.getD]
          dsimp only at hc
          rw [hc]
          rfl
      | ordinal =>
        right
        refine ⟨rfl, ?_⟩
        unfold featureDim
        rw [hty]

/-- The rows of values.csv are acceptable exactly when the values of ordinals are integers. -/
theorem intRow_iff (types values : List (List Str)) (hn : ((typedRows types).map Prod.fst).Nodup) :
    (∀ row ∈ values.tail, IntRow T (Dict.ofList (typedRows types)) row) ↔
      ∀ n, (n, FType.ordinal) ∈ typedRows types → ∀ v ∈ valuesOf values n, T.parseInt v ≠ none := by
  constructor
  · intro h n hmem v hv
    rw [valuesOf_eq, List.mem_filterMap] at hv
    obtain ⟨row, hrow, hval⟩ := hv
    match row, hval with
    | m :: w :: r, hval =>
      simp only [valueRow] at hval
      by_cases hm : m = n
      · rw [if_pos hm] at hval
        injection hval with hw
        subst hm hw
        exact h _ hrow m w r rfl (by rw [Dict.get?_ofList hn]; exact Dict.get?_of_mem hn hmem)
      · rw [if_neg hm] at hval; simp at hval
  · intro h row hrow n v r e ht
    rw [Dict.get?_ofList hn] at ht
    refine h n (Dict.mem_of_get? ht) v ?_
    rw [valuesOf_eq, List.mem_filterMap]
    exact ⟨row, hrow, by rw [e, valueRow, if_pos rfl]⟩

theorem filterMap_ne_nil (l : List Str) (h : l ≠ []) (hi : ∀ v ∈ l, T.parseInt v ≠ none) : l.filterMap T.parseInt ≠ [] := by
  cases l with
  | nil => exact absurd rfl h
  | cons v l =>
    rw [List.filterMap_cons]
    cases hv : T.parseInt v with
    | none => exact absurd hv (hi v (by simp))
    | some i => simp

/-- **C38**: for files with distinct feature names, `load_schema` succeeds exactly when the files are acceptable and
groups.csv, if any, has no usable row. -/
theorem loadSchema_iff (types values : List (List Str)) (groups : Option (List (List Str)))
    (hn : ((typedRows types).map Prod.fst).Nodup) :
    (∃ S, loadSchema T types values groups = .ok S) ↔ GoodCsv T types values ∧ NoGroups T groups := by
  constructor
  · rintro ⟨S, h⟩
    obtain ⟨cats, ords, ht, hv, hne, hng, hi, -⟩ := loadSchema_parts types values groups S h
    obtain ⟨t1, t2, -⟩ := (loadTypes_ok types _).1 ht
    obtain ⟨v1, v2, v3⟩ := (loadValues_ok _ values).2 _ hv
    have hints := (intRow_iff types values hn).1 v2
    refine ⟨⟨t1, v1, t2, fun n hmem => ⟨fun h0 => ?_, hints n hmem⟩, hne⟩, hng⟩
    have hty : Dict.get? (Dict.ofList (typedRows types)) n = some .ordinal := by rw [Dict.get?_ofList hn]; exact Dict.get?_of_mem hn hmem
    refine (hi.ords n (Dict.mem_of_get? hty)).1 ?_
    rw [v3.ords n hty, ← valuesOf_eq, h0]
    rfl
  · rintro ⟨hg, hng⟩
    have ht := (loadTypes_ok types _).2 ⟨hg.typesHeader, hg.known, rfl⟩
    obtain ⟨⟨cats, ords⟩, hv, hc⟩ := (loadValues_ok (T := T) (Dict.ofList (typedRows types)) values).1 hg.valuesHeader
      ((intRow_iff types values hn).2 fun n h => (hg.ints n h).2)
    have hord : ∀ n, (n, FType.ordinal) ∈ Dict.ofList (typedRows types) → Dict.getD ords n [] ≠ [] := by
      intro n hmem
      have hty : Dict.get? (Dict.ofList (typedRows types)) n = some .ordinal := Dict.get?_of_mem (typesDict_keys _).1 hmem
      have := hc.ords n hty
      dsimp only at this
      rw [this, ← valuesOf_eq]
      rw [Dict.get?_ofList hn] at hty
      have hi := hg.ints n (Dict.mem_of_get? hty)
      exact filterMap_ne_nil _ hi.1 hi.2
    obtain ⟨⟨c, ci, rg⟩, e, -⟩ := (valueIndex_fold cats ords _ (typesDict_keys (typedRows types)).1 (cats, [], [])).1 hord
    have hne : (typedRows types).map Prod.fst ≠ [] := fun h0 => hg.typed (List.map_eq_nil_iff.1 h0)
    unfold loadSchema
    simp only [ht, hv, if_neg hne, (loadGroups_ok groups).1 hng, e, treePriorOf, List.foldlM_nil, pure, Except.pure, bind, Except.bind]
    exact ⟨_, rfl⟩

theorem startOf_eq (fs : List (Str × Feature)) (v : Nat) : startOf fs v = Util.blockStart (fs.map fun f => f.2.width) v := by
  unfold startOf Util.blockStart
  rw [List.map_take]

theorem featuresOf_names (types values : List (List Str)) : (featuresOf T types values).map Prod.fst = (typedRows types).map Prod.fst := by
  unfold featuresOf
  rw [List.map_map]
  refine List.map_congr_left fun nt _ => ?_
  simp only [Function.comp, featureOf]
  split <;> rfl

/-- **C38**: the schema that is loaded describes exactly the features of the two files. -/
theorem loadSchema_describes (types values : List (List Str)) (groups : Option (List (List Str))) (S : Schema)
    (hn : ((typedRows types).map Prod.fst).Nodup)
    (hd : ∀ n, (n, FType.categorical) ∈ typedRows types → (valuesOf values n).Nodup)
    (h : loadSchema T types values groups = .ok S) :
    Describes S (featuresOf T types values) ∧
    S.treePrior = List.replicate ((featuresOf T types values).length * ((featuresOf T types values).length - 1) / 2) 0 := by
  have hgood := ((loadSchema_iff types values groups hn).1 ⟨S, h⟩).1
  obtain ⟨cats, ords, ht, hv, hne, hng, hi, h1, h2, h3, h4, h5⟩ := loadSchema_parts types values groups S h
  obtain ⟨-, -, v3⟩ := (loadValues_ok _ values).2 _ hv
  have hnames := featuresOf_names (T := T) types values
  have hlen : (featuresOf T types values).length = S.featureNames.length := by rw [h1, ← hnames, List.length_map]
  have hget : ∀ nt ∈ typedRows types, Dict.get? (Dict.ofList (typedRows types)) nt.1 = some nt.2 := by
    intro nt hnt; rw [Dict.get?_ofList hn]; exact Dict.get?_of_mem hn hnt
  have hcat : ∀ n vs, (n, Feature.cat vs) ∈ featuresOf T types values → (n, FType.categorical) ∈ typedRows types ∧ vs = valuesOf values n := by
    intro n vs hm
    obtain ⟨⟨m, ty⟩, hnt, he⟩ := List.mem_map.1 hm
    cases ty with
    | categorical =>
      simp only [featureOf, Prod.mk.injEq, Feature.cat.injEq] at he
      obtain ⟨rfl, rfl⟩ := he
      exact ⟨hnt, rfl⟩
    | ordinal => simp [featureOf] at he
  have hord : ∀ n lo hi, (n, Feature.ord lo hi) ∈ featuresOf T types values → (n, FType.ordinal) ∈ typedRows types ∧
      lo = ((valuesOf values n).filterMap T.parseInt).min?.getD 0 ∧ hi = ((valuesOf values n).filterMap T.parseInt).max?.getD 0 := by
    intro n lo hi hm
    obtain ⟨⟨m, ty⟩, hnt, he⟩ := List.mem_map.1 hm
    cases ty with
    | categorical => simp [featureOf] at he
    | ordinal =>
      simp only [featureOf, Prod.mk.injEq, Feature.ord.injEq] at he
      obtain ⟨rfl, rfl, rfl⟩ := he
      exact ⟨hnt, rfl, rfl⟩
  have hwidth : (featuresOf T types values).map (fun f => f.2.width) = S.featureNames.map (featureDim S.featureTypes S.categoricalValues) := by
    rw [h1]
    unfold featuresOf
    rw [List.map_map, List.map_map]
    refine List.map_congr_left fun nt hnt => ?_
    have hg := hget nt hnt
    simp only [Function.comp, featureDim, h2, hg]
    obtain ⟨n, ty⟩ := nt
    cases ty with
    | categorical =>
      simp only [featureOf, Feature.width]
      have := (hi.cats n (Dict.mem_of_get? hg)).1
      dsimp only at this
      rw [Dict.getD, this, Option.getD_some, v3.cats n hg, valuesOf_eq]
      rfl
    | ordinal => simp only [featureOf, Feature.width]
  refine ⟨⟨by rw [h1, hnames], by rw [hnames]; exact hn, ?_, ?_, ?_, ?_, ?_, ?_, ?_, ?_⟩, by rw [h5, hlen]⟩
  · intro n v
    rw [h3, hnames, ← h1]
    exact get?_indexOf _ (by rw [h1]; exact hn) n v
  · intro f hf
    obtain ⟨⟨n, ty⟩, hnt, rfl⟩ := List.mem_map.1 hf
    rw [h2]
    have := hget _ hnt
    cases ty <;> exact this
  · intro n hm
    rw [h2, Dict.get?_eq_none, (typesDict_keys _).2, ← hnames]
    exact hm
  · have : (Dict.keys S.featureTypes).Perm ((featuresOf T types values).map Prod.fst) := by
      rw [h2, hnames]
      exact (List.perm_ext_iff_of_nodup (typesDict_keys _).1 hn).2 (typesDict_keys _).2
    have := this.length_eq
    rwa [Dict.keys, List.length_map, List.length_map] at this
  · intro n vs hm
    obtain ⟨hnt, rfl⟩ := hcat n vs hm
    have hg := hget _ hnt
    obtain ⟨c1, c2⟩ := hi.cats n (Dict.mem_of_get? hg)
    have e : Dict.getD cats n [] = valuesOf values n := v3.cats n hg
    rw [e] at c1 c2
    exact ⟨hd n hnt, c1, _, c2, get?_indexOf _ (hd n hnt)⟩
  · intro n lo hi' hm
    obtain ⟨hnt, rfl, rfl⟩ := hord n lo hi' hm
    have hg := hget _ hnt
    obtain ⟨c1, c2⟩ := hi.ords n (Dict.mem_of_get? hg)
    have e : Dict.getD ords n [] = (valuesOf values n).filterMap T.parseInt := v3.ords n hg
    rw [e] at c1 c2
    refine ⟨?_, c2⟩
    obtain ⟨a, -, ha, hb⟩ := sorted_ends _ c1
    rw [hb]
    have hmax := (List.max?_eq_some_iff.1 hb).2 a (List.min?_eq_some_iff.1 ha).1
    rw [ha]
    exact hmax
  · rw [h4, (Util.makeRaggedIndex_spec _).1, List.length_map, hlen]
  · intro v hv'
    rw [h4, (Util.makeRaggedIndex_spec _).2.1 v (by rw [List.length_map]; omega), startOf_eq, hwidth]

/-- **C38** is false for the groups: any groups.csv that has a row with all four fields makes `load_schema` fail, so
no prior can be specified. -/
theorem loadSchema_groups_raise (types values rows : List (List Str)) (row : List Str) (hr : row ∈ rows.tail) (h4 : 4 ≤ row.length)
    (S : Schema) : loadSchema T types values (some rows) ≠ .ok S := by
  intro h
  obtain ⟨-, -, -, -, -, hng, -⟩ := loadSchema_parts types values _ S h
  have := (hng rows rfl).2 row hr
  omega

/-! ### The prior of given groups -/

/-- The group joins the features at positions `a` and `b`. -/
def Joins (index : Dict Str Nat) (g : Groups) (group : Str) (a b : Nat) : Prop :=
  ∃ s ∈ Dict.getD g.sources group [], ∃ t ∈ Dict.getD g.targets group [],
    (Dict.get? index s = some a ∧ Dict.get? index t = some b) ∨ (Dict.get? index s = some b ∧ Dict.get? index t = some a)

/-- `l'` is `l` with `x` written exactly at the positions `P`. -/
structure Wrote (P : Nat → Prop) (x : ℚ) (l l' : List ℚ) : Prop where
  len : l'.length = l.length
  yes : ∀ k, P k → l'[k]? = some x
  no : ∀ k, ¬ P k → l'[k]? = l[k]?

theorem Wrote.congr {P Q : Nat → Prop} {x : ℚ} {l l' : List ℚ} (h : Wrote P x l l') (e : ∀ k, P k ↔ Q k) : Wrote Q x l l' :=
  ⟨h.len, fun k hk => h.yes k ((e k).2 hk), fun k hk => h.no k fun hp => hk ((e k).1 hp)⟩

theorem Wrote.trans {P Q : Nat → Prop} {x : ℚ} {l l' l'' : List ℚ} (h : Wrote P x l l') (h' : Wrote Q x l' l'') :
    Wrote (fun k => P k ∨ Q k) x l l'' := by
  refine ⟨h'.len.trans h.len, fun k hk => ?_, fun k hk => ?_⟩
  · by_cases hq : Q k
    · exact h'.yes k hq
    · rw [h'.no k hq]; exact h.yes k (hk.resolve_right hq)
  · rw [h'.no k fun hq => hk (.inr hq), h.no k fun hp => hk (.inl hp)]

theorem wrote_fold {α : Type} (f : List ℚ → α → Py (List ℚ)) (P : α → Nat → Prop) (x : ℚ) (n : Nat) (ts : List α)
    (h : ∀ t ∈ ts, ∀ l : List ℚ, l.length = n → ∃ l', f l t = .ok l' ∧ Wrote (P t) x l l') (l : List ℚ) (hl : l.length = n) :
    ∃ l', ts.foldlM f l = .ok l' ∧ Wrote (fun k => ∃ t ∈ ts, P t k) x l l' := by
  induction ts generalizing l with
  | nil => exact ⟨l, rfl, rfl, by simp, by simp⟩
  | cons t ts ih =>
    obtain ⟨l1, e1, w1⟩ := h t (by simp) l hl
    obtain ⟨l2, e2, w2⟩ := ih (fun t' h' => h t' (by simp [h'])) l1 (w1.len.trans hl)
    refine ⟨l2, by rw [List.foldlM_cons, e1]; exact e2, (w1.trans w2).congr fun k => by simp⟩

/-- The step of the prior for one group writes its logit at the edges that it joins. -/
theorem prior_group (index : Dict Str Nat) (V : Nat) (g : Groups) (gl : Str × ℚ)
    (hs : ∀ s ∈ Dict.getD g.sources gl.1 [], ∀ t ∈ Dict.getD g.targets gl.1 [],
      ∃ a b, Dict.get? index s = some a ∧ Dict.get? index t = some b ∧ a < V ∧ b < V ∧ a ≠ b)
    (he : Dict.getD g.targets gl.1 [] = [] → ∀ s ∈ Dict.getD g.sources gl.1 [], ∃ a, Dict.get? index s = some a)
    (prior : List ℚ) (hp : prior.length = tri V) :
    ∃ prior', (Dict.getD g.sources gl.1 []).foldlM (fun (prior : List ℚ) source =>
      match Dict.get? index source with
      | none => .error .keyError
      | some v1 =>
        (Dict.getD g.targets gl.1 []).foldlM (fun (prior : List ℚ) target =>
          match Dict.get? index target with
          | none => .error .keyError
          | some v2 => pySet prior (findCompleteEdge v1 v2) gl.2) prior) prior = (.ok prior' : Py (List ℚ)) ∧
      Wrote (fun k => ∃ a b, a < b ∧ b < V ∧ Joins index g gl.1 a b ∧ k = findCompleteEdge a b) gl.2 prior prior' := by
  obtain ⟨prior', e, w⟩ := wrote_fold (n := tri V) (x := gl.2)
    (f := fun (prior : List ℚ) source =>
      match Dict.get? index source with
      | none => .error .keyError
      | some v1 =>
        (Dict.getD g.targets gl.1 []).foldlM (fun (prior : List ℚ) target =>
          match Dict.get? index target with
          | none => .error .keyError
          | some v2 => pySet prior (findCompleteEdge v1 v2) gl.2) prior)
    (P := fun s k => ∃ t ∈ Dict.getD g.targets gl.1 [], ∃ a b, Dict.get? index s = some a ∧ Dict.get? index t = some b ∧
      k = findCompleteEdge a b) (Dict.getD g.sources gl.1 []) (by
    intro s hs' l hl
    have hsv : ∃ a, Dict.get? index s = some a := by
      by_cases h0 : Dict.getD g.targets gl.1 [] = []
      · exact he h0 s hs'
      · obtain ⟨t, ht⟩ := List.exists_mem_of_ne_nil _ h0
        obtain ⟨a, b, ha, -⟩ := hs s hs' t ht
        exact ⟨a, ha⟩
    obtain ⟨v1, hv1⟩ := hsv
    simp only [hv1]
    obtain ⟨l', e, w⟩ := wrote_fold (n := tri V) (x := gl.2)
      (f := fun (prior : List ℚ) target =>
          match Dict.get? index target with
          | none => .error .keyError
          | some v2 => pySet prior (findCompleteEdge v1 v2) gl.2)
      (P := fun t k => ∃ b, Dict.get? index t = some b ∧ k = findCompleteEdge v1 b) (Dict.getD g.targets gl.1 []) (by
        intro t ht l hl
        obtain ⟨a, b, ha, hb, haV, hbV, hab⟩ := hs s hs' t ht
        rw [hv1] at ha; injection ha with ha; subst ha
        have hlt : findCompleteEdge v1 b < l.length := by
          rw [hl]
          rcases Nat.lt_or_gt_of_ne hab with h | h
          · exact fce_lt h hbV
          · rw [fce_comm]; exact fce_lt h haV
        simp only [hb, pySet_ok _ _ _ hlt]
        refine ⟨_, rfl, by simp, ?_, ?_⟩
        · rintro k ⟨b', hb', rfl⟩
          injection hb' with hb'; subst hb'
          rw [List.getElem?_set_self hlt]
        · intro k hk
          rw [List.getElem?_set_ne]
          rintro rfl
          exact hk ⟨b, rfl, rfl⟩) l hl
    refine ⟨l', e, w.congr fun k => ?_⟩
    constructor
    · rintro ⟨t, ht, b, hb, hk⟩; exact ⟨t, ht, v1, b, rfl, hb, hk⟩
    · rintro ⟨t, ht, a, b, ha, hb, hk⟩; injection ha with ha; subst ha; exact ⟨t, ht, b, hb, hk⟩) prior hp
  refine ⟨prior', e, w.congr fun k => ?_⟩
  constructor
  · rintro ⟨s, hs', t, ht, a, b, ha, hb, rfl⟩
    obtain ⟨a', b', ha', hb', haV, hbV, hab⟩ := hs s hs' t ht
    rw [ha] at ha'; injection ha' with ha'; subst ha'
    rw [hb] at hb'; injection hb' with hb'; subst hb'
    rcases Nat.lt_or_gt_of_ne hab with h | h
    · exact ⟨a, b, h, hbV, ⟨s, hs', t, ht, .inl ⟨ha, hb⟩⟩, rfl⟩
    · exact ⟨b, a, h, haV, ⟨s, hs', t, ht, .inr ⟨ha, hb⟩⟩, fce_comm _ _⟩
  · rintro ⟨a, b, h, hbV, ⟨s, hs', t, ht, hj⟩, rfl⟩
    rcases hj with ⟨ha, hb⟩ | ⟨hb, ha⟩
    · exact ⟨s, hs', t, ht, a, b, ha, hb, rfl⟩
    · exact ⟨s, hs', t, ht, b, a, hb, ha, fce_comm _ _⟩

/-- **C38**, the part of the prior that the code would reach if it could read groups.csv: for any groups whose names
are features and that join no feature to itself, the prior has one entry per column of the complete graph. An
entry is the logit of the last group that joins its two ends, or 0 if none does. -/
theorem treePriorOf_partial (index : Dict Str Nat) (V : Nat) (g : Groups)
    (hs : ∀ gl ∈ g.logits, ∀ s ∈ Dict.getD g.sources gl.1 [], ∀ t ∈ Dict.getD g.targets gl.1 [],
      ∃ a b, Dict.get? index s = some a ∧ Dict.get? index t = some b ∧ a < V ∧ b < V ∧ a ≠ b)
    (he : ∀ gl ∈ g.logits, Dict.getD g.targets gl.1 [] = [] → ∀ s ∈ Dict.getD g.sources gl.1 [], ∃ a, Dict.get? index s = some a) :
    ∃ prior grid, treePriorOf index V g = .ok prior ∧ makeCompleteGraph V = .ok grid ∧ prior.length = grid.length ∧
      ∀ (k : Nat) (c : Nat × Nat × Nat), grid[k]? = some c →
        ((∀ gl ∈ g.logits, ¬ Joins index g gl.1 c.2.1 c.2.2) → prior[k]? = some 0) ∧
        ∀ pre gl post, g.logits = pre ++ gl :: post → Joins index g gl.1 c.2.1 c.2.2 →
          (∀ gl' ∈ post, ¬ Joins index g gl'.1 c.2.1 c.2.2) → prior[k]? = some gl.2 := by
  unfold treePriorOf
  suffices key : ∀ (logits : List (Str × ℚ)) (_ : ∀ gl ∈ logits, gl ∈ g.logits) (prior : List ℚ) (_ : prior.length = tri V),
      ∃ prior', logits.foldlM (fun prior gl =>
    (Dict.getD g.sources gl.1 []).foldlM (fun (prior : List ℚ) source =>
      match Dict.get? index source with
      | none => .error .keyError
      | some v1 =>
        (Dict.getD g.targets gl.1 []).foldlM (fun (prior : List ℚ) target =>
          match Dict.get? index target with
          | none => .error .keyError
          | some v2 => pySet prior (findCompleteEdge v1 v2) gl.2) prior) prior) prior = (.ok prior' : Py (List ℚ)) ∧
      prior'.length = tri V ∧ ∀ a b, a < b → b < V →
        ((∀ gl ∈ logits, ¬ Joins index g gl.1 a b) → prior'[findCompleteEdge a b]? = prior[findCompleteEdge a b]?) ∧
        ∀ pre gl post, logits = pre ++ gl :: post → Joins index g gl.1 a b →
          (∀ gl' ∈ post, ¬ Joins index g gl'.1 a b) → prior'[findCompleteEdge a b]? = some gl.2 by
    obtain ⟨prior, e, hlen, h⟩ := key g.logits (fun _ h => h) (List.replicate (V * (V - 1) / 2) 0) (by rw [List.length_replicate]; rfl)
    refine ⟨prior, completeGrid V, e, makeCompleteGraph_eq V, by rw [hlen, completeGrid_length], fun k c hc => ?_⟩
    rw [completeGrid_getElem?] at hc
    obtain ⟨p, hp, rfl⟩ := Option.map_eq_some_iff.1 hc
    obtain ⟨h1, h2, rfl⟩ := pairs_getElem?_some V k p hp
    obtain ⟨k1, k2⟩ := h p.1 p.2 h1 h2
    refine ⟨fun h0 => ?_, k2⟩
    rw [k1 h0, List.getElem?_replicate, if_pos]
    exact fce_lt h1 h2
  intro logits
  induction logits with
  | nil => intro _ prior hp; exact ⟨prior, rfl, hp, fun a b _ _ => ⟨fun _ => rfl, fun pre gl post h => by simp at h⟩⟩
  | cons gl logits ih =>
    intro hmem prior hp
    obtain ⟨p1, e1, w⟩ := prior_group index V g gl (hs gl (hmem gl (by simp))) (he gl (hmem gl (by simp))) prior hp
    obtain ⟨p2, e2, hlen, h2⟩ := ih (fun gl' h => hmem gl' (by simp [h])) p1 (w.len.trans hp)
    refine ⟨p2, by rw [List.foldlM_cons, e1]; exact e2, hlen, fun a b hab hb => ?_⟩
    obtain ⟨k1, k2⟩ := h2 a b hab hb
    refine ⟨fun h0 => ?_, fun pre gl' post hsplit hj hpost => ?_⟩
    · rw [k1 fun gl' h' => h0 gl' (by simp [h']), w.no]
      rintro ⟨a', b', hab', hb', hj, hk⟩
      obtain ⟨rfl, rfl⟩ := fce_inj hab hab' hk
      exact h0 gl (by simp) hj
    · cases pre with
      | nil =>
        simp only [List.nil_append, List.cons.injEq] at hsplit
        obtain ⟨rfl, rfl⟩ := hsplit
        rw [k1 hpost]
        exact w.yes _ ⟨a, b, hab, hb, hj, rfl⟩
      | cons x pre =>
        simp only [List.cons_append, List.cons.injEq] at hsplit
        exact k2 pre gl' post hsplit.2 hj hpost

/-- The schema files of the repository's test data. -/
def tinyTypes : List (List Str) := [["name", "type"], ["decade", "categorical"], ["genre", "categorical"],
  ["rating", "ordinal"], ["title", ""]].map fun row => row.map String.toList

def tinyValues : List (List Str) := [["name", "value"], ["decade", "1950s"], ["decade", "2010s"], ["decade", "1970s"],
  ["genre", "drama"], ["genre", "family"], ["genre", "fantasy"], ["rating", "4"], ["rating", "3"], ["rating", "5"]].map
    fun row => row.map String.toList

/-- The hypotheses of `loadSchema_describes` hold for the test data. -/
example : ((typedRows tinyTypes).map Prod.fst).Nodup ∧
    (∀ nt ∈ typedRows tinyTypes, nt.2 = .categorical → (valuesOf tinyValues nt.1).Nodup) ∧
    (loadSchema asciiText tinyTypes tinyValues none).map (fun S => (S.featureNames, S.raggedIndex)) =
      .ok (["decade", "genre", "rating"].map String.toList, [0, 3, 6, 8]) ∧
    (loadSchema asciiText tinyTypes tinyValues none).map (fun S => (S.treePrior, S.ordinalRanges)) =
      .ok ([0, 0, 0], [("rating".toList, (3, 5))]) ∧
    featuresOf asciiText tinyTypes tinyValues = [("decade".toList, .cat (["1950s", "2010s", "1970s"].map String.toList)),
      ("genre".toList, .cat (["drama", "family", "fantasy"].map String.toList)), ("rating".toList, .ord 3 5)] := by
  refine ⟨?_, ?_, ?_, ?_, ?_⟩ <;> decide +kernel

/-- Two rows for the same name: the index finds the second. -/
example : (loadSchema asciiText ([["name", "type"], ["a", "ordinal"], ["a", "ordinal"]].map fun row => row.map String.toList)
    ([["name", "value"], ["a", "1"]].map fun row => row.map String.toList) none).map (fun S => (S.featureIndex, S.raggedIndex)) =
      .ok ([("a".toList, 1)], [0, 2, 4]) := by
  decide +kernel

/-- A usable row in groups.csv. -/
example : loadSchema asciiText tinyTypes tinyValues
    (some ([["group", "logit", "source", "target"], ["g", "1.5", "decade", "genre"]].map fun row => row.map String.toList)) =
      .error .valueError := by
  decide +kernel

/-- Two groups that overlap on one edge, which gets the logit of the second. -/
example : treePriorOf [("a".toList, 0), ("b".toList, 1), ("c".toList, 2)] 3
    ⟨[("g".toList, 1), ("h".toList, 5/2)], [("g".toList, ["a".toList]), ("h".toList, ["c".toList])],
      [("g".toList, ["b".toList, "c".toList]), ("h".toList, ["a".toList])]⟩ = .ok [1, 5/2, 0] := by
  decide +kernel

end TreeCat
