import Verif.Lemmas.Dict
import Verif.Spec.Format
import Verif.Props.Ragged

/-! The parts of `load_schema`. -/

namespace TreeCat

open Spec
open Config (Str)

variable {T : Text}

/-! ### Headers -/

theorem checkHeader_ok (expected : List Str) (header : List Str) (rest : List (List Str)) (h : header.length ≥ expected.length)
    (he : ∀ i < expected.length, T.lower (header.getD i []) = expected.getD i []) : checkHeader T expected (header :: rest) = .ok rest := by
  unfold checkHeader
  have : (List.range expected.length).mapM (fun i => do
      let h ← pyGet header i
      pyAssert (T.lower h == expected.getD i [])) = (.ok ((List.range expected.length).map fun _ => ()) : Py (List Unit)) := by
    have key : ∀ l : List Nat, (∀ i ∈ l, i < expected.length) → l.mapM (fun i => do
      let h ← pyGet header i
      pyAssert (T.lower h == expected.getD i [])) = (.ok (l.map fun _ => ()) : Py (List Unit)) := by
      intro l hl
      induction l with
      | nil => rfl
      | cons i l ih =>
        have hi := hl i (by simp)
        have e1 : pyGet header i = .ok (header.getD i []) := by
          unfold pyGet
          rw [List.getElem?_eq_getElem (by omega)]
          simp [List.getD_eq_getElem?_getD, List.getElem?_eq_getElem (show i < header.length by omega)]
        rw [List.mapM_cons, ih fun j hj => hl j (by simp [hj])]
        simp only [e1, pyAssert, he i hi, beq_self_eq_true, if_true, bind, Except.bind]
        rfl
    exact key _ fun i hi => List.mem_range.1 hi
  dsimp only
  rw [this]
  rfl

theorem checkHeader_two (x y : Str) (rows rest : List (List Str)) :
    checkHeader T [x, y] rows = .ok rest ↔ ∃ a b r, rows = (a :: b :: r) :: rest ∧ T.lower a = x ∧ T.lower b = y := by
  constructor
  · intro h
    unfold checkHeader at h
    cases rows with
    | nil => simp at h
    | cons header rest' =>
      simp only [List.length_cons, List.length_nil, Nat.zero_add, Nat.reduceAdd, List.range_succ, List.range_zero, List.nil_append,
        List.cons_append, List.mapM_cons, List.mapM_nil, pyGet, pyAssert, bind, Except.bind] at h
      match header, h with
      | [], h => simp at h
      | [a], h =>
        simp only [List.getElem?_cons_zero] at h
        split at h
        · simp at h
        · rename_i hh; split at hh
          · simp at hh
          · simp at hh
      | a :: b :: r, h =>
        refine ⟨a, b, r, ?_⟩
        by_cases ha : T.lower a = x
        · by_cases hb : T.lower b = y
          · simp [ha, hb, pure, Except.pure] at h
            exact ⟨by rw [h], ha, hb⟩
          · simp [ha, hb] at h
        · simp [ha] at h
  · rintro ⟨a, b, r, rfl, rfl, rfl⟩
    refine checkHeader_ok _ _ _ (by simp) ?_
    intro i hi
    match i, hi with
    | 0, _ => rfl
    | 1, _ => rfl

/-! ### types.csv -/

/-- The type in a row of types.csv is acceptable. -/
def KnownRow (row : List Str) : Prop := ∀ n t r, row = n :: t :: r → t = [] ∨ t = "categorical".toList ∨ t = "ordinal".toList

/-- The part of `typedRows` for one row. -/
def typedRow (row : List Str) : Option (Str × FType) :=
  match row with
  | n :: t :: _ => if t = "categorical".toList then some (n, .categorical)
      else if t = "ordinal".toList then some (n, .ordinal) else none
  | _ => none

theorem typedRows_eq (rows : List (List Str)) : typedRows rows = rows.tail.filterMap typedRow := rfl

theorem typesRow_eq (s : List Str × Dict Str FType) (row : List Str) :
    (KnownRow row → typesRow s row = .ok (match typedRow row with
      | none => s
      | some nt => (s.1 ++ [nt.1], Dict.set s.2 nt.1 nt.2))) ∧
    (¬ KnownRow row → typesRow s row = .error .valueError) := by
  match row with
  | [] => exact ⟨fun _ => rfl, fun h => absurd (fun n t r e => by simp at e) h⟩
  | [a] => exact ⟨fun _ => rfl, fun h => absurd (fun n t r e => by simp at e) h⟩
  | n :: t :: r =>
    have hk : KnownRow (n :: t :: r) ↔ (t = [] ∨ t = "categorical".toList ∨ t = "ordinal".toList) := by
      constructor
      · intro h; exact h n t r rfl
      · intro h n' t' r' e; injection e with e1 e2; injection e2 with e2 e3; subst e2; exact h
    rw [hk]
    unfold typesRow typedRow parseType
    dsimp only
    by_cases h0 : t = []
    · subst h0
      exact ⟨fun _ => rfl, fun h => absurd (.inl rfl) h⟩
    · rw [if_neg h0]
      by_cases h1 : t = "categorical".toList
      · simp only [h1, if_true]
        exact ⟨fun _ => trivial, fun h => absurd (by simp) h⟩
      · by_cases h2 : t = "ordinal".toList
        · simp only [if_neg h1, if_pos h2]
          exact ⟨fun _ => trivial, fun h => absurd (by simp [h2]) h⟩
        · simp only [if_neg h1, if_neg h2]
          exact ⟨fun h => absurd h (by simp only [h0, h1, h2, or_self, not_false_eq_true]), fun _ => trivial⟩

theorem typesRows_fold (rows : List (List Str)) (s : List Str × Dict Str FType) :
    ((∀ row ∈ rows, KnownRow row) → rows.foldlM typesRow s = .ok (s.1 ++ (rows.filterMap typedRow).map Prod.fst,
      (rows.filterMap typedRow).foldl (fun d kv => Dict.set d kv.1 kv.2) s.2)) ∧
    ((¬ ∀ row ∈ rows, KnownRow row) → rows.foldlM typesRow s = .error .valueError) := by
  induction rows generalizing s with
  | nil => exact ⟨fun _ => by simp; rfl, fun h => absurd (by simp) h⟩
  | cons row rows ih =>
    obtain ⟨h1, h2⟩ := typesRow_eq s row
    constructor
    · intro h
      rw [List.foldlM_cons, h1 (h row (by simp))]
      simp only [bind, Except.bind]
      rw [(ih _).1 fun r hr => h r (by simp [hr]), List.filterMap_cons]
      cases typedRow row with
      | none => rfl
      | some nt => simp
    · intro h
      by_cases hk : KnownRow row
      · rw [List.foldlM_cons, h1 hk]
        simp only [bind, Except.bind]
        refine (ih _).2 fun hall => h ?_
        intro r hr
        rcases List.mem_cons.1 hr with rfl | hr
        · exact hk
        · exact hall r hr
      · rw [List.foldlM_cons, h2 hk]
        rfl

/-! ### values.csv -/

/-- The part of `valuesOf` for one row. -/
def valueRow (name : Str) (row : List Str) : Option Str :=
  match row with
  | n :: v :: _ => if n = name then some v else none
  | _ => none

theorem valuesOf_eq (rows : List (List Str)) (name : Str) : valuesOf rows name = rows.tail.filterMap (valueRow name) := rfl

/-- The values of ordinals are integers. -/
def IntRow (T : Text) (types : Dict Str FType) (row : List Str) : Prop :=
  ∀ n v r, row = n :: v :: r → Dict.get? types n = some .ordinal → T.parseInt v ≠ none

/-- What `valuesRow` has collected. -/
structure Collected (T : Text) (types : Dict Str FType) (rows : List (List Str)) (s s' : Dict Str (List Str) × Dict Str (List Int)) : Prop where
  cats : ∀ n, Dict.get? types n = some .categorical → Dict.getD s'.1 n [] = Dict.getD s.1 n [] ++ rows.filterMap (valueRow n)
  ords : ∀ n, Dict.get? types n = some .ordinal → Dict.getD s'.2 n [] = Dict.getD s.2 n [] ++ (rows.filterMap (valueRow n)).filterMap T.parseInt

theorem valuesRow_eq (types : Dict Str FType) (s : Dict Str (List Str) × Dict Str (List Int)) (row : List Str) :
    (IntRow T types row → ∃ s', valuesRow T types s row = .ok s' ∧ Collected T types [row] s s') ∧
    (¬ IntRow T types row → valuesRow T types s row = .error .valueError) := by
  match row with
  | [] => exact ⟨fun _ => ⟨s, rfl, fun n _ => by simp [valueRow], fun n _ => by simp [valueRow]⟩, fun h => absurd (fun n t r e => by simp at e) h⟩
  | [a] => exact ⟨fun _ => ⟨s, rfl, fun n _ => by simp [valueRow], fun n _ => by simp [valueRow]⟩, fun h => absurd (fun n t r e => by simp at e) h⟩
  | m :: v :: r =>
    have hk : IntRow T types (m :: v :: r) ↔ (Dict.get? types m = some .ordinal → T.parseInt v ≠ none) := by
      constructor
      · intro h; exact h m v r rfl
      · intro h n' t' r' e; injection e with e1 e2; injection e2 with e2 e3; subst e1 e2; exact h
    rw [hk]
    have hrow : ∀ n, [m :: v :: r].filterMap (valueRow n) = if m = n then [v] else [] := by
      intro n; by_cases e : m = n <;> simp [valueRow, e]
    unfold valuesRow
    dsimp only
    cases ht : Dict.get? types m with
    | none =>
      refine ⟨fun _ => ⟨s, rfl, fun n hn => ?_, fun n hn => ?_⟩, fun h => absurd (by simp) h⟩
      · rw [hrow, if_neg (by rintro rfl; rw [ht] at hn; simp at hn), List.append_nil]
      · rw [hrow, if_neg (by rintro rfl; rw [ht] at hn; simp at hn), List.filterMap_nil, List.append_nil]
    | some ty =>
      cases ty with
      | categorical =>
        refine ⟨fun _ => ⟨_, rfl, fun n hn => ?_, fun n hn => ?_⟩, fun h => absurd (by simp) h⟩
        · rw [hrow, Dict.getD_set]
          by_cases e : m = n
          · subst e; simp
          · simp [e]
        · rw [hrow, if_neg (by rintro rfl; rw [ht] at hn; simp at hn), List.filterMap_nil, List.append_nil]
      | ordinal =>
        cases hv : T.parseInt v with
        | none => exact ⟨fun h => absurd rfl (h rfl), fun _ => rfl⟩
        | some i =>
          refine ⟨fun _ => ⟨_, rfl, fun n hn => ?_, fun n hn => ?_⟩, fun h => absurd (by simp) h⟩
          · rw [hrow, if_neg (by rintro rfl; rw [ht] at hn; simp at hn), List.append_nil]
          · rw [hrow, Dict.getD_set]
            by_cases e : m = n
            · subst e; simp [hv]
            · simp [e]

theorem valuesRows_fold (types : Dict Str FType) (rows : List (List Str)) (s : Dict Str (List Str) × Dict Str (List Int)) :
    ((∀ row ∈ rows, IntRow T types row) → ∃ s', rows.foldlM (valuesRow T types) s = .ok s' ∧ Collected T types rows s s') ∧
    ((¬ ∀ row ∈ rows, IntRow T types row) → rows.foldlM (valuesRow T types) s = .error .valueError) := by
  induction rows generalizing s with
  | nil => exact ⟨fun _ => ⟨s, rfl, fun n _ => by simp, fun n _ => by simp⟩, fun h => absurd (by simp) h⟩
  | cons row rows ih =>
    obtain ⟨h1, h2⟩ := valuesRow_eq (T := T) types s row
    constructor
    · intro h
      obtain ⟨s1, e1, c1⟩ := h1 (h row (by simp))
      obtain ⟨s2, e2, c2⟩ := (ih s1).1 fun r hr => h r (by simp [hr])
      refine ⟨s2, by rw [List.foldlM_cons, e1]; exact e2, fun n hn => ?_, fun n hn => ?_⟩
      · rw [c2.cats n hn, c1.cats n hn, List.append_assoc, ← List.filterMap_append]; rfl
      · rw [c2.ords n hn, c1.ords n hn, List.append_assoc, ← List.filterMap_append, ← List.filterMap_append]; rfl
    · intro h
      by_cases hk : IntRow T types row
      · obtain ⟨s1, e1, -⟩ := h1 hk
        rw [List.foldlM_cons, e1]
        refine (ih s1).2 fun hall => h ?_
        intro r hr
        rcases List.mem_cons.1 hr with rfl | hr
        · exact hk
        · exact hall r hr
      · rw [List.foldlM_cons, h2 hk]
        rfl

/-! ### Value indices -/

theorem Dict.get?_zipIdx (vs : List Str) (hn : vs.Nodup) (k : Nat) (v : Str) (i : Nat) :
    Dict.get? (vs.zipIdx k) v = some i ↔ k ≤ i ∧ vs[i - k]? = some v := by
  induction vs generalizing k with
  | nil => simp [Dict.get?]
  | cons w vs ih =>
    rw [List.nodup_cons] at hn
    rw [List.zipIdx_cons, Dict.get?]
    by_cases e : w = v
    · subst e
      rw [if_pos rfl]
      constructor
      · intro h; injection h with h; subst h; simp
      · rintro ⟨h1, h2⟩
        rcases Nat.eq_or_lt_of_le h1 with h | h
        · rw [h]
        · rw [show i - k = (i - k - 1) + 1 by omega, List.getElem?_cons_succ] at h2
          exact absurd (List.mem_of_getElem? h2) hn.1
    · rw [if_neg e, ih hn.2]
      constructor
      · rintro ⟨h1, h2⟩
        refine ⟨by omega, ?_⟩
        rw [show i - k = (i - (k + 1)) + 1 by omega, List.getElem?_cons_succ]
        exact h2
      · rintro ⟨h1, h2⟩
        rcases Nat.eq_or_lt_of_le h1 with h | h
        · subst h; simp at h2; exact absurd h2 e
        · rw [show i - k = (i - (k + 1)) + 1 by omega, List.getElem?_cons_succ] at h2
          exact ⟨by omega, h2⟩

theorem get?_indexOf (vs : List Str) (hn : vs.Nodup) (v : Str) (i : Nat) :
    Dict.get? (Dict.ofList vs.zipIdx) v = some i ↔ vs[i]? = some v := by
  rw [Dict.get?_ofList (by rwa [List.zipIdx_map_fst]), Dict.get?_zipIdx vs hn]
  simp

/-- Positions in a list that may have duplicates: the dict finds the last one. -/
theorem get?_indexOf_last (vs : List Str) (v : Str) (i : Nat) :
    Dict.get? (Dict.ofList vs.zipIdx) v = some i ↔ vs[i]? = some v ∧ ∀ j, i < j → vs[j]? ≠ some v := by
  induction vs using List.reverseRecOn with
  | nil => simp [Dict.ofList, Dict.get?]
  | append_singleton vs w ih =>
    have e : Dict.ofList (vs ++ [w]).zipIdx = Dict.set (Dict.ofList vs.zipIdx) w vs.length := by
      unfold Dict.ofList
      rw [List.zipIdx_append, List.foldl_append]
      simp
    rw [e, Dict.get?_set]
    by_cases h : w = v
    · subst h
      rw [if_pos rfl]
      constructor
      · intro h; injection h with h; subst h
        refine ⟨by simp, fun j hj => ?_⟩
        rw [List.getElem?_eq_none (by simp; omega)]; simp
      · rintro ⟨h1, h2⟩
        have hi : i < (vs ++ [w]).length := by
          by_contra hlt
          rw [List.getElem?_eq_none (by omega)] at h1; simp at h1
        rw [List.length_append, List.length_singleton] at hi
        by_cases h3 : i < vs.length
        · exact absurd (by simp) (h2 vs.length h3)
        · congr 1; omega
    · rw [if_neg h, ih]
      have key : ∀ j : Nat, (vs ++ [w])[j]? = some v ↔ vs[j]? = some v := by
        intro j
        rw [List.getElem?_append]
        split
        · rfl
        · rename_i hj
          rw [List.getElem?_eq_none (l := vs) (by omega)]
          by_cases h0 : j - vs.length = 0
          · rw [h0]; simp [h]
          · rw [List.getElem?_eq_none (by simp; omega)]
      simp only [key, ne_eq]

/-- What `valueIndex` has written for the features `l`. -/
structure Indexed (cats : Dict Str (List Str)) (ords : Dict Str (List Int)) (l : Dict Str FType)
    (s s' : Dict Str (List Str) × Dict Str (Dict Str Nat) × Dict Str (Int × Int)) : Prop where
  cats : ∀ n, (n, FType.categorical) ∈ l → Dict.get? s'.1 n = some (Dict.getD cats n []) ∧
    Dict.get? s'.2.1 n = some (indexOf (Dict.getD cats n []))
  ords : ∀ n, (n, FType.ordinal) ∈ l → Dict.getD ords n [] ≠ [] ∧
    Dict.get? s'.2.2 n = some ((Dict.getD ords n []).min?.getD 0, (Dict.getD ords n []).max?.getD 0)
  other : ∀ n, n ∉ Dict.keys l → Dict.get? s'.1 n = Dict.get? s.1 n ∧ Dict.get? s'.2.1 n = Dict.get? s.2.1 n ∧
    Dict.get? s'.2.2 n = Dict.get? s.2.2 n

theorem sorted_ends (l : List Int) (h : l ≠ []) : ∃ a, (l.insertionSort (· ≤ ·))[0]? = some a ∧ l.min? = some a ∧
    l.max? = some ((l.insertionSort (· ≤ ·)).getLastD 0) := by
  have hp : (l.insertionSort (· ≤ ·)).Perm l := List.perm_insertionSort _ _
  have hs : (l.insertionSort (· ≤ ·)).Pairwise (· ≤ ·) := List.pairwise_insertionSort _ _
  have hne : l.insertionSort (· ≤ ·) ≠ [] := fun h0 => h (by rw [h0] at hp; exact hp.symm.eq_nil)
  refine ⟨(l.insertionSort (· ≤ ·)).head hne, ?_, ?_, ?_⟩
  · rw [← List.head?_eq_getElem?, List.head?_eq_some_head]
  · rw [List.min?_eq_some_iff]
    refine ⟨hp.mem_iff.1 (List.head_mem hne), fun b hb => ?_⟩
    have hb' := hp.mem_iff.2 hb
    revert hne hs hb'
    generalize l.insertionSort (· ≤ ·) = l'
    intro hs hne hb'
    cases l' with
    | nil => exact absurd rfl hne
    | cons x xs =>
      rw [List.head_cons]
      rcases List.mem_cons.1 hb' with rfl | hb'
      · exact le_refl _
      · exact (List.pairwise_cons.1 hs).1 b hb'
  · rw [List.max?_eq_some_iff, List.getLastD_eq_getLast?, List.getLast?_eq_some_getLast hne, Option.getD_some]
    refine ⟨hp.mem_iff.1 (List.getLast_mem hne), fun b hb => ?_⟩
    have hb' := hp.mem_iff.2 hb
    have e := List.dropLast_append_getLast hne
    rw [← e, List.mem_append, List.mem_singleton] at hb'
    rw [← e, List.pairwise_append] at hs
    rcases hb' with hb' | hb'
    · exact hs.2.2 b hb' _ (by simp)
    · rw [hb']

theorem valueIndex_fold (cats : Dict Str (List Str)) (ords : Dict Str (List Int)) (l : Dict Str FType) (hn : (Dict.keys l).Nodup)
    (s : Dict Str (List Str) × Dict Str (Dict Str Nat) × Dict Str (Int × Int)) :
    ((∀ n, (n, FType.ordinal) ∈ l → Dict.getD ords n [] ≠ []) → ∃ s', l.foldlM (valueIndex cats ords) s = .ok s' ∧ Indexed cats ords l s s') ∧
    ((¬ ∀ n, (n, FType.ordinal) ∈ l → Dict.getD ords n [] ≠ []) → l.foldlM (valueIndex cats ords) s = .error .indexError) := by
  induction l generalizing s with
  | nil => exact ⟨fun _ => ⟨s, rfl, by simp, by simp, fun n _ => ⟨rfl, rfl, rfl⟩⟩, fun h => absurd (by simp) h⟩
  | cons nt l ih =>
    obtain ⟨m, ty⟩ := nt
    rw [Dict.keys_cons, List.nodup_cons] at hn
    cases ty with
    | categorical =>
      have e1 : valueIndex cats ords s (m, .categorical) = .ok (Dict.set s.1 m (Dict.getD cats m []),
        Dict.set s.2.1 m (indexOf (Dict.getD cats m [])), s.2.2) := rfl
      obtain ⟨i1, i2⟩ := ih hn.2 (Dict.set s.1 m (Dict.getD cats m []), Dict.set s.2.1 m (indexOf (Dict.getD cats m [])), s.2.2)
      constructor
      · intro h
        obtain ⟨s', e, hi⟩ := i1 fun n h' => h n (by simp [h'])
        refine ⟨s', by rw [List.foldlM_cons, e1]; exact e, fun n h' => ?_, fun n h' => ?_, fun n h' => ?_⟩
        · rcases List.mem_cons.1 h' with h' | h'
          · injection h' with h'; subst h'
            obtain ⟨o1, o2, -⟩ := hi.other n hn.1
            rw [o1, o2, Dict.get?_set, Dict.get?_set]; simp
          · exact hi.cats n h'
        · exact hi.ords n (by simpa using h')
        · rw [Dict.keys_cons, List.mem_cons, not_or] at h'
          obtain ⟨o1, o2, o3⟩ := hi.other n h'.2
          rw [o1, o2, o3, Dict.get?_set, Dict.get?_set, if_neg (Ne.symm h'.1), if_neg (Ne.symm h'.1)]
          exact ⟨rfl, rfl, rfl⟩
      · intro h
        rw [List.foldlM_cons, e1]
        exact i2 fun hall => h fun n h' => hall n (by simpa using h')
    | ordinal =>
      by_cases h0 : Dict.getD ords m [] = []
      · refine ⟨fun h => absurd h0 (h m (by simp)), fun _ => ?_⟩
        have e1 : valueIndex cats ords s (m, .ordinal) = .error .indexError := by
          unfold valueIndex
          simp only [h0]
          rfl
        rw [List.foldlM_cons, e1]; rfl
      · obtain ⟨a, ha, hmin, hmax⟩ := sorted_ends _ h0
        have e1 : valueIndex cats ords s (m, .ordinal) = .ok (s.1, s.2.1,
            Dict.set s.2.2 m ((Dict.getD ords m []).min?.getD 0, (Dict.getD ords m []).max?.getD 0)) := by
          unfold valueIndex
          simp only [pyGet, ha, hmin, hmax, Option.getD_some, bind, Except.bind]
        obtain ⟨i1, i2⟩ := ih hn.2 (s.1, s.2.1, Dict.set s.2.2 m ((Dict.getD ords m []).min?.getD 0, (Dict.getD ords m []).max?.getD 0))
        constructor
        · intro h
          obtain ⟨s', e, hi⟩ := i1 fun n h' => h n (by simp [h'])
          refine ⟨s', by rw [List.foldlM_cons, e1]; exact e, fun n h' => ?_, fun n h' => ?_, fun n h' => ?_⟩
          · exact hi.cats n (by simpa using h')
          · rcases List.mem_cons.1 h' with h' | h'
            · injection h' with h'; subst h'
              obtain ⟨-, -, o3⟩ := hi.other n hn.1
              rw [o3, Dict.get?_set, if_pos rfl]
              exact ⟨h0, rfl⟩
            · exact hi.ords n h'
          · rw [Dict.keys_cons, List.mem_cons, not_or] at h'
            obtain ⟨o1, o2, o3⟩ := hi.other n h'.2
            rw [o1, o2, o3, Dict.get?_set, if_neg (Ne.symm h'.1)]
            exact ⟨rfl, rfl, rfl⟩
        · intro h
          rw [List.foldlM_cons, e1]
          refine i2 fun hall => h fun n h' => ?_
          rcases List.mem_cons.1 h' with h' | h'
          · injection h' with h'; subst h'; exact h0
          · exact hall n h'

/-! ### The ragged index -/

theorem raggedOf_eq (dims : List Nat) : raggedOf dims = Util.makeRaggedIndex dims := by
  have key : ∀ (dims : List Nat) (pre : List Nat) (a : Nat), dims.foldl (fun ri d => ri ++ [ri.getLastD 0 + d]) (pre ++ [a]) =
      pre ++ Util.raggedFrom a dims := by
    intro dims
    induction dims with
    | nil => intro pre a; rfl
    | cons d dims ih =>
      intro pre a
      rw [List.foldl_cons]
      have : (pre ++ [a]).getLastD 0 = a := by simp
      rw [this, ih (pre ++ [a]) (a + d), Util.raggedFrom]
      simp
  exact key dims [] 0

end TreeCat
