import Verif.Props.GuessSchema
import Verif.Props.LoadSchema

/-! # C37: a guessed schema can be loaded -/

namespace TreeCat

open Spec
open Config (Str intStr)

variable {T : Text}

theorem typedRow_guess (n : Str) (t : Option FType) (r : List Str) : typedRow (n :: typeStr t :: r) = t.map fun ty => (n, ty) := by
  match t with
  | none => rfl
  | some .categorical => rfl
  | some .ordinal => rfl

theorem valueRow_flatMap (names : List Str) (hn : names.Nodup) (values : Str → List (Str × Nat)) (n : Str) :
    (names.flatMap fun m => (values m).map fun vc => [m, vc.1, intStr vc.2]).filterMap (valueRow n) =
      if n ∈ names then (values n).map Prod.fst else [] := by
  induction names with
  | nil => rfl
  | cons m names ih =>
    rw [List.nodup_cons] at hn
    rw [List.flatMap_cons, List.filterMap_append, ih hn.2]
    by_cases h : m = n
    · subst h
      rw [if_neg hn.1, if_pos (by simp), List.append_nil, List.filterMap_map]
      have : (valueRow m ∘ fun vc : Str × Nat => [m, vc.1, intStr vc.2]) = some ∘ Prod.fst := by
        funext vc; simp [valueRow]
      rw [this, ← List.filterMap_map, List.filterMap_some]
    · have h0 : ((values m).map fun vc : Str × Nat => [m, vc.1, intStr vc.2]).filterMap (valueRow n) = [] := by
        rw [List.filterMap_map, List.filterMap_eq_nil_iff]
        intro vc _
        simp [valueRow, h]
      rw [h0, List.nil_append]
      by_cases h1 : n ∈ names
      · rw [if_pos h1, if_pos (by simp [h1])]
      · rw [if_neg h1, if_neg (by simp [h1, Ne.symm h])]

/-- The headers that `guess_schema` writes are in lower case. -/
theorem lower_word (hT : Lawful T) (s : Str) (h : s.all fun c => decide ('a'.toNat ≤ c.toNat) && decide (c.toNat ≤ 'z'.toNat)) : T.lower s = s := by
  refine hT.ascii s fun c hc => ?_
  have := List.all_eq_true.1 h c hc
  simpa using this

/-- **C37**: `load_schema` accepts what `guess_schema` writes, whatever the files, as soon as one feature got a type. The
schema has exactly the features with a type, in sorted order. Categorical features have 2 to 20 values, each of
which was observed at least twice; ordinal ones have a range within 0 to 20. -/
theorem guessSchema_loads (hT : Lawful T) (files : List (Str × List (List Str))) (hf : ∀ f ∈ files, f.2 ≠ []) (types vals : List (List Str))
    (h : guessSchema T files = .ok (types, vals)) (ht : ∃ row ∈ types.tail, row.getD 1 [] ≠ []) :
    ∃ S fs, loadSchema T types vals none = .ok S ∧ Describes S fs ∧ (fs.map Prod.fst).Pairwise (· < ·) ∧
      (∀ n, n ∈ fs.map Prod.fst ↔ ∃ row ∈ types.tail, row.head? = some n ∧ row.getD 1 [] ≠ []) ∧
      (∀ n vs, (n, Feature.cat vs) ∈ fs → 2 ≤ vs.length ∧ vs.length ≤ 20 ∧ ∀ v ∈ vs, 2 ≤ occurs T files n v) ∧
      (∀ n lo hi, (n, Feature.ord lo hi) ∈ fs → 0 ≤ lo ∧ lo ≤ hi ∧ hi ≤ 20 ∧
        ∃ v w, 2 ≤ occurs T files n v ∧ T.parseInt v = some lo ∧ 2 ≤ occurs T files n w ∧ T.parseInt w = some hi) := by
  obtain ⟨names, typ, values, types', vals', e, hsort, hnames, hrule, htypes, hvals⟩ := guessSchema_partial (T := T) files hf
  rw [h] at e
  injection e with e
  injection e with e1 e2
  subst e1 e2
  have hnd : names.Nodup := hsort.imp fun hab => ne_of_lt hab
  have htr : typedRows types = names.filterMap fun n => (typ n).map fun ty => (n, ty) := by
    rw [typedRows_eq, htypes, List.tail_cons, List.filterMap_map]
    congr 1
    funext n
    exact typedRow_guess _ _ _
  have hsub : ((typedRows types).map Prod.fst).Sublist names := by
    rw [htr]
    clear * -
    induction names with
    | nil => simp
    | cons n names ih =>
      rw [List.filterMap_cons]
      cases typ n with
      | none => exact ih.cons _
      | some ty => exact ih.cons_cons _
  have hn : ((typedRows types).map Prod.fst).Nodup := hnd.sublist hsub
  have hvo : ∀ n ∈ names, valuesOf vals n = (values n).map Prod.fst := by
    intro n hmem
    rw [valuesOf_eq, hvals, List.tail_cons, valueRow_flatMap names hnd values n, if_pos hmem]
  have hmem : ∀ n ty, (n, ty) ∈ typedRows types ↔ n ∈ names ∧ typ n = some ty := by
    intro n ty
    rw [htr, List.mem_filterMap]
    constructor
    · rintro ⟨m, hm, he⟩
      obtain ⟨t', ht', he'⟩ := Option.map_eq_some_iff.1 he
      injection he' with h1 h2
      subst h1 h2
      exact ⟨hm, ht'⟩
    · rintro ⟨hm, he⟩
      exact ⟨n, hm, by rw [he]; rfl⟩
  have hval2 : ∀ n ∈ names, ∀ v ∈ (values n).map Prod.fst, 2 ≤ occurs T files n v := by
    intro n hmem v hv
    obtain ⟨vc, hvc, rfl⟩ := List.mem_map.1 hv
    obtain ⟨h1, h2⟩ := (hrule n hmem).1.exact_count vc hvc
    omega
  have hnv : ∀ n ∈ names, ((values n).map Prod.fst).Nodup := by
    intro n hmem
    have hs := (hrule n hmem).1.sorted
    have hc := (hrule n hmem).1.exact_count
    rw [List.Nodup, List.pairwise_map]
    refine (List.pairwise_iff_getElem.2 fun i j hi hj hij => ?_)
    have h1 := List.pairwise_iff_getElem.1 hs i j hi hj hij
    intro heq
    have c1 := (hc _ (List.getElem_mem hi)).1
    have c2 := (hc _ (List.getElem_mem hj)).1
    rw [← heq] at c2
    rcases h1 with h1 | h1
    · omega
    · rw [heq] at h1; exact lt_irrefl _ h1.2
  have hord : ∀ n, (n, FType.ordinal) ∈ typedRows types → valuesOf vals n ≠ [] ∧ ∀ v ∈ valuesOf vals n, SmallInt T v := by
    intro n hm
    obtain ⟨hm1, hm2⟩ := (hmem n _).1 hm
    have := (hrule n hm1).2
    rw [hm2] at this
    obtain ⟨r1, r2⟩ := this
    rw [hvo n hm1]
    refine ⟨fun h0 => ?_, r2⟩
    rw [h0] at r1; simp at r1
  have hgood : GoodCsv T types vals := by
    refine ⟨⟨_, _, _, by rw [htypes]; rfl, lower_word hT _ (by decide), lower_word hT _ (by decide)⟩,
      ⟨_, _, _, by rw [hvals]; rfl, lower_word hT _ (by decide), lower_word hT _ (by decide)⟩, ?_, ?_, ?_⟩
    · intro row hrow n t r he
      rw [htypes, List.tail_cons] at hrow
      obtain ⟨m, -, rfl⟩ := List.mem_map.1 hrow
      simp only [List.cons.injEq] at he
      obtain ⟨-, rfl, -⟩ := he
      match typ m with
      | none => left; rfl
      | some .categorical => right; left; rfl
      | some .ordinal => right; right; rfl
    · intro n hm
      obtain ⟨h1, h2⟩ := hord n hm
      refine ⟨h1, fun v hv h0 => ?_⟩
      obtain ⟨i, hi, -⟩ := h2 v hv
      rw [h0] at hi; simp at hi
    · obtain ⟨row, hrow, hty⟩ := ht
      rw [htypes, List.tail_cons] at hrow
      obtain ⟨m, hm, rfl⟩ := List.mem_map.1 hrow
      intro h0
      cases ht' : typ m with
      | none => rw [ht'] at hty; exact hty rfl
      | some ty =>
        have := (hmem m ty).2 ⟨hm, ht'⟩
        rw [h0] at this; simp at this
  obtain ⟨S, hS⟩ := (loadSchema_iff (T := T) types vals none hn).2 ⟨hgood, fun rows hr => by simp at hr⟩
  have hd : ∀ n, (n, FType.categorical) ∈ typedRows types → (valuesOf vals n).Nodup := by
    intro n hm
    obtain ⟨hm1, -⟩ := (hmem n _).1 hm
    rw [hvo n hm1]
    exact hnv n hm1
  refine ⟨S, _, hS, (loadSchema_describes types vals none S hn hd hS).1, ?_, ?_, ?_, ?_⟩
  · rw [featuresOf_names]; exact hsort.sublist hsub
  · intro n
    rw [featuresOf_names, List.mem_map]
    constructor
    · rintro ⟨⟨m, ty⟩, hm, rfl⟩
      obtain ⟨hm1, hm2⟩ := (hmem m ty).1 hm
      refine ⟨_, by rw [htypes, List.tail_cons]; exact List.mem_map.2 ⟨m, hm1, rfl⟩, rfl, ?_⟩
      change typeStr (typ m) ≠ []
      rw [hm2]
      cases ty <;> decide
    · rintro ⟨row, hrow, hhead, hty⟩
      rw [htypes, List.tail_cons] at hrow
      obtain ⟨m, hm, rfl⟩ := List.mem_map.1 hrow
      simp only [List.head?_cons, Option.some.injEq] at hhead
      subst hhead
      cases ht' : typ m with
      | none => rw [ht'] at hty; exact absurd rfl hty
      | some ty => exact ⟨(m, ty), (hmem m ty).2 ⟨hm, ht'⟩, rfl⟩
  · intro n vs hm
    obtain ⟨⟨m, ty⟩, hnt, he⟩ := List.mem_map.1 hm
    cases ty with
    | ordinal => simp [featureOf] at he
    | categorical =>
      simp only [featureOf, Prod.mk.injEq, Feature.cat.injEq] at he
      obtain ⟨rfl, rfl⟩ := he
      obtain ⟨hm1, hm2⟩ := (hmem m _).1 hnt
      have hr := hrule m hm1
      rw [hm2] at hr
      rw [hvo m hm1]
      exact ⟨hr.2.1, by rw [List.length_map]; exact hr.1.len, hval2 m hm1⟩
  · intro n lo hi hm
    obtain ⟨⟨m, ty⟩, hnt, he⟩ := List.mem_map.1 hm
    cases ty with
    | categorical => simp [featureOf] at he
    | ordinal =>
      simp only [featureOf, Prod.mk.injEq, Feature.ord.injEq] at he
      obtain ⟨rfl, rfl, rfl⟩ := he
      obtain ⟨hm1, hm2⟩ := (hmem m _).1 hnt
      obtain ⟨o1, o2⟩ := hord m hnt
      have hne := filterMap_ne_nil (T := T) (valuesOf vals m) o1 fun v hv h0 => by
        obtain ⟨i, hi, -⟩ := o2 v hv
        rw [h0] at hi; simp at hi
      obtain ⟨a, -, ha, hb⟩ := sorted_ends _ hne
      have hget : ∀ i ∈ (valuesOf vals m).filterMap T.parseInt, 0 ≤ i ∧ i ≤ 20 ∧ ∃ v, 2 ≤ occurs T files m v ∧ T.parseInt v = some i := by
        intro i hi
        obtain ⟨v, hv, hvi⟩ := List.mem_filterMap.1 hi
        obtain ⟨j, hj, hj0, hj1⟩ := o2 v hv
        rw [hvi] at hj; injection hj with hj; subst hj
        exact ⟨hj0, hj1, v, hval2 m hm1 v (by rw [← hvo m hm1]; exact hv), hvi⟩
      rw [ha, hb]
      simp only [Option.getD_some]
      obtain ⟨a1, a2, v, a3, a4⟩ := hget a (List.min?_eq_some_iff.1 ha).1
      obtain ⟨b1, b2, w, b3, b4⟩ := hget _ (List.max?_eq_some_iff.1 hb).1
      exact ⟨a1, (List.max?_eq_some_iff.1 hb).2 a (List.min?_eq_some_iff.1 ha).1, b2, v, w, a3, a4, b3, b4⟩

/-- A schema without typed features is refused. -/
theorem loadSchema_untyped (types vals : List (List Str)) (groups : Option (List (List Str)))
    (ht : ∀ row ∈ types.tail, row.getD 1 [] = []) (S : Schema) : loadSchema T types vals groups ≠ .ok S := by
  intro hS
  obtain ⟨-, -, -, -, hne, -⟩ := loadSchema_parts types vals groups S hS
  obtain ⟨nt, hnt⟩ := List.exists_mem_of_ne_nil _ hne
  rw [typedRows_eq, List.mem_filterMap] at hnt
  obtain ⟨row, hrow, he⟩ := hnt
  have := ht row hrow
  match row, he, this with
  | n :: t :: r, he, this =>
    have : t = [] := this
    subst this
    simp [typedRow] at he

/-- The hypotheses hold for the repository's test data. -/
example : Lawful asciiText ∧ (∃ types vals, guessSchema asciiText [("tiny_data.csv".toList, tinyData)] = .ok (types, vals) ∧
    (∃ row ∈ types.tail, row.getD 1 [] ≠ []) ∧
    (loadSchema asciiText types vals none).map (fun S => (S.featureNames, S.raggedIndex)) =
      .ok (["decade", "genre", "rating"].map String.toList, [0, 3, 6, 8])) :=
  ⟨asciiText_lawful, _, _, rfl, by decide +kernel, by decide +kernel⟩

end TreeCat
