import Mathlib.Tactic.Linarith
import Verif.Lemmas.Guess
import Verif.Props.Normalize

/-!
# C36: what `guess_schema` writes

The source column over-reports (`guessSchema_sources_wrong`), so the main theorem is partial.
-/

namespace TreeCat

open Spec
open Config (Str intStr)

variable {T : Text}

instance : Std.Total (α := Str × Nat) (fun a b => b.2 ≤ a.2) := ⟨fun a b => Nat.le_total b.2 a.2⟩
instance : IsTrans (Str × Nat) (fun a b => b.2 ≤ a.2) := ⟨fun _ _ _ h1 h2 => Nat.le_trans h2 h1⟩

theorem valueLe_total (a b : Str × Nat) : valueLe a b ∨ valueLe b a := by
  unfold valueLe
  rcases Nat.lt_trichotomy a.2 b.2 with h | h | h
  · exact .inr (.inl h)
  · rcases le_total a.1 b.1 with h' | h'
    · exact .inl (.inr ⟨h, h'⟩)
    · exact .inr (.inr ⟨h.symm, h'⟩)
  · exact .inl (.inl h)

theorem valueLe_trans (a b c : Str × Nat) (h1 : valueLe a b) (h2 : valueLe b c) : valueLe a c := by
  unfold valueLe at *
  rcases h1 with h1 | ⟨h1, h1'⟩ <;> rcases h2 with h2 | ⟨h2, h2'⟩
  · left; omega
  · left; omega
  · left; omega
  · right; exact ⟨by omega, le_trans h1' h2'⟩

instance : Std.Total valueLe := ⟨valueLe_total⟩
instance : IsTrans (Str × Nat) valueLe := ⟨valueLe_trans⟩

theorem occurs_eq_zero_iff (files : List (Str × List (List Str))) (n v : Str) : occurs T files n v = 0 ↔ (n, v) ∉ cells T files :=
  List.count_eq_zero

theorem mem_observed (files : List (Str × List (List Str))) (n v : Str) : v ∈ observed T files n ↔ (n, v) ∈ cells T files := by
  unfold observed
  rw [List.mem_toFinset, List.mem_map]
  constructor
  · rintro ⟨⟨a, b⟩, h, rfl⟩
    rw [List.mem_filter] at h
    have : a = n := by simpa using h.2
    subst this; exact h.1
  · intro h
    exact ⟨(n, v), List.mem_filter.2 ⟨h, by simp⟩, rfl⟩

section
variable {files : List (Str × List (List Str))} {s : GuessState}

theorem Read.mem_counts (h : Read T files s) (n : Str) (vc : Str × Nat) :
    vc ∈ Dict.getD s.values n [] ↔ vc.2 = occurs T files n vc.1 ∧ 0 < vc.2 := by
  obtain ⟨v, c⟩ := vc
  rw [Dict.mem_iff (h.counted.nodup n)]
  have h1 := h.counted.count n v
  have h2 := h.counted.keys n v
  rw [Dict.mem_keys] at h2
  unfold Dict.getD at h1
  constructor
  · intro e
    rw [Dict.getD] at e
    rw [e] at h1
    simp only [Option.getD_some] at h1
    refine ⟨h1, ?_⟩
    change 0 < c
    rw [h1, List.count_pos_iff, ← h2]
    exact ⟨c, e⟩
  · rintro ⟨e1, e2⟩
    have e1' : c = occurs T files n v := e1
    have e2' : 0 < c := e2
    rw [e1'] at e2'
    obtain ⟨c', hc'⟩ := h2.2 (List.count_pos_iff.1 e2')
    rw [Dict.getD] at hc'
    rw [hc'] at h1
    simp only [Option.getD_some] at h1
    rw [Dict.getD, hc', e1', h1]
    rfl

theorem Read.isTop (h : Read T files s) (n : Str) (k : Nat) :
    IsTop T files n k ((mostCommon k ((Dict.getD s.values n []).filter fun vc => vc.2 != 1)).insertionSort valueLe) := by
  set counts := Dict.getD s.values n [] with hc
  set L0 := counts.filter fun vc => vc.2 != 1 with hL0
  have hmem : ∀ vc, vc ∈ L0 ↔ vc.2 = occurs T files n vc.1 ∧ 2 ≤ vc.2 := by
    intro vc
    rw [hL0, List.mem_filter, hc, h.mem_counts]
    simp only [bne_iff_ne, ne_eq]
    constructor
    · rintro ⟨⟨h1, h2⟩, h3⟩; exact ⟨h1, by omega⟩
    · rintro ⟨h1, h2⟩; exact ⟨⟨h1, by omega⟩, by omega⟩
  set srt := L0.insertionSort fun a b => b.2 ≤ a.2 with hsrt
  have hp : srt.Perm L0 := List.perm_insertionSort _ _
  have hd : srt.Pairwise fun a b => b.2 ≤ a.2 := List.pairwise_insertionSort _ _
  have hmc : mostCommon k L0 = srt.take k := rfl
  rw [hmc]
  have hfin : ∀ vc, vc ∈ (srt.take k).insertionSort valueLe ↔ vc ∈ srt.take k := fun vc => List.mem_insertionSort _
  have hnd : (srt.map Prod.fst).Nodup := by
    have : (L0.map Prod.fst).Nodup := (h.counted.nodup n).sublist (List.filter_sublist.map _)
    exact (hp.map Prod.fst).nodup_iff.2 this
  refine ⟨fun vc hvc => ?_, ?_, ?_, fun v hv => ?_⟩
  · exact (hmem vc).1 (hp.mem_iff.1 (List.mem_of_mem_take ((hfin vc).1 hvc)))
  · have h1 : ((srt.take k).insertionSort valueLe).Pairwise valueLe := List.pairwise_insertionSort _ _
    have h2 : (((srt.take k).insertionSort valueLe).map Prod.fst).Nodup := by
      refine ((List.perm_insertionSort valueLe (srt.take k)).map Prod.fst).nodup_iff.2 ?_
      exact hnd.sublist ((List.take_sublist k srt).map _)
    have h3 : ((srt.take k).insertionSort valueLe).Pairwise fun a b => a.1 ≠ b.1 := List.pairwise_map.1 h2
    refine (h1.and h3).imp ?_
    rintro a b ⟨hle, hne⟩
    rcases hle with h | ⟨h, h'⟩
    · exact .inl h
    · exact .inr ⟨h, lt_of_le_of_ne h' hne⟩
  · rw [List.length_insertionSort]; exact List.length_take_le _ _
  · have hvm : (v, occurs T files n v) ∈ srt := hp.mem_iff.2 ((hmem _).2 ⟨rfl, hv⟩)
    rw [← List.take_append_drop k srt, List.mem_append] at hvm
    rcases hvm with hvm | hvm
    · exact .inl (List.mem_map.2 ⟨_, (hfin _).2 hvm, rfl⟩)
    · right
      have hlen : k < srt.length := by
        by_contra hlt
        rw [List.drop_eq_nil_of_le (by omega)] at hvm
        simp at hvm
      refine ⟨by rw [List.length_insertionSort, List.length_take]; omega, fun vc hvc => ?_⟩
      rw [← List.take_append_drop k srt, List.pairwise_append] at hd
      exact hd.2.2 vc ((hfin vc).1 hvc) _ hvm

theorem Read.unique (h : Read T files s) (n : Str) : (Dict.getD s.values n []).length = (observed T files n).card := by
  have h1 : (Dict.keys (Dict.getD s.values n [])).toFinset = observed T files n := by
    ext v
    rw [List.mem_toFinset, h.counted.keys, mem_observed]
  rw [← h1, List.toFinset_card_of_nodup (h.counted.nodup n)]
  exact (List.length_map ..).symm

theorem Read.singletons (h : Read T files s) (n : Str) : ((Dict.getD s.values n []).filter fun vc => vc.2 == 1).length =
    ((observed T files n).filter fun v => occurs T files n v = 1).card := by
  set l := (Dict.getD s.values n []).filter fun vc => vc.2 == 1 with hl
  have hnd : (l.map Prod.fst).Nodup := (h.counted.nodup n).sublist (List.filter_sublist.map _)
  have h1 : (l.map Prod.fst).toFinset = (observed T files n).filter fun v => occurs T files n v = 1 := by
    ext v
    rw [List.mem_toFinset, List.mem_map, Finset.mem_filter, mem_observed]
    constructor
    · rintro ⟨⟨v', c⟩, hvc, rfl⟩
      rw [hl, List.mem_filter, h.mem_counts] at hvc
      obtain ⟨⟨e1, e2⟩, e3⟩ := hvc
      have e3' : c = 1 := by simpa using e3
      have e1' : c = occurs T files n v' := e1
      refine ⟨?_, by omega⟩
      by_contra hno
      have := (occurs_eq_zero_iff files n v').2 hno
      omega
    · rintro ⟨-, e⟩
      refine ⟨(v, 1), ?_, rfl⟩
      rw [hl, List.mem_filter, h.mem_counts]
      exact ⟨⟨e.symm, by simp⟩, by simp⟩
  rw [← h1, List.toFinset_card_of_nodup hnd, List.length_map]

end

theorem isSmallInt_iff (v : Str) : isSmallInt T v = true ↔ SmallInt T v := by
  unfold isSmallInt SmallInt
  cases T.parseInt v with
  | none => simp
  | some i =>
    simp only [maxCategories, Bool.and_eq_true, decide_eq_true_eq, Option.some.injEq, exists_eq_left']
    exact and_congr_right fun _ => decide_eq_true_iff

/-- `guess_feature_type` follows the rule on every list of at most 20 values. -/
theorem guessFeatureType_rule (count : Nat) (values : List (Str × Nat)) (h20 : values.length ≤ 20) :
    TypeRule T count (values.map Prod.fst) (guessFeatureType T count values) := by
  have hall : (values.all fun vc => isSmallInt T vc.1) = true ↔ ∀ v ∈ values.map Prod.fst, SmallInt T v := by
    rw [List.all_eq_true]
    constructor
    · intro h v hv
      obtain ⟨vc, hvc, rfl⟩ := List.mem_map.1 hv
      exact (isSmallInt_iff _).1 (h vc hvc)
    · intro h vc hvc
      exact (isSmallInt_iff _).2 (h _ (List.mem_map.2 ⟨vc, hvc, rfl⟩))
  unfold guessFeatureType
  by_cases h1 : values.length ≤ 1
  · rw [if_pos h1]; left; rw [List.length_map]; omega
  · rw [if_neg h1]
    by_cases h2 : ∀ v ∈ values.map Prod.fst, SmallInt T v
    · rw [if_pos ⟨h20, hall.2 h2⟩]
      exact ⟨by rw [List.length_map]; omega, h2⟩
    · rw [if_neg fun h => h2 (hall.1 h.2)]
      have h2' : ∃ v ∈ values.map Prod.fst, ¬ SmallInt T v := by
        by_contra hno
        exact h2 fun v hv => by by_contra hs; exact hno ⟨v, hv, hs⟩
      by_cases h3 : 2 * values.length ≤ count
      · rw [if_pos ⟨h3, h20⟩]
        exact ⟨by rw [List.length_map]; omega, h2', by rw [List.length_map]; exact h3⟩
      · rw [if_neg fun h => h3 h.1]
        exact .inr ⟨h2', by rw [List.length_map]; omega⟩

/-- What is guessed about the features of the files. -/
theorem guessFeatures_spec (files : List (Str × List (List Str))) (hf : ∀ f ∈ files, f.2 ≠ []) :
    ∃ gs, guessFeatures T files = .ok gs ∧ (gs.map Guess.name).Pairwise (· < ·) ∧
      (∀ n, n ∈ gs.map Guess.name ↔ ∃ f ∈ files, n ∈ headerOf f.2) ∧
      ∀ g ∈ gs, IsTop T files g.name 20 g.values ∧ g.total = (cells T files).countP (fun nv => nv.1 = g.name) ∧
        g.unique = (observed T files g.name).card ∧
        g.singletons = ((observed T files g.name).filter fun v => occurs T files g.name v = 1).card ∧
        TypeRule T g.total (g.values.map Prod.fst) g.type ∧
        g.sources = (files.dropWhile fun f => decide (g.name ∉ headerOf f.2)).map Prod.fst := by
  obtain ⟨s, e, h⟩ := read_files files [] (read_nil T) hf
  rw [List.nil_append] at h
  refine ⟨_, by simp only [guessFeatures, e, bind, Except.bind]; rfl, ?_, ?_, ?_⟩
  · rw [List.map_map]
    have hid : (Guess.name ∘ guessFeature T s) = id := rfl
    rw [hid, List.map_id]
    have h1 : (s.names.insertionSort (· ≤ ·)).Pairwise (· ≤ ·) := List.pairwise_insertionSort _ _
    have h2 : (s.names.insertionSort (· ≤ ·)).Nodup := (List.perm_insertionSort _ _).nodup_iff.2 h.nodup
    exact (h1.and h2).imp fun hab => lt_of_le_of_ne hab.1 hab.2
  · intro n
    rw [List.map_map]
    have hid : (Guess.name ∘ guessFeature T s) = id := rfl
    rw [hid, List.map_id, List.mem_insertionSort, h.names]
  · intro g hg
    obtain ⟨n, -, rfl⟩ := List.mem_map.1 hg
    have htop := h.isTop n 20
    exact ⟨htop, h.counted.total n, h.unique n, h.singletons n, guessFeatureType_rule _ _ htop.len, h.sources n⟩

/-- **C36**, except for the sources. For any files that have a header, `guess_schema` writes to types.csv one row for
each name in a header, in sorted order, with exact statistics and a type that follows the rule, and to values.csv
the most frequent values of each feature with their exact counts. No value that was observed only once is written.
Missing: the source column, which is wrong (`guessSchema_sources_wrong`); here it lists all files from the first one
with the feature on. -/
theorem guessSchema_partial (files : List (Str × List (List Str))) (hf : ∀ f ∈ files, f.2 ≠ []) :
    ∃ (names : List Str) (typ : Str → Option FType) (values : Str → List (Str × Nat)) (types vals : List (List Str)),
      guessSchema T files = .ok (types, vals) ∧ names.Pairwise (· < ·) ∧ (∀ n, n ∈ names ↔ ∃ f ∈ files, n ∈ headerOf f.2) ∧
      (∀ n ∈ names, IsTop T files n 20 (values n) ∧
        TypeRule T ((cells T files).countP fun nv => nv.1 = n) ((values n).map Prod.fst) (typ n)) ∧
      types = ["name".toList, "type".toList, "total".toList, "unique".toList, "singletons".toList, "source".toList] ::
        names.map (fun n => [n, typeStr (typ n), intStr ((cells T files).countP fun nv => nv.1 = n),
          intStr (observed T files n).card, intStr ((observed T files n).filter fun v => occurs T files n v = 1).card,
          joinWith ',' ((files.dropWhile fun f => decide (n ∉ headerOf f.2)).map Prod.fst)]) ∧
      vals = ["name".toList, "value".toList, "count".toList] ::
        names.flatMap (fun n => (values n).map fun vc => [n, vc.1, intStr vc.2]) := by
  obtain ⟨s, e, h⟩ := read_files files [] (read_nil T) hf
  rw [List.nil_append] at h
  refine ⟨s.names.insertionSort (· ≤ ·), fun n => (guessFeature T s n).type, fun n => (guessFeature T s n).values, _, _,
    by simp only [guessSchema, guessFeatures, e, bind, Except.bind]; rfl, ?_, ?_, ?_, ?_, ?_⟩
  · have h1 : (s.names.insertionSort (· ≤ ·)).Pairwise (· ≤ ·) := List.pairwise_insertionSort _ _
    have h2 : (s.names.insertionSort (· ≤ ·)).Nodup := (List.perm_insertionSort _ _).nodup_iff.2 h.nodup
    exact (h1.and h2).imp fun hab => lt_of_le_of_ne hab.1 hab.2
  · intro n; rw [List.mem_insertionSort, h.names]
  · intro n _
    have htop := h.isTop n 20
    refine ⟨htop, ?_⟩
    rw [← h.counted.total]
    exact guessFeatureType_rule _ _ htop.len
  · unfold typesRows
    rw [List.map_map]
    congr 1
    refine List.map_congr_left fun n _ => ?_
    simp only [Function.comp_apply, guessFeature, h.counted.total, h.unique, h.singletons, h.sources]
  · unfold valuesRows
    congr 1
    rw [List.flatMap_map]
    rfl

/-- An empty file makes `guess_schema` fail. -/
theorem guessSchema_empty (files : List (Str × List (List Str))) (f : Str × List (List Str)) (rest : List (Str × List (List Str)))
    (hf : ∀ f ∈ files, f.2 ≠ []) (h0 : f.2 = []) : guessSchema T (files ++ f :: rest) = .error .stopIteration := by
  obtain ⟨s, e, h⟩ := read_files files [] (read_nil T) hf
  have hfile : guessFile T s f = .error .stopIteration := by unfold guessFile; rw [h0]
  simp only [guessSchema, guessFeatures, List.foldlM_append, List.foldlM_cons, e, hfile, bind, Except.bind]

/-- **C36** is false as stated for the sources: the second file does not contain feature `a`, and yet is listed as a
source of it. -/
theorem guessSchema_sources_wrong : ∃ (files : List (Str × List (List Str))) (types vals : List (List Str)),
    guessSchema asciiText files = .ok (types, vals) ∧ (∀ f ∈ files, f.2 ≠ []) ∧ ∃ n, ∃ row ∈ types, row.head? = some n ∧
      (∃ f ∈ files, n ∈ headerOf f.2) ∧
      row.getLast? ≠ some (joinWith ',' ((files.filter fun f => decide (n ∈ headerOf f.2)).map Prod.fst)) := by
  refine ⟨[("x.csv".toList, [["a".toList], ["1".toList]]), ("y.csv".toList, [["b".toList], ["1".toList]])], _, _, rfl,
    by decide, "a".toList, ["a".toList, [], "1".toList, "1".toList, "1".toList, "x.csv,y.csv".toList], ?_, rfl, by decide, by decide⟩
  decide +kernel

/-- The rows of the repository's test data: eleven films with four features. -/
def tinyData : List (List Str) :=
  [["title", "genre", "decade", "rating"], ["vertigo", "thriller", "1950s", "5"], ["up", "family", "2000s", "3"],
   ["deskset", "drama", "1950s", "4"], ["santapaws", "family", "2010s", " "], ["chinatown", "mystery", "1970s", "4"],
   ["the maltese falcon", "drama", "1940s", "4"], ["rashomon", "drama", "1950s", "5"], ["alien", "fantasy", "1970s", "4"],
   ["wonder woman", "fantasy", "2010s", "3"], ["la la land", "musical", "2010s", "2"],
   ["event horizon", "horror", "1990s", "1"]].map fun row => row.map String.toList

/-- The expected output in the repository's testdata directory is what the model writes. -/
example : guessSchema asciiText [("tiny_data.csv".toList, tinyData)] = .ok
    ([["name", "type", "total", "unique", "singletons", "source"], ["decade", "categorical", "11", "6", "3", "tiny_data.csv"],
      ["genre", "categorical", "11", "7", "4", "tiny_data.csv"], ["rating", "ordinal", "10", "5", "2", "tiny_data.csv"],
      ["title", "", "11", "11", "11", "tiny_data.csv"]].map fun row => row.map String.toList,
     [["name", "value", "count"], ["decade", "1950s", "3"], ["decade", "2010s", "3"], ["decade", "1970s", "2"],
      ["genre", "drama", "3"], ["genre", "family", "2"], ["genre", "fantasy", "2"], ["rating", "4", "4"],
      ["rating", "3", "2"], ["rating", "5", "2"]].map fun row => row.map String.toList) := by
  decide +kernel

end TreeCat
