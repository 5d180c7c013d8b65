import Mathlib.Data.Finset.Dedup
import Mathlib.Data.List.TakeWhile
import Verif.Lemmas.Dict
import Verif.Spec.Format

/-! The counters of `guess_schema`. -/

namespace TreeCat

open Spec
open Config (Str)

/-- The counters hold the statistics of the cells `cs`. -/
structure Counted (s : GuessState) (cs : List (Str × Str)) : Prop where
  total : ∀ n, Dict.getD s.totals n 0 = cs.countP fun nv => nv.1 = n
  count : ∀ n v, Dict.getD (Dict.getD s.values n []) v 0 = cs.count (n, v)
  keys : ∀ n v, v ∈ Dict.keys (Dict.getD s.values n []) ↔ (n, v) ∈ cs
  nodup : ∀ n, (Dict.keys (Dict.getD s.values n [])).Nodup

theorem Counted.cell {T : Text} {s : GuessState} {cs : List (Str × Str)} (h : Counted s cs) (nv : Str × Str) :
    Counted (guessCell T s nv) (cs ++ [(nv.1, normalize T nv.2)].filter fun nv => nv.2 ≠ []) := by
  unfold guessCell
  by_cases h0 : normalize T nv.2 = []
  · simp only [h0, if_true]; simpa [List.filter] using h
  · simp only [h0, if_false]
    have hf : ([(nv.1, normalize T nv.2)].filter fun nv => nv.2 ≠ []) = [(nv.1, normalize T nv.2)] := by simp [h0]
    rw [hf]
    refine ⟨fun n => ?_, fun n v => ?_, fun n v => ?_, fun n => ?_⟩
    · rw [Dict.getD_set, List.countP_append, h.total, h.total, List.countP_singleton]
      dsimp only
      by_cases e : nv.1 = n
      · rw [if_pos e, e]; simp
      · rw [if_neg e]; simp [e]
    · rw [Dict.getD_set, List.count_append, List.count_singleton]
      by_cases e : nv.1 = n
      · subst e
        rw [if_pos rfl, Dict.getD_set, h.count, ]
        by_cases e2 : normalize T nv.2 = v
        · subst e2; simp
        · rw [if_neg e2, h.count]; simp [e2]
      · rw [if_neg e, h.count]; simp [e]
    · rw [Dict.getD_set, List.mem_append]
      by_cases e : nv.1 = n
      · subst e
        rw [if_pos rfl, Dict.mem_keys_set, h.keys]
        simp [or_comm]
      · rw [if_neg e, h.keys]; simp [Ne.symm e]
    · rw [Dict.getD_set]
      split
      · exact Dict.nodup_set (h.nodup _) _ _
      · exact h.nodup n

theorem guessCell_same {T : Text} (s : GuessState) (nv : Str × Str) :
    (guessCell T s nv).names = s.names ∧ (guessCell T s nv).sources = s.sources := by
  unfold guessCell
  dsimp only
  split <;> exact ⟨rfl, rfl⟩

theorem Counted.cells {T : Text} (l : List (Str × Str)) {s : GuessState} {cs : List (Str × Str)} (h : Counted s cs) :
    Counted (l.foldl (guessCell T) s) (cs ++ (l.map fun nv => (nv.1, normalize T nv.2)).filter fun nv => nv.2 ≠ []) ∧
    (l.foldl (guessCell T) s).names = s.names ∧ (l.foldl (guessCell T) s).sources = s.sources := by
  induction l generalizing s cs with
  | nil => exact ⟨by simpa using h, rfl, rfl⟩
  | cons nv l ih =>
    rw [List.foldl_cons, List.map_cons, show ((nv.1, normalize T nv.2) :: l.map fun nv => (nv.1, normalize T nv.2)) =
      [(nv.1, normalize T nv.2)] ++ l.map fun nv => (nv.1, normalize T nv.2) from rfl, List.filter_append, ← List.append_assoc]
    obtain ⟨h1, h2, h3⟩ := ih (h.cell (T := T) nv)
    exact ⟨h1, h2.trans (guessCell_same s nv).1, h3.trans (guessCell_same s nv).2⟩

theorem Counted.rows {T : Text} (header : List Str) (rows : List (List Str)) {s : GuessState} {cs : List (Str × Str)} (h : Counted s cs) :
    Counted (rows.foldl (fun s row => (header.zip row).foldl (guessCell T) s) s)
      (cs ++ rows.flatMap fun row => ((header.zip row).map fun nv => (nv.1, normalize T nv.2)).filter fun nv => nv.2 ≠ []) ∧
    (rows.foldl (fun s row => (header.zip row).foldl (guessCell T) s) s).names = s.names ∧
    (rows.foldl (fun s row => (header.zip row).foldl (guessCell T) s) s).sources = s.sources := by
  induction rows generalizing s cs with
  | nil => exact ⟨by simpa using h, rfl, rfl⟩
  | cons row rows ih =>
    rw [List.foldl_cons, List.flatMap_cons, ← List.append_assoc]
    obtain ⟨g1, g2, g3⟩ := h.cells (T := T) (header.zip row)
    obtain ⟨h1, h2, h3⟩ := ih g1
    exact ⟨h1, h2.trans g2, h3.trans g3⟩

theorem setUnion_spec (b a : List Str) (ha : a.Nodup) : (setUnion a b).Nodup ∧ ∀ x, x ∈ setUnion a b ↔ x ∈ a ∨ x ∈ b := by
  unfold setUnion
  induction b generalizing a with
  | nil => exact ⟨ha, by simp⟩
  | cons y b ih =>
    rw [List.foldl_cons]
    by_cases hy : y ∈ a
    · rw [if_pos hy]
      obtain ⟨h1, h2⟩ := ih a ha
      refine ⟨h1, fun x => ?_⟩
      rw [h2, List.mem_cons]
      constructor
      · rintro (h | h)
        · exact .inl h
        · exact .inr (.inr h)
      · rintro (h | rfl | h)
        · exact .inl h
        · exact .inl hy
        · exact .inr h
    · rw [if_neg hy]
      obtain ⟨h1, h2⟩ := ih (a ++ [y]) (by
        rw [List.nodup_append]
        exact ⟨ha, by simp, fun x hx z hz => by simp at hz; subst hz; rintro rfl; exact hy hx⟩)
      refine ⟨h1, fun x => ?_⟩
      rw [h2, List.mem_append, List.mem_singleton, List.mem_cons, or_assoc]

theorem sources_fold (base : Str) (names : List Str) (hn : names.Nodup) (d : Dict Str (List Str)) (n : Str) :
    Dict.getD (names.foldl (fun d name => Dict.set d name (Dict.getD d name [] ++ [base])) d) n [] =
      if n ∈ names then Dict.getD d n [] ++ [base] else Dict.getD d n [] := by
  induction names generalizing d with
  | nil => rfl
  | cons m names ih =>
    rw [List.nodup_cons] at hn
    rw [List.foldl_cons, ih hn.2, Dict.getD_set]
    by_cases e : m = n
    · subst e
      rw [if_neg hn.1, if_pos rfl, if_pos (by simp)]
    · rw [if_neg e]
      by_cases h : n ∈ names
      · rw [if_pos h, if_pos (by simp [h])]
      · rw [if_neg h, if_neg (by simp [h, Ne.symm e])]

/-- Everything that is known after reading the files `fs`. -/
structure Read (T : Text) (fs : List (Str × List (List Str))) (s : GuessState) : Prop where
  counted : Counted s (Spec.cells T fs)
  nodup : s.names.Nodup
  names : ∀ n, n ∈ s.names ↔ ∃ f ∈ fs, n ∈ headerOf f.2
  sources : ∀ n, Dict.getD s.sources n [] = (fs.dropWhile fun f => decide (n ∉ headerOf f.2)).map Prod.fst

theorem read_nil (T : Text) : Read T [] ⟨[], [], [], []⟩ where
  counted := ⟨fun _ => rfl, fun _ _ => rfl, fun _ _ => by simp [Dict.getD, Dict.get?, Dict.keys, Spec.cells], fun _ => by simp [Dict.getD, Dict.get?, Dict.keys]⟩
  nodup := by simp
  names := by simp
  sources _ := rfl

theorem Read.file {T : Text} {fs : List (Str × List (List Str))} {s : GuessState} (h : Read T fs s) (f : Str × List (List Str))
    (hf : f.2 ≠ []) : ∃ s', guessFile T s f = .ok s' ∧ Read T (fs ++ [f]) s' := by
  obtain ⟨base, rows⟩ := f
  cases rows with
  | nil => exact absurd rfl hf
  | cons header rows =>
    refine ⟨_, rfl, ?_⟩
    obtain ⟨u1, u2⟩ := setUnion_spec header s.names h.nodup
    have h0 : Counted ⟨s.totals, s.values, setUnion s.names header, List.foldl
        (fun d name => Dict.set d name (Dict.getD d name [] ++ [base])) s.sources (setUnion s.names header)⟩ (Spec.cells T fs) :=
      ⟨h.counted.total, h.counted.count, h.counted.keys, h.counted.nodup⟩
    obtain ⟨h1, h2, h3⟩ := h0.rows (T := T) header rows
    refine ⟨?_, ?_, ?_, ?_⟩
    · unfold Spec.cells at h1 ⊢
      rw [List.flatMap_append, List.flatMap_singleton]
      exact h1
    · rw [h2]; exact u1
    · intro n
      rw [h2]
      change n ∈ setUnion s.names header ↔ _
      rw [u2, h.names]
      constructor
      · rintro (⟨f, hf, hn⟩ | hn)
        · exact ⟨f, by simp [hf], hn⟩
        · exact ⟨(base, header :: rows), by simp, hn⟩
      · rintro ⟨f, hf, hn⟩
        rcases List.mem_append.1 hf with hf | hf
        · exact .inl ⟨f, hf, hn⟩
        · rw [List.mem_singleton] at hf; subst hf; exact .inr hn
    · intro n
      rw [h3]
      change Dict.getD ((setUnion s.names header).foldl _ s.sources) n [] = _
      rw [sources_fold _ _ u1, h.sources, List.dropWhile_append]
      by_cases hall : (fs.dropWhile fun f => decide (n ∉ headerOf f.2)) = []
      · have hno : ¬ ∃ f ∈ fs, n ∈ headerOf f.2 := by
          rintro ⟨f, hf, hn⟩
          have := List.dropWhile_eq_nil_iff.1 hall f hf
          simp [hn] at this
        rw [hall]
        simp only [List.isEmpty_nil, if_true, List.map_nil, List.nil_append]
        rw [List.dropWhile_cons]
        by_cases hn : n ∈ header
        · rw [if_pos ((u2 n).2 (.inr hn)), if_neg (by simp [headerOf, hn])]
          rfl
        · rw [if_neg, if_pos (by simp [headerOf, hn])]
          · rfl
          · rw [u2, h.names, not_or]; exact ⟨hno, hn⟩
      · have hyes : ∃ f ∈ fs, n ∈ headerOf f.2 := by
          by_contra hno
          apply hall
          rw [List.dropWhile_eq_nil_iff]
          intro f hf
          simp only [decide_eq_true_eq]
          exact fun hn => hno ⟨f, hf, hn⟩
        rw [if_pos ((u2 n).2 (.inl ((h.names n).2 hyes)))]
        rw [if_neg (by simpa using hall), List.map_append]
        rfl

theorem read_files {T : Text} (rest fs : List (Str × List (List Str))) {s : GuessState} (h : Read T fs s) (hr : ∀ f ∈ rest, f.2 ≠ []) :
    ∃ s', rest.foldlM (guessFile T) s = .ok s' ∧ Read T (fs ++ rest) s' := by
  induction rest generalizing fs s with
  | nil => exact ⟨s, rfl, by simpa using h⟩
  | cons f rest ih =>
    obtain ⟨s1, e1, h1⟩ := h.file f (hr f (by simp))
    obtain ⟨s2, e2, h2⟩ := ih (fs ++ [f]) h1 fun g hg => hr g (by simp [hg])
    refine ⟨s2, ?_, by simpa using h2⟩
    rw [List.foldlM_cons, e1]
    exact e2

end TreeCat
