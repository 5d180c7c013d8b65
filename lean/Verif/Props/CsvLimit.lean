import Verif.Model.CsvLimit
import Verif.Props.Csv
import Mathlib.Tactic.SplitIfs

/-!
# C46: csv fields that are too long
-/

namespace TreeCat.Csv

open Config (Str)

/-- One of the fields read so far is too long. -/
def Long (limit : Nat) (r : Reader) : Prop := ∃ f ∈ r.fields ++ [r.field], limit < f.length

theorem Long.save {limit : Nat} {r : Reader} (h : Long limit r) (st : PState) : Long limit (r.save st) := by
  obtain ⟨f, hf, hl⟩ := h
  exact ⟨f, by simp only [Reader.save]; exact List.mem_append_left _ hf, hl⟩

theorem Long.add {limit : Nat} {r : Reader} (h : Long limit r) (c : Char) (st : PState) : Long limit (r.add c st) := by
  obtain ⟨f, hf, hl⟩ := h
  rcases List.mem_append.1 hf with hf | hf
  · exact ⟨f, List.mem_append_left _ hf, hl⟩
  · rw [List.mem_singleton] at hf
    subst hf
    exact ⟨r.field ++ [c], List.mem_append_right _ (List.mem_singleton.2 rfl), by simp; omega⟩

/-- A field that is too long stays among the fields. -/
theorem step_long {limit : Nat} {r r' : Reader} (h : Long limit r) (c? : Option Char) (e : step r c? = .ok r') : Long limit r' := by
  obtain ⟨st, g, fs⟩ := r
  cases st <;> cases c? <;> simp only [step, stepStart] at e
  all_goals repeat' split at e
  all_goals first
    | (injection e with e; subst e; first | exact h | exact h.save _ | exact h.add _ _)
    | cases e

/-- The check, after a step. -/
def within (limit : Nat) (r : Reader) : Py Reader := if r.field.length ≤ limit then .ok r else .error .csvError

/-- One step with the limit is one step without it and then a check. -/
theorem stepL_eq (limit : Nat) (r : Reader) (c? : Option Char) (h : r.field.length ≤ limit) :
    stepL limit r c? = step r c? >>= within limit := by
  have hadd : ∀ c st, r.addL limit c st = (.ok (r.add c st) >>= within limit) := by
    intro c st
    change _ = within limit (r.add c st)
    unfold Reader.addL within
    simp only [Reader.add, List.length_append, List.length_singleton]
    by_cases h1 : limit ≤ r.field.length
    · rw [if_pos h1, if_neg (by omega)]
    · rw [if_neg h1, if_pos (by omega)]
  have hsave : ∀ st, (.ok (r.save st) : Py Reader) = (.ok (r.save st) >>= within limit) := by
    intro st
    have : within limit (r.save st) = .ok (r.save st) := if_pos (Nat.zero_le limit)
    exact this.symm
  have hkeep : ∀ st, (.ok ⟨st, r.field, r.fields⟩ : Py Reader) = (.ok ⟨st, r.field, r.fields⟩ >>= within limit) := by
    intro st
    exact (if_pos h).symm
  have hself : (.ok r : Py Reader) = (.ok r >>= within limit) := (if_pos h).symm
  unfold stepL step
  cases hst : r.state <;> cases c? <;> simp only [stepStartL, stepStart]
  all_goals try split_ifs
  all_goals first
    | exact hself
    | exact hsave _
    | exact hkeep _
    | exact hadd _ _
    | rfl

theorem step_fields {r r' : Reader} (c? : Option Char) (e : step r c? = .ok r') : ∀ f ∈ r'.fields, f ∈ r.fields ++ [r.field] := by
  obtain ⟨st, g, fs⟩ := r
  cases st <;> cases c? <;> simp only [step, stepStart] at e
  all_goals repeat' split at e
  all_goals first
    | (injection e with e; subst e; intro f hf; first | exact hf | exact List.mem_append_left _ hf)
    | cases e

/-- Reading goes on in the same way, or the field has become too long and there is an exception. -/
theorem stepL_spec {limit : Nat} {r r' : Reader} (h : ¬ Long limit r) (c? : Option Char) (e : step r c? = .ok r') :
    (stepL limit r c? = .ok r' ∧ ¬ Long limit r') ∨ (stepL limit r c? = .error .csvError ∧ Long limit r') := by
  have hf : r.field.length ≤ limit := Nat.le_of_not_lt fun hc => h ⟨r.field, by simp, hc⟩
  rw [stepL_eq limit r c? hf, e]
  change (within limit r' = _ ∧ _) ∨ (within limit r' = _ ∧ _)
  unfold within
  by_cases h1 : r'.field.length ≤ limit
  · left
    refine ⟨if_pos h1, ?_⟩
    rintro ⟨f, hm, hl⟩
    rcases List.mem_append.1 hm with hm | hm
    · exact h ⟨f, step_fields c? e f hm, hl⟩
    · rw [List.mem_singleton] at hm; subst hm; omega
  · right
    exact ⟨if_neg h1, r'.field, by simp, by omega⟩

theorem fold_long {limit : Nat} (line : Str) {r r' : Reader} (h : Long limit r)
    (e : line.foldlM (fun r c => step r (some c)) r = .ok r') : Long limit r' := by
  induction line generalizing r with
  | nil => cases e; exact h
  | cons c line ih =>
    rw [List.foldlM_cons] at e
    cases h1 : step r (some c) with
    | error x => rw [h1] at e; cases e
    | ok r1 => rw [h1] at e; exact ih (step_long h _ h1) e

theorem foldL_spec {limit : Nat} (line : Str) {r r' : Reader} (h : ¬ Long limit r)
    (e : line.foldlM (fun r c => step r (some c)) r = .ok r') :
    (line.foldlM (fun r c => stepL limit r (some c)) r = .ok r' ∧ ¬ Long limit r') ∨
    (line.foldlM (fun r c => stepL limit r (some c)) r = .error .csvError ∧ Long limit r') := by
  induction line generalizing r with
  | nil => cases e; exact .inl ⟨rfl, h⟩
  | cons c line ih =>
    rw [List.foldlM_cons] at e
    rw [List.foldlM_cons]
    cases h1 : step r (some c) with
    | error x => rw [h1] at e; cases e
    | ok r1 =>
      rw [h1] at e
      rcases stepL_spec h (some c) h1 with ⟨e2, h2⟩ | ⟨e2, h2⟩
      · rw [e2]; exact ih h2 e
      · rw [e2]; exact .inr ⟨rfl, fold_long line h2 e⟩

theorem readLine_parts {r r' : Reader} {line : Str} (e : readLine r line = .ok r') :
    ∃ r1, line.foldlM (fun r c => step r (some c)) r = .ok r1 ∧ step r1 none = .ok r' := by
  unfold readLine at e
  cases h : line.foldlM (fun r c => step r (some c)) r with
  | error x => rw [h] at e; cases e
  | ok r1 => rw [h] at e; exact ⟨r1, rfl, e⟩

theorem readLine_long {limit : Nat} {r r' : Reader} {line : Str} (h : Long limit r) (e : readLine r line = .ok r') : Long limit r' := by
  obtain ⟨r1, e1, e2⟩ := readLine_parts e
  exact step_long (fold_long line h e1) _ e2

theorem readLineL_spec {limit : Nat} {r r' : Reader} {line : Str} (h : ¬ Long limit r) (e : readLine r line = .ok r') :
    (readLineL limit r line = .ok r' ∧ ¬ Long limit r') ∨ (readLineL limit r line = .error .csvError ∧ Long limit r') := by
  obtain ⟨r1, e1, e2⟩ := readLine_parts e
  unfold readLineL
  rcases foldL_spec line h e1 with ⟨e3, h3⟩ | ⟨e3, h3⟩
  · rw [e3]; exact stepL_spec h3 none e2
  · rw [e3]; exact .inr ⟨rfl, step_long h3 _ e2⟩

/-- A field is empty before its first character. -/
def Between (r : Reader) : Prop := r.state = .startRecord ∨ r.state = .eatCrnl → r.field = []

theorem step_between {r r' : Reader} (h : Between r) (c? : Option Char) (e : step r c? = .ok r') : Between r' := by
  obtain ⟨st, g, fs⟩ := r
  cases st <;> cases c? <;> simp only [step, stepStart] at e
  all_goals repeat' split at e
  all_goals first
    | (injection e with e; subst e; simp_all [Between, Reader.save, Reader.add])
    | cases e

theorem fold_between (line : Str) {r r' : Reader} (h : Between r)
    (e : line.foldlM (fun r c => step r (some c)) r = .ok r') : Between r' := by
  induction line generalizing r with
  | nil => cases e; exact h
  | cons c line ih =>
    rw [List.foldlM_cons] at e
    cases h1 : step r (some c) with
    | error x => rw [h1] at e; cases e
    | ok r1 => rw [h1] at e; exact ih (step_between h _ h1) e

/-- After a line the reader is at the start of a record or within quotes. -/
theorem readLine_end {r r' : Reader} {line : Str} (h : Between r) (e : readLine r line = .ok r') :
    (r'.state = .startRecord ∧ r'.field = []) ∨ (r'.state = .inQuoted ∧ Between r') := by
  obtain ⟨r1, e1, e2⟩ := readLine_parts e
  have hb := fold_between line h e1
  have hb' := step_between hb none e2
  by_cases hs : r'.state = .startRecord
  · exact .inl ⟨hs, hb' (.inl hs)⟩
  · refine .inr ⟨?_, hb'⟩
    obtain ⟨st, g, fs⟩ := r1
    cases st <;> simp only [step, stepStart] at e2 <;> injection e2 with e2 <;> subst e2 <;> simp_all [Reader.save]

/-- The rows with a field that is too long. -/
def HasLong (limit : Nat) (rows : List (List Str)) : Prop := ∃ row ∈ rows, ∃ f ∈ row, limit < f.length

theorem readLines_long {limit : Nat} (ls : List Str) {r : Reader} {rows : List (List Str)} (h : Long limit r) (hb : Between r)
    (hq : r.state = .inQuoted) (e : readLines ls r = .ok rows) : HasLong limit rows := by
  induction ls generalizing r rows with
  | nil =>
    rw [readLines, if_pos (.inr hq)] at e
    cases e
    obtain ⟨f, hf, hl⟩ := h
    exact ⟨_, List.mem_singleton.2 rfl, f, hf, hl⟩
  | cons l ls ih =>
    rw [readLines] at e
    cases h1 : readLine r l with
    | error x => rw [h1] at e; cases e
    | ok r1 =>
      rw [h1] at e
      simp only [bind, Except.bind] at e
      have hl1 := readLine_long h h1
      rcases readLine_end hb h1 with ⟨hs, hf⟩ | ⟨hs, hb1⟩
      · rw [if_pos hs] at e
        cases h2 : readLines ls Reader.init with
        | error x => rw [h2] at e; cases e
        | ok rest =>
          rw [h2] at e
          cases e
          obtain ⟨f, hm, hl⟩ := hl1
          refine ⟨_, List.mem_cons_self, f, ?_, hl⟩
          rcases List.mem_append.1 hm with hm | hm
          · exact hm
          · rw [List.mem_singleton, hf] at hm; subst hm; simp at hl
      · rw [if_neg (by rw [hs]; simp)] at e
        exact ih hl1 hb1 hs e

theorem readLinesL_spec {limit : Nat} (ls : List Str) {r : Reader} {rows : List (List Str)} (h : ¬ Long limit r) (hb : Between r)
    (e : readLines ls r = .ok rows) :
    (readLinesL limit ls r = .ok rows ∧ ¬ HasLong limit rows) ∨ (readLinesL limit ls r = .error .csvError ∧ HasLong limit rows) := by
  induction ls generalizing r rows with
  | nil =>
    left
    rw [readLines] at e
    rw [readLinesL]
    refine ⟨e, ?_⟩
    split at e
    · cases e
      rintro ⟨row, hr, f, hf, hl⟩
      rw [List.mem_singleton] at hr
      subst hr
      exact h ⟨f, hf, hl⟩
    · cases e
      rintro ⟨row, hr, -⟩
      simp at hr
  | cons l ls ih =>
    rw [readLines] at e
    rw [readLinesL]
    cases h1 : readLine r l with
    | error x => rw [h1] at e; cases e
    | ok r1 =>
      rw [h1] at e
      simp only [bind, Except.bind] at e
      have hend := readLine_end hb h1
      rcases readLineL_spec h h1 with ⟨e2, h2⟩ | ⟨e2, h2⟩
      · rw [e2]
        simp only [bind, Except.bind]
        rcases hend with ⟨hs, hf⟩ | ⟨hs, hb1⟩
        · rw [if_pos hs] at e ⊢
          cases h3 : readLines ls Reader.init with
          | error x => rw [h3] at e; cases e
          | ok rest =>
            rw [h3] at e
            cases e
            rcases ih (r := Reader.init) (by rintro ⟨f, hf, hl⟩; simp [Reader.init] at hf; subst hf; simp at hl)
              (by intro _; rfl) h3 with ⟨e4, h4⟩ | ⟨e4, h4⟩
            · rw [e4]
              refine .inl ⟨rfl, ?_⟩
              rintro ⟨row, hr, f, hf, hl⟩
              rcases List.mem_cons.1 hr with rfl | hr
              · exact h2 ⟨f, List.mem_append_left _ hf, hl⟩
              · exact h4 ⟨row, hr, f, hf, hl⟩
            · rw [e4]
              obtain ⟨row, hr, hx⟩ := h4
              exact .inr ⟨rfl, row, List.mem_cons_of_mem _ hr, hx⟩
        · rw [if_neg (by rw [hs]; simp)] at e ⊢
          exact ih h2 hb1 e
      · rw [e2]
        refine .inr ⟨rfl, ?_⟩
        rcases hend with ⟨hs, hf⟩ | ⟨hs, hb1⟩
        · rw [if_pos hs] at e
          cases h3 : readLines ls Reader.init with
          | error x => rw [h3] at e; cases e
          | ok rest =>
            rw [h3] at e
            cases e
            obtain ⟨f, hm, hl⟩ := h2
            refine ⟨_, List.mem_cons_self, f, ?_, hl⟩
            rcases List.mem_append.1 hm with hm | hm
            · exact hm
            · rw [List.mem_singleton, hf] at hm; subst hm; simp at hl
        · rw [if_neg (by rw [hs]; simp)] at e
          exact readLines_long ls h2 hb1 hs e

/-- **C46**, with the limit on fields: reading any text gives the rows that are in it if no field of them is too long, and raises otherwise. -/
theorem readL_iff (limit : Nat) (text : Str) : ∃ rows, read text = .ok rows ∧
    ((∀ row ∈ rows, ∀ f ∈ row, f.length ≤ limit) → readL limit text = .ok rows) ∧
    ((∃ row ∈ rows, ∃ f ∈ row, limit < f.length) → readL limit text = .error .csvError) := by
  obtain ⟨rows, e, -⟩ := read_total text
  refine ⟨rows, e, ?_⟩
  rcases readLinesL_spec (limit := limit) (r := Reader.init) _ (by rintro ⟨f, hf, hl⟩; simp [Reader.init] at hf; subst hf; simp at hl)
    (by intro _; rfl) e with ⟨e1, h1⟩ | ⟨e1, h1⟩
  · refine ⟨fun _ => e1, fun h => absurd h h1⟩
  · refine ⟨fun h => ?_, fun _ => e1⟩
    obtain ⟨row, hr, f, hf, hl⟩ := h1
    have := h row hr f hf
    omega

/-- **C46**: rows without carriage returns are read back exactly if no field has more than 131072 characters; one such field makes
the whole file unreadable. -/
theorem readL_write (limit : Nat) (rows : List (List Str)) (h : ∀ row ∈ rows, ∀ f ∈ row, '\r' ∉ f) :
    readL limit (write rows) = if ∀ row ∈ rows, ∀ f ∈ row, f.length ≤ limit then .ok rows else .error .csvError := by
  obtain ⟨rows', e, h1, h2⟩ := readL_iff limit (write rows)
  rw [read_write rows h] at e
  cases e
  split
  · rename_i hs; exact h1 hs
  · rename_i hs
    refine h2 (Classical.byContradiction fun hn => hs fun row hr f hf => Nat.le_of_not_lt fun hl => hn ⟨row, hr, f, hf, hl⟩)

/-- A quote that is never closed takes the rest of the file into its field: a file can be unreadable although no line is long. -/
theorem readL_open_quote : ∃ text : Str, (∀ l ∈ lines (universal text), l.length ≤ 4) ∧ readL 4 text = .error .csvError :=
  ⟨"\"a\nb\nc\nd\n".toList, by decide +kernel, by decide +kernel⟩

/-- **C46**, with CPython's own limit: fields of up to 131072 characters are read back, and one longer field, whatever the rest of the file,
makes it unreadable. -/
theorem readL_default (rows : List (List Str)) (h : ∀ row ∈ rows, ∀ f ∈ row, '\r' ∉ f) :
    ((∀ row ∈ rows, ∀ f ∈ row, f.length ≤ 131072) → readL fieldLimit (write rows) = .ok rows) ∧
    ((∃ row ∈ rows, ∃ f ∈ row, 131073 ≤ f.length) → readL fieldLimit (write rows) = .error .csvError) := by
  have e := readL_write fieldLimit rows h
  constructor
  · intro hs
    rw [e, if_pos (show ∀ row ∈ rows, ∀ f ∈ row, f.length ≤ fieldLimit from hs)]
  · rintro ⟨row, hr, f, hf, hl⟩
    rw [e, if_neg fun hs => absurd (hs row hr f hf) (by unfold fieldLimit; omega)]

example : readL fieldLimit (write [["name".toList, List.replicate 131072 'a']]) = .ok [["name".toList, List.replicate 131072 'a']] ∧
    readL fieldLimit (write [["name".toList], [List.replicate 131073 'a']]) = .error .csvError := by
  refine ⟨(readL_default _ ?_).1 ?_, (readL_default _ ?_).2 ⟨_, List.mem_cons_of_mem _ (List.mem_singleton.2 rfl), _, List.mem_singleton.2 rfl, ?_⟩⟩
  · intro row hr f hf
    rw [List.mem_singleton.1 hr] at hf
    rcases List.mem_cons.1 hf with rfl | hf
    · decide
    · rw [List.mem_singleton.1 hf, List.mem_replicate]; rintro ⟨-, h⟩; exact absurd h (by decide)
  · intro row hr f hf
    rw [List.mem_singleton.1 hr] at hf
    rcases List.mem_cons.1 hf with rfl | hf
    · decide
    · rw [List.mem_singleton.1 hf]; exact Nat.le_of_eq List.length_replicate
  · intro row hr f hf
    rcases List.mem_cons.1 hr with rfl | hr
    · rw [List.mem_singleton.1 hf]; decide
    · rw [List.mem_singleton.1 hr] at hf
      rw [List.mem_singleton.1 hf, List.mem_replicate]; rintro ⟨-, h⟩; exact absurd h (by decide)
  · exact Nat.le_of_eq List.length_replicate.symm

example : fieldLimit = 128 * 1024 ∧ readL 3 "abc,\"a\"\"b\"\n".toList = .ok [["abc".toList, "a\"b".toList]] ∧
    readL 2 "abc,\"a\"\"b\"\n".toList = .error .csvError := by
  refine ⟨rfl, ?_, ?_⟩ <;> decide +kernel

end TreeCat.Csv
