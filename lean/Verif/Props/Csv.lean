import Verif.Model.Csv

/-! # C46: csv files round-trip -/

namespace TreeCat.Csv

open Config (Str)

/-! ### Line ends -/

theorem universal_append (s t : Str) (h : '\r' ∉ s) : universal (s ++ t) = s ++ universal t := by
  induction s with
  | nil => rfl
  | cons c s ih =>
    rw [List.mem_cons, not_or] at h
    rw [List.cons_append, universal, ih h.2]
    · rfl
    · rintro s' rfl; exact absurd rfl h.1
    · rintro rfl; exact absurd rfl h.1

theorem universal_no_cr (s : Str) : '\r' ∉ universal s := by
  fun_induction universal s with
  | case1 => simp
  | case2 s ih => simp [ih]
  | case3 s h ih => simp [ih]
  | case4 c s h1 h2 ih =>
    rw [List.mem_cons, not_or]
    exact ⟨fun h => h2 h.symm, ih⟩

/-! ### Reading character by character -/

/-- The reader without lines. The flag says that the text so far does not end a line. -/
def stream : Str → Reader → Bool → Py (List (List Str))
  | [], r, false => readLines [] r
  | [], r, true => readLines [[]] r
  | c :: s, r, _ => do
    let r ← step r (some c)
    if c = '\n' then do
      let r ← step r none
      if r.state = .startRecord then do
        let rest ← stream s Reader.init false
        .ok (r.fields :: rest)
      else stream s r false
    else stream s r true

theorem stream_eq (s : Str) : (∀ r, readLines (lines s) r = stream s r false) ∧
    ∀ r, readLines (match lines s with | [] => [[]] | l :: ls => l :: ls) r = stream s r true := by
  induction s with
  | nil => exact ⟨fun r => rfl, fun r => rfl⟩
  | cons c s ih =>
    have key : ∀ r, readLines (lines (c :: s)) r = stream (c :: s) r false := by
      intro r
      rw [lines, stream]
      by_cases hc : c = '\n'
      · subst hc
        rw [if_pos rfl, readLines, readLine]
        simp only [List.foldlM_cons, List.foldlM_nil, if_pos]
        cases h1 : step r (some '\n') with
        | error e => rfl
        | ok r1 =>
          simp only [bind, Except.bind, pure, Except.pure]
          cases h2 : step r1 none with
          | error e => rfl
          | ok r2 => simp only [(ih.1 _)]
      · rw [if_neg hc]
        simp only [if_neg hc]
        cases h1 : step r (some c) with
        | error e =>
          cases hl : lines s with
          | nil => simp only [readLines, readLine, List.foldlM_cons, h1, bind, Except.bind]
          | cons l ls => simp only [readLines, readLine, List.foldlM_cons, h1, bind, Except.bind]
        | ok r1 =>
          have h2 := ih.2 r1
          simp only [bind, Except.bind]
          rw [← h2]
          cases hl : lines s with
          | nil => simp only [readLines, readLine, List.foldlM_cons, h1, bind, Except.bind]
          | cons l ls => simp only [readLines, readLine, List.foldlM_cons, h1, bind, Except.bind]
    refine ⟨key, fun r => ?_⟩
    have : (match lines (c :: s) with | [] => [[]] | l :: ls => l :: ls) = lines (c :: s) := by
      cases hl : lines (c :: s) with
      | nil =>
        rw [lines] at hl
        split at hl
        · simp at hl
        · split at hl <;> simp at hl
      | cons l ls => rfl
    rw [this, key]
    rfl

/-! ### Reading what was written -/

theorem stream_quoted (f s : Str) (g : Str) (fs : List Str) (b : Bool) :
    stream ((f.flatMap fun c => if c = '"' then ['"', '"'] else [c]) ++ '"' :: s) ⟨.inQuoted, g, fs⟩ b =
      stream s ⟨.quoteInQuoted, g ++ f, fs⟩ true := by
  induction f generalizing g b with
  | nil => simp [stream, step, bind, Except.bind]
  | cons c f ih =>
    rw [List.flatMap_cons]
    by_cases hq : c = '"'
    · subst hq
      rw [if_pos rfl]
      simp only [List.cons_append, List.nil_append, stream, step, bind, Except.bind, Reader.add, if_pos]
      simp only [Char.reduceEq, if_false]
      rw [ih]
      simp
    · rw [if_neg hq]
      simp only [List.cons_append, List.nil_append]
      rw [stream]
      by_cases hn : c = '\n'
      · subst hn
        simp only [step, bind, Except.bind, Reader.add, Char.reduceEq, if_false, if_true, reduceCtorEq]
        rw [ih]
        simp
      · simp only [step, bind, Except.bind, Reader.add, if_neg hq, if_neg hn]
        rw [ih]
        simp

theorem stream_plain (f : Str) (hf : ∀ c ∈ f, special c = false) (d : Char) (s : Str) (g : Str) (fs : List Str) (b : Bool) :
    stream (f ++ d :: s) ⟨.inField, g, fs⟩ b = stream (d :: s) ⟨.inField, g ++ f, fs⟩ true := by
  induction f generalizing g b with
  | nil => simp [stream]
  | cons c f ih =>
    have hc := hf c (by simp)
    simp only [special, Bool.or_eq_false_iff, beq_eq_false_iff_ne] at hc
    obtain ⟨⟨⟨h1, h2⟩, h3⟩, h4⟩ := hc
    rw [List.cons_append, stream]
    simp only [step, h1, h3, h4, or_self, if_false, bind, Except.bind, Reader.add]
    rw [ih fun c hc => hf c (by simp [hc])]
    simp

/-- A field that is followed by a comma. -/
theorem stream_field_comma (f s : Str) (fs : List Str) (st : PState) (hst : st = .startRecord ∨ st = .startField) (b : Bool) :
    stream (writeField f ++ ',' :: s) ⟨st, [], fs⟩ b = stream s ⟨.startField, [], fs ++ [f]⟩ true := by
  have hstart : ∀ c, c ≠ '\n' → c ≠ '\r' → step ⟨st, [], fs⟩ (some c) = .ok (stepStart ⟨st, [], fs⟩ (some c)) := by
    intro c h1 h2
    rcases hst with rfl | rfl
    · simp [step, h1, h2]
    · rfl
  unfold writeField
  split
  · unfold quote
    simp only [List.cons_append, List.append_assoc, List.nil_append]
    rw [stream, hstart _ (by decide) (by decide)]
    simp only [stepStart, bind, Except.bind, Char.reduceEq, or_self, if_false, if_true]
    rw [stream_quoted]
    simp [stream, step, bind, Except.bind, Reader.save]
  · rename_i hs
    cases f with
    | nil =>
      rw [List.nil_append, stream, hstart _ (by decide) (by decide)]
      simp [stepStart, bind, Except.bind, Reader.save]
    | cons c f =>
      have hs' : ∀ c' ∈ c :: f, special c' = false := by simpa using hs
      have hc := hs' c (by simp)
      simp only [special, Bool.or_eq_false_iff, beq_eq_false_iff_ne] at hc
      obtain ⟨⟨⟨h1, h2⟩, h3⟩, h4⟩ := hc
      rw [List.cons_append, stream, hstart c h4 h3]
      simp only [stepStart, bind, Except.bind, h1, h2, h3, h4, or_self, if_false, Reader.add]
      rw [stream_plain f (fun c' hc' => hs' c' (by simp [hc']))]
      simp [stream, step, bind, Except.bind, Reader.save]

/-- What the reader does when a record is complete. -/
def emit (row : List Str) (s : Str) : Py (List (List Str)) := do
  let rest ← stream s Reader.init false
  .ok (row :: rest)

theorem stream_field_end (f s : Str) (fs : List Str) (st : PState) (hst : (st = .startRecord ∧ f ≠ []) ∨ st = .startField) (b : Bool) :
    stream (writeField f ++ '\n' :: s) ⟨st, [], fs⟩ b = emit (fs ++ [f]) s := by
  have hstart : ∀ c, c ≠ '\n' → c ≠ '\r' → step ⟨st, [], fs⟩ (some c) = .ok (stepStart ⟨st, [], fs⟩ (some c)) := by
    intro c h1 h2
    rcases hst with ⟨rfl, -⟩ | rfl
    · simp [step, h1, h2]
    · rfl
  unfold writeField emit
  split
  · unfold quote
    simp only [List.cons_append, List.append_assoc, List.nil_append]
    rw [stream, hstart _ (by decide) (by decide)]
    simp only [stepStart, bind, Except.bind, Char.reduceEq, or_self, if_false, if_true]
    rw [stream_quoted]
    simp [stream, step, bind, Except.bind, Reader.save]
  · rename_i hs
    cases f with
    | nil =>
      have : st = .startField := hst.elim (fun h => absurd rfl h.2) id
      subst this
      simp [stream, step, stepStart, bind, Except.bind, Reader.save]
    | cons c f =>
      have hs' : ∀ c' ∈ c :: f, special c' = false := by simpa using hs
      have hc := hs' c (by simp)
      simp only [special, Bool.or_eq_false_iff, beq_eq_false_iff_ne] at hc
      obtain ⟨⟨⟨h1, h2⟩, h3⟩, h4⟩ := hc
      rw [List.cons_append, stream, hstart c h4 h3]
      simp only [stepStart, bind, Except.bind, h1, h2, h3, h4, or_self, if_false, Reader.add]
      rw [stream_plain f (fun c' hc' => hs' c' (by simp [hc']))]
      simp [stream, step, bind, Except.bind, Reader.save]

/-- Joining with commas. -/
theorem join_cons (f g : Str) (row : List Str) : List.intercalate [','] ((f :: g :: row).map writeField) =
    writeField f ++ ',' :: List.intercalate [','] ((g :: row).map writeField) := by
  simp [List.intercalate]

theorem join_one (f : Str) : List.intercalate [','] ([f].map writeField) = writeField f := by
  simp [List.intercalate]

theorem stream_fields (f : Str) (row : List Str) (s : Str) (fs : List Str) (b : Bool) :
    stream (List.intercalate [','] ((f :: row).map writeField) ++ '\n' :: s) ⟨.startField, [], fs⟩ b = emit (fs ++ f :: row) s := by
  induction row generalizing f fs b with
  | nil => rw [join_one, stream_field_end f s fs .startField (.inr rfl)]
  | cons g row ih =>
    rw [join_cons, List.append_assoc, List.cons_append, stream_field_comma f _ fs .startField (.inr rfl), ih]
    simp

/-- A row as it stands in the file after the translation of line ends. -/
def rowText (row : List Str) : Str :=
  (if row = [[]] then quote [] else List.intercalate [','] (row.map writeField)) ++ ['\n']

theorem stream_row (row : List Str) (s : Str) (b : Bool) : stream (rowText row ++ s) Reader.init b = emit row s := by
  unfold rowText
  match row with
  | [] => simp [stream, step, bind, Except.bind, Reader.init, emit, List.intercalate]
  | [f] =>
    by_cases hf : f = []
    · subst hf
      simp [quote, stream, step, stepStart, bind, Except.bind, Reader.init, Reader.save, emit]
    · rw [if_neg (by simp [hf]), join_one, List.append_assoc]
      exact stream_field_end f s [] .startRecord (.inl ⟨rfl, hf⟩) b
  | f :: g :: row =>
    rw [if_neg (by simp), join_cons, List.append_assoc, List.append_assoc, List.cons_append]
    have h := stream_field_comma f (List.intercalate [','] ((g :: row).map writeField) ++ (['\n'] ++ s)) [] .startRecord (.inl rfl) b
    unfold Reader.init
    rw [h]
    have h2 := stream_fields g row s [f] true
    simpa using h2

theorem stream_rows (rows : List (List Str)) : stream (rows.flatMap rowText) Reader.init false = .ok rows := by
  induction rows with
  | nil => rfl
  | cons row rows ih =>
    rw [List.flatMap_cons, stream_row, emit, ih]
    rfl

theorem quote_no_cr (f : Str) (h : '\r' ∉ f) : '\r' ∉ quote f := by
  unfold quote
  simp only [List.cons_append, List.mem_cons, List.mem_append, List.mem_flatMap, List.not_mem_nil, or_false, not_or]
  refine ⟨by decide, fun ⟨c, hc, hm⟩ => ?_, by decide⟩
  split at hm
  · simp at hm
  · simp only [List.mem_singleton] at hm; subst hm; exact h hc

theorem writeField_no_cr (f : Str) (h : '\r' ∉ f) : '\r' ∉ writeField f := by
  unfold writeField
  split
  · exact quote_no_cr f h
  · exact h

theorem join_no_cr (row : List Str) (h : ∀ f ∈ row, '\r' ∉ f) : '\r' ∉ List.intercalate [','] (row.map writeField) := by
  match row with
  | [] => simp [List.intercalate]
  | [f] => rw [join_one]; exact writeField_no_cr f (h f (by simp))
  | f :: g :: row =>
    rw [join_cons, List.mem_append, List.mem_cons, not_or, not_or]
    exact ⟨writeField_no_cr f (h f (by simp)), by decide, join_no_cr (g :: row) fun f' hf' => h f' (List.mem_cons_of_mem _ hf')⟩

theorem universal_write (rows : List (List Str)) (h : ∀ row ∈ rows, ∀ f ∈ row, '\r' ∉ f) : universal (write rows) = rows.flatMap rowText := by
  induction rows with
  | nil => rfl
  | cons row rows ih =>
    have ih := ih fun r hr => h r (by simp [hr])
    unfold write at ih ⊢
    rw [List.flatMap_cons, List.flatMap_cons, writeRow, rowText, List.append_assoc, List.append_assoc, universal_append]
    · rw [List.cons_append, List.cons_append, List.nil_append, universal, ih]
      rfl
    · split
      · exact quote_no_cr [] (by simp)
      · exact join_no_cr row (h row (by simp))

/-- **C46**: what `csv_writer` writes, `csv_reader` reads back, whatever commas, quotes and line feeds the fields
contain, as long as they have no carriage return. -/
theorem read_write (rows : List (List Str)) (h : ∀ row ∈ rows, ∀ f ∈ row, '\r' ∉ f) : read (write rows) = .ok rows := by
  unfold read
  rw [(stream_eq _).1, universal_write rows h, stream_rows]

/-- A carriage return comes back as a line feed, since the files are opened with the translation of line ends. -/
theorem read_write_cr : ∃ rows, read (write rows) ≠ .ok rows ∧ read (write rows) = .ok [["a\nb".toList]] :=
  ⟨[["a\rb".toList]], by decide +kernel, by decide +kernel⟩

/-! ### Reading never fails -/

/-- The fields of a reader have no carriage return. -/
def Clean (r : Reader) : Prop := '\r' ∉ r.field ∧ ∀ f ∈ r.fields, '\r' ∉ f

theorem clean_init : Clean Reader.init := ⟨by simp [Reader.init], by simp [Reader.init]⟩

theorem Clean.save {r : Reader} (h : Clean r) (st : PState) : Clean (r.save st) :=
  ⟨by simp [Reader.save], by
    intro f hf
    simp only [Reader.save, List.mem_append, List.mem_singleton] at hf
    rcases hf with hf | rfl
    · exact h.2 f hf
    · exact h.1⟩

theorem Clean.add {r : Reader} (h : Clean r) (c : Char) (hc : c ≠ '\r') (st : PState) : Clean (r.add c st) :=
  ⟨by simp only [Reader.add, List.mem_append, List.mem_singleton, not_or]; exact ⟨h.1, Ne.symm hc⟩, h.2⟩

theorem step_end {r : Reader} (h : Clean r) : ∃ r', step r none = .ok r' ∧ Clean r' ∧ r'.state ≠ .eatCrnl := by
  obtain ⟨st, g, fs⟩ := r
  cases st <;> simp only [step, stepStart]
  · exact ⟨_, rfl, h, by simp⟩
  · exact ⟨_, rfl, h.save _, by simp [Reader.save]⟩
  · exact ⟨_, rfl, h.save _, by simp [Reader.save]⟩
  · exact ⟨_, rfl, h, by simp⟩
  · exact ⟨_, rfl, h.save _, by simp [Reader.save]⟩
  · exact ⟨_, rfl, h, by simp⟩

theorem step_char {r : Reader} (h : Clean r) (hs : r.state ≠ .eatCrnl) (c : Char) (hc : c ≠ '\r') :
    ∃ r', step r (some c) = .ok r' ∧ Clean r' ∧ (c ≠ '\n' → r'.state ≠ .eatCrnl) := by
  obtain ⟨st, g, fs⟩ := r
  cases st <;> simp only [step, stepStart]
  · split
    · rename_i hn; exact ⟨_, rfl, h, fun h' => absurd hn (by simp [h', hc])⟩
    · refine ⟨_, rfl, ?_⟩
      split
      · exact ⟨h, by simp⟩
      · split
        · exact ⟨h.save _, by simp [Reader.save]⟩
        · exact ⟨h.add c hc _, by simp [Reader.add]⟩
  · refine ⟨_, rfl, ?_⟩
    split
    · rename_i hn; exact ⟨h.save _, fun h' => absurd hn (by simp [h', hc])⟩
    · split
      · exact ⟨h, by simp⟩
      · split
        · exact ⟨h.save _, by simp [Reader.save]⟩
        · exact ⟨h.add c hc _, by simp [Reader.add]⟩
  · split
    · rename_i hn; exact ⟨_, rfl, h.save _, fun h' => absurd hn (by simp [h', hc])⟩
    · split
      · exact ⟨_, rfl, h.save _, by simp [Reader.save]⟩
      · exact ⟨_, rfl, h.add c hc _, by simp [Reader.add]⟩
  · split
    · exact ⟨_, rfl, h, by simp⟩
    · exact ⟨_, rfl, h.add c hc _, by simp [Reader.add]⟩
  · split
    · exact ⟨_, rfl, h.add c hc _, by simp [Reader.add]⟩
    · split
      · exact ⟨_, rfl, h.save _, by simp [Reader.save]⟩
      · split
        · rename_i hn; exact ⟨_, rfl, h.save _, fun h' => absurd hn (by simp [h', hc])⟩
        · exact ⟨_, rfl, h.add c hc _, by simp [Reader.add]⟩
  · exact absurd rfl hs

theorem readLines_nil_clean {r : Reader} (h : Clean r) : ∃ rows, readLines [] r = .ok rows ∧ ∀ row ∈ rows, ∀ f ∈ row, '\r' ∉ f := by
  rw [readLines]
  split
  · refine ⟨_, rfl, fun row hrow f hf => ?_⟩
    simp only [List.mem_singleton] at hrow
    subst hrow
    rcases List.mem_append.1 hf with hf | hf
    · exact h.2 f hf
    · simp only [List.mem_singleton] at hf; subst hf; exact h.1
  · exact ⟨_, rfl, by simp⟩

theorem stream_total (s : Str) (hs : '\r' ∉ s) (r : Reader) (hr : Clean r) (he : r.state ≠ .eatCrnl) (b : Bool) :
    ∃ rows, stream s r b = .ok rows ∧ ∀ row ∈ rows, ∀ f ∈ row, '\r' ∉ f := by
  induction s generalizing r b with
  | nil =>
    cases b with
    | false => exact readLines_nil_clean hr
    | true =>
      rw [stream, readLines, readLine]
      obtain ⟨r1, e1, c1, s1⟩ := step_end hr
      simp only [List.foldlM_nil, pure, Except.pure, bind, Except.bind, e1]
      split
      · refine ⟨[r1.fields], rfl, fun row hrow f hf => ?_⟩
        simp only [List.mem_singleton] at hrow
        subst hrow
        exact c1.2 f hf
      · exact readLines_nil_clean c1
  | cons c s ih =>
    rw [List.mem_cons, not_or] at hs
    obtain ⟨r1, e1, c1, s1⟩ := step_char hr he c (Ne.symm hs.1)
    rw [stream]
    simp only [e1, bind, Except.bind]
    split
    · obtain ⟨r2, e2, c2, s2⟩ := step_end c1
      simp only [e2]
      split
      · obtain ⟨rows, e3, c3⟩ := ih hs.2 Reader.init clean_init (by simp [Reader.init]) false
        rw [e3]
        refine ⟨_, rfl, fun row hrow => ?_⟩
        rcases List.mem_cons.1 hrow with rfl | hrow
        · exact c2.2
        · exact c3 row hrow
      · exact ih hs.2 r2 c2 s2 false
    · rename_i hn
      exact ih hs.2 r1 c1 (s1 hn) true

/-- **C46**: reading any text whatever succeeds, and no field that is read has a carriage return. So data that was read
from files can always be written and read back. -/
theorem read_total (text : Str) : ∃ rows, read text = .ok rows ∧ ∀ row ∈ rows, ∀ f ∈ row, '\r' ∉ f := by
  unfold read
  rw [(stream_eq _).1]
  exact stream_total _ (universal_no_cr text) _ clean_init (by simp [Reader.init]) false

/-- Reading, writing and reading again gives the same rows for every text. -/
theorem read_write_read (text : Str) : ∃ rows, read text = .ok rows ∧ read (write rows) = .ok rows := by
  obtain ⟨rows, h1, h2⟩ := read_total text
  exact ⟨rows, h1, read_write rows h2⟩

example : read "a,\"b \"\"c\"\", d\ne\"\r\n\n,\r\n\"x".toList =
    .ok ([["a", "b \"c\", d\ne"], [], ["", ""], ["x"]].map fun row => row.map String.toList) := by decide +kernel

example : write ([["a,b", "c\"d", ""], [""], []].map fun row => row.map String.toList) =
    "\"a,b\",\"c\"\"d\",\r\n\"\"\r\n\r\n".toList := by decide +kernel

end TreeCat.Csv
