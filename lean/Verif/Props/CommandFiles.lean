import Verif.Props.QuickStart

/-!
# C60, C35: which files the commands need

`guess_schema` (format.py:185-264) works if and only if all data files are non-empty texts; `import_data` (format.py:547-577)
works only if all files it names are texts; `load_data` (format.py:392-447) on the text of a file.
-/

namespace TreeCat

open Spec
open Config (Str)

section
variable {K : Type} [Field K] [LinearOrder K] [IsStrictOrderedRing K] {M : Nat} [NeZero M] {T : Text} {S : Schema} {fs : List (Str × Feature)}

omit [Field K] [LinearOrder K] [IsStrictOrderedRing K] [NeZero M] in
theorem readText_ok {disk : Disk K M} {path text : Str} : readText disk path = .ok text ↔ disk path = some (.text text) := by
  unfold readText
  cases h : disk path with
  | none => simp
  | some f => cases f <;> simp

theorem foldlM_guessFile {files : List (Str × List (List Str))} : ∀ {s s' : GuessState}, files.foldlM (guessFile T) s = .ok s' → ∀ f ∈ files, f.2 ≠ [] := by
  induction files with
  | nil => intro _ _ _ f hf; cases hf
  | cons g files ih =>
    intro s s' h f hf
    rw [List.foldlM_cons] at h
    cases e : guessFile T s g with
    | error e' => rw [e] at h; cases h
    | ok s1 =>
      rw [e] at h
      rcases List.mem_cons.1 hf with rfl | hf
      · intro h0
        unfold guessFile at e
        rw [h0] at e
        cases e
      · exact ih h f hf

omit [Field K] [LinearOrder K] [IsStrictOrderedRing K] [NeZero M] in
/-- **C60**: `guess_schema` succeeds if and only if every data file it names is a text and not empty. A missing file, a packed file and an empty file each make it fail, and then nothing is written. -/
theorem guessSchemaCmd_iff (disk : Disk K M) (dataCsvs typesOut valuesOut : Str) :
    (∃ disk', guessSchemaCmd T disk dataCsvs typesOut valuesOut = .ok disk') ↔ ∀ p ∈ splitPaths dataCsvs, ∃ text, disk p = some (.text text) ∧ text ≠ [] := by
  constructor
  · rintro ⟨disk', h⟩ p hp
    unfold guessSchemaCmd at h
    cases e1 : (splitPaths dataCsvs).mapM (readNamed disk) with
    | error e => rw [e1] at h; cases h
    | ok files =>
      rw [e1] at h
      obtain ⟨f, hf, e2⟩ := mapM_mem e1 p hp
      unfold readNamed at e2
      cases e3 : readText disk p with
      | error e => rw [e3] at e2; cases e2
      | ok text =>
        rw [e3] at e2
        have e2' : (basename p, text) = f := Except.ok.inj e2
        subst e2'
        refine ⟨text, readText_ok.1 e3, ?_⟩
        rintro rfl
        obtain ⟨rows, er, -, -, h3⟩ := readFiles_ok files
        cases e4 : guessSchemaText T files with
        | error e => simp only [e4, bind, Except.bind] at h; cases h
        | ok tv =>
          simp only [guessSchemaText, er, bind, Except.bind, guessSchema, guessFeatures] at e4
          cases e5 : rows.foldlM (guessFile T) ⟨[], [], [], []⟩ with
          | error e => rw [e5] at e4; cases e4
          | ok s =>
            have hne := foldlM_guessFile e5
            have : ∃ g ∈ rows, Csv.read ([] : Str) = .ok g.2 := by
              clear e5 e4 er hne h e1
              induction h3 with
              | nil => cases hf
              | cons hd _ ih =>
                rcases List.mem_cons.1 hf with rfl | hf
                · exact ⟨_, List.mem_cons_self .., hd.2⟩
                · obtain ⟨g, hg, e⟩ := ih hf
                  exact ⟨g, List.mem_cons_of_mem _ hg, e⟩
            obtain ⟨g, hg, e⟩ := this
            have e6 : Csv.read ([] : Str) = .ok [] := by decide +kernel
            rw [e6] at e
            exact hne g hg (Except.ok.inj e).symm
  · intro h
    obtain ⟨files, e1, h2⟩ := mapM_forall₂ (readNamed disk) (fun p f => f.2 ≠ []) (splitPaths dataCsvs) fun p hp => by
      obtain ⟨text, ht, hne⟩ := h p hp
      refine ⟨(basename p, text), ?_, hne⟩
      simp only [readNamed, readText_ok.2 ht, bind, Except.bind]
    obtain ⟨rows, er, -, -, h3⟩ := readFiles_ok files
    have hne : ∀ f ∈ files, f.2 ≠ [] := by
      clear e1 h3 er h
      generalize splitPaths dataCsvs = ps at h2
      induction h2 with
      | nil => intro f hf; cases hf
      | cons hd _ ih =>
        intro f hf
        rcases List.mem_cons.1 hf with rfl | hf
        · exact hd
        · exact ih f hf
    have hrows : ∀ g ∈ rows, g.2 ≠ [] := by
      clear e1 h2 er h
      induction h3 with
      | nil => intro f hf; cases hf
      | cons hd _ ih =>
        intro g hg
        rcases List.mem_cons.1 hg with rfl | hg
        · intro h0
          refine Csv.read_ne_nil _ (hne _ (List.mem_cons_self ..)) ?_
          rw [hd.2, h0]
        · exact ih (fun f hf => hne f (List.mem_cons_of_mem _ hf)) g hg
    obtain ⟨names, typ, values, types, vals, e, -⟩ := guessSchema_partial (T := T) rows hrows
    refine ⟨(disk.write typesOut (.text (Csv.write types))).write valuesOut (.text (Csv.write vals)), ?_⟩
    simp only [guessSchemaCmd, e1, guessSchemaText, er, e, bind, Except.bind]

omit [Field K] [LinearOrder K] [IsStrictOrderedRing K] [NeZero M] in
/-- **C60**: `import_data` succeeds only if every file it names is a text; the path of the groups file may be empty. -/
theorem importDataCmd_texts {disk disk' : Disk K M} {dataCsvs typesIn valuesIn groupsIn datasetOut : Str}
    (h : importDataCmd T disk dataCsvs typesIn valuesIn groupsIn datasetOut = .ok disk') :
    ∀ p, p = typesIn ∨ p = valuesIn ∨ (p = groupsIn ∧ groupsIn ≠ []) ∨ p ∈ splitPaths dataCsvs → ∃ text, disk p = some (.text text) := by
  unfold importDataCmd at h
  cases e1 : readText disk typesIn with
  | error e => rw [e1] at h; cases h
  | ok types =>
    cases e2 : readText disk valuesIn with
    | error e => rw [e1, e2] at h; cases h
    | ok values =>
      cases e3 : readGroups disk groupsIn with
      | error e => rw [e1, e2, e3] at h; cases h
      | ok groups =>
        cases e4 : (splitPaths dataCsvs).mapM (readText disk) with
        | error e => rw [e1, e2, e3, e4] at h; cases h
        | ok csvs =>
          rintro p (rfl | rfl | ⟨rfl, hne⟩ | hp)
          · exact ⟨_, readText_ok.1 e1⟩
          · exact ⟨_, readText_ok.1 e2⟩
          · unfold readGroups at e3
            rw [if_neg hne] at e3
            cases e5 : readText disk p with
            | error e => rw [e5] at e3; cases e3
            | ok text => exact ⟨_, readText_ok.1 e5⟩
          · obtain ⟨text, -, e5⟩ := mapM_mem e4 p hp
            exact ⟨text, readText_ok.1 e5⟩

end

section
variable {T : Text} {S : Schema} {fs : List (Str × Feature)}

/-- **C35**, on the text of a file: the rows of the text that `csv.writer` writes are imported in their order, each cell under the name of its column. -/
theorem loadDataText_written_partial (h : Describes S fs) (hfit : Fits fs) (hne : fs ≠ []) (header : List Str) (hn : header.Nodup) (rows : List (List Str)) (hr : rows ≠ [])
    (hcr : ∀ row ∈ header :: rows, ∀ x ∈ row, '\r' ∉ x) :
    loadDataText T S (Csv.write (header :: rows)) = .ok (rows.map fun row => internalRow fs (valueOf T (cellsOf T header row))) := by
  simp only [loadDataText, Csv.read_write _ hcr, bind, Except.bind]
  exact (loadData_partial h hfit hne header hn rows hr).1

end

/-- A text with a quoted cell, a short row and an unknown value. -/
example : loadDataText asciiText tinySchema "title,genre,decade,rating\r\n\"vertigo, 1958\",  DRAMA ,,5\r\nholiday,noir\r\n".toList
    = .ok [[0, 0, 0, 1, 0, 0, 2, 0], [0, 0, 0, 0, 0, 0, 0, 0]] := by decide +kernel

/-- The quick start reads a text; after `train` the file of the ensemble is packed and cannot be read as data. -/
example : (∃ disk', guessSchemaCmd asciiText quickDisk "dir/d.csv".toList "t.csv".toList "v.csv".toList = .ok disk') ∧
    ¬ ∃ disk', guessSchemaCmd asciiText (quickDisk.write "m".toList (.packed .pickle (.ensemble []))) "dir/d.csv,m".toList "t.csv".toList "v.csv".toList = .ok disk' := by
  refine ⟨(guessSchemaCmd_iff _ _ _ _).2 ?_, fun h => ?_⟩
  · intro p hp
    have e : splitPaths "dir/d.csv".toList = ["dir/d.csv".toList] := by decide
    rw [e] at hp
    obtain rfl := List.mem_singleton.1 hp
    exact ⟨_, rfl, by decide⟩
  · obtain ⟨text, e, -⟩ := (guessSchemaCmd_iff _ _ _ _).1 h "m".toList (by decide)
    simp [Disk.write] at e

end TreeCat
