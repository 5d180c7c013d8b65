import Verif.Model.JoinCsv
import Verif.Props.Join

/-!
# C91: joining csv files
-/

namespace TreeCat

open Join

namespace Spec

/-- The field of a line below a name. -/
def fieldOf (header line : List Name) (name : Name) : Name := ((header.zip line).lookup name).getD []

/-- A csv file that pandas reads as it stands: distinct non-empty names, none of them reserved, with that of the key, and lines
that are neither empty nor longer than the header, with distinct keys. -/
structure CsvFile (isNa : Name → Bool) (column : Name) (header : List Name) (lines : List (List Name)) : Prop where
  key : column ∈ header
  names : header.Nodup
  nonempty : ∀ name ∈ header, name ≠ [] ∧ ¬ suffix <:+ name
  widths : ∀ line ∈ lines, line ≠ [] ∧ line.length ≤ header.length
  present : ∀ line ∈ lines, isNa (fieldOf header line column) = false
  keys : (lines.map fun line => fieldOf header line column).Nodup

/-- A file says that the row of a key has a value, one that pandas does not read as missing. -/
def Says (isNa : Name → Bool) (column : Name) (file : List Name × List (List Name)) (key name value : Name) : Prop :=
  name ∈ file.1 ∧ isNa value = false ∧ ∃ line ∈ file.2, fieldOf file.1 line column = key ∧ fieldOf file.1 line name = value

end Spec

open Spec

theorem lookup_zip_idxOf (header line : List Name) (c : Name) (h : c ∈ header) :
    ((header.zip line).lookup c).getD [] = line.getD (header.idxOf c) [] := by
  induction header generalizing line with
  | nil => simp at h
  | cons a header ih =>
    cases line with
    | nil => simp
    | cons b line =>
      by_cases e : c = a
      · subst e; simp
      · have hb : (c == a) = false := by simpa using e
        have hb' : (a == c) = false := by simpa using fun h => e h.symm
        rw [List.zip_cons_cons, List.lookup_cons, hb, List.idxOf_cons, hb']
        simpa using ih line ((List.mem_cons.1 h).resolve_left e)

theorem cellAt_eq (isNa : Name → Bool) {header : List Name} (line : List Name) {c : Name} (h : c ∈ header) :
    cellAt isNa header line c = if isNa (fieldOf header line c) then none else some (fieldOf header line c) := by
  unfold cellAt fieldOf
  rw [if_pos h, lookup_zip_idxOf _ _ _ h]

theorem cellAt_key {isNa : Name → Bool} {column : Name} {header : List Name} {lines : List (List Name)}
    (h : CsvFile isNa column header lines) {line : List Name} (hl : line ∈ lines) :
    cellAt isNa header line column = some (fieldOf header line column) := by
  rw [cellAt_eq _ _ h.key, h.present _ hl]
  rfl

/-- The frame of a csv file. -/
def frameOf (isNa : Name → Bool) (file : List Name × List (List Name)) : DataFrame Name where
  columns := file.1
  rows := file.2.map (cellAt isNa file.1)

theorem readCsv_ok {isNa : Name → Bool} {column : Name} {header : List Name} {lines : List (List Name)}
    (h : CsvFile isNa column header lines) : readCsv isNa (header :: lines) = .ok (frameOf isNa (header, lines)) := by
  have hne : header ≠ [] := List.ne_nil_of_mem h.key
  have hf : (header :: lines).filter (fun line => line ≠ []) = header :: lines := by
    rw [List.filter_eq_self]
    intro line hl
    rcases List.mem_cons.1 hl with rfl | hl
    · simpa using hne
    · simpa using (h.widths _ hl).1
  unfold readCsv
  rw [hf]
  exact if_pos ⟨h.names, fun hm => (h.nonempty _ hm).1 rfl, fun row hr => (h.widths _ hr).2⟩

theorem joinable_frameOf {isNa : Name → Bool} {column : Name} {header : List Name} {lines : List (List Name)}
    (h : CsvFile isNa column header lines) : Joinable column (frameOf isNa (header, lines)) where
  key := h.key
  columns := h.names
  keys := by
    have e : ((frameOf isNa (header, lines)).rows.map fun r => r column) =
        (lines.map fun line => fieldOf header line column).map some := by
      simp only [frameOf, List.map_map]
      exact List.map_congr_left fun line hl => cellAt_key h hl
    rw [e]
    exact h.keys.map (Option.some_injective _)
  names c hc := (h.nonempty c hc).2

theorem cellOf_frameOf {isNa : Name → Bool} {column : Name} {file : List Name × List (List Name)}
    (h : CsvFile isNa column file.1 file.2) (key c value : Name) :
    cellOf column (some key) c (frameOf isNa file) = some value ↔ Says isNa column file key c value := by
  obtain ⟨header, lines⟩ := file
  have J := joinable_frameOf h
  constructor
  · intro e
    unfold cellOf at e
    split at e
    · rename_i hc
      obtain ⟨r, hr, er⟩ := List.exists_of_findSome?_eq_some e
      obtain ⟨line, hl, rfl⟩ := List.mem_map.1 hr
      split at er
      · rename_i ek
        rw [cellAt_key h hl, Option.some_inj] at ek
        have hc' : c ∈ header := hc
        rw [cellAt_eq _ _ hc'] at er
        split at er
        · simp at er
        · rename_i hna
          rw [Option.some_inj] at er
          subst er
          exact ⟨hc', by simpa using hna, line, hl, ek, rfl⟩
      · simp at er
    · simp at e
  · rintro ⟨hc, hna, line, hl, rfl, rfl⟩
    have := find_of_nodup J (c := c) hc (r := cellAt isNa header line) (List.mem_map.2 ⟨line, hl, rfl⟩)
    rw [cellAt_key h hl] at this
    rw [this, cellAt_eq _ _ hc]
    have hna' : isNa (fieldOf header line c) = false := hna
    rw [hna']
    rfl

theorem readAll_ok {isNa : Name → Bool} {column : Name} {disk : Name → Option CsvTable} {paths : List Name}
    {files : List (List Name × List (List Name))}
    (h : List.Forall₂ (fun path file => disk path = some (file.1 :: file.2) ∧ CsvFile isNa column file.1 file.2) paths files) :
    (paths.mapM fun path => do
      let file ← openCsv disk path
      readCsv isNa file) = (.ok (files.map (frameOf isNa)) : Py _) := by
  induction h with
  | nil => rfl
  | cons h _ ih =>
    rw [List.mapM_cons, ih, openCsv, h.1]
    simp only [bind, Except.bind, readCsv_ok h.2]
    rfl

theorem fieldOf_head (column : Name) (names : List Name) (v : Name) (vs : List Name) :
    fieldOf (column :: names) (v :: vs) column = v := by
  simp [fieldOf]

theorem fieldOf_tail {column : Name} (names : List Name) (v : Name) (f : Name → Name) {c : Name} (hc : c ∈ names)
    (hne : c ≠ column) : fieldOf (column :: names) (v :: names.map f) c = f c := by
  have hb : (c == column) = false := by simpa using hne
  unfold fieldOf
  rw [List.zip_cons_cons, List.lookup_cons, hb]
  simp only
  rw [lookup_zip_idxOf _ _ _ hc, List.getD_eq_getElem?_getD, List.getElem?_map, List.getElem?_idxOf hc]
  rfl

theorem splitOn_ne_nil' (s : Name) : s.splitOn ',' ≠ [] := List.splitOnP_ne_nil _ _

/-- **C91.** `join_csvs` of files with distinct keys and regular headers writes one file and changes no other: its header is
the key and the other names of all files, sorted; it has one line for every key of any file, and no other; and below every
name stands the value of the first file that has one, or nothing if no file has one. -/
theorem joinCsvs_spec (isNa : Name → Bool) (disk : Name → Option CsvTable) (column csvsIn csvOut : Name)
    (files : List (List Name × List (List Name)))
    (h : List.Forall₂ (fun path file => disk path = some (file.1 :: file.2) ∧ CsvFile isNa column file.1 file.2)
      (csvsIn.splitOn ',') files) :
    ∃ names lines, joinCsvs isNa disk column csvsIn csvOut = .ok (Function.update disk csvOut (some ((column :: names) :: lines))) ∧
      CsvFile isNa column (column :: names) lines ∧
      names.Pairwise (· ≤ ·) ∧ (∀ c, c ∈ names ↔ c ≠ column ∧ ∃ file ∈ files, c ∈ file.1) ∧
      (∀ key, (∃ line ∈ lines, fieldOf (column :: names) line column = key) ↔
        ∃ file ∈ files, ∃ line ∈ file.2, fieldOf file.1 line column = key) ∧
      (∀ line ∈ lines, line.length = names.length + 1 ∧
        ∀ c ∈ names, isNa (fieldOf (column :: names) line c) = true → fieldOf (column :: names) line c = []) ∧
      ∀ line ∈ lines, ∀ c ∈ names, ∀ key, fieldOf (column :: names) line column = key →
        (∀ before file after, files = before ++ file :: after → ∀ value, Says isNa column file key c value →
          (∀ other ∈ before, ∀ v, ¬ Says isNa column other key c v) → fieldOf (column :: names) line c = value) ∧
        ((∀ file ∈ files, ∀ v, ¬ Says isNa column file key c v) → fieldOf (column :: names) line c = []) := by
  have hne : files ≠ [] := by
    rintro rfl
    rw [List.forall₂_nil_right_iff] at h
    exact splitOn_ne_nil' csvsIn h
  have hf : ∀ file ∈ files, CsvFile isNa column file.1 file.2 := by
    intro file hfile
    obtain ⟨i, hi, rfl⟩ := List.getElem_of_mem hfile
    exact (h.get (by rw [h.length_eq]; exact hi) hi).2
  have hj : ∀ df ∈ files.map (frameOf isNa), Joinable column df := by
    intro df hdf
    obtain ⟨file, hfile, rfl⟩ := List.mem_map.1 hdf
    exact joinable_frameOf (hf file hfile)
  obtain ⟨res, e, hsort, hnd, hmem, hkn, hkeys, hcell⟩ := pdOuterJoin_spec column _ (by simpa using hne) hj
  have hkey : ∀ key, some key ∈ res.keys ↔ ∃ file ∈ files, ∃ line ∈ file.2, fieldOf file.1 line column = key := by
    intro key
    rw [hkeys]
    constructor
    · rintro ⟨df, hdf, r, hr, er⟩
      obtain ⟨file, hfile, rfl⟩ := List.mem_map.1 hdf
      obtain ⟨line, hl, rfl⟩ := List.mem_map.1 hr
      rw [cellAt_key (hf file hfile) hl, Option.some_inj] at er
      exact ⟨file, hfile, line, hl, er⟩
    · rintro ⟨file, hfile, line, hl, rfl⟩
      exact ⟨_, List.mem_map_of_mem hfile, _, List.mem_map_of_mem hl, cellAt_key (hf file hfile) hl⟩
  have hsome : ∀ p ∈ res.rows, ∃ key, p.1 = some key ∧ isNa key = false := by
    intro p hp
    obtain ⟨df, hdf, r, hr, er⟩ := (hkeys p.1).1 (List.mem_map_of_mem hp)
    obtain ⟨file, hfile, rfl⟩ := List.mem_map.1 hdf
    obtain ⟨line, hl, rfl⟩ := List.mem_map.1 hr
    rw [cellAt_key (hf file hfile) hl] at er
    exact ⟨_, er.symm, (hf file hfile).present _ hl⟩
  have hcol : column ∉ res.columns := fun hc => ((hmem column).1 hc).1 rfl
  have hnames : ∀ c ∈ res.columns, ∃ file ∈ files, c ∈ file.1 := by
    intro c hc
    obtain ⟨_, df, hdf, hcd⟩ := (hmem c).1 hc
    obtain ⟨file, hfile, rfl⟩ := List.mem_map.1 hdf
    exact ⟨file, hfile, hcd⟩
  let g : Option Name × (Name → Option Name) → List Name := fun p => p.1.getD [] :: res.columns.map fun c => (p.2 c).getD []
  have hg : ∀ p, fieldOf (column :: res.columns) (g p) column = p.1.getD [] := fun p => fieldOf_head _ _ _ _
  have hgc : ∀ p, ∀ c ∈ res.columns, fieldOf (column :: res.columns) (g p) c = (p.2 c).getD [] :=
    fun p c hc => fieldOf_tail _ _ _ hc fun e => hcol (e ▸ hc)
  refine ⟨res.columns, res.rows.map g, ?_, ⟨by simp, List.nodup_cons.2 ⟨hcol, hnd⟩, ?_, ?_, ?_, ?_⟩, hsort, ?_, ?_, ?_, ?_⟩
  · unfold joinCsvs
    rw [readAll_ok h]
    simp only [bind, Except.bind, e]
    rfl
  · intro c hc
    rcases List.mem_cons.1 hc with rfl | hc
    · obtain ⟨file, files', rfl⟩ := List.exists_cons_of_ne_nil hne
      exact (hf file (by simp)).nonempty _ (hf file (by simp)).key
    · obtain ⟨file, hfile, hcf⟩ := hnames c hc
      exact (hf file hfile).nonempty c hcf
  · intro line hl
    obtain ⟨p, _, rfl⟩ := List.mem_map.1 hl
    simp [g]
  · intro line hl
    obtain ⟨p, hp, rfl⟩ := List.mem_map.1 hl
    obtain ⟨key, ek, hk⟩ := hsome p hp
    rw [hg, ek]
    exact hk
  · rw [List.map_map]
    have e' : res.rows.map ((fun line => fieldOf (column :: res.columns) line column) ∘ g) = res.keys.map fun k => k.getD [] := by
      rw [Indexed.keys, List.map_map]
      exact List.map_congr_left fun p _ => hg p
    rw [e']
    refine List.Nodup.map_on ?_ hkn
    intro a ha b hb eab
    obtain ⟨p, hp, rfl⟩ := List.mem_map.1 ha
    obtain ⟨q, hq, rfl⟩ := List.mem_map.1 hb
    obtain ⟨k, ek, _⟩ := hsome p hp
    obtain ⟨k', ek', _⟩ := hsome q hq
    rw [ek, ek'] at eab ⊢
    simpa using eab
  · intro c
    rw [hmem]
    simp [frameOf]
  · intro key
    rw [← hkey]
    constructor
    · rintro ⟨line, hl, rfl⟩
      obtain ⟨p, hp, rfl⟩ := List.mem_map.1 hl
      obtain ⟨k, ek, _⟩ := hsome p hp
      rw [hg, ek]
      exact ek ▸ List.mem_map_of_mem hp
    · intro hk
      obtain ⟨p, hp, ep⟩ := List.mem_map.1 hk
      exact ⟨g p, List.mem_map_of_mem hp, by rw [hg, ep]; rfl⟩
  · intro line hl
    obtain ⟨p, hp, rfl⟩ := List.mem_map.1 hl
    refine ⟨by simp [g], fun c hc hv => ?_⟩
    rw [hgc p c hc] at hv ⊢
    obtain ⟨k, ek, _⟩ := hsome p hp
    rw [hcell p hp c hc, ek] at hv ⊢
    cases hfs : (files.map (frameOf isNa)).findSome? (cellOf column (some k) c) with
    | none => rfl
    | some v =>
      rw [hfs] at hv
      obtain ⟨df, hdf, ev⟩ := List.exists_of_findSome?_eq_some hfs
      obtain ⟨file, hfile, rfl⟩ := List.mem_map.1 hdf
      have := ((cellOf_frameOf (hf file hfile) k c v).1 ev).2.1
      simp [this] at hv
  · intro line hl c hc key ekey
    obtain ⟨p, hp, rfl⟩ := List.mem_map.1 hl
    obtain ⟨k, ek, _⟩ := hsome p hp
    rw [hg, ek] at ekey
    subst ekey
    have hpc := hcell p hp c hc
    rw [ek, List.findSome?_map] at hpc
    have hnone : ∀ file ∈ files, (∀ v, ¬ Says isNa column file k c v) → cellOf column (some k) c (frameOf isNa file) = none := by
      intro file hfile hv
      rw [Option.eq_none_iff_forall_ne_some]
      intro v ev
      exact hv v ((cellOf_frameOf (hf file hfile) k c v).1 ev)
    refine ⟨fun before file after ef value hv hother => ?_, fun hv => ?_⟩
    · rw [hgc p c hc, hpc, ef, List.findSome?_append, List.findSome?_eq_none_iff.2, List.findSome?_cons]
      · rw [Function.comp_apply, (cellOf_frameOf (hf file (by simp [ef])) k c value).2 hv]
        rfl
      · intro other ho
        exact hnone other (by simp [ef, ho]) (hother other ho)
    · rw [hgc p c hc, hpc, List.findSome?_eq_none_iff.2]
      · rfl
      · intro file hfile
        exact hnone file hfile (hv file hfile)

theorem fieldOf_get (names : List Name) (line : List Name) (hn : names.Nodup) (hl : line.length = names.length) :
    names.map (fieldOf names line) = line := by
  refine List.ext_getElem (by simp [hl]) fun i h1 h2 => ?_
  have hi : i < names.length := by simpa using h1
  rw [List.getElem_map, fieldOf, lookup_zip_idxOf _ _ _ (List.getElem_mem hi), hn.idxOf_getElem,
    List.getD_eq_getElem?_getD, List.getElem?_eq_getElem h2, Option.getD_some]

/-- A file that `join_csvs` could have written is its own join. -/
theorem joinCsvs_single (isNa : Name → Bool) (disk : Name → Option CsvTable) (column path csvOut : Name) (hp : ',' ∉ path)
    (names : List Name) (lines : List (List Name)) (hd : disk path = some ((column :: names) :: lines))
    (h : CsvFile isNa column (column :: names) lines) (hs : names.Pairwise (· ≤ ·))
    (hl : ∀ line ∈ lines, line.length = names.length + 1 ∧
      ∀ c ∈ names, isNa (fieldOf (column :: names) line c) = true → fieldOf (column :: names) line c = []) :
    joinCsvs isNa disk column path csvOut = .ok (Function.update disk csvOut (disk path)) := by
  have hsplit : path.splitOn ',' = [path] := by
    apply List.splitOnP_eq_singleton
    intro x hx
    have : x ≠ ',' := fun e => hp (e ▸ hx)
    simpa using this
  have hr := readAll_ok (isNa := isNa) (column := column) (disk := disk) (paths := [path]) (files := [(column :: names, lines)])
    (.cons ⟨hd, h⟩ .nil)
  unfold joinCsvs
  rw [hsplit, hr]
  have hj : pdOuterJoin ([(column :: names, lines)].map (frameOf isNa)) column =
      .ok { columns := names, rows := (frameOf isNa (column :: names, lines)).rows.map fun r => (r column, r) } := by
    simp only [List.map_cons, List.map_nil, pdOuterJoin, setIndex_ok (joinable_frameOf h), bind, Except.bind, List.foldlM_nil]
    simp [frameOf, pure, Except.pure, List.Pairwise.insertionSort_eq hs]
  simp only [bind, Except.bind, hj]
  rw [hd]
  congr 3
  unfold toCsv
  congr 1
  simp only [frameOf, List.map_map]
  conv_rhs => rw [← List.map_id lines]
  refine List.map_congr_left fun line hline => ?_
  have hn := List.nodup_cons.1 h.names
  have e1 := fieldOf_get (column :: names) line h.names (by simpa using (hl line hline).1)
  simp only [Function.comp_apply, id]
  conv_rhs => rw [← e1]
  rw [List.map_cons, cellAt_key h hline]
  congr 1
  refine List.map_congr_left fun c hc => ?_
  rw [cellAt_eq _ _ (List.mem_cons_of_mem _ hc)]
  split
  · rename_i hv
    exact ((hl line hline).2 c hc hv).symm
  · rfl

/-- **C91.** Joining the result alone gives it back. -/
theorem joinCsvs_again (isNa : Name → Bool) (disk disk' : Name → Option CsvTable) (column csvsIn csvOut csvAgain : Name)
    (hc : ',' ∉ csvOut) (files : List (List Name × List (List Name)))
    (h : List.Forall₂ (fun path file => disk path = some (file.1 :: file.2) ∧ CsvFile isNa column file.1 file.2)
      (csvsIn.splitOn ',') files) (h' : joinCsvs isNa disk column csvsIn csvOut = .ok disk') :
    joinCsvs isNa disk' column csvOut csvAgain = .ok (Function.update disk' csvAgain (disk' csvOut)) := by
  obtain ⟨names, lines, e, hf, hs, _, _, hl, _⟩ := joinCsvs_spec isNa disk column csvsIn csvOut files h
  rw [h', Except.ok.injEq] at e
  subst e
  exact joinCsvs_single isNa _ column csvOut csvAgain hc names lines (Function.update_self ..) hf hs hl

theorem joinStep_key {α : Type} [DecidableEq α] {on : Name} {df : DataFrame α} {d d' : Indexed α}
    (h : joinStep on d df = .ok d') : on ∈ df.columns := by
  by_contra hon
  unfold joinStep pyAssert at h
  split at h <;> simp [setIndex, hon, bind, Except.bind] at h

theorem pdOuterJoin_key {α : Type} [DecidableEq α] {on : Name} {dfs : List (DataFrame α)} {res : Indexed α}
    (h : pdOuterJoin dfs on = .ok res) : ∀ df ∈ dfs, on ∈ df.columns := by
  have loop : ∀ (todo : List (DataFrame α)) (d d' : Indexed α), todo.foldlM (joinStep on) d = .ok d' →
      ∀ df ∈ todo, on ∈ df.columns := by
    intro todo
    induction todo with
    | nil => simp
    | cons df todo ih =>
      intro d d' h
      rw [List.foldlM_cons] at h
      cases e : joinStep on d df with
      | error x => rw [e] at h; simp [bind, Except.bind] at h
      | ok d1 =>
        rw [e] at h
        exact List.forall_mem_cons.2 ⟨joinStep_key e, ih d1 d' h⟩
  cases dfs with
  | nil => simp
  | cons df dfs =>
    unfold pdOuterJoin at h
    by_cases hon : on ∈ df.columns
    · simp only [setIndex, if_pos hon, bind, Except.bind] at h
      cases e : dfs.foldlM (joinStep on) ({ columns := df.columns.erase on, rows := df.rows.map fun r => (r on, r) } : Indexed α) with
      | error x =>
        change (dfs.foldlM (joinStep on) _ >>= _) = _ at h
        rw [e] at h; simp [bind, Except.bind] at h
      | ok d1 => exact List.forall_mem_cons.2 ⟨hon, loop dfs _ d1 e⟩
    · simp [setIndex, hon, bind, Except.bind] at h

/-- **C91.** If `join_csvs` returns, every file of the list exists and has the key in its header, the first line that is not
blank. -/
theorem joinCsvs_needs (isNa : Name → Bool) (disk disk' : Name → Option CsvTable) (column csvsIn csvOut : Name)
    (h : joinCsvs isNa disk column csvsIn csvOut = .ok disk') :
    ∀ path ∈ csvsIn.splitOn ',', ∃ blank header lines, disk path = some (blank ++ header :: lines) ∧
      (∀ line ∈ blank, line = []) ∧ column ∈ header := by
  unfold joinCsvs at h
  cases e : (csvsIn.splitOn ',').mapM (fun path => do
    let file ← openCsv disk path
    readCsv isNa file) with
  | error x => rw [e] at h; simp [bind, Except.bind] at h
  | ok dfs =>
    rw [e] at h
    cases e' : pdOuterJoin dfs column with
    | error x => simp [e', bind, Except.bind] at h
    | ok res =>
      intro path hp
      obtain ⟨df, hdf, ed⟩ := mapM_mem e path hp
      have hk := pdOuterJoin_key e' df hdf
      unfold openCsv at ed
      cases hd : disk path with
      | none => rw [hd] at ed; simp [bind, Except.bind] at ed
      | some file =>
        rw [hd] at ed
        change readCsv isNa file = .ok df at ed
        unfold readCsv at ed
        cases hf : file.filter fun line => line ≠ [] with
        | nil => rw [hf] at ed; simp at ed
        | cons header rows =>
          rw [hf] at ed
          simp only at ed
          split at ed
          · rw [Except.ok.injEq] at ed
            subst ed
            obtain ⟨blank, rest, ef, hb, _, _⟩ := List.filter_eq_cons_iff.1 hf
            exact ⟨blank, header, rest, by rw [ef], fun line hl => by simpa using hb line hl, hk⟩
          · simp at ed

/-- The files of `test_pd_outer_join`, format_test.py:49-60, as csv. -/
def testDisk : Name → Option CsvTable := fun path =>
  if path = ['x'] then some [[['i', 'd'], ['a'], ['b']], [['0'], ['p'], ['q']], [['1'], ['r'], ['s']], [['2'], ['t'], ['N', 'A']], [['3']]]
  else if path = ['y'] then some [[['i', 'd'], ['b'], ['c']], [['1'], ['u'], ['v']], [['2'], [], ['w']], [['3'], ['z'], ['x']], [['4'], ['y'], []]]
  else none

/-- `''` and `'NA'` are missing. -/
def testNa : Name → Bool := fun v => v == [] || v == ['N', 'A']

/-- The hypotheses of `joinCsvs_spec` hold of them. -/
example : List.Forall₂ (fun path file => testDisk path = some (file.1 :: file.2) ∧ CsvFile testNa ['i', 'd'] file.1 file.2)
    (['x', ',', 'y'].splitOn ',')
    [([['i', 'd'], ['a'], ['b']], [[['0'], ['p'], ['q']], [['1'], ['r'], ['s']], [['2'], ['t'], ['N', 'A']], [['3']]]),
     ([['i', 'd'], ['b'], ['c']], [[['1'], ['u'], ['v']], [['2'], [], ['w']], [['3'], ['z'], ['x']], [['4'], ['y'], []]])] := by
  have e : ['x', ',', 'y'].splitOn ',' = [['x'], ['y']] := by decide +kernel
  rw [e]
  refine .cons ⟨by decide, ?_⟩ (.cons ⟨by decide, ?_⟩ .nil) <;>
    exact ⟨by decide, by decide, by decide, by decide, by decide, by decide⟩

/-- What is written. -/
example : (joinCsvs testNa testDisk ['i', 'd'] ['x', ',', 'y'] ['z']).toOption.bind (fun disk => disk ['z']) =
    some [[['i', 'd'], ['a'], ['b'], ['c']], [['0'], ['p'], ['q'], []], [['1'], ['r'], ['s'], ['v']], [['2'], ['t'], [], ['w']],
      [['3'], [], ['z'], ['x']], [['4'], [], ['y'], []]] := by
  decide +kernel

/-- A file of the list that does not exist, or does not have the key. -/
example : (joinCsvs testNa testDisk ['i', 'd'] ['x', ',', 'w'] ['z']).isOk = false ∧
    (joinCsvs testNa testDisk ['c'] ['x', ',', 'y'] ['z']).isOk = false := by
  decide +kernel

end TreeCat
