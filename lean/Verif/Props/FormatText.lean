import Verif.Lemmas.Config
import Verif.Model.FormatText
import Verif.Props.Csv
import Verif.Props.LoadGuess

/-! # C37 from file to file -/

namespace TreeCat

open Spec
open Config (Str intStr natDigits)

variable {T : Text}

theorem intStr_no_cr (n : Nat) : '\r' ∉ intStr n := by
  intro h
  have := Config.natDigits_digit n '\r' h
  revert this
  decide

theorem joinWith_no_cr (l : List Str) (h : ∀ s ∈ l, '\r' ∉ s) : '\r' ∉ joinWith ',' l := by
  match l with
  | [] => simp [joinWith]
  | [s] => exact h s (by simp)
  | s :: t :: rest =>
    rw [joinWith, List.mem_append, List.mem_cons, not_or, not_or]
    exact ⟨h s (by simp), by decide, joinWith_no_cr (t :: rest) fun s' hs' => h s' (List.mem_cons_of_mem _ hs')⟩

theorem normalize_no_cr (hT : Lawful T) (s : Str) : '\r' ∉ normalize T s := by
  intro h
  obtain ⟨a, b, e⟩ := List.append_of_mem h
  have := ((normalize_space hT s).2.2 a '\r' b e (by decide)).1
  revert this
  decide

theorem cells_no_cr (hT : Lawful T) (files : List (Str × List (List Str))) (nv : Str × Str) (h : nv ∈ cells T files) : '\r' ∉ nv.2 := by
  obtain ⟨f, -, hf⟩ := List.mem_flatMap.1 h
  obtain ⟨row, -, hrow⟩ := List.mem_flatMap.1 hf
  obtain ⟨p, -, rfl⟩ := List.mem_map.1 (List.mem_filter.1 hrow).1
  exact normalize_no_cr hT _

/-- What `guess_schema` writes has no carriage returns if its input has none. -/
theorem guessSchema_no_cr (hT : Lawful T) (files : List (Str × List (List Str))) (hf : ∀ f ∈ files, f.2 ≠ [])
    (hn : ∀ f ∈ files, '\r' ∉ f.1) (hc : ∀ f ∈ files, ∀ row ∈ f.2, ∀ x ∈ row, '\r' ∉ x) (types vals : List (List Str))
    (h : guessSchema T files = .ok (types, vals)) :
    (∀ row ∈ types, ∀ x ∈ row, '\r' ∉ x) ∧ ∀ row ∈ vals, ∀ x ∈ row, '\r' ∉ x := by
  obtain ⟨names, typ, values, types', vals', e, hsort, hnames, hrule, htypes, hvals⟩ := guessSchema_partial (T := T) files hf
  rw [h] at e
  injection e with e
  injection e with e1 e2
  subst e1 e2
  have hname : ∀ n ∈ names, '\r' ∉ n := by
    intro n hmem
    obtain ⟨f, hf', hhead⟩ := (hnames n).1 hmem
    obtain ⟨header, rest, he⟩ := List.exists_cons_of_ne_nil (hf f hf')
    rw [headerOf, he, List.headD_cons] at hhead
    exact hc f hf' header (by rw [he]; simp) n hhead
  constructor
  · intro row hrow x hx
    rw [htypes] at hrow
    rcases List.mem_cons.1 hrow with rfl | hrow
    · revert x; decide
    · obtain ⟨n, hmem, rfl⟩ := List.mem_map.1 hrow
      simp only [List.mem_cons, List.not_mem_nil, or_false] at hx
      rcases hx with rfl | rfl | rfl | rfl | rfl | rfl
      · exact hname _ hmem
      · match typ n with
        | none => decide
        | some .categorical => decide
        | some .ordinal => decide
      · exact intStr_no_cr _
      · exact intStr_no_cr _
      · exact intStr_no_cr _
      · refine joinWith_no_cr _ fun s hs => ?_
        obtain ⟨f, hf', rfl⟩ := List.mem_map.1 hs
        exact hn f ((List.dropWhile_sublist _).subset hf')
  · intro row hrow x hx
    rw [hvals] at hrow
    rcases List.mem_cons.1 hrow with rfl | hrow
    · revert x; decide
    · obtain ⟨n, hmem, hrow⟩ := List.mem_flatMap.1 hrow
      obtain ⟨vc, hvc, rfl⟩ := List.mem_map.1 hrow
      simp only [List.mem_cons, List.not_mem_nil, or_false] at hx
      rcases hx with rfl | rfl | rfl
      · exact hname _ hmem
      · obtain ⟨h1, h2⟩ := (hrule n hmem).1.exact_count vc hvc
        have : 0 < occurs T files n vc.1 := by omega
        exact cells_no_cr hT files (n, vc.1) (List.count_pos_iff.1 this)
      · exact intStr_no_cr _

theorem readFiles_ok (files : List (Str × Str)) : ∃ rows, readFiles files = .ok rows ∧ rows.map Prod.fst = files.map Prod.fst ∧
    (∀ f ∈ rows, ∀ row ∈ f.2, ∀ x ∈ row, '\r' ∉ x) ∧ List.Forall₂ (fun f g => f.1 = g.1 ∧ Csv.read f.2 = .ok g.2) files rows := by
  unfold readFiles
  induction files with
  | nil => exact ⟨[], rfl, rfl, by simp, .nil⟩
  | cons f files ih =>
    obtain ⟨rows, e, h1, h2, h3⟩ := ih
    obtain ⟨r, er, hr⟩ := Csv.read_total f.2
    refine ⟨(f.1, r) :: rows, ?_, by simp [h1], ?_, .cons ⟨rfl, er⟩ h3⟩
    · rw [List.mapM_cons, e]
      simp only [er, bind, Except.bind, pure, Except.pure]
    · intro g hg
      rcases List.mem_cons.1 hg with rfl | hg
      · exact hr
      · exact h2 g hg

/-- Only the empty text has no rows. -/
theorem Csv.read_ne_nil (text : Str) (h : text ≠ []) : Csv.read text ≠ .ok [] := by
  intro e
  unfold Csv.read at e
  have hne : Csv.universal text ≠ [] := by
    match text with
    | [] => exact absurd rfl h
    | c :: s => unfold Csv.universal; split <;> simp_all
  generalize Csv.universal text = t at e hne
  have key : ∀ (ls : List Str) (r : Csv.Reader), (∀ l ∈ ls, l ≠ []) → (ls ≠ [] ∨ r.state = .inQuoted) → Csv.readLines ls r ≠ .ok [] := by
    intro ls
    induction ls with
    | nil =>
      intro r _ hr
      rw [Csv.readLines, if_pos (.inr (hr.resolve_left (by simp)))]
      simp
    | cons l ls ih =>
      intro r hl _ he
      rw [Csv.readLines] at he
      cases h1 : Csv.readLine r l with
      | error e => rw [h1] at he; simp [bind, Except.bind] at he
      | ok r1 =>
        rw [h1] at he
        simp only [bind, Except.bind] at he
        split at he
        · cases h2 : Csv.readLines ls Csv.Reader.init with
          | error e => rw [h2] at he; simp at he
          | ok rest => rw [h2] at he; simp at he
        · rename_i hs
          refine ih r1 (fun l' h' => hl l' (by simp [h'])) (.inr ?_) he
          unfold Csv.readLine at h1
          cases h2 : l.foldlM (fun r c => Csv.step r (some c)) r with
          | error e => rw [h2] at h1; simp [bind, Except.bind] at h1
          | ok r2 =>
            rw [h2] at h1
            simp only [bind, Except.bind] at h1
            obtain ⟨st, g, fs⟩ := r2
            cases st <;> simp only [Csv.step, Csv.stepStart, Csv.Reader.save, Except.ok.injEq] at h1 <;> subst h1 <;> simp_all
  refine key (Csv.lines t) Csv.Reader.init ?_ (.inl ?_) e
  · clear * -
    induction t with
    | nil => simp [Csv.lines]
    | cons c s ih =>
      rw [Csv.lines]
      split
      · intro l hl
        rcases List.mem_cons.1 hl with rfl | hl
        · simp
        · exact ih l hl
      · split
        · simp
        · rename_i l ls heq
          intro l' hl'
          rcases List.mem_cons.1 hl' with rfl | hl'
          · simp
          · exact ih l' (by rw [heq]; simp [hl'])
  · match t with
    | [] => exact absurd rfl hne
    | c :: s =>
      rw [Csv.lines]
      split
      · simp
      · split <;> simp

/-- **C37** from file to file: for any nonempty texts of csv files, `guess_schema` succeeds, and `load_schema` on the
very texts that it writes accepts them as soon as one feature got a type. -/
theorem guessSchemaText_loads (hT : Lawful T) (files : List (Str × Str)) (hne : ∀ f ∈ files, f.2 ≠ []) (hcr : ∀ f ∈ files, '\r' ∉ f.1) :
    ∃ types vals t v, guessSchemaText T files = .ok (t, v) ∧ Csv.read t = .ok types ∧ Csv.read v = .ok vals ∧
      ((∃ row ∈ types.tail, row.getD 1 [] ≠ []) → ∃ S fs, loadSchemaText T t v none = .ok S ∧ Describes S fs ∧
        (∀ n, n ∈ fs.map Prod.fst ↔ ∃ row ∈ types.tail, row.head? = some n ∧ row.getD 1 [] ≠ []) ∧
        (∀ n vs, (n, Feature.cat vs) ∈ fs → 2 ≤ vs.length ∧ vs.length ≤ 20) ∧
        ∀ n lo hi, (n, Feature.ord lo hi) ∈ fs → 0 ≤ lo ∧ lo ≤ hi ∧ hi ≤ 20) := by
  obtain ⟨rows, er, h1, h2, h3⟩ := readFiles_ok files
  have hf : ∀ f ∈ rows, f.2 ≠ [] := by
    intro g hg h0
    have : ∃ f ∈ files, Csv.read f.2 = .ok g.2 := by
      clear * - h3 hg
      induction h3 with
      | nil => simp at hg
      | cons hab _ ih =>
        rcases List.mem_cons.1 hg with rfl | hg
        · exact ⟨_, by simp, hab.2⟩
        · obtain ⟨f, hf, e⟩ := ih hg
          exact ⟨f, by simp [hf], e⟩
    obtain ⟨f, hf, e⟩ := this
    rw [h0] at e
    exact Csv.read_ne_nil f.2 (hne f hf) e
  have hn : ∀ g ∈ rows, '\r' ∉ g.1 := by
    intro g hg
    have : g.1 ∈ files.map Prod.fst := by rw [← h1]; exact List.mem_map.2 ⟨g, hg, rfl⟩
    obtain ⟨f, hf, e⟩ := List.mem_map.1 this
    rw [← e]
    exact hcr f hf
  obtain ⟨names, typ, values, types, vals, e, -⟩ := guessSchema_partial (T := T) rows hf
  obtain ⟨c1, c2⟩ := guessSchema_no_cr hT rows hf hn h2 types vals e
  have r1 := Csv.read_write types c1
  have r2 := Csv.read_write vals c2
  refine ⟨types, vals, Csv.write types, Csv.write vals, ?_, r1, r2, fun ht => ?_⟩
  · simp only [guessSchemaText, er, e, bind, Except.bind]
  · obtain ⟨S, fs, eS, hd, -, hfs, hcat, hord⟩ := guessSchema_loads hT rows hf types vals e ht
    refine ⟨S, fs, ?_, hd, hfs, fun n vs hm => ⟨(hcat n vs hm).1, (hcat n vs hm).2.1⟩,
      fun n lo hi hm => ⟨(hord n lo hi hm).1, (hord n lo hi hm).2.1, (hord n lo hi hm).2.2.1⟩⟩
    simp only [loadSchemaText, r1, r2, eS, bind, Except.bind]

/-- A file with a quoted header and two features that get a type. -/
example : (guessSchemaText asciiText [("d.csv".toList, "\"a,b\",c\n1,x\n1,x\n2,y\r\n2,y\n3,z".toList)]).bind (fun tv =>
    (loadSchemaText asciiText tv.1 tv.2 none).map fun S => (S.featureNames, S.raggedIndex)) =
      .ok (["a,b", "c"].map String.toList, [0, 2, 4]) := by decide +kernel

end TreeCat
