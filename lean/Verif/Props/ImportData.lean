import Verif.Props.FormatText
import Verif.Props.LoadData

/-! # C47: from csv files to the table -/

namespace TreeCat

open Spec
open Config (Str)

variable {T : Text} {S : Schema} {fs : List (Str × Feature)}

/-- A csv file with distinct column names and at least one row. -/
def DataFile (csv : List (List Str)) : Prop := ∃ header rows, csv = header :: rows ∧ header.Nodup ∧ rows ≠ []

namespace Spec

/-- The rows of a table for a csv file. -/
def fileRows (T : Text) (fs : List (Str × Feature)) : List (List Str) → List (List Int)
  | [] => []
  | header :: rows => rows.map fun row => internalRow fs (valueOf T (cellsOf T header row))

end Spec

theorem blockOf_fits (F : Feature) (hF : ∀ lo hi, F = .ord lo hi → lo ≤ hi ∧ hi - lo ≤ 127) (x : Option Json) (hx : ∀ j, x = some j → Canon F j) :
    ∀ a ∈ blockOf F x, 0 ≤ a ∧ a ≤ 127 := by
  intro a ha
  match F, x, hx, ha with
  | .cat vs, some (.str s), _, ha =>
    obtain ⟨v, -, rfl⟩ := List.mem_map.1 ha
    split <;> omega
  | .ord lo hi, some (.int i), hx, ha =>
    obtain ⟨h1, h2⟩ : lo ≤ i ∧ i ≤ hi := hx _ rfl
    have := hF lo hi rfl
    simp only [blockOf, List.mem_cons, List.not_mem_nil, or_false] at ha
    omega
  | .cat vs, none, _, ha => rw [List.eq_of_mem_replicate ha]; omega
  | .ord lo hi, none, _, ha => rw [List.eq_of_mem_replicate ha]; omega
  | .cat vs, some (.int _), hx, _ => exact absurd (hx _ rfl) (by simp [Canon])
  | .cat vs, some (.bool _), hx, _ => exact absurd (hx _ rfl) (by simp [Canon])
  | .cat vs, some (.float _), hx, _ => exact absurd (hx _ rfl) (by simp [Canon])
  | .cat vs, some .nan, hx, _ => exact absurd (hx _ rfl) (by simp [Canon])
  | .cat vs, some .inf, hx, _ => exact absurd (hx _ rfl) (by simp [Canon])
  | .cat vs, some .null, hx, _ => exact absurd (hx _ rfl) (by simp [Canon])
  | .cat vs, some .container, hx, _ => exact absurd (hx _ rfl) (by simp [Canon])
  | .ord _ _, some (.str _), hx, _ => exact absurd (hx _ rfl) (by simp [Canon])
  | .ord _ _, some (.bool _), hx, _ => exact absurd (hx _ rfl) (by simp [Canon])
  | .ord _ _, some (.float _), hx, _ => exact absurd (hx _ rfl) (by simp [Canon])
  | .ord _ _, some .nan, hx, _ => exact absurd (hx _ rfl) (by simp [Canon])
  | .ord _ _, some .inf, hx, _ => exact absurd (hx _ rfl) (by simp [Canon])
  | .ord _ _, some .null, hx, _ => exact absurd (hx _ rfl) (by simp [Canon])
  | .ord _ _, some .container, hx, _ => exact absurd (hx _ rfl) (by simp [Canon])

/-- Imported rows fit int8, so that the cast in `Table` does not change them. -/
theorem internalRow_wrap (h : Describes S fs) (hfit : Fits fs) (row : Dict Str Json) :
    (internalRow fs (valueOf T row)).map Util.wrap8 = internalRow fs (valueOf T row) := by
  conv_rhs => rw [← List.map_id (internalRow fs (valueOf T row))]
  refine List.map_congr_left fun a ha => ?_
  obtain ⟨f, hf, ha⟩ := List.mem_flatMap.1 ha
  have := blockOf_fits f.2 (fun lo hi e => ⟨(h.ords f.1 lo hi (by rw [← e]; exact hf)).1, hfit f.1 lo hi (by rw [← e]; exact hf)⟩)
    (valueOf T row f) (fun j hj => valueOf_canon row f j hj) a ha
  exact wrap8_fits this.1 this.2

/-- **C47**: `import_data` stores the rows of all csv files in order, each as `import_rows` would. -/
theorem importData_spec (types values : List (List Str)) (groups : Option (List (List Str))) (hS : loadSchema T types values groups = .ok S)
    (h : Describes S fs) (hfit : Fits fs) (hne : fs ≠ []) (hw : ∀ f ∈ fs, 0 < f.2.width) (csvs : List (List (List Str))) (hc : ∀ csv ∈ csvs, DataFile csv) :
    importData T csvs types values groups =
      .ok (S, ⟨fs.map fun _ => tyMultinomial, S.raggedIndex, csvs.flatMap (fileRows T fs)⟩) := by
  have hparts : csvs.mapM (loadData T S) = .ok (csvs.map (fileRows T fs)) := by
    clear hS
    induction csvs with
    | nil => rfl
    | cons csv csvs ih =>
      obtain ⟨header, rows, rfl, hn, hr⟩ := hc csv (by simp)
      rw [List.mapM_cons, ih fun c hc' => hc c (by simp [hc']), (loadData_partial h hfit hne header hn rows hr).1]
      rfl
  have hnl : S.featureNames.length = fs.length := by rw [h.names, List.length_map]
  unfold importData
  simp only [hS, hparts, bind, Except.bind]
  rw [if_pos]
  · have hlast : S.raggedIndex.getLast? = some (S.raggedIndex.getLastD 0) := by
      rw [List.getLastD_eq_getLast?]
      cases hl : S.raggedIndex.getLast? with
      | none =>
        rw [List.getLast?_eq_none_iff] at hl
        have := h.ragged_length
        rw [hl] at this; simp at this
      | some a => rfl
    have hlen : (S.raggedIndex.length == 1 + (S.featureNames.map fun _ => tyMultinomial).length) = true := by
      rw [List.length_map, h.ragged_length, hnl, beq_iff_eq]; omega
    simp only [Table.make, hlen, hlast, pyAssert, beq_self_eq_true, if_true, bind, Except.bind]
    congr 3
    · rw [h.names, List.map_map]; rfl
    · rw [← List.flatMap_def]
      conv_rhs => rw [← List.map_id (csvs.flatMap (fileRows T fs))]
      refine List.map_congr_left fun row hrow => ?_
      obtain ⟨csv, hcsv, hrow⟩ := List.mem_flatMap.1 hrow
      obtain ⟨header, rows, rfl, hn, hr⟩ := hc csv hcsv
      obtain ⟨r, -, rfl⟩ := List.mem_map.1 hrow
      exact internalRow_wrap h hfit _
  · rw [List.all_eq_true]
    intro v hv
    have hv : v < fs.length := by rw [← hnl]; simpa using hv
    have e1 := h.ragged v (by omega)
    have e2 := h.ragged (v + 1) (by omega)
    rw [List.getD_eq_getElem?_getD, List.getD_eq_getElem?_getD, e1, e2, Option.getD_some, Option.getD_some, decide_eq_true_eq]
    unfold startOf
    rw [List.take_add_one, List.getElem?_eq_getElem hv, List.map_append, List.sum_append]
    have := hw fs[v] (List.getElem_mem hv)
    simpa using this

/-- **C47** from file to file: guess a schema from csv files and import the same files with it. If every file has distinct
column names and at least one row, and some column gets a type, everything succeeds, and the table holds
exactly the valid cells of all files in order. -/
theorem importDataText_guess (hT : Lawful T) (files : List (Str × Str)) (hcr : ∀ f ∈ files, '\r' ∉ f.1)
    (hdata : ∀ f ∈ files, ∃ csv, Csv.read f.2 = .ok csv ∧ DataFile csv) :
    ∃ types t v, guessSchemaText T files = .ok (t, v) ∧ Csv.read t = .ok types ∧
      ((∃ row ∈ types.tail, row.getD 1 [] ≠ []) → ∃ S fs csvs, loadSchemaText T t v none = .ok S ∧ Describes S fs ∧
        List.Forall₂ (fun f csv => Csv.read f.2 = .ok csv) files csvs ∧
        importDataText T (files.map Prod.snd) t v none =
          .ok (S, ⟨fs.map fun _ => tyMultinomial, S.raggedIndex, csvs.flatMap (fileRows T fs)⟩)) := by
  have hne : ∀ f ∈ files, f.2 ≠ [] := by
    intro f hf h0
    obtain ⟨csv, e, header, rows, rfl, -⟩ := hdata f hf
    rw [h0] at e
    have : Csv.read [] = .ok [] := by decide
    rw [this] at e
    injection e with e
    simp at e
  obtain ⟨types, vals, t, v, eg, et, ev, hload⟩ := guessSchemaText_loads hT files hne hcr
  refine ⟨types, t, v, eg, et, fun ht => ?_⟩
  obtain ⟨S, fs, eS, hd, hfs, hcat, hord⟩ := hload ht
  have hcsvs : ∃ csvs, List.Forall₂ (fun f csv => Csv.read f.2 = .ok csv) files csvs ∧ (files.map Prod.snd).mapM Csv.read = .ok csvs ∧
      ∀ csv ∈ csvs, DataFile csv := by
    clear * - hdata
    induction files with
    | nil => exact ⟨[], .nil, rfl, by simp⟩
    | cons f files ih =>
      obtain ⟨csvs, h1, h2, h3⟩ := ih fun g hg => hdata g (by simp [hg])
      obtain ⟨csv, e, hd⟩ := hdata f (by simp)
      refine ⟨csv :: csvs, .cons e h1, ?_, ?_⟩
      · rw [List.map_cons, List.mapM_cons, e, h2]; rfl
      · intro c hc
        rcases List.mem_cons.1 hc with rfl | hc
        · exact hd
        · exact h3 c hc
  obtain ⟨csvs, h1, h2, h3⟩ := hcsvs
  have eS' : loadSchema T types vals none = .ok S := by
    simpa only [loadSchemaText, et, ev, bind, Except.bind] using eS
  refine ⟨S, fs, csvs, eS, hd, h1, ?_⟩
  have hmain := importData_spec types vals none eS' hd (fun n lo hi hm => by have := hord n lo hi hm; omega) ?_ ?_ csvs h3
  · simp only [importDataText, h2, et, ev, bind, Except.bind]
    exact hmain
  · obtain ⟨row, hrow, hty⟩ := ht
    intro h0
    cases hh : row.head? with
    | none =>
      rw [List.head?_eq_none_iff] at hh
      subst hh
      simp at hty
    | some n =>
      have := (hfs n).2 ⟨row, hrow, hh, hty⟩
      rw [h0] at this
      simp at this
  · rintro ⟨n, F⟩ hf
    cases F with
    | cat vs => have := (hcat n vs hf).1; simp only [Feature.width]; omega
    | ord lo hi => simp [Feature.width]

/-- The pipeline on a small file. -/
example : (guessSchemaText asciiText [("d.csv".toList, "a,b\n1,x\n1,x\n2,y\n2,y\n3,z\n".toList)]).bind (fun tv =>
    (importDataText asciiText ["a,b\n1,x\n1,x\n2,y\n2,y\n3,z\n".toList] tv.1 tv.2 none).map fun r => (r.2.raggedIndex, r.2.data)) =
      .ok ([0, 2, 4], [[0, 1, 1, 0], [0, 1, 1, 0], [1, 0, 0, 1], [1, 0, 0, 1], [0, 0, 0, 0]]) := by
  decide +kernel

end TreeCat
