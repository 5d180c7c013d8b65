import Verif.Props.Rows

/-! # C35: `load_data` agrees with `import_rows` -/

namespace TreeCat

open Spec
open Config (Str)

variable {T : Text} {S : Schema} {fs : List (Str × Feature)}

namespace Spec

/-- The nonempty cells of a csv row after normalisation, as a dict from column names to strings. -/
def cellsOf (T : Text) (header row : List Str) : Dict Str Json :=
  (row.zip header).filterMap fun vn => if normalize T vn.1 = [] then none else some (vn.2, .str (normalize T vn.1))

end Spec

/-- The columns of the header: an unknown name has no description. -/
theorem colMeta_spec (h : Describes S fs) (n : Str) : ∃ c, colMeta S n = .ok c ∧ ∀ (row : List Int) (cells : Nat) (value : Str),
    (normalize T value = [] → loadCell T (row, cells) (value, c) = .ok (row, cells)) ∧
    (normalize T value ≠ [] → (loadCell T (row, cells) (value, c)).map Prod.fst = importCell T S row (n, .str (normalize T value))) := by
  unfold colMeta
  by_cases hn : n ∈ fs.map Prod.fst
  · obtain ⟨f, hf, rfl⟩ := List.mem_map.1 hn
    obtain ⟨v, hv, hidx⟩ := describes_position h hf
    have hlt := getElem?_lt hv
    have hty := h.types f hf
    have hget := describes_get h v (by omega)
    simp only [hty, hidx, hget, bind, Except.bind]
    refine ⟨_, rfl, fun row cells value => ⟨fun h0 => ?_, fun h0 => ?_⟩⟩
    · unfold loadCell
      simp only [h0, if_true]
    · unfold loadCell importCell
      simp only [h0, if_false, hidx, hget, hty, bind, Except.bind]
      obtain ⟨n, F⟩ := f
      cases F with
      | cat vs =>
        obtain ⟨-, -, ix, hix, -⟩ := h.cats n vs hf
        simp only [Feature.type, hix, Json.lookup]
        cases Dict.get? ix (normalize T value) with
        | none => rfl
        | some i =>
          simp only
          cases writeCategory row (startOf fs v) i <;> rfl
      | ord lo hi =>
        obtain ⟨-, hrg⟩ := h.ords n lo hi hf
        simp only [Feature.type, hrg, Json.toInt]
        cases T.parseInt (normalize T value) with
        | none => rfl
        | some i =>
          simp only [writeOrdinal]
          split
          · rfl
          · simp only [bind, Except.bind]
            cases pySet row (startOf fs v + 0) (Util.wrap8 (i - lo)) with
            | error e => rfl
            | ok r =>
              simp only
              cases pySet r (startOf fs v + 1) (Util.wrap8 (hi - i)) <;> rfl
  · simp only [h.types_none n hn]
    refine ⟨_, rfl, fun row cells value => ⟨fun _ => rfl, fun _ => ?_⟩⟩
    rw [importCell_unknown h n hn]
    rfl

theorem colMetas_spec (h : Describes S fs) (header : List Str) : ∃ metas, header.mapM (colMeta S) = .ok metas ∧
    ∀ (row : List Str) (acc : List Int) (cells : Nat), ((row.zip metas).foldlM (loadCell T) (acc, cells)).map Prod.fst =
      (cellsOf T header row).foldlM (importCell T S) acc := by
  induction header with
  | nil => exact ⟨[], rfl, fun row acc cells => by simp [cellsOf]; rfl⟩
  | cons n header ih =>
    obtain ⟨metas, e, hm⟩ := ih
    obtain ⟨c, ec, hc⟩ := colMeta_spec (T := T) h n
    refine ⟨c :: metas, ?_, fun row acc cells => ?_⟩
    · rw [List.mapM_cons, ec, e]; rfl
    · cases row with
      | nil => rfl
      | cons value row =>
        obtain ⟨h1, h2⟩ := hc acc cells value
        unfold cellsOf
        rw [List.zip_cons_cons, List.zip_cons_cons, List.foldlM_cons, List.filterMap_cons]
        by_cases h0 : normalize T value = []
        · rw [h1 h0]
          simp only [h0, if_true]
          exact hm row acc cells
        · have h2 := h2 h0
          simp only [h0, if_false]
          rw [List.foldlM_cons, ← h2]
          cases hl : loadCell T (acc, cells) (value, c) with
          | error e => rfl
          | ok r => exact hm row r.1 r.2

theorem cellsOf_readable (header row : List Str) : Readable T fs (cellsOf T header row) := by
  intro nj hnj F _
  obtain ⟨vn, -, e⟩ := List.mem_filterMap.1 hnj
  split at e
  · simp at e
  · injection e with e
    subst e
    cases F with
    | cat vs => exact ⟨_, rfl⟩
    | ord lo hi => exact ⟨_, rfl⟩

theorem cellsOf_keys (header row : List Str) (hn : header.Nodup) : (Dict.keys (cellsOf T header row)).Nodup := by
  have hsub : (Dict.keys (cellsOf T header row)).Sublist header := by
    clear hn
    induction header generalizing row with
    | nil => cases row <;> simp [cellsOf, Dict.keys]
    | cons n header ih =>
      cases row with
      | nil => simp [cellsOf, Dict.keys]
      | cons value row =>
        have := ih row
        unfold cellsOf at this ⊢
        rw [List.zip_cons_cons, List.filterMap_cons]
        by_cases h0 : normalize T value = []
        · simp only [h0, if_true]
          exact this.trans (List.sublist_cons_self _ _)
        · simp only [h0, if_false]
          rw [Dict.keys_cons]
          exact this.cons_cons n
  exact hn.sublist hsub

/-- **C35**: on a csv file with distinct column names and at least one row, `load_data` stores for each row exactly what
`import_rows` stores for the dict of its normalised nonempty cells. Missing: a file without rows raises
(`loadData_no_rows`), and ranges of ordinals longer than int8 wrap around in both (`loadData_eq_importRows_partial`). -/
theorem loadData_partial (h : Describes S fs) (hfit : Fits fs) (hne : fs ≠ []) (header : List Str) (hn : header.Nodup) (rows : List (List Str)) (hr : rows ≠ []) :
    loadData T S (header :: rows) = .ok (rows.map fun row => internalRow fs (valueOf T (cellsOf T header row))) ∧
    importRows T S (.list (rows.map (cellsOf T header))) = loadData T S (header :: rows) := by
  have hlen : S.featureTypes.length ≠ 0 := by rw [h.types_length]; simpa using hne
  obtain ⟨metas, em, hm⟩ := colMetas_spec (T := T) h header
  have hrow : ∀ (row : List Str) (cells : Nat), ∃ cells', loadRow T S metas cells row = .ok (internalRow fs (valueOf T (cellsOf T header row)), cells') := by
    intro row cells
    have h1 := hm row (zeroRow S) cells
    rw [(importRow_spec h hfit _ (cellsOf_keys header row hn)).1 (cellsOf_readable header row)] at h1
    unfold loadRow
    cases hl : (row.zip metas).foldlM (loadCell T) (zeroRow S, cells) with
    | error e => rw [hl] at h1; simp [Except.map] at h1
    | ok r =>
      rw [hl] at h1
      simp only [Except.map, Except.ok.injEq] at h1
      exact ⟨r.2, by rw [← h1]⟩
  have hfold : ∀ (rows : List (List Str)) (acc : List (List Int)) (cells : Nat), ∃ cells', rows.foldlM (fun (s : List (List Int) × Nat) row => do
      let rc ← loadRow T S metas s.2 row
      .ok (s.1 ++ [rc.1], rc.2)) (acc, cells) = (.ok (acc ++ rows.map fun row => internalRow fs (valueOf T (cellsOf T header row)), cells') : Py _) := by
    intro rows
    induction rows with
    | nil => exact fun acc cells => ⟨cells, by simp; rfl⟩
    | cons row rows ih =>
      intro acc cells
      obtain ⟨c1, e1⟩ := hrow row cells
      obtain ⟨c2, e2⟩ := ih (acc ++ [internalRow fs (valueOf T (cellsOf T header row))]) c1
      refine ⟨c2, ?_⟩
      rw [List.foldlM_cons]
      simp only [e1, bind, Except.bind] at e2 ⊢
      rw [e2, List.map_cons, List.append_assoc]
      rfl
  have hload : loadData T S (header :: rows) = .ok (rows.map fun row => internalRow fs (valueOf T (cellsOf T header row))) := by
    obtain ⟨c, e⟩ := hfold rows [] 0
    rw [List.nil_append] at e
    simp only [bind, Except.bind] at e
    simp only [loadData, em, bind, Except.bind, e]
    rw [if_neg]
    rw [List.length_map]
    simp [hr, hlen]
  refine ⟨hload, ?_⟩
  rw [hload, (importRows_spec h hfit _ ?_).1 ?_, List.map_map]
  · rfl
  · intro d hd
    obtain ⟨row, -, rfl⟩ := List.mem_map.1 hd
    exact cellsOf_keys header row hn
  · intro d hd
    obtain ⟨row, -, rfl⟩ := List.mem_map.1 hd
    exact cellsOf_readable header row

/-- The loop of `load_data` on one row. -/
def loadStep (T : Text) (S : Schema) (metas : List (Option ColMeta)) (s : List (List Int) × Nat) (row : List Str) : Py (List (List Int) × Nat) := do
  let rc ← loadRow T S metas s.2 row
  .ok (s.1 ++ [rc.1], rc.2)

/-- The loop of `import_rows` on one row. -/
def importRow (T : Text) (S : Schema) (row : Dict Str Json) : Py (List Int) := row.foldlM (importCell T S) (zeroRow S)

/-- **C35** without any condition on the ranges or on the column names: the result of `load_data`, or its exception, is that
of `import_rows` on the normalised nonempty cells. Missing: files without rows (`loadData_no_rows`). -/
theorem loadData_eq_importRows_partial (h : Describes S fs) (hne : fs ≠ []) (header : List Str) (rows : List (List Str)) (hr : rows ≠ []) :
    loadData T S (header :: rows) = importRows T S (.list (rows.map (cellsOf T header))) := by
  have hlen : S.featureTypes.length ≠ 0 := by rw [h.types_length]; simpa using hne
  obtain ⟨metas, em, hm⟩ := colMetas_spec (T := T) h header
  have hstep : ∀ acc cells row, (loadStep T S metas (acc, cells) row).map Prod.fst = (importRow T S (cellsOf T header row)).map fun r => acc ++ [r] := by
    intro acc cells row
    unfold loadStep importRow loadRow
    rw [← hm row (zeroRow S) cells]
    cases (row.zip metas).foldlM (loadCell T) (zeroRow S, cells) <;> rfl
  have hfold : ∀ (rows : List (List Str)) (acc : List (List Int)) (cells : Nat), (rows.foldlM (loadStep T S metas) (acc, cells)).map Prod.fst =
        ((rows.map (cellsOf T header)).mapM (importRow T S)).map fun r => acc ++ r := by
    intro rows
    induction rows with
    | nil => exact fun acc cells => by simp [Except.map, pure, Except.pure]
    | cons row rows ih =>
      intro acc cells
      have h1 := hstep acc cells row
      rw [List.map_cons, List.mapM_cons, List.foldlM_cons]
      cases hl : loadStep T S metas (acc, cells) row with
      | error e =>
        rw [hl] at h1
        cases hi : importRow T S (cellsOf T header row) with
        | error e' => rw [hi] at h1; injection h1 with h1; rw [h1]; rfl
        | ok r => rw [hi] at h1; simp [Except.map] at h1
      | ok r =>
        rw [hl] at h1
        cases hi : importRow T S (cellsOf T header row) with
        | error e' => rw [hi] at h1; simp [Except.map] at h1
        | ok r' =>
          rw [hi] at h1
          simp only [Except.map, Except.ok.injEq] at h1
          have h2 := ih r.1 r.2
          simp only [bind, Except.bind]
          rw [h2, h1]
          cases (rows.map (cellsOf T header)).mapM (importRow T S) with
          | error e => rfl
          | ok rest => simp [Except.map, pure, Except.pure]
  have e := hfold rows [] 0
  have e1 : loadData T S (header :: rows) = (rows.foldlM (loadStep T S metas) ([], 0)).bind fun r =>
      if r.1.length = 0 ∨ S.featureTypes.length = 0 then .error .zeroDivision else .ok r.1 := by
    unfold loadData
    dsimp only
    rw [em]
    rfl
  have e2 : importRows T S (.list (rows.map (cellsOf T header))) = (rows.map (cellsOf T header)).mapM (importRow T S) := rfl
  rw [e1, e2]
  cases hl : rows.foldlM (loadStep T S metas) ([], 0) with
  | error err =>
    rw [hl] at e
    cases hi : (rows.map (cellsOf T header)).mapM (importRow T S) with
    | error err' => rw [hi] at e; injection e with e; rw [e]; rfl
    | ok rest => rw [hi] at e; simp [Except.map] at e
  | ok r =>
    rw [hl] at e
    cases hi : (rows.map (cellsOf T header)).mapM (importRow T S) with
    | error err' => rw [hi] at e; simp [Except.map] at e
    | ok rest =>
      rw [hi] at e
      simp only [Except.map, Except.ok.injEq, List.nil_append] at e
      simp only [Except.bind]
      have hl : rest.length = rows.length := by
        have hgen : ∀ (l : List (Dict Str Json)) (r : List (List Int)), l.mapM (importRow T S) = .ok r → r.length = l.length := by
          intro l
          induction l with
          | nil => intro r h; injection h with h; subst h; rfl
          | cons a l ih =>
            intro r h
            rw [List.mapM_cons] at h
            cases h1 : importRow T S a with
            | error _ => rw [h1] at h; simp [bind, Except.bind] at h
            | ok b =>
              rw [h1] at h
              cases h2 : l.mapM (importRow T S) with
              | error _ => rw [h2] at h; simp [bind, Except.bind] at h
              | ok bs =>
                rw [h2] at h
                injection h with h
                subst h
                simp [ih bs h2]
        simpa using hgen _ _ hi
      have : rows.length ≠ 0 := by simpa using hr
      rw [if_neg (by rw [e]; omega), e]

/-- A file without rows makes the printed summary divide by zero; a file without a header stops earlier. -/
theorem loadData_no_rows (h : Describes S fs) (header : List Str) :
    loadData T S [header] = .error .zeroDivision ∧ loadData T S [] = .error .stopIteration := by
  refine ⟨?_, rfl⟩
  obtain ⟨metas, em, -⟩ := colMetas_spec (T := T) h header
  simp only [loadData, em, bind, Except.bind, List.foldlM_nil, pure, Except.pure, List.length_nil, true_or, if_true]

/-- What a block of an imported array can look like. -/
def Shaped (f : Str × Feature) (b : List Int) : Prop :=
  b = List.replicate f.2.width 0 ∨ match f.2 with
    | .cat vs => ∃ i, i < vs.length ∧ b = (List.replicate vs.length 0).set i 1
    | .ord lo hi => ∃ p q, b = [p, q] ∧ 0 ≤ p ∧ 0 ≤ q ∧ p + q = hi - lo

/-- Every categorical block is zero or one-hot; every ordinal block is zero or sums to the length of the range. -/
theorem internalRow_shape (h : Describes S fs) (row : Dict Str Json) :
    ∃ bs : List (List Int), internalRow fs (valueOf T row) = bs.flatten ∧ List.Forall₂ Shaped fs bs := by
  refine ⟨fs.map fun f => blockOf f.2 (valueOf T row f), by rw [internalRow, List.flatMap_def], ?_⟩
  rw [List.forall₂_map_right_iff, List.forall₂_same]
  rintro ⟨n, F⟩ hf
  cases hx : valueOf T row (n, F) with
  | none =>
    left
    cases F <;> rfl
  | some j =>
    have hc := valueOf_canon row (n, F) j hx
    right
    cases F with
    | cat vs =>
      cases j with
      | str s =>
        obtain ⟨i, hi⟩ := List.mem_iff_getElem?.1 (show s ∈ vs from hc)
        have hlt := getElem?_lt hi
        rw [List.getElem?_eq_getElem hlt] at hi
        injection hi with hi
        refine ⟨i, hlt, ?_⟩
        change (vs.map fun v => if v = s then (1 : Int) else 0) = _
        refine List.ext_getElem (by simp) fun k h1 h2 => ?_
        have hk : k < vs.length := by simpa using h1
        rw [List.getElem_map, List.getElem_set]
        by_cases e : i = k
        · subst e; rw [if_pos hi, if_pos rfl]
        · rw [if_neg e, List.getElem_replicate, if_neg]
          intro e'
          exact e ((h.cats n vs hf).1.getElem_inj_iff.1 (hi.trans e'.symm))
      | _ => exact absurd hc (by simp [Canon])
    | ord lo hi =>
      cases j with
      | int i =>
        obtain ⟨h1, h2⟩ : lo ≤ i ∧ i ≤ hi := hc
        exact ⟨i - lo, hi - i, rfl, by omega, by omega, by omega⟩
      | _ => exact absurd hc (by simp [Canon])

/-- **C35**: the array has one row per csv row, and all blocks have the right shape. -/
theorem loadData_shape_partial (h : Describes S fs) (hfit : Fits fs) (hne : fs ≠ []) (header : List Str) (hn : header.Nodup) (rows : List (List Str)) (hr : rows ≠ []) :
    ∃ data, loadData T S (header :: rows) = .ok data ∧ data.length = rows.length ∧
      ∀ row ∈ data, ∃ bs : List (List Int), row = bs.flatten ∧ List.Forall₂ Shaped fs bs := by
  refine ⟨_, (loadData_partial h hfit hne header hn rows hr).1, by simp, fun row hrow => ?_⟩
  obtain ⟨r, -, rfl⟩ := List.mem_map.1 hrow
  exact internalRow_shape h _

/-- With a repeated column name the block can get two ones: the hypothesis of distinct names is needed. -/
theorem loadData_repeated : loadData asciiText tinySchema
    ([["genre", "genre"], ["drama", "family"]].map fun row => row.map String.toList) = .ok [[0, 0, 0, 1, 1, 0, 0, 0]] := by
  decide +kernel

/-- A csv file with an unknown column, an unknown value, an empty cell, a short row and a value that needs normalising. -/
example : loadData asciiText tinySchema ([["title", "genre", "decade", "rating"], ["vertigo", "  DRAMA ", "", "5"], ["holiday", "noir", "1950s"],
      ["inception", "fantasy", "2010s", " 3 "]].map fun row => row.map String.toList) =
    .ok [[0, 0, 0, 1, 0, 0, 2, 0], [1, 0, 0, 0, 0, 0, 0, 0], [0, 1, 0, 0, 0, 1, 0, 2]] := by
  decide +kernel

end TreeCat
