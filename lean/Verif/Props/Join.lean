import Mathlib.Data.List.Dedup
import Verif.Model.Join
import Verif.Lemmas.Lists

/-!
# C40: outer joins
-/

namespace TreeCat

open Join

namespace Spec
variable {α : Type} [DecidableEq α]

/-- The cell of a frame for a key. -/
def cellOf (on : Name) (k : Option α) (c : Name) (df : DataFrame α) : Option α :=
  if c ∈ df.columns then df.rows.findSome? fun r => if r on = k then r c else none else none

/-- A frame that can be joined: it has the key, keys and columns are distinct, and no column has a reserved name. -/
structure Joinable (on : Name) (df : DataFrame α) : Prop where
  key : on ∈ df.columns
  columns : df.columns.Nodup
  keys : (df.rows.map fun r => r on).Nodup
  names : ∀ c ∈ df.columns, ¬ suffix <:+ c

end Spec

open Spec

section
variable {α : Type} [DecidableEq α]

/-- What the loop maintains. -/
structure Joined (on : Name) (done : List (DataFrame α)) (d : Indexed α) : Prop where
  columns : d.columns.Nodup
  mem : ∀ c, c ∈ d.columns ↔ c ≠ on ∧ ∃ df ∈ done, c ∈ df.columns
  keys : d.keys.Nodup
  memKey : ∀ k, k ∈ d.keys ↔ ∃ df ∈ done, ∃ r ∈ df.rows, r on = k
  cell : ∀ p ∈ d.rows, ∀ c ∈ d.columns, p.2 c = done.findSome? (cellOf on p.1 c)
  names : ∀ c ∈ d.columns, ¬ suffix <:+ c

theorem setIndex_ok {on : Name} {df : DataFrame α} (h : Joinable on df) :
    setIndex on df = .ok { columns := df.columns.erase on, rows := df.rows.map fun r => (r on, r) } := if_pos h.key

theorem find_of_nodup {on : Name} {df : DataFrame α} (h : Joinable on df) {c : Name} (hc : c ∈ df.columns)
    {r : Name → Option α} (hr : r ∈ df.rows) : cellOf on (r on) c df = r c := by
  unfold cellOf
  rw [if_pos hc]
  have hk := h.keys
  generalize df.rows = rows at hr hk
  induction rows with
  | nil => simp at hr
  | cons a l ih =>
    rw [List.findSome?_cons]
    rw [List.map_cons, List.nodup_cons] at hk
    rcases List.mem_cons.1 hr with rfl | hr'
    · rw [if_pos rfl]
      cases hrc : r c with
      | some v => rfl
      | none =>
        simp only
        rw [List.findSome?_eq_none_iff]
        intro x hx
        rw [if_neg]
        intro e
        exact hk.1 (List.mem_map.2 ⟨x, hx, e⟩)
    · rw [if_neg]
      · exact ih hr' hk.2
      · intro e
        exact hk.1 (List.mem_map.2 ⟨r, hr', e.symm⟩)

theorem cellOf_none {on : Name} {df : DataFrame α} {c : Name} {k : Option α} (h : ∀ r ∈ df.rows, r on ≠ k) :
    cellOf on k c df = none := by
  unfold cellOf
  split_ifs
  · rw [List.findSome?_eq_none_iff]
    intro r hr
    rw [if_neg (h r hr)]
  · rfl

theorem joined_first {on : Name} {df : DataFrame α} (h : Joinable on df) :
    Joined on [df] { columns := df.columns.erase on, rows := df.rows.map fun r => (r on, r) } where
  columns := h.columns.erase on
  mem c := by simp [h.columns.mem_erase_iff]
  keys := by
    have := h.keys
    simpa [Indexed.keys, Function.comp_def] using this
  memKey k := by simp [Indexed.keys]
  cell := by
    intro p hp c hc
    obtain ⟨r, hr, rfl⟩ := List.mem_map.1 hp
    have hc' : c ∈ df.columns := List.mem_of_mem_erase hc
    simp only [List.findSome?_cons, List.findSome?_nil, find_of_nodup h hc' hr]
    cases r c <;> rfl
  names c hc := h.names c (List.mem_of_mem_erase hc)

/-- The cell of a row of a frame, or of the row without values. -/
theorem at_eq {d : Indexed α} (hk : d.keys.Nodup) (k : Option α) :
    (∃ x, (k, x) ∈ d.rows ∧ d.at k = [x]) ∨ (k ∉ d.keys ∧ d.at k = [fun _ => none]) := by
  unfold Indexed.at
  by_cases h : k ∈ d.keys
  · rw [if_pos h]
    obtain ⟨⟨k', x⟩, hx, rfl⟩ := List.mem_map.1 h
    refine Or.inl ⟨x, hx, ?_⟩
    have hk' : (d.rows.map Prod.fst).Nodup := hk
    clear h hk
    generalize d.rows = rows at hx hk'
    induction rows with
    | nil => simp at hx
    | cons a l ih =>
      rw [List.map_cons, List.nodup_cons] at hk'
      rcases List.mem_cons.1 hx with rfl | hx'
      · rw [List.filter_cons_of_pos (by simp), List.map_cons, List.filter_eq_nil_iff.2]
        · rfl
        · intro y hy e
          exact hk'.1 (List.mem_map.2 ⟨y, hy, by simpa using e⟩)
      · rw [List.filter_cons_of_neg, ih hx' hk'.2]
        simp only [decide_eq_true_eq]
        intro e
        exact hk'.1 (List.mem_map.2 ⟨_, hx', e.symm⟩)
  · rw [if_neg h]
    exact Or.inr ⟨h, rfl⟩

theorem isSuffix_append (c : Name) : suffix <:+ c ++ suffix := List.suffix_append _ _

theorem mergeColumn_plain (df : DataFrame α) (d : Indexed α) {c : Name} (hc : ¬ suffix <:+ c) : mergeColumn df d c = .ok d := by
  unfold mergeColumn
  rw [if_neg]
  rwa [List.isSuffixOf_iff_suffix]

theorem mergeColumn_plains (df : DataFrame α) (d : Indexed α) : ∀ cs : List Name, (∀ c ∈ cs, ¬ suffix <:+ c) →
    cs.foldlM (mergeColumn df) d = .ok d
  | [], _ => rfl
  | c :: cs, h => by
    rw [List.foldlM_cons, mergeColumn_plain df d (h c (by simp))]
    exact mergeColumn_plains df d cs fun c hc => h c (by simp [hc])

theorem mergeColumn_suffix (df : DataFrame α) (d : Indexed α) {c : Name} (hc : c ∈ df.columns) (hd : c ∈ d.columns) :
    mergeColumn df d (c ++ suffix) = .ok (fill c (c ++ suffix) d) := by
  unfold mergeColumn
  rw [if_pos (List.isSuffixOf_iff_suffix.2 (isSuffix_append c))]
  have : (c ++ suffix).take ((c ++ suffix).length - 6) = c := by
    rw [List.length_append, show suffix.length = 6 from rfl, Nat.add_sub_cancel, List.take_left]
  simp only [this, if_pos hc, if_pos hd]

/-- The loop over the columns of the joined frame that come from the right. -/
theorem mergeColumn_right (df : DataFrame α) (l : Indexed α) : ∀ (cs : List Name) (D : Indexed α), cs.Nodup →
    (∀ c ∈ cs, c ∈ df.columns ∧ ¬ suffix <:+ c) → (∀ c ∈ cs, c ∈ l.columns → c ∈ D.columns) → D.columns.Nodup →
    ∃ D', (cs.map (rename l)).foldlM (mergeColumn df) D = .ok D' ∧ D'.columns.Nodup ∧
      (∀ c, c ∈ D'.columns ↔ c ∈ D.columns ∧ ¬ ∃ c' ∈ cs, c' ∈ l.columns ∧ c = c' ++ suffix) ∧
      D'.rows = D.rows.map fun p => (p.1, fun c => if c ∈ cs ∧ c ∈ l.columns then (p.2 c).orElse fun _ => p.2 (c ++ suffix) else p.2 c)
  | [], D, _, _, _, hD => ⟨D, rfl, hD, by simp, by simp⟩
  | c :: cs, D, hnd, hcs, hl, hD => by
    rw [List.nodup_cons] at hnd
    rw [List.map_cons, List.foldlM_cons]
    by_cases hc : c ∈ l.columns
    · have e : rename l c = c ++ suffix := if_pos hc
      rw [e, mergeColumn_suffix df D (hcs c (by simp)).1 (hl c (by simp) hc)]
      have hmem : ∀ x, x ∈ (fill c (c ++ suffix) D).columns ↔ x ≠ c ++ suffix ∧ x ∈ D.columns := fun x => hD.mem_erase_iff
      obtain ⟨D', h1, h2, h3, h4⟩ := mergeColumn_right df l cs (fill c (c ++ suffix) D) hnd.2 (fun c hc => hcs c (by simp [hc]))
        (fun x hx hxl => by
          rw [hmem]
          refine ⟨?_, hl x (by simp [hx]) hxl⟩
          rintro rfl
          exact (hcs (c ++ suffix) (by simp [hx])).2 (isSuffix_append c)) (hD.erase _)
      refine ⟨D', h1, h2, fun x => ?_, ?_⟩
      · rw [h3, hmem]
        constructor
        · rintro ⟨⟨h5, h6⟩, h7⟩
          refine ⟨h6, ?_⟩
          rintro ⟨c', hc', hcl, rfl⟩
          rcases List.mem_cons.1 hc' with rfl | hc'
          · exact h5 rfl
          · exact h7 ⟨c', hc', hcl, rfl⟩
        · rintro ⟨h5, h6⟩
          refine ⟨⟨?_, h5⟩, ?_⟩
          · rintro rfl; exact h6 ⟨c, by simp, hc, rfl⟩
          · rintro ⟨c', hc', hcl, rfl⟩; exact h6 ⟨c', by simp [hc'], hcl, rfl⟩
      · rw [h4]
        simp only [fill, List.map_map]
        refine List.map_congr_left fun p _ => ?_
        simp only [Function.comp_apply, Prod.mk.injEq, true_and]
        funext x
        by_cases hx : x = c
        · subst hx
          simp [hnd.1, hc]
        · have hne : x ++ suffix ≠ c := by
            intro e
            exact (hcs c (by simp)).2 (e ▸ isSuffix_append x)
          simp [hx, hne]
    · have e : rename l c = c := if_neg hc
      rw [e, mergeColumn_plain df D (hcs c (by simp)).2]
      obtain ⟨D', h1, h2, h3, h4⟩ := mergeColumn_right df l cs D hnd.2 (fun c hc => hcs c (by simp [hc]))
        (fun x hx hxl => hl x (by simp [hx]) hxl) hD
      refine ⟨D', h1, h2, fun x => ?_, ?_⟩
      · rw [h3]
        refine and_congr_right fun _ => not_congr ⟨?_, ?_⟩
        · rintro ⟨c', hc', h⟩; exact ⟨c', by simp [hc'], h⟩
        · rintro ⟨c', hc', hcl, h⟩
          rcases List.mem_cons.1 hc' with rfl | hc'
          · exact absurd hcl hc
          · exact ⟨c', hc', hcl, h⟩
      · rw [h4]
        refine List.map_congr_left fun p _ => ?_
        simp only [Prod.mk.injEq, true_and]
        funext x
        by_cases hx : x = c
        · subst hx; simp [hc]
        · simp [hx]

/-- Renamed columns can be told apart. -/
theorem rename_inj {l : Indexed α} {c c' : Name} (hc : ¬ suffix <:+ c) (hc' : ¬ suffix <:+ c') (e : rename l c = rename l c') : c = c' := by
  unfold rename at e
  split_ifs at e
  · exact List.append_cancel_right e
  · exact absurd (e ▸ isSuffix_append c) hc'
  · exact absurd (e ▸ isSuffix_append c') hc
  · exact e

theorem joinStep_ok {on : Name} {done : List (DataFrame α)} {d : Indexed α} (J : Joined on done d) {df : DataFrame α}
    (h : Joinable on df) : ∃ d', joinStep on d df = .ok d' ∧ Joined on (done ++ [df]) d' := by
  have hany : (d.columns.any fun c => suffix.isSuffixOf c) = false := by
    rw [List.any_eq_false]
    intro c hc hs
    exact J.names c hc (List.isSuffixOf_iff_suffix.1 hs)
  set r : Indexed α := { columns := df.columns.erase on, rows := df.rows.map fun r => (r on, r) } with hr
  have hrc : ∀ c, c ∈ r.columns ↔ c ≠ on ∧ c ∈ df.columns := fun c => h.columns.mem_erase_iff
  have hrn : r.columns.Nodup := h.columns.erase on
  have hrs : ∀ c ∈ r.columns, ¬ suffix <:+ c := fun c hc => h.names c ((hrc c).1 hc).2
  have hrk : r.keys.Nodup := by
    have := h.keys
    simpa [hr, Indexed.keys, Function.comp_def] using this
  have hren : ∀ c ∈ r.columns, rename d c ∉ d.columns := by
    intro c hc hm
    unfold rename at hm
    split_ifs at hm with h1
    · exact J.names _ hm (isSuffix_append c)
    · exact h1 hm
  have hnd : (d.columns ++ r.columns.map (rename d)).Nodup := by
    rw [List.nodup_append]
    refine ⟨J.columns, ?_, ?_⟩
    · exact (List.nodup_map_iff_inj_on hrn).2 fun c hc c' hc' e => rename_inj (hrs c hc) (hrs c' hc') e
    · intro a ha b hb e
      obtain ⟨c, hc, rfl⟩ := List.mem_map.1 hb
      exact hren c hc (e ▸ ha)
  let keys := (d.keys ++ r.keys.filter fun k => k ∉ d.keys).dedup
  let D : Indexed α := { columns := d.columns ++ r.columns.map (rename d)
                         rows := keys.flatMap fun k => (d.at k).flatMap fun x => (r.at k).map fun y =>
                          (k, fun c => if c ∈ d.columns then x c
                            else match r.columns.find? fun c' => rename d c' = c with
                              | some c' => y c'
                              | none => none) }
  have hjoin : join d r = .ok D := if_neg (not_not.2 hnd)
  obtain ⟨D', h1, h2, h3, h4⟩ := mergeColumn_right df d r.columns D hrn (fun c hc => ⟨((hrc c).1 hc).2, hrs c hc⟩)
    (fun c _ hcl => List.mem_append_left _ hcl) hnd
  refine ⟨D', ?_, ?_⟩
  · unfold joinStep
    rw [hany]
    change (setIndex on df >>= fun right => join d right >>= fun result => result.columns.foldlM (mergeColumn df) result) = _
    rw [setIndex_ok h]
    change (join d r >>= fun result => result.columns.foldlM (mergeColumn df) result) = _
    rw [hjoin]
    change (d.columns ++ r.columns.map (rename d)).foldlM (mergeColumn df) D = _
    rw [List.foldlM_append, mergeColumn_plains df D d.columns J.names]
    exact h1
  have hfind : ∀ c ∈ r.columns, (r.columns.find? fun c' => rename d c' = rename d c) = some c := by
    intro c hc
    cases hf : r.columns.find? fun c' => rename d c' = rename d c with
    | none =>
      rw [List.find?_eq_none] at hf
      exact absurd (decide_eq_true rfl) (hf c hc)
    | some c' =>
      have := List.find?_some hf
      rw [decide_eq_true_eq] at this
      rw [rename_inj (hrs c' (List.mem_of_find?_eq_some hf)) (hrs c hc) this]
  have hcol : ∀ c, c ∈ D'.columns ↔ c ∈ d.columns ∨ c ∈ r.columns := by
    intro c
    rw [h3]
    change c ∈ d.columns ++ r.columns.map (rename d) ∧ _ ↔ _
    rw [List.mem_append]
    constructor
    · rintro ⟨h5 | h5, h6⟩
      · exact Or.inl h5
      · obtain ⟨c', hc', rfl⟩ := List.mem_map.1 h5
        by_cases hcl : c' ∈ d.columns
        · exact absurd ⟨c', hc', hcl, if_pos hcl⟩ h6
        · rw [show rename d c' = c' from if_neg hcl]
          exact Or.inr hc'
    · intro h5
      have hs : ¬ suffix <:+ c := h5.elim (J.names c) (hrs c)
      refine ⟨?_, ?_⟩
      · by_cases hcl : c ∈ d.columns
        · exact Or.inl hcl
        · exact Or.inr (List.mem_map.2 ⟨c, h5.resolve_left hcl, if_neg hcl⟩)
      · rintro ⟨c', -, -, rfl⟩
        exact hs (isSuffix_append c')
  have hkeys : D'.keys = keys := by
    unfold Indexed.keys
    rw [h4, List.map_map]
    change D.rows.map Prod.fst = _
    change (keys.flatMap _).map Prod.fst = keys
    rw [List.map_flatMap]
    conv_rhs => rw [← List.flatMap_singleton' keys]
    refine List.flatMap_congr fun k _ => ?_
    rcases at_eq J.keys k with ⟨x, -, ex⟩ | ⟨-, ex⟩ <;> rcases at_eq hrk k with ⟨y, -, ey⟩ | ⟨-, ey⟩ <;> rw [ex, ey] <;> rfl
  have hkmem : ∀ k, k ∈ keys ↔ k ∈ d.keys ∨ k ∈ r.keys := by
    intro k
    simp only [keys, List.mem_dedup, List.mem_append, List.mem_filter, decide_eq_true_eq]
    tauto
  have hrkm : ∀ k, k ∈ r.keys ↔ ∃ x ∈ df.rows, x on = k := by intro k; simp [hr, Indexed.keys]
  refine ⟨h2, fun c => ?_, ?_, fun k => ?_, ?_, fun c hc => ?_⟩
  · rw [hcol, J.mem, hrc]
    simp only [List.mem_append, List.mem_singleton]
    constructor
    · rintro (⟨h5, df', h6, h7⟩ | ⟨h5, h6⟩)
      · exact ⟨h5, df', Or.inl h6, h7⟩
      · exact ⟨h5, df, Or.inr rfl, h6⟩
    · rintro ⟨h5, df', h6 | rfl, h7⟩
      · exact Or.inl ⟨h5, df', h6, h7⟩
      · exact Or.inr ⟨h5, h7⟩
  · rw [hkeys]; exact List.nodup_dedup _
  · rw [hkeys, hkmem, J.memKey, hrkm]
    simp only [List.mem_append, List.mem_singleton]
    constructor
    · rintro (⟨df', h6, h7⟩ | h6)
      · exact ⟨df', Or.inl h6, h7⟩
      · exact ⟨df, Or.inr rfl, h6⟩
    · rintro ⟨df', h6 | rfl, h7⟩
      · exact Or.inl ⟨df', h6, h7⟩
      · exact Or.inr h7
  · intro p hp c hc
    rw [h4] at hp
    obtain ⟨q, hq, rfl⟩ := List.mem_map.1 hp
    obtain ⟨k, -, hq⟩ := List.mem_flatMap.1 hq
    obtain ⟨x, hx, hq⟩ := List.mem_flatMap.1 hq
    obtain ⟨y, hy, rfl⟩ := List.mem_map.1 hq
    -- the cells of the two rows
    have hxc : ∀ c ∈ d.columns, x c = done.findSome? (cellOf on k c) := by
      intro c hc
      rcases at_eq J.keys k with ⟨x', hx', ex⟩ | ⟨hk, ex⟩
      · rw [ex, List.mem_singleton] at hx
        subst hx
        exact J.cell (k, x) hx' c hc
      · rw [ex, List.mem_singleton] at hx
        subst hx
        symm
        rw [List.findSome?_eq_none_iff]
        intro df' hdf'
        exact cellOf_none fun r hr e => hk ((J.memKey k).2 ⟨df', hdf', r, hr, e⟩)
    have hyc : ∀ c ∈ r.columns, y c = cellOf on k c df := by
      intro c hc
      rcases at_eq hrk k with ⟨y', hy', ey⟩ | ⟨hk, ey⟩
      · rw [ey, List.mem_singleton] at hy
        subst hy
        obtain ⟨y', hy'', e⟩ := List.mem_map.1 hy'
        cases e
        exact (find_of_nodup h ((hrc c).1 hc).2 hy'').symm
      · rw [ey, List.mem_singleton] at hy
        subst hy
        symm
        exact cellOf_none fun r hr e => hk ((hrkm k).2 ⟨r, hr, e⟩)
    rw [List.findSome?_append, List.findSome?_singleton]
    by_cases hcd : c ∈ d.columns
    · by_cases hcr : c ∈ r.columns
      · have hsd : c ++ suffix ∉ d.columns := fun hm => J.names _ hm (isSuffix_append c)
        have hf := hfind c hcr
        rw [show rename d c = c ++ suffix from if_pos hcd] at hf
        simp only [hcr, hcd, and_self, if_true, if_neg hsd, hf]
        rw [hxc c hcd, hyc c hcr]
        cases done.findSome? (cellOf on k c) <;> rfl
      · have : cellOf on k c df = none := by
          unfold cellOf
          rw [if_neg]
          intro hcf
          exact hcr ((hrc c).2 ⟨((J.mem c).1 hcd).1, hcf⟩)
        simp only [hcr, hcd, false_and, if_true, if_false]
        rw [hxc c hcd, this]
        simp
    · have hcr : c ∈ r.columns := ((hcol c).1 hc).resolve_left hcd
      have hf := hfind c hcr
      rw [show rename d c = c from if_neg hcd] at hf
      simp only [hcd, and_false, if_false, hf]
      rw [hyc c hcr]
      have : done.findSome? (cellOf on k c) = none := by
        rw [List.findSome?_eq_none_iff]
        intro df' hdf'
        unfold cellOf
        rw [if_neg]
        intro hcf
        exact hcd ((J.mem c).2 ⟨((hrc c).1 hcr).1, df', hdf', hcf⟩)
      rw [this]
      simp
  · exact ((hcol c).1 hc).elim (J.names c) (hrs c)

/-- **C40.** The join of frames with distinct keys and no reserved names has the union of the keys, each once, and the union of
the columns, sorted; every cell is that of the first frame in which it is present. -/
theorem pdOuterJoin_spec (on : Name) (dfs : List (DataFrame α)) (hne : dfs ≠ []) (h : ∀ df ∈ dfs, Joinable on df) :
    ∃ res, pdOuterJoin dfs on = .ok res ∧ res.columns.Pairwise (· ≤ ·) ∧ res.columns.Nodup ∧
      (∀ c, c ∈ res.columns ↔ c ≠ on ∧ ∃ df ∈ dfs, c ∈ df.columns) ∧
      res.keys.Nodup ∧ (∀ k, k ∈ res.keys ↔ ∃ df ∈ dfs, ∃ r ∈ df.rows, r on = k) ∧
      ∀ p ∈ res.rows, ∀ c ∈ res.columns, p.2 c = dfs.findSome? (cellOf on p.1 c) := by
  obtain ⟨df, dfs, rfl⟩ := List.exists_cons_of_ne_nil hne
  have loop : ∀ (todo done : List (DataFrame α)) (d : Indexed α), Joined on done d → (∀ df ∈ todo, Joinable on df) →
      ∃ d', todo.foldlM (joinStep on) d = .ok d' ∧ Joined on (done ++ todo) d' := by
    intro todo
    induction todo with
    | nil => intro done d J _; exact ⟨d, rfl, by simpa using J⟩
    | cons df todo ih =>
      intro done d J hj
      obtain ⟨d', e, J'⟩ := joinStep_ok J (hj df (by simp))
      obtain ⟨d'', e', J''⟩ := ih (done ++ [df]) d' J' fun x hx => hj x (by simp [hx])
      refine ⟨d'', ?_, by simpa using J''⟩
      rw [List.foldlM_cons, e]
      exact e'
  obtain ⟨d, e, J⟩ := loop dfs [df] _ (joined_first (h df (by simp))) fun x hx => h x (by simp [hx])
  have hp := List.perm_insertionSort (· ≤ ·) d.columns
  refine ⟨{ d with columns := d.columns.insertionSort (· ≤ ·) }, ?_, List.pairwise_insertionSort _ _, hp.nodup_iff.2 J.columns,
    fun c => ?_, J.keys, J.memKey, fun p hp' c hc => J.cell p hp' c (hp.mem_iff.1 hc)⟩
  · unfold pdOuterJoin
    simp only [setIndex_ok (h df (by simp)), bind, Except.bind] at e ⊢
    change (dfs.foldlM (joinStep on) _ >>= _) = _
    rw [e]
    rfl
  · change c ∈ d.columns.insertionSort (· ≤ ·) ↔ _
    rw [hp.mem_iff]
    exact J.mem c

end

/-- A frame from a table with the names in its first row. -/
def frame (names : List Name) (rows : List (List (Option Nat))) : DataFrame Nat where
  columns := names
  rows := rows.map fun row c => (row.getD (names.idxOf c) none)

/-- The frames of `test_pd_outer_join`, format_test.py:49-60. -/
def testFrames : List (DataFrame Nat) :=
  [frame [['i', 'd'], ['a'], ['b']]
    [[some 0, some 10, some 20], [some 1, some 11, some 21], [some 2, some 12, none], [some 3, none, none]],
   frame [['i', 'd'], ['b'], ['c']]
    [[some 1, some 30, some 40], [some 2, none, some 41], [some 3, some 31, some 42], [some 4, some 32, none]]]

/-- The hypotheses hold of them, and the result is the one of the test. -/
example : (∀ df ∈ testFrames, Joinable ['i', 'd'] df) ∧
    (pdOuterJoin testFrames ['i', 'd']).toOption.map (fun res => (res.columns, res.rows.map fun p => (p.1, res.columns.map p.2))) =
      some ([['a'], ['b'], ['c']],
        [(some 0, [some 10, some 20, none]), (some 1, [some 11, some 21, some 40]), (some 2, [some 12, none, some 41]),
         (some 3, [none, some 31, some 42]), (some 4, [none, some 32, none])]) := by
  refine ⟨?_, by decide +kernel⟩
  intro df hdf
  simp only [testFrames, List.mem_cons, List.not_mem_nil, or_false] at hdf
  rcases hdf with rfl | rfl
  · exact ⟨by decide, by decide, by decide, by decide⟩
  · exact ⟨by decide, by decide, by decide, by decide⟩

/-- **C40** needs the hypothesis on names: with `x` and `x_JOIN_` in the second frame the latter column is lost. -/
theorem pdOuterJoin_loses_column : ∃ dfs : List (DataFrame Nat), ∃ c, (∃ df ∈ dfs, c ∈ df.columns) ∧ c ≠ ['i', 'd'] ∧
    (∀ df ∈ dfs, ['i', 'd'] ∈ df.columns ∧ df.columns.Nodup) ∧
    ∃ res, pdOuterJoin dfs ['i', 'd'] = .ok res ∧ c ∉ res.columns := by
  refine ⟨[frame [['i', 'd'], ['a']] [[some 0, some 1]], frame [['i', 'd'], ['x'], ['x'] ++ suffix] [[some 0, some 2, some 3]]],
    ['x'] ++ suffix, ⟨_, List.mem_cons_of_mem _ (List.mem_singleton_self _), by decide⟩, by decide, ?_, ?_⟩
  · simp only [List.mem_cons, List.not_mem_nil, or_false, forall_eq_or_imp, forall_eq]
    exact ⟨by decide, by decide⟩
  · refine ⟨_, rfl, ?_⟩
    decide +kernel

/-- So it is if a name of the first of several frames is reserved: the assertion fails. -/
theorem pdOuterJoin_reserved (on : Name) (df df' : DataFrame Nat) (dfs : List (DataFrame Nat)) (hk : on ∈ df.columns)
    (c : Name) (hc : c ∈ df.columns) (hne : c ≠ on) (hs : suffix <:+ c) :
    pdOuterJoin (df :: df' :: dfs) on = .error .assertion := by
  have hany : ((df.columns.erase on).any fun c => suffix.isSuffixOf c) = true := by
    rw [List.any_eq_true]
    exact ⟨c, (List.mem_erase_of_ne hne).2 hc, List.isSuffixOf_iff_suffix.2 hs⟩
  unfold pdOuterJoin
  simp only [setIndex, if_pos hk, bind, Except.bind, List.foldlM_cons, joinStep, hany]
  rfl

end TreeCat
