import Verif.Lemmas.Guess
import Verif.Props.LoadSchema

/-!
# C38: what the rows of groups.csv would mean

The code cannot read a row of groups.csv (`loadSchema_groups_raise`). This is what it would collect from rows of four fields, so that with
`treePriorOf_partial` the prior of such a file is known.
-/

namespace TreeCat

open Config (Str)

namespace Spec

/-- A row of groups.csv: group, logit, source, target. -/
abbrev GroupRow := Str × Str × Str × Str

/-- The logits given for a group, in order of the rows. -/
def groupLogits (T : Text) (rows : List GroupRow) (group : Str) : List ℚ :=
  rows.filterMap fun r => if r.1 = group ∧ r.2.1 ≠ [] then T.parseFloat r.2.1 else none

/-- A name listed in the field `f` of the rows of a group. -/
def InGroup (f : GroupRow → Str) (rows : List GroupRow) (group name : Str) : Prop := name ≠ [] ∧ ∃ r ∈ rows, r.1 = group ∧ f r = name

/-- The groups collected from rows. -/
structure Collects (T : Text) (rows : List GroupRow) (g : Groups) : Prop where
  logit : ∀ group, Dict.get? g.logits group = (groupLogits T rows group).getLast?
  nodupLogits : (Dict.keys g.logits).Nodup
  source : ∀ group name, name ∈ Dict.getD g.sources group [] ↔ InGroup (fun r => r.2.2.1) rows group name
  nodupSources : ∀ group, (Dict.getD g.sources group []).Nodup
  target : ∀ group name, name ∈ Dict.getD g.targets group [] ↔ InGroup (fun r => r.2.2.2) rows group name
  nodupTargets : ∀ group, (Dict.getD g.targets group []).Nodup

end Spec

open Spec

variable {T : Text}

theorem collect_name (f : GroupRow → Str) (rows : List GroupRow) (r : GroupRow) (d : Dict Str (List Str))
    (h : ∀ group name, name ∈ Dict.getD d group [] ↔ InGroup f rows group name) (hn : ∀ group, (Dict.getD d group []).Nodup) :
    let d' := if f r = [] then d else Dict.set d r.1 (setUnion (Dict.getD d r.1 []) [f r])
    (∀ group name, name ∈ Dict.getD d' group [] ↔ InGroup f (rows ++ [r]) group name) ∧ ∀ group, (Dict.getD d' group []).Nodup := by
  intro d'
  obtain ⟨u1, u2⟩ := setUnion_spec [f r] (Dict.getD d r.1 []) (hn r.1)
  have hin : ∀ group name, InGroup f (rows ++ [r]) group name ↔ InGroup f rows group name ∨ (name ≠ [] ∧ r.1 = group ∧ f r = name) := by
    intro group name
    unfold InGroup
    constructor
    · rintro ⟨h1, x, hx, h2⟩
      rcases List.mem_append.1 hx with hx | hx
      · exact .inl ⟨h1, x, hx, h2⟩
      · rw [List.mem_singleton] at hx; subst hx; exact .inr ⟨h1, h2⟩
    · rintro (⟨h1, x, hx, h2⟩ | ⟨h1, h2⟩)
      · exact ⟨h1, x, List.mem_append_left _ hx, h2⟩
      · exact ⟨h1, r, by simp, h2⟩
  by_cases he : f r = []
  · have e : d' = d := if_pos he
    rw [e]
    refine ⟨fun group name => ?_, hn⟩
    rw [hin, h]
    constructor
    · exact .inl
    · rintro (h' | ⟨h1, -, h2⟩)
      · exact h'
      · exact absurd (h2.symm.trans he) h1
  · have e : d' = Dict.set d r.1 (setUnion (Dict.getD d r.1 []) [f r]) := if_neg he
    rw [e]
    refine ⟨fun group name => ?_, fun group => ?_⟩
    · rw [hin, Dict.getD_set]
      split
      · rename_i hg
        subst hg
        rw [u2, h, List.mem_singleton]
        constructor
        · rintro (h' | rfl)
          · exact .inl h'
          · exact .inr ⟨he, rfl, rfl⟩
        · rintro (h' | ⟨-, -, rfl⟩)
          · exact .inl h'
          · exact .inr rfl
      · rename_i hg
        rw [h]
        constructor
        · exact .inl
        · rintro (h' | ⟨-, h2, -⟩)
          · exact h'
          · exact absurd h2 hg
    · rw [Dict.getD_set]
      split
      · exact u1
      · exact hn group

theorem addGroup_collects {rows : List GroupRow} {g : Groups} (h : Collects T rows g) (r : GroupRow)
    (hr : r.2.1 = [] ∨ ∃ x, T.parseFloat r.2.1 = some x) : ∃ g', addGroup T g r = .ok g' ∧ Collects T (rows ++ [r]) g' := by
  have hlog : ∃ logits, (if r.2.1 = [] then (.ok g : Py Groups) else match T.parseFloat r.2.1 with
      | none => .error .valueError
      | some x => .ok { g with logits := Dict.set g.logits r.1 x }) = .ok { g with logits } ∧
      (∀ group, Dict.get? logits group = (groupLogits T (rows ++ [r]) group).getLast?) ∧ (Dict.keys logits).Nodup := by
    have happ : ∀ group, groupLogits T (rows ++ [r]) group = groupLogits T rows group ++ groupLogits T [r] group := by
      intro group; simp [groupLogits, List.filterMap_append]
    by_cases he : r.2.1 = []
    · refine ⟨g.logits, if_pos he, fun group => ?_, h.nodupLogits⟩
      rw [happ, h.logit]
      simp [groupLogits, he]
    · obtain ⟨x, hx⟩ := hr.resolve_left he
      refine ⟨Dict.set g.logits r.1 x, by rw [if_neg he, hx], fun group => ?_, Dict.nodup_set h.nodupLogits _ _⟩
      rw [happ, Dict.get?_set]
      by_cases hg : r.1 = group
      · rw [if_pos hg]
        simp [groupLogits, hg, he, hx]
      · rw [if_neg hg, h.logit]
        simp [groupLogits, hg]
  obtain ⟨logits, e, hl, hln⟩ := hlog
  obtain ⟨s1, s2⟩ := collect_name (fun r => r.2.2.1) rows r g.sources h.source h.nodupSources
  obtain ⟨t1, t2⟩ := collect_name (fun r => r.2.2.2) rows r g.targets h.target h.nodupTargets
  refine ⟨⟨logits, if r.2.2.1 = [] then g.sources else Dict.set g.sources r.1 (setUnion (Dict.getD g.sources r.1 []) [r.2.2.1]),
    if r.2.2.2 = [] then g.targets else Dict.set g.targets r.1 (setUnion (Dict.getD g.targets r.1 []) [r.2.2.2])⟩, ?_, hl, hln, s1, s2, t1, t2⟩
  unfold addGroup
  by_cases he : r.2.1 = []
  · rw [if_pos he] at e ⊢
    obtain rfl : g.logits = logits := congrArg Groups.logits (Except.ok.inj e)
    simp only [bind, Except.bind, pure, Except.pure]
    split <;> split <;> rfl
  · rw [if_neg he] at e ⊢
    cases hx : T.parseFloat r.2.1 with
    | none => rw [hx] at e; cases e
    | some x =>
      rw [hx] at e
      obtain rfl : Dict.set g.logits r.1 x = logits := congrArg Groups.logits (Except.ok.inj e)
      simp only [bind, Except.bind, pure, Except.pure]
      split <;> split <;> rfl

/-- **C38.** From rows of four fields the loop over groups.csv collects, for each group, the last logit given, and the sets of the sources
and of the targets; empty fields are skipped. -/
theorem addGroups_partial (rows : List GroupRow) (hr : ∀ r ∈ rows, r.2.1 = [] ∨ ∃ x, T.parseFloat r.2.1 = some x) :
    ∃ g, rows.foldlM (addGroup T) ⟨[], [], []⟩ = .ok g ∧ Collects T rows g := by
  have key : ∀ (l done : List GroupRow) (g : Groups), Collects T done g → (∀ r ∈ l, r.2.1 = [] ∨ ∃ x, T.parseFloat r.2.1 = some x) →
      ∃ g', l.foldlM (addGroup T) g = .ok g' ∧ Collects T (done ++ l) g' := by
    intro l
    induction l with
    | nil => intro done g h _; exact ⟨g, rfl, by rwa [List.append_nil]⟩
    | cons r l ih =>
      intro done g h hl
      obtain ⟨g1, e1, h1⟩ := addGroup_collects h r (hl r (by simp))
      obtain ⟨g2, e2, h2⟩ := ih (done ++ [r]) g1 h1 fun r hr => hl r (by simp [hr])
      refine ⟨g2, by rw [List.foldlM_cons, e1]; exact e2, ?_⟩
      rwa [List.append_assoc, List.singleton_append] at h2
  have := key rows [] ⟨[], [], []⟩ ⟨fun _ => rfl, List.nodup_nil, fun group name => by simp [Dict.getD, Dict.get?, InGroup],
    fun _ => List.nodup_nil, fun group name => by simp [Dict.getD, Dict.get?, InGroup], fun _ => List.nodup_nil⟩ hr
  simpa using this

/-- A logit that is no number raises `ValueError`. -/
theorem addGroups_bad (rows : List GroupRow) (r : GroupRow) (h : r ∈ rows) (he : r.2.1 ≠ []) (hx : T.parseFloat r.2.1 = none) (g : Groups) :
    rows.foldlM (addGroup T) g = .error .valueError := by
  have step : ∀ (g : Groups) (r : GroupRow), (∃ g', addGroup T g r = .ok g') ∨ addGroup T g r = .error .valueError := by
    intro g r
    unfold addGroup
    by_cases h1 : r.2.1 = []
    · left; rw [if_pos h1]; exact ⟨_, rfl⟩
    · rw [if_neg h1]
      cases T.parseFloat r.2.1 with
      | none => exact .inr rfl
      | some x => exact .inl ⟨_, rfl⟩
  induction rows generalizing g with
  | nil => simp at h
  | cons r' rows ih =>
    rw [List.foldlM_cons]
    rcases step g r' with ⟨g', e⟩ | e
    · rcases List.mem_cons.1 h with rfl | h
      · exfalso
        unfold addGroup at e
        rw [if_neg he, hx] at e
        simp [bind, Except.bind] at e
      · rw [e]; exact ih h g'
    · rw [e]; rfl

/-- A text in which only `1` and `2` are numbers. -/
def groupText : Text := { asciiText with parseFloat := fun s => if s = ['1'] then some 1 else if s = ['2'] then some 2 else none }

/-- Two groups; the first has two sources and its logit is given twice. -/
example : ([(['g'], ['1'], ['a'], ['b']), (['h'], ['1'], ['b'], []), (['g'], ['2'], ['c'], ['b']), (['g'], [], ['a'], [])] : List GroupRow).foldlM
    (addGroup groupText) ⟨[], [], []⟩ =
    .ok ⟨[(['g'], 2), (['h'], 1)], [(['g'], [['a'], ['c']]), (['h'], [['b']])], [(['g'], [['b']])]⟩ := by decide +kernel

example : ∃ g, ([(['g'], ['1'], ['a'], ['b']), (['g'], ['2'], ['c'], ['b'])] : List GroupRow).foldlM (addGroup groupText) ⟨[], [], []⟩ = .ok g ∧
    Dict.get? g.logits ['g'] = some 2 ∧ ['c'] ∈ Dict.getD g.sources ['g'] [] := by
  obtain ⟨g, e, h⟩ := addGroups_partial (T := groupText) [(['g'], ['1'], ['a'], ['b']), (['g'], ['2'], ['c'], ['b'])] (by
    intro r hr; right; rcases List.mem_cons.1 hr with rfl | hr
    · exact ⟨1, rfl⟩
    · rw [List.mem_singleton] at hr; subst hr; exact ⟨2, rfl⟩)
  exact ⟨g, e, by rw [h.logit]; rfl, (h.source _ _).2 ⟨by simp, (['g'], ['2'], ['c'], ['b']), by simp, rfl, rfl⟩⟩

end TreeCat
