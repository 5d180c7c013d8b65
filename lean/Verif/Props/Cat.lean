import Verif.Model.Cat

/-!
# C107: `cat` prints what the commands stored
-/

namespace TreeCat

open Config (Str)

variable {K : Type} {M : Nat}

/-- The file can be shown: its name ends in `.pkz`, and it holds an object written by `pickle`. -/
def Spec.Shows (disk : Disk K M) (path : Str) (obj : Stored K M) : Prop :=
  (∃ stem, path = stem ++ ['.', 'p', 'k', 'z']) ∧ disk path = some (.packed .pickle obj)

theorem pkz_iff (path : Str) : ".pkz".toList <:+ path ↔ ∃ stem, path = stem ++ ['.', 'p', 'k', 'z'] :=
  ⟨fun ⟨s, h⟩ => ⟨s, h.symm⟩, fun ⟨s, h⟩ => ⟨s, h.symm⟩⟩

theorem pickleLoad_pkz {disk : Disk K M} {path : Str} (h : ".pkz".toList <:+ path) (obj : Stored K M) :
    pickleLoad disk path = .ok obj ↔ disk path = some (.packed .pickle obj) := by
  have hc : codecOf path = .ok .pickle := by unfold codecOf; rw [if_pos h]
  simp only [pickleLoad, hc, bind, Except.bind]
  cases disk path with
  | none => simp
  | some c => cases c with
    | text x => simp
    | packed codec x => cases codec <;> simp

/-- **C107.** `cat` prints the objects of the paths in order up to the first file that cannot be shown, and raises if and only if
there is such a file; the error is an `AssertionError` if its name does not end in `.pkz`, and another one otherwise. -/
theorem cat_prints (disk : Disk K M) (paths : List Str) :
    ∃ shown rest, paths = shown ++ rest ∧ List.Forall₂ (Spec.Shows disk) shown (catCmd disk paths).1 ∧
      ((rest = [] ∧ (catCmd disk paths).2 = .ok ()) ∨
        ∃ path more e, rest = path :: more ∧ (∀ obj, ¬ Spec.Shows disk path obj) ∧ (catCmd disk paths).2 = .error e ∧
          (e = .assertion ↔ ¬ ∃ stem, path = stem ++ ['.', 'p', 'k', 'z'])) := by
  induction paths with
  | nil => exact ⟨[], [], rfl, .nil, .inl ⟨rfl, rfl⟩⟩
  | cons path paths ih =>
    obtain ⟨shown, rest, h1, h2, h3⟩ := ih
    unfold catCmd
    by_cases hp : ".pkz".toList <:+ path
    · rw [if_pos hp]
      have hl := pickleLoad_pkz (disk := disk) hp
      cases he : pickleLoad disk path with
      | ok obj =>
        refine ⟨path :: shown, rest, by rw [h1]; rfl, .cons ⟨(pkz_iff path).1 hp, (hl obj).1 he⟩ h2, ?_⟩
        rcases h3 with h3 | ⟨p, more, e, h3⟩
        · exact .inl h3
        · exact .inr ⟨p, more, e, h3⟩
      | error e =>
        refine ⟨[], path :: paths, rfl, .nil, .inr ⟨path, paths, e, rfl, ?_, rfl, ?_⟩⟩
        · intro obj h
          have := (hl obj).2 h.2
          rw [he] at this
          cases this
        · refine ⟨?_, fun h => absurd ((pkz_iff path).1 hp) h⟩
          rintro rfl
          exfalso
          have hc : codecOf path = .ok .pickle := by unfold codecOf; rw [if_pos hp]
          simp only [pickleLoad, hc, bind, Except.bind] at he
          split at he
          · cases he
          · cases he
          · split at he <;> cases he
    · rw [if_neg hp]
      refine ⟨[], path :: paths, rfl, .nil, .inr ⟨path, paths, _, rfl, fun obj h => hp ((pkz_iff path).2 h.1), rfl, ?_⟩⟩
      exact ⟨fun _ h => hp ((pkz_iff path).2 h), fun _ => rfl⟩

/-- What `pickle_dump` has stored under a name ending in `.pkz`, `cat` prints. -/
theorem cat_stored {disk disk' : Disk K M} {obj : Stored K M} {stem : Str} (h : pickleDump disk obj (stem ++ ".pkz".toList) = .ok disk') :
    catCmd disk' [stem ++ ".pkz".toList] = ([obj], .ok ()) := by
  have hp : ".pkz".toList <:+ stem ++ ".pkz".toList := List.suffix_append _ _
  have hc : codecOf (stem ++ ".pkz".toList) = .ok .pickle := by unfold codecOf; rw [if_pos hp]
  simp only [pickleDump, hc, bind, Except.bind] at h
  cases h
  have : pickleLoad (disk.write (stem ++ ".pkz".toList) (.packed .pickle obj)) (stem ++ ".pkz".toList) = .ok obj :=
    (pickleLoad_pkz hp obj).2 (if_pos rfl)
  simp only [catCmd, if_pos hp, this]

/-- A dataset that `import-data` has stored under a name ending in `.jz` is not printed. -/
theorem cat_json {disk : Disk K M} (stem : Str) (obj : Stored K M) :
    ∃ disk', pickleDump disk obj (stem ++ ".jz".toList) = .ok disk' ∧ pickleLoad disk' (stem ++ ".jz".toList) = .ok obj ∧
      catCmd disk' [stem ++ ".jz".toList] = ([], .error .assertion) := by
  have hj : ".jz".toList <:+ stem ++ ".jz".toList := List.suffix_append _ _
  have hn : ¬ ".pkz".toList <:+ stem ++ ".jz".toList := by
    rintro ⟨s, h⟩
    have := congrArg List.reverse h
    simp at this
  have hc : codecOf (stem ++ ".jz".toList) = .ok .json := by unfold codecOf; rw [if_neg hn, if_pos hj]
  refine ⟨disk.write (stem ++ ".jz".toList) (.packed .json obj), ?_, ?_, ?_⟩
  · simp only [pickleDump, hc, bind, Except.bind]
  · simp only [pickleLoad, hc, bind, Except.bind, Disk.write, if_true]
  · simp only [catCmd, if_neg hn]

/-- A stored ensemble, a text file with the name of a stored one, and a missing file. -/
def catDisk : Disk ℚ 2 := fun p =>
  if p = "m.pkz".toList then some (.packed .pickle (.ensemble [])) else if p = "t.pkz".toList then some (.text "a,b".toList) else none

example : catCmd catDisk ["m.pkz".toList, "m.pkz".toList] = ([.ensemble [], .ensemble []], .ok ()) := rfl

example : catCmd catDisk ["m.pkz".toList, "t.pkz".toList, "m.pkz".toList] = ([.ensemble []], .error .ioError) := rfl

example : catCmd catDisk ["m.pkz".toList, "m.csv".toList] = ([.ensemble []], .error .assertion) := rfl

example : ∃ disk', pickleDump catDisk (.ensemble []) ("dir/x".toList ++ ".pkz".toList) = .ok disk' ∧
    catCmd disk' ["m.pkz".toList, "dir/x.pkz".toList] = ([.ensemble [], .ensemble []], .ok ()) := ⟨_, rfl, rfl⟩

end TreeCat
