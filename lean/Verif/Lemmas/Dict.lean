import Mathlib.Data.List.Nodup
import Mathlib.Data.List.Dedup
import Verif.Model.Dict

/-! Lemmas about dicts. -/

set_option linter.unusedSectionVars false

namespace TreeCat

variable {α β : Type} [DecidableEq α]

theorem Dict.get?_set (d : Dict α β) (x y : α) (w : β) : Dict.get? (Dict.set d x w) y = if x = y then some w else Dict.get? d y := by
  induction d with
  | nil => rfl
  | cons kv d ih =>
    obtain ⟨k, v⟩ := kv
    rw [Dict.set]
    split
    · rename_i h; subst h
      simp only [Dict.get?]
      split <;> simp
    · rename_i h
      simp only [Dict.get?, ih]
      split
      · rename_i h2; subst h2
        rw [if_neg (Ne.symm h)]
      · rfl

theorem Dict.getD_set (d : Dict α β) (x y : α) (w z : β) : Dict.getD (Dict.set d x w) y z = if x = y then w else Dict.getD d y z := by
  unfold Dict.getD
  rw [Dict.get?_set]
  split <;> rfl

theorem Dict.mem_keys (d : Dict α β) (x : α) : x ∈ Dict.keys d ↔ ∃ v, Dict.get? d x = some v := by
  induction d with
  | nil => simp [Dict.keys, Dict.get?]
  | cons kv d ih =>
    obtain ⟨k, v⟩ := kv
    simp only [Dict.keys, List.map_cons, List.mem_cons, Dict.get?] at ih ⊢
    split
    · rename_i h; simp [h]
    · rename_i h
      rw [ih]
      simp [Ne.symm h]

theorem Dict.get?_eq_none (d : Dict α β) (x : α) : Dict.get? d x = none ↔ x ∉ Dict.keys d := by
  rw [Dict.mem_keys]
  cases Dict.get? d x <;> simp

theorem Dict.mem_of_get? {d : Dict α β} {x : α} {v : β} (h : Dict.get? d x = some v) : (x, v) ∈ d := by
  induction d with
  | nil => simp [Dict.get?] at h
  | cons kv d ih =>
    obtain ⟨k, w⟩ := kv
    rw [Dict.get?] at h
    split at h
    · rename_i hk; subst hk; injection h with h; subst h; simp
    · exact List.mem_cons_of_mem _ (ih h)

theorem Dict.get?_of_mem {d : Dict α β} (hn : (Dict.keys d).Nodup) {x : α} {v : β} (h : (x, v) ∈ d) : Dict.get? d x = some v := by
  induction d with
  | nil => simp at h
  | cons kv d ih =>
    obtain ⟨k, w⟩ := kv
    rw [Dict.keys, List.map_cons, List.nodup_cons] at hn
    rw [Dict.get?]
    rcases List.mem_cons.1 h with h | h
    · injection h with h1 h2; subst h1 h2; simp
    · rw [if_neg, ih hn.2 h]
      rintro rfl
      exact hn.1 (List.mem_map.2 ⟨_, h, rfl⟩)

theorem Dict.mem_iff {d : Dict α β} (hn : (Dict.keys d).Nodup) {x : α} {v : β} : (x, v) ∈ d ↔ Dict.get? d x = some v :=
  ⟨Dict.get?_of_mem hn, Dict.mem_of_get?⟩

theorem Dict.keys_cons (k : α) (v : β) (d : Dict α β) : Dict.keys ((k, v) :: d) = k :: Dict.keys d := rfl

theorem Dict.keys_set (d : Dict α β) (x : α) (w : β) : Dict.keys (Dict.set d x w) = if x ∈ Dict.keys d then Dict.keys d else Dict.keys d ++ [x] := by
  induction d with
  | nil => rfl
  | cons kv d ih =>
    obtain ⟨k, v⟩ := kv
    rw [Dict.set]
    split
    · rename_i h; subst h
      rw [Dict.keys_cons, Dict.keys_cons, if_pos (by simp)]
    · rename_i h
      rw [Dict.keys_cons, Dict.keys_cons, ih]
      by_cases hx : x ∈ Dict.keys d
      · rw [if_pos hx, if_pos (by simp [hx])]
      · rw [if_neg hx, if_neg (by simp [hx, Ne.symm h])]; rfl

theorem Dict.keys_set_of_notMem {d : Dict α β} {x : α} (h : x ∉ Dict.keys d) (w : β) : Dict.set d x w = d ++ [(x, w)] := by
  induction d with
  | nil => rfl
  | cons kv d ih =>
    obtain ⟨k, v⟩ := kv
    rw [Dict.keys, List.map_cons, List.mem_cons, not_or] at h
    rw [Dict.set, if_neg (Ne.symm h.1), ih h.2]
    rfl

theorem Dict.nodup_set {d : Dict α β} (hn : (Dict.keys d).Nodup) (x : α) (w : β) : (Dict.keys (Dict.set d x w)).Nodup := by
  rw [Dict.keys_set]
  split
  · exact hn
  · rename_i h
    rw [List.nodup_append]
    exact ⟨hn, by simp, fun a ha b hb => by simp at hb; subst hb; rintro rfl; exact h ha⟩

theorem Dict.mem_keys_set (d : Dict α β) (x y : α) (w : β) : y ∈ Dict.keys (Dict.set d x w) ↔ y = x ∨ y ∈ Dict.keys d := by
  rw [Dict.keys_set]
  split
  · rename_i h
    exact ⟨.inr, fun h' => h'.elim (fun e => e ▸ h) id⟩
  · simp [or_comm]

theorem Dict.foldl_set (l : List (α × β)) (d : Dict α β) (h : (l.map Prod.fst).Nodup) (x : α) :
    Dict.get? (l.foldl (fun d kv => Dict.set d kv.1 kv.2) d) x = match Dict.get? l x with | some v => some v | none => Dict.get? d x := by
  induction l generalizing d with
  | nil => rfl
  | cons kv l ih =>
    obtain ⟨k, v⟩ := kv
    rw [List.map_cons, List.nodup_cons] at h
    rw [List.foldl_cons, ih _ h.2]
    simp only [Dict.get?]
    by_cases hk : k = x
    · subst hk
      have : Dict.get? l k = none := (Dict.get?_eq_none l k).2 h.1
      rw [this, if_pos rfl, Dict.get?_set, if_pos rfl]
    · rw [if_neg hk]
      cases Dict.get? l x with
      | some w => rfl
      | none => simp only [Dict.get?_set, if_neg hk]

theorem Dict.get?_ofList {l : List (α × β)} (h : (l.map Prod.fst).Nodup) (x : α) : Dict.get? (Dict.ofList l) x = Dict.get? l x := by
  unfold Dict.ofList
  rw [Dict.foldl_set l [] h x]
  cases Dict.get? l x <;> rfl

end TreeCat
