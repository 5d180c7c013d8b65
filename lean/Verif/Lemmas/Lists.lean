import Mathlib.Data.List.Forall2
import Verif.Model.Py

/-! # Lists related entry by entry -/

namespace TreeCat

theorem forall₂_mem_right {α β : Type} {R : α → β → Prop} {l : List α} {l' : List β} (h : List.Forall₂ R l l') {b : β} (hb : b ∈ l') : ∃ a ∈ l, R a b := by
  induction h with
  | nil => simp at hb
  | cons hab _ ih =>
    rcases List.mem_cons.1 hb with rfl | hb
    · exact ⟨_, by simp, hab⟩
    · obtain ⟨r, hr, hh⟩ := ih hb
      exact ⟨r, by simp [hr], hh⟩

theorem forall₂_mem_left {α β : Type} {R : α → β → Prop} {l : List α} {l' : List β} (h : List.Forall₂ R l l') {a : α} (ha : a ∈ l) : ∃ b ∈ l', R a b := by
  induction h with
  | nil => simp at ha
  | cons hab _ ih =>
    rcases List.mem_cons.1 ha with rfl | ha
    · exact ⟨_, by simp, hab⟩
    · obtain ⟨r, hr, hh⟩ := ih ha
      exact ⟨r, by simp [hr], hh⟩

theorem mapM_forall₂ {α β : Type} (f : α → Py β) (R : α → β → Prop) (l : List α) (h : ∀ a ∈ l, ∃ b, f a = .ok b ∧ R a b) :
    ∃ bs, l.mapM f = .ok bs ∧ List.Forall₂ R l bs := by
  induction l with
  | nil => exact ⟨[], rfl, .nil⟩
  | cons a l ih =>
    obtain ⟨b, e, hb⟩ := h a (by simp)
    obtain ⟨bs, e', hbs⟩ := ih fun a ha => h a (by simp [ha])
    refine ⟨b :: bs, ?_, .cons hb hbs⟩
    rw [List.mapM_cons, e, e']
    rfl

theorem mapM_mem {α β : Type} {f : α → Py β} : ∀ {l : List α} {bs : List β}, l.mapM f = .ok bs → ∀ a ∈ l, ∃ b ∈ bs, f a = .ok b := by
  intro l
  induction l with
  | nil => intro bs _ a ha; simp at ha
  | cons x l ih =>
    intro bs h a ha
    rw [List.mapM_cons] at h
    cases hx : f x with
    | error e => rw [hx] at h; cases h
    | ok b =>
      rw [hx] at h
      cases hl : l.mapM f with
      | error e => rw [hl] at h; cases h
      | ok cs =>
        rw [hl] at h
        cases h
        rcases List.mem_cons.1 ha with rfl | ha
        · exact ⟨b, by simp, hx⟩
        · obtain ⟨c, hc, hfc⟩ := ih hl a ha
          exact ⟨c, by simp [hc], hfc⟩

end TreeCat
