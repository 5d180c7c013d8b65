import Mathlib.Tactic.IntervalCases
import Verif.Spec.Format

/-!
# C39: `normalize_string` is canonical
-/

namespace TreeCat

open Spec
open Config (Str)

theorem words_split (a b : Str) {w : Char} (h : isSpace w) : words (a ++ w :: b) = words a ++ words b := by
  simp only [words_eq]
  rw [List.splitOnP_append_cons _ _ h, List.filter_append]

theorem words_nil : words [] = [] := by simp [words]

theorem words_cons_space (b : Str) {w : Char} (h : isSpace w) : words (w :: b) = words b := by
  have := words_split [] b h
  rwa [List.nil_append, words_nil, List.nil_append] at this

theorem words_word {s : Str} (h : ∀ c ∈ s, isSpace c = false) (hs : s ≠ []) : words s = [s] := by
  rw [words_eq]
  rw [List.splitOnP_eq_singleton h]
  simp [hs]

theorem words_concat_space (a : Str) {w : Char} (h : isSpace w) : words (a ++ [w]) = words a := by
  rw [words_split a [] h, words_nil, List.append_nil]

theorem mem_words {s w : Str} (h : w ∈ words s) : w ≠ [] ∧ ∀ c ∈ w, isSpace c = false := by
  rw [words_eq] at h
  rw [List.mem_filter] at h
  refine ⟨by simpa using h.2, ?_⟩
  have : ∀ s : Str, ∀ w ∈ s.splitOnP isSpace, ∀ c ∈ w, isSpace c = false := by
    intro s
    induction s with
    | nil => simp
    | cons d s ih =>
      intro w hw
      rw [List.splitOnP_cons_eq_if_modifyHead] at hw
      split at hw
      · rcases List.mem_cons.1 hw with rfl | hw
        · simp
        · exact ih w hw
      · rename_i hd
        cases hs : s.splitOnP isSpace with
        | nil => exact absurd hs (List.splitOnP_ne_nil _ _)
        | cons x xs =>
          rw [hs] at hw ih
          rw [List.modifyHead_cons] at hw
          rcases List.mem_cons.1 hw with rfl | hw
          · intro c hc
            rcases List.mem_cons.1 hc with rfl | hc
            · simpa using hd
            · exact ih x (by simp) c hc
          · exact ih w (by simp [hw])
  exact this s w h.1

theorem words_dropWhile (s : Str) : words (s.dropWhile isSpace) = words s := by
  induction s with
  | nil => rfl
  | cons c s ih =>
    rw [List.dropWhile_cons]
    split
    · rename_i h; rw [ih, words_cons_space s h]
    · rfl

theorem words_rdropWhile (s : Str) : words (s.reverse.dropWhile isSpace).reverse = words s := by
  induction s using List.reverseRecOn with
  | nil => rfl
  | append_singleton s c ih =>
    rw [List.reverse_append, List.reverse_singleton, List.singleton_append, List.dropWhile_cons]
    split
    · rename_i h; rw [ih, words_concat_space s h]
    · simp

theorem words_strip (s : Str) : words (strip s) = words s := by
  unfold strip
  rw [words_rdropWhile, words_dropWhile]

/-- The first and the last character are not whitespace. -/
def Trimmed (s : Str) : Prop := (∀ c ∈ s.head?, isSpace c = false) ∧ ∀ c ∈ s.getLast?, isSpace c = false

theorem trimmed_strip (s : Str) : Trimmed (strip s) := by
  have h1 : ∀ t : Str, ∀ c ∈ (t.dropWhile isSpace).head?, isSpace c = false := by
    intro t c hc
    induction t with
    | nil => simp at hc
    | cons d t ih =>
      rw [List.dropWhile_cons] at hc
      split at hc
      · exact ih hc
      · rename_i h; simp at hc; subst hc; simpa using h
  unfold strip
  constructor
  · intro c hc
    rw [List.head?_reverse] at hc
    have h2 : ∀ t : Str, (t.dropWhile isSpace).getLast? = none ∨ (t.dropWhile isSpace).getLast? = t.getLast? := by
      intro t
      induction t with
      | nil => simp
      | cons d t ih =>
        rw [List.dropWhile_cons]
        split
        · rcases ih with h | h
          · exact .inl h
          · cases t with
            | nil => simp
            | cons e t => rw [h]; simp
        · simp
    rcases h2 (s.dropWhile isSpace).reverse with h | h
    · rw [h] at hc; simp at hc
    · rw [h, List.getLast?_reverse] at hc
      exact h1 s c hc
  · intro c hc
    rw [List.getLast?_reverse] at hc
    exact h1 _ c hc

theorem exists_space_split (s : Str) : (∀ c ∈ s, isSpace c = false) ∨ ∃ a w b, s = a ++ w :: b ∧ isSpace w ∧ ∀ c ∈ a, isSpace c = false := by
  induction s with
  | nil => left; simp
  | cons c s ih =>
    by_cases hc : isSpace c
    · exact .inr ⟨[], c, s, rfl, hc, by simp⟩
    · rcases ih with h | ⟨a, w, b, rfl, hw, ha⟩
      · left; intro d hd
        rcases List.mem_cons.1 hd with rfl | hd
        · simpa using hc
        · exact h d hd
      · refine .inr ⟨c :: a, w, b, rfl, hw, ?_⟩
        intro d hd
        rcases List.mem_cons.1 hd with rfl | hd
        · simpa using hc
        · exact ha d hd

variable {T : Text}

theorem words_lower_word (L : Lawful T) {s : Str} (h : ∀ c ∈ s, isSpace c = false) : words (T.lower s) = (words s).map T.lower := by
  by_cases hs : s = []
  · rw [hs, L.nil, words_nil]; rfl
  · rw [words_word h hs, words_word (L.noSpace s h) (L.ne s hs)]; rfl

theorem words_lower (L : Lawful T) (s : Str) : words (T.lower s) = (words s).map T.lower := by
  induction hn : s.length using Nat.strong_induction_on generalizing s with
  | _ n ih =>
    rcases exists_space_split s with h | ⟨a, w, b, rfl, hw, ha⟩
    · exact words_lower_word L h
    · rw [L.split a w b hw, words_split _ _ hw, words_split _ _ hw, List.map_append, words_lower_word L ha,
        ih b.length (by subst hn; simp; omega) b rfl]

theorem lower_head (L : Lawful T) (s : Str) (h : ∀ c ∈ s.head?, isSpace c = false) : ∀ c ∈ (T.lower s).head?, isSpace c = false := by
  rcases exists_space_split s with hs | ⟨a, w, b, rfl, hw, ha⟩
  · exact fun c hc => L.noSpace s hs c (List.mem_of_mem_head? hc)
  · cases a with
    | nil => have := h w (by simp); rw [hw] at this; exact absurd this (by simp)
    | cons d a =>
      rw [L.split _ _ _ hw]
      intro c hc
      cases hl : T.lower (d :: a) with
      | nil => exact absurd hl (L.ne _ (by simp))
      | cons e l =>
        rw [hl] at hc
        have := L.noSpace _ ha c (by rw [hl]; simp at hc; simp [hc])
        exact this

theorem lower_last (L : Lawful T) (s : Str) (h : ∀ c ∈ s.getLast?, isSpace c = false) : ∀ c ∈ (T.lower s).getLast?, isSpace c = false := by
  induction hn : s.length using Nat.strong_induction_on generalizing s with
  | _ n ih =>
    rcases exists_space_split s with hs | ⟨a, w, b, rfl, hw, ha⟩
    · exact fun c hc => L.noSpace s hs c (List.mem_of_mem_getLast? hc)
    · by_cases hb : b = []
      · subst hb
        have := h w (by simp)
        rw [hw] at this; exact absurd this (by simp)
      · rw [L.split _ _ _ hw]
        have e : ∀ (a b : Str), b ≠ [] → (a ++ w :: b).getLast? = b.getLast? := by
          intro a b hb
          cases b with
          | nil => exact absurd rfl hb
          | cons x b => rw [show a ++ w :: x :: b = (a ++ [w]) ++ x :: b by simp, List.getLast?_append_of_ne_nil _ (by simp)]
        rw [e _ _ (L.ne b hb)]
        rw [e _ _ hb] at h
        exact ih b.length (by subst hn; simp; omega) b h rfl

theorem words_ne_nil {s : Str} (hs : s ≠ []) (h : ∀ c ∈ s.getLast?, isSpace c = false) : words s ≠ [] := by
  intro hw
  have : ∀ s : Str, words s = [] → ∀ c ∈ s, isSpace c = true := by
    intro s
    induction hn : s.length using Nat.strong_induction_on generalizing s with
    | _ n ih =>
      intro hw
      rcases exists_space_split s with hs | ⟨a, w, b, rfl, hw', ha⟩
      · by_cases h0 : s = []
        · subst h0; simp
        · rw [words_word hs h0] at hw; simp at hw
      · rw [words_split _ _ hw', List.append_eq_nil_iff] at hw
        intro c hc
        rcases List.mem_append.1 hc with hc | hc
        · by_cases h0 : a = []
          · subst h0; simp at hc
          · rw [words_word ha h0] at hw; simp at hw
        · rcases List.mem_cons.1 hc with rfl | hc
          · exact hw'
          · exact ih b.length (by subst hn; simp; omega) b rfl hw.2 c hc
  obtain ⟨c, hc⟩ : ∃ c, s.getLast? = some c := ⟨s.getLast hs, List.getLast?_eq_some_getLast hs⟩
  have h1 := h c (by rw [hc]; rfl)
  have h2 := this s hw c (List.mem_of_mem_getLast? (by rw [hc]; rfl))
  rw [h1] at h2; simp at h2

theorem collapse_word {a : Str} (ha : ∀ c ∈ a, isSpace c = false) (inRun : Bool) (b : Str) (hne : a ≠ []) :
    collapse inRun (a ++ b) = a ++ collapse false b := by
  induction a generalizing inRun with
  | nil => exact absurd rfl hne
  | cons c a ih =>
    have hc := ha c (by simp)
    rw [List.cons_append, collapse]
    simp only [hc]
    by_cases h0 : a = []
    · subst h0; simp
    · rw [ih (fun d hd => ha d (by simp [hd])) false h0]; simp

theorem joinWith_cons {sep : Char} {w : Str} {ws : List Str} (h : ws ≠ []) : joinWith sep (w :: ws) = w ++ sep :: joinWith sep ws := by
  cases ws with
  | nil => exact absurd rfl h
  | cons x xs => rfl

/-- Text between single spaces. -/
theorem collapse_words (s : Str) (h : ∀ c ∈ s.getLast?, isSpace c = false) :
    collapse true s = joinWith ' ' (words s) ∧ ((∀ c ∈ s.head?, isSpace c = false) → collapse false s = joinWith ' ' (words s)) := by
  induction hn : s.length using Nat.strong_induction_on generalizing s with
  | _ n ih =>
    rcases exists_space_split s with hs | ⟨a, w, b, rfl, hw, ha⟩
    · by_cases h0 : s = []
      · subst h0; rw [words_nil]; exact ⟨rfl, fun _ => rfl⟩
      · have : ∀ inRun, collapse inRun s = s := by
          intro inRun
          have := collapse_word hs inRun [] h0
          rwa [List.append_nil, collapse, List.append_nil] at this
        rw [words_word hs h0, this, this]
        exact ⟨rfl, fun _ => rfl⟩
    · have hb : b ≠ [] := by
        rintro rfl
        have := h w (by simp)
        rw [hw] at this; exact absurd this (by simp)
      have hlast : ∀ c ∈ b.getLast?, isSpace c = false := by
        intro c hc
        apply h c
        cases b with
        | nil => exact absurd rfl hb
        | cons x b => rw [show a ++ w :: x :: b = (a ++ [w]) ++ x :: b by simp, List.getLast?_append_of_ne_nil _ (by simp)]; exact hc
      have key := (ih b.length (by subst hn; simp; omega) b hlast rfl).1
      have hwb := words_ne_nil hb hlast
      rw [words_split _ _ hw]
      by_cases h0 : a = []
      · subst h0
        rw [List.nil_append, words_nil, List.nil_append]
        refine ⟨by rw [collapse]; simp only [hw, if_true]; exact key, fun hh => ?_⟩
        have := hh w (by simp)
        rw [hw] at this; exact absurd this (by simp)
      · rw [words_word ha h0]
        have e : ∀ inRun, collapse inRun (a ++ w :: b) = joinWith ' ' ([a] ++ words b) := by
          intro inRun
          rw [collapse_word ha inRun _ h0, collapse]
          simp only [hw, if_true, Bool.false_eq_true, if_false]
          rw [key, List.singleton_append, joinWith_cons hwb]
        exact ⟨e _, fun _ => e _⟩

/-- **C39**. `normalize_string` is determined by the lower-cased words: they are joined by single spaces
and the NA strings become empty. -/
theorem normalize_words (L : Lawful T) (s : Str) : normalize T s = dropNA (joinWith ' ' ((words s).map T.lower)) := by
  unfold normalize
  have ht := trimmed_strip s
  rw [(collapse_words _ (lower_last L _ ht.2)).2 (lower_head L _ ht.1), words_lower L, words_strip]

/-- Strings with the same words up to case have the same normal form. -/
theorem normalize_congr (L : Lawful T) {s t : Str} (h : (words s).map T.lower = (words t).map T.lower) :
    normalize T s = normalize T t := by
  rw [normalize_words L, normalize_words L, h]

theorem words_join (ws : List Str) (h : ∀ w ∈ ws, w ≠ [] ∧ ∀ c ∈ w, isSpace c = false) : words (joinWith ' ' ws) = ws := by
  induction ws with
  | nil => exact words_nil
  | cons w ws ih =>
    by_cases h0 : ws = []
    · subst h0; exact words_word (h w (by simp)).2 (h w (by simp)).1
    · rw [joinWith_cons h0, words_split _ _ (by decide), words_word (h w (by simp)).2 (h w (by simp)).1,
        ih fun w hw => h w (by simp [hw])]
      rfl

theorem dropNA_eq (s : Str) : dropNA s = s ∨ dropNA s = [] := by
  unfold dropNA; split
  · exact .inr rfl
  · exact .inl rfl

/-- The words of the normal form. -/
theorem words_normalize (L : Lawful T) (s : Str) : words (normalize T s) = (words s).map T.lower ∨ normalize T s = [] := by
  rw [normalize_words L]
  rcases dropNA_eq (joinWith ' ' ((words s).map T.lower)) with h | h
  · left
    rw [h, words_join]
    intro w hw
    obtain ⟨u, hu, rfl⟩ := List.mem_map.1 hw
    exact ⟨L.ne u (mem_words hu).1, L.noSpace u (mem_words hu).2⟩
  · exact .inr h

/-- **C39**. `normalize_string` is idempotent. -/
theorem normalize_idem (L : Lawful T) (s : Str) : normalize T (normalize T s) = normalize T s := by
  rcases words_normalize L s with h | h
  · rw [normalize_words L (normalize T s), h, List.map_map, normalize_words L s]
    congr 2
    exact List.map_congr_left fun w _ => L.idem w
  · rw [h, normalize_words L, words_nil]
    rfl

theorem lower_joinWith (L : Lawful T) (ws : List Str) : T.lower (joinWith ' ' ws) = joinWith ' ' (ws.map T.lower) := by
  induction ws with
  | nil => exact L.nil
  | cons w ws ih =>
    by_cases h0 : ws = []
    · subst h0; rfl
    · rw [joinWith_cons h0, L.split _ _ _ (by decide), ih, List.map_cons, joinWith_cons (by simpa using h0)]

/-- **C39**. The result has no upper case. -/
theorem normalize_lower (L : Lawful T) (s : Str) : T.lower (normalize T s) = normalize T s := by
  rw [normalize_words L]
  rcases dropNA_eq (joinWith ' ' ((words s).map T.lower)) with h | h
  · rw [h, lower_joinWith L, List.map_map]
    congr 1
    exact List.map_congr_left fun w _ => L.idem w
  · rw [h, L.nil]

theorem joinWith_space (ws : List Str) (h : ∀ w ∈ ws, w ≠ [] ∧ ∀ c ∈ w, isSpace c = false) :
    (∀ c ∈ (joinWith ' ' ws).head?, isSpace c = false) ∧ (∀ c ∈ (joinWith ' ' ws).getLast?, isSpace c = false) ∧
    ∀ a w b, joinWith ' ' ws = a ++ w :: b → isSpace w → w = ' ' ∧ ∀ c ∈ b.head?, isSpace c = false := by
  induction ws with
  | nil => simp [joinWith]
  | cons u ws ih =>
    have hu := h u (by simp)
    obtain ⟨c0, u', rfl⟩ : ∃ c u', u = c :: u' := List.exists_cons_of_ne_nil hu.1
    by_cases h0 : ws = []
    · subst h0
      refine ⟨?_, ?_, ?_⟩
      · intro c hc; exact hu.2 c (List.mem_of_mem_head? hc)
      · intro c hc; exact hu.2 c (List.mem_of_mem_getLast? hc)
      · intro a w b e hw
        have := hu.2 w (by change _ = _ at e; rw [show c0 :: u' = a ++ w :: b from e]; simp)
        rw [hw] at this; simp at this
    · obtain ⟨i1, i2, i3⟩ := ih fun w hw => h w (by simp [hw])
      have hne : joinWith ' ' ws ≠ [] := by
        cases ws with
        | nil => exact absurd rfl h0
        | cons x xs =>
          have hx := (h x (by simp)).1
          cases xs with
          | nil => exact hx
          | cons y ys => simp [joinWith]
      rw [joinWith_cons h0]
      refine ⟨?_, ?_, ?_⟩
      · intro c hc; exact hu.2 c (by simp at hc; simp [hc])
      · intro c hc
        apply i2 c
        cases hj : joinWith ' ' ws with
        | nil => exact absurd hj hne
        | cons x b =>
          rw [hj] at hc
          rwa [show (c0 :: u') ++ ' ' :: x :: b = ((c0 :: u') ++ [' ']) ++ x :: b by simp, List.getLast?_append_of_ne_nil _ (by simp)] at hc
      · intro a w b e hw
        rcases List.append_eq_append_iff.1 e with ⟨d, h1, h2⟩ | ⟨d, h1, h2⟩
        · cases d with
          | nil =>
            rw [List.nil_append] at h2
            injection h2 with h2 h3
            subst h2 h3
            exact ⟨rfl, i1⟩
          | cons x d =>
            rw [List.cons_append] at h2
            injection h2 with h2 h3
            exact i3 d w b h3 hw
        · cases d with
          | nil =>
            rw [List.nil_append] at h2
            injection h2 with h2 h3
            subst h2 h3
            exact ⟨rfl, i1⟩
          | cons x d =>
            rw [List.cons_append] at h2
            injection h2 with h2 h3
            subst h2
            have := hu.2 w (by rw [h1]; simp)
            rw [hw] at this; simp at this

/-- **C39**. The result neither begins nor ends with whitespace, its only whitespace is the space, and no
whitespace follows a space. -/
theorem normalize_space (L : Lawful T) (s : Str) :
    (∀ c ∈ (normalize T s).head?, isSpace c = false) ∧ (∀ c ∈ (normalize T s).getLast?, isSpace c = false) ∧
    ∀ a w b, normalize T s = a ++ w :: b → isSpace w → w = ' ' ∧ ∀ c ∈ b.head?, isSpace c = false := by
  rw [normalize_words L]
  rcases dropNA_eq (joinWith ' ' ((words s).map T.lower)) with h | h
  · rw [h]
    refine joinWith_space _ ?_
    intro w hw
    obtain ⟨u, hu, rfl⟩ := List.mem_map.1 hw
    exact ⟨L.ne u (mem_words hu).1, L.noSpace u (mem_words hu).2⟩
  · rw [h]; simp

/-- **C39**. The result is empty exactly for blank strings and for the NA strings in any case and spacing. -/
theorem normalize_empty (L : Lawful T) (s : Str) :
    normalize T s = [] ↔ words s = [] ∨ (words s).map T.lower = ["null".toList] ∨ (words s).map T.lower = ["none".toList] := by
  have hw : ∀ w ∈ (words s).map T.lower, w ≠ [] ∧ ∀ c ∈ w, isSpace c = false := by
    intro w hw
    obtain ⟨u, hu, rfl⟩ := List.mem_map.1 hw
    exact ⟨L.ne u (mem_words hu).1, L.noSpace u (mem_words hu).2⟩
  have hj := words_join _ hw
  rw [normalize_words L]
  constructor
  · intro h
    unfold dropNA at h
    split at h
    · rename_i h2
      right
      rcases h2 with h2 | h2 <;> rw [h2] at hj <;> rw [← hj]
      · exact .inl (words_word (by decide) (by decide))
      · exact .inr (words_word (by decide) (by decide))
    · rw [h, words_nil] at hj
      left
      exact List.map_eq_nil_iff.1 hj.symm
  · rintro (h | h | h)
    · rw [h]; rfl
    · rw [h]; rfl
    · rw [h]; rfl

/-- The result is never one of the NA strings. -/
theorem normalize_not_na (s : Str) : normalize T s ≠ "null".toList ∧ normalize T s ≠ "none".toList := by
  unfold normalize dropNA
  split
  · decide
  · rename_i h; exact not_or.1 h

theorem asciiLower_cases (c : Char) : asciiLower c = c ∨ ∃ n, 65 ≤ n ∧ n ≤ 90 ∧ c = Char.ofNat n ∧ asciiLower c = Char.ofNat (n + 32) := by
  unfold asciiLower
  split
  · rename_i h; exact .inr ⟨c.toNat, h.1, h.2, (Char.ofNat_toNat c).symm, rfl⟩
  · exact .inl rfl

theorem asciiLower_space (c : Char) : isSpace (asciiLower c) = isSpace c := by
  rcases asciiLower_cases c with h | ⟨n, h1, h2, rfl, h⟩
  · rw [h]
  · rw [h]; interval_cases n <;> decide

theorem asciiLower_idem (c : Char) : asciiLower (asciiLower c) = asciiLower c := by
  rcases asciiLower_cases c with h | ⟨n, h1, h2, rfl, h⟩
  · rw [h, h]
  · rw [h]; interval_cases n <;> decide

/-- The laws hold for ASCII text. -/
theorem asciiText_lawful : Lawful asciiText where
  nil := rfl
  split a w b hw := by
    have : asciiLower w = w := by
      rcases asciiLower_cases w with h | ⟨n, h1, h2, rfl, h⟩
      · exact h
      · exfalso; revert hw; interval_cases n <;> decide
    simp [asciiText, this]
  noSpace s h c hc := by
    obtain ⟨d, hd, rfl⟩ := List.mem_map.1 hc
    rw [asciiLower_space]; exact h d hd
  ne s hs := by simpa [asciiText] using hs
  idem s := by
    simp only [asciiText, List.map_map]
    exact List.map_congr_left fun c _ => asciiLower_idem c
  ascii s h := by
    simp only [asciiText]
    conv_rhs => rw [← List.map_id s]
    refine List.map_congr_left fun c hc => ?_
    have := h c hc
    have h1 : 97 ≤ c.toNat := this.1
    unfold asciiLower
    rw [if_neg (by omega)]; rfl

/-- The word list decides: different spacing and case, same result. -/
example : normalize asciiText " The \tMaltese  FALCON\n".toList = "the maltese falcon".toList ∧
    normalize asciiText " NuLL ".toList = [] := by decide +kernel

end TreeCat
