import Verif.Model.Config

/-! Helper lemmas about decimal strings, splitting and association lists. -/

namespace TreeCat.Config

theorem digitChar (d : Nat) (h : d < 10) :
    (Char.ofNat (48 + d)).isDigit = true ∧ (Char.ofNat (48 + d)).toNat - 48 = d := by
  match d, h with
  | 0, _ | 1, _ | 2, _ | 3, _ | 4, _ | 5, _ | 6, _ | 7, _ | 8, _ | 9, _ => decide

theorem parseDigits_append (s : Str) (c : Char) (acc : Nat) :
    parseDigits acc (s ++ [c]) =
      (parseDigits acc s).bind fun a =>
        if c.isDigit then some (10 * a + (c.toNat - 48)) else none := by
  induction s generalizing acc with
  | nil => simp [parseDigits]
  | cons d s ih =>
    simp only [List.cons_append, parseDigits]
    split
    · exact ih _
    · simp

theorem parseDigits_natDigits (n : Nat) : parseDigits 0 (natDigits n) = some n := by
  fun_induction natDigits n with
  | case1 n h =>
    have := digitChar n h
    simp [parseDigits, this.1, this.2]
  | case2 n h ih =>
    have := digitChar (n % 10) (Nat.mod_lt _ (by omega))
    rw [parseDigits_append, ih]
    simp only [Option.bind_some, this.1, this.2, if_true, Option.some.injEq]
    omega

theorem natDigits_digit (n : Nat) : ∀ c ∈ natDigits n, c.isDigit = true := by
  fun_induction natDigits n with
  | case1 n h => simpa using (digitChar n h).1
  | case2 n h ih =>
    intro c hc
    rcases List.mem_append.1 hc with hc | hc
    · exact ih c hc
    · have := (digitChar (n % 10) (Nat.mod_lt _ (by omega))).1
      simp at hc; subst hc; exact this

theorem natDigits_ne_nil (n : Nat) : natDigits n ≠ [] := by
  unfold natDigits; split <;> simp

theorem natDigits_cons (n : Nat) : ∃ c t, natDigits n = c :: t ∧ c.isDigit = true := by
  cases h : natDigits n with
  | nil => exact absurd h (natDigits_ne_nil n)
  | cons c t => exact ⟨c, t, rfl, natDigits_digit n c (by simp [h])⟩

theorem natDigits_inj {a b : Nat} (h : natDigits a = natDigits b) : a = b := by
  have := parseDigits_natDigits a
  rw [h, parseDigits_natDigits] at this
  simpa using this.symm

theorem dash_not_digit : ('-' : Char).isDigit = false := by decide

theorem digit_ne_dash {c : Char} (h : c.isDigit = true) : c ≠ '-' := by
  intro e; subst e; simp [dash_not_digit] at h

theorem digit_ne_plus {c : Char} (h : c.isDigit = true) : c ≠ '+' := by
  intro e; subst e; revert h; decide

theorem parseInt_intStr_ofNat (n : Nat) : parseInt (natDigits n) = some (n : Int) := by
  obtain ⟨c, t, h, hd⟩ := natDigits_cons n
  have hp := parseDigits_natDigits n
  rw [h] at hp ⊢
  unfold parseInt
  split <;> simp_all [digit_ne_dash, digit_ne_plus]

/-- `int(str(i)) == i`, for negative numbers too. -/
theorem parseInt_intStr (i : Int) : parseInt (intStr i) = some i := by
  cases i with
  | ofNat n => exact parseInt_intStr_ofNat n
  | negSucc n =>
    obtain ⟨c, t, h, hd⟩ := natDigits_cons (n + 1)
    have hp := parseDigits_natDigits (n + 1)
    rw [intStr]
    rw [h] at hp ⊢
    simp only [parseInt, hp, Option.map_some, Option.some.injEq]
    rfl

/-- Terminators of a number inside a joined string: end of string or a dash. -/
def Stop (x : Str) : Prop := x = [] ∨ ∃ t, x = '-' :: t

theorem digits_prefix_unique (s t x y : Str)
    (hs : ∀ c ∈ s, c.isDigit = true) (ht : ∀ c ∈ t, c.isDigit = true)
    (hx : Stop x) (hy : Stop y) (h : s ++ x = t ++ y) : s = t ∧ x = y := by
  induction s generalizing t with
  | nil =>
    cases t with
    | nil => exact ⟨rfl, by simpa using h⟩
    | cons c t =>
      rcases hx with rfl | ⟨u, rfl⟩
      · simp at h
      · simp at h
        have := ht c (by simp)
        rw [← h.1] at this; simp [dash_not_digit] at this
  | cons c s ih =>
    cases t with
    | nil =>
      rcases hy with rfl | ⟨u, rfl⟩
      · simp at h
      · simp at h
        have := hs c (by simp)
        rw [h.1] at this; simp [dash_not_digit] at this
    | cons d t =>
      simp at h
      obtain ⟨h1, h2⟩ := ih t (fun c hc => hs c (by simp [hc])) (fun c hc => ht c (by simp [hc])) h.2
      exact ⟨by rw [h.1, h1], h2⟩

theorem intStr_prefix_unique (a b : Int) (x y : Str) (hx : Stop x) (hy : Stop y)
    (h : intStr a ++ x = intStr b ++ y) : a = b ∧ x = y := by
  have key : ∀ m n : Nat, natDigits m ++ x = natDigits n ++ y → m = n ∧ x = y := by
    intro m n h
    obtain ⟨h1, h2⟩ := digits_prefix_unique _ _ _ _ (natDigits_digit m) (natDigits_digit n) hx hy h
    exact ⟨natDigits_inj h1, h2⟩
  cases a with
  | ofNat m =>
    cases b with
    | ofNat n =>
      obtain ⟨h1, h2⟩ := key m n h
      exact ⟨by rw [h1], h2⟩
    | negSucc n =>
      obtain ⟨c, t, hc, hd⟩ := natDigits_cons m
      simp [intStr, hc] at h
      exact absurd h.1 (digit_ne_dash hd)
  | negSucc m =>
    cases b with
    | ofNat n =>
      obtain ⟨c, t, hc, hd⟩ := natDigits_cons n
      simp [intStr, hc] at h
      exact absurd h.1.symm (digit_ne_dash hd)
    | negSucc n =>
      simp [intStr] at h
      obtain ⟨h1, h2⟩ := key _ _ h
      exact ⟨by simp at h1; rw [h1], h2⟩

theorem joinDash_cons_stop (s : Str) (rest : List Str) :
    ∃ x, Stop x ∧ joinDash (s :: rest) = s ++ x ∧
      (rest = [] → x = []) ∧ (rest ≠ [] → x = '-' :: joinDash rest) := by
  cases rest with
  | nil => exact ⟨[], .inl rfl, by simp [joinDash], by simp, by simp⟩
  | cons t r => exact ⟨'-' :: joinDash (t :: r), .inr ⟨_, rfl⟩, by simp [joinDash], by simp, by simp⟩

theorem joinDash_intStr_inj (l m : List Int) (hl : l.length = m.length)
    (h : joinDash (l.map intStr) = joinDash (m.map intStr)) : l = m := by
  induction l generalizing m with
  | nil => cases m with
    | nil => rfl
    | cons => simp at hl
  | cons a l ih =>
    cases m with
    | nil => simp at hl
    | cons b m =>
      obtain ⟨x, hx, hxe, hx0, hx1⟩ := joinDash_cons_stop (intStr a) (l.map intStr)
      obtain ⟨y, hy, hye, hy0, hy1⟩ := joinDash_cons_stop (intStr b) (m.map intStr)
      simp only [List.map_cons] at h
      rw [hxe, hye] at h
      obtain ⟨hab, hxy⟩ := intStr_prefix_unique a b x y hx hy h
      simp at hl
      cases l with
      | nil =>
        cases m with
        | nil => rw [hab]
        | cons => simp at hl
      | cons a' l =>
        cases m with
        | nil => simp at hl
        | cons b' m =>
          rw [hx1 (by simp), hy1 (by simp)] at hxy
          rw [hab, ih (b' :: m) hl (by simpa using hxy)]

theorem splitDash_ne_nil (s : Str) : splitDash s ≠ [] := by
  cases s with
  | nil => simp [splitDash]
  | cons c s =>
    simp only [splitDash]
    split
    · simp
    · split <;> simp

theorem splitDash_noDash (s : Str) (h : ∀ c ∈ s, c ≠ '-') : splitDash s = [s] := by
  induction s with
  | nil => rfl
  | cons c s ih =>
    simp [splitDash, h c (by simp), ih (fun c hc => h c (by simp [hc]))]

theorem splitDash_append (s t : Str) (h : ∀ c ∈ s, c ≠ '-') :
    splitDash (s ++ '-' :: t) = s :: splitDash t := by
  induction s with
  | nil => simp [splitDash]
  | cons c s ih =>
    simp [splitDash, h c (by simp), ih (fun c hc => h c (by simp [hc]))]

theorem splitDash_joinDash (l : List Str) (h : ∀ s ∈ l, ∀ c ∈ s, c ≠ '-') (hne : l ≠ []) :
    splitDash (joinDash l) = l := by
  induction l with
  | nil => exact absurd rfl hne
  | cons s l ih =>
    cases l with
    | nil => simpa [joinDash] using splitDash_noDash s (h s (by simp))
    | cons t r =>
      simp only [joinDash]
      rw [splitDash_append s _ (h s (by simp)), ih (fun s hs => h s (by simp [hs])) (by simp)]

/-- Number of dashes. -/
def dashes (s : Str) : Nat := s.countP (· == '-')

theorem splitDash_length (s : Str) : (splitDash s).length = dashes s + 1 := by
  induction s with
  | nil => rfl
  | cons c s ih =>
    simp only [splitDash, dashes] at *
    by_cases h : c = '-'
    · simp [h, ih]
    · simp only [h, if_false]
      cases hs : splitDash s with
      | nil => exact absurd hs (splitDash_ne_nil s)
      | cons t r => rw [hs] at ih; simp [h] at ih ⊢; omega

theorem dashes_natDigits (n : Nat) : dashes (natDigits n) = 0 := by
  unfold dashes
  rw [List.countP_eq_zero]
  intro c hc
  simpa using digit_ne_dash (natDigits_digit n c hc)

theorem dashes_append (s t : Str) : dashes (s ++ t) = dashes s + dashes t := by
  simp [dashes]

theorem dashes_intStr (i : Int) : dashes (intStr i) = if i < 0 then 1 else 0 := by
  cases i with
  | ofNat n =>
    have h : ¬ (Int.ofNat n < 0) := by simp
    rw [if_neg h]; exact dashes_natDigits n
  | negSucc n =>
    have h : Int.negSucc n < 0 := Int.negSucc_lt_zero n
    have := dashes_natDigits (n + 1)
    rw [if_pos h]; simp [intStr, dashes] at *; exact this

theorem dashes_join (l : List Int) (hne : l ≠ []) :
    dashes (joinDash (l.map intStr)) + 1 = l.length + l.countP (· < 0) := by
  induction l with
  | nil => exact absurd rfl hne
  | cons a l ih =>
    cases l with
    | nil =>
      simp only [List.map_cons, List.map_nil, joinDash, dashes_intStr, List.length_singleton,
        List.countP_singleton]
      split <;> simp_all
    | cons b l =>
      have := ih (by simp)
      simp only [List.map_cons] at this
      simp only [List.map_cons, joinDash, dashes_append, dashes_intStr]
      have hd : dashes ('-' :: joinDash (intStr b :: List.map intStr l))
          = dashes (joinDash (intStr b :: List.map intStr l)) + 1 := by simp [dashes]
      rw [hd, List.countP_cons (a := a)]
      simp only [List.length_cons, decide_eq_true_eq] at *
      split <;> omega

/-! Association lists -/

theorem lookup_assign (c : Config) (k k' : String) (v : Int) :
    lookup (assign c k v) k' = if k = k' then (lookup c k').map (fun _ => v) else lookup c k' := by
  induction c with
  | nil => simp [assign, lookup]
  | cons p c ih =>
    obtain ⟨a, b⟩ := p
    simp only [assign, List.map_cons] at *
    by_cases h1 : a = k
    · subst h1
      by_cases h2 : a = k'
      · simp [lookup, h2]
      · simp [lookup, h2, ih]
    · by_cases h2 : a = k'
      · subst h2
        simp [lookup, h1, Ne.symm h1]
      · simp [lookup, h1, h2, ih]

theorem keys_assign (c : Config) (k : String) (v : Int) : keys (assign c k v) = keys c := by
  induction c with
  | nil => rfl
  | cons p c ih =>
    obtain ⟨a, b⟩ := p
    simp only [keys, assign, List.map_cons] at *
    split <;> simp [ih]

theorem lookup_isSome (c : Config) (k : String) : (lookup c k).isSome ↔ k ∈ keys c := by
  induction c with
  | nil => simp [lookup, keys]
  | cons p c ih =>
    obtain ⟨a, b⟩ := p
    simp only [lookup, keys, List.map_cons, List.mem_cons] at *
    split
    · next h => simp [h]
    · next h => rw [ih]; exact ⟨.inr, fun h' => h'.resolve_left (fun e => h e.symm)⟩

end TreeCat.Config
