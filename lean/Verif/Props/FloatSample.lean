import Mathlib.Algebra.Order.Ring.Pow
import Verif.Lemmas.Float

/-! # C63: `sample_from_probs` in floating point -/

namespace TreeCat.Util

/-! ### Rounded prefix sums -/

/-- The sum of the first `i` weights, rounded after each addition. -/
def floatPrefix (rs : ℚ → ℚ) (ps : List ℚ) (i : Nat) : ℚ := (ps.take i).foldl (fun a p => rs (a + p)) 0

theorem floatCumsumFrom_getElem? (rs : ℚ → ℚ) (ps : List ℚ) (acc : ℚ) (i : Nat) :
    (floatCumsumFrom rs acc ps)[i]? = if i < ps.length then some ((ps.take (i + 1)).foldl (fun a p => rs (a + p)) acc) else none := by
  induction ps generalizing acc i with
  | nil => simp [floatCumsumFrom]
  | cons p ps ih =>
    cases i with
    | zero => simp [floatCumsumFrom]
    | succ i => simp [floatCumsumFrom, ih]

theorem floatCumsum_eq (rs : ℚ → ℚ) (ps : List ℚ) : floatCumsumFrom rs 0 ps = (List.range ps.length).map fun i => floatPrefix rs ps (i + 1) := by
  apply List.ext_getElem?
  intro i
  rw [floatCumsumFrom_getElem?, List.getElem?_map]
  by_cases h : i < ps.length
  · simp [h, floatPrefix]
  · simp [h]

theorem floatPrefix_succ (rs : ℚ → ℚ) (ps : List ℚ) {i : Nat} (h : i < ps.length) :
    floatPrefix rs ps (i + 1) = rs (floatPrefix rs ps i + ps[i]) := by
  unfold floatPrefix
  rw [List.take_add_one, List.getElem?_eq_getElem h, Option.toList_some, List.foldl_append]
  rfl

section
variable {p q : Nat} {emin fmin : Int} {rs rp : ℚ → ℚ} {ps : List ℚ}

theorem floatPrefix_float (R : IsRounding p emin rs) (ps : List ℚ) (i : Nat) : IsFloat p emin (floatPrefix rs ps i) := by
  unfold floatPrefix
  generalize ps.take i = l
  have key : ∀ (l : List ℚ) (a : ℚ), IsFloat p emin a → IsFloat p emin (l.foldl (fun a p => rs (a + p)) a) := by
    intro l
    induction l with
    | nil => intro a h; exact h
    | cons x l ih => intro a _; exact ih _ (R.float _)
  exact key l 0 (isFloat_zero _ _)

theorem floatPrefix_le_succ (R : IsRounding p emin rs) (h0 : ∀ x ∈ ps, 0 ≤ x) {i : Nat} (h : i < ps.length) :
    floatPrefix rs ps i ≤ floatPrefix rs ps (i + 1) := by
  have h1 := R.mono (x := floatPrefix rs ps i) (y := floatPrefix rs ps i + ps[i]) (by have := h0 _ (List.getElem_mem h); linarith)
  rwa [R.id (floatPrefix_float R ps i), ← floatPrefix_succ rs ps h] at h1

theorem floatPrefix_mono (R : IsRounding p emin rs) (h0 : ∀ x ∈ ps, 0 ≤ x) {i j : Nat} (hij : i ≤ j) :
    floatPrefix rs ps i ≤ floatPrefix rs ps j := by
  induction j, hij using Nat.le_induction with
  | base => exact le_refl _
  | succ j _ ih =>
    by_cases h : j < ps.length
    · exact le_trans ih (floatPrefix_le_succ R h0 h)
    · have e : ps.take (j + 1) = ps.take j := by rw [List.take_of_length_le (by omega), List.take_of_length_le (by omega)]
      refine le_trans ih (le_of_eq ?_)
      unfold floatPrefix
      rw [e]

theorem floatPrefix_zero (rs : ℚ → ℚ) (ps : List ℚ) : floatPrefix rs ps 0 = 0 := rfl

theorem floatSample_eq (rs rp : ℚ → ℚ) (hne : ps ≠ []) (u : ℚ) :
    floatSample rs rp ps u = .ok (argmaxLt (rp (u * floatPrefix rs ps ps.length)) ((List.range ps.length).map fun i => floatPrefix rs ps (i + 1))) := by
  have hlast : ((List.range ps.length).map fun i => floatPrefix rs ps (i + 1)).getLast? = some (floatPrefix rs ps ps.length) := by
    obtain ⟨n, hn⟩ : ∃ n, ps.length = n + 1 := ⟨ps.length - 1, by have := List.length_pos_of_ne_nil hne; omega⟩
    rw [hn, List.range_succ, List.map_append]
    simp
  simp only [floatSample, floatCumsum_eq, hlast]

/-- Whatever the rounding and the draw, the result is an index of the weights. -/
theorem floatSample_range (rs rp : ℚ → ℚ) (hne : ps ≠ []) (u : ℚ) : ∃ i < ps.length, floatSample rs rp ps u = .ok i := by
  refine ⟨_, ?_, floatSample_eq rs rp hne u⟩
  have := List.length_pos_of_ne_nil hne
  unfold argmaxLt
  cases h : List.findIdx? (fun c => decide (rp (u * floatPrefix rs ps ps.length) < c)) ((List.range ps.length).map fun i => floatPrefix rs ps (i + 1)) with
  | none => exact this
  | some i =>
    rw [List.findIdx?_eq_some_iff_getElem] at h
    obtain ⟨hi, -⟩ := h
    simpa using hi

/-- Which index is drawn, if the rounded product is below the total. -/
theorem floatSample_iff (R : IsRounding p emin rs) (h0 : ∀ x ∈ ps, 0 ≤ x) (hne : ps ≠ []) {u : ℚ}
    (hlt : rp (u * floatPrefix rs ps ps.length) < floatPrefix rs ps ps.length) (hnn : 0 ≤ rp (u * floatPrefix rs ps ps.length)) (i : Nat) :
    floatSample rs rp ps u = .ok i ↔ i < ps.length ∧ floatPrefix rs ps i ≤ rp (u * floatPrefix rs ps ps.length) ∧
      rp (u * floatPrefix rs ps ps.length) < floatPrefix rs ps (i + 1) := by
  rw [floatSample_eq rs rp hne u]
  set x := rp (u * floatPrefix rs ps ps.length) with hx
  have hpos := List.length_pos_of_ne_nil hne
  obtain ⟨j, hj⟩ : ∃ j, List.findIdx? (fun c => decide (x < c)) ((List.range ps.length).map fun i => floatPrefix rs ps (i + 1)) = some j := by
    rw [← Option.isSome_iff_exists, List.findIdx?_isSome, List.any_eq_true]
    refine ⟨floatPrefix rs ps ps.length, List.mem_map.2 ⟨ps.length - 1, by simp; omega, by rw [Nat.sub_add_cancel hpos]⟩, by simpa using hlt⟩
  have hval : argmaxLt x ((List.range ps.length).map fun i => floatPrefix rs ps (i + 1)) = j := by
    unfold argmaxLt; rw [hj]
  rw [hval]
  rw [List.findIdx?_eq_some_iff_getElem] at hj
  obtain ⟨hjl, hj1, hj2⟩ := hj
  simp only [List.length_map, List.length_range] at hjl
  simp only [List.getElem_map, List.getElem_range, decide_eq_true_eq] at hj1
  have hlow : floatPrefix rs ps j ≤ x := by
    cases j with
    | zero => rw [floatPrefix_zero]; exact hnn
    | succ j =>
      have := hj2 j (by omega)
      simpa using this
  constructor
  · intro h
    cases h
    exact ⟨hjl, hlow, hj1⟩
  · rintro ⟨hi, h1, h2⟩
    rcases lt_trichotomy i j with h | h | h
    · have := floatPrefix_mono R h0 (show i + 1 ≤ j by omega)
      linarith
    · rw [h]
    · have := floatPrefix_mono R h0 (show j + 1 ≤ i by omega)
      linarith

/-- **C63** (support). Weights are nonnegative floats with a rounded total that is not tiny for the format of the product (which contains that of the weights). For
every draw `u` below one by at least the unit roundoff, as `np.random.rand` returns them, the rounded computation returns an index of a positive
weight. -/
theorem floatSample_support (R : IsRounding p emin rs) (Rp : IsRounding q fmin rp) (hq : 1 ≤ q) (hpq : p ≤ q) (hmin : fmin ≤ emin) (h0 : ∀ x ∈ ps, 0 ≤ x)
    (hne : ps ≠ []) (hT : 2 ^ (fmin + q) ≤ floatPrefix rs ps ps.length) {u : ℚ} (hu0 : 0 ≤ u) (hu1 : u ≤ 1 - 1 / 2 ^ q) :
    ∃ i, ∃ h : i < ps.length, floatSample rs rp ps u = .ok i ∧ 0 < ps[i] := by
  obtain ⟨i, hi, e⟩ := floatSample_range rs rp hne u
  have hTpos : 0 < floatPrefix rs ps ps.length := lt_of_lt_of_le (two_zpow_pos _) hT
  have hlt := Rp.mul_lt hq ((floatPrefix_float R ps ps.length).widen hpq hmin) hT hu1
  have hnn : 0 ≤ rp (u * floatPrefix rs ps ps.length) := Rp.nonneg (mul_nonneg hu0 hTpos.le)
  obtain ⟨_, h1, h2⟩ := (floatSample_iff R h0 hne hlt hnn i).1 e
  refine ⟨i, hi, e, ?_⟩
  rcases eq_or_lt_of_le (h0 _ (List.getElem_mem hi)) with hz | hz
  · rw [floatPrefix_succ rs ps hi, ← hz, add_zero, R.id (floatPrefix_float R ps i)] at h2
    linarith
  · exact hz

/-! ### How far the law is from the weights -/

/-- How many of the `n` equally likely draws `k / n` give index `i`. -/
def floatCount (rs rp : ℚ → ℚ) (ps : List ℚ) (n i : Nat) : Nat := (List.range n).countP fun k : Nat => decide (floatSample rs rp ps ((k : ℚ) / n) = .ok i)

/-- How many of the draws give a rounded product below `c`. -/
def belowCount (rp : ℚ → ℚ) (T : ℚ) (n : Nat) (c : ℚ) : Nat := (List.range n).countP fun k : Nat => decide (rp ((k : ℚ) / n * T) < c)

theorem countP_lt_range (n : Nat) (y : ℚ) : ((List.range n).countP fun k : Nat => decide ((k : ℚ) < y) : ℕ) ≤ (if 0 ≤ y then y else 0) + 1 ∧
    (y ≤ n → y ≤ ((List.range n).countP fun k : Nat => decide ((k : ℚ) < y) : ℕ)) := by
  induction n with
  | zero => constructor
            · simp; split <;> linarith
            · intro h; simpa using h
  | succ n ih =>
    rw [List.range_succ, List.countP_append]
    simp only [List.countP_cons, List.countP_nil, decide_eq_true_eq, zero_add]
    have hle : ((List.range n).countP fun k : Nat => decide ((k : ℚ) < y) : ℕ) ≤ n := by
      have := List.countP_le_length (p := fun k : Nat => decide ((k : ℚ) < y)) (l := List.range n)
      simpa using this
    have hle' : (((List.range n).countP fun k : Nat => decide ((k : ℚ) < y) : ℕ) : ℚ) ≤ n := by exact_mod_cast hle
    have hn0 : (0 : ℚ) ≤ n := Nat.cast_nonneg n
    by_cases h : (n : ℚ) < y
    · rw [if_pos h]
      have hfull : ((List.range n).countP fun k : Nat => decide ((k : ℚ) < y)) = n := by
        have : ((List.range n).countP fun k : Nat => decide ((k : ℚ) < y)) = (List.range n).length := by
          rw [List.countP_eq_length]
          intro k hk
          have : k < n := List.mem_range.1 hk
          have : (k : ℚ) < n := by exact_mod_cast this
          simp only [decide_eq_true_eq]
          linarith
        simpa using this
      rw [hfull]
      push_cast
      constructor
      · rw [if_pos (by linarith)]; linarith
      · intro h; exact h
    · rw [if_neg h]
      push_cast
      simp only [add_zero]
      exact ⟨ih.1, fun _ => ih.2 (not_lt.1 h)⟩

/-- The number of draws below a float is proportional to it up to rounding. -/
theorem belowCount_bound (Rp : IsRounding q fmin rp) (hq : 1 ≤ q) {T c : ℚ} (hT : 2 ^ (fmin + q) ≤ T) (hc : IsFloat q fmin c) (hc0 : 0 ≤ c) (hcT : c ≤ T)
    {n : Nat} (hn : 0 < n) : (belowCount rp T n c : ℚ) / n ≤ c / T + 1 / n ∧ c / T - 3 / 2 / 2 ^ q ≤ (belowCount rp T n c : ℚ) / n := by
  have hTpos : 0 < T := lt_of_lt_of_le (two_zpow_pos _) hT
  have hn' : (0 : ℚ) < n := by exact_mod_cast hn
  have hpow : (0 : ℚ) < 2 ^ q := by positivity
  constructor
  · -- a product below `c` after rounding is below `c` before
    have h1 : belowCount rp T n c ≤ (List.range n).countP fun k : Nat => decide ((k : ℚ) < c * n / T) := by
      apply List.countP_mono_left
      intro k _ hk
      simp only [decide_eq_true_eq] at hk ⊢
      by_contra hcon
      push Not at hcon
      have hx : c ≤ (k : ℚ) / n * T := by
        rw [div_le_iff₀ hTpos] at hcon
        rw [div_mul_eq_mul_div, le_div_iff₀ hn']
        linarith
      have := Rp.mono hx
      rw [Rp.id hc] at this
      linarith
    have h2 := (countP_lt_range n (c * n / T)).1
    rw [if_pos (by positivity)] at h2
    have h3 : (belowCount rp T n c : ℚ) ≤ c * n / T + 1 := le_trans (by exact_mod_cast h1) h2
    rw [div_le_iff₀ hn']
    calc (belowCount rp T n c : ℚ) ≤ c * n / T + 1 := h3
      _ = (c / T + 1 / n) * n := by field_simp
  · -- a product that is below `c` by the error of rounding is below `c` after rounding
    set η : ℚ := 2 ^ (fmin - 1) with hη
    have hη0 : 0 < η := two_zpow_pos _
    have hηT : η ≤ T / 2 / 2 ^ q := by
      rw [le_div_iff₀ hpow, le_div_iff₀ (by norm_num : (0 : ℚ) < 2), hη, pow_zpow, ← zpow_split]
      refine le_trans (le_of_eq ?_) hT
      have e : fmin + (q : Int) = fmin - 1 + q + 1 := by ring
      rw [e, zpow_split (fmin - 1 + q) 1, zpow_one]
    set y : ℚ := (c - η) / (1 + 1 / 2 ^ q) * n / T with hy
    have hd : (0 : ℚ) < 1 + 1 / 2 ^ q := by positivity
    have hyn : y ≤ n := by
      rw [hy, div_le_iff₀ hTpos, mul_comm (n : ℚ) T]
      refine mul_le_mul_of_nonneg_right ?_ hn'.le
      rw [div_le_iff₀ hd]
      have : 0 ≤ T * (1 / 2 ^ q) := by positivity
      linarith
    have h1 : ((List.range n).countP fun k : Nat => decide ((k : ℚ) < y)) ≤ belowCount rp T n c := by
      apply List.countP_mono_left
      intro k _ hk
      simp only [decide_eq_true_eq] at hk ⊢
      have hx0 : 0 ≤ (k : ℚ) / n * T := by positivity
      have hx : (k : ℚ) / n * T * (1 + 1 / 2 ^ q) < c - η := by
        rw [hy, lt_div_iff₀ hTpos, div_mul_eq_mul_div, lt_div_iff₀ hd] at hk
        rw [div_mul_eq_mul_div, div_mul_eq_mul_div, div_lt_iff₀ hn']
        linarith
      have herr := Rp.error hq ((k : ℚ) / n * T)
      rw [abs_of_nonneg hx0, ← hη] at herr
      have := (abs_le.1 herr).2
      have e : (k : ℚ) / n * T * (1 + 1 / 2 ^ q) = (k : ℚ) / n * T + (k : ℚ) / n * T / 2 ^ q := by ring
      linarith
    have h2 := (countP_lt_range n y).2 hyn
    have h3 : y ≤ (belowCount rp T n c : ℚ) := le_trans h2 (by exact_mod_cast h1)
    have h4 : y / n ≤ (belowCount rp T n c : ℚ) / n := by gcongr
    refine le_trans ?_ h4
    have hyn' : y / n = (c - η) / (1 + 1 / 2 ^ q) / T := by
      rw [hy]; field_simp
    rw [hyn']
    -- `(c - η) / (1 + δ) ≥ c - c δ - η`
    have h5 : c - c / 2 ^ q - η ≤ (c - η) / (1 + 1 / 2 ^ q) := by
      rw [le_div_iff₀ hd]
      have e : (c - c / 2 ^ q - η) * (1 + 1 / 2 ^ q) = c - η - (c / 2 ^ q / 2 ^ q + η / 2 ^ q) := by
        field_simp
        ring
      rw [e]
      have : 0 ≤ c / 2 ^ q / 2 ^ q + η / 2 ^ q := by positivity
      linarith
    have h6 : (c - c / 2 ^ q - η) / T ≤ (c - η) / (1 + 1 / 2 ^ q) / T := by gcongr
    refine le_trans ?_ h6
    rw [le_div_iff₀ hTpos]
    have e : (c / T - 3 / 2 / 2 ^ q) * T = c - T / 2 ^ q - T / 2 / 2 ^ q := by
      field_simp
      ring
    rw [e]
    have : c / 2 ^ q ≤ T / 2 ^ q := by gcongr
    linarith

/-- The rounded sums are near the exact ones. -/
theorem floatPrefix_sum (R : IsRounding p emin rs) (hp : 1 ≤ p) (h0 : ∀ x ∈ ps, 0 ≤ x) (hfl : ∀ x ∈ ps, IsFloat p emin x) {i : Nat} (hi : i ≤ ps.length) :
    (1 - 1 / 2 ^ p) ^ i * (ps.take i).sum ≤ floatPrefix rs ps i ∧ floatPrefix rs ps i ≤ (1 + 1 / 2 ^ p) ^ i * (ps.take i).sum := by
  have hε : (1 : ℚ) / 2 ^ p ≤ 1 / 2 := by
    have : (2 : ℚ) ≤ 2 ^ p := by
      calc (2 : ℚ) = 2 ^ 1 := by norm_num
        _ ≤ 2 ^ p := pow_le_pow_right₀ (by norm_num) hp
    exact one_div_le_one_div_of_le (by norm_num) this
  have hε0 : (0 : ℚ) ≤ 1 / 2 ^ p := by positivity
  induction i with
  | zero => simp [floatPrefix_zero]
  | succ i ih =>
    have hi' : i < ps.length := by omega
    obtain ⟨l, h⟩ := ih (by omega)
    have hx := h0 _ (List.getElem_mem hi')
    have hS : 0 ≤ floatPrefix rs ps i := by
      have := floatPrefix_mono R h0 (Nat.zero_le i)
      rwa [floatPrefix_zero] at this
    have herr := R.add_error hp (floatPrefix_float R ps i) (hfl _ (List.getElem_mem hi'))
    rw [← floatPrefix_succ rs ps hi', abs_of_nonneg (by linarith : 0 ≤ floatPrefix rs ps i + ps[i])] at herr
    obtain ⟨e1, e2⟩ := abs_le.1 herr
    have hsum : (ps.take (i + 1)).sum = (ps.take i).sum + ps[i] := by
      rw [List.take_add_one, List.getElem?_eq_getElem hi', Option.toList_some, List.sum_append, List.sum_singleton]
    have hd : (floatPrefix rs ps i + ps[i]) / 2 ^ p = (floatPrefix rs ps i + ps[i]) * (1 / 2 ^ p) := by ring
    rw [hsum]
    constructor
    · have h1 : (1 - 1 / 2 ^ p : ℚ) ^ i ≤ 1 := pow_le_one₀ (by linarith) (by linarith)
      have h2 : (1 - 1 / 2 ^ p : ℚ) ^ i * ((ps.take i).sum + ps[i]) ≤ floatPrefix rs ps i + ps[i] := by
        rw [mul_add]
        have := mul_le_mul_of_nonneg_right h1 hx
        linarith
      have h3 := mul_le_mul_of_nonneg_left h2 (by linarith : (0 : ℚ) ≤ 1 - 1 / 2 ^ p)
      calc (1 - 1 / 2 ^ p : ℚ) ^ (i + 1) * ((ps.take i).sum + ps[i]) = (1 - 1 / 2 ^ p) * ((1 - 1 / 2 ^ p) ^ i * ((ps.take i).sum + ps[i])) := by ring
        _ ≤ (1 - 1 / 2 ^ p) * (floatPrefix rs ps i + ps[i]) := h3
        _ ≤ floatPrefix rs ps (i + 1) := by rw [hd] at e1; linarith
    · have h1 : (1 : ℚ) ≤ (1 + 1 / 2 ^ p) ^ i := one_le_pow₀ (by linarith)
      have h2 : floatPrefix rs ps i + ps[i] ≤ (1 + 1 / 2 ^ p : ℚ) ^ i * ((ps.take i).sum + ps[i]) := by
        rw [mul_add]
        have := mul_le_mul_of_nonneg_right h1 hx
        linarith
      have h3 := mul_le_mul_of_nonneg_left h2 (by linarith : (0 : ℚ) ≤ 1 + 1 / 2 ^ p)
      calc floatPrefix rs ps (i + 1) ≤ (1 + 1 / 2 ^ p) * (floatPrefix rs ps i + ps[i]) := by rw [hd] at e2; linarith
        _ ≤ (1 + 1 / 2 ^ p) * ((1 + 1 / 2 ^ p) ^ i * ((ps.take i).sum + ps[i])) := h3
        _ = _ := by ring

/-- A draw gives index `i` if its product is below the sum through `i` and not below the sum before `i`. -/
theorem floatCount_eq (R : IsRounding p emin rs) (Rp : IsRounding q fmin rp) (hq : 1 ≤ q) (hpq : p ≤ q) (hmin : fmin ≤ emin) (h0 : ∀ x ∈ ps, 0 ≤ x)
    (hne : ps ≠ []) (hT : 2 ^ (fmin + q) ≤ floatPrefix rs ps ps.length) {n : Nat} (hnq : n ≤ 2 ^ q) {i : Nat} (hi : i < ps.length) :
    floatCount rs rp ps n i + belowCount rp (floatPrefix rs ps ps.length) n (floatPrefix rs ps i) =
      belowCount rp (floatPrefix rs ps ps.length) n (floatPrefix rs ps (i + 1)) := by
  have hTpos : 0 < floatPrefix rs ps ps.length := lt_of_lt_of_le (two_zpow_pos _) hT
  have hstep := floatPrefix_le_succ R h0 hi
  have key : ∀ k ∈ List.range n, (floatSample rs rp ps ((k : ℚ) / n) = .ok i ↔
      floatPrefix rs ps i ≤ rp ((k : ℚ) / n * floatPrefix rs ps ps.length) ∧ rp ((k : ℚ) / n * floatPrefix rs ps ps.length) < floatPrefix rs ps (i + 1)) := by
    intro k hk
    have hk : k < n := List.mem_range.1 hk
    have hn' : (0 : ℚ) < n := by exact_mod_cast (by omega : 0 < n)
    have hk1 : (k : ℚ) + 1 ≤ n := by exact_mod_cast hk
    have hu1 : (k : ℚ) / n ≤ 1 - 1 / 2 ^ q := by
      have hn2 : (n : ℚ) ≤ 2 ^ q := by exact_mod_cast hnq
      have h1 : (1 : ℚ) / 2 ^ q ≤ 1 / n := one_div_le_one_div_of_le hn' hn2
      have h2 : (k : ℚ) / n ≤ 1 - 1 / n := by
        rw [div_le_iff₀ hn', sub_mul, one_mul, div_mul_cancel₀ _ hn'.ne']
        linarith
      linarith
    have hu0 : 0 ≤ (k : ℚ) / n := by positivity
    rw [floatSample_iff R h0 hne (Rp.mul_lt hq ((floatPrefix_float R ps ps.length).widen hpq hmin) hT hu1) (Rp.nonneg (mul_nonneg hu0 hTpos.le)) i]
    exact ⟨fun h => h.2, fun h => ⟨hi, h⟩⟩
  unfold floatCount belowCount
  revert key
  generalize List.range n = l
  intro key
  induction l with
  | nil => rfl
  | cons k l ih =>
    have ih := ih fun k hk => key k (List.mem_cons_of_mem _ hk)
    have hk := key k List.mem_cons_self
    simp only [List.countP_cons, decide_eq_true_eq, hk]
    by_cases a : rp ((k : ℚ) / n * floatPrefix rs ps ps.length) < floatPrefix rs ps i
    · rw [if_neg (fun h => by linarith [h.1]), if_pos a, if_pos (by linarith)]
      omega
    · by_cases b : rp ((k : ℚ) / n * floatPrefix rs ps ps.length) < floatPrefix rs ps (i + 1)
      · rw [if_pos ⟨not_lt.1 a, b⟩, if_neg a, if_pos b]
        omega
      · rw [if_neg (fun h => b h.2), if_neg a, if_neg b]
        omega

/-- The rounded total is at least each weight. -/
theorem le_floatPrefix (R : IsRounding p emin rs) (h0 : ∀ x ∈ ps, 0 ≤ x) (hfl : ∀ x ∈ ps, IsFloat p emin x) {x : ℚ} (hx : x ∈ ps) :
    x ≤ floatPrefix rs ps ps.length := by
  obtain ⟨i, hi, rfl⟩ := List.getElem_of_mem hx
  refine le_trans ?_ (floatPrefix_mono R h0 (show i + 1 ≤ ps.length by omega))
  rw [floatPrefix_succ rs ps hi]
  have hS := floatPrefix_mono R h0 (Nat.zero_le i)
  rw [floatPrefix_zero] at hS
  have := R.mono (x := ps[i]) (y := floatPrefix rs ps i + ps[i]) (by linarith)
  rwa [R.id (hfl _ hx)] at this

theorem near_total {E T δ : ℚ} (hT : 0 < T) (hδ0 : 0 ≤ δ) (hδ : δ ≤ 1 / 2) (hlo : (1 - δ) * E ≤ T) (hup : (1 - δ) * T ≤ E) : |E - T| ≤ 2 * δ * T := by
  have hprod : 0 ≤ δ * T := by positivity
  have hE : 0 ≤ E := le_trans (mul_nonneg (by linarith) hT.le) hup
  have h3 : E ≤ 2 * T := by
    have := mul_le_mul_of_nonneg_right (show (1 : ℚ) / 2 ≤ 1 - δ by linarith) hE
    linarith
  have h4 : δ * E ≤ δ * (2 * T) := mul_le_mul_of_nonneg_left h3 hδ0
  rw [abs_le]
  constructor <;> linarith

/-- The error of the frequency of one index: part of it is proportional to the weight of the index. -/
theorem floatSample_index (R : IsRounding p emin rs) (Rp : IsRounding q fmin rp) (hp : 1 ≤ p) (hpq : p ≤ q) (hmin : fmin ≤ emin)
    (h0 : ∀ x ∈ ps, 0 ≤ x) (hfl : ∀ x ∈ ps, IsFloat p emin x) (hbig : ∃ x ∈ ps, 2 ^ (fmin + q) ≤ x) (hlen : 2 * ps.length ≤ 2 ^ p)
    {n : Nat} (hn : 0 < n) (hnq : n ≤ 2 ^ q) {i : Nat} (hi : i < ps.length) :
    |(floatCount rs rp ps n i : ℚ) / n - ps[i] / ps.sum| ≤ 1 / n + 3 / 2 / 2 ^ q + 2 / 2 ^ p + ps[i] / ps.sum * (2 * ps.length / 2 ^ p) ∧
      0 ≤ ps[i] / ps.sum ∧ ps[i] / ps.sum ≤ 1 := by
  obtain ⟨w, hw, hwbig⟩ := hbig
  have hne : ps ≠ [] := List.ne_nil_of_mem hw
  have hq : 1 ≤ q := le_trans hp hpq
  have hT : 2 ^ (fmin + q) ≤ floatPrefix rs ps ps.length := le_trans hwbig (le_floatPrefix R h0 hfl hw)
  have hcount := floatCount_eq R Rp hq hpq hmin h0 hne hT hnq hi
  have hmono : ∀ {a b : Nat}, a ≤ b → floatPrefix rs ps a ≤ floatPrefix rs ps b := fun h => floatPrefix_mono R h0 h
  have hpos0 : ∀ a, 0 ≤ floatPrefix rs ps a := fun a => by have := hmono (Nat.zero_le a); rwa [floatPrefix_zero] at this
  have hb1 := belowCount_bound Rp hq hT ((floatPrefix_float R ps (i + 1)).widen hpq hmin) (hpos0 _) (hmono (show i + 1 ≤ ps.length by omega)) hn
  have hb0 := belowCount_bound Rp hq hT ((floatPrefix_float R ps i).widen hpq hmin) (hpos0 _) (hmono (show i ≤ ps.length by omega)) hn
  set T := floatPrefix rs ps ps.length with hTdef
  set E := ps.sum with hE
  set ε : ℚ := 1 / 2 ^ p with hε
  have hTpos : 0 < T := lt_of_lt_of_le (two_zpow_pos _) hT
  have hn' : (0 : ℚ) < n := by exact_mod_cast hn
  have hε0 : 0 < ε := by rw [hε]; positivity
  have hM : (1 : ℚ) ≤ ps.length := by exact_mod_cast List.length_pos_of_ne_nil hne
  have hMε : (ps.length : ℚ) * ε ≤ 1 / 2 := by
    have : (2 : ℚ) * ps.length ≤ 2 ^ p := by exact_mod_cast hlen
    rw [hε, mul_one_div, div_le_iff₀ (by positivity)]
    linarith
  have hε1 : ε ≤ 1 / 2 := le_trans (by have := mul_le_mul_of_nonneg_right hM hε0.le; linarith) hMε
  -- the draws against the rounded sums
  have hcast : (floatCount rs rp ps n i : ℚ) / n = (belowCount rp T n (floatPrefix rs ps (i + 1)) : ℚ) / n - (belowCount rp T n (floatPrefix rs ps i) : ℚ) / n := by
    rw [← hcount]
    push_cast
    ring
  have hA : |(floatCount rs rp ps n i : ℚ) / n - (floatPrefix rs ps (i + 1) - floatPrefix rs ps i) / T| ≤ 1 / n + 3 / 2 / 2 ^ q := by
    rw [hcast, sub_div, abs_le]
    have : (0 : ℚ) ≤ 1 / n := by positivity
    constructor <;> linarith [hb1.1, hb1.2, hb0.1, hb0.2]
  -- the last rounded sum
  have hx := h0 _ (List.getElem_mem hi)
  have hsum0 : 0 ≤ floatPrefix rs ps i + ps[i] := by have := hpos0 i; linarith
  have herr := R.add_error hp (floatPrefix_float R ps i) (hfl _ (List.getElem_mem hi))
  rw [← floatPrefix_succ rs ps hi, abs_of_nonneg hsum0, div_eq_mul_one_div, ← hε] at herr
  obtain ⟨e1, e2⟩ := abs_le.1 herr
  have hSi : floatPrefix rs ps i + ps[i] ≤ 2 * T := by
    have h1 := hmono (show i + 1 ≤ ps.length by omega)
    have h2 := mul_le_mul_of_nonneg_left hε1 hsum0
    linarith
  have hB : |(floatPrefix rs ps (i + 1) - floatPrefix rs ps i) / T - ps[i] / T| ≤ 2 * ε := by
    rw [← sub_div, abs_div, abs_of_pos hTpos, div_le_iff₀ hTpos]
    have : |floatPrefix rs ps (i + 1) - floatPrefix rs ps i - ps[i]| ≤ (floatPrefix rs ps i + ps[i]) * ε := by
      rw [show floatPrefix rs ps (i + 1) - floatPrefix rs ps i - ps[i] = floatPrefix rs ps (i + 1) - (floatPrefix rs ps i + ps[i]) by ring]
      exact herr
    refine le_trans this ?_
    have := mul_le_mul_of_nonneg_right hSi hε0.le
    linarith
  -- the rounded total
  have htot := floatPrefix_sum R hp h0 hfl (le_refl ps.length)
  rw [List.take_length, ← hTdef, ← hE, ← hε] at htot
  have hEx : ps[i] ≤ E := List.single_le_sum h0 _ (List.getElem_mem hi)
  have hE0 : 0 < E := by
    by_contra hcon
    have h1 : 0 ≤ (1 + ε) ^ ps.length := by positivity
    have := mul_nonpos_of_nonneg_of_nonpos h1 (not_lt.1 hcon)
    linarith [htot.2]
  have hbern : 1 - ps.length * ε ≤ (1 - ε) ^ ps.length := by
    have := one_add_mul_le_pow (a := -ε) (by linarith) ps.length
    rw [← sub_eq_add_neg] at this
    linarith
  have hlo : (1 - ps.length * ε) * E ≤ T := le_trans (mul_le_mul_of_nonneg_right hbern hE0.le) htot.1
  have hup : (1 - ps.length * ε) * T ≤ E := by
    have h1 : (1 - ε) ^ ps.length * (1 + ε) ^ ps.length ≤ 1 := by
      rw [← mul_pow]
      refine pow_le_one₀ (mul_nonneg (by linarith) (by linarith)) ?_
      have := mul_nonneg hε0.le hε0.le
      linarith
    have h2 : (1 - ε) ^ ps.length * T ≤ E := by
      have hnn : 0 ≤ (1 - ε) ^ ps.length := pow_nonneg (by linarith) _
      calc (1 - ε) ^ ps.length * T ≤ (1 - ε) ^ ps.length * ((1 + ε) ^ ps.length * E) := mul_le_mul_of_nonneg_left htot.2 hnn
        _ = ((1 - ε) ^ ps.length * (1 + ε) ^ ps.length) * E := by ring
        _ ≤ 1 * E := mul_le_mul_of_nonneg_right h1 hE0.le
        _ = E := one_mul E
    exact le_trans (mul_le_mul_of_nonneg_right hbern hTpos.le) h2
  have h01 : ps[i] / E ≤ 1 := (div_le_one hE0).2 hEx
  have hC : |ps[i] / T - ps[i] / E| ≤ ps[i] / E * (2 * (ps.length * ε)) := by
    have e : ps[i] / T - ps[i] / E = ps[i] / E * ((E - T) / T) := by field_simp
    rw [e, abs_mul, abs_of_nonneg (div_nonneg hx hE0.le), abs_div, abs_of_pos hTpos]
    have h2 : |E - T| / T ≤ 2 * (ps.length * ε) := by
      rw [div_le_iff₀ hTpos]
      exact near_total hTpos (by positivity) hMε hlo hup
    exact mul_le_mul_of_nonneg_left h2 (div_nonneg hx hE0.le)
  have hfinal : 2 / 2 ^ p + ps[i] / E * (2 * ps.length / 2 ^ p) = 2 * ε + ps[i] / E * (2 * (ps.length * ε)) := by rw [hε]; ring
  refine ⟨?_, div_nonneg hx hE0.le, h01⟩
  rw [add_assoc, hfinal]
  obtain ⟨a1, a2⟩ := abs_le.1 hA
  obtain ⟨b1, b2⟩ := abs_le.1 hB
  obtain ⟨c1, c2⟩ := abs_le.1 hC
  rw [abs_le]
  constructor <;> linarith

/-- **C63** (accuracy). Of `n` equally likely draws `k / n`, the fraction that gives index `i` is the normalised weight of `i` up to the spacing of the
draws and the rounding of the product and of `M` sums. -/
theorem floatSample_accuracy (R : IsRounding p emin rs) (Rp : IsRounding q fmin rp) (hp : 1 ≤ p) (hpq : p ≤ q) (hmin : fmin ≤ emin)
    (h0 : ∀ x ∈ ps, 0 ≤ x) (hfl : ∀ x ∈ ps, IsFloat p emin x) (hbig : ∃ x ∈ ps, 2 ^ (fmin + q) ≤ x) (hlen : 2 * ps.length ≤ 2 ^ p)
    {n : Nat} (hn : 0 < n) (hnq : n ≤ 2 ^ q) {i : Nat} (hi : i < ps.length) :
    |(floatCount rs rp ps n i : ℚ) / n - ps[i] / ps.sum| ≤ 1 / n + 3 / 2 / 2 ^ q + 2 * (ps.length + 1) / 2 ^ p := by
  obtain ⟨h, g0, g1⟩ := floatSample_index R Rp hp hpq hmin h0 hfl hbig hlen hn hnq hi
  refine le_trans h ?_
  have : ps[i] / ps.sum * (2 * ps.length / 2 ^ p) ≤ 1 * (2 * ps.length / 2 ^ p) := mul_le_mul_of_nonneg_right g1 (by positivity)
  have e : 2 * ((ps.length : ℚ) + 1) / 2 ^ p = 2 / 2 ^ p + 2 * ps.length / 2 ^ p := by ring
  rw [e]
  linarith

end

/-! ### The formats of the code -/

theorem float32_isRounding : IsRounding 24 (-149) float32 := roundTo_isRounding (by norm_num) _

theorem float64_isRounding : IsRounding 53 (-1074) float64 := roundTo_isRounding (by norm_num) _

/-- **C63** (support, float32). For float32 weights that are not all zero and every number `np.random.rand` returns, the result has a positive weight. -/
theorem floatSample_float32_support {ps : List ℚ} (h0 : ∀ x ∈ ps, 0 ≤ x) (hfl : ∀ x ∈ ps, IsFloat 24 (-149) x) (hpos : ∃ x ∈ ps, 0 < x) {k : Nat} (hk : k < 2 ^ 53) :
    ∃ i, ∃ h : i < ps.length, floatSample float32 float64 ps ((k : ℚ) / 2 ^ 53) = .ok i ∧ 0 < ps[i] := by
  obtain ⟨x, hx, hx0⟩ := hpos
  have hk' : (k : ℚ) + 1 ≤ 2 ^ 53 := by exact_mod_cast hk
  refine floatSample_support float32_isRounding float64_isRounding (by norm_num) (by norm_num) (by norm_num) h0 (List.ne_nil_of_mem hx) ?_ (by positivity) ?_
  · refine le_trans ?_ (le_floatPrefix float32_isRounding h0 hfl hx)
    exact le_trans (zpow_mono (by norm_num)) ((hfl x hx).ge hx0)
  · rw [div_le_iff₀ (by positivity), sub_mul, div_mul_cancel₀ _ (by positivity)]
    linarith

/-- **C63** (support, float64). The same for float64 weights, if one of them is at least `2 ^ -1021`. -/
theorem floatSample_float64_support {ps : List ℚ} (h0 : ∀ x ∈ ps, 0 ≤ x) (hfl : ∀ x ∈ ps, IsFloat 53 (-1074) x) (hpos : ∃ x ∈ ps, 2 ^ (-1021 : Int) ≤ x) {k : Nat}
    (hk : k < 2 ^ 53) : ∃ i, ∃ h : i < ps.length, floatSample float64 float64 ps ((k : ℚ) / 2 ^ 53) = .ok i ∧ 0 < ps[i] := by
  obtain ⟨x, hx, hx0⟩ := hpos
  have hk' : (k : ℚ) + 1 ≤ 2 ^ 53 := by exact_mod_cast hk
  refine floatSample_support float64_isRounding float64_isRounding (by norm_num) (by norm_num) (by norm_num) h0 (List.ne_nil_of_mem hx) ?_ (by positivity) ?_
  · refine le_trans ?_ (le_floatPrefix float64_isRounding h0 hfl hx)
    exact le_trans (zpow_mono (by norm_num)) hx0
  · rw [div_le_iff₀ (by positivity), sub_mul, div_mul_cancel₀ _ (by positivity)]
    linarith

/-- **C63** (accuracy, float32). The probability of each index, over the `2 ^ 53` equally likely results of `np.random.rand`, is its normalised weight up to
`(M + 2) / 2 ^ 23` for `M` weights. -/
theorem floatSample_float32_accuracy {ps : List ℚ} (h0 : ∀ x ∈ ps, 0 ≤ x) (hfl : ∀ x ∈ ps, IsFloat 24 (-149) x) (hpos : ∃ x ∈ ps, 0 < x) (hlen : ps.length ≤ 2 ^ 23)
    {i : Nat} (hi : i < ps.length) : |(floatCount float32 float64 ps (2 ^ 53) i : ℚ) / 2 ^ 53 - ps[i] / ps.sum| ≤ ((ps.length : ℚ) + 2) / 2 ^ 23 := by
  obtain ⟨x, hx, hx0⟩ := hpos
  have := floatSample_accuracy float32_isRounding float64_isRounding (by norm_num) (by norm_num) (by norm_num) h0 hfl
    ⟨x, hx, le_trans (zpow_mono (by norm_num)) ((hfl x hx).ge hx0)⟩ (by omega) (n := 2 ^ 53) (by norm_num) (le_refl _) hi
  rw [Nat.cast_pow, Nat.cast_ofNat] at this
  refine le_trans this ?_
  rw [← sub_nonneg]
  ring_nf
  positivity

/-- **C63** (accuracy, float64). The same for float64 weights, if one of them is at least `2 ^ -1021`. -/
theorem floatSample_float64_accuracy {ps : List ℚ} (h0 : ∀ x ∈ ps, 0 ≤ x) (hfl : ∀ x ∈ ps, IsFloat 53 (-1074) x) (hpos : ∃ x ∈ ps, 2 ^ (-1021 : Int) ≤ x)
    (hlen : ps.length ≤ 2 ^ 52) {i : Nat} (hi : i < ps.length) :
    |(floatCount float64 float64 ps (2 ^ 53) i : ℚ) / 2 ^ 53 - ps[i] / ps.sum| ≤ ((ps.length : ℚ) + 3) / 2 ^ 52 := by
  obtain ⟨x, hx, hx0⟩ := hpos
  have := floatSample_accuracy float64_isRounding float64_isRounding (by norm_num) (by norm_num) (by norm_num) h0 hfl
    ⟨x, hx, le_trans (zpow_mono (by norm_num)) hx0⟩ (by omega) (n := 2 ^ 53) (by norm_num) (le_refl _) hi
  rw [Nat.cast_pow, Nat.cast_ofNat] at this
  refine le_trans this ?_
  rw [← sub_nonneg]
  ring_nf
  positivity

/-- The float64 claim needs its bound: with the smallest float as only positive weight, a draw of `3 / 4` gives the index of weight zero. -/
theorem floatSample_tiny : floatSample float64 float64 [0, 2 ^ (-1074 : Int)] (3 / 4) = .ok 0 := by decide +kernel

/-- A product in float32 is not below the total for draws near one: the index of weight zero is returned. -/
theorem floatSample_narrow : floatSample float32 float32 [0, 1] (1 - 1 / 2 ^ 53) = .ok 0 ∧ floatSample float32 float64 [0, 1] (1 - 1 / 2 ^ 53) = .ok 1 := by decide +kernel

/-- The hypotheses of the float32 claims are met by `[1 / 4, 0, 3 / 4]`. -/
example : (∀ x ∈ [(1 / 4 : ℚ), 0, 3 / 4], 0 ≤ x ∧ IsFloat 24 (-149) x) ∧ ∃ x ∈ [(1 / 4 : ℚ), 0, 3 / 4], 0 < x := by
  refine ⟨?_, 1 / 4, by simp, by norm_num⟩
  intro x hx
  simp only [List.mem_cons, List.not_mem_nil, or_false] at hx
  rcases hx with rfl | rfl | rfl
  · exact ⟨by norm_num, 1, -2, by norm_num, by norm_num, by norm_num⟩
  · exact ⟨by norm_num, isFloat_zero _ _⟩
  · exact ⟨by norm_num, 3, -2, by norm_num, by norm_num, by norm_num⟩

/-- Rounding does change the law: a weight of one is lost beside `2 ^ 24` in float32, and index 1 is never drawn; the accuracy claim allows this since its weight is
`1 / (2 ^ 24 + 1)` of the total. -/
example : floatSample float32 float64 [2 ^ 24, 1] (1 - 1 / 2 ^ 53) = .ok 0 ∧ floatSample float64 float64 [2 ^ 24, 1] (1 - 1 / 2 ^ 53) = .ok 1 := by decide +kernel

/-- `0.1 + 0.2` -/
example : float64 (float64 (1 / 10) + float64 (2 / 10)) ≠ float64 (3 / 10) := by decide +kernel

end TreeCat.Util
