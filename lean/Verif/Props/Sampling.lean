import Mathlib.MeasureTheory.Measure.Lebesgue.Basic
import Verif.Model.Util

/-!
# C12: `sample_from_probs` draws from the normalised weights
-/

set_option linter.unusedSectionVars false

namespace TreeCat.Util

section
variable {K : Type} [Field K] [LinearOrder K] [IsStrictOrderedRing K]

theorem cumsumFrom_getElem? (acc : K) (ps : List K) (i : Nat) :
    (cumsumFrom acc ps)[i]? = if i < ps.length then some (acc + (ps.take (i + 1)).sum) else none := by
  induction ps generalizing acc i with
  | nil => simp [cumsumFrom]
  | cons p ps ih =>
    cases i with
    | zero => simp [cumsumFrom]
    | succ i => simp [cumsumFrom, ih, add_assoc]

theorem cumsum_length (ps : List K) : (cumsum ps).length = ps.length := by
  have : ∀ (acc : K), (cumsumFrom acc ps).length = ps.length := by
    induction ps with
    | nil => simp [cumsumFrom]
    | cons p ps ih => intro acc; simp [cumsumFrom, ih]
  exact this 0

theorem cumsum_getElem (ps : List K) (i : Nat) (h : i < (cumsum ps).length) :
    (cumsum ps)[i] = (ps.take (i + 1)).sum := by
  have h' := h
  rw [cumsum_length] at h'
  have := cumsumFrom_getElem? 0 ps i
  rw [if_pos h', zero_add] at this
  exact (List.getElem_eq_iff h).2 this

theorem cumsum_getLast? (ps : List K) (h : ps ≠ []) : (cumsum ps).getLast? = some ps.sum := by
  have hl : 0 < ps.length := List.length_pos_iff.2 h
  rw [List.getLast?_eq_getElem?, cumsum_length]
  have := cumsumFrom_getElem? 0 ps (ps.length - 1)
  rw [if_pos (by omega), zero_add, Nat.sub_add_cancel hl, List.take_length] at this
  exact this

theorem take_sum_succ (ps : List K) (i : Nat) (h : i < ps.length) :
    (ps.take (i + 1)).sum = (ps.take i).sum + ps[i] := by
  rw [List.take_add_one, List.sum_append, List.getElem?_eq_getElem h]
  simp

theorem take_sum_mono (ps : List K) (hp : ∀ p ∈ ps, 0 ≤ p) {i j : Nat} (hij : i ≤ j) :
    (ps.take i).sum ≤ (ps.take j).sum := by
  induction j, hij using Nat.le_induction with
  | base => exact le_refl _
  | succ j _ ih =>
    by_cases hj : j < ps.length
    · rw [take_sum_succ ps j hj]
      have := hp _ (List.getElem_mem hj)
      linarith
    · rw [List.take_of_length_le (by omega : ps.length ≤ j + 1)]
      rw [List.take_of_length_le (by omega : ps.length ≤ j)] at ih
      exact ih

/-- The draw `u` selects the index whose cumulative interval contains `u` times
the total. -/
theorem sampleFromProbs_iff (ps : List K) (hp : ∀ p ∈ ps, 0 ≤ p) (hT : 0 < ps.sum)
    (u : K) (h0 : 0 ≤ u) (h1 : u < 1) (i : Nat) :
    sampleFromProbs ps u = .ok i ↔
      i < ps.length ∧ (ps.take i).sum ≤ u * ps.sum ∧ u * ps.sum < (ps.take (i + 1)).sum := by
  have hne : ps ≠ [] := by rintro rfl; simp at hT
  have hl : 0 < ps.length := List.length_pos_iff.2 hne
  have huT : u * ps.sum < ps.sum := by nlinarith
  have hu0 : 0 ≤ u * ps.sum := by positivity
  have key : ∀ i, (cumsum ps).findIdx? (fun c => decide (u * ps.sum < c)) = some i ↔
      i < ps.length ∧ (ps.take i).sum ≤ u * ps.sum ∧ u * ps.sum < (ps.take (i + 1)).sum := by
    intro i
    rw [List.findIdx?_eq_some_iff_getElem]
    simp only [cumsum_getElem, decide_eq_true_eq, cumsum_length]
    constructor
    · rintro ⟨hi, hlt, hmin⟩
      refine ⟨hi, ?_, hlt⟩
      cases i with
      | zero => simpa using hu0
      | succ j => simpa using hmin j (by omega)
    · rintro ⟨hi, hle, hlt⟩
      refine ⟨hi, hlt, fun j hj => ?_⟩
      have := take_sum_mono ps hp (show j + 1 ≤ i by omega)
      exact not_lt.2 (this.trans hle)
  have hex : ∃ i, (cumsum ps).findIdx? (fun c => decide (u * ps.sum < c)) = some i := by
    rw [← Option.isSome_iff_exists, List.findIdx?_isSome]
    rw [List.any_eq_true]
    refine ⟨ps.sum, ?_, by simpa using huT⟩
    have := cumsum_getLast? ps hne
    exact List.mem_of_getLast? this
  obtain ⟨j, hj⟩ := hex
  have : sampleFromProbs ps u = .ok j := by
    simp [sampleFromProbs, cumsum_getLast? ps hne, argmaxLt, hj]
  rw [this, ← key i, hj]
  constructor
  · intro h; cases h; rfl
  · intro h; cases h; rfl

/-- **C12** (range and support). Every draw returns an index of positive weight. -/
theorem sampleFromProbs_support (ps : List K) (hp : ∀ p ∈ ps, 0 ≤ p) (hT : 0 < ps.sum)
    (u : K) (h0 : 0 ≤ u) (h1 : u < 1) :
    ∃ i, ∃ h : i < ps.length, sampleFromProbs ps u = .ok i ∧ 0 < ps[i] := by
  have hne : ps ≠ [] := by rintro rfl; simp at hT
  obtain ⟨i, hi⟩ : ∃ i, sampleFromProbs ps u = .ok i := by
    simp [sampleFromProbs, cumsum_getLast? ps hne]
  obtain ⟨a, b, c⟩ := (sampleFromProbs_iff ps hp hT u h0 h1 i).1 hi
  refine ⟨i, a, hi, ?_⟩
  rw [take_sum_succ ps i a] at c
  linarith

/-- **C12** (empty input). -/
theorem sampleFromProbs_nil (u : K) : sampleFromProbs ([] : List K) u = .error .indexError := rfl

/-- **C12** (rows of `sample_from_probs2`). One index per row, each the
single-row function's result on that row's own draw. -/
theorem sampleFromProbs2_rows (rows : List (List K)) (us : List K) (hlen : us.length = rows.length)
    (hp : ∀ r ∈ rows, (∀ p ∈ r, 0 ≤ p) ∧ 0 < r.sum) (hu : ∀ u ∈ us, 0 ≤ u ∧ u < 1) :
    ∃ out, sampleFromProbs2 rows us = .ok out ∧ out.length = rows.length ∧
      ∀ n (hn : n < rows.length) (hn' : n < us.length) (hn'' : n < out.length),
        sampleFromProbs rows[n] us[n] = .ok out[n] := by
  induction rows generalizing us with
  | nil =>
    refine ⟨[], ?_, rfl, fun n hn => by simp at hn⟩
    simp [sampleFromProbs2]; rfl
  | cons r rows ih =>
    cases us with
    | nil => simp at hlen
    | cons u us =>
      obtain ⟨out, h1, h2, h3⟩ := ih us (by simpa using hlen) (fun r hr => hp r (by simp [hr]))
        (fun u hu' => hu u (by simp [hu']))
      obtain ⟨hr1, hr2⟩ := hp r (by simp)
      obtain ⟨hu1, hu2⟩ := hu u (by simp)
      obtain ⟨i, hi, hs, -⟩ := sampleFromProbs_support r hr1 hr2 u hu1 hu2
      refine ⟨i :: out, ?_, by simp [h2], fun n hn hn' hn'' => ?_⟩
      · simp only [sampleFromProbs2] at h1
        simp only [sampleFromProbs2, List.zip_cons_cons, List.mapM_cons, hs, h1]
        rfl
      · cases n with
        | zero => simpa using hs
        | succ n => simpa using h3 n (by simpa using hn) (by simpa using hn') (by simpa using hn'')

end

open MeasureTheory in
/-- **C12** (law). The uniform draws in `[0, 1)` for which index `i` is returned
have Lebesgue measure exactly `p i / sum p`. -/
theorem sampleFromProbs_law (ps : List ℝ) (hp : ∀ p ∈ ps, 0 ≤ p) (hT : 0 < ps.sum)
    (i : Nat) (hi : i < ps.length) :
    volume {u : ℝ | 0 ≤ u ∧ u < 1 ∧ sampleFromProbs ps u = .ok i}
      = ENNReal.ofReal (ps[i] / ps.sum) := by
  have hset : {u : ℝ | 0 ≤ u ∧ u < 1 ∧ sampleFromProbs ps u = .ok i}
      = Set.Ico ((ps.take i).sum / ps.sum) ((ps.take (i + 1)).sum / ps.sum) := by
    ext u
    simp only [Set.mem_ofPred_eq, Set.mem_Ico, div_le_iff₀ hT, lt_div_iff₀ hT]
    constructor
    · rintro ⟨h0, h1, h⟩
      exact ((sampleFromProbs_iff ps hp hT u h0 h1 i).1 h).2
    · rintro ⟨ha, hb⟩
      have h0 : 0 ≤ u := by
        have : (ps.take 0).sum ≤ (ps.take i).sum := take_sum_mono ps hp (Nat.zero_le i)
        simp only [List.take_zero, List.sum_nil] at this
        by_contra hneg
        nlinarith
      have h1 : u < 1 := by
        have : (ps.take (i + 1)).sum ≤ (ps.take ps.length).sum := take_sum_mono ps hp (by omega)
        rw [List.take_length] at this
        by_contra hge
        nlinarith
      exact ⟨h0, h1, (sampleFromProbs_iff ps hp hT u h0 h1 i).2 ⟨hi, ha, hb⟩⟩
  rw [hset, Real.volume_Ico, take_sum_succ ps i hi]
  congr 1
  field_simp
  ring

example : sampleFromProbs [(1 : ℚ), 0, 3] (1/4) = .ok 2 := by decide +kernel
example : (∀ p ∈ [(1 : ℚ), 0, 3], 0 ≤ p) ∧ 0 < [(1 : ℚ), 0, 3].sum := by decide +kernel
example : sampleFromProbs2 [[(1 : ℚ), 0, 3], [0, 2, 0]] [1/5, 9/10] = .ok [0, 1] := by decide +kernel

end TreeCat.Util
