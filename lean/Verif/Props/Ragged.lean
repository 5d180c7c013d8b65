import Mathlib.Data.List.Basic
import Mathlib.Algebra.BigOperators.Group.List.Basic
import Mathlib.Data.List.Indexes
import Verif.Model.Util

/-!
# C14: the ragged helpers agree with the block layout
-/

namespace TreeCat.Util

/-! ## Specification -/

/-- Offset of block `v` when blocks of the given widths are laid end to end. -/
def blockStart (widths : List Nat) (v : Nat) : Nat := (widths.take v).sum

/-- Position `p` lies in block `v`. -/
def InBlock (widths : List Nat) (v p : Nat) : Prop :=
  v < widths.length ∧ blockStart widths v ≤ p ∧ p < blockStart widths (v + 1)

/-- Sum of block `v` of a row: the entries at the positions of the block. -/
def blockSum (widths : List Nat) (row : List Int) (v : Nat) : Int :=
  ((List.range row.length).map fun p =>
    if blockStart widths v ≤ p ∧ p < blockStart widths (v + 1) then row.getD p 0 else 0).sum

theorem blockStart_succ (ws : List Nat) (v : Nat) (h : v < ws.length) :
    blockStart ws (v + 1) = blockStart ws v + ws[v] := by
  unfold blockStart
  rw [List.take_add_one, List.sum_append, List.getElem?_eq_getElem h]
  simp

theorem blockStart_mono (ws : List Nat) {u v : Nat} (h : u ≤ v) :
    blockStart ws u ≤ blockStart ws v := by
  induction v, h using Nat.le_induction with
  | base => exact Nat.le_refl _
  | succ v _ ih =>
    by_cases hv : v < ws.length
    · rw [blockStart_succ ws v hv]; omega
    · simp only [blockStart] at *
      rw [List.take_of_length_le (by omega : ws.length ≤ v + 1)]
      rwa [List.take_of_length_le (by omega : ws.length ≤ v)] at ih

/-- Every position belongs to exactly one block. -/
theorem inBlock_unique (ws : List Nat) (u v p : Nat) (hu : InBlock ws u p) (hv : InBlock ws v p) :
    u = v := by
  rcases lt_trichotomy u v with h | h | h
  · have := blockStart_mono ws (show u + 1 ≤ v by omega)
    obtain ⟨_, _, _⟩ := hu; obtain ⟨_, _, _⟩ := hv; omega
  · exact h
  · have := blockStart_mono ws (show v + 1 ≤ u by omega)
    obtain ⟨_, _, _⟩ := hu; obtain ⟨_, _, _⟩ := hv; omega

theorem inBlock_exists (ws : List Nat) (p : Nat) (h : p < ws.sum) : ∃ v, InBlock ws v p := by
  have hex : ∃ v, p < blockStart ws (v + 1) := ⟨ws.length, by
    simp only [blockStart]; rwa [List.take_of_length_le (by omega)]⟩
  classical
  refine ⟨Nat.find hex, ?_, ?_, Nat.find_spec hex⟩
  · have : p < blockStart ws (ws.length - 1 + 1) := by
      rcases Nat.eq_zero_or_pos ws.length with h0 | h0
      · rw [List.length_eq_zero_iff] at h0; subst h0; simp at h
      · simp only [blockStart]; rwa [Nat.sub_add_cancel h0, List.take_length]
    have h0 : 0 < ws.length := by
      rcases Nat.eq_zero_or_pos ws.length with h0 | h0
      · rw [List.length_eq_zero_iff] at h0; subst h0; simp at h
      · exact h0
    have := Nat.find_min' hex this
    omega
  · cases hf : Nat.find hex with
    | zero => simp [blockStart]
    | succ v =>
      have := Nat.find_min hex (show v < Nat.find hex by omega)
      exact not_lt.1 this

/-! ## `make_ragged_index` -/

theorem raggedFrom_getElem? (acc : Nat) (ws : List Nat) (v : Nat) :
    (raggedFrom acc ws)[v]? = if v ≤ ws.length then some (acc + blockStart ws v) else none := by
  induction ws generalizing acc v with
  | nil =>
    cases v with
    | zero => simp [raggedFrom, blockStart]
    | succ v => simp [raggedFrom]
  | cons w ws ih =>
    cases v with
    | zero => simp [raggedFrom, blockStart]
    | succ v => simp [raggedFrom, ih, blockStart, Nat.add_assoc]

/-- **C14** (`make_ragged_index`). The result has `V + 1` entries, the `v`-th being
the total width of the columns before `v`. -/
theorem makeRaggedIndex_spec (ws : List Nat) :
    (makeRaggedIndex ws).length = ws.length + 1 ∧
    (∀ v ≤ ws.length, (makeRaggedIndex ws)[v]? = some (blockStart ws v)) ∧
    (makeRaggedIndex ws).getLast? = some ws.sum := by
  have hlen : (makeRaggedIndex ws).length = ws.length + 1 := by
    have : ∀ acc, (raggedFrom acc ws).length = ws.length + 1 := by
      induction ws with
      | nil => simp [raggedFrom]
      | cons w ws ih => intro acc; simp [raggedFrom, ih]
    exact this 0
  have hget : ∀ v ≤ ws.length, (makeRaggedIndex ws)[v]? = some (blockStart ws v) := by
    intro v hv
    simp [makeRaggedIndex, raggedFrom_getElem?, hv]
  refine ⟨hlen, hget, ?_⟩
  rw [List.getLast?_eq_getElem?, hlen, Nat.add_sub_cancel, hget _ (le_refl _), blockStart,
    List.take_length]

/-- **C14** (gaps). Consecutive offsets differ by the column width. -/
theorem makeRaggedIndex_gaps (ws : List Nat) (v : Nat) (hv : v < ws.length) :
    ∃ a b, (makeRaggedIndex ws)[v]? = some a ∧ (makeRaggedIndex ws)[v + 1]? = some b ∧
      b = a + ws[v] := by
  obtain ⟨-, h, -⟩ := makeRaggedIndex_spec ws
  exact ⟨_, _, h v (by omega), h (v + 1) (by omega), blockStart_succ ws v hv⟩

example : makeRaggedIndex [2, 0, 3] = [0, 2, 2, 5] := by decide

/-! ## `make_ragged_mask` -/

theorem sliceFill_getElem? {α : Type} (a : List α) (b e : Nat) (x : α) (p : Nat) (hp : p < a.length) :
    (sliceFill a b e x)[p]? = if b ≤ p ∧ p < e then some x else a[p]? := by
  simp only [sliceFill, List.getElem?_mapIdx, List.getElem?_eq_getElem hp, Option.map_some]
  split <;> rfl

theorem raggedMaskLoop_spec {α : Type} (ws : List Nat) (mask : List α)
    (hm : mask.length = ws.length) (k v : Nat) (hk : v + k = ws.length) (a : List α)
    (ha : a.length = ws.sum)
    (hdone : ∀ u < v, ∀ p, InBlock ws u p → a[p]? = mask[u]?) :
    ∃ b, raggedMaskLoop (makeRaggedIndex ws) mask k v a = .ok b ∧ b.length = ws.sum ∧
      ∀ u p, InBlock ws u p → b[p]? = mask[u]? := by
  induction k generalizing v a with
  | zero => exact ⟨a, rfl, ha, fun u p hp => hdone u (by have := hp.1; omega) p hp⟩
  | succ k ih =>
    obtain ⟨-, hri, -⟩ := makeRaggedIndex_spec ws
    have hx : mask[v]? = some mask[v] := List.getElem?_eq_getElem (by omega)
    obtain ⟨b, h1, h2, h3⟩ := ih (v + 1) (by omega)
      (sliceFill a (blockStart ws v) (blockStart ws (v + 1)) mask[v]) (by simp [sliceFill, ha]) (by
        intro u hu p hp
        have hpl : p < a.length := by
          have := blockStart_mono ws (show u + 1 ≤ ws.length from hp.1)
          rw [show blockStart ws ws.length = ws.sum by simp [blockStart]] at this
          have := hp.2.2; omega
        rw [sliceFill_getElem? a _ _ _ p hpl]
        by_cases huv : u = v
        · subst huv; rw [if_pos hp.2, hx]
        · rw [if_neg, hdone u (by omega) p hp]
          intro hin
          exact huv (inBlock_unique ws u v p hp ⟨by omega, hin⟩))
    refine ⟨b, ?_, h2, h3⟩
    simp only [raggedMaskLoop, pyGet, hri v (by omega), hri (v + 1) (by omega), hx]
    exact h1

/-- **C14** (`make_ragged_mask`). For a mask with one entry per column the result
has one entry per position, equal to the entry of the block containing it. No
position keeps the unspecified contents of the fresh array. -/
theorem makeRaggedMask_spec {α : Type} (junk : Nat → α) (ws : List Nat) (mask : List α)
    (hm : mask.length = ws.length) :
    ∃ b, makeRaggedMask junk (makeRaggedIndex ws) mask = .ok b ∧ b.length = ws.sum ∧
      ∀ v p, InBlock ws v p → b[p]? = mask[v]? := by
  obtain ⟨hlen, -, hlast⟩ := makeRaggedIndex_spec ws
  obtain ⟨b, h1, h2⟩ := raggedMaskLoop_spec ws mask hm ws.length 0 (by omega)
    ((List.range ws.sum).map junk) (by simp) (fun u hu => by omega)
  refine ⟨b, ?_, h2⟩
  rw [← h1]
  simp [makeRaggedMask, hlen, hlast, pyAssert, hm, bind, Except.bind]

/-- **C14** (`make_ragged_mask`, wrong size). -/
theorem makeRaggedMask_wrong_size {α : Type} (junk : Nat → α) (ws : List Nat) (mask : List α)
    (hm : mask.length ≠ ws.length) :
    makeRaggedMask junk (makeRaggedIndex ws) mask = .error .assertion := by
  obtain ⟨hlen, -, hlast⟩ := makeRaggedIndex_spec ws
  simp [makeRaggedMask, hlen, hlast, pyAssert, hm, bind, Except.bind]

example : makeRaggedMask (fun _ => false) (makeRaggedIndex [2, 0, 3]) [true, true, false]
    = .ok [true, true, false, false, false] := by decide

/-! ## `count_observations` -/

theorem sliceSum_eq (row : List Int) (b e : Nat) :
    sliceSum row b e = ((List.range row.length).map fun p =>
      if b ≤ p ∧ p < e then row.getD p 0 else 0).sum := by
  unfold sliceSum
  induction row generalizing b e with
  | nil => simp
  | cons x row ih =>
    rw [List.length_cons, List.range_succ_eq_map, List.map_cons, List.sum_cons, List.map_map]
    cases e with
    | zero =>
      simp [Function.comp_def]
    | succ e =>
      cases b with
      | zero =>
        have := ih 0 e
        simp only [List.drop_zero] at this
        simp [this, Function.comp_def]
      | succ b =>
        have := ih b e
        simp [this, Function.comp_def]

theorem makeRaggedIndex_zip (ws : List Nat) :
    (makeRaggedIndex ws).zip (makeRaggedIndex ws).tail
      = (List.range ws.length).map fun v => (blockStart ws v, blockStart ws (v + 1)) := by
  obtain ⟨hlen, h, -⟩ := makeRaggedIndex_spec ws
  apply List.ext_getElem?
  intro v
  by_cases hv : v < ws.length
  · have : ((makeRaggedIndex ws).zip (makeRaggedIndex ws).tail)[v]?
        = some (blockStart ws v, blockStart ws (v + 1)) := by
      rw [List.getElem?_zip_eq_some, List.getElem?_tail]
      exact ⟨h v (by omega), h (v + 1) (by omega)⟩
    rw [this]
    simp [hv]
  · rw [List.getElem?_eq_none (by simp [hlen]; omega), List.getElem?_eq_none (by simp; omega)]

/-- **C14** (`count_observations`). When every block total fits int8 the result is
the N x V array of block totals. -/
theorem countObservations_spec (ws : List Nat) (data : List (List Int))
    (hfit : ∀ row ∈ data, ∀ v < ws.length,
      -128 ≤ blockSum ws row v ∧ blockSum ws row v ≤ 127) :
    countObservations (makeRaggedIndex ws) ws.sum data
      = .ok (data.map fun row => (List.range ws.length).map (blockSum ws row)) := by
  obtain ⟨-, -, hlast⟩ := makeRaggedIndex_spec ws
  have : data.map (countRow (makeRaggedIndex ws))
      = data.map fun row => (List.range ws.length).map (blockSum ws row) := by
    apply List.map_congr_left
    intro row hrow
    rw [countRow, makeRaggedIndex_zip, List.map_map]
    apply List.map_congr_left
    intro v hv
    have := hfit row hrow v (List.mem_range.1 hv)
    have e : sliceSum row (blockStart ws v) (blockStart ws (v + 1)) = blockSum ws row v := by
      rw [sliceSum_eq]; rfl
    simp only [Function.comp_apply, e]
    unfold wrap8; omega
  simp [countObservations, hlast, pyAssert, this, bind, Except.bind]

/-- **C14** (`count_observations`, wrong width). -/
theorem countObservations_wrong_width (ws : List Nat) (R : Nat) (data : List (List Int))
    (hR : R ≠ ws.sum) :
    countObservations (makeRaggedIndex ws) R data = .error .assertion := by
  obtain ⟨-, -, hlast⟩ := makeRaggedIndex_spec ws
  simp [countObservations, hlast, pyAssert, hR, bind, Except.bind]

/-! ## `guess_counts` -/

theorem foldl_rowMax (V : Nat) (rows : List (List Int)) (c : List Int) (hc : c.length = V)
    (hrows : ∀ r ∈ rows, r.length = V) :
    (rows.foldl rowMax c).length = V ∧
    ∀ v < V, (∀ r ∈ c :: rows, r.getD v 0 ≤ (rows.foldl rowMax c).getD v 0) ∧
      ∃ r ∈ c :: rows, (rows.foldl rowMax c).getD v 0 = r.getD v 0 := by
  induction rows generalizing c with
  | nil => exact ⟨hc, fun v hv => ⟨by simp, c, by simp⟩⟩
  | cons r rows ih =>
    have hr := hrows r (by simp)
    have hl : (rowMax c r).length = V := by simp [rowMax, hc, hr]
    obtain ⟨h1, h2⟩ := ih (rowMax c r) hl (fun r hr => hrows r (by simp [hr]))
    refine ⟨h1, fun v hv => ?_⟩
    obtain ⟨h3, r', hr', h4⟩ := h2 v hv
    have hget : (rowMax c r).getD v 0 = max (c.getD v 0) (r.getD v 0) := by
      simp [rowMax, List.getD_eq_getElem?_getD, List.getElem?_zipWith,
        List.getElem?_eq_getElem (show v < c.length by omega),
        List.getElem?_eq_getElem (show v < r.length by omega)]
    have hmax := h3 _ (List.mem_cons_self)
    rw [hget] at hmax
    refine ⟨fun q hq => ?_, ?_⟩
    · rcases List.mem_cons.1 hq with rfl | hq
      · exact (le_max_left _ _).trans hmax
      · rcases List.mem_cons.1 hq with rfl | hq
        · exact (le_max_right _ _).trans hmax
        · exact h3 q (List.mem_cons_of_mem _ hq)
    · rcases List.mem_cons.1 hr' with rfl | hr'
      · rw [hget] at h4
        rcases max_choice (c.getD v 0) (r.getD v 0) with h | h
        · exact ⟨c, by simp, by rw [← h, ← h4]; rfl⟩
        · exact ⟨r, by simp, by rw [← h, ← h4]; rfl⟩
      · exact ⟨r', by simp [hr'], h4⟩

/-- **C14** (`guess_counts`). With at least one row, the `v`-th entry is the
largest block total of column `v`: an upper bound that some row attains. -/
theorem guessCounts_spec (ws : List Nat) (data : List (List Int)) (hne : data ≠ [])
    (hfit : ∀ row ∈ data, ∀ v < ws.length,
      -128 ≤ blockSum ws row v ∧ blockSum ws row v ≤ 127) :
    ∃ counts, guessCounts (makeRaggedIndex ws) ws.sum data = .ok counts ∧
      counts.length = ws.length ∧
      ∀ v < ws.length, (∀ row ∈ data, blockSum ws row v ≤ counts.getD v 0) ∧
        ∃ row ∈ data, counts.getD v 0 = blockSum ws row v := by
  have hco := countObservations_spec ws data hfit
  cases data with
  | nil => exact absurd rfl hne
  | cons r0 rows =>
    obtain ⟨h1, h2⟩ := foldl_rowMax ws.length
      (rows.map fun row => (List.range ws.length).map (blockSum ws row))
      ((List.range ws.length).map (blockSum ws r0)) (by simp) (by simp)
    refine ⟨_, by simp only [guessCounts, hco]; rfl, h1, fun v hv => ?_⟩
    obtain ⟨h3, h4⟩ := h2 v hv
    have hg : ∀ row, ((List.range ws.length).map (blockSum ws row)).getD v 0 = blockSum ws row v := by
      intro row; simp [List.getD_eq_getElem?_getD, hv]
    rw [← List.map_cons (f := fun row => (List.range ws.length).map (blockSum ws row))] at h3 h4
    refine ⟨fun row hrow => ?_, ?_⟩
    · have := h3 _ (List.mem_map_of_mem hrow)
      rwa [hg] at this
    · obtain ⟨r, hr, he⟩ := h4
      obtain ⟨row, hrow, rfl⟩ := List.mem_map.1 hr
      exact ⟨row, hrow, by rw [he, hg]⟩

/-- **C14** (`guess_counts` without rows raises). -/
theorem guessCounts_empty (ws : List Nat) :
    guessCounts (makeRaggedIndex ws) ws.sum [] = .error .valueError := by
  have := countObservations_spec ws [] (by simp)
  simp only [guessCounts, this]
  rfl

example : guessCounts (makeRaggedIndex [2, 3]) 5 [[0, 1, 2, 0, 1], [0, 0, 1, 1, 0]] = .ok [1, 3] := by
  decide +kernel

end TreeCat.Util
