import Verif.Lemmas.Dict
import Verif.Lemmas.Complete
import Verif.Spec.Format

/-! Internal rows as concatenations of blocks. -/

namespace TreeCat

open Spec
open Config (Str)

variable {T : Text}

theorem blockOf_length (f : Feature) (x : Option Json) : (blockOf f x).length = f.width := by
  unfold blockOf
  split
  · simp [Feature.width]
  · simp [Feature.width]
  · simp

theorem internalRow_length (fs : List (Str × Feature)) (x : Str × Feature → Option Json) : (internalRow fs x).length = startOf fs fs.length := by
  unfold internalRow startOf
  rw [List.length_flatMap, List.take_length]
  congr 1
  exact List.map_congr_left fun f _ => blockOf_length _ _

theorem internalRow_congr {fs : List (Str × Feature)} {x y : Str × Feature → Option Json} (h : ∀ f ∈ fs, x f = y f) :
    internalRow fs x = internalRow fs y := by
  unfold internalRow
  rw [List.flatMap_def, List.flatMap_def]
  congr 1
  exact List.map_congr_left fun f hf => by rw [h f hf]

/-- The row around one block. -/
theorem internalRow_split (fs : List (Str × Feature)) (x : Str × Feature → Option Json) (v : Nat) (f : Str × Feature) (h : fs[v]? = some f) :
    internalRow fs x = internalRow (fs.take v) x ++ blockOf f.2 (x f) ++ internalRow (fs.drop (v + 1)) x ∧
    (internalRow (fs.take v) x).length = startOf fs v := by
  have hlt : v < fs.length := by
    by_contra hge
    rw [List.getElem?_eq_none (by omega)] at h; simp at h
  rw [List.getElem?_eq_getElem hlt] at h
  injection h with h
  constructor
  · have e : fs = fs.take v ++ f :: fs.drop (v + 1) := by
      rw [← h, List.cons_getElem_drop_succ, List.take_append_drop]
    conv_lhs => rw [e]
    unfold internalRow
    rw [List.flatMap_append, List.flatMap_cons, List.append_assoc]
  · rw [internalRow_length]
    unfold startOf
    rw [List.take_length]

/-- The parts of the row other than the block at `v` do not depend on the value there. -/
theorem internalRow_update (fs : List (Str × Feature)) (hn : (fs.map Prod.fst).Nodup) (x y : Str × Feature → Option Json) (v : Nat)
    (f : Str × Feature) (h : fs[v]? = some f) (hxy : ∀ g ∈ fs, g.1 ≠ f.1 → x g = y g) :
    internalRow (fs.take v) x = internalRow (fs.take v) y ∧ internalRow (fs.drop (v + 1)) x = internalRow (fs.drop (v + 1)) y := by
  have hlt : v < fs.length := by
    by_contra hge
    rw [List.getElem?_eq_none (by omega)] at h; simp at h
  rw [List.getElem?_eq_getElem hlt] at h
  injection h with h
  have e : fs = fs.take v ++ f :: fs.drop (v + 1) := by
    rw [← h, List.cons_getElem_drop_succ, List.take_append_drop]
  rw [e, List.map_append, List.map_cons, List.nodup_append, List.nodup_cons] at hn
  obtain ⟨-, ⟨hn1, -⟩, hn2⟩ := hn
  constructor
  · refine internalRow_congr fun g hg => hxy g (List.mem_of_mem_take hg) ?_
    exact hn2 g.1 (List.mem_map.2 ⟨g, hg, rfl⟩) f.1 (by simp)
  · refine internalRow_congr fun g hg => hxy g (List.mem_of_mem_drop hg) ?_
    intro heq
    exact hn1 (List.mem_map.2 ⟨g, hg, heq⟩)

theorem pySet_block {α : Type} (A B C : List α) (i : Nat) (a : α) (hi : i < B.length) :
    pySet (A ++ B ++ C) (A.length + i) a = .ok (A ++ B.set i a ++ C) := by
  rw [pySet_ok _ _ _ (by simp only [List.length_append]; omega)]
  congr 1
  rw [List.append_assoc, List.set_append_right _ _ (by omega), Nat.add_sub_cancel_left, List.set_append_left _ _ hi, ← List.append_assoc]

theorem set_onehot (vs : List Str) (hn : vs.Nodup) (i : Nat) (s : Str) (h : vs[i]? = some s) :
    (List.replicate vs.length (0 : Int)).set i 1 = vs.map fun v => if v = s then 1 else 0 := by
  have hi : i < vs.length := by
    by_contra hge
    rw [List.getElem?_eq_none (by omega)] at h; simp at h
  rw [List.getElem?_eq_getElem hi] at h
  injection h with h
  refine List.ext_getElem (by simp) fun j h1 h2 => ?_
  rw [List.getElem_set, List.getElem_map, List.getElem_replicate]
  have hj : j < vs.length := by simpa using h2
  by_cases e : i = j
  · subst e
    rw [if_pos rfl, if_pos h]
  · rw [if_neg e, if_neg]
    intro heq
    have heq := heq.trans h.symm
    exact e ((hn.getElem_inj_iff (hi := hj) (hj := hi)).1 heq).symm

theorem writeCategory_block (A C : List Int) (vs : List Str) (hn : vs.Nodup) (i : Nat) (s : Str) (h : vs[i]? = some s) :
    writeCategory (A ++ blockOf (.cat vs) none ++ C) A.length i = .ok (A ++ blockOf (.cat vs) (some (.str s)) ++ C) := by
  have hi : i < vs.length := by
    by_contra hge
    rw [List.getElem?_eq_none (by omega)] at h; simp at h
  unfold writeCategory
  have e1 : blockOf (.cat vs) none = List.replicate vs.length 0 := rfl
  rw [e1, pySet_block A _ C i 1 (by rw [List.length_replicate]; exact hi), set_onehot vs hn i s h]
  rfl

theorem wrap8_fits {i : Int} (h0 : 0 ≤ i) (h1 : i ≤ 127) : Util.wrap8 i = i := by unfold Util.wrap8; omega

theorem writeOrdinal_block (A C : List Int) (lo hi i : Int) (hf : hi - lo ≤ 127) :
    writeOrdinal (A ++ blockOf (.ord lo hi) none ++ C) A.length i (lo, hi) =
      .ok (A ++ blockOf (.ord lo hi) (if lo ≤ i ∧ i ≤ hi then some (.int i) else none) ++ C) := by
  unfold writeOrdinal
  by_cases h : lo ≤ i ∧ i ≤ hi
  · rw [if_neg (by push Not; exact h), if_pos h]
    have e1 : blockOf (.ord lo hi) none = [0, 0] := rfl
    rw [e1, pySet_block A [0, 0] C 0 _ (by simp)]
    simp only [bind, Except.bind, List.set_cons_zero]
    rw [pySet_block A _ C 1 _ (by simp), wrap8_fits (by omega) (by omega), wrap8_fits (by omega) (by omega)]
    rfl
  · rw [if_pos (by push Not at h; by_cases h1 : lo ≤ i; exact .inr (h h1); exact .inl (by omega)), if_neg h]

/-! ### Slices -/

/-- Any row of the right length is a concatenation of blocks. -/
theorem exists_blocks (fs : List (Str × Feature)) (row : List Int) (h : row.length = startOf fs fs.length) :
    ∃ bs : List (List Int), row = bs.flatten ∧ bs.map List.length = fs.map fun f => f.2.width := by
  unfold startOf at h
  rw [List.take_length] at h
  induction fs generalizing row with
  | nil =>
    refine ⟨[], ?_, rfl⟩
    simpa using h
  | cons f fs ih =>
    rw [List.map_cons, List.sum_cons] at h
    obtain ⟨bs, e, hl⟩ := ih (row.drop f.2.width) (by rw [List.length_drop]; omega)
    refine ⟨row.take f.2.width :: bs, ?_, ?_⟩
    · rw [List.flatten_cons, ← e, List.take_append_drop]
    · rw [List.map_cons, List.map_cons, hl, List.length_take, Nat.min_eq_left (by omega)]

theorem flatten_take_length (fs : List (Str × Feature)) (bs : List (List Int)) (h : bs.map List.length = fs.map fun f => f.2.width) (v : Nat) :
    ((bs.take v).flatten).length = startOf fs v := by
  unfold startOf
  rw [List.length_flatten, List.map_take, h, List.map_take]

theorem flatten_slice (fs : List (Str × Feature)) (bs : List (List Int)) (h : bs.map List.length = fs.map fun f => f.2.width) (v : Nat)
    (b : List Int) (hb : bs[v]? = some b) : (bs.flatten.take (startOf fs (v + 1))).drop (startOf fs v) = b := by
  have hlt : v < bs.length := by
    by_contra hge
    rw [List.getElem?_eq_none (by omega)] at hb; simp at hb
  rw [List.getElem?_eq_getElem hlt] at hb
  injection hb with hb
  have e : bs = bs.take v ++ b :: bs.drop (v + 1) := by
    rw [← hb, List.cons_getElem_drop_succ, List.take_append_drop]
  have e1 : (bs.take (v + 1)).flatten = (bs.take v).flatten ++ b := by
    rw [List.take_succ_eq_append_getElem hlt, List.flatten_append, hb]; simp
  have e2 : bs.flatten = (bs.take (v + 1)).flatten ++ (bs.drop (v + 1)).flatten := by
    rw [← List.flatten_append, List.take_append_drop]
  rw [e2, ← flatten_take_length fs bs h (v + 1), List.take_left', e1, ← flatten_take_length fs bs h v, List.drop_left]
  rfl

theorem describes_get {S : Schema} {fs : List (Str × Feature)} (h : Describes S fs) (v : Nat) (hv : v ≤ fs.length) :
    pyGet S.raggedIndex v = .ok (startOf fs v) := by
  rw [pyGet_eq_ok]; exact h.ragged v hv

theorem describes_last {S : Schema} {fs : List (Str × Feature)} (h : Describes S fs) : S.raggedIndex.getLastD 0 = startOf fs fs.length := by
  rw [List.getLastD_eq_getLast?, List.getLast?_eq_getElem?, h.ragged_length, Nat.add_sub_cancel, h.ragged _ (le_refl _)]
  rfl

theorem describes_zeroRow {S : Schema} {fs : List (Str × Feature)} (h : Describes S fs) : zeroRow S = internalRow fs fun _ => none := by
  unfold zeroRow
  rw [describes_last h]
  unfold startOf internalRow
  rw [List.take_length]
  clear h
  induction fs with
  | nil => rfl
  | cons f fs ih =>
    rw [List.map_cons, List.sum_cons, List.flatMap_cons, ← ih, ← List.replicate_append_replicate]
    congr 1
    obtain ⟨n, f⟩ := f
    cases f <;> rfl

end TreeCat
