import Verif.Lemmas.Blocks
import Verif.Props.LoadSchema

/-! # C34: `import_rows` and `export_rows` -/

namespace TreeCat

open Spec
open Config (Str)

variable {T : Text} {S : Schema} {fs : List (Str × Feature)}

/-! ### `import_rows` -/

theorem describes_position (h : Describes S fs) {f : Str × Feature} (hf : f ∈ fs) :
    ∃ v, fs[v]? = some f ∧ Dict.get? S.featureIndex f.1 = some v := by
  obtain ⟨v, hv⟩ := List.mem_iff_getElem?.1 hf
  refine ⟨v, hv, (h.index f.1 v).2 ?_⟩
  rw [List.getElem?_map, hv]
  rfl

theorem getElem?_lt {α : Type} {l : List α} {i : Nat} {a : α} (h : l[i]? = some a) : i < l.length := by
  by_contra hge
  rw [List.getElem?_eq_none (by omega)] at h; simp at h

/-- One cell of a known feature that has not been written yet. -/
theorem importCell_known (h : Describes S fs) (hfit : Fits fs) (f : Str × Feature) (hf : f ∈ fs) (j : Json)
    (x : Str × Feature → Option Json) (hx : x f = none) :
    importCell T S (internalRow fs x) (f.1, j) =
      (readCell T f.2 j).map fun y => internalRow fs fun g => if g.1 = f.1 then y else x g := by
  obtain ⟨v, hv, hidx⟩ := describes_position h hf
  have hlt := getElem?_lt hv
  obtain ⟨e0, hl⟩ := internalRow_split fs x v f hv
  have hy : ∀ y, internalRow fs (fun g => if g.1 = f.1 then y else x g) =
      internalRow (fs.take v) x ++ blockOf f.2 y ++ internalRow (fs.drop (v + 1)) x := by
    intro y
    obtain ⟨e1, -⟩ := internalRow_split fs (fun g => if g.1 = f.1 then y else x g) v f hv
    obtain ⟨e2, e3⟩ := internalRow_update fs h.nodup (fun g => if g.1 = f.1 then y else x g) x v f hv
      fun g _ hg => if_neg hg
    rw [e1, e2, e3, if_pos rfl]
  have hget := describes_get h v (by omega)
  have hty := h.types f hf
  unfold importCell
  simp only [hidx, hget, bind, Except.bind]
  obtain ⟨n, F⟩ := f
  rw [hx] at e0
  simp only [hty, Feature.type]
  cases F with
  | cat vs =>
    obtain ⟨hnd, -, ix, hix, hspec⟩ := h.cats n vs hf
    simp only [hix]
    cases j with
    | str s =>
      simp only [Json.lookup, readCell, Except.map]
      cases hs : Dict.get? ix s with
      | none =>
        have : s ∉ vs := by
          intro hm
          obtain ⟨i, hi⟩ := List.mem_iff_getElem?.1 hm
          rw [(hspec s i).2 hi] at hs; simp at hs
        simp only [if_neg this, hy]
        rw [e0]
      | some i =>
        have hi := (hspec s i).1 hs
        simp only [if_pos (List.mem_of_getElem? hi), hy]
        rw [e0, ← hl]
        exact writeCategory_block _ _ vs hnd i s hi
    | container => rfl
    | int i => simp only [Json.lookup, readCell, Except.map, hy]; rw [e0]
    | bool i => simp only [Json.lookup, readCell, Except.map, hy]; rw [e0]
    | float i => simp only [Json.lookup, readCell, Except.map, hy]; rw [e0]
    | nan => simp only [Json.lookup, readCell, Except.map, hy]; rw [e0]
    | inf => simp only [Json.lookup, readCell, Except.map, hy]; rw [e0]
    | null => simp only [Json.lookup, readCell, Except.map, hy]; rw [e0]
  | ord lo hi =>
    obtain ⟨hle, hrg⟩ := h.ords n lo hi hf
    simp only [hrg, readCell, toInt_eq]
    cases hj : readInt T j with
    | error e => rfl
    | ok i? =>
      cases i? with
      | none => simp only [Except.map, Option.bind_none, hy]; rw [e0]
      | some i =>
        simp only [Except.map, Option.bind_some, hy]
        rw [e0, ← hl]
        exact writeOrdinal_block _ _ lo hi i (hfit n lo hi hf)

theorem importCell_unknown (h : Describes S fs) (n : Str) (hn : n ∉ fs.map Prod.fst) (j : Json) (row : List Int) :
    importCell T S row (n, j) = .ok row := by
  unfold importCell
  have : Dict.get? S.featureIndex n = none := by
    cases hg : Dict.get? S.featureIndex n with
    | none => rfl
    | some v => exact absurd (List.mem_of_getElem? ((h.index n v).1 hg)) hn
  simp only [this]

/-- All cells of a known feature can be read. -/
def Readable (T : Text) (fs : List (Str × Feature)) (row : Dict Str Json) : Prop :=
  ∀ nj ∈ row, ∀ F, (nj.1, F) ∈ fs → ∃ y, readCell T F nj.2 = .ok y

theorem feature_unique (hn : (fs.map Prod.fst).Nodup) {f g : Str × Feature} (hf : f ∈ fs) (hg : g ∈ fs) (e : f.1 = g.1) : f = g := by
  have h1 : Dict.get? fs f.1 = some f.2 := Dict.get?_of_mem hn hf
  have h2 : Dict.get? fs g.1 = some g.2 := Dict.get?_of_mem hn hg
  rw [e, h2] at h1
  injection h1 with h1
  exact Prod.ext e h1.symm

theorem importRow_fold (h : Describes S fs) (hfit : Fits fs) (row : Dict Str Json) (hk : (Dict.keys row).Nodup)
    (x : Str × Feature → Option Json) (hx : ∀ g ∈ fs, g.1 ∈ Dict.keys row → x g = none) :
    (Readable T fs row → row.foldlM (importCell T S) (internalRow fs x) =
      .ok (internalRow fs fun g => if g.1 ∈ Dict.keys row then valueOf T row g else x g)) ∧
    (¬ Readable T fs row → ∃ e, row.foldlM (importCell T S) (internalRow fs x) = .error e) := by
  induction row generalizing x with
  | nil =>
    refine ⟨fun _ => ?_, fun hr => absurd (fun nj hnj => by simp at hnj) hr⟩
    simp only [Dict.keys, List.map_nil, List.not_mem_nil, if_false]
    rfl
  | cons nj row ih =>
    obtain ⟨n, j⟩ := nj
    rw [Dict.keys_cons, List.nodup_cons] at hk
    by_cases hn : n ∈ fs.map Prod.fst
    · obtain ⟨f, hf, rfl⟩ := List.mem_map.1 hn
      have hstep := importCell_known (T := T) h hfit f hf j x (hx f hf (by simp [Dict.keys]))
      cases hread : readCell T f.2 j with
      | error e =>
        refine ⟨fun hr => ?_, fun _ => ?_⟩
        · obtain ⟨y, hy⟩ := hr (f.1, j) (by simp) f.2 hf
          rw [hread] at hy; simp at hy
        · rw [hread] at hstep
          exact ⟨e, by rw [List.foldlM_cons, hstep]; rfl⟩
      | ok y =>
        rw [hread] at hstep
        have hx' : ∀ g ∈ fs, g.1 ∈ Dict.keys row → (if g.1 = f.1 then y else x g) = none := by
          intro g hg hgk
          rw [if_neg (by rintro e; rw [e] at hgk; exact hk.1 hgk)]
          exact hx g hg (by rw [Dict.keys_cons]; exact List.mem_cons_of_mem _ hgk)
        obtain ⟨i1, i2⟩ := ih hk.2 _ hx'
        rw [List.foldlM_cons, hstep]
        simp only [Except.map, bind, Except.bind]
        constructor
        · intro hr
          rw [i1 fun nj' hnj' => hr nj' (List.mem_cons_of_mem _ hnj')]
          congr 1
          refine internalRow_congr fun g hg => ?_
          rw [Dict.keys_cons]
          by_cases e : g.1 = f.1
          · have : g = f := feature_unique h.nodup hg hf e
            subst this
            rw [if_neg hk.1, if_pos rfl, if_pos (by simp)]
            unfold valueOf
            rw [Dict.get?, if_pos rfl]
            simp only [hread]
          · rw [if_neg e]
            by_cases e2 : g.1 ∈ Dict.keys row
            · rw [if_pos e2, if_pos (by simp [e2])]
              unfold valueOf
              rw [Dict.get?, if_neg (Ne.symm e)]
            · rw [if_neg e2, if_neg (by simp [e, e2])]
        · intro hr
          refine i2 fun hr' => hr fun nj' hnj' F hF => ?_
          rcases List.mem_cons.1 hnj' with rfl | hnj'
          · have : (f.1, F) = f := feature_unique h.nodup hF hf rfl
            rw [← this] at hread
            exact ⟨y, hread⟩
          · exact hr' nj' hnj' F hF
    · have hstep := importCell_unknown (T := T) h n hn j (internalRow fs x)
      obtain ⟨i1, i2⟩ := ih hk.2 x fun g hg hgk => hx g hg (by rw [Dict.keys_cons]; exact List.mem_cons_of_mem _ hgk)
      rw [List.foldlM_cons, hstep]
      simp only [bind, Except.bind]
      constructor
      · intro hr
        rw [i1 fun nj' hnj' => hr nj' (List.mem_cons_of_mem _ hnj')]
        congr 1
        refine internalRow_congr fun g hg => ?_
        have e : g.1 ≠ n := by rintro rfl; exact hn (List.mem_map.2 ⟨g, hg, rfl⟩)
        rw [Dict.keys_cons]
        by_cases e2 : g.1 ∈ Dict.keys row
        · rw [if_pos e2, if_pos (by simp [e2])]
          unfold valueOf
          rw [Dict.get?, if_neg (Ne.symm e)]
        · rw [if_neg e2, if_neg (by simp [e, e2])]
      · intro hr
        refine i2 fun hr' => hr fun nj' hnj' F hF => ?_
        rcases List.mem_cons.1 hnj' with rfl | hnj'
        · exact absurd (List.mem_map.2 ⟨_, hF, rfl⟩) hn
        · exact hr' nj' hnj' F hF

theorem importRow_spec (h : Describes S fs) (hfit : Fits fs) (row : Dict Str Json) (hk : (Dict.keys row).Nodup) :
    (Readable T fs row → row.foldlM (importCell T S) (zeroRow S) = .ok (internalRow fs (valueOf T row))) ∧
    (¬ Readable T fs row → ∃ e, row.foldlM (importCell T S) (zeroRow S) = .error e) := by
  obtain ⟨h1, h2⟩ := importRow_fold (T := T) h hfit row hk (fun _ => none) fun _ _ _ => rfl
  rw [describes_zeroRow h]
  refine ⟨fun hr => ?_, h2⟩
  rw [h1 hr]
  congr 1
  refine internalRow_congr fun g hg => ?_
  split
  · rfl
  · rename_i hno
    unfold valueOf
    rw [(Dict.get?_eq_none row g.1).2 hno]

/-- **C34**: `import_rows` stores exactly the valid cells of each row: unknown names and invalid values are dropped, a
category becomes a one-hot block, and an ordinal value its distances from both ends. It raises exactly if some
cell of a known feature cannot be read at all. -/
theorem importRows_spec (h : Describes S fs) (hfit : Fits fs) (rows : List (Dict Str Json)) (hk : ∀ row ∈ rows, (Dict.keys row).Nodup) :
    ((∀ row ∈ rows, Readable T fs row) → importRows T S (.list rows) = .ok (rows.map fun row => internalRow fs (valueOf T row))) ∧
    ((∃ row ∈ rows, ¬ Readable T fs row) → ∃ e, importRows T S (.list rows) = .error e) := by
  unfold importRows
  dsimp only
  induction rows with
  | nil => exact ⟨fun _ => rfl, fun ⟨r, hr, _⟩ => by simp at hr⟩
  | cons row rows ih =>
    obtain ⟨i1, i2⟩ := ih fun r hr => hk r (by simp [hr])
    obtain ⟨r1, r2⟩ := importRow_spec (T := T) h hfit row (hk row (by simp))
    constructor
    · intro hr
      rw [List.mapM_cons, r1 (hr row (by simp)), i1 fun r hr' => hr r (by simp [hr'])]
      rfl
    · rintro ⟨r, hr, hno⟩
      rw [List.mapM_cons]
      by_cases hrow : Readable T fs row
      · obtain ⟨e, he⟩ := i2 ⟨r, by rcases List.mem_cons.1 hr with rfl | hr; exact absurd hrow hno; exact hr, hno⟩
        exact ⟨e, by rw [r1 hrow, he]; rfl⟩
      · obtain ⟨e, he⟩ := r2 hrow
        exact ⟨e, by rw [he]; rfl⟩

/-! ### `export_rows` -/

/-- What `export_rows` reads from one block. -/
def exportBlock (F : Feature) (b : List Int) : Py (Option Json) :=
  if b.all (· == 0) then .ok none
  else match F with
    | .cat vs => do
      pyAssert (b.sum == 1)
      let value ← pyGet vs (argmax b)
      .ok (some (.str value))
    | .ord lo hi => do
      pyAssert (b.sum == hi - lo)
      .ok (some (.int (b.getD 0 0 + lo)))

/-- The output after one more feature. -/
def putCell (out : Dict Str Json) (n : Str) : Option Json → Dict Str Json
  | none => out
  | some j => Dict.set out n j

theorem exportCell_block (h : Describes S fs) (bs : List (List Int)) (hb : bs.map List.length = fs.map fun f => f.2.width) (v : Nat)
    (f : Str × Feature) (b : List Int) (hf : fs[v]? = some f) (hbv : bs[v]? = some b) (out : Dict Str Json) :
    exportCell S bs.flatten out (v, f.1) = (exportBlock f.2 b).map (putCell out f.1) := by
  have hlt := getElem?_lt hf
  have hm := List.mem_of_getElem? hf
  have hty := h.types f hm
  unfold exportCell exportBlock
  simp only [describes_get h v (by omega), describes_get h (v + 1) (by omega), bind, Except.bind, flatten_slice fs bs hb v b hbv]
  split
  · rfl
  · obtain ⟨n, F⟩ := f
    simp only [hty, Feature.type]
    cases F with
    | cat vs =>
      obtain ⟨-, hcv, -⟩ := h.cats n vs hm
      simp only [hcv]
      cases pyAssert (b.sum == 1) with
      | error e => rfl
      | ok _ =>
        simp only
        cases pyGet vs (argmax b) <;> rfl
    | ord lo hi =>
      obtain ⟨-, hrg⟩ := h.ords n lo hi hm
      simp only [hrg]
      cases pyAssert (b.sum == hi - lo) <;> rfl

/-- The whole row, block by block. -/
theorem exportRow_blocks (h : Describes S fs) (bs : List (List Int)) (hb : bs.map List.length = fs.map fun f => f.2.width) :
    ((List.range S.featureNames.length).zip S.featureNames).foldlM (exportCell S bs.flatten) [] =
      (fs.zip bs).foldlM (fun out fb => (exportBlock fb.1.2 fb.2).map (putCell out fb.1.1)) [] := by
  have hlen : bs.length = fs.length := by simpa using congrArg List.length hb
  rw [h.names, List.length_map]
  suffices key : ∀ (k : Nat) (fs' : List (Str × Feature)) (bs' : List (List Int)) (out : Dict Str Json),
      fs' = fs.drop k → bs' = bs.drop k → k ≤ fs.length →
      ((List.range' k (fs.length - k)).zip (fs'.map Prod.fst)).foldlM (exportCell S bs.flatten) out =
        (fs'.zip bs').foldlM (fun out fb => (exportBlock fb.1.2 fb.2).map (putCell out fb.1.1)) out by
    have := key 0 fs bs [] rfl rfl (Nat.zero_le _)
    rwa [Nat.sub_zero, ← List.range_eq_range'] at this
  intro k fs'
  induction fs' generalizing k with
  | nil =>
    intro bs' out _ _ _
    simp
  | cons f fs' ih =>
    intro bs' out h1 h2 hk
    have hkl : k < fs.length := by
      by_contra hge
      rw [List.drop_eq_nil_of_le (by omega)] at h1; simp at h1
    rw [← List.cons_getElem_drop_succ (h := hkl)] at h1
    rw [← List.cons_getElem_drop_succ (h := by omega)] at h2
    injection h1 with h1 h1'
    subst h2
    have hstep := exportCell_block h bs hb k f bs[k] (by rw [List.getElem?_eq_getElem hkl, h1]) (List.getElem?_eq_getElem (by omega)) out
    rw [show fs.length - k = (fs.length - (k + 1)) + 1 by omega, List.range'_succ, List.map_cons, List.zip_cons_cons, List.zip_cons_cons,
      List.foldlM_cons, List.foldlM_cons, hstep]
    cases hx : (exportBlock f.2 bs[k]).map (putCell out f.1) with
    | error e => rfl
    | ok out' => exact ih (k + 1) (bs.drop (k + 1)) out' h1' rfl hkl

/-- Collecting the values of features with distinct names. -/
theorem putCells (l : List ((Str × Feature) × List Int)) (hn : (l.map fun fb => fb.1.1).Nodup) (out : Dict Str Json)
    (hout : ∀ fb ∈ l, fb.1.1 ∉ Dict.keys out) (x : (Str × Feature) × List Int → Option Json) :
    ((∀ fb ∈ l, exportBlock fb.1.2 fb.2 = .ok (x fb)) →
      l.foldlM (fun out fb => (exportBlock fb.1.2 fb.2).map (putCell out fb.1.1)) out =
        .ok (out ++ l.filterMap fun fb => (x fb).map fun j => (fb.1.1, j))) := by
  intro hx
  induction l generalizing out with
  | nil => simp; rfl
  | cons fb l ih =>
    rw [List.map_cons, List.nodup_cons] at hn
    rw [List.foldlM_cons, hx fb (by simp), List.filterMap_cons]
    cases hxf : x fb with
    | none => exact ih hn.2 out (fun g hg => hout g (by simp [hg])) fun g hg => hx g (by simp [hg])
    | some j =>
      change List.foldlM _ (Dict.set out fb.1.1 j) l = _
      rw [Dict.keys_set_of_notMem (hout fb (by simp)), ih hn.2 _ ?_ fun g hg => hx g (by simp [hg]), List.append_assoc]
      · rfl
      · intro g hg hmem
        rw [Dict.keys, List.map_append, List.mem_append] at hmem
        rcases hmem with hmem | hmem
        · exact hout g (by simp [hg]) hmem
        · simp only [List.map_cons, List.map_nil, List.mem_singleton] at hmem
          exact hn.1 (List.mem_map.2 ⟨g, hg, hmem⟩)

/-- If the fold succeeds, so did every block. -/
theorem putCells_ok (l : List ((Str × Feature) × List Int)) (out res : Dict Str Json)
    (h : l.foldlM (fun out fb => (exportBlock fb.1.2 fb.2).map (putCell out fb.1.1)) out = .ok res) :
    ∀ fb ∈ l, ∃ x, exportBlock fb.1.2 fb.2 = .ok x := by
  induction l generalizing out with
  | nil => simp
  | cons fb l ih =>
    rw [List.foldlM_cons] at h
    cases hx : exportBlock fb.1.2 fb.2 with
    | error e => rw [hx] at h; simp [Except.map, bind, Except.bind] at h
    | ok x =>
      rw [hx] at h
      intro g hg
      rcases List.mem_cons.1 hg with rfl | hg
      · exact ⟨x, hx⟩
      · exact ih _ h g hg

/-- An ordinal feature whose range is a single value; its block is always zero. -/
def Hidden : Feature → Prop
  | .ord lo hi => lo = hi
  | .cat _ => False

theorem sum_onehot (vs : List Str) (hn : vs.Nodup) (s : Str) (hs : s ∈ vs) : (vs.map fun v => if v = s then (1 : Int) else 0).sum = 1 := by
  induction vs with
  | nil => simp at hs
  | cons v vs ih =>
    rw [List.nodup_cons] at hn
    rw [List.map_cons, List.sum_cons]
    by_cases e : v = s
    · subst e
      have h0 : (vs.map fun w => if w = v then (1 : Int) else 0).sum = 0 := by
        refine List.sum_eq_zero fun y hy => ?_
        obtain ⟨w, hw, rfl⟩ := List.mem_map.1 hy
        rw [if_neg]; rintro rfl; exact hn.1 hw
      rw [h0, if_pos rfl]; rfl
    · rw [if_neg e, ih hn.2 (by simpa [Ne.symm e] using hs)]; rfl

theorem findIdx_eq_of {l : List Int} {p : Int → Bool} {i : Nat} (h : i < l.length) (hp : p l[i]) (hq : ∀ (j : Nat) (hj : j < i), p (l[j]'(by omega)) = false) :
    l.findIdx p = i := by
  rw [List.findIdx_eq h]
  exact ⟨hp, fun j hj => hq j hj⟩

theorem argmax_onehot (vs : List Str) (hn : vs.Nodup) (i : Nat) (s : Str) (h : vs[i]? = some s) :
    argmax (vs.map fun v => if v = s then (1 : Int) else 0) = i := by
  have hi := getElem?_lt h
  rw [List.getElem?_eq_getElem hi] at h
  injection h with h
  unfold argmax
  refine findIdx_eq_of (by simpa using hi) ?_ fun j hj => ?_
  · rw [List.getElem_map, if_pos h, List.all_eq_true]
    intro y hy
    obtain ⟨w, -, rfl⟩ := List.mem_map.1 hy
    split <;> simp
  · have hne : vs[j]'(by omega) ≠ s := by
      intro e
      have := (hn.getElem_inj_iff (hi := by omega) (hj := hi)).1 (e.trans h.symm)
      omega
    rw [List.getElem_map, if_neg hne]
    rw [Bool.eq_false_iff]
    intro hall
    have := List.all_eq_true.1 hall 1 (List.mem_map.2 ⟨vs[i], List.getElem_mem hi, by rw [if_pos h]⟩)
    simp at this

/-- Exporting the block of a canonical value. -/
theorem exportBlock_canon (F : Feature) (hn : ∀ vs, F = .cat vs → vs.Nodup) (x : Option Json) (hx : ∀ j, x = some j → Canon F j) :
    (x = none ∨ Hidden F → exportBlock F (blockOf F x) = .ok none) ∧ (¬ Hidden F → exportBlock F (blockOf F x) = .ok x) := by
  have hnone : exportBlock F (blockOf F none) = .ok none := by
    unfold exportBlock
    rw [if_pos]
    cases F <;> simp [blockOf]
  cases x with
  | none => exact ⟨fun _ => hnone, fun _ => hnone⟩
  | some j =>
    have hc := hx j rfl
    cases F with
    | cat vs =>
      cases j with
      | str s =>
        refine ⟨fun h => absurd h (by simp [Hidden]), fun _ => ?_⟩
        obtain ⟨i, hi⟩ := List.mem_iff_getElem?.1 (show s ∈ vs from hc)
        have hb : blockOf (.cat vs) (some (.str s)) = vs.map fun v => if v = s then 1 else 0 := rfl
        unfold exportBlock
        have hsum := sum_onehot vs (hn vs rfl) s hc
        rw [hb, if_neg]
        · simp only [hsum, argmax_onehot vs (hn vs rfl) i s hi, pyAssert, beq_self_eq_true, if_true, bind, Except.bind, pyGet, hi]
        · intro hall
          have : (vs.map fun v => if v = s then (1 : Int) else 0).sum = 0 := by
            refine List.sum_eq_zero fun y hy => ?_
            simpa using List.all_eq_true.1 hall y hy
          omega
      | _ => exact absurd hc (by simp [Canon])
    | ord lo hi =>
      cases j with
      | int i =>
        obtain ⟨h1, h2⟩ : lo ≤ i ∧ i ≤ hi := hc
        have hb : blockOf (.ord lo hi) (some (.int i)) = [i - lo, hi - i] := rfl
        constructor
        · rintro (h | h)
          · simp at h
          · have h : lo = hi := h
            unfold exportBlock
            rw [hb, if_pos]
            simp only [List.all_cons, List.all_nil, Bool.and_true, Bool.and_eq_true, beq_iff_eq]
            omega
        · intro h
          have h : lo ≠ hi := h
          unfold exportBlock
          rw [hb, if_neg]
          · have e1 : ([i - lo, hi - i].sum == hi - lo) = true := by simp
            have e2 : [i - lo, hi - i].getD 0 0 + lo = i := by simp
            simp only [e1, e2, pyAssert, if_true, bind, Except.bind]
          · simp only [List.all_cons, List.all_nil, Bool.and_true, Bool.and_eq_true, beq_iff_eq]
            omega
      | _ => exact absurd hc (by simp [Canon])

theorem zip_nodup (h : (fs.map Prod.fst).Nodup) (bs : List (List Int)) (hlen : bs.length = fs.length) : ((fs.zip bs).map fun fb => fb.1.1).Nodup := by
  have : ((fs.zip bs).map fun fb => fb.1.1) = fs.map Prod.fst := by
    have : (fun fb : (Str × Feature) × List Int => fb.1.1) = Prod.fst ∘ Prod.fst := rfl
    rw [this, ← List.map_map, List.map_fst_zip (by omega)]
  rw [this]; exact h

/-- **C34**: exporting an internal row with canonical values gives exactly those values, except for ordinals with a single
possible value. -/
theorem exportRow_spec (h : Describes S fs) (x : Str × Feature → Option Json) (hx : ∀ f ∈ fs, ∀ j, x f = some j → Canon f.2 j) :
    ∃ vis : Str × Feature → Option Json, (∀ f ∈ fs, (¬ Hidden f.2 → vis f = x f) ∧ (Hidden f.2 → vis f = none)) ∧
      ((List.range S.featureNames.length).zip S.featureNames).foldlM (exportCell S (internalRow fs x)) [] =
        .ok (fs.filterMap fun f => (vis f).map fun j => (f.1, j)) := by
  classical
  refine ⟨fun f => if Hidden f.2 then none else x f, fun f _ => ⟨fun hh => if_neg hh, fun hh => if_pos hh⟩, ?_⟩
  have e : internalRow fs x = (fs.map fun f => blockOf f.2 (x f)).flatten := by unfold internalRow; rw [List.flatMap_def]
  have hb : (fs.map fun f => blockOf f.2 (x f)).map List.length = fs.map fun f => f.2.width := by
    rw [List.map_map]; exact List.map_congr_left fun f _ => blockOf_length _ _
  rw [e, exportRow_blocks h _ hb, putCells _ (zip_nodup h.nodup _ (by simp)) [] (by simp [Dict.keys])
    (fun fb => if Hidden fb.1.2 then none else x fb.1)]
  · congr 1
    rw [List.nil_append]
    have : fs.zip (fs.map fun f => blockOf f.2 (x f)) = fs.map fun f => (f, blockOf f.2 (x f)) := by
      clear * -
      induction fs with
      | nil => rfl
      | cons f fs ih => simp only [List.map_cons, List.zip_cons_cons, ih]
    rw [this, List.filterMap_map]
    rfl
  · intro fb hfb
    have : fs.zip (fs.map fun f => blockOf f.2 (x f)) = fs.map fun f => (f, blockOf f.2 (x f)) := by
      clear * -
      induction fs with
      | nil => rfl
      | cons f fs ih => simp only [List.map_cons, List.zip_cons_cons, ih]
    rw [this] at hfb
    obtain ⟨f, hf, rfl⟩ := List.mem_map.1 hfb
    obtain ⟨c1, c2⟩ := exportBlock_canon f.2 (fun vs hv => (h.cats f.1 vs (by rw [← hv]; exact hf)).1) (x f) (hx f hf)
    dsimp only
    split
    · rename_i hh; exact c1 (.inr hh)
    · rename_i hh; exact c2 hh

theorem readCell_canon (F : Feature) (j j' : Json) (h : readCell T F j = .ok (some j')) : Canon F j' := by
  cases F with
  | cat vs =>
    cases j with
    | str s =>
      simp only [readCell, Except.ok.injEq] at h
      split at h
      · rename_i hs; injection h with h; subst h; exact hs
      · simp at h
    | _ => simp [readCell] at h
  | ord lo hi =>
    simp only [readCell] at h
    cases hj : readInt T j with
    | error e => rw [hj] at h; simp [Except.map] at h
    | ok i? =>
      rw [hj] at h
      simp only [Except.map, Except.ok.injEq] at h
      cases i? with
      | none => simp at h
      | some i =>
        simp only [Option.bind_some] at h
        split at h
        · rename_i hs; injection h with h; subst h; exact hs
        · simp at h

theorem valueOf_canon (row : Dict Str Json) (f : Str × Feature) (j : Json) (h : valueOf T row f = some j) : Canon f.2 j := by
  unfold valueOf at h
  split at h
  · simp at h
  · split at h
    · rename_i hr; subst h; exact readCell_canon _ _ _ hr
    · simp at h

/-- A canonical value reads as itself. -/
theorem readCell_self (F : Feature) (j : Json) (h : Canon F j) : readCell T F j = .ok (some j) := by
  cases F with
  | cat vs =>
    cases j with
    | str s => simp only [readCell, if_pos (show s ∈ vs from h)]
    | _ => exact absurd h (by simp [Canon])
  | ord lo hi =>
    cases j with
    | int i => simp only [readCell, readInt, Except.map, Option.bind_some, if_pos (show lo ≤ i ∧ i ≤ hi from h)]
    | _ => exact absurd h (by simp [Canon])

/-- **C34**, first half, for schemas without ordinals that have a single possible value: exporting the import of any rows
gives exactly the valid cells in canonical form, in the order of the schema. Missing: with such an ordinal the
statement is false (`exportRows_importRows_lost`). -/
theorem exportRows_importRows_partial (h : Describes S fs) (hfit : Fits fs) (hvis : ∀ f ∈ fs, ¬ Hidden f.2) (rows : List (Dict Str Json))
    (hk : ∀ row ∈ rows, (Dict.keys row).Nodup) (hr : ∀ row ∈ rows, Readable T fs row) :
    ∃ data, importRows T S (.list rows) = .ok data ∧
      exportRows S (startOf fs fs.length) data = .ok (rows.map fun row => fs.filterMap fun f => (valueOf T row f).map fun j => (f.1, j)) := by
  refine ⟨_, (importRows_spec h hfit rows hk).1 hr, ?_⟩
  unfold exportRows
  rw [describes_last h]
  simp only [pyAssert, beq_self_eq_true, if_true, bind, Except.bind]
  clear hk hr
  induction rows with
  | nil => rfl
  | cons row rows ih =>
    obtain ⟨vis, hv, e⟩ := exportRow_spec h (valueOf T row) fun f _ j hj => valueOf_canon row f j hj
    rw [List.map_cons, List.map_cons, List.mapM_cons, ih, e]
    simp only [bind, Except.bind, pure, Except.pure, Except.ok.injEq, List.cons.injEq, and_true]
    refine List.filterMap_congr fun f hf => ?_
    rw [(hv f hf).1 (hvis f hf)]

/-- The first half of **C34** is false for an ordinal with a single possible value: the cell is lost. -/
theorem exportRows_importRows_lost : ∃ (S : Schema) (fs : List (Str × Feature)) (row : Dict Str Json) (data : List (List Int)),
    Describes S fs ∧ Fits fs ∧ valueOf asciiText row ("a".toList, .ord 3 3) = some (.int 3) ∧ ("a".toList, Feature.ord 3 3) ∈ fs ∧
    importRows asciiText S (.list [row]) = .ok data ∧ exportRows S 2 data = .ok [[]] := by
  refine ⟨⟨["a".toList], [("a".toList, 0)], [("a".toList, .ordinal)], [], [], [("a".toList, (3, 3))], [0, 2], []⟩, [("a".toList, .ord 3 3)],
    [("a".toList, .int 3)], [[0, 0]], ?_, ?_, by decide +kernel, by simp, by decide +kernel, by decide +kernel⟩
  · refine ⟨rfl, by decide, ?_, by decide, ?_, rfl, ?_, ?_, rfl, ?_⟩
    · intro n v
      simp only [Dict.get?, List.map_cons, List.map_nil]
      split
      · rename_i hn; subst hn
        cases v with
        | zero => simp
        | succ v => simp
      · rename_i hn
        cases v with
        | zero => simpa using hn
        | succ v => simp
    · intro n hn
      simp only [Dict.get?]
      rw [if_neg]; rintro rfl; simp at hn
    · intro n vs hm; simp at hm
    · intro n lo hi hm
      simp only [List.mem_singleton, Prod.mk.injEq, Feature.ord.injEq] at hm
      obtain ⟨rfl, rfl, rfl⟩ := hm
      exact ⟨le_refl _, rfl⟩
    · intro v hv
      match v, hv with
      | 0, _ => rfl
      | 1, _ => rfl
  · intro n lo hi hm
    simp only [List.mem_singleton, Prod.mk.injEq, Feature.ord.injEq] at hm
    obtain ⟨-, rfl, rfl⟩ := hm
    decide

/-! ### Importing an export -/

theorem nonneg_sum_zero (b : List Int) (hb : ∀ x ∈ b, 0 ≤ x) (h : b.sum = 0) : b = List.replicate b.length 0 := by
  induction b with
  | nil => rfl
  | cons a b ih =>
    rw [List.sum_cons] at h
    have h1 := hb a (by simp)
    have h2 : 0 ≤ b.sum := List.sum_nonneg fun x hx => hb x (by simp [hx])
    have ha : a = 0 := by omega
    rw [List.length_cons, List.replicate_succ, ← ih (fun x hx => hb x (by simp [hx])) (by omega), ha]

/-- A nonnegative list with sum one is a unit vector. -/
theorem nonneg_sum_one (b : List Int) (hb : ∀ x ∈ b, 0 ≤ x) (h : b.sum = 1) :
    ∃ i, i < b.length ∧ b = (List.replicate b.length 0).set i 1 := by
  induction b with
  | nil => simp at h
  | cons a b ih =>
    rw [List.sum_cons] at h
    have h1 := hb a (by simp)
    have h2 : 0 ≤ b.sum := List.sum_nonneg fun x hx => hb x (by simp [hx])
    rcases (show a = 0 ∨ a = 1 by omega) with rfl | rfl
    · obtain ⟨i, hi, e⟩ := ih (fun x hx => hb x (by simp [hx])) (by omega)
      refine ⟨i + 1, by simpa using hi, ?_⟩
      rw [List.length_cons, List.replicate_succ, List.set_cons_succ, ← e]
    · refine ⟨0, by simp, ?_⟩
      rw [List.length_cons, List.replicate_succ, List.set_cons_zero, ← nonneg_sum_zero b (fun x hx => hb x (by simp [hx])) (by omega)]

theorem exportBlock_ok (F : Feature) (hn : ∀ vs, F = .cat vs → vs.Nodup) (b : List Int) (hlen : b.length = F.width) (hb : ∀ x ∈ b, 0 ≤ x)
    (x : Option Json) (h : exportBlock F b = .ok x) : b = blockOf F x ∧ ∀ j, x = some j → Canon F j := by
  unfold exportBlock at h
  split at h
  · rename_i hall
    injection h with h
    subst h
    refine ⟨?_, by simp⟩
    have h0 : b = List.replicate b.length 0 := List.eq_replicate_of_mem fun y hy => by simpa using List.all_eq_true.1 hall y hy
    rw [h0, hlen]
    cases F <;> rfl
  · cases F with
    | cat vs =>
      dsimp only at h
      cases hs : (b.sum == 1) with
      | false => simp [hs, pyAssert, bind, Except.bind] at h
      | true =>
        obtain ⟨i, hi, e⟩ := nonneg_sum_one b hb (by simpa using hs)
        have hlen : b.length = vs.length := hlen
        have hs' : (vs[i]'(by omega)) ∈ vs := List.getElem_mem _
        have hb1 : b = vs.map fun v => if v = vs[i]'(by omega) then (1 : Int) else 0 := by
          refine e.trans ?_
          refine List.ext_getElem (by simp [hlen]) fun k h1 h2 => ?_
          rw [List.getElem_map, List.getElem_set]
          by_cases hk : i = k
          · subst hk; simp
          · rw [if_neg hk, List.getElem_replicate, if_neg]
            intro e'
            exact hk ((hn vs rfl).getElem_inj_iff.1 e').symm
        have ham : argmax b = i := by
          rw [hb1]
          exact argmax_onehot vs (hn vs rfl) i _ (List.getElem?_eq_getElem _)
        simp only [hs, pyAssert, if_true, bind, Except.bind, ham, pyGet, List.getElem?_eq_getElem (show i < vs.length by omega), Except.ok.injEq] at h
        subst h
        refine ⟨hb1, ?_⟩
        intro j hj
        injection hj with hj
        subst hj
        exact hs'
    | ord lo hi =>
      dsimp only at h
      match b, hlen with
      | [p, q], _ =>
        cases hs : ([p, q].sum == hi - lo) with
        | false =>
          simp only [hs, pyAssert, bind, Except.bind, Bool.false_eq_true, if_false] at h
          simp at h
        | true =>
          simp only [hs, pyAssert, if_true, bind, Except.bind, Except.ok.injEq] at h
          subst h
          have hsum : p + q = hi - lo := by simpa using hs
          have hp := hb p (by simp)
          have hq := hb q (by simp)
          refine ⟨?_, ?_⟩
          · change [p, q] = [p + lo - lo, hi - (p + lo)]
            rw [show p + lo - lo = p by omega, show hi - (p + lo) = q by omega]
          · intro j hj
            injection hj with hj
            subst hj
            change lo ≤ p + lo ∧ p + lo ≤ hi
            omega

theorem get?_filterMap (hn : (fs.map Prod.fst).Nodup) (x : Str × Feature → Option Json) (f : Str × Feature) (hf : f ∈ fs) :
    Dict.get? (fs.filterMap fun g => (x g).map fun j => (g.1, j)) f.1 = x f := by
  induction fs with
  | nil => simp at hf
  | cons g fs ih =>
    rw [List.map_cons, List.nodup_cons] at hn
    rw [List.filterMap_cons]
    have hnot : ∀ fs' : List (Str × Feature), f.1 ∉ fs'.map Prod.fst → Dict.get? (fs'.filterMap fun g => (x g).map fun j => (g.1, j)) f.1 = none := by
      intro fs' hfs'
      rw [Dict.get?_eq_none]
      intro hk
      obtain ⟨nj, hnj, e⟩ := List.mem_map.1 hk
      obtain ⟨g', hg', e'⟩ := List.mem_filterMap.1 hnj
      obtain ⟨j, -, rfl⟩ := Option.map_eq_some_iff.1 e'
      exact hfs' (List.mem_map.2 ⟨g', hg', e⟩)
    rcases List.mem_cons.1 hf with rfl | hf
    · cases hx : x f with
      | none => exact hnot fs hn.1
      | some j => simp only [Option.map_some, Dict.get?, if_true]
    · have hne : g.1 ≠ f.1 := fun e => hn.1 (List.mem_map.2 ⟨f, hf, e.symm⟩)
      cases hx : x g with
      | none => exact ih hn.2 hf
      | some j =>
        simp only [Option.map_some, Dict.get?, if_neg hne]
        exact ih hn.2 hf

theorem keys_filterMap (hn : (fs.map Prod.fst).Nodup) (x : Str × Feature → Option Json) :
    (Dict.keys (fs.filterMap fun g => (x g).map fun j => (g.1, j))).Nodup := by
  have e : Dict.keys (fs.filterMap fun g => (x g).map fun j => (g.1, j)) = (fs.filter fun g => (x g).isSome).map Prod.fst := by
    unfold Dict.keys
    clear hn
    induction fs with
    | nil => rfl
    | cons g fs ih =>
      rw [List.filterMap_cons, List.filter_cons]
      cases hx : x g with
      | none => simpa using ih
      | some j => simpa using ih
  rw [e]
  exact hn.sublist (List.filter_sublist.map _)

/-- Every nonnegative row on which export succeeds is the internal row of what was exported. -/
theorem exportRow_ok (h : Describes S fs) (row : List Int) (hlen : row.length = startOf fs fs.length) (hpos : ∀ x ∈ row, 0 ≤ x) (out : Dict Str Json)
    (ho : ((List.range S.featureNames.length).zip S.featureNames).foldlM (exportCell S row) [] = .ok out) :
    ∃ x : Str × Feature → Option Json, (∀ f ∈ fs, ∀ j, x f = some j → Canon f.2 j) ∧ row = internalRow fs x ∧
      out = fs.filterMap fun f => (x f).map fun j => (f.1, j) := by
  obtain ⟨bs, rfl, hb⟩ := exists_blocks fs row hlen
  rw [exportRow_blocks h bs hb] at ho
  have hl : bs.length = fs.length := by simpa using congrArg List.length hb
  have hok := putCells_ok _ _ _ ho
  choose! y hy using hok
  rw [putCells _ (zip_nodup h.nodup bs hl) [] (by simp [Dict.keys]) y hy, List.nil_append] at ho
  injection ho with ho
  have hblock : ∀ fb ∈ fs.zip bs, fb.2 = blockOf fb.1.2 (y fb) ∧ ∀ j, y fb = some j → Canon fb.1.2 j := by
    intro fb hfb
    obtain ⟨k, hk⟩ := List.mem_iff_getElem?.1 hfb
    rw [List.getElem?_zip_eq_some] at hk
    have hwid : fb.2.length = fb.1.2.width := by
      have := congrArg (·[k]?) hb
      simpa [hk.1, hk.2] using this
    refine exportBlock_ok fb.1.2 ?_ fb.2 hwid ?_ _ (hy fb hfb)
    · intro vs hv
      exact (h.cats fb.1.1 vs (by rw [← hv]; exact List.mem_of_getElem? hk.1)).1
    · exact fun z hz => hpos z (List.mem_flatten.2 ⟨fb.2, List.mem_of_getElem? hk.2, hz⟩)
  -- the value of a feature, found by its position
  have key : ∀ (fs : List (Str × Feature)) (bs : List (List Int)), (fs.map Prod.fst).Nodup → bs.length = fs.length →
      ∃ x : Str × Feature → Option Json, ∀ fb ∈ fs.zip bs, x fb.1 = y fb := by
    intro fs
    induction fs with
    | nil => exact fun bs _ _ => ⟨fun _ => none, by simp⟩
    | cons f fs ih =>
      intro bs hnd hl
      cases bs with
      | nil => simp at hl
      | cons b bs =>
        rw [List.map_cons, List.nodup_cons] at hnd
        obtain ⟨x, hx⟩ := ih bs hnd.2 (by simpa using hl)
        classical
        refine ⟨fun g => if g = f then y (f, b) else x g, ?_⟩
        intro fb hfb
        rw [List.zip_cons_cons] at hfb
        rcases List.mem_cons.1 hfb with rfl | hfb
        · simp
        · have hmem : fb.1 ∈ fs := (List.of_mem_zip hfb).1
          dsimp only
          rw [if_neg, hx fb hfb]
          rintro rfl
          exact hnd.1 (List.mem_map.2 ⟨_, hmem, rfl⟩)
  obtain ⟨x, hx⟩ := key fs bs h.nodup hl
  have hz : fs = (fs.zip bs).map Prod.fst := (List.map_fst_zip (by omega)).symm
  have hz2 : bs = (fs.zip bs).map Prod.snd := (List.map_snd_zip (by omega)).symm
  refine ⟨x, ?_, ?_, ?_⟩
  · intro f hf j hj
    rw [hz] at hf
    obtain ⟨fb, hfb, rfl⟩ := List.mem_map.1 hf
    exact (hblock fb hfb).2 j (by rw [← hx fb hfb]; exact hj)
  · unfold internalRow
    rw [List.flatMap_def]
    congr 1
    conv_rhs => rw [hz, List.map_map]
    conv_lhs => rw [hz2]
    refine List.map_congr_left fun fb hfb => ?_
    rw [(hblock fb hfb).1, Function.comp_apply, hx fb hfb]
  · rw [← ho]
    conv_rhs => rw [hz, List.filterMap_map]
    refine List.filterMap_congr fun fb hfb => ?_
    rw [Function.comp_apply, hx fb hfb]

/-- **C34**, second half: importing the export of an array gives back the array. -/
theorem importRows_exportRows (h : Describes S fs) (hfit : Fits fs) (data : List (List Int))
    (hd : ∀ row ∈ data, row.length = startOf fs fs.length ∧ ∀ x ∈ row, 0 ≤ x) (rows : List (Dict Str Json))
    (ho : exportRows S (startOf fs fs.length) data = .ok rows) : importRows T S (.list rows) = .ok data := by
  unfold exportRows at ho
  rw [describes_last h] at ho
  simp only [pyAssert, beq_self_eq_true, if_true, bind, Except.bind] at ho
  have hall : (∀ row ∈ rows, (Dict.keys row).Nodup) ∧ (∀ row ∈ rows, Readable T fs row) ∧
      (rows.map fun row => internalRow fs (valueOf T row)) = data := by
    induction data generalizing rows with
    | nil =>
      injection ho with ho
      subst ho
      simp
    | cons row data ih =>
      rw [List.mapM_cons] at ho
      cases h1 : ((List.range S.featureNames.length).zip S.featureNames).foldlM (exportCell S row) [] with
      | error e => rw [h1] at ho; simp [bind, Except.bind] at ho
      | ok out =>
        rw [h1] at ho
        simp only [bind, Except.bind] at ho
        cases h2 : data.mapM fun row => ((List.range S.featureNames.length).zip S.featureNames).foldlM (exportCell S row) [] with
        | error e => rw [h2] at ho; simp at ho
        | ok outs =>
          rw [h2] at ho
          simp only [pure, Except.pure, Except.ok.injEq] at ho
          subst ho
          obtain ⟨i1, i2, i3⟩ := ih (fun r hr => hd r (by simp [hr])) outs h2
          obtain ⟨x, hc, e1, e2⟩ := exportRow_ok h row (hd row (by simp)).1 (hd row (by simp)).2 out h1
          refine ⟨?_, ?_, ?_⟩
          · intro r hr
            rcases List.mem_cons.1 hr with rfl | hr
            · rw [e2]; exact keys_filterMap h.nodup x
            · exact i1 r hr
          · intro r hr
            rcases List.mem_cons.1 hr with rfl | hr
            · intro nj hnj F hF
              rw [e2] at hnj
              obtain ⟨g, hg, e⟩ := List.mem_filterMap.1 hnj
              obtain ⟨j, hj, rfl⟩ := Option.map_eq_some_iff.1 e
              have : (g.1, F) = g := feature_unique h.nodup hF hg rfl
              have hc' := hc g hg j hj
              rw [← this] at hc'
              exact ⟨_, readCell_self F j hc'⟩
            · exact i2 r hr
          · rw [List.map_cons, i3, e1]
            congr 1
            refine internalRow_congr fun f hf => ?_
            unfold valueOf
            rw [e2, get?_filterMap h.nodup x f hf]
            cases hx : x f with
            | none => rfl
            | some j => simp only [readCell_self f.2 j (hc f hf j hx)]
  obtain ⟨a1, a2, a3⟩ := hall
  rw [(importRows_spec h hfit rows a1).1 a2, a3]

/-- A dict in place of the list of rows is refused (this is what `DataServer` hits). -/
theorem importRows_dict (rows : Dict Str Json) : importRows T S (.dict rows) = .error .assertion := rfl

/-! ### Examples -/

/-- The schema of the test data. -/
def tinySchema : Schema := (loadSchema asciiText tinyTypes tinyValues none).toOption.getD ⟨[], [], [], [], [], [], [], []⟩

def tinyFeatures : List (Str × Feature) := [("decade".toList, .cat (["1950s", "2010s", "1970s"].map String.toList)),
  ("genre".toList, .cat (["drama", "family", "fantasy"].map String.toList)), ("rating".toList, .ord 3 5)]

/-- The hypotheses of the theorems above hold for the test data. -/
theorem tinySchema_describes : Describes tinySchema tinyFeatures ∧ Fits tinyFeatures ∧ ∀ f ∈ tinyFeatures, ¬ Hidden f.2 := by
  refine ⟨?_, ?_, ?_⟩
  · have h := (loadSchema_describes (T := asciiText) tinyTypes tinyValues none tinySchema (by decide +kernel)
      (fun n hn => (show ∀ nt ∈ typedRows tinyTypes, nt.2 = .categorical → (valuesOf tinyValues nt.1).Nodup by decide +kernel) _ hn rfl)
      (by decide +kernel)).1
    have e : featuresOf asciiText tinyTypes tinyValues = tinyFeatures := by decide +kernel
    rwa [e] at h
  · intro n lo hi hm
    simp only [tinyFeatures, List.mem_cons, Prod.mk.injEq, reduceCtorEq, and_false, Feature.ord.injEq, List.not_mem_nil, or_false, false_or] at hm
    omega
  · intro f hf
    simp only [tinyFeatures, List.mem_cons, List.not_mem_nil, or_false] at hf
    rcases hf with rfl | rfl | rfl <;> simp [Hidden]

/-- Unknown names and values are dropped, and `"4"` becomes `4`. -/
example : importRows asciiText tinySchema (.list [
      [("genre".toList, .str "drama".toList), ("unknown".toList, .container), ("rating".toList, .str "4".toList)],
      [("decade".toList, .str "1960s".toList), ("rating".toList, .float 6)]]) =
      .ok [[0, 0, 0, 1, 0, 0, 1, 1], [0, 0, 0, 0, 0, 0, 0, 0]] ∧
    exportRows tinySchema 8 [[0, 0, 0, 1, 0, 0, 1, 1], [0, 0, 0, 0, 0, 0, 0, 0]] =
      .ok [[("genre".toList, .str "drama".toList), ("rating".toList, .int 4)], []] := by
  refine ⟨?_, ?_⟩ <;> decide +kernel

/-- A null in an ordinal column raises, as does an unhashable value in a categorical one. -/
example : importRows asciiText tinySchema (.list [[("rating".toList, .null)]]) = .error .typeError ∧
    importRows asciiText tinySchema (.list [[("genre".toList, .container)]]) = .error .typeError := by
  refine ⟨?_, ?_⟩ <;> decide +kernel

end TreeCat
