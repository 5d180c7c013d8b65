import Verif.Model.Validate
import Verif.Props.Ragged

/-! # C43: the folds of cross-validation -/

namespace TreeCat

open Util
open Config (Config)

namespace Spec

/-- What is assumed of `np.random.randint(P, size=(N, V))`: its shape and its range. -/
def Randint (draw : Nat → Nat → Nat → List (List Nat)) : Prop :=
  ∀ P N V, 0 < P → (draw P N V).length = N ∧ ∀ row ∈ draw P N V, row.length = V ∧ ∀ x ∈ row, x < P

/-- The entry of an array at a row and a column. -/
def at2 {α : Type} (d : α) (a : List (List α)) (i p : Nat) : α := (a.getD i []).getD p d

/-- The array has the given shape. -/
def Shape {α : Type} (N R : Nat) (a : List (List α)) : Prop := a.length = N ∧ ∀ row ∈ a, row.length = R

/-- The fold of the cell of row `i` and feature `v`. -/
def foldOf (draw : Nat → Nat → Nat → List (List Nat)) (P N V i v : Nat) : Nat := at2 0 (draw P N V) i v

end Spec

open Spec

theorem at2_eq {α : Type} (d : α) (a : List (List α)) (i p : Nat) (hi : i < a.length) (hp : p < a[i].length) : at2 d a i p = a[i][p] := by
  unfold at2
  rw [show a.getD i [] = a[i] by simp [List.getD_eq_getElem?_getD, hi]]
  simp [List.getD_eq_getElem?_getD, hp]

theorem at2_map {α β : Type} (d : α) (e : β) (f : α → β) (a : List (List α)) {N R : Nat} (h : Shape N R a) (i p : Nat) (hi : i < N) (hp : p < R) :
    at2 e (a.map fun row => row.map f) i p = f (at2 d a i p) := by
  obtain ⟨rfl, h2⟩ := h
  have := h2 a[i] (List.getElem_mem hi)
  rw [at2_eq d a i p hi (by omega), at2_eq e _ i p (by simpa using hi) (by simpa using by omega)]
  simp

theorem shape_map {α β : Type} (f : α → β) {a : List (List α)} {N R : Nat} (h : Shape N R a) : Shape N R (a.map fun row => row.map f) := by
  refine ⟨by simp [h.1], fun row hrow => ?_⟩
  obtain ⟨r, hr, rfl⟩ := List.mem_map.1 hrow
  rw [List.length_map, h.2 r hr]

theorem shape_transposed {α : Type} (d : α) {a : List (List α)} {N : Nat} (h : a.length = N) (cols : Nat) : Shape cols N (transposed d cols a) := by
  refine ⟨by simp [transposed], fun row hrow => ?_⟩
  obtain ⟨j, -, rfl⟩ := List.mem_map.1 hrow
  simp [h]

theorem at2_transposed {α : Type} (d : α) (a : List (List α)) (cols j i : Nat) (hj : j < cols) :
    at2 d (transposed d cols a) j i = at2 d a i j := by
  unfold at2 transposed
  rw [show ((List.range cols).map fun j => a.map fun row => row.getD j d).getD j [] = a.map fun row => row.getD j d by
    simp [List.getD_eq_getElem?_getD, hj]]
  rw [List.getD_eq_getElem?_getD, List.getElem?_map, List.getD_eq_getElem?_getD (l := a)]
  cases a[i]? <;> simp

theorem shape_zipWith {α β γ : Type} (f : α → β → γ) {a : List (List α)} {b : List (List β)} {N R : Nat} (ha : Shape N R a) (hb : Shape N R b) :
    Shape N R (List.zipWith (List.zipWith f) a b) := by
  refine ⟨by simp [ha.1, hb.1], fun row hrow => ?_⟩
  rw [← List.map_uncurry_zip_eq_zipWith] at hrow
  obtain ⟨rs, hrs, rfl⟩ := List.mem_map.1 hrow
  obtain ⟨h1, h2⟩ := List.of_mem_zip hrs
  simp [Function.uncurry, ha.2 _ h1, hb.2 _ h2]

theorem at2_zipWith {α β γ : Type} (d : α) (e : β) (g : γ) (f : α → β → γ) {a : List (List α)} {b : List (List β)} {N R : Nat} (ha : Shape N R a)
    (hb : Shape N R b) (i p : Nat) (hi : i < N) (hp : p < R) :
    at2 g (List.zipWith (List.zipWith f) a b) i p = f (at2 d a i p) (at2 e b i p) := by
  obtain ⟨ha1, ha2⟩ := ha
  obtain ⟨hb1, hb2⟩ := hb
  have h1 : i < a.length := by omega
  have h2 : i < b.length := by omega
  have h3 := ha2 a[i] (List.getElem_mem h1)
  have h4 := hb2 b[i] (List.getElem_mem h2)
  unfold at2
  simp only [List.getD_eq_getElem?_getD, List.getElem?_zipWith, List.getElem?_eq_getElem h1, List.getElem?_eq_getElem h2, Option.getD_some,
    List.getElem?_eq_getElem (show p < a[i].length by omega), List.getElem?_eq_getElem (show p < b[i].length by omega)]

/-- Two arrays of the same shape with the same entries. -/
theorem shape_ext {α : Type} (d : α) {a b : List (List α)} {N R : Nat} (ha : Shape N R a) (hb : Shape N R b)
    (h : ∀ i < N, ∀ p < R, at2 d a i p = at2 d b i p) : a = b := by
  obtain ⟨ha1, ha2⟩ := ha
  obtain ⟨hb1, hb2⟩ := hb
  refine List.ext_getElem (by omega) fun i h1 h2 => ?_
  have h3 := ha2 a[i] (List.getElem_mem h1)
  have h4 := hb2 b[i] (List.getElem_mem h2)
  refine List.ext_getElem (by omega) fun p h5 h6 => ?_
  have := h i (by omega) p (by omega)
  unfold at2 at this
  simpa only [List.getD_eq_getElem?_getD, List.getElem?_eq_getElem h1, List.getElem?_eq_getElem h2, Option.getD_some,
    List.getElem?_eq_getElem h5, List.getElem?_eq_getElem h6] using this

theorem inBlock_lt (ws : List Nat) {v p : Nat} (h : InBlock ws v p) : p < ws.sum := by
  have := blockStart_mono ws (show v + 1 ≤ ws.length from h.1)
  rw [show blockStart ws ws.length = ws.sum by simp [blockStart]] at this
  have := h.2.2
  omega

/-- A mask of cells becomes a mask of positions. -/
theorem raggedMask_spec (junk : Nat → List Bool) (ws : List Nat) (N : Nat) (dense : List (List Bool)) :
    ∃ b, makeRaggedMask junk (makeRaggedIndex ws) (transposed false ws.length dense) = .ok b ∧ Shape N ws.sum (transposed false N b) ∧
      ∀ i < N, ∀ v p, InBlock ws v p → at2 false (transposed false N b) i p = at2 false dense i v := by
  obtain ⟨b, e, hl, hb⟩ := makeRaggedMask_spec junk ws (transposed false ws.length dense) (by simp [transposed])
  refine ⟨b, e, shape_transposed false hl N, fun i hi v p hp => ?_⟩
  rw [at2_transposed false b N i p hi, ← at2_transposed false dense ws.length v i hp.1]
  unfold at2
  rw [List.getD_eq_getElem?_getD (l := b), hb v p hp, ← List.getD_eq_getElem?_getD]

variable {draw : Nat → Nat → Nat → List (List Nat)}

theorem randint_shape (h : Randint draw) (P N V : Nat) (hP : 0 < P) : Shape N V (draw P N V) ∧
    ∀ i < N, ∀ v < V, foldOf draw P N V i v < P := by
  obtain ⟨h1, h2⟩ := h P N V hP
  refine ⟨⟨h1, fun row hrow => (h2 row hrow).1⟩, fun i hi v hv => ?_⟩
  have hi' : i < (draw P N V).length := by omega
  obtain ⟨h3, h4⟩ := h2 _ (List.getElem_mem hi')
  unfold foldOf
  rw [at2_eq 0 _ i v hi' (by omega)]
  exact h4 _ (List.getElem_mem _)

/-- **C43**: for a fold in range, `split_data` returns an `[N, R]`-shaped mask that is true exactly at the positions whose cell was drawn for
the fold. For any other fold it raises. -/
theorem splitData_spec (h : Randint draw) (junk : Nat → List Bool) (ws : List Nat) (N : Nat) (parts partid : Int) :
    (0 ≤ partid ∧ partid < parts → ∃ mask, splitData draw junk (makeRaggedIndex ws) N parts partid = .ok mask ∧ Shape N ws.sum mask ∧
      ∀ i < N, ∀ v p, InBlock ws v p → at2 false mask i p = decide ((foldOf draw parts.toNat N ws.length i v : Int) = partid)) ∧
    (¬ (0 ≤ partid ∧ partid < parts) → splitData draw junk (makeRaggedIndex ws) N parts partid = .error .assertion) := by
  constructor
  · rintro ⟨h1, h2⟩
    obtain ⟨hs, -⟩ := randint_shape h parts.toNat N ws.length (by omega)
    obtain ⟨b, e, hb, hm⟩ := raggedMask_spec junk ws N ((draw parts.toNat N ws.length).map fun row => row.map fun (x : Nat) => decide (partid = (x : Int)))
    refine ⟨_, ?_, hb, fun i hi v p hp => ?_⟩
    · unfold splitData
      have hlen : (makeRaggedIndex ws).length - 1 = ws.length := by rw [(makeRaggedIndex_spec ws).1]; omega
      simp only [h1, h2, decide_true, Bool.and_self, pyAssert, if_true, bind, Except.bind, hlen, e]
    · rw [hm i hi v p hp, at2_map 0 false _ _ hs i v hi hp.1]
      exact decide_eq_decide.2 eq_comm
  · intro hn
    unfold splitData
    have : (decide (0 ≤ partid) && decide (partid < parts)) = false := by
      rw [Bool.eq_false_iff]
      simpa using hn
    simp only [this, pyAssert, bind, Except.bind]
    rfl

/-- **C43**: the folds partition the positions: every position is held out in exactly one fold, together with the other
positions of its cell. -/
theorem splitData_partition (h : Randint draw) (junk : Nat → Nat → List Bool) (ws : List Nat) (N : Nat) (parts : Nat) (hp : 0 < parts) :
    ∃ masks : List (List (List Bool)), masks.length = parts ∧
      (∀ (k : Nat) mask, masks[k]? = some mask → splitData draw (junk k) (makeRaggedIndex ws) N parts k = .ok mask ∧ Shape N ws.sum mask) ∧
      (∀ i < N, ∀ p < ws.sum, ∃! k : Nat, ∃ mask, masks[k]? = some mask ∧ at2 false mask i p = true) ∧
      ∀ mask ∈ masks, ∀ i < N, ∀ v p q, InBlock ws v p → InBlock ws v q → at2 false mask i p = at2 false mask i q := by
  choose! f hf using fun (k : Nat) (hk : k < parts) => (splitData_spec h (junk k) ws N parts k).1 ⟨by omega, by omega⟩
  have hget : ∀ (k : Nat) mask, ((List.range parts).map f)[k]? = some mask → k < parts ∧ mask = f k := by
    intro k mask e
    rw [List.getElem?_map, Option.map_eq_some_iff] at e
    obtain ⟨j, hj, rfl⟩ := e
    obtain ⟨hk, rfl⟩ := List.getElem?_eq_some_iff.1 hj
    simp at hk
    simpa using hk
  refine ⟨(List.range parts).map f, by simp, ?_, ?_, ?_⟩
  · intro k mask e
    obtain ⟨hk, rfl⟩ := hget k mask e
    exact ⟨(hf k hk).1, (hf k hk).2.1⟩
  · intro i hi p hp'
    obtain ⟨v, hv⟩ := inBlock_exists ws p hp'
    have hlt := (randint_shape h parts N ws.length hp).2 i hi v hv.1
    refine ⟨foldOf draw parts N ws.length i v, ⟨f (foldOf draw parts N ws.length i v), by simp [hlt], ?_⟩, ?_⟩
    · rw [(hf _ hlt).2.2 i hi v p hv]
      simp
    · rintro k ⟨mask, e, hm⟩
      obtain ⟨hk, rfl⟩ := hget k mask e
      rw [(hf k hk).2.2 i hi v p hv] at hm
      simp at hm
      omega
  · intro mask hmask i hi v p q hpv hqv
    obtain ⟨k, hk, rfl⟩ := List.mem_map.1 hmask
    rw [(hf k (List.mem_range.1 hk)).2.2 i hi v p hpv, (hf k (List.mem_range.1 hk)).2.2 i hi v q hqv]

theorem shape_not {mask : List (List Bool)} {N R : Nat} (h : Shape N R mask) : Shape N R (maskNot mask) := shape_map _ h

theorem at2_not {mask : List (List Bool)} {N R : Nat} (h : Shape N R mask) (i p : Nat) (hi : i < N) (hp : p < R) :
    at2 false (maskNot mask) i p = !at2 false mask i p := at2_map false false _ mask h i p hi hp

theorem shape_zero {mask : List (List Bool)} {data : List (List Int)} {N R : Nat} (h : Shape N R mask) (h' : Shape N R data) :
    Shape N R (zeroWhere mask data) := shape_zipWith _ h h'

theorem at2_zero {mask : List (List Bool)} {data : List (List Int)} {N R : Nat} (h : Shape N R mask) (h' : Shape N R data) (i p : Nat) (hi : i < N) (hp : p < R) :
    at2 0 (zeroWhere mask data) i p = if at2 false mask i p then 0 else at2 0 data i p := at2_zipWith false 0 0 _ h h' i p hi hp

/-- **C43**: training and validation data have the shape of the data, add up to it, and never share a cell. -/
theorem training_validation {mask : List (List Bool)} {data : List (List Int)} {N R : Nat} (h : Shape N R mask) (h' : Shape N R data) :
    Shape N R (zeroWhere mask data) ∧ Shape N R (zeroWhere (maskNot mask) data) ∧ ∀ i < N, ∀ p < R,
      at2 0 (zeroWhere mask data) i p + at2 0 (zeroWhere (maskNot mask) data) i p = at2 0 data i p ∧
      (at2 false mask i p = true → at2 0 (zeroWhere mask data) i p = 0) ∧
      (at2 false mask i p = false → at2 0 (zeroWhere (maskNot mask) data) i p = 0) := by
  refine ⟨shape_zero h h', shape_zero (shape_not h) h', fun i hi p hp => ?_⟩
  rw [at2_zero h h' i p hi hp, at2_zero (shape_not h) h' i p hi hp, at2_not h i p hi hp]
  cases at2 false mask i p <;> simp

/-- **C43**: `train_task` trains on the table with the cells of its fold removed. -/
theorem trainingTable_spec (h : Randint draw) (junk : Nat → List Bool) (ws : List Nat) (table : Table) (hri : table.raggedIndex = makeRaggedIndex ws)
    (hty : table.featureTypes.length = ws.length) (hsh : Shape table.numRows ws.sum table.data) (h8 : ∀ row ∈ table.data, ∀ x ∈ row, -128 ≤ x ∧ x ≤ 127)
    (c : Config) (parts partid : Int) (hparts : Config.lookup c "model_ensemble_size" = some parts) (hpart : Config.lookup c "seed" = some partid)
    (hr : 0 ≤ partid ∧ partid < parts) :
    ∃ data, trainingTable draw junk table c = .ok ⟨table.featureTypes, table.raggedIndex, data⟩ ∧ Shape table.numRows ws.sum data ∧
      ∀ i < table.numRows, ∀ v p, InBlock ws v p → at2 0 data i p =
        if (foldOf draw parts.toNat table.numRows ws.length i v : Int) = partid then 0 else at2 0 table.data i p := by
  obtain ⟨mask, e, hs, hm⟩ := (splitData_spec h junk ws table.numRows parts partid).1 hr
  refine ⟨zeroWhere mask table.data, ?_, shape_zero hs hsh, fun i hi v p hp => ?_⟩
  · obtain ⟨g1, -, g2⟩ := makeRaggedIndex_spec ws
    have hwrap : ((zeroWhere mask table.data).map fun row => row.map wrap8) = zeroWhere mask table.data := by
      refine shape_ext 0 (shape_map _ (shape_zero hs hsh)) (shape_zero hs hsh) fun i hi p hp => ?_
      rw [at2_map 0 0 wrap8 _ (shape_zero hs hsh) i p hi hp, at2_zero hs hsh i p hi hp]
      split
      · decide
      · have hi' : i < table.data.length := hi
        have hrow := h8 _ (List.getElem_mem hi')
        have hl := hsh.2 _ (List.getElem_mem hi')
        have := hrow _ (List.getElem_mem (show p < table.data[i].length by omega))
        have e : at2 0 table.data i p = table.data[i][p] := by
          simp only [at2, List.getD_eq_getElem?_getD, List.getElem?_eq_getElem hi', Option.getD_some]
          rw [List.getElem?_eq_getElem (by omega), Option.getD_some]
        rw [e]
        unfold wrap8
        omega
    unfold trainingTable
    have hlast : (makeRaggedIndex ws).getLastD 0 = ws.sum := by rw [List.getLastD_eq_getLast?, g2]; rfl
    simp only [configGet, hparts, hpart, hr.1, hr.2, decide_true, Bool.and_self, pyAssert, if_true, bind, Except.bind, hri, e, Table.make, g1, hty, g2,
      Nat.add_comm, beq_self_eq_true, hlast, hwrap]
  · rw [at2_zero hs hsh i p hi (inBlock_lt ws hp), hm i hi v p hp]
    simp

/-- Six cells of two rows in three folds. -/
example : splitData (fun _ _ _ => [[0, 2, 1], [1, 1, 0]]) (fun _ => []) (makeRaggedIndex [2, 1, 2]) 2 3 1 =
    .ok [[false, false, false, true, true], [true, true, true, false, false]] := by decide +kernel

example : Randint (fun P N V => List.replicate N (List.replicate V (P - 1))) := by
  intro P N V hP
  refine ⟨by simp, fun row hrow => ?_⟩
  rw [List.eq_of_mem_replicate hrow]
  refine ⟨by simp, fun x hx => ?_⟩
  rw [List.eq_of_mem_replicate hx]
  omega

end TreeCat
