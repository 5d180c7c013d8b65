import Mathlib.Data.List.Basic
import Mathlib.Data.List.Forall2
import Mathlib.Tactic.Linarith
import Verif.Model.AssertEqual

/-!
# C108: what the comparison of the tests accepts
-/

namespace TreeCat

namespace Spec

/-- The dictionary has the item. -/
inductive HasItem : PyItems → String → PyObj → Prop
  | head {k v rest} : HasItem (.cons k v rest) k v
  | tail {k v k' v' rest} : HasItem rest k v → HasItem (.cons k' v' rest) k v

mutual
/-- Objects that exist: keys of a dictionary are distinct, and an array has as many elements as its shape says. -/
inductive Proper : PyObj → Prop
  | number {ty c} : Proper (.number ty c)
  | str {s} : Proper (.str s)
  | list {xs} : Proper (.list xs)
  | dict {xs} : ProperItems xs → Proper (.dict xs)
  | array {shape dtype cells} : cells.length = shape.prod → Proper (.array shape dtype cells)

/-- The same for the items of a dictionary. -/
inductive ProperItems : PyItems → Prop
  | nil : ProperItems .nil
  | cons {k v rest} : Proper v → (∀ w, ¬ HasItem rest k w) → ProperItems rest → ProperItems (.cons k v rest)
end

/-- Element `i` of an array in row-major order; an array without dimensions has the same element everywhere. -/
def element (shape : List Nat) (cells : List PyNum) (i : Nat) : Option PyNum := if shape = [] then cells[0]? else cells[i]?

/-- Elements of lists with the same value: the types of numbers may differ. -/
inductive SameValue : PyAtom → PyAtom → Prop
  | number {ty ty' q} : SameValue (.number ty (.num q)) (.number ty' (.num q))
  | str {s} : SameValue (.str s) (.str s)

/-- Equality as accepted: numbers of the same type that are not `nan`; equal strings; lists of elements with the same values; dictionaries with the same keys and values equal
as accepted; arrays, of any `dtype`s, of one shape, or one of them without dimensions, with the same elements, `nan` included. -/
inductive Accepted : PyObj → PyObj → Prop
  | number {ty q} : Accepted (.number ty (.num q)) (.number ty (.num q))
  | str {s} : Accepted (.str s) (.str s)
  | list {xs ys} : List.Forall₂ SameValue xs ys → Accepted (.list xs) (.list ys)
  | dict {xs ys} : (∀ k, (∃ v, HasItem xs k v) ↔ ∃ w, HasItem ys k w) → (∀ k v w, HasItem xs k v → HasItem ys k w → Accepted v w) →
      Accepted (.dict xs) (.dict ys)
  | array {sh1 sh2 d1 d2 xs ys} : (sh1 = sh2 ∨ sh1 = [] ∨ sh2 = []) →
      (∀ i, i < sh1.prod → i < sh2.prod → element sh1 xs i = element sh2 ys i) →
      (∀ i, sh1 = [] → i < sh2.prod → element sh1 xs i = element sh2 ys i) →
      (∀ i, sh2 = [] → i < sh1.prod → element sh1 xs i = element sh2 ys i) → Accepted (.array sh1 d1 xs) (.array sh2 d2 ys)

end Spec

open Spec

theorem pyNum_same {a b : PyNum} : a.same b = true ↔ a = b := by
  cases a <;> cases b <;> simp [PyNum.same]

theorem atom_eq {a b : PyAtom} : a.eq b = true ↔ SameValue a b := by
  constructor
  · intro h
    rcases a with ⟨_, _ | _⟩ | _ <;> rcases b with ⟨_, _ | _⟩ | _ <;> simp [PyAtom.eq, PyNum.eq] at h
    · subst h; exact .number
    · subst h; exact .str
  · rintro (_ | _) <;> simp [PyAtom.eq, PyNum.eq]

theorem listEq_iff : ∀ {xs ys : List PyAtom}, listEq xs ys = true ↔ List.Forall₂ SameValue xs ys
  | [], [] => by simp [listEq]
  | [], _ :: _ => by simp [listEq]
  | _ :: _, [] => by simp [listEq]
  | x :: xs, y :: ys => by rw [listEq, Bool.and_eq_true, atom_eq, listEq_iff, List.forall₂_cons]

theorem pyAssert_ok {b : Bool} : pyAssert b = .ok () ↔ b = true := by
  cases b <;> simp [pyAssert]

theorem py_then {a : Py Unit} {b : Py Unit} : (a >>= fun _ => b) = .ok () ↔ a = .ok () ∧ b = .ok () := by
  cases a with
  | error e => simp [bind, Except.bind]
  | ok u => cases u; simp [bind, Except.bind]

theorem mem_keys {k : String} : ∀ {xs : PyItems}, k ∈ xs.keys ↔ ∃ v, HasItem xs k v
  | .nil => by simp only [PyItems.keys, List.not_mem_nil, false_iff]; rintro ⟨v, ⟨⟩⟩
  | .cons k' v' rest => by
    simp only [PyItems.keys, List.mem_cons, mem_keys (xs := rest)]
    constructor
    · rintro (rfl | ⟨v, h⟩)
      · exact ⟨_, .head⟩
      · exact ⟨v, .tail h⟩
    · rintro ⟨v, h⟩
      cases h with
      | head => exact .inl rfl
      | tail h => exact .inr ⟨v, h⟩

theorem items_get {k : String} {v : PyObj} : ∀ {xs : PyItems}, ProperItems xs → (xs.get k = .ok v ↔ HasItem xs k v)
  | .nil, _ => by simp only [PyItems.get, reduceCtorEq, false_iff]; rintro ⟨⟩
  | .cons k' v' rest, h => by
    cases h with
    | cons h1 h2 h3 =>
      unfold PyItems.get
      split_ifs with e
      · subst e
        constructor
        · intro h; cases h; exact .head
        · intro h
          cases h with
          | head => rfl
          | tail h => exact absurd h (h2 _)
      · rw [items_get h3]
        constructor
        · exact .tail
        · intro h
          cases h with
          | head => exact absurd rfl e
          | tail h => exact h

theorem proper_item {xs : PyItems} {k : String} {v : PyObj} (h : HasItem xs k v) : ProperItems xs → Proper v := by
  induction h with
  | head => intro h; cases h; assumption
  | tail _ ih => intro h; cases h; exact ih ‹_›

theorem assertArrayEqual_iff {sh1 sh2 : List Nat} {xs ys : List PyNum} {d1 d2 : String} (h1 : xs.length = sh1.prod) (h2 : ys.length = sh2.prod) :
    assertArrayEqual sh1 xs sh2 ys = .ok () ↔ Accepted (.array sh1 d1 xs) (.array sh2 d2 ys) := by
  unfold assertArrayEqual
  rw [pyAssert_ok]
  by_cases e1 : sh1 = []
  · subst e1
    obtain ⟨x, rfl⟩ := List.length_eq_one_iff.1 (by simpa using h1)
    simp only [if_true, List.headD_cons, List.all_eq_true, pyNum_same]
    constructor
    · intro h
      have key : ∀ i, i < sh2.prod → element [] [x] i = element sh2 ys i := by
        intro i hi
        have hi' : i < ys.length := by omega
        unfold element
        rw [if_pos rfl]
        split_ifs with e
        · have : 0 < ys.length := by omega
          simp [List.getElem?_eq_getElem this, ← h _ (List.getElem_mem this)]
        · simp [List.getElem?_eq_getElem hi', ← h _ (List.getElem_mem hi')]
      exact .array (.inr (.inl rfl)) (fun i _ hi => key i hi) (fun i _ hi => key i hi) fun i e hi => by
        subst e; exact key i (by simpa using hi)
    · rintro h c hc
      cases h with
      | array _ _ h3 _ =>
        obtain ⟨i, hi, rfl⟩ := List.getElem_of_mem hc
        have := h3 i rfl (by omega)
        unfold element at this
        rw [if_pos rfl] at this
        split_ifs at this with e
        · subst e
          have : i = 0 := by simp at h2; omega
          subst this
          simp_all
        · simpa [List.getElem?_eq_getElem hi] using this
  · rw [if_neg e1]
    by_cases e2 : sh2 = []
    · subst e2
      obtain ⟨y, rfl⟩ := List.length_eq_one_iff.1 (by simpa using h2)
      simp only [if_true, List.headD_cons, List.all_eq_true, pyNum_same]
      constructor
      · intro h
        have key : ∀ i, i < sh1.prod → element sh1 xs i = element [] [y] i := by
          intro i hi
          have hi' : i < xs.length := by omega
          simp [element, e1, List.getElem?_eq_getElem hi', h _ (List.getElem_mem hi')]
        exact .array (.inr (.inr rfl)) (fun i hi _ => key i hi) (fun i e _ => absurd e e1) fun i _ hi => key i hi
      · rintro h c hc
        cases h with
        | array _ _ _ h4 =>
          obtain ⟨i, hi, rfl⟩ := List.getElem_of_mem hc
          have := h4 i rfl (by omega)
          simpa [element, e1, List.getElem?_eq_getElem hi] using this
    · rw [if_neg e2, Bool.and_eq_true, decide_eq_true_iff]
      constructor
      · rintro ⟨rfl, h⟩
        have h := List.all_eq_true.1 h
        refine .array (.inl rfl) (fun i hi _ => ?_) (fun i e _ => absurd e e1) fun i e _ => absurd e e1
        have i1 : i < xs.length := by omega
        have i2 : i < ys.length := by omega
        have i3 : i < (xs.zip ys).length := by simp; omega
        have := h _ (List.getElem_mem i3)
        rw [pyNum_same] at this
        simpa [element, e1, List.getElem?_eq_getElem i1, List.getElem?_eq_getElem i2] using this
      · intro h
        cases h with
        | array hs h2' _ _ =>
          obtain rfl : sh1 = sh2 := by simpa [e1, e2] using hs
          refine ⟨rfl, List.all_eq_true.2 fun p hp => ?_⟩
          obtain ⟨i, hi, rfl⟩ := List.getElem_of_mem hp
          have i1 : i < xs.length := by simp at hi; omega
          have i2 : i < ys.length := by simp at hi; omega
          have := h2' i (by omega) (by omega)
          rw [pyNum_same]
          simpa [element, e1, List.getElem?_eq_getElem i1, List.getElem?_eq_getElem i2] using this

mutual
/-- **C108.** `assert_equal(x, y)` passes if and only if the arguments are equal as accepted. -/
theorem assertEqual_iff : ∀ {x y : PyObj}, Proper x → Proper y → (assertEqual x y = .ok () ↔ Accepted x y)
  | .number ty c, y, _, _ => by
    cases y with
    | number ty' c' =>
      simp only [assertEqual, py_then, pyAssert_ok, PyObj.type, decide_eq_true_iff, PyTy.num.injEq]
      constructor
      · rintro ⟨rfl, h⟩
        cases c <;> cases c' <;> simp [PyNum.eq] at h
        subst h; exact .number
      · intro h
        cases h
        simp [PyNum.eq]
    | _ => simp only [assertEqual, py_then, pyAssert_ok, PyObj.type]; simp; rintro ⟨⟩
  | .str s, y, _, _ => by
    cases y with
    | str s' =>
      simp only [assertEqual, py_then, pyAssert_ok, PyObj.type, decide_true, true_and, beq_iff_eq]
      exact ⟨fun h => h ▸ .str, fun h => by cases h; rfl⟩
    | _ => simp only [assertEqual, py_then, pyAssert_ok, PyObj.type]; simp; rintro ⟨⟩
  | .list xs, y, _, _ => by
    cases y with
    | list ys =>
      simp only [assertEqual, py_then, pyAssert_ok, PyObj.type, decide_true, true_and, listEq_iff]
      exact ⟨.list, fun h => by cases h; assumption⟩
    | _ => simp only [assertEqual, py_then, pyAssert_ok, PyObj.type]; simp; rintro ⟨⟩
  | .array sh d xs, y, hx, hy => by
    cases y with
    | array sh' d' ys =>
      simp only [assertEqual, py_then, pyAssert_ok, PyObj.type, decide_true, true_and]
      cases hx; cases hy
      exact assertArrayEqual_iff ‹_› ‹_›
    | _ => simp only [assertEqual, py_then, pyAssert_ok, PyObj.type]; simp; rintro ⟨⟩
  | .dict xs, y, hx, hy => by
    cases y with
    | dict ys =>
      cases hx with
      | dict hx =>
      cases hy with
      | dict hy =>
      simp only [assertEqual, py_then, pyAssert_ok, PyObj.type, decide_true, true_and, Bool.and_eq_true, List.all_eq_true, decide_eq_true_iff, mem_keys]
      constructor
      · rintro ⟨⟨h1, h2⟩, h3⟩
        exact .dict (fun k => ⟨h1 k, h2 k⟩) fun k v w hv hw => by
          obtain ⟨w', e1, e2⟩ := (assertItems_iff hx hy).1 h3 k v hv
          rw [← items_get hy] at hw e1
          rw [hw] at e1
          cases e1
          exact e2
      · intro h
        cases h with
        | dict h1 h2 =>
          refine ⟨⟨fun k => (h1 k).1, fun k => (h1 k).2⟩, (assertItems_iff hx hy).2 fun k v hv => ?_⟩
          obtain ⟨w, hw⟩ := (h1 k).1 ⟨v, hv⟩
          exact ⟨w, hw, h2 k v w hv hw⟩
    | _ => simp only [assertEqual, py_then, pyAssert_ok, PyObj.type]; simp; rintro ⟨⟩

/-- The loop over the keys. -/
theorem assertItems_iff : ∀ {xs ys : PyItems}, ProperItems xs → ProperItems ys →
    (assertItems xs ys = .ok () ↔ ∀ k v, HasItem xs k v → ∃ w, HasItem ys k w ∧ Accepted v w)
  | .nil, ys, _, _ => by
    simp only [assertItems, true_iff]
    rintro k v ⟨⟩
  | .cons k v rest, ys, hx, hy => by
    cases hx with
    | cons h1 h2 h3 =>
    unfold assertItems
    cases e : ys.get k with
    | error err =>
      simp only [bind, Except.bind, reduceCtorEq, false_iff]
      intro h
      obtain ⟨w, hw, -⟩ := h k v .head
      rw [← items_get hy, e] at hw
      cases hw
    | ok w =>
      have hw := (items_get hy).1 e
      have := assertEqual_iff h1 (proper_item hw hy)
      have h4 := assertItems_iff h3 hy
      change (assertEqual v w >>= fun _ => assertItems rest ys) = _ ↔ _
      rw [py_then, this, h4]
      constructor
      · rintro ⟨a, b⟩ k' v' h
        cases h with
        | head => exact ⟨w, hw, a⟩
        | tail h => exact b k' v' h
      · intro h
        refine ⟨?_, fun k' v' h' => h k' v' (.tail h')⟩
        obtain ⟨w', hw', a⟩ := h k v .head
        rw [← items_get hy, e] at hw'
        cases hw'
        exact a
end

/-- The relation is symmetric. -/
theorem accepted_symm {x y : PyObj} (h : Accepted x y) : Accepted y x := by
  induction h with
  | number => exact .number
  | str => exact .str
  | list h => exact .list (h.flip.imp fun _ _ h => by cases h <;> constructor)
  | dict h1 _ ih => exact .dict (fun k => (h1 k).symm) fun k v w hv hw => ih k w v hw hv
  | array h1 h2 h3 h4 =>
    exact .array (by tauto) (fun i a b => (h2 i b a).symm) (fun i a b => (h4 i a b).symm) fun i a b => (h3 i a b).symm

/-- **C108**: the order of the arguments does not matter. -/
theorem assertEqual_comm {x y : PyObj} (hx : Proper x) (hy : Proper y) : assertEqual x y = .ok () ↔ assertEqual y x = .ok () := by
  rw [assertEqual_iff hx hy, assertEqual_iff hy hx]
  exact ⟨accepted_symm, accepted_symm⟩

/-- An object within which no number outside of arrays is `nan`. -/
inductive Spec.NoNan : PyObj → Prop
  | number {ty q} : NoNan (.number ty (.num q))
  | str {s} : NoNan (.str s)
  | list {xs} : (∀ ty, PyAtom.number ty .nan ∉ xs) → NoNan (.list xs)
  | dict {xs} : (∀ k v, HasItem xs k v → NoNan v) → NoNan (.dict xs)
  | array {shape dtype cells} : NoNan (.array shape dtype cells)

theorem hasItem_unique {xs : PyItems} (h : ProperItems xs) {k : String} {v w : PyObj} (h1 : HasItem xs k v) (h2 : HasItem xs k w) : v = w := by
  rw [← items_get h] at h1 h2
  rw [h1] at h2
  cases h2
  rfl

theorem forall₂_self {xs : List PyAtom} : List.Forall₂ SameValue xs xs ↔ ∀ ty, PyAtom.number ty .nan ∉ xs := by
  rw [List.forall₂_same]
  constructor
  · intro h ty hm
    cases h _ hm
  · intro h a ha
    rcases a with ⟨ty, q | _⟩ | s
    · exact .number
    · exact absurd ha (h ty)
    · exact .str

/-- **C108**: an object is accepted as equal to a copy of itself if and only if no number in it, outside of arrays, is `nan`. -/
theorem assertEqual_self {x : PyObj} (hx : Proper x) : assertEqual x x = .ok () ↔ NoNan x := by
  rw [assertEqual_iff hx hx]
  constructor
  · intro h
    have key : ∀ {x y : PyObj}, Accepted x y → Proper x → x = y → NoNan x := by
      intro x y h
      induction h with
      | number => exact fun _ _ => .number
      | str => exact fun _ _ => .str
      | list h => exact fun _ e => by cases e; exact .list (forall₂_self.1 h)
      | array => exact fun _ _ => .array
      | dict _ _ ih =>
        intro hp e
        cases e
        cases hp with
        | dict hp => exact .dict fun k v hv => ih k v v hv hv (proper_item hv hp) rfl
    exact key h hx rfl
  · intro h
    induction h with
    | number => exact .number
    | str => exact .str
    | list h => exact .list (forall₂_self.2 h)
    | array => exact .array (.inl rfl) (fun _ _ _ => rfl) (fun _ _ _ => rfl) fun _ _ _ => rfl
    | dict _ ih =>
      cases hx with
      | dict hp =>
        exact .dict (fun _ => .rfl) fun k v w hv hw => by
          obtain rfl := hasItem_unique hp hv hw
          exact ih k v hv (proper_item hv hp)

/-- **C108**: the comparison is not transitive: an array without dimensions is accepted as equal to arrays of different shapes. -/
theorem assertEqual_not_transitive : ∃ x y z : PyObj, Proper x ∧ Proper y ∧ Proper z ∧
    assertEqual x y = .ok () ∧ assertEqual y z = .ok () ∧ assertEqual x z = .error .assertion :=
  ⟨.array [2] "int8" [.num 1, .num 1], .array [] "int8" [.num 1], .array [3] "int8" [.num 1, .num 1, .num 1],
    .array rfl, .array rfl, .array rfl, by decide, by decide, by decide⟩

/-- A dictionary of a number and an array, like those of `EXAMPLE_DATA`, format_test.py:29-36. -/
def exObj (dtype : String) : PyObj :=
  .dict (.cons "foo" (.number .int (.num 0)) (.cons "a" (.array [2, 2] dtype [.num 0, .num 1, .nan, .num 3]) .nil))

theorem exObj_proper (dtype : String) : Proper (exObj dtype) :=
  .dict (.cons .number (fun w h => by have := mem_keys.2 ⟨w, h⟩; simp [PyItems.keys] at this) (.cons (.array rfl) (by rintro w ⟨⟩) .nil))

/-- The comparison accepts objects with different `dtype`s and different order of the items. -/
example : Accepted (exObj "int8") (.dict (.cons "a" (.array [2, 2] "float64" [.num 0, .num 1, .nan, .num 3]) (.cons "foo" (.number .int (.num 0)) .nil))) :=
  (assertEqual_iff (exObj_proper _) (.dict (.cons (.array rfl) (fun w h => by have := mem_keys.2 ⟨w, h⟩; simp [PyItems.keys] at this) (.cons .number (by rintro w ⟨⟩) .nil)))).1 (by decide)

/-- A different type of number, a missing key, a different element, and a `nan` on its own are refused. -/
example :
    assertEqual (exObj "int8") (.dict (.cons "foo" (.number .float (.num 0)) (.cons "a" (.array [2, 2] "int8" [.num 0, .num 1, .nan, .num 3]) .nil))) = .error .assertion
      ∧ assertEqual (exObj "int8") (.dict (.cons "foo" (.number .int (.num 0)) .nil)) = .error .assertion
      ∧ assertEqual (exObj "int8") (.dict (.cons "foo" (.number .int (.num 0)) (.cons "a" (.array [2, 2] "int8" [.num 0, .num 1, .num 2, .num 3]) .nil))) = .error .assertion
      ∧ assertEqual (.number .float .nan) (.number .float .nan) = .error .assertion := by
  decide

/-- In a list the types of numbers are not compared. -/
example : assertEqual (.list [.number .int (.num 1), .str "a"]) (.list [.number .float (.num 1), .str "a"]) = .ok ()
    ∧ assertEqual (.number .int (.num 1)) (.number .float (.num 1)) = .error .assertion
    ∧ assertEqual (.list [.number .int (.num 1), .number .int (.num 2)]) (.list [.number .int (.num 1)]) = .error .assertion := by
  decide

/-- The object is equal to a copy of itself. -/
example : NoNan (exObj "int8") := (assertEqual_self (exObj_proper _)).1 (by decide)

end TreeCat
