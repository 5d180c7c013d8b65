import Mathlib.Data.List.Basic
import Mathlib.Data.List.Nodup
import Mathlib.Data.List.Perm.Subperm
import Verif.Lemmas.Tree

/-!
# Array-backed sets

`Rep n row items`: the array `row` of length `n` holds the distinct `items`.
-/

namespace TreeCat

structure Rep (n : Nat) (row items : List Nat) : Prop where
  length : row.length = n
  nodup : items.Nodup
  eq : ∃ rest, row = items.length :: (items ++ rest)

theorem pyGet_mid {α : Type} (A : List α) (x : α) (B : List α) (i : Nat) (h : i = A.length) :
    pyGet (A ++ x :: B) i = .ok x := by
  subst h
  rw [pyGet_eq_ok, List.getElem?_append_right (Nat.le_refl _)]
  simp

theorem pySet_mid {α : Type} (A : List α) (x y : α) (B : List α) (i : Nat) (h : i = A.length) :
    pySet (A ++ x :: B) i y = .ok (A ++ y :: B) := by
  subst h
  rw [pySet_ok _ _ _ (by simp), List.set_append_right _ _ (Nat.le_refl _)]
  simp

theorem Rep.size {n : Nat} {row items : List Nat} (h : Rep n row items) :
    pyGet row 0 = .ok items.length := by
  obtain ⟨rest, rfl⟩ := h.eq
  rfl

theorem Rep.lt {n : Nat} {row items : List Nat} (h : Rep n row items) : items.length < n := by
  obtain ⟨rest, he⟩ := h.eq
  have := h.length
  rw [he] at this
  simp at this; omega

theorem Rep.get {n : Nat} {row items : List Nat} (h : Rep n row items) {i : Nat}
    (hi : i < items.length) : pyGet row (i + 1) = .ok items[i] := by
  obtain ⟨rest, rfl⟩ := h.eq
  rw [pyGet_eq_ok, List.getElem?_cons_succ, List.getElem?_append_left hi, List.getElem?_eq_getElem hi]

theorem Rep.empty (n : Nat) (hn : 0 < n) : Rep n (List.replicate n 0) [] := by
  refine ⟨by simp, List.nodup_nil, List.replicate (n - 1) 0, ?_⟩
  cases n with
  | zero => omega
  | succ k => simp [List.replicate_succ]

theorem jitSetAdd_rep {n : Nat} {row items : List Nat} (h : Rep n row items) {x : Nat} (hx : x ∉ items)
    (hl : items.length + 1 < n) : ∃ row', jitSetAdd row x = .ok row' ∧ Rep n row' (items ++ [x]) := by
  obtain ⟨rest, he⟩ := h.eq
  have hlen := h.length
  cases rest with
  | nil => rw [he] at hlen; simp at hlen; omega
  | cons y rest =>
    refine ⟨(items.length + 1) :: (items ++ x :: rest), ?_, ?_, ?_, rest, ?_⟩
    · subst he
      have h1 : pyGet (items.length :: (items ++ y :: rest)) 0 = .ok items.length := rfl
      have h2 : pySet (items.length :: (items ++ y :: rest)) 0 (items.length + 1)
          = .ok ((items.length + 1) :: (items ++ y :: rest)) := by rw [pySet_ok _ _ _ (by simp)]; rfl
      simp only [jitSetAdd, h1, h2, bind, Except.bind]
      exact pySet_mid ((items.length + 1) :: items) y x rest _ (by simp)
    · subst he; simpa using hlen
    · rw [List.nodup_append]
      exact ⟨h.nodup, List.nodup_singleton x, fun a ha b hb => by
        rw [List.mem_singleton] at hb; subst hb; rintro rfl; exact hx ha⟩
    · simp

theorem jitSetPop_rep {n : Nat} {row items : List Nat} {x : Nat} (h : Rep n row (items ++ [x])) :
    ∃ row', jitSetPop row = .ok (row', x) ∧ Rep n row' items := by
  obtain ⟨rest, he⟩ := h.eq
  have hlen := h.length
  refine ⟨items.length :: (items ++ x :: rest), ?_, ?_, ?_, x :: rest, rfl⟩
  · subst he
    have h1 : pyGet ((items ++ [x]).length :: (items ++ [x] ++ rest)) 0 = .ok (items.length + 1) := by
      simp [pyGet]
    have h2 : pySet ((items ++ [x]).length :: (items ++ [x] ++ rest)) 0 (items.length + 1 - 1)
        = .ok (items.length :: (items ++ x :: rest)) := by
      rw [pySet_ok _ _ _ (by simp)]; simp
    simp only [jitSetPop, h1, h2, bind, Except.bind]
    have h3 : pyGet (items.length :: (items ++ x :: rest)) (items.length + 1) = .ok x :=
      pyGet_mid (items.length :: items) x rest _ (by simp)
    rw [h3]
  · subst he; simpa using hlen
  · have := h.nodup
    rw [List.nodup_append] at this
    exact this.1

theorem jitFind_eq (row : List Nat) (x : Nat) : ∀ (A pre C : List Nat) (fuel : Nat),
    row = pre ++ A ++ x :: C → x ∉ A → A.length < fuel →
    jitFind row x fuel pre.length = .ok (pre.length + A.length) := by
  intro A
  induction A with
  | nil =>
    intro pre C fuel he _ hf
    cases fuel with
    | zero => omega
    | succ fuel =>
      rw [List.append_nil] at he
      simp only [jitFind, he, pyGet_mid pre x C _ rfl, bind, Except.bind]
      simp
  | cons a A ih =>
    intro pre C fuel he hx hf
    cases fuel with
    | zero => omega
    | succ fuel =>
      have hg : pyGet row pre.length = .ok a := by
        rw [he, List.append_assoc]
        exact pyGet_mid pre a (A ++ x :: C) _ rfl
      have hax : a ≠ x := by rintro rfl; exact hx (by simp)
      simp only [jitFind, hg, bind, Except.bind, if_pos hax]
      have := ih (pre ++ [a]) C fuel (by rw [he]; simp) (fun h => hx (by simp [h])) (by simp at hf; omega)
      rw [List.length_append, List.length_singleton] at this
      rw [this, List.length_cons]
      congr 1; omega

theorem jitSetRemove_rep {n : Nat} {row items : List Nat} (h : Rep n row items) {x : Nat} (hx : x ∈ items) :
    ∃ row' items', jitSetRemove row x = .ok row' ∧ Rep n row' items' ∧ items'.Perm (items.erase x) := by
  obtain ⟨rest, he⟩ := h.eq
  have hlen := h.length
  have hnd := h.nodup
  obtain ⟨A, B, hAB⟩ := List.append_of_mem hx
  have hxA : x ∉ A := by
    rw [hAB, List.nodup_append] at hnd
    intro hA; exact hnd.2.2 x hA x (by simp) rfl
  have hf : jitFind row x (row.length + 1) 1 = .ok (1 + A.length) :=
    jitFind_eq row x A [items.length] (B ++ rest) _ (by rw [he, hAB]; simp) hxA (by
      rw [he, hAB]; simp; omega)
  have hsize : pyGet row 0 = .ok items.length := h.size
  have hil : items.length = A.length + 1 + B.length := by rw [hAB]; simp; omega
  have her : items.erase x = A ++ B := by
    rw [hAB, List.erase_append_right _ hxA]; simp
  rcases List.eq_nil_or_concat B with hB | ⟨B', y, hB⟩
  · subst hB
    refine ⟨A.length :: (A ++ x :: rest), A, ?_, ⟨?_, ?_, x :: rest, rfl⟩, by rw [her]; simp⟩
    · have : ¬ (1 + A.length ≠ items.length) := by rw [hil]; simp; omega
      simp only [jitSetRemove, hf, hsize, bind, Except.bind, if_neg this]
      rw [pySet_ok _ _ _ (by rw [he]; simp), he, hil]
      simp [hAB]
    · rw [he, hAB] at hlen; simp at hlen ⊢; omega
    · rw [hAB, List.nodup_append] at hnd; exact hnd.1
  · subst hB
    rw [List.concat_eq_append] at *
    refine ⟨(A.length + 1 + B'.length) :: (A ++ y :: B' ++ y :: rest), A ++ y :: B', ?_,
      ⟨?_, ?_, y :: rest, by simp; omega⟩, ?_⟩
    · have hne : (1 + A.length ≠ items.length) := by rw [hil]; simp; omega
      have hg : pyGet row items.length = .ok y := by
        rw [he]
        conv_lhs => rw [hAB]
        rw [show (A ++ x :: (B' ++ [y])).length :: (A ++ x :: (B' ++ [y]) ++ rest)
          = ((A ++ x :: (B' ++ [y])).length :: (A ++ x :: B')) ++ y :: rest by simp]
        exact pyGet_mid _ y rest _ (by simp; omega)
      have hs : pySet row (1 + A.length) y
          = .ok (items.length :: (A ++ y :: (B' ++ y :: rest))) := by
        rw [he]
        conv_lhs => rw [show items ++ rest = A ++ x :: (B' ++ y :: rest) by rw [hAB]; simp]
        exact pySet_mid (items.length :: A) x y _ _ (by simp; omega)
      simp only [jitSetRemove, hf, hsize, bind, Except.bind, if_pos hne, hg, hs]
      rw [pySet_ok _ _ _ (by simp), hil]
      simp
    · rw [he, hAB] at hlen; simp at hlen ⊢; omega
    · have hp : (A ++ y :: B').Perm (A ++ (B' ++ [y])) :=
        List.Perm.append_left A (by simpa using (List.perm_append_comm (l₁ := [y]) (l₂ := B')))
      rw [hp.nodup_iff, ← her]
      exact hnd.erase x
    · rw [her]
      exact List.Perm.append_left A (by simpa using (List.perm_append_comm (l₁ := [y]) (l₂ := B')))

/-! ### Neighbour matrices -/

/-- The matrix `N` holds the neighbour sets of the relation `A` on `0, ..., V-1`. -/
structure RepN (V : Nat) (A : Nat → Nat → Prop) (N : List (List Nat)) : Prop where
  length : N.length = V
  rows : ∀ v < V, ∃ items, Rep V (N.getD v []) items ∧ ∀ u, u ∈ items ↔ A v u

theorem RepN.congr {V : Nat} {A B : Nat → Nat → Prop} {N : List (List Nat)} (h : RepN V A N)
    (hAB : ∀ v < V, ∀ u, A v u ↔ B v u) : RepN V B N := by
  refine ⟨h.length, fun v hv => ?_⟩
  obtain ⟨items, h1, h2⟩ := h.rows v hv
  exact ⟨items, h1, fun u => (h2 u).trans (hAB v hv u)⟩

theorem onRow_rep {V : Nat} {A B : Nat → Nat → Prop} {N : List (List Nat)} (h : RepN V A N) {v : Nat}
    (hv : v < V) (f : List Nat → Py (List Nat))
    (hf : ∀ items, Rep V (N.getD v []) items → (∀ u, u ∈ items ↔ A v u) →
      ∃ row' items', f (N.getD v []) = .ok row' ∧ Rep V row' items' ∧ ∀ u, u ∈ items' ↔ B v u)
    (hB : ∀ w < V, w ≠ v → ∀ u, A w u ↔ B w u) :
    ∃ N', onRow N v f = .ok N' ∧ RepN V B N' := by
  obtain ⟨items, h1, h2⟩ := h.rows v hv
  obtain ⟨row', items', h3, h4, h5⟩ := hf items h1 h2
  have hlt : v < N.length := by rw [h.length]; exact hv
  have hget : pyGet N v = .ok (N.getD v []) := pyGet_eq_ok.2 (by
    rw [List.getD_eq_getElem?_getD, List.getElem?_eq_getElem hlt]; rfl)
  refine ⟨N.set v row', ?_, by simp [h.length], ?_⟩
  · simp only [onRow, hget, h3, bind, Except.bind, pySet_ok N v _ hlt]
  · intro w hw
    by_cases hwv : w = v
    · subst hwv
      refine ⟨items', ?_, h5⟩
      rw [List.getD_eq_getElem?_getD, List.getElem?_set]
      simpa [hlt] using h4
    · obtain ⟨it, h6, h7⟩ := h.rows w hw
      refine ⟨it, ?_, fun u => (h7 u).trans (hB w hw hwv u)⟩
      rw [List.getD_eq_getElem?_getD, List.getElem?_set]
      rw [List.getD_eq_getElem?_getD] at h6
      simpa [Ne.symm hwv] using h6

theorem repN_add {V : Nat} {A : Nat → Nat → Prop} {N : List (List Nat)} (h : RepN V A N)
    (hr : ∀ u v, A u v → u < V ∧ v < V ∧ u ≠ v) {a b : Nat} (ha : a < V) (hb : b < V) (hab : a ≠ b)
    (hn : ¬ A a b) (hn' : ¬ A b a) :
    ∃ N1 N2, onRow N a (jitSetAdd · b) = .ok N1 ∧ onRow N1 b (jitSetAdd · a) = .ok N2 ∧
      RepN V (fun u v => A u v ∨ (u = a ∧ v = b) ∨ (u = b ∧ v = a)) N2 := by
  have cnt : ∀ (v w : Nat) (items : List Nat), v < V → w < V → v ≠ w → items.Nodup →
      (∀ u ∈ items, u < V ∧ u ≠ v ∧ u ≠ w) → items.length + 1 < V := by
    intro v w items hv hw hvw hnd hi
    have hn : (v :: w :: items).Nodup := by
      rw [List.nodup_cons, List.nodup_cons]
      refine ⟨?_, fun hm => (hi w hm).2.2 rfl, hnd⟩
      rw [List.mem_cons, not_or]
      exact ⟨hvw, fun hm => (hi v hm).2.1 rfl⟩
    have hs : (v :: w :: items).Subperm (List.range V) := hn.subperm (by
      intro x hx
      rw [List.mem_range]
      simp only [List.mem_cons] at hx
      rcases hx with rfl | rfl | hx
      · exact hv
      · exact hw
      · exact (hi x hx).1)
    have := hs.length_le
    simp at this; omega
  obtain ⟨N1, h1, h2⟩ := onRow_rep (B := fun u v => A u v ∨ (u = a ∧ v = b)) h ha (jitSetAdd · b)
    (by
      intro items hi hm
      have hbi : b ∉ items := fun h => hn ((hm b).1 h)
      obtain ⟨row', h1, h2⟩ := jitSetAdd_rep hi hbi (cnt a b items ha hb hab hi.nodup (fun u hu => by
        have := hr _ _ ((hm u).1 hu)
        exact ⟨this.2.1, Ne.symm this.2.2, by rintro rfl; exact hbi hu⟩))
      refine ⟨row', items ++ [b], h1, h2, fun u => ?_⟩
      rw [List.mem_append, hm u, List.mem_singleton]; tauto)
    (by intro w _ hwa u; tauto)
  obtain ⟨N2, h3, h4⟩ := onRow_rep (B := fun u v => A u v ∨ (u = a ∧ v = b) ∨ (u = b ∧ v = a)) h2 hb
    (jitSetAdd · a)
    (by
      intro items hi hm
      have hai : a ∉ items := fun h => by
        rcases (hm a).1 h with h | h
        · exact hn' h
        · exact hab h.2
      obtain ⟨row', h1, h2⟩ := jitSetAdd_rep hi hai (cnt b a items hb ha (Ne.symm hab) hi.nodup (fun u hu => by
        rcases (hm u).1 hu with h | h
        · have := hr _ _ h
          exact ⟨this.2.1, Ne.symm this.2.2, by rintro rfl; exact hai hu⟩
        · exact absurd h.1.symm hab))
      refine ⟨row', items ++ [a], h1, h2, fun u => ?_⟩
      rw [List.mem_append, hm u, List.mem_singleton]; tauto)
    (by intro w _ hwa u; tauto)
  exact ⟨N1, N2, h1, h3, h4⟩

theorem repN_remove {V : Nat} {A : Nat → Nat → Prop} {N : List (List Nat)} (h : RepN V A N)
    {a b : Nat} (ha : a < V) (hb : b < V) (hab : a ≠ b)
    (hn : A a b) (hn' : A b a) :
    ∃ N1 N2, onRow N a (jitSetRemove · b) = .ok N1 ∧ onRow N1 b (jitSetRemove · a) = .ok N2 ∧
      RepN V (fun u v => A u v ∧ ¬ ((u = a ∧ v = b) ∨ (u = b ∧ v = a))) N2 := by
  obtain ⟨N1, h1, h2⟩ := onRow_rep (B := fun u v => A u v ∧ ¬ (u = a ∧ v = b)) h ha (jitSetRemove · b)
    (by
      intro items hi hm
      obtain ⟨row', items', h1, h2, h3⟩ := jitSetRemove_rep hi ((hm b).2 hn)
      refine ⟨row', items', h1, h2, fun u => ?_⟩
      rw [h3.mem_iff, hi.nodup.mem_erase_iff, hm u]; tauto)
    (by intro w _ hwa u; tauto)
  obtain ⟨N2, h3, h4⟩ := onRow_rep (B := fun u v => A u v ∧ ¬ ((u = a ∧ v = b) ∨ (u = b ∧ v = a))) h2 hb
    (jitSetRemove · a)
    (by
      intro items hi hm
      obtain ⟨row', items', h1, h2, h3⟩ := jitSetRemove_rep hi ((hm a).2 ⟨hn', fun h => hab h.2⟩)
      refine ⟨row', items', h1, h2, fun u => ?_⟩
      rw [h3.mem_iff, hi.nodup.mem_erase_iff, hm u]; tauto)
    (by intro w _ hwa u; tauto)
  exact ⟨N1, N2, h1, h3, h4⟩

end TreeCat
