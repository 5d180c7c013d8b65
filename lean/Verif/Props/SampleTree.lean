import Mathlib.Tactic.Linarith
import Verif.Spec.SampleTree
import Verif.Lemmas.SampleStep
import Verif.Props.Program

/-!
# C05 and C06: `sample_tree` returns spanning trees and stays inside its arrays
-/

set_option linter.unusedSectionVars false

namespace TreeCat

open Spec

theorem edge_nodup {V : Nat} {edges : List Edge} (h : IsTree V edges) : edges.Nodup := by
  have hV := h.card
  obtain ⟨d, par, R⟩ := exists_rooted h (r := 0) (by omega)
  exact R.nodup.of_map _

theorem Canonical.eq_of_perm {l l' : List Edge} (h : Canonical l) (h' : Canonical l') (hp : l.Perm l') :
    l = l' := by
  have key : ∀ {l : List Edge}, Canonical l → l.Pairwise edgeLe := fun h =>
    h.sorted.imp fun hab => by unfold edgeLe; omega
  exact hp.eq_of_pairwise' (key h) (key h')

theorem canonical_insertionSort {l : List Edge} (h1 : ∀ p ∈ l, p.1 < p.2) (h2 : l.Nodup) :
    Canonical (l.insertionSort edgeLe) := by
  refine ⟨fun p hp => h1 p ((List.mem_insertionSort edgeLe).1 hp), ?_⟩
  have h3 := List.pairwise_insertionSort edgeLe l
  have h4 : (l.insertionSort edgeLe).Nodup := (List.perm_insertionSort edgeLe l).nodup_iff.2 h2
  refine (h3.and h4).imp ?_
  rintro ⟨a, b⟩ ⟨c, d⟩ ⟨h, hne⟩
  unfold edgeLe at h
  simp only [ne_eq, Prod.mk.injEq] at h hne ⊢
  omega

theorem canonOf_perm (V : Nat) (ω : List Nat) : (canonOf V ω).Perm (treeOf V ω) :=
  List.perm_insertionSort edgeLe _

theorem IsTree.of_perm {V : Nat} {l l' : List Edge} (h : IsTree V l) (hp : l.Perm l') : IsTree V l' := by
  have : SamePairs l' l := (hp.map _).symm
  exact this.isTree h

theorem canonOf_spec {V : Nat} {ω : List Nat} (h : LTree V ω) :
    Canonical (canonOf V ω) ∧ IsTree V (canonOf V ω) := by
  refine ⟨canonical_insertionSort ?_ (edge_nodup h.tree), IsTree.of_perm h.tree (canonOf_perm V ω).symm⟩
  intro p hp
  obtain ⟨k, hk, rfl⟩ := List.mem_map.1 hp
  exact (pairAt_lt (h.ids k hk)).1

theorem poss_lift_bind {α β : Type} (x : Poss α) (f : α → ExceptT PyErr Poss β) (r : Except PyErr β) :
    (ExceptT.lift x >>= f).run r ↔ ∃ a, x a ∧ (f a).run r := by
  rw [ExceptT.run_bind, ExceptT.run_lift]
  constructor
  · rintro ⟨_, ⟨a, ha, rfl⟩, hb⟩
    exact ⟨a, ha, hb⟩
  · rintro ⟨a, ha, hb⟩
    exact ⟨.ok a, ⟨a, ha, rfl⟩, hb⟩

section
variable {K : Type} [Field K] [LinearOrder K] [IsStrictOrderedRing K]

theorem poss_run_bind {α β : Type} (x : ExceptT PyErr Poss α) (f : α → ExceptT PyErr Poss β) (r : Except PyErr β) :
    (x >>= f).run r ↔ (∃ a, x.run (.ok a) ∧ (f a).run r) ∨ ∃ e, x.run (.error e) ∧ r = .error e := by
  rw [ExceptT.run_bind]
  constructor
  · rintro ⟨a, ha, hb⟩
    cases a with
    | ok a => exact .inl ⟨a, ha, hb⟩
    | error e => exact .inr ⟨e, ha, hb⟩
  · rintro (⟨a, ha, hb⟩ | ⟨e, ha, hb⟩)
    · exact ⟨.ok a, ha, hb⟩
    · exact ⟨.error e, ha, hb⟩

/-- One iteration never raises and keeps a spanning tree in the arrays, whatever the weights are. -/
theorem sampleTreeStep_poss (expf : K → K) {V : Nat} {logits : List K} (hl : logits.length = tri V) {s : TreeState} (I : StInv V s) {e : Nat} (he : e < s.e2k.length) :
    (∃ s', (sampleTreeStep expf (completeGrid V) logits s e : ExceptT PyErr Poss _).run (.ok s')) ∧
      ∀ r, (sampleTreeStep expf (completeGrid V) logits s e : ExceptT PyErr Poss _).run r → ∃ s', r = .ok s' ∧ StInv V s' := by
  by_cases hsum : 0 < (validProbs expf logits V s.e2k e).sum
  · obtain ⟨next, h1, h2⟩ := sampleTreeStep_pos (m := Poss) hl I he hsum
    rw [h1, ExceptT.run_lift]
    constructor
    · have hm : 0 < (validProbs expf logits V s.e2k e).length := by
        rw [validProbs_length]
        exact List.length_pos_of_mem (self_mem_validList I.ltree he)
      exact ⟨next 0, _, ⟨⟨0, hm⟩, trivial, rfl⟩, rfl⟩
    · rintro r ⟨s', ⟨i, -, h3⟩, h4⟩
      have h3 : s' = next i.val := h3
      have h4 : r = .ok s' := h4
      exact ⟨_, by rw [h4, h3], (h2 i.val i.isLt).1⟩
  · obtain ⟨s', h1, h2, -⟩ := sampleTreeStep_zero (m := Poss) hl I he hsum
    rw [h1]
    exact ⟨⟨s', rfl⟩, fun r hr => ⟨s', hr, h2⟩⟩

theorem sampleTreeFold_poss (expf : K → K) {V : Nat} {logits : List K} (hl : logits.length = tri V) :
    ∀ (slots : List Nat) (s : TreeState), StInv V s → (∀ e ∈ slots, e + 1 < V) →
      (∃ s', (slots.foldlM (sampleTreeStep expf (completeGrid V) logits) s : ExceptT PyErr Poss _).run (.ok s')) ∧
        ∀ r, (slots.foldlM (sampleTreeStep expf (completeGrid V) logits) s : ExceptT PyErr Poss _).run r → ∃ s', r = .ok s' ∧ StInv V s' := by
  intro slots
  induction slots with
  | nil =>
    intro s I _
    exact ⟨⟨s, rfl⟩, fun r hr => ⟨s, hr, I⟩⟩
  | cons e slots ih =>
    intro s I hs
    have he : e < s.e2k.length := by
      have := I.ltree.length
      have := hs e (by simp); omega
    obtain ⟨⟨s1, h1⟩, h2⟩ := sampleTreeStep_poss expf hl I he
    have hs' : ∀ e ∈ slots, e + 1 < V := fun e he => hs e (by simp [he])
    rw [List.foldlM_cons]
    constructor
    · obtain ⟨s1', h3, I1⟩ := h2 _ h1
      obtain ⟨⟨s2, h4⟩, -⟩ := ih s1 (by cases h3; exact I1) hs'
      exact ⟨s2, (poss_run_bind _ _ _).2 (.inl ⟨s1, h1, h4⟩)⟩
    · intro r hr
      rcases (poss_run_bind _ _ _).1 hr with ⟨s1, h3, h4⟩ | ⟨er, h3, -⟩
      · obtain ⟨s1', h5, I1⟩ := h2 _ h3
        exact (ih s1 (by cases h5; exact I1) hs').2 r h4
      · obtain ⟨_, h5, -⟩ := h2 _ h3
        cases h5

/-- **C05** and the array half of **C06**. Whatever permutation is scanned and
whatever is drawn, and whatever the uninitialised buffer holds, `sample_tree` on a
spanning tree ends without an exception: no index outside an array, no failed
assertion, no endless loop. It returns a spanning tree of the same vertices, as a
sorted list of distinct `(small, large)` pairs. With at most one edge the input is
returned as it is. Some result is always possible. Nothing is assumed of the exponential function: all weights may
underflow to zero, and then the edge that was taken out is put back. -/
theorem sampleTree_isTree (expf : K → K) (V : Nat) (edges : List Edge)
    (h : IsTree V edges) (junk : Nat → Nat) (logits : List K) (hl : logits.length = V * (V - 1) / 2)
    (perm : List Nat) (hp : perm.Perm (List.range edges.length)) :
    ∃ grid, makeCompleteGraph V = .ok grid ∧
      (∃ r, (sampleTree expf junk grid logits edges perm : ExceptT PyErr Poss _).run r) ∧
      ∀ r, (sampleTree expf junk grid logits edges perm : ExceptT PyErr Poss _).run r →
        ∃ out, r = .ok out ∧ IsTree V out ∧ (2 ≤ edges.length ∨ Canonical edges → Canonical out) := by
  refine ⟨completeGrid V, makeCompleteGraph_eq V, ?_⟩
  have hV := h.card
  by_cases hE : edges.length ≤ 1
  · have : (sampleTree expf junk (completeGrid V) logits edges perm : ExceptT PyErr Poss _) = pure edges := by
      unfold sampleTree; rw [if_pos hE]
    rw [this]
    refine ⟨⟨.ok edges, rfl⟩, ?_⟩
    rintro r hr
    have hr' : r = .ok edges := hr
    refine ⟨edges, hr', h, ?_⟩
    rintro (h2 | h2)
    · omega
    · exact h2
  · have hmem : ∀ e ∈ perm, e < edges.length := fun e he => List.mem_range.1 (hp.mem_iff.1 he)
    have hmem' : ∀ e ∈ perm, e + 1 < V := fun e he => by have := hmem e he; omega
    obtain ⟨s, h1, I, -⟩ := treeStateInit_spec h junk
    obtain ⟨⟨s1, h2⟩, h3⟩ := sampleTreeFold_poss expf hl perm s I hmem'
    obtain ⟨fin, hrun, hfin⟩ : ∃ fin : List Nat → ExceptT PyErr Poss (List Edge),
        (sampleTree expf junk (completeGrid V) logits edges perm : ExceptT PyErr Poss _)
          = (perm.foldlM (sampleTreeStep expf (completeGrid V) logits) s >>= fun s => fin s.e2k) ∧
        ∀ ω, LTree V ω → fin ω = pure (canonOf V ω) := by
      refine ⟨fun (ω : List Nat) => do
          let out ← liftPy (ω.mapM fun k => do
            let c ← pyGet (completeGrid V) k
            .ok (c.2.1, c.2.2))
          liftPy (pyAssert ((out.insertionSort edgeLe).length == edges.length))
          pure (out.insertionSort edgeLe), ?_, fun ω hω => finish_ok hω hV⟩
      unfold sampleTree
      rw [if_neg hE, h1, liftPy_ok_bind]
    rw [hrun]
    constructor
    · obtain ⟨s1', h4, I1⟩ := h3 _ h2
      cases h4
      refine ⟨.ok (canonOf V s1.e2k), (poss_run_bind _ _ _).2 (.inl ⟨s1, h2, ?_⟩)⟩
      rw [hfin _ I1.ltree]
      rfl
    · intro r hr
      rcases (poss_run_bind _ _ _).1 hr with ⟨s2, h4, h5⟩ | ⟨er, h4, -⟩
      · obtain ⟨_, h6, I2⟩ := h3 _ h4
        cases h6
        rw [hfin _ I2.ltree] at h5
        exact ⟨_, h5, (canonOf_spec I2.ltree).2, fun _ => (canonOf_spec I2.ltree).1⟩
      · obtain ⟨_, h5, -⟩ := h3 _ h4
        cases h5

end

/-! ## C06: the array sets -/

theorem rep_of_holds {row : List Nat} {S : Finset Nat} (h : HoldsSet row S) :
    ∃ items, Rep row.length row items ∧ items.toFinset = S ∧ items.length = S.card := by
  obtain ⟨items, rest, h1, h2, h3⟩ := h
  exact ⟨items, ⟨rfl, h2, rest, h1⟩, h3, by rw [← h3, List.toFinset_card_of_nodup h2]⟩

theorem holds_of_rep {n : Nat} {row items : List Nat} (h : Rep n row items) : HoldsSet row items.toFinset := by
  obtain ⟨rest, h1⟩ := h.eq
  exact ⟨items, rest, h1, h.nodup, rfl⟩

/-- **C06** (sets). `jit_set_add` of a new element, with room for it, writes inside
the row and the row then holds the set with the element inserted. -/
theorem jitSetAdd_insert (row : List Nat) (S : Finset Nat) (x : Nat) (h : HoldsSet row S) (hx : x ∉ S)
    (hroom : S.card + 1 < row.length) :
    ∃ row', jitSetAdd row x = .ok row' ∧ row'.length = row.length ∧ HoldsSet row' (insert x S) := by
  obtain ⟨items, h1, h2, h3⟩ := rep_of_holds h
  have hxi : x ∉ items := by rw [← List.mem_toFinset, h2]; exact hx
  obtain ⟨row', h4, h5⟩ := jitSetAdd_rep h1 hxi (by rw [h3]; exact hroom)
  refine ⟨row', h4, h5.length, ?_⟩
  have h6 := holds_of_rep h5
  have h7 : (items ++ [x]).toFinset = insert x S := by
    rw [← h2]; ext y; simp
  rwa [h7] at h6

/-- **C06** (sets). `jit_set_remove` of an element ends, stays inside the row, and
the row then holds the set without it. -/
theorem jitSetRemove_erase (row : List Nat) (S : Finset Nat) (x : Nat) (h : HoldsSet row S) (hx : x ∈ S) :
    ∃ row', jitSetRemove row x = .ok row' ∧ row'.length = row.length ∧ HoldsSet row' (S.erase x) := by
  obtain ⟨items, h1, h2, -⟩ := rep_of_holds h
  have hxi : x ∈ items := by rw [← List.mem_toFinset, h2]; exact hx
  obtain ⟨row', items', h4, h5, h6⟩ := jitSetRemove_rep h1 hxi
  refine ⟨row', h4, h5.length, ?_⟩
  have h7 := holds_of_rep h5
  have h8 : items'.toFinset = S.erase x := by
    rw [← h2]; ext y
    rw [List.mem_toFinset, h6.mem_iff, h1.nodup.mem_erase_iff, Finset.mem_erase, List.mem_toFinset]
  rwa [h8] at h7

/-- **C06** (sets). `jit_set_pop` of a nonempty set returns one of its elements and
the row then holds the others. -/
theorem jitSetPop_erase (row : List Nat) (S : Finset Nat) (h : HoldsSet row S) (hS : S.Nonempty) :
    ∃ row' x, jitSetPop row = .ok (row', x) ∧ x ∈ S ∧ row'.length = row.length ∧
      HoldsSet row' (S.erase x) := by
  obtain ⟨items, h1, h2, -⟩ := rep_of_holds h
  rcases List.eq_nil_or_concat items with h0 | ⟨l, x, h0⟩
  · subst h0
    simp only [List.toFinset_nil] at h2
    exact absurd (h2 ▸ hS) Finset.not_nonempty_empty
  · rw [List.concat_eq_append] at h0
    subst h0
    obtain ⟨row', h3, h4⟩ := jitSetPop_rep h1
    have hnd := h1.nodup
    have hxl : x ∉ l := by
      intro hx
      rw [List.nodup_append] at hnd
      exact hnd.2.2 x hx x (by simp) rfl
    refine ⟨row', x, h3, by rw [← h2]; simp, h4.length, ?_⟩
    have h5 := holds_of_rep h4
    have h6 : l.toFinset = S.erase x := by
      rw [← h2]; ext y
      simp only [List.mem_toFinset, Finset.mem_erase, List.mem_append, List.mem_singleton]
      constructor
      · intro hy; exact ⟨fun h => hxl (h ▸ hy), .inl hy⟩
      · rintro ⟨h, h' | h'⟩
        · exact h'
        · exact absurd h' h
    rwa [h6] at h5

example : HoldsSet [3, 7, 2, 9, 4, 4] {2, 7, 9} := ⟨[7, 2, 9], [4, 4], rfl, by decide, by decide⟩
example : jitSetRemove [3, 7, 2, 9, 4, 4] 7 = .ok [2, 9, 2, 9, 4, 4] := by decide
example : jitSetAdd [3, 7, 2, 9, 4, 4] 5 = .ok [4, 7, 2, 9, 5, 4] := by decide

/-- The hypotheses of C05 hold for a tree on five vertices. -/
example : ∃ grid, makeCompleteGraph 5 = .ok grid ∧
    ∀ r, (sampleTree (K := ℚ) (fun x => 1 + x * x) (fun k => 7 * k) grid
        [1, -2, 3, 0, 5, 1, 1, 2, -7, 4] exTree [2, 0, 3, 1] : ExceptT PyErr Poss _).run r →
      ∃ out, r = .ok out ∧ IsTree 5 out ∧ Canonical out := by
  obtain ⟨g, h1, -, h2⟩ := sampleTree_isTree (K := ℚ) (fun x => 1 + x * x) 5 exTree
    exTree_isTree (fun k => 7 * k) [1, -2, 3, 0, 5, 1, 1, 2, -7, 4] rfl [2, 0, 3, 1] (by decide)
  refine ⟨g, h1, fun r hr => ?_⟩
  obtain ⟨out, h3, h4, h5⟩ := h2 r hr
  exact ⟨out, h3, h4, h5 (.inl (by decide))⟩

/-- Also with weights that are all zero. -/
example : ∃ grid, makeCompleteGraph 5 = .ok grid ∧
    ∀ r, (sampleTree (K := ℚ) (fun _ => 0) (fun k => 7 * k) grid
        [1, -2, 3, 0, 5, 1, 1, 2, -7, 4] exTree [2, 0, 3, 1] : ExceptT PyErr Poss _).run r →
      ∃ out, r = .ok out ∧ IsTree 5 out ∧ Canonical out := by
  obtain ⟨g, h1, -, h2⟩ := sampleTree_isTree (K := ℚ) (fun _ => 0) 5 exTree
    exTree_isTree (fun k => 7 * k) [1, -2, 3, 0, 5, 1, 1, 2, -7, 4] rfl [2, 0, 3, 1] (by decide)
  refine ⟨g, h1, fun r hr => ?_⟩
  obtain ⟨out, h3, h4, h5⟩ := h2 r hr
  exact ⟨out, h3, h4, h5 (.inl (by decide))⟩

end TreeCat
