import Verif.Lemmas.ServeMsg

/-!
# Ancestors in the order of a propagation program
-/

set_option linter.unusedSectionVars false

namespace TreeCat

open Spec

section
variable {V r : Nat} {par : Nat → Nat} {ch : Nat → List Nat} {L : List Nat}

/-- `u` is `x` or an ancestor of `x`. -/
inductive Under (par : Nat → Nat) (r u : Nat) : Nat → Prop
  | self : Under par r u u
  | step {x : Nat} : x ≠ r → Under par r u (par x) → Under par r u x

theorem Topo.par_lt (T : Topo V r par ch L) {v : Nat} (hv : v < V) (hvr : v ≠ r) : par v < V := by
  obtain ⟨A, B, hL⟩ := List.append_of_mem (T.mem.2 hv)
  exact T.mem.1 (by rw [hL]; exact List.mem_append_left _ (T.before A v B hL hvr))

/-- From the leaves to the root. -/
theorem Topo.leafInduction (T : Topo V r par ch L) {P : Nat → Prop} (h : ∀ v < V, (∀ c ∈ ch v, P c) → P v) :
    ∀ v < V, P v := by
  have key : ∀ B A, L = A ++ B → ∀ v ∈ B, P v := by
    intro B
    induction B with
    | nil => intro A _ v hv; simp at hv
    | cons x B ih =>
      intro A hL
      have ih' := ih (A ++ [x]) (by rw [hL]; simp)
      have hx : P x := by
        have hxV : x < V := T.mem.1 (by rw [hL]; simp)
        refine h x hxV fun c hc => ?_
        obtain ⟨h1, h2, h3⟩ := (T.ch_mem x hxV c).1 hc
        have hn := T.nodup
        rw [hL, List.nodup_append, List.nodup_cons] at hn
        have hcL : c ∈ A ++ x :: B := by rw [← hL]; exact T.mem.2 h1
        rcases List.mem_append.1 hcL with hcA | hcB
        · exfalso
          obtain ⟨A1, A2, hA⟩ := List.append_of_mem hcA
          have := T.before A1 c (A2 ++ x :: B) (by rw [hL, hA]; simp) h2
          rw [h3] at this
          exact hn.2.2 x (by rw [hA]; simp [this]) x (by simp) rfl
        · rcases List.mem_cons.1 hcB with rfl | hcB
          · exfalso
            have := T.before A c B hL h2
            rw [h3] at this
            exact hn.2.2 c this c (by simp) rfl
          · exact ih' c hcB
      intro v hv
      rcases List.mem_cons.1 hv with rfl | hv
      · exact hx
      · exact ih' v hv
  exact fun v hv => key L [] rfl v (T.mem.2 hv)

/-- From the root to the leaves. -/
theorem Topo.rootInduction (T : Topo V r par ch L) {P : Nat → Prop} (h0 : P r)
    (h : ∀ v < V, v ≠ r → P (par v) → P v) : ∀ v < V, P v := by
  have key : ∀ A B, L = A ++ B → ∀ v ∈ A, P v := by
    intro A
    induction A using List.reverseRecOn with
    | nil => intro B _ v hv; simp at hv
    | append_singleton A x ih =>
      intro B hL v hv
      have ih' := ih (x :: B) (by rw [hL]; simp)
      rcases List.mem_append.1 hv with hv | hv
      · exact ih' v hv
      · rw [List.mem_singleton] at hv
        subst hv
        by_cases hvr : v = r
        · rw [hvr]; exact h0
        · exact h v (T.mem.1 (by rw [hL]; simp)) hvr (ih' _ (T.before A v B (by rw [hL]; simp) hvr))
  exact fun v hv => key L [] (by simp) v (T.mem.2 hv)

/-- Parents come first. -/
theorem Topo.rank (T : Topo V r par ch L) : ∃ d : Nat → Nat, ∀ v < V, v ≠ r → d (par v) < d v := by
  refine ⟨fun v => L.idxOf v, fun v hv hvr => ?_⟩
  obtain ⟨A, B, hL⟩ := List.append_of_mem (T.mem.2 hv)
  have hpA := T.before A v B hL hvr
  have hvA : v ∉ A := by
    have hn := T.nodup
    rw [hL, List.nodup_append] at hn
    exact fun hA => hn.2.2 v hA v (by simp) rfl
  change L.idxOf (par v) < L.idxOf v
  rw [hL, List.idxOf_append_of_mem hpA, List.idxOf_append_of_notMem hvA, List.idxOf_cons_self]
  have := List.idxOf_lt_length_of_mem hpA
  omega

theorem Under.trans {u v w : Nat} (h1 : Under par r u v) (h2 : Under par r v w) : Under par r u w := by
  induction h2 with
  | self => exact h1
  | step hx _ ih => exact .step hx ih

/-- Two ancestors of a vertex are comparable. -/
theorem Under.linear {u v w : Nat} (h1 : Under par r u w) (h2 : Under par r v w) : Under par r u v ∨ Under par r v u := by
  induction h1 with
  | self => exact .inr h2
  | step hx h ih =>
    cases h2 with
    | self => exact .inl (.step hx h)
    | step _ h2 => exact ih h2

theorem Under.lt (T : Topo V r par ch L) {u v : Nat} (h : Under par r u v) (hv : v < V) : u < V := by
  induction h with
  | self => exact hv
  | step hx _ ih => exact ih (T.par_lt hv hx)

theorem Under.rank {d : Nat → Nat} (T : Topo V r par ch L) (hd : ∀ v < V, v ≠ r → d (par v) < d v) {u v : Nat}
    (h : Under par r u v) (hv : v < V) : d u ≤ d v := by
  induction h with
  | self => exact le_refl _
  | step hx _ ih => exact le_of_lt (lt_of_le_of_lt (ih (T.par_lt hv hx)) (hd _ hv hx))

theorem Under.root (T : Topo V r par ch L) : ∀ v < V, Under par r r v :=
  T.rootInduction .self fun _ _ hvr ih => .step hvr ih

/-- The parent of a vertex above `v` is above `v`. -/
theorem Under.parent {w v : Nat} (h : Under par r w v) (hw : w ≠ r) : Under par r (par w) v := by
  induction h with
  | self => exact .step hw .self
  | step hx _ ih => exact .step hx ih

/-- Siblings of the ancestors of `v`, and what is below them, are unrelated to `v`. -/
theorem Under.unrelated (T : Topo V r par ch L) {v w c x : Nat} (hv : v < V) (hc : c < V) (hw : w ≠ r) (hcr : c ≠ r)
    (hpar : par c = par w) (hcw : c ≠ w) (h : Under par r w v) (hcx : Under par r c x) :
    ¬ Under par r x v ∧ ¬ Under par r v x := by
  obtain ⟨d, hd⟩ := T.rank
  have hwV := h.lt T hv
  have d1 := hd w hwV hw
  have d2 := hd c hc hcr
  have hcv : ¬ Under par r c v := by
    intro h'
    rcases h'.linear h with h'' | h''
    · cases h'' with
      | self => exact hcw rfl
      | step _ h3 =>
        have := h3.rank T hd (T.par_lt hwV hw)
        rw [← hpar] at this
        omega
    · cases h'' with
      | self => exact hcw rfl
      | step _ h3 =>
        have := h3.rank T hd (T.par_lt hc hcr)
        rw [hpar] at this
        omega
  refine ⟨fun h' => hcv (hcx.trans h'), fun h' => ?_⟩
  rcases hcx.linear h' with h'' | h''
  · exact hcv h''
  · cases h'' with
    | self => exact hcv .self
    | step _ h3 =>
      have a1 := h3.rank T hd (T.par_lt hc hcr)
      have a2 := h.rank T hd hv
      rw [hpar] at a1
      omega

end

end TreeCat
