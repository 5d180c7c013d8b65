import Verif.Lemmas.Center
import Verif.Lemmas.JitSet

/-!
# Removing one edge of a tree

Removing an edge splits a tree in two; putting any edge between the two parts
gives a tree again, and nothing else does.
-/

namespace TreeCat

open Spec

/-- `u` and `v` are connected. -/
abbrev Reach (edges : List (Nat × Nat)) : Nat → Nat → Prop := Relation.ReflTransGen (Adj edges)

theorem Reach.symm' {edges : List (Nat × Nat)} {u v : Nat} (h : Reach edges u v) : Reach edges v u := by
  induction h with
  | refl => exact .refl
  | tail _ h2 ih => exact .head h2.symm ih

theorem Reach.mono' {l l' : List (Nat × Nat)} (h : ∀ u v, Adj l u v → Adj l' u v) {u v : Nat}
    (hr : Reach l u v) : Reach l' u v := by
  induction hr with
  | refl => exact .refl
  | tail _ h2 ih => exact ih.tail (h _ _ h2)

theorem adj_iff_mem (l : List (Nat × Nat)) (u v : Nat) :
    Adj l u v ↔ s(u, v) ∈ l.map fun e => s(e.1, e.2) := by
  rw [List.mem_map]
  constructor
  · rintro (h | h)
    · exact ⟨_, h, rfl⟩
    · exact ⟨_, h, Sym2.eq_swap⟩
  · rintro ⟨⟨a, b⟩, hm, he⟩
    rcases Sym2.eq_iff.1 he with ⟨h1, h2⟩ | ⟨h1, h2⟩
    · left; simp only at h1 h2; rw [← h1, ← h2]; exact hm
    · right; simp only at h1 h2; rw [← h1, ← h2]; exact hm

section
variable {V : Nat} {edges : List (Nat × Nat)} {e a b : Nat} {d par : Nat → Nat}

/-- The split of a tree at edge number `e`, rooted at one end of it. -/
structure Split (V : Nat) (edges : List (Nat × Nat)) (e a b : Nat) (d par : Nat → Nat) : Prop where
  rooted : Rooted V edges a d par
  get : edges[e]? = some (a, b)
  ne : b ≠ a
  par_b : par b = a
  lt_b : b < V

theorem exists_split (ht : IsTree V edges) (he : edges[e]? = some (a, b)) :
    ∃ d par, Split V edges e a b d par := by
  have hm : (a, b) ∈ edges := List.mem_of_getElem? he
  have hr := ht.range _ hm
  obtain ⟨d, par, R⟩ := exists_rooted ht hr.1
  have hadj : Adj edges a b := .inl hm
  refine ⟨d, par, R, he, ?_, ?_, hr.2⟩
  · rcases R.edge _ _ hadj with ⟨h, -⟩ | ⟨h, -⟩
    · exact absurd rfl h
    · exact h
  · rcases R.edge _ _ hadj with ⟨h, -⟩ | ⟨-, h⟩
    · exact absurd rfl h
    · exact h

theorem Split.adj_forest (S : Split V edges e a b d par) (x y : Nat) :
    Adj (edges.eraseIdx e) x y ↔ Adj edges x y ∧ ¬ ((x = a ∧ y = b) ∨ (x = b ∧ y = a)) := by
  have hlt : e < edges.length := by
    by_contra h
    have := S.get
    rw [List.getElem?_eq_none (by omega)] at this; simp at this
  have hget : edges[e] = (a, b) := by
    have := S.get
    rw [List.getElem?_eq_getElem hlt] at this
    simpa using this
  rw [adj_iff_mem, adj_iff_mem]
  have hn := S.rooted.nodup
  set l := edges.map fun e => s(e.1, e.2) with hl
  have h1 : (edges.eraseIdx e).map (fun e => s(e.1, e.2)) = l.eraseIdx e := by
    rw [hl, List.eraseIdx_map]
  have hle : e < l.length := by simpa [hl] using hlt
  have h2 : l[e] = s(a, b) := by simp [hl, hget]
  rw [h1, ← List.Nodup.erase_getElem hn e hle, hn.mem_erase_iff, h2]
  rw [and_comm, ne_eq, Sym2.eq_iff]

theorem Split.d_b (S : Split V edges e a b d par) : d b = 1 := by
  rw [S.rooted.d_par b S.lt_b S.ne, S.par_b, S.rooted.d_root]

theorem Split.not_sub_a (S : Split V edges e a b d par) : ¬ Sub V par a b a := by
  intro h
  have := h.d_le S.rooted
  rw [S.rooted.d_root, S.d_b] at this; omega

theorem Split.sub_adj (S : Split V edges e a b d par) {x y : Nat} (h : Adj (edges.eraseIdx e) x y) :
    Sub V par a b x ↔ Sub V par a b y := by
  have key : ∀ x y, x ≠ a → par x = y → Adj (edges.eraseIdx e) x y →
      (Sub V par a b x ↔ Sub V par a b y) := by
    rintro x _ hx rfl h
    rw [S.adj_forest] at h
    constructor
    · intro hs
      cases hs with
      | refl => exact absurd (.inr ⟨rfl, S.par_b⟩) h.2
      | step _ _ h3 => exact h3
    · intro hs
      exact .step (S.rooted.range _ _ h.1).1 hx hs
  have h' := (S.adj_forest x y).1 h
  rcases S.rooted.edge _ _ h'.1 with ⟨h1, h2⟩ | ⟨h1, h2⟩
  · exact key x y h1 h2 h
  · exact (key y x h1 h2 h.symm).symm

theorem Split.reach_a (S : Split V edges e a b d par) : ∀ n, ∀ x < V, d x = n → ¬ Sub V par a b x →
    Reach (edges.eraseIdx e) x a := by
  intro n
  induction n with
  | zero =>
    intro x hx hd _
    by_cases h : x = a
    · subst h; exact .refl
    · have := S.rooted.d_pos hx h; omega
  | succ n ih =>
    intro x hx hd hs
    by_cases h : x = a
    · subst h; exact .refl
    · have h1 := S.rooted.d_par x hx h
      have h2 : ¬ Sub V par a b (par x) := fun hc => hs (.step hx h hc)
      refine .head ((S.adj_forest _ _).2 ⟨S.rooted.par_adj x hx h, ?_⟩)
        (ih _ (S.rooted.par_lt x hx h) (by omega) h2)
      rintro (⟨h3, -⟩ | ⟨h3, -⟩)
      · exact h h3
      · exact hs (h3 ▸ .refl)

theorem Split.reach_b (S : Split V edges e a b d par) {x : Nat} (hs : Sub V par a b x) :
    Reach (edges.eraseIdx e) x b := by
  induction hs with
  | refl => exact .refl
  | @step x h1 h2 h3 ih =>
    refine .head ((S.adj_forest _ _).2 ⟨S.rooted.par_adj x h1 h2, ?_⟩) ih
    rintro (⟨h4, -⟩ | ⟨-, h5⟩)
    · exact h2 h4
    · rw [h5] at h3; exact S.not_sub_a h3

/-- Two vertices are connected after the removal iff they are on the same side. -/
theorem Split.reach_iff (S : Split V edges e a b d par) {x y : Nat} (hx : x < V) (hy : y < V) :
    Reach (edges.eraseIdx e) x y ↔ (Sub V par a b x ↔ Sub V par a b y) := by
  constructor
  · intro h
    induction h with
    | refl => exact Iff.rfl
    | tail _ h2 ih =>
      have h3 := (S.rooted.range _ _ ((S.adj_forest _ _).1 h2).1).1
      exact (ih h3).trans (S.sub_adj h2)
  · intro h
    by_cases hs : Sub V par a b x
    · exact (S.reach_b hs).trans (S.reach_b (h.1 hs)).symm'
    · exact (S.reach_a _ x hx rfl hs).trans (S.reach_a _ y hy rfl (fun hc => hs (h.2 hc))).symm'

theorem Split.not_reach (S : Split V edges e a b d par) : ¬ Reach (edges.eraseIdx e) a b := by
  rw [S.reach_iff S.rooted.root_lt S.lt_b]
  intro h
  exact S.not_sub_a (h.2 .refl)

/-- Replacing one edge of a tree gives a tree iff the new edge joins two vertices
that the removal disconnected. -/
theorem isTree_set_iff (ht : IsTree V edges) (he : e < edges.length) {x y : Nat} (hx : x < V) (hy : y < V) :
    IsTree V (edges.set e (x, y)) ↔ ¬ Reach (edges.eraseIdx e) x y := by
  constructor
  · intro h
    obtain ⟨d, par, S⟩ := exists_split h (e := e) (a := x) (b := y)
      (by rw [List.getElem?_set]; simp [he])
    have := S.not_reach
    rwa [List.eraseIdx_set_eq] at this
  · intro hn
    obtain ⟨d, par, S⟩ := exists_split ht (e := e) (a := edges[e].1) (b := edges[e].2)
      (by rw [List.getElem?_eq_getElem he])
    have hmono : ∀ u v, Adj (edges.eraseIdx e) u v → Adj (edges.set e (x, y)) u v := by
      intro u v h
      have hsub : ∀ p, p ∈ edges.eraseIdx e → p ∈ edges.set e (x, y) := by
        intro p hp
        rw [← List.eraseIdx_set_eq (l := edges) (i := e) (a := (x, y))] at hp
        exact List.mem_of_mem_eraseIdx hp
      exact h.imp (hsub _) (hsub _)
    have hxy : Adj (edges.set e (x, y)) x y := .inl (List.mem_set he _)
    have hside : ∀ z < V, Reach (edges.set e (x, y)) z x := by
      intro z hz
      by_cases hzx : Reach (edges.eraseIdx e) z x
      · exact hzx.mono' hmono
      · have hzy : Reach (edges.eraseIdx e) z y := by
          rw [S.reach_iff hz hx] at hzx
          rw [S.reach_iff hx hy] at hn
          rw [S.reach_iff hz hy]
          tauto
        exact (hzy.mono' hmono).tail hxy.symm
    refine ⟨by simpa using ht.card, ?_, fun u hu v hv => (hside u hu).trans (hside v hv).symm'⟩
    intro p hp
    rcases List.mem_or_eq_of_mem_set hp with h | h
    · exact ht.range p h
    · subst h; exact ⟨hx, hy⟩

end

end TreeCat
