import Mathlib.Data.Fintype.Card
import Mathlib.Data.List.Range
import Mathlib.Data.Nat.Find
import Mathlib.Tactic.Linarith
import Mathlib.Data.Fintype.EquivFin
import Verif.Spec.Tree
import Verif.Model.Structure
import Verif.Lemmas.Complete

/-!
# Rooted view of a tree

For every tree and every choice of root there are a depth and a parent function;
every edge joins a vertex to its parent.
-/

namespace TreeCat

open Spec

theorem Spec.Adj.symm {edges : List (Nat × Nat)} {u v : Nat} (h : Adj edges u v) : Adj edges v u :=
  Or.symm h

theorem Spec.Adj.lt {V : Nat} {edges : List (Nat × Nat)} (hr : ∀ e ∈ edges, e.1 < V ∧ e.2 < V)
    {u v : Nat} (h : Adj edges u v) : u < V ∧ v < V := by
  rcases h with h | h
  · exact hr _ h
  · exact (hr _ h).symm

theorem Spec.Walk.snoc {edges : List (Nat × Nat)} {n u v w : Nat} (h : Walk edges n u v)
    (ha : Adj edges v w) : Walk edges (n + 1) u w := by
  induction h with
  | nil u => exact .cons ha (.nil _)
  | cons h1 _ ih => exact .cons h1 (ih ha)

theorem Spec.Walk.symm {edges : List (Nat × Nat)} {n u v : Nat} (h : Walk edges n u v) :
    Walk edges n v u := by
  induction h with
  | nil u => exact .nil u
  | cons h1 _ ih => exact ih.snoc h1.symm

theorem Spec.Walk.append {edges : List (Nat × Nat)} {m n u v w : Nat} (h : Walk edges m u v)
    (h' : Walk edges n v w) : Walk edges (m + n) u w := by
  induction h with
  | nil u => simpa using h'
  | @cons k a b c h1 _ ih =>
    rw [show k + 1 + n = k + n + 1 by omega]
    exact .cons h1 (ih h')

theorem Spec.Walk.last {edges : List (Nat × Nat)} {n u w : Nat} (h : Walk edges (n + 1) u w) :
    ∃ v, Walk edges n u v ∧ Adj edges v w := by
  have := h.symm
  cases this with
  | cons h1 h2 => exact ⟨_, h2.symm, h1.symm⟩

theorem Spec.Walk.lt {V : Nat} {edges : List (Nat × Nat)} (hr : ∀ e ∈ edges, e.1 < V ∧ e.2 < V)
    {n u v : Nat} (h : Walk edges n u v) (hu : u < V) : v < V := by
  induction h with
  | nil u => exact hu
  | cons h1 _ ih => exact ih (h1.lt hr).2

theorem Spec.IsTree.walk {V : Nat} {edges : List (Nat × Nat)} (h : IsTree V edges) {u v : Nat}
    (hu : u < V) (hv : v < V) : ∃ n, Walk edges n u v := by
  have := h.conn u hu v hv
  induction this with
  | refl => exact ⟨0, .nil _⟩
  | tail _ h2 ih =>
    obtain ⟨n, hn⟩ := ih (h2.lt h.range).1
    exact ⟨n + 1, hn.snoc h2⟩

/-- A checkable sufficient condition: every vertex but 0 has a smaller neighbour. -/
theorem isTree_of_smaller {V : Nat} {edges : List (Nat × Nat)} (hc : edges.length + 1 = V)
    (hr : ∀ e ∈ edges, e.1 < V ∧ e.2 < V)
    (h : ∀ v < V, v ≠ 0 → ∃ u < v, Adj edges v u) : IsTree V edges := by
  have to0 : ∀ v, v < V → Relation.ReflTransGen (Adj edges) v 0 := by
    intro v
    induction v using Nat.strong_induction_on with
    | _ v ih =>
      intro hv
      by_cases h0 : v = 0
      · subst h0; exact .refl
      · obtain ⟨u, hu, ha⟩ := h v hv h0
        exact .head ha (ih u hu (by omega))
  have sym : ∀ {u v}, Relation.ReflTransGen (Adj edges) u v → Relation.ReflTransGen (Adj edges) v u := by
    intro u v h
    induction h with
    | refl => exact .refl
    | tail _ h2 ih => exact .head h2.symm ih
  exact ⟨hc, hr, fun u hu v hv => (to0 u hu).trans (sym (to0 v hv))⟩

/-- A rooting of a tree: depth `d` and parent `par`. -/
structure Rooted (V : Nat) (edges : List (Nat × Nat)) (r : Nat) (d par : Nat → Nat) : Prop where
  root_lt : r < V
  d_root : d r = 0
  par_lt : ∀ v < V, v ≠ r → par v < V
  par_adj : ∀ v < V, v ≠ r → Adj edges v (par v)
  d_par : ∀ v < V, v ≠ r → d v = d (par v) + 1
  edge : ∀ u v, Adj edges u v → (u ≠ r ∧ par u = v) ∨ (v ≠ r ∧ par v = u)
  range : ∀ u v, Adj edges u v → u < V ∧ v < V
  walk : ∀ v < V, Walk edges (d v) r v
  short : ∀ v n, Walk edges n r v → d v ≤ n
  nodup : (edges.map fun e => s(e.1, e.2)).Nodup
  card : edges.length + 1 = V

theorem exists_rooted {V : Nat} {edges : List (Nat × Nat)} (h : IsTree V edges) {r : Nat}
    (hr : r < V) : ∃ d par, Rooted V edges r d par := by
  classical
  have hw : ∀ v, v < V → ∃ n, Walk edges n r v := fun v hv => h.walk hr hv
  let d : Nat → Nat := fun v => if hv : v < V then Nat.find (hw v hv) else 0
  have hd : ∀ v (hv : v < V), d v = Nat.find (hw v hv) := fun v hv => by simp [d, hv]
  have hdw : ∀ v < V, Walk edges (d v) r v := fun v hv => by
    rw [hd v hv]; exact Nat.find_spec (hw v hv)
  have hshort : ∀ v n, Walk edges n r v → d v ≤ n := fun v n hn => by
    rw [hd v (hn.lt h.range hr)]; exact Nat.find_min' _ hn
  have hd0 : d r = 0 := Nat.le_zero.1 (hshort r 0 (.nil r))
  have hpar : ∀ v, v < V ∧ v ≠ r → ∃ u, u < V ∧ Adj edges v u ∧ d v = d u + 1 := by
    rintro v ⟨hv, hne⟩
    have hwv := hdw v hv
    cases hdv : d v with
    | zero =>
      rw [hdv] at hwv
      cases hwv
      exact absurd rfl hne
    | succ n =>
      rw [hdv] at hwv
      obtain ⟨u, hu, hadj⟩ := hwv.last
      have huV := (hadj.lt h.range).1
      refine ⟨u, huV, hadj.symm, ?_⟩
      have h1 := hshort u n hu
      have h2 := hshort v _ ((hdw u huV).snoc hadj)
      omega
  let par : Nat → Nat := fun v => if hv : v < V ∧ v ≠ r then Classical.choose (hpar v hv) else 0
  have hp : ∀ v < V, v ≠ r → par v < V ∧ Adj edges v (par v) ∧ d v = d (par v) + 1 := by
    intro v hv hne
    have : par v = Classical.choose (hpar v ⟨hv, hne⟩) := by simp [par, hv, hne]
    rw [this]
    exact Classical.choose_spec (hpar v ⟨hv, hne⟩)
  -- each non-root vertex occupies its own edge
  have hidx : ∀ v : {v : Fin V // v.val ≠ r}, ∃ j : Fin edges.length,
      s(edges[j].1, edges[j].2) = s(v.1.val, par v.1.val) := by
    rintro ⟨⟨v, hv⟩, hne⟩
    rcases (hp v hv hne).2.1 with he | he
    · obtain ⟨j, hj, hje⟩ := List.getElem_of_mem he
      exact ⟨⟨j, hj⟩, by simp [hje]⟩
    · obtain ⟨j, hj, hje⟩ := List.getElem_of_mem he
      exact ⟨⟨j, hj⟩, by simp [hje, Sym2.eq_swap]⟩
  choose idx hidx using hidx
  have hsym : ∀ v < V, v ≠ r → ∀ w < V, w ≠ r → s(v, par v) = s(w, par w) → v = w := by
    intro v hv hvr w hw hwr he
    rcases Sym2.eq_iff.1 he with ⟨h1, -⟩ | ⟨h1, h2⟩
    · exact h1
    · have a := (hp v hv hvr).2.2
      have b := (hp w hw hwr).2.2
      rw [h2] at a; rw [← h1] at b
      omega
  have hinj : Function.Injective idx := by
    rintro ⟨⟨v, hv⟩, hvr⟩ ⟨⟨w, hw⟩, hwr⟩ he
    have h1 := hidx ⟨⟨v, hv⟩, hvr⟩
    have h2 := hidx ⟨⟨w, hw⟩, hwr⟩
    rw [he] at h1
    have := hsym v hv hvr w hw hwr (h1.symm.trans h2)
    subst this
    rfl
  have hcard : Fintype.card {v : Fin V // v.val ≠ r} = Fintype.card (Fin edges.length) := by
    have : Fintype.card {v : Fin V // v.val ≠ r} = V - 1 := by
      have h1 : Fintype.card {v : Fin V // v ≠ ⟨r, hr⟩} = V - 1 := by
        rw [Fintype.card_subtype_compl, Fintype.card_subtype_eq, Fintype.card_fin]
      rw [← h1]
      apply Fintype.card_congr
      exact Equiv.subtypeEquivRight fun v => by rw [ne_eq, ne_eq, Fin.ext_iff]
    rw [this, Fintype.card_fin]
    have := h.card; omega
  have hsurj : Function.Surjective idx :=
    ((Fintype.bijective_iff_injective_and_card idx).2 ⟨hinj, hcard⟩).2
  refine ⟨d, par, hr, hd0, fun v hv hne => (hp v hv hne).1, fun v hv hne => (hp v hv hne).2.1,
    fun v hv hne => (hp v hv hne).2.2, ?_, fun u v ha => ha.lt h.range, hdw, hshort, ?_, h.card⟩
  · have key : ∀ e ∈ edges, (e.1 ≠ r ∧ par e.1 = e.2) ∨ (e.2 ≠ r ∧ par e.2 = e.1) := by
      intro e he
      obtain ⟨j, hj, rfl⟩ := List.getElem_of_mem he
      obtain ⟨⟨⟨v, hv⟩, hvr⟩, hvj⟩ := hsurj ⟨j, hj⟩
      have := hidx ⟨⟨v, hv⟩, hvr⟩
      rw [hvj] at this
      simp only [Fin.getElem_fin] at this
      rcases Sym2.eq_iff.1 this with ⟨h1, h2⟩ | ⟨h1, h2⟩
      · left; rw [h1]; exact ⟨hvr, h2.symm⟩
      · right; rw [h2]; exact ⟨hvr, h1.symm⟩
    rintro u v (ha | ha)
    · exact key _ ha
    · exact (key _ ha).symm
  · rw [List.nodup_iff_getElem?_ne_getElem?]
    intro i j hij hj he
    simp only [List.length_map] at hj
    rw [List.getElem?_map, List.getElem?_map, List.getElem?_eq_getElem (by omega : i < edges.length),
      List.getElem?_eq_getElem hj] at he
    simp only [Option.map_some, Option.some.injEq] at he
    obtain ⟨⟨⟨v, hv⟩, hvr⟩, hvj⟩ := hsurj ⟨i, by omega⟩
    obtain ⟨⟨⟨w, hw⟩, hwr⟩, hwj⟩ := hsurj ⟨j, hj⟩
    have h1 := hidx ⟨⟨v, hv⟩, hvr⟩
    have h2 := hidx ⟨⟨w, hw⟩, hwr⟩
    rw [hvj] at h1; rw [hwj] at h2
    simp only [Fin.getElem_fin] at h1 h2
    have := hsym v hv hvr w hw hwr (by rw [← h1, ← h2]; exact he)
    subst this
    have := hvj.symm.trans hwj
    simp only [Fin.mk.injEq] at this
    omega

namespace Rooted

variable {V : Nat} {edges : List (Nat × Nat)} {r : Nat} {d par : Nat → Nat}

theorem d_pos (R : Rooted V edges r d par) {v : Nat} (hv : v < V) (hne : v ≠ r) : 0 < d v := by
  rw [R.d_par v hv hne]; omega

theorem irrefl (R : Rooted V edges r d par) {v : Nat} : ¬ Adj edges v v := by
  intro h
  have hv := (R.range v v h).1
  rcases R.edge v v h with ⟨h1, h2⟩ | ⟨h1, h2⟩
  · have := R.d_par v hv h1; rw [h2] at this; omega
  · have := R.d_par v hv h1; rw [h2] at this; omega

theorem d_lt (R : Rooted V edges r d par) {v : Nat} (hv : v < V) : d v < V := by
  -- the vertices on the path to the root have distinct depths
  classical
  have anc : ∀ n, ∀ v < V, d v = n → ∃ f : Fin (n + 1) → Fin V, ∀ i, d (f i).val = i.val := by
    intro n
    induction n with
    | zero =>
      intro v hv hdv
      exact ⟨fun _ => ⟨v, hv⟩, fun i => by have := i.isLt; simp only; omega⟩
    | succ n ih =>
      intro v hv hdv
      have hne : v ≠ r := by rintro rfl; rw [R.d_root] at hdv; omega
      have h1 := R.d_par v hv hne
      obtain ⟨f, hf⟩ := ih (par v) (R.par_lt v hv hne) (by omega)
      refine ⟨fun i => if h : i.val < n + 1 then f ⟨i.val, h⟩ else ⟨v, hv⟩, fun i => ?_⟩
      by_cases h : i.val < n + 1
      · simp [h, hf]
      · have := i.isLt; simp [h]; omega
  obtain ⟨f, hf⟩ := anc (d v) v hv rfl
  have hinj : Function.Injective f := fun i j h => Fin.ext (by rw [← hf i, ← hf j, h])
  have := Fintype.card_le_of_injective f hinj
  simp only [Fintype.card_fin] at this
  omega

end Rooted

/-! ### Neighbour sets -/

theorem mem_setAdd (s : List Nat) (x y : Nat) : y ∈ setAdd s x ↔ y ∈ s ∨ y = x := by
  unfold setAdd; split
  · constructor
    · exact .inl
    · rintro (h | rfl) <;> assumption
  · simp

theorem nodup_setAdd (s : List Nat) (x : Nat) (h : s.Nodup) : (setAdd s x).Nodup := by
  unfold setAdd; split
  · exact h
  · rename_i hx
    rw [List.nodup_append]
    exact ⟨h, List.nodup_singleton x, fun a ha b hb => by
      rw [List.mem_singleton] at hb; subst hb; rintro rfl; exact hx ha⟩

/-- `N` holds the neighbour sets of the graph. -/
structure IsNbrs (V : Nat) (edges : List (Nat × Nat)) (N : List (List Nat)) : Prop where
  length : N.length = V
  nodup : ∀ v < V, (N.getD v []).Nodup
  mem : ∀ v < V, ∀ u, u ∈ N.getD v [] ↔ Adj edges v u

theorem addNeighbors_spec {V : Nat} {edges : List (Nat × Nat)} {N : List (List Nat)}
    (h : IsNbrs V edges N) (e : Nat × Nat) (he : e.1 < V ∧ e.2 < V) :
    ∃ N', addNeighbors N e = .ok N' ∧ IsNbrs V (edges ++ [e]) N' := by
  obtain ⟨a, b⟩ := e
  simp only at he
  have hl := h.length
  set N1 := N.set a (setAdd (N.getD a []) b) with hN1
  have hN1l : N1.length = V := by simp [hN1, hl]
  set N2 := N1.set b (setAdd (N1.getD b []) a) with hN2
  have g1 : ∀ v, N1.getD v [] = if v = a then setAdd (N.getD a []) b else N.getD v [] := by
    intro v
    simp only [hN1, List.getD_eq_getElem?_getD, List.getElem?_set]
    by_cases hva : v = a
    · subst hva; simp [show v < N.length by omega]
    · simp [hva, Ne.symm hva]
  have g2 : ∀ v, N2.getD v [] = if v = b then setAdd (N1.getD b []) a else N1.getD v [] := by
    intro v
    simp only [hN2, List.getD_eq_getElem?_getD, List.getElem?_set]
    by_cases hva : v = b
    · subst hva; simp [show v < N1.length by omega]
    · simp [hva, Ne.symm hva]
  refine ⟨N2, ?_, ?_⟩
  · have e1 : pyGet N a = .ok (N.getD a []) :=
      pyGet_eq_ok.2 (by rw [List.getD_eq_getElem?_getD, List.getElem?_eq_getElem (by omega)]; rfl)
    have e2 : pyGet N1 b = .ok (N1.getD b []) :=
      pyGet_eq_ok.2 (by rw [List.getD_eq_getElem?_getD, List.getElem?_eq_getElem (by omega)]; rfl)
    simp only [addNeighbors, e1, bind, Except.bind, pySet_ok N a _ (by omega), ← hN1, e2,
      pySet_ok N1 b _ (by omega), ← hN2]
  · constructor
    · simp [hN2, hN1l]
    · intro v hv
      rw [g2]
      split
      · apply nodup_setAdd
        rw [g1]; split
        · exact nodup_setAdd _ _ (h.nodup _ he.1)
        · exact h.nodup _ he.2
      · rw [g1]; split
        · exact nodup_setAdd _ _ (h.nodup _ he.1)
        · exact h.nodup _ hv
    · intro v hv u
      have m1 : ∀ v < V, (u ∈ N1.getD v [] ↔ Adj edges v u ∨ (v = a ∧ u = b)) := by
        intro v hv
        rw [g1]; split
        · rename_i hva; subst hva
          rw [mem_setAdd, h.mem _ hv]; simp
        · rename_i hva
          rw [h.mem _ hv]; simp [hva]
      have : u ∈ N2.getD v [] ↔ Adj edges v u ∨ (v = a ∧ u = b) ∨ (v = b ∧ u = a) := by
        rw [g2]; split
        · rename_i hvb; subst hvb
          rw [mem_setAdd, m1 _ hv]; tauto
        · rename_i hvb
          rw [m1 _ hv]; simp [hvb]
      rw [this]
      unfold Adj
      simp only [List.mem_append, List.mem_singleton, Prod.mk.injEq]
      tauto

theorem buildNeighbors_spec (V : Nat) (edges : List (Nat × Nat))
    (hr : ∀ e ∈ edges, e.1 < V ∧ e.2 < V) :
    ∃ N, buildNeighbors V edges = .ok N ∧ IsNbrs V edges N := by
  have gen : ∀ (es pre : List (Nat × Nat)) (N : List (List Nat)), IsNbrs V pre N →
      (∀ e ∈ es, e.1 < V ∧ e.2 < V) →
      ∃ N', es.foldlM addNeighbors N = .ok N' ∧ IsNbrs V (pre ++ es) N' := by
    intro es
    induction es with
    | nil => intro pre N h _; exact ⟨N, rfl, by simpa using h⟩
    | cons e es ih =>
      intro pre N h hes
      obtain ⟨N1, h1, h2⟩ := addNeighbors_spec h e (hes e (by simp))
      obtain ⟨N2, h3, h4⟩ := ih (pre ++ [e]) N1 h2 (fun e he => hes e (by simp [he]))
      refine ⟨N2, ?_, by simpa using h4⟩
      simp only [List.foldlM_cons, h1]
      exact h3
  have h0 : IsNbrs V [] (List.replicate V []) := by
    refine ⟨by simp, fun v hv => ?_, fun v hv u => ?_⟩
    · simp [List.getD_eq_getElem?_getD, hv]
    · simp [List.getD_eq_getElem?_getD, hv, Adj]
  have := gen edges [] _ h0 hr
  rw [List.nil_append] at this
  exact this

theorem IsNbrs.get {V : Nat} {edges : List (Nat × Nat)} {N : List (List Nat)}
    (h : IsNbrs V edges N) {v : Nat} (hv : v < V) : pyGet N v = .ok (N.getD v []) :=
  pyGet_eq_ok.2 (by
    rw [List.getD_eq_getElem?_getD, List.getElem?_eq_getElem (by rw [h.length]; exact hv)]; rfl)

/-! ### Transport of `IsTree` along canonicalisation -/

theorem Spec.SamePairs.adj {l l' : List (Nat × Nat)} (h : SamePairs l l') (u v : Nat) :
    Adj l u v ↔ Adj l' u v := by
  have key : ∀ l : List (Nat × Nat), Adj l u v ↔ s(u, v) ∈ l.map fun e => s(e.1, e.2) := by
    intro l
    rw [List.mem_map]
    constructor
    · rintro (h | h)
      · exact ⟨_, h, rfl⟩
      · exact ⟨_, h, Sym2.eq_swap⟩
    · rintro ⟨⟨a, b⟩, hm, he⟩
      rcases Sym2.eq_iff.1 he with ⟨h1, h2⟩ | ⟨h1, h2⟩
      · left; simp only at h1 h2; rw [← h1, ← h2]; exact hm
      · right; simp only at h1 h2; rw [← h1, ← h2]; exact hm
  rw [key, key]
  exact h.mem_iff

theorem Spec.SamePairs.isTree {V : Nat} {l l' : List (Nat × Nat)} (h : SamePairs l l')
    (ht : IsTree V l') : IsTree V l := by
  have hlen : l.length = l'.length := by simpa using h.length_eq
  refine ⟨by rw [hlen]; exact ht.card, fun e he => ?_, fun u hu v hv => ?_⟩
  · have : Adj l e.1 e.2 := .inl he
    rw [h.adj] at this
    exact this.lt ht.range
  · have := ht.conn u hu v hv
    clear hu hv
    induction this with
    | refl => exact .refl
    | tail _ h2 ih => exact ih.tail ((h.adj _ _).2 h2)

theorem Spec.SamePairs.symm {l l' : List (Nat × Nat)} (h : SamePairs l l') : SamePairs l' l :=
  List.Perm.symm h

end TreeCat
