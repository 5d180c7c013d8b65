import Verif.Spec.Mst
import Verif.Props.Convergence

/-!
# Spanning trees that no exchange of one edge improves

A tree that cannot be improved by exchanging one edge has the least total weight, so which trees are best depends only on the order of the weights. Weights
are functions of unordered pairs.
-/

namespace TreeCat

open Spec

variable {V : Nat}

theorem mem_eraseIdx_of_ne {α : Type} {T : List α} {j : Nat} (hj : j < T.length) {p : α} (hp : p ∈ T) (h : p ≠ T[j]) : p ∈ T.eraseIdx j := by
  rw [List.mem_eraseIdx_iff_getElem]
  obtain ⟨i, hi, rfl⟩ := List.getElem_of_mem hp
  exact ⟨i, hi, fun h' => h (by subst h'; rfl), rfl⟩

/-- Without the edge from `y` to its parent, the root still reaches what is nearer to it than `y`. -/
theorem Rooted.reach_near {T : List Edge} {x : Nat} {d par : Nat → Nat} (R : Rooted V T x d par) {y j : Nat} (hj : j < T.length)
    (hje : T[j] = (y, par y) ∨ T[j] = (par y, y)) : ∀ m, ∀ v < V, d v = m → m < d y → Reach (T.eraseIdx j) x v := by
  intro m
  induction m with
  | zero =>
    intro v hv hdv _
    have h0 := R.walk v hv
    rw [hdv] at h0
    cases h0
    exact .refl
  | succ m ihm =>
    intro v hv hdv hlt
    have hvx : v ≠ x := by
      rintro rfl
      rw [R.d_root] at hdv
      omega
    have h1 := R.d_par v hv hvx
    have h2 := ihm (par v) (R.par_lt v hv hvx) (by omega) (by omega)
    refine h2.tail ?_
    have h3 : Adj T (par v) v := (R.par_adj v hv hvx).symm
    have hvy : v ≠ y := by rintro rfl; omega
    have hpy : par v ≠ y := by intro h; rw [h] at h1; omega
    have hne : ∀ p : Edge, p = (par v, v) ∨ p = (v, par v) → p ≠ T[j] := by
      rintro p hp hpj
      rw [hpj] at hp
      rcases hje with h | h <;> rw [h] at hp <;> simp only [Prod.mk.injEq] at hp <;> rcases hp with ⟨a, b⟩ | ⟨a, b⟩
      · exact hpy a.symm
      · exact hvy a.symm
      · exact hvy b.symm
      · exact hpy b.symm
    rcases h3 with h | h
    · exact .inl (mem_eraseIdx_of_ne hj h (hne _ (.inl rfl)))
    · exact .inr (mem_eraseIdx_of_ne hj h (hne _ (.inr rfl)))

/-- On the path in a tree between two vertices on different sides of a cut, there is an edge across the cut, and without it the tree does not join the two. -/
theorem exists_separating {T cut : List Edge} (ht : IsTree V T) {x : Nat} (hx : x < V) {y : Nat} (hy : y < V) (hc : ¬ Reach cut x y) :
    ∃ j, ∃ hj : j < T.length, ¬ Reach cut T[j].1 T[j].2 ∧ ¬ Reach (T.eraseIdx j) x y := by
  obtain ⟨d, par, R⟩ := exists_rooted ht hx
  suffices h : ∀ n, ∀ y < V, d y = n → ¬ Reach cut x y →
      ∃ j, ∃ hj : j < T.length, ¬ Reach cut T[j].1 T[j].2 ∧ ¬ Reach (T.eraseIdx j) x y from h _ y hy rfl hc
  intro n
  induction n with
  | zero =>
    intro y hy hd hc
    exfalso
    have h0 := R.walk y hy
    rw [hd] at h0
    cases h0
    exact hc .refl
  | succ n ih =>
    intro y hy hd hc
    have hyx : y ≠ x := by
      rintro rfl
      exact hc .refl
    have hpl := R.par_lt y hy hyx
    have hpd := R.d_par y hy hyx
    have hadj := R.par_adj y hy hyx
    by_cases hcp : Reach cut x (par y)
    · have hcy : ¬ Reach cut y (par y) := fun h => hc (hcp.trans (Reach.symm' h))
      obtain ⟨j, hj, hje⟩ : ∃ j, ∃ hj : j < T.length, T[j] = (y, par y) ∨ T[j] = (par y, y) := by
        rcases hadj with h | h
        · obtain ⟨j, hj, h⟩ := List.getElem_of_mem h
          exact ⟨j, hj, .inl h⟩
        · obtain ⟨j, hj, h⟩ := List.getElem_of_mem h
          exact ⟨j, hj, .inr h⟩
      have hnr : ¬ Reach (T.eraseIdx j) (par y) y := by
        rcases hje with h | h
        · obtain ⟨d', par', S⟩ := exists_split ht (e := j) (a := y) (b := par y) (by rw [List.getElem?_eq_getElem hj, h])
          exact fun hr => S.not_reach (Reach.symm' hr)
        · obtain ⟨d', par', S⟩ := exists_split ht (e := j) (a := par y) (b := y) (by rw [List.getElem?_eq_getElem hj, h])
          exact S.not_reach
      refine ⟨j, hj, ?_, fun hr => hnr ((Reach.symm' (R.reach_near hj hje _ _ hpl rfl (by omega))).trans hr)⟩
      rcases hje with h | h <;> rw [h]
      · exact hcy
      · exact fun hr => hcy (Reach.symm' hr)
    · obtain ⟨j, hj, h1, h2⟩ := ih (par y) hpl (by omega) hcp
      refine ⟨j, hj, h1, fun hr => h2 ?_⟩
      by_cases hje : T[j] = (y, par y) ∨ T[j] = (par y, y)
      · exact R.reach_near hj hje _ _ hpl rfl (by omega)
      · push Not at hje
        refine hr.tail ?_
        rcases hadj with h | h
        · exact .inl (mem_eraseIdx_of_ne hj h hje.1.symm)
        · exact .inr (mem_eraseIdx_of_ne hj h hje.2.symm)

section
variable {K L : Type} [AddCommGroup K] [LinearOrder K] [IsOrderedAddMonoid K] [LinearOrder L]

/-- The total of a weight of unordered pairs. -/
def pairTotal (w : Sym2 Nat → K) (T : List Edge) : K := (T.map fun p => w s(p.1, p.2)).sum

theorem pairTotal_set (w : Sym2 Nat → K) {T : List Edge} {j : Nat} (hj : j < T.length) (p : Edge) :
    pairTotal w (T.set j p) + w s(T[j].1, T[j].2) = pairTotal w T + w s(p.1, p.2) := by
  induction T generalizing j with
  | nil => simp at hj
  | cons a T ih =>
    cases j with
    | zero =>
      simp only [pairTotal, List.set_cons_zero, List.map_cons, List.sum_cons, List.getElem_cons_zero]
      abel
    | succ j =>
      have := ih (j := j) (by simpa using hj)
      simp only [pairTotal, List.set_cons_succ, List.map_cons, List.sum_cons, List.getElem_cons_succ] at this ⊢
      rw [add_assoc, this]
      abel

theorem countP_set_lt {α : Type} (q : α → Bool) {T : List α} {j : Nat} (hj : j < T.length) {p : α} (h1 : q T[j] = true) (h2 : q p = false) :
    (T.set j p).countP q < T.countP q := by
  induction T generalizing j with
  | nil => simp at hj
  | cons a T ih =>
    cases j with
    | zero =>
      simp only [List.getElem_cons_zero] at h1
      simp [h1, h2]
    | succ j =>
      have := ih (j := j) (by simpa using hj) (by simpa using h1)
      simp only [List.set_cons_succ, List.countP_cons]
      omega

/-- A tree in which no exchange of one edge makes a smaller weight `v` has the least total weight `w`, for every `w` that is ordered like `v`. -/
theorem total_le_of_exchange (v : Sym2 Nat → L) (w : Sym2 Nat → K) {T : List Edge} (hT : IsTree V T)
    (hord : ∀ i, ∀ hi : i < T.length, ∀ p : Edge, p.1 < V → p.2 < V → p.1 ≠ p.2 → v s(T[i].1, T[i].2) ≤ v s(p.1, p.2) → w s(T[i].1, T[i].2) ≤ w s(p.1, p.2))
    (hex : ∀ i, ∀ hi : i < T.length, ∀ p : Edge, IsTree V (T.set i p) → v s(T[i].1, T[i].2) ≤ v s(p.1, p.2)) :
    ∀ T', IsTree V T' → pairTotal w T ≤ pairTotal w T' := by
  classical
  suffices h : ∀ n, ∀ T', IsTree V T' → T'.countP (fun p => decide (¬ Adj T p.1 p.2)) = n → pairTotal w T ≤ pairTotal w T' from
    fun T' hT' => h _ T' hT' rfl
  intro n
  induction n using Nat.strong_induction_on with
  | _ n ih =>
    intro T' hT' hn
    by_cases hall : ∀ p ∈ T', Adj T p.1 p.2
    · have hnd' : (T'.map fun e => s(e.1, e.2)).Nodup := by
        obtain ⟨d, par, R⟩ := exists_rooted hT' (r := 0) (by have := hT'.card; omega)
        exact R.nodup
      have hsub : (T'.map fun e => s(e.1, e.2)) ⊆ (T.map fun e => s(e.1, e.2)) := by
        intro s hs
        obtain ⟨p, hp, rfl⟩ := List.mem_map.1 hs
        exact (adj_iff_mem T p.1 p.2).1 (hall p hp)
      have hperm := (List.subperm_of_subset hnd' hsub).perm_of_length_le (by
        have := hT.card; have := hT'.card
        simp only [List.length_map]; omega)
      have : pairTotal w T' = pairTotal w T := by
        have h := (hperm.map w).sum_eq
        rw [List.map_map, List.map_map] at h
        exact h
      rw [this]
    · push Not at hall
      obtain ⟨p, hp, hnadj⟩ := hall
      obtain ⟨j, hj, rfl⟩ := List.getElem_of_mem hp
      have hr := hT'.range _ hp
      obtain ⟨d, par, S⟩ := exists_split hT' (e := j) (a := T'[j].1) (b := T'[j].2) (by rw [List.getElem?_eq_getElem hj])
      obtain ⟨i, hi, h1, h2⟩ := exists_separating hT hr.1 hr.2 S.not_reach
      have hir := hT.range _ (List.getElem_mem hi)
      have htree : IsTree V (T.set i T'[j]) := (isTree_set_iff hT hi hr.1 hr.2).2 h2
      have htree' : IsTree V (T'.set j T[i]) := (isTree_set_iff hT' hj hir.1 hir.2).2 h1
      have hle := hord i hi T'[j] hr.1 hr.2 S.ne.symm (hex i hi T'[j] htree)
      have hlt : (T'.set j T[i]).countP (fun p => decide (¬ Adj T p.1 p.2)) < n := by
        rw [← hn]
        refine countP_set_lt _ hj (by simpa using hnadj) ?_
        have hadj : Adj T T[i].1 T[i].2 := .inl (List.getElem_mem hi)
        simp [hadj]
      have h3 := ih _ hlt _ htree' rfl
      have h4 := pairTotal_set w hj T[i]
      have h5 : pairTotal w (T'.set j T[i]) ≤ pairTotal w T' := by
        have : pairTotal w (T'.set j T[i]) + w s(T'[j].1, T'[j].2) ≤ pairTotal w T' + w s(T'[j].1, T'[j].2) := by
          rw [h4]
          exact add_le_add_right hle _
        exact le_of_add_le_add_right this
      exact h3.trans h5

end

end TreeCat
