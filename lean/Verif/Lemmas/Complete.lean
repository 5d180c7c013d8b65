import Mathlib.Tactic.Ring
import Mathlib.Tactic.Linarith
import Verif.Model.Structure

/-!
# Lemmas about the numbering of the complete graph
-/

namespace TreeCat

theorem pyGet_eq_ok {α : Type} {l : List α} {i : Nat} {a : α} : pyGet l i = .ok a ↔ l[i]? = some a := by
  unfold pyGet
  cases l[i]? <;> simp

theorem pySet_ok {α : Type} (l : List α) (i : Nat) (a : α) (h : i < l.length) :
    pySet l i a = .ok (l.set i a) := by simp [pySet, h]

/-- Triangular numbers, `n * (n - 1) / 2`. -/
def tri (n : Nat) : Nat := n * (n - 1) / 2

theorem tri_succ (n : Nat) : tri (n + 1) = tri n + n := by
  unfold tri
  cases n with
  | zero => rfl
  | succ k =>
    have : (k + 1 + 1) * (k + 1 + 1 - 1) = (k + 1) * (k + 1 - 1) + 2 * (k + 1) := by
      simp only [Nat.add_sub_cancel]; ring
    rw [this, Nat.add_mul_div_left _ _ (by omega)]

theorem two_tri (n : Nat) : 2 * tri n = n * (n - 1) := by
  induction n with
  | zero => rfl
  | succ n ih =>
    rw [tri_succ, Nat.mul_add, ih]
    cases n with
    | zero => rfl
    | succ k => simp only [Nat.add_sub_cancel]; ring

theorem tri_mono {m n : Nat} (h : m ≤ n) : tri m ≤ tri n := by
  induction n, h using Nat.le_induction with
  | base => exact Nat.le_refl _
  | succ n _ ih => rw [tri_succ]; omega

theorem fce_of_lt {v1 v2 : Nat} (h : v1 < v2) : findCompleteEdge v1 v2 = v1 + tri v2 := by
  unfold findCompleteEdge tri
  rw [if_neg (by omega)]

theorem fce_comm (v1 v2 : Nat) : findCompleteEdge v1 v2 = findCompleteEdge v2 v1 := by
  unfold findCompleteEdge
  split <;> split <;> first | rfl | omega | skip
  have : v1 = v2 := by omega
  subst this; rfl

theorem fce_lt {v1 v2 V : Nat} (h : v1 < v2) (hV : v2 < V) : findCompleteEdge v1 v2 < tri V := by
  rw [fce_of_lt h]
  have := tri_mono (show v2 + 1 ≤ V by omega)
  rw [tri_succ] at this
  omega

theorem fce_inj {a b c d : Nat} (hab : a < b) (hcd : c < d)
    (h : findCompleteEdge a b = findCompleteEdge c d) : a = c ∧ b = d := by
  rw [fce_of_lt hab, fce_of_lt hcd] at h
  rcases lt_trichotomy b d with hbd | hbd | hbd
  · have := tri_mono (show b + 1 ≤ d by omega)
    rw [tri_succ] at this; omega
  · subst hbd; omega
  · have := tri_mono (show d + 1 ≤ b by omega)
    rw [tri_succ] at this; omega

/-- The pairs in the order in which the nested loops visit them. -/
def pairs : Nat → List (Nat × Nat)
  | 0 => []
  | n + 1 => pairs n ++ (List.range n).map fun v1 => (v1, n)

theorem pairs_length (V : Nat) : (pairs V).length = tri V := by
  induction V with
  | zero => rfl
  | succ n ih => rw [pairs, List.length_append, ih, tri_succ]; simp

theorem pairs_getElem? (V v1 v2 : Nat) (h : v1 < v2) (hV : v2 < V) :
    (pairs V)[findCompleteEdge v1 v2]? = some (v1, v2) := by
  induction V with
  | zero => omega
  | succ n ih =>
    rw [pairs]
    by_cases hn : v2 < n
    · rw [List.getElem?_append_left]
      · exact ih hn
      · rw [pairs_length]; exact fce_lt h hn
    · have : v2 = n := by omega
      subst this
      rw [fce_of_lt h, List.getElem?_append_right (by rw [pairs_length]; omega), pairs_length,
        Nat.add_sub_cancel]
      simp [h]

theorem mem_pairs (V : Nat) (p : Nat × Nat) : p ∈ pairs V ↔ p.1 < p.2 ∧ p.2 < V := by
  induction V with
  | zero => simp [pairs]
  | succ n ih =>
    obtain ⟨a, b⟩ := p
    simp only [pairs, List.mem_append, ih, List.mem_map, List.mem_range, Prod.mk.injEq]
    constructor
    · rintro (⟨h1, h2⟩ | ⟨c, hc, rfl, rfl⟩)
      · exact ⟨h1, by omega⟩
      · exact ⟨hc, by omega⟩
    · rintro ⟨h1, h2⟩
      by_cases hb : b < n
      · exact .inl ⟨h1, hb⟩
      · have : b = n := by omega
        subst this
        exact .inr ⟨a, h1, rfl, rfl⟩

theorem pairs_getElem?_some (V k : Nat) (p : Nat × Nat) (h : (pairs V)[k]? = some p) :
    p.1 < p.2 ∧ p.2 < V ∧ findCompleteEdge p.1 p.2 = k := by
  have hm := (mem_pairs V p).1 (List.mem_of_getElem? h)
  refine ⟨hm.1, hm.2, ?_⟩
  induction V with
  | zero => simp [pairs] at h
  | succ n ih =>
    rw [pairs] at h
    by_cases hk : k < (pairs n).length
    · rw [List.getElem?_append_left hk] at h
      exact ih h ((mem_pairs n p).1 (List.mem_of_getElem? h))
    · rw [List.getElem?_append_right (by omega), pairs_length] at h
      rw [pairs_length] at hk
      rw [List.getElem?_map] at h
      obtain ⟨a, ha, rfl⟩ := Option.map_eq_some_iff.1 h
      obtain ⟨h1, h2⟩ := List.getElem?_eq_some_iff.1 ha
      simp only [List.length_range] at h1
      simp only [List.getElem_range] at h2
      subst h2
      rw [fce_of_lt h1]
      omega

/-- The nested loops visit exactly `pairs`. -/
theorem foldlM_pairs {σ : Type} (f : σ → Nat → Nat → Py σ) (V : Nat) (s : σ) :
    (List.range V).foldlM (fun s v2 => (List.range v2).foldlM (fun s v1 => f s v1 v2) s) s
      = (pairs V).foldlM (fun s p => f s p.1 p.2) s := by
  induction V generalizing s with
  | zero => rfl
  | succ n ih =>
    rw [List.range_succ, List.foldlM_append, ih, pairs, List.foldlM_append]
    congr 1
    funext s
    have : ∀ (l : List Nat) (s : σ), l.foldlM (fun s v1 => f s v1 n) s
        = (l.map fun v1 => (v1, n)).foldlM (fun s p => f s p.1 p.2) s := by
      intro l
      induction l with
      | nil => intro s; rfl
      | cons a l ihl =>
        intro s
        simp only [List.map_cons, List.foldlM_cons]
        congr 1
        funext s
        exact ihl s
    simp only [List.foldlM_cons, List.foldlM_nil]
    rw [this]
    simp

theorem foldlM_completeStep (ps : List (Nat × Nat)) (g : Grid) (k : Nat)
    (h : k + ps.length ≤ g.length) :
    ∃ g', ps.foldlM completeStep (g, k) = .ok (g', k + ps.length) ∧ g'.length = g.length ∧
      ∀ j, g'[j]? = if k ≤ j ∧ j < k + ps.length then (ps[j - k]?).map (fun p => (j, p.1, p.2)) else g[j]? := by
  induction ps generalizing g k with
  | nil => exact ⟨g, rfl, rfl, fun j => by rw [if_neg (by simp only [List.length_nil]; omega)]⟩
  | cons p ps ih =>
    simp only [List.length_cons] at h
    obtain ⟨g', h1, h2, h3⟩ := ih (g.set k (k, p.1, p.2)) (k + 1) (by simp; omega)
    refine ⟨g', ?_, by simpa using h2, fun j => ?_⟩
    · have : completeStep (g, k) p = .ok (g.set k (k, p.1, p.2), k + 1) := by
        simp [completeStep, pySet_ok g k _ (by omega : k < g.length), bind, Except.bind]
      simp only [List.foldlM_cons, this, List.length_cons]
      rw [show k + (ps.length + 1) = k + 1 + ps.length by omega]
      exact h1
    · rw [h3 j]
      simp only [List.length_cons]
      by_cases hj : j = k
      · subst hj
        rw [if_neg (by omega), if_pos (by omega), List.getElem?_set_self (by omega)]
        simp
      · by_cases hj2 : k ≤ j ∧ j < k + (ps.length + 1)
        · rw [if_pos hj2, if_pos (by omega), show j - k = (j - (k + 1)) + 1 by omega]
          simp
        · rw [if_neg hj2, if_neg (by omega), List.getElem?_set_ne (Ne.symm hj)]

/-- The grid that `make_complete_graph` returns. -/
def completeGrid (V : Nat) : Grid := (pairs V).mapIdx fun k p => (k, p.1, p.2)

theorem completeGrid_length (V : Nat) : (completeGrid V).length = tri V := by
  simp [completeGrid, pairs_length]

theorem completeGrid_getElem? (V k : Nat) :
    (completeGrid V)[k]? = ((pairs V)[k]?).map fun p => (k, p.1, p.2) := by
  simp [completeGrid, List.getElem?_mapIdx]

theorem makeCompleteGraph_eq (V : Nat) : makeCompleteGraph V = .ok (completeGrid V) := by
  obtain ⟨g, h1, h2, h3⟩ := foldlM_completeStep (pairs V) (List.replicate (V * (V - 1) / 2) (0, 0, 0)) 0
    (by simp [pairs_length, tri])
  have hg : g = completeGrid V := by
    apply List.ext_getElem?
    intro j
    rw [h3 j, completeGrid_getElem?]
    by_cases hj : j < (pairs V).length
    · rw [if_pos (by omega)]; rfl
    · rw [if_neg (by omega), List.getElem?_eq_none (by simpa [pairs_length, tri] using hj),
        List.getElem?_eq_none (by omega)]
      rfl
  subst hg
  have := foldlM_pairs (fun s v1 v2 => completeStep s (v1, v2)) V
    (List.replicate (V * (V - 1) / 2) (0, 0, 0), 0)
  simp only [makeCompleteGraph, this, Prod.mk.eta, h1]
  rfl

end TreeCat
