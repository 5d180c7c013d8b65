import Verif.Lemmas.Message
import Verif.Model.Rand

/-!
# Drawing from the root outwards
-/

set_option linter.unusedSectionVars false

namespace TreeCat

open Spec

/-! ### The edges of a tree are the vertices other than the root -/

section
variable {V r : Nat} {d par : Nat → Nat} {ch : Nat → List Nat} {L : List Nat} {eid : Nat → Nat}

/-- The entry of the grid for the edge from `v` to its parent. -/
def upEntry (par eid : Nat → Nat) (v : Nat) : Nat × Nat × Nat :=
  if par v < v then (eid v, par v, v) else (eid v, v, par v)

theorem grid_perm {grid : Grid} (R : Rooted V (gridEdges grid) r d par) (T : Topo V r par ch L)
    (he : ∀ v < V, v ≠ r → ((eid v, v, par v) ∈ grid ∨ (eid v, par v, v) ∈ grid))
    (hlt : ∀ c ∈ grid, c.2.1 < c.2.2) : ((L.filter (· ≠ r)).map (upEntry par eid)).Perm grid := by
  have hmem : ∀ v ∈ L.filter (· ≠ r), v < V ∧ v ≠ r := by
    intro v hv
    rw [List.mem_filter] at hv
    exact ⟨T.mem.1 hv.1, by simpa using hv.2⟩
  have hsub : (L.filter (· ≠ r)).map (upEntry par eid) ⊆ grid := by
    intro c hc
    obtain ⟨v, hv, rfl⟩ := List.mem_map.1 hc
    obtain ⟨h1, h2⟩ := hmem v hv
    unfold upEntry
    rcases he v h1 h2 with h | h
    · have := hlt _ h
      simp only at this
      rw [if_neg (by omega)]; exact h
    · have := hlt _ h
      simp only at this
      rw [if_pos (by omega)]; exact h
  have hnd : ((L.filter (· ≠ r)).map (upEntry par eid)).Nodup := by
    refine List.Nodup.map_on ?_ (T.nodup.filter _)
    intro x hx y hy hxy
    obtain ⟨x1, x2⟩ := hmem x hx
    obtain ⟨y1, y2⟩ := hmem y hy
    have dx := R.d_par x x1 x2
    have dy := R.d_par y y1 y2
    unfold upEntry at hxy
    split at hxy <;> split at hxy <;> simp only [Prod.mk.injEq] at hxy <;> obtain ⟨-, h1, h2⟩ := hxy
    · exact h2
    · exfalso; rw [h1] at dx; rw [← h2] at dy; omega
    · exfalso; rw [h2] at dx; rw [← h1] at dy; omega
    · exact h1
  refine (List.subperm_of_subset hnd hsub).perm_of_length_le ?_
  have h1 := R.card
  have h2 := T.filter_length
  simp only [gridEdges, List.length_map] at h1 ⊢
  omega

end

/-! ### The chain of draws -/

section
variable {K : Type} [Field K] {M : Nat}
variable {V r : Nat} {par : Nat → Nat} {ch : Nat → List Nat} {L : List Nat}

/-- Expected value of `k` when the values of the listed vertices are drawn one after the other, with weights
`w v z` where `z` are the values so far. -/
def chain (w : Nat → (Nat → Fin M) → Fin M → K) : List Nat → (Nat → Fin M) → ((Nat → Fin M) → K) → K
  | [], z, k => k z
  | v :: B, z, k => (∑ m, w v z m * chain w B (Function.update z v m) k) / ∑ m, w v z m

theorem chain_eq (T : Topo V r par ch L) {ψ : Nat → Fin M → Fin M → K} {b : Nat → Fin M → K}
    {w : Nat → (Nat → Fin M) → Fin M → K}
    (hw : ∀ v < V, ∀ z m, w v z m / ∑ m', w v z m' = condProb r par ψ b v (Function.update z v m))
    (k : (Nat → Fin M) → K) : ∀ B A, L = A ++ B → ∀ z,
    chain w B z k = sumOver B (fun z' => (B.map fun v => condProb r par ψ b v z').prod * k z') z := by
  intro B
  induction B with
  | nil => intro A _ z; simp [sumOver, chain]
  | cons x B ih =>
    intro A hL z
    have hn := T.nodup
    rw [hL, List.nodup_append, List.nodup_cons] at hn
    have hxV : x < V := T.mem.1 (by rw [hL]; simp)
    have hpar : x ≠ r → par x ∉ x :: B := by
      intro hx h
      exact hn.2.2 (par x) (T.before A x B hL hx) _ h rfl
    simp only [chain, sumOver, List.map_cons, List.prod_cons]
    rw [Finset.sum_div]
    refine Finset.sum_congr rfl fun m _ => ?_
    rw [ih (A ++ [x]) (by rw [hL]; simp), mul_div_right_comm, hw x hxV, ← sumOver_mul_left]
    refine sumOver_congr fun z' hz' => ?_
    rw [condProb_congr (r := r) (par := par) (hz' x hn.2.1.1) (fun hx => hz' _ (fun h => hpar hx (by simp [h])))]
    ring

/-- The chain of draws has the distribution proportional to the weight. -/
theorem chain_law (T : Topo V r par ch L) {φ : Nat → Fin M → K} {ψ : Nat → Fin M → Fin M → K}
    {b : Nat → Fin M → K} {S : Nat → K}
    (hb : ∀ v < V, ∀ m, S v * b v m = φ v m * ((ch v).map fun c => mu ψ b c m).prod)
    (hμ : ∀ v < V, ∀ m, mu ψ b v m ≠ 0) (hr : ∑ m, b r m ≠ 0) (hS : ∀ v < V, S v ≠ 0)
    {w : Nat → (Nat → Fin M) → Fin M → K}
    (hw : ∀ v < V, ∀ z m, w v z m / ∑ m', w v z m' = condProb r par ψ b v (Function.update z v m))
    (k : (Nat → Fin M) → K) (z0 : Nat → Fin M) :
    chain w L z0 k = (∑ z : Fin V → Fin M, treeWeight r par L φ ψ (overlay z0 z) * k (overlay z0 z)) /
      ∑ z : Fin V → Fin M, treeWeight r par L φ ψ (overlay z0 z) := by
  rw [chain_eq T hw k L [] rfl, sumOver_treeWeight T hb hμ hr]
  have hSp : (L.map S).prod ≠ 0 := by
    refine List.prod_ne_zero fun h => ?_
    obtain ⟨c, hc, h0⟩ := List.mem_map.1 h
    exact hS c (T.mem.1 hc) h0
  rw [eq_div_iff (mul_ne_zero hSp hr), ← sumOver_mul_right, ← sumOver_range _ (fun z => treeWeight r par L φ ψ z * k z),
    ← sumOver_perm T.perm]
  refine sumOver_congr fun z _ => ?_
  rw [← prod_condProb T hb hμ hr z]
  ring

end

end TreeCat
