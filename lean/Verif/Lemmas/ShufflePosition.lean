import Verif.Props.TreeSamples

/-! # Each position of a shuffled list -/

namespace TreeCat

open Util Spec

section
variable {K : Type} [Field K] [CharZero K]

/-- Rotating all permutations gives all permutations. -/
theorem permutations_rotate (n k : Nat) : ((List.range n).permutations.map fun p => p.rotate k).Perm (List.range n).permutations := by
  have hnd : ((List.range n).permutations.map fun p => p.rotate k).Nodup :=
    (List.nodup_permutations _ List.nodup_range).map (List.rotate_injective k)
  have hsub : ((List.range n).permutations.map fun p => p.rotate k) ⊆ (List.range n).permutations := by
    intro q hq
    obtain ⟨p, hp, rfl⟩ := List.mem_map.1 hq
    exact List.mem_permutations.2 ((List.rotate_perm p k).trans (List.mem_permutations.1 hp))
  exact (List.subperm_of_subset hnd hsub).perm_of_length_le (by rw [List.length_map])

/-- In a uniform permutation all positions have the same law. -/
theorem permutations_position {n i : Nat} (hi : i < n) (g : Nat → K) :
    n * ((List.range n).permutations.map fun p => g (p.getD i 0)).sum = ((List.range n).permutations.map fun p => (p.map g).sum).sum := by
  have hlen : ∀ p ∈ (List.range n).permutations, p.length = n := fun p hp => by
    rw [(List.mem_permutations.1 hp).length_eq, List.length_range]
  have h1 : ∀ k < n, ((List.range n).permutations.map fun p => g (p.getD k 0)).sum = ((List.range n).permutations.map fun p => g (p.getD 0 0)).sum := by
    intro k hk
    rw [← ((permutations_rotate n k).map fun p => g (p.getD 0 0)).sum_eq, List.map_map]
    congr 1
    refine List.map_congr_left fun p hp => ?_
    have hp' := hlen p hp
    simp only [Function.comp_apply]
    rw [List.getD_eq_getElem _ _ (by omega), List.getD_eq_getElem _ _ (by rw [List.length_rotate]; omega), List.getElem_rotate]
    simp [hp', Nat.mod_eq_of_lt hk]
  have h2 : ∀ p ∈ (List.range n).permutations, (p.map g).sum = ∑ k ∈ Finset.range n, g (p.getD k 0) := by
    intro p hp
    rw [← hlen p hp, Finset.sum_range, ← List.sum_ofFn]
    congr 1
    apply List.ext_getElem
    · simp
    · intro j h3 h4
      simp
  rw [List.map_congr_left h2]
  have h3 : ∀ l : List (List Nat), (l.map fun p => ∑ k ∈ Finset.range n, g (p.getD k 0)).sum = ∑ k ∈ Finset.range n, (l.map fun p => g (p.getD k 0)).sum := by
    intro l
    induction l with
    | nil => simp
    | cons p l ih => simp only [List.map_cons, List.sum_cons, ih, Finset.sum_add_distrib]
  rw [h3, h1 i hi, Finset.sum_congr rfl fun k hk => h1 k (Finset.mem_range.1 hk), Finset.sum_const, Finset.card_range, nsmul_eq_mul]

/-- Every position of what `np.random.shuffle` leaves has the law of a random element. -/
theorem shuffled_position {β : Type} (f : β → K) (d : β) {n i : Nat} (hi : i < n) (samples : List β) :
    (do
      let samples ← ExceptT.lift (shuffled samples)
      liftPy (pyAssert (samples.length == n))
      Pure.pure samples : ExceptT PyErr (Expect K) _).run (onOk fun ts => f (ts.getD i d))
    = (do
      let samples ← ExceptT.lift (shuffled samples)
      liftPy (pyAssert (samples.length == n))
      Pure.pure samples : ExceptT PyErr (Expect K) _).run (onOk fun ts => (ts.map f).sum / n) := by
  change ((List.range samples.length).permutations.map fun p =>
    (do liftPy (pyAssert ((p.filterMap fun i => samples[i]?).length == n)); Pure.pure (p.filterMap fun i => samples[i]?) :
      ExceptT PyErr (Expect K) _).run (onOk fun ts => f (ts.getD i d))).sum / (samples.length.factorial : K)
    = ((List.range samples.length).permutations.map fun p =>
    (do liftPy (pyAssert ((p.filterMap fun i => samples[i]?).length == n)); Pure.pure (p.filterMap fun i => samples[i]?) :
      ExceptT PyErr (Expect K) _).run (onOk fun ts => (ts.map f).sum / n)).sum / (samples.length.factorial : K)
  congr 1
  have hmap : ∀ p ∈ (List.range samples.length).permutations, (p.filterMap fun i => samples[i]?) = p.map fun i => samples.getD i d := by
    intro p hp
    have hlt : ∀ i ∈ p, i < samples.length := fun i hi => List.mem_range.1 ((List.mem_permutations.1 hp).mem_iff.1 hi)
    clear hp
    induction p with
    | nil => rfl
    | cons a p ih =>
      have ha := hlt a (by simp)
      rw [List.filterMap_cons, List.getElem?_eq_getElem ha, List.map_cons, ih fun i hi => hlt i (by simp [hi]), List.getD_eq_getElem _ _ ha]
  have hlen : ∀ p ∈ (List.range samples.length).permutations, p.length = samples.length := fun p hp => by
    rw [(List.mem_permutations.1 hp).length_eq, List.length_range]
  have hrun : ∀ F : List β → K, ∀ p ∈ (List.range samples.length).permutations,
      (do liftPy (pyAssert ((p.filterMap fun i => samples[i]?).length == n)); Pure.pure (p.filterMap fun i => samples[i]?) :
      ExceptT PyErr (Expect K) _).run (onOk F) = if samples.length = n then F (p.map fun i => samples.getD i d) else 0 := by
    intro F p hp
    rw [hmap p hp, List.length_map, hlen p hp]
    by_cases h : samples.length = n
    · rw [if_pos h, h, beq_self_eq_true]
      rfl
    · rw [if_neg h, beq_eq_false_iff_ne.2 h]
      rfl
  rw [List.map_congr_left (hrun _), List.map_congr_left (hrun _)]
  by_cases h : samples.length = n
  · subst h
    have hn : (samples.length : K) ≠ 0 := by exact_mod_cast (by omega : samples.length ≠ 0)
    have key := permutations_position hi fun j => f (samples.getD j d)
    simp only [if_true]
    have e1 : ∀ p ∈ (List.range samples.length).permutations, f ((p.map fun i => samples.getD i d).getD i d) = f (samples.getD (p.getD i 0) d) := by
      intro p hp
      have := hlen p hp
      rw [List.getD_eq_getElem _ _ (by rw [List.length_map]; omega), List.getElem_map, List.getD_eq_getElem p _ (by omega)]
    have e2 : ∀ p ∈ (List.range samples.length).permutations, ((p.map fun i => samples.getD i d).map f).sum / (samples.length : K)
        = (samples.length : K)⁻¹ * (p.map fun j => f (samples.getD j d)).sum := by
      intro p _
      rw [List.map_map, div_eq_inv_mul]
      rfl
    rw [List.map_congr_left e1, List.map_congr_left e2, List.sum_map_mul_left, ← key, ← mul_assoc, inv_mul_cancel₀ hn, one_mul]
  · simp only [if_neg h]

end

end TreeCat
