import Mathlib.Algebra.BigOperators.Intervals
import Verif.Lemmas.Outward
import Verif.Lemmas.Trainer

/-!
# Sampling a latent row: the inward phase
-/

set_option linter.unusedSectionVars false

namespace TreeCat

open Spec

/-- Rising product of `n` factors. -/
def rise {K : Type} [Field K] (x : K) (n : Nat) : K := ∏ j ∈ Finset.range n, (x + (j : K))

section
variable {K : Type} [Field K] [LinearOrder K] [IsStrictOrderedRing K] {M : Nat}

theorem rise_zero (x : K) : rise x 0 = 1 := by simp [rise]

theorem rise_succ (x : K) (n : Nat) : rise x (n + 1) = rise x n * (x + n) := Finset.prod_range_succ _ _

theorem rise_add (x : K) (a b : Nat) : rise x (a + b) = rise x a * rise (x + a) b := by
  induction b with
  | zero => simp [rise_zero]
  | succ b ih => rw [← Nat.add_assoc, rise_succ, rise_succ, ih]; push_cast; ring

theorem rise_pos {x : K} (h : 0 < x) (n : Nat) : 0 < rise x n :=
  Finset.prod_pos fun j _ => add_pos_of_pos_of_nonneg h (Nat.cast_nonneg j)

/-- `n` observations of the same column. -/
theorem addOne_iter (v r n : Nat) (s : RowState K M) :
    (List.range n).foldl (fun s _ => addOne v r s) s =
      { s with
        messages := Function.update s.messages v fun m => s.messages v m * rise (s.featProbs r m) n / rise (s.measProbs v m) n
        featProbs := Function.update s.featProbs r fun m => s.featProbs r m + n
        measProbs := Function.update s.measProbs v fun m => s.measProbs v m + n } := by
  induction n with
  | zero => simp [rise_zero]
  | succ n ih =>
    rw [List.range_succ, List.foldl_append, ih]
    simp only [List.foldl_cons, List.foldl_nil, addOne, Function.update_self, Function.update_idem, rise_succ]
    congr 1 <;> congr 1 <;> funext m
    · simp only [div_eq_mul_inv, mul_inv]; ring
    · push_cast; ring
    · push_cast; ring

/-- The factor that the observations of feature `v` contribute. -/
def cellFactor (t : Table) (row : Nat) (feat meas : Nat → Fin M → K) (v : Nat) (m : Fin M) : K :=
  (∏ c ∈ Finset.range (t.stop v - t.beg v), rise (feat (t.beg v + c) m) (t.cell row (t.beg v + c)).toNat) /
    rise (meas v m) (∑ c ∈ Finset.range (t.stop v - t.beg v), (t.cell row (t.beg v + c)).toNat)

theorem addCell_eq (t : Table) (row v : Nat) (h : t.featureTypes.getD v 0 = tyMultinomial) (s : RowState K M) :
    ∃ s', addCell t row v s = .ok s' ∧ s'.assign = s.assign ∧
      s'.messages = Function.update s.messages v (fun m => s.messages v m * cellFactor t row s.featProbs s.measProbs v m) ∧
      (∀ r, r < t.beg v ∨ t.stop v ≤ r → s'.featProbs r = s.featProbs r) ∧
      ∀ w, w ≠ v → s'.measProbs w = s.measProbs w := by
  unfold addCell cellFactor
  rw [if_pos h]
  refine ⟨_, rfl, ?_⟩
  have key : ∀ C, ∃ s', s' = (List.range C).foldl (fun s c =>
      (List.range (t.cell row (t.beg v + c)).toNat).foldl (fun s _ => addOne v (t.beg v + c) s) s) s ∧
      s'.assign = s.assign ∧
      s'.messages = Function.update s.messages v (fun m => s.messages v m *
        ((∏ c ∈ Finset.range C, rise (s.featProbs (t.beg v + c) m) (t.cell row (t.beg v + c)).toNat) /
          rise (s.measProbs v m) (∑ c ∈ Finset.range C, (t.cell row (t.beg v + c)).toNat))) ∧
      (∀ r, r < t.beg v ∨ t.beg v + C ≤ r → s'.featProbs r = s.featProbs r) ∧
      (∀ w, w ≠ v → s'.measProbs w = s.measProbs w) ∧
      ∀ m, s'.measProbs v m = s.measProbs v m + ((∑ c ∈ Finset.range C, (t.cell row (t.beg v + c)).toNat : Nat) : K) := by
    intro C
    induction C with
    | zero => exact ⟨s, rfl, rfl, by simp [rise_zero], fun _ _ => rfl, fun _ _ => rfl, by simp⟩
    | succ C ih =>
      obtain ⟨s1, e0, e1, e2, e3, e4, e5⟩ := ih
      rw [List.range_succ, List.foldl_append, ← e0]
      simp only [List.foldl_cons, List.foldl_nil, addOne_iter]
      refine ⟨_, rfl, e1, ?_, ?_, ?_, ?_⟩
      · simp only [e2, Function.update_self, Function.update_idem]
        congr 1; funext m
        rw [e3 (t.beg v + C) (.inr (Nat.le_refl _)), e5, Finset.prod_range_succ, Finset.sum_range_succ, rise_add]
        simp only [div_eq_mul_inv, mul_inv]
        ring
      · intro r hr
        simp only
        rw [Function.update_of_ne (by omega), e3 r (by omega)]
      · intro w hw
        simp only
        rw [Function.update_of_ne hw, e4 w hw]
      · intro m
        simp only [Function.update_self]
        rw [e5, Finset.sum_range_succ]; push_cast; ring
  obtain ⟨s', e0, e1, e2, e3, e4, -⟩ := key (t.stop v - t.beg v)
  rw [← e0]
  exact ⟨e1, e2, fun r hr => e3 r (by omega), e4⟩

/-- The inward instructions, which draw nothing. -/
def inStep [NeZero M] (t : Table) (row : Nat) (vert : Nat → Fin M → K) (edge : Nat → Fin M → Fin M → K)
    (s : RowState K M) (i : Instr) : RowState K M :=
  match i.op with
  | .UP => match addCell t row i.v s with
    | .ok s' => s'
    | .error _ => s
  | .IN => rowIn vert edge i.v i.v2 i.e s
  | _ => s

/-- Potential of the edge from `c` to its parent (one for the root). -/
def rowPsi (r : Nat) (par eid : Nat → Nat) (vert : Nat → Fin M → K) (edge : Nat → Fin M → Fin M → K) (c : Nat) (m m' : Fin M) : K :=
  if c = r then 1 else transAt edge (eid c) (par c) c m m' / (vert (par c) m * vert c m')

theorem vecMax_pos [NeZero M] {f : Fin M → K} (h : ∀ m, 0 < f m) : 0 < vecMax f := by
  exact (Finset.lt_sup'_iff _).2 ⟨0, Finset.mem_univ _, h 0⟩

variable {V r : Nat} {par : Nat → Nat} {ch : Nat → List Nat} {L : List Nat} {eid : Nat → Nat}

theorem disjoint_blocks {t : Table} (ht : Table.Ordered t) {v w : Nat} (hv : v < t.numCols) (hw : w < t.numCols)
    (hvw : w ≠ v) {r : Nat} (h1 : t.beg w ≤ r) (h2 : r < t.stop w) : r < t.beg v ∨ t.stop v ≤ r := by
  rcases Nat.lt_or_gt_of_ne hvw with h | h
  · have := stop_le_beg ht h hv; left; omega
  · have := stop_le_beg ht h hw; right; omega

theorem row_inward [NeZero M] {t : Table} (ht : Table.Ordered t) (hm : ∀ v, t.featureTypes.getD v 0 = tyMultinomial)
    (row : Nat) {vert : Nat → Fin M → K} {edge : Nat → Fin M → Fin M → K} {feat meas : Nat → Fin M → K}
    (T : Topo t.numCols r par ch L)
    (hvert : ∀ v < t.numCols, ∀ m, 0 < vert v m)
    (hedge : ∀ v < t.numCols, v ≠ r → ∀ m m', 0 < edge (eid v) m m')
    (hfeat : ∀ v < t.numCols, ∀ c, t.beg v ≤ c → c < t.stop v → ∀ m, 0 < feat c m)
    (hmeas : ∀ v < t.numCols, ∀ m, 0 < meas v m) :
    Inward (RowState K M) t.numCols par ch eid (inStep t row vert edge) RowState.messages
      (fun s v => (∀ c, t.beg v ≤ c → c < t.stop v → s.featProbs c = feat c) ∧ s.measProbs v = meas v) (fun _ _ => True)
      (cellFactor t row feat meas) (rowPsi r par eid vert edge) where
  up s v hv hf := by
    obtain ⟨s', e0, e1, e2, e3, e4⟩ := addCell_eq t row v (hm v) s
    have : inStep t row vert edge s ⟨.UP, v, 0, 0⟩ = s' := by simp only [inStep, e0]
    rw [this]
    refine ⟨?_, ?_, fun _ h => h⟩
    · rw [e2]
      congr 1; funext m
      congr 1
      unfold cellFactor
      rw [hf.2]
      congr 1
      refine Finset.prod_congr rfl fun c hc => ?_
      rw [Finset.mem_range] at hc
      rw [hf.1 (t.beg v + c) (by omega) (by omega)]
    · intro w hw hwv hfw
      refine ⟨fun c h1 h2 => ?_, by rw [e4 w hwv, hfw.2]⟩
      rw [e3 c (disjoint_blocks ht hv hw hwv h1 h2), hfw.1 c h1 h2]
  inn s v c hv hc hpos := by
    obtain ⟨h1, h2, rfl⟩ := (T.ch_mem v hv c).1 hc
    have hmsg : ∀ a, 0 < s.messages (par c) a * (∑ b, transAt edge (eid c) (par c) c a b * (s.messages c b / vert c b)) / vert (par c) a := by
      intro a
      refine div_pos (mul_pos (hpos _ hv _) (Finset.sum_pos (fun b _ => mul_pos ?_ (div_pos (hpos _ h1 _) (hvert _ h1 _)))
        ⟨0, Finset.mem_univ _⟩)) (hvert _ hv _)
      unfold transAt; split <;> exact hedge c h1 h2 _ _
    refine ⟨_, vecMax_pos hmsg, ?_, fun _ _ h => h, fun _ h => h⟩
    simp only [inStep, rowIn]
    congr 1; funext a
    congr 1
    unfold mu rowPsi
    simp only [if_neg h2]
    rw [mul_div_assoc, Finset.sum_div]
    congr 1
    refine Finset.sum_congr rfl fun b _ => ?_
    have := (hvert _ hv a).ne'
    have := (hvert _ h1 b).ne'
    field_simp
  u_pos v hv m := by
    refine div_pos (Finset.prod_pos fun c hc => ?_) (rise_pos (hmeas v hv m) _)
    rw [Finset.mem_range] at hc
    exact rise_pos (hfeat v hv _ (by omega) (by omega) m) _
  ψ_pos v hv m m' := by
    unfold rowPsi
    split
    · exact one_pos
    · rename_i h
      have hp : par v < t.numCols := by
        obtain ⟨A, B, hL⟩ := List.append_of_mem (T.mem.2 hv)
        exact T.mem.1 (by rw [hL]; exact List.mem_append_left _ (T.before A v B hL h))
      refine div_pos ?_ (mul_pos (hvert _ hp _) (hvert _ hv _))
      unfold transAt
      split <;> exact hedge v hv h _ _

end

end TreeCat
