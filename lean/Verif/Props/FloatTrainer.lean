import Verif.Props.FloatDrift
import Verif.Props.FloatRow
import Verif.Props.RowGibbs

/-! # C65: `add_row` in float32 -/

namespace TreeCat

open Util Spec

/-! ### The array `edge_probs` of a trainer -/

theorem foldl_keyed {α β : Type} (l : List α) (step : (Nat → β) → α → Nat → β) (ix : α → Nat) (upd : α → β → β)
    (hstep : ∀ f c i, step f c i = if ix c = i then upd c (f i) else f i) (hn : (l.map ix).Nodup) (f : Nat → β) (c : α) (hc : c ∈ l) :
    l.foldl step f (ix c) = upd c (f (ix c)) := by
  have out : ∀ (l : List α) (f : Nat → β) (i : Nat), i ∉ l.map ix → l.foldl step f i = f i := by
    intro l
    induction l with
    | nil => intro f i _; rfl
    | cons a l ih =>
      intro f i hi
      rw [List.foldl_cons, ih _ _ (fun h => hi (by simp only [List.map_cons, List.mem_cons]; exact Or.inr h)), hstep, if_neg (fun h => hi (by simp [h]))]
  induction l generalizing f with
  | nil => cases hc
  | cons a l ih =>
    rw [List.map_cons, List.nodup_cons] at hn
    rw [List.foldl_cons]
    rcases List.mem_cons.1 hc with rfl | hc
    · rw [out l _ _ hn.1, hstep, if_pos rfl]
    · rw [ih hn.2 _ hc, hstep, if_neg]
      intro h
      exact hn.1 (h ▸ List.mem_map_of_mem hc)

theorem floatEdges_at {M : Nat} {up : Bool} {grid : Grid} {e v1 v2 : Nat} (he : grid[e]? = some (e, v1, v2)) (z : Nat → Fin M) (edge : Nat → Fin M → Fin M → ℚ) (a b : Fin M) :
    floatEdges up grid z edge e a b =
      if z v1 = a ∧ z v2 = b then store32 (if up then edge e a b + 1 else edge e a b - 1) else edge e a b := by
  have := foldl_keyed (β := Fin M → Fin M → ℚ) grid.zipIdx (fun f p => floatBump up f p.2 (z p.1.2.1) (z p.1.2.2)) Prod.snd
    (fun p f m1 m2 => if z p.1.2.1 = m1 ∧ z p.1.2.2 = m2 then store32 (if up then f m1 m2 + 1 else f m1 m2 - 1) else f m1 m2)
    (by intro f c i; funext m1 m2; unfold floatBump; by_cases h : c.2 = i <;> simp [h])
    (by rw [List.zipIdx_map_snd]; exact List.nodup_range') edge ((e, v1, v2), e) (by rw [List.mk_mem_zipIdx_iff_getElem?]; exact he)
  exact congrFun (congrFun this a) b

/-- Every entry results from adding and removing rows, where counts stay below `2 ^ 14`. -/
def EdgeHistory {M : Nat} (s : Trainer ℚ M) (edge : Nat → Fin M → Fin M → ℚ) : Prop :=
  ∀ e v1 v2, (e, v1, v2) ∈ s.tree.treeGrid → ∀ a b, ∃ c steps, Tallied (2 ^ 14) c steps ∧ edgeTally c steps = s.edgeSS e a b ∧
    edge e a b = edgeWalk store32 (edgeStart store32 (float64 (1 / 2 / M)) c) steps

theorem tallied_nil {c : Int} (h0 : 0 ≤ c) (h1 : c < 2 ^ 14) : Tallied (2 ^ 14) c [] := by
  intro k hk
  have : k = 0 := by simpa using hk
  subst this
  exact ⟨h0, h1⟩

theorem edgeTally_snoc (c : Int) (steps : List Bool) (b : Bool) : edgeTally c (steps ++ [b]) = if b then edgeTally c steps + 1 else edgeTally c steps - 1 := by
  simp [edgeTally, List.foldl_append]

theorem edgeWalk_snoc (rnd : ℚ → ℚ) (x : ℚ) (steps : List Bool) (b : Bool) :
    edgeWalk rnd x (steps ++ [b]) = rnd (if b then edgeWalk rnd x steps + 1 else edgeWalk rnd x steps - 1) := by
  simp [edgeWalk, List.foldl_append]

theorem tallied_snoc {bound c : Int} {steps : List Bool} (h : Tallied bound c steps) {b : Bool} (h0 : 0 ≤ edgeTally c (steps ++ [b]))
    (h1 : edgeTally c (steps ++ [b]) < bound) : Tallied bound c (steps ++ [b]) := by
  intro k hk
  rw [List.length_append, List.length_singleton] at hk
  rcases Nat.lt_or_ge steps.length k with hlt | hle
  · rw [List.take_of_length_le (by simp; omega)]
    exact ⟨h0, h1⟩
  · rw [List.take_append_of_le_length hle]
    exact h k hle

theorem edge_bound {M : Nat} {t : Table} {s : Trainer ℚ M} (h : Good t s) (hN : t.numRows < 2 ^ 14) {e v1 v2 : Nat} (he : (e, v1, v2) ∈ s.tree.treeGrid) (a b : Fin M) :
    0 ≤ s.edgeSS e a b ∧ s.edgeSS e a b < 2 ^ 14 := by
  rw [h.stats.edge e v1 v2 he]
  have h1 : edgeCount s.added s.assign v1 v2 a b ≤ t.numRows := by
    refine le_trans (Finset.card_filter_le _ _) ?_
    have := Finset.card_le_card h.rows
    simpa using this
  omega

section
variable {M : Nat} [NeZero M] {t : Table}

theorem floatRun_inv (ht : Table.Ordered t) (hm : AllMultinomial t) (hN : t.numRows < 2 ^ 14) {s : Trainer ℚ M} {edge : Nat → Fin M → Fin M → ℚ}
    (h : FloatRun t s edge) : Good t s ∧ M ≤ 128 ∧ EdgeHistory s edge := by
  have hstart : ∀ s : Trainer ℚ M, Good t s → EdgeHistory s (floatEdgeArray s) := by
    intro s hg e v1 v2 he a b
    obtain ⟨h0, h1⟩ := edge_bound hg hN he a b
    exact ⟨s.edgeSS e a b, [], tallied_nil h0 h1, rfl, rfl⟩
  have hstep : ∀ (up : Bool) (s s' : Trainer ℚ M) (z : Nat → Fin M) (edge : Nat → Fin M → Fin M → ℚ), Good t s' → s'.tree = s.tree →
      (∀ e v1 v2, (e, v1, v2) ∈ s.tree.treeGrid → s.tree.treeGrid[e]? = some (e, v1, v2)) →
      (∀ e v1 v2, (e, v1, v2) ∈ s.tree.treeGrid → ∀ a b, s'.edgeSS e a b = s.edgeSS e a b + if z v1 = a ∧ z v2 = b then (if up then 1 else -1) else 0) →
      EdgeHistory s edge → EdgeHistory s' (floatEdges up s.tree.treeGrid z edge) := by
    intro up s s' z edge hg' htree hgrid hss hist e v1 v2 he a b
    have hb := edge_bound hg' hN he a b
    rw [htree] at he
    obtain ⟨c, steps, h1, h2, h3⟩ := hist e v1 v2 he a b
    have hsse := hss e v1 v2 he a b
    rw [floatEdges_at (hgrid e v1 v2 he)]
    by_cases hz : z v1 = a ∧ z v2 = b
    · rw [if_pos hz] at hsse ⊢
      have hval : edgeTally c (steps ++ [up]) = s'.edgeSS e a b := by
        rw [edgeTally_snoc, h2, hsse]
        cases up
        · simp
          ring
        · simp
      refine ⟨c, steps ++ [up], tallied_snoc h1 (by rw [hval]; exact hb.1) (by rw [hval]; exact hb.2), hval, ?_⟩
      rw [edgeWalk_snoc, ← h3]
    · rw [if_neg hz] at hsse ⊢
      exact ⟨c, steps, h1, by rw [h2, hsse, add_zero], h3⟩
  induction h with
  | init h0 =>
    have hV := init_checks h0
    obtain ⟨s0', h0', hg0, -⟩ := good_init (K := ℚ) (M := M) hV.1 hV.2.1 hV.2.2.1 hV.2.2.2
    rw [h0] at h0'
    cases h0'
    exact ⟨hg0, hV.2.2.1, hstart _ hg0⟩
  | @addRow s s' edge row _ hr ih =>
    obtain ⟨hg, hM, hist⟩ := ih
    obtain ⟨h1, h2, ⟨z, rfl⟩, -⟩ := Part.addRow ht hg.toInv _ _ hr
    have hg' := ((Tot.addRow ht hm hg h1 h2).part _ _ hr).1
    have hz : (added t row z s).assign row = z := by
      simp only [added, statsUpdate_assign, Function.update_self]
    refine ⟨hg', hM, ?_⟩
    rw [hz]
    refine hstep true s _ z edge hg' (by simp only [added, statsUpdate_tree]) hg.grid ?_ hist
    intro e v1 v2 he a b
    have := statsUpdate_edge (t := t) (row := row) (sign := 1) (z := z) (s := { s with added := insert row s.added, assign := Function.update s.assign row z }) (hg.grid e v1 v2 he) a b
    simpa [added] using this
  | @removeRow s s' edge row _ hr ih =>
    obtain ⟨hg, hM, hist⟩ := ih
    obtain ⟨h1, h2, rfl, -⟩ := Part.removeRow ht hg.toInv _ _ hr
    have hg' := ((Tot.removeRow ht hm hg h1).part _ _ hr).1
    refine ⟨hg', hM, ?_⟩
    refine hstep false s _ (s.assign row) edge hg' (by simp only [removed, statsUpdate_tree]) hg.grid ?_ hist
    intro e v1 v2 he a b
    have := statsUpdate_edge (t := t) (row := row) (sign := -1) (z := s.assign row) (s := { s with added := s.added.erase row }) (hg.grid e v1 v2 he) a b
    simpa [removed] using this
  | setEdges _ he hr ih =>
    obtain ⟨hg, hM, -⟩ := ih
    have hg' := ((Tot.setEdges hg he).part _ _ hr).1
    exact ⟨hg', hM, hstart _ hg'⟩

end

/-! ### The other arrays -/

theorem float64_mono : MonoRounding 53 (-1074) float64 := (roundTo_isRounding (p := 53) (by norm_num) (-1074)).monoRounding

theorem float32_mono : MonoRounding 24 (-149) float32 := (roundTo_isRounding (p := 24) (by norm_num) (-149)).monoRounding

/-- The prior of a column, training.py:499. -/
theorem prior_bounds {M : Nat} (h1 : 1 ≤ M) (h2 : M ≤ 128) : 1 / 2 ^ 8 ≤ float64 (1 / 2 / M) ∧ float64 (1 / 2 / M) ≤ 1 / 2 := by
  have hM0 : (0 : ℚ) < M := by exact_mod_cast h1
  have hM1 : (1 : ℚ) ≤ M := by exact_mod_cast h1
  have hM2 : (M : ℚ) ≤ 128 := by exact_mod_cast h2
  constructor
  · refine float64_mono.ge_of ⟨1, -8, by norm_num, by norm_num, by norm_num⟩ ?_
    rw [div_div, one_div_le_one_div (by norm_num) (by positivity)]
    linarith
  · refine float64_mono.le_of ⟨1, -1, by norm_num, by norm_num, by norm_num⟩ ?_
    rw [div_div, one_div_le_one_div (by positivity) (by norm_num)]
    linarith

theorem floatVert_bounds {c : Int} (h0 : 0 ≤ c) (h1 : c < 2 ^ 14) : IsFloat 24 (-149) (floatVert c) ∧ 1 / 2 ≤ floatVert c ∧ floatVert c ≤ 2 ^ 24 := by
  have hc0 : (0 : ℚ) ≤ c := by exact_mod_cast h0
  have hc1 : (c : ℚ) < 2 ^ 14 := by exact_mod_cast h1
  refine ⟨store32_mono.float _, store32_mono.ge_of ⟨1, -1, by norm_num, by norm_num, by norm_num⟩ (by linarith), store32_mono.le_of ⟨1, 24, by norm_num, by norm_num, by norm_num⟩ ?_⟩
  norm_num at hc1 ⊢
  linarith

theorem floatMeasPrior_bounds {M C : Nat} (h1 : 1 ≤ M) (h2 : M ≤ 128) (hC : 1 ≤ C) (hC' : C ≤ 2 ^ 23) :
    IsFloat 24 (-149) (floatMeasPrior M C) ∧ float32 (float64 (1 / 2 / M)) ≤ floatMeasPrior M C ∧ floatMeasPrior M C ≤ 2 ^ 22 := by
  obtain ⟨p1, p2⟩ := prior_bounds h1 h2
  have q1 : (0 : ℚ) ≤ float32 (float64 (1 / 2 / M)) := float32_mono.nonneg (le_trans (by norm_num) p1)
  have q2 : float32 (float64 (1 / 2 / M)) ≤ 1 / 2 := float32_mono.le_of ⟨1, -1, by norm_num, by norm_num, by norm_num⟩ p2
  have c1 : (1 : ℚ) ≤ C := by exact_mod_cast hC
  have c2 : (C : ℚ) ≤ 2 ^ 23 := by exact_mod_cast hC'
  refine ⟨float32_mono.float _, float32_mono.ge_of (float32_mono.float _) (le_mul_of_one_le_right q1 c1), float32_mono.le_of ⟨1, 22, by norm_num, by norm_num, by norm_num⟩ ?_⟩
  calc float32 (float64 (1 / 2 / M)) * C ≤ 1 / 2 * 2 ^ 23 := mul_le_mul q2 c2 (by linarith) (by norm_num)
    _ = 2 ^ 22 := by norm_num

theorem floatMeas_bounds {M C : Nat} (h1 : 1 ≤ M) (h2 : M ≤ 128) (hC : 1 ≤ C) (hC' : C ≤ 2 ^ 23) {c : Int} (hc1 : c < 2 ^ 14) :
    IsFloat 24 (-149) (floatMeas M C c) ∧ floatMeas M C c ≤ 2 ^ 24 := by
  obtain ⟨-, -, h3⟩ := floatMeasPrior_bounds h1 h2 hC hC'
  have hc1 : (c : ℚ) < 2 ^ 14 := by exact_mod_cast hc1
  refine ⟨store32_mono.float _, store32_mono.le_of ⟨1, 24, by norm_num, by norm_num, by norm_num⟩ ?_⟩
  norm_num at h3 hc1 ⊢
  linarith

theorem floatFeat_bounds {M C : Nat} (h1 : 1 ≤ M) (h2 : M ≤ 128) (hC : 1 ≤ C) (hC' : C ≤ 2 ^ 23) {c d : Int} (hc0 : 0 ≤ c) (hcd : c ≤ d) (hd : d < 2 ^ 14) :
    IsFloat 24 (-149) (floatFeat M c) ∧ 1 / 2 ^ 9 ≤ floatFeat M c ∧ floatFeat M c ≤ 2 * floatMeas M C d := by
  obtain ⟨p1, p2⟩ := prior_bounds h1 h2
  obtain ⟨m0, m1, m2⟩ := floatMeasPrior_bounds h1 h2 hC hC'
  have hm0 : 0 ≤ floatMeasPrior M C := le_trans (float32_mono.nonneg (le_trans (by norm_num) p1)) m1
  have hcq : (0 : ℚ) ≤ c := by exact_mod_cast hc0
  have hcdq : (c : ℚ) ≤ d := by exact_mod_cast hcd
  refine ⟨store32_mono.float _, store32_mono.ge_of ⟨1, -9, by norm_num, by norm_num, by norm_num⟩ ?_, ?_⟩
  · norm_num at p1 ⊢
    linarith
  · have hmeas : (d : ℚ) ≤ floatMeas M C d :=
      store32_mono.ge_of (isFloat_int (by norm_num) (by norm_num) (by omega) (by omega)) (by linarith)
    rcases Int.lt_or_le 0 c with hc | hc
    · have hle : floatFeat M c ≤ c + 1 / 2 := store32_mono.le_of (isFloat_half (by norm_num) (by norm_num) hc0 (by omega)) (by linarith)
      have : (1 : ℚ) ≤ c := by exact_mod_cast hc
      linarith
    · have hc' : c = 0 := by omega
      subst hc'
      have e1 : floatFeat M 0 = float32 (float64 (1 / 2 / M)) := by
        unfold floatFeat store32
        rw [Int.cast_zero, zero_add, float64_mono.id (float64_mono.float _)]
      have e2 : floatMeasPrior M C ≤ floatMeas M C d := store32_mono.ge_of m0 (by linarith)
      rw [e1]
      linarith

section
variable {M : Nat} [NeZero M] {t : Table}

theorem counts_bound (hc : Table.Counts t) (hcat : ∀ row, Spec.Categorical t row) (hN : t.numRows < 2 ^ 14) {s : Trainer ℚ M} (h : Good t s) {v : Nat} (hv : v < t.numCols) (a : Fin M) :
    (0 ≤ s.vertSS v a ∧ s.vertSS v a < 2 ^ 14) ∧ (0 ≤ s.measSS v a ∧ s.measSS v a < 2 ^ 14) ∧
      ∀ r, t.beg v ≤ r → r < t.stop v → 0 ≤ s.featSS r a ∧ s.featSS r a ≤ s.measSS v a := by
  have hcard : s.added.card ≤ t.numRows := by simpa using Finset.card_le_card h.rows
  have hv1 : vertCount s.added s.assign v a ≤ t.numRows := le_trans (Finset.card_filter_le _ _) hcard
  refine ⟨?_, ?_, ?_⟩
  · rw [h.stats.vert v hv]
    omega
  · rw [h.stats.meas v hv]
    refine ⟨measTotal_nonneg hc _ _ _ _, ?_⟩
    have : measTotal t s.added s.assign v a ≤ ∑ n ∈ s.added.filter fun n => s.assign n v = a, (1 : Int) := by
      refine Finset.sum_le_sum fun n _ => ?_
      rw [← blockSum_eq]
      exact (hcat n).2 v hv
    rw [Finset.sum_const, nsmul_eq_mul, mul_one] at this
    have hv2 : (s.added.filter fun n => s.assign n v = a).card ≤ t.numRows := hv1
    omega
  · intro r h1 h2
    rw [h.stats.feat v hv r h1 h2, h.stats.meas v hv]
    refine ⟨featTotal_nonneg hc _ _ _ _ _, Finset.sum_le_sum fun n _ => ?_⟩
    exact Finset.single_le_sum (f := fun r => t.cell n r) (fun r _ => hc.nonneg n r) (Finset.mem_Ico.2 ⟨h1, h2⟩)

theorem floatStats_run (ht : Table.Ordered t) (hm : AllMultinomial t) (hc : Table.Counts t) (hcat : ∀ row, Spec.Categorical t row) (hN : t.numRows < 2 ^ 14)
    (hw : ∀ v < t.numCols, t.stop v - t.beg v ≤ 2 ^ 23) {s : Trainer ℚ M} {edge : Nat → Fin M → Fin M → ℚ} (h : FloatRun t s edge) :
    Spec.FloatStats t (t.numCols - 1) (fun v a => floatVert (s.vertSS v a)) edge (fun r a => floatFeat M (s.featSS r a))
      (fun v a => floatMeas M (t.stop v - t.beg v) (s.measSS v a)) := by
  obtain ⟨hg, hM, hist⟩ := floatRun_inv ht hm hN h
  have hM1 : 1 ≤ M := Nat.one_le_iff_ne_zero.2 (NeZero.ne M)
  refine ⟨fun v hv a => ?_, fun e he a b => ?_, fun v hv r h1 h2 a => ?_, fun v hv a => ?_⟩
  · obtain ⟨⟨h3, h4⟩, -⟩ := counts_bound hc hcat hN hg hv a
    exact floatVert_bounds h3 h4
  · have hlen : e < s.tree.treeGrid.length := by
      have := hg.isTree.card
      simp only [gridEdges, List.length_map] at this
      omega
    obtain ⟨c0, hc0⟩ : ∃ c, s.tree.treeGrid[e]? = some c := ⟨_, List.getElem?_eq_getElem hlen⟩
    obtain ⟨edges, hs⟩ := hg.sorted
    have hmem : c0 ∈ s.tree.treeGrid := List.mem_of_getElem? hc0
    have hid : c0 = (e, c0.2.1, c0.2.2) := by
      have h5 := hc0
      rw [hs, makeTree, List.getElem?_mapIdx, Option.map_eq_some_iff] at h5
      obtain ⟨p, -, rfl⟩ := h5
      rfl
    rw [hid] at hmem
    obtain ⟨c, steps, h3, h4, h5⟩ := hist e _ _ hmem a b
    obtain ⟨h6, h7⟩ := edgeWalk_float32 hM1 hM h3
    rw [← h5] at h6 h7
    obtain ⟨-, p2⟩ := prior_bounds hM1 hM
    have hb := (edge_bound hg hN hmem a b).2
    have hb' : (edgeTally c steps : ℚ) < 2 ^ 14 := by rw [h4]; exact_mod_cast hb
    refine ⟨?_, h7, ?_⟩
    · rw [h5]
      rcases List.eq_nil_or_concat steps with rfl | ⟨st, b, rfl⟩
      · exact store32_mono.float _
      · rw [List.concat_eq_append, edgeWalk_snoc]
        exact store32_mono.float _
    · have := (abs_le.1 h6).2
      norm_num at hb' this ⊢
      linarith
  · obtain ⟨-, ⟨h3, h4⟩, h5⟩ := counts_bound hc hcat hN hg hv a
    obtain ⟨h6, h7⟩ := h5 r h1 h2
    have := hc.width v hv
    exact floatFeat_bounds hM1 hM (by omega) (hw v hv) h6 h7 h4
  · obtain ⟨-, ⟨h3, h4⟩, -⟩ := counts_bound hc hcat hN hg hv a
    have := hc.width v hv
    exact floatMeas_bounds hM1 hM (by omega) (hw v hv) h4

/-- **C65**. In every state that calls can reach, with fewer than `2 ^ 14` rows of categorical data, the sampling loop of `add_row` works in float32: it returns, every
message is a number between zero and `2 ^ 50` after every instruction, and every class it draws had a positive weight. -/
theorem floatAddRow_ok {A : FloatOps M} (O : Spec.OpsOk A) (ht : Table.Ordered t) (hm : AllMultinomial t) (hc : Table.Counts t) (hcat : ∀ row, Spec.Categorical t row)
    (hN : t.numRows < 2 ^ 14) (hw : ∀ v < t.numCols, t.stop v - t.beg v ≤ 2 ^ 23) {s : Trainer ℚ M} {edge : Nat → Fin M → Fin M → ℚ} (h : FloatRun t s edge) (row : Nat)
    {draw : Nat → ℚ} (hd : ∀ v, Spec.IsDraw (draw v)) :
    (∃ r, floatAddRow A t row s edge draw = .ok r ∧ ∀ v < t.numCols, ∃ q, r.messages v (r.assign v) = some q ∧ 0 < q) ∧
      ∀ k, ∃ r, floatAddRow A t row { s with program := s.program.take k } edge draw = .ok r ∧
        ∀ v < t.numCols, ∀ a, ∃ q, r.messages v a = some q ∧ 0 ≤ q ∧ q ≤ 2 ^ 50 := by
  have hS := floatStats_run ht hm hc hcat hN hw h
  obtain ⟨hg, hM, -⟩ := floatRun_inv ht hm hN h
  obtain ⟨edges, hs⟩ := hg.sorted
  have htree : IsTree t.numCols (gridEdges s.tree.treeGrid) := hg.isTree
  obtain ⟨c, h1, h2⟩ := findCenter_spec htree
  have hprog : makeProgram s.tree.treeGrid (some c) = .ok s.program := by
    have h3 := hg.program
    simp only [makeProgram, h1, bind, Except.bind] at h3 ⊢
    exact h3
  obtain ⟨h4, h5⟩ := floatSampleRow_grid hM O ht (fun v _ => hm.getD v) htree (by rw [hs]; exact makeTree_ids edges) h2.1 hprog hS (hcat row) (s.assign row) hd
  refine ⟨h4, fun k => ?_⟩
  obtain ⟨r, h6, h7⟩ := h5 (min k s.program.length) (min_le_right _ _)
  refine ⟨r, ?_, h7⟩
  rw [← h6]
  unfold floatAddRow
  congr 1
  rcases Nat.le_total k s.program.length with hk | hk
  · rw [min_eq_left hk]
  · rw [min_eq_right hk, List.take_length, List.take_of_length_le hk]

/-! ### The run goes on -/

theorem floatRun_fold {A : FloatOps M} (hm : AllMultinomial t) (row : Nat) (vert : Nat → Fin M → ℚ) (edge edge' : Nat → Fin M → Fin M → ℚ) (vert' : Nat → Fin M → ℚ) (draw : Nat → ℚ) (prog : List Instr) :
    ∀ (r r' : FloatRow M) (x : RowState ℚ M), r.assign = x.assign → prog.foldlM (floatRowStep A t row vert edge draw) r = .ok r' →
      ∃ x', (prog.foldlM (rowStep t row vert' edge') x : ExceptT PyErr Poss (RowState ℚ M)).run (.ok x') ∧ r'.assign = x'.assign := by
  induction prog with
  | nil =>
    intro r r' x hx h
    obtain rfl := Except.ok.inj h
    exact ⟨x, rfl, hx⟩
  | cons i prog ih =>
    intro r r' x hx h
    rw [List.foldlM_cons] at h
    simp only [bind, Except.bind] at h
    cases hstep : floatRowStep A t row vert edge draw r i with
    | error e => rw [hstep] at h; cases h
    | ok r1 =>
      rw [hstep] at h
      have key : ∃ x1, (rowStep t row vert' edge' x i : ExceptT PyErr Poss (RowState ℚ M)).run (.ok x1) ∧ r1.assign = x1.assign := by
        obtain ⟨op, v, v2, e⟩ := i
        have hmv : t.featureTypes.getD v 0 = tyMultinomial := hm.getD v
        cases op with
        | UP =>
          have h1 : ∃ x1, addCell t row v x = .ok x1 ∧ x1.assign = x.assign := by
            unfold addCell
            rw [if_pos hmv]
            refine ⟨_, rfl, ?_⟩
            refine List.foldlRecOn _ _ (motive := fun s : RowState ℚ M => s.assign = x.assign) rfl fun s hs c _ => ?_
            exact List.foldlRecOn _ _ (motive := fun s : RowState ℚ M => s.assign = x.assign) hs fun s hs _ _ => hs
          have h2 : r1.assign = r.assign := by
            have hstep' : floatAddCell A t row v r = .ok r1 := hstep
            unfold floatAddCell at hstep'
            rw [if_pos hmv] at hstep'
            obtain rfl := Except.ok.inj hstep'
            refine List.foldlRecOn _ _ (motive := fun s : FloatRow M => s.assign = r.assign) rfl fun s hs c _ => ?_
            exact List.foldlRecOn _ _ (motive := fun s : FloatRow M => s.assign = r.assign) hs fun s hs _ _ => hs
          obtain ⟨x1, h3, h4⟩ := h1
          refine ⟨x1, ?_, by rw [h2, h4, hx]⟩
          show (liftPy (addCell t row v x) : ExceptT PyErr Poss _).run _
          rw [h3]
          rfl
        | IN =>
          obtain rfl := Except.ok.inj hstep
          exact ⟨_, rfl, hx⟩
        | ROOT =>
          simp only [floatRowStep, bind, Except.bind] at hstep
          split at hstep
          · cases hstep
          · rename_i a _
            obtain rfl := Except.ok.inj hstep
            refine ⟨{ x with assign := Function.update x.assign v a }, ⟨.ok a, ⟨a, trivial, rfl⟩, rfl⟩, ?_⟩
            show Function.update r.assign v a = _
            rw [hx]
        | OUT =>
          simp only [floatRowStep, bind, Except.bind] at hstep
          split at hstep
          · cases hstep
          · rename_i a _
            obtain rfl := Except.ok.inj hstep
            refine ⟨{ x with messages := Function.update x.messages v (rowOut vert' edge' v v2 e x), assign := Function.update x.assign v a }, ⟨.ok a, ⟨a, trivial, rfl⟩, rfl⟩, ?_⟩
            show Function.update r.assign v a = _
            rw [hx]
        | DOWN =>
          obtain rfl := Except.ok.inj hstep
          exact ⟨x, rfl, hx⟩
      obtain ⟨x1, h1, h2⟩ := key
      obtain ⟨x', h3, h4⟩ := ih r1 r' x1 h2 h
      exact ⟨x', ⟨.ok x1, h1, h3⟩, h4⟩

theorem addRow_outcome (hm : AllMultinomial t) {s : Trainer ℚ M} {row : Nat} (hr : row ∉ s.added) (hN : row < t.numRows) {z : Nat → Fin M}
    (hz : (sampleRow t row s : ExceptT PyErr Poss (Nat → Fin M)).run (.ok z)) : outcomes (addRow t row) s (.ok (), added t row z s) := by
  rw [addRow, outcomes_bind]
  refine ⟨.ok s, s, ⟨_, rfl, rfl⟩, ?_⟩
  show outcomes (if row ∈ s.added then _ else _) s _
  rw [if_neg hr, outcomes_bind]
  refine ⟨.ok (), _, ⟨_, rfl, rfl⟩, ?_⟩
  show outcomes (_ >>= _) _ _
  rw [outcomes_bind, if_pos hN]
  refine ⟨.ok (), _, rfl, ?_⟩
  show outcomes (_ >>= _) _ _
  rw [outcomes_bind]
  refine ⟨.ok z, _, ⟨_, hz, rfl⟩, ?_⟩
  show outcomes (_ >>= _) _ _
  rw [outcomes_bind]
  refine ⟨.ok (), _, ⟨_, rfl, rfl⟩, ?_⟩
  obtain ⟨⟨⟨res, s1⟩, h1⟩, h2⟩ := Tot.updateStats (K := ℚ) t (fun v _ => hm.getD v) row 1 z { s with added := insert row s.added, assign := Function.update s.assign row z }
  obtain ⟨u, rfl, rfl⟩ := h2 _ _ h1
  exact h1

theorem floatAddRow_added {A : FloatOps M} (hm : AllMultinomial t) {s : Trainer ℚ M} {edge : Nat → Fin M → Fin M → ℚ}
    (h : FloatRun t s edge) {row : Nat} (hr : row ∉ s.added) (hrow : row < t.numRows) {draw : Nat → ℚ} {r : FloatRow M} (hadd : floatAddRow A t row s edge draw = .ok r) :
    FloatRun t (added t row r.assign s) (floatEdges true s.tree.treeGrid r.assign edge) := by
  obtain ⟨x', h1, h2⟩ := floatRun_fold hm row _ edge s.edgeProbs (fun v a => (s.vertSS v a : ℚ) + vertPrior) draw s.program _ _
    { messages := fun v a => (s.vertSS v a : ℚ) + vertPrior
      featProbs := fun r a => (s.featSS r a : ℚ) + featPrior M
      measProbs := fun v a => (s.measSS v a : ℚ) + measPrior M t v
      assign := s.assign row } rfl hadd
  have hz : (sampleRow t row s : ExceptT PyErr Poss (Nat → Fin M)).run (.ok r.assign) := ⟨.ok x', h1, by rw [h2]; rfl⟩
  have hassign : (added t row r.assign s).assign = Function.update s.assign row r.assign := by simp only [added, statsUpdate_assign]
  have := FloatRun.addRow h (addRow_outcome hm hr hrow hz)
  rwa [hassign, Function.update_self] at this

/-- **C65** (the run goes on). Adding a row with the classes that the loop in float32 draws leads to a state of `FloatRun`. -/
theorem floatAddRow_run {A : FloatOps M} (hm : AllMultinomial t) {s : Trainer ℚ M} {edge : Nat → Fin M → Fin M → ℚ}
    (h : FloatRun t s edge) {row : Nat} (hr : row ∉ s.added) (hrow : row < t.numRows) {draw : Nat → ℚ} {r : FloatRow M} (hadd : floatAddRow A t row s edge draw = .ok r) :
    ∃ s', FloatRun t s' (floatEdges true s.tree.treeGrid r.assign edge) ∧ s'.assign = Function.update s.assign row r.assign ∧ s'.added = insert row s.added := by
  exact ⟨_, floatAddRow_added hm h hr hrow hadd, by simp only [added, statsUpdate_assign], by simp only [added, statsUpdate_added]⟩

end

end TreeCat
