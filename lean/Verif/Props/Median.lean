import Verif.Props.Marginals
import Verif.Props.Quantize

/-!
# C27: `median` returns the closest rows of counts
-/

set_option linter.unusedSectionVars false

namespace TreeCat

open Spec Util

section
variable {K : Type} [Field K] [LinearOrder K] [IsStrictOrderedRing K] {M : Nat} [NeZero M]
variable {model : Model K M} {srv : Server K M}

/-- Sums over a block as sums over positions in the block. -/
theorem columns_sum {β : Type} [AddCommMonoid β] (s : Serves model srv) (v : Nat) (f : Nat → β) :
    ∑ c ∈ columns model v, f c = ∑ i : Fin (srv.stop v - srv.beg v), f (srv.beg v + i.val) := by
  unfold columns Server.beg Server.stop
  rw [s.ragged, Finset.sum_Ico_eq_sum_range, Finset.sum_range]

/-- One row of `median`: every block is the closest vector of counts. -/
theorem medianRow_spec (h : Model.Valid model) (s : Serves model srv) (counts : List Int)
    (hc : ∀ v < model.tree.numVertices, 0 ≤ counts.getD v 0 ∧ counts.getD v 0 ≤ 127) (marginal : Nat → K)
    (hm : ∀ v < model.tree.numVertices, 0 < counts.getD v 0 → (∀ c ∈ columns model v, 0 ≤ marginal c) ∧ ∑ c ∈ columns model v, marginal c = 1) :
    ∃ row : Nat → Int, medianRow srv counts marginal = .ok row ∧ ∀ v < model.tree.numVertices,
      (∀ c ∈ columns model v, 0 ≤ row c) ∧ ∑ c ∈ columns model v, row c = counts.getD v 0 ∧
      ∀ q : Nat → Int, ∑ c ∈ columns model v, q c = counts.getD v 0 →
        ∑ c ∈ columns model v, |counts.getD v 0 * marginal c - (row c : K)|
          ≤ ∑ c ∈ columns model v, |counts.getD v 0 * marginal c - (q c : K)| := by
  have hV : srv.raggedIndex.length - 1 = model.tree.numVertices := by rw [s.ragged, h.ragged]; rfl
  have key : ∀ n, n ≤ model.tree.numVertices → ∃ row : Nat → Int,
      (List.range n).foldlM (fun (result : Nat → Int) v => do
        let q ← quantizeRow (fun c : Fin (srv.stop v - srv.beg v) => marginal (srv.beg v + c.val)) (counts.getD v 0).toNat
        .ok fun r => if h : srv.beg v ≤ r ∧ r < srv.stop v then q ⟨r - srv.beg v, by omega⟩ else result r)
        (fun _ => 0) = (.ok row : Py (Nat → Int)) ∧ ∀ v < n,
      (∀ c ∈ columns model v, 0 ≤ row c) ∧ ∑ c ∈ columns model v, row c = counts.getD v 0 ∧
      ∀ q : Nat → Int, ∑ c ∈ columns model v, q c = counts.getD v 0 →
        ∑ c ∈ columns model v, |counts.getD v 0 * marginal c - (row c : K)|
          ≤ ∑ c ∈ columns model v, |counts.getD v 0 * marginal c - (q c : K)| := by
    intro n
    induction n with
    | zero => intro _; exact ⟨_, rfl, by simp⟩
    | succ n ih =>
      intro hn
      obtain ⟨row, e, hrow⟩ := ih (by omega)
      obtain ⟨hc0, hc1⟩ := hc n (by omega)
      have hcol : ∀ i : Fin (srv.stop n - srv.beg n), srv.beg n + i.val ∈ columns model n := by
        intro i
        have := i.isLt
        rw [mem_columns]
        simp only [Server.beg, Server.stop, s.ragged] at this ⊢
        omega
      have hcast : ((counts.getD n 0).toNat : Int) = counts.getD n 0 := Int.toNat_of_nonneg hc0
      have hcastK : (((counts.getD n 0).toNat : Nat) : K) = ((counts.getD n 0 : Int) : K) := by
        rw [← Int.cast_natCast, hcast]
      obtain ⟨q, q1, q2, q3, q5⟩ : ∃ q : Fin (srv.stop n - srv.beg n) → Int,
          quantizeRow (fun i : Fin (srv.stop n - srv.beg n) => marginal (srv.beg n + i.val)) (counts.getD n 0).toNat = .ok q ∧ (∀ i, 0 ≤ q i) ∧
          ∑ i, q i = counts.getD n 0 ∧ ∀ p : Fin (srv.stop n - srv.beg n) → Int, ∑ i, p i = counts.getD n 0 →
            ∑ i, |counts.getD n 0 * marginal (srv.beg n + i.val) - (q i : K)| ≤ ∑ i, |counts.getD n 0 * marginal (srv.beg n + i.val) - (p i : K)| := by
        by_cases hz : counts.getD n 0 = 0
        · refine ⟨fun _ => 0, by rw [hz]; rfl, fun _ => le_refl _, by rw [hz, Finset.sum_const_zero], fun p _ => ?_⟩
          simp only [hz, Int.cast_zero, zero_mul, sub_zero, abs_zero, Finset.sum_const_zero]
          exact Finset.sum_nonneg fun _ _ => abs_nonneg _
        · obtain ⟨hm0, hm1⟩ := hm n (by omega) (by omega)
          have hsum1 : ∑ i : Fin (srv.stop n - srv.beg n), marginal (srv.beg n + i.val) = 1 := by
            rw [← columns_sum s]; exact hm1
          obtain ⟨q, q1, q2, q3, -, q5⟩ := quantizeRow_optimal_partial
            (fun i : Fin (srv.stop n - srv.beg n) => marginal (srv.beg n + i.val)) (fun i => hm0 _ (hcol i))
            (by rw [hsum1]; exact one_pos) (counts.getD n 0).toNat (by omega)
          refine ⟨q, q1, q2, by rw [q3, hcast], fun p hp => ?_⟩
          have := q5 p (by rw [hp, hcast])
          unfold l1 target at this
          simpa only [hsum1, div_one, hcastK] using this
      set row' : Nat → Int := fun r => if h : srv.beg n ≤ r ∧ r < srv.stop n then q ⟨r - srv.beg n, by omega⟩ else row r
        with hrow'
      have hin : ∀ i : Fin (srv.stop n - srv.beg n), row' (srv.beg n + i.val) = q i := by
        intro i
        have := i.isLt
        rw [hrow']
        simp only
        rw [dif_pos ⟨by omega, by omega⟩]
        congr 1
        exact Fin.ext (by simp)
      have hout : ∀ v < n, ∀ c ∈ columns model v, row' c = row c := by
        intro v hv c hcv
        rw [hrow']
        simp only
        rw [dif_neg]
        intro hcn
        have : c ∈ columns model n := by
          rw [mem_columns]
          simpa only [Server.beg, Server.stop, s.ragged] using hcn
        have := columns_disjoint h (by omega) (by omega) hcv this
        omega
      refine ⟨row', ?_, fun v hv => ?_⟩
      · rw [List.range_succ, List.foldlM_append, e]
        simp only [bind, Except.bind, List.foldlM_cons, q1, List.foldlM_nil, pure, Except.pure]
        rfl
      · rcases Nat.lt_or_ge v n with hvn | hvn
        · obtain ⟨r1, r2, r3⟩ := hrow v hvn
          refine ⟨fun c hcv => by rw [hout v hvn c hcv]; exact r1 c hcv, ?_, fun p hp => ?_⟩
          · rw [Finset.sum_congr rfl fun c hcv => hout v hvn c hcv]; exact r2
          · rw [Finset.sum_congr rfl fun c hcv => by rw [hout v hvn c hcv]]
            exact r3 p hp
        · obtain rfl : v = n := by omega
          refine ⟨fun c hcv => ?_, ?_, fun p hp => ?_⟩
          · have hcv' : srv.beg v ≤ c ∧ c < srv.stop v := by
              rw [mem_columns] at hcv
              simpa only [Server.beg, Server.stop, s.ragged] using hcv
            have := hin ⟨c - srv.beg v, by omega⟩
            simp only at this
            rw [show srv.beg v + (c - srv.beg v) = c by omega] at this
            rw [this]; exact q2 _
          · rw [columns_sum s, Finset.sum_congr rfl fun i _ => hin i, q3]
          · have := q5 (fun i => p (srv.beg v + i.val)) (by rw [← columns_sum s v p, hp])
            rw [columns_sum s, columns_sum s]
            simpa only [hin] using this
  obtain ⟨row, e, hrow⟩ := key _ (le_refl _)
  refine ⟨row, ?_, hrow⟩
  unfold medianRow
  rw [hV]
  exact e

/-- **C27.** `median(counts, data)` has the shape of `data`; every block is nonnegative, adds up to `counts[v]` and is at least as
close to `counts[v]` times the marginals as any other vector of integers with that sum. The counts are at most 127, as the
arrays are int8. -/
theorem server_median (h : Model.Valid model) (s : Serves model srv) (junk : Nat → Fin M → K) (counts : List Int)
    (hl : counts.length = model.tree.numVertices) (hc : ∀ x ∈ counts, 0 ≤ x ∧ x ≤ 127)
    (hne : ∀ v < model.tree.numVertices, 0 < counts.getD v 0 → (columns model v).Nonempty) (data : List (List Int))
    (hd : ∀ row ∈ data, row.length = model.raggedIndex.getLastD 0) :
    ∃ marg : List (Nat → K), srv.marginals junk data = .ok marg ∧ marg.length = data.length ∧
    ∃ rows, srv.median junk counts data = .ok rows ∧ List.Forall₂ (fun p row =>
      row.length = model.raggedIndex.getLastD 0 ∧ ∀ v < model.tree.numVertices,
      (∀ c ∈ columns model v, 0 ≤ row.getD c 0) ∧ ∑ c ∈ columns model v, row.getD c 0 = counts.getD v 0 ∧
      ∀ q : Nat → Int, ∑ c ∈ columns model v, q c = counts.getD v 0 →
        ∑ c ∈ columns model v, |counts.getD v 0 * p c - (row.getD c 0 : K)|
          ≤ ∑ c ∈ columns model v, |counts.getD v 0 * p c - (q c : K)|) marg rows := by
  obtain ⟨r, hr, hp⟩ := exists_plan_none h s.program
  have hR : srv.raggedSize = model.raggedIndex.getLastD 0 := by rw [Server.raggedSize, s.ragged]
  have hc' : ∀ v < model.tree.numVertices, 0 ≤ counts.getD v 0 ∧ counts.getD v 0 ≤ 127 := by
    intro v hv
    rw [List.getD_eq_getElem _ _ (by omega)]
    exact hc _ (List.getElem_mem _)
  have ha : (data.all fun row => row.length == srv.raggedSize) = true := by
    rw [List.all_eq_true]
    intro row hrow
    rw [beq_iff_eq, hd row hrow, hR]
  have hmarg : srv.marginals junk data = .ok (data.map (marginalsWith srv srv.program junk)) := by
    simp only [Server.marginals, ha, pyAssert, if_true, bind, Except.bind]
  refine ⟨_, hmarg, by simp, ?_⟩
  have hrow : ∀ d, ∃ row : Nat → Int, medianRow srv counts (marginalsWith srv srv.program junk d) = .ok row ∧ _ := fun d =>
    medianRow_spec h s counts hc' (marginalsWith srv srv.program junk d) fun v hv h0 =>
      ⟨fun c hc => ((marginals_sum h s hr hp d junk hv (hne v hv h0)).1 c hc).le, (marginals_sum h s hr hp d junk hv (hne v hv h0)).2⟩
  choose row hrow1 hrow2 using hrow
  refine ⟨data.map fun d => (List.range srv.raggedSize).map (row d), ?_, ?_⟩
  · simp only [Server.median, hmarg, bind, Except.bind]
    rw [List.mapM_map]
    clear ha hmarg hd
    induction data with
    | nil => rfl
    | cons d data ih =>
      rw [List.mapM_cons, ih]
      simp only [Function.comp, hrow1, bind, Except.bind, pure, Except.pure, List.map_cons]
  · rw [List.forall₂_map_left_iff, List.forall₂_map_right_iff, List.forall₂_same]
    intro d _
    refine ⟨by simp [hR], fun v hv => ?_⟩
    have e : ∀ c ∈ columns model v, ((List.range srv.raggedSize).map (row d)).getD c 0 = row d c := by
      intro c hcv
      rw [List.getD_eq_getElem _ _ (by simpa [hR] using column_lt h hv hcv), List.getElem_map, List.getElem_range]
    obtain ⟨r1, r2, r3⟩ := hrow2 d v hv
    refine ⟨fun c hcv => by rw [e c hcv]; exact r1 c hcv, ?_, fun q hq => ?_⟩
    · rw [Finset.sum_congr rfl e]; exact r2
    · rw [Finset.sum_congr rfl fun c hcv => by rw [e c hcv]]
      exact r3 q hq

theorem quantizeRow_empty (p : Fin 0 → K) {n : Nat} (hn : 0 < n) : quantizeRow p n = .error .valueError := by
  cases n with
  | zero => omega
  | succ n => rfl

/-- **C27.** The condition on empty features is needed: if an observation of a feature without values is asked for, `median` raises `ValueError`. -/
theorem server_median_empty (h : Model.Valid model) (s : Serves model srv) (junk : Nat → Fin M → K) (counts : List Int)
    (hc : ∀ v < model.tree.numVertices, 0 ≤ counts.getD v 0 ∧ counts.getD v 0 ≤ 127) {v : Nat} (hv : v < model.tree.numVertices)
    (h0 : 0 < counts.getD v 0) (he : columns model v = ∅) (data : List (List Int)) (hne : data ≠ [])
    (hd : ∀ row ∈ data, row.length = model.raggedIndex.getLastD 0) : srv.median junk counts data = .error .valueError := by
  have hR : srv.raggedSize = model.raggedIndex.getLastD 0 := by rw [Server.raggedSize, s.ragged]
  obtain ⟨r, hr, hp⟩ := exists_plan_none h s.program
  have hV : srv.raggedIndex.length - 1 = model.tree.numVertices := by rw [s.ragged, h.ragged]; rfl
  have ha : (data.all fun row => row.length == srv.raggedSize) = true := by
    rw [List.all_eq_true]
    intro row hrow
    rw [beq_iff_eq, hd row hrow, hR]
  have hrow : ∀ d, medianRow srv counts (marginalsWith srv srv.program junk d) = .error .valueError := by
    intro d
    have key : ∀ (l : List Nat) (row0 : Nat → Int), (∀ u ∈ l, u < model.tree.numVertices) → v ∈ l →
        l.foldlM (fun (result : Nat → Int) v => do
          let q ← quantizeRow (fun c : Fin (srv.stop v - srv.beg v) => marginalsWith srv srv.program junk d (srv.beg v + c.val)) (counts.getD v 0).toNat
          .ok fun r => if h : srv.beg v ≤ r ∧ r < srv.stop v then q ⟨r - srv.beg v, by omega⟩ else result r)
          row0 = (.error .valueError : Py (Nat → Int)) := by
      intro l
      induction l with
      | nil => intro _ _ h; cases h
      | cons u l ih =>
        intro row0 hl hvl
        rw [List.foldlM_cons]
        by_cases hw : srv.stop u - srv.beg u = 0
        · by_cases hcu : 0 < counts.getD u 0
          · have : ∀ (w : Nat) (p : Fin w → K), w = 0 → quantizeRow p (counts.getD u 0).toNat = .error .valueError := by
              rintro _ p rfl
              exact quantizeRow_empty p (by omega)
            rw [this _ _ hw]
            rfl
          · have hz : (counts.getD u 0).toNat = 0 := by omega
            rw [hz]
            exact ih _ (fun w hw => hl w (by simp [hw])) ((List.mem_cons.1 hvl).resolve_left (by rintro rfl; exact hcu h0))
        · have hu := hl u (by simp)
          have hne : (columns model u).Nonempty := ⟨srv.beg u, mem_columns.2 (by
            simp only [Server.beg, Server.stop, s.ragged] at hw ⊢
            omega)⟩
          have hm := marginals_sum h s hr hp d junk hu hne
          obtain ⟨q, q1, -⟩ := quantizeRow_optimal_partial
            (fun i : Fin (srv.stop u - srv.beg u) => marginalsWith srv srv.program junk d (srv.beg u + i.val)) (fun i => (hm.1 _ (mem_columns.2 (by
              have := i.isLt
              simp only [Server.beg, Server.stop, s.ragged] at this ⊢
              omega))).le)
            (by rw [← columns_sum s u (marginalsWith srv srv.program junk d), hm.2]; exact one_pos) (counts.getD u 0).toNat (by have := hc u hu; omega)
          rw [q1]
          refine ih _ (fun w hw => hl w (by simp [hw])) ((List.mem_cons.1 hvl).resolve_left ?_)
          rintro rfl
          rw [he] at hne
          exact Finset.not_nonempty_empty hne
    unfold medianRow
    rw [hV]
    exact key _ _ (fun u hu => List.mem_range.1 hu) (List.mem_range.2 hv)
  cases data with
  | nil => exact absurd rfl hne
  | cons d data =>
    simp only [Server.median, Server.marginals, ha, pyAssert, if_true, bind, Except.bind, List.map_cons, List.mapM_cons, hrow]

end

/-- The hypotheses hold of the example. -/
example : ∃ srv : Server ℚ 2, Serves (exampleModel ℚ) srv ∧ ∃ rows,
    srv.median (fun _ _ => 1) [2, 5, 0] [[0, 0, 0, 1, 0, 0, 1], [0, 0, 0, 0, 0, 0, 0]] = .ok rows ∧ rows.length = 2 := by
  obtain ⟨mst, hmst⟩ := exists_mst (K := ℚ)
  obtain ⟨srv, -, s, -⟩ := server_init hmst (exampleModel_valid ℚ)
  obtain ⟨marg, -, hl, rows, h1, h2⟩ := server_median (exampleModel_valid ℚ) s (fun _ _ => 1) [2, 5, 0] rfl (by decide) (by
    intro v hv _
    have : v = 0 ∨ v = 1 ∨ v = 2 := by change v < 3 at hv; omega
    rcases this with rfl | rfl | rfl
    · exact ⟨0, by simp [columns, exampleModel]⟩
    · exact ⟨2, by simp [columns, exampleModel]⟩
    · exact ⟨5, by simp [columns, exampleModel]⟩) [[0, 0, 0, 1, 0, 0, 1], [0, 0, 0, 0, 0, 0, 0]] (by
      intro row hrow
      simp only [List.mem_cons, List.not_mem_nil, or_false] at hrow
      rcases hrow with rfl | rfl <;> rfl)
  exact ⟨srv, s, rows, h1, by rw [← h2.length_eq, hl]; rfl⟩

end TreeCat
