import Mathlib.Algebra.Order.Round
import Mathlib.Analysis.Real.Sqrt
import Verif.Lemmas.Complete

/-!
# C01 and C09: the complete graph and packed symmetric matrices
-/

namespace TreeCat

/-! ## C01 -/

/-- **C01**. `make_complete_graph(V)` never writes outside its array and returns
`V (V - 1) / 2` columns; column `k` is `(k, v1, v2)` for a pair `v1 < v2 < V`, every
such pair occurs exactly once, and `find_complete_edge` returns its column in
either argument order. -/
theorem makeCompleteGraph_spec (V : Nat) :
    ∃ g, makeCompleteGraph V = .ok g ∧ g.length = V * (V - 1) / 2 ∧
      (∀ (k : Nat) (c : Nat × Nat × Nat), g[k]? = some c → c.1 = k ∧ c.2.1 < c.2.2 ∧ c.2.2 < V) ∧
      (∀ v1 v2, v1 < v2 → v2 < V →
        (∀ k : Nat, (∃ c : Nat × Nat × Nat, g[k]? = some c ∧ c.2 = (v1, v2)) ↔ k = findCompleteEdge v1 v2) ∧
        (∀ k : Nat, (∃ c : Nat × Nat × Nat, g[k]? = some c ∧ c.2 = (v1, v2)) ↔ k = findCompleteEdge v2 v1)) := by
  refine ⟨completeGrid V, makeCompleteGraph_eq V, completeGrid_length V, ?_, ?_⟩
  · intro k c hc
    rw [completeGrid_getElem?] at hc
    obtain ⟨p, hp, rfl⟩ := Option.map_eq_some_iff.1 hc
    have := pairs_getElem?_some V k p hp
    exact ⟨rfl, this.1, this.2.1⟩
  · intro v1 v2 h12 h2V
    have key : ∀ k, (∃ c, (completeGrid V)[k]? = some c ∧ c.2 = (v1, v2)) ↔ k = findCompleteEdge v1 v2 := by
      intro k
      constructor
      · rintro ⟨c, hc, hc2⟩
        rw [completeGrid_getElem?] at hc
        obtain ⟨p, hp, rfl⟩ := Option.map_eq_some_iff.1 hc
        have := (pairs_getElem?_some V k p hp).2.2
        simp only [Prod.mk.injEq] at hc2
        rw [← this, hc2.1, hc2.2]
      · rintro rfl
        rw [completeGrid_getElem?, pairs_getElem? V v1 v2 h12 h2V]
        exact ⟨_, rfl, rfl⟩
    exact ⟨key, by rw [fce_comm v2 v1]; exact key⟩

theorem wrap32_id (i : Int) (h0 : 0 ≤ i) (h1 : i < 2 ^ 31) : wrap32 i = i := by
  unfold wrap32
  rw [Int.emod_eq_of_lt (by omega) (by omega)]
  omega

/-- **C01** (width). With vertices below 46342 no int32 intermediate of
`find_complete_edge` overflows, so the wrapped computation is exact. The property
asks for V up to 32768. -/
theorem findCompleteEdge32_exact (v1 v2 : Nat) (hne : v1 ≠ v2) (h1 : v1 < 46342) (h2 : v2 < 46342) :
    findCompleteEdge32 v1 v2 = findCompleteEdge v1 v2 := by
  have key : ∀ a b : Nat, a < b → b < 46342 →
      wrap32 ((a : Int) + wrap32 (wrap32 ((b : Int) * wrap32 ((b : Int) - 1)) / 2))
        = ((a + b * (b - 1) / 2 : Nat) : Int) := by
    intro a b hab hb
    have hb1 : ((b : Int) - 1) = ((b - 1 : Nat) : Int) := by omega
    have hmul : b * (b - 1) ≤ 46341 * 46340 := Nat.mul_le_mul (by omega) (by omega)
    rw [wrap32_id ((b : Int) - 1) (by omega) (by omega), hb1, ← Int.natCast_mul]
    rw [wrap32_id ((b * (b - 1) : Nat) : Int) (by omega) (by omega)]
    have hdiv : (((b * (b - 1) : Nat) : Int) / 2) = ((b * (b - 1) / 2 : Nat) : Int) := by
      exact_mod_cast rfl
    rw [hdiv]
    have : b * (b - 1) / 2 ≤ 1073720970 := by omega
    rw [wrap32_id ((b * (b - 1) / 2 : Nat) : Int) (by omega) (by omega),
      wrap32_id _ (by omega) (by omega)]
    push_cast
    rfl
  unfold findCompleteEdge32 findCompleteEdge
  by_cases h : v2 < v1
  · rw [if_pos (by exact_mod_cast h), if_pos h]; exact key v2 v1 h h1
  · rw [if_neg (by exact_mod_cast h), if_neg h]; exact key v1 v2 (by omega) h2

/-- **C01** (width, sharpness). One vertex more and int32 arithmetic overflows. -/
theorem findCompleteEdge32_overflow : findCompleteEdge32 0 46342 < 0 := by decide

example : makeCompleteGraph 4 = .ok [(0, 0, 1), (1, 0, 2), (2, 1, 2), (3, 0, 3), (4, 1, 3), (5, 2, 3)] := by
  decide
example : findCompleteEdge 3 1 = 4 := by decide

/-! ## C09 -/

theorem triangleSize_tri (V : Nat) (hV : 1 ≤ V) : triangleSize (tri V) = V := by
  have h2 := two_tri V
  obtain ⟨n, rfl⟩ : ∃ n, V = n + 1 := ⟨V - 1, by omega⟩
  simp only [Nat.add_sub_cancel] at h2
  have : 1 + 8 * tri (n + 1) = (2 * n + 1) * (2 * n + 1) := by
    have : 8 * tri (n + 1) = 4 * ((n + 1) * n) := by omega
    rw [this]; ring
  unfold triangleSize
  rw [this, Nat.sqrt_eq]
  omega

/-- The integer formula used in the model is the rounded real formula of the
code, `round(0.5 + (0.25 + 2 * K)**0.5)`. -/
theorem triangleSize_eq_round (K : Nat) :
    (triangleSize K : ℤ) = round (1 / 2 + Real.sqrt (1 / 4 + 2 * K)) := by
  have hs : Real.sqrt (1 / 4 + 2 * K) = Real.sqrt (1 + 8 * K) / 2 := by
    rw [show (1 / 4 + 2 * K : ℝ) = (1 + 8 * K) / 2 ^ 2 by ring, Real.sqrt_div' _ (by positivity),
      Real.sqrt_sq (by norm_num)]
  rw [hs, round_eq, eq_comm, Int.floor_eq_iff]
  set s := Nat.sqrt (1 + 8 * K) with hsdef
  have h1 : (s : ℝ) ≤ Real.sqrt (1 + 8 * K) := by
    apply Real.le_sqrt_of_sq_le
    have : s * s ≤ 1 + 8 * K := Nat.sqrt_le _
    have : ((s * s : ℕ) : ℝ) ≤ ((1 + 8 * K : ℕ) : ℝ) := by exact_mod_cast this
    push_cast at this; nlinarith
  have h2 : Real.sqrt (1 + 8 * K) < s + 1 := by
    rw [Real.sqrt_lt' (by positivity)]
    have : 1 + 8 * K < (s + 1) * (s + 1) := Nat.lt_succ_sqrt _
    have : ((1 + 8 * K : ℕ) : ℝ) < (((s + 1) * (s + 1) : ℕ) : ℝ) := by exact_mod_cast this
    push_cast at this; nlinarith
  have hd := Nat.div_add_mod s 2
  have hm : s % 2 < 2 := Nat.mod_lt _ (by omega)
  have hcast : (s : ℝ) = 2 * ((s / 2 : ℕ) : ℝ) + ((s % 2 : ℕ) : ℝ) := by exact_mod_cast hd.symm
  have hm' : ((s % 2 : ℕ) : ℝ) ≤ 1 := by
    have : s % 2 ≤ 1 := by omega
    exact_mod_cast this
  have hm0 : (0 : ℝ) ≤ ((s % 2 : ℕ) : ℝ) := Nat.cast_nonneg _
  have htri : ((triangleSize K : ℤ) : ℝ) = 1 + ((s / 2 : ℕ) : ℝ) := by
    unfold triangleSize
    rw [← hsdef, Int.cast_natCast, Nat.cast_add, Nat.cast_one]
  rw [htri]
  constructor <;> linarith

/-- Entry of a matrix given as a list of rows. -/
def entry? {α : Type} (sq : List (List α)) (i j : Nat) : Option α := (sq[i]?).bind (·[j]?)

/-- A V x V matrix. -/
def IsSquare {α : Type} (V : Nat) (sq : List (List α)) : Prop :=
  sq.length = V ∧ ∀ r ∈ sq, r.length = V

theorem fancyAssign_spec {α : Type} (V : Nat) (sq : List (List α)) (hsq : IsSquare V sq)
    (as : List (Nat × Nat × α)) (hin : ∀ a ∈ as, a.1 < V ∧ a.2.1 < V)
    (hnd : (as.map fun a => (a.1, a.2.1)).Nodup) :
    ∃ sq', fancyAssign sq as = .ok sq' ∧ IsSquare V sq' ∧
      (∀ a ∈ as, entry? sq' a.1 a.2.1 = some a.2.2) ∧
      (∀ i j, (∀ a ∈ as, (a.1, a.2.1) ≠ (i, j)) → entry? sq' i j = entry? sq i j) := by
  induction as generalizing sq with
  | nil => exact ⟨sq, rfl, hsq, by simp, fun _ _ _ => rfl⟩
  | cons a as ih =>
    obtain ⟨i, j, x⟩ := a
    obtain ⟨hi, hj⟩ := hin (i, j, x) (by simp)
    simp only at hi hj
    simp only [List.map_cons, List.nodup_cons] at hnd
    have hil : i < sq.length := by rw [hsq.1]; exact hi
    have hrow : sq[i].length = V := hsq.2 _ (List.getElem_mem hil)
    set sq1 := sq.set i (sq[i].set j x) with hsq1
    have hs1 : IsSquare V sq1 := by
      refine ⟨by simp [hsq1, hsq.1], fun r hr => ?_⟩
      rcases List.mem_or_eq_of_mem_set hr with h | h
      · exact hsq.2 r h
      · rw [h]; simp [hrow]
    have hent : ∀ i' j', entry? sq1 i' j' = if (i', j') = (i, j) then some x else entry? sq i' j' := by
      intro i' j'
      simp only [entry?, hsq1]
      by_cases h1 : i' = i
      · subst h1
        rw [List.getElem?_set_self hil, List.getElem?_eq_getElem hil]
        simp only [Option.bind_some]
        by_cases h2 : j' = j
        · subst h2
          rw [List.getElem?_set_self (by omega)]; simp
        · rw [List.getElem?_set_ne (Ne.symm h2)]; simp [h2]
      · rw [List.getElem?_set_ne (Ne.symm h1)]; simp [h1]
    obtain ⟨sq', h1, h2, h3, h4⟩ := ih sq1 hs1 (fun a ha => hin a (by simp [ha])) hnd.2
    refine ⟨sq', ?_, h2, ?_, ?_⟩
    · simp only [fancyAssign, pyGet_eq_ok.2 (List.getElem?_eq_getElem hil), bind, Except.bind,
        pySet_ok sq[i] j x (by omega), pySet_ok sq i _ hil]
      exact h1
    · intro a ha
      rcases List.mem_cons.1 ha with rfl | ha
      · simp only
        rw [h4 i j, hent, if_pos rfl]
        intro b hb hbe
        exact hnd.1 (by rw [← hbe]; exact List.mem_map.2 ⟨b, hb, rfl⟩)
      · exact h3 a ha
    · intro i' j' hne
      rw [h4 i' j' (fun a ha => hne a (by simp [ha])), hent, if_neg]
      exact fun h => hne (i, j, x) (by simp) h.symm

/-- **C09**. On the packed array of a complete graph over V >= 1 vertices the
result is the V x V symmetric matrix with zero diagonal whose `(v1, v2)` entry is
the packed value at `find_complete_edge(v1, v2)`. -/
theorem triangularToSquare_spec {α : Type} [Zero α] (V : Nat) (hV : 1 ≤ V) (g : Grid)
    (hg : makeCompleteGraph V = .ok g) (t : List α) (ht : t.length = V * (V - 1) / 2) :
    ∃ sq, triangularToSquare g t = .ok sq ∧ IsSquare V sq ∧
      (∀ v < V, entry? sq v v = some 0) ∧
      (∀ v1 < V, ∀ v2 < V, v1 ≠ v2 →
        entry? sq v1 v2 = t[findCompleteEdge v1 v2]? ∧ (entry? sq v1 v2).isSome) := by
  rw [makeCompleteGraph_eq] at hg
  cases hg
  change t.length = tri V at ht
  have hts := triangleSize_tri V hV
  set sq0 := List.replicate V (List.replicate V (0 : α)) with hsq0
  have hs0 : IsSquare V sq0 := ⟨by simp [hsq0], fun r hr => by
    rw [hsq0] at hr; rw [(List.mem_replicate.1 hr).2]; simp⟩
  have he0 : ∀ i < V, ∀ j < V, entry? sq0 i j = some 0 := by
    intro i hi j hj
    simp [entry?, hsq0, hi, hj]
  set z := (completeGrid V).zip t with hz
  have hzmem : ∀ p ∈ z, p.1.2.1 < p.1.2.2 ∧ p.1.2.2 < V ∧ t[findCompleteEdge p.1.2.1 p.1.2.2]? = some p.2 := by
    intro p hp
    obtain ⟨k, hk⟩ := List.mem_iff_getElem?.1 hp
    rw [List.getElem?_zip_eq_some] at hk
    obtain ⟨hk1, hk2⟩ := hk
    rw [completeGrid_getElem?] at hk1
    obtain ⟨q, hq, hq'⟩ := Option.map_eq_some_iff.1 hk1
    have := pairs_getElem?_some V k q hq
    rw [← hq']
    exact ⟨this.1, this.2.1, by simp only; rw [this.2.2]; exact hk2⟩
  have hzhas : ∀ v1 v2, v1 < v2 → v2 < V → ∃ x, (( findCompleteEdge v1 v2, v1, v2), x) ∈ z ∧
      t[findCompleteEdge v1 v2]? = some x := by
    intro v1 v2 h12 h2V
    have hk := fce_lt h12 h2V
    refine ⟨t[findCompleteEdge v1 v2], ?_, List.getElem?_eq_getElem (by omega)⟩
    rw [List.mem_iff_getElem?]
    refine ⟨findCompleteEdge v1 v2, ?_⟩
    rw [List.getElem?_zip_eq_some, completeGrid_getElem?, pairs_getElem? V v1 v2 h12 h2V]
    exact ⟨rfl, List.getElem?_eq_getElem (by omega)⟩
  have hzinj : (z.map fun p => (p.1.2.1, p.1.2.2)).Nodup := by
    have : (z.map fun p => p.1) = completeGrid V := by
      rw [hz]
      exact List.map_fst_zip (by rw [completeGrid_length]; omega)
    have h2 : (z.map fun p => (p.1.2.1, p.1.2.2)) = pairs V := by
      rw [show (fun p : (Nat × Nat × Nat) × α => (p.1.2.1, p.1.2.2)) = (fun c : Nat × Nat × Nat => (c.2.1, c.2.2)) ∘ (fun p => p.1) from rfl,
        ← List.map_map, this]
      apply List.ext_getElem?
      intro k
      rw [List.getElem?_map, completeGrid_getElem?]
      cases (pairs V)[k]? <;> simp
    rw [h2, List.nodup_iff_getElem?_ne_getElem?]
    intro i j hij hj he
    have hi : i < (pairs V).length := by omega
    have e1 := pairs_getElem?_some V i _ (List.getElem?_eq_getElem hi)
    have e2 := pairs_getElem?_some V j _ (List.getElem?_eq_getElem hj)
    rw [List.getElem?_eq_getElem hi, List.getElem?_eq_getElem hj] at he
    injection he with he
    rw [he] at e1
    omega
  obtain ⟨sq1, a1, a2, a3, a4⟩ := fancyAssign_spec V sq0 hs0 (z.map fun p => (p.1.2.1, p.1.2.2, p.2))
    (by
      intro a ha
      obtain ⟨p, hp, rfl⟩ := List.mem_map.1 ha
      have := hzmem p hp; simp only; omega)
    (by rw [List.map_map]; exact hzinj)
  obtain ⟨sq2, b1, b2, b3, b4⟩ := fancyAssign_spec V sq1 a2 (z.map fun p => (p.1.2.2, p.1.2.1, p.2))
    (by
      intro a ha
      obtain ⟨p, hp, rfl⟩ := List.mem_map.1 ha
      have := hzmem p hp; simp only; omega)
    (by
      rw [List.map_map]
      have := hzinj.map (f := Prod.swap) (fun a b h => Prod.swap_injective h)
      rw [List.map_map] at this
      exact this)
  refine ⟨sq2, ?_, b2, fun v hv => ?_, fun v1 h1 v2 h2 hne => ?_⟩
  · have hl : (completeGrid V).length = t.length := by rw [completeGrid_length, ht]
    simp only [triangularToSquare, pyAssert, hl, beq_self_eq_true, if_true, bind, Except.bind]
    rw [ht, hts]
    have : (tri V == V * (V - 1) / 2) = true := by rw [beq_iff_eq]; rfl
    simp only [this, if_true]
    rw [← hsq0, ← hz, a1]
    exact b1
  · rw [b4 v v, a4 v v, he0 v hv v hv]
    · intro a ha
      obtain ⟨p, hp, rfl⟩ := List.mem_map.1 ha
      have := hzmem p hp
      intro he; simp only [Prod.mk.injEq] at he; omega
    · intro a ha
      obtain ⟨p, hp, rfl⟩ := List.mem_map.1 ha
      have := hzmem p hp
      intro he; simp only [Prod.mk.injEq] at he; omega
  · suffices h : ∃ x, entry? sq2 v1 v2 = some x ∧ t[findCompleteEdge v1 v2]? = some x by
      obtain ⟨x, hx, hx'⟩ := h
      rw [hx, hx']; simp
    rcases Nat.lt_or_gt_of_ne hne with h12 | h12
    · obtain ⟨x, hx, hx'⟩ := hzhas v1 v2 h12 h2
      refine ⟨x, ?_, hx'⟩
      rw [b4 v1 v2]
      · exact a3 (v1, v2, x) (List.mem_map.2 ⟨_, hx, rfl⟩)
      · intro a ha
        obtain ⟨p, hp, rfl⟩ := List.mem_map.1 ha
        have := hzmem p hp
        intro he; simp only [Prod.mk.injEq] at he; omega
    · obtain ⟨x, hx, hx'⟩ := hzhas v2 v1 h12 h1
      rw [fce_comm]
      exact ⟨x, b3 (v1, v2, x) (List.mem_map.2 ⟨_, hx, rfl⟩), hx'⟩

/-- **C09** (rejection). An array whose length is not a triangular number, or that
does not match the grid, fails an assertion. -/
theorem triangularToSquare_rejects {α : Type} [Zero α] (g : Grid) (t : List α)
    (h : g.length ≠ t.length ∨ ∀ V, t.length ≠ V * (V - 1) / 2) :
    triangularToSquare g t = .error .assertion := by
  by_cases hl : g.length = t.length
  · have ht := (h.resolve_left (fun h => h hl)) (triangleSize t.length)
    have : (t.length == triangleSize t.length * (triangleSize t.length - 1) / 2) = false := by
      simpa using ht
    simp [triangularToSquare, pyAssert, hl, bind, Except.bind, this]
  · simp [triangularToSquare, pyAssert, hl, bind, Except.bind]

example : triangularToSquare [(0, 0, 1), (1, 0, 2), (2, 1, 2)] [5, 6, 7]
    = .ok [[0, 5, 6], [5, 0, 7], [6, 7, 0]] := by decide +kernel
example : triangularToSquare [(0, 0, 1), (1, 0, 2)] [5, 6] = .error .assertion := by decide +kernel

end TreeCat
