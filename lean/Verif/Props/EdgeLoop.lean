import Verif.Lemmas.Program
import Verif.Model.EdgeLoop
import Verif.Props.EdgeLogits

/-! # C61: the parallel loop over edges computes what the sequential one does, for every interleaving -/

set_option linter.unusedSectionVars false

namespace TreeCat

section
variable {R : Type} {M : Nat}

namespace Spec

/-- The sum over all cells, in order, of the table entries for the numbers of rows in the cells. -/
def cellSum (A : Arith R) (table : List R) (pairs : List (Fin M × Fin M)) : R :=
  ((List.finRange M).flatMap fun a => (List.finRange M).map fun b => (a, b)).foldl (fun acc c => A.add acc (table.getD (pairs.count c) A.zero)) A.zero

/-- The logit of an edge. -/
def edgeValue (A : Arith R) (table : List R) (assignments : List (Nat → Fin M)) (vertLogits : Nat → R) (c : Nat × Nat × Nat) : R :=
  A.sub (A.sub (cellSum A table (assignments.map fun a => (a c.2.1, a c.2.2))) (vertLogits c.2.1)) (vertLogits c.2.2)

end Spec

open Spec

theorem foldl_countPair (rows : List (Fin M × Fin M)) (f : Fin M → Fin M → Nat) (c : Fin M × Fin M) :
    rows.foldl countPair f c.1 c.2 = f c.1 c.2 + rows.count c := by
  induction rows generalizing f with
  | nil => simp
  | cons p rows ih =>
    rw [List.foldl_cons, ih, List.count_cons]
    obtain ⟨a, b⟩ := c
    obtain ⟨p1, p2⟩ := p
    unfold countPair bump
    by_cases h1 : a = p1
    · subst h1
      by_cases h2 : b = p2
      · subst h2
        simp
        omega
      · have : ¬ p2 = b := fun h => h2 h.symm
        simp [Function.update_of_ne h2, this]
    · have : ¬ p1 = a := fun h => h1 h.symm
      simp [Function.update_of_ne h1, this]

theorem addTerm_ok (A : Arith R) {table : List R} {counts : Fin M → Fin M → Nat} {acc : R} {c : Fin M × Fin M} (h : counts c.1 c.2 < table.length) :
    addTerm A table counts acc c = .ok (A.add acc (table.getD (counts c.1 c.2) A.zero)) := by
  simp only [addTerm, pyGet, List.getElem?_eq_getElem h, bind, Except.bind, List.getD_eq_getElem?_getD, Option.getD_some]

theorem edgeLogitOf_ok (A : Arith R) {table : List R} {pairs : List (Fin M × Fin M)} (h : pairs.length < table.length) :
    edgeLogitOf A table pairs = .ok (cellSum A table pairs) := by
  have hc : ∀ c : Fin M × Fin M, pairs.foldl countPair (fun _ _ => 0) c.1 c.2 = pairs.count c := by
    intro c; rw [foldl_countPair]; simp
  have key : ∀ (cells : List (Fin M × Fin M)) (acc : R),
      cells.foldlM (addTerm A table (pairs.foldl countPair fun _ _ => 0)) acc =
        .ok (cells.foldl (fun acc c => A.add acc (table.getD (pairs.count c) A.zero)) acc) := by
    intro cells
    induction cells with
    | nil => intro acc; rfl
    | cons c cells ih =>
      intro acc
      rw [List.foldlM_cons, addTerm_ok A (by rw [hc]; exact lt_of_le_of_lt List.count_le_length h), hc]
      exact ih _
  exact key _ _

/-- The sequential loop computes the logit of each edge. -/
theorem edgeLogitsSeq_eq (A : Arith R) (grid : List (Nat × Nat × Nat)) {table : List R} {assignments : List (Nat → Fin M)} (vertLogits : Nat → R)
    (h : assignments.length < table.length) :
    edgeLogitsSeq A grid table assignments vertLogits = .ok (grid.map (edgeValue A table assignments vertLogits)) := by
  have hstep : ∀ (logits : List R) (k : Nat) (hk : k < grid.length), logits.length = grid.length →
      seqStep A grid table assignments vertLogits logits k = .ok (logits.set k (edgeValue A table assignments vertLogits grid[k])) := by
    intro logits k hk hl
    have e : edgeLogitOf A table (pairsOf assignments grid[k]) = .ok (cellSum A table (pairsOf assignments grid[k])) :=
      edgeLogitOf_ok A (by simpa [pairsOf] using h)
    simp only [seqStep, pyGet, List.getElem?_eq_getElem hk, e, pySet, hl, hk, if_true, bind, Except.bind]
    rfl
  have key : ∀ n ≤ grid.length, (List.range n).foldlM (seqStep A grid table assignments vertLogits) (List.replicate grid.length A.zero) =
      .ok ((grid.take n).map (edgeValue A table assignments vertLogits) ++ List.replicate (grid.length - n) A.zero) := by
    intro n
    induction n with
    | zero => intro _; simp [pure, Except.pure]
    | succ n ih =>
      intro hn
      rw [List.range_succ, List.foldlM_append, ih (by omega)]
      simp only [List.foldlM_cons, List.foldlM_nil, bind, Except.bind]
      rw [hstep _ n (by omega) (by simp; omega)]
      simp only [pure, Except.pure]
      congr 1
      rw [List.take_add_one, List.getElem?_eq_getElem (by omega), List.map_append, List.append_assoc]
      rw [List.set_append_right _ _ (by simp), List.length_map, List.length_take, Nat.min_eq_left (by omega), Nat.sub_self]
      congr 1
      rw [show grid.length - n = (grid.length - (n + 1)) + 1 by omega, List.replicate_succ, List.set_cons_zero]
      rfl
  have := key grid.length (le_refl _)
  rw [List.take_length, Nat.sub_self, List.replicate_zero, List.append_nil] at this
  exact this

/-- The steps that an iteration still has to make. -/
def Iter.left (it : Iter R M) : Nat := it.rows.length + it.cells.length + if it.written then 0 else 1

/-- The same for iteration `k` of a machine. -/
def Machine.left (σ : Machine R M) (k : Nat) : Nat := ((σ.iters[k]?).map Iter.left).getD 0

/-- What is true of an iteration at any time. -/
structure IterInv (A : Arith R) (table : List R) (assignments : List (Nat → Fin M)) (c : Nat × Nat × Nat) (it : Iter R M) : Prop where
  ends : it.ends = c.2
  counts : ∀ p : Fin M × Fin M, it.rows.foldl countPair it.counts p.1 p.2 = (pairsOf assignments c).count p
  value : it.cells.foldl (fun acc p => A.add acc (table.getD ((pairsOf assignments c).count p) A.zero)) it.acc = cellSum A table (pairsOf assignments c)
  done : it.written = true → it.rows = [] ∧ it.cells = []

/-- What is true of the machine at any time. -/
structure MachineInv (A : Arith R) (table : List R) (assignments : List (Nat → Fin M)) (vertLogits : Nat → R) (grid : List (Nat × Nat × Nat))
    (σ : Machine R M) : Prop where
  iters : σ.iters.length = grid.length
  logits : σ.logits.length = grid.length
  inv : ∀ (k : Nat) it c, σ.iters[k]? = some it → grid[k]? = some c → IterInv A table assignments c it ∧
    σ.logits[k]? = some (if it.written then edgeValue A table assignments vertLogits c else A.zero)

theorem MachineInv.start (A : Arith R) (table : List R) (assignments : List (Nat → Fin M)) (vertLogits : Nat → R) (grid : List (Nat × Nat × Nat)) :
    MachineInv A table assignments vertLogits grid (Machine.start A grid assignments) := by
  refine ⟨by simp [Machine.start], by simp [Machine.start], fun k it c hit hc => ?_⟩
  have hk : k < grid.length := (List.getElem?_eq_some_iff.1 hc).1
  simp only [Machine.start, List.getElem?_map, hc, Option.map_some, Option.some.injEq] at hit
  subst hit
  refine ⟨⟨rfl, fun p => ?_, rfl, by simp [Iter.start]⟩, ?_⟩
  · simp only [Iter.start]
    rw [foldl_countPair]
    simp
  · simp [Machine.start, Iter.start, hk]

theorem MachineInv.set {A : Arith R} {table : List R} {assignments : List (Nat → Fin M)} {vertLogits : Nat → R} {grid : List (Nat × Nat × Nat)}
    {σ : Machine R M} (h : MachineInv A table assignments vertLogits grid σ) {k : Nat} {it' : Iter R M} {c : Nat × Nat × Nat} (hc : grid[k]? = some c)
    (logits : List R) (hl : logits.length = grid.length) (hother : ∀ j, j ≠ k → logits[j]? = σ.logits[j]?) (hit : IterInv A table assignments c it')
    (hk : logits[k]? = some (if it'.written then edgeValue A table assignments vertLogits c else A.zero)) :
    MachineInv A table assignments vertLogits grid ⟨σ.iters.set k it', logits⟩ := by
  have hkl : k < grid.length := (List.getElem?_eq_some_iff.1 hc).1
  refine ⟨by simp [h.iters], hl, fun j jt d hj hd => ?_⟩
  by_cases e : j = k
  · subst e
    rw [hc] at hd
    cases hd
    simp only at hj
    rw [List.getElem?_set_self (by rw [h.iters]; exact hkl)] at hj
    cases hj
    exact ⟨hit, hk⟩
  · simp only at hj
    rw [List.getElem?_set_ne (Ne.symm e)] at hj
    obtain ⟨h1, h2⟩ := h.inv j jt d hj hd
    exact ⟨h1, by simp only; rw [hother j e]; exact h2⟩

theorem left_set (σ : Machine R M) (k : Nat) (it it' : Iter R M) (logits : List R) (hit : σ.iters[k]? = some it) (h : it'.left = it.left - 1) (j : Nat) :
    Machine.left ⟨σ.iters.set k it', logits⟩ j = σ.left j - if j = k then 1 else 0 := by
  unfold Machine.left
  by_cases e : j = k
  · subst e
    have hl : j < σ.iters.length := (List.getElem?_eq_some_iff.1 hit).1
    simp only [List.getElem?_set_self hl, hit, Option.map_some, Option.getD_some, h, if_true]
  · simp [List.getElem?_set_ne (Ne.symm e), e]

/-- One step of any iteration never fails, keeps the invariant, and takes one of its steps. -/
theorem MachineInv.step {A : Arith R} {table : List R} {assignments : List (Nat → Fin M)} {vertLogits : Nat → R} {grid : List (Nat × Nat × Nat)}
    {σ : Machine R M} (h : MachineInv A table assignments vertLogits grid σ) (hN : assignments.length < table.length) (k : Nat) :
    ∃ σ', Machine.step A table vertLogits σ k = .ok σ' ∧ MachineInv A table assignments vertLogits grid σ' ∧
      ∀ j, σ'.left j = σ.left j - if j = k then 1 else 0 := by
  unfold Machine.step
  cases hit : σ.iters[k]? with
  | none =>
    refine ⟨σ, rfl, h, fun j => ?_⟩
    by_cases e : j = k
    · subst e; simp [Machine.left, hit]
    · simp [e]
  | some it =>
    have hk : k < grid.length := by rw [← h.iters]; exact (List.getElem?_eq_some_iff.1 hit).1
    obtain ⟨i1, i2⟩ := h.inv k it grid[k] hit (List.getElem?_eq_getElem hk)
    have hc := List.getElem?_eq_getElem hk
    cases hr : it.rows with
    | cons p rows =>
      simp only [hr]
      refine ⟨_, rfl, h.set hc σ.logits h.logits (fun _ _ => rfl) ⟨i1.ends, fun q => ?_, i1.value, fun hw => ?_⟩ i2, ?_⟩
      · have := i1.counts q
        rw [hr] at this
        exact this
      · have := (i1.done hw).1
        rw [hr] at this
        cases this
      · refine left_set σ k it _ _ hit ?_
        simp only [Iter.left, hr, List.length_cons]
        omega
    | nil =>
      simp only [hr]
      cases hcell : it.cells with
      | cons p cells =>
        have hcount : it.counts p.1 p.2 = (pairsOf assignments grid[k]).count p := by
          have := i1.counts p
          rw [hr] at this
          exact this
        have hlt : it.counts p.1 p.2 < table.length := by
          rw [hcount]
          exact lt_of_le_of_lt List.count_le_length (by simpa [pairsOf] using hN)
        simp only [addTerm_ok A hlt, bind, Except.bind]
        refine ⟨_, rfl, h.set hc σ.logits h.logits (fun _ _ => rfl) ⟨i1.ends, ?_, ?_, fun hw => ?_⟩ i2, ?_⟩
        · simpa [hr] using i1.counts
        · have := i1.value
          rw [hcell, List.foldl_cons] at this
          rw [hcount]
          exact this
        · have := (i1.done hw).2
          rw [hcell] at this
          cases this
        · refine left_set σ k it _ _ hit ?_
          simp only [Iter.left, hr, hcell, List.length_cons, List.length_nil]
          omega
      | nil =>
        simp only
        by_cases hw : it.written = true
        · rw [if_pos hw]
          refine ⟨σ, rfl, h, fun j => ?_⟩
          by_cases e : j = k
          · subst e; simp [Machine.left, hit, Iter.left, hr, hcell, hw]
          · simp [e]
        · have hk' : k < σ.logits.length := by rw [h.logits]; exact hk
          rw [if_neg hw]
          simp only [pySet, hk', if_true, bind, Except.bind]
          have hv : it.acc = cellSum A table (pairsOf assignments grid[k]) := by
            have := i1.value
            rw [hcell] at this
            exact this
          refine ⟨_, rfl, h.set hc _ (by simp [h.logits]) (fun j hj => List.getElem?_set_ne (Ne.symm hj)) ⟨i1.ends, by simpa [hr] using i1.counts, by simpa [hcell] using i1.value, fun _ => ⟨rfl, rfl⟩⟩ ?_, ?_⟩
          · rw [List.getElem?_set_self hk', hv, i1.ends]
            rfl
          · refine left_set σ k it _ _ hit ?_
            simp [Iter.left, hr, hcell, hw]

/-- **C61**: `treecat_compute_edge_logits_par` under every schedule of its threads. No step ever reads or writes outside an array. At any
time, each entry of the shared array is still zero or has its final value, which is the one that the sequential version computes. An
iteration has written its result as soon as it has made one step for each row and each pair of clusters and one more; when all iterations
have, the array is exactly the result of the sequential version. The arithmetic is arbitrary, so the two agree also in how they round. -/
theorem edgeLogits_par (A : Arith R) (grid : List (Nat × Nat × Nat)) {table : List R} {assignments : List (Nat → Fin M)} (vertLogits : Nat → R)
    (h : assignments.length < table.length) (schedule : List Nat) :
    ∃ σ result, runSchedule A table vertLogits (Machine.start A grid assignments) schedule = .ok σ ∧
      edgeLogitsSeq A grid table assignments vertLogits = .ok result ∧ result.length = grid.length ∧ σ.logits.length = grid.length ∧
      (∀ k < grid.length, σ.logits[k]? = some A.zero ∨ σ.logits[k]? = result[k]?) ∧
      (∀ k < grid.length, assignments.length + M * M < schedule.count k → σ.logits[k]? = result[k]?) ∧
      ((∀ k < grid.length, assignments.length + M * M < schedule.count k) → σ.logits = result) := by
  have hcells : (allCells M).length = M * M := by
    unfold allCells
    rw [List.length_flatMap]
    simp
  have hrun : ∀ (schedule : List Nat) (σ : Machine R M), MachineInv A table assignments vertLogits grid σ →
      ∃ σ', runSchedule A table vertLogits σ schedule = .ok σ' ∧ MachineInv A table assignments vertLogits grid σ' ∧
        ∀ j, σ'.left j = σ.left j - schedule.count j := by
    intro schedule
    induction schedule with
    | nil => intro σ hσ; exact ⟨σ, rfl, hσ, by simp⟩
    | cons k schedule ih =>
      intro σ hσ
      obtain ⟨σ1, e1, h1, l1⟩ := hσ.step h k
      obtain ⟨σ2, e2, h2, l2⟩ := ih σ1 h1
      refine ⟨σ2, ?_, h2, fun j => ?_⟩
      · unfold runSchedule at e2 ⊢
        rw [List.foldlM_cons, e1]
        exact e2
      · rw [l2, l1, List.count_cons]
        by_cases e : j = k
        · subst e; simp; omega
        · have : ¬ k = j := fun h => e h.symm
          simp [e, this]
  obtain ⟨σ, e, hσ, hl⟩ := hrun schedule _ (MachineInv.start A table assignments vertLogits grid)
  have hone : ∀ k < grid.length, (σ.logits[k]? = some A.zero ∨ σ.logits[k]? = (grid.map (edgeValue A table assignments vertLogits))[k]?) ∧
      (assignments.length + M * M < schedule.count k → σ.logits[k]? = (grid.map (edgeValue A table assignments vertLogits))[k]?) := by
    intro k hk
    have hk' : k < σ.iters.length := by rw [hσ.iters]; exact hk
    obtain ⟨i1, i2⟩ := hσ.inv k _ _ (List.getElem?_eq_getElem hk') (List.getElem?_eq_getElem hk)
    rw [List.getElem?_map, List.getElem?_eq_getElem hk, Option.map_some, i2]
    constructor
    · cases hw : σ.iters[k].written with
      | true => right; simp
      | false => left; simp
    · intro hcount
      have hleft := hl k
      have h0 : (Machine.start A grid assignments).left k = assignments.length + M * M + 1 := by
        simp [Machine.left, Machine.start, Iter.left, Iter.start, hk, pairsOf, hcells]
      rw [h0] at hleft
      unfold Machine.left at hleft
      rw [List.getElem?_eq_getElem hk', Option.map_some, Option.getD_some] at hleft
      have hw : σ.iters[k].written = true := by
        by_contra hw
        simp only [Iter.left, hw] at hleft
        simp at hleft
        omega
      rw [hw, if_pos rfl]
  refine ⟨σ, _, e, edgeLogitsSeq_eq A grid vertLogits h, by simp, hσ.logits, fun k hk => (hone k hk).1, fun k hk => (hone k hk).2, fun hall => ?_⟩
  apply List.ext_getElem?
  intro k
  by_cases hk : k < grid.length
  · exact (hone k hk).2 (hall k hk)
  · rw [List.getElem?_eq_none (by rw [hσ.logits]; omega), List.getElem?_eq_none (by simp; omega)]

end

open Spec

section
variable {K : Type} [Field K] [LinearOrder K] [IsStrictOrderedRing K] {M : Nat}

/-- Exact arithmetic. -/
def exactArith (K : Type) [Field K] : Arith K := ⟨0, (· + ·), (· - ·)⟩

theorem foldl_add_sum {α : Type} (f : α → K) (l : List α) (a : K) : l.foldl (fun acc c => acc + f c) a = a + (l.map f).sum := by
  induction l generalizing a with
  | nil => simp
  | cons x l ih => rw [List.foldl_cons, ih, List.map_cons, List.sum_cons, add_assoc]

theorem computeEdgeLogit_cellSum {table : List K} {pairs : List (Fin M × Fin M)} (h : pairs.length < table.length) :
    computeEdgeLogit table pairs = .ok (cellSum (exactArith K) table pairs) := by
  have hc : ∀ c : Fin M × Fin M, pairs.foldl countPair (fun _ _ => 0) c.1 c.2 = pairs.count c := by
    intro c; rw [foldl_countPair]; simp
  have hflat : ((List.finRange M).flatMap fun a => (List.finRange M).map fun b => pairs.foldl countPair (fun _ _ => 0) a b) =
      (allCells M).map fun c => pairs.count c := by
    unfold allCells
    rw [List.map_flatMap]
    congr 1
    funext a
    rw [List.map_map]
    apply List.map_congr_left
    intro b _
    exact hc (a, b)
  have hm : ((allCells M).map fun c => pairs.count c).mapM (pyGet table) = .ok (((allCells M).map fun c => pairs.count c).map fun n => table.getD n 0) := by
    apply mapM_ok
    intro n hn
    obtain ⟨c, _, rfl⟩ := List.mem_map.1 hn
    have hlt : pairs.count c < table.length := lt_of_le_of_lt List.count_le_length h
    simp only [pyGet, List.getElem?_eq_getElem hlt, List.getD_eq_getElem?_getD, Option.getD_some]
  show ((List.flatMap (fun a => (List.finRange M).map fun b => pairs.foldl countPair (fun _ _ => 0) a b) (List.finRange M)).mapM (pyGet table) >>= fun terms => Except.ok terms.sum) = _
  rw [hflat, hm]
  simp only [bind, Except.bind]
  congr 1
  unfold cellSum exactArith
  rw [foldl_add_sum, zero_add, List.map_map]
  rfl

/-- With exact arithmetic, the loops give the edge logits of the trainer, up to the prior that is added to them (training.py:593). -/
theorem computeEdgeLogits_loop (num : Num K) (t : Table) (treePrior : List K) (s : Trainer K M) (h : s.added.card ≤ t.numRows)
    {grid : List (Nat × Nat × Nat)} (hgrid : makeCompleteGraph t.numCols = .ok grid) :
    ∃ result, edgeLogitsSeq (exactArith K) grid ((List.range (1 + t.numRows)).map fun (i : Nat) => num.gammaln ((i : K) + edgePrior M))
        ((if s.added.card = t.numCols then List.range t.numRows else s.added.sort (· ≤ ·)).map s.assign) (fun v => logprobDC num (s.vertSS v) vertPrior) = .ok result ∧
      computeEdgeLogits num t treePrior s = .ok (result.zipWith (· + ·) treePrior) := by
  set table := (List.range (1 + t.numRows)).map fun (i : Nat) => num.gammaln ((i : K) + edgePrior M) with htable
  set assignments := (if s.added.card = t.numCols then List.range t.numRows else s.added.sort (· ≤ ·)).map s.assign with hassign
  have hlen : assignments.length < table.length := by
    rw [hassign, htable]
    split
    · simp
    · simp; omega
  refine ⟨_, edgeLogitsSeq_eq _ grid _ hlen, ?_⟩
  have hm : (grid.mapM fun c => do
      let l ← computeEdgeLogit table (assignments.map fun a => (a c.2.1, a c.2.2))
      Except.ok (l - logprobDC num (s.vertSS c.2.1) vertPrior - logprobDC num (s.vertSS c.2.2) vertPrior)) =
      (.ok (grid.map (edgeValue (exactArith K) table assignments fun v => logprobDC num (s.vertSS v) vertPrior)) : Py (List K)) := by
    apply mapM_ok
    intro c _
    rw [computeEdgeLogit_cellSum (by simpa using hlen)]
    rfl
  simp only [computeEdgeLogits, hgrid, bind, Except.bind] at hm ⊢
  rw [← hassign, ← htable, hm]

end

/-- Two rows, three vertices, two clusters: a schedule in which the three iterations take turns finishes with the sequential result, and one
that stops early leaves a zero. -/
def loopRows : List (Nat → Fin 2) := [fun v => if v = 1 then 1 else 0, fun v => if v = 0 then 1 else 0]

def loopGrid : List (Nat × Nat × Nat) := [(0, 0, 1), (1, 0, 2), (2, 1, 2)]

def turns : List Nat := (List.range 7).flatMap fun _ => [2, 0, 1]

example : loopRows.length < [(1 : ℚ), 5, 7].length ∧ ∀ k < loopGrid.length, loopRows.length + 2 * 2 < turns.count k := by decide

example : (edgeLogitsSeq (exactArith ℚ) loopGrid [1, 5, 7] loopRows fun v => (v : ℚ)) = .ok [11, 10, 9] ∧
    ((runSchedule (exactArith ℚ) [1, 5, 7] (fun v => (v : ℚ)) (Machine.start (exactArith ℚ) loopGrid loopRows) turns).map Machine.logits) = .ok [11, 10, 9] ∧
    ((runSchedule (exactArith ℚ) [1, 5, 7] (fun v => (v : ℚ)) (Machine.start (exactArith ℚ) loopGrid loopRows) (turns.take 20)).map Machine.logits) = .ok [11, 0, 9] := by
  decide +kernel

end TreeCat
