import Verif.Model.Training

/-!
# Model of `treecat/training.py`: the two loops that compute edge logits

The parallel version runs the iterations of its loop in threads. Its model is a machine whose steps are
the single updates of local variables and of the shared array; a schedule says which iteration makes the
next step. Arithmetic is abstract (float32 operations with no laws assumed).
-/

namespace TreeCat

/-- The operations on float32 that the loops use. -/
structure Arith (R : Type) where
  zero : R
  add : R → R → R
  sub : R → R → R

section
variable {R : Type} {M : Nat}

/-- All pairs `(m1, m2)` in the order of the two loops, training.py:417-418. -/
def allCells (M : Nat) : List (Fin M × Fin M) := (List.finRange M).flatMap fun a => (List.finRange M).map fun b => (a, b)

/-- `counts[assign1[n], assign2[n]] += 1`, training.py:415. -/
def countPair (counts : Fin M → Fin M → Nat) (p : Fin M × Fin M) : Fin M → Fin M → Nat := bump counts p.1 p.2 1

/-- `result += gammaln_table[counts[m1, m2]]`, training.py:419. -/
def addTerm (A : Arith R) (table : List R) (counts : Fin M → Fin M → Nat) (acc : R) (c : Fin M × Fin M) : Py R := do
  let x ← pyGet table (counts c.1 c.2)
  .ok (A.add acc x)

/-- `treecat_compute_edge_logit(M, gammaln_table, assign1, assign2)`, training.py:411-420. `pairs` are the entries
of the two arrays. -/
def edgeLogitOf (A : Arith R) (table : List R) (pairs : List (Fin M × Fin M)) : Py R :=
  (allCells M).foldlM (addTerm A table (pairs.foldl countPair fun _ _ => 0)) A.zero

/-- The entries of the columns of `assignments` for an edge `(k, v1, v2)` of the grid, training.py:430-432. -/
def pairsOf (assignments : List (Nat → Fin M)) (c : Nat × Nat × Nat) : List (Fin M × Fin M) := assignments.map fun a => (a c.2.1, a c.2.2)

/-- One pass of the sequential loop, training.py:445-451. -/
def seqStep (A : Arith R) (grid : List (Nat × Nat × Nat)) (table : List R) (assignments : List (Nat → Fin M)) (vertLogits : Nat → R)
    (logits : List R) (k : Nat) : Py (List R) := do
  let c ← pyGet grid k
  let l ← edgeLogitOf A table (pairsOf assignments c)
  pySet logits k (A.sub (A.sub l (vertLogits c.2.1)) (vertLogits c.2.2))

/-- `treecat_compute_edge_logits_seq`, training.py:439-452. -/
def edgeLogitsSeq (A : Arith R) (grid : List (Nat × Nat × Nat)) (table : List R) (assignments : List (Nat → Fin M)) (vertLogits : Nat → R) :
    Py (List R) :=
  (List.range grid.length).foldlM (seqStep A grid table assignments vertLogits) (List.replicate grid.length A.zero)

/-- The local variables of an iteration of the parallel loop, training.py:429-435: the rows that are not counted yet,
the counts, the cells that are not added yet, the sum, and whether the result has been written. -/
structure Iter (R : Type) (M : Nat) where
  ends : Nat × Nat
  rows : List (Fin M × Fin M)
  counts : Fin M → Fin M → Nat
  cells : List (Fin M × Fin M)
  acc : R
  written : Bool

/-- An iteration before its first step. -/
def Iter.start (A : Arith R) (assignments : List (Nat → Fin M)) (c : Nat × Nat × Nat) : Iter R M :=
  { ends := c.2, rows := pairsOf assignments c, counts := fun _ _ => 0, cells := allCells M, acc := A.zero, written := false }

/-- The iterations and the shared array `edge_logits`. -/
structure Machine (R : Type) (M : Nat) where
  iters : List (Iter R M)
  logits : List R

/-- The state when the parallel loop starts, training.py:426-429. -/
def Machine.start (A : Arith R) (grid : List (Nat × Nat × Nat)) (assignments : List (Nat → Fin M)) : Machine R M :=
  ⟨grid.map (Iter.start A assignments), List.replicate grid.length A.zero⟩

/-- Iteration `k` makes one step: it counts a row, or else adds a cell, or else writes its result, training.py:415, 419
and 435. A finished iteration does nothing. -/
def Machine.step (A : Arith R) (table : List R) (vertLogits : Nat → R) (σ : Machine R M) (k : Nat) : Py (Machine R M) :=
  match σ.iters[k]? with
  | none => .ok σ
  | some it =>
    match it.rows with
    | p :: rows => .ok { σ with iters := σ.iters.set k { it with rows, counts := countPair it.counts p } }
    | [] =>
      match it.cells with
      | c :: cells => do
        let acc ← addTerm A table it.counts it.acc c
        .ok { σ with iters := σ.iters.set k { it with cells, acc } }
      | [] =>
        if it.written then .ok σ
        else do
          let logits ← pySet σ.logits k (A.sub (A.sub it.acc (vertLogits it.ends.1)) (vertLogits it.ends.2))
          .ok ⟨σ.iters.set k { it with written := true }, logits⟩

/-- `treecat_compute_edge_logits_par`, training.py:423-436, under a schedule of the threads. -/
def runSchedule (A : Arith R) (table : List R) (vertLogits : Nat → R) (σ : Machine R M) (schedule : List Nat) : Py (Machine R M) :=
  schedule.foldlM (Machine.step A table vertLogits) σ

end

end TreeCat
