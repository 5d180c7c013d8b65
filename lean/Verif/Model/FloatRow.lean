import Verif.Model.Float
import Verif.Model.Training
import Verif.Spec.Tree

/-!
# `treecat_add_row` in floating point

`Model/Training` computes exactly. Here the same loop is modelled with rounding. A number is `none` if it is not a number,
which begins with a division by zero (`0 / 0` is `nan`; `x / 0` is `inf`, which is not distinguished from `nan`). Overflow is not
modelled; the theorems bound all numbers far below the largest float32.
-/

namespace TreeCat

open Util

/-- The result of an operation in floating point. -/
abbrev Flt := Option ℚ

/-- Multiplication. -/
def Flt.mul (rnd : ℚ → ℚ) (x y : Flt) : Flt := do
  let a ← x
  let b ← y
  some (rnd (a * b))

/-- Division. -/
def Flt.div (rnd : ℚ → ℚ) (x y : Flt) : Flt := do
  let a ← x
  let b ← y
  if b = 0 then none else some (rnd (a / b))

/-- Addition. -/
def Flt.add (rnd : ℚ → ℚ) (x y : Flt) : Flt := do
  let a ← x
  let b ← y
  some (rnd (a + b))

/-- The larger of two numbers; `nan` if one of them is. -/
def Flt.max (x y : Flt) : Flt := do
  let a ← x
  let b ← y
  some (Max.max a b)

/-- `x < y`, which is false for `nan`. -/
def Flt.lt (x y : Flt) : Bool :=
  match x, y with
  | some a, some b => decide (a < b)
  | _, _ => false

/-- `probs.cumsum()` continued from a partial sum, util.py:87. -/
def fltCumsum (rs : ℚ → ℚ) (acc : Flt) : List Flt → List Flt
  | [] => []
  | p :: ps => Flt.add rs acc p :: fltCumsum rs (Flt.add rs acc p) ps

/-- `sample_from_probs(probs)`, util.py:77-88, with `nan`. -/
def fltSample (rs rp : ℚ → ℚ) (probs : List Flt) (u : ℚ) : Py Nat :=
  let cdf := fltCumsum rs (some 0) probs
  match cdf.getLast? with
  | none => .error .indexError
  | some total => .ok (((cdf.map fun c => Flt.lt (Flt.mul rp (some u) total) c).findIdx? id).getD 0)

/-- The arithmetic of the loop: `rnd` is that of float32, `dot` is the inner product of float32 vectors that `np.dot` computes, whose order of
summation depends on the BLAS library; `rs` and `rp` are the roundings in `sample_from_probs`. -/
structure FloatOps (M : Nat) where
  rnd : ℚ → ℚ
  dot : (Fin M → Flt) → (Fin M → Flt) → Flt
  rs : ℚ → ℚ
  rp : ℚ → ℚ

/-- The arrays that `treecat_add_row` works on while it samples. -/
structure FloatRow (M : Nat) where
  messages : Nat → Fin M → Flt
  featProbs : Nat → Fin M → Flt
  measProbs : Nat → Fin M → Flt
  assign : Nat → Fin M

section
variable {M : Nat} (A : FloatOps M)

/-- The innermost statements of `treecat_add_cell`, training.py:302-305. -/
def floatAddOne (v r : Nat) (s : FloatRow M) : FloatRow M :=
  { s with
    messages := Function.update s.messages v fun m =>
      Flt.div A.rnd (Flt.mul A.rnd (s.messages v m) (s.featProbs r m)) (s.measProbs v m)
    featProbs := Function.update s.featProbs r fun m => Flt.add A.rnd (s.featProbs r m) (some 1)
    measProbs := Function.update s.measProbs v fun m => Flt.add A.rnd (s.measProbs v m) (some 1) }

/-- `treecat_add_cell`, training.py:287-307. -/
def floatAddCell (t : Table) (row v : Nat) (s : FloatRow M) : Py (FloatRow M) :=
  if t.featureTypes.getD v 0 = tyMultinomial then
    .ok ((List.range (t.stop v - t.beg v)).foldl (fun s c =>
      (List.range (t.cell row (t.beg v + c)).toNat).foldl (fun s _ => floatAddOne A v (t.beg v + c) s) s) s)
  else .error .notImplemented

/-- `message.max()`. -/
def fltMax [NeZero M] (f : Fin M → Flt) : Flt := (List.finRange M).foldl (fun x m => Flt.max x (f m)) (f 0)

/-- `edge_probs[e, :, :]`, transposed if `v > v2`, training.py:344-346. -/
def fltTrans (edge : Nat → Fin M → Fin M → ℚ) (e v v2 : Nat) (a b : Fin M) : Flt :=
  some (if v2 < v then edge e b a else edge e a b)

/-- The message of the OP_IN branch before it is scaled, training.py:342-348. -/
def floatInMsg (vert : Nat → Fin M → ℚ) (edge : Nat → Fin M → Fin M → ℚ) (v v2 e : Nat) (s : FloatRow M) (a : Fin M) : Flt :=
  Flt.div A.rnd (Flt.mul A.rnd (s.messages v a)
    (A.dot (fltTrans edge e v v2 a) fun b => Flt.div A.rnd (s.messages v2 b) (some (vert v2 b)))) (some (vert v a))

/-- The OP_IN branch, training.py:342-349. -/
def floatIn [NeZero M] (vert : Nat → Fin M → ℚ) (edge : Nat → Fin M → Fin M → ℚ) (v v2 e : Nat) (s : FloatRow M) : FloatRow M :=
  { s with messages := Function.update s.messages v fun a =>
      Flt.div A.rnd (floatInMsg A vert edge v v2 e s a) (fltMax (floatInMsg A vert edge v v2 e s)) }

/-- The weights of the OP_OUT branch, training.py:353-359. -/
def floatOut (vert : Nat → Fin M → ℚ) (edge : Nat → Fin M → Fin M → ℚ) (v v2 e : Nat) (s : FloatRow M) : Fin M → Flt :=
  fun b => Flt.div A.rnd (Flt.mul A.rnd (s.messages v b) (fltTrans edge e v2 v (s.assign v2) b)) (some (vert v b))

/-- `sample_from_probs(message)` for a vector over the latent classes. -/
def floatClass [NeZero M] (w : Fin M → Flt) (u : ℚ) : Py (Fin M) := do
  let i ← fltSample A.rs A.rp ((List.finRange M).map w) u
  .ok (Fin.ofNat M i)

/-- One instruction of the sampling loop, training.py:329-360. `draw v` is the number that `np.random.rand` returns when the class
of `v` is sampled. -/
def floatRowStep [NeZero M] (t : Table) (row : Nat) (vert : Nat → Fin M → ℚ) (edge : Nat → Fin M → Fin M → ℚ) (draw : Nat → ℚ)
    (s : FloatRow M) (i : Instr) : Py (FloatRow M) :=
  match i.op with
  | .UP => floatAddCell A t row i.v s
  | .IN => .ok (floatIn A vert edge i.v i.v2 i.e s)
  | .ROOT => do
    let a ← floatClass A (s.messages i.v) (draw i.v)
    .ok { s with assign := Function.update s.assign i.v a }
  | .OUT => do
    let w := floatOut A vert edge i.v i.v2 i.e s
    let a ← floatClass A w (draw i.v)
    .ok { s with messages := Function.update s.messages i.v w, assign := Function.update s.assign i.v a }
  | .DOWN => .ok s

/-- The arrays when the loop starts, training.py:327 and 529-532. -/
def floatRowInit (vert : Nat → Fin M → ℚ) (feat meas : Nat → Fin M → ℚ) (assign : Nat → Fin M) : FloatRow M :=
  ⟨fun v a => some (vert v a), fun r a => some (feat r a), fun v a => some (meas v a), assign⟩

/-- The sampling part of `treecat_add_row`, training.py:327-360. -/
def floatSampleRow [NeZero M] (t : Table) (row : Nat) (vert : Nat → Fin M → ℚ) (edge : Nat → Fin M → Fin M → ℚ) (feat meas : Nat → Fin M → ℚ)
    (assign : Nat → Fin M) (draw : Nat → ℚ) (program : List Instr) : Py (FloatRow M) :=
  program.foldlM (floatRowStep A t row vert edge draw) (floatRowInit vert feat meas assign)

/-- The inner product computed from left to right. -/
def seqDot (rnd : ℚ → ℚ) (x y : Fin M → Flt) : Flt :=
  (List.finRange M).foldl (fun acc b => Flt.add rnd acc (Flt.mul rnd (x b) (y b))) (some 0)

end

/-! ### The array `edge_probs` -/

/-- One entry of `edge_probs` under `+= 1` (`true`), training.py:369, and `-= 1` (`false`), training.py:400. The sum is computed in float64 and
stored in float32; `rnd` does both. -/
def edgeWalk (rnd : ℚ → ℚ) (x : ℚ) (steps : List Bool) : ℚ := steps.foldl (fun x b => rnd (if b then x + 1 else x - 1)) x

/-- The count that goes with it, training.py:368 and 399. -/
def edgeTally (c : Int) (steps : List Bool) : Int := steps.foldl (fun c b => if b then c + 1 else c - 1) c

/-- `np.add(self._edge_ss, self._edge_prior, out=self._edge_probs)`, training.py:521 and 576: the sum in float64, stored in float32. -/
def edgeStart (rnd : ℚ → ℚ) (prior : ℚ) (c : Int) : ℚ := rnd (c + prior)

/-- Rounding to float64 and then to float32. -/
def store32 (x : ℚ) : ℚ := float32 (float64 x)

/-! ### The other arrays -/

/-- `np.add(self._vert_ss, self._vert_prior, out=self._vert_probs)`, training.py:530. -/
def floatVert (c : Int) : ℚ := store32 (c + 1 / 2)

/-- `np.add(self._feat_ss, self._feat_prior, out=self._feat_probs)`, training.py:499 and 531. -/
def floatFeat (M : Nat) (c : Int) : ℚ := store32 (c + float64 (1 / 2 / M))

/-- `self._meas_prior`, training.py:500-503: a python number times an array of float32, here for a feature with `C` columns. -/
def floatMeasPrior (M C : Nat) : ℚ := float32 (float32 (float64 (1 / 2 / M)) * C)

/-- `np.add(self._meas_ss, self._meas_prior, out=self._meas_probs)`, training.py:532. -/
def floatMeas (M C : Nat) (c : Int) : ℚ := store32 (c + floatMeasPrior M C)

/-- The loop on the arrays that `add_row` makes, training.py:525-532, with the array `edge_probs` that is maintained, training.py:521. -/
def floatAddRow {M : Nat} [NeZero M] (A : FloatOps M) (t : Table) (row : Nat) (s : Trainer ℚ M) (edge : Nat → Fin M → Fin M → ℚ) (draw : Nat → ℚ) : Py (FloatRow M) :=
  floatSampleRow A t row (fun v a => floatVert (s.vertSS v a)) edge (fun r a => floatFeat M (s.featSS r a))
    (fun v a => floatMeas M (t.stop v - t.beg v) (s.measSS v a)) (s.assign row) draw s.program

/-- `edge_probs[e, a, b] += 1` or `-= 1`, training.py:369 and 400. -/
def floatBump {M : Nat} (up : Bool) (edge : Nat → Fin M → Fin M → ℚ) (e : Nat) (a b : Fin M) : Nat → Fin M → Fin M → ℚ := fun i m1 m2 =>
  if e = i then if a = m1 ∧ b = m2 then store32 (if up then edge i m1 m2 + 1 else edge i m1 m2 - 1) else edge i m1 m2 else edge i m1 m2

/-- The loop over the edges, training.py:363-369 and 394-400. -/
def floatEdges {M : Nat} (up : Bool) (grid : Grid) (z : Nat → Fin M) (edge : Nat → Fin M → Fin M → ℚ) : Nat → Fin M → Fin M → ℚ :=
  grid.zipIdx.foldl (fun f p => floatBump up f p.2 (z p.1.2.1) (z p.1.2.2)) edge

/-- `np.add(self._edge_ss, self._edge_prior, out=self._edge_probs)`, training.py:521 and 574. -/
def floatEdgeArray {M : Nat} (s : Trainer ℚ M) : Nat → Fin M → Fin M → ℚ := fun e a b => edgeStart store32 (float64 (1 / 2 / M)) (s.edgeSS e a b)

/-- A trainer and its array `edge_probs` in float32 after calls that return. Classes are any of those that `sample_from_probs` may return on any weights, so
the counts of every run in floating point are among these. -/
inductive FloatRun {M : Nat} [NeZero M] (t : Table) : Trainer ℚ M → (Nat → Fin M → Fin M → ℚ) → Prop
  | init {n : Nat} {s : Trainer ℚ M} (h : Trainer.init t n = .ok s) : FloatRun t s (floatEdgeArray s)
  | addRow {s s' : Trainer ℚ M} {edge : Nat → Fin M → Fin M → ℚ} {row : Nat} (h : FloatRun t s edge)
      (hr : (TreeCat.addRow t row : TrainM ℚ M Poss Unit).run.run s (.ok (), s')) : FloatRun t s' (floatEdges true s.tree.treeGrid (s'.assign row) edge)
  | removeRow {s s' : Trainer ℚ M} {edge : Nat → Fin M → Fin M → ℚ} {row : Nat} (h : FloatRun t s edge)
      (hr : (TreeCat.removeRow t row : TrainM ℚ M Poss Unit).run.run s (.ok (), s')) : FloatRun t s' (floatEdges false s.tree.treeGrid (s.assign row) edge)
  | setEdges {s s' : Trainer ℚ M} {edge : Nat → Fin M → Fin M → ℚ} {edges : List Edge} (h : FloatRun t s edge) (he : Spec.IsTree t.numCols edges)
      (hr : (TreeCat.setEdges edges : TrainM ℚ M Poss Unit).run.run s (.ok (), s')) : FloatRun t s' (floatEdgeArray s')

end TreeCat
