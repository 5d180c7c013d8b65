import Verif.Model.FloatRow
import Verif.Model.Serving

/-!
# `TreeCatServer` in floating point

`Model/Serving` computes exactly. Here the arrays that `__init__` makes and the loops of `logprob`, `sample` and `marginals` are modelled with rounding, as in
`Model/FloatRow`: a number is `none` if it is not a number or infinite. All arrays of the server are float32. Overflow is not modelled; the theorems bound all
numbers. The loops are vectorised over rows or samples that do not interact, and are modelled for one of them.
-/

namespace TreeCat

open Util

/-- The arithmetic of the server: `sum` is `np.sum` of float32 numbers, whose order of summation numpy does not document; `pow` is `**` of a float32 array
and an int8 array; `log` is `np.log` on float32. -/
structure ServeOps (M : Nat) extends FloatOps M where
  sum : List Flt → Flt
  pow : Flt → Int → Flt
  log : Flt → Flt

/-- The arrays of a `TreeCatServer` that queries read, serving.py:182-221. -/
structure FloatServer (M : Nat) where
  program : List Instr
  raggedIndex : List Nat
  vert : Nat → Fin M → Flt
  trans : Nat → Fin M → Fin M → Flt
  cond : Nat → Fin M → Flt

section
variable {K : Type} {M : Nat} (A : ServeOps M)

/-- `ss.astype(np.float32) + prior` with a python number, which is converted to float32: serving.py:204, 206, 217. -/
def fltPrior (c : Int) (prior : ℚ) : Flt := Flt.add A.rnd (some (A.rnd c)) (some (A.rnd prior))

/-- `0.5 / M` as a python number, serving.py:200-201. -/
def fltHalf : ℚ := A.rp (1 / 2 / M)

/-- `_vert_probs`, serving.py:204-205. -/
def floatVertProbs (ss : Nat → Fin M → Int) (v : Nat) (m : Fin M) : Flt :=
  Flt.div A.rnd (fltPrior A (ss v m) (1 / 2)) (A.sum ((List.finRange M).map fun m' => fltPrior A (ss v m') (1 / 2)))

/-- `_edge_probs`, serving.py:206-207. -/
def floatEdgeProbs (ss : Nat → Fin M → Fin M → Int) (e : Nat) (a b : Fin M) : Flt :=
  Flt.div A.rnd (fltPrior A (ss e a b) (fltHalf A))
    (A.sum ((List.finRange M).flatMap fun a' => (List.finRange M).map fun b' => fltPrior A (ss e a' b') (fltHalf A)))

/-- `_edge_trans`, serving.py:211-214. -/
def floatEdgeTrans (grid : Grid) (vert : Nat → Fin M → Flt) (edge : Nat → Fin M → Fin M → Flt) : Nat → Fin M → Fin M → Flt :=
  grid.foldl (fun t c =>
    let t := Function.update t c.1 fun a b => Flt.div A.rnd (t c.1 a b) (vert c.2.1 a)
    Function.update t c.1 fun a b => Flt.div A.rnd (t c.1 a b) (vert c.2.2 b)) edge

/-- `feat_block /= feat_block.sum(axis=0, keepdims=True)`, serving.py:219-221. -/
def floatNormBlock (f : Nat → Fin M → Flt) (beg stop : Nat) : Nat → Fin M → Flt :=
  fun r m => if beg ≤ r ∧ r < stop then Flt.div A.rnd (f r m) (A.sum ((List.range' beg (stop - beg)).map fun r' => f r' m)) else f r m

/-- `_feat_cond`, serving.py:217-221. -/
def floatFeatCond (ri : List Nat) (V : Nat) (ss : Nat → Fin M → Int) : Nat → Fin M → Flt :=
  (List.range V).foldl (fun f v => floatNormBlock A f (ri.getD v 0) (ri.getD (v + 1) 0)) fun r m => fltPrior A (ss r m) (fltHalf A)

/-- `TreeCatServer(model)`, serving.py:169-221. The errors that `Server.init` models are left out, except those of the program. -/
def FloatServer.init (model : Model K M) : Py (FloatServer M) := do
  let program ← makeProgram model.tree.treeGrid none
  .ok { program, raggedIndex := model.raggedIndex
        vert := floatVertProbs A model.vertSS
        trans := floatEdgeTrans A model.tree.treeGrid (floatVertProbs A model.vertSS) (floatEdgeProbs A model.edgeSS)
        cond := floatFeatCond A model.raggedIndex model.tree.numVertices model.featSS }

/-- The positions `range(beg, end)` of feature `v`. -/
def FloatServer.block (srv : FloatServer M) (v : Nat) : List Nat :=
  List.range' (srv.raggedIndex.getD v 0) (srv.raggedIndex.getD (v + 1) 0 - srv.raggedIndex.getD v 0)

/-! ### Messages -/

/-- The OP_UP step, serving.py:352-359 and 401-407, and with the test whether an entry is zero (`skip`), serving.py:279-287. -/
def floatServeUp (srv : FloatServer M) (skip : Bool) (data : List Int) (msgs : Nat → Fin M → Flt) (v : Nat) : Nat → Fin M → Flt :=
  (srv.block v).foldl (fun msgs r =>
    if skip && data.getD r 0 == 0 then msgs
    else Function.update msgs v fun m => Flt.mul A.rnd (msgs v m) (A.pow (srv.cond r m) (data.getD r 0))) msgs

/-- `message *= np.dot(trans, messages[v2])` of the OP_IN step: serving.py:288-293, 360-365, 409-414. -/
def floatServeIn (srv : FloatServer M) (msgs : Nat → Fin M → Flt) (v v2 e : Nat) (a : Fin M) : Flt :=
  Flt.mul A.rnd (msgs v a) (A.dot (transAt srv.trans e v v2 a) (msgs v2))

/-! ### `logprob` -/

/-- The arrays of `logprob`, for one row of data. -/
structure FloatLog (M : Nat) where
  messages : Nat → Fin M → Flt
  logprob : Flt

/-- The OP_UP and OP_IN steps of `logprob`, serving.py:351-368. -/
def floatLogStep (srv : FloatServer M) (data : List Int) (s : FloatLog M) (i : Instr) : FloatLog M :=
  match i.op with
  | .UP => { s with messages := floatServeUp A srv false data s.messages i.v }
  | .IN =>
    let msg := floatServeIn A srv s.messages i.v i.v2 i.e
    let total := A.sum ((List.finRange M).map msg)
    { messages := Function.update s.messages i.v fun a => Flt.div A.rnd (msg a) total, logprob := Flt.add A.rnd s.logprob (A.log total) }
  | _ => s

/-- The loop of `logprob`, serving.py:350-372: it returns at OP_ROOT. The outer `none` is python's `None`. -/
def floatLogLoop (srv : FloatServer M) (data : List Int) : List Instr → FloatLog M → Option Flt
  | [], _ => none
  | i :: prog, s =>
    match i.op with
    | .ROOT => some (Flt.add A.rnd s.logprob (A.log (A.sum ((List.finRange M).map (s.messages i.v)))))
    | _ => floatLogLoop srv data prog (floatLogStep A srv data s i)

/-- `logprob(data)` for one row, serving.py:323-372. -/
def FloatServer.logprob (srv : FloatServer M) (data : List Int) : Option Flt := floatLogLoop A srv data srv.program ⟨srv.vert, some 0⟩

/-! ### `sample` -/

/-- The arrays of `sample`, serving.py:272-276, for one of the `N` samples. -/
structure FloatDraw (M : Nat) where
  messagesIn : Nat → Fin M → Flt
  messagesOut : Nat → Fin M → Flt
  vertSample : Nat → Fin M
  featSample : Nat → Int

/-- The weights of the OP_OUT step before they are scaled, serving.py:299-306. -/
def floatServeOut (srv : FloatServer M) (s : FloatDraw M) (v v2 e : Nat) (b : Fin M) : Flt :=
  Flt.mul A.rnd (s.messagesIn v b) (transAt srv.trans e v2 v (s.vertSample v2) b)

/-- `for _ in range(counts[v])`, serving.py:313-318. `draw k` is what `np.random.rand` returns in round `k`. -/
def floatDrawFeatures (srv : FloatServer M) (v : Nat) (a : Fin M) (draw : Nat → ℚ) (count : Nat) (f : Nat → Int) : Py (Nat → Int) :=
  (List.range count).foldlM (fun f k => do
    let i ← fltSample A.rs A.rp ((srv.block v).map fun r => srv.cond r a) (draw k)
    .ok (Function.update f (srv.raggedIndex.getD v 0 + i) (wrap8 (f (srv.raggedIndex.getD v 0 + i) + 1)))) f

/-- One instruction of `sample`, serving.py:278-318. `draw v` is what `np.random.rand` returns when the class of `v` is drawn and `drawF v k` when its observation
`k` is drawn. -/
def floatSampleStep [NeZero M] (srv : FloatServer M) (counts data : List Int) (draw : Nat → ℚ) (drawF : Nat → Nat → ℚ) (s : FloatDraw M) (i : Instr) :
    Py (FloatDraw M) :=
  match i.op with
  | .UP => .ok { s with messagesIn := floatServeUp A srv true data s.messagesIn i.v }
  | .IN =>
    let msg := floatServeIn A srv s.messagesIn i.v i.v2 i.e
    .ok { s with messagesIn := Function.update s.messagesIn i.v fun a => Flt.div A.rnd (msg a) (fltMax msg) }
  | .ROOT => .ok { s with messagesOut := Function.update s.messagesOut i.v (s.messagesIn i.v) }
  | .OUT =>
    let msg := floatServeOut A srv s i.v i.v2 i.e
    .ok { s with messagesOut := Function.update s.messagesOut i.v fun b => Flt.div A.rnd (msg b) (fltMax msg) }
  | .DOWN => do
    let a ← floatClass A.toFloatOps (s.messagesOut i.v) (draw i.v)
    let f ← floatDrawFeatures A srv i.v a (drawF i.v) (counts.getD i.v 0).toNat s.featSample
    .ok { s with vertSample := Function.update s.vertSample i.v a, featSample := f }

/-- `sample(N, counts, data)`, serving.py:247-320, for one sample. -/
def FloatServer.sample [NeZero M] (srv : FloatServer M) (counts data : List Int) (draw : Nat → ℚ) (drawF : Nat → Nat → ℚ) : Py (FloatDraw M) :=
  srv.program.foldlM (floatSampleStep A srv counts data draw drawF)
    { messagesIn := srv.vert, messagesOut := srv.vert, vertSample := fun _ => 0, featSample := fun _ => 0 }

/-! ### `marginals` -/

/-- The arrays of `marginals`, for one row of data. -/
structure FloatMarginal (M : Nat) where
  messagesIn : Nat → Fin M → Flt
  messagesOut : Nat → Fin M → Flt
  result : Nat → Flt

/-- One instruction of `marginals`, serving.py:399-431. -/
def floatMarginalStep [NeZero M] (srv : FloatServer M) (data : List Int) (s : FloatMarginal M) (i : Instr) : FloatMarginal M :=
  match i.op with
  | .UP =>
    let msgs := floatServeUp A srv false data s.messagesIn i.v
    { s with messagesIn := msgs, messagesOut := Function.update s.messagesOut i.v (msgs i.v) }
  | .IN =>
    let msg := floatServeIn A srv s.messagesIn i.v i.v2 i.e
    { s with messagesIn := Function.update s.messagesIn i.v fun a => Flt.div A.rnd (msg a) (fltMax msg) }
  | .ROOT => s
  | .OUT =>
    let fromParent := fun a => A.dot (transAt srv.trans i.e i.v i.v2 a) (s.messagesOut i.v2)
    { s with messagesOut := Function.update s.messagesOut i.v fun a => Flt.mul A.rnd (s.messagesOut i.v a) (fromParent a)
             messagesIn := Function.update s.messagesIn i.v fun a => Flt.mul A.rnd (s.messagesIn i.v a) (fromParent a) }
  | .DOWN =>
    let marginal := fun r => A.dot (srv.cond r) (s.messagesIn i.v)
    { s with result := fun r => if r ∈ srv.block i.v then Flt.div A.rnd (marginal r) (A.sum ((srv.block i.v).map marginal)) else s.result r }

/-- `marginals(data)` for one row, serving.py:375-433; `junk` is the content of the uninitialised `messages_out`. -/
def FloatServer.marginals [NeZero M] (srv : FloatServer M) (junk : Nat → Fin M → Flt) (data : List Int) : Nat → Flt :=
  (srv.program.foldl (floatMarginalStep A srv data) ⟨srv.vert, junk, fun _ => some 0⟩).result

end

end TreeCat
