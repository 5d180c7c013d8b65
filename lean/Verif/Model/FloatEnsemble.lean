import Verif.Model.FloatServe

/-!
# `EnsembleServer.logprob` in floating point (treecat/serving.py:566-572)

The members are those of `Model/FloatServe`; the arrays are float32. As there, one row of data is modelled, since rows do not interact.
-/

namespace TreeCat

/-- Subtraction. -/
def Flt.sub (rnd : ℚ → ℚ) (x y : Flt) : Flt := do
  let a ← x
  let b ← y
  some (rnd (a - b))

section
variable {K : Type} {M : Nat} (A : ServeOps M)

/-- `scipy.misc.logsumexp(logprobs, axis=0)` for one column, serving.py:569: it shifts by the maximum, `exp` is `np.exp` on float32. An infinite maximum, for which scipy
does not shift, is not distinguished from `nan`. -/
def floatLogsumexp (exp : Flt → Flt) : List Flt → Flt
  | [] => none
  | x :: rest =>
    let top := rest.foldl Flt.max x
    Flt.add A.rnd (A.log (A.sum ((x :: rest).map fun y => exp (Flt.sub A.rnd y top)))) top

/-- The members of `EnsembleServer(ensemble)`, serving.py:525. -/
def floatEnsemble (models : List (Model K M)) : Py (List (FloatServer M)) := models.mapM (FloatServer.init A)

/-- `EnsembleServer.logprob(data)` for one row, serving.py:566-572. `logSize` is `np.log(len(self._ensemble))`, in float32 or float64 as numpy converts it. -/
def floatEnsembleLogprob (exp : Flt → Flt) (logSize : ℚ) (servers : List (FloatServer M)) (data : List Int) : Option Flt := do
  let lps ← servers.mapM fun srv => srv.logprob A data
  some (Flt.sub A.rnd (floatLogsumexp A exp lps) (some logSize))

end

end TreeCat
