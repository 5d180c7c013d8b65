import Verif.Model.Serving
import Verif.Model.TreeInf

/-!
# Servers of models with forbidden edges

The parts of `TreeCatServer` and `EnsembleServer` that use the edge logits, where these may be `-inf`; compare `Server` and `Ensemble` in
`Model/Serving.lean`. Everything else in a server does not depend on the edge logits.
-/

namespace TreeCat

section
variable {K : Type} [Field K] [LinearOrder K] {m n : Type → Type} [Monad m] [Choose K m] [Shuffle m] [Monad n] [Choose K n]

/-- The attributes of a `TreeCatServer` that have to do with edge logits, serving.py:223-227. -/
structure TreeServerInf (K : Type) where
  numVertices : Nat
  edgeLogits : List (WithBot K)
  estimatedTree : List Edge

/-- The end of `TreeCatServer.__init__`, serving.py:223-227. -/
def TreeServerInf.init (mst : List (List K) → List Edge) (V : Nat) (logits : List (WithBot K)) : Py (TreeServerInf K) := do
  let grid ← makeCompleteGraph V
  let estimatedTree ← estimateTreeInf mst grid logits
  .ok ⟨V, logits, estimatedTree⟩

/-- `sample_tree(num_samples)`, serving.py:236-244; compare `Server.sampleTrees`. For `inj` see `trainerSampleTreeInf`. -/
def TreeServerInf.sampleTrees (inj : {α : Type} → n α → m α) (expf : K → K) (junk : Nat → Nat) (srv : TreeServerInf K) (N : Nat) :
    ExceptT PyErr m (List (List Edge)) := do
  let grid ← liftPy (makeCompleteGraph srv.numVertices)
  let r ← (List.range N).foldlM (fun (s : List Edge × List (List Edge)) _ => do
    let perm ← ExceptT.lift (Shuffle.permutation s.1.length)
    let out ← ExceptT.mk (inj (sampleTreeInf expf junk grid srv.edgeLogits s.1 perm : ExceptT PyErr n _).run)
    pure (out.1, s.2 ++ [out.1])) (srv.estimatedTree, [])
  pure r.2

/-- The attributes of an `EnsembleServer` that have to do with edge logits, serving.py:525-534. -/
structure TreeEnsembleInf (K : Type) where
  servers : List (TreeServerInf K)
  edgeLogits : List (WithBot K)
  estimatedTree : List Edge

/-- `x / size` in `self._edge_logits /= len(self._ensemble)`, serving.py:531. -/
def divInf (size : Nat) : WithBot K → WithBot K
  | none => ⊥
  | some x => ((x / (size : K) : K) : WithBot K)

/-- `EnsembleServer.__init__`, serving.py:521-534; compare `Ensemble.init`. -/
def TreeEnsembleInf.init (mst : List (List K) → List Edge) (V : Nat) (models : List (List (WithBot K))) : Py (TreeEnsembleInf K) := do
  match models with
  | [] => .error .assertion
  | _ :: _ => do
    let servers ← models.mapM (TreeServerInf.init mst V)
    match servers with
    | [] => .error .indexError
    | s0 :: rest => do
      let sum := rest.foldl (fun acc s => acc.zipWith (· + ·) s.edgeLogits) s0.edgeLogits
      let edgeLogits := sum.map (divInf servers.length)
      let grid ← makeCompleteGraph s0.numVertices
      let estimatedTree ← estimateTreeInf mst grid edgeLogits
      .ok { servers, edgeLogits, estimatedTree }

/-- `EnsembleServer.sample_tree(num_samples)`, serving.py:543-552; compare `Ensemble.sampleTrees`. -/
def TreeEnsembleInf.sampleTrees (inj : {α : Type} → n α → m α) (expf : K → K) (junk : Nat → Nat) (ens : TreeEnsembleInf K) (N : Nat) :
    ExceptT PyErr m (List (List Edge)) := do
  let subs ← ExceptT.lift (splitSamples (K := K) N ens.servers.length)
  let samples ← (ens.servers.zip subs).foldlM (fun samples p => do
    let more ← p.1.sampleTrees inj expf junk p.2
    pure (samples ++ more)) []
  let samples ← ExceptT.lift (shuffled samples)
  liftPy (pyAssert (samples.length == N))
  pure samples

end

end TreeCat
