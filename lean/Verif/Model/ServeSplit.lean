import Verif.Model.ServeSeed

/-!
# `EnsembleServer.sample_tree` with the probabilities of the members as they are computed
-/

namespace TreeCat

section
variable {K : Type} [Field K] [LinearOrder K] {M : Nat}

/-- `EnsembleServer.sample_tree(num_samples)`, serving.py:543-552, with the probabilities of the members as they are computed (serving.py:545). -/
def Ensemble.sampleTreesBy {m : Type → Type} [Monad m] [Choose K m] [Shuffle m] (num : ServeNum K) (junk : Nat → Nat) (pvals : List K)
    (ens : Ensemble K M) (n : Nat) : ExceptT PyErr m (List (List Edge)) := do
  let subs ← ExceptT.lift (splitBy (K := K) n pvals)
  let samples ← (ens.servers.zip subs).foldlM (fun samples p => do
    let more ← p.1.sampleTrees num junk p.2
    pure (samples ++ more)) []
  let samples ← ExceptT.lift (shuffled samples)
  liftPy (pyAssert (samples.length == n))
  pure samples

end

end TreeCat
