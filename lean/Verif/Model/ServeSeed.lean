import Verif.Model.Float
import Verif.Model.Seed

/-!
# Sampling by servers with the random generators

`sample` and `sample_tree` of the servers run with generators, and the call of `np.random.multinomial` by which an ensemble divides the
samples among its members.
-/

namespace TreeCat

open Util

section
variable {S K : Type}

/-- Code outside of compiled functions, such as `sample_from_probs2`, util.py:91-105, draws from numpy's generator. -/
def Host.interpreted (host : Host S K) : Host S K := { host with jit := false }

/-- `np.ones(size, dtype=np.float32) / size`, serving.py:545 and 556; `rs` rounds to single precision. -/
def memberProbs (rs : ℚ → ℚ) (size : Nat) : List ℚ := List.replicate size (rs (1 / rs size))

/-- One step of the loop of `kahan_sum` of numpy's `mtrand`: the sum and the correction. -/
def kahanStep (rd : ℚ → ℚ) (s : ℚ × ℚ) (x : ℚ) : ℚ × ℚ :=
  let y := rd (x - s.2)
  let t := rd (s.1 + y)
  (t, rd (rd (t - s.1) - y))

/-- `kahan_sum` of numpy's `mtrand`; `rd` rounds to double precision. -/
def kahanSum (rd : ℚ → ℚ) : List ℚ → ℚ
  | [] => 0
  | x :: xs => (xs.foldl (kahanStep rd) (x, 0)).1

/-- The check at the start of `np.random.multinomial(n, pvals)`: `ValueError` if `kahan_sum(pvals[:-1]) > 1.0 + 1e-12`. -/
def multinomialOk (rd : ℚ → ℚ) (pvals : List ℚ) : Bool := decide (kahanSum rd pvals.dropLast ≤ rd (1 + rd (1 / 10 ^ 12)))

/-- `np.random.multinomial(n, pvals)`: `draw` are the numbers that it draws after the check. -/
def multinomialOn {host : Host S K} (rd : ℚ → ℚ) (draw : Nat → List ℚ → S → List Nat × S) (n : Nat) (pvals : List ℚ) : RunOn host (List Nat) :=
  RunOn.of fun g =>
    if multinomialOk rd pvals then (.ok (draw n pvals g.numpy).1, { g with numpy := (draw n pvals g.numpy).2 })
    else (.error .valueError, g)

/-- The exceptions of a program that draws become those of its run. -/
def served {host : Host S K} {α : Type} (x : ExceptT PyErr (RunOn host) α) : RunOn host α := do
  let r ← x.run
  RunOn.py r

variable [Field K] [LinearOrder K] {M : Nat}

/-- `TreeCatServer.sample(N, counts, data)`, serving.py:247-320. -/
def Server.sampleOn [NeZero M] (host : Host S K) (srv : Server K M) (N : Nat) (counts : List Int) (data : Option (List Int)) :
    RunOn host.interpreted (List (List Int)) :=
  served (srv.sample N counts data)

/-- `TreeCatServer.sample_tree(num_samples)`, serving.py:236-244. `sample_tree` of structure.py draws by `sample_from_probs`. -/
def Server.sampleTreesOn (host : Host S K) (num : ServeNum K) (junk : Nat → Nat) (srv : Server K M) (n : Nat) :
    RunOn host (List (List Edge)) :=
  served (srv.sampleTrees num junk n)

/-- `EnsembleServer.sample(N, counts, data)`, serving.py:554-564. -/
def Ensemble.sampleOn [NeZero M] (host : Host S K) (rs rd : ℚ → ℚ) (draw : Nat → List ℚ → S → List Nat × S) (ens : Ensemble K M) (N : Nat)
    (counts : List Int) (data : Option (List Int)) : RunOn host.interpreted (List (List Int)) := do
  let size := ens.servers.length
  let pvals := memberProbs rs size
  let subs ← multinomialOn rd draw N pvals
  let parts ← (ens.servers.zip subs).mapM fun p => p.1.sampleOn host p.2 counts data
  let samples ← shuffled parts.flatten
  RunOn.py (pyAssert (samples.length == N))
  pure samples

/-- `EnsembleServer.sample_tree(num_samples)`, serving.py:543-552. -/
def Ensemble.sampleTreesOn (host : Host S K) (rs rd : ℚ → ℚ) (draw : Nat → List ℚ → S → List Nat × S) (num : ServeNum K) (junk : Nat → Nat)
    (ens : Ensemble K M) (n : Nat) : RunOn host (List (List Edge)) := do
  let size := ens.servers.length
  let pvals := memberProbs rs size
  let subs ← multinomialOn rd draw n pvals
  let samples ← (ens.servers.zip subs).foldlM (fun samples p => do
    let more ← p.1.sampleTreesOn host num junk p.2
    pure (samples ++ more)) []
  let samples ← shuffled samples
  RunOn.py (pyAssert (samples.length == n))
  pure samples

/-- `np.random.multinomial(n, pvals)` as a random number: how often each index occurs in `n` draws. numpy does not read the last
probability; the last index gets what remains (its binomial draws divide by what remains in double precision, which is not modelled). -/
def splitBy {m : Type → Type} [Monad m] [Choose K m] (n : Nat) (pvals : List K) : m (List Nat) := do
  let draws ← (List.range n).mapM fun _ => Choose.choose (fun i : Fin pvals.length =>
    if i.val + 1 = pvals.length then 1 - pvals.dropLast.sum else pvals.getD i.val 0)
  pure ((List.finRange pvals.length).map fun i => draws.count i)

/-- `EnsembleServer.sample(N, counts, data)`, serving.py:554-564, with the probabilities of the members as they are computed. -/
def Ensemble.sampleBy {m : Type → Type} [Monad m] [Choose K m] [Shuffle m] [NeZero M] (pvals : List K) (ens : Ensemble K M) (N : Nat)
    (counts : List Int) (data : Option (List Int)) : ExceptT PyErr m (List (List Int)) := do
  let subs ← ExceptT.lift (splitBy (K := K) N pvals)
  let parts ← (ens.servers.zip subs).mapM fun p => p.1.sample p.2 counts data
  let samples ← ExceptT.lift (shuffled parts.flatten)
  liftPy (pyAssert (samples.length == N))
  pure samples

end

end TreeCat
