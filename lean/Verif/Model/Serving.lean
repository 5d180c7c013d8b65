import Verif.Model.Training

/-!
# Model of `treecat/serving.py`: `TreeCatServer` and `EnsembleServer`

As in the trainer, latent classes are `Fin M` and arrays indexed by vertices, edges or ragged
positions are functions of `Nat`. Queries that are vectorised over rows without interaction
between the rows (`logprob`, `marginals`) are modelled for one row and mapped over the rows;
`sample`, which is vectorised over the drawn samples, is modelled with all samples at once.
`exp`, `log` and `sqrt` are parameters. Floats are elements of an ordered field. Logging,
profiling and `gc` (which drops a cache) are not modelled.
-/

namespace TreeCat

open Util

/-- The transcendental functions that the server uses. -/
structure ServeNum (K : Type) where
  exp : K → K
  log : K → K
  sqrt : K → K

section
variable {K : Type} [Field K] [LinearOrder K] {M : Nat}

/-- The model dict that `TreeCatServer` takes, serving.py:169-181. `suffstats` is made of
`ragged_index`, `vert_ss`, `edge_ss`, `feat_ss`. `M` is `config['model_num_clusters']`. -/
structure Model (K : Type) (M : Nat) where
  tree : TreeStructure
  raggedIndex : List Nat
  vertSS : Nat → Fin M → Int
  edgeSS : Nat → Fin M → Fin M → Int
  featSS : Nat → Fin M → Int
  edgeLogits : List K

/-- The dict that `train` returns, training.py:281-284 and 629-638, without the assignments and `meas_ss`, which
the server does not read. -/
def trainedModel (t : Table) (s : Trainer K M) (logits : List K) : Model K M :=
  { tree := s.tree, raggedIndex := t.raggedIndex, vertSS := s.vertSS, edgeSS := s.edgeSS, featSS := s.featSS
    edgeLogits := logits }

/-- The attributes of a `TreeCatServer`, serving.py:182-227. -/
structure Server (K : Type) (M : Nat) where
  tree : TreeStructure
  program : List Instr
  raggedIndex : List Nat
  vertProbs : Nat → Fin M → K
  edgeProbs : Nat → Fin M → Fin M → K
  edgeTrans : Nat → Fin M → Fin M → K
  featCond : Nat → Fin M → K
  edgeLogits : List K
  estimatedTree : List Edge

/-- `_vert_probs`, serving.py:204-205. -/
def vertProbsOf (vertSS : Nat → Fin M → Int) (v : Nat) (m : Fin M) : K :=
  ((vertSS v m : K) + 1 / 2) / ∑ m', ((vertSS v m' : K) + 1 / 2)

/-- `_edge_probs`, serving.py:206-207. -/
def edgeProbsOf (edgeSS : Nat → Fin M → Fin M → Int) (e : Nat) (a b : Fin M) : K :=
  ((edgeSS e a b : K) + 1 / 2 / (M : K)) / ∑ a', ∑ b', ((edgeSS e a' b' : K) + 1 / 2 / (M : K))

/-- `_edge_trans`, serving.py:211-214. -/
def edgeTransOf (grid : Grid) (vert : Nat → Fin M → K) (edge : Nat → Fin M → Fin M → K) :
    Nat → Fin M → Fin M → K :=
  grid.foldl (fun t c =>
    let t := Function.update t c.1 fun a b => t c.1 a b / vert c.2.1 a
    Function.update t c.1 fun a b => t c.1 a b / vert c.2.2 b) edge

/-- `feat_block /= feat_block.sum(axis=0, keepdims=True)`, serving.py:219-221. -/
def normBlock (f : Nat → Fin M → K) (beg stop : Nat) : Nat → Fin M → K :=
  fun r m => if beg ≤ r ∧ r < stop then f r m / ∑ r' ∈ Finset.Ico beg stop, f r' m else f r m

/-- `_feat_cond`, serving.py:217-221. -/
def featCondOf (ri : List Nat) (V : Nat) (featSS : Nat → Fin M → Int) : Nat → Fin M → K :=
  (List.range V).foldl (fun f v => normBlock f (ri.getD v 0) (ri.getD (v + 1) 0))
    fun r m => (featSS r m : K) + 1 / 2 / (M : K)

/-- `TreeCatServer(model)`, serving.py:169-227. `beg, end = ragged_index[v:v + 2]` raises
`ValueError` when the index is too short for the number of vertices. -/
def Server.init (mst : List (List K) → List Edge) (model : Model K M) : Py (Server K M) := do
  let ri := model.raggedIndex
  match ri.getLast? with
  | none => .error .indexError
  | some _ => do
    let tree := model.tree
    let V := tree.numVertices
    let program ← makeProgram tree.treeGrid none
    let vertProbs := vertProbsOf model.vertSS
    let edgeProbs := edgeProbsOf model.edgeSS
    if ri.length < V + 1 then .error .valueError
    else do
      let grid ← makeCompleteGraph V
      let estimatedTree ← estimateTree mst grid model.edgeLogits
      .ok { tree, program, raggedIndex := ri, vertProbs, edgeProbs
            edgeTrans := edgeTransOf tree.treeGrid vertProbs edgeProbs
            featCond := featCondOf ri V model.featSS
            edgeLogits := model.edgeLogits, estimatedTree }

/-- `ragged_size`, serving.py:85-87. -/
def Server.raggedSize (srv : Server K M) : Nat := srv.raggedIndex.getLastD 0

/-- `ragged_index[v]`. -/
def Server.beg (srv : Server K M) (v : Nat) : Nat := srv.raggedIndex.getD v 0

/-- `ragged_index[v + 1]`. -/
def Server.stop (srv : Server K M) (v : Nat) : Nat := srv.raggedIndex.getD (v + 1) 0

/-- The positions `range(beg, end)` of feature `v`. -/
def Server.block (srv : Server K M) (v : Nat) : List Nat := List.range' (srv.beg v) (srv.stop v - srv.beg v)

/-! ### Messages -/

/-- The OP_UP step, which is the same in all queries: serving.py:279-287, 352-359, 401-408. -/
def serveUp (srv : Server K M) (data : List Int) (msgs : Nat → Fin M → K) (v : Nat) : Nat → Fin M → K :=
  (srv.block v).foldl (fun msgs r =>
    Function.update msgs v fun m => msgs v m * srv.featCond r m ^ (data.getD r 0)) msgs

/-- `message *= np.dot(trans, messages[v2])` of the OP_IN step: serving.py:288-294, 360-365,
410-415. -/
def serveIn (srv : Server K M) (msgs : Nat → Fin M → K) (v v2 e : Nat) (a : Fin M) : K :=
  msgs v a * ∑ b, transAt srv.edgeTrans e v v2 a b * msgs v2 b

/-! ### `logprob` -/

/-- The arrays of `logprob`, for one row of data. -/
structure LogState (K : Type) (M : Nat) where
  messages : Nat → Fin M → K
  logprob : K

/-- The OP_UP and OP_IN steps of `logprob`, serving.py:351-368. -/
def logStep (num : ServeNum K) (srv : Server K M) (data : List Int) (s : LogState K M) (i : Instr) : LogState K M :=
  match i.op with
  | .UP => { s with messages := serveUp srv data s.messages i.v }
  | .IN =>
    let msg := serveIn srv s.messages i.v i.v2 i.e
    let total := ∑ a, msg a
    { messages := Function.update s.messages i.v fun a => msg a / total, logprob := s.logprob + num.log total }
  | _ => s

/-- The loop of `logprob`, serving.py:350-372: it returns at OP_ROOT. The `None` that a program
without OP_ROOT would give is `none`. -/
def logLoop (num : ServeNum K) (srv : Server K M) (data : List Int) : List Instr → LogState K M → Option K
  | [], _ => none
  | i :: prog, s =>
    match i.op with
    | .ROOT => some (s.logprob + num.log (∑ a, s.messages i.v a))
    | _ => logLoop num srv data prog (logStep num srv data s i)

/-- `logprob(data)` for one row, serving.py:323-372, with the program as a parameter. -/
def logprobWith (num : ServeNum K) (srv : Server K M) (prog : List Instr) (data : List Int) : Option K :=
  logLoop num srv data prog ⟨srv.vertProbs, 0⟩

/-- `logprob(data)`, serving.py:323-372. The dtype assertion is not modelled. -/
def Server.logprob (num : ServeNum K) (srv : Server K M) (data : List (List Int)) : Py (List (Option K)) := do
  pyAssert (data.all fun row => row.length == srv.raggedSize)
  .ok (data.map (logprobWith num srv srv.program))

/-! ### `sample` -/

variable {m : Type → Type} [Monad m] [Choose K m] [Shuffle m]

/-- `sample_from_probs2` on `N` rows: one independent draw per row, util.py:91-105. -/
def choose2 {n : Nat} (N : Nat) (p : Nat → Fin n → K) : m (List (Fin n)) :=
  (List.range N).mapM fun i => Choose.choose (p i)

/-- The arrays of `sample`, serving.py:272-276. -/
structure SampleState (K : Type) (M : Nat) where
  messagesIn : Nat → Fin M → K
  messagesOut : Nat → Nat → Fin M → K
  vertSamples : Nat → Nat → Fin M
  featSamples : Nat → Nat → Int

/-- `samples_block[range_N, draws] += 1` on an int8 array, serving.py:318. -/
def bumpSamples {w : Nat} (f : Nat → Nat → Int) (beg : Nat) (draws : List (Fin w)) : Nat → Nat → Int :=
  fun n r => match draws[n]? with
    | some c => if r = beg + c.val then wrap8 (f n r + 1) else f n r
    | none => f n r

/-- One pass of the loop that draws observations, serving.py:314-318. Drawing from an empty
block raises at `cdf[:, -1]`, util.py:104. -/
def drawFeature (srv : Server K M) (N v : Nat) (vs : Nat → Fin M) (f : Nat → Nat → Int) :
    ExceptT PyErr m (Nat → Nat → Int) :=
  if srv.stop v - srv.beg v = 0 then throw .indexError
  else do
    let draws ← ExceptT.lift (choose2 (n := srv.stop v - srv.beg v) N fun n c => srv.featCond (srv.beg v + c.val) (vs n))
    pure (bumpSamples f (srv.beg v) draws)

/-- `for _ in range(counts[v])`, serving.py:317-318. -/
def drawFeatures (srv : Server K M) (N v : Nat) (vs : Nat → Fin M) : Nat → (Nat → Nat → Int) →
    ExceptT PyErr m (Nat → Nat → Int)
  | 0, f => pure f
  | k + 1, f => do
    let f ← drawFeature srv N v vs f
    drawFeatures srv N v vs k f

/-- One instruction of `sample`, serving.py:278-318. -/
def sampleStep [NeZero M] (srv : Server K M) (N : Nat) (counts : List Int) (data : List Int) (s : SampleState K M)
    (i : Instr) : ExceptT PyErr m (SampleState K M) :=
  match i.op with
  | .UP =>
    -- entries that are zero are skipped, which is the factor one
    pure { s with messagesIn := serveUp srv data s.messagesIn i.v }
  | .IN =>
    let msg := serveIn srv s.messagesIn i.v i.v2 i.e
    pure { s with messagesIn := Function.update s.messagesIn i.v fun a => msg a / vecMax msg }
  | .ROOT => pure { s with messagesOut := Function.update s.messagesOut i.v fun _ => s.messagesIn i.v }
  | .OUT =>
    let msg := fun n b => s.messagesIn i.v b * transAt srv.edgeTrans i.e i.v2 i.v (s.vertSamples i.v2 n) b
    pure { s with messagesOut := Function.update s.messagesOut i.v fun n b => msg n b / vecMax (msg n) }
  | .DOWN => do
    let draws ← ExceptT.lift (choose2 N (s.messagesOut i.v))
    let vs := fun n => draws.getD n 0
    let f ← drawFeatures srv N i.v vs (counts.getD i.v 0).toNat s.featSamples
    pure { s with vertSamples := Function.update s.vertSamples i.v vs, featSamples := f }

/-- `sample(N, counts, data)`, serving.py:247-320, up to the conversion of the arrays to lists. The
default row is `_zero_row`. -/
def sampleLoop [NeZero M] (srv : Server K M) (prog : List Instr) (N : Nat) (counts : List Int) (data : List Int) :
    ExceptT PyErr m (SampleState K M) :=
  prog.foldlM (sampleStep srv N counts data)
    { messagesIn := srv.vertProbs, messagesOut := fun v _ => srv.vertProbs v
      vertSamples := fun _ _ => 0, featSamples := fun _ _ => 0 }

/-- `sample(N, counts, data)`, serving.py:247-320: `N` rows of `R` counts. -/
def Server.sample [NeZero M] (srv : Server K M) (N : Nat) (counts : List Int) (data : Option (List Int)) :
    ExceptT PyErr m (List (List Int)) := do
  let R := srv.raggedSize
  let data := data.getD (List.replicate R 0)
  liftPy (pyAssert (data.length == R))
  liftPy (pyAssert (counts.length == srv.tree.numVertices))
  let s ← sampleLoop srv srv.program N counts data
  pure ((List.range N).map fun n => (List.range R).map fun r => s.featSamples n r)

/-- `sample_tree(num_samples)`, serving.py:236-244. -/
def Server.sampleTrees (num : ServeNum K) (junk : Nat → Nat) (srv : Server K M) (n : Nat) :
    ExceptT PyErr m (List (List Edge)) := do
  let grid ← liftPy (makeCompleteGraph srv.tree.numVertices)
  let r ← (List.range n).foldlM (fun (s : List Edge × List (List Edge)) _ => do
    let perm ← ExceptT.lift (Shuffle.permutation s.1.length)
    let edges ← sampleTree num.exp junk grid srv.edgeLogits s.1 perm
    pure (edges, s.2 ++ [edges])) (srv.estimatedTree, [])
  pure r.2

/-! ### `marginals` and `median` -/

/-- The arrays of `marginals`, for one row of data. -/
structure MarginalState (K : Type) (M : Nat) where
  messagesIn : Nat → Fin M → K
  messagesOut : Nat → Fin M → K
  result : Nat → K

/-- One instruction of `marginals`, serving.py:399-431. -/
def marginalStep [NeZero M] (srv : Server K M) (data : List Int) (s : MarginalState K M) (i : Instr) : MarginalState K M :=
  match i.op with
  | .UP =>
    let msgs := serveUp srv data s.messagesIn i.v
    { s with messagesIn := msgs, messagesOut := Function.update s.messagesOut i.v (msgs i.v) }
  | .IN =>
    let msg := serveIn srv s.messagesIn i.v i.v2 i.e
    { s with messagesIn := Function.update s.messagesIn i.v fun a => msg a / vecMax msg }
  | .ROOT => s
  | .OUT =>
    let fromParent := fun a => ∑ b, transAt srv.edgeTrans i.e i.v i.v2 a b * s.messagesOut i.v2 b
    { s with messagesOut := Function.update s.messagesOut i.v fun a => s.messagesOut i.v a * fromParent a
             messagesIn := Function.update s.messagesIn i.v fun a => s.messagesIn i.v a * fromParent a }
  | .DOWN =>
    let marginal := fun r => ∑ a, srv.featCond r a * s.messagesIn i.v a
    { s with result := fun r =>
        if srv.beg i.v ≤ r ∧ r < srv.stop i.v then
          marginal r / ∑ r' ∈ Finset.Ico (srv.beg i.v) (srv.stop i.v), marginal r'
        else s.result r }

/-- `marginals(data)` for one row, serving.py:375-433, with the program as a parameter; `junk` is the
content of the uninitialised `messages_out`. -/
def marginalsWith [NeZero M] (srv : Server K M) (prog : List Instr) (junk : Nat → Fin M → K) (data : List Int) : Nat → K :=
  (prog.foldl (marginalStep srv data) ⟨srv.vertProbs, junk, fun _ => 0⟩).result

/-- `marginals(data)`, serving.py:375-433. -/
def Server.marginals [NeZero M] (srv : Server K M) (junk : Nat → Fin M → K) (data : List (List Int)) :
    Py (List (Nat → K)) := do
  pyAssert (data.all fun row => row.length == srv.raggedSize)
  .ok (data.map (marginalsWith srv srv.program junk))

/-- One row of `median`, serving.py:139-147: the blocks of the result are written one after the other. -/
def medianRow (srv : Server K M) (counts : List Int) (marginal : Nat → K) : Py (Nat → Int) :=
  (List.range (srv.raggedIndex.length - 1)).foldlM (fun (result : Nat → Int) v => do
    let q ← quantizeRow (fun c : Fin (srv.stop v - srv.beg v) => marginal (srv.beg v + c.val)) (counts.getD v 0).toNat
    .ok fun r => if h : srv.beg v ≤ r ∧ r < srv.stop v then q ⟨r - srv.beg v, by omega⟩ else result r) fun _ => 0

/-- `median(counts, data)`, serving.py:118-147. -/
def Server.median [NeZero M] (srv : Server K M) (junk : Nat → Fin M → K) (counts : List Int) (data : List (List Int)) :
    Py (List (List Int)) := do
  let marginals ← srv.marginals junk data
  marginals.mapM fun marginal => do
    let row ← medianRow srv counts marginal
    .ok ((List.range srv.raggedSize).map row)

/-! ### Entropies -/

/-- `scipy.special.entr` for nonnegative arguments. -/
def entr (num : ServeNum K) (x : K) : K := if x = 0 then 0 else - (x * num.log x)

/-- `scipy.stats.entropy(pk)`: normalises first. -/
def entropy (num : ServeNum K) (pk : List K) : K := (pk.map fun x => entr num (x / pk.sum)).sum

/-- `np.convolve(a, b)` (mode `full`), for nonempty arguments. -/
def convolve (a b : List K) : List K :=
  (List.range (a.length + b.length - 1)).map fun n =>
    ((List.range (n + 1)).map fun i => a.getD i 0 * b.getD (n - i) 0).sum

/-- `multinomial_entropy(probs, count)`, serving.py:53-70. -/
def multinomialEntropy (num : ServeNum K) (probs : List K) (count : Int) : Py K := do
  pyAssert (decide (0 < count))
  let multi ← (List.range (count - 1).toNat).foldlM (fun (multi : List K) _ =>
    if 2 < probs.length then (.error .notImplemented : Py (List K)) else .ok (convolve multi probs)) probs
  .ok (entropy num multi)

/-- The distribution of feature `v`, serving.py:461. -/
def observedProbs (srv : Server K M) (v : Nat) : List K :=
  (srv.block v).map fun r => ∑ a, srv.featCond r a * srv.vertProbs v a

/-- `observed_perplexity(counts)`, serving.py:439-463. The test on line 453 is `is not None`, so a
given argument is replaced by ones, and `None` fails on line 455 (`None` has no `shape`). -/
def Server.observedPerplexity (num : ServeNum K) (srv : Server K M) (counts : Option (List Int)) : Py (List K) := do
  let V := srv.tree.numVertices
  let counts := match counts with
    | some _ => some (List.replicate V (1 : Int))
    | none => none
  match counts with
  | none => .error .attributeError
  | some counts => do
    pyAssert (counts.length == V)
    pyAssert (counts.all fun c => decide (0 < c))
    let h ← (List.range V).mapM fun v => multinomialEntropy num (observedProbs srv v) (counts.getD v 0)
    .ok (h.map num.exp)

/-- `latent_perplexity()`, serving.py:465-479. -/
def Server.latentPerplexity (num : ServeNum K) (srv : Server K M) : List K :=
  (List.range srv.tree.numVertices).map fun v => num.exp (entropy num ((List.finRange M).map (srv.vertProbs v)))

/-- `correlation(probs)`, serving.py:37-50. -/
def correlation (num : ServeNum K) (probs : Fin M → Fin M → K) : K :=
  let mi := entropy num ((List.finRange M).map fun b => ∑ a, probs a b)
    + entropy num ((List.finRange M).map fun a => ∑ b, probs a b)
    - entropy num ((List.finRange M).flatMap fun a => (List.finRange M).map fun b => probs a b)
  num.sqrt (1 - num.exp (-2 * mi))

/-- One instruction of `latent_correlation`, serving.py:501-513. -/
def correlationStep (srv : Server K M) (msgs : Nat → Fin M → Fin M → K) (i : Instr) : Nat → Fin M → Fin M → K :=
  match i.op with
  | .ROOT => Function.update msgs i.v fun a b => if a = b then srv.vertProbs i.v a else 0
  | .OUT => Function.update msgs i.v fun a c =>
      ∑ b, transAt srv.edgeProbs i.e i.v i.v2 a b / srv.vertProbs i.v2 b * msgs i.v2 b c
  | _ => msgs

/-- `latent_correlation()`, serving.py:482-515. `junk` is the content of `np.empty`. -/
def Server.latentCorrelation (num : ServeNum K) (srv : Server K M) (junk : Nat → Fin M → Fin M → K) : Py (List (List K)) :=
  (List.range srv.tree.numVertices).mapM fun root => do
    let program ← makeProgram srv.tree.treeGrid (some root)
    let msgs := program.foldl (correlationStep srv) junk
    .ok ((List.range srv.tree.numVertices).map fun v => correlation num (msgs v))

/-! ### `EnsembleServer` -/

/-- The attributes of an `EnsembleServer`, serving.py:521-534. -/
structure Ensemble (K : Type) (M : Nat) where
  raggedIndex : List Nat
  servers : List (Server K M)
  edgeLogits : List K
  estimatedTree : List Edge

/-- `EnsembleServer(ensemble)`, serving.py:521-534. -/
def Ensemble.init (mst : List (List K) → List Edge) (models : List (Model K M)) : Py (Ensemble K M) := do
  match models with
  | [] => .error .assertion
  | first :: _ => do
    let servers ← models.mapM (Server.init mst)
    match servers with
    | [] => .error .indexError
    | s0 :: rest => do
      let sum := rest.foldl (fun acc s => acc.zipWith (· + ·) s.edgeLogits) s0.edgeLogits
      let edgeLogits := sum.map fun x => x / (servers.length : K)
      let grid ← makeCompleteGraph s0.tree.numVertices
      let estimatedTree ← estimateTree mst grid edgeLogits
      .ok { raggedIndex := first.raggedIndex, servers, edgeLogits, estimatedTree }

/-- `np.random.multinomial(n, np.ones(size) / size)`: how often each of `size` equally likely outcomes
occurs in `n` draws. -/
def splitSamples (n size : Nat) : m (List Nat) := do
  let draws ← (List.range n).mapM fun _ => Choose.choose (fun _ : Fin size => (1 : K))
  pure ((List.finRange size).map fun i => draws.count i)

/-- `np.random.shuffle(samples)`. -/
def shuffled {α : Type} (l : List α) : m (List α) := do
  let perm ← Shuffle.permutation l.length
  pure (perm.filterMap fun i => l[i]?)

/-- `EnsembleServer.sample_tree(num_samples)`, serving.py:543-552. -/
def Ensemble.sampleTrees (num : ServeNum K) (junk : Nat → Nat) (ens : Ensemble K M) (n : Nat) :
    ExceptT PyErr m (List (List Edge)) := do
  let subs ← ExceptT.lift (splitSamples (K := K) n ens.servers.length)
  let samples ← (ens.servers.zip subs).foldlM (fun samples p => do
    let more ← p.1.sampleTrees num junk p.2
    pure (samples ++ more)) []
  let samples ← ExceptT.lift (shuffled samples)
  liftPy (pyAssert (samples.length == n))
  pure samples

/-- `EnsembleServer.sample(N, counts, data)`, serving.py:554-564. -/
def Ensemble.sample [NeZero M] (ens : Ensemble K M) (N : Nat) (counts : List Int) (data : Option (List Int)) :
    ExceptT PyErr m (List (List Int)) := do
  let subs ← ExceptT.lift (splitSamples (K := K) N ens.servers.length)
  let parts ← (ens.servers.zip subs).mapM fun p => p.1.sample p.2 counts data
  let samples ← ExceptT.lift (shuffled parts.flatten)
  liftPy (pyAssert (samples.length == N))
  pure samples

/-- `scipy.misc.logsumexp` of a nonempty vector: shifts by the maximum. -/
def logsumexp (num : ServeNum K) (xs : List K) : K :=
  match xs with
  | [] => 0
  | x :: rest =>
    let top := rest.foldl max x
    num.log ((xs.map fun y => num.exp (y - top)).sum) + top

/-- `EnsembleServer.logprob(data)`, serving.py:566-572. -/
def Ensemble.logprob (num : ServeNum K) (ens : Ensemble K M) (data : List (List Int)) : Py (List K) := do
  let lps ← ens.servers.mapM fun s => s.logprob num data
  (List.range data.length).mapM fun n =>
    match lps.mapM fun lp => (lp.getD n none) with
    | some xs => .ok (logsumexp num xs - num.log (ens.servers.length : K))
    | none => .error .typeError

/-- Mean over the members of the ensemble, as the last three methods compute it: serving.py:596-600,
612-616, 629-633. -/
def meanOver (size : Nat) (xs : List (List K)) : List K :=
  match xs with
  | [] => []
  | x :: rest => (rest.foldl (fun acc y => acc.zipWith (· + ·) y) x).map fun z => z / (size : K)

/-- `EnsembleServer.observed_perplexity(counts)`, serving.py:582-600. -/
def Ensemble.observedPerplexity (num : ServeNum K) (ens : Ensemble K M) (counts : Option (List Int)) : Py (List K) := do
  let xs ← ens.servers.mapM fun s => s.observedPerplexity num counts
  .ok (meanOver ens.servers.length xs)

/-- `EnsembleServer.latent_perplexity()`, serving.py:602-616. -/
def Ensemble.latentPerplexity (num : ServeNum K) (ens : Ensemble K M) : List K :=
  meanOver ens.servers.length (ens.servers.map (Server.latentPerplexity num))

/-- `EnsembleServer.latent_correlation()`, serving.py:618-633: the matrices are averaged row by row. -/
def Ensemble.latentCorrelation (num : ServeNum K) (ens : Ensemble K M) (junk : Nat → Fin M → Fin M → K) :
    Py (List (List K)) := do
  let ms ← ens.servers.mapM fun s => s.latentCorrelation num junk
  match ms with
  | [] => .error .indexError
  | x :: rest =>
    .ok ((rest.foldl (fun acc y => acc.zipWith (fun r r' => r.zipWith (· + ·) r') y) x).map fun r =>
      r.map fun z => z / (ens.servers.length : K))

end

end TreeCat
