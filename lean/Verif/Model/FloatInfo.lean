import Verif.Model.FloatEnsemble

/-!
# Perplexity and correlation in floating point (treecat/serving.py:37-71, 439-515)

As in `Model/FloatServe`, a number is `none` if it is not a number or infinite. `scipy.stats.entropy` computes in the precision of its argument: float32 for
the perplexities, float64 for the correlations, whose messages are made by `np.empty` without a type.
-/

namespace TreeCat

/-- The arithmetic of `scipy.stats.entropy` in one precision: `sum` is `np.sum`, whose order of summation numpy does not document, `entr` is `scipy.special.entr`. -/
structure EntropyOps where
  rnd : ℚ → ℚ
  sum : List Flt → Flt
  entr : Flt → Flt

/-- `scipy.stats.entropy(pk)`: it divides by the sum first, then adds up `entr`. -/
def floatEntropy (E : EntropyOps) (pk : List Flt) : Flt := E.sum (pk.map fun x => E.entr (Flt.div E.rnd x (E.sum pk)))

/-- The float64 arithmetic of `latent_correlation`: that of `entropy`, `np.dot` of a row and a column, `np.exp` and `np.sqrt`. -/
structure CorrOps (M : Nat) extends EntropyOps where
  dot : (Fin M → Flt) → (Fin M → Flt) → Flt
  exp : Flt → Flt
  sqrt : Flt → Flt

section
variable {K : Type} {M : Nat} (A : ServeOps M)

/-- `mutual_information` of `correlation(probs)`, serving.py:48-49. -/
def floatMutualInfo (E : EntropyOps) (probs : Fin M → Fin M → Flt) : Flt :=
  Flt.sub E.rnd
    (Flt.add E.rnd (floatEntropy E ((List.finRange M).map fun b => E.sum ((List.finRange M).map fun a => probs a b)))
      (floatEntropy E ((List.finRange M).map fun a => E.sum ((List.finRange M).map fun b => probs a b))))
    (floatEntropy E ((List.finRange M).flatMap fun a => (List.finRange M).map fun b => probs a b))

/-- `correlation(probs)`, serving.py:37-50. -/
def floatCorrelation (C : CorrOps M) (probs : Fin M → Fin M → Flt) : Flt :=
  C.sqrt (Flt.sub C.rnd (some 1) (C.exp (Flt.mul C.rnd (some (-2)) (floatMutualInfo C.toEntropyOps probs))))

/-- One instruction of `latent_correlation`, serving.py:500-511. The quotient `trans / vert_probs` is computed in float32, its product with the messages in float64. -/
def floatCorrStep (C : CorrOps M) (vert : Nat → Fin M → Flt) (edge : Nat → Fin M → Fin M → Flt) (msgs : Nat → Fin M → Fin M → Flt) (i : Instr) : Nat → Fin M → Fin M → Flt :=
  match i.op with
  | .ROOT => Function.update msgs i.v fun a b => if a = b then vert i.v a else some 0
  | .OUT => Function.update msgs i.v fun a c => C.dot (fun b => Flt.div A.rnd (transAt edge i.e i.v i.v2 a b) (vert i.v2 b)) fun b => msgs i.v2 b c
  | _ => msgs

/-- `latent_correlation()`, serving.py:482-515. `junk` is the content of `np.empty`; `result` is float32. -/
def floatLatentCorrelation (C : CorrOps M) (model : Model K M) (junk : Nat → Fin M → Fin M → Flt) : Py (List (List Flt)) :=
  (List.range model.tree.numVertices).mapM fun root => do
    let program ← makeProgram model.tree.treeGrid (some root)
    let msgs := program.foldl (floatCorrStep A C (floatVertProbs A model.vertSS) (floatEdgeProbs A model.edgeSS)) junk
    .ok ((List.range model.tree.numVertices).map fun v => (floatCorrelation C (msgs v)).map A.rnd)

/-- `latent_perplexity()`, serving.py:465-479. `exp` is `np.exp` on float32. -/
def FloatServer.latentPerplexity (E : EntropyOps) (exp : Flt → Flt) (srv : FloatServer M) (V : Nat) : List Flt :=
  (List.range V).map fun v => exp (floatEntropy E ((List.finRange M).map (srv.vert v)))

/-- `observed_perplexity(counts)` for counts other than `None`, which it replaces by ones, serving.py:452-463. -/
def FloatServer.observedPerplexity (E : EntropyOps) (exp : Flt → Flt) (srv : FloatServer M) (V : Nat) : List Flt :=
  (List.range V).map fun v => exp (floatEntropy E ((srv.block v).map fun r => A.dot (srv.cond r) (srv.vert v)))

end

end TreeCat
