import Mathlib.Order.Interval.Finset.Nat
import Verif.Model.Serving
import Verif.Spec.Tree
import Verif.Spec.Mst

/-!
# Specification: the distribution that a trained model stands for

The parameters are posterior means under Jeffreys priors. The latent variables have the joint
distribution of a tree with the given vertex and edge marginals; the observations of a feature are
independent given its latent variable.
-/

namespace TreeCat.Spec

variable {K : Type} [Field K] {M : Nat}

/-- Mean probability that vertex `v` is in class `m`. -/
def vertMean (model : Model K M) (v : Nat) (m : Fin M) : K :=
  ((model.vertSS v m : K) + 1 / 2) / ((∑ m', (model.vertSS v m' : K)) + M / 2)

/-- Mean probability that the ends of edge `e` are in classes `a` and `b`. -/
def edgeMean (model : Model K M) (e : Nat) (a b : Fin M) : K :=
  ((model.edgeSS e a b : K) + 1 / (2 * M)) / ((∑ a', ∑ b', (model.edgeSS e a' b' : K)) + M / 2)

/-- Columns of feature `v`. -/
def columns (model : Model K M) (v : Nat) : Finset Nat :=
  Finset.Ico (model.raggedIndex.getD v 0) (model.raggedIndex.getD (v + 1) 0)

/-- Mean probability that an observation of feature `v` is category `r`, given class `m`. -/
def featMean (model : Model K M) (v r : Nat) (m : Fin M) : K :=
  ((model.featSS r m : K) + 1 / (2 * M)) /
    ((∑ r' ∈ columns model v, (model.featSS r' m : K)) + (columns model v).card / (2 * M))

/-- Probability of a vector of latent classes. -/
def latentProb (model : Model K M) (z : Nat → Fin M) : K :=
  (∏ v ∈ Finset.range model.tree.numVertices, vertMean model v (z v)) *
    (model.tree.treeGrid.map fun c => edgeMean model c.1 (z c.2.1) (z c.2.2) /
      (vertMean model c.2.1 (z c.2.1) * vertMean model c.2.2 (z c.2.2))).prod

/-- Probability of a row of counts given the latent classes (of the sequence of observations, without the
multinomial coefficient). -/
def rowProb (model : Model K M) (data : Nat → Int) (z : Nat → Fin M) : K :=
  ∏ v ∈ Finset.range model.tree.numVertices, ∏ r ∈ columns model v, featMean model v r (z v) ^ data r

/-- Sum over all `M ^ V` vectors of latent classes. -/
def sumLatent [NeZero M] (V : Nat) (f : (Nat → Fin M) → K) : K :=
  ∑ z : Fin V → Fin M, f fun v => if h : v < V then z ⟨v, h⟩ else 0

/-- Probability of a row. -/
def dataProb [NeZero M] (model : Model K M) (data : Nat → Int) : K :=
  sumLatent model.tree.numVertices fun z => latentProb model z * rowProb model data z

/-- Expected value of `k` when one observation of each of the listed features is drawn given the latent
classes, each on its own, and counted in `x`. -/
def observe (model : Model K M) (z : Nat → Fin M) : List Nat → (Nat → Int) → ((Nat → Int) → K) → K
  | [], x, k => k x
  | v :: vs, x, k => ∑ r ∈ columns model v, featMean model v r (z v) * observe model z vs (Function.update x r (x r + 1)) k

/-- Feature `v`, `counts[v]` times, for all features. -/
def requested (V : Nat) (counts : List Int) : List Nat :=
  (List.range V).flatMap fun v => List.replicate (counts.getD v 0).toNat v

/-- Expected value of `k` when the latent classes are drawn from their posterior given the row `data`, and the
requested observations are then drawn given the classes. -/
def sampleMean [NeZero M] (model : Model K M) (data : Nat → Int) (counts : List Int)
    (k : (Nat → Fin M) → (Nat → Int) → K) : K :=
  sumLatent model.tree.numVertices (fun z => latentProb model z * rowProb model data z *
    observe model z (requested model.tree.numVertices counts) (fun _ => 0) (k z)) / dataProb model data

/-- A model as training returns it: a tree with numbered edges, an index of the columns, counts. -/
structure Model.Valid (model : Model K M) : Prop where
  isTree : IsTree model.tree.numVertices model.tree.getEdges
  sorted : ∃ edges, model.tree.treeGrid = makeTree edges
  ragged : model.raggedIndex.length = model.tree.numVertices + 1
  mono : model.raggedIndex.Pairwise (· ≤ ·)
  vert : ∀ v < model.tree.numVertices, ∀ m, 0 ≤ model.vertSS v m
  edge : ∀ c ∈ model.tree.treeGrid, ∀ a b, 0 ≤ model.edgeSS c.1 a b
  feat : ∀ v < model.tree.numVertices, ∀ r ∈ columns model v, ∀ m, 0 ≤ model.featSS r m
  logits : model.edgeLogits.length = model.tree.numVertices * (model.tree.numVertices - 1) / 2

/-- The counts of the edges add up to those of the vertices. -/
def Model.Consistent (model : Model K M) : Prop :=
  ∀ c ∈ model.tree.treeGrid, (∀ a, ∑ b, model.edgeSS c.1 a b = model.vertSS c.2.1 a) ∧
    ∀ b, ∑ a, model.edgeSS c.1 a b = model.vertSS c.2.2 b

end TreeCat.Spec
