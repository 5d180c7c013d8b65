import Verif.Spec.Serving

/-!
# Specification: evidence on part of the tree
-/

namespace TreeCat.Spec

/-- Every way from `r` to `v` leads through `u`. -/
def Above (edges : List (Nat × Nat)) (r u v : Nat) : Prop :=
  r = u ∨ ¬ Relation.ReflTransGen (fun x y => Adj edges x y ∧ y ≠ u) r v

variable {K : Type} {M : Nat} [Field K]

open Classical in
/-- The part of the row that belongs to the features `keep`. -/
noncomputable def evidenceOn (model : Model K M) (keep : Nat → Prop) (data : Nat → Int) (c : Nat) : Int :=
  if ∃ v < model.tree.numVertices, c ∈ columns model v ∧ keep v then data c else 0

/-- Distribution of an observation of the feature with column `c`, given a row. -/
def predictive [NeZero M] (model : Model K M) (data : Nat → Int) (c : Nat) : K :=
  dataProb model (fun c' => data c' + if c' = c then 1 else 0) / dataProb model data

end TreeCat.Spec
