import Verif.Props.Unfinished
import Verif.Lemmas.FloatTrain

/-!
# C66: the statistics of the Gaussian trainer

What `set_edges` computes, and what an update has written when it raises.
-/

namespace TreeCat

open Spec

section
variable {K : Type} [Field K] [LinearOrder K] {D : Nat} {m : Type → Type} [Monad m] [LawfulMonad m]

/-- The sum of outer products, over the rows in increasing order. -/
def gaussPairs (s : GaussTrainer K D) (c : Nat × Nat × Nat) (i j : Fin D) : K :=
  ((s.added.sort (· ≤ ·)).map fun r => s.latent r c.2.1 i * s.latent r c.2.2 j).sum

omit [LinearOrder K] in
theorem foldl_gaussEdgeSS (l : Grid) (s : GaussTrainer K D) :
    l.foldl (fun s c => { s with edgeSS := Function.update s.edgeSS c.1 (gaussPairs s c) }) s
      = { s with edgeSS := l.foldl (fun f c => Function.update f c.1 (gaussPairs s c)) s.edgeSS } := by
  induction l generalizing s with
  | nil => rfl
  | cons c l ih => rw [List.foldl_cons, ih, List.foldl_cons]; rfl

/-- `set_edges` with the edges of a tree: the tree is stored in canonical order, the program is the one of
the new tree, and edge number `e` from `v1` to `v2` gets the sum over the rows of the subsample of the
outer products of the latent vectors of `v1` and `v2`. The rest of the state is as before. -/
theorem gaussSetEdges_spec (s : GaussTrainer K D) (edges : List Edge) (he : IsTree s.tree.numVertices edges) :
    ∃ s', (gaussSetEdges edges : GaussM K D m Unit).run.run s = pure (.ok (), s') ∧
      s'.tree = { s.tree with treeGrid := makeTree edges } ∧
      makeProgram (makeTree edges) none = .ok s'.program ∧
      (∀ e v1 v2, (e, v1, v2) ∈ makeTree edges → ∀ i j,
        s'.edgeSS e i j = ∑ r ∈ s.added, s.latent r v1 i * s.latent r v2 j) ∧
      (∀ e, edges.length ≤ e → s'.edgeSS e = s.edgeSS e) ∧
      s'.added = s.added ∧ s'.data = s.data ∧ s'.latent = s.latent ∧ s'.vertSS = s.vertSS ∧ s'.featSS = s.featSS := by
  obtain ⟨root, prog, hp, -⟩ := makeProgram_default _ _ he
  have hset : s.tree.setEdges edges = .ok { s.tree with treeGrid := makeTree edges } := by
    unfold TreeStructure.setEdges pyAssert
    have := he.card
    rw [if_pos (by simp only [beq_iff_eq]; omega)]
    rfl
  have hrun : Runs (gaussSetEdges edges : GaussM K D m Unit) s () _ :=
    Runs.bind Runs.get (Runs.bind (Runs.liftPy hset) (Runs.bind Runs.modify (Runs.bind (Runs.liftPy hp) (Runs.bind Runs.modify
      (Runs.forM _ (fun (s : GaussTrainer K D) c => { s with edgeSS := Function.update s.edgeSS c.1 (gaussPairs s c) }) _ (fun c _ s' => Runs.modify) _)))))
  refine ⟨_, hrun, ?_⟩
  rw [foldl_gaussEdgeSS]
  refine ⟨rfl, hp, fun e v1 v2 hc i j => ?_, fun e hlt => ?_, rfl, rfl, rfl, rfl, rfl⟩
  · have h2 := foldl_update_on (fun c : Nat × Nat × Nat => c.1) (fun c (_ : Fin D → Fin D → K) => gaussPairs s c) (makeTree edges)
      (makeTree_nodup edges) _ hc s.edgeSS
    refine (congrFun (congrFun h2 i) j).trans ?_
    show ((s.added.sort (· ≤ ·)).map fun r => s.latent r v1 i * s.latent r v2 j).sum = _
    rw [← List.sum_toFinset _ (Finset.sort_nodup _ _), Finset.sort_toFinset]
  · refine foldl_update_off (fun c : Nat × Nat × Nat => c.1) (fun c (_ : Fin D → Fin D → K) => gaussPairs s c) (makeTree edges) e ?_ s.edgeSS
    intro h
    obtain ⟨c, hc, rfl⟩ := List.mem_map.1 h
    have := makeTree_ids edges c hc
    rw [makeTree_length] at this
    omega

/-- What the update for one observed cell has written when it raises: the whole block is counted, and in
dimension at least two the value is added to the second row. -/
theorem gaussCell_state (sign : K) (v : Nat) (z : Fin D → K) (x : K) (s : GaussTrainer K D) :
    (gaussCell sign v z x : GaussM K D m Unit).run.run s =
      pure (.error (if D ≤ 1 then .indexError else .valueError),
        { s with featSS := Function.update s.featSS v fun i j => s.featSS v i j + sign + if i.val = 1 then sign * x else 0 }) := by
  unfold gaussCell
  rw [run_modify_bind]
  by_cases h : 1 < D
  · have e : (if D ≤ 1 then PyErr.indexError else .valueError) = .valueError := if_neg (by omega)
    have h2 : ¬ (D = 2 + D ∨ D = 1) := by omega
    rw [if_pos h, run_modify_bind, if_neg h2, e]
    refine congrArg (fun f => pure (Except.error PyErr.valueError, ({ s with featSS := f } : GaussTrainer K D))) ?_
    funext u i j
    by_cases hu : u = v
    · subst hu
      by_cases hi : i.val = 1 <;> simp [hi]
    · simp [hu]
  · have e : (if D ≤ 1 then PyErr.indexError else .valueError) = .indexError := if_pos (by omega)
    rw [if_neg h, e]
    refine (run_throw_bind _ _ _ _ _ rfl).trans ?_
    refine congrArg (fun f => pure (Except.error PyErr.indexError, ({ s with featSS := f } : GaussTrainer K D))) ?_
    funext u i j
    by_cases hu : u = v
    · subst hu
      have hi : i.val ≠ 1 := by omega
      simp [hi]
    · simp [hu]

end

/-- Two rows with latent vectors in the plane, three vertices. -/
example : ∃ s : GaussTrainer ℚ 2, s.added = {0, 3} ∧ IsTree s.tree.numVertices [(0, 2), (0, 1)] ∧
    ∑ r ∈ s.added, s.latent r 0 1 * s.latent r 2 0 = 21 :=
  ⟨⟨⟨3, makeTree [(0, 1), (1, 2)]⟩, [], {0, 3}, [], fun r v i => if r = 0 then 1 else r + v + i, fun _ _ _ => 0, fun _ _ _ => 0, fun _ _ _ => 0⟩,
    rfl, isTree_of_smaller rfl (by decide) (by decide), by decide +kernel⟩

end TreeCat
