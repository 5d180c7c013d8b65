import Verif.Props.EnsembleLaw
import Verif.Props.Marginals
import Verif.Props.ServeImport

/-!
# C25: asking for observations of a feature without values
-/

set_option linter.unusedSectionVars false

namespace TreeCat

open Spec Util

/-- Some outcome exists, and every outcome is the exception `e` or a value with `P`. -/
def MayRaise {α : Type} (x : ExceptT PyErr Poss α) (e : PyErr) (P : α → Prop) : Prop :=
  (∃ r, x.run r) ∧ ∀ r, x.run r → r = .error e ∨ ∃ a, r = .ok a ∧ P a

theorem MayRaise.pure {α : Type} {a : α} {e : PyErr} {P : α → Prop} (h : P a) : MayRaise (Pure.pure a) e P :=
  ⟨⟨.ok a, rfl⟩, fun r hr => .inr ⟨a, hr, h⟩⟩

theorem MayRaise.throw {α : Type} {e : PyErr} {P : α → Prop} : MayRaise (MonadExcept.throw e : ExceptT PyErr Poss α) e P :=
  ⟨⟨.error e, rfl⟩, fun _ hr => .inl hr⟩

theorem MayRaise.mono {α : Type} {x : ExceptT PyErr Poss α} {e : PyErr} {P Q : α → Prop} (h : MayRaise x e P) (hpq : ∀ a, P a → Q a) : MayRaise x e Q :=
  ⟨h.1, fun r hr => (h.2 r hr).imp_right fun ⟨a, ea, ha⟩ => ⟨a, ea, hpq a ha⟩⟩

theorem MayRaise.bind {α β : Type} {x : ExceptT PyErr Poss α} {f : α → ExceptT PyErr Poss β} {e : PyErr} {P : α → Prop} {Q : β → Prop}
    (h : MayRaise x e P) (hf : ∀ a, P a → MayRaise (f a) e Q) : MayRaise (x >>= f) e Q := by
  refine ⟨?_, fun r hr => ?_⟩
  · obtain ⟨r, hr⟩ := h.1
    rcases h.2 r hr with rfl | ⟨a, rfl, ha⟩
    · exact ⟨.error e, (poss_run_bind _ _ _).2 (.inr ⟨e, hr, rfl⟩)⟩
    · obtain ⟨b, hb⟩ := (hf a ha).1
      exact ⟨b, (poss_run_bind _ _ _).2 (.inl ⟨a, hr, hb⟩)⟩
  · rcases (poss_run_bind _ _ _).1 hr with ⟨a, ha, hb⟩ | ⟨e', he, rfl⟩
    · rcases h.2 _ ha with h1 | ⟨a', h1, h2⟩
      · cases h1
      · cases h1
        exact (hf a h2).2 r hb
    · rcases h.2 _ he with h1 | ⟨a', h1, -⟩
      · cases h1; exact .inl rfl
      · cases h1

theorem MayRaise.of_sure {α : Type} {x : ExceptT PyErr Poss α} {e : PyErr} {P : α → Prop} (h : Sure x P) : MayRaise x e P :=
  ⟨h.1, fun r hr => .inr (h.2 r hr)⟩

section
variable {K : Type} [Field K] [LinearOrder K] [IsStrictOrderedRing K] {M : Nat} [NeZero M]
variable {model : Model K M} {srv : Server K M}

theorem drawFeatures_may (srv : Server K M) (N v : Nat) (vs : Nat → Fin M) : ∀ (j : Nat) (f : Nat → Nat → Int),
    MayRaise (drawFeatures srv N v vs j f) .indexError fun _ => j = 0 ∨ srv.beg v < srv.stop v
  | 0, _ => MayRaise.pure (.inl rfl)
  | j + 1, f => by
    rw [drawFeatures, drawFeature]
    by_cases hw : srv.stop v - srv.beg v = 0
    · rw [if_pos hw]
      exact MayRaise.bind (P := fun _ => False) .throw fun _ h => h.elim
    · rw [if_neg hw]
      exact MayRaise.bind (P := fun _ => True) (MayRaise.bind (MayRaise.of_sure (Sure.choose2 (Nat.pos_of_ne_zero hw) N _)) fun _ _ => MayRaise.pure trivial)
        fun f' _ => (drawFeatures_may srv N v vs j f').mono fun _ _ => .inr (by omega)

theorem sampleStep_may (srv : Server K M) (N : Nat) (counts data : List Int) (i : Instr) (st : SampleState K M) :
    MayRaise (sampleStep srv N counts data st i) .indexError fun _ => i.op = .DOWN → counts.getD i.v 0 ≤ 0 ∨ srv.beg i.v < srv.stop i.v := by
  unfold sampleStep
  split
  · rename_i h; exact MayRaise.pure (by rw [h]; exact fun h => nomatch h)
  · rename_i h; exact MayRaise.pure (by rw [h]; exact fun h => nomatch h)
  · rename_i h; exact MayRaise.pure (by rw [h]; exact fun h => nomatch h)
  · rename_i h; exact MayRaise.pure (by rw [h]; exact fun h => nomatch h)
  · refine MayRaise.bind (MayRaise.of_sure (Sure.choose2 (Nat.pos_of_ne_zero (NeZero.ne M)) N _)) fun ds _ => ?_
    exact MayRaise.bind (drawFeatures_may srv N i.v _ _ _) fun f hf => MayRaise.pure fun _ => hf.imp_left (by omega)

theorem sampleLoop_may (srv : Server K M) (N : Nat) (counts data : List Int) : ∀ (prog : List Instr) (st : SampleState K M),
    MayRaise (prog.foldlM (sampleStep srv N counts data) st) .indexError fun _ =>
      ∀ i ∈ prog, i.op = .DOWN → counts.getD i.v 0 ≤ 0 ∨ srv.beg i.v < srv.stop i.v
  | [], _ => MayRaise.pure (by simp)
  | i :: prog, st => by
    rw [List.foldlM_cons]
    exact (sampleStep_may srv N counts data i st).bind fun st' h1 => (sampleLoop_may srv N counts data prog st').mono fun _ h2 j hj => by
      rcases List.mem_cons.1 hj with rfl | hj
      · exact h1
      · exact h2 j hj

/-- **C25.** The condition on empty features is needed: if an observation of a feature without values is asked for, `sample` raises `IndexError`
whatever is drawn. -/
theorem server_sample_empty (h : Model.Valid model) (s : Serves model srv) (N : Nat) (counts : List Int)
    (data : Option (List Int)) (hd : ∀ d ∈ data, d.length = model.raggedIndex.getLastD 0)
    (hl : counts.length = model.tree.numVertices) {v : Nat} (hv : v < model.tree.numVertices) (hc : 0 < counts.getD v 0) (he : columns model v = ∅) :
    (srv.sample N counts data : ExceptT PyErr Poss _).run = fun o => o = .error .indexError := by
  have hR : srv.raggedSize = model.raggedIndex.getLastD 0 := by rw [Server.raggedSize, s.ragged]
  obtain ⟨r, hr, hp⟩ := exists_plan_none h s.program
  obtain ⟨par, ch, eid, L, P, hp'⟩ := exists_plan h hr
  rw [hp] at hp'
  have hprog := Except.ok.inj hp'
  have hdown : (⟨.DOWN, v, 0, 0⟩ : Instr) ∈ srv.program := by
    rw [hprog, progOf]
    refine List.mem_append_right _ (List.mem_flatMap.2 ⟨v, P.topo.mem.2 hv, ?_⟩)
    unfold outBlock
    split <;> simp
  have key : MayRaise (srv.sample N counts data : ExceptT PyErr Poss _) .indexError fun _ => False := by
    unfold Server.sample
    refine MayRaise.bind (P := fun _ => True) (MayRaise.of_sure (Sure.liftPy (a := ()) ?_ trivial)) fun _ _ => ?_
    · cases data with
      | none => simp [pyAssert]
      | some d => simp [pyAssert, hd d rfl, hR]
    refine MayRaise.bind (P := fun _ => True) (MayRaise.of_sure (Sure.liftPy (a := ()) ?_ trivial)) fun _ _ => ?_
    · simp [pyAssert, hl, s.tree]
    refine MayRaise.bind (sampleLoop_may srv N counts _ srv.program _) fun st hst => absurd (hst _ hdown rfl) ?_
    have : ¬ srv.beg v < srv.stop v := by
      intro hlt
      have : srv.beg v ∈ columns model v := mem_columns.2 (by
        simp only [Server.beg, Server.stop, s.ragged] at hlt ⊢
        omega)
      rw [he] at this
      simp at this
    simp only
    omega
  obtain ⟨⟨r0, hr0⟩, hall⟩ := key
  have e0 := hall r0 hr0
  funext o
  refine propext ⟨fun ho => (hall o ho).resolve_right (by simp), fun ho => ?_⟩
  rw [ho, ← e0.resolve_right (by simp)]
  exact hr0

end

/-- The second feature of the path has no values: it can be trained and served, but not sampled. -/
example : ∃ srv : Server ℚ 2, Serves { pathModel ℚ with raggedIndex := [0, 2, 2, 4] } srv ∧
    (srv.sample 2 [0, 1, 0] none : ExceptT PyErr Poss _).run = (fun o => o = .error .indexError) ∧
    ∃ rows, (srv.sample 2 [1, 0, 1] none : ExceptT PyErr Poss _).run (.ok rows) := by
  have h := pathModel_valid ℚ
  have hv : Model.Valid { pathModel ℚ with raggedIndex := [0, 2, 2, 4] } :=
    ⟨h.isTree, h.sorted, rfl, (by decide : [0, 2, 2, 4].Pairwise (· ≤ ·)), h.vert, h.edge, fun _ _ r _ m => by simp only [pathModel]; split <;> decide, h.logits⟩
  obtain ⟨mst, hmst⟩ := exists_mst (K := ℚ)
  obtain ⟨srv, -, s, -⟩ := server_init hmst hv
  refine ⟨srv, s, server_sample_empty hv s 2 [0, 1, 0] none (by simp) rfl (v := 1) (by decide) (by decide) (by simp [columns]), ?_⟩
  obtain ⟨⟨o, ho⟩, hall⟩ := server_sample_counts hv s 2 [1, 0, 1] none (by simp) rfl (by decide) (by
    intro v hv hc
    have : v = 0 ∨ v = 1 ∨ v = 2 := by change v < 3 at hv; omega
    rcases this with rfl | rfl | rfl
    · exact ⟨0, by simp [columns]⟩
    · exact absurd hc (by decide)
    · exact ⟨2, by simp [columns]⟩)
  obtain ⟨rows, rfl, -⟩ := hall o ho
  exact ⟨rows, ho⟩

/-- **C26** at the centre of a path, with observations at both ends: the marginals are the conditional distribution. -/
example : ∃ srv : Server ℚ 2, Serves (pathModel ℚ) srv ∧ ∀ junk, ∑ c ∈ columns (pathModel ℚ) 1, marginalsWith srv srv.program junk [0, 1, 0, 0, 0, 1] c = 1 ∧
    marginalsWith srv srv.program junk [0, 1, 0, 0, 0, 1] 3 = predictive (pathModel ℚ) (fun c => [0, 1, 0, 0, 0, 1].getD c 0) 3 ∧
    predictive (pathModel ℚ) (fun c => [0, 1, 0, 0, 0, 1].getD c 0) 3 ≠ predictive (pathModel ℚ) (fun _ => 0) 3 := by
  obtain ⟨mst, hmst⟩ := exists_mst (K := ℚ)
  obtain ⟨srv, -, s, -⟩ := server_init hmst (pathModel_valid ℚ)
  have hp : makeProgram (pathModel ℚ).tree.treeGrid (some 1) = .ok srv.program := by
    rw [← s.program, pathModel_grid]
    decide +kernel
  have hc : 3 ∈ columns (pathModel ℚ) 1 := by simp [columns, pathModel]
  exact ⟨srv, s, fun junk => ⟨(marginals_sum (pathModel_valid ℚ) s (by decide) hp _ _ (by decide) ⟨3, hc⟩).2,
    marginals_exact_root (pathModel_valid ℚ) (pathModel_consistent ℚ) s (by decide) hp _ _ hc, by decide +kernel⟩⟩

/-- **C45** for two models: the probability that both of two samples have the first rating is the square of the mean over the models. -/
example : ∃ ens : Ensemble ℚ 2, (ens.sample 2 [0, 0, 1] none : ExceptT PyErr (Expect ℚ) _).run
    (onOk fun rows => ∏ n ∈ Finset.range 2, if (rows.getD n []).getD 6 0 = 1 then 1 else 0) =
      ∏ _n ∈ Finset.range 2, meanOf (tinyModels ℚ) fun model => sampleMean model (fun _ => 0) [0, 0, 1] fun _ x => if x 6 = 1 then 1 else 0 := by
  obtain ⟨mst, hmst⟩ := exists_mst (K := ℚ)
  have E := tinyModels_members ℚ
  have e : tinySchema.raggedIndex = [0, 3, 6, 8] := by decide +kernel
  rw [e] at E
  obtain ⟨ens, -, hs, -⟩ := ensemble_init hmst E
  refine ⟨ens, ?_⟩
  rw [ensemble_sample_exact E (hs.imp fun _ _ h => h.1) 2 [0, 0, 1] none (by simp) rfl (by decide) (by decide) fun _ row => if row.getD 6 0 = 1 then 1 else 0]
  refine Finset.prod_congr rfl fun n _ => ?_
  simp

end TreeCat
