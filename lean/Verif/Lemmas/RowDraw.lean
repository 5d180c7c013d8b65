import Verif.Lemmas.RowCell

/-!
# Sampling a latent row: the law of the draws
-/

set_option linter.unusedSectionVars false

namespace TreeCat

open Spec

section
variable {K : Type} [Field K] [LinearOrder K] [IsStrictOrderedRing K] {M : Nat} [NeZero M]
variable {r : Nat} {par : Nat → Nat} {ch : Nat → List Nat} {L : List Nat} {eid : Nat → Nat}
variable {t : Table} {row : Nat} {vert : Nat → Fin M → K} {edge : Nat → Fin M → Fin M → K}

theorem foldlM_inStep {m : Type → Type} [Monad m] [LawfulMonad m] [Choose K m] (hm : ∀ v, t.featureTypes.getD v 0 = tyMultinomial) (prog : List Instr)
    (hp : ∀ i ∈ prog, i.op = .UP ∨ i.op = .IN) (s : RowState K M) :
    (prog.foldlM (rowStep t row vert edge) s : ExceptT PyErr m _) = pure (prog.foldl (inStep t row vert edge) s) := by
  induction prog generalizing s with
  | nil => rfl
  | cons i prog ih =>
    rw [List.foldlM_cons, List.foldl_cons]
    have : (rowStep t row vert edge s i : ExceptT PyErr m _) = pure (inStep t row vert edge s i) := by
      rcases hp i (by simp) with h | h
      · obtain ⟨s', e0, -⟩ := addCell_eq (K := K) (M := M) t row i.v (hm i.v) s
        simp only [rowStep, inStep, h, e0]
        rfl
      · simp only [rowStep, inStep, h]
    rw [this, pure_bind, ih (fun i hi => hp i (by simp [hi]))]

theorem inBlocks_ops (L : List Nat) : ∀ i ∈ L.flatMap (inBlock ch eid), i.op = .UP ∨ i.op = .IN := by
  intro i hi
  obtain ⟨v, -, hv⟩ := List.mem_flatMap.1 hi
  rcases List.mem_cons.1 hv with h | h
  · left; rw [h]
  · obtain ⟨c, -, rfl⟩ := List.mem_map.1 h
    right; rfl

/-- The weights of the draw for vertex `v`. -/
def drawWeight (r : Nat) (par eid : Nat → Nat) (vert : Nat → Fin M → K) (edge : Nat → Fin M → Fin M → K)
    (b : Nat → Fin M → K) (v : Nat) (z : Nat → Fin M) (m : Fin M) : K :=
  if v = r then b v m else b v m * transAt edge (eid v) (par v) v (z (par v)) m / vert v m

theorem outward_run (b : Nat → Fin M → K) (k : Except PyErr (Nat → Fin M) → K) : ∀ (B : List Nat) (s : RowState K M),
    B.Nodup → r ∉ B → (∀ v ∈ B, s.messages v = b v) →
    (((B.flatMap (outBlock r par eid)).foldlM (rowStep t row vert edge) s >>= fun st => pure st.assign :
      ExceptT PyErr (Expect K) _)).run k = chain (drawWeight r par eid vert edge b) B s.assign fun z => k (.ok z) := by
  intro B
  induction B with
  | nil => intro s _ _ _; rfl
  | cons v B ih =>
    intro s hn hr hs
    rw [List.nodup_cons] at hn
    have hvr : v ≠ r := fun h => hr (by simp [h])
    rw [List.flatMap_cons]
    simp only [outBlock, if_neg hvr, List.cons_append, List.nil_append, List.foldlM_cons, bind_assoc]
    have hdraw : ∀ m, drawWeight r par eid vert edge b v s.assign m = rowOut vert edge v (par v) (eid v) s m := by
      intro m
      simp only [drawWeight, if_neg hvr, rowOut, hs v (by simp)]
    rw [chain]
    simp only [hdraw]
    change (∑ m, rowOut vert edge v (par v) (eid v) s m * _) / _ = _
    congr 1
    refine Finset.sum_congr rfl fun m _ => ?_
    congr 1
    exact ih _ hn.2 (fun h => hr (by simp [h])) (fun w hw => by
      simp only
      rw [Function.update_of_ne (by rintro rfl; exact hn.1 hw)]
      exact hs w (by simp [hw]))

theorem program_run (T : Topo t.numCols r par ch L) (hm : ∀ v, t.featureTypes.getD v 0 = tyMultinomial)
    (s : RowState K M) (k : Except PyErr (Nat → Fin M) → K) :
    (((progOf r par ch eid L).foldlM (rowStep t row vert edge) s >>= fun st => pure st.assign :
      ExceptT PyErr (Expect K) _)).run k
      = chain (drawWeight r par eid vert edge ((L.reverse.flatMap (inBlock ch eid)).foldl (inStep t row vert edge) s).messages)
          L s.assign fun z => k (.ok z) := by
  obtain ⟨B, rfl⟩ := T.head
  have hn := T.nodup
  rw [List.nodup_cons] at hn
  have hassign : ∀ (prog : List Instr) (s : RowState K M), (prog.foldl (inStep t row vert edge) s).assign = s.assign := by
    intro prog
    induction prog with
    | nil => intro s; rfl
    | cons i prog ih =>
      intro s
      rw [List.foldl_cons, ih]
      unfold inStep
      split
      · obtain ⟨s', e0, e1, -⟩ := addCell_eq (K := K) (M := M) t row i.v (hm i.v) s
        simp only [e0, e1]
      · rfl
      · rfl
  unfold progOf
  rw [List.foldlM_append, List.foldlM_append,
    foldlM_inStep hm _ (inBlocks_ops _), pure_bind]
  generalize hs1 : ((r :: B).reverse.flatMap (inBlock ch eid)).foldl (inStep t row vert edge) s = s1
  have h1 : s1.assign = s.assign := by rw [← hs1, hassign]
  rw [← h1, List.flatMap_cons]
  simp only [outBlock, if_true, List.cons_append, List.nil_append, List.foldlM_cons, List.foldlM_nil, bind_assoc]
  rw [chain]
  have hdraw : ∀ m, drawWeight r par eid vert edge s1.messages r s1.assign m = s1.messages r m := by
    intro m; simp only [drawWeight, if_true]
  simp only [hdraw]
  change (∑ m, s1.messages r m * _) / _ = _
  congr 1
  refine Finset.sum_congr rfl fun m _ => ?_
  congr 1
  exact outward_run s1.messages k B _ hn.2 hn.1 (fun w hw => rfl)

/-- The draws have the conditional probabilities of the messages. -/
theorem drawWeight_cond (T : Topo t.numCols r par ch L) {b : Nat → Fin M → K}
    (hvert : ∀ v < t.numCols, ∀ m, 0 < vert v m) {v : Nat} (hv : v < t.numCols) (z : Nat → Fin M) (m : Fin M) :
    drawWeight r par eid vert edge b v z m / ∑ m', drawWeight r par eid vert edge b v z m'
      = condProb r par (rowPsi r par eid vert edge) b v (Function.update z v m) := by
  unfold drawWeight condProb
  by_cases h : v = r
  · subst h
    simp only [if_true, Function.update_self]
  · obtain ⟨A, B, hL⟩ := List.append_of_mem (T.mem.2 hv)
    have hpA := T.before A v B hL h
    have hp : par v < t.numCols := T.mem.1 (by rw [hL]; exact List.mem_append_left _ hpA)
    have hne : par v ≠ v := by
      intro he
      have := T.nodup
      rw [hL, List.nodup_append] at this
      exact this.2.2 _ hpA v (by simp) he
    simp only [if_neg h, Function.update_self, Function.update_of_ne hne, mu, rowPsi]
    have hc := (hvert _ hp (z (par v))).ne'
    have e : ∀ m', transAt edge (eid v) (par v) v (z (par v)) m' / (vert (par v) (z (par v)) * vert v m') * b v m'
        = (b v m' * transAt edge (eid v) (par v) v (z (par v)) m' / vert v m') * (vert (par v) (z (par v)))⁻¹ := by
      intro m'
      have := (hvert _ hv m').ne'
      field_simp
    simp only [e]
    rw [← Finset.sum_mul, mul_div_mul_right _ _ (inv_ne_zero hc)]

/-- **Law of `sampleRow`** in terms of the potentials. -/
theorem sampleRow_law {s : Trainer K M} (ht : Table.Ordered t) (hm : ∀ v, t.featureTypes.getD v 0 = tyMultinomial)
    (T : Topo t.numCols r par ch L) (hprog : s.program = progOf r par ch eid L)
    (hvert : ∀ v < t.numCols, ∀ m, 0 ≤ s.vertSS v m)
    (hedge : ∀ v < t.numCols, v ≠ r → ∀ m m', 0 < s.edgeProbs (eid v) m m')
    (hfeat : ∀ v < t.numCols, ∀ c, t.beg v ≤ c → c < t.stop v → ∀ m, 0 ≤ s.featSS c m)
    (hmeas : ∀ v < t.numCols, ∀ m, 0 ≤ s.measSS v m) (hwidth : ∀ v < t.numCols, t.beg v < t.stop v)
    (k : Except PyErr (Nat → Fin M) → K) :
    ∀ vert, vert = (fun v m => (s.vertSS v m : K) + vertPrior) →
    ∀ w, w = treeWeight r par L (fun v m => vert v m * cellFactor t row (fun c a => (s.featSS c a : K) + featPrior M)
        (fun v a => (s.measSS v a : K) + measPrior M t v) v m) (rowPsi r par eid vert s.edgeProbs) →
    (sampleRow t row s : ExceptT PyErr (Expect K) _).run k =
      (∑ z : Fin t.numCols → Fin M, w (overlay (s.assign row) z) * k (.ok (overlay (s.assign row) z))) /
        ∑ z : Fin t.numCols → Fin M, w (overlay (s.assign row) z) := by
  rintro vert hvert' w rfl
  have hM : (0 : K) < M := by exact_mod_cast Nat.pos_of_ne_zero (NeZero.ne M)
  have hvp : ∀ v < t.numCols, ∀ m, 0 < vert v m := by
    intro v hv m
    rw [hvert']
    exact add_pos_of_nonneg_of_pos (by exact_mod_cast hvert v hv m) (by unfold vertPrior; norm_num)
  have hfp : (0 : K) < featPrior M := by unfold featPrior; positivity
  have I := row_inward (K := K) ht hm row (eid := eid) (edge := s.edgeProbs) T hvp hedge
    (feat := fun c a => (s.featSS c a : K) + featPrior M) (meas := fun v a => (s.measSS v a : K) + measPrior M t v)
    (fun v hv c h1 h2 m => add_pos_of_nonneg_of_pos (by exact_mod_cast hfeat v hv c h1 h2 m) hfp)
    (fun v hv m => add_pos_of_nonneg_of_pos (by exact_mod_cast hmeas v hv m) (by
      unfold measPrior
      have := hwidth v hv
      have : (0 : K) < ((t.stop v - t.beg v : Nat) : K) := by exact_mod_cast Nat.sub_pos_of_lt this
      positivity))
  obtain ⟨S, sf, h0, h1, h2, h3, -⟩ := I.spec T
    { messages := vert
      featProbs := fun r a => (s.featSS r a : K) + featPrior M
      measProbs := fun v a => (s.measSS v a : K) + measPrior M t v
      assign := s.assign row } hvp (fun v hv => ⟨fun _ _ _ => rfl, rfl⟩) 1 trivial
  unfold sampleRow
  rw [hprog, ← hvert']
  rw [program_run T hm, ← h0]
  have hμ : ∀ v < t.numCols, ∀ m, mu (rowPsi r par eid vert s.edgeProbs) sf.messages v m ≠ 0 :=
    fun v hv m => (mu_pos (I.ψ_pos v hv) (h3 v hv) m).ne'
  have hr : ∑ m, sf.messages r m ≠ 0 :=
    (Finset.sum_pos (fun m _ => h3 r T.root_lt m) ⟨0, Finset.mem_univ _⟩).ne'
  exact chain_law T h2 hμ hr (fun v hv => (h1 v hv).ne') (fun v hv z m => drawWeight_cond T hvp hv z m) _ _

/-- Whatever `z` is, it may be drawn. -/
theorem outward_poss (z : Nat → Fin M) : ∀ (B : List Nat) (s : RowState K M), B.Nodup → r ∉ B →
    ∃ st, ((B.flatMap (outBlock r par eid)).foldlM (rowStep t row vert edge) s : ExceptT PyErr Poss _).run (.ok st) ∧
      (∀ v ∈ B, st.assign v = z v) ∧ ∀ v, v ∉ B → st.assign v = s.assign v := by
  intro B
  induction B with
  | nil => intro s _ _; exact ⟨s, rfl, by simp, fun _ _ => rfl⟩
  | cons v B ih =>
    intro s hn hr
    rw [List.nodup_cons] at hn
    have hvr : v ≠ r := fun h => hr (by simp [h])
    obtain ⟨st, h1, h2, h3⟩ := ih { s with messages := Function.update s.messages v (rowOut vert edge v (par v) (eid v) s), assign := Function.update s.assign v (z v) }
      hn.2 (fun h => hr (by simp [h]))
    refine ⟨st, ?_, ?_, ?_⟩
    · rw [List.flatMap_cons]
      simp only [outBlock, if_neg hvr, List.cons_append, List.nil_append, List.foldlM_cons]
      exact ⟨.ok _, ⟨.ok (z v), ⟨z v, trivial, rfl⟩, rfl⟩, ⟨.ok _, rfl, h1⟩⟩
    · intro w hw
      by_cases hwv : w = v
      · subst hwv
        rw [h3 w hn.1]; exact Function.update_self _ _ _
      · rcases List.mem_cons.1 hw with h | h
        · exact absurd h hwv
        · exact h2 w h
    · intro w hw
      simp only [List.mem_cons, not_or] at hw
      rw [h3 w hw.2]; exact Function.update_of_ne hw.1 _ _

theorem inSteps_assign (vert : Nat → Fin M → K) (edge : Nat → Fin M → Fin M → K) (prog : List Instr) (x : RowState K M) :
    (prog.foldl (inStep t row vert edge) x).assign = x.assign := by
  refine List.foldlRecOn _ _ (motive := fun s : RowState K M => s.assign = x.assign) rfl fun s hs i _ => ?_
  obtain ⟨op, v, v2, e⟩ := i
  cases op
  case UP =>
    simp only [inStep]
    cases h : addCell t row v s with
    | error e => exact hs
    | ok s' =>
      unfold addCell at h
      split at h
      · obtain rfl := Except.ok.inj h
        refine List.foldlRecOn _ _ (motive := fun s : RowState K M => s.assign = x.assign) hs fun s hs c _ => ?_
        exact List.foldlRecOn _ _ (motive := fun s : RowState K M => s.assign = x.assign) hs fun s hs _ _ => hs
      · exact absurd h (by simp)
  all_goals exact hs

/-- Every vector of classes may be drawn. Beyond the last vertex the old one stays. -/
theorem sampleRow_poss_all {s : Trainer K M} (hm : ∀ v, t.featureTypes.getD v 0 = tyMultinomial)
    (T : Topo t.numCols r par ch L) (hprog : s.program = progOf r par ch eid L) (z : Nat → Fin M) (hz : ∀ v, ¬ v < t.numCols → z v = s.assign row v) :
    (sampleRow t row s : ExceptT PyErr Poss _).run (.ok z) := by
  obtain ⟨B, hB⟩ := T.head
  have hn := T.nodup
  rw [hB, List.nodup_cons] at hn
  unfold sampleRow
  rw [hprog]
  unfold progOf
  simp only [List.foldlM_append, foldlM_inStep hm _ (inBlocks_ops _), pure_bind, bind_assoc]
  have hs1 := inSteps_assign (t := t) (row := row) (fun v a => (s.vertSS v a : K) + vertPrior) s.edgeProbs (L.reverse.flatMap (inBlock ch eid))
    { messages := fun v a => (s.vertSS v a : K) + vertPrior
      featProbs := fun r a => (s.featSS r a : K) + featPrior M
      measProbs := fun v a => (s.measSS v a : K) + measPrior M t v
      assign := s.assign row }
  generalize (L.reverse.flatMap (inBlock ch eid)).foldl (inStep t row (fun v a => (s.vertSS v a : K) + vertPrior) s.edgeProbs) _ = s1 at hs1 ⊢
  obtain ⟨st, h1, h2, h3⟩ := outward_poss (t := t) (row := row) (par := par) (eid := eid)
    (vert := fun v a => (s.vertSS v a : K) + vertPrior) (edge := s.edgeProbs) z B
    { s1 with assign := Function.update s1.assign r (z r) } hn.2 hn.1
  have hst : st.assign = z := by
    funext v
    by_cases hv : v ∈ B
    · exact h2 v hv
    · rw [h3 v hv]
      by_cases hvr : v = r
      · subst hvr; exact Function.update_self _ _ _
      · refine (Function.update_of_ne hvr _ _).trans ?_
        rw [hs1, hz v fun h => ?_]
        have := T.mem.2 h
        rw [hB] at this
        rcases List.mem_cons.1 this with h | h
        · exact hvr h
        · exact hv h
  rw [hB, List.flatMap_cons, ← hst]
  simp only [outBlock, if_true, List.cons_append, List.nil_append, List.foldlM_cons, List.foldlM_nil]
  exact ⟨.ok _, ⟨.ok _, ⟨.ok (z r), ⟨z r, trivial, rfl⟩, rfl⟩, rfl⟩, ⟨.ok _, ⟨.ok _, rfl, h1⟩, rfl⟩⟩

theorem sampleRow_poss {s : Trainer K M} (hm : ∀ v, t.featureTypes.getD v 0 = tyMultinomial)
    (T : Topo t.numCols r par ch L) (hprog : s.program = progOf r par ch eid L) (z : Nat → Fin M) :
    ∃ z', (sampleRow t row s : ExceptT PyErr Poss _).run (.ok z') ∧ ∀ v < t.numCols, z' v = z v :=
  ⟨_, sampleRow_poss_all hm T hprog (fun v => if v < t.numCols then z v else s.assign row v) fun _ h => if_neg h, fun _ h => if_pos h⟩

end

end TreeCat
