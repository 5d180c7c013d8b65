import Verif.Model.ServeInf
import Verif.Props.EnsembleSample
import Verif.Props.TrainInfFinite

/-!
# C96: servers of models with forbidden edges
-/

set_option linter.unusedSectionVars false

namespace TreeCat

open Util Spec

section
variable {K : Type} [Field K] [LinearOrder K] [IsStrictOrderedRing K]

namespace Spec

/-- A spanning tree without an edge whose logit is `-inf`. -/
structure AllowedTree (V : Nat) (logits : List (WithBot K)) (T : List Edge) : Prop where
  tree : IsTree V T
  allowed : ∀ p ∈ T, logits.getD (findCompleteEdge p.1 p.2) 0 ≠ ⊥

end Spec

theorem fce_minmax (a b : Nat) : findCompleteEdge (min a b) (max a b) = findCompleteEdge a b := by
  rcases Nat.le_total a b with hle | hle
  · rw [min_eq_left hle, max_eq_right hle]
  · rw [min_eq_right hle, max_eq_left hle, fce_comm]

theorem estimateTreeInf_list {mst : List (List K) → List Edge} (hmst : MstContract mst) (hforest : MstForest mst) {V : Nat} (hV : 1 ≤ V)
    {l : List (WithBot K)} (hl : l.length = V * (V - 1) / 2) :
    ((∃ T0, AllowedTree V l T0) → ∃ T, estimateTreeInf mst (completeGrid V) l = .ok T ∧ Canonical T ∧ AllowedTree V l T ∧
      ∀ T', IsTree V T' → (T'.map fun p => l.getD (findCompleteEdge p.1 p.2) 0).sum ≤ (T.map fun p => l.getD (findCompleteEdge p.1 p.2) 0).sum) ∧
    ((¬ ∃ T0, AllowedTree V l T0) → estimateTreeInf mst (completeGrid V) l = .error .assertion) := by
  obtain ⟨h1, h2⟩ := estimateTreeInf_max mst hmst hforest V hV _ (makeCompleteGraph_eq V) fun a b => l.getD (findCompleteEdge a b) 0
  rw [← list_eq_map 0 V l hl] at h1 h2
  simp only [fce_minmax] at h1 h2
  constructor
  · rintro ⟨T0, h3, h4⟩
    obtain ⟨T, h5, h6, h7, h8, h9⟩ := h1 ⟨T0, h3, h4⟩
    exact ⟨T, h5, h6, ⟨h7, h8⟩, h9⟩
  · intro hc
    exact h2 fun ⟨T0, h3, h4⟩ => hc ⟨T0, h3, h4⟩

/-- **C96** (one model). A server can be made if and only if some spanning tree has no forbidden edge; otherwise the constructor raises `AssertionError`. The
estimated tree then has no forbidden edge and the greatest total logit. -/
theorem serverInf_init {mst : List (List K) → List Edge} (hmst : MstContract mst) (hforest : MstForest mst) {V : Nat} (hV : 1 ≤ V)
    (l : List (WithBot K)) (hl : l.length = V * (V - 1) / 2) :
    ((∃ T0, AllowedTree V l T0) → ∃ srv, TreeServerInf.init mst V l = .ok srv ∧ srv.numVertices = V ∧ srv.edgeLogits = l ∧
      Canonical srv.estimatedTree ∧ AllowedTree V l srv.estimatedTree ∧
      ∀ T', IsTree V T' → (T'.map fun p => l.getD (findCompleteEdge p.1 p.2) 0).sum ≤
        (srv.estimatedTree.map fun p => l.getD (findCompleteEdge p.1 p.2) 0).sum) ∧
    ((¬ ∃ T0, AllowedTree V l T0) → TreeServerInf.init mst V l = .error .assertion) := by
  obtain ⟨h1, h2⟩ := estimateTreeInf_list hmst hforest hV hl
  constructor
  · intro hex
    obtain ⟨T, h3, h4, h5, h6⟩ := h1 hex
    refine ⟨⟨V, l, T⟩, ?_, rfl, rfl, h4, h5, h6⟩
    unfold TreeServerInf.init
    rw [makeCompleteGraph_eq]
    simp only [bind, Except.bind, h3]
  · intro hc
    unfold TreeServerInf.init
    rw [makeCompleteGraph_eq]
    simp only [bind, Except.bind, h2 hc]

/-! ### Samples of trees -/

theorem Sure.sampleTreeInf {expf : K → K} (hnn : ∀ x, 0 ≤ expf x) (h0 : 0 < expf 0) {V : Nat} {l : List (WithBot K)}
    (hl : l.length = V * (V - 1) / 2) {T : List Edge} (hT : AllowedTree V l T) (hC : Canonical T) (junk : Nat → Nat) (perm : List Nat)
    (hp : perm.Perm (List.range T.length)) :
    Sure (ExceptT.mk (asPoss (TreeCat.sampleTreeInf expf junk (completeGrid V) l T perm : ExceptT PyErr (Sampled K) _).run))
      fun out => AllowedTree V l out.1 ∧ Canonical out.1 := by
  obtain ⟨h1, h2⟩ := sampleTreeInf_least hnn h0 V _ (makeCompleteGraph_eq V) (fun a b => l.getD (findCompleteEdge a b) 0) T hT.tree junk perm hp
  rw [← list_eq_map 0 V l hl] at h1 h2
  refine ⟨h1, fun r hr => ?_⟩
  obtain ⟨T', n, rfl, h3, h4, h5, -⟩ := h2 r hr
  refine ⟨(T', n), rfl, ⟨h3, ?_⟩, h4 (.inr hC)⟩
  have h6 := h5 T hT.tree
  simp only [fce_minmax] at h6
  have h7 : (T.countP fun p => decide (l.getD (findCompleteEdge p.1 p.2) 0 = ⊥)) = 0 := by
    rw [List.countP_eq_zero]
    intro p hp
    simpa using hT.allowed p hp
  rw [h7, Nat.le_zero, List.countP_eq_zero] at h6
  intro p hp
  simpa using h6 p hp

/-- **C96** (samples of one model). Whatever is drawn, `sample_tree` of a server returns as many spanning trees as asked for, and none has a forbidden edge. -/
theorem serverInf_sampleTrees {expf : K → K} (hnn : ∀ x, 0 ≤ expf x) (h0 : 0 < expf 0) {V : Nat} (srv : TreeServerInf K) (hV : srv.numVertices = V)
    (hl : srv.edgeLogits.length = V * (V - 1) / 2) (hT : AllowedTree V srv.edgeLogits srv.estimatedTree) (hC : Canonical srv.estimatedTree)
    (junk : Nat → Nat) (N : Nat) :
    (∃ o, (srv.sampleTrees (n := Sampled K) asPoss expf junk N : ExceptT PyErr Poss _).run o) ∧
    ∀ o, (srv.sampleTrees (n := Sampled K) asPoss expf junk N : ExceptT PyErr Poss _).run o → ∃ ts, o = .ok ts ∧ ts.length = N ∧
      ∀ T ∈ ts, AllowedTree V srv.edgeLogits T ∧ Canonical T := by
  change Sure _ _
  subst hV
  unfold TreeServerInf.sampleTrees
  refine Sure.bind (Sure.liftPy (makeCompleteGraph_eq _) ?_)
  refine Sure.bind ?_
  have key : ∀ (ks : List Nat) (st : List Edge × List (List Edge)), AllowedTree srv.numVertices srv.edgeLogits st.1 → Canonical st.1 →
      (∀ T ∈ st.2, AllowedTree srv.numVertices srv.edgeLogits T ∧ Canonical T) →
      Sure (ks.foldlM (fun (s : List Edge × List (List Edge)) _ => do
        let perm ← ExceptT.lift (Shuffle.permutation s.1.length)
        let out ← ExceptT.mk (asPoss (sampleTreeInf expf junk (completeGrid srv.numVertices) srv.edgeLogits s.1 perm : ExceptT PyErr (Sampled K) _).run)
        Pure.pure (out.1, s.2 ++ [out.1])) st : ExceptT PyErr Poss _) fun st' =>
        st'.2.length = st.2.length + ks.length ∧ ∀ T ∈ st'.2, AllowedTree srv.numVertices srv.edgeLogits T ∧ Canonical T := by
    intro ks
    induction ks with
    | nil => intro st _ _ h3; exact Sure.pure ⟨rfl, h3⟩
    | cons i ks ih =>
      intro st h1 h2 h3
      rw [List.foldlM_cons]
      have hperm : Sure (ExceptT.lift (Shuffle.permutation st.1.length) : ExceptT PyErr Poss _) fun p => p.Perm (List.range st.1.length) := by
        refine ⟨⟨.ok _, List.range st.1.length, .refl _, rfl⟩, ?_⟩
        rintro _ ⟨p, hp, rfl⟩
        exact ⟨p, rfl, hp⟩
      refine Sure.bind (Sure.bind (hperm.mono fun p hp => Sure.bind ?_))
      refine (Sure.sampleTreeInf hnn h0 hl h1 h2 junk p hp).mono fun out hout => Sure.pure ?_
      refine (ih (out.1, st.2 ++ [out.1]) hout.1 hout.2 ?_).mono fun st' h => ⟨?_, h.2⟩
      · intro T' hT'
        rcases List.mem_append.1 hT' with h | h
        · exact h3 T' h
        · rw [List.mem_singleton.1 h]; exact hout
      · rw [h.1]; simp; omega
  refine (key (List.range N) (srv.estimatedTree, []) hT hC (by simp)).mono fun st hst => Sure.pure ⟨?_, hst.2⟩
  rw [hst.1]; simp

/-! ### Ensembles -/

/-- The edges that some member forbids, and the means of the others. -/
theorem foldl_logits (models : List (List (WithBot K))) (n : Nat) : ∀ acc : List (WithBot K), acc.length = n → (∀ l ∈ models, l.length = n) →
    (models.foldl (fun acc l => acc.zipWith (· + ·) l) acc).length = n ∧
    ∀ i, (models.foldl (fun acc l => acc.zipWith (· + ·) l) acc).getD i 0 = acc.getD i 0 + (models.map fun l => l.getD i 0).sum := by
  induction models with
  | nil => intro acc h _; exact ⟨h, fun i => by simp⟩
  | cons l models ih =>
    intro acc h hl
    have h1 : l.length = n := hl l (by simp)
    obtain ⟨h2, h3⟩ := ih (acc.zipWith (· + ·) l) (by rw [List.length_zipWith, h, h1, min_self]) fun l hm => hl l (by simp [hm])
    refine ⟨h2, fun i => ?_⟩
    rw [List.foldl_cons, h3, List.map_cons, List.sum_cons, ← add_assoc]
    congr 1
    simp only [List.getD_eq_getElem?_getD, List.getElem?_zipWith]
    by_cases hi : i < n
    · rw [List.getElem?_eq_getElem (show i < acc.length by omega), List.getElem?_eq_getElem (show i < l.length by omega)]
      simp
    · rw [List.getElem?_eq_none (show acc.length ≤ i by omega), List.getElem?_eq_none (show l.length ≤ i by omega)]
      simp

theorem withBot_list_sum_bot (xs : List (WithBot K)) : xs.sum = ⊥ ↔ ⊥ ∈ xs := by
  induction xs with
  | nil => simp
  | cons x xs ih => rw [List.sum_cons, WithBot.add_eq_bot, ih, List.mem_cons, eq_comm]

theorem withBot_list_sum_coe (xs : List (WithBot K)) (h : ⊥ ∉ xs) : xs.sum = (((xs.map fun x => x.unbotD 0).sum : K) : WithBot K) := by
  induction xs with
  | nil => rfl
  | cons x xs ih =>
    rw [List.mem_cons, not_or] at h
    obtain ⟨y, rfl⟩ := WithBot.ne_bot_iff_exists.1 (Ne.symm h.1)
    rw [List.sum_cons, ih h.2, List.map_cons, List.sum_cons, WithBot.coe_add]
    rfl

theorem mapM_init_ok {mst : List (List K) → List Edge} (hmst : MstContract mst) (hforest : MstForest mst) {V : Nat} (hV : 1 ≤ V)
    (models : List (List (WithBot K))) (hl : ∀ l ∈ models, l.length = V * (V - 1) / 2) :
    ((∀ l ∈ models, ∃ T0, AllowedTree V l T0) → ∃ servers, models.mapM (TreeServerInf.init mst V) = .ok servers ∧
      List.Forall₂ (fun l (srv : TreeServerInf K) => srv.numVertices = V ∧ srv.edgeLogits = l ∧ Canonical srv.estimatedTree ∧
        AllowedTree V l srv.estimatedTree) models servers) ∧
    ((∃ l ∈ models, ¬ ∃ T0, AllowedTree V l T0) → models.mapM (TreeServerInf.init mst V) = .error .assertion) := by
  induction models with
  | nil => exact ⟨fun _ => ⟨[], rfl, .nil⟩, by rintro ⟨l, h, -⟩; cases h⟩
  | cons l models ih =>
    obtain ⟨i1, i2⟩ := ih fun l hm => hl l (by simp [hm])
    obtain ⟨s1, s2⟩ := serverInf_init hmst hforest hV l (hl l (by simp))
    constructor
    · intro h
      obtain ⟨srv, e1, e2, e3, e4, e5, -⟩ := s1 (h l (by simp))
      obtain ⟨servers, f1, f2⟩ := i1 fun l hm => h l (by simp [hm])
      refine ⟨srv :: servers, ?_, .cons ⟨e2, e3, e4, e5⟩ f2⟩
      rw [List.mapM_cons, e1, f1]
      rfl
    · rintro ⟨l', hl', hc⟩
      rw [List.mapM_cons]
      by_cases h : ∃ T0, AllowedTree V l T0
      · obtain ⟨srv, e1, -⟩ := s1 h
        rcases List.mem_cons.1 hl' with rfl | hl'
        · exact absurd h hc
        · rw [e1, i2 ⟨l', hl', hc⟩]
          rfl
      · rw [s2 h]
        rfl

theorem map_of_forall₂ {α β : Type} {R : α → β → Prop} {f : β → α} (hf : ∀ a b, R a b → f b = a) {l : List α} {l' : List β}
    (h : List.Forall₂ R l l') : l'.map f = l := by
  induction h with
  | nil => rfl
  | cons h _ ih => rw [List.map_cons, hf _ _ h, ih]

/-- **C96** (ensembles). An `EnsembleServer` can be made if and only if some spanning tree has no edge that any of the models forbids; otherwise the
constructor raises `AssertionError`. The edge logits are then `-inf` exactly for the edges that some model forbids, and the mean of the models' logits
for the others; the estimated tree uses none of the former and has the greatest total logit. -/
theorem ensembleInf_init {mst : List (List K) → List Edge} (hmst : MstContract mst) (hforest : MstForest mst) {V : Nat} (hV : 1 ≤ V)
    (models : List (List (WithBot K))) (hne : models ≠ []) (hl : ∀ l ∈ models, l.length = V * (V - 1) / 2) :
    ((∃ T0, ∀ l ∈ models, AllowedTree V l T0) → ∃ ens, TreeEnsembleInf.init mst V models = .ok ens ∧
      List.Forall₂ (fun l (srv : TreeServerInf K) => srv.numVertices = V ∧ srv.edgeLogits = l ∧ Canonical srv.estimatedTree ∧
        AllowedTree V l srv.estimatedTree) models ens.servers ∧
      ens.edgeLogits.length = V * (V - 1) / 2 ∧
      (∀ i, ens.edgeLogits.getD i 0 = ⊥ ↔ ∃ l ∈ models, l.getD i 0 = ⊥) ∧
      (∀ i, (∀ l ∈ models, l.getD i 0 ≠ ⊥) → ∃ x : K, ens.edgeLogits.getD i 0 = x ∧
        x * models.length = (models.map fun l => (l.getD i 0).unbotD 0).sum) ∧
      Canonical ens.estimatedTree ∧ (∀ l ∈ models, AllowedTree V l ens.estimatedTree) ∧
      ∀ T', IsTree V T' → (T'.map fun p => ens.edgeLogits.getD (findCompleteEdge p.1 p.2) 0).sum ≤
        (ens.estimatedTree.map fun p => ens.edgeLogits.getD (findCompleteEdge p.1 p.2) 0).sum) ∧
    ((¬ ∃ T0, ∀ l ∈ models, AllowedTree V l T0) → TreeEnsembleInf.init mst V models = .error .assertion) := by
  obtain ⟨m1, m2⟩ := mapM_init_ok hmst hforest hV models hl
  match models, hne with
  | l0 :: ls, _ =>
  by_cases hall : ∀ l ∈ l0 :: ls, ∃ T0, AllowedTree V l T0
  · obtain ⟨servers, e1, e2⟩ := m1 hall
    match servers, e2 with
    | s0 :: rest, .cons ⟨a1, a2, a3, a4⟩ hrest =>
    have hlogits : rest.map TreeServerInf.edgeLogits = ls := map_of_forall₂ (fun _ _ h => h.2.1) hrest
    have hsum : rest.foldl (fun acc s => acc.zipWith (· + ·) s.edgeLogits) s0.edgeLogits = ls.foldl (fun acc l => acc.zipWith (· + ·) l) l0 := by
      rw [← hlogits, List.foldl_map, a2]
    obtain ⟨f1, f2⟩ := foldl_logits ls (V * (V - 1) / 2) l0 (hl l0 (by simp)) fun l hm => hl l (by simp [hm])
    set sum := ls.foldl (fun acc l => acc.zipWith (· + ·) l) l0 with hs
    have hlen : (s0 :: rest).length = (l0 :: ls).length := by
      rw [← hlogits]; simp
    have f2' : ∀ i, sum.getD i 0 = ((l0 :: ls).map fun l => l.getD i 0).sum := by
      intro i; rw [f2, List.map_cons, List.sum_cons]
    have hsize : ((l0 :: ls).length : K) ≠ 0 := by
      exact (Nat.cast_pos.2 (by simp)).ne'
    set logits := sum.map (divInf (s0 :: rest).length) with hlog
    have hget : ∀ i, logits.getD i 0 = divInf (s0 :: rest).length (sum.getD i 0) := by
      intro i
      rw [hlog, List.getD_eq_getElem?_getD, List.getD_eq_getElem?_getD, List.getElem?_map]
      by_cases hi : i < sum.length
      · rw [List.getElem?_eq_getElem hi]; rfl
      · rw [List.getElem?_eq_none (by omega)]
        show (0 : WithBot K) = ((0 / ((s0 :: rest).length : K) : K) : WithBot K)
        rw [zero_div, WithBot.coe_zero]
    have hdiv : ∀ x : WithBot K, divInf (s0 :: rest).length x = ⊥ ↔ x = ⊥ := by
      intro x
      cases x with
      | bot => exact ⟨fun _ => rfl, fun _ => rfl⟩
      | coe x => exact ⟨fun h => absurd h (WithBot.coe_ne_bot), fun h => absurd h (WithBot.coe_ne_bot)⟩
    have hbot : ∀ i, logits.getD i 0 = ⊥ ↔ ∃ l ∈ l0 :: ls, l.getD i 0 = ⊥ := by
      intro i
      rw [hget, hdiv, f2', withBot_list_sum_bot, List.mem_map]
    have hllen : logits.length = V * (V - 1) / 2 := by rw [hlog, List.length_map, f1]
    have hallow : ∀ T, AllowedTree V logits T ↔ ∀ l ∈ l0 :: ls, AllowedTree V l T := by
      intro T
      constructor
      · intro h l hm
        exact ⟨h.tree, fun p hp hc => h.allowed p hp ((hbot _).2 ⟨l, hm, hc⟩)⟩
      · intro h
        refine ⟨(h l0 (by simp)).tree, fun p hp hc => ?_⟩
        obtain ⟨l, hm, hc⟩ := (hbot _).1 hc
        exact (h l hm).allowed p hp hc
    obtain ⟨g1, g2⟩ := estimateTreeInf_list hmst hforest hV hllen
    have hinit : TreeEnsembleInf.init mst V (l0 :: ls) = (do
        let T ← estimateTreeInf mst (completeGrid V) logits
        .ok { servers := s0 :: rest, edgeLogits := logits, estimatedTree := T }) := by
      unfold TreeEnsembleInf.init
      simp only [e1, bind, Except.bind, hsum, a1, makeCompleteGraph_eq]
      rfl
    rw [hinit]
    constructor
    · rintro ⟨T0, hT0⟩
      obtain ⟨T, e3, e4, e5, e6⟩ := g1 ⟨T0, (hallow T0).2 hT0⟩
      refine ⟨{ servers := s0 :: rest, edgeLogits := logits, estimatedTree := T }, by simp only [e3, bind, Except.bind],
        .cons ⟨a1, a2, a3, a4⟩ hrest, hllen, hbot, ?_, e4, (hallow T).1 e5, e6⟩
      intro i hi
      have hnb : ⊥ ∉ (l0 :: ls).map fun l => l.getD i 0 := by
        intro hc
        obtain ⟨l, hm, hc⟩ := List.mem_map.1 hc
        exact hi l hm hc
      refine ⟨((l0 :: ls).map fun l => (l.getD i 0).unbotD 0).sum / ((l0 :: ls).length : K), ?_, div_mul_cancel₀ _ hsize⟩
      show logits.getD i 0 = _
      rw [hget, f2', withBot_list_sum_coe _ hnb, List.map_map, hlen]
      rfl
    · intro hc
      simp only [g2 fun ⟨T0, h⟩ => hc ⟨T0, (hallow T0).1 h⟩, bind, Except.bind]
  · constructor
    · rintro ⟨T0, h⟩
      exact absurd (fun l hm => ⟨T0, h l hm⟩) hall
    · intro _
      unfold TreeEnsembleInf.init
      push Not at hall
      obtain ⟨l, hm, hc⟩ := hall
      simp only [m2 ⟨l, hm, fun ⟨T, hT⟩ => hc T hT⟩, bind, Except.bind]

/-- **C96** (samples of an ensemble). Whatever is drawn, `sample_tree` of an ensemble returns as many spanning trees as asked for, and each has no edge that is
forbidden by the model from which it was drawn. So if all models forbid the same edges, no tree has a forbidden edge. -/
theorem ensembleInf_sampleTrees {expf : K → K} (hnn : ∀ x, 0 ≤ expf x) (h0 : 0 < expf 0) {V : Nat} {models : List (List (WithBot K))} (hne : models ≠ [])
    (hl : ∀ l ∈ models, l.length = V * (V - 1) / 2) {ens : TreeEnsembleInf K}
    (hs : List.Forall₂ (fun l (srv : TreeServerInf K) => srv.numVertices = V ∧ srv.edgeLogits = l ∧ Canonical srv.estimatedTree ∧
        AllowedTree V l srv.estimatedTree) models ens.servers) (junk : Nat → Nat) (N : Nat) :
    (∃ o, (ens.sampleTrees (n := Sampled K) asPoss expf junk N : ExceptT PyErr Poss _).run o) ∧
    ∀ o, (ens.sampleTrees (n := Sampled K) asPoss expf junk N : ExceptT PyErr Poss _).run o → ∃ ts, o = .ok ts ∧ ts.length = N ∧
      ∀ T ∈ ts, Canonical T ∧ ∃ l ∈ models, AllowedTree V l T := by
  change Sure _ _
  have hsize : 0 < ens.servers.length := by rw [← hs.length_eq]; exact List.length_pos_of_ne_nil hne
  unfold TreeEnsembleInf.sampleTrees
  refine Sure.bind ((Sure.splitSamples (K := K) hsize N).mono fun subs hsubs => ?_)
  have hmem : ∀ p ∈ ens.servers.zip subs, Sure (p.1.sampleTrees (n := Sampled K) asPoss expf junk p.2) fun ts => ts.length = p.2 ∧
      ∀ T ∈ ts, Canonical T ∧ ∃ l ∈ models, AllowedTree V l T := by
    intro p hp
    obtain ⟨l, hm, a1, rfl, a3, a4⟩ := forall_mem_zip hs hp
    have : Sure (p.1.sampleTrees (n := Sampled K) asPoss expf junk p.2) _ := serverInf_sampleTrees hnn h0 p.1 a1 (hl _ hm) a4 a3 junk p.2
    exact this.mono fun ts h => ⟨h.1, fun T hT => ⟨(h.2 T hT).2, _, hm, (h.2 T hT).1⟩⟩
  have hfold : ∀ (l : List (TreeServerInf K × Nat)) (acc : List (List Edge)), (∀ p ∈ l, p ∈ ens.servers.zip subs) →
      Sure (l.foldlM (fun samples p => do
        let more ← p.1.sampleTrees (n := Sampled K) asPoss expf junk p.2
        Pure.pure (samples ++ more)) acc : ExceptT PyErr Poss _) fun ts => ∃ parts, ts = acc ++ parts.flatten ∧
        List.Forall₂ (fun (p : TreeServerInf K × Nat) part => part.length = p.2 ∧
          ∀ T ∈ part, Canonical T ∧ ∃ l ∈ models, AllowedTree V l T) l parts := by
    intro l
    induction l with
    | nil => intro acc _; exact Sure.pure ⟨[], by simp, .nil⟩
    | cons p l ih =>
      intro acc hl
      rw [List.foldlM_cons]
      refine Sure.bind (Sure.bind ((hmem p (hl p (by simp))).mono fun part hpart => Sure.pure ?_))
      refine (ih (acc ++ part) fun p hp => hl p (by simp [hp])).mono ?_
      rintro ts ⟨parts, rfl, h⟩
      exact ⟨part :: parts, by simp, .cons hpart h⟩
  refine Sure.bind ((hfold _ [] fun _ h => h).mono ?_)
  rintro _ ⟨parts, rfl, hparts⟩
  rw [List.nil_append]
  refine Sure.bind ((Sure.shuffled parts.flatten).mono fun ts hts => ?_)
  have hlen : ts.length = N := by
    rw [hts.length_eq, flatten_length_of (size := Prod.snd) hparts fun p part hp => hp.1, map_snd_zip_sum _ _ hsubs.1.symm, hsubs.2]
  refine Sure.bind (Sure.liftPy (a := ()) (by simp [pyAssert, hlen]) (Sure.pure ⟨hlen, ?_⟩))
  intro T hT
  obtain ⟨part, hpart, hr⟩ := List.mem_flatten.1 (hts.mem_iff.1 hT)
  obtain ⟨l, hm, srv, -, k, -, hq⟩ := forall₂_zip hs hsubs.1.symm hparts hpart
  exact hq.2 T hr

variable {M : Nat} [NeZero M]

/-- **C96** (from training to serving). Whenever training with a tree prior that may be `-inf` returns a model, a server can be made from it, and whatever is
drawn, the estimated tree and all sampled trees have no edge that the prior forbids. -/
theorem trainInf_served (num : Num K) (hnn : ∀ x, 0 ≤ num.exp x) (h0 : 0 < num.exp 0) (mst : List (List K) → List Edge)
    (hmst : MstContract mst) (hforest : MstForest mst)
    (junk : Nat → Nat) (t : Table) (ht : Table.Ordered t) (hm : ∀ ty ∈ t.featureTypes, ty = tyMultinomial)
    (hV : 1 ≤ t.numCols) (hV' : t.numCols ≤ 32768) (hM : M ≤ 128) (treePrior : List (WithBot K))
    (hp : treePrior.length = t.numCols * (t.numCols - 1) / 2) (cfg : TrainConfig) (h1 : 1 ≤ cfg.initEpochs)
    (h2 : 1 ≤ cfg.sampleTreeRate) (fuel : Nat) (hf : (2 * cfg.initEpochs.toNat + 1) * t.numRows ≤ fuel) (s0 s : Trainer K M)
    (hs0 : Trainer.init t treePrior.length = .ok s0) (logits : List (WithBot K))
    (hr : outcomes (trainInf (n := Sampled K) asPoss num mst junk fuel t treePrior cfg) s0 (.ok logits, s)) :
    ∃ srv, TreeServerInf.init mst t.numCols logits = .ok srv ∧ AllowedTree t.numCols treePrior srv.estimatedTree ∧
      ∀ (junk' : Nat → Nat) (N : Nat), Sure (srv.sampleTrees (n := Sampled K) asPoss num.exp junk' N) fun ts => ts.length = N ∧
        ∀ T ∈ ts, AllowedTree t.numCols treePrior T := by
  obtain ⟨s0', e0, -, hall⟩ := trainInf_spec num hnn h0 mst hmst hforest junk t ht hm hV hV' hM treePrior hp cfg h1 h2 fuel hf
  obtain rfl : s0 = s0' := by rw [hs0] at e0; exact Except.ok.inj e0
  obtain ⟨-, -, -, -, hyes, hno⟩ := hall _ _ hr
  have hex : ∃ T0, IsTree t.numCols T0 ∧ ∀ p ∈ T0, treePrior.getD (findCompleteEdge p.1 p.2) 0 ≠ ⊥ := by
    by_contra hc
    cases (hno hc).1
  obtain ⟨logits', e, -, hlen, hbot, -⟩ := hyes hex
  cases e
  have hiff : ∀ T, AllowedTree t.numCols logits T ↔ AllowedTree t.numCols treePrior T := by
    intro T
    exact ⟨fun h => ⟨h.tree, fun p hp hc => h.allowed p hp ((hbot _).2 hc)⟩, fun h => ⟨h.tree, fun p hp hc => h.allowed p hp ((hbot _).1 hc)⟩⟩
  obtain ⟨T0, hT0, hT0'⟩ := hex
  obtain ⟨srv, i1, i2, i3, i4, i5, -⟩ := (serverInf_init hmst hforest hV logits (hlen.trans hp)).1 ⟨T0, (hiff T0).2 ⟨hT0, hT0'⟩⟩
  refine ⟨srv, i1, (hiff _).1 i5, fun junk' N => ?_⟩
  have : Sure (srv.sampleTrees (n := Sampled K) asPoss num.exp junk' N) _ :=
    serverInf_sampleTrees hnn h0 srv i2 (by rw [i3, hlen, hp]) (by rw [i3]; exact i5) i4 junk' N
  refine this.mono fun ts h => ⟨h.1, fun T hT => (hiff T).1 ?_⟩
  rw [← i3]
  exact (h.2 T hT).1

end

section
/-! ### Examples -/

theorem star2_allowed : AllowedTree 3 ([⊥, 0, 0] : List (WithBot ℝ)) [(0, 2), (1, 2)] := by
  refine ⟨star2_isTree, ?_⟩
  intro p hp
  rcases List.mem_cons.1 hp with rfl | hp
  · simp [findCompleteEdge]
  · rcases List.mem_cons.1 hp with rfl | hp
    · simp [findCompleteEdge]
    · cases hp

/-- Training on three features where (0, 1) is forbidden returns a model, which is served. -/
example (g : ℝ → ℝ) : ∃ (mst : List (List ℝ) → List Edge) (s0 s : Trainer ℝ 2) (logits : List (WithBot ℝ)) (srv : TreeServerInf ℝ),
    outcomes (trainInf (n := Sampled ℝ) asPoss (realNumbers g) mst id 100 exTable [⊥, 0, 0] ⟨2, 1, 3, false⟩) s0 (.ok logits, s) ∧
    TreeServerInf.init mst 3 logits = .ok srv ∧
    Sure (srv.sampleTrees (n := Sampled ℝ) asPoss Real.exp id 7) fun ts => ts.length = 7 ∧ ∀ T ∈ ts, (0, 1) ∉ T := by
  obtain ⟨mst, m1, m2⟩ := exists_mstForest (K := ℝ)
  obtain ⟨s0, h1, ⟨⟨r, s⟩, h2⟩, h3⟩ := trainInf_spec (M := 2) (realNumbers g) (fun x => (Real.exp_pos x).le) (Real.exp_pos 0) mst m1 m2 id exTable
    exTable_ordered (by decide) (by decide) (by decide) (by decide) [⊥, 0, 0] (by decide) ⟨2, 1, 3, false⟩ (by decide) (by decide) 100 (by decide)
  obtain ⟨-, -, -, -, h4, -⟩ := h3 r s h2
  obtain ⟨logits, rfl, -⟩ := h4 ⟨_, star2_allowed.tree, star2_allowed.allowed⟩
  obtain ⟨srv, h5, -, h6⟩ := trainInf_served (M := 2) (realNumbers g) (fun x => (Real.exp_pos x).le) (Real.exp_pos 0) mst m1 m2 id exTable
    exTable_ordered (by decide) (by decide) (by decide) (by decide) [⊥, 0, 0] (by decide) ⟨2, 1, 3, false⟩ (by decide) (by decide) 100 (by decide)
    s0 s h1 logits h2
  exact ⟨mst, s0, s, logits, srv, h2, h5, (h6 id 7).mono fun ts h => ⟨h.1, fun T hT hc => (h.2 T hT).allowed _ hc (by simp [findCompleteEdge])⟩⟩

/-- Two models of three features, which both forbid (0, 1): the ensemble has trees without that edge. -/
example : ∃ (mst : List (List ℝ) → List Edge) (ens : TreeEnsembleInf ℝ), TreeEnsembleInf.init mst 3 [[⊥, 0, 0], [⊥, 0, 0]] = .ok ens ∧
    (0, 1) ∉ ens.estimatedTree ∧ ∀ o, (ens.sampleTrees (n := Sampled ℝ) asPoss Real.exp id 5 : ExceptT PyErr Poss _).run o →
      ∃ ts, o = .ok ts ∧ ts.length = 5 ∧ ∀ T ∈ ts, (0, 1) ∉ T := by
  obtain ⟨mst, m1, m2⟩ := exists_mstForest (K := ℝ)
  have hl : ∀ l ∈ ([[⊥, 0, 0], [⊥, 0, 0]] : List (List (WithBot ℝ))), l = [⊥, 0, 0] := by simp
  have hno : ∀ T, AllowedTree 3 ([⊥, 0, 0] : List (WithBot ℝ)) T → (0, 1) ∉ T := fun T h hc => h.allowed _ hc (by simp [findCompleteEdge])
  obtain ⟨ens, h1, h2, -, -, -, -, h3, -⟩ := (ensembleInf_init m1 m2 (V := 3) (by omega) [[⊥, 0, 0], [⊥, 0, 0]] (by simp)
    (fun l h => by rw [hl l h]; rfl)).1 ⟨_, fun l h => by rw [hl l h]; exact star2_allowed⟩
  refine ⟨mst, ens, h1, hno _ (h3 _ (by simp)), fun o ho => ?_⟩
  obtain ⟨ts, e, h4, h5⟩ := (ensembleInf_sampleTrees (expf := Real.exp) (fun x => (Real.exp_pos x).le) (Real.exp_pos 0) (by simp)
    (fun l h => by rw [hl l h]; rfl) h2 id 5).2 o ho
  refine ⟨ts, e, h4, fun T hT => ?_⟩
  obtain ⟨-, l, hm, ha⟩ := h5 T hT
  rw [hl l hm] at ha
  exact hno T ha

/-- One model forbids (0, 1), the other (0, 2). Each can be served; together they cannot, since no tree is left for feature 0. -/
example : ∃ mst : List (List ℝ) → List Edge, TreeEnsembleInf.init mst 3 [[⊥, 0, 0], [0, ⊥, 0]] = .error .assertion := by
  obtain ⟨mst, m1, m2⟩ := exists_mstForest (K := ℝ)
  refine ⟨mst, (ensembleInf_init m1 m2 (V := 3) (by omega) [[⊥, 0, 0], [0, ⊥, 0]] (by simp) (by simp)).2 ?_⟩
  rintro ⟨T, hT⟩
  have hA := hT [⊥, 0, 0] (by simp)
  have hB := hT [0, ⊥, 0] (by simp)
  have hbad : ∀ c < 3, c ≠ 0 → ([⊥, 0, 0] : List (WithBot ℝ)).getD (findCompleteEdge 0 c) 0 = ⊥ ∨
      ([0, ⊥, 0] : List (WithBot ℝ)).getD (findCompleteEdge 0 c) 0 = ⊥ := by
    intro c hc h0
    have : c = 1 ∨ c = 2 := by omega
    rcases this with rfl | rfl <;> simp [findCompleteEdge]
  have hno : ∀ c, (0, c) ∈ T ∨ (c, 0) ∈ T → False := by
    rintro c (h | h)
    · rcases hbad c (hA.tree.range _ h).2 (fun hc => IsTree.ne hA.tree _ h hc.symm) with hc | hc
      · exact hA.allowed _ h hc
      · exact hB.allowed _ h hc
    · have e : findCompleteEdge c 0 = findCompleteEdge 0 c := fce_comm _ _
      rcases hbad c (hA.tree.range _ h).1 (fun hc => IsTree.ne hA.tree _ h hc) with hc | hc
      · exact hA.allowed _ h (by simp only [e]; exact hc)
      · exact hB.allowed _ h (by simp only [e]; exact hc)
  rcases Relation.ReflTransGen.cases_head (hA.tree.conn 0 (by omega) 1 (by omega)) with h | ⟨c, h, -⟩
  · omega
  · exact hno c h

end

end TreeCat
