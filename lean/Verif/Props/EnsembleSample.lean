import Mathlib.Algebra.Order.BigOperators.Group.Multiset
import Verif.Props.Ensemble
import Verif.Props.ServerSample
import Verif.Props.SampleTree

/-!
# C31: ensemble sampling returns exactly the requested number of samples

For every split of the samples over the members and every shuffle; each sample was produced by a member.
-/

set_option linter.unusedSectionVars false

namespace TreeCat

open Spec

section
variable {K : Type} [Field K] [LinearOrder K] [IsStrictOrderedRing K] {M : Nat} [NeZero M]
variable {models : List (Model K M)} {V : Nat} {ragged : List Nat}

theorem Sure.self {α : Type} {x : ExceptT PyErr Poss α} {Q : α → Prop} (h : Sure x Q) : Sure x fun a => x.run (.ok a) ∧ Q a :=
  ⟨h.1, fun r hr => by obtain ⟨a, rfl, ha⟩ := h.2 r hr; exact ⟨a, rfl, hr, ha⟩⟩

theorem Sure.mapM {α β : Type} (f : α → ExceptT PyErr Poss β) (Q : α → β → Prop) (l : List α) (h : ∀ a ∈ l, Sure (f a) (Q a)) :
    Sure (l.mapM f) (List.Forall₂ Q l) := by
  induction l with
  | nil => exact Sure.pure .nil
  | cons a l ih =>
    rw [List.mapM_cons]
    refine Sure.bind ((h a (by simp)).mono fun b hb => Sure.bind ((ih fun a ha => h a (by simp [ha])).mono fun bs hbs => ?_))
    exact Sure.pure (.cons hb hbs)

theorem count_total {size : Nat} (draws : List (Fin size)) : ((List.finRange size).map fun i => draws.count i).sum = draws.length := by
  rw [← Fin.sum_univ_def]
  have := Multiset.sum_count_eq_card (s := Finset.univ) (m := (draws : Multiset (Fin size))) fun a _ => Finset.mem_univ a
  simpa using this

theorem Sure.splitSamples {size : Nat} (hs : 0 < size) (n : Nat) :
    Sure (ExceptT.lift (TreeCat.splitSamples (K := K) n size) : ExceptT PyErr Poss _) fun subs => subs.length = size ∧ subs.sum = n := by
  have key : ∀ l : List Nat, (∃ ds, (l.mapM (fun _ => (Choose.choose (fun _ : Fin size => (1 : K)) : Poss (Fin size))) : Poss _) ds) ∧
      ∀ ds, (l.mapM (fun _ => (Choose.choose (fun _ : Fin size => (1 : K)) : Poss (Fin size))) : Poss _) ds → ds.length = l.length := by
    intro l
    induction l with
    | nil => exact ⟨⟨[], rfl⟩, fun ds hds => by cases hds; rfl⟩
    | cons i l ih =>
      rw [List.mapM_cons]
      obtain ⟨⟨ds, hds⟩, h2⟩ := ih
      refine ⟨⟨⟨0, hs⟩ :: ds, ⟨0, hs⟩, trivial, ds, hds, rfl⟩, ?_⟩
      rintro _ ⟨d, -, ds', hds', rfl⟩
      rw [List.length_cons, List.length_cons, h2 ds' hds']
  obtain ⟨⟨ds, hds⟩, h2⟩ := key (List.range n)
  refine ⟨⟨.ok _, _, ⟨ds, hds, rfl⟩, rfl⟩, ?_⟩
  rintro _ ⟨_, ⟨ds', hds', rfl⟩, rfl⟩
  refine ⟨_, rfl, by simp, ?_⟩
  rw [count_total, h2 ds' hds', List.length_range]

theorem filterMap_range {α : Type} (l : List α) : (List.range l.length).filterMap (fun i => l[i]?) = l := by
  apply List.ext_getElem?
  intro i
  induction l using List.reverseRecOn generalizing i with
  | nil => rfl
  | append_singleton l a ih =>
    rw [List.length_append, List.length_singleton, List.range_succ, List.filterMap_append]
    have e : (List.range l.length).filterMap (fun i => (l ++ [a])[i]?) = (List.range l.length).filterMap fun i => l[i]? := by
      refine List.filterMap_congr fun i hi => ?_
      rw [List.mem_range] at hi
      rw [List.getElem?_append_left hi]
    have e2 : (List.range l.length).filterMap (fun i => l[i]?) = l := List.ext_getElem? ih
    rw [e, e2]
    simp

theorem Sure.shuffled {α : Type} (l : List α) : Sure (ExceptT.lift (TreeCat.shuffled l) : ExceptT PyErr Poss _) fun l' => l'.Perm l := by
  refine ⟨⟨.ok _, _, ⟨List.range l.length, .refl _, rfl⟩, rfl⟩, ?_⟩
  rintro _ ⟨_, ⟨perm, hp, rfl⟩, rfl⟩
  refine ⟨_, rfl, ?_⟩
  have := (show List.Perm perm (List.range l.length) from hp).filterMap fun i => l[i]?
  rwa [filterMap_range] at this

/-- The samples of trees of one member. -/
theorem Sure.sampleTrees {model : Model K M} {srv : Server K M} (h : Model.Valid model) (s : Serves model srv)
    (hT : IsTree model.tree.numVertices srv.estimatedTree) (hC : Canonical srv.estimatedTree) (num : ServeNum K)
    (junk : Nat → Nat) (n : Nat) :
    Sure (srv.sampleTrees num junk n) fun ts => ts.length = n ∧ ∀ T ∈ ts, IsTree model.tree.numVertices T ∧ Canonical T := by
  unfold Server.sampleTrees
  refine Sure.bind (Sure.liftPy (makeCompleteGraph_eq _) ?_)
  refine Sure.bind ?_
  have key : ∀ (l : List Nat) (st : List Edge × List (List Edge)), IsTree model.tree.numVertices st.1 → Canonical st.1 →
      (∀ T ∈ st.2, IsTree model.tree.numVertices T ∧ Canonical T) →
      Sure (l.foldlM (fun (s : List Edge × List (List Edge)) _ => do
        let perm ← ExceptT.lift (Shuffle.permutation s.1.length)
        let edges ← sampleTree num.exp junk (completeGrid srv.tree.numVertices) srv.edgeLogits s.1 perm
        Pure.pure (edges, s.2 ++ [edges])) st : ExceptT PyErr Poss _) fun st' =>
        st'.2.length = st.2.length + l.length ∧ ∀ T ∈ st'.2, IsTree model.tree.numVertices T ∧ Canonical T := by
    intro l
    induction l with
    | nil => intro st _ _ h3; exact Sure.pure ⟨rfl, h3⟩
    | cons i l ih =>
      intro st h1 h2 h3
      rw [List.foldlM_cons]
      have hperm : Sure (ExceptT.lift (Shuffle.permutation st.1.length) : ExceptT PyErr Poss _) fun p => p.Perm (List.range st.1.length) := by
        refine ⟨⟨.ok _, List.range st.1.length, .refl _, rfl⟩, ?_⟩
        rintro _ ⟨p, hp, rfl⟩
        exact ⟨p, rfl, hp⟩
      refine Sure.bind (Sure.bind (hperm.mono fun p hp => Sure.bind ?_))
      obtain ⟨grid, hg, h4, h5⟩ := sampleTree_isTree num.exp model.tree.numVertices st.1 h1 junk srv.edgeLogits
        (by rw [s.logits, h.logits]) p hp
      rw [makeCompleteGraph_eq] at hg
      obtain rfl := Except.ok.inj hg
      rw [s.tree]
      have hs : Sure (sampleTree num.exp junk (completeGrid model.tree.numVertices) srv.edgeLogits st.1 p)
          fun T => IsTree model.tree.numVertices T ∧ Canonical T :=
        ⟨h4, fun o ho => by
          obtain ⟨T, e, hT1, hT2⟩ := h5 o ho
          exact ⟨T, e, hT1, hT2 (.inr h2)⟩⟩
      refine hs.mono fun T hT => Sure.pure ?_
      have := ih (T, st.2 ++ [T]) hT.1 hT.2 (by
        intro T' hT'
        rcases List.mem_append.1 hT' with h | h
        · exact h3 T' h
        · rw [List.mem_singleton.1 h]; exact hT)
      rw [s.tree] at this
      refine this.mono fun st' h => ⟨?_, h.2⟩
      rw [h.1]; simp; omega
  refine (key (List.range n) (srv.estimatedTree, []) hT hC (by simp)).mono fun st hst => Sure.pure ⟨?_, hst.2⟩
  rw [hst.1]; simp

theorem forall₂_zip {α β γ δ : Type} {R : α → β → Prop} {S : β × γ → δ → Prop} {l : List α} {l1 : List β} {l2 : List γ} {l3 : List δ}
    (h1 : List.Forall₂ R l l1) (hlen : l1.length = l2.length) (h2 : List.Forall₂ S (l1.zip l2) l3) {x : δ} (hx : x ∈ l3) :
    ∃ a ∈ l, ∃ b, R a b ∧ ∃ c ∈ l2, S (b, c) x := by
  induction h1 generalizing l2 l3 with
  | nil => cases h2; simp at hx
  | cons hab _ ih =>
    cases l2 with
    | nil => simp at hlen
    | cons c l2 =>
      rw [List.zip_cons_cons] at h2
      cases h2 with
      | cons hs h2 =>
        rcases List.mem_cons.1 hx with rfl | hx
        · exact ⟨_, by simp, _, hab, c, by simp, hs⟩
        · obtain ⟨a, ha, b, hb, c', hc', h⟩ := ih (by simpa using hlen) h2 hx
          exact ⟨a, by simp [ha], b, hb, c', by simp [hc'], h⟩

theorem flatten_length_of {α β : Type} {Q : α → List β → Prop} {size : α → Nat} {l : List α} {parts : List (List β)}
    (h : List.Forall₂ Q l parts) (hq : ∀ a p, Q a p → p.length = size a) : parts.flatten.length = (l.map size).sum := by
  induction h with
  | nil => rfl
  | cons hab _ ih => rw [List.flatten_cons, List.length_append, ih, hq _ _ hab]; rfl

theorem map_snd_zip_sum {α : Type} (l : List α) (subs : List Nat) (h : l.length = subs.length) :
    ((l.zip subs).map Prod.snd).sum = subs.sum := by
  rw [List.map_snd_zip (by omega)]

theorem forall_mem_zip {α β γ : Type} {R : α → β → Prop} {l : List α} {l1 : List β} {l2 : List γ} (h : List.Forall₂ R l l1)
    {p : β × γ} (hp : p ∈ l1.zip l2) : ∃ a ∈ l, R a p.1 := by
  have h1 := (List.of_mem_zip hp).1
  clear hp
  induction h with
  | nil => simp at h1
  | cons hab _ ih =>
    rcases List.mem_cons.1 h1 with h | h
    · rw [h]; exact ⟨_, by simp, hab⟩
    · obtain ⟨a, ha, hr⟩ := ih h; exact ⟨a, by simp [ha], hr⟩

/-- **C31**, **C25** for ensembles: whatever is drawn, `sample` returns `N` rows, a shuffle of what the members return for
numbers of samples that add up to `N`; every row has nonnegative entries and the requested counts. -/
theorem ensemble_sample_counts (E : Members models V ragged) {ens : Ensemble K M} (hs : List.Forall₂ Serves models ens.servers)
    (N : Nat) (counts : List Int) (data : Option (List Int)) (hd : ∀ d ∈ data, d.length = ragged.getLastD 0)
    (hl : counts.length = V) (hc : ∀ x ∈ counts, 0 ≤ x ∧ x ≤ 127)
    (hne : ∀ v < V, 0 < counts.getD v 0 → ragged.getD v 0 < ragged.getD (v + 1) 0) :
    (∃ o, (ens.sample N counts data : ExceptT PyErr Poss _).run o) ∧
    ∀ o, (ens.sample N counts data : ExceptT PyErr Poss _).run o → ∃ rows, o = .ok rows ∧ rows.length = N ∧
      (∃ (subs : List Nat) (parts : List (List (List Int))), subs.length = ens.servers.length ∧ subs.sum = N ∧
        List.Forall₂ (fun p part => (p.1.sample p.2 counts data : ExceptT PyErr Poss _).run (.ok part)) (ens.servers.zip subs) parts ∧
        rows.Perm parts.flatten) ∧
      ∀ row ∈ rows, row.length = ragged.getLastD 0 ∧ ∀ v < V,
        (∀ c ∈ Finset.Ico (ragged.getD v 0) (ragged.getD (v + 1) 0), 0 ≤ row.getD c 0) ∧
        ∑ c ∈ Finset.Ico (ragged.getD v 0) (ragged.getD (v + 1) 0), row.getD c 0 = counts.getD v 0 := by
  change Sure _ _
  have hcol : ∀ m ∈ models, ∀ v, columns m v = Finset.Ico (ragged.getD v 0) (ragged.getD (v + 1) 0) := by
    intro m hm v; unfold columns; rw [E.index m hm]
  have hsize : 0 < ens.servers.length := by rw [← hs.length_eq]; exact List.length_pos_of_ne_nil E.ne
  unfold Ensemble.sample
  refine Sure.bind ((Sure.splitSamples (K := K) hsize N).mono fun subs hsubs => ?_)
  have hmem : ∀ p ∈ ens.servers.zip subs, Sure (p.1.sample p.2 counts data) fun rows => rows.length = p.2 ∧
      ∀ row ∈ rows, row.length = ragged.getLastD 0 ∧ ∀ v < V,
        (∀ c ∈ Finset.Ico (ragged.getD v 0) (ragged.getD (v + 1) 0), 0 ≤ row.getD c 0) ∧
        ∑ c ∈ Finset.Ico (ragged.getD v 0) (ragged.getD (v + 1) 0), row.getD c 0 = counts.getD v 0 := by
    intro p hp
    obtain ⟨m, hm, hms⟩ := forall_mem_zip hs hp
    have := server_sample_counts (E.valid m hm) hms p.2 counts data (by rw [E.index m hm]; exact hd) (by rw [hl, E.size m hm]) hc
      (by rw [E.size m hm]; intro v hv h0; rw [hcol m hm]; exact Finset.nonempty_Ico.2 (hne v hv h0))
    rw [E.size m hm, E.index m hm] at this
    simp only [hcol m hm] at this
    exact this
  refine Sure.bind ((Sure.mapM _ _ _ fun p hp => (hmem p hp).self).mono fun parts hparts => ?_)
  refine Sure.bind ((Sure.shuffled parts.flatten).mono fun rows hrows => ?_)
  have hlen : rows.length = N := by
    rw [hrows.length_eq, flatten_length_of (size := Prod.snd) hparts fun p part hp => hp.2.1, map_snd_zip_sum _ _ hsubs.1.symm, hsubs.2]
  refine Sure.bind (Sure.liftPy (a := ()) (by simp [pyAssert, hlen]) (Sure.pure ⟨hlen, ?_, ?_⟩))
  · exact ⟨subs, parts, hsubs.1, hsubs.2, hparts.imp fun p part h => h.1, hrows⟩
  · intro row hrow
    obtain ⟨part, hpart, hr⟩ := List.mem_flatten.1 (hrows.mem_iff.1 hrow)
    obtain ⟨m, hm, srv, -, n, -, hq⟩ := forall₂_zip hs hsubs.1.symm hparts hpart
    exact hq.2.2 row hr

/-- **C31** for trees: whatever is drawn, `sample_tree` returns `n` spanning trees, a shuffle of what the members return. -/
theorem ensemble_sampleTrees (E : Members models V ragged) {ens : Ensemble K M}
    (hs : List.Forall₂ (fun m srv => Serves m srv ∧ IsTree V srv.estimatedTree ∧ Canonical srv.estimatedTree) models ens.servers)
    (num : ServeNum K) (junk : Nat → Nat) (n : Nat) :
    (∃ o, (ens.sampleTrees num junk n : ExceptT PyErr Poss _).run o) ∧
    ∀ o, (ens.sampleTrees num junk n : ExceptT PyErr Poss _).run o → ∃ ts, o = .ok ts ∧ ts.length = n ∧
      (∃ (subs : List Nat) (parts : List (List (List Edge))), subs.length = ens.servers.length ∧ subs.sum = n ∧
        List.Forall₂ (fun p part => (p.1.sampleTrees num junk p.2 : ExceptT PyErr Poss _).run (.ok part)) (ens.servers.zip subs) parts ∧
        ts.Perm parts.flatten) ∧
      ∀ T ∈ ts, IsTree V T ∧ Canonical T := by
  change Sure _ _
  have hsize : 0 < ens.servers.length := by rw [← hs.length_eq]; exact List.length_pos_of_ne_nil E.ne
  unfold Ensemble.sampleTrees
  refine Sure.bind ((Sure.splitSamples (K := K) hsize n).mono fun subs hsubs => ?_)
  have hmem : ∀ p ∈ ens.servers.zip subs, Sure (p.1.sampleTrees num junk p.2) fun ts => ts.length = p.2 ∧
      ∀ T ∈ ts, IsTree V T ∧ Canonical T := by
    intro p hp
    obtain ⟨m, hm, hms, h1, h2⟩ := forall_mem_zip hs hp
    have := Sure.sampleTrees (E.valid m hm) hms (by rw [E.size m hm]; exact h1) h2 num junk p.2
    rw [E.size m hm] at this
    exact this
  have hfold : ∀ (l : List (Server K M × Nat)) (acc : List (List Edge)), (∀ p ∈ l, p ∈ ens.servers.zip subs) →
      Sure (l.foldlM (fun samples p => do
        let more ← p.1.sampleTrees num junk p.2
        Pure.pure (samples ++ more)) acc : ExceptT PyErr Poss _) fun ts => ∃ parts, ts = acc ++ parts.flatten ∧
        List.Forall₂ (fun p part => (p.1.sampleTrees num junk p.2 : ExceptT PyErr Poss _).run (.ok part) ∧ part.length = p.2 ∧
          ∀ T ∈ part, IsTree V T ∧ Canonical T) l parts := by
    intro l
    induction l with
    | nil => intro acc _; exact Sure.pure ⟨[], by simp, .nil⟩
    | cons p l ih =>
      intro acc hl
      rw [List.foldlM_cons]
      refine Sure.bind (Sure.bind ((hmem p (hl p (by simp))).self.mono fun part hpart => Sure.pure ?_))
      refine (ih (acc ++ part) fun p hp => hl p (by simp [hp])).mono ?_
      rintro ts ⟨parts, rfl, h⟩
      exact ⟨part :: parts, by simp, .cons hpart h⟩
  refine Sure.bind ((hfold _ [] fun _ h => h).mono ?_)
  rintro _ ⟨parts, rfl, hparts⟩
  rw [List.nil_append]
  refine Sure.bind ((Sure.shuffled parts.flatten).mono fun ts hts => ?_)
  have hlen : ts.length = n := by
    rw [hts.length_eq, flatten_length_of (size := Prod.snd) hparts fun p part hp => hp.2.1, map_snd_zip_sum _ _ hsubs.1.symm, hsubs.2]
  refine Sure.bind (Sure.liftPy (a := ()) (by simp [pyAssert, hlen]) (Sure.pure ⟨hlen, ?_, ?_⟩))
  · exact ⟨subs, parts, hsubs.1, hsubs.2, hparts.imp fun p part h => h.1, hts⟩
  · intro T hT
    obtain ⟨part, hpart, hr⟩ := List.mem_flatten.1 (hts.mem_iff.1 hT)
    obtain ⟨m, hm, srv, -, k, -, hq⟩ := forall₂_zip hs hsubs.1.symm hparts hpart
    exact hq.2.2 T hr

/-- Seven samples from two different models of the same features. -/
example (counts : List Int) (hcounts : counts = [1, 2, 0]) : ∃ ens : Ensemble ℝ 2,
    ∀ o, (ens.sample 7 counts none : ExceptT PyErr Poss _).run o → ∃ rows, o = .ok rows ∧ rows.length = 7 := by
  obtain ⟨mst, hmst⟩ := exists_mst (K := ℝ)
  have E : Members [pathModel ℝ, { pathModel ℝ with featSS := fun r m => if r % 2 = m.val then 0 else 3 }] 3 [0, 2, 4, 6] := by
    refine ⟨by simp, fun m hm => ?_, fun m hm => ?_, fun m hm => ?_⟩ <;> simp only [List.mem_cons, List.not_mem_nil, or_false] at hm
    · rcases hm with rfl | rfl
      · exact pathModel_valid ℝ
      · have h := pathModel_valid ℝ
        exact ⟨h.isTree, h.sorted, h.ragged, h.mono, h.vert, h.edge, fun _ _ _ _ _ => by dsimp only; split <;> decide, h.logits⟩
    · rcases hm with rfl | rfl <;> rfl
    · rcases hm with rfl | rfl <;> rfl
  obtain ⟨ens, -, h1, -⟩ := ensemble_init hmst E
  refine ⟨ens, fun o ho => ?_⟩
  subst hcounts
  obtain ⟨rows, h, h2, -⟩ := (ensemble_sample_counts E (h1.imp fun m s h => h.1) 7 [1, 2, 0] none (by simp) rfl (by decide)
    (by intro v hv _; interval_cases v <;> decide)).2 o ho
  exact ⟨rows, h, h2⟩

end

end TreeCat
