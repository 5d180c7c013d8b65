import Verif.Lemmas.Marginal

/-!
# C26: what `marginals` computes

Each block is a probability vector. It is the exact distribution of an observation of the feature given the evidence on
the feature itself, on the features below it and on those between it and the root of the program, and not given the rest
of the row: `messages_out` leaves out the messages of the other branches.
-/

set_option linter.unusedSectionVars false

namespace TreeCat

open Spec

section
variable {K : Type} [Field K] [LinearOrder K] [IsStrictOrderedRing K] {M : Nat} [NeZero M]
variable {model : Model K M} {srv : Server K M}
variable {r : Nat} {par : Nat → Nat} {ch : Nat → List Nat} {L : List Nat} {eid : Nat → Nat}

/-- The result of a block in terms of the messages. -/
theorem marginal_block (h : Model.Valid model) (s : Serves model srv) (P : Plan model r par ch eid L) (data : List Int)
    (junk : Nat → Fin M → K) :
    ∃ b out : Nat → Fin M → K, (∀ v < model.tree.numVertices, ∀ m, 0 < b v m) ∧
      (∀ v < model.tree.numVertices, ∀ m, b v m = vertMean model v m * serveU model data v m *
        ((ch v).map fun c => mu (servePsi r par eid srv.edgeTrans) b c m).prod) ∧
      (∀ v < model.tree.numVertices, ∀ a, out v a = vertMean model v a * serveU model data v a *
        fromParent r par eid srv.edgeTrans out v a) ∧
      (∀ v < model.tree.numVertices, ∀ a, 0 < fromParent r par eid srv.edgeTrans out v a) ∧
      ∀ v < model.tree.numVertices, ∀ c ∈ columns model v,
        marginalsWith srv (progOf r par ch eid L) junk data c
          = (∑ a, featMean model v c a * (b v a * fromParent r par eid srv.edgeTrans out v a)) /
            ∑ c' ∈ columns model v, ∑ a, featMean model v c' a * (b v a * fromParent r par eid srv.edgeTrans out v a) := by
  obtain ⟨b, hb0, hb, -⟩ := serve_messages h s P data
  obtain ⟨sf, h0, h1, ⟨S, h2, h3⟩, h4⟩ := marginal_inward h s P data junk
  obtain ⟨out, inn, o1, o2, o3⟩ := marginal_outward h s P data sf
  have hout : ∀ v < model.tree.numVertices, ∀ a, out v a = vertMean model v a * serveU model data v a *
      fromParent r par eid srv.edgeTrans out v a := fun v hv a => by rw [o1 v hv, h4 v hv]
  have hpos : ∀ v < model.tree.numVertices, (∀ a, 0 < fromParent r par eid srv.edgeTrans out v a) ∧ ∀ a, 0 < out v a := by
    refine P.topo.rootInduction ?_ fun v hv hvr ih => ?_
    · have : ∀ a, 0 < fromParent r par eid srv.edgeTrans out r a := fun a => by rw [fromParent_root rfl]; exact one_pos
      refine ⟨this, fun a => ?_⟩
      rw [hout r P.topo.root_lt]
      exact mul_pos (mul_pos (vertMean_pos h P.topo.root_lt a) (serveU_pos h data P.topo.root_lt a)) (this a)
    · have : ∀ a, 0 < fromParent r par eid srv.edgeTrans out v a := fun a => by
        rw [fromParent, if_neg hvr]
        exact Finset.sum_pos (fun b _ => mul_pos (servePsi_pos h s P hv b a) (ih.2 b)) ⟨0, Finset.mem_univ _⟩
      refine ⟨this, fun a => ?_⟩
      rw [hout v hv]
      exact mul_pos (mul_pos (vertMean_pos h hv a) (serveU_pos h data hv a)) (this a)
  -- the scaled messages are multiples of the exact ones
  have hk : ∀ v < model.tree.numVertices, ∃ k, 0 < k ∧ ∀ m, sf.messagesIn v m = k * b v m := by
    refine P.topo.leafInduction fun v hv ih => ?_
    have : ∀ cs : List Nat, (∀ c ∈ cs, c ∈ ch v) → ∃ k, 0 < k ∧ ∀ m,
        (cs.map fun c => mu (servePsi r par eid srv.edgeTrans) sf.messagesIn c m).prod
          = k * (cs.map fun c => mu (servePsi r par eid srv.edgeTrans) b c m).prod := by
      intro cs
      induction cs with
      | nil => intro _; exact ⟨1, one_pos, by simp⟩
      | cons c cs ihc =>
        intro hcs
        obtain ⟨k, hk, e⟩ := ihc fun c hc => hcs c (by simp [hc])
        obtain ⟨k', hk', e'⟩ := ih c (hcs c (by simp))
        refine ⟨k' * k, mul_pos hk' hk, fun m => ?_⟩
        have : mu (servePsi r par eid srv.edgeTrans) sf.messagesIn c m = k' * mu (servePsi r par eid srv.edgeTrans) b c m := by
          unfold mu
          rw [Finset.mul_sum]
          exact Finset.sum_congr rfl fun m' _ => by rw [e']; ring
        simp only [List.map_cons, List.prod_cons]
        rw [e, this]; ring
    obtain ⟨k, hk, e⟩ := this (ch v) fun _ h => h
    have hS := (h2 v hv).ne'
    refine ⟨k / S v, div_pos hk (h2 v hv), fun m => ?_⟩
    have := h3 v hv m
    rw [e, mul_left_comm, ← hb v hv m] at this
    field_simp
    linear_combination this
  refine ⟨b, out, hb0, hb, hout, fun v hv => (hpos v hv).1, fun v hv c hc => ?_⟩
  obtain ⟨k, hk, e⟩ := hk v hv
  have hprog : marginalsWith srv (progOf r par ch eid L) junk data
      = ((L.flatMap (outBlock r par eid)).foldl (marginalStep srv data) sf).result := by
    unfold marginalsWith progOf
    rw [List.foldl_append, List.foldl_append, ← h0]
    rfl
  rw [hprog, o3 v hv c hc]
  have e2 : ∀ c, ∑ a, featMean model v c a * inn v a
      = k * ∑ a, featMean model v c a * (b v a * fromParent r par eid srv.edgeTrans out v a) := by
    intro c
    rw [Finset.mul_sum]
    exact Finset.sum_congr rfl fun a _ => by rw [o2 v hv, e]; ring
  simp only [e2]
  rw [← Finset.mul_sum, mul_div_mul_left _ _ hk.ne']

/-- **C26**, first part: every block is a probability vector. -/
theorem marginals_sum (h : Model.Valid model) (s : Serves model srv) (hr : r < model.tree.numVertices)
    {prog : List Instr} (hp : makeProgram model.tree.treeGrid (some r) = .ok prog) (data : List Int) (junk : Nat → Fin M → K)
    {v : Nat} (hv : v < model.tree.numVertices) (hne : (columns model v).Nonempty) :
    (∀ c ∈ columns model v, 0 < marginalsWith srv prog junk data c) ∧
      ∑ c ∈ columns model v, marginalsWith srv prog junk data c = 1 := by
  obtain ⟨par, ch, eid, L, P, hp'⟩ := exists_plan h hr
  rw [hp] at hp'
  obtain rfl := Except.ok.inj hp'
  obtain ⟨b, out, hb0, -, -, hf, hres⟩ := marginal_block h s P data junk
  have hpos : ∀ c ∈ columns model v, 0 < ∑ a, featMean model v c a * (b v a * fromParent r par eid srv.edgeTrans out v a) :=
    fun c hc => Finset.sum_pos (fun a _ => mul_pos (featMean_pos h hv hc a) (mul_pos (hb0 v hv a) (hf v hv a)))
      ⟨0, Finset.mem_univ _⟩
  have hsum := Finset.sum_pos hpos hne
  refine ⟨fun c hc => ?_, ?_⟩
  · rw [hres v hv c hc]
    exact div_pos (hpos c hc) hsum
  · rw [Finset.sum_congr rfl fun c hc => hres v hv c hc, ← Finset.sum_div, div_self hsum.ne']

/-! ### Which evidence is used -/

theorem Plan.adj (P : Plan model r par ch eid L) {x y : Nat} (hxy : Adj model.tree.getEdges x y) :
    (x < model.tree.numVertices ∧ x ≠ r ∧ par x = y) ∨ (y < model.tree.numVertices ∧ y ≠ r ∧ par y = x) := by
  have : ∀ c ∈ model.tree.treeGrid, ∃ v < model.tree.numVertices, v ≠ r ∧ ((c.2.1 = v ∧ c.2.2 = par v) ∨ (c.2.1 = par v ∧ c.2.2 = v)) := by
    intro c hc
    obtain ⟨v, hv, rfl⟩ := List.mem_map.1 (P.perm.mem_iff.2 hc)
    rw [List.mem_filter] at hv
    refine ⟨v, P.topo.mem.1 hv.1, by simpa using hv.2, ?_⟩
    unfold upEntry
    split <;> simp
  rcases hxy with hm | hm
  · obtain ⟨c, hc, e⟩ := List.mem_map.1 hm
    simp only [Prod.mk.injEq] at e
    obtain ⟨v, h1, h2, h3⟩ := this c hc
    rw [e.1, e.2] at h3
    rcases h3 with ⟨rfl, rfl⟩ | ⟨rfl, rfl⟩
    · exact .inl ⟨h1, h2, rfl⟩
    · exact .inr ⟨h1, h2, rfl⟩
  · obtain ⟨c, hc, e⟩ := List.mem_map.1 hm
    simp only [Prod.mk.injEq] at e
    obtain ⟨v, h1, h2, h3⟩ := this c hc
    rw [e.1, e.2] at h3
    rcases h3 with ⟨rfl, rfl⟩ | ⟨rfl, rfl⟩
    · exact .inr ⟨h1, h2, rfl⟩
    · exact .inl ⟨h1, h2, rfl⟩

theorem Plan.adj_par (P : Plan model r par ch eid L) {v : Nat} (hv : v < model.tree.numVertices) (hvr : v ≠ r) :
    Adj model.tree.getEdges (par v) v := by
  have hm := upEntry_mem P hv hvr
  unfold upEntry at hm
  by_cases hlt : par v < v
  · rw [if_pos hlt] at hm; exact .inl (List.mem_map.2 ⟨_, hm, rfl⟩)
  · rw [if_neg hlt] at hm; exact .inr (List.mem_map.2 ⟨_, hm, rfl⟩)

/-- The ancestors of `v` are the vertices that separate it from the root. -/
theorem above_iff (P : Plan model r par ch eid L) {u v : Nat} (hv : v < model.tree.numVertices) :
    Above model.tree.getEdges r u v ↔ Under par r u v := by
  constructor
  · intro ha
    by_contra hu
    rcases ha with rfl | ha
    · exact hu (Under.root P.topo v hv)
    · refine ha ?_
      have : ∀ v < model.tree.numVertices, ¬ Under par r u v →
          Relation.ReflTransGen (fun x y => Adj model.tree.getEdges x y ∧ y ≠ u) r v := by
        refine P.topo.rootInduction (fun _ => .refl) fun v hv hvr ih hu => ?_
        exact (ih fun h => hu (.step hvr h)).tail ⟨P.adj_par hv hvr, by rintro rfl; exact hu .self⟩
      exact this v hv hu
  · intro hu
    by_cases hru : r = u
    · exact .inl hru
    · refine .inr fun hw => ?_
      have : ∀ x, Relation.ReflTransGen (fun x y => Adj model.tree.getEdges x y ∧ y ≠ u) r x → ¬ Under par r u x := by
        intro x hx
        induction hx with
        | refl =>
          intro h
          cases h with
          | self => exact hru rfl
          | step h _ => exact h rfl
        | tail _ hxy ih =>
          intro h
          rcases P.adj hxy.1 with ⟨h1, h2, h3⟩ | ⟨h1, h2, h3⟩
          · exact ih (.step h2 (by rw [h3]; exact h))
          · cases h with
            | self => exact hxy.2 rfl
            | step _ h => rw [h3] at h; exact ih h
      exact this v hw hu

theorem evidenceOn_mem (h : Model.Valid model) {keep : Nat → Prop} {data : Nat → Int} {w c : Nat}
    (hw : w < model.tree.numVertices) (hc : c ∈ columns model w) :
    (keep w → evidenceOn model keep data c = data c) ∧ (¬ keep w → evidenceOn model keep data c = 0) := by
  unfold evidenceOn
  refine ⟨fun hk => if_pos ⟨w, hw, hc, hk⟩, fun hk => if_neg ?_⟩
  rintro ⟨v, hv, hcv, hkv⟩
  rw [columns_disjoint h hw hv hc hcv] at hk
  exact hk hkv

theorem column_lt (h : Model.Valid model) {v c : Nat} (hv : v < model.tree.numVertices) (hc : c ∈ columns model v) :
    c < model.raggedIndex.getLastD 0 := by
  have h1 := model_beg_le h (show v + 1 ≤ model.tree.numVertices from hv) (le_refl _)
  have h2 := (mem_columns.1 hc).2
  have h3 : model.raggedIndex.getLastD 0 = model.raggedIndex.getD model.tree.numVertices 0 := by
    rw [List.getLastD_eq_getLast?, List.getLast?_eq_getElem?, h.ragged, List.getD_eq_getElem?_getD]
    rfl
  omega

/-- A row given as a function, as a list. -/
theorem exists_row (h : Model.Valid model) (x : Nat → Int) : ∃ row : List Int,
    (∀ v < model.tree.numVertices, ∀ c ∈ columns model v, row.getD c 0 = x c) ∧
    dataProb model (fun c => row.getD c 0) = dataProb model x := by
  have e : ∀ c < model.raggedIndex.getLastD 0, ((List.range (model.raggedIndex.getLastD 0)).map x).getD c 0 = x c := by
    intro c hc
    rw [List.getD_eq_getElem _ _ (by simpa using hc), List.getElem_map, List.getElem_range]
  exact ⟨_, fun v hv c hc => e c (column_lt h hv hc), dataProb_congr h e⟩

/-- The product over the row with one more observation. -/
theorem serveU_bump (h : Model.Valid model) {v c : Nat} (hv : v < model.tree.numVertices) (hc : c ∈ columns model v)
    {row row' : List Int} (hrow : ∀ c' ∈ columns model v, row'.getD c' 0 = row.getD c' 0 + if c' = c then 1 else 0) (a : Fin M) :
    serveU model row' v a = featMean model v c a * serveU model row v a := by
  unfold serveU
  rw [← Finset.mul_prod_erase _ _ hc, ← Finset.mul_prod_erase (columns model v) (fun c' => featMean model v c' a ^ row.getD c' 0) hc,
    hrow c hc, if_pos rfl, zpow_add_one₀ (featMean_pos h hv hc a).ne']
  rw [Finset.prod_congr rfl fun c' hc' => by
    rw [hrow c' (Finset.mem_of_mem_erase hc'), if_neg (Finset.ne_of_mem_erase hc'), add_zero]]
  ring

/-- **C26**, what is proved of the second part: the block of feature `v` is the exact distribution of an observation given the
part of the row on `v`, below `v` and above `v`. What is missing is the rest of the row, and `marginals_not_exact` shows that it does
matter. -/
theorem marginals_exact_partial (h : Model.Valid model) (hcons : Model.Consistent model) (s : Serves model srv)
    (hr : r < model.tree.numVertices) {prog : List Instr} (hp : makeProgram model.tree.treeGrid (some r) = .ok prog)
    (data : List Int) (junk : Nat → Fin M → K) {v : Nat} (hv : v < model.tree.numVertices) {c : Nat} (hc : c ∈ columns model v) :
    marginalsWith srv prog junk data c = predictive model (evidenceOn model (fun u =>
      Above model.tree.getEdges r u v ∨ Above model.tree.getEdges r v u) fun c => data.getD c 0) c := by
  obtain ⟨par, ch, eid, L, P, hp'⟩ := exists_plan h hr
  rw [hp] at hp'
  obtain rfl := Except.ok.inj hp'
  obtain ⟨b, out, hb0, hb, hout, hf, hres⟩ := marginal_block h s P data junk
  set keep := fun u => Above model.tree.getEdges r u v ∨ Above model.tree.getEdges r v u with hkeep
  set ev := evidenceOn model keep fun c => data.getD c 0 with hev
  have T := P.topo
  -- the weight of every outcome
  have main : ∀ c ∈ columns model v, ∑ a, featMean model v c a * (b v a * fromParent r par eid srv.edgeTrans out v a)
      = dataProb model (fun c' => ev c' + if c' = c then 1 else 0) := by
    intro c hc
    obtain ⟨row, hrow, hD⟩ := exists_row h (fun c' => ev c' + if c' = c then 1 else 0)
    obtain ⟨b', hb0', hb', hsum⟩ := serve_messages h s P row
    rw [← hD, ← hsum]
    have hrow1 : ∀ u < model.tree.numVertices, u ≠ v → ∀ c' ∈ columns model u, row.getD c' 0 = ev c' := by
      intro u hu huv c' hc'
      rw [hrow u hu c' hc', if_neg, add_zero]
      rintro rfl
      exact huv (columns_disjoint h hu hv hc' hc)
    have hkept : ∀ u < model.tree.numVertices, (Under par r u v ∨ Under par r v u) → ∀ c' ∈ columns model u, ev c' = data.getD c' 0 := by
      intro u hu hk c' hc'
      refine (evidenceOn_mem h hu hc').1 ?_
      rw [hkeep]
      rcases hk with hk | hk
      · exact .inl ((above_iff P hv).2 hk)
      · exact .inr ((above_iff P hu).2 hk)
    have hdrop : ∀ u < model.tree.numVertices, ¬ Under par r u v → ¬ Under par r v u → ∀ c' ∈ columns model u, ev c' = 0 := by
      intro u hu h1 h2 c' hc'
      refine (evidenceOn_mem h hu hc').2 ?_
      rw [hkeep]
      rintro (hk | hk)
      · exact h1 ((above_iff P hv).1 hk)
      · exact h2 ((above_iff P hu).1 hk)
    obtain ⟨d, hd⟩ := T.rank
    -- below `v` nothing has changed
    have hbelow : ∀ w ∈ ch v, b' w = b w := by
      intro w hw
      obtain ⟨w1, w2, w3⟩ := (T.ch_mem v hv w).1 hw
      refine messages_congr T hb' hb w w1 fun x hx hwx => ?_
      funext m
      congr 1
      refine serveU_congr (fun c' hc' => ?_) m
      have hvx : Under par r v x := (Under.step w2 (by rw [w3]; exact .self)).trans hwx
      have hxv : x ≠ v := by
        rintro rfl
        have := hwx.rank T hd hx
        have := hd w w1 w2
        rw [w3] at this
        omega
      rw [hrow1 x hx hxv c' hc', hkept x hx (.inr hvx) c' hc']
    have hbv : ∀ a, b' v a = featMean model v c a * b v a := by
      intro a
      rw [hb' v hv, hb v hv, serveU_bump h hv hc (row := data) (fun c' hc' => by
        rw [hrow v hv c' hc', hkept v hv (.inl .self) c' hc'])]
      have : ((ch v).map fun c => mu (servePsi r par eid srv.edgeTrans) b' c a)
          = (ch v).map fun c => mu (servePsi r par eid srv.edgeTrans) b c a := by
        refine List.map_congr_left fun w hw => ?_
        unfold mu; rw [hbelow w hw]
      rw [this]; ring
    -- the sum is the same at every ancestor of `v`
    have hchain : ∀ w < model.tree.numVertices, Under par r w v →
        ∑ a, b' w a * fromParent r par eid srv.edgeTrans out w a = ∑ a, b' r a := by
      refine T.rootInduction (fun _ => ?_) fun w hw hwr ih hwv => ?_
      · rw [fromParent_root rfl]; simp
      · have hpV := T.par_lt hw hwr
        have hpv : Under par r (par w) v := hwv.parent hwr
        rw [← ih hpv]
        have hpne : par w ≠ v := by
          intro e
          have a1 := hd w hw hwr
          have a2 := hwv.rank T hd hv
          rw [e] at a1
          omega
        have e1 : ∀ a, b' (par w) a = vertMean model (par w) a * serveU model data (par w) a *
            mu (servePsi r par eid srv.edgeTrans) b' w a := by
          intro a
          rw [hb' _ hpV, serveU_congr (data' := data) fun c' hc' => by
            rw [hrow1 _ hpV hpne c' hc', hkept _ hpV (.inl hpv) c' hc']]
          congr 1
          have hwch : w ∈ ch (par w) := (T.ch_mem _ hpV w).2 ⟨hw, hwr, rfl⟩
          obtain ⟨l1, l2, hl⟩ := List.append_of_mem hwch
          have hnd := T.ch_nodup _ hpV
          have hone : ∀ x ∈ l1 ++ l2, mu (servePsi r par eid srv.edgeTrans) b' x a = 1 := by
            intro x hx
            have hxch : x ∈ ch (par w) := by
              rw [hl]
              rcases List.mem_append.1 hx with hx | hx <;> simp [hx]
            have hxw : x ≠ w := by
              rintro rfl
              rw [hl, List.nodup_append, List.nodup_cons] at hnd
              rcases List.mem_append.1 hx with hx | hx
              · exact hnd.2.2 x hx x (by simp) rfl
              · exact hnd.2.1.1 hx
            obtain ⟨x1, x2, x3⟩ := (T.ch_mem _ hpV x).1 hxch
            have : b' x = vertMean model x := by
              refine messages_vertMean h hcons s P hb' x x1 fun y hy hxy c' hc' => ?_
              obtain ⟨u1, u2⟩ := Under.unrelated T hv x1 hwr x2 x3 hxw hwv hxy
              rw [hrow1 y hy (by rintro rfl; exact u1 .self) c' hc', hdrop y hy u1 u2 c' hc']
            have e := mu_vertMean h hcons s P x1 x2 a
            unfold mu at e ⊢
            rw [this]; exact e
          rw [hl, List.map_append, List.map_cons, List.prod_append, List.prod_cons,
            List.prod_eq_one (l := l1.map _) (by
              intro x hx; obtain ⟨y, hy, rfl⟩ := List.mem_map.1 hx; exact hone y (by simp [hy])),
            List.prod_eq_one (l := l2.map _) (by
              intro x hx; obtain ⟨y, hy, rfl⟩ := List.mem_map.1 hx; exact hone y (by simp [hy])), one_mul, mul_one]
        have e2 : ∀ a, fromParent r par eid srv.edgeTrans out w a
            = ∑ p, servePsi r par eid srv.edgeTrans w p a * out (par w) p := fun a => by rw [fromParent, if_neg hwr]
        have e3 : ∀ p, b' (par w) p * fromParent r par eid srv.edgeTrans out (par w) p
            = out (par w) p * mu (servePsi r par eid srv.edgeTrans) b' w p := by
          intro p
          rw [e1, hout _ hpV]; ring
        simp only [e2, e3]
        unfold mu
        simp only [Finset.mul_sum]
        rw [Finset.sum_comm]
        exact Finset.sum_congr rfl fun p _ => Finset.sum_congr rfl fun a _ => by ring
    rw [← hchain v hv .self]
    exact Finset.sum_congr rfl fun a _ => by rw [hbv]; ring
  rw [hres v hv c hc, main c hc, Finset.sum_congr rfl main]
  unfold predictive
  congr 1
  -- the weights add up to the probability of the evidence
  have := dataProb_sum (ι := Unit) h (fun _ => v) (fun _ => hv) (fun _ => ⟨c, hc⟩) ev
  rw [← this]
  unfold choices
  refine Finset.sum_nbij' (fun c _ => c) (fun f => f ()) ?_ ?_ ?_ ?_ ?_
  · intro c hc; exact Fintype.mem_piFinset.2 fun _ => hc
  · intro f hf; exact Fintype.mem_piFinset.1 hf ()
  · intro _ _; rfl
  · intro f _; rfl
  · intro c _
    congr 1; funext c'
    by_cases hcc : c' = c
    · subst hcc; simp
    · simp [hcc, Ne.symm hcc]

/-- When the row says nothing about the other branches, the block is the exact conditional distribution. -/
theorem marginals_exact_of_evidence (h : Model.Valid model) (hcons : Model.Consistent model) (s : Serves model srv)
    (hr : r < model.tree.numVertices) {prog : List Instr} (hp : makeProgram model.tree.treeGrid (some r) = .ok prog)
    (data : List Int) (junk : Nat → Fin M → K) {v : Nat} (hv : v < model.tree.numVertices) {c : Nat} (hc : c ∈ columns model v)
    (hd : ∀ u < model.tree.numVertices, ¬ Above model.tree.getEdges r u v → ¬ Above model.tree.getEdges r v u →
      ∀ c ∈ columns model u, data.getD c 0 = 0) :
    marginalsWith srv prog junk data c = predictive model (fun c => data.getD c 0) c := by
  rw [marginals_exact_partial h hcons s hr hp data junk hv hc]
  set ev := evidenceOn model _ _ with hev
  have key : ∀ u < model.tree.numVertices, ∀ c ∈ columns model u, ev c = data.getD c 0 := by
    intro u hu c hc
    rw [hev]
    by_cases hk : Above model.tree.getEdges r u v ∨ Above model.tree.getEdges r v u
    · exact (evidenceOn_mem h hu hc).1 hk
    · rw [(evidenceOn_mem h hu hc).2 hk]
      rw [not_or] at hk
      exact (hd u hu hk.1 hk.2 c hc).symm
  have e : ∀ x : Nat → Int, dataProb model (fun c => ev c + x c) = dataProb model (fun c => data.getD c 0 + x c) := by
    intro x
    unfold dataProb rowProb
    congr 1; funext z
    congr 1
    refine Finset.prod_congr rfl fun v hv => Finset.prod_congr rfl fun r hr => ?_
    simp only [key v (Finset.mem_range.1 hv) r hr]
  unfold predictive
  have e0 := e fun _ => 0
  simp only [add_zero] at e0
  rw [e, e0]

/-- The block of the root is exact for every row. -/
theorem marginals_exact_root (h : Model.Valid model) (hcons : Model.Consistent model) (s : Serves model srv)
    (hr : r < model.tree.numVertices) {prog : List Instr} (hp : makeProgram model.tree.treeGrid (some r) = .ok prog)
    (data : List Int) (junk : Nat → Fin M → K) {c : Nat} (hc : c ∈ columns model r) :
    marginalsWith srv prog junk data c = predictive model (fun c => data.getD c 0) c :=
  marginals_exact_of_evidence h hcons s hr hp data junk hr hc fun _ _ _ h => absurd (.inl rfl) h

/-- `server.marginals(data)`: no error, and every row has the values described above, the root being a centre of the tree. -/
theorem server_marginals_partial (h : Model.Valid model) (hcons : Model.Consistent model) (s : Serves model srv) (data : List (List Int))
    (hd : ∀ row ∈ data, row.length = model.raggedIndex.getLastD 0) (junk : Nat → Fin M → K) :
    ∃ r, IsCenter model.tree.numVertices model.tree.getEdges r ∧ ∃ f : List Int → Nat → K,
      srv.marginals junk data = .ok (data.map f) ∧ ∀ row, ∀ v < model.tree.numVertices, ∀ c ∈ columns model v,
        f row c = predictive model (evidenceOn model (fun u =>
          Above model.tree.getEdges r u v ∨ Above model.tree.getEdges r v u) fun c => row.getD c 0) c := by
  have ht : IsTree model.tree.numVertices (gridEdges model.tree.treeGrid) := h.isTree
  obtain ⟨r, hr1, hr2⟩ := findCenter_spec ht
  have hp : makeProgram model.tree.treeGrid (some r) = .ok srv.program := by
    rw [← s.program]
    simp only [makeProgram, hr1, bind, Except.bind]
  refine ⟨r, hr2, marginalsWith srv srv.program junk, ?_, fun row v hv c hc =>
    marginals_exact_partial h hcons s hr2.1 hp row junk hv hc⟩
  have ha : (data.all fun row => row.length == srv.raggedSize) = true := by
    rw [List.all_eq_true]
    intro row hrow
    rw [beq_iff_eq, hd row hrow, Server.raggedSize, s.ragged]
  simp only [Server.marginals, ha, pyAssert, if_true, bind, Except.bind]

end

/-- A path of three binary features whose values agreed in both rows. -/
def pathModel (K : Type) [Field K] : Model K 2 where
  tree := { numVertices := 3, treeGrid := makeTree [(0, 1), (1, 2)] }
  raggedIndex := [0, 2, 4, 6]
  vertSS _ _ := 1
  edgeSS _ a b := if a = b then 1 else 0
  featSS r m := if r % 2 = m.val then 1 else 0
  edgeLogits := [0, 0, 0]

theorem pathModel_grid (K : Type) [Field K] : (pathModel K).tree.treeGrid = [(0, 0, 1), (1, 1, 2)] := by
  change makeTree [(0, 1), (1, 2)] = _
  decide +kernel

theorem pathModel_valid (K : Type) [Field K] : Model.Valid (pathModel K) where
  isTree := by
    change IsTree 3 ((pathModel K).tree.treeGrid.map fun c => (c.2.1, c.2.2))
    rw [pathModel_grid]
    exact isTree_of_smaller rfl (by decide) (by decide)
  sorted := ⟨_, rfl⟩
  ragged := rfl
  mono := by change [0, 2, 4, 6].Pairwise (· ≤ ·); decide
  vert v _ m := by simp only [pathModel]; decide
  edge c _ a b := by simp only [pathModel]; split_ifs <;> decide
  feat v _ r _ m := by simp only [pathModel]; split_ifs <;> decide
  logits := by simp [pathModel]

theorem pathModel_consistent (K : Type) [Field K] : Model.Consistent (pathModel K) := by
  intro c _
  simp only [pathModel]
  decide

/-- Vertex 1 separates the ends of the path. -/
theorem pathModel_above : ¬ Above (pathModel ℚ).tree.getEdges 1 2 0 ∧ ¬ Above (pathModel ℚ).tree.getEdges 1 0 2 := by
  have e : (pathModel ℚ).tree.getEdges = [(0, 1), (1, 2)] := by
    rw [getEdges_eq, pathModel_grid]; rfl
  rw [e]
  refine ⟨?_, ?_⟩
  · rintro (h | h)
    · exact absurd h (by decide)
    · exact h (.single ⟨by decide, by decide⟩)
  · rintro (h | h)
    · exact absurd h (by decide)
    · exact h (.single ⟨by decide, by decide⟩)

/-- **C26 is false of the code**: on a path of three features the block of one end ignores what is observed at the other end,
and is not the conditional distribution. -/
theorem marginals_not_exact : ∃ srv : Server ℚ 2, Serves (pathModel ℚ) srv ∧ ∃ f : List Int → Nat → ℚ,
    srv.marginals (fun _ _ => 1) [[0, 0, 0, 0, 0, 1]] = .ok ([[0, 0, 0, 0, 0, 1]].map f) ∧
    f [0, 0, 0, 0, 0, 1] 0 = 1 / 2 ∧
    predictive (pathModel ℚ) (fun c => [0, 0, 0, 0, 0, 1].getD c 0) 0 = 65 / 162 := by
  obtain ⟨mst, hmst⟩ := exists_mst (K := ℚ)
  obtain ⟨srv, -, s, -⟩ := server_init hmst (pathModel_valid ℚ)
  have hV := pathModel_valid ℚ
  refine ⟨srv, s, marginalsWith srv srv.program (fun _ _ => 1), ?_, ?_, by decide +kernel⟩
  · have : srv.raggedSize = 6 := by rw [Server.raggedSize, s.ragged]; rfl
    simp [Server.marginals, this, pyAssert, bind, Except.bind]
  have hp : makeProgram (pathModel ℚ).tree.treeGrid (some 1) = .ok srv.program := by
    rw [← s.program, pathModel_grid]
    decide +kernel
  rw [marginals_exact_partial hV (pathModel_consistent ℚ) s (by decide) hp _ _ (v := 0) (by decide)
    (by simp [columns, pathModel])]
  have e : evidenceOn (pathModel ℚ) (fun u => Above (pathModel ℚ).tree.getEdges 1 u 0 ∨
      Above (pathModel ℚ).tree.getEdges 1 0 u) (fun c => [0, 0, 0, 0, 0, 1].getD c 0) = fun _ => 0 := by
    funext c
    by_cases hc : c ∈ columns (pathModel ℚ) 2
    · refine (evidenceOn_mem hV (by decide) hc).2 ?_
      rintro (h | h)
      · exact pathModel_above.1 h
      · exact pathModel_above.2 h
    · unfold evidenceOn
      split
      · have : c ≠ 5 := by rintro rfl; exact hc (by simp [columns, pathModel])
        match c, this with
        | 0, _ => rfl
        | 1, _ => rfl
        | 2, _ => rfl
        | 3, _ => rfl
        | 4, _ => rfl
        | n + 6, _ => simp
      · rfl
  rw [e]
  decide +kernel

end TreeCat
