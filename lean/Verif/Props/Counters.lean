import Verif.Model.Counters
import Verif.Props.SampleTree

/-!
# C92: the statistics of `sample_tree`
-/

set_option linter.unusedSectionVars false

namespace TreeCat

open Spec

/-! ### They change nothing -/

section
variable {K : Type} [Field K] [LinearOrder K] {m : Type → Type} [Monad m] [LawfulMonad m] [Choose K m]

theorem map_foldlM {n : Type → Type} [Monad n] [LawfulMonad n] {α β γ : Type} (f : α → β) (stepA : α → γ → n α) (stepB : β → γ → n β)
    (h : ∀ a c, f <$> stepA a c = stepB (f a) c) : ∀ (l : List γ) (a : α), f <$> l.foldlM stepA a = l.foldlM stepB (f a) := by
  intro l
  induction l with
  | nil => intro a; simp
  | cons c l ih =>
    intro a
    rw [List.foldlM_cons, List.foldlM_cons, map_bind, ← h, bind_map_left]
    simp only [ih]

theorem sampleTreeStepStats_fst (expf : K → K) (grid : Grid) (logits : List K) (x : TreeState × ScanStats) (e : Nat) :
    (Prod.fst <$> sampleTreeStepStats expf grid logits x e : ExceptT PyErr m TreeState) = sampleTreeStep expf grid logits x.1 e := by
  unfold sampleTreeStepStats sampleTreeStep chooseEdge
  simp only [map_bind, map_pure]
  congr 1
  funext p
  obtain ⟨k1, s, num, probs⟩ := p
  simp only
  split
  · simp only [bind_assoc]
    congr 1
    funext i
    split
    · simp
    · apply ExceptT.ext
      simp
  · simp

/-- **C92.** Collecting statistics does not change `sample_tree`: for every reading of the random draws, the edges are those of
`sampleTree`. -/
theorem sampleTreeStats_fst (expf : K → K) (junk : Nat → Nat) (grid : Grid) (logits : List K) (edges : List Edge) (perm : List Nat)
    (stats : TreeStats) :
    (Prod.fst <$> sampleTreeStats expf junk grid logits edges perm stats : ExceptT PyErr m (List Edge)) =
      sampleTree expf junk grid logits edges perm := by
  unfold sampleTreeStats sampleTree
  simp only
  split
  · simp
  · simp only [map_bind, map_pure]
    congr 1
    funext s
    rw [← map_foldlM Prod.fst _ _ (sampleTreeStepStats_fst expf grid logits) perm (s, ⟨0, [], 0⟩), bind_map_left]

end

/-! ### What they are -/

theorem crossIds_length (cr : Nat × Nat → Bool) : ∀ (ps : List (Nat × Nat)) (k : Nat), (crossIds cr k ps).length = ps.countP cr := by
  intro ps
  induction ps with
  | nil => intro k; rfl
  | cons p ps ih =>
    intro k
    rw [crossIds, List.countP_cons]
    split <;> simp [ih, *]

theorem countP_cross (C : Nat → Bool) (V : Nat) :
    (pairs V).countP (fun p => C p.2 != C p.1) = (List.range V).countP C * (V - (List.range V).countP C) := by
  induction V with
  | zero => rfl
  | succ n ih =>
    have hle : (List.range n).countP C ≤ n := by simpa using List.countP_le_length (p := C) (l := List.range n)
    have hadd : (List.range n).countP C + (List.range n).countP (fun v => !C v) = n := by
      have := List.length_eq_countP_add_countP C (l := List.range n)
      simp only [List.length_range] at this
      simpa using this.symm
    rw [pairs, List.countP_append, ih, List.countP_map, List.range_succ, List.countP_append]
    cases hn : C n with
    | true =>
      have : (List.range n).countP ((fun p : Nat × Nat => C p.2 != C p.1) ∘ fun v1 => (v1, n)) = (List.range n).countP (fun v => !C v) := by
        apply List.countP_congr; intro v _; simp [hn]
      rw [this]
      simp only [List.countP_singleton, hn, if_true]
      obtain ⟨d, hd⟩ := Nat.exists_eq_add_of_le hle
      have e1 : n - (List.range n).countP C = d := by omega
      have e2 : n + 1 - ((List.range n).countP C + 1) = d := by omega
      have e3 : (List.range n).countP (fun v => !C v) = d := by omega
      rw [e1, e2, e3]; ring
    | false =>
      have : (List.range n).countP ((fun p : Nat × Nat => C p.2 != C p.1) ∘ fun v1 => (v1, n)) = (List.range n).countP C := by
        apply List.countP_congr; intro v _; simp [hn]
      rw [this]
      simp only [List.countP_singleton, hn]
      obtain ⟨d, hd⟩ := Nat.exists_eq_add_of_le hle
      have e1 : n - (List.range n).countP C = d := by omega
      have e2 : n + 1 - ((List.range n).countP C + 0) = d + 1 := by omega
      simp only [Bool.false_eq_true, if_false]
      rw [e1, e2]; ring

/-- The number of edges between two non-empty components. -/
theorem validList_length {V : Nat} {s : TreeState} (I : StInv V s) {e : Nat} (he : e < s.e2k.length) :
    ∃ c, 1 ≤ c ∧ c < V ∧ (validList V s.e2k e).length = c * (V - c) := by
  obtain ⟨N', C', -, -, h3, h4⟩ := jitRemoveEdge_spec I he
  classical
  have hcr : validList V s.e2k e = crossIds (fun p => C'.getD p.2 false != C'.getD p.1 false) 0 (pairs V) := by
    unfold validList
    apply crossIds_congr
    intro p hp
    have hpV := (mem_pairs V p).1 hp
    rw [Bool.eq_iff_iff, bne_iff_ne, decide_eq_true_iff, ne_comm, ne_eq, h4 p.1 (by omega) p.2 (by omega)]
  have hlen : (validList V s.e2k e).length = (List.range V).countP (fun v => C'.getD v false) *
      (V - (List.range V).countP (fun v => C'.getD v false)) := by
    rw [hcr, crossIds_length]
    exact countP_cross (fun v => C'.getD v false) V
  refine ⟨_, ?_, ?_, hlen⟩
  all_goals
    have hpos := List.length_pos_of_mem (self_mem_validList I.ltree he)
    rw [hlen] at hpos
    have := Nat.pos_of_mul_pos_left hpos
    have := Nat.pos_of_mul_pos_right hpos
    omega

section
variable {K : Type} [Field K] [LinearOrder K] [IsStrictOrderedRing K]

theorem sampleTreeStepStats_poss (expf : K → K) {V : Nat} {logits : List K} (hl : logits.length = tri V) {x : TreeState × ScanStats}
    (I : StInv V x.1) {e : Nat} (he : e < x.1.e2k.length) :
    ∀ r, (sampleTreeStepStats expf (completeGrid V) logits x e : ExceptT PyErr Poss _).run r →
      ∃ s' k2 d, r = .ok (s', ⟨x.2.accepted + (if x.1.e2k[e] ≠ k2 then 1 else 0), x.2.log2Choices ++ [(validList V x.1.e2k e).length.size],
        x.2.infeasible + d⟩) ∧ StInv V s' ∧ s'.e2k = x.1.e2k.set e k2 ∧ d ≤ 1 ∧ ((∀ y, 0 < expf y) → d = 0) := by
  obtain ⟨N', C', buf, h1, h2, h3, h4, h5⟩ := proposeEdges_spec expf hl I he
  have hlen := validProbs_length expf logits V x.1.e2k e
  intro r hr
  unfold sampleTreeStepStats at hr
  rw [h1, liftPy_ok_bind] at hr
  simp only at hr
  have hput : ∀ (k2 d : Nat), k2 ∈ validList V x.1.e2k e → d ≤ 1 → ((∀ y, 0 < expf y) → d = 0) →
      (do
        let s ← liftPy (placeEdge (completeGrid V) ⟨x.1.e2k, N', C', buf⟩ e k2)
        pure (s, (⟨x.2.accepted + (if x.1.e2k[e] ≠ k2 then 1 else 0), x.2.log2Choices ++ [(validList V x.1.e2k e).length.size],
          x.2.infeasible + d⟩ : ScanStats)) : ExceptT PyErr Poss (TreeState × ScanStats)).run r →
      ∃ s' k2 d, r = .ok (s', ⟨x.2.accepted + (if x.1.e2k[e] ≠ k2 then 1 else 0), x.2.log2Choices ++ [(validList V x.1.e2k e).length.size],
        x.2.infeasible + d⟩) ∧ StInv V s' ∧ s'.e2k = x.1.e2k.set e k2 ∧ d ≤ 1 ∧ ((∀ y, 0 < expf y) → d = 0) := by
    intro k2 d hk hd hd' hr
    obtain ⟨s', h6, h7, h8⟩ := placeEdge_spec I.ltree he h2 h3 h4 hk
    rw [h6, liftPy_ok_bind] at hr
    exact ⟨s', k2, d, hr, h7, h8, hd, hd'⟩
  rcases (poss_run_bind _ _ _).1 hr with ⟨⟨k2, d⟩, h6, h7⟩ | ⟨er, h6, -⟩
  · simp only at h7
    unfold chooseEdge at h6
    split at h6
    · rcases (poss_run_bind _ _ _).1 h6 with ⟨i, h8, h9⟩ | ⟨er, -, h9⟩
      · split at h9
        · rename_i hi
          have hg : pyGet buf i = .ok ((validList V x.1.e2k e)[i]) := by
            rw [pyGet_eq_ok]
            have : (buf.take (validList V x.1.e2k e).length)[i]? = buf[i]? := by
              rw [List.getElem?_take_of_lt hi]
            rw [← this, h5, List.getElem?_eq_getElem hi]
          simp only at h9
          rw [hg, liftPy_ok_bind] at h9
          have h9 : Except.ok (k2, d) = Except.ok ((validList V x.1.e2k e)[i], 0) := h9
          cases h9
          exact hput _ 0 (List.getElem_mem hi) (by omega) (fun _ => rfl) h7
        · have h9 : Except.ok (k2, d) = Except.error PyErr.indexError := h9
          cases h9
      · cases h9
    · rename_i hsum
      have h6 : Except.ok (k2, d) = Except.ok (x.1.e2k[e], 1) := h6
      cases h6
      refine hput _ 1 (self_mem_validList I.ltree he) (by omega) (fun hpos => absurd ?_ hsum) h7
      refine probsOf_sum_pos hpos _ fun h0 => ?_
      have := self_mem_validList I.ltree he
      rw [List.map_eq_nil_iff] at h0
      rw [h0] at this; simp at this
  · exfalso
    unfold chooseEdge at h6
    split at h6
    · rcases (poss_run_bind _ _ _).1 h6 with ⟨i, h8, h9⟩ | ⟨er, h9, -⟩
      · unfold sampleIndex at h8
        obtain ⟨b, ⟨j, -, hj⟩, h10⟩ := h8
        have hj : b = j.val := hj
        have h10 : Except.ok i = Except.ok b := h10
        cases h10
        have hi : i < (validList V x.1.e2k e).length := by have := j.isLt; omega
        rw [if_pos hi] at h9
        have hg : pyGet buf i = .ok ((validList V x.1.e2k e)[i]) := by
          rw [pyGet_eq_ok]
          have : (buf.take (validList V x.1.e2k e).length)[i]? = buf[i]? := by
            rw [List.getElem?_take_of_lt hi]
          rw [← this, h5, List.getElem?_eq_getElem hi]
        simp only at h9
        rw [hg, liftPy_ok_bind] at h9
        have h9 : Except.error er = Except.ok ((validList V x.1.e2k e)[i], 0) := h9
        cases h9
      · obtain ⟨b, -, h10⟩ := h9
        have h10 : Except.error er = Except.ok b := h10
        cases h10
    · have h6 : Except.error er = Except.ok (x.1.e2k[e], 1) := h6
      cases h6

theorem sampleTreeFoldStats_poss (expf : K → K) {V : Nat} {logits : List K} (hl : logits.length = tri V) :
    ∀ (slots : List Nat) (x : TreeState × ScanStats), StInv V x.1 → (∀ e ∈ slots, e + 1 < V) → slots.Nodup →
      ∀ r, (slots.foldlM (sampleTreeStepStats expf (completeGrid V) logits) x : ExceptT PyErr Poss _).run r →
        ∃ s' sc', r = .ok (s', sc') ∧ StInv V s' ∧ (∀ e, e ∉ slots → s'.e2k[e]? = x.1.e2k[e]?) ∧
          sc'.accepted = x.2.accepted + slots.countP (fun e => s'.e2k[e]? ≠ x.1.e2k[e]?) ∧
          (∃ sizes : List Nat, sizes.length = slots.length ∧ (∀ n ∈ sizes, ∃ c, 1 ≤ c ∧ c < V ∧ n = c * (V - c)) ∧
            sc'.log2Choices = x.2.log2Choices ++ sizes.map Nat.size) ∧
          x.2.infeasible ≤ sc'.infeasible ∧ sc'.infeasible ≤ x.2.infeasible + slots.length ∧
          ((∀ y, 0 < expf y) → sc'.infeasible = x.2.infeasible) := by
  intro slots
  induction slots with
  | nil =>
    intro x I _ _ r hr
    have hr : r = .ok x := hr
    exact ⟨x.1, x.2, hr, I, fun _ _ => rfl, by simp, ⟨[], rfl, by simp, by simp⟩, le_refl _, by simp, fun _ => rfl⟩
  | cons e slots ih =>
    intro x I hs hn r hr
    have he : e < x.1.e2k.length := by
      have := I.ltree.length
      have := hs e (by simp); omega
    obtain ⟨hen, hn⟩ := List.nodup_cons.1 hn
    have hs' : ∀ e ∈ slots, e + 1 < V := fun e he => hs e (by simp [he])
    rw [List.foldlM_cons] at hr
    rcases (poss_run_bind _ _ _).1 hr with ⟨x1, h1, h2⟩ | ⟨er, h1, -⟩
    · obtain ⟨s1, k2, d, h3, I1, h4, hd, hd'⟩ := sampleTreeStepStats_poss expf hl I he _ h1
      cases h3
      obtain ⟨s', sc', h5, I', h6, h7, ⟨sizes, h8, h9, h10⟩, h11, h12, h13⟩ := ih _ I1 hs' hn r h2
      simp only at h6 h7 h10 h11 h12 h13
      have hsame : ∀ e', e' ≠ e → s1.e2k[e']? = x.1.e2k[e']? := by
        intro e' hne
        rw [h4, List.getElem?_set_ne hne.symm]
      have hat : s'.e2k[e]? = some k2 := by
        rw [h6 e hen, h4, List.getElem?_set_self he]
      refine ⟨s', sc', h5, I', ?_, ?_, ⟨(validList V x.1.e2k e).length :: sizes, by simp [h8], ?_, ?_⟩, by omega, ?_, ?_⟩
      · intro e' he'
        rw [List.mem_cons, not_or] at he'
        rw [h6 e' he'.2, hsame e' he'.1]
      · rw [h7, List.countP_cons, hat, List.getElem?_eq_getElem he]
        have : slots.countP (fun e' => decide (s'.e2k[e']? ≠ s1.e2k[e']?)) = slots.countP (fun e' => decide (s'.e2k[e']? ≠ x.1.e2k[e']?)) := by
          apply List.countP_congr
          intro e' he'
          rw [hsame e' fun e0 => hen (e0 ▸ he')]
        rw [this]
        have hiff : (some k2 ≠ some x.1.e2k[e]) ↔ x.1.e2k[e] ≠ k2 := by
          simp [eq_comm]
        by_cases hk : x.1.e2k[e] ≠ k2
        · rw [if_pos hk, if_pos (by simpa using hiff.2 hk)]; omega
        · have hk' := not_not.1 hk
          rw [if_neg hk, if_neg (by simp [hk'])]; omega
      · intro n hnm
        rcases List.mem_cons.1 hnm with rfl | hnm
        · exact validList_length I he
        · exact h9 n hnm
      · rw [h10]; simp
      · simp only [List.length_cons]; omega
      · intro hpos
        rw [h13 hpos, hd' hpos]; omega
    · obtain ⟨s1, k2, d, h3, -⟩ := sampleTreeStepStats_poss expf hl I he _ h1
      cases h3

/-- **C92.** On a spanning tree with at least two edges, whatever is drawn, `sample_tree` counts one call and as many proposals as there are
edges; it accepts at most so many, and at least as many as there are edges in its result that were not in its argument; it records the
number accepted; and for every proposal it records the size in bits of the number `c (V - c)` of edges between two components of `c` and
`V - c` vertices. With an exponential function that does not underflow no proposal is infeasible. -/
theorem sampleTreeStats_spec (expf : K → K) (V : Nat) (edges : List Edge) (h : IsTree V edges) (hE : 2 ≤ edges.length) (junk : Nat → Nat)
    (logits : List K) (hl : logits.length = V * (V - 1) / 2) (perm : List Nat) (hp : perm.Perm (List.range edges.length)) (stats : TreeStats) :
    ∃ grid, makeCompleteGraph V = .ok grid ∧
      (∃ r, (sampleTreeStats expf junk grid logits edges perm stats : ExceptT PyErr Poss _).run r) ∧
      ∀ r, (sampleTreeStats expf junk grid logits edges perm stats : ExceptT PyErr Poss _).run r →
        ∃ out stats' a, ∃ sizes : List Nat, r = .ok (out, stats') ∧ stats'.calls = stats.calls + 1 ∧ stats'.propose = stats.propose + edges.length ∧
          stats'.accept = stats.accept + a ∧ stats'.accepted = stats.accepted ++ [a] ∧ a ≤ edges.length ∧
          (out.filter fun p => (p.1, p.2) ∉ edges ∧ (p.2, p.1) ∉ edges).length ≤ a ∧
          sizes.length = edges.length ∧ (∀ n ∈ sizes, ∃ c, 1 ≤ c ∧ c < V ∧ n = c * (V - c)) ∧
          (∀ b, stats'.log2Choices b = stats.log2Choices b + (sizes.map Nat.size).count b) ∧
          stats.infeasible ≤ stats'.infeasible ∧ stats'.infeasible ≤ stats.infeasible + edges.length ∧
          ((∀ y, 0 < expf y) → stats'.infeasible = stats.infeasible) := by
  have hV := h.card
  obtain ⟨grid, hgrid, ⟨r0, hr0⟩, -⟩ := sampleTree_isTree expf V edges h junk logits hl perm hp
  refine ⟨grid, hgrid, ?_, ?_⟩
  · rw [← sampleTreeStats_fst (m := Poss) expf junk grid logits edges perm stats, ExceptT.run_map] at hr0
    obtain ⟨r1, h1, -⟩ := hr0
    exact ⟨r1, h1⟩
  · rw [makeCompleteGraph_eq V] at hgrid
    cases hgrid
    have hmem' : ∀ e ∈ perm, e + 1 < V := fun e he => by
      have := List.mem_range.1 (hp.mem_iff.1 he); omega
    obtain ⟨s, h1, I, hs0⟩ := treeStateInit_spec h junk
    intro r hr
    unfold sampleTreeStats at hr
    simp only [if_neg (show ¬ edges.length ≤ 1 by omega)] at hr
    rw [h1, liftPy_ok_bind] at hr
    rcases (poss_run_bind _ _ _).1 hr with ⟨⟨s', sc'⟩, h2, h3⟩ | ⟨er, h2, -⟩
    · obtain ⟨s1, sc1, h4, I', h6, h7, ⟨sizes, h8, h9, h10⟩, h11, h12, h13⟩ :=
        sampleTreeFoldStats_poss expf hl perm _ I hmem' (hp.nodup_iff.2 List.nodup_range) _ h2
      cases h4
      simp only at h3
      have hm := mapM_ok (fun k => do
            let c ← pyGet (completeGrid V) k
            .ok (c.2.1, c.2.2)) (pairAt V) s'.e2k (by
        intro k hk
        rw [pyGet_completeGrid (I'.ltree.ids k hk)]
        rfl)
      rw [hm, liftPy_ok_bind] at h3
      have hlen : ((s'.e2k.map (pairAt V)).insertionSort edgeLe).length = edges.length := by
        have := I'.ltree.length
        simp; omega
      rw [hlen] at h3
      simp only [beq_self_eq_true] at h3
      rw [show pyAssert true = .ok () from rfl, liftPy_ok_bind] at h3
      have h3 : r = .ok ((s'.e2k.map (pairAt V)).insertionSort edgeLe, _) := h3
      have hpl : perm.length = edges.length := by simpa using hp.length_eq
      refine ⟨_, _, sc'.accepted, sizes, h3, rfl, rfl, rfl, rfl, ?_, ?_, by rw [h8, hpl], h9, ?_, ?_, ?_, ?_⟩
      · rw [h7, ← hpl]
        simpa using List.countP_le_length
      · rw [h7, ← List.countP_eq_length_filter, (List.perm_insertionSort _ _).countP_eq, hp.countP_eq]
        simp only [zero_add]
        have hl' : s'.e2k.length = edges.length := by have := I'.ltree.length; omega
        have hrange : s'.e2k.map (pairAt V) = (List.range edges.length).map fun e => pairAt V (s'.e2k.getD e 0) := by
          refine List.ext_getElem (by simp [hl']) fun i h1 h2 => ?_
          have hi : i < s'.e2k.length := by simpa using h1
          simp [List.getElem?_eq_getElem hi]
        rw [hrange, List.countP_map]
        apply List.countP_mono_left
        intro e he hnew
        have he : e < edges.length := List.mem_range.1 he
        simp only [Function.comp_apply, decide_eq_true_eq] at hnew ⊢
        intro hsame
        have hk : s'.e2k.getD e 0 = findCompleteEdge edges[e].1 edges[e].2 := by
          rw [List.getD_eq_getElem?_getD, hsame, hs0]
          simp [he]
        have hpair : pairAt V (s'.e2k.getD e 0) = sortPair edges[e] := by
          have := congrArg (fun l => l[e]?) (treeOf_ids h).1
          simp only [treeOf, List.getElem?_map, List.getElem?_eq_getElem he, Option.map_some, Option.some.injEq] at this
          rw [hk, this]
        rw [hpair] at hnew
        unfold sortPair at hnew
        have hm := List.getElem_mem he
        split at hnew
        · exact hnew.2 hm
        · exact hnew.1 hm
      · intro b
        simp only [h10, List.nil_append]
      · simpa using h11
      · simpa [hpl] using h12
      · intro hpos
        simpa using h13 hpos
    · obtain ⟨s1, sc1, h4, -⟩ := sampleTreeFoldStats_poss expf hl perm _ I hmem' (hp.nodup_iff.2 List.nodup_range) _ h2
      cases h4

end

/-! ### The report -/

/-- **C92.** The report lists every series, histogram, counter and timer once. The first three are in the order of their names, so are the
values of each histogram; the timers are in the order of falling times, and those with equal times stay in the order of `TIMERS`. -/
theorem logProfilingStats_spec {K : Type} [LinearOrder K] (series : List (List Char × List Nat)) (histograms : List (List Char × List (Nat × Nat)))
    (counters : List (List Char × Nat)) (timers : List (List Char × Timer K)) :
    let r := logProfilingStats series histograms counters timers
    (r.series.Perm series ∧ r.series.Pairwise fun a b => a.1 ≤ b.1) ∧
    (r.counters.Perm counters ∧ r.counters.Pairwise fun a b => a.1 ≤ b.1) ∧
    ((r.histograms.map Prod.fst).Perm (histograms.map Prod.fst) ∧ (r.histograms.map Prod.fst).Pairwise (· ≤ ·) ∧
      (∀ h ∈ r.histograms, ∃ items, (h.1, items) ∈ histograms ∧ h.2.Perm items ∧ h.2.Pairwise fun a b => a.1 ≤ b.1)) ∧
    (r.timers.Perm (timers.map fun t => (t.2.elapsed, t.2.count, t.1)) ∧ (r.timers.Pairwise fun a b => b.1 ≤ a.1) ∧
      ∀ x, r.timers.filter (fun t => t.1 = x) = (timers.map fun t => (t.2.elapsed, t.2.count, t.1)).filter fun t => t.1 = x) := by
  intro r
  have hst : Std.Total (α := List Char × List Nat) fun a b => a.1 ≤ b.1 := ⟨fun a b => le_total a.1 b.1⟩
  have hst' : IsTrans (List Char × List Nat) fun a b => a.1 ≤ b.1 := ⟨fun a b c => le_trans⟩
  have hht : Std.Total (α := List Char × List (Nat × Nat)) fun a b => a.1 ≤ b.1 := ⟨fun a b => le_total a.1 b.1⟩
  have hht' : IsTrans (List Char × List (Nat × Nat)) fun a b => a.1 ≤ b.1 := ⟨fun a b c => le_trans⟩
  have hct : Std.Total (α := List Char × Nat) fun a b => a.1 ≤ b.1 := ⟨fun a b => le_total a.1 b.1⟩
  have hct' : IsTrans (List Char × Nat) fun a b => a.1 ≤ b.1 := ⟨fun a b c => le_trans⟩
  have hit : Std.Total (α := Nat × Nat) fun a b => a.1 ≤ b.1 := ⟨fun a b => le_total a.1 b.1⟩
  have hit' : IsTrans (Nat × Nat) fun a b => a.1 ≤ b.1 := ⟨fun a b c => le_trans⟩
  have htt : Std.Total (α := K × Nat × List Char) fun a b => b.1 ≤ a.1 := ⟨fun a b => le_total b.1 a.1⟩
  have htt' : IsTrans (K × Nat × List Char) fun a b => b.1 ≤ a.1 := ⟨fun a b c h1 h2 => le_trans h2 h1⟩
  refine ⟨⟨List.perm_insertionSort _ _, List.pairwise_insertionSort _ _⟩, ⟨List.perm_insertionSort _ _, List.pairwise_insertionSort _ _⟩,
    ⟨?_, ?_, ?_⟩, List.perm_insertionSort _ _, List.pairwise_insertionSort _ _, fun x => ?_⟩
  · simp only [r, logProfilingStats, List.map_map, Function.comp_def]
    exact (List.perm_insertionSort _ _).map _
  · simp only [r, logProfilingStats, List.map_map, Function.comp_def]
    rw [List.pairwise_map]
    exact List.pairwise_insertionSort _ _
  · intro h hh
    obtain ⟨g, hg, rfl⟩ := List.mem_map.1 hh
    exact ⟨g.2, (List.perm_insertionSort _ _).mem_iff.1 hg, List.perm_insertionSort _ _, List.pairwise_insertionSort _ _⟩
  · set l := timers.map fun t => (t.2.elapsed, t.2.count, t.1)
    have hsub : (l.filter fun t => t.1 = x).Sublist (l.insertionSort fun a b => b.1 ≤ a.1) := by
      apply List.sublist_insertionSort
      · rw [List.pairwise_filter]
        refine List.pairwise_of_forall ?_
        intro a b ha hb
        simp only [decide_eq_true_eq] at ha hb
        rw [ha, hb]
      · exact List.filter_sublist
    have hsub' := hsub.filter fun t => t.1 = x
    rw [List.filter_filter] at hsub'
    simp only [Bool.and_self] at hsub'
    refine (hsub'.eq_of_length ?_).symm
    exact ((List.perm_insertionSort (fun a b => b.1 ≤ a.1) l).filter _).length_eq.symm

/-- Two series, a histogram, two counters and three timers. -/
example : (logProfilingStats (K := Rat) [(['b'], [1, 2]), (['a'], [])] [(['h'], [(3, 1), (2, 5)])] [(['z'], 1), (['y'], 2)]
      [(['p'], ⟨1, 1⟩), (['q'], ⟨2, 3⟩), (['r'], ⟨1, 7⟩)]).timers = [(2, 3, ['q']), (1, 1, ['p']), (1, 7, ['r'])] := by
  decide +kernel

/-- The path 0-1-2-3 with equal logits meets the hypotheses of `sampleTreeStats_spec`. -/
example : IsTree 4 [(0, 1), (1, 2), (2, 3)] ∧ 2 ≤ [(0, 1), (1, 2), (2, 3)].length ∧ (List.replicate 6 (0 : Rat)).length = 4 * (4 - 1) / 2 ∧
    [2, 0, 1].Perm (List.range 3) :=
  ⟨isTree_of_smaller rfl (by decide) (by decide), by decide, by decide, by decide⟩

end TreeCat
