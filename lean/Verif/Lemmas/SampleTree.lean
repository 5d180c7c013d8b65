import Verif.Lemmas.Split
import Verif.Lemmas.Complete

/-!
# One iteration of `sample_tree`

The arrays represent a spanning tree; an iteration picks, from the ids of all
edges that reconnect the two parts, a new id for one slot.
-/

namespace TreeCat

open Spec

/-! ### Component search -/

theorem dfsPush_spec {V : Nat} {row rit : List Nat} (hrow : Rep V row rit) {C : List Bool}
    (hC : ∀ x ∈ rit, x < C.length) :
    ∀ (k i : Nat) (stack items : List Nat), i + k = rit.length → Rep V stack items →
      (items ++ (rit.drop i).filter fun x => !(C.getD x false)).Nodup →
      (items ++ (rit.drop i).filter fun x => !(C.getD x false)).length < V →
      ∃ stack', dfsPush row C k i stack = .ok stack' ∧
        Rep V stack' (items ++ (rit.drop i).filter fun x => !(C.getD x false)) := by
  intro k
  induction k with
  | zero =>
    intro i stack items hi hs _ _
    refine ⟨stack, rfl, ?_⟩
    rw [List.drop_of_length_le (by omega)]
    simpa using hs
  | succ k ih =>
    intro i stack items hi hs hn hl
    have hil : i < rit.length := by omega
    have hget := hrow.get hil
    have hx := hC rit[i] (List.getElem_mem hil)
    have hCg : pyGet C rit[i] = .ok (C.getD rit[i] false) := pyGet_eq_ok.2 (by
      rw [List.getD_eq_getElem?_getD, List.getElem?_eq_getElem hx]; rfl)
    rw [List.drop_eq_getElem_cons hil, List.filter_cons] at hn hl ⊢
    cases hc : C.getD rit[i] false with
    | true =>
      rw [hc] at hn hl
      simp only [Bool.not_true, Bool.false_eq_true, if_false] at hn hl ⊢
      obtain ⟨stack', h1, h2⟩ := ih (i + 1) stack items (by omega) hs hn hl
      refine ⟨stack', ?_, h2⟩
      simp only [dfsPush, hget, hCg, hc, bind, Except.bind, if_true]
      exact h1
    | false =>
      rw [hc] at hn hl
      simp only [Bool.not_false, if_true] at hn hl ⊢
      have hni : rit[i] ∉ items := by
        rw [List.nodup_append] at hn
        intro hm; exact hn.2.2 _ hm _ (by simp) rfl
      obtain ⟨st1, h1, h2⟩ := jitSetAdd_rep hs hni (by
        rw [List.length_append, List.length_cons] at hl; omega)
      obtain ⟨stack', h3, h4⟩ := ih (i + 1) st1 (items ++ [rit[i]]) (by omega) h2
        (by simpa using hn) (by simpa using hl)
      refine ⟨stack', ?_, by simpa using h4⟩
      simp only [dfsPush, hget, hCg, hc, bind, Except.bind, Bool.false_eq_true, if_false, h1]
      exact h3

section
variable {V : Nat} {edges : List (Nat × Nat)} {e a b : Nat} {d par : Nat → Nat}

/-- Invariant of the component search: `M` marked, `S` on the stack. -/
structure DfsInv (V : Nat) (par : Nat → Nat) (a b : Nat) (C : List Bool) (M S : List Nat) : Prop where
  len : C.length = V
  marks : ∀ x, C.getD x false = true ↔ x ∈ M
  nodup : (M ++ S).Nodup
  side : ∀ x ∈ M ++ S, x < V ∧ ¬ Sub V par a b x
  parent : ∀ x ∈ M ++ S, x ≠ a → par x ∈ M
  root : a ∈ M ++ S
  closed : ∀ c < V, c ≠ a → c ≠ b → par c ∈ M → c ∈ M ++ S

theorem dfsLoop_spec (S : Split V edges e a b d par) {N : List (List Nat)}
    (hN : RepN V (Adj (edges.eraseIdx e)) N) :
    ∀ (fuel : Nat) (C : List Bool) (stack M items : List Nat), DfsInv V par a b C M items →
      Rep V stack items → V ≤ fuel + M.length →
      ∃ C', dfsLoop N fuel C stack = .ok C' ∧ C'.length = V ∧
        ∀ x < V, C'.getD x false = true ↔ ¬ Sub V par a b x := by
  have fin : ∀ C M, DfsInv V par a b C M [] →
      ∀ x < V, C.getD x false = true ↔ ¬ Sub V par a b x := by
    intro C M I x hx
    rw [I.marks]
    constructor
    · intro h; exact (I.side x (by simpa using h)).2
    · have key : ∀ n, ∀ x < V, d x = n → ¬ Sub V par a b x → x ∈ M := by
        intro n
        induction n with
        | zero =>
          intro x hx hd hs
          by_cases h : x = a
          · subst h; simpa using I.root
          · have := S.rooted.d_pos hx h; omega
        | succ n ih =>
          intro x hx hd hs
          by_cases h : x = a
          · subst h; simpa using I.root
          · have h1 := S.rooted.d_par x hx h
            have h2 := ih _ (S.rooted.par_lt x hx h) (by omega) (fun hc => hs (.step hx h hc))
            have := I.closed x hx h (fun hb => hs (hb ▸ .refl)) h2
            simpa using this
      exact key _ x hx rfl
  intro fuel
  induction fuel with
  | zero =>
    intro C stack M items I hs hf
    rcases List.eq_nil_or_concat items with hi | ⟨its, x, hi⟩
    · subst hi
      refine ⟨C, ?_, I.len, fin C M I⟩
      unfold dfsLoop
      simp only [hs.size, bind, Except.bind]
      simp
    · have := length_le_of_nodup_lt I.nodup (fun x hx => (I.side x hx).1)
      rw [hi] at this
      simp at this; omega
  | succ fuel ih =>
    intro C stack M items I hs hf
    rcases List.eq_nil_or_concat items with hi | ⟨its, x, hi⟩
    · subst hi
      refine ⟨C, ?_, I.len, fin C M I⟩
      unfold dfsLoop
      simp only [hs.size, bind, Except.bind]
      simp
    · rw [List.concat_eq_append] at hi
      subst hi
      obtain ⟨hxV, hxs⟩ := I.side x (by simp)
      have hxb : x ≠ b := fun h => hxs (h ▸ .refl)
      obtain ⟨st1, h1, h2⟩ := jitSetPop_rep hs
      obtain ⟨rit, h3, h4⟩ := hN.rows x hxV
      have hxM : x ∉ M := by
        have := I.nodup
        rw [List.nodup_append] at this
        intro h; exact this.2.2 x h x (by simp) rfl
      have hxi : x ∉ its := by
        have := I.nodup
        rw [List.nodup_append, List.nodup_append] at this
        intro h; exact this.2.1.2.2 x h x (by simp) rfl
      set C1 := C.set x true with hC1
      have hC1len : C1.length = V := by simp [hC1, I.len]
      have hC1m : ∀ y, C1.getD y false = true ↔ y ∈ M ++ [x] := by
        intro y
        rw [hC1, List.getD_eq_getElem?_getD, List.getElem?_set]
        by_cases hy : x = y
        · subst hy; simp [I.len, hxV]
        · rw [if_neg hy, ← List.getD_eq_getElem?_getD, I.marks]
          simp [Ne.symm hy]
      -- unmarked neighbours are children other than `b`
      have hnew : ∀ y, y ∈ rit.filter (fun y => !(C1.getD y false)) ↔
          y < V ∧ y ≠ a ∧ y ≠ b ∧ par y = x := by
        intro y
        rw [List.mem_filter, h4, S.adj_forest]
        have hm : (!(C1.getD y false)) = true ↔ y ∉ M ++ [x] := by
          rw [← hC1m]; simp
        rw [hm]
        constructor
        · rintro ⟨⟨hadj, hne⟩, hun⟩
          have hyV := (S.rooted.range _ _ hadj).2
          rcases S.rooted.edge _ _ hadj with ⟨h5, h6⟩ | ⟨h5, h6⟩
          · exact absurd (by rw [← h6]; exact List.mem_append_left _ (I.parent x (by simp) h5)) hun
          · refine ⟨hyV, h5, ?_, h6⟩
            rintro rfl
            exact hne (.inl ⟨by rw [← h6, S.par_b], rfl⟩)
        · rintro ⟨h5, h6, h7, h8⟩
          have ha := S.rooted.par_adj y h5 h6
          rw [h8] at ha
          refine ⟨⟨ha.symm, ?_⟩, ?_⟩
          · rintro (⟨-, h⟩ | ⟨-, h⟩)
            · exact h7 h
            · exact h6 h
          · intro hmem
            rcases List.mem_append.1 hmem with h | h
            · have := I.parent y (List.mem_append_left _ h) h6
              rw [h8] at this; exact hxM this
            · rw [List.mem_singleton] at h
              have := S.rooted.d_par y h5 h6
              rw [h8, ← h] at this; omega
      set new := rit.filter (fun y => !(C1.getD y false)) with hnewdef
      have hnewdis : ∀ y ∈ new, y ∉ M ++ (its ++ [x]) := by
        intro y hy hm
        obtain ⟨h5, h6, h7, h8⟩ := (hnew y).1 hy
        have := I.parent y hm h6
        rw [h8] at this; exact hxM this
      have I' : DfsInv V par a b C1 (M ++ [x]) (its ++ new) := by
        have hperm : (M ++ [x] ++ (its ++ new)).Perm (M ++ (its ++ [x]) ++ new) := by
          rw [List.append_assoc, List.append_assoc]
          refine List.Perm.append_left M ?_
          rw [← List.append_assoc]
          exact List.Perm.append_right new List.perm_append_comm
        have hmem : ∀ y, y ∈ M ++ [x] ++ (its ++ new) ↔ y ∈ M ++ (its ++ [x]) ∨ y ∈ new := by
          intro y; rw [hperm.mem_iff, List.mem_append]
        refine ⟨hC1len, hC1m, ?_, ?_, ?_, ?_, ?_⟩
        · rw [hperm.nodup_iff, List.nodup_append]
          refine ⟨I.nodup, h3.nodup.filter _, ?_⟩
          rintro p hp q hq rfl
          exact hnewdis p hq hp
        · intro y hy
          rcases (hmem y).1 hy with h | h
          · exact I.side y h
          · obtain ⟨h5, h6, h7, h8⟩ := (hnew y).1 h
            refine ⟨h5, fun hsub => ?_⟩
            cases hsub with
            | refl => exact h7 rfl
            | step _ _ h9 => rw [h8] at h9; exact hxs h9
        · intro y hy hya
          rcases (hmem y).1 hy with h | h
          · exact List.mem_append_left _ (I.parent y h hya)
          · rw [((hnew y).1 h).2.2.2]; simp
        · rw [hmem]; exact .inl I.root
        · intro c h5 h6 h7 h8
          rw [hmem]
          rcases List.mem_append.1 h8 with h | h
          · exact .inl (I.closed c h5 h6 h7 h)
          · exact .inr ((hnew c).2 ⟨h5, h6, h7, by simpa using h⟩)
      have hbound : (its ++ new).length < V := by
        have hn := I'.nodup
        have hb : b ∉ M ++ [x] ++ (its ++ new) := fun h => (I'.side b h).2 .refl
        have := length_le_of_nodup_lt (V := V) (List.nodup_cons.2 ⟨hb, hn⟩) (by
          intro y hy
          rcases List.mem_cons.1 hy with rfl | hy
          · exact S.lt_b
          · exact (I'.side y hy).1)
        simp only [List.length_cons, List.length_append] at this ⊢
        omega
      obtain ⟨st2, h5, h6⟩ := dfsPush_spec h3 (C := C1) (fun y hy => by
          rw [hC1len]
          have := (S.adj_forest x y).1 ((h4 y).1 hy)
          exact (S.rooted.range _ _ this.1).2)
        rit.length 0 st1 its (by omega) h2
        (by rw [List.drop_zero]; have := I'.nodup; rw [List.nodup_append] at this; exact this.2.1)
        (by rw [List.drop_zero]; exact hbound)
      rw [List.drop_zero] at h6
      obtain ⟨C', h7, h8, h9⟩ := ih C1 st2 (M ++ [x]) (its ++ new) I' h6 (by simp; omega)
      refine ⟨C', ?_, h8, h9⟩
      have hgetN : pyGet N x = .ok (N.getD x []) := pyGet_eq_ok.2 (by
        rw [List.getD_eq_getElem?_getD, List.getElem?_eq_getElem (by rw [hN.length]; exact hxV)]; rfl)
      have hne : ¬ (its ++ [x]).length = 0 := by simp
      unfold dfsLoop
      simp only [hs.size, bind, Except.bind, if_neg hne, h1, pySet_ok C x true (by rw [I.len]; exact hxV),
        ← hC1, hgetN, h3.size, h5]
      exact h7

end

/-! ### Edges between two parts -/

/-- The numbers, from `k` on, of the pairs that satisfy `cr`. -/
def crossIds (cr : Nat × Nat → Bool) : Nat → List (Nat × Nat) → List Nat
  | _, [] => []
  | k, p :: ps => if cr p then k :: crossIds cr (k + 1) ps else crossIds cr (k + 1) ps

theorem mem_crossIds (cr : Nat × Nat → Bool) : ∀ (ps : List (Nat × Nat)) (k j : Nat),
    j ∈ crossIds cr k ps ↔ k ≤ j ∧ ∃ p, ps[j - k]? = some p ∧ cr p = true := by
  intro ps
  induction ps with
  | nil => intro k j; simp [crossIds]
  | cons p ps ih =>
    intro k j
    have key : (k + 1 ≤ j ∧ ∃ q, ps[j - (k + 1)]? = some q ∧ cr q = true) ∨ (j = k ∧ cr p = true) ↔
        k ≤ j ∧ ∃ q, (p :: ps)[j - k]? = some q ∧ cr q = true := by
      constructor
      · rintro (⟨h1, q, h2, h3⟩ | ⟨rfl, h⟩)
        · refine ⟨by omega, q, ?_, h3⟩
          rw [show j - k = (j - (k + 1)) + 1 by omega, List.getElem?_cons_succ]; exact h2
        · exact ⟨Nat.le_refl _, p, by simp, h⟩
      · rintro ⟨h1, q, h2, h3⟩
        rcases Nat.eq_or_lt_of_le h1 with h | h
        · subst h
          simp only [Nat.sub_self, List.getElem?_cons_zero, Option.some.injEq] at h2
          subst h2
          exact .inr ⟨rfl, h3⟩
        · rw [show j - k = (j - (k + 1)) + 1 by omega, List.getElem?_cons_succ] at h2
          exact .inl ⟨h, q, h2, h3⟩
    rw [← key, crossIds]
    split
    · rename_i hp
      rw [List.mem_cons, ih, and_iff_left hp]
      exact or_comm
    · rename_i hp
      rw [ih, or_iff_left (fun h => hp h.2)]

theorem nodup_crossIds (cr : Nat × Nat → Bool) : ∀ (ps : List (Nat × Nat)) (k : Nat),
    (crossIds cr k ps).Nodup := by
  intro ps
  induction ps with
  | nil => intro k; simp [crossIds]
  | cons p ps ih =>
    intro k
    rw [crossIds]
    split
    · rw [List.nodup_cons]
      refine ⟨fun h => ?_, ih _⟩
      have := ((mem_crossIds cr ps (k + 1) k).1 h).1
      omega
    · exact ih _

theorem crossIds_congr {cr cr' : Nat × Nat → Bool} : ∀ (ps : List (Nat × Nat)) (k : Nat),
    (∀ p ∈ ps, cr p = cr' p) → crossIds cr k ps = crossIds cr' k ps := by
  intro ps
  induction ps with
  | nil => intro k _; rfl
  | cons p ps ih =>
    intro k h
    rw [crossIds, crossIds, h p (by simp), ih _ fun q hq => h q (by simp [hq])]

theorem crossIds_length_le (cr : Nat × Nat → Bool) : ∀ (ps : List (Nat × Nat)) (k : Nat),
    (crossIds cr k ps).length ≤ ps.length := by
  intro ps
  induction ps with
  | nil => intro k; simp [crossIds]
  | cons p ps ih =>
    intro k
    rw [crossIds]
    have := ih (k + 1)
    split <;> simp <;> omega

theorem validFold_spec (C : List Bool) : ∀ (ps : List (Nat × Nat)) (pre rest : List Nat) (k : Nat),
    (∀ p ∈ ps, p.1 < C.length ∧ p.2 < C.length) → ps.length ≤ rest.length →
    ∃ rest', ps.foldlM (fun s p => validStep C s p.2 p.1) (pre ++ rest, k, pre.length)
      = .ok (pre ++ crossIds (fun p => C.getD p.2 false != C.getD p.1 false) k ps ++ rest', k + ps.length,
          (pre ++ crossIds (fun p => C.getD p.2 false != C.getD p.1 false) k ps).length) ∧
      (crossIds (fun p => C.getD p.2 false != C.getD p.1 false) k ps).length + rest'.length = rest.length := by
  intro ps
  induction ps with
  | nil => intro pre rest k _ _; exact ⟨rest, by simp [crossIds]; rfl, by simp [crossIds]⟩
  | cons p ps ih =>
    intro pre rest k hp hl
    obtain ⟨h1, h2⟩ := hp p (by simp)
    have hg1 : pyGet C p.1 = .ok (C.getD p.1 false) := pyGet_eq_ok.2 (by
      rw [List.getD_eq_getElem?_getD, List.getElem?_eq_getElem h1]; rfl)
    have hg2 : pyGet C p.2 = .ok (C.getD p.2 false) := pyGet_eq_ok.2 (by
      rw [List.getD_eq_getElem?_getD, List.getElem?_eq_getElem h2]; rfl)
    cases rest with
    | nil => simp at hl
    | cons y rest =>
      rw [List.foldlM_cons, crossIds]
      by_cases hc : (C.getD p.2 false != C.getD p.1 false) = true
      · have hstep : validStep C (pre ++ y :: rest, k, pre.length) p.2 p.1
            = .ok ((pre ++ [k]) ++ rest, k + 1, (pre ++ [k]).length) := by
          simp only [validStep, hg1, hg2, bind, Except.bind, hc, if_true, pySet_mid pre y k rest _ rfl]
          simp
        obtain ⟨rest', h3, h4⟩ := ih (pre ++ [k]) rest (k + 1) (fun q hq => hp q (by simp [hq]))
          (by simp at hl; omega)
        refine ⟨rest', ?_, ?_⟩
        · rw [hstep]
          refine Eq.trans h3 ?_
          simp only [hc, if_true, List.append_assoc, List.singleton_append, List.length_cons]
          congr 3; omega
        · rw [if_pos hc, List.length_cons, List.length_cons]; omega
      · have hstep : validStep C (pre ++ y :: rest, k, pre.length) p.2 p.1
            = .ok (pre ++ y :: rest, k + 1, pre.length) := by
          simp only [validStep, hg1, hg2, bind, Except.bind, if_neg hc]
        obtain ⟨rest', h3, h4⟩ := ih pre (y :: rest) (k + 1) (fun q hq => hp q (by simp [hq]))
          (by simp at hl; simp; omega)
        refine ⟨rest', ?_, ?_⟩
        · rw [hstep]
          refine Eq.trans h3 ?_
          rw [if_neg hc, List.length_cons]
          congr 3; omega
        · rw [if_neg hc]; exact h4

theorem findValidEdges_spec (C : List Bool) (buf : List Nat) (hb : tri C.length ≤ buf.length) :
    ∃ buf' num, findValidEdges C buf = .ok (buf', num) ∧ buf'.length = buf.length ∧
      buf'.take num = crossIds (fun p => C.getD p.2 false != C.getD p.1 false) 0 (pairs C.length) ∧
      num = (crossIds (fun p => C.getD p.2 false != C.getD p.1 false) 0 (pairs C.length)).length := by
  obtain ⟨rest', h1, h2⟩ := validFold_spec C (pairs C.length) [] buf 0 (by
      intro p hp
      have := (mem_pairs _ p).1 hp
      omega) (by rw [pairs_length]; exact hb)
  refine ⟨crossIds (fun p => C.getD p.2 false != C.getD p.1 false) 0 (pairs C.length) ++ rest', _, ?_,
    ?_, ?_, rfl⟩
  · unfold findValidEdges
    rw [foldlM_pairs (fun s v1 v2 => validStep C s v2 v1)]
    simp only [List.nil_append, List.length_nil] at h1
    rw [h1]
    rfl
  · rw [List.length_append]; exact h2
  · rw [List.take_left' rfl]

end TreeCat
