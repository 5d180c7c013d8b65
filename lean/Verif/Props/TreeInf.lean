import Verif.Model.TreeInf
import Verif.Lemmas.MstOrder
import Verif.Props.SampleTree
import Verif.Props.Sampling
import Verif.Props.Gibbs

/-!
# C94: `sample_tree` with forbidden edges
-/

set_option linter.unusedSectionVars false

namespace TreeCat

open Spec Util

/-! ### Connections through one edge -/

theorem reach_through {l : List Edge} {e : Nat} (he : e < l.length) {x y : Nat} (h : Reach l x y) (hn : ¬ Reach (l.eraseIdx e) x y) :
    (Reach (l.eraseIdx e) x l[e].1 ∧ Reach (l.eraseIdx e) l[e].2 y) ∨ (Reach (l.eraseIdx e) x l[e].2 ∧ Reach (l.eraseIdx e) l[e].1 y) := by
  have key : ∀ z, Reach l x z → Reach (l.eraseIdx e) x z ∨
      ((Reach (l.eraseIdx e) x l[e].1 ∧ Reach (l.eraseIdx e) l[e].2 z) ∨ (Reach (l.eraseIdx e) x l[e].2 ∧ Reach (l.eraseIdx e) l[e].1 z)) := by
    intro z hz
    induction hz with
    | refl => exact .inl .refl
    | @tail b c hb hbc ih =>
      have hs := (adj_set he l[e] b c).1 (by rw [List.set_getElem_self]; exact hbc)
      rcases hs with h1 | ⟨h1, h2⟩ | ⟨h1, h2⟩
      · rcases ih with ih | ⟨i1, i2⟩ | ⟨i1, i2⟩
        · exact .inl (ih.tail h1)
        · exact .inr (.inl ⟨i1, i2.tail h1⟩)
        · exact .inr (.inr ⟨i1, i2.tail h1⟩)
      · subst h1 h2
        rcases ih with ih | ⟨i1, i2⟩ | ⟨i1, i2⟩
        · exact .inr (.inl ⟨ih, .refl⟩)
        · exact .inr (.inl ⟨i1, .refl⟩)
        · exact .inl i1
      · subst h1 h2
        rcases ih with ih | ⟨i1, i2⟩ | ⟨i1, i2⟩
        · exact .inr (.inr ⟨ih, .refl⟩)
        · exact .inl i1
        · exact .inr (.inr ⟨i1, .refl⟩)
  exact (key y h).resolve_left hn

theorem reach_eraseIdx_iff {l : List Edge} {e : Nat} (he : e < l.length) (x y : Nat) :
    Reach (l.eraseIdx e) x y ↔ Reach (l.set e (0, 0)) x y := by
  constructor
  · exact fun h => Reach.mono' (fun a b hab => (adj_set he (0, 0) a b).2 (.inl hab)) h
  · intro h
    induction h with
    | refl => exact .refl
    | @tail b c hb hbc ih =>
      rcases (adj_set he (0, 0) b c).1 hbc with h1 | ⟨h1, h2⟩ | ⟨h1, h2⟩
      · exact ih.tail h1
      · rw [h1] at ih; rw [h2]; exact ih
      · rw [h1] at ih; rw [h2]; exact ih

/-- In a tree `l`, replace edge `e` by an edge `(x, y)` whose ends are joined without edge `f` and not without edge `e`. Whatever was joined without
edge `f` is still so. -/
theorem reach_keep {l : List Edge} {e f : Nat} (he : e < l.length) (hf : f < l.length) (hne : e ≠ f) {p : Edge}
    (h1 : Reach (l.eraseIdx f) p.1 p.2) (h2 : ¬ Reach (l.eraseIdx e) p.1 p.2) {a b : Nat} (hab : Reach (l.eraseIdx f) a b) :
    Reach ((l.set e p).eraseIdx f) a b := by
  set l' := l.set f (0, 0) with hl'
  have hel : e < l'.length := by simpa [hl'] using he
  have hfs : f < (l.set e p).length := by simpa using hf
  rw [reach_eraseIdx_iff hf] at h1 hab
  rw [reach_eraseIdx_iff hfs, List.set_comm _ _ hne, ← hl']
  have hle : l'[e] = l[e] := by simp [hl', List.getElem_set_ne (Ne.symm hne)]
  have hn : ¬ Reach (l'.eraseIdx e) p.1 p.2 := by
    rw [reach_eraseIdx_iff hel]
    intro hr
    refine h2 ((reach_eraseIdx_iff he _ _).2 ?_)
    rw [hl', List.set_comm _ _ (Ne.symm hne)] at hr
    have hf' : f < (l.set e (0, 0)).length := by simpa using hf
    have hr' := (reach_eraseIdx_iff hf' _ _).2 hr
    refine Reach.mono' (fun a b hab => ?_) hr'
    have := (adj_set hf' (l.set e (0, 0))[f] a b).2 (.inl hab)
    rwa [List.set_getElem_self] at this
  have hmono : ∀ {u v}, Reach (l'.eraseIdx e) u v → Reach (l'.set e p) u v := fun h =>
    Reach.mono' (fun a b hab => (adj_set hel p a b).2 (.inl hab)) h
  have hp12 : Reach (l'.set e p) p.1 p.2 := .single ((adj_set hel p _ _).2 (.inr (.inl ⟨rfl, rfl⟩)))
  have hold : Reach (l'.set e p) l'[e].1 l'[e].2 := by
    rcases reach_through hel h1 hn with ⟨r1, r2⟩ | ⟨r1, r2⟩
    · exact (((hmono r1).symm').trans hp12).trans (hmono r2).symm'
    · exact (((hmono r2)).trans hp12.symm').trans (hmono r1)
  clear h1 hn h2
  induction hab with
  | refl => exact .refl
  | @tail b c hb hbc ih =>
    refine ih.trans ?_
    have hs := (adj_set hel l'[e] b c).1 (by rw [List.set_getElem_self]; exact hbc)
    rcases hs with h1 | ⟨h1, h2⟩ | ⟨h1, h2⟩
    · exact hmono (.single h1)
    · rw [h1, h2]; exact hold
    · rw [h1, h2]; exact hold.symm'

theorem getD_setAt (l : List Nat) {e : Nat} (he : e < l.length) (k : Nat) : (l.set e k).getD e 0 = k := by
  rw [List.getD_eq_getElem?_getD, List.getElem?_set_self he, Option.getD_some]

theorem getD_setOff (l : List Nat) {e f : Nat} (h : e ≠ f) (k : Nat) : (l.set e k).getD f 0 = l.getD f 0 := by
  rw [List.getD_eq_getElem?_getD, List.getElem?_set_ne h, ← List.getD_eq_getElem?_getD]

/-! ### One iteration -/

section
variable {K : Type} [Field K] [LinearOrder K]

/-- The weight of a logit relative to the maximum. -/
def infWeight (expf : K → K) (mx : K) : WithBot K → K
  | none => 0
  | some x => expf (x - mx)

theorem foldl_max_top {α : Type} [LinearOrder α] : ∀ (ls : List α) (l : α), ls.foldl max l ∈ l :: ls ∧ ∀ x ∈ l :: ls, x ≤ ls.foldl max l := by
  intro ls
  induction ls with
  | nil => intro l; simp
  | cons a ls ih =>
    intro l
    obtain ⟨h1, h2⟩ := ih (max l a)
    rw [List.foldl_cons]
    constructor
    · rcases List.mem_cons.1 h1 with h | h
      · rw [h]
        rcases max_choice l a with hm | hm <;> rw [hm] <;> simp
      · exact List.mem_cons_of_mem _ (List.mem_cons_of_mem _ h)
    · intro x hx
      have hm := h2 (max l a) (by simp)
      rcases List.mem_cons.1 hx with rfl | hx
      · exact (le_max_left _ _).trans hm
      · rcases List.mem_cons.1 hx with rfl | hx
        · exact (le_max_right _ _).trans hm
        · exact h2 x (List.mem_cons_of_mem _ hx)

theorem expNormalizeInf_bot (expf : K → K) {ls : List (WithBot K)} (h : ls ≠ []) (hb : ∀ x ∈ ls, x = ⊥) : expNormalizeInf expf ls = .ok none := by
  cases ls with
  | nil => exact absurd rfl h
  | cons l ls =>
    have h1 := hb _ (foldl_max_top ls l).1
    have h2 : ls.foldl max l = none := h1
    simp only [expNormalizeInf, h2]

theorem expNormalizeInf_some (expf : K → K) {ls : List (WithBot K)} {x : WithBot K} (hx : x ∈ ls) (hb : x ≠ ⊥) :
    ∃ mx : K, (mx : WithBot K) ∈ ls ∧ expNormalizeInf expf ls = .ok (some (ls.map (infWeight expf mx))) := by
  cases ls with
  | nil => simp at hx
  | cons l ls =>
    obtain ⟨h1, h2⟩ := foldl_max_top ls l
    cases hm : ls.foldl max l with
    | bot => exact absurd (le_bot_iff.1 (hm ▸ h2 x hx)) hb
    | coe mx =>
      have h2 : ls.foldl max l = some mx := hm
      refine ⟨mx, hm ▸ h1, ?_⟩
      simp only [expNormalizeInf, h2]
      congr 2

theorem proposeEdgesInf_spec (expf : K → K) {V : Nat} {logits : List (WithBot K)} (hl : logits.length = tri V)
    {s : TreeState} (I : StInv V s) {e : Nat} (he : e < s.e2k.length) {probs : Option (List K)}
    (hpr : expNormalizeInf expf ((validList V s.e2k e).map fun k => logits.getD k ⊥) = .ok probs) :
    ∃ N' C' buf, proposeEdgesInf expf (completeGrid V) logits s e
        = .ok (s.e2k[e], ⟨s.e2k, N', C', buf⟩, (validList V s.e2k e).length, probs) ∧
      RepN V (Adj ((treeOf V s.e2k).eraseIdx e)) N' ∧ C'.length = V ∧ buf.length = tri V ∧
      buf.take (validList V s.e2k e).length = validList V s.e2k e := by
  obtain ⟨N', C', h1, h2, h3, h4⟩ := jitRemoveEdge_spec I he
  obtain ⟨buf, num, h5, h6, h7, h8⟩ := findValidEdges_spec C' s.validEdges
    (by rw [h3, I.valid])
  classical
  have hcr : crossIds (fun p => C'.getD p.2 false != C'.getD p.1 false) 0 (pairs C'.length)
      = validList V s.e2k e := by
    unfold validList
    rw [h3]
    apply crossIds_congr
    intro p hp
    have hpV := (mem_pairs V p).1 hp
    rw [Bool.eq_iff_iff, bne_iff_ne, decide_eq_true_iff, ne_comm, ne_eq,
      h4 p.1 (by omega) p.2 (by omega)]
  rw [hcr] at h7 h8
  refine ⟨N', C', buf, ?_, h2, h3, by rw [h6, I.valid], by rw [← h8]; exact h7⟩
  have hm : (buf.take num).mapM (fun k => pyGet logits k)
      = .ok ((validList V s.e2k e).map fun k => logits.getD k ⊥) := by
    rw [h7]
    apply mapM_ok
    intro k hk
    have := (mem_validList.1 hk).1
    rw [pyGet_eq_ok, List.getD_eq_getElem?_getD, List.getElem?_eq_getElem (by omega)]; rfl
  simp only [proposeEdgesInf, h1, h5, hm, bind, Except.bind, hpr, ← h8]

variable {m : Type → Type} [Monad m] [LawfulMonad m] [Choose K m]

/-- Without an allowed edge the removed edge is put back, and counted. -/
theorem sampleTreeStepInf_bot (expf : K → K) {V : Nat} {logits : List (WithBot K)} (hl : logits.length = tri V)
    {s : TreeState} (I : StInv V s) {e : Nat} (he : e < s.e2k.length) (hb : ∀ k ∈ validList V s.e2k e, logits.getD k ⊥ = ⊥) (n : Nat) :
    ∃ s', (sampleTreeStepInf expf (completeGrid V) logits (s, n) e : ExceptT PyErr m _) = pure (s', n + 1) ∧ StInv V s' ∧ s'.e2k = s.e2k := by
  have hself := self_mem_validList I.ltree he
  have hpr := expNormalizeInf_bot expf (ls := (validList V s.e2k e).map fun k => logits.getD k ⊥)
    (fun h0 => by rw [List.map_eq_nil_iff] at h0; rw [h0] at hself; simp at hself)
    (fun x hx => by obtain ⟨k, hk, rfl⟩ := List.mem_map.1 hx; exact hb k hk)
  obtain ⟨N', C', buf, h1, h2, h3, h4, h5⟩ := proposeEdgesInf_spec expf hl I he hpr
  obtain ⟨s', h6, h7, h8⟩ := placeEdge_spec I.ltree he h2 h3 h4 hself
  refine ⟨s', ?_, h7, by rw [h8, List.set_getElem_self]⟩
  simp only [sampleTreeStepInf, h1, liftPy_ok_bind, chooseEdgeInf, pure_bind, h6]

/-- With an allowed edge the new edge is drawn. -/
theorem sampleTreeStepInf_some [IsStrictOrderedRing K] {expf : K → K} (hnn : ∀ x, 0 ≤ expf x) (h0 : 0 < expf 0) {V : Nat} {logits : List (WithBot K)}
    (hl : logits.length = tri V) {s : TreeState} (I : StInv V s) {e : Nat} (he : e < s.e2k.length)
    {k0 : Nat} (hk0 : k0 ∈ validList V s.e2k e) (hb : logits.getD k0 ⊥ ≠ ⊥) (n : Nat) :
    ∃ (mx : K) (probs : List K) (next : Nat → TreeState), probs = (validList V s.e2k e).map (fun k => infWeight expf mx (logits.getD k ⊥)) ∧
      (∀ p ∈ probs, 0 ≤ p) ∧ 0 < probs.sum ∧
      (sampleTreeStepInf expf (completeGrid V) logits (s, n) e : ExceptT PyErr m _)
        = ExceptT.lift ((fun i : Fin probs.length => (next i.val, n)) <$> Choose.choose fun i : Fin probs.length => probs[i]) ∧
      ∀ i < probs.length, StInv V (next i) ∧ (next i).e2k = s.e2k.set e ((validList V s.e2k e).getD i 0) := by
  obtain ⟨mx, hmx, hpr⟩ := expNormalizeInf_some expf (ls := (validList V s.e2k e).map fun k => logits.getD k ⊥)
    (List.mem_map_of_mem hk0) hb
  rw [List.map_map] at hpr
  obtain ⟨N', C', buf, h1, h2, h3, h4, h5⟩ := proposeEdgesInf_spec expf hl I he hpr
  set probs := (validList V s.e2k e).map (infWeight expf mx ∘ fun k => logits.getD k ⊥) with hprobs
  have hlen : probs.length = (validList V s.e2k e).length := by rw [hprobs, List.length_map]
  have hnonneg : ∀ p ∈ probs, 0 ≤ p := by
    intro p hp
    obtain ⟨k, -, rfl⟩ := List.mem_map.1 hp
    simp only [Function.comp]
    cases logits.getD k ⊥ with
    | bot => exact le_rfl
    | coe x => exact hnn _
  have hsum : 0 < probs.sum := by
    obtain ⟨k, hk, hkm⟩ := List.mem_map.1 hmx
    refine lt_of_lt_of_le h0 ?_
    have : expf 0 ∈ probs := by
      refine List.mem_map.2 ⟨k, hk, ?_⟩
      simp only [Function.comp]
      rw [hkm]
      show expf (mx - mx) = _
      rw [sub_self]
    exact List.single_le_sum hnonneg _ this
  have hmem : ∀ i < (validList V s.e2k e).length, (validList V s.e2k e).getD i 0 ∈ validList V s.e2k e := by
    intro i hi
    rw [List.getD_eq_getElem?_getD, List.getElem?_eq_getElem hi]
    exact List.getElem_mem hi
  have hnext : ∀ i, ∃ s', i < (validList V s.e2k e).length →
      placeEdge (completeGrid V) ⟨s.e2k, N', C', buf⟩ e ((validList V s.e2k e).getD i 0) = .ok s' ∧
      StInv V s' ∧ s'.e2k = s.e2k.set e ((validList V s.e2k e).getD i 0) := by
    intro i
    by_cases hi : i < (validList V s.e2k e).length
    · obtain ⟨s', h6⟩ := placeEdge_spec I.ltree he h2 h3 h4 (hmem i hi)
      exact ⟨s', fun _ => h6⟩
    · exact ⟨s, fun h => absurd h hi⟩
  choose next hnext using hnext
  refine ⟨mx, probs, next, rfl, hnonneg, hsum, ?_, fun i hi => (hnext i (by omega)).2⟩
  simp only [sampleTreeStepInf, h1, liftPy_ok_bind, chooseEdgeInf, if_pos hsum, bind_assoc]
  have hbody : ∀ i : Fin probs.length,
      ((if i.val < (validList V s.e2k e).length then do
          let k2 ← liftPy (m := m) (pyGet buf i.val)
          pure (k2, 0)
        else throw PyErr.indexError : ExceptT PyErr m (Nat × Nat)) >>= fun x => do
          let s ← liftPy (placeEdge (completeGrid V) ⟨s.e2k, N', C', buf⟩ e x.1)
          pure (s, n + x.2)) = pure (next i.val, n) := by
    intro i
    have hi : i.val < (validList V s.e2k e).length := by have := i.isLt; omega
    have hg : pyGet buf i.val = .ok ((validList V s.e2k e).getD i.val 0) := by
      rw [pyGet_eq_ok, List.getD_eq_getElem?_getD, List.getElem?_eq_getElem hi, Option.getD_some]
      have : (buf.take (validList V s.e2k e).length)[i.val]? = buf[i.val]? := by
        rw [List.getElem?_take_of_lt hi]
      rw [← this, h5, List.getElem?_eq_getElem hi]
    rw [if_pos hi, hg, liftPy_ok_bind, pure_bind, (hnext i.val hi).1, liftPy_ok_bind]
    rfl
  unfold sampleIndex
  apply ExceptT.ext
  rw [ExceptT.run_bind]
  simp only [ExceptT.run_lift, map_eq_pure_bind, bind_assoc, pure_bind]
  congr 1
  funext i
  have := congrArg ExceptT.run (hbody i)
  simpa using this

end

/-! ### The scan -/

section
variable {K : Type} [Field K] [LinearOrder K] [IsStrictOrderedRing K]

theorem sampled_run_bind {α β : Type} (x : ExceptT PyErr (Sampled K) α) (f : α → ExceptT PyErr (Sampled K) β) (r : Except PyErr β) :
    (x >>= f).run r ↔ (∃ a, x.run (.ok a) ∧ (f a).run r) ∨ ∃ e, x.run (.error e) ∧ r = .error e :=
  poss_run_bind (x : ExceptT PyErr Poss α) f r

/-- Either an allowed edge was put in slot `e`, or there was none. -/
theorem sampleTreeStepInf_sampled {expf : K → K} (hnn : ∀ x, 0 ≤ expf x) (h0 : 0 < expf 0) {V : Nat} {logits : List (WithBot K)}
    (hl : logits.length = tri V) {s : TreeState} (I : StInv V s) {e : Nat} (he : e < s.e2k.length) (n : Nat) :
    (∃ x, (sampleTreeStepInf expf (completeGrid V) logits (s, n) e : ExceptT PyErr (Sampled K) _).run (.ok x)) ∧
      ∀ r, (sampleTreeStepInf expf (completeGrid V) logits (s, n) e : ExceptT PyErr (Sampled K) _).run r →
        ∃ s' k n', r = .ok (s', n') ∧ StInv V s' ∧ k ∈ validList V s.e2k e ∧ s'.e2k = s.e2k.set e k ∧
          ((logits.getD k ⊥ ≠ ⊥ ∧ n' = n) ∨ (k = s.e2k[e] ∧ n' = n + 1 ∧ ∀ k' ∈ validList V s.e2k e, logits.getD k' ⊥ = ⊥)) := by
  by_cases hb : ∀ k ∈ validList V s.e2k e, logits.getD k ⊥ = ⊥
  · obtain ⟨s', h1, h2, h3⟩ := sampleTreeStepInf_bot (m := Sampled K) expf hl I he hb n
    rw [h1]
    refine ⟨⟨_, rfl⟩, fun r hr => ⟨s', s.e2k[e], n + 1, hr, h2, self_mem_validList I.ltree he, ?_, .inr ⟨rfl, rfl, hb⟩⟩⟩
    rw [h3, List.set_getElem_self]
  · push Not at hb
    obtain ⟨k0, hk0, hb0⟩ := hb
    obtain ⟨mx, probs, next, hprobs, hpn, hsum, h1, h2⟩ := sampleTreeStepInf_some (m := Sampled K) hnn h0 hl I he hk0 hb0 n
    rw [h1, ExceptT.run_lift]
    constructor
    · obtain ⟨i, hi, hs, -⟩ := sampleFromProbs_support probs hpn hsum 0 le_rfl one_pos
      refine ⟨(next i, n), _, ⟨⟨i, hi⟩, ⟨0, le_rfl, one_pos, ?_⟩, rfl⟩, rfl⟩
      have : (List.ofFn fun i : Fin probs.length => probs[i]) = probs := List.ofFn_getElem
      rw [this]; exact hs
    · rintro r ⟨x, ⟨i, ⟨u, hu0, hu1, hu⟩, h3⟩, h4⟩
      have h3 : x = (next i.val, n) := h3
      have h4 : r = .ok x := h4
      have : (List.ofFn fun i : Fin probs.length => probs[i]) = probs := List.ofFn_getElem
      rw [this] at hu
      obtain ⟨j, hj, hs, hpj⟩ := sampleFromProbs_support probs hpn hsum u hu0 hu1
      rw [hs, Except.ok.injEq] at hu
      have hlen : probs.length = (validList V s.e2k e).length := by rw [hprobs, List.length_map]
      have hiv : i.val < (validList V s.e2k e).length := by have := i.isLt; omega
      have hget : (validList V s.e2k e).getD i.val 0 = (validList V s.e2k e)[i.val] := by
        rw [List.getD_eq_getElem?_getD, List.getElem?_eq_getElem hiv, Option.getD_some]
      refine ⟨next i.val, (validList V s.e2k e).getD i.val 0, n, by rw [h4, h3], (h2 _ i.isLt).1, ?_, (h2 _ i.isLt).2, .inl ⟨?_, rfl⟩⟩
      · rw [hget]; exact List.getElem_mem hiv
      · intro hbot
        subst hu
        rw [hget] at hbot
        subst hprobs
        rw [List.getElem_map, hbot] at hpj
        exact lt_irrefl _ hpj

/-- No allowed edge can take the place of a forbidden edge in slot `f`. -/
def SlotDone (V : Nat) (logits : List (WithBot K)) (ω : List Nat) (f : Nat) : Prop :=
  logits.getD (ω.getD f 0) ⊥ = ⊥ → ∀ k ∈ validList V ω f, logits.getD k ⊥ = ⊥

theorem SlotDone.set {V : Nat} {logits : List (WithBot K)} {ω : List Nat} (h : LTree V ω) {e f : Nat} (he : e < ω.length) (hf : f < ω.length)
    (hne : e ≠ f) {k : Nat} (hk : k ∈ validList V ω e) (hb : logits.getD k ⊥ ≠ ⊥) (hd : SlotDone V logits ω f) :
    SlotDone V logits (ω.set e k) f := by
  intro h1 k' hk'
  rw [getD_setOff _ hne] at h1
  have h2 := hd h1
  obtain ⟨hkt, hkr⟩ := mem_validList.1 hk
  have hkf : Reach ((treeOf V ω).eraseIdx f) (pairAt V k).1 (pairAt V k).2 := by
    by_contra hc
    exact hb (h2 k (mem_validList.2 ⟨hkt, hc⟩))
  obtain ⟨hkt', hkr'⟩ := mem_validList.1 hk'
  refine h2 k' (mem_validList.2 ⟨hkt', fun hc => hkr' ?_⟩)
  have := reach_keep (by simpa [treeOf] using he) (by simpa [treeOf] using hf) hne hkf hkr hc
  rw [treeOf, List.map_set]
  exact this

theorem sampleTreeFoldInf {expf : K → K} (hnn : ∀ x, 0 ≤ expf x) (h0 : 0 < expf 0) {V : Nat} {logits : List (WithBot K)}
    (hl : logits.length = tri V) : ∀ (slots : List Nat) (s : TreeState) (n : Nat), StInv V s → slots.Nodup → (∀ e ∈ slots, e + 1 < V) →
      (∃ x, (slots.foldlM (sampleTreeStepInf expf (completeGrid V) logits) (s, n) : ExceptT PyErr (Sampled K) _).run (.ok x)) ∧
        ∀ r, (slots.foldlM (sampleTreeStepInf expf (completeGrid V) logits) (s, n) : ExceptT PyErr (Sampled K) _).run r →
          ∃ s' n', r = .ok (s', n') ∧ StInv V s' ∧ (∀ f, f ∉ slots → s'.e2k.getD f 0 = s.e2k.getD f 0) ∧
            n' = n + slots.countP (fun f => decide (logits.getD (s'.e2k.getD f 0) ⊥ = ⊥)) ∧
            ((∀ f, f + 1 < V → f ∉ slots → SlotDone V logits s.e2k f) → ∀ f, f + 1 < V → SlotDone V logits s'.e2k f) := by
  intro slots
  induction slots with
  | nil =>
    intro s n I _ _
    exact ⟨⟨_, rfl⟩, fun r hr => ⟨s, n, hr, I, fun _ _ => rfl, rfl, fun h f hf => h f hf (by simp)⟩⟩
  | cons e slots ih =>
    intro s n I hnd hs
    have heV := hs e (by simp)
    have hlen := I.ltree.length
    have he : e < s.e2k.length := by omega
    obtain ⟨hen, hnd'⟩ := List.nodup_cons.1 hnd
    have hs' : ∀ e ∈ slots, e + 1 < V := fun e he => hs e (by simp [he])
    obtain ⟨⟨x, h1⟩, h2⟩ := sampleTreeStepInf_sampled hnn h0 hl I he n
    rw [List.foldlM_cons]
    constructor
    · obtain ⟨s1, k, n1, hx, I1, -⟩ := h2 _ h1
      cases hx
      obtain ⟨⟨y, hy⟩, -⟩ := ih s1 n1 I1 hnd' hs'
      exact ⟨y, (sampled_run_bind _ _ _).2 (.inl ⟨_, h1, hy⟩)⟩
    · intro r hr
      rcases (sampled_run_bind _ _ _).1 hr with ⟨x, hx, hy⟩ | ⟨er, hx, -⟩
      · obtain ⟨s1, k, n1, hxe, I1, hk, he2k, hcase⟩ := h2 _ hx
        cases hxe
        obtain ⟨s', n', hr', I', hkeep, hn', hdone⟩ := (ih s1 n1 I1 hnd' hs').2 r hy
        have hslot : s'.e2k.getD e 0 = k := by
          rw [hkeep e hen, he2k, getD_setAt _ he]
        refine ⟨s', n', hr', I', ?_, ?_, ?_⟩
        · intro f hf
          rw [List.mem_cons, not_or] at hf
          rw [hkeep f hf.2, he2k, getD_setOff _ (Ne.symm hf.1)]
        · rw [hn', List.countP_cons, hslot]
          rcases hcase with ⟨hb, rfl⟩ | ⟨rfl, rfl, hb⟩
          · rw [decide_eq_false hb]; simp
          · rw [decide_eq_true (hb _ hk)]; simp only [if_true]; omega
        · intro hold f hf
          refine hdone (fun f hf hfs => ?_) f hf
          rw [he2k]
          by_cases hfe : f = e
          · subst hfe
            intro hbot
            rw [getD_setAt _ he] at hbot
            rw [validList_set]
            rcases hcase with ⟨hb, -⟩ | ⟨-, -, hb⟩
            · exact absurd hbot hb
            · exact hb
          · have hd := hold f hf (by simp [hfe, hfs])
            rcases hcase with ⟨hb, -⟩ | ⟨rfl, -, -⟩
            · exact hd.set I.ltree he (by omega) (Ne.symm hfe) hk hb
            · rw [List.set_getElem_self]; exact hd
      · obtain ⟨s1, k, n1, hxe, -⟩ := h2 _ hx
        cases hxe

/-! ### Counting forbidden edges -/

theorem getD_gridLogits {V : Nat} (logit : Nat → Nat → WithBot K) {k : Nat} (hk : k < tri V) :
    ((completeGrid V).map fun p => logit p.2.1 p.2.2).getD k ⊥ = logit (pairAt V k).1 (pairAt V k).2 := by
  rw [List.getD_eq_getElem?_getD, List.getElem?_map, completeGrid_getElem?, pairs_getElem?_pairAt hk]
  rfl

/-- The number of edges of a tree whose logit is `-inf`. -/
def forbiddenCount (logit : Nat → Nat → WithBot K) (T : List Edge) : Nat := T.countP fun p => decide (logit (min p.1 p.2) (max p.1 p.2) = ⊥)

/-- One for a forbidden pair, zero for another. -/
def forbiddenPair (logit : Nat → Nat → WithBot K) : Sym2 Nat → ℤ :=
  Sym2.lift ⟨fun a b => if logit (min a b) (max a b) = ⊥ then 1 else 0, fun a b => by simp only [min_comm a b, max_comm a b]⟩

theorem pairTotal_forbidden (logit : Nat → Nat → WithBot K) (T : List Edge) : pairTotal (forbiddenPair logit) T = forbiddenCount logit T := by
  induction T with
  | nil => rfl
  | cons p T ih =>
    unfold pairTotal forbiddenCount at ih ⊢
    rw [List.map_cons, List.sum_cons, ih, List.countP_cons]
    have : forbiddenPair logit s(p.1, p.2) = if logit (min p.1 p.2) (max p.1 p.2) = ⊥ then 1 else 0 := rfl
    rw [this]
    by_cases h : logit (min p.1 p.2) (max p.1 p.2) = ⊥
    · simp [h, add_comm]
    · simp [h]

theorem forbiddenCount_treeOf {V : Nat} (logit : Nat → Nat → WithBot K) {ω : List Nat} (h : ∀ k ∈ ω, k < tri V) :
    forbiddenCount logit (treeOf V ω) = ω.countP fun k => decide (((completeGrid V).map fun p => logit p.2.1 p.2.2).getD k ⊥ = ⊥) := by
  unfold forbiddenCount treeOf
  rw [List.countP_map]
  apply List.countP_congr
  intro k hk
  have h1 := pairAt_lt (h k hk)
  simp only [Function.comp]
  rw [getD_gridLogits logit (h k hk), min_eq_left (by omega), max_eq_right (by omega)]

/-- If no slot can be improved, the number of forbidden edges is least. -/
theorem forbidden_least {V : Nat} (logit : Nat → Nat → WithBot K) {ω : List Nat} (h : LTree V ω)
    (hd : ∀ f, f + 1 < V → SlotDone V ((completeGrid V).map fun p => logit p.2.1 p.2.2) ω f) (T' : List Edge) (hT' : IsTree V T') :
    forbiddenCount logit (treeOf V ω) ≤ forbiddenCount logit T' := by
  have key := total_le_of_exchange (forbiddenPair logit) (forbiddenPair logit) h.tree (fun _ _ _ _ _ _ h => h) ?_ T' hT'
  · rw [pairTotal_forbidden, pairTotal_forbidden] at key
    exact_mod_cast key
  · rintro i hi ⟨a, b⟩ hset
    have hi' : i < ω.length := by simpa [treeOf] using hi
    have hiV : i + 1 < V := by have := h.length; omega
    have hge : (treeOf V ω)[i] = pairAt V (ω.getD i 0) := by
      simp [treeOf, List.getD_eq_getElem?_getD, hi']
    have hki : ω.getD i 0 < tri V := by
      rw [List.getD_eq_getElem?_getD, List.getElem?_eq_getElem hi', Option.getD_some]
      exact h.ids _ (List.getElem_mem hi')
    have hr := hset.range (a, b) (List.mem_set (by simpa using hi) _)
    have hnr := (isTree_set_iff h.tree hi hr.1 hr.2).1 hset
    have hab : a ≠ b := by rintro rfl; exact hnr .refl
    have hp := pairAt_lt hki
    have hL : forbiddenPair logit s((treeOf V ω)[i].1, (treeOf V ω)[i].2)
        = if ((completeGrid V).map fun p => logit p.2.1 p.2.2).getD (ω.getD i 0) ⊥ = ⊥ then 1 else 0 := by
      rw [hge, getD_gridLogits logit hki]
      show (if logit (min _ _) (max _ _) = ⊥ then (1 : ℤ) else 0) = _
      rw [min_eq_left (by omega), max_eq_right (by omega)]
    have hR : forbiddenPair logit s(a, b) = if logit (min a b) (max a b) = ⊥ then 1 else 0 := rfl
    rw [hL]
    show _ ≤ forbiddenPair logit s(a, b)
    rw [hR]
    split
    · rename_i hbot
      have hk : findCompleteEdge (min a b) (max a b) ∈ validList V ω i ∧
          logit (pairAt V (findCompleteEdge (min a b) (max a b))).1 (pairAt V (findCompleteEdge (min a b) (max a b))).2
            = logit (min a b) (max a b) ∧ findCompleteEdge (min a b) (max a b) < tri V := by
        have hlt : min a b < max a b := by omega
        have hmV : max a b < V := by omega
        have hpa := pairAt_fce hlt hmV
        have hkt : findCompleteEdge (min a b) (max a b) < tri V := by
          have := pairs_getElem? V _ _ hlt hmV
          obtain ⟨h1, -⟩ := List.getElem?_eq_some_iff.1 this
          rwa [pairs_length] at h1
        refine ⟨mem_validList.2 ⟨hkt, ?_⟩, by rw [hpa], hkt⟩
        rw [hpa]
        rcases le_total a b with hle | hle
        · rw [min_eq_left hle, max_eq_right hle]; exact hnr
        · rw [min_eq_right hle, max_eq_left hle]; exact fun hc => hnr hc.symm'
      have := hd i hiV hbot _ hk.1
      rw [getD_gridLogits logit hk.2.2, hk.2.1] at this
      rw [if_pos this]
    · split <;> simp

/-- **C94**. Edge logits may be `-inf` for edges that are not wanted. Whatever spanning tree is given, and whatever is drawn, one call of
`sample_tree` ends without an exception and returns a spanning tree, and no spanning tree has fewer unwanted edges than the result. So unwanted edges
are kept only if the wanted edges do not connect the features, and then as few as possible. Also `COUNTERS.sample_tree_infeasible` grows by
exactly the number of unwanted edges in the result (by nothing, if there is at most one edge). -/
theorem sampleTreeInf_least {expf : K → K} (hnn : ∀ x, 0 ≤ expf x) (h0 : 0 < expf 0) (V : Nat) (grid : Grid) (hg : makeCompleteGraph V = .ok grid)
    (logit : Nat → Nat → WithBot K) (edges : List Edge) (ht : IsTree V edges) (junk : Nat → Nat) (perm : List Nat)
    (hp : perm.Perm (List.range edges.length)) :
    (∃ r, (sampleTreeInf expf junk grid (grid.map fun p => logit p.2.1 p.2.2) edges perm : ExceptT PyErr (Sampled K) _).run r) ∧
      ∀ r, (sampleTreeInf expf junk grid (grid.map fun p => logit p.2.1 p.2.2) edges perm : ExceptT PyErr (Sampled K) _).run r →
        ∃ T n, r = .ok (T, n) ∧ IsTree V T ∧ (2 ≤ edges.length ∨ Canonical edges → Canonical T) ∧
          (∀ T', IsTree V T' → (T.countP fun p => decide (logit (min p.1 p.2) (max p.1 p.2) = ⊥)) ≤
            T'.countP fun p => decide (logit (min p.1 p.2) (max p.1 p.2) = ⊥)) ∧
          n = if edges.length ≤ 1 then 0 else T.countP fun p => decide (logit (min p.1 p.2) (max p.1 p.2) = ⊥) := by
  rw [makeCompleteGraph_eq, Except.ok.injEq] at hg
  subst hg
  have hV := ht.card
  set logits := (completeGrid V).map fun p => logit p.2.1 p.2.2 with hlog
  have hl : logits.length = tri V := by rw [hlog, List.length_map, completeGrid_length]
  by_cases hE : edges.length ≤ 1
  · have hrun : (sampleTreeInf expf junk (completeGrid V) logits edges perm : ExceptT PyErr (Sampled K) _) = pure (edges, 0) := by
      unfold sampleTreeInf; rw [if_pos hE]
    rw [hrun]
    refine ⟨⟨_, rfl⟩, fun r hr => ⟨edges, 0, hr, ht, ?_, ?_, by rw [if_pos hE]⟩⟩
    · rintro (h | h)
      · omega
      · exact h
    · intro T' hT'
      have hc' := hT'.card
      have hsame : ∀ T : List Edge, IsTree V T → (T.countP fun p => decide (logit (min p.1 p.2) (max p.1 p.2) = ⊥))
          = if edges.length = 1 ∧ logit 0 1 = ⊥ then 1 else 0 := by
        intro T hT
        have hc := hT.card
        match T, hT with
        | [], hT => rw [if_neg (by simp at hc; omega)]; rfl
        | [p], hT =>
          have hlen : edges.length = 1 := by simp at hc; omega
          have hr := hT.range p (by simp)
          have hne := (exists_rooted hT (r := p.1) hr.1)
          have hpne : p.1 ≠ p.2 := by
            obtain ⟨d, par, R⟩ := hne
            intro hc
            refine R.irrefl (v := p.1) (.inl ?_)
            obtain ⟨a, b⟩ := p
            simp only at hc; subst hc; simp
          have h1 : min p.1 p.2 = 0 := by omega
          have h2 : max p.1 p.2 = 1 := by omega
          by_cases hb : logit 0 1 = ⊥ <;> simp [h1, h2, hlen, hb]
        | p :: q :: T, hT => simp at hc; omega
      rw [hsame _ ht, hsame _ hT']
  · have hmem : ∀ e ∈ perm, e < edges.length := fun e he => List.mem_range.1 (hp.mem_iff.1 he)
    have hmem' : ∀ e ∈ perm, e + 1 < V := fun e he => by have := hmem e he; omega
    obtain ⟨s, h1, I, -⟩ := treeStateInit_spec ht junk
    obtain ⟨⟨x1, h2⟩, h3⟩ := sampleTreeFoldInf hnn h0 hl perm s 0 I (hp.nodup_iff.2 List.nodup_range) hmem'
    obtain ⟨fin, hrun, hfin⟩ : ∃ fin : TreeState × Nat → ExceptT PyErr (Sampled K) (List Edge × Nat),
        (sampleTreeInf expf junk (completeGrid V) logits edges perm : ExceptT PyErr (Sampled K) _)
          = (perm.foldlM (sampleTreeStepInf expf (completeGrid V) logits) (s, 0) >>= fin) ∧
        ∀ x, LTree V x.1.e2k → fin x = pure (canonOf V x.1.e2k, x.2) := by
      refine ⟨fun x => do
          let out ← liftPy (x.1.e2k.mapM fun k => do
            let c ← pyGet (completeGrid V) k
            .ok (c.2.1, c.2.2))
          liftPy (pyAssert ((out.insertionSort edgeLe).length == edges.length))
          pure (out.insertionSort edgeLe, x.2), ?_, fun x hω => ?_⟩
      · unfold sampleTreeInf
        rw [if_neg hE, h1, liftPy_ok_bind]
      · have := congrArg (fun y => y >>= fun T => (pure (T, x.2) : ExceptT PyErr (Sampled K) (List Edge × Nat))) (finish_ok (m := Sampled K) hω hV)
        simpa only [bind_assoc, pure_bind] using this
    rw [hrun]
    constructor
    · obtain ⟨s1, n1, h4, I1, -⟩ := h3 _ h2
      cases h4
      refine ⟨.ok (canonOf V s1.e2k, n1), (sampled_run_bind _ _ _).2 (.inl ⟨_, h2, ?_⟩)⟩
      rw [hfin _ I1.ltree]
      rfl
    · intro r hr
      rcases (sampled_run_bind _ _ _).1 hr with ⟨x2, h4, h5⟩ | ⟨er, h4, -⟩
      · obtain ⟨s2, n2, h6, I2, -, hn, hd⟩ := h3 _ h4
        cases h6
        rw [hfin _ I2.ltree] at h5
        have hlen2 : s2.e2k.length = edges.length := by have := I2.ltree.length; omega
        have hdone := hd (fun f hf hfp => absurd (hp.mem_iff.2 (List.mem_range.2 (by omega))) hfp)
        have hcount : (canonOf V s2.e2k).countP (fun p => decide (logit (min p.1 p.2) (max p.1 p.2) = ⊥)) = forbiddenCount logit (treeOf V s2.e2k) :=
          (canonOf_perm V s2.e2k).countP_eq _
        refine ⟨_, _, h5, (canonOf_spec I2.ltree).2, fun _ => (canonOf_spec I2.ltree).1, ?_, ?_⟩
        · intro T' hT'
          rw [hcount]
          exact forbidden_least logit I2.ltree hdone T' hT'
        · rw [if_neg hE, hcount, forbiddenCount_treeOf logit I2.ltree.ids, hn, Nat.zero_add, hp.countP_eq, ← hlen2]
          conv_rhs => rw [← range_map_getD s2.e2k]
          rw [List.countP_map]
          rfl
      · obtain ⟨s2, n2, h6, -⟩ := h3 _ h4
        cases h6

end

theorem path4_isTree : IsTree 4 [(0, 1), (1, 2), (2, 3)] := isTree_of_smaller (by simp) (by simp) (by
  intro v hv h0
  have : v = 1 ∨ v = 2 ∨ v = 3 := by omega
  rcases this with rfl | rfl | rfl
  · exact ⟨0, by omega, .inr (by simp)⟩
  · exact ⟨1, by omega, .inr (by simp)⟩
  · exact ⟨2, by omega, .inr (by simp)⟩)

/-- The path 0-1-2-3 where the pair (0, 1) is forbidden: every result is free of it, and nothing is counted. -/
example (junk : Nat → Nat) (r) (hr : (sampleTreeInf Real.exp junk (completeGrid 4)
      ((completeGrid 4).map fun p => if p.2.1 = 0 ∧ p.2.2 = 1 then ⊥ else ((p.2.1 : ℝ) : WithBot ℝ)) [(0, 1), (1, 2), (2, 3)] [2, 0, 1] :
      ExceptT PyErr (Sampled ℝ) _).run r) : ∃ T, r = .ok (T, 0) ∧ IsTree 4 T ∧ (0, 1) ∉ T := by
  obtain ⟨T, n, h1, h2, h3, h4, h5⟩ := (sampleTreeInf_least (fun x => (Real.exp_pos x).le) (Real.exp_pos 0) 4 _ (makeCompleteGraph_eq 4)
    (fun a b => if a = 0 ∧ b = 1 then ⊥ else ((a : ℝ) : WithBot ℝ)) _ path4_isTree junk [2, 0, 1] (by decide)).2 r hr
  have ht : IsTree 4 [(0, 2), (1, 2), (2, 3)] := by
    refine ⟨by simp, by simp, ?_⟩
    have h02 : Adj [(0, 2), (1, 2), (2, 3)] 0 2 := .inl (by simp)
    have h12 : Adj [(0, 2), (1, 2), (2, 3)] 1 2 := .inl (by simp)
    have h32 : Adj [(0, 2), (1, 2), (2, 3)] 3 2 := .inr (by simp)
    have to2 : ∀ u < 4, Reach [(0, 2), (1, 2), (2, 3)] u 2 := by
      intro u hu
      have : u = 0 ∨ u = 1 ∨ u = 2 ∨ u = 3 := by omega
      rcases this with rfl | rfl | rfl | rfl
      · exact .single h02
      · exact .single h12
      · exact .refl
      · exact .single h32
    exact fun u hu v hv => (to2 u hu).trans (Reach.symm' (to2 v hv))
  have h6 := h4 _ ht
  have h7 : List.countP (fun p : Edge => decide ((if min p.1 p.2 = 0 ∧ max p.1 p.2 = 1 then ⊥ else ((min p.1 p.2 : ℕ) : ℝ) : WithBot ℝ) = ⊥))
      [(0, 2), (1, 2), (2, 3)] = 0 := by simp
  rw [h7] at h6
  have h6 := Nat.le_zero.1 h6
  rw [if_neg (by simp), h6] at h5
  refine ⟨T, by rw [h1, h5], h2, fun hc => ?_⟩
  have := List.countP_eq_zero.1 h6 _ hc
  simp at this

/-- Feature 0 may not be joined to any other: every result keeps exactly one forbidden edge, and it is counted. -/
example (junk : Nat → Nat) (r) (hr : (sampleTreeInf Real.exp junk (completeGrid 4)
      ((completeGrid 4).map fun p => if p.2.1 = 0 then ⊥ else ((p.2.1 : ℝ) : WithBot ℝ)) [(0, 1), (1, 2), (2, 3)] [2, 0, 1] :
      ExceptT PyErr (Sampled ℝ) _).run r) : ∃ T, r = .ok (T, 1) ∧ IsTree 4 T := by
  obtain ⟨T, n, h1, h2, h3, h4, h5⟩ := (sampleTreeInf_least (fun x => (Real.exp_pos x).le) (Real.exp_pos 0) 4 _ (makeCompleteGraph_eq 4)
    (fun a _ => if a = 0 then ⊥ else ((a : ℝ) : WithBot ℝ)) _ path4_isTree junk [2, 0, 1] (by decide)).2 r hr
  have h6 := h4 _ path4_isTree
  have h7 : List.countP (fun p : Edge => decide ((if min p.1 p.2 = 0 then ⊥ else ((min p.1 p.2 : ℕ) : ℝ) : WithBot ℝ) = ⊥))
      [(0, 1), (1, 2), (2, 3)] = 1 := by simp
  rw [h7] at h6
  have h8 : 0 < List.countP (fun p : Edge => decide ((if min p.1 p.2 = 0 then ⊥ else ((min p.1 p.2 : ℕ) : ℝ) : WithBot ℝ) = ⊥)) T := by
    rw [List.countP_pos_iff]
    rcases Relation.ReflTransGen.cases_head (h2.conn 0 (by omega) 1 (by omega)) with h | ⟨c, h, -⟩
    · omega
    · rcases h with h | h
      · exact ⟨_, h, by simp⟩
      · exact ⟨_, h, by simp⟩
  rw [if_neg (by simp)] at h5
  exact ⟨T, by rw [h1, h5]; congr 2; omega, h2⟩

end TreeCat
