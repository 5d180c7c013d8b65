import Verif.Lemmas.ServeMsg

/-!
# Sampling from the server: the samples are independent
-/

set_option linter.unusedSectionVars false

namespace TreeCat

open Spec Util

section
variable {K : Type} [Field K] [LinearOrder K] [IsStrictOrderedRing K] {M : Nat} [NeZero M]

/-- Independent draws, on a product of functions of each. -/
theorem mapM_choose {n : Nat} (p : Nat → Fin n → K) (G : Nat → Fin n → K) : ∀ (l : List Nat) (a : K) (T : List (Fin n) → K),
    (∀ ds, ds.length = l.length → T ds = a * (List.zipWith G l ds).prod) →
    (l.mapM (fun i => (Choose.choose (p i) : Expect K (Fin n))) : Expect K (List (Fin n))) T
      = a * (l.map fun i => (∑ c, p i c * G i c) / ∑ c, p i c).prod := by
  intro l
  induction l with
  | nil => intro a T hT; exact (hT [] rfl).trans (by simp)
  | cons i l ih =>
    intro a T hT
    rw [List.mapM_cons]
    change (∑ c, p i c * ((l.mapM (fun i => (Choose.choose (p i) : Expect K (Fin n))) : Expect K (List (Fin n)))
      fun ds => T (c :: ds))) / _ = _
    have : ∀ c, ((l.mapM (fun i => (Choose.choose (p i) : Expect K (Fin n))) : Expect K (List (Fin n))) fun ds => T (c :: ds))
        = a * G i c * (l.map fun i => (∑ c, p i c * G i c) / ∑ c, p i c).prod := by
      intro c
      refine ih _ _ fun ds hds => ?_
      rw [hT _ (by simp [hds]), List.zipWith_cons_cons, List.prod_cons]; ring
    simp only [this]
    rw [List.map_cons, List.prod_cons]
    have e : ∑ c, p i c * (a * G i c * (l.map fun i => (∑ c, p i c * G i c) / ∑ c, p i c).prod)
        = (∑ c, p i c * G i c) * (a * (l.map fun i => (∑ c, p i c * G i c) / ∑ c, p i c).prod) := by
      rw [Finset.sum_mul]
      exact Finset.sum_congr rfl fun c _ => by ring
    rw [e]
    ring

theorem zipWith_range_prod {α : Type} (G : Nat → α → K) : ∀ (N : Nat) (ds : List α) (a : α), ds.length = N →
    (List.zipWith G (List.range N) ds).prod = ∏ n ∈ Finset.range N, G n (ds.getD n a) := by
  intro N
  induction N with
  | zero => intro ds a h; simp
  | succ N ih =>
    intro ds a h
    obtain ⟨ds', d, rfl⟩ : ∃ ds' d, ds = ds' ++ [d] := by
      have hne : ds ≠ [] := by intro h'; simp [h'] at h
      exact ⟨ds.dropLast, ds.getLast hne, (List.dropLast_append_getLast hne).symm⟩
    have hl : ds'.length = N := by simpa using h
    rw [List.range_succ, List.zipWith_append (by simp [hl]), List.prod_append, ih ds' a hl, Finset.prod_range_succ]
    congr 1
    · refine Finset.prod_congr rfl fun n hn => ?_
      rw [Finset.mem_range] at hn
      rw [List.getD_append _ _ _ _ (by omega)]
    · rw [List.getD_append_right _ _ _ _ (by omega), hl]; simp

theorem choose2_run {n : Nat} (N : Nat) (p : Nat → Fin n → K) (G : Nat → Fin n → K) (T : List (Fin n) → K) (a : Fin n)
    (hT : ∀ ds, ds.length = N → T ds = ∏ i ∈ Finset.range N, G i (ds.getD i a)) :
    (choose2 N p : Expect K (List (Fin n))) T = ∏ i ∈ Finset.range N, (∑ c, p i c * G i c) / ∑ c, p i c := by
  unfold choose2
  rw [mapM_choose p G (List.range N) 1 T]
  · rw [one_mul]; rfl
  · intro ds hds
    rw [List.length_range] at hds
    rw [hT ds hds, one_mul, zipWith_range_prod G N ds a hds]

/-! ### One sample -/

/-- `sample_row[beg + c] += 1` on int8. -/
def bumpOne (x : Nat → Int) (r0 : Nat) : Nat → Int := fun r => if r = r0 then wrap8 (x r + 1) else x r

/-- `k` draws of feature `v` for one sample of class `a`. -/
def obsW (srv : Server K M) (v : Nat) (a : Fin M) : Nat → (Nat → Int) → ((Nat → Int) → K) → K
  | 0, x, G => G x
  | j + 1, x, G => (∑ c : Fin (srv.stop v - srv.beg v), srv.featCond (srv.beg v + c.val) a *
      obsW srv v a j (bumpOne x (srv.beg v + c.val)) G) / ∑ c : Fin (srv.stop v - srv.beg v), srv.featCond (srv.beg v + c.val) a

/-- The part of the state that belongs to one sample. -/
structure Cell (K : Type) (M : Nat) where
  out : Nat → Fin M → K
  z : Nat → Fin M
  x : Nat → Int

/-- What the outward instructions do to one sample. -/
def oneStep (srv : Server K M) (b : Nat → Fin M → K) (cnt : Nat → Nat) (i : Instr) (s : Cell K M) (k : Cell K M → K) : K :=
  match i.op with
  | .ROOT => k { s with out := Function.update s.out i.v (b i.v) }
  | .OUT =>
    let msg := fun a => b i.v a * transAt srv.edgeTrans i.e i.v2 i.v (s.z i.v2) a
    k { s with out := Function.update s.out i.v fun a => msg a / vecMax msg }
  | .DOWN => (∑ m, s.out i.v m * obsW srv i.v m (cnt i.v) s.x fun x =>
      k { s with z := Function.update s.z i.v m, x := x }) / ∑ m, s.out i.v m
  | _ => k s

def onePass (srv : Server K M) (b : Nat → Fin M → K) (cnt : Nat → Nat) : List Instr → Cell K M → (Cell K M → K) → K
  | [], s, k => k s
  | i :: prog, s, k => oneStep srv b cnt i s fun s => onePass srv b cnt prog s k

/-- The part of the state for sample `n`. -/
def SampleState.cell (s : SampleState K M) (n : Nat) : Cell K M :=
  ⟨fun v => s.messagesOut v n, fun v => s.vertSamples v n, s.featSamples n⟩

theorem drawFeatures_run (srv : Server K M) (N v : Nat) (vs : Nat → Fin M) (G : Nat → (Nat → Int) → K)
    (T : Except PyErr (Nat → Nat → Int) → K) (hT : ∀ f, T (.ok f) = ∏ n ∈ Finset.range N, G n (f n)) :
    ∀ (j : Nat) (_ : j ≠ 0 → srv.stop v - srv.beg v ≠ 0) (f : Nat → Nat → Int),
    (drawFeatures srv N v vs j f : ExceptT PyErr (Expect K) _).run T = ∏ n ∈ Finset.range N, obsW srv v (vs n) j (f n) (G n) := by
  intro j
  induction j with
  | zero => intro _ f; exact hT f
  | succ j ih =>
    intro hj f
    have hw := hj (by omega)
    have hw' : 0 < srv.stop v - srv.beg v := Nat.pos_of_ne_zero hw
    rw [drawFeatures, drawFeature, if_neg hw]
    change (choose2 N _ : Expect K _) (fun draws => (drawFeatures srv N v vs j (bumpSamples f (srv.beg v) draws) :
      ExceptT PyErr (Expect K) _).run T) = _
    rw [choose2_run N _ (fun n c => obsW srv v (vs n) j (bumpOne (f n) (srv.beg v + c.val)) (G n)) _ ⟨0, hw'⟩]
    · rfl
    · intro ds hds
      rw [ih (fun h => hw)]
      refine Finset.prod_congr rfl fun n hn => ?_
      rw [Finset.mem_range] at hn
      congr 1
      funext r
      unfold bumpSamples bumpOne
      rw [List.getElem?_eq_getElem (by omega), List.getD_eq_getElem _ _ (by omega)]

/-- The samples are independent: on a product of functions of each sample, the loop gives the product of what it
gives for each. -/
theorem sample_run (srv : Server K M) (b : Nat → Fin M → K) (N : Nat) (counts data : List Int) (k : Nat → Cell K M → K)
    (T : Except PyErr (SampleState K M) → K) (hT : ∀ s, T (.ok s) = ∏ n ∈ Finset.range N, k n (s.cell n)) :
    ∀ (prog : List Instr) (_ : ∀ i ∈ prog, i.op ≠ .UP ∧ i.op ≠ .IN)
      (_ : ∀ i ∈ prog, i.op = .DOWN → (counts.getD i.v 0).toNat ≠ 0 → srv.stop i.v - srv.beg i.v ≠ 0)
      (s : SampleState K M) (_ : s.messagesIn = b),
    (prog.foldlM (sampleStep srv N counts data) s : ExceptT PyErr (Expect K) _).run T
      = ∏ n ∈ Finset.range N, onePass srv b (fun v => (counts.getD v 0).toNat) prog (s.cell n) (k n) := by
  intro prog
  induction prog with
  | nil => intro _ _ s _; exact hT s
  | cons i prog ih =>
    intro h1 h2 s hs
    have ih' := ih (fun i hi => h1 i (by simp [hi])) (fun i hi => h2 i (by simp [hi]))
    rw [List.foldlM_cons]
    obtain ⟨op, v, v2, e⟩ := i
    cases op with
    | UP => exact absurd rfl (h1 _ List.mem_cons_self).1
    | IN => exact absurd rfl (h1 _ List.mem_cons_self).2
    | ROOT =>
      refine (ih' { s with messagesOut := Function.update s.messagesOut v fun _ => s.messagesIn v } hs).trans ?_
      refine Finset.prod_congr rfl fun n _ => ?_
      simp only [onePass, oneStep]
      congr 1
      unfold SampleState.cell
      simp only [Cell.mk.injEq, and_true]
      funext w
      by_cases hw : w = v
      · subst hw; simp [hs]
      · simp [Function.update_of_ne hw]
    | OUT =>
      refine (ih' ⟨s.messagesIn, Function.update s.messagesOut v (fun n b =>
          (s.messagesIn v b * transAt srv.edgeTrans e v2 v (s.vertSamples v2 n) b) /
            vecMax (fun b => s.messagesIn v b * transAt srv.edgeTrans e v2 v (s.vertSamples v2 n) b)),
          s.vertSamples, s.featSamples⟩ hs).trans ?_
      refine Finset.prod_congr rfl fun n _ => ?_
      simp only [onePass, oneStep]
      congr 1
      unfold SampleState.cell
      simp only [Cell.mk.injEq, and_true]
      funext w
      by_cases hw : w = v
      · subst hw; simp [hs]
      · simp [Function.update_of_ne hw]
    | DOWN =>
      simp only [sampleStep, bind_assoc, pure_bind]
      change (choose2 N (s.messagesOut v) : Expect K _) (fun draws =>
        (drawFeatures srv N v (fun n => draws.getD n 0) (counts.getD v 0).toNat s.featSamples >>= fun f =>
          prog.foldlM (sampleStep srv N counts data) ⟨s.messagesIn, s.messagesOut,
                Function.update s.vertSamples v fun n => draws.getD n 0, f⟩ :
                ExceptT PyErr (Expect K) _).run T) = _
      rw [choose2_run N _ (fun n m => obsW srv v m (counts.getD v 0).toNat (s.featSamples n) fun x =>
        onePass srv b (fun v => (counts.getD v 0).toNat) prog
          { (s.cell n) with z := Function.update (s.cell n).z v m, x := x } (k n)) _ 0]
      · rfl
      · intro ds hds
        change ((drawFeatures srv N v (fun n => ds.getD n 0) (counts.getD v 0).toNat s.featSamples :
          ExceptT PyErr (Expect K) _).run fun r => ExceptT.bindCont (fun f =>
            (prog.foldlM (sampleStep srv N counts data) ⟨s.messagesIn, s.messagesOut,
                Function.update s.vertSamples v fun n => ds.getD n 0, f⟩ : ExceptT PyErr (Expect K) _)) r T) = _
        rw [drawFeatures_run srv N v (fun n => ds.getD n 0) (fun n x =>
          onePass srv b (fun v => (counts.getD v 0).toNat) prog
            { (s.cell n) with z := Function.update (s.cell n).z v (ds.getD n 0), x := x } (k n)) _ _ _
            (fun h => h2 ⟨.DOWN, v, v2, e⟩ (by simp) rfl h)]
        intro f
        refine (ih' ⟨s.messagesIn, s.messagesOut, Function.update s.vertSamples v fun n => ds.getD n 0, f⟩ hs).trans ?_
        refine Finset.prod_congr rfl fun n _ => ?_
        congr 1
        unfold SampleState.cell
        simp only [Cell.mk.injEq, and_true, true_and]
        funext w
        by_cases hw : w = v
        · subst hw; simp
        · simp [Function.update_of_ne hw]

end

end TreeCat
