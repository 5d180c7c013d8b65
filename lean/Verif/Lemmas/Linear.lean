import Mathlib.Algebra.BigOperators.Fin
import Mathlib.Algebra.BigOperators.Ring.Finset
import Mathlib.Algebra.BigOperators.Field
import Mathlib.Data.List.GetD
import Mathlib.Data.List.Perm.Basic
import Mathlib.Tactic.Ring
import Verif.Model.Serving
import Verif.Model.Uniform

/-!
# Expectations are linear
-/

set_option linter.unusedSectionVars false

namespace TreeCat

open scoped BigOperators

section
variable {K : Type} [Field K] {α β γ : Type}

/-- The expected value of a linear combination. -/
def Linear (x : Expect K α) : Prop :=
  ∀ (τ : Type) (s : Finset τ) (c : τ → K) (f : τ → α → K), x (fun a => ∑ t ∈ s, c t * f t a) = ∑ t ∈ s, c t * x (f t)

theorem Linear.pure (a : α) : Linear (pure a : Expect K α) := fun _ _ _ _ => rfl

theorem Linear.bind {x : Expect K α} {f : α → Expect K β} (hx : Linear x) (hf : ∀ a, Linear (f a)) : Linear (x >>= f) := by
  intro τ s c g
  change x (fun a => f a fun b => ∑ t ∈ s, c t * g t b) = ∑ t ∈ s, c t * x (fun a => f a (g t))
  rw [← hx]
  congr 1
  funext a
  exact hf a τ s c g

theorem Linear.choose {n : Nat} (p : Fin n → K) : Linear (Choose.choose p : Expect K (Fin n)) := by
  intro τ s c f
  change (∑ i, p i * ∑ t ∈ s, c t * f t i) / ∑ i, p i = ∑ t ∈ s, c t * ((∑ i, p i * f t i) / ∑ i, p i)
  simp only [Finset.mul_sum, ← mul_div_assoc, ← Finset.sum_div]
  rw [Finset.sum_comm]
  congr 1
  refine Finset.sum_congr rfl fun t _ => Finset.sum_congr rfl fun i _ => by ring

theorem Linear.mapM {f : α → Expect K β} (hf : ∀ a, Linear (f a)) : ∀ l : List α, Linear (l.mapM f)
  | [] => by rw [List.mapM_nil]; exact Linear.pure _
  | a :: l => by
    rw [List.mapM_cons]
    exact (hf a).bind fun b => (Linear.mapM hf l).bind fun bs => Linear.pure _

theorem Linear.bindE {x : ExceptT PyErr (Expect K) α} {f : α → ExceptT PyErr (Expect K) β} (hx : Linear x.run)
    (hf : ∀ a, Linear (f a).run) : Linear (x >>= f).run := by
  refine Linear.bind (f := ExceptT.bindCont f) hx fun r => ?_
  cases r with
  | ok a => exact hf a
  | error e => exact Linear.pure _

theorem Linear.lift {x : Expect K α} (hx : Linear x) : Linear (ExceptT.lift x : ExceptT PyErr (Expect K) α).run :=
  Linear.bind hx fun _ => Linear.pure _

theorem Linear.pureE (a : α) : Linear (Pure.pure a : ExceptT PyErr (Expect K) α).run := Linear.pure _

theorem Linear.foldlM {f : β → α → ExceptT PyErr (Expect K) β} (hf : ∀ b a, Linear (f b a).run) :
    ∀ (l : List α) (b : β), Linear (l.foldlM f b).run
  | [], b => by rw [List.foldlM_nil]; exact Linear.pureE _
  | a :: l, b => by rw [List.foldlM_cons]; exact (hf b a).bindE fun b => Linear.foldlM hf l b

end

section
variable {K : Type} [Field K] [LinearOrder K] [IsStrictOrderedRing K] {M : Nat} [NeZero M]

theorem Linear.drawFeatures (srv : Server K M) (N v : Nat) (vs : Nat → Fin M) :
    ∀ (j : Nat) (f : Nat → Nat → Int), Linear (drawFeatures srv N v vs j f : ExceptT PyErr (Expect K) _).run
  | 0, f => Linear.pureE _
  | j + 1, f => by
    refine Linear.bindE ?_ fun f => Linear.drawFeatures srv N v vs j f
    unfold drawFeature
    split_ifs
    · exact Linear.pure _
    · exact Linear.bindE (Linear.lift (Linear.mapM (fun i => Linear.choose _) _)) fun _ => Linear.pureE _

theorem Linear.sampleLoop (srv : Server K M) (prog : List Instr) (N : Nat) (counts data : List Int) :
    Linear (sampleLoop srv prog N counts data : ExceptT PyErr (Expect K) _).run := by
  refine Linear.foldlM (fun s i => ?_) _ _
  unfold sampleStep
  cases i.op with
  | DOWN =>
    exact Linear.bindE (Linear.lift (Linear.mapM (fun i => Linear.choose _) _)) fun _ =>
      Linear.bindE (Linear.drawFeatures srv N _ _ _ _) fun _ => Linear.pureE _
  | _ => exact Linear.pureE _

end

/-! ### Independent uniform draws -/

section
variable {K : Type} [Field K]

theorem uniform_mapM (size : Nat) {α : Type} (l : List α) (G : List (Fin size) → K) :
    (l.mapM (fun _ => Choose.choose (fun _ : Fin size => (1 : K))) : Expect K (List (Fin size))) G
      = (∑ d : Fin l.length → Fin size, G (List.ofFn d)) / (size : K) ^ l.length := by
  induction l generalizing G with
  | nil =>
    rw [List.mapM_nil]
    simp [Pure.pure]
  | cons a l ih =>
    rw [List.mapM_cons]
    change (∑ i : Fin size, 1 * (l.mapM (fun _ => Choose.choose (fun _ : Fin size => (1 : K))) : Expect K _)
      (fun is => G (i :: is))) / ∑ i : Fin size, (1 : K) = _
    simp only [ih, one_mul, Finset.sum_const, Finset.card_univ, Fintype.card_fin, nsmul_eq_mul, mul_one, ← Finset.sum_div]
    rw [div_div, List.length_cons, pow_succ]
    congr 1
    rw [← Fintype.sum_prod_type']
    refine Fintype.sum_equiv (Fin.consEquiv fun _ => Fin size) _ _ fun p => ?_
    simp [Fin.consEquiv, List.ofFn_succ]

theorem uniform_range (size N : Nat) (G : List (Fin size) → K) :
    ((List.range N).mapM (fun _ => Choose.choose (fun _ : Fin size => (1 : K))) : Expect K (List (Fin size))) G
      = (∑ d : Fin N → Fin size, G (List.ofFn d)) / (size : K) ^ N := by
  have h := uniform_mapM size (List.range N) G
  have hN : (List.range N).length = N := List.length_range
  generalize List.range N = l at h hN
  subst hN
  exact h

end

/-! ### Products along lists -/

section
variable {K : Type} [Field K] {β : Type}

theorem mapIdx_prod (k : Nat → β → K) (l : List β) (d : β) :
    (l.mapIdx k).prod = ∏ n ∈ Finset.range l.length, k n (l.getD n d) := by
  induction l generalizing k with
  | nil => simp
  | cons a l ih =>
    rw [List.mapIdx_cons, List.prod_cons, ih, List.length_cons, Finset.prod_range_succ']
    simp only [List.getD_cons_succ, List.getD_cons_zero]
    rw [mul_comm]

theorem range_filterMap (l : List β) : ((List.range l.length).filterMap fun i => l[i]?) = l := by
  induction l with
  | nil => rfl
  | cons a l ih =>
    rw [List.length_cons, List.range_succ_eq_map, List.filterMap_cons]
    simp only [List.getElem?_cons_zero, List.filterMap_map, Function.comp_def, Nat.succ_eq_add_one, List.getElem?_cons_succ]
    rw [ih]

/-- Following a permutation in one direction or the other. -/
theorem perm_prod (k : Nat → β → K) {l : List β} {p : List Nat} (hp : p.Perm (List.range l.length)) :
    ((p.filterMap fun i => l[i]?).mapIdx k).prod = (l.mapIdx fun j => k (p.idxOf j)).prod := by
  rcases l.eq_nil_or_concat with rfl | ⟨l', d, -⟩
  · simp only [List.length_nil, List.range_zero, List.perm_nil] at hp
    subst hp; rfl
  · have hlt : ∀ i ∈ p, i < l.length := fun i hi => List.mem_range.1 (hp.mem_iff.1 hi)
    have hlen : p.length = l.length := by rw [hp.length_eq, List.length_range]
    have hnd : p.Nodup := hp.nodup_iff.2 List.nodup_range
    have e : (p.filterMap fun i => l[i]?) = p.map fun i => l.getD i d := by
      rw [← List.filterMap_eq_map]
      refine List.filterMap_congr fun i hi => ?_
      rw [List.getElem?_eq_getElem (hlt i hi), Function.comp_apply, List.getD_eq_getElem _ _ (hlt i hi)]
    rw [e, mapIdx_prod _ _ d, mapIdx_prod _ _ d, List.length_map, hlen]
    refine Finset.prod_bij (fun n _ => p.getD n 0) (fun n hn => ?_) (fun a ha b hb h => ?_) (fun j hj => ?_) fun n hn => ?_
    · rw [Finset.mem_range] at hn ⊢
      rw [List.getD_eq_getElem _ _ (hlen ▸ hn)]
      exact hlt _ (List.getElem_mem _)
    · rw [Finset.mem_range] at ha hb
      rw [List.getD_eq_getElem _ _ (hlen ▸ ha), List.getD_eq_getElem _ _ (hlen ▸ hb)] at h
      exact (List.Nodup.getElem_inj_iff hnd).1 h
    · rw [Finset.mem_range] at hj
      have hm : j ∈ p := hp.mem_iff.2 (List.mem_range.2 hj)
      refine ⟨p.idxOf j, ?_, ?_⟩
      · rw [Finset.mem_range, ← hlen]; exact List.idxOf_lt_length_of_mem hm
      · rw [List.getD_eq_getElem _ _ (List.idxOf_lt_length_of_mem hm), List.getElem_idxOf]
    · rw [Finset.mem_range] at hn
      have hn' : n < p.length := hlen ▸ hn
      rw [List.getD_eq_getElem _ _ hn', hnd.idxOf_getElem, List.getD_eq_getElem _ _ (by simpa using hn'), List.getElem_map]

/-- Lists with the same entries have the same rearrangements. -/
theorem perm_sum (F : List β → K) {l l' : List β} (h : l.Perm l') :
    ((List.range l.length).permutations.map fun p => F (p.filterMap fun i => l[i]?)).sum
      = ((List.range l'.length).permutations.map fun p => F (p.filterMap fun i => l'[i]?)).sum := by
  have key : ∀ l : List β, ((List.range l.length).permutations.map fun p => F (p.filterMap fun i => l[i]?))
      = l.permutations.map F := by
    intro l
    rcases l.eq_nil_or_concat with rfl | ⟨l', d, -⟩
    · simp
    · conv_rhs => rw [← range_filterMap l]
      have e : ∀ p : List Nat, (∀ i ∈ p, i < l.length) → (p.filterMap fun i => l[i]?) = p.map fun i => l.getD i d := by
        intro p hlt
        rw [← List.filterMap_eq_map]
        refine List.filterMap_congr fun i hi => ?_
        rw [List.getElem?_eq_getElem (hlt i hi), Function.comp_apply, List.getD_eq_getElem _ _ (hlt i hi)]
      rw [e _ fun i hi => List.mem_range.1 hi, ← List.map_permutations, List.map_map]
      refine List.map_congr_left fun p hp => ?_
      rw [e p fun i hi => List.mem_range.1 ((List.mem_permutations.1 hp).mem_iff.1 hi)]
      rfl
  rw [key, key]
  exact (h.permutations.map F).sum_eq

/-- Independent draws, rearranged by a fixed permutation, are independent draws. -/
theorem draws_perm {N size : Nat} (F : Nat → Fin size → K) {p : List Nat} (hp : p.Perm (List.range N)) :
    ∑ d : Fin N → Fin size, ((p.filterMap fun i => (List.ofFn d)[i]?).mapIdx F).prod = ∏ n ∈ Finset.range N, ∑ i, F n i := by
  have hlen : p.length = N := by rw [hp.length_eq, List.length_range]
  have hlt : ∀ i ∈ p, i < N := fun i hi => List.mem_range.1 (hp.mem_iff.1 hi)
  have hnd : p.Nodup := hp.nodup_iff.2 List.nodup_range
  let e : Fin N → Fin N := fun n => ⟨p[n.val]'(hlen ▸ n.isLt), hlt _ (List.getElem_mem _)⟩
  have he : Function.Bijective e := by
    refine Finite.injective_iff_bijective.1 fun a b h => ?_
    have := congrArg Fin.val h
    exact Fin.ext ((List.Nodup.getElem_inj_iff hnd).1 this)
  have key : ∀ d : Fin N → Fin size, (p.filterMap fun i => (List.ofFn d)[i]?) = List.ofFn (d ∘ e) := by
    intro d
    apply List.ext_getElem?
    intro n
    have e' : (p.filterMap fun i => (List.ofFn d)[i]?) = p.pmap (fun i hi => d ⟨i, hi⟩) hlt := by
      clear he hnd hlen hp e n
      induction p with
      | nil => rfl
      | cons i p ih =>
        rw [List.filterMap_cons, List.pmap, ih fun i hi => hlt i (List.mem_cons_of_mem _ hi)]
        have hi := hlt i (by simp)
        simp [hi]
    rw [e']
    rcases Nat.lt_or_ge n N with h | h
    · rw [List.getElem?_eq_getElem (by simpa [hlen] using h), List.getElem?_eq_getElem (by simpa using h)]
      simp [e]
    · rw [List.getElem?_eq_none (by simpa [hlen] using h), List.getElem?_eq_none (by simpa using h)]
  simp only [key]
  rw [Fintype.sum_equiv (Equiv.arrowCongr (Equiv.ofBijective e he).symm (Equiv.refl (Fin size))) _
    (fun d : Fin N → Fin size => ((List.ofFn d).mapIdx F).prod) fun d => by congr 2]
  rw [Finset.prod_range fun n => ∑ i, F n i, Fintype.prod_sum]
  refine Finset.sum_congr rfl fun d _ => ?_
  rw [← List.prod_ofFn]
  congr 1
  apply List.ext_getElem?
  intro n
  rcases Nat.lt_or_ge n N with h | h
  · rw [List.getElem?_eq_getElem (by simpa using h), List.getElem?_eq_getElem (by simpa using h)]
    simp
  · rw [List.getElem?_eq_none (by simpa using h), List.getElem?_eq_none (by simpa using h)]

end

end TreeCat
