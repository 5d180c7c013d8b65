import Mathlib.Analysis.SpecificLimits.Basic
import Verif.Props.CleanDataset
import Verif.Props.EnsembleLaw

/-!
# C56: the trees that servers sample come from the posterior over trees

`sample_tree` of a server runs the Markov chain of C07 from the most likely tree. Its `i`-th tree is within `ρ ^ (i + 1)`
of the distribution with probabilities proportional to the exponential of the sum of the edge logits; the trees of an
ensemble are drawn from the mixture of the distributions of its members.
-/

set_option linter.unusedSectionVars false

namespace TreeCat

open Spec
open scoped BigOperators

/-! ### Chains of trees -/

section
variable {V : Nat} {logits : List ℝ} {junk : Nat → Nat}

/-- One call of `sample_tree` with a random scan order. -/
noncomputable def treeStep (V : Nat) (junk : Nat → Nat) (logits : List ℝ) (f : List Edge → ℝ) (T : List Edge) : ℝ :=
  ((List.range T.length).permutations.map fun σ =>
    (sampleTree Real.exp junk (completeGrid V) logits T σ : ExceptT PyErr (Expect ℝ) _).run (onTree f)).sum /
      (T.length.factorial : ℝ)

/-- Several calls, each from the result of the call before. -/
noncomputable def treeChain (V : Nat) (junk : Nat → Nat) (logits : List ℝ) : Nat → List Edge → (List (List Edge) → ℝ) → ℝ
  | 0, _, F => F []
  | n + 1, T, F => treeStep V junk logits (fun T' => treeChain V junk logits n T' fun ts => F (T' :: ts)) T

theorem treeStep_avg {T : List Edge} (hcan : Canonical T) (ht : IsTree V T) (hl : logits.length = tri V) :
    Avg (fun T => Canonical T ∧ IsTree V T) (fun T => Canonical T ∧ IsTree V T) fun f => treeStep V junk logits f T :=
  sampleTree_avg hcan ht junk hl

theorem treeChain_avg (hl : logits.length = tri V) : ∀ (n : Nat) {T : List Edge}, Canonical T → IsTree V T →
    Avg (fun ts : List (List Edge) => ts.length = n ∧ ∀ T ∈ ts, Canonical T ∧ IsTree V T) (fun _ => False)
      (treeChain V junk logits n T) := by
  intro n
  induction n with
  | zero =>
    intro T _ _
    refine ((Avg.point ([] : List (List Edge))).mono_dom ?_).mono_hit fun _ h => h.elim
    rintro _ rfl
    exact ⟨rfl, by simp⟩
  | succ n ih =>
    intro T h1 h2
    have hA := Avg.bind (D2 := fun ts : List (List Edge) => ts.length = n + 1 ∧ ∀ T ∈ ts, Canonical T ∧ IsTree V T)
      (H2 := fun _ _ => False) (F := fun T' F => treeChain V junk logits n T' fun ts => F (T' :: ts))
      (treeStep_avg (junk := junk) h1 h2 hl) fun T' h =>
        (((ih h.1 h.2).map fun ts => T' :: ts).mono_dom (by
          rintro _ ⟨ts, ⟨h3, h4⟩, rfl⟩
          refine ⟨by rw [List.length_cons, h3], fun T hT => ?_⟩
          rcases List.mem_cons.1 hT with rfl | hT
          · exact h
          · exact h4 T hT)).mono_hit fun _ h => h.elim
    exact hA.mono_hit fun _ h => h.elim

theorem Avg.sum {α ι : Type} {D H : α → Prop} {E : (α → ℝ) → ℝ} (h : Avg D H E) (s : Finset ι) (g : ι → α → ℝ) :
    E (fun a => ∑ i ∈ s, g i a) = ∑ i ∈ s, E (g i) := by
  classical
  have h0 : E (fun _ => 0) = 0 := by
    have := h.lin (fun _ => 1) (fun _ => 1) (-1)
    simpa [h.one] using this
  induction s using Finset.induction_on with
  | empty => simpa using h0
  | insert a s ha ih =>
    rw [Finset.sum_insert ha, ← ih]
    have := h.lin (g a) (fun b => ∑ i ∈ s, g i b) 1
    simp only [one_mul] at this
    rw [← this]
    exact congrArg E (funext fun b => Finset.sum_insert ha)

theorem Avg.const {α : Type} {D H : α → Prop} {E : (α → ℝ) → ℝ} (h : Avg D H E) (c : ℝ) : E (fun _ => c) = c := by
  have h0 := h.lin (fun _ => 1) (fun _ => 1) (-1)
  have h1 := h.lin (fun _ => 0) (fun _ => 1) c
  simp only [h.one, mul_one, zero_add] at h0 h1
  norm_num at h0
  rw [h0] at h1
  linarith

theorem Avg.add {α : Type} {D H : α → Prop} {E : (α → ℝ) → ℝ} (h : Avg D H E) (f g : α → ℝ) :
    E (fun a => f a + g a) = E f + E g := by
  have := h.lin f g 1
  simpa only [one_mul] using this

/-- The `i`-th tree of the chain. -/
theorem treeChain_get (hl : logits.length = tri V) (f : List Edge → ℝ) : ∀ (n i : Nat), i < n → ∀ {T : List Edge}, Canonical T →
    IsTree V T → treeChain V junk logits n T (fun ts => f (ts.getD i [])) = (treeStep V junk logits)^[i + 1] f T := by
  intro n
  induction n with
  | zero => intro i hi; omega
  | succ n ih =>
    intro i hi T h1 h2
    rw [Function.iterate_succ_apply']
    refine (treeStep_avg h1 h2 hl).congr _ _ fun T' h => ?_
    cases i with
    | zero => exact (treeChain_avg (junk := junk) hl n h.1 h.2).const (f T')
    | succ i => exact ih i (by omega) h.1 h.2

/-- The sum over the trees of the chain. -/
theorem treeChain_sum (hl : logits.length = tri V) (f : List Edge → ℝ) : ∀ (n : Nat) {T : List Edge}, Canonical T →
    IsTree V T → treeChain V junk logits n T (fun ts => (ts.map f).sum)
      = ∑ i ∈ Finset.range n, (treeStep V junk logits)^[i + 1] f T := by
  intro n
  induction n with
  | zero => intro T _ _; simp [treeChain]
  | succ n ih =>
    intro T h1 h2
    rw [Finset.sum_range_succ']
    simp only [Function.iterate_succ_apply']
    have hA := treeStep_avg (junk := junk) h1 h2 hl
    refine Eq.trans (hA.congr _ (fun T' => ∑ i ∈ Finset.range n, (treeStep V junk logits)^[i + 1] f T' + f T') fun T' h => ?_) ?_
    · have hB := treeChain_avg (junk := junk) hl n h.1 h.2
      simp only [List.map_cons, List.sum_cons]
      rw [hB.add (fun _ => f T'), hB.const, ih h.1 h.2, add_comm]
    · rw [hA.add, hA.sum]
      simp only [Function.iterate_succ_apply', Function.iterate_zero, id]

/-- The posterior probability of a tree, given the logits of all pairs in the order of `make_complete_graph`. -/
noncomputable def treePosterior (logits : List ℝ) (S : Finset (List Edge)) (T : List Edge) : ℝ :=
  Real.exp ((T.map fun p => logits.getD (p.1 + p.2 * (p.2 - 1) / 2) 0).sum) /
    ∑ T ∈ S, Real.exp ((T.map fun p => logits.getD (p.1 + p.2 * (p.2 - 1) / 2) 0).sum)

/-- The chain converges to the posterior. -/
theorem treeStep_converges (hV : 1 ≤ V) (hl : logits.length = V * (V - 1) / 2) (S : Finset (List Edge))
    (hS : ∀ T, T ∈ S ↔ Canonical T ∧ IsTree V T) (junk : Nat → Nat) :
    ∃ ρ : ℝ, 0 ≤ ρ ∧ ρ < 1 ∧ ∀ (f : List Edge → ℝ) (lo hi : ℝ), (∀ T ∈ S, lo ≤ f T ∧ f T ≤ hi) → ∀ T ∈ S, ∀ n : Nat,
      |(treeStep V junk logits)^[n] f T - ∑ T ∈ S, treePosterior logits S T * f T| ≤ ρ ^ n * (hi - lo) := by
  classical
  set P : (TreeOn V → ℝ) → TreeOn V → ℝ := fun f ω =>
    treeStep V junk logits (fun T => if h : Canonical T ∧ IsTree V T then f ⟨T, h⟩ else 0) ω.1 with hP
  have hsum : ∀ F : List Edge → ℝ, (∑ ω : TreeOn V, F ω.1) = ∑ T ∈ S, F T := fun F => (Finset.sum_subtype S hS F).symm
  have hne : Nonempty (TreeOn V) := by
    obtain ⟨h1, h2⟩ := path_start hV
    exact ⟨⟨_, h2, h1⟩⟩
  have hZ : 0 < ∑ T ∈ S, Real.exp ((T.map fun p => logits.getD (p.1 + p.2 * (p.2 - 1) / 2) 0).sum) := by
    rw [← hsum]
    exact Finset.sum_pos (fun _ _ => Real.exp_pos _) Finset.univ_nonempty
  obtain ⟨ρ, h0, h1, h2⟩ := doeblin P (fun ω => ((treeStep_avg ω.2.1 ω.2.2 hl).subtype).mono_hit fun ω _ => ω.2)
    (fun ω => treePosterior logits S ω.1) (fun ω => div_nonneg (Real.exp_pos _).le hZ.le)
    (by rw [hsum]; unfold treePosterior; rw [← Finset.sum_div, div_self hZ.ne']) (by
      intro f
      have h := sampleTree_invariant Real.exp_pos Real.exp_add V junk
        (fun a b => logits.getD (a + b * (b - 1) / 2) 0) _ (makeCompleteGraph_eq V) S hS
        (onTree fun T => if h : Canonical T ∧ IsTree V T then f ⟨T, h⟩ else 0)
      have e : (completeGrid V).map (fun c => logits.getD (c.2.1 + c.2.2 * (c.2.2 - 1) / 2) 0) = logits := by
        refine Eq.trans ?_ (exists_logit hl).symm
        refine List.map_congr_left fun c hc => ?_
        obtain ⟨k, hk⟩ := List.mem_iff_getElem?.1 hc
        rw [completeGrid_getElem?] at hk
        cases hp : (pairs V)[k]? with
        | none => rw [hp] at hk; cases hk
        | some p =>
          rw [hp] at hk
          obtain ⟨h1, -, -⟩ := pairs_getElem?_some V k p hp
          cases hk
          simp only [findCompleteEdge, if_neg (show ¬ p.2 < p.1 by omega)]
      rw [e, ← hsum, ← hsum] at h
      unfold treePosterior
      simp only [div_mul_eq_mul_div]
      rw [← Finset.sum_div, ← Finset.sum_div]
      refine congrArg (· / _) (h.trans ?_)
      refine Finset.sum_congr rfl fun ω _ => congrArg (Real.exp _ * ·) ?_
      exact dif_pos ω.2)
  refine ⟨ρ, h0, h1, fun f lo hi hb T hT n => ?_⟩
  have hit : ∀ (n : Nat) (ω : TreeOn V), (treeStep V junk logits)^[n] f ω.1 = P^[n] (fun ω => f ω.1) ω := by
    intro n
    induction n with
    | zero => intro ω; rfl
    | succ n ih =>
      intro ω
      rw [Function.iterate_succ_apply', Function.iterate_succ_apply']
      refine (treeStep_avg ω.2.1 ω.2.2 hl).congr _ _ fun T h => ?_
      rw [dif_pos h]
      exact ih ⟨T, h⟩
  have h3 := h2 (fun ω => f ω.1) lo hi (fun ω => hb ω.1 ((hS _).2 ω.2)) n ⟨T, (hS T).1 hT⟩
  rw [← hit, hsum fun T => treePosterior logits S T * f T] at h3
  exact h3

end

/-! ### One server -/

section
variable {M : Nat} [NeZero M] {model : Model ℝ M} {srv : Server ℝ M} {num : ServeNum ℝ}

theorem run_onOk_bind {α β : Type} (x : ExceptT PyErr (Expect ℝ) α) (f : α → ExceptT PyErr (Expect ℝ) β) (F : β → ℝ) :
    (x >>= f).run (onOk F) = x.run (onOk fun a => (f a).run (onOk F)) := by
  refine (run_bindE x f _).trans (run_congrE x fun r => ?_)
  cases r <;> rfl

theorem onTree_eq (f : List Edge → ℝ) : onTree f = onOk f := by
  funext r; cases r <;> rfl

/-- The trees of `sample_tree` are the chain from the estimated tree. -/
theorem server_sampleTrees_chain (hexp : num.exp = Real.exp) (junk : Nat → Nat) (n : Nat) (F : List (List Edge) → ℝ) :
    (srv.sampleTrees num junk n : ExceptT PyErr (Expect ℝ) _).run (onOk F)
      = treeChain srv.tree.numVertices junk srv.edgeLogits n srv.estimatedTree F := by
  unfold Server.sampleTrees
  rw [makeCompleteGraph_eq, liftPy_okR, run_onOk_bind, hexp]
  have key : ∀ (l : List Nat) (T : List Edge) (acc : List (List Edge)),
      (l.foldlM (fun (s : List Edge × List (List Edge)) _ => do
        let perm ← ExceptT.lift (Shuffle.permutation s.1.length)
        let edges ← sampleTree Real.exp junk (completeGrid srv.tree.numVertices) srv.edgeLogits s.1 perm
        Pure.pure (edges, s.2 ++ [edges])) (T, acc) : ExceptT PyErr (Expect ℝ) _).run
          (onOk fun r => (Pure.pure r.2 : ExceptT PyErr (Expect ℝ) _).run (onOk F))
        = treeChain srv.tree.numVertices junk srv.edgeLogits l.length T fun ts => F (acc ++ ts) := by
    intro l
    induction l with
    | nil => intro T acc; simp only [List.length_nil, treeChain, List.append_nil]; rfl
    | cons i l ih =>
      intro T acc
      rw [List.foldlM_cons, run_onOk_bind, run_onOk_bind, List.length_cons, treeChain, treeStep]
      change ((List.range T.length).permutations.map fun σ => ExceptT.run (do
          let edges ← sampleTree Real.exp junk (completeGrid srv.tree.numVertices) srv.edgeLogits T σ
          Pure.pure (edges, acc ++ [edges]) : ExceptT PyErr (Expect ℝ) _) (onOk _)).sum / _ = _
      refine congrArg (fun f => ((List.range T.length).permutations.map f).sum / _) (funext fun σ => ?_)
      rw [run_onOk_bind, onTree_eq]
      refine congrArg (fun f => (sampleTree Real.exp junk (completeGrid srv.tree.numVertices) srv.edgeLogits T σ : ExceptT PyErr (Expect ℝ) _).run (onOk f))
        (funext fun T' => ?_)
      refine (ih T' (acc ++ [T'])).trans ?_
      simp only [List.append_assoc, List.singleton_append]
  rw [key, List.length_range]
  rfl

/-- **C56** (each tree). A server made from a valid model samples trees that converge to the posterior over spanning trees,
whose probabilities are proportional to the exponential of the sum of the edge logits of the model: there is a rate
`ρ < 1`, depending only on the model, such that however many trees are requested, the expected value of any function `f` of
the `i`-th tree with values in `[lo, hi]` is within `ρ ^ (i + 1) (hi - lo)` of its posterior mean. The call does not raise:
an exception would count zero, and constant functions have `hi - lo = 0`. -/
theorem server_sampleTrees_converges {mst : List (List ℝ) → List Edge} (hmst : MstContract mst) (h : Model.Valid model)
    (hs : Server.init mst model = .ok srv) (hexp : num.exp = Real.exp) (junk : Nat → Nat) (S : Finset (List Edge))
    (hS : ∀ T, T ∈ S ↔ Canonical T ∧ IsTree model.tree.numVertices T) :
    ∃ ρ : ℝ, 0 ≤ ρ ∧ ρ < 1 ∧ ∀ (f : List Edge → ℝ) (lo hi : ℝ), (∀ T ∈ S, lo ≤ f T ∧ f T ≤ hi) → ∀ n i : Nat, i < n →
      |(srv.sampleTrees num junk n : ExceptT PyErr (Expect ℝ) _).run (onOk fun ts => f (ts.getD i []))
        - ∑ T ∈ S, treePosterior model.edgeLogits S T * f T| ≤ ρ ^ (i + 1) * (hi - lo) := by
  obtain ⟨srv', e, s, hT, hC⟩ := server_init hmst h
  obtain rfl : srv' = srv := Except.ok.inj (e.symm.trans hs)
  have hV : 1 ≤ model.tree.numVertices := by have := h.isTree.card; omega
  obtain ⟨ρ, h0, h1, h2⟩ := treeStep_converges hV h.logits S hS junk
  refine ⟨ρ, h0, h1, fun f lo hi hb n i hi => ?_⟩
  rw [server_sampleTrees_chain hexp, s.tree, s.logits, treeChain_get h.logits f n i hi hC hT]
  exact h2 f lo _ hb _ ((hS _).2 ⟨hC, hT⟩) _

/-- The sum over the trees of a server. -/
theorem server_sampleTrees_sum (h : Model.Valid model) (s : Serves model srv) (hT : IsTree model.tree.numVertices srv.estimatedTree)
    (hC : Canonical srv.estimatedTree) (hexp : num.exp = Real.exp) (junk : Nat → Nat) (S : Finset (List Edge))
    (hS : ∀ T, T ∈ S ↔ Canonical T ∧ IsTree model.tree.numVertices T) :
    ∃ C : ℝ, 0 ≤ C ∧ ∀ (f : List Edge → ℝ) (lo hi : ℝ), (∀ T ∈ S, lo ≤ f T ∧ f T ≤ hi) → ∀ n : Nat,
      |(srv.sampleTrees num junk n : ExceptT PyErr (Expect ℝ) _).run (onOk fun ts => (ts.map f).sum)
        - n * ∑ T ∈ S, treePosterior model.edgeLogits S T * f T| ≤ C * (hi - lo) := by
  have hV : 1 ≤ model.tree.numVertices := by have := h.isTree.card; omega
  obtain ⟨ρ, h0, h1, h2⟩ := treeStep_converges hV h.logits S hS junk
  have hmem : srv.estimatedTree ∈ S := (hS _).2 ⟨hC, hT⟩
  refine ⟨(1 - ρ)⁻¹, inv_nonneg.2 (by linarith), fun f lo hi hb n => ?_⟩
  have hlohi : lo ≤ hi := (hb _ hmem).1.trans (hb _ hmem).2
  rw [server_sampleTrees_chain hexp, s.tree, s.logits, treeChain_sum h.logits f n hC hT]
  set π := ∑ T ∈ S, treePosterior model.edgeLogits S T * f T
  have e1 : (∑ i ∈ Finset.range n, (treeStep model.tree.numVertices junk model.edgeLogits)^[i + 1] f srv.estimatedTree) - n * π
      = ∑ i ∈ Finset.range n, ((treeStep model.tree.numVertices junk model.edgeLogits)^[i + 1] f srv.estimatedTree - π) := by
    rw [Finset.sum_sub_distrib]; simp
  rw [e1]
  refine (Finset.abs_sum_le_sum_abs _ _).trans ?_
  refine (Finset.sum_le_sum fun i _ => h2 f lo hi hb _ hmem (i + 1)).trans ?_
  rw [← Finset.sum_mul]
  refine mul_le_mul_of_nonneg_right ?_ (by linarith)
  calc ∑ i ∈ Finset.range n, ρ ^ (i + 1) ≤ ∑ i ∈ Finset.range n, ρ ^ i :=
        Finset.sum_le_sum fun i _ => pow_le_pow_of_le_one h0 h1.le (Nat.le_succ i)
    _ ≤ ∑' i, ρ ^ i := (summable_geometric_of_lt_one h0 h1).sum_le_tsum _ fun i _ => pow_nonneg h0 i
    _ = (1 - ρ)⁻¹ := tsum_geometric_of_lt_one h0 h1

end

/-! ### Ensembles -/

section
variable {M : Nat} [NeZero M] {models : List (Model ℝ M)} {V : Nat} {ragged : List Nat} {num : ServeNum ℝ}

theorem map_eq_of_forall₂ {α β γ : Type} {R : α → β → Prop} {f : α → γ} {g : β → γ} {l : List α} {l' : List β}
    (h : List.Forall₂ R l l') (hR : ∀ a b, R a b → f a = g b) : l.map f = l'.map g := by
  induction h with
  | nil => rfl
  | cons h _ ih => rw [List.map_cons, List.map_cons, hR _ _ h, ih]

theorem zip_counts {α : Type} (l : List α) (c : Fin l.length → Nat) :
    l.zip ((List.finRange l.length).map c) = (List.finRange l.length).map fun i => (l[i], c i) := by
  apply List.ext_getElem
  · simp
  · intro i h1 h2
    simp

theorem sum_counts {n : Nat} (draws : List (Fin n)) (g : Fin n → ℝ) :
    ∑ i, (draws.count i : ℝ) * g i = (draws.map g).sum := by
  induction draws with
  | nil => simp
  | cons d ds ih =>
    rw [List.map_cons, List.sum_cons, ← ih]
    simp only [List.count_cons, Nat.cast_add, add_mul, Finset.sum_add_distrib]
    rw [add_comm]
    congr 1
    rw [Finset.sum_eq_single d]
    · simp
    · intro i _ hi
      simp [Ne.symm hi]
    · simp

theorem uniform_sum {n : Nat} (hn : 0 < n) (g : Fin n → ℝ) (l : List Nat) :
    (l.mapM (fun _ => Choose.choose (fun _ : Fin n => (1 : ℝ))) : Expect ℝ (List (Fin n))) (fun ds => (ds.map g).sum)
      = l.length * ((∑ i, g i) / n) := by
  have hn' : (n : ℝ) ≠ 0 := by exact_mod_cast hn.ne'
  have hE : Avg (fun i : Fin n => i ∈ Finset.univ) (fun i => i ∈ Finset.univ) fun f => (∑ i, (1 : ℝ) * f i) / ∑ _i : Fin n, (1 : ℝ) :=
    Avg.weights (Finset.univ : Finset (Fin n)) ⟨⟨0, hn⟩, Finset.mem_univ _⟩ (fun _ => 1) fun _ _ => one_pos
  have hone : ∀ (l : List Nat), Avg (fun _ : List (Fin n) => True) (fun _ => False)
      (l.mapM (fun _ => Choose.choose (fun _ : Fin n => (1 : ℝ))) : Expect ℝ (List (Fin n))) := by
    intro l
    induction l with
    | nil =>
      rw [List.mapM_nil]
      exact ((Avg.point ([] : List (Fin n))).mono_dom fun _ _ => trivial).mono_hit fun _ h => h.elim
    | cons a l ih =>
      rw [List.mapM_cons]
      exact (Avg.bind hE fun i _ => ((ih.map fun is => i :: is).mono_dom fun _ _ => trivial)).mono_hit
        (H' := fun _ => False) fun _ h => h.elim
  induction l with
  | nil => rw [List.mapM_nil]; simp [Pure.pure]
  | cons a l ih =>
    rw [List.mapM_cons]
    change (∑ i : Fin n, (1 : ℝ) * (l.mapM (fun _ => Choose.choose (fun _ : Fin n => (1 : ℝ))) : Expect ℝ _)
      (fun is => ((i :: is).map g).sum)) / ∑ i : Fin n, (1 : ℝ) = _
    simp only [List.map_cons, List.sum_cons]
    have h1 : ∀ i, (l.mapM (fun _ => Choose.choose (fun _ : Fin n => (1 : ℝ))) : Expect ℝ (List (Fin n)))
        (fun is => g i + (is.map g).sum) = g i + l.length * ((∑ i, g i) / n) := by
      intro i
      rw [(hone l).add (fun _ => g i), (hone l).const, ih]
    simp only [h1, one_mul, Finset.sum_add_distrib, Finset.sum_const, Finset.card_univ, Fintype.card_fin, nsmul_eq_mul, mul_one,
      List.length_cons, Nat.cast_add, Nat.cast_one]
    field_simp
    ring

/-- What the members return, laid end to end, then shuffled. -/
theorem shuffled_sum (f : List Edge → ℝ) (n : Nat) (samples : List (List Edge)) (hl : samples.length = n) :
    (do
      let samples ← ExceptT.lift (shuffled samples)
      liftPy (pyAssert (samples.length == n))
      Pure.pure samples : ExceptT PyErr (Expect ℝ) _).run (onOk fun ts => (ts.map f).sum) = (samples.map f).sum := by
  rw [run_onOk_bind]
  change ((List.range samples.length).permutations.map fun p =>
    (do liftPy (pyAssert ((p.filterMap fun i => samples[i]?).length == n)); Pure.pure (p.filterMap fun i => samples[i]?) :
      ExceptT PyErr (Expect ℝ) _).run (onOk fun ts => (ts.map f).sum)).sum / (samples.length.factorial : ℝ) = _
  have e : ∀ p ∈ (List.range samples.length).permutations,
      (do liftPy (pyAssert ((p.filterMap fun i => samples[i]?).length == n)); Pure.pure (p.filterMap fun i => samples[i]?) :
      ExceptT PyErr (Expect ℝ) _).run (onOk fun ts => (ts.map f).sum) = (samples.map f).sum := by
    intro p hp
    have h := (List.mem_permutations.1 hp).filterMap fun i => samples[i]?
    rw [filterMap_range] at h
    rw [show (p.filterMap fun i => samples[i]?).length = n from h.length_eq.trans hl, beq_self_eq_true]
    exact (h.map f).sum_eq
  rw [List.map_congr_left e, List.map_const', List.sum_replicate, List.length_permutations, List.length_range, nsmul_eq_mul]
  field_simp

/-- **C56** (ensembles). The trees of an ensemble estimate the uniform mixture of the posteriors of its members: the expected
sum of any function of the sampled trees is the number of trees times the mean under the mixture, up to a constant that does
not depend on the number of trees. -/
theorem ensemble_sampleTrees_mixture {mst : List (List ℝ) → List Edge} (hmst : MstContract mst) (E : Members models V ragged)
    {ens : Ensemble ℝ M} (hi : Ensemble.init mst models = .ok ens) (hexp : num.exp = Real.exp) (junk : Nat → Nat)
    (S : Finset (List Edge)) (hS : ∀ T, T ∈ S ↔ Canonical T ∧ IsTree V T) :
    ∃ C : ℝ, ∀ (f : List Edge → ℝ) (lo hi : ℝ), (∀ T ∈ S, lo ≤ f T ∧ f T ≤ hi) → ∀ n : Nat,
      |(ens.sampleTrees num junk n : ExceptT PyErr (Expect ℝ) _).run (onOk fun ts => (ts.map f).sum)
        - n * meanOf models fun m => ∑ T ∈ S, treePosterior m.edgeLogits S T * f T| ≤ C * (hi - lo) := by
  obtain ⟨ens', e, hs, -⟩ := ensemble_init hmst E
  obtain rfl : ens' = ens := Except.ok.inj (e.symm.trans hi)
  have hsize : 0 < ens'.servers.length := by rw [← hs.length_eq]; exact List.length_pos_of_ne_nil E.ne
  -- every member
  have hmem : ∀ srv ∈ ens'.servers, ∃ m ∈ models, Serves m srv ∧ IsTree V srv.estimatedTree ∧ Canonical srv.estimatedTree :=
    fun srv h => forall₂_mem_right hs h
  have hV : ∀ {m}, m ∈ models → m.tree.numVertices = V := fun h => E.size _ h
  have hone : ∀ srv ∈ ens'.servers, ∃ C : ℝ, ∀ (f : List Edge → ℝ) (lo hi : ℝ), (∀ T ∈ S, lo ≤ f T ∧ f T ≤ hi) → ∀ n : Nat,
      |(srv.sampleTrees num junk n : ExceptT PyErr (Expect ℝ) _).run (onOk fun ts => (ts.map f).sum)
        - n * ∑ T ∈ S, treePosterior srv.edgeLogits S T * f T| ≤ C * (hi - lo) := by
    intro srv h
    obtain ⟨m, hm, h1, h2, h3⟩ := hmem srv h
    obtain ⟨C, -, hC⟩ := server_sampleTrees_sum (E.valid m hm) h1 (by rw [hV hm]; exact h2) h3 hexp junk S (by rw [hV hm]; exact hS)
    rw [h1.logits]
    exact ⟨C, hC⟩
  choose! C hC using hone
  refine ⟨(ens'.servers.map C).sum, fun f lo hi hb n => ?_⟩
  set σ : Server ℝ M → Nat → ℝ := fun srv k =>
    (srv.sampleTrees num junk k : ExceptT PyErr (Expect ℝ) _).run (onOk fun ts => (ts.map f).sum) with hσ
  set π : Server ℝ M → ℝ := fun srv => ∑ T ∈ S, treePosterior srv.edgeLogits S T * f T with hπ
  have havg : ∀ srv ∈ ens'.servers, ∀ k, Avg (fun ts : List (List Edge) => ts.length = k) (fun _ => False)
      fun F => (srv.sampleTrees num junk k : ExceptT PyErr (Expect ℝ) _).run (onOk F) := by
    intro srv h k
    obtain ⟨m, hm, h1, h2, h3⟩ := hmem srv h
    have hl : srv.edgeLogits.length = tri srv.tree.numVertices := by rw [h1.logits, h1.tree]; exact (E.valid m hm).logits
    have h4 : IsTree srv.tree.numVertices srv.estimatedTree := by rw [h1.tree, hV hm]; exact h2
    refine Eq.mp (congrArg _ (funext fun F => (server_sampleTrees_chain hexp junk k F).symm)) ?_
    exact (treeChain_avg hl k h3 h4).mono_dom fun ts h => h.1
  -- the members one after the other
  have hfold : ∀ (l : List (Server ℝ M × Nat)), (∀ p ∈ l, p.1 ∈ ens'.servers) → ∀ acc : List (List Edge),
      acc.length + (l.map Prod.snd).sum = n →
      (l.foldlM (fun samples p => do
        let more ← p.1.sampleTrees num junk p.2
        Pure.pure (samples ++ more)) acc : ExceptT PyErr (Expect ℝ) _).run (onOk fun samples => (do
          let samples ← ExceptT.lift (shuffled samples)
          liftPy (pyAssert (samples.length == n))
          Pure.pure samples : ExceptT PyErr (Expect ℝ) _).run (onOk fun ts => (ts.map f).sum))
        = (acc.map f).sum + (l.map fun p => σ p.1 p.2).sum := by
    intro l
    induction l with
    | nil =>
      intro _ acc hacc
      rw [List.map_nil, List.sum_nil, add_zero]
      exact shuffled_sum f n acc (by simpa using hacc)
    | cons p l ih =>
      intro hp acc hacc
      rw [List.foldlM_cons, run_onOk_bind, run_onOk_bind]
      have hA := havg p.1 (hp p (by simp)) p.2
      refine Eq.trans (hA.congr _ (fun more => ((acc.map f).sum + (l.map fun p => σ p.1 p.2).sum) + (more.map f).sum) fun more hm => ?_) ?_
      · refine Eq.trans (ih (fun q hq => hp q (List.mem_cons_of_mem _ hq)) (acc ++ more) ?_) ?_
        · rw [List.map_cons, List.sum_cons] at hacc
          rw [List.length_append, hm]; omega
        · rw [List.map_append, List.sum_append]; ring
      · rw [hA.add (fun _ => (acc.map f).sum + (l.map fun p => σ p.1 p.2).sum), hA.const, List.map_cons, List.sum_cons]
        ring
  -- the split
  have hrun : (ens'.sampleTrees num junk n : ExceptT PyErr (Expect ℝ) _).run (onOk fun ts => (ts.map f).sum)
      = ((List.range n).mapM (fun _ => Choose.choose (fun _ : Fin ens'.servers.length => (1 : ℝ))) : Expect ℝ _)
          fun ds => ∑ i : Fin ens'.servers.length, σ ens'.servers[i] (ds.count i) := by
    unfold Ensemble.sampleTrees
    rw [run_onOk_bind]
    change ((List.range n).mapM (fun _ => Choose.choose (fun _ : Fin ens'.servers.length => (1 : ℝ))) : Expect ℝ _)
      (fun ds => _) = _
    rw [uniform_range, uniform_range]
    refine congrArg (· / _) (Finset.sum_congr rfl fun d _ => ?_)
    refine (run_onOk_bind _ _ _).trans ?_
    have hz := zip_counts ens'.servers fun i => (List.ofFn d).count i
    rw [hz, hfold _ ?_ [] ?_]
    · rw [List.map_nil, List.sum_nil, zero_add, List.map_map, Fin.sum_univ_def]
      rfl
    · intro p hp
      obtain ⟨i, -, rfl⟩ := List.mem_map.1 hp
      exact List.getElem_mem _
    · rw [List.map_map]
      have := count_total (List.ofFn d)
      rw [List.length_ofFn] at this
      simpa [Function.comp_def] using this
  have hmean : (meanOf models fun m => ∑ T ∈ S, treePosterior m.edgeLogits S T * f T)
      = (∑ i : Fin ens'.servers.length, π ens'.servers[i]) / ens'.servers.length := by
    have h1 : models.map (fun m => ∑ T ∈ S, treePosterior m.edgeLogits S T * f T) = ens'.servers.map π :=
      map_eq_of_forall₂ hs fun m srv h => by rw [hπ]; simp only [h.1.logits]
    rw [meanOf, h1, hs.length_eq, Fin.sum_univ_def]
    congr 2
    apply List.ext_getElem
    · simp
    · intro i _ _; simp
  rw [hrun, hmean]
  have hz : ((List.range n).mapM (fun _ => Choose.choose (fun _ : Fin ens'.servers.length => (1 : ℝ))) : Expect ℝ _)
      (fun ds => ∑ i : Fin ens'.servers.length, (ds.count i : ℝ) * π ens'.servers[i])
      = n * ((∑ i : Fin ens'.servers.length, π ens'.servers[i]) / ens'.servers.length) := by
    simp only [sum_counts]
    have := uniform_sum hsize (fun i => π ens'.servers[i]) (List.range n)
    rwa [List.length_range] at this
  rw [← hz, uniform_range, uniform_range, ← sub_div, ← Finset.sum_sub_distrib, abs_div, abs_of_nonneg (by positivity :
    (0 : ℝ) ≤ (ens'.servers.length : ℝ) ^ n), div_le_iff₀ (by positivity)]
  refine (Finset.abs_sum_le_sum_abs _ _).trans ?_
  have hbound : ∀ d : Fin n → Fin ens'.servers.length,
      |∑ i : Fin ens'.servers.length, σ ens'.servers[i] ((List.ofFn d).count i)
        - ∑ i : Fin ens'.servers.length, ((List.ofFn d).count i : ℝ) * π ens'.servers[i]| ≤ (ens'.servers.map C).sum * (hi - lo) := by
    intro d
    rw [← Finset.sum_sub_distrib]
    refine (Finset.abs_sum_le_sum_abs _ _).trans ?_
    refine (Finset.sum_le_sum fun (i : Fin ens'.servers.length) _ => hC ens'.servers[i] (List.getElem_mem _) f lo hi hb _).trans ?_
    rw [← Finset.sum_mul, Fin.sum_univ_def]
    refine le_of_eq (congrArg (· * (hi - lo)) (congrArg List.sum ?_))
    apply List.ext_getElem
    · simp
    · intro i _ _; simp
  refine (Finset.sum_le_sum fun d _ => hbound d).trans (le_of_eq ?_)
  rw [Finset.sum_const, Finset.card_univ, Fintype.card_fun, Fintype.card_fin, Fintype.card_fin, nsmul_eq_mul]
  push_cast
  ring

/-- The hypotheses are met: an ensemble of two models over three features. -/
example {mst : List (List ℝ) → List Edge} (hmst : MstContract mst) : ∃ ens, Ensemble.init mst [exampleModel ℝ, otherModel ℝ] = .ok ens ∧
    ∃ S : Finset (List Edge), (∀ T, T ∈ S ↔ Canonical T ∧ IsTree 3 T) ∧ [(0, 1), (0, 2)] ∈ S := by
  obtain ⟨ens, h, -⟩ := ensemble_init hmst (two_members ℝ)
  obtain ⟨S, hS⟩ := exists_spanningTrees 3
  exact ⟨ens, h, S, hS, (hS _).2 ⟨⟨by decide, by decide⟩, isTree_of_smaller rfl (by decide) (by decide)⟩⟩

end

end TreeCat
