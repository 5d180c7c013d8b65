import Verif.Lemmas.Det
import Verif.Model.Uniform
import Verif.Props.EdgeLogits
import Verif.Props.EstimateTree
import Verif.Props.Gibbs
import Verif.Spec.Posterior

/-!
# C51: a training epoch leaves the joint posterior invariant
-/

set_option linter.unusedSectionVars false

namespace TreeCat

open Spec Real
open scoped BigOperators

variable {M : Nat} [NeZero M] {t : Table} {s : Trainer ℝ M} {num : Num ℝ}

/-! ### The likelihood depends on the table only -/

section
variable {rows : Finset Nat} {a b : Nat → Nat → Fin M}

theorem vertGamma_congr {v : Nat} (h : ∀ n ∈ rows, a n v = b n v) : vertGamma rows a v = vertGamma rows b v := by
  unfold vertGamma vertCount
  refine Finset.prod_congr rfl fun m _ => ?_
  rw [Finset.filter_congr fun n hn => by rw [h n hn]]

theorem edgeGamma_congr {e : Nat × Nat} (h1 : ∀ n ∈ rows, a n e.1 = b n e.1) (h2 : ∀ n ∈ rows, a n e.2 = b n e.2) :
    edgeGamma rows a e = edgeGamma rows b e := by
  unfold edgeGamma edgeCount
  refine Finset.prod_congr rfl fun m1 _ => Finset.prod_congr rfl fun m2 _ => ?_
  rw [Finset.filter_congr fun n hn => by rw [h1 n hn, h2 n hn]]

theorem featGamma_congr {v : Nat} (h : ∀ n ∈ rows, a n v = b n v) : featGamma t rows a v = featGamma t rows b v := by
  have : ∀ m, (rows.filter fun n => a n v = m) = rows.filter fun n => b n v = m := fun m =>
    Finset.filter_congr fun n hn => by rw [h n hn]
  unfold featGamma featTotal measTotal
  simp only [this]

theorem likelihood_congr {T : List Edge} (hT : ∀ p ∈ T, p.1 < t.numCols ∧ p.2 < t.numCols)
    (h : ∀ n ∈ rows, ∀ v < t.numCols, a n v = b n v) : likelihood t rows a T = likelihood t rows b T := by
  have h' : ∀ v < t.numCols, ∀ n ∈ rows, a n v = b n v := fun v hv n hn => h n hn v hv
  unfold likelihood
  rw [Finset.prod_congr rfl fun v hv => vertGamma_congr (h' v (Finset.mem_range.1 hv)),
    Finset.prod_congr rfl fun v hv => featGamma_congr (t := t) (h' v (Finset.mem_range.1 hv))]
  congr 3
  refine List.map_congr_left fun e he => ?_
  have := hT e he
  rw [edgeGamma_congr (h' _ this.1) (h' _ this.2), vertGamma_congr (h' _ this.1), vertGamma_congr (h' _ this.2)]

end

/-! ### Full states -/

/-- The assignments of a trainer. -/
def latent (t : Table) (s : Trainer ℝ M) : Latent t M := fun n v => s.assign n v

theorem latentOf_total (s : Trainer ℝ M) {n v : Nat} (hn : n < t.numRows) (hv : v < t.numCols) :
    (latent t s).total n v = s.assign n v := by
  unfold Latent.total
  rw [dif_pos ⟨hn, hv⟩]
  rfl

/-- A good state with all rows. -/
structure Full (t : Table) (s : Trainer ℝ M) : Prop extends Good t s where
  all : s.added = Finset.range t.numRows

theorem Good.canonical (h : Good t s) : Canonical s.tree.getEdges := by
  obtain ⟨edges, he⟩ := h.sorted
  have h1 : s.tree.getEdges = sortEdges edges := by
    change gridEdges s.tree.treeGrid = _
    rw [he, gridEdges_makeTree]
  have h2 : IsTree t.numCols (sortEdges edges) := by rw [← h1]; exact h.isTree
  have h3 := canonical_sortEdges h2
  have h4 : sortEdges (sortEdges edges) = sortEdges edges := by
    have hm : (sortEdges edges).map sortPair = sortEdges edges := by
      conv_rhs => rw [← List.map_id (sortEdges edges)]
      refine List.map_congr_left fun p hp => ?_
      obtain ⟨q, -, rfl⟩ := List.mem_map.1 ((List.mem_insertionSort _).1 hp)
      exact sortPair_of_le (sortPair_le q)
    unfold sortEdges at hm ⊢
    rw [hm]
    exact (List.pairwise_insertionSort edgeLe _).insertionSort_eq
  rw [h1, ← h4]
  exact h3

theorem sortEdges_canonical {T : List Edge} (h : Canonical T) : sortEdges T = T := by
  have hm : T.map sortPair = T := by
    conv_rhs => rw [← List.map_id T]
    exact List.map_congr_left fun p hp => sortPair_of_le (Nat.le_of_lt (h.small_large p hp))
  unfold sortEdges
  rw [hm]
  refine List.Pairwise.insertionSort_eq (h.sorted.imp fun hab => ?_)
  unfold edgeLe
  omega

/-- `x` leaves the posterior invariant: whatever is done afterwards, its expected value depends only on tree and
assignments, and under the posterior it is the same with and without `x`. -/
def Keeps (t : Table) (prior : List ℝ) (S : Finset (List Edge)) (x : TrainM ℝ M (Expect ℝ) Unit) : Prop :=
  ∀ (g : Except PyErr Unit × Trainer ℝ M → ℝ) (f : Latent t M → List Edge → ℝ),
    (∀ s, Full t s → g (.ok (), s) = f (latent t s) s.tree.getEdges) →
    ∃ h : Latent t M → List Edge → ℝ, (∀ s, Full t s → x.run.run s g = h (latent t s) s.tree.getEdges) ∧
      (∑ a, ∑ T ∈ S, posterior t prior a T * h a T) = ∑ a, ∑ T ∈ S, posterior t prior a T * f a T

variable {prior : List ℝ} {S : Finset (List Edge)}

theorem Keeps.pure : Keeps (M := M) t prior S (pure ()) := fun _ f hg => ⟨f, hg, rfl⟩

theorem Keeps.bind {x y : TrainM ℝ M (Expect ℝ) Unit} (hx : Keeps t prior S x) (hy : Keeps t prior S y) :
    Keeps t prior S (x >>= fun _ => y) := by
  intro g f hg
  obtain ⟨h1, h2, h3⟩ := hy g f hg
  obtain ⟨h4, h5, h6⟩ := hx (fun o => match o.1 with
    | .ok _ => y.run.run o.2 g
    | .error e => g (.error e, o.2)) h1 h2
  refine ⟨h4, fun s hs => ?_, h6.trans h3⟩
  rw [← h5 s hs]
  refine congrArg (x.run.run s) (funext fun o => ?_)
  obtain ⟨r, s'⟩ := o
  cases r <;> rfl

theorem Keeps.forM {α : Type} (l : List α) {f : α → TrainM ℝ M (Expect ℝ) PUnit}
    (h : ∀ a ∈ l, Keeps t prior S (f a)) : Keeps t prior S (l.forM f) := by
  induction l with
  | nil => exact Keeps.pure
  | cons a l ih =>
    exact Keeps.bind (h a (List.mem_cons_self ..)) (ih fun b hb => h b (List.mem_cons_of_mem _ hb))

/-! ### Resampling a row -/

/-- Drawing one coordinate from its conditional distribution. -/
theorem gibbs_coordinate {ι Z : Type} [Fintype ι] [DecidableEq ι] [Fintype Z] [DecidableEq Z] (i : ι)
    (L f : (ι → Z) → ℝ) (hL : ∀ a, 0 < L a) :
    (∑ a, L a * ((∑ z, L (Function.update a i z) * f (Function.update a i z)) / ∑ z, L (Function.update a i z)))
      = ∑ a, L a * f a := by
  set W : (ι → Z) → ℝ := fun a => ∑ z, L (Function.update a i z) with hW
  have hWu : ∀ a z, W (Function.update a i z) = W a := by
    intro a z
    simp only [hW, Function.update_idem]
  have e1 : (∑ a, L a * ((∑ z, L (Function.update a i z) * f (Function.update a i z)) / W a))
      = ∑ p : (ι → Z) × Z, L p.1 * (L (Function.update p.1 i p.2) * f (Function.update p.1 i p.2)) / W p.1 := by
    rw [Fintype.sum_prod_type]
    refine Finset.sum_congr rfl fun a _ => ?_
    rw [← mul_div_assoc, Finset.mul_sum, Finset.sum_div]
  have e2 : (∑ a, L a * f a) = ∑ p : (ι → Z) × Z, L (Function.update p.1 i p.2) * (L p.1 * f p.1) / W p.1 := by
    rw [Fintype.sum_prod_type]
    refine Finset.sum_congr rfl fun a _ => ?_
    have hpos : W a ≠ 0 := by
      have : Nonempty Z := ⟨a i⟩
      exact (Finset.sum_pos (fun z _ => hL _) Finset.univ_nonempty).ne'
    have : (∑ x, L (Function.update a i x) * (L a * f a) / W a) = W a * (L a * f a) / W a := by
      rw [hW, Finset.sum_mul, Finset.sum_div]
    rw [this, mul_div_assoc, mul_div_cancel₀ _ hpos]
  rw [e1, e2]
  let φ : (ι → Z) × Z → (ι → Z) × Z := fun p => (Function.update p.1 i p.2, p.1 i)
  have hφ : Function.Involutive φ := by
    rintro ⟨a, z⟩
    simp [φ]
  rw [← Equiv.sum_comp hφ.toPerm]
  refine Finset.sum_congr rfl fun p _ => ?_
  simp only [Function.Involutive.coe_toPerm, φ, hWu, Function.update_idem, Function.update_eq_self]

theorem Keeps.row (ht : Table.Ordered t) (hm : ∀ ty ∈ t.featureTypes, ty = tyMultinomial) (hc : Table.Counts t)
    {row : Nat} (hN : row < t.numRows) : Keeps (M := M) t prior S (do removeRow t row; addRow t row) := by
  intro g f hg
  set r : Fin t.numRows := ⟨row, hN⟩
  set L : List Edge → Latent t M → ℝ := fun T a => likelihood t (Finset.range t.numRows) a.total T with hLdef
  refine ⟨fun a T => (∑ z, L T (Function.update a r z) * f (Function.update a r z) T) / ∑ z, L T (Function.update a r z),
    fun s hs => ?_, ?_⟩
  · have hmem : row ∈ s.added := by rw [hs.all]; simpa using hN
    obtain ⟨_, s1, ⟨g1, a1, t1, as1⟩, h1⟩ := (Det.removeRow t row s).of_tot (Tot.removeRow ht hm hs.toGood hmem)
    have hr1 : row ∉ s1.added := by rw [a1]; exact Finset.notMem_erase _ _
    have hins : insert row s1.added = Finset.range t.numRows := by
      rw [a1, hs.all]; exact Finset.insert_erase (Finset.mem_range.2 hN)
    obtain ⟨after, h2, h3⟩ := addRow_law_good ht hm hc g1 hr1 hN
    have hfull : ∀ z, Full t (after z) := fun z => by
      obtain ⟨b1, b2, b3, b4, b5⟩ := h2 z
      refine ⟨⟨⟨b5, by rw [b2]; exact g1.grid⟩, by rw [b2]; exact g1.numVertices, by rw [b2]; exact g1.isTree,
        by rw [b2]; exact g1.sorted, by rw [b2, b3]; exact g1.program, ?_⟩, by rw [b1, hins]⟩
      rw [b1, hins]
    have hlat : ∀ z, latent t (after z) = Function.update (latent t s) r z := fun z => by
      obtain ⟨-, -, -, b4, -⟩ := h2 z
      funext n v
      unfold latent
      rw [b4, as1]
      by_cases hn : n = r
      · subst hn
        rw [Function.update_self, Function.update_self]
        exact overlay_lt _ _ v.2
      · rw [Function.update_of_ne hn, Function.update_of_ne fun h => hn (Fin.ext h)]
    have hlik : ∀ z, likelihood t (insert row s1.added) (after z).assign s1.tree.getEdges
        = L s.tree.getEdges (Function.update (latent t s) r z) := fun z => by
      rw [hins, t1, ← hlat z]
      exact likelihood_congr hs.isTree.range fun n hn v hv => (latentOf_total _ (Finset.mem_range.1 hn) hv).symm
    refine (h1 _).trans ((h3 g).trans ?_)
    simp only [hlik]
    congr 1
    refine Finset.sum_congr rfl fun z _ => ?_
    rw [hg _ (hfull z), hlat, (h2 z).2.1, t1]
  · rw [Finset.sum_comm, Finset.sum_comm (s := Finset.univ)]
    refine Finset.sum_congr rfl fun T hT => ?_
    have h := gibbs_coordinate r (L T) (fun a => f a T) fun a => likelihood_pos hc _ _ _
    have : ∀ (u : Latent t M → ℝ), (∑ a, posterior t prior a T * u a) = exp (treeLogPrior prior T) * ∑ a, L T a * u a := by
      intro u
      rw [Finset.mul_sum]
      refine Finset.sum_congr rfl fun a _ => ?_
      unfold posterior
      ring
    rw [this, this, h]

/-! ### Resampling the tree -/

theorem sampleTree_congr {V : Nat} {T : List Edge} (hcan : Canonical T) (ht : IsTree V T) (junk : Nat → Nat)
    {logits : List ℝ} (hl : logits.length = tri V) {σ : List Nat} (hσ : σ.Perm (List.range T.length))
    (f g : Except PyErr (List Edge) → ℝ) (hfg : ∀ T, Canonical T → IsTree V T → f (.ok T) = g (.ok T)) :
    (sampleTree exp junk (completeGrid V) logits T σ : ExceptT PyErr (Expect ℝ) _).run f
      = (sampleTree exp junk (completeGrid V) logits T σ : ExceptT PyErr (Expect ℝ) _).run g := by
  rw [sampleTree_expect exp_pos exp_add ht junk hl hσ f, sampleTree_expect exp_pos exp_add ht junk hl hσ g]
  split
  · exact hfg T hcan ht
  · have hV := ht.card
    refine absRun_congr exp_pos exp_add logits _ (fun e he => ?_) _ ?_ _ _ fun ω hω => ?_
    · have := List.mem_range.1 he; omega
    · refine (ltree_ids ht).of_perm ?_
      have h1 : (idsOf T).length = T.length := by simp [idsOf]
      have h2 : (List.range T.length).map (fun i => (idsOf T).getD i 0) = idsOf T := by
        rw [← h1]; exact range_map_getD _
      have h3 := hσ.symm.map fun i => (idsOf T).getD i 0
      rw [h2] at h3
      exact h3
    · exact hfg _ (canonOf_spec hω).1 (canonOf_spec hω).2

/-- The logit of an edge given the assignments. -/
noncomputable def logitOf (t : Table) (prior : List ℝ) (a : Latent t M) (u v : Nat) : ℝ :=
  log (edgeGamma (Finset.range t.numRows) a.total (u, v) /
    (vertGamma (Finset.range t.numRows) a.total u * vertGamma (Finset.range t.numRows) a.total v)) +
    prior.getD (u + v * (v - 1) / 2) 0

theorem Full.logits (hn : ∀ x, 0 < x → num.gammaln x = log (Gamma x)) (hp : prior.length = t.numCols * (t.numCols - 1) / 2)
    (h : Full t s) : computeEdgeLogits num t prior s =
      .ok ((completeGrid t.numCols).map fun c => logitOf t prior (latent t s) c.2.1 c.2.2) := by
  obtain ⟨logits, l1, l2, l3⟩ := edgeLogits_good hn h.toGood (fun _ => h.all) prior hp
  rw [l1, logits_eq_map t.numCols logits l2]
  congr 1
  refine List.map_congr_left ?_
  rintro ⟨k, v1, v2⟩ hk
  obtain ⟨i, hi⟩ := List.mem_iff_getElem?.1 hk
  rw [completeGrid_getElem?] at hi
  obtain ⟨p, hp1, hp2⟩ := Option.map_eq_some_iff.1 hi
  simp only [Prod.mk.injEq] at hp2
  obtain ⟨rfl, rfl, rfl⟩ := hp2
  obtain ⟨h1, h2, -⟩ := pairs_getElem?_some _ _ _ hp1
  have e : ∀ v < t.numCols, ∀ n ∈ Finset.range t.numRows, s.assign n v = (latent t s).total n v :=
    fun v hv n hn => (latentOf_total s (Finset.mem_range.1 hn) hv).symm
  have hf : findCompleteEdge p.1 p.2 = p.1 + p.2 * (p.2 - 1) / 2 := by
    unfold findCompleteEdge; rw [if_neg (by omega)]
  simp only
  rw [l3 _ _ h1 h2, h.all, logitOf, edgeGamma_congr (e := (p.1, p.2)) (e _ (by omega)) (e _ h2),
    vertGamma_congr (e _ (by omega)), vertGamma_congr (e _ h2), hf]

theorem posterior_logits (a : Latent t M) (T : List Edge) :
    posterior t prior a T = (∏ v ∈ Finset.range t.numCols, vertGamma (Finset.range t.numRows) a.total v) *
      (∏ v ∈ Finset.range t.numCols, featGamma t (Finset.range t.numRows) a.total v) *
      exp ((T.map fun p => logitOf t prior a p.1 p.2).sum) := by
  have h : exp ((T.map fun p => logitOf t prior a p.1 p.2).sum)
      = (T.map fun e => edgeGamma (Finset.range t.numRows) a.total e /
          (vertGamma (Finset.range t.numRows) a.total e.1 * vertGamma (Finset.range t.numRows) a.total e.2)).prod *
        exp (treeLogPrior prior T) := by
    unfold treeLogPrior
    induction T with
    | nil => simp
    | cons e T ih =>
      simp only [List.map_cons, List.sum_cons, List.prod_cons, exp_add]
      rw [ih, logitOf, exp_add, exp_log (div_pos (edgeGamma_pos _ _ _) (mul_pos (vertGamma_pos _ _ _) (vertGamma_pos _ _ _)))]
      ring
  rw [h, posterior, likelihood]
  ring

theorem get_bind_run {α : Type} (f : Trainer ℝ M → TrainM ℝ M (Expect ℝ) α) (g : Except PyErr α × Trainer ℝ M → ℝ) :
    (get >>= f).run.run s g = (f s).run.run s g := rfl

theorem liftPy_bind_run {α β : Type} {x : Py α} {a : α} (hx : x = .ok a) (f : α → TrainM ℝ M (Expect ℝ) β)
    (g : Except PyErr β × Trainer ℝ M → ℝ) : (liftPy x >>= f).run.run s g = (f a).run.run s g := by
  subst hx; rfl

theorem liftRand_bind_run {α β : Type} (x : ExceptT PyErr (Expect ℝ) α) (f : α → TrainM ℝ M (Expect ℝ) β)
    (g : Except PyErr β × Trainer ℝ M → ℝ) : (liftRand x >>= f).run.run s g = x.run fun r => match r with
      | .ok a => (f a).run.run s g
      | .error e => g (.error e, s) := by
  refine congrArg (show (Except PyErr α → ℝ) → ℝ from x.run) (funext fun r => ?_)
  cases r <;> rfl

theorem shuffle_run (n : Nat) (G : Except PyErr (List Nat) → ℝ) :
    (ExceptT.lift (Shuffle.permutation n) : ExceptT PyErr (Expect ℝ) (List Nat)).run G
      = ((List.range n).permutations.map fun σ => G (.ok σ)).sum / n.factorial := rfl

theorem trainerSampleTree_run (junk : Nat → Nat) (g : Except PyErr Unit × Trainer ℝ M → ℝ) {logits : List ℝ}
    (h1 : computeEdgeLogits num t prior s = .ok logits) (h2 : logits.length = tri t.numCols) :
    ((trainerSampleTree num junk t prior >>= fun edges => setEdges edges) : TrainM ℝ M (Expect ℝ) Unit).run.run s g
      = ((List.range s.tree.getEdges.length).permutations.map fun σ =>
          (sampleTree num.exp junk (completeGrid t.numCols) logits s.tree.getEdges σ : ExceptT PyErr (Expect ℝ) _).run
            fun r => match r with
              | .ok T => (setEdges T : TrainM ℝ M (Expect ℝ) Unit).run.run s g
              | .error e => g (.error e, s)).sum / s.tree.getEdges.length.factorial := by
  have e2 : pyAssert (logits.length == (completeGrid t.numCols).length) = .ok () := by
    rw [h2, completeGrid_length]; simp [pyAssert]
  unfold trainerSampleTree
  simp only [bind_assoc]
  refine (get_bind_run _ g).trans ?_
  refine (liftPy_bind_run (makeCompleteGraph_eq _) _ g).trans ?_
  refine (liftPy_bind_run h1 _ g).trans ?_
  refine (liftPy_bind_run e2 _ g).trans ?_
  refine (liftRand_bind_run _ _ g).trans ?_
  have e3 : ∀ σ, ((liftRand (sampleTree num.exp junk (completeGrid t.numCols) logits s.tree.getEdges σ) >>= fun edges =>
      setEdges edges) : TrainM ℝ M (Expect ℝ) Unit).run.run s g = _ := fun σ => liftRand_bind_run _ _ g
  simp only [e3]
  refine (shuffle_run _ _).trans ?_
  refine congrArg (fun x : ℝ => x / (s.tree.getEdges.length.factorial : ℝ)) ?_
  refine congrArg List.sum (List.map_congr_left fun σ _ => ?_)
  refine congrArg (show (Except PyErr (List Edge) → ℝ) → ℝ from
    (sampleTree num.exp junk (completeGrid t.numCols) logits s.tree.getEdges σ : ExceptT PyErr (Expect ℝ) _).run)
      (funext fun r => ?_)
  cases r <;> rfl

theorem Keeps.tree (hn : ∀ x, 0 < x → num.gammaln x = log (Gamma x)) (hexp : num.exp = exp)
    (hp : prior.length = t.numCols * (t.numCols - 1) / 2)
    (hS : ∀ T, T ∈ S ↔ Canonical T ∧ IsTree t.numCols T) (junk : Nat → Nat) :
    Keeps (M := M) t prior S (trainerSampleTree num junk t prior >>= fun edges => setEdges edges) := by
  intro g f hg
  set logits : Latent t M → List ℝ := fun a => (completeGrid t.numCols).map fun c => logitOf t prior a c.2.1 c.2.2
  have hlen : ∀ a, (logits a).length = tri t.numCols := fun a => by
    simp only [logits, List.length_map, completeGrid_length]
  set F : Latent t M → Except PyErr (List Edge) → ℝ := fun a r => match r with
    | .ok T => f a T
    | .error _ => 0 with hF
  refine ⟨fun a T => ((List.range T.length).permutations.map fun σ =>
      (sampleTree exp junk (completeGrid t.numCols) (logits a) T σ : ExceptT PyErr (Expect ℝ) _).run (F a)).sum /
        T.length.factorial, fun s hs => ?_, ?_⟩
  · rw [trainerSampleTree_run junk g (hs.logits hn hp) (hlen _), hexp]
    congr 2
    refine List.map_congr_left fun σ hσ => ?_
    refine sampleTree_congr hs.toGood.canonical hs.isTree junk (hlen _) (List.mem_permutations.1 hσ) _ _ fun T h1 h2 => ?_
    obtain ⟨_, s', ⟨g1, a1, as1, t1⟩, h3⟩ := (Det.setEdges T s).of_tot (Tot.setEdges hs.toGood h2)
    have hT : s'.tree.getEdges = T := by
      change gridEdges s'.tree.treeGrid = T
      rw [t1, gridEdges_makeTree, sortEdges_canonical h1]
    simp only [hF]
    refine (h3 g).trans ?_
    rw [hg s' ⟨g1, by rw [a1]; exact hs.all⟩, hT]
    congr 1
    unfold latent
    rw [as1]
  · refine Finset.sum_congr rfl fun a _ => ?_
    have h := sampleTree_invariant exp_pos exp_add t.numCols junk (logitOf t prior a) (completeGrid t.numCols)
      (makeCompleteGraph_eq _) S hS (F a)
    simp only [posterior_logits, mul_assoc]
    simp only [← Finset.mul_sum]
    rw [h]

/-! ### A full epoch -/

theorem Keeps.fullScan (hn : ∀ x, 0 < x → num.gammaln x = log (Gamma x)) (hexp : num.exp = exp) (ht : Table.Ordered t)
    (hm : ∀ ty ∈ t.featureTypes, ty = tyMultinomial) (hc : Table.Counts t)
    (hp : prior.length = t.numCols * (t.numCols - 1) / 2)
    (hS : ∀ T, T ∈ S ↔ Canonical T ∧ IsTree t.numCols T) (junk : Nat → Nat) :
    Keeps (M := M) t prior S (fullScan num junk t prior) := by
  have h := Keeps.bind (Keeps.tree (M := M) hn hexp hp hS junk)
    (Keeps.forM (List.range t.numRows) fun r hr => Keeps.row ht hm hc (List.mem_range.1 hr))
  intro g f hg
  obtain ⟨k, h1, h2⟩ := h g f hg
  refine ⟨k, fun s hs => (Eq.trans ?_ (h1 s hs)), h2⟩
  unfold TreeCat.fullScan
  rw [bind_assoc]

/-- A state, reached by calls on a new trainer, with all rows, these assignments and this tree. -/
structure StateHolds (t : Table) (a : Latent t M) (T : List Edge) (s : Trainer ℝ M) : Prop where
  reached : Reached t s
  all : s.added = Finset.range t.numRows
  assign : ∀ (n : Fin t.numRows) (v : Fin t.numCols), s.assign n v = a n v
  tree : s.tree.getEdges = T

theorem StateHolds.full (ht : Table.Ordered t) (hm : AllMultinomial t) {a : Latent t M} {T : List Edge} (h : StateHolds t a T s) :
    Full t s ∧ latent t s = a :=
  ⟨⟨h.reached.good ht hm, h.all⟩, funext fun n => funext fun v => h.assign n v⟩

theorem Keeps.invariant (ht : Table.Ordered t) (hm : AllMultinomial t) {x : TrainM ℝ M (Expect ℝ) Unit}
    (hx : Keeps t prior S x) (st : Latent t M → List Edge → Trainer ℝ M)
    (hst : ∀ a, ∀ T ∈ S, StateHolds t a T (st a T)) (f : Except PyErr Unit → Latent t M → List Edge → ℝ) :
    (∑ a, ∑ T ∈ S, posterior t prior a T * x.run.run (st a T) fun o => f o.1 (latent t o.2) o.2.tree.getEdges)
      = ∑ a, ∑ T ∈ S, posterior t prior a T * f (.ok ()) a T := by
  obtain ⟨h, h1, h2⟩ := hx (fun o => f o.1 (latent t o.2) o.2.tree.getEdges) (f (.ok ())) fun s _ => rfl
  rw [← h2]
  refine Finset.sum_congr rfl fun a _ => Finset.sum_congr rfl fun T hT => ?_
  obtain ⟨h3, h4⟩ := (hst a T hT).full ht hm
  rw [h1 _ h3, h4, (hst a T hT).tree]

/-- **C51** (one row). Draw tree and assignments from the posterior, in a trainer with all rows. Then `remove_row(r)`
and `add_row(r)` succeed, and tree and assignments have the same distribution. `f` is any function of the result
(exceptions included), the new assignments and the new tree; both sides are multiplied by the constant of the
posterior. -/
theorem resampleRow_invariant (ht : Table.Ordered t) (hm : ∀ ty ∈ t.featureTypes, ty = tyMultinomial)
    (hc : Table.Counts t) (prior : List ℝ) (S : Finset (List Edge)) (st : Latent t M → List Edge → Trainer ℝ M) (hst : ∀ a, ∀ T ∈ S, StateHolds t a T (st a T)) {row : Nat}
    (hN : row < t.numRows) (f : Except PyErr Unit → Latent t M → List Edge → ℝ) :
    (∑ a, ∑ T ∈ S, posterior t prior a T * (do removeRow t row; addRow t row : TrainM ℝ M (Expect ℝ) Unit).run.run (st a T)
        fun o => f o.1 (latent t o.2) o.2.tree.getEdges)
      = ∑ a, ∑ T ∈ S, posterior t prior a T * f (.ok ()) a T :=
  Keeps.invariant ht hm (Keeps.row ht hm hc hN) st hst f

/-- **C51** (the tree). The same for `set_edges(sample_tree())`. -/
theorem resampleTree_invariant (hn : ∀ x, 0 < x → num.gammaln x = log (Gamma x)) (hexp : num.exp = exp)
    (ht : Table.Ordered t) (hm : ∀ ty ∈ t.featureTypes, ty = tyMultinomial) (prior : List ℝ)
    (hp : prior.length = t.numCols * (t.numCols - 1) / 2) (hS : ∀ T, T ∈ S ↔ Canonical T ∧ IsTree t.numCols T)
    (junk : Nat → Nat) (st : Latent t M → List Edge → Trainer ℝ M) (hst : ∀ a, ∀ T ∈ S, StateHolds t a T (st a T))
    (f : Except PyErr Unit → Latent t M → List Edge → ℝ) :
    (∑ a, ∑ T ∈ S, posterior t prior a T *
        (trainerSampleTree num junk t prior >>= fun edges => setEdges edges : TrainM ℝ M (Expect ℝ) Unit).run.run (st a T)
          fun o => f o.1 (latent t o.2) o.2.tree.getEdges)
      = ∑ a, ∑ T ∈ S, posterior t prior a T * f (.ok ()) a T :=
  Keeps.invariant ht hm (Keeps.tree hn hexp hp hS junk) st hst f

/-- **C51.** The same for any number of full epochs of `train`. -/
theorem fullScan_invariant (hn : ∀ x, 0 < x → num.gammaln x = log (Gamma x)) (hexp : num.exp = exp)
    (ht : Table.Ordered t) (hm : ∀ ty ∈ t.featureTypes, ty = tyMultinomial) (hc : Table.Counts t) (prior : List ℝ)
    (hp : prior.length = t.numCols * (t.numCols - 1) / 2) (hS : ∀ T, T ∈ S ↔ Canonical T ∧ IsTree t.numCols T)
    (junk : Nat → Nat) (epochs : Nat) (st : Latent t M → List Edge → Trainer ℝ M)
    (hst : ∀ a, ∀ T ∈ S, StateHolds t a T (st a T)) (f : Except PyErr Unit → Latent t M → List Edge → ℝ) :
    (∑ a, ∑ T ∈ S, posterior t prior a T *
        ((List.replicate epochs ()).forM fun _ => fullScan num junk t prior : TrainM ℝ M (Expect ℝ) Unit).run.run (st a T)
          fun o => f o.1 (latent t o.2) o.2.tree.getEdges)
      = ∑ a, ∑ T ∈ S, posterior t prior a T * f (.ok ()) a T :=
  Keeps.invariant ht hm (Keeps.forM _ fun _ _ => Keeps.fullScan hn hexp ht hm hc hp hS junk) st hst f

/-- **C51**, with probabilities: the probability that assignments and tree are `a'` and `T'` after any number of full
epochs is their posterior probability. -/
theorem fullScan_stationary (hn : ∀ x, 0 < x → num.gammaln x = log (Gamma x)) (hexp : num.exp = exp)
    (ht : Table.Ordered t) (hm : ∀ ty ∈ t.featureTypes, ty = tyMultinomial) (hc : Table.Counts t) (prior : List ℝ)
    (hp : prior.length = t.numCols * (t.numCols - 1) / 2) (hS : ∀ T, T ∈ S ↔ Canonical T ∧ IsTree t.numCols T)
    (junk : Nat → Nat) (epochs : Nat) (st : Latent t M → List Edge → Trainer ℝ M)
    (hst : ∀ a, ∀ T ∈ S, StateHolds t a T (st a T)) (a' : Latent t M) (T' : List Edge) (hT' : T' ∈ S) :
    let Z := ∑ a : Latent t M, ∑ T ∈ S, posterior t prior a T
    let post := fun (a : Latent t M) (T : List Edge) => posterior t prior a T / Z
    (∑ a, ∑ T ∈ S, post a T *
        ((List.replicate epochs ()).forM fun _ => fullScan num junk t prior : TrainM ℝ M (Expect ℝ) Unit).run.run (st a T)
          fun o => if o.1 = .ok () ∧ latent t o.2 = a' ∧ o.2.tree.getEdges = T' then 1 else 0)
      = post a' T' := by
  intro Z post
  have h := fullScan_invariant (num := num) hn hexp ht hm hc prior hp hS junk epochs st hst
    fun r a T => if r = .ok () ∧ a = a' ∧ T = T' then 1 else 0
  have h2 : (∑ a : Latent t M, ∑ T ∈ S, posterior t prior a T *
      (if (.ok () : Except PyErr Unit) = .ok () ∧ a = a' ∧ T = T' then (1 : ℝ) else 0)) = posterior t prior a' T' := by
    rw [Finset.sum_eq_single a', Finset.sum_eq_single T']
    · simp
    · intro T _ hne; simp [hne]
    · intro h; exact absurd hT' h
    · intro a _ hne; simp [hne]
    · intro h; exact absurd (Finset.mem_univ _) h
  rw [h2] at h
  simp only [post]
  rw [← h, Finset.sum_div]
  refine Finset.sum_congr rfl fun a _ => ?_
  rw [Finset.sum_div]
  refine Finset.sum_congr rfl fun T _ => ?_
  ring

/-- The posterior in terms of `logprob()`. -/
theorem posterior_logprob (hn : ∀ x, 0 < x → num.gammaln x = log (Gamma x)) (ht : Table.Ordered t)
    (hm : ∀ ty ∈ t.featureTypes, ty = tyMultinomial) (hc : Table.Counts t) (prior : List ℝ) {a : Latent t M}
    {T : List Edge} (h : StateHolds t a T s) :
    ∃ lp, trainerLogprob num t s = .ok lp ∧ posterior t prior a T = exp (lp + treeLogPrior prior T) := by
  obtain ⟨hf, hl⟩ := h.full ht hm
  refine ⟨_, trainerLogprob_eq hn hc hf.stats (fun e v1 v2 he => hf.isTree.range (v1, v2) (List.mem_map.2 ⟨_, he, rfl⟩))
    (by rw [hf.all, Finset.card_range]), ?_⟩
  rw [exp_add, exp_log (likelihood_pos hc _ _ _), posterior, hf.all, h.tree]
  congr 1
  refine likelihood_congr (fun p hp => hf.isTree.range p ?_) fun n hn v hv => ?_
  · rw [← h.tree] at hp; exact hp
  · rw [← hl]; exact latentOf_total s (Finset.mem_range.1 hn) hv

/-! ### All pairs of tree and assignments are reached -/

theorem Reached.step {s' : Trainer ℝ M} (h : Reached t s) (c : Call) (hc : ∀ es, c = .setEdges es → IsTree t.numCols es)
    (ho : outcomes (runCall t c) s (.ok PUnit.unit, s')) : Reached t s' := by
  obtain ⟨n, s0, calls, h0, h1, h2⟩ := h
  refine ⟨n, s0, calls ++ [c], h0, ?_, ?_⟩
  · intro es hes
    rcases List.mem_append.1 hes with h | h
    · exact h1 es h
    · exact hc es (List.mem_singleton.1 h).symm
  · have key : ∀ (l : List Call) (s0 : Trainer ℝ M), outcomes (l.forM (runCall t)) s0 (.ok PUnit.unit, s) →
        outcomes ((l ++ [c]).forM (runCall t)) s0 (.ok PUnit.unit, s') := by
      intro l
      induction l with
      | nil =>
        intro s0 h
        cases h
        exact (outcomes_bind _ _ _ _).2 ⟨_, _, ho, rfl⟩
      | cons d l ih =>
        intro s0 h
        obtain ⟨r, s1, h3, h4⟩ := (outcomes_bind _ _ _ _).1 h
        cases r with
        | ok u => exact (outcomes_bind _ _ _ _).2 ⟨_, _, h3, ih s1 h4⟩
        | error e => cases h4
    exact key calls s0 h2

theorem exists_rows (ht : Table.Ordered t) (hm : AllMultinomial t) (hV : 1 ≤ t.numCols) (hV' : t.numCols ≤ 32768)
    (hM : M ≤ 128) (a : Latent t M) : ∀ N ≤ t.numRows, ∃ s : Trainer ℝ M, Reached t s ∧ Good t s ∧
      s.added = Finset.range N ∧ ∀ n < N, ∀ v < t.numCols, s.assign n v = a.total n v := by
  intro N
  induction N with
  | zero =>
    intro _
    obtain ⟨s0, h0, g0, a0⟩ := good_init (K := ℝ) (M := M) hV hV' hM rfl
    exact ⟨s0, ⟨_, s0, [], h0, by simp, rfl⟩, g0, by rw [a0]; rfl, by simp⟩
  | succ N ih =>
    intro hN
    obtain ⟨s, r, g, h1, h2⟩ := ih (by omega)
    obtain ⟨s', o, g', a', -, f', z'⟩ := addRow_any ht hm g (row := N) (by rw [h1]; simp) (by omega) (a.total N)
    refine ⟨s', r.step (.addRow N) (by simp) o, g', by rw [a', h1, Finset.range_add_one], fun n hn v hv => ?_⟩
    by_cases h : n = N
    · subst h; exact z' v hv
    · rw [f' n h, h2 n (by omega) v hv]

/-- Every pair of assignments and a canonical spanning tree is held by a trainer that calls can reach: the states that
the theorems above start from exist. -/
theorem exists_holds (ht : Table.Ordered t) (hm : ∀ ty ∈ t.featureTypes, ty = tyMultinomial) (hV : 1 ≤ t.numCols)
    (hV' : t.numCols ≤ 32768) (hM : M ≤ 128) (a : Latent t M) {T : List Edge} (hT : Canonical T)
    (hT' : IsTree t.numCols T) : ∃ s, StateHolds t a T s := by
  obtain ⟨s, r, g, h1, h2⟩ := exists_rows ht hm hV hV' hM a t.numRows le_rfl
  obtain ⟨⟨⟨res, s'⟩, o⟩, h3⟩ := Tot.setEdges g hT'
  obtain ⟨_, rfl, g', a', as', t'⟩ := h3 _ _ o
  refine ⟨s', r.step (.setEdges T) (by rintro es ⟨⟩; exact hT') o, by rw [a', h1], fun n v => ?_, ?_⟩
  · rw [as', h2 n n.2 v v.2]
    unfold Latent.total
    rw [dif_pos ⟨n.2, v.2⟩]
  · change gridEdges s'.tree.treeGrid = T
    rw [t', gridEdges_makeTree, sortEdges_canonical hT]

/-- All hypotheses of `fullScan_invariant` are met for `exTable` (three features, two rows), two clusters and the zero
prior. -/
example : ∃ (S : Finset (List Edge)) (st : Latent exTable 2 → List Edge → Trainer ℝ 2) (num : Num ℝ),
    (∀ T, T ∈ S ↔ Canonical T ∧ IsTree exTable.numCols T) ∧ [(0, 1), (0, 2)] ∈ S ∧
    (∀ a, ∀ T ∈ S, StateHolds exTable a T (st a T)) ∧ (∀ x, 0 < x → num.gammaln x = log (Gamma x)) ∧ num.exp = exp ∧
    Table.Ordered exTable ∧ Table.Counts exTable ∧ (∀ ty ∈ exTable.featureTypes, ty = tyMultinomial) ∧
    [(0 : ℝ), 0, 0].length = exTable.numCols * (exTable.numCols - 1) / 2 := by
  have hm : ∀ ty ∈ exTable.featureTypes, ty = tyMultinomial := by decide
  obtain ⟨S, hS⟩ := exists_spanningTrees exTable.numCols
  obtain ⟨s0, -, -⟩ := good_init (K := ℝ) (M := 2) (t := exTable) (n := 3) (by decide) (by decide) (by decide) (by decide)
  have : Nonempty (Trainer ℝ 2) := ⟨s0⟩
  choose! st hst using fun (a : Latent exTable 2) (T : List Edge) (hT : T ∈ S) =>
    exists_holds exTable_ordered hm (by decide) (by decide) (by decide) a ((hS T).1 hT).1 ((hS T).1 hT).2
  refine ⟨S, st, ⟨exp, fun x => log (Gamma x)⟩, hS, (hS _).2 ⟨⟨by decide, by decide⟩, ?_⟩, hst, fun _ _ => rfl, rfl,
    exTable_ordered, exTable_counts, hm, rfl⟩
  exact isTree_of_smaller rfl (by decide) (by decide)

end TreeCat
