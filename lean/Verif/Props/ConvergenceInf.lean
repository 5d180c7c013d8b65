import Verif.Props.Convergence
import Verif.Props.TreeSamplesInf

/-!
# C98: the full epochs of training with forbidden edges converge to the posterior over the trees without them

Like C52, for a tree prior that may be `-inf`.
-/

set_option linter.unusedSectionVars false

namespace TreeCat

open Spec Real
open scoped BigOperators

variable {M : Nat} [NeZero M] {t : Table} {s : Trainer ℝ M} {num : Num ℝ} {prior : List (WithBot ℝ)}

/-! ### Steps that keep the posterior and the set of allowed trees -/

section
variable {A : List Edge → Prop} {w : Latent t M → List Edge → ℝ} {S : Finset (List Edge)}

/-- From states whose tree satisfies `A`, `x` moves pairs of assignments and tree by averages over pairs whose tree satisfies `A`, which give weight to all
pairs in relation `R`, and keep the weights `w`. -/
def KernA (A : List Edge → Prop) (w : Latent t M → List Edge → ℝ) (S : Finset (List Edge)) (x : TrainM ℝ M (Expect ℝ) Unit)
    (R : Latent t M × List Edge → Latent t M × List Edge → Prop) : Prop :=
  ∃ P : (Latent t M × List Edge → ℝ) → Latent t M × List Edge → ℝ,
    (∀ ω, A ω.2 → Avg (fun ω' => A ω'.2) (R ω) fun f => P f ω) ∧
    (∀ (g : Except PyErr Unit × Trainer ℝ M → ℝ) (f : Latent t M × List Edge → ℝ),
      (∀ s, Full t s → A s.tree.getEdges → g (.ok (), s) = f (latent t s, s.tree.getEdges)) →
      ∀ s, Full t s → A s.tree.getEdges → x.run.run s g = P f (latent t s, s.tree.getEdges)) ∧
    ∀ f, (∑ a, ∑ T ∈ S, w a T * P f (a, T)) = ∑ a, ∑ T ∈ S, w a T * f (a, T)

theorem KernA.pure : KernA A w S (pure ()) fun ω ω' => A ω'.2 ∧ ω' = ω :=
  ⟨fun f => f, fun ω h => ((Avg.point ω).mono_dom fun _ hb => by rw [hb]; exact h).mono_hit fun _ hb => hb.2, fun _ _ hg s h hA => hg s h hA, fun _ => rfl⟩

theorem KernA.bind {x y : TrainM ℝ M (Expect ℝ) Unit} {R1 R2 : Latent t M × List Edge → Latent t M × List Edge → Prop} (hx : KernA A w S x R1)
    (hy : KernA A w S y R2) : KernA A w S (x >>= fun _ => y) fun ω ω' => ∃ ω1, R1 ω ω1 ∧ A ω1.2 ∧ R2 ω1 ω' := by
  obtain ⟨P, hP, hP', hP''⟩ := hx
  obtain ⟨Q, hQ, hQ', hQ''⟩ := hy
  refine ⟨fun f => P (Q f), fun ω hω => ?_, fun g f hg s hs hA => ?_, fun f => (hP'' _).trans (hQ'' f)⟩
  · exact Avg.bind (F := fun ω f => Q f ω) (hP ω hω) fun ω1 h1 => hQ ω1 h1
  · refine Eq.trans ?_ (hP' (fun o => match o.1 with
      | .ok _ => y.run.run o.2 g
      | .error e => g (.error e, o.2)) (Q f) (fun s hs hA => hQ' g f hg s hs hA) s hs hA)
    refine congrArg (x.run.run s) (funext fun o => ?_)
    obtain ⟨r, s'⟩ := o
    cases r <;> rfl

theorem KernA.mono {x : TrainM ℝ M (Expect ℝ) Unit} {R R' : Latent t M × List Edge → Latent t M × List Edge → Prop} (h : KernA A w S x R)
    (hR : ∀ ω ω', R' ω ω' → R ω ω') : KernA A w S x R' := by
  obtain ⟨P, h1, h2⟩ := h
  exact ⟨P, fun ω hω => (h1 ω hω).mono_hit (hR ω), h2⟩

/-- Resampling a row. -/
theorem KernA.row (pr : List ℝ) (ht : Table.Ordered t) (hm : ∀ ty ∈ t.featureTypes, ty = tyMultinomial) (hc : Table.Counts t)
    {row : Nat} (hN : row < t.numRows) : KernA (M := M) A (posterior t pr) S (do removeRow t row; addRow t row)
      fun ω ω' => ω'.2 = ω.2 ∧ ∀ n : Fin t.numRows, (n : Nat) ≠ row → ω'.1 n = ω.1 n := by
  set r : Fin t.numRows := ⟨row, hN⟩
  set L : List Edge → Latent t M → ℝ := fun T a => likelihood t (Finset.range t.numRows) a.total T with hLdef
  refine ⟨fun f ω => (∑ z, L ω.2 (Function.update ω.1 r z) * f (Function.update ω.1 r z, ω.2)) /
    ∑ z, L ω.2 (Function.update ω.1 r z), fun ω hω => ?_, fun g f hg s hs hA => ?_, fun f => ?_⟩
  · have h1 := (Avg.weights (Finset.univ : Finset (Fin t.numCols → Fin M)) Finset.univ_nonempty
      (fun z => L ω.2 (Function.update ω.1 r z)) fun z _ => likelihood_pos hc _ _ _).map
        fun z => ((Function.update ω.1 r z, ω.2) : Latent t M × List Edge)
    refine (h1.mono_dom ?_).mono_hit ?_
    · rintro ω' ⟨z, -, rfl⟩
      exact hω
    rintro ω' ⟨h2, h3⟩
    refine ⟨ω'.1 r, Finset.mem_univ _, Finset.mem_univ _, Prod.ext (funext fun n => ?_) h2⟩
    by_cases hn : n = r
    · rw [hn]
      change ω'.1 r = Function.update ω.1 r (ω'.1 r) r
      rw [Function.update_self]
    · exact (h3 n fun hc => hn (Fin.ext hc)).trans (Function.update_of_ne hn _ _).symm
  · have hmem : row ∈ s.added := by rw [hs.all]; simpa using hN
    obtain ⟨_, s1, ⟨g1, a1, t1, as1⟩, h1⟩ := (Det.removeRow t row s).of_tot (Tot.removeRow ht hm hs.toGood hmem)
    have hr1 : row ∉ s1.added := by rw [a1]; exact Finset.notMem_erase _ _
    have hins : insert row s1.added = Finset.range t.numRows := by
      rw [a1, hs.all]; exact Finset.insert_erase (Finset.mem_range.2 hN)
    obtain ⟨after, h2, h3⟩ := addRow_law_good ht hm hc g1 hr1 hN
    have hfull : ∀ z, Full t (after z) := fun z => by
      obtain ⟨b1, b2, b3, b4, b5⟩ := h2 z
      refine ⟨⟨⟨b5, by rw [b2]; exact g1.grid⟩, by rw [b2]; exact g1.numVertices, by rw [b2]; exact g1.isTree,
        by rw [b2]; exact g1.sorted, by rw [b2, b3]; exact g1.program, ?_⟩, by rw [b1, hins]⟩
      rw [b1, hins]
    have htree : ∀ z, (after z).tree.getEdges = s.tree.getEdges := fun z => by rw [(h2 z).2.1, t1]
    have hlat : ∀ z, latent t (after z) = Function.update (latent t s) r z := fun z => by
      obtain ⟨-, -, -, b4, -⟩ := h2 z
      funext n v
      unfold latent
      rw [b4, as1]
      by_cases hn : n = r
      · subst hn
        rw [Function.update_self, Function.update_self]
        exact overlay_lt _ _ v.2
      · rw [Function.update_of_ne hn, Function.update_of_ne fun h => hn (Fin.ext h)]
    have hlik : ∀ z, likelihood t (insert row s1.added) (after z).assign s1.tree.getEdges
        = L s.tree.getEdges (Function.update (latent t s) r z) := fun z => by
      rw [hins, t1, ← hlat z]
      exact likelihood_congr hs.isTree.range fun n hn v hv => (latentOf_total _ (Finset.mem_range.1 hn) hv).symm
    refine (h1 _).trans ((h3 g).trans ?_)
    simp only [hlik]
    congr 1
    refine Finset.sum_congr rfl fun z _ => ?_
    rw [hg _ (hfull z) (by rw [htree]; exact hA), hlat, htree]
  · rw [Finset.sum_comm, Finset.sum_comm (s := Finset.univ)]
    refine Finset.sum_congr rfl fun T hT => ?_
    have h := gibbs_coordinate r (L T) (fun a => f (a, T)) fun a => likelihood_pos hc _ _ _
    have : ∀ (u : Latent t M → ℝ), (∑ a, posterior t pr a T * u a) = exp (treeLogPrior pr T) * ∑ a, L T a * u a := by
      intro u
      rw [Finset.mul_sum]
      refine Finset.sum_congr rfl fun a _ => ?_
      unfold posterior
      ring
    rw [this, this, h]

theorem KernA.rows (pr : List ℝ) (ht : Table.Ordered t) (hm : ∀ ty ∈ t.featureTypes, ty = tyMultinomial) (hc : Table.Counts t) :
    ∀ l : List Nat, (∀ r ∈ l, r < t.numRows) → KernA (M := M) A (posterior t pr) S (l.forM fun r => do removeRow t r; addRow t r)
      fun ω ω' => A ω'.2 ∧ ω'.2 = ω.2 ∧ ∀ n : Fin t.numRows, (n : Nat) ∉ l → ω'.1 n = ω.1 n := by
  intro l
  induction l with
  | nil =>
    intro _
    refine KernA.pure.mono fun ω ω' h => ?_
    exact ⟨h.1, Prod.ext (funext fun n => h.2.2 n (by simp)) h.2.1⟩
  | cons r l ih =>
    intro hl
    have h := KernA.bind (KernA.row (A := A) (S := S) (M := M) pr ht hm hc (hl r (List.mem_cons_self ..)))
      (ih fun x hx => hl x (List.mem_cons_of_mem _ hx))
    refine KernA.mono h ?_
    rintro ω ω' ⟨h0, h1, h2⟩
    refine ⟨(fun n => if (n : Nat) = r then ω'.1 n else ω.1 n, ω.2), ⟨rfl, fun n hn => if_neg hn⟩, by rw [← h1]; exact h0, h0, h1, fun n hn => ?_⟩
    by_cases hr : (n : Nat) = r
    · simp only [if_pos hr]
    · simp only [if_neg hr]
      exact h2 n fun hc => (List.mem_cons.1 hc).elim hr hn

end

/-! ### Resampling the tree -/

/-- The logits of the edges given the assignments. -/
noncomputable def logitsInf (t : Table) (prior : List (WithBot ℝ)) (a : Latent t M) : List (WithBot ℝ) :=
  ((completeGrid t.numCols).map fun c => logitOf t [] a c.2.1 c.2.2).zipWith (fun (x : ℝ) p => (x : WithBot ℝ) + p) prior

theorem Full.logitsInf (hn : ∀ x, 0 < x → num.gammaln x = log (Gamma x)) (h : Full t s) :
    computeEdgeLogitsInf num t prior s = .ok (TreeCat.logitsInf t prior (latent t s)) := by
  rw [computeEdgeLogitsInf_eq, h.logits hn (List.length_replicate ..)]
  simp only [Except.map, TreeCat.logitsInf]
  congr 3
  funext c
  unfold logitOf
  congr 1
  simp only [List.getD_eq_getElem?_getD, List.getElem?_replicate, List.getElem?_nil]
  split <;> rfl

theorem logitsInf_length (hp : prior.length = t.numCols * (t.numCols - 1) / 2) (a : Latent t M) : (logitsInf t prior a).length = tri t.numCols := by
  unfold logitsInf
  rw [List.length_zipWith, List.length_map, completeGrid_length, hp]
  exact min_self _

theorem logitsInf_get (hp : prior.length = t.numCols * (t.numCols - 1) / 2) (a : Latent t M) {u v : Nat} (huv : u < v) (hv : v < t.numCols) :
    (logitsInf t prior a).getD (u + v * (v - 1) / 2) 0 = ((logitOf t [] a u v : ℝ) : WithBot ℝ) + prior.getD (u + v * (v - 1) / 2) 0 := by
  have h1 := pairs_getElem? t.numCols u v huv hv
  rw [fce_of_lt huv, tri] at h1
  have hk : u + v * (v - 1) / 2 < (pairs t.numCols).length := (List.getElem?_eq_some_iff.1 h1).1
  have hk' : u + v * (v - 1) / 2 < prior.length := by
    rw [pairs_length] at hk
    rw [hp]
    exact hk
  unfold logitsInf
  rw [List.getD_eq_getElem?_getD, List.getElem?_zipWith, List.getElem?_map, completeGrid_getElem?, h1, List.getElem?_eq_getElem hk',
    List.getD_eq_getElem _ _ hk']
  rfl

theorem allowed_logitsInf (hp : prior.length = t.numCols * (t.numCols - 1) / 2) (a : Latent t M) (T : List Edge) :
    Canonical T ∧ AllowedTree t.numCols (logitsInf t prior a) T ↔ Canonical T ∧ AllowedTree t.numCols prior T := by
  refine and_congr_right fun hC => ?_
  have key : ∀ (_ : IsTree t.numCols T), ∀ p ∈ T, ((logitsInf t prior a).getD (findCompleteEdge p.1 p.2) 0 ≠ ⊥ ↔ prior.getD (findCompleteEdge p.1 p.2) 0 ≠ ⊥) := by
    intro hT p hp'
    have h1 := hC.small_large p hp'
    rw [findCompleteEdge, if_neg (by omega), logitsInf_get hp a h1 (hT.range p hp').2]
    simp
  exact ⟨fun h => ⟨h.tree, fun p hp' => (key h.tree p hp').1 (h.allowed p hp')⟩, fun h => ⟨h.tree, fun p hp' => (key h.tree p hp').2 (h.allowed p hp')⟩⟩

theorem finite_logitsInf (hp : prior.length = t.numCols * (t.numCols - 1) / 2) (a : Latent t M) {T : List Edge} (hC : Canonical T)
    (hT : AllowedTree t.numCols prior T) :
    (T.map fun p => (finiteLogits (logitsInf t prior a)).getD (p.1 + p.2 * (p.2 - 1) / 2) 0).sum
      = (T.map fun p => logitOf t (finiteLogits prior) a p.1 p.2).sum := by
  have hun : ∀ (l : List (WithBot ℝ)) k, (finiteLogits l).getD k 0 = (l.getD k 0).unbotD 0 := by
    intro l k
    unfold finiteLogits
    rw [List.getD_eq_getElem?_getD, List.getElem?_map, List.getD_eq_getElem?_getD]
    cases l[k]? <;> rfl
  congr 1
  refine List.map_congr_left fun p hp' => ?_
  have h1 := hC.small_large p hp'
  have h2 := hT.allowed p hp'
  rw [findCompleteEdge, if_neg (by omega)] at h2
  obtain ⟨x, hx⟩ := WithBot.ne_bot_iff_exists.1 h2
  rw [hun, logitsInf_get hp a h1 (hT.tree.range p hp').2, ← hx]
  unfold logitOf
  rw [hun, ← hx]
  show (_ : ℝ) = _
  simp [← WithBot.coe_add]

theorem sampleTreeInf_congr {V : Nat} {T : List Edge} {l : List (WithBot ℝ)} (hcan : Canonical T) (hT : AllowedTree V l T) (junk : Nat → Nat)
    (hl : l.length = tri V) {σ : List Nat} (hσ : σ.Perm (List.range T.length))
    (f g : Except PyErr (List Edge × Nat) → ℝ) (hfg : ∀ T, Canonical T → AllowedTree V l T → f (.ok (T, 0)) = g (.ok (T, 0))) :
    (sampleTreeInf exp junk (completeGrid V) l T σ : ExceptT PyErr (Expect ℝ) _).run f
      = (sampleTreeInf exp junk (completeGrid V) l T σ : ExceptT PyErr (Expect ℝ) _).run g := by
  have hgood := (goodL_iff hl hT.tree).2 hT
  have hfeas : ∀ k ∈ idsOf T, l.getD k ⊥ ≠ ⊥ := fun k hk => (expOrZero_ne exp_pos _).1 (ne_of_gt (hgood.pos k hk))
  rw [sampleTreeInf_expect exp_pos exp_add hT.tree junk hl hfeas hσ f, sampleTreeInf_expect exp_pos exp_add hT.tree junk hl hfeas hσ g]
  split
  · exact hfg T hcan hT
  · have hV := hT.tree.card
    have hlt := hgood.of_perm (relabel_perm (σ := σ) (by simpa [idsOf] using hσ)).symm
    refine (gRun_avg (V := V) (fun k => expOrZero_nonneg exp_pos _) (List.range T.length) (fun e he => by
      have := List.mem_range.1 he; omega) _ hlt).congr _ _ fun ω hω => ?_
    obtain ⟨h4, h5⟩ := canonOf_spec hω.ltree
    refine hfg _ h4 ((goodL_iff hl h5).1 (hω.of_perm ?_))
    have h6 : (idsOf (canonOf V ω)).Perm (idsOf (treeOf V ω)) := (canonOf_perm V ω).map _
    rw [idsOf_treeOf hω.ltree.ids] at h6
    exact h6.symm

theorem permuted_run (g : Except PyErr Unit × Trainer ℝ M → ℝ) (k : Nat) (x : List Nat → ExceptT PyErr (Expect ℝ) (List Edge × Nat))
    (F : List Edge → TrainM ℝ M (Expect ℝ) Unit) :
    ((liftRand (ExceptT.lift (Shuffle.permutation k)) >>= fun σ => liftRand (x σ) >>= fun out => F out.1) : TrainM ℝ M (Expect ℝ) Unit).run.run s g
      = ((List.range k).permutations.map fun σ => (x σ).run fun r => match r with
          | .ok out => (F out.1).run.run s g
          | .error e => g (.error e, s)).sum / k.factorial := by
  have e3 : ∀ σ, ((liftRand (x σ) >>= fun out => F out.1) : TrainM ℝ M (Expect ℝ) Unit).run.run s g = _ := fun σ => liftRand_bind_run _ _ g
  rw [liftRand_bind_run, shuffle_run]
  simp only [e3]
  congr 1
  refine congrArg List.sum (List.map_congr_left fun σ _ => ?_)
  refine congrArg (show (Except PyErr (List Edge × Nat) → ℝ) → ℝ from (x σ).run) (funext fun r => ?_)
  cases r with
  | ok a => rfl
  | error e => rfl

theorem trainerSampleTreeInf_run (junk : Nat → Nat) (g : Except PyErr Unit × Trainer ℝ M → ℝ) {logits : List (WithBot ℝ)}
    (h1 : computeEdgeLogitsInf num t prior s = .ok logits) (h2 : logits.length = tri t.numCols) :
    ((trainerSampleTreeInf (n := Expect ℝ) (fun x => x) num junk t prior >>= fun edges => setEdges edges) : TrainM ℝ M (Expect ℝ) Unit).run.run s g
      = ((List.range s.tree.getEdges.length).permutations.map fun σ =>
          (sampleTreeInf num.exp junk (completeGrid t.numCols) logits s.tree.getEdges σ : ExceptT PyErr (Expect ℝ) _).run
            fun r => match r with
              | .ok out => (setEdges out.1 : TrainM ℝ M (Expect ℝ) Unit).run.run s g
              | .error e => g (.error e, s)).sum / s.tree.getEdges.length.factorial := by
  have e2 : pyAssert (logits.length == (completeGrid t.numCols).length) = .ok () := by
    rw [h2, completeGrid_length]; simp [pyAssert]
  unfold trainerSampleTreeInf
  simp only [bind_assoc]
  refine (get_bind_run _ g).trans ?_
  refine (liftPy_bind_run (makeCompleteGraph_eq _) _ g).trans ?_
  refine (liftPy_bind_run h1 _ g).trans ?_
  refine (liftPy_bind_run e2 _ g).trans ?_
  simp only [pure_bind]
  exact permuted_run (s := s) g s.tree.getEdges.length (fun σ => sampleTreeInf num.exp junk (completeGrid t.numCols) logits s.tree.getEdges σ) setEdges

/-- Resampling the tree gives weight to all allowed trees. -/
theorem KernA.tree (hn : ∀ x, 0 < x → num.gammaln x = log (Gamma x)) (hexp : num.exp = exp)
    (hp : prior.length = t.numCols * (t.numCols - 1) / 2) (S : Finset (List Edge)) (hS : ∀ T, T ∈ S ↔ Canonical T ∧ AllowedTree t.numCols prior T)
    (junk : Nat → Nat) :
    KernA (t := t) (M := M) (fun T => Canonical T ∧ AllowedTree t.numCols prior T) (posterior t (finiteLogits prior)) S
      (trainerSampleTreeInf (n := Expect ℝ) (fun x => x) num junk t prior >>= fun edges => setEdges edges)
      fun ω ω' => ω'.1 = ω.1 ∧ Canonical ω'.2 ∧ AllowedTree t.numCols prior ω'.2 := by
  have hlen := logitsInf_length (M := M) hp
  refine ⟨fun f ω => treeStepInf t.numCols junk (logitsInf t prior ω.1) (fun T => f (ω.1, T)) ω.2, fun ω hω => ?_, fun g f hg s hs hA => ?_, fun f => ?_⟩
  · obtain ⟨h1, h2⟩ := (allowed_logitsInf hp ω.1 ω.2).2 hω
    have h3 := (treeStepInf_avg (junk := junk) h1 h2 (hlen ω.1)).map fun T => ((ω.1, T) : Latent t M × List Edge)
    refine (h3.mono_dom ?_).mono_hit ?_
    · rintro ω' ⟨T, hT, rfl⟩
      exact (allowed_logitsInf hp ω.1 T).1 hT
    · rintro ω' ⟨h4, h5⟩
      exact ⟨ω'.2, (allowed_logitsInf hp ω.1 _).2 h5, (allowed_logitsInf hp ω.1 _).2 h5, Prod.ext h4 rfl⟩
  · obtain ⟨c1, c2⟩ := (allowed_logitsInf hp (latent t s) _).2 hA
    rw [trainerSampleTreeInf_run junk g (hs.logitsInf hn) (hlen _), hexp]
    refine congrArg (fun x : ℝ => x / (s.tree.getEdges.length.factorial : ℝ)) ?_
    refine congrArg List.sum (List.map_congr_left fun σ hσ => ?_)
    refine sampleTreeInf_congr c1 c2 junk (hlen _) (List.mem_permutations.1 hσ) _ _ fun T h1 h2 => ?_
    obtain ⟨_, s', ⟨g1, a1, as1, t1⟩, h3⟩ := (Det.setEdges T s).of_tot (Tot.setEdges hs.toGood h2.tree)
    have hT : s'.tree.getEdges = T := by
      change gridEdges s'.tree.treeGrid = T
      rw [t1, gridEdges_makeTree, sortEdges_canonical h1]
    refine (h3 g).trans ?_
    rw [hg s' ⟨g1, by rw [a1]; exact hs.all⟩ (by rw [hT]; exact (allowed_logitsInf hp _ T).1 ⟨h1, h2⟩), hT]
    show _ = f (latent t s, T)
    congr 2
    unfold latent
    rw [as1]
  · refine Finset.sum_congr rfl fun a _ => ?_
    have h := treeStepInf_invariant (l := logitsInf t prior a) (hlen a) S (fun T => (hS T).trans (allowed_logitsInf hp a T).symm) junk fun T => f (a, T)
    have e : ∀ G : List Edge → ℝ, (∑ T ∈ S, posterior t (finiteLogits prior) a T * G T)
        = ((∏ v ∈ Finset.range t.numCols, vertGamma (Finset.range t.numRows) a.total v) *
          (∏ v ∈ Finset.range t.numCols, featGamma t (Finset.range t.numRows) a.total v)) *
          ∑ T ∈ S, exp ((T.map fun p => (finiteLogits (logitsInf t prior a)).getD (p.1 + p.2 * (p.2 - 1) / 2) 0).sum) * G T := by
      intro G
      rw [Finset.mul_sum]
      refine Finset.sum_congr rfl fun T hT => ?_
      obtain ⟨h1, h2⟩ := (hS T).1 hT
      rw [posterior_logits, finite_logitsInf hp a h1 h2, mul_assoc]
    rw [e, e, h]

/-- A full epoch gives weight to all allowed trees and all assignments. -/
theorem KernA.fullScan (hn : ∀ x, 0 < x → num.gammaln x = log (Gamma x)) (hexp : num.exp = exp) (ht : Table.Ordered t)
    (hm : ∀ ty ∈ t.featureTypes, ty = tyMultinomial) (hc : Table.Counts t)
    (hp : prior.length = t.numCols * (t.numCols - 1) / 2) (S : Finset (List Edge)) (hS : ∀ T, T ∈ S ↔ Canonical T ∧ AllowedTree t.numCols prior T)
    (junk : Nat → Nat) :
    KernA (t := t) (M := M) (fun T => Canonical T ∧ AllowedTree t.numCols prior T) (posterior t (finiteLogits prior)) S
      (fullScanInf (n := Expect ℝ) (fun x => x) num junk t prior) fun _ ω' => Canonical ω'.2 ∧ AllowedTree t.numCols prior ω'.2 := by
  have h := KernA.bind (KernA.tree (M := M) hn hexp hp S hS junk)
    (KernA.rows (finiteLogits prior) ht hm hc (List.range t.numRows) fun r hr => List.mem_range.1 hr)
  obtain ⟨P, h1, h2, h3⟩ := h
  refine ⟨P, fun ω hω => (h1 ω hω).mono_hit fun ω' h' => ⟨(ω.1, ω'.2), ⟨rfl, h'⟩, h', h', rfl, fun n hn => ?_⟩, fun g f hg s hs hA => ?_, h3⟩
  · exact absurd (List.mem_range.2 n.2) hn
  · refine Eq.trans ?_ (h2 g f hg s hs hA)
    unfold TreeCat.fullScanInf
    rw [bind_assoc]

/-! ### Convergence -/

/-- The expectations after `n` epochs, as functions of assignments and tree, and their distance to the posterior mean. -/
theorem fullScanInf_epochs (hn : ∀ x, 0 < x → num.gammaln x = log (Gamma x)) (hexp : num.exp = exp)
    (ht : Table.Ordered t) (hm : ∀ ty ∈ t.featureTypes, ty = tyMultinomial) (hc : Table.Counts t) (prior : List (WithBot ℝ))
    (hp : prior.length = t.numCols * (t.numCols - 1) / 2) (S : Finset (List Edge))
    (hS : ∀ T, T ∈ S ↔ Canonical T ∧ AllowedTree t.numCols prior T) (hne : S.Nonempty) (junk : Nat → Nat) :
    ∃ ρ : ℝ, 0 ≤ ρ ∧ ρ < 1 ∧ ∀ (f : Except PyErr Unit → Latent t M → List Edge → ℝ) (lo hi : ℝ),
      (∀ a, ∀ T ∈ S, lo ≤ f (.ok ()) a T ∧ f (.ok ()) a T ≤ hi) → ∃ q : Nat → Latent t M × List Edge → ℝ,
      (∀ n (s : Trainer ℝ M), Full t s → (Canonical s.tree.getEdges ∧ AllowedTree t.numCols prior s.tree.getEdges) →
        ((List.replicate n ()).forM fun _ => fullScanInf (n := Expect ℝ) (fun x => x) num junk t prior : TrainM ℝ M (Expect ℝ) Unit).run.run s
          (fun o => f o.1 (latent t o.2) o.2.tree.getEdges) = q n (latent t s, s.tree.getEdges)) ∧
      ∀ n ω, (Canonical ω.2 ∧ AllowedTree t.numCols prior ω.2) →
        |q n ω - (∑ a, ∑ T ∈ S, posterior t (finiteLogits prior) a T * f (.ok ()) a T) / ∑ a : Latent t M, ∑ T ∈ S, posterior t (finiteLogits prior) a T|
          ≤ ρ ^ n * (hi - lo) := by
  classical
  obtain ⟨T0, hT0⟩ := hne
  obtain ⟨P, hP, hrun, hinv⟩ := KernA.fullScan (M := M) (prior := prior) hn hexp ht hm hc hp S hS junk
  let Ω : Type := {ω : Latent t M × List Edge // Canonical ω.2 ∧ AllowedTree t.numCols prior ω.2}
  have hmemΩ : ∀ ω : Latent t M × List Edge, ω ∈ (Finset.univ : Finset (Latent t M)) ×ˢ S ↔ Canonical ω.2 ∧ AllowedTree t.numCols prior ω.2 := fun ω => by
    rw [Finset.mem_product, hS]
    exact ⟨fun h => h.2, fun h => ⟨Finset.mem_univ _, h⟩⟩
  let _ : Fintype Ω := Fintype.subtype ((Finset.univ : Finset (Latent t M)) ×ˢ S) hmemΩ
  have hsum : ∀ F : Latent t M → List Edge → ℝ, (∑ ω : Ω, F ω.1.1 ω.1.2) = ∑ a, ∑ T ∈ S, F a T := by
    intro F
    rw [← Finset.sum_product']
    exact (Finset.sum_subtype _ hmemΩ fun ω : Latent t M × List Edge => F ω.1 ω.2).symm
  have : Nonempty Ω := ⟨⟨(fun _ _ => 0, T0), (hS T0).1 hT0⟩⟩
  set pst : Latent t M → List Edge → ℝ := posterior t (finiteLogits prior) with hpst
  set Z := ∑ a : Latent t M, ∑ T ∈ S, pst a T with hZ
  have hZ' : Z = ∑ ω : Ω, pst ω.1.1 ω.1.2 := (hsum _).symm
  have hZpos : 0 < Z := by
    rw [hZ']; exact Finset.sum_pos (fun ω _ => posterior_pos hc _ _) Finset.univ_nonempty
  set Q : (Ω → ℝ) → Ω → ℝ := fun f ω => P (fun ω' => if h : Canonical ω'.2 ∧ AllowedTree t.numCols prior ω'.2 then f ⟨ω', h⟩ else 0) ω.1 with hQ
  obtain ⟨ρ, h0, h1, h2⟩ := doeblin Q (fun ω => ((hP ω.1 ω.2).subtype).mono_hit fun ω _ => ω.2) (fun ω => pst ω.1.1 ω.1.2 / Z)
    (fun ω => (div_pos (posterior_pos hc _ _) hZpos).le) (by rw [← Finset.sum_div, ← hZ', div_self hZpos.ne']) (by
      intro f
      have h := hinv fun ω' => if h : Canonical ω'.2 ∧ AllowedTree t.numCols prior ω'.2 then f ⟨ω', h⟩ else 0
      rw [← hsum fun a T => pst a T * P _ (a, T), ← hsum fun a T => pst a T * (if h : Canonical T ∧ AllowedTree t.numCols prior T then f ⟨(a, T), h⟩ else 0)] at h
      simp only [div_mul_eq_mul_div]
      rw [← Finset.sum_div, ← Finset.sum_div]
      refine congrArg (· / Z) (h.trans (Finset.sum_congr rfl fun ω _ => congrArg (pst ω.1.1 ω.1.2 * ·) ?_))
      exact dif_pos ω.2)
  refine ⟨ρ, h0, h1, fun f lo hi hb => ?_⟩
  have hit : ∀ (n : Nat) (s : Trainer ℝ M), Full t s → ∀ (hA : Canonical s.tree.getEdges ∧ AllowedTree t.numCols prior s.tree.getEdges),
      ((List.replicate n ()).forM fun _ => fullScanInf (n := Expect ℝ) (fun x => x) num junk t prior : TrainM ℝ M (Expect ℝ) Unit).run.run s
        (fun o => f o.1 (latent t o.2) o.2.tree.getEdges) = Q^[n] (fun ω => f (.ok ()) ω.1.1 ω.1.2) ⟨(latent t s, s.tree.getEdges), hA⟩ := by
    intro n
    induction n with
    | zero => intro s _ _; rfl
    | succ n ih =>
      intro s hs hA
      rw [Function.iterate_succ_apply']
      refine Eq.trans ?_ (hrun (fun o => match o.1 with
        | .ok _ => ((List.replicate n ()).forM fun _ => fullScanInf (n := Expect ℝ) (fun x => x) num junk t prior : TrainM ℝ M (Expect ℝ) Unit).run.run o.2
            (fun o => f o.1 (latent t o.2) o.2.tree.getEdges)
        | .error e => f (.error e) (latent t o.2) o.2.tree.getEdges) _ (fun s hs hA => (ih s hs hA).trans (by symm; exact dif_pos hA)) s hs hA)
      refine congrArg ((fullScanInf (n := Expect ℝ) (fun x => x) num junk t prior : TrainM ℝ M (Expect ℝ) Unit).run.run s) (funext fun o => ?_)
      obtain ⟨r, s'⟩ := o
      cases r <;> rfl
  refine ⟨fun n ω => if h : Canonical ω.2 ∧ AllowedTree t.numCols prior ω.2 then Q^[n] (fun ω => f (.ok ()) ω.1.1 ω.1.2) ⟨ω, h⟩ else 0,
    fun n s hs hA => (hit n s hs hA).trans (by symm; exact dif_pos hA), fun n ω hω => ?_⟩
  have h4 := h2 (fun ω => f (.ok ()) ω.1.1 ω.1.2) lo hi (fun ω => hb ω.1.1 ω.1.2 ((hS _).2 ω.2)) n ⟨ω, hω⟩
  have h5 : (∑ ω : Ω, pst ω.1.1 ω.1.2 / Z * f (.ok ()) ω.1.1 ω.1.2) = (∑ a, ∑ T ∈ S, pst a T * f (.ok ()) a T) / Z := by
    rw [← hsum, Finset.sum_div]
    exact Finset.sum_congr rfl fun ω _ => by ring
  rw [h5] at h4
  dsimp only
  rw [dif_pos hω]
  exact h4

/-- **C98.** Let the tree prior be `-inf` for some edges. From whatever tree without these edges and whatever assignments training starts its full epochs, the
distribution of tree and assignments converges, geometrically fast, to the posterior over the trees without these edges: there is a rate `ρ < 1` (depending
on table, prior and number of clusters) such that after `n` epochs the expected value of any function `f` with values in `[lo, hi]` is within `ρ ^ n (hi - lo)`
of its posterior mean. No epoch raises: `f` may depend on the result of the call, and only its values for success matter. -/
theorem fullScanInf_converges (hn : ∀ x, 0 < x → num.gammaln x = log (Gamma x)) (hexp : num.exp = exp)
    (ht : Table.Ordered t) (hm : ∀ ty ∈ t.featureTypes, ty = tyMultinomial) (hc : Table.Counts t) (prior : List (WithBot ℝ))
    (hp : prior.length = t.numCols * (t.numCols - 1) / 2) (S : Finset (List Edge))
    (hS : ∀ T, T ∈ S ↔ Canonical T ∧ AllowedTree t.numCols prior T) (junk : Nat → Nat) :
    ∃ ρ : ℝ, 0 ≤ ρ ∧ ρ < 1 ∧ ∀ (f : Except PyErr Unit → Latent t M → List Edge → ℝ) (lo hi : ℝ),
      (∀ a, ∀ T ∈ S, lo ≤ f (.ok ()) a T ∧ f (.ok ()) a T ≤ hi) → ∀ (a : Latent t M), ∀ T ∈ S, ∀ s : Trainer ℝ M,
      StateHolds t a T s → ∀ n : Nat,
      |((List.replicate n ()).forM fun _ => fullScanInf (n := Expect ℝ) (fun x => x) num junk t prior : TrainM ℝ M (Expect ℝ) Unit).run.run s
          (fun o => f o.1 (latent t o.2) o.2.tree.getEdges)
        - (∑ a, ∑ T ∈ S, posterior t (finiteLogits prior) a T * f (.ok ()) a T) / ∑ a : Latent t M, ∑ T ∈ S, posterior t (finiteLogits prior) a T|
        ≤ ρ ^ n * (hi - lo) := by
  rcases S.eq_empty_or_nonempty with rfl | hne
  · exact ⟨0, le_rfl, one_pos, fun f lo hi _ a T hT => absurd hT (Finset.notMem_empty T)⟩
  obtain ⟨ρ, h0, h1, h2⟩ := fullScanInf_epochs (num := num) (M := M) hn hexp ht hm hc prior hp S hS hne junk
  refine ⟨ρ, h0, h1, fun f lo hi hb a T hT s hs n => ?_⟩
  obtain ⟨hfull, hlat⟩ := hs.full ht hm
  have hA : Canonical s.tree.getEdges ∧ AllowedTree t.numCols prior s.tree.getEdges := by rw [hs.tree]; exact (hS T).1 hT
  obtain ⟨q, q1, q2⟩ := h2 f lo hi hb
  exact le_of_eq_of_le (congrArg (fun x : ℝ => |x - _|) (q1 n s hfull hA)) (q2 n _ hA)

/-- The hypotheses are met by `exTable` with two clusters, a prior that forbids (0, 1) and any assignments. -/
example (a : Latent exTable 2) : ∃ (S : Finset (List Edge)) (s : Trainer ℝ 2), (∀ T, T ∈ S ↔ Canonical T ∧ AllowedTree exTable.numCols ([⊥, 0, 0] : List (WithBot ℝ)) T) ∧
    [(0, 2), (1, 2)] ∈ S ∧ StateHolds exTable a [(0, 2), (1, 2)] s := by
  have hm : ∀ ty ∈ exTable.featureTypes, ty = tyMultinomial := by decide
  obtain ⟨S, hS⟩ := exists_allowedTrees exTable.numCols [⊥, 0, 0]
  have hC : Canonical [(0, 2), (1, 2)] := ⟨by decide, by decide⟩
  obtain ⟨s, hs⟩ := exists_holds (M := 2) exTable_ordered hm (by decide) (by decide) (by decide) a hC star2_isTree
  exact ⟨S, s, hS, (hS _).2 ⟨hC, star2_allowed⟩, hs⟩

end TreeCat
