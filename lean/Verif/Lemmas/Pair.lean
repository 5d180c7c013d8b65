import Verif.Lemmas.Marginal
import Verif.Spec.Info

/-!
# Pairwise marginals of the latent variables
-/

set_option linter.unusedSectionVars false

namespace TreeCat

open Spec

section
variable {K : Type} [Field K] [LinearOrder K] [IsStrictOrderedRing K] {M : Nat} [NeZero M]
variable {model : Model K M} {srv : Server K M}
variable {r : Nat} {par : Nat → Nat} {ch : Nat → List Nat} {L : List Nat} {eid : Nat → Nat}

theorem mu_vertMean_all (h : Model.Valid model) (hc : Model.Consistent model) (s : Serves model srv) (P : Plan model r par ch eid L)
    {v : Nat} (hv : v < model.tree.numVertices) (m : Fin M) :
    mu (servePsi r par eid srv.edgeTrans) (vertMean model) v m = 1 := by
  by_cases hvr : v = r
  · unfold mu servePsi
    simp only [if_pos hvr, one_mul]
    exact vertMean_sum h hv
  · exact mu_vertMean h hc s P hv hvr m

/-- The distribution of the latent classes as a chain of conditionals from the root to the leaves. -/
theorem latent_chain (h : Model.Valid model) (hc : Model.Consistent model) (s : Serves model srv) (P : Plan model r par ch eid L)
    (z : Nat → Fin M) :
    latentProb model z = (L.map fun v => condProb r par (servePsi r par eid srv.edgeTrans) (vertMean model) v z).prod := by
  have hu : ∀ v m, serveU model [] v m = 1 := fun v m => Finset.prod_eq_one fun c _ => by simp
  have key := prod_condProb P.topo (φ := fun v m => vertMean model v m * serveU model [] v m)
    (ψ := servePsi r par eid srv.edgeTrans) (b := vertMean model) (S := fun _ => 1) (fun v hv m => by
      have : ((ch v).map fun c => mu (servePsi r par eid srv.edgeTrans) (vertMean model) c m).prod = 1 := by
        refine List.prod_eq_one fun x hx => ?_
        obtain ⟨c, hc', rfl⟩ := List.mem_map.1 hx
        exact mu_vertMean_all h hc s P ((P.topo.ch_mem v hv c).1 hc').1 m
      simp only [this, hu, mul_one, one_mul])
    (fun v hv m => by rw [mu_vertMean_all h hc s P hv m]; exact one_ne_zero)
    (by rw [vertMean_sum h P.topo.root_lt]; exact one_ne_zero) z
  rw [serve_treeWeight s P [] z, vertMean_sum h P.topo.root_lt] at key
  have hrow : rowProb model (fun r => ([] : List Int).getD r 0) z = 1 :=
    Finset.prod_eq_one fun v _ => Finset.prod_eq_one fun c _ => by simp
  rw [hrow] at key
  simp only [List.map_const', List.prod_replicate, one_pow, mul_one] at key
  exact key.symm

theorem sumLatent_order (P : Plan model r par ch eid L) (f : (Nat → Fin M) → K) :
    sumLatent model.tree.numVertices f = sumOver L f fun _ => 0 := by
  rw [sumOver_perm P.topo.perm, sumOver_range]
  rfl

/-- Summing out the end of the order. -/
theorem sumOver_tail (h : Model.Valid model) (hc : Model.Consistent model) (s : Serves model srv) (P : Plan model r par ch eid L)
    {A B : List Nat} (hL : L = A ++ B) (f : (Nat → Fin M) → K) (w : Nat → Fin M)
    (hf : ∀ z, (∀ x, x ∉ B → z x = w x) → f z = f w) :
    sumOver B (fun z => f z * (B.map fun v => condProb r par (servePsi r par eid srv.edgeTrans) (vertMean model) v z).prod) w = f w := by
  rw [sumOver_congr (g := fun z => f w * (B.map fun v => condProb r par (servePsi r par eid srv.edgeTrans) (vertMean model) v z).prod)
      fun z hz => by rw [hf z hz], sumOver_mul_left]
  rw [sumOver_condProb P.topo (fun v hv m => by rw [mu_vertMean_all h hc s P hv m]; exact one_ne_zero)
    (by rw [vertMean_sum h P.topo.root_lt]; exact one_ne_zero) B A hL w, mul_one]

/-- Conditioning on the class of `v` when everything else asked for comes before `v`. -/
theorem latent_step (h : Model.Valid model) (hc : Model.Consistent model) (s : Serves model srv) (P : Plan model r par ch eid L)
    {A B : List Nat} {v : Nat} (hL : L = A ++ v :: B) (g : (Nat → Fin M) → K)
    (hg : ∀ z z', (∀ x ∈ A, z x = z' x) → g z = g z') (a : Fin M) :
    sumLatent model.tree.numVertices (fun z => latentProb model z * if z v = a then g z else 0)
      = sumLatent model.tree.numVertices fun z => latentProb model z *
          (condProb r par (servePsi r par eid srv.edgeTrans) (vertMean model) v (Function.update z v a) * g z) := by
  rw [sumLatent_order P, sumLatent_order P]
  simp only [latent_chain h hc s P]
  have hn := P.topo.nodup
  rw [hL, List.nodup_append, List.nodup_cons] at hn
  have hvA : v ∉ A := fun hv => hn.2.2 v hv v (by simp) rfl
  have hAB : ∀ x ∈ A, x ∉ v :: B := fun x hx hxB => hn.2.2 x hx x hxB rfl
  have hparA : ∀ x ∈ A, x ≠ r → par x ∈ A := by
    intro x hx hxr
    obtain ⟨A1, A2, hA⟩ := List.append_of_mem hx
    have := P.topo.before A1 x (A2 ++ v :: B) (by rw [hL, hA]; simp) hxr
    rw [hA]; exact List.mem_append_left _ this
  have hpv : v ≠ r → par v ∈ A := P.topo.before A v B hL
  have hprodA : ∀ z z' : Nat → Fin M, (∀ x ∈ A, z x = z' x) →
      (A.map fun v => condProb r par (servePsi r par eid srv.edgeTrans) (vertMean model) v z).prod
        = (A.map fun v => condProb r par (servePsi r par eid srv.edgeTrans) (vertMean model) v z').prod := by
    intro z z' hz
    congr 1
    exact List.map_congr_left fun x hx => condProb_congr (hz x hx) fun hxr => hz _ (hparA x hx hxr)
  rw [hL, sumOver_append, sumOver_append]
  refine sumOver_congr fun z _ => ?_
  simp only [List.map_append, List.prod_append, List.map_cons, List.prod_cons]
  -- the right side
  have e2 := sumOver_tail h hc s P hL (fun z =>
      (A.map fun v => condProb r par (servePsi r par eid srv.edgeTrans) (vertMean model) v z).prod *
        (condProb r par (servePsi r par eid srv.edgeTrans) (vertMean model) v (Function.update z v a) * g z)) z (by
    intro z' hz'
    have hA' : ∀ x ∈ A, z' x = z x := fun x hx => hz' x (hAB x hx)
    rw [hprodA z' z hA', hg z' z hA']
    congr 2
    refine condProb_congr (by simp) fun hvr => ?_
    have hne : par v ≠ v := fun e => hvA (e ▸ hpv hvr)
    rw [Function.update_of_ne hne, Function.update_of_ne hne, hA' _ (hpv hvr)])
  simp only [List.map_cons, List.prod_cons] at e2
  have e3 : ∀ z : Nat → Fin M,
      (A.map fun v => condProb r par (servePsi r par eid srv.edgeTrans) (vertMean model) v z).prod *
        (condProb r par (servePsi r par eid srv.edgeTrans) (vertMean model) v z *
          (B.map fun v => condProb r par (servePsi r par eid srv.edgeTrans) (vertMean model) v z).prod) *
        (condProb r par (servePsi r par eid srv.edgeTrans) (vertMean model) v (Function.update z v a) * g z)
      = (A.map fun v => condProb r par (servePsi r par eid srv.edgeTrans) (vertMean model) v z).prod *
        (condProb r par (servePsi r par eid srv.edgeTrans) (vertMean model) v (Function.update z v a) * g z) *
        (condProb r par (servePsi r par eid srv.edgeTrans) (vertMean model) v z *
          (B.map fun v => condProb r par (servePsi r par eid srv.edgeTrans) (vertMean model) v z).prod) := fun z => by ring
  rw [show (fun z : Nat → Fin M => _ * (_ * _) * (_ * g z)) = _ from funext e3, e2]
  -- the left side
  simp only [sumOver]
  have e1 : ∀ m, sumOver B (fun z =>
      (A.map fun v => condProb r par (servePsi r par eid srv.edgeTrans) (vertMean model) v z).prod *
        (condProb r par (servePsi r par eid srv.edgeTrans) (vertMean model) v z *
          (B.map fun v => condProb r par (servePsi r par eid srv.edgeTrans) (vertMean model) v z).prod) *
        if z v = a then g z else 0) (Function.update z v m)
      = if m = a then (A.map fun v => condProb r par (servePsi r par eid srv.edgeTrans) (vertMean model) v z).prod *
        (condProb r par (servePsi r par eid srv.edgeTrans) (vertMean model) v (Function.update z v a) * g z) else 0 := by
    intro m
    have key := sumOver_tail h hc s P (A := A ++ [v]) (B := B) (by rw [hL]; simp) (fun z =>
      (A.map fun v => condProb r par (servePsi r par eid srv.edgeTrans) (vertMean model) v z).prod *
        condProb r par (servePsi r par eid srv.edgeTrans) (vertMean model) v z *
        if z v = a then g z else 0) (Function.update z v m) (by
      intro z' hz'
      have hA' : ∀ x ∈ A, z' x = Function.update z v m x := fun x hx => hz' x fun hxB => hAB x hx (by simp [hxB])
      rw [hprodA z' _ hA', hg z' _ hA', hz' v hn.2.1.1]
      congr 2
      exact condProb_congr (hz' v hn.2.1.1) fun hvr => hA' _ (hpv hvr))
    have hA' : ∀ x ∈ A, Function.update z v m x = z x := fun x hx => Function.update_of_ne (by rintro rfl; exact hvA hx) _ _
    rw [Function.update_self, hprodA _ z hA', hg _ z hA'] at key
    rw [sumOver_congr (g := fun z => (A.map fun v => condProb r par (servePsi r par eid srv.edgeTrans) (vertMean model) v z).prod *
        condProb r par (servePsi r par eid srv.edgeTrans) (vertMean model) v z *
        (if z v = a then g z else 0) * (B.map fun v => condProb r par (servePsi r par eid srv.edgeTrans) (vertMean model) v z).prod)
        fun z _ => by ring, key]
    by_cases hma : m = a
    · rw [if_pos hma, if_pos hma, hma]; ring
    · rw [if_neg hma, if_neg hma, mul_zero]
  rw [Finset.sum_congr rfl fun m _ => e1 m, Finset.sum_ite_eq' Finset.univ a, if_pos (Finset.mem_univ _)]

theorem latent_total (h : Model.Valid model) (hc : Model.Consistent model) (s : Serves model srv) (P : Plan model r par ch eid L) (k : K) :
    sumLatent model.tree.numVertices (fun z => latentProb model z * k) = k := by
  rw [sumLatent_order P]
  simp only [latent_chain h hc s P]
  have := sumOver_tail h hc s P (A := []) (B := L) rfl (fun _ => k) (fun _ => 0) (fun _ _ => rfl)
  simp only [mul_comm k] at this
  exact this

theorem pairProb_eq (v w : Nat) (a b : Fin M) : pairProb model v w a b
    = sumLatent model.tree.numVertices fun z => latentProb model z * if z v = a then (if z w = b then 1 else 0) else 0 := by
  unfold pairProb
  congr 1
  funext z
  by_cases h1 : z v = a <;> by_cases h2 : z w = b <;> simp [h1, h2]

/-- The root with itself. -/
theorem pair_root (h : Model.Valid model) (hc : Model.Consistent model) (s : Serves model srv) (P : Plan model r par ch eid L)
    (a c : Fin M) : pairProb model r r a c = if a = c then vertMean model r a else 0 := by
  obtain ⟨T, hT⟩ := P.topo.head
  have e : pairProb model r r a c
      = sumLatent model.tree.numVertices fun z => latentProb model z * if z r = a then (if a = c then (1 : K) else 0) else 0 := by
    rw [pairProb_eq]
    congr 1
    funext z
    by_cases h1 : z r = a
    · rw [if_pos h1, if_pos h1, h1]
    · rw [if_neg h1, if_neg h1]
  rw [e, latent_step h hc s P (A := []) (B := T) hT (fun _ => if a = c then (1 : K) else 0) (fun _ _ _ => rfl) a]
  have e2 : ∀ z : Nat → Fin M, condProb r par (servePsi r par eid srv.edgeTrans) (vertMean model) r (Function.update z r a)
      = vertMean model r a := by
    intro z
    rw [condProb, if_pos rfl, vertMean_sum h P.topo.root_lt, div_one, Function.update_self]
  simp only [e2]
  rw [latent_total h hc s P]
  split <;> simp

/-- One edge further from the root. -/
theorem pair_step (h : Model.Valid model) (hc : Model.Consistent model) (s : Serves model srv) (P : Plan model r par ch eid L)
    {v : Nat} (hv : v < model.tree.numVertices) (hvr : v ≠ r) (a c : Fin M) :
    pairProb model v r a c
      = ∑ b, transAt srv.edgeProbs (eid v) v (par v) a b / srv.vertProbs (par v) b * pairProb model (par v) r b c := by
  obtain ⟨A, B, hL⟩ := List.append_of_mem (P.topo.mem.2 hv)
  have hrA : r ∈ A := by
    obtain ⟨T, hT⟩ := P.topo.head
    cases A with
    | nil => rw [hL] at hT; simp only [List.nil_append, List.cons.injEq] at hT; exact absurd hT.1 hvr
    | cons x A => rw [hL] at hT; simp only [List.cons_append, List.cons.injEq] at hT; rw [hT.1]; simp
  rw [pairProb_eq, latent_step h hc s P hL (fun z => if z r = c then (1 : K) else 0) (fun z z' hz => by rw [hz r hrA]) a]
  simp only [pairProb_eq]
  have hp := P.parent v hv hvr
  -- the conditional
  have hcond : ∀ z : Nat → Fin M, condProb r par (servePsi r par eid srv.edgeTrans) (vertMean model) v (Function.update z v a)
      = transAt srv.edgeProbs (eid v) v (par v) a (z (par v)) / srv.vertProbs (par v) (z (par v)) := by
    intro z
    rw [condProb, if_neg hvr, Function.update_self, Function.update_of_ne hp.2, mu_vertMean_all h hc s P hv, div_one]
    unfold servePsi
    rw [if_neg hvr, s.vert]
    have hm := upEntry_mem P hv hvr
    have ht := s.trans _ hm
    have h1 := (vertMean_pos h hv a).ne'
    have h2 := (vertMean_pos h hp.1 (z (par v))).ne'
    unfold transAt
    unfold upEntry at ht
    by_cases hlt : par v < v
    · rw [if_pos hlt] at ht
      simp only [if_neg (show ¬ v < par v by omega), if_pos hlt] at ht ⊢
      rw [ht, s.edge]
      field_simp
    · rw [if_neg hlt] at ht
      simp only [if_pos (show v < par v by omega), if_neg hlt] at ht ⊢
      rw [ht, s.edge]
      field_simp
  have expand : ∀ z : Nat → Fin M, latentProb model z *
      (condProb r par (servePsi r par eid srv.edgeTrans) (vertMean model) v (Function.update z v a) * if z r = c then 1 else 0)
      = ∑ b, transAt srv.edgeProbs (eid v) v (par v) a b / srv.vertProbs (par v) b *
          (latentProb model z * if z (par v) = b then (if z r = c then 1 else 0) else 0) := by
    intro z
    rw [hcond, Finset.sum_eq_single (z (par v))]
    · rw [if_pos rfl]; ring
    · intro b _ hb
      rw [if_neg (Ne.symm hb)]; ring
    · intro hb; exact absurd (Finset.mem_univ _) hb
  simp only [expand]
  unfold sumLatent
  rw [Finset.sum_comm]
  exact Finset.sum_congr rfl fun b _ => by rw [Finset.mul_sum]

end

end TreeCat
