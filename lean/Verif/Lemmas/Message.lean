import Mathlib.Algebra.Order.Field.Basic
import Mathlib.Algebra.Order.BigOperators.Ring.Finset
import Mathlib.Tactic.Positivity
import Mathlib.Tactic.FieldSimp
import Mathlib.Tactic.Linarith
import Mathlib.Tactic.LinearCombination
import Mathlib.Algebra.BigOperators.Field
import Verif.Lemmas.SumOver

/-!
# Message passing on a rooted tree

Inward messages `b` that satisfy the local equations give the total weight and, by
normalising from the root outwards, the exact joint distribution.
-/

set_option linter.unusedSectionVars false

namespace TreeCat

section
variable {K : Type} [Field K] {M : Nat}
variable {V r : Nat} {par : Nat → Nat} {ch : Nat → List Nat} {L : List Nat}

/-- Message from `c` to its parent when the parent has value `m`. -/
def mu (ψ : Nat → Fin M → Fin M → K) (b : Nat → Fin M → K) (c : Nat) (m : Fin M) : K :=
  ∑ m', ψ c m m' * b c m'

/-- Weight of an assignment: vertex potentials times the potentials of the edges to the
parents. -/
def treeWeight (r : Nat) (par : Nat → Nat) (L : List Nat) (φ : Nat → Fin M → K) (ψ : Nat → Fin M → Fin M → K)
    (z : Nat → Fin M) : K :=
  (L.map fun v => φ v (z v)).prod * ((L.filter (· ≠ r)).map fun v => ψ v (z (par v)) (z v)).prod

/-- Conditional probability of the value of `v` given that of its parent. -/
def condProb (r : Nat) (par : Nat → Nat) (ψ : Nat → Fin M → Fin M → K) (b : Nat → Fin M → K) (v : Nat)
    (z : Nat → Fin M) : K :=
  if v = r then b r (z r) / ∑ m, b r m else ψ v (z (par v)) (z v) * b v (z v) / mu ψ b v (z (par v))

theorem prod_map_mul' {α : Type} (l : List α) (f g : α → K) :
    (l.map fun x => f x * g x).prod = (l.map f).prod * (l.map g).prod := by
  induction l with
  | nil => simp
  | cons a l ih => simp only [List.map_cons, List.prod_cons, ih]; ring

theorem prod_filter_split (r : Nat) (l : List Nat) (hr : r ∈ l) (hn : l.Nodup) (f : Nat → K) :
    (l.map f).prod = f r * ((l.filter (· ≠ r)).map f).prod := by
  induction l with
  | nil => simp at hr
  | cons a l ih =>
    rw [List.nodup_cons] at hn
    by_cases h : a = r
    · subst h
      have : l.filter (· ≠ a) = l := by
        rw [List.filter_eq_self]
        intro x hx
        simp only [ne_eq, decide_eq_true_eq]
        rintro rfl; exact hn.1 hx
      rw [List.filter_cons_of_neg (by simp), this]
      simp
    · rw [List.filter_cons_of_pos (by simpa using h)]
      simp only [List.map_cons, List.prod_cons]
      rw [ih (by
        rcases List.mem_cons.1 hr with h' | h'
        · exact absurd h'.symm h
        · exact h') hn.2]
      ring

theorem prod_flatMap' {α β : Type} (l : List α) (g : α → List β) (f : β → K) :
    ((l.flatMap g).map f).prod = (l.map fun a => ((g a).map f).prod).prod := by
  induction l with
  | nil => rfl
  | cons a l ih => simp [List.flatMap_cons, ih]

/-- The chain of conditionals is the weight divided by a constant. -/
theorem prod_condProb (T : Topo V r par ch L) {φ : Nat → Fin M → K} {ψ : Nat → Fin M → Fin M → K}
    {b : Nat → Fin M → K} {S : Nat → K}
    (hb : ∀ v < V, ∀ m, S v * b v m = φ v m * ((ch v).map fun c => mu ψ b c m).prod)
    (hμ : ∀ v < V, ∀ m, mu ψ b v m ≠ 0) (hr : ∑ m, b r m ≠ 0) (z : Nat → Fin M) :
    (L.map fun v => condProb r par ψ b v z).prod * ((L.map S).prod * ∑ m, b r m) = treeWeight r par L φ ψ z := by
  have hrL : r ∈ L := T.mem.2 T.root_lt
  have e1 : ((L.map S).prod * (L.map fun v => b v (z v)).prod)
      = (L.map fun v => φ v (z v)).prod * ((L.filter (· ≠ r)).map fun c => mu ψ b c (z (par c))).prod := by
    rw [← prod_map_mul']
    have : (L.map fun v => S v * b v (z v)) = L.map fun v => φ v (z v) * ((ch v).map fun c => mu ψ b c (z v)).prod :=
      List.map_congr_left fun v hv => hb v (T.mem.1 hv) _
    rw [this, prod_map_mul']
    congr 1
    rw [← (T.sum_ch.map fun c => mu ψ b c (z (par c))).prod_eq, prod_flatMap']
    congr 1
    refine List.map_congr_left fun v hv => ?_
    congr 1
    refine List.map_congr_left fun c hc => ?_
    rw [((T.ch_mem v (T.mem.1 hv) c).1 hc).2.2]
  have e2 : (L.map fun v => condProb r par ψ b v z).prod
      = b r (z r) / (∑ m, b r m) * ((L.filter (· ≠ r)).map fun v => ψ v (z (par v)) (z v) * b v (z v) / mu ψ b v (z (par v))).prod := by
    rw [prod_filter_split r L hrL T.nodup]
    congr 1
    · simp [condProb]
    · congr 1
      refine List.map_congr_left fun v hv => ?_
      have : v ≠ r := by simpa using (List.mem_filter.1 hv).2
      simp [condProb, this]
  have e3 : ((L.filter (· ≠ r)).map fun v => ψ v (z (par v)) (z v) * b v (z v) / mu ψ b v (z (par v))).prod
      * ((L.filter (· ≠ r)).map fun c => mu ψ b c (z (par c))).prod
      = ((L.filter (· ≠ r)).map fun v => ψ v (z (par v)) (z v)).prod * ((L.filter (· ≠ r)).map fun v => b v (z v)).prod := by
    rw [← prod_map_mul', ← prod_map_mul']
    congr 1
    refine List.map_congr_left fun v hv => ?_
    have := hμ v (T.mem.1 (List.mem_filter.1 hv).1) (z (par v))
    field_simp
  have hμp : ((L.filter (· ≠ r)).map fun c => mu ψ b c (z (par c))).prod ≠ 0 := by
    refine List.prod_ne_zero fun h => ?_
    obtain ⟨c, hc, h0⟩ := List.mem_map.1 h
    exact hμ c (T.mem.1 (List.mem_filter.1 hc).1) _ h0
  have e4 := prod_filter_split r L hrL T.nodup fun v => b v (z v)
  apply mul_right_cancel₀ hμp
  rw [e2, treeWeight]
  rw [e4] at e1
  generalize (L.map S).prod = s at *
  generalize (L.map fun v => φ v (z v)).prod = f at *
  generalize ((L.filter (· ≠ r)).map fun c => mu ψ b c (z (par c))).prod = u at *
  generalize ((L.filter (· ≠ r)).map fun v => ψ v (z (par v)) (z v) * b v (z v) / mu ψ b v (z (par v))).prod = q at *
  generalize ((L.filter (· ≠ r)).map fun v => ψ v (z (par v)) (z v)).prod = g at *
  generalize ((L.filter (· ≠ r)).map fun v => b v (z v)).prod = w at *
  generalize (∑ m, b r m) = σ at *
  have : b r (z r) / σ * q * (s * σ) * u = s * b r (z r) * (q * u) := by field_simp
  rw [this, e3]
  linear_combination g * e1

theorem condProb_congr {ψ : Nat → Fin M → Fin M → K} {b : Nat → Fin M → K} {v : Nat} {z z' : Nat → Fin M}
    (h1 : z v = z' v) (h2 : v ≠ r → z (par v) = z' (par v)) : condProb r par ψ b v z = condProb r par ψ b v z' := by
  unfold condProb
  split
  · rename_i h; subst h; rw [h1]
  · rename_i h; rw [h1, h2 h]

theorem condProb_sum {ψ : Nat → Fin M → Fin M → K} {b : Nat → Fin M → K} {v : Nat} {z : Nat → Fin M}
    (hμ : ∀ m, mu ψ b v m ≠ 0) (hr : ∑ m, b r m ≠ 0) (hpv : v ≠ r → par v ≠ v) :
    ∑ m, condProb r par ψ b v (Function.update z v m) = 1 := by
  unfold condProb
  by_cases h : v = r
  · subst h
    simp only [if_true, Function.update_self]
    rw [← Finset.sum_div, div_self hr]
  · simp only [if_neg h, Function.update_self, Function.update_of_ne (hpv h)]
    rw [← Finset.sum_div]
    exact div_self (hμ _)

/-- A chain of conditionals: the sum over a tail of the order is one. -/
theorem sumOver_condProb (T : Topo V r par ch L) {ψ : Nat → Fin M → Fin M → K} {b : Nat → Fin M → K}
    (hμ : ∀ v < V, ∀ m, mu ψ b v m ≠ 0) (hr : ∑ m, b r m ≠ 0) : ∀ B A, L = A ++ B → ∀ z,
    sumOver B (fun z => (B.map fun v => condProb r par ψ b v z).prod) z = 1 := by
  intro B
  induction B with
  | nil => intro A _ z; simp [sumOver]
  | cons x B ih =>
    intro A hL z
    have hn := T.nodup
    rw [hL, List.nodup_append, List.nodup_cons] at hn
    have hxV : x < V := T.mem.1 (by rw [hL]; simp)
    have hpar : x ≠ r → par x ∉ x :: B := by
      intro hx h
      exact hn.2.2 (par x) (T.before A x B hL hx) _ h rfl
    simp only [sumOver, List.map_cons, List.prod_cons]
    have : ∀ m, sumOver B (fun z => condProb r par ψ b x z * (B.map fun v => condProb r par ψ b v z).prod)
        (Function.update z x m) = condProb r par ψ b x (Function.update z x m) := by
      intro m
      rw [sumOver_congr (g := fun z' => condProb r par ψ b x (Function.update z x m) *
        (B.map fun v => condProb r par ψ b v z').prod), sumOver_mul_left, ih (A ++ [x]) (by rw [hL]; simp), mul_one]
      intro z' hz'
      rw [condProb_congr (r := r) (par := par) (hz' x hn.2.1.1) (fun hx => hz' _ (fun h => hpar hx (by simp [h])))]
    simp only [this]
    exact condProb_sum (hμ x hxV) hr (fun h h' => hpar h (by simp [h']))

/-- The total weight, from the messages. -/
theorem sumOver_treeWeight (T : Topo V r par ch L) {φ : Nat → Fin M → K} {ψ : Nat → Fin M → Fin M → K}
    {b : Nat → Fin M → K} {S : Nat → K}
    (hb : ∀ v < V, ∀ m, S v * b v m = φ v m * ((ch v).map fun c => mu ψ b c m).prod)
    (hμ : ∀ v < V, ∀ m, mu ψ b v m ≠ 0) (hr : ∑ m, b r m ≠ 0) (z0 : Nat → Fin M) :
    ∑ z : Fin V → Fin M, treeWeight r par L φ ψ (overlay z0 z) = (L.map S).prod * ∑ m, b r m := by
  rw [← sumOver_range, ← sumOver_perm T.perm]
  rw [sumOver_congr (g := fun z => (L.map fun v => condProb r par ψ b v z).prod * ((L.map S).prod * ∑ m, b r m))
    (fun z _ => (prod_condProb T hb hμ hr z).symm), sumOver_mul_right, sumOver_condProb T hμ hr L [] rfl, one_mul]

end

/-! ### The inward phase -/

section
variable {K : Type} [Field K] [LinearOrder K] [IsStrictOrderedRing K] {M : Nat}
variable {V r : Nat} {par : Nat → Nat} {ch : Nat → List Nat} {L : List Nat} {eid : Nat → Nat}

/-- An interpreter of inward instructions on states `σ` whose messages are `msg`. `fresh`
says that the data an UP instruction consumes are still as they were, `R` relates a state to the
product of the scale factors so far. -/
structure Inward (σ : Type) (V : Nat) (par : Nat → Nat) (ch : Nat → List Nat) (eid : Nat → Nat)
    (step : σ → Instr → σ) (msg : σ → Nat → Fin M → K) (fresh : σ → Nat → Prop) (R : σ → K → Prop)
    (u : Nat → Fin M → K) (ψ : Nat → Fin M → Fin M → K) : Prop where
  up : ∀ s v, v < V → fresh s v →
    msg (step s ⟨.UP, v, 0, 0⟩) = Function.update (msg s) v (fun m => msg s v m * u v m) ∧
    (∀ w < V, w ≠ v → fresh s w → fresh (step s ⟨.UP, v, 0, 0⟩) w) ∧
    ∀ x, R s x → R (step s ⟨.UP, v, 0, 0⟩) x
  inn : ∀ s v c, v < V → c ∈ ch v → (∀ w < V, ∀ m, 0 < msg s w m) → ∃ k, 0 < k ∧
    msg (step s ⟨.IN, v, c, eid c⟩)
      = Function.update (msg s) v (fun m => msg s v m * mu ψ (msg s) c m / k) ∧
    (∀ w < V, fresh s w → fresh (step s ⟨.IN, v, c, eid c⟩) w) ∧
    ∀ x, R s x → R (step s ⟨.IN, v, c, eid c⟩) (x * k)
  u_pos : ∀ v < V, ∀ m, 0 < u v m
  ψ_pos : ∀ v < V, ∀ m m', 0 < ψ v m m'

variable {σ : Type} {step : σ → Instr → σ} {msg : σ → Nat → Fin M → K} {fresh : σ → Nat → Prop}
  {R : σ → K → Prop} {u : Nat → Fin M → K} {ψ : Nat → Fin M → Fin M → K}

theorem mu_pos [NeZero M] {b : Nat → Fin M → K} {c : Nat} (hψ : ∀ m m', 0 < ψ c m m') (hb : ∀ m, 0 < b c m)
    (m : Fin M) : 0 < mu ψ b c m :=
  Finset.sum_pos (fun m' _ => mul_pos (hψ m m') (hb m')) ⟨0, Finset.mem_univ _⟩

/-- The IN instructions of one vertex. -/
theorem Inward.ins [NeZero M] (I : Inward σ V par ch eid step msg fresh R u ψ) {v : Nat} (hv : v < V)
    (hch : ∀ c ∈ ch v, c < V ∧ c ≠ v) : ∀ cs : List Nat, (∀ c ∈ cs, c ∈ ch v) → ∀ s,
    (∀ w < V, ∀ m, 0 < msg s w m) → ∃ k, 0 < k ∧ ∃ s', s' = (cs.map fun c => (⟨.IN, v, c, eid c⟩ : Instr)).foldl step s ∧
      (∀ m, k * msg s' v m = msg s v m * (cs.map fun c => mu ψ (msg s') c m).prod) ∧
      (∀ w, w ≠ v → msg s' w = msg s w) ∧ (∀ w < V, ∀ m, 0 < msg s' w m) ∧
      (∀ w < V, fresh s w → fresh s' w) ∧ ∀ x, R s x → R s' (x * k) := by
  intro cs
  induction cs with
  | nil => intro _ s hs; exact ⟨1, one_pos, s, rfl, by simp, fun _ _ => rfl, hs, fun _ _ h => h, by simp⟩
  | cons c cs ih =>
    intro hcs s hs
    obtain ⟨k, hk, h1, h2, h3⟩ := I.inn s v c hv (hcs c (by simp)) hs
    obtain ⟨hcV, hcv⟩ := hch c (hcs c (by simp))
    set s1 := step s ⟨.IN, v, c, eid c⟩ with hs1
    have hpos1 : ∀ w < V, ∀ m, 0 < msg s1 w m := by
      intro w hw m
      rw [h1]
      by_cases hwv : w = v
      · subst hwv
        rw [Function.update_self]
        exact div_pos (mul_pos (hs _ hw m) (mu_pos (I.ψ_pos c hcV) (hs c hcV) m)) hk
      · rw [Function.update_of_ne hwv]; exact hs w hw m
    obtain ⟨k', hk', s', e0, e1, e2, e3, e4, e5⟩ := ih (fun c hc => hcs c (by simp [hc])) s1 hpos1
    have hmu : ∀ c' ∈ ch v, ∀ m, mu ψ (msg s') c' m = mu ψ (msg s) c' m := by
      intro c' hc' m
      have : msg s' c' = msg s c' := by
        rw [e2 c' (hch c' hc').2, h1, Function.update_of_ne (hch c' hc').2]
      unfold mu; rw [this]
    refine ⟨k * k', mul_pos hk hk', s', e0, ?_, ?_, e3, fun w hw h => e4 w hw (h2 w hw h), fun x hx => ?_⟩
    · intro m
      have e1' := e1 m
      rw [h1, Function.update_self] at e1'
      rw [List.map_cons, List.prod_cons, hmu c (hcs c (by simp)) m, mul_assoc, e1']
      field_simp
    · intro w hw
      rw [e2 w hw, h1, Function.update_of_ne hw]
    · rw [← mul_assoc]; exact e5 _ (h3 x hx)

/-- The whole inward phase: the final messages satisfy the local equations. -/
theorem Inward.spec [NeZero M] (I : Inward σ V par ch eid step msg fresh R u ψ) (T : Topo V r par ch L)
    (s0 : σ) (hpos : ∀ v < V, ∀ m, 0 < msg s0 v m) (hfresh : ∀ v < V, fresh s0 v) (x0 : K) (hR : R s0 x0) :
    ∃ S : Nat → K, ∃ sf, sf = (L.reverse.flatMap (inBlock ch eid)).foldl step s0 ∧ (∀ v < V, 0 < S v) ∧
      (∀ v < V, ∀ m, S v * msg sf v m = msg s0 v m * u v m * ((ch v).map fun c => mu ψ (msg sf) c m).prod) ∧
      (∀ v < V, ∀ m, 0 < msg sf v m) ∧ R sf (x0 * (L.map S).prod) := by
  have key : ∀ B A, L = A ++ B → ∃ S : Nat → K, ∃ sf, sf = (B.reverse.flatMap (inBlock ch eid)).foldl step s0 ∧
      (∀ v < V, 0 < S v) ∧
      (∀ v ∈ B, ∀ m, S v * msg sf v m = msg s0 v m * u v m * ((ch v).map fun c => mu ψ (msg sf) c m).prod) ∧
      (∀ v ∈ A, msg sf v = msg s0 v ∧ fresh sf v) ∧
      (∀ v < V, ∀ m, 0 < msg sf v m) ∧ R sf (x0 * (B.map S).prod) := by
    intro B
    induction B with
    | nil =>
      intro A hL
      exact ⟨fun _ => 1, s0, rfl, fun _ _ => one_pos, by simp,
        fun v hv => ⟨rfl, hfresh v (T.mem.1 (by rw [hL]; simp [hv]))⟩, hpos, by simpa using hR⟩
    | cons x B ih =>
      intro A hL
      obtain ⟨S, s1, h0, h1, h2, h3, h4, h5⟩ := ih (A ++ [x]) (by rw [hL]; simp)
      have hn := T.nodup
      rw [hL, List.nodup_append, List.nodup_cons] at hn
      have hxV : x < V := T.mem.1 (by rw [hL]; simp)
      have hchx : ∀ c ∈ ch x, c < V ∧ c ≠ x := by
        intro c hc
        obtain ⟨a, b, c'⟩ := (T.ch_mem x hxV c).1 hc
        refine ⟨a, ?_⟩
        rintro rfl
        have := T.before A c B hL b
        rw [c'] at this
        exact hn.2.2 c this c (by simp) rfl
      obtain ⟨u1, u2, u3⟩ := I.up s1 x hxV (h3 x (by simp)).2
      set s2 := step s1 ⟨.UP, x, 0, 0⟩ with hs2
      have hpos2 : ∀ w < V, ∀ m, 0 < msg s2 w m := by
        intro w hw m
        rw [u1]
        by_cases hwx : w = x
        · subst hwx; rw [Function.update_self]; exact mul_pos (h4 w hw m) (I.u_pos w hw m)
        · rw [Function.update_of_ne hwx]; exact h4 w hw m
      obtain ⟨k, hk, s3, e0, e1, e2, e3, e4, e5⟩ := I.ins hxV hchx (ch x) (fun _ h => h) s2 hpos2
      have hne : ∀ v, v ≠ x → msg s3 v = msg s1 v := by
        intro v hv; rw [e2 v hv, u1, Function.update_of_ne hv]
      refine ⟨Function.update S x k, s3, ?_, ?_, ?_, ?_, e3, ?_⟩
      · rw [List.reverse_cons, List.flatMap_append, List.foldl_append, ← h0]
        simp only [List.flatMap_cons, List.flatMap_nil, List.append_nil, inBlock, List.foldl_cons]
        exact e0
      · intro v hv
        by_cases hvx : v = x
        · subst hvx; rw [Function.update_self]; exact hk
        · rw [Function.update_of_ne hvx]; exact h1 v hv
      · intro v hv m
        by_cases hvx : v = x
        · subst hvx
          rw [Function.update_self, e1, u1, Function.update_self, (h3 v (by simp)).1]
        · have hvB : v ∈ B := by
            rcases List.mem_cons.1 hv with h | h
            · exact absurd h hvx
            · exact h
          rw [Function.update_of_ne hvx, hne v hvx, h2 v hvB m]
          congr 2
          refine List.map_congr_left fun c hc => ?_
          have hvV : v < V := T.mem.1 (by rw [hL]; simp [hvB])
          obtain ⟨a, b, c'⟩ := (T.ch_mem v hvV c).1 hc
          have hcx : c ≠ x := by
            rintro rfl
            have := T.before A c B hL b
            rw [c'] at this
            exact hn.2.2 v this v (by simp [hvB]) rfl
          unfold mu; rw [hne c hcx]
      · intro v hv
        have hvx : v ≠ x := fun h => hn.2.2 v hv x (by simp) h
        have hvV : v < V := T.mem.1 (by rw [hL]; simp [hv])
        obtain ⟨a, b⟩ := h3 v (by simp [hv])
        exact ⟨by rw [hne v hvx, a], e4 v hvV (u2 v hvV hvx b)⟩
      · rw [List.map_cons, List.prod_cons, Function.update_self]
        have : (B.map (Function.update S x k)) = B.map S :=
          List.map_congr_left fun v hv => Function.update_of_ne (by rintro rfl; exact hn.2.1.1 hv) _ _
        rw [this, show x0 * (k * (B.map S).prod) = x0 * (B.map S).prod * k by ring]
        exact e5 _ (u3 _ h5)
  obtain ⟨S, sf, h0, h1, h2, -, h4, h5⟩ := key L [] rfl
  exact ⟨S, sf, h0, h1, fun v hv => h2 v (T.mem.2 hv), h4, h5⟩

end

end TreeCat
