import Verif.Lemmas.FloatMono
import Verif.Lemmas.Seed
import Verif.Model.ServeSeed
import Verif.Props.EnsembleSample
import Verif.Props.FloatSample
import Verif.Props.Seed

/-!
# C90: sampling by servers with the generators
-/

set_option linter.unusedSectionVars false

namespace TreeCat

open Util Spec

/-! ### How samples are divided among the members -/

section
variable {rs rd : ℚ → ℚ}

/-- The probability of one member, in single precision. -/
theorem memberProb_near (R : IsRounding 24 (-149) rs) {size : Nat} (h1 : 1 ≤ size) (h2 : size ≤ 2 ^ 24) :
    |rs (1 / rs size) - 1 / size| ≤ 1 / size / 2 ^ 24 + 2 ^ (-150 : Int) := by
  have e : rs (size : ℚ) = size := R.id (by
    have := isFloat_of_le (p := 24) (emin := -149) (by norm_num) (e := 0) (by norm_num) (m := (size : Int)) (by
      rw [abs_of_nonneg (by positivity)]; exact_mod_cast h2)
    simpa using this)
  rw [e]
  have hs : (0 : ℚ) < size := by exact_mod_cast h1
  have := R.error (by norm_num) (1 / (size : ℚ))
  rw [abs_of_pos (one_div_pos.2 hs)] at this
  simpa using this

/-- It is a multiple of 2^-47. -/
theorem memberProb_grid (R : IsRounding 24 (-149) rs) {size : Nat} (h1 : 1 ≤ size) (h2 : size ≤ 2 ^ 24) :
    ∃ k : Nat, rs (1 / rs size) = k / 2 ^ 47 := by
  have e : rs (size : ℚ) = size := R.id (by
    have := isFloat_of_le (p := 24) (emin := -149) (by norm_num) (e := 0) (by norm_num) (m := (size : Int)) (by
      rw [abs_of_nonneg (by positivity)]; exact_mod_cast h2)
    simpa using this)
  rw [e]
  have hs : (0 : ℚ) < size := by exact_mod_cast h1
  have hlow : (2 : ℚ) ^ (-24 : Int) ≤ rs (1 / size) := by
    refine R.monoRounding.ge_of ⟨1, -24, by norm_num, by norm_num, by simp⟩ ?_
    rw [le_div_iff₀ hs]
    have : (size : ℚ) ≤ 2 ^ 24 := by exact_mod_cast h2
    calc (2 : ℚ) ^ (-24 : Int) * size ≤ 2 ^ (-24 : Int) * 2 ^ 24 := by gcongr
      _ = 1 := by norm_num
  obtain ⟨m, x, hm, -, hx⟩ := R.float (1 / size)
  rw [hx] at hlow ⊢
  have hpos : (0 : ℚ) < 2 ^ x := by positivity
  have hm0 : 0 < m := by
    by_contra hc
    have : (m : ℚ) ≤ 0 := by exact_mod_cast not_lt.1 hc
    have h3 : (0 : ℚ) < 2 ^ (-24 : Int) := by positivity
    nlinarith
  have hm' : (m : ℚ) < 2 ^ 24 := by
    have := (abs_lt.1 hm).2
    exact_mod_cast this
  have hx' : -47 ≤ x := by
    by_contra hc
    have h4 : (2 : ℚ) ^ x ≤ 2 ^ (-48 : Int) := zpow_le_zpow_right₀ (by norm_num) (by omega)
    have : (m : ℚ) * 2 ^ x < 2 ^ 24 * 2 ^ (-48 : Int) := by
      calc (m : ℚ) * 2 ^ x < 2 ^ 24 * 2 ^ x := by gcongr
        _ ≤ 2 ^ 24 * 2 ^ (-48 : Int) := by gcongr
    have h5 : (2 : ℚ) ^ 24 * 2 ^ (-48 : Int) = 2 ^ (-24 : Int) := by norm_num
    rw [h5] at this
    exact absurd hlow (not_le.2 this)
  obtain ⟨j, hj⟩ := Int.eq_ofNat_of_zero_le (show 0 ≤ x + 47 by omega)
  obtain ⟨a, ha⟩ := Int.eq_ofNat_of_zero_le hm0.le
  refine ⟨a * 2 ^ j, ?_⟩
  have : x = (j : Int) - 47 := by omega
  rw [this, zpow_sub₀ (by norm_num), ha]
  push_cast
  rw [zpow_natCast]
  norm_num
  ring

theorem isFloat64_grid {k : Nat} (h : k ≤ 2 ^ 53) : IsFloat 53 (-1074) ((k : ℚ) / 2 ^ 47) := by
  have := isFloat_of_le (p := 53) (emin := -1074) (by norm_num) (e := -47) (by norm_num) (m := (k : Int)) (by
    rw [abs_of_nonneg (by positivity)]; exact_mod_cast h)
  have e : (2 : ℚ) ^ (-47 : Int) = 1 / 2 ^ 47 := by norm_num
  rw [e] at this
  rw [div_eq_mul_one_div]
  exact_mod_cast this

/-- The sum of equal numbers on the grid is exact: no correction arises. -/
theorem kahanSum_replicate (D : IsRounding 53 (-1074) rd) {k : Nat} (n : Nat) (h : (n + 1) * k ≤ 2 ^ 53) :
    kahanSum rd (List.replicate (n + 1) ((k : ℚ) / 2 ^ 47)) = ((n + 1) * k : Nat) / 2 ^ 47 := by
  have key : ∀ n j : Nat, (j + n) * k ≤ 2 ^ 53 → (List.replicate n ((k : ℚ) / 2 ^ 47)).foldl (kahanStep rd) (((j * k : Nat) : ℚ) / 2 ^ 47, 0) =
      ((((j + n) * k : Nat) : ℚ) / 2 ^ 47, 0) := by
    intro n
    induction n with
    | zero => intro j _; simp
    | succ n ih =>
      intro j hj
      rw [List.replicate_succ, List.foldl_cons]
      have hk : k ≤ 2 ^ 53 := le_trans (by nlinarith) hj
      have hjk : (j + 1) * k ≤ 2 ^ 53 := le_trans (Nat.mul_le_mul_right k (by omega)) hj
      have e : kahanStep rd (((j * k : Nat) : ℚ) / 2 ^ 47, 0) ((k : ℚ) / 2 ^ 47) = ((((j + 1) * k : Nat) : ℚ) / 2 ^ 47, 0) := by
        have y : rd ((k : ℚ) / 2 ^ 47) = (k : ℚ) / 2 ^ 47 := D.id (isFloat64_grid hk)
        have t : rd (((j * k : Nat) : ℚ) / 2 ^ 47 + (k : ℚ) / 2 ^ 47) = (((j + 1) * k : Nat) : ℚ) / 2 ^ 47 := by
          have : ((j * k : Nat) : ℚ) / 2 ^ 47 + (k : ℚ) / 2 ^ 47 = (((j + 1) * k : Nat) : ℚ) / 2 ^ 47 := by push_cast; ring
          rw [this]
          exact D.id (isFloat64_grid hjk)
        have d : (((j + 1) * k : Nat) : ℚ) / 2 ^ 47 - ((j * k : Nat) : ℚ) / 2 ^ 47 = (k : ℚ) / 2 ^ 47 := by push_cast; ring
        simp only [kahanStep, sub_zero, y, t, d, sub_self, D.id (isFloat_zero 53 (-1074))]
      rw [e, ih (j + 1) (by rw [Nat.add_right_comm, Nat.add_assoc j n 1]; exact hj)]
      congr 3
      ring
  have := key n 1 (by rw [Nat.add_comm 1 n]; exact h)
  rw [Nat.one_mul] at this
  rw [List.replicate_succ]
  simp only [kahanSum]
  rw [this, Nat.add_comm 1 n]

/-- Of the members but the last: their probabilities add up to less than one. -/
theorem memberProbs_rest (R : IsRounding 24 (-149) rs) {size : Nat} (h1 : 1 ≤ size) (h2 : size ≤ 2 ^ 24) :
    ((size - 1 : Nat) : ℚ) * rs (1 / rs size) < 1 := by
  have hn := (abs_le.1 (memberProb_near R h1 h2)).2
  have hs : (1 : ℚ) ≤ size := by exact_mod_cast h1
  have hs2 : (size : ℚ) ≤ 2 ^ 24 := by exact_mod_cast h2
  rw [Nat.cast_sub h1, Nat.cast_one]
  generalize rs (1 / rs size) = p at hn
  generalize (size : ℚ) = s at *
  have hinv : s * (1 / s) = 1 := by field_simp
  have hp : p ≤ 1 / s * (1 + 1 / 2 ^ 24) + 2 ^ (-150 : Int) := by
    have : 1 / s * (1 + 1 / 2 ^ 24) = 1 / s + 1 / s / 2 ^ 24 := by ring
    linarith
  have h150 : (2 : ℚ) ^ (-150 : Int) ≤ 1 / 2 ^ 100 := by norm_num
  have hi : 1 / 2 ^ 24 ≤ 1 / s := one_div_le_one_div_of_le (by linarith) hs2
  have hi1 : 1 / s ≤ 1 := by rw [div_le_one (by linarith)]; exact hs
  calc (s - 1) * p ≤ (s - 1) * (1 / s * (1 + 1 / 2 ^ 24) + 1 / 2 ^ 100) := mul_le_mul_of_nonneg_left (by linarith) (by linarith)
    _ = (1 - 1 / s) * (1 + 1 / 2 ^ 24) + (s - 1) / 2 ^ 100 := by
        have : (s - 1) * (1 / s * (1 + 1 / 2 ^ 24) + 1 / 2 ^ 100) = (s * (1 / s) - 1 / s) * (1 + 1 / 2 ^ 24) + (s - 1) / 2 ^ 100 := by ring
        rw [this, hinv]
    _ ≤ (1 - 1 / s) * (1 + 1 / 2 ^ 24) + 2 ^ 24 / 2 ^ 100 := by gcongr; linarith
    _ < 1 := by nlinarith

/-- numpy accepts the probabilities of up to 2^24 members. -/
theorem multinomialOk_memberProbs (R : IsRounding 24 (-149) rs) (D : IsRounding 53 (-1074) rd) {size : Nat} (h1 : 1 ≤ size) (h2 : size ≤ 2 ^ 24) :
    multinomialOk rd (memberProbs rs size) = true := by
  have hlim : 1 ≤ rd (1 + rd (1 / 10 ^ 12)) := by
    refine D.monoRounding.ge_of ⟨1, 0, by norm_num, by norm_num, by simp⟩ ?_
    have := D.monoRounding.nonneg (x := 1 / 10 ^ 12) (by norm_num)
    linarith
  unfold multinomialOk memberProbs
  rw [decide_eq_true_iff]
  refine le_trans ?_ hlim
  have hrest := memberProbs_rest R h1 h2
  obtain ⟨k, hk⟩ := memberProb_grid R h1 h2
  rw [hk] at hrest ⊢
  rw [List.dropLast_replicate]
  obtain ⟨n, rfl⟩ : ∃ n, size = n + 1 := ⟨size - 1, by omega⟩
  rw [Nat.add_sub_cancel] at hrest ⊢
  cases n with
  | zero => simp [kahanSum]
  | succ n =>
    have e : (((n + 1 : Nat) : ℚ) * (k / 2 ^ 47)) = (((n + 1) * k : Nat) : ℚ) / 2 ^ 47 := by push_cast; ring
    rw [e] at hrest
    have hlt : (((n + 1) * k : Nat) : ℚ) < 2 ^ 47 := by rwa [div_lt_one (by norm_num)] at hrest
    have hlt' : (n + 1) * k < 2 ^ 47 := by exact_mod_cast hlt
    rw [kahanSum_replicate D n (by omega)]
    exact hrest.le

/-- The probabilities by which numpy divides samples: those given, but the last is what remains. -/
def Spec.Divides (pvals : List ℚ) (i : Nat) : ℚ := if i + 1 = pvals.length then 1 - pvals.dropLast.sum else pvals.getD i 0

/-- They add up to one, each is positive, and differs by at most 2^-23 from an equal share. -/
theorem memberProbs_share (R : IsRounding 24 (-149) rs) {size : Nat} (h1 : 1 ≤ size) (h2 : size ≤ 2 ^ 24) :
    (∀ i < size, 0 < Divides (memberProbs rs size) i ∧ |Divides (memberProbs rs size) i - 1 / size| ≤ 1 / 2 ^ 23) ∧
      ((List.range size).map (Divides (memberProbs rs size))).sum = 1 := by
  have hlen : (memberProbs rs size).length = size := by simp [memberProbs]
  have hsum : (memberProbs rs size).dropLast.sum = ((size - 1 : Nat) : ℚ) * rs (1 / rs size) := by
    simp [memberProbs, List.dropLast_replicate, List.sum_replicate]
  have hrest := memberProbs_rest R h1 h2
  have hnear := memberProb_near R h1 h2
  have hs : (1 : ℚ) ≤ size := by exact_mod_cast h1
  have hs2 : (size : ℚ) ≤ 2 ^ 24 := by exact_mod_cast h2
  have hget : ∀ i < size, (memberProbs rs size).getD i 0 = rs (1 / rs size) := by
    intro i hi
    rw [List.getD_eq_getElem _ _ (by rw [hlen]; exact hi)]
    simp [memberProbs]
  have h150 : (2 : ℚ) ^ (-150 : Int) ≤ 1 / 2 ^ 100 := by norm_num
  have hi : 1 / 2 ^ 24 ≤ 1 / (size : ℚ) := one_div_le_one_div_of_le (by linarith) hs2
  have hi1 : 1 / (size : ℚ) ≤ 1 := by rw [div_le_one (by linarith)]; exact hs
  constructor
  · intro i hi'
    unfold Divides
    rw [hlen, hsum]
    split
    · refine ⟨by linarith, ?_⟩
      rw [Nat.cast_sub h1, Nat.cast_one]
      have e : 1 - ((size : ℚ) - 1) * rs (1 / rs size) - 1 / size = - (((size : ℚ) - 1) * (rs (1 / rs size) - 1 / size)) := by
        field_simp; ring
      rw [e, abs_neg, abs_mul, abs_of_nonneg (by linarith)]
      calc ((size : ℚ) - 1) * |rs (1 / rs size) - 1 / size| ≤ (size : ℚ) * (1 / size / 2 ^ 24 + 1 / 2 ^ 100) := by
            gcongr
            · linarith
            · linarith
        _ = 1 / 2 ^ 24 + size / 2 ^ 100 := by field_simp
        _ ≤ 1 / 2 ^ 24 + 2 ^ 24 / 2 ^ 100 := by gcongr
        _ ≤ 1 / 2 ^ 23 := by norm_num
    · rw [hget i hi']
      have hb := abs_le.1 hnear
      constructor
      · have : 1 / (size : ℚ) / 2 ^ 24 ≤ 1 / size / 2 := by
          apply div_le_div_of_nonneg_left <;> first | positivity | norm_num
        have h3 : (1 : ℚ) / 2 ^ 100 < 1 / 2 ^ 24 / 2 := by norm_num
        linarith [hb.1]
      · calc _ ≤ 1 / (size : ℚ) / 2 ^ 24 + 2 ^ (-150 : Int) := hnear
          _ ≤ 1 / 2 ^ 24 + 1 / 2 ^ 100 := by gcongr
          _ ≤ 1 / 2 ^ 23 := by norm_num
  · obtain ⟨n, rfl⟩ : ∃ n, size = n + 1 := ⟨size - 1, by omega⟩
    rw [List.range_succ, List.map_append, List.sum_append]
    have e : (List.range n).map (Divides (memberProbs rs (n + 1))) = List.replicate n (rs (1 / rs ((n + 1 : Nat) : ℚ))) := by
      rw [List.eq_replicate_iff]
      refine ⟨by simp, ?_⟩
      intro x hx
      obtain ⟨i, hi', rfl⟩ := List.mem_map.1 hx
      rw [List.mem_range] at hi'
      unfold Divides
      rw [hlen, if_neg (by omega), hget i (by omega)]
    rw [e, List.sum_replicate]
    have h3 : Divides (memberProbs rs (n + 1)) n = 1 - (n : ℚ) * rs (1 / rs ((n + 1 : Nat) : ℚ)) := by
      unfold Divides
      rw [hlen, if_pos rfl, hsum, Nat.add_sub_cancel]
    simp [h3]

end

/-! ### Programs run with the generators -/

section
variable {S K : Type} {host : Host S K} {α β : Type} [Field K] [LinearOrder K]

/-- The contract of `np.random.multinomial`: as many numbers as probabilities, adding up to the number of trials. -/
def Spec.Splits (draw : Nat → List ℚ → S → List Nat × S) : Prop := ∀ n pvals s, pvals ≠ [] →
  (draw n pvals s).1.length = pvals.length ∧ (draw n pvals s).1.sum = n

theorem GenSim.mapM {f : α → RunOn host β} {f' : α → Poss β} (l : List α) (h : ∀ a ∈ l, GenSim (f a) (f' a)) : GenSim (l.mapM f) (l.mapM f') := by
  induction l with
  | nil => exact GenSim.pure []
  | cons a l ih =>
    rw [List.mapM_cons, List.mapM_cons]
    exact GenSim.bind (h a (by simp)) fun b => GenSim.bind (ih fun a ha => h a (by simp [ha])) fun bs => GenSim.pure _

theorem GenSim.choose2 {n : Nat} (hn : 0 < n) (N : Nat) (p : Nat → Fin n → K) :
    GenSim (host := host) (TreeCat.choose2 N p) (TreeCat.choose2 N p) :=
  GenSim.mapM _ fun i _ => GenSim.choose hn (p i)

theorem GenSim.shuffled (hp : Permutes host) (l : List α) : GenSim (host := host) (TreeCat.shuffled l) (TreeCat.shuffled l) :=
  GenSim.bind (GenSim.permutation hp _) fun _ => GenSim.pure _

variable {M : Nat}

theorem GenSimE.drawFeatures (srv : Server K M) (N v : Nat) (vs : Nat → Fin M) (k : Nat) (f : Nat → Nat → Int) :
    GenSimE (host := host) (TreeCat.drawFeatures srv N v vs k f) (TreeCat.drawFeatures srv N v vs k f) := by
  induction k generalizing f with
  | zero => exact GenSimE.pure f
  | succ k ih =>
    unfold TreeCat.drawFeatures
    refine GenSimE.bind ?_ fun f => ih f
    unfold drawFeature
    split
    · exact GenSimE.throw _
    · exact GenSimE.bind (GenSimE.lift (GenSim.choose2 (by omega) N _)) fun _ => GenSimE.pure _

theorem GenSimE.sampleStep [NeZero M] (srv : Server K M) (N : Nat) (counts data : List Int) (s : SampleState K M) (i : Instr) :
    GenSimE (host := host) (TreeCat.sampleStep srv N counts data s i) (TreeCat.sampleStep srv N counts data s i) := by
  unfold TreeCat.sampleStep
  cases i.op with
  | UP => exact GenSimE.pure _
  | IN => exact GenSimE.pure _
  | ROOT => exact GenSimE.pure _
  | OUT => exact GenSimE.pure _
  | DOWN =>
    exact GenSimE.bind (GenSimE.lift (GenSim.choose2 (Nat.pos_of_neZero M) N _)) fun _ =>
      GenSimE.bind (GenSimE.drawFeatures _ _ _ _ _ _) fun _ => GenSimE.pure _

theorem GenSimE.serverSample [NeZero M] (srv : Server K M) (N : Nat) (counts : List Int) (data : Option (List Int)) :
    GenSimE (host := host) (srv.sample N counts data) (srv.sample N counts data) := by
  unfold Server.sample
  refine GenSimE.bind (GenSimE.liftPy _) fun _ => GenSimE.bind (GenSimE.liftPy _) fun _ => GenSimE.bind ?_ fun _ => GenSimE.pure _
  exact GenSimE.foldlM _ (fun s i _ => GenSimE.sampleStep srv N counts _ s i) _

theorem GenSimE.serverTrees (hp : Permutes host) (num : ServeNum K) (junk : Nat → Nat) (srv : Server K M) (n : Nat) :
    GenSimE (host := host) (srv.sampleTrees num junk n) (srv.sampleTrees num junk n) := by
  unfold Server.sampleTrees
  refine GenSimE.bind (GenSimE.liftPy _) fun grid => GenSimE.bind (GenSimE.foldlM _ (fun s _ _ => ?_) _) fun _ => GenSimE.pure _
  exact GenSimE.bind (GenSimE.lift (GenSim.permutation hp _)) fun perm =>
    GenSimE.bind (GenSimE.sampleTree _ _ _ _ _ _) fun _ => GenSimE.pure _

/-- A program of which every outcome is a success with property `Q`, run with generators. -/
theorem served_sure {x : ExceptT PyErr (RunOn host) α} {y : ExceptT PyErr Poss α} (h : GenSimE x y) {Q : α → Prop} (hs : Sure y Q) (g : Gens S) :
    ∃ a g', (served x).from g = (.ok a, g') ∧ Q a := by
  obtain ⟨r, g', e, hr⟩ := h g
  obtain ⟨a, rfl, ha⟩ := hs.2 r hr
  refine ⟨a, g', ?_, ha⟩
  unfold served
  rw [RunOn.from_bind_ok e]
  rfl

theorem RunOn.mapM_sure {f : α → RunOn host β} {Q : α → β → Prop} (l : List α) (h : ∀ a ∈ l, ∀ g, ∃ b g', (f a).from g = (.ok b, g') ∧ Q a b) (g : Gens S) :
    ∃ bs g', (l.mapM f).from g = (.ok bs, g') ∧ List.Forall₂ Q l bs := by
  induction l generalizing g with
  | nil => exact ⟨[], g, rfl, .nil⟩
  | cons a l ih =>
    obtain ⟨b, g1, e1, hb⟩ := h a (by simp) g
    obtain ⟨bs, g2, e2, hbs⟩ := ih (fun a ha => h a (by simp [ha])) g1
    refine ⟨b :: bs, g2, ?_, .cons hb hbs⟩
    rw [List.mapM_cons, RunOn.from_bind_ok e1, RunOn.from_bind_ok e2]
    rfl

theorem shuffled_run (hp : Permutes host) (l : List α) (g : Gens S) : ∃ l' g', (shuffled l : RunOn host _).from g = (.ok l', g') ∧ l'.Perm l := by
  obtain ⟨l', g', e, h⟩ := GenSim.shuffled hp l g
  refine ⟨l', g', e, ?_⟩
  obtain ⟨perm, hperm, rfl⟩ := h
  have := (show List.Perm perm (List.range l.length) from hperm).filterMap fun i => l[i]?
  rwa [filterMap_range] at this

theorem multinomialOn_run {rs rd : ℚ → ℚ} (R : IsRounding 24 (-149) rs) (D : IsRounding 53 (-1074) rd) {draw : Nat → List ℚ → S → List Nat × S}
    (hd : Splits draw) {size : Nat} (h1 : 1 ≤ size) (h2 : size ≤ 2 ^ 24) (n : Nat) (g : Gens S) :
    ∃ subs g', (multinomialOn rd draw n (memberProbs rs size) : RunOn host _).from g = (.ok subs, g') ∧ subs.length = size ∧ subs.sum = n := by
  have hne : memberProbs rs size ≠ [] := by
    intro h
    have := congrArg List.length h
    simp [memberProbs] at this
    omega
  obtain ⟨a, b⟩ := hd n (memberProbs rs size) g.numpy hne
  refine ⟨(draw n (memberProbs rs size) g.numpy).1, { g with numpy := (draw n (memberProbs rs size) g.numpy).2 }, ?_, ?_, b⟩
  · unfold multinomialOn
    rw [RunOn.from_of, if_pos (multinomialOk_memberProbs R D h1 h2)]
  · rw [a]; simp [memberProbs]

variable [IsStrictOrderedRing K] {models : List (Model K M)} {V : Nat} {ragged : List Nat}

/-- **C90.** With any generators whose permutations are permutations and whose multinomials add up, from any states, `sample` of an
ensemble of at most 2^24 members returns `N` rows with nonnegative entries and the requested counts. -/
theorem ensemble_sampleOn [NeZero M] (hp : Permutes host) {rs rd : ℚ → ℚ} (R : IsRounding 24 (-149) rs) (D : IsRounding 53 (-1074) rd)
    {draw : Nat → List ℚ → S → List Nat × S} (hd : Splits draw) (E : Members models V ragged) (hsize : models.length ≤ 2 ^ 24)
    {ens : Ensemble K M} (hs : List.Forall₂ Serves models ens.servers) (N : Nat) (counts : List Int) (data : Option (List Int))
    (hdat : ∀ d ∈ data, d.length = ragged.getLastD 0) (hl : counts.length = V) (hc : ∀ x ∈ counts, 0 ≤ x ∧ x ≤ 127)
    (hne : ∀ v < V, 0 < counts.getD v 0 → ragged.getD v 0 < ragged.getD (v + 1) 0) (g : Gens S) :
    ∃ rows g', (ens.sampleOn host rs rd draw N counts data).from g = (.ok rows, g') ∧ rows.length = N ∧
      ∀ row ∈ rows, row.length = ragged.getLastD 0 ∧ ∀ v < V,
        (∀ c ∈ Finset.Ico (ragged.getD v 0) (ragged.getD (v + 1) 0), 0 ≤ row.getD c 0) ∧
        ∑ c ∈ Finset.Ico (ragged.getD v 0) (ragged.getD (v + 1) 0), row.getD c 0 = counts.getD v 0 := by
  have hcol : ∀ m ∈ models, ∀ v, columns m v = Finset.Ico (ragged.getD v 0) (ragged.getD (v + 1) 0) := by
    intro m hm v; unfold columns; rw [E.index m hm]
  have hpos : 1 ≤ ens.servers.length := by rw [← hs.length_eq]; exact List.length_pos_of_ne_nil E.ne
  have hle : ens.servers.length ≤ 2 ^ 24 := by rw [← hs.length_eq]; exact hsize
  obtain ⟨subs, g1, e1, hlen, hsum⟩ := multinomialOn_run (host := host.interpreted) R D hd hpos hle N g
  have hmem : ∀ p ∈ ens.servers.zip subs, ∀ g, ∃ rows g', (p.1.sampleOn host p.2 counts data).from g = (.ok rows, g') ∧ rows.length = p.2 ∧
      ∀ row ∈ rows, row.length = ragged.getLastD 0 ∧ ∀ v < V,
        (∀ c ∈ Finset.Ico (ragged.getD v 0) (ragged.getD (v + 1) 0), 0 ≤ row.getD c 0) ∧
        ∑ c ∈ Finset.Ico (ragged.getD v 0) (ragged.getD (v + 1) 0), row.getD c 0 = counts.getD v 0 := by
    intro p hp g
    obtain ⟨m, hm, hms⟩ := forall_mem_zip hs hp
    have := server_sample_counts (E.valid m hm) hms p.2 counts data (by rw [E.index m hm]; exact hdat) (by rw [hl, E.size m hm]) hc
      (by rw [E.size m hm]; intro v hv h0; rw [hcol m hm]; exact Finset.nonempty_Ico.2 (hne v hv h0))
    rw [E.size m hm, E.index m hm] at this
    simp only [hcol m hm] at this
    exact served_sure (GenSimE.serverSample p.1 p.2 counts data) this g
  obtain ⟨parts, g2, e2, hparts⟩ := RunOn.mapM_sure _ hmem g1
  obtain ⟨rows, g3, e3, hrows⟩ := shuffled_run (host := host.interpreted) hp parts.flatten g2
  have hN : rows.length = N := by
    rw [hrows.length_eq, flatten_length_of (size := Prod.snd) hparts fun p part hp => hp.1, map_snd_zip_sum _ _ hlen.symm, hsum]
  refine ⟨rows, g3, ?_, hN, ?_⟩
  · unfold Ensemble.sampleOn
    rw [RunOn.from_bind_ok e1, RunOn.from_bind_ok e2, RunOn.from_bind_ok e3,
      RunOn.from_bind_ok (a := ()) (g' := g3) (by rw [RunOn.from_py, hN]; simp [pyAssert])]
    rfl
  · intro row hrow
    obtain ⟨part, hpart, hr⟩ := List.mem_flatten.1 (hrows.mem_iff.1 hrow)
    obtain ⟨m, hm, srv, -, n, -, hq⟩ := forall₂_zip hs hlen.symm hparts hpart
    exact hq.2 row hr

/-- The same for trees. -/
theorem ensemble_sampleTreesOn [NeZero M] (hp : Permutes host) {rs rd : ℚ → ℚ} (R : IsRounding 24 (-149) rs) (D : IsRounding 53 (-1074) rd)
    {draw : Nat → List ℚ → S → List Nat × S} (hd : Splits draw) (E : Members models V ragged) (hsize : models.length ≤ 2 ^ 24)
    {ens : Ensemble K M}
    (hs : List.Forall₂ (fun m srv => Serves m srv ∧ IsTree V srv.estimatedTree ∧ Canonical srv.estimatedTree) models ens.servers)
    (num : ServeNum K) (junk : Nat → Nat) (n : Nat) (g : Gens S) :
    ∃ ts g', (ens.sampleTreesOn host rs rd draw num junk n).from g = (.ok ts, g') ∧ ts.length = n ∧ ∀ T ∈ ts, IsTree V T ∧ Canonical T := by
  have hpos : 1 ≤ ens.servers.length := by rw [← hs.length_eq]; exact List.length_pos_of_ne_nil E.ne
  have hle : ens.servers.length ≤ 2 ^ 24 := by rw [← hs.length_eq]; exact hsize
  obtain ⟨subs, g1, e1, hlen, hsum⟩ := multinomialOn_run (host := host) R D hd hpos hle n g
  have hmem : ∀ p ∈ ens.servers.zip subs, ∀ g, ∃ ts g', (p.1.sampleTreesOn host num junk p.2).from g = (.ok ts, g') ∧ ts.length = p.2 ∧
      ∀ T ∈ ts, IsTree V T ∧ Canonical T := by
    intro p hp' g
    obtain ⟨m, hm, hms, h1, h2⟩ := forall_mem_zip hs hp'
    have := Sure.sampleTrees (E.valid m hm) hms (by rw [E.size m hm]; exact h1) h2 num junk p.2
    rw [E.size m hm] at this
    exact served_sure (GenSimE.serverTrees hp num junk p.1 p.2) this g
  have hfold : ∀ (l : List (Server K M × Nat)) (acc : List (List Edge)) (g : Gens S), (∀ p ∈ l, p ∈ ens.servers.zip subs) →
      (∀ T ∈ acc, IsTree V T ∧ Canonical T) →
      ∃ ts g', (l.foldlM (fun samples p => do
        let more ← p.1.sampleTreesOn host num junk p.2
        pure (samples ++ more)) acc : RunOn host _).from g = (.ok ts, g') ∧ ts.length = acc.length + (l.map Prod.snd).sum ∧
        ∀ T ∈ ts, IsTree V T ∧ Canonical T := by
    intro l
    induction l with
    | nil => intro acc g _ ha; exact ⟨acc, g, rfl, by simp, ha⟩
    | cons p l ih =>
      intro acc g hl ha
      obtain ⟨ts, g', e, h1, h2⟩ := hmem p (hl p (by simp)) g
      obtain ⟨us, g'', e', h3, h4⟩ := ih (acc ++ ts) g' (fun p hp => hl p (by simp [hp])) (by
        intro T hT
        rcases List.mem_append.1 hT with h | h
        · exact ha T h
        · exact h2 T h)
      refine ⟨us, g'', ?_, by rw [h3]; simp [h1]; omega, h4⟩
      rw [List.foldlM_cons, bind_assoc, RunOn.from_bind_ok e, pure_bind]
      exact e'
  obtain ⟨ts, g2, e2, h1, h2⟩ := hfold _ [] g1 (fun p hp => hp) (by simp)
  obtain ⟨us, g3, e3, hus⟩ := shuffled_run hp ts g2
  have hn : us.length = n := by rw [hus.length_eq, h1, map_snd_zip_sum _ _ hlen.symm, hsum]; simp
  refine ⟨us, g3, ?_, hn, fun T hT => h2 T (hus.mem_iff.1 hT)⟩
  unfold Ensemble.sampleTreesOn
  rw [RunOn.from_bind_ok e1, RunOn.from_bind_ok e2, RunOn.from_bind_ok e3,
    RunOn.from_bind_ok (a := ()) (g' := g3) (by rw [RunOn.from_py, hn]; simp [pyAssert])]
  rfl

/-! ### `sample` does not use numba's generator -/

/-- The outcome, and the state of numpy's generator after it, do not depend on that of numba's. -/
def Spec.NumpyOnly (x : RunOn host α) : Prop := ∀ a b b', (x.from ⟨a, b⟩).1 = (x.from ⟨a, b'⟩).1 ∧ (x.from ⟨a, b⟩).2.numpy = (x.from ⟨a, b'⟩).2.numpy

theorem NumpyOnly.pure (a : α) : NumpyOnly (host := host) (Pure.pure a) := fun _ _ _ => ⟨rfl, rfl⟩

theorem NumpyOnly.py (x : Py α) : NumpyOnly (host := host) (RunOn.py x) := fun _ _ _ => ⟨rfl, rfl⟩

theorem NumpyOnly.bind {x : RunOn host α} {f : α → RunOn host β} (h : NumpyOnly x) (hf : ∀ a, NumpyOnly (f a)) : NumpyOnly (x >>= f) := by
  intro a b b'
  obtain ⟨h1, h2⟩ := h a b b'
  rw [RunOn.from_bind, RunOn.from_bind]
  rcases hx : x.from ⟨a, b⟩ with ⟨r, c, d⟩
  rcases hy : x.from ⟨a, b'⟩ with ⟨r', c', d'⟩
  rw [hx, hy] at h1 h2
  simp only at h1 h2
  subst h1 h2
  cases r with
  | ok v => exact hf v c d d'
  | error e => exact ⟨rfl, rfl⟩

theorem NumpyOnly.mapM {f : α → RunOn host β} (l : List α) (h : ∀ a ∈ l, NumpyOnly (f a)) : NumpyOnly (l.mapM f) := by
  induction l with
  | nil => exact NumpyOnly.pure []
  | cons a l ih =>
    rw [List.mapM_cons]
    exact NumpyOnly.bind (h a (by simp)) fun b => NumpyOnly.bind (ih fun a ha => h a (by simp [ha])) fun bs => NumpyOnly.pure _

/-- For programs that may raise. -/
def NumpyOnlyE (x : ExceptT PyErr (RunOn host) α) : Prop := NumpyOnly x.run

theorem NumpyOnlyE.pure (a : α) : NumpyOnlyE (host := host) (Pure.pure a) := NumpyOnly.pure (host := host) (Except.ok (ε := PyErr) a)

theorem NumpyOnlyE.throw (e : PyErr) : NumpyOnlyE (host := host) (α := α) (throw e) := NumpyOnly.pure (host := host) (Except.error (α := α) e)

theorem NumpyOnlyE.liftPy (x : Py α) : NumpyOnlyE (host := host) (liftPy x) := NumpyOnly.pure (host := host) x

theorem NumpyOnlyE.bind {x : ExceptT PyErr (RunOn host) α} {f : α → ExceptT PyErr (RunOn host) β} (h : NumpyOnlyE x) (hf : ∀ a, NumpyOnlyE (f a)) :
    NumpyOnlyE (x >>= f) := by
  refine NumpyOnly.bind (f := ExceptT.bindCont f) h fun r => ?_
  cases r with
  | ok a => exact hf a
  | error e => exact NumpyOnly.pure (host := host) (Except.error e)

theorem NumpyOnlyE.lift {x : RunOn host α} (h : NumpyOnly x) : NumpyOnlyE (ExceptT.lift x) := by
  change NumpyOnly ((fun a => Except.ok a) <$> x : RunOn host (Except PyErr α))
  rw [map_eq_pure_bind]
  exact NumpyOnly.bind h fun _ => NumpyOnly.pure _

theorem NumpyOnlyE.foldlM {f : β → α → ExceptT PyErr (RunOn host) β} (l : List α) (h : ∀ b, ∀ a ∈ l, NumpyOnlyE (f b a)) (b : β) :
    NumpyOnlyE (l.foldlM f b) := by
  induction l generalizing b with
  | nil => exact NumpyOnlyE.pure b
  | cons a l ih =>
    rw [List.foldlM_cons]
    exact NumpyOnlyE.bind (h b a (by simp)) fun b' => ih (fun b a ha => h b a (by simp [ha])) b'

theorem NumpyOnly.choose {n : Nat} (p : Fin n → K) : NumpyOnly (host := host.interpreted) (Choose.choose p) := fun _ _ _ => ⟨rfl, rfl⟩

theorem NumpyOnly.permutation (n : Nat) : NumpyOnly (host := host) (Shuffle.permutation n) := fun _ _ _ => ⟨rfl, rfl⟩

theorem NumpyOnly.choose2 {n : Nat} (N : Nat) (p : Nat → Fin n → K) : NumpyOnly (host := host.interpreted) (TreeCat.choose2 N p) :=
  NumpyOnly.mapM _ fun i _ => NumpyOnly.choose (p i)

theorem NumpyOnlyE.drawFeatures (srv : Server K M) (N v : Nat) (vs : Nat → Fin M) (k : Nat) (f : Nat → Nat → Int) :
    NumpyOnlyE (host := host.interpreted) (TreeCat.drawFeatures srv N v vs k f) := by
  induction k generalizing f with
  | zero => exact NumpyOnlyE.pure f
  | succ k ih =>
    unfold TreeCat.drawFeatures
    refine NumpyOnlyE.bind ?_ fun f => ih f
    unfold drawFeature
    split
    · exact NumpyOnlyE.throw _
    · exact NumpyOnlyE.bind (NumpyOnlyE.lift (NumpyOnly.choose2 N _)) fun _ => NumpyOnlyE.pure _

theorem server_sampleOn_numpyOnly [NeZero M] (srv : Server K M) (N : Nat) (counts : List Int) (data : Option (List Int)) :
    NumpyOnly (srv.sampleOn host N counts data) := by
  refine NumpyOnly.bind (?_ : NumpyOnlyE _) fun r => NumpyOnly.py r
  unfold Server.sample
  refine NumpyOnlyE.bind (NumpyOnlyE.liftPy _) fun _ => NumpyOnlyE.bind (NumpyOnlyE.liftPy _) fun _ => NumpyOnlyE.bind ?_ fun _ => NumpyOnlyE.pure _
  refine NumpyOnlyE.foldlM _ (fun s i _ => ?_) _
  unfold TreeCat.sampleStep
  cases i.op with
  | UP => exact NumpyOnlyE.pure _
  | IN => exact NumpyOnlyE.pure _
  | ROOT => exact NumpyOnlyE.pure _
  | OUT => exact NumpyOnlyE.pure _
  | DOWN =>
    exact NumpyOnlyE.bind (NumpyOnlyE.lift (NumpyOnly.choose2 N _)) fun _ =>
      NumpyOnlyE.bind (NumpyOnlyE.drawFeatures _ _ _ _ _ _) fun _ => NumpyOnlyE.pure _

/-- **C90.** `sample` of an ensemble uses numpy's generator only: `np.random.seed` makes it reproducible, with and without numba. -/
theorem ensemble_sampleOn_numpyOnly [NeZero M] (rs rd : ℚ → ℚ) (draw : Nat → List ℚ → S → List Nat × S) (ens : Ensemble K M) (N : Nat)
    (counts : List Int) (data : Option (List Int)) : NumpyOnly (ens.sampleOn host rs rd draw N counts data) := by
  unfold Ensemble.sampleOn
  refine NumpyOnly.bind ?_ fun subs => NumpyOnly.bind (NumpyOnly.mapM _ fun p _ => server_sampleOn_numpyOnly _ _ _ _) fun parts =>
    NumpyOnly.bind (NumpyOnly.bind (NumpyOnly.permutation _) fun _ => NumpyOnly.pure _) fun _ => NumpyOnly.bind (NumpyOnly.py _) fun _ => NumpyOnly.pure _
  intro a b b'
  unfold multinomialOn
  rw [RunOn.from_of, RunOn.from_of]
  split <;> exact ⟨rfl, rfl⟩

/-- After `set_random_seed` both `sample` and `sample_tree` return what the seed determines. -/
theorem seeded_sample [NeZero M] (rs rd : ℚ → ℚ) (draw : Nat → List ℚ → S → List Nat × S) (ens : Ensemble K M) (num : ServeNum K) (junk : Nat → Nat)
    (N : Nat) (counts : List Int) (data : Option (List Int)) (seed : Int) :
    (∃ r, Seeded (do setRandomSeed host.interpreted seed; ens.sampleOn host rs rd draw N counts data) r) ∧
      ∃ r, Seeded (do setRandomSeed host seed; ens.sampleTreesOn host rs rd draw num junk N) r := by
  by_cases h : 0 ≤ seed ∧ seed < 2 ^ 32
  · exact ⟨⟨_, fun g => by rw [RunOn.from_bind_ok (setRandomSeed_ok h.1 h.2 g)]⟩, ⟨_, fun g => by rw [RunOn.from_bind_ok (setRandomSeed_ok h.1 h.2 g)]⟩⟩
  · exact ⟨⟨.error .valueError, fun g => by rw [RunOn.from_bind, setRandomSeed_bad h g]⟩,
      ⟨.error .valueError, fun g => by rw [RunOn.from_bind, setRandomSeed_bad h g]⟩⟩

end

/-! ### An ensemble -/

/-- A multinomial that gives everything to one member. -/
def drawOne (n : Nat) (pvals : List ℚ) (s : Nat) : List Nat × Nat :=
  ((List.range pvals.length).map fun i => if i = s % pvals.length then n else 0, s + 1)

theorem drawOne_splits : Splits drawOne := by
  intro n pvals s hne
  refine ⟨by simp [drawOne], ?_⟩
  have : s % pvals.length < pvals.length := Nat.mod_lt _ (List.length_pos_of_ne_nil hne)
  have key : ∀ L k, ((List.range L).map fun i => if i = k then n else 0).sum = if k < L then n else 0 := by
    intro L k
    induction L with
    | zero => simp
    | succ L ih =>
      rw [List.range_succ, List.map_append, List.sum_append, ih]
      simp only [List.map_cons, List.map_nil, List.sum_cons, List.sum_nil]
      split_ifs <;> omega
  simp only [drawOne]
  rw [key, if_pos this]

/-- Two members, seven rows. -/
example (jit : Bool) : ∃ ens : Ensemble ℚ 2, ens.servers.length = 2 ∧ ∀ g, ∃ rows g',
    (ens.sampleOn ⟨lcg, lcg, jit⟩ (float32) (float64) drawOne 7 [1, 2, 0] none).from g = (.ok rows, g') ∧ rows.length = 7 := by
  obtain ⟨mst, hmst⟩ := exists_mst (K := ℚ)
  have E : Members [pathModel ℚ, { pathModel ℚ with featSS := fun r m => if r % 2 = m.val then 0 else 3 }] 3 [0, 2, 4, 6] := by
    refine ⟨by simp, fun m hm => ?_, fun m hm => ?_, fun m hm => ?_⟩ <;> simp only [List.mem_cons, List.not_mem_nil, or_false] at hm
    · rcases hm with rfl | rfl
      · exact pathModel_valid ℚ
      · have h := pathModel_valid ℚ
        exact ⟨h.isTree, h.sorted, h.ragged, h.mono, h.vert, h.edge, fun _ _ _ _ _ => by dsimp only; split <;> decide, h.logits⟩
    · rcases hm with rfl | rfl <;> rfl
    · rcases hm with rfl | rfl <;> rfl
  obtain ⟨ens, -, h1, -⟩ := ensemble_init hmst E
  refine ⟨ens, h1.length_eq.symm, fun g => ?_⟩
  obtain ⟨rows, g', e, h, -⟩ := ensemble_sampleOn (lcg_permutes jit) float32_isRounding float64_isRounding drawOne_splits E (by decide)
    (h1.imp fun m s h => h.1) 7 [1, 2, 0] none (by simp) rfl (by decide) (by intro v hv _; interval_cases v <;> decide) g
  exact ⟨rows, g', e, h⟩

/-- Three members: the probabilities are rounded up, and add up to more than one; numpy looks at the first two only. -/
example : 1 < (memberProbs (float32) 3).sum ∧ multinomialOk (float64) (memberProbs (float32) 3) = true := by
  decide +kernel

end TreeCat
