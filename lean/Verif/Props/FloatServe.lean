import Verif.Lemmas.FloatServe
import Verif.Lemmas.ServeLaw
import Verif.Props.FloatRow

/-! # C68: the server in float32 -/

namespace TreeCat

open Util Spec

/-- At most one observation per feature. -/
def Spec.SingleRow {K : Type} {M : Nat} (model : Model K M) (data : List Int) : Prop :=
  (∀ r, 0 ≤ data.getD r 0) ∧ ∀ v < model.tree.numVertices, ∑ r ∈ columns model v, data.getD r 0 ≤ 1

section
set_option linter.unusedSectionVars false
variable {M : Nat} [NeZero M] {A : ServeOps M}

/-! ### Observations -/

/-- One position of the OP_UP step. -/
def upStep (A : ServeOps M) (srv : FloatServer M) (skip : Bool) (data : List Int) (v : Nat) (msgs : Nat → Fin M → Flt) (r : Nat) : Nat → Fin M → Flt :=
  if skip && data.getD r 0 == 0 then msgs
  else Function.update msgs v fun m => Flt.mul A.rnd (msgs v m) (A.pow (srv.cond r m) (data.getD r 0))

theorem upStep_zero (O : Spec.ServeOpsOk A) {srv : FloatServer M} {skip : Bool} {data : List Int} {v r : Nat} {msgs : Nat → Fin M → Flt} {hi : Int} (hm : ∀ a, FLe hi (msgs v a))
    (hc : ∀ a, FBd (-40) 0 (srv.cond r a)) (hd : data.getD r 0 = 0) : upStep A srv skip data v msgs r = msgs := by
  unfold upStep
  rw [hd]
  split
  · rfl
  · rw [Function.update_eq_self_iff]
    funext a
    obtain ⟨q, h1, h2, h3, -⟩ := hc a
    obtain ⟨p, h5, h6, -⟩ := hm a
    rw [h1, h5, (O.pow q h2 (le_trans (two_zpow_pos _).le h3)).1]
    show some (A.rnd (p * 1)) = _
    rw [mul_one, O.ops.rnd.id h6]

theorem upFold_zero (O : Spec.ServeOpsOk A) {srv : FloatServer M} {skip : Bool} {data : List Int} {v : Nat} {msgs : Nat → Fin M → Flt} {hi : Int} (hm : ∀ a, FLe hi (msgs v a))
    (l : List Nat) (hc : ∀ r ∈ l, ∀ a, FBd (-40) 0 (srv.cond r a)) (hd : ∀ r ∈ l, data.getD r 0 = 0) : l.foldl (upStep A srv skip data v) msgs = msgs := by
  induction l with
  | nil => rfl
  | cons r l ih =>
    rw [List.foldl_cons, upStep_zero O hm (hc r List.mem_cons_self) (hd r List.mem_cons_self)]
    exact ih (fun r hr => hc r (List.mem_cons_of_mem _ hr)) fun r hr => hd r (List.mem_cons_of_mem _ hr)

theorem upFold_ok (O : Spec.ServeOpsOk A) {srv : FloatServer M} {skip : Bool} {data : List Int} {v : Nat} {msgs : Nat → Fin M → Flt} {lo : Int} (hlo : -109 ≤ lo) (hm : Msg lo 0 (msgs v))
    (l : List Nat) (hc : ∀ r ∈ l, ∀ a, FBd (-40) 0 (srv.cond r a)) (hd : ∀ r, 0 ≤ data.getD r 0) (hsum : (l.map fun r => data.getD r 0).sum ≤ 1) :
    Msg (lo - 40) 0 (l.foldl (upStep A srv skip data v) msgs v) ∧ ∀ w, w ≠ v → l.foldl (upStep A srv skip data v) msgs w = msgs w := by
  induction l with
  | nil => exact ⟨hm.weaken (by omega) (le_refl _), fun w _ => rfl⟩
  | cons r l ih =>
    have hc' : ∀ r ∈ l, ∀ a, FBd (-40) 0 (srv.cond r a) := fun r hr => hc r (List.mem_cons_of_mem _ hr)
    rw [List.map_cons, List.sum_cons] at hsum
    have h0 : 0 ≤ (l.map fun r => data.getD r 0).sum := List.sum_nonneg (by
      intro x hx
      obtain ⟨r, -, rfl⟩ := List.mem_map.1 hx
      exact hd r)
    have hr0 := hd r
    rw [List.foldl_cons]
    by_cases hr : data.getD r 0 = 0
    · rw [upStep_zero O hm.1 (hc r List.mem_cons_self) hr]
      exact ih hc' (by omega)
    · have hr1 : data.getD r 0 = 1 := by omega
      have hl0 : (l.map fun r => data.getD r 0).sum = 0 := by omega
      have hz : ∀ r ∈ l, data.getD r 0 = 0 := by
        intro r' hr'
        have : data.getD r' 0 ≤ (l.map fun r => data.getD r 0).sum := List.single_le_sum (by
          intro x hx
          obtain ⟨r, -, rfl⟩ := List.mem_map.1 hx
          exact hd r) _ (List.mem_map.2 ⟨r', hr', rfl⟩)
        have := hd r'
        omega
      have hstep : upStep A srv skip data v msgs r = Function.update msgs v fun m => Flt.mul A.rnd (msgs v m) (srv.cond r m) := by
        unfold upStep
        rw [hr1]
        simp only [one_ne_zero, beq_iff_eq, Bool.and_eq_true, and_false, if_false]
        congr 1
        funext a
        obtain ⟨q, h1, h2, h3, -⟩ := hc r List.mem_cons_self a
        rw [h1, (O.pow q h2 (le_trans (two_zpow_pos _).le h3)).2]
      rw [hstep]
      have hnew : Msg (lo - 40) 0 fun m => Flt.mul A.rnd (msgs v m) (srv.cond r m) := by
        refine ⟨fun a => ?_, ?_⟩
        · exact (FLe.mul O.ops.rnd (hm.1 a) (hc r List.mem_cons_self a).le (by norm_num)).weaken (by norm_num)
        · obtain ⟨a, ha⟩ := hm.2
          exact ⟨a, (FGe.mul O.ops.rnd ha (hc r List.mem_cons_self a).ge (by omega)).weaken (by omega)⟩
      have hm' : ∀ a, FLe 0 (Function.update msgs v (fun m => Flt.mul A.rnd (msgs v m) (srv.cond r m)) v a) := by
        rw [Function.update_self]
        exact hnew.1
      rw [upFold_zero O hm' l hc' hz]
      rw [Function.update_self]
      exact ⟨hnew, fun w hw => Function.update_of_ne hw _ _⟩

theorem floatServeUp_ok (O : Spec.ServeOpsOk A) {srv : FloatServer M} {skip : Bool} {data : List Int} {v : Nat} {msgs : Nat → Fin M → Flt} {lo : Int} (hlo : -109 ≤ lo) (hm : Msg lo 0 (msgs v))
    (hc : ∀ r ∈ srv.block v, ∀ a, FBd (-40) 0 (srv.cond r a)) (hd : ∀ r, 0 ≤ data.getD r 0) (hsum : ((srv.block v).map fun r => data.getD r 0).sum ≤ 1) :
    Msg (lo - 40) 0 (floatServeUp A srv skip data msgs v v) ∧ ∀ w, w ≠ v → floatServeUp A srv skip data msgs v w = msgs w :=
  upFold_ok O hlo hm (srv.block v) hc hd hsum

/-! ### Messages between vertices -/

theorem transAt_bounds {V E : Nat} {srv : FloatServer M} (B : ServeBounds V E srv) {e : Nat} (he : e < E) (v v2 : Nat) (a b : Fin M) : FBd (-46) 64 (transAt srv.trans e v v2 a b) := by
  unfold transAt
  split
  · exact B.trans e he b a
  · exact B.trans e he a b

theorem floatDot_ok (hM : M ≤ 128) (O : Spec.ServeOpsOk A) {x y : Fin M → Flt} {lo hi lo' hi' : Int} (hx : ∀ b, FBd lo hi (x b)) (hy : Msg lo' hi' y) (h : -149 ≤ lo + lo') (h' : -149 ≤ hi + hi') :
    FBd (lo + lo') (hi + hi' + 7) (A.dot x y) := by
  choose p p1 p2 p3 p4 using hx
  choose q q1 q2 q3 q4 using hy.1
  obtain ⟨d, h3, h4, h5, h6, h7⟩ := O.ops.dot p q (fun b => ⟨p2 b, le_trans (two_zpow_pos _).le (p3 b)⟩) fun b => ⟨q2 b, q3 b⟩
  have e1 : x = fun b => some (p b) := funext p1
  have e2 : y = fun b => some (q b) := funext q1
  refine ⟨d, by rw [e1, e2]; exact h3, h4, ?_, ?_⟩
  · obtain ⟨b, q', hq', hlo⟩ := hy.2
    rw [q1 b] at hq'
    obtain rfl := Option.some.inj hq'
    refine h6 _ h b ?_
    rw [zpow_split]
    exact mul_le_mul (p3 b) hlo (two_zpow_pos _).le (le_trans (two_zpow_pos _).le (p3 b))
  · have := h7 (hi + hi') h' fun b => by
      rw [zpow_split]
      exact mul_le_mul (p4 b) (q4 b) (q3 b) (two_zpow_pos _).le
    refine le_trans this ?_
    rw [zpow_split (hi + hi') 7, mul_comm]
    have hM' : (M : ℚ) ≤ 2 ^ (7 : Int) := by
      have : (M : ℚ) ≤ 128 := by exact_mod_cast hM
      norm_num
      exact hM
    exact mul_le_mul_of_nonneg_left hM' (two_zpow_pos _).le

theorem floatServeIn_ok (hM : M ≤ 128) (O : Spec.ServeOpsOk A) {V E : Nat} {srv : FloatServer M} (B : ServeBounds V E srv) {msgs : Nat → Fin M → Flt} {v v2 e : Nat} (he : e < E)
    (h : Msg (-48) 0 (msgs v)) (h2 : Msg (-48) 0 (msgs v2)) : Msg (-142) 71 (floatServeIn A srv msgs v v2 e) := by
  have hdot := fun a => floatDot_ok hM O (fun b => transAt_bounds B he v v2 a b) h2 (by norm_num) (by norm_num)
  refine ⟨fun a => ?_, ?_⟩
  · exact (FLe.mul O.ops.rnd (h.1 a) (hdot a).le (by norm_num)).weaken (by norm_num)
  · obtain ⟨a, ha⟩ := h.2
    exact ⟨a, (FGe.mul O.ops.rnd ha (hdot a).ge (by norm_num)).weaken (by norm_num)⟩

/-! ### `logprob` -/

/-- The messages after a part of a program that has updated the vertices `U`. -/
structure ServeInv (V : Nat) (U : List Nat) (msgs : Nat → Fin M → Flt) : Prop where
  fresh : ∀ v < V, v ∉ U → Msg (-8) 0 (msgs v)
  all : ∀ v < V, Msg (-48) 0 (msgs v)

theorem serveInv_init {V E : Nat} {srv : FloatServer M} (B : ServeBounds V E srv) : ServeInv V [] srv.vert :=
  ⟨fun v hv _ => B.vert v hv, fun v hv => (B.vert v hv).weaken (by norm_num) (le_refl _)⟩

theorem serveInv_up (O : Spec.ServeOpsOk A) {V E : Nat} {srv : FloatServer M} (B : ServeBounds V E srv) {skip : Bool} {data : List Int} (hd : ∀ r, 0 ≤ data.getD r 0)
    (hsum : ∀ v < V, ((srv.block v).map fun r => data.getD r 0).sum ≤ 1) {U : List Nat} {msgs : Nat → Fin M → Flt} (I : ServeInv V U msgs) {v : Nat} (hv : v < V) (hU : v ∉ U) :
    ServeInv V (v :: U) (floatServeUp A srv skip data msgs v) := by
  obtain ⟨h1, h2⟩ := floatServeUp_ok (skip := skip) O (by norm_num) (I.fresh v hv hU) (B.cond v hv) hd (hsum v hv)
  refine ⟨fun w hw hwU => ?_, fun w hw => ?_⟩
  · rw [List.mem_cons, not_or] at hwU
    rw [h2 w hwU.1]
    exact I.fresh w hw hwU.2
  · by_cases hwv : w = v
    · rw [hwv]
      exact h1.weaken (by norm_num) (le_refl _)
    · rw [h2 w hwv]
      exact I.all w hw

theorem serveInv_update {V : Nat} {U : List Nat} {msgs : Nat → Fin M → Flt} (I : ServeInv V U msgs) {v : Nat} {f : Fin M → Flt} (hf : Msg (-8) 0 f) :
    ServeInv V U (Function.update msgs v f) := by
  constructor
  · intro w hw hwU
    by_cases hwv : w = v
    · rw [hwv, Function.update_self]
      exact hf
    · rw [Function.update_of_ne hwv]
      exact I.fresh w hw hwU
  · intro w hw
    by_cases hwv : w = v
    · rw [hwv, Function.update_self]
      exact hf.weaken (by norm_num) (le_refl _)
    · rw [Function.update_of_ne hwv]
      exact I.all w hw

theorem logAdd_ok (O : Spec.ServeOpsOk A) {n : Nat} (hn : n < 2 ^ 20) {l d : ℚ} (hl : |l| ≤ 104 * n) (hd : IsFloat 24 (-149) d) (hd0 : 0 < d) (hd1 : d ≤ 2 ^ 127) :
    ∃ l', Flt.add A.rnd (some l) (A.log (some d)) = some l' ∧ |l'| ≤ 104 * (n + 1 : Nat) := by
  obtain ⟨x, hx, hx1⟩ := O.log d hd hd0 hd1
  have R := O.ops.rnd
  have hf : IsFloat 24 (-149) (104 * (n + 1 : Nat) : ℚ) := by
    have := isFloat_of_le (p := 24) (emin := -149) (e := 3) (by norm_num) (by norm_num) (m := 13 * (n + 1 : Nat)) (by
      rw [abs_of_nonneg (by positivity)]
      push_cast
      omega)
    push_cast at this ⊢
    have e : (104 : ℚ) * (n + 1) = 13 * (n + 1) * 2 ^ (3 : Int) := by norm_num; ring
    rw [e]
    exact this
  have hf' : IsFloat 24 (-149) (-(104 * (n + 1 : Nat)) : ℚ) := by
    obtain ⟨m, e, h1, h2, h3⟩ := hf
    exact ⟨-m, e, by rwa [abs_neg], h2, by rw [h3]; push_cast; ring⟩
  refine ⟨A.rnd (l + x), by rw [hx]; rfl, ?_⟩
  rw [abs_le] at hl hx1 ⊢
  refine ⟨R.ge_of hf' ?_, R.le_of hf ?_⟩
  · push_cast
    linarith [hl.1, hx1.1]
  · push_cast
    linarith [hl.2, hx1.2]

theorem msg_sum_log {lo hi : Int} (hM : M ≤ 128) (O : Spec.ServeOpsOk A) {f : Fin M → Flt} (h : Msg lo hi f) (hhi : -149 ≤ hi) (hhi' : hi ≤ 120) :
    ∃ d, A.sum ((List.finRange M).map f) = some d ∧ IsFloat 24 (-149) d ∧ 0 < d ∧ d ≤ 2 ^ 127 := by
  obtain ⟨⟨d, h1, h2, h3, h4⟩, -⟩ := h.norm hM O hhi
  refine ⟨d, h1, h2, lt_of_lt_of_le (two_zpow_pos _) h3, le_trans h4 ?_⟩
  have : (2 : ℚ) ^ (127 : Int) = 2 ^ 127 := by norm_num
  rw [← this]
  exact zpow_mono (by omega)

theorem floatLogLoop_ok (hM : M ≤ 128) (O : Spec.ServeOpsOk A) {V E : Nat} {srv : FloatServer M} (B : ServeBounds V E srv) {data : List Int} (hd : ∀ r, 0 ≤ data.getD r 0)
    (hsum : ∀ v < V, ((srv.block v).map fun r => data.getD r 0).sum ≤ 1) (prog : List Instr) (hroot : ∃ i ∈ prog, i.op = .ROOT) {U D : List Nat} (hord : Orderly V E U D prog)
    {s : FloatLog M} (I : ServeInv V U s.messages) {n : Nat} {l : ℚ} (hl : s.logprob = some l) (hl1 : |l| ≤ 104 * n) {T : Nat} (hT : n + (prog.filter fun i => i.op = .IN).length + 1 ≤ T) (hT' : T ≤ 2 ^ 20) :
    ∃ q, floatLogLoop A srv data prog s = some (some q) ∧ |q| ≤ 104 * T := by
  induction prog generalizing U D s n l with
  | nil =>
    obtain ⟨i, hi, -⟩ := hroot
    cases hi
  | cons i prog ih =>
    obtain ⟨op, v, v2, e⟩ := i
    have hroot' : op ≠ .ROOT → ∃ i ∈ prog, i.op = .ROOT := by
      intro hop
      obtain ⟨i, hi, hi'⟩ := hroot
      rcases List.mem_cons.1 hi with rfl | hi
      · exact absurd hi' hop
      · exact ⟨i, hi, hi'⟩
    cases op with
    | UP =>
      obtain ⟨hv, hU, hD, hrest⟩ := hord
      exact ih (hroot' (by simp)) hrest (serveInv_up O B hd hsum I hv hU) (s := ⟨floatServeUp A srv false data s.messages v, s.logprob⟩) hl hl1 (by simpa using hT)
    | IN =>
      obtain ⟨hv, hv2, he, hD, hD2, hrest⟩ := hord
      have hin := floatServeIn_ok hM O B (v := v) (v2 := v2) he (I.all v hv) (I.all v2 hv2)
      obtain ⟨d, h1, h2, h3, h4⟩ := msg_sum_log hM O hin (by norm_num) (by norm_num)
      have hT2 : n + 1 + (prog.filter fun i => i.op = .IN).length + 1 ≤ T := by
        rw [List.filter_cons_of_pos (by simp), List.length_cons] at hT
        omega
      obtain ⟨l', h5, h6⟩ := logAdd_ok O (by omega) hl1 h2 h3 h4
      refine ih (hroot' (by simp)) hrest (s := floatLogStep A srv data s ⟨.IN, v, v2, e⟩) (serveInv_update I (hin.norm hM O (by norm_num)).2) (n := n + 1) (l := l') ?_ h6 hT2
      show Flt.add A.rnd s.logprob (A.log (A.sum _)) = _
      rw [h1, hl]
      exact h5
    | ROOT =>
      obtain ⟨hv, hD, hrest⟩ := hord
      obtain ⟨d, h1, h2, h3, h4⟩ := msg_sum_log hM O (I.all v hv) (by norm_num) (by norm_num)
      obtain ⟨l', h5, h6⟩ := logAdd_ok O (n := n) (by omega) hl1 h2 h3 h4
      refine ⟨l', ?_, le_trans h6 ?_⟩
      · show some (Flt.add A.rnd s.logprob (A.log (A.sum _))) = _
        rw [h1, hl, h5]
      · have : ((n + 1 : Nat) : ℚ) ≤ T := by exact_mod_cast (by omega : n + 1 ≤ T)
        linarith
    | OUT =>
      obtain ⟨hv, hv2, he, hD, hrest⟩ := hord
      exact ih (hroot' (by simp)) hrest I hl hl1 (by simpa using hT)
    | DOWN => exact ih (hroot' (by simp)) hord I hl hl1 (by simpa using hT)

/-! ### `sample` -/

omit [NeZero M] in
/-- Drawing from numbers that are not all zero. -/
theorem fltSample_ok (O : Spec.ServeOpsOk A) {l : List Flt} {hi lo : Int} (h : ∀ x ∈ l, FLe hi x) (h' : ∃ x ∈ l, FGe lo x) {u : ℚ} (hu : Spec.IsDraw u) :
    ∃ i, ∃ hi : i < l.length, fltSample A.rs A.rp l u = .ok i ∧ ∃ q, l[i] = some q ∧ 0 < q := by
  have hl : l = (l.map fun x => x.getD 0).map some := by
    rw [List.map_map]
    conv_lhs => rw [← List.map_id l]
    refine List.map_congr_left fun x hx => ?_
    obtain ⟨q, rfl, -⟩ := h x hx
    rfl
  have h0 : ∀ x ∈ l.map (fun x => x.getD 0), 0 ≤ x := by
    intro x hx
    obtain ⟨y, hy, rfl⟩ := List.mem_map.1 hx
    obtain ⟨q, rfl, -, h3, -⟩ := h y hy
    exact h3
  have hfl : ∀ x ∈ l.map (fun x => x.getD 0), IsFloat 24 (-149) x := by
    intro x hx
    obtain ⟨y, hy, rfl⟩ := List.mem_map.1 hx
    obtain ⟨q, rfl, h3, -⟩ := h y hy
    exact h3
  obtain ⟨y, hy, q, rfl, hq⟩ := h'
  have hx : q ∈ l.map fun x => x.getD 0 := List.mem_map.2 ⟨some q, hy, rfl⟩
  have hq0 : 0 < q := lt_of_lt_of_le (two_zpow_pos _) hq
  obtain ⟨k, hk, rfl⟩ := hu
  have hk' : (k : ℚ) + 1 ≤ 2 ^ 53 := by exact_mod_cast hk
  have hbig : (2 : ℚ) ^ ((-1074 : Int) + (53 : Nat)) ≤ floatPrefix A.rs (l.map fun x => x.getD 0) (l.map fun x => x.getD 0).length := by
    refine le_trans ?_ (le_floatPrefix O.ops.rs h0 hfl hx)
    exact le_trans (zpow_mono (by norm_num)) ((hfl _ hx).ge hq0)
  have hu1 : (k : ℚ) / 2 ^ 53 ≤ 1 - 1 / 2 ^ 53 := by
    rw [div_le_iff₀ (by positivity), sub_mul, div_mul_cancel₀ _ (by positivity)]
    linarith
  obtain ⟨i, hi', e, hpos⟩ := floatSample_support O.ops.rs O.ops.rp (by norm_num) (by norm_num) (by norm_num) h0 (List.ne_nil_of_mem hx) hbig
    (u := (k : ℚ) / 2 ^ 53) (by positivity) hu1
  have hi2 : i < l.length := by simpa using hi'
  refine ⟨i, hi2, ?_, (l[i]).getD 0, ?_, by simpa using hpos⟩
  · rw [← e, ← fltSample_some, ← hl]
  · obtain ⟨q', h1, -⟩ := h l[i] (List.getElem_mem _)
    rw [h1]
    rfl

/-- The observations of one feature: counts are not negative, at most the given number and add up to it. -/
structure Observed (block : List Nat) (n : Int) (f : Nat → Int) : Prop where
  nonneg : ∀ r ∈ block, 0 ≤ f r
  sum : (block.map f).sum = n

theorem sum_map_update {l : List Nat} (hl : l.Nodup) {r : Nat} (hr : r ∈ l) (f : Nat → Int) (x : Int) :
    (l.map (Function.update f r x)).sum = (l.map f).sum - f r + x := by
  induction l with
  | nil => cases hr
  | cons a l ih =>
    rw [List.nodup_cons] at hl
    rw [List.map_cons, List.map_cons, List.sum_cons, List.sum_cons]
    by_cases har : a = r
    · subst har
      have : l.map (Function.update f a x) = l.map f := List.map_congr_left fun b hb => Function.update_of_ne (fun e : b = a => hl.1 (e ▸ hb)) _ _
      rw [this, Function.update_self]
      ring
    · rw [ih hl.2 ((List.mem_cons.1 hr).resolve_left fun e => har e.symm), Function.update_of_ne har]
      ring

theorem floatDrawFeatures_ok (O : Spec.ServeOpsOk A) {srv : FloatServer M} {v : Nat} (hc : ∀ r ∈ srv.block v, ∀ a, FBd (-40) 0 (srv.cond r a)) (hne : srv.block v ≠ []) (a : Fin M)
    {draw : Nat → ℚ} (hd : ∀ k, Spec.IsDraw (draw k)) (n : Nat) (hn : n ≤ 127) {f : Nat → Int} (hf : ∀ r ∈ srv.block v, f r = 0) :
    ∃ f', floatDrawFeatures A srv v a draw n f = .ok f' ∧ Observed (srv.block v) n f' ∧ ∀ r, r ∉ srv.block v → f' r = f r := by
  induction n with
  | zero =>
    refine ⟨f, rfl, ⟨fun r hr => (hf r hr).ge, ?_⟩, fun r _ => rfl⟩
    rw [List.map_congr_left hf]
    simp
  | succ n ih =>
    obtain ⟨f1, h1, h2, h3⟩ := ih (by omega)
    obtain ⟨r0, hr0⟩ := List.exists_mem_of_ne_nil _ hne
    obtain ⟨i, hi, h4, -⟩ := fltSample_ok (l := (srv.block v).map fun r => srv.cond r a) O (hi := 0) (lo := -40) (by
      intro x hx
      obtain ⟨r, hr, rfl⟩ := List.mem_map.1 hx
      exact (hc r hr a).le) ⟨_, List.mem_map.2 ⟨r0, hr0, rfl⟩, (hc r0 hr0 a).ge⟩ (hd n)
    rw [List.length_map] at hi
    set r := srv.raggedIndex.getD v 0 + i with hr
    have hmem : r ∈ srv.block v := by
      unfold FloatServer.block at hi ⊢
      rw [List.length_range'] at hi
      rw [List.mem_range'_1]
      omega
    have hnd : (srv.block v).Nodup := List.nodup_range'
    have hle : f1 r ≤ n := by
      rw [← h2.sum]
      exact List.single_le_sum (by
        intro x hx
        obtain ⟨r, hr, rfl⟩ := List.mem_map.1 hx
        exact h2.nonneg r hr) _ (List.mem_map.2 ⟨r, hmem, rfl⟩)
    have h0 := h2.nonneg r hmem
    have hw : wrap8 (f1 r + 1) = f1 r + 1 := wrap8_id (by omega) (by omega)
    refine ⟨Function.update f1 r (f1 r + 1), ?_, ⟨?_, ?_⟩, ?_⟩
    · unfold floatDrawFeatures at h1 ⊢
      rw [List.range_succ, List.foldlM_append, h1]
      simp only [bind, Except.bind, List.foldlM_cons, h4, List.foldlM_nil, pure, Except.pure]
      rw [← hr, hw]
    · intro r' hr'
      by_cases e : r' = r
      · rw [e, Function.update_self]
        omega
      · rw [Function.update_of_ne e]
        exact h2.nonneg r' hr'
    · rw [sum_map_update hnd hmem, h2.sum]
      push_cast
      ring
    · intro r' hr'
      rw [Function.update_of_ne fun e : r' = r => hr' (e ▸ hmem)]
      exact h3 r' hr'

/-- The arrays of `sample` after a part of a program that has updated the vertices `U` and drawn the features `W`. -/
structure DrawInv (V : Nat) (srv : FloatServer M) (counts : List Int) (U W : List Nat) (s : FloatDraw M) : Prop where
  msgs : ServeInv V U s.messagesIn
  out : ∀ v < V, Msg (-48) 0 (s.messagesOut v)
  fresh : ∀ v < V, v ∉ W → ∀ r ∈ srv.block v, s.featSample r = 0
  drawn : ∀ v < V, v ∈ W → Observed (srv.block v) (counts.getD v 0) s.featSample

/-- Features are drawn once. -/
def Downs (V : Nat) : List Nat → List Instr → Prop
  | _, [] => True
  | W, i :: is => if i.op = .DOWN then i.v < V ∧ i.v ∉ W ∧ Downs V (i.v :: W) is else Downs V W is

theorem out_update {V : Nat} {out : Nat → Fin M → Flt} (h : ∀ v < V, Msg (-48) 0 (out v)) {v : Nat} {f : Fin M → Flt} (hf : Msg (-48) 0 f) :
    ∀ w < V, Msg (-48) 0 (Function.update out v f w) := by
  intro w hw
  by_cases hwv : w = v
  · rw [hwv, Function.update_self]
    exact hf
  · rw [Function.update_of_ne hwv]
    exact h w hw

theorem floatServeOut_ok (O : Spec.ServeOpsOk A) {V E : Nat} {srv : FloatServer M} (B : ServeBounds V E srv) {s : FloatDraw M} {v v2 e : Nat} (he : e < E) (h : Msg (-48) 0 (s.messagesIn v)) :
    Msg (-94) 64 (floatServeOut A srv s v v2 e) := by
  refine ⟨fun b => ?_, ?_⟩
  · exact (FLe.mul O.ops.rnd (h.1 b) (transAt_bounds B he _ _ _ _).le (by norm_num)).weaken (by norm_num)
  · obtain ⟨b, hb⟩ := h.2
    exact ⟨b, (FGe.mul O.ops.rnd hb (transAt_bounds B he _ _ _ _).ge (by norm_num)).weaken (by norm_num)⟩

theorem DrawInv.numbers {V : Nat} {srv : FloatServer M} {counts : List Int} {U W : List Nat} {s : FloatDraw M} (I : DrawInv V srv counts U W s) {v : Nat} (hv : v < V) (a : Fin M) :
    (∃ q, s.messagesIn v a = some q ∧ 0 ≤ q ∧ q ≤ 1) ∧ ∃ q, s.messagesOut v a = some q ∧ 0 ≤ q ∧ q ≤ 1 := by
  obtain ⟨q, h1, -, h2, h3⟩ := (I.msgs.all v hv).1 a
  obtain ⟨q', h1', -, h2', h3'⟩ := (I.out v hv).1 a
  rw [zpow_zero] at h3 h3'
  exact ⟨⟨q, h1, h2, h3⟩, q', h1', h2', h3'⟩

/-- One instruction. -/
theorem floatSampleStep_ok (hM : M ≤ 128) (O : Spec.ServeOpsOk A) {V E : Nat} {srv : FloatServer M} (B : ServeBounds V E srv) (hne : ∀ v < V, srv.block v ≠ [])
    (hdisj : ∀ v < V, ∀ w < V, v ≠ w → ∀ r ∈ srv.block v, r ∉ srv.block w) {data : List Int} (hd : ∀ r, 0 ≤ data.getD r 0)
    (hsum : ∀ v < V, ((srv.block v).map fun r => data.getD r 0).sum ≤ 1) {counts : List Int} (hcounts : ∀ v, 0 ≤ counts.getD v 0 ∧ counts.getD v 0 ≤ 127)
    {draw : Nat → ℚ} {drawF : Nat → Nat → ℚ} (hu : ∀ v, Spec.IsDraw (draw v)) (hu' : ∀ v k, Spec.IsDraw (drawF v k))
    {i : Instr} {prog : List Instr} {U D W : List Nat} (hord : Orderly V E U D (i :: prog)) (hdown : Downs V W (i :: prog)) {s : FloatDraw M} (I : DrawInv V srv counts U W s) :
    ∃ U' D' W' s', floatSampleStep A srv counts data draw drawF s i = .ok s' ∧ Orderly V E U' D' prog ∧ Downs V W' prog ∧ DrawInv V srv counts U' W' s' ∧
      (∀ v, v ∈ W → v ∈ W') ∧ (i.op = .DOWN → i.v ∈ W' ∧ ∃ q, s.messagesOut i.v (s'.vertSample i.v) = some q ∧ 0 < q) := by
  obtain ⟨op, v, v2, e⟩ := i
  cases op with
  | UP =>
    obtain ⟨hv, hU, hD, hrest⟩ := hord
    exact ⟨_, _, W, _, rfl, hrest, hdown, ⟨serveInv_up O B hd hsum I.msgs hv hU, I.out, I.fresh, I.drawn⟩, fun _ h => h, fun h => by cases h⟩
  | IN =>
    obtain ⟨hv, hv2, he, hD, hD2, hrest⟩ := hord
    have hin := floatServeIn_ok hM O B (v := v) (v2 := v2) he (I.msgs.all v hv) (I.msgs.all v2 hv2)
    exact ⟨_, _, W, _, rfl, hrest, hdown, ⟨serveInv_update I.msgs ((hin.scale O.ops.rnd).weaken (by norm_num) (le_refl _)), I.out, I.fresh, I.drawn⟩, fun _ h => h, fun h => by cases h⟩
  | ROOT =>
    obtain ⟨hv, hD, hrest⟩ := hord
    exact ⟨_, _, W, _, rfl, hrest, hdown, ⟨I.msgs, out_update I.out (I.msgs.all v hv), I.fresh, I.drawn⟩, fun _ h => h, fun h => by cases h⟩
  | OUT =>
    obtain ⟨hv, hv2, he, hD, hrest⟩ := hord
    have hout := floatServeOut_ok O B (s := s) (v := v) (v2 := v2) he (I.msgs.all v hv)
    exact ⟨_, _, W, _, rfl, hrest, hdown, ⟨I.msgs, out_update I.out ((hout.scale O.ops.rnd).weaken (by norm_num) (le_refl _)), I.fresh, I.drawn⟩, fun _ h => h, fun h => by cases h⟩
  | DOWN =>
    unfold Downs at hdown
    rw [if_pos rfl] at hdown
    obtain ⟨hv, hW, hdown⟩ := hdown
    obtain ⟨a, q, h1, h2, h3⟩ := floatClass_ok O.ops (I.out v hv) (hu v)
    obtain ⟨n, hn⟩ : ∃ n : Nat, counts.getD v 0 = n := ⟨_, (Int.toNat_of_nonneg (hcounts v).1).symm⟩
    have hn2 : (counts.getD v 0).toNat = n := by rw [hn]; rfl
    obtain ⟨f', h4, h5, h6⟩ := floatDrawFeatures_ok O (B.cond v hv) (hne v hv) a (hu' v) n (by have := (hcounts v).2; omega) (I.fresh v hv hW)
    refine ⟨U, D, v :: W, { s with vertSample := Function.update s.vertSample v a, featSample := f' }, ?_, hord, hdown, ⟨I.msgs, I.out, ?_, ?_⟩, ?_, ?_⟩
    · simp only [floatSampleStep, h1, hn2, h4, bind, Except.bind]
    · intro w hw hwW r hr
      rw [List.mem_cons, not_or] at hwW
      show f' r = 0
      rw [h6 r (hdisj w hw v hv hwW.1 r hr)]
      exact I.fresh w hw hwW.2 r hr
    · intro w hw hwW
      by_cases hwv : w = v
      · rw [hwv, hn]
        exact h5
      · have := I.drawn w hw ((List.mem_cons.1 hwW).resolve_left hwv)
        have e : ∀ r ∈ srv.block w, f' r = s.featSample r := fun r hr => h6 r (hdisj w hw v hv hwv r hr)
        refine ⟨fun r hr => ?_, ?_⟩
        · show 0 ≤ f' r
          rw [e r hr]
          exact this.nonneg r hr
        · show ((srv.block w).map f').sum = _
          rw [List.map_congr_left e]
          exact this.sum
    · exact fun w hw => List.mem_cons_of_mem _ hw
    · intro _
      refine ⟨List.mem_cons_self, q, ?_, h3⟩
      show s.messagesOut v (Function.update s.vertSample v a v) = some q
      rw [Function.update_self]
      exact h2

end

/-! ### Programs of trees -/

theorem downs_append {V : Nat} (l : List Instr) (hl : ∀ i ∈ l, i.op ≠ .DOWN) (W : List Nat) (rest : List Instr) (h : Downs V W rest) : Downs V W (l ++ rest) := by
  induction l with
  | nil => exact h
  | cons i l ih =>
    rw [List.cons_append, Downs, if_neg (hl i List.mem_cons_self)]
    exact ih fun i hi => hl i (List.mem_cons_of_mem _ hi)

theorem downs_outBlocks {V r : Nat} {par eid : Nat → Nat} (l : List Nat) (hnd : l.Nodup) (hl : ∀ v ∈ l, v < V) (W : List Nat) (hW : ∀ v ∈ l, v ∉ W) :
    Downs V W (l.flatMap (outBlock r par eid)) := by
  induction l generalizing W with
  | nil => trivial
  | cons v l ih =>
    rw [List.nodup_cons] at hnd
    have hrest : Downs V (v :: W) (l.flatMap (outBlock r par eid)) := ih hnd.2 (fun w hw => hl w (List.mem_cons_of_mem _ hw)) (v :: W) (by
      intro w hw
      rw [List.mem_cons, not_or]
      exact ⟨fun e => hnd.1 (e ▸ hw), hW w (List.mem_cons_of_mem _ hw)⟩)
    have hdown : Downs V W (⟨.DOWN, v, 0, 0⟩ :: l.flatMap (outBlock r par eid)) := by
      rw [Downs, if_pos rfl]
      exact ⟨hl v List.mem_cons_self, hW v List.mem_cons_self, hrest⟩
    rw [List.flatMap_cons]
    unfold outBlock
    split
    · exact hdown
    · show Downs V W (⟨.OUT, v, par v, eid v⟩ :: ⟨.DOWN, v, 0, 0⟩ :: _)
      rw [Downs, if_neg (by simp)]
      exact hdown

theorem filter_flatMap_in (ch : Nat → List Nat) (eid : Nat → Nat) (L : List Nat) :
    ((L.flatMap (inBlock ch eid)).filter fun i => i.op = .IN).length = (L.flatMap ch).length := by
  induction L with
  | nil => rfl
  | cons v L ih =>
    rw [List.flatMap_cons, List.flatMap_cons, List.filter_append, List.length_append, List.length_append, ih]
    congr 1
    unfold inBlock
    rw [List.filter_cons_of_neg (by simp), List.filter_eq_self.2 (by
      intro i hi
      obtain ⟨c, -, rfl⟩ := List.mem_map.1 hi
      simp), List.length_map]

theorem serve_program {V : Nat} {grid : Grid} (ht : IsTree V (gridEdges grid)) (hids : ∀ c ∈ grid, c.1 < grid.length) {prog : List Instr} (hprog : makeProgram grid none = .ok prog) :
    Orderly V (V - 1) [] [] prog ∧ Downs V [] prog ∧ (∃ i ∈ prog, i.op = .ROOT) ∧ (prog.filter fun i => i.op = .IN).length + 1 = V ∧ ∀ v < V, ∃ i ∈ prog, i.op = .DOWN ∧ i.v = v := by
  obtain ⟨c, hc1, hc2⟩ := findCenter_spec ht
  obtain ⟨d, par, ch, eid, L, Rt, T, h1, -, hp⟩ := makeProgram_some ht hc2.1
  have hp' : makeProgram grid none = .ok (progOf c par ch eid L) := by
    simp only [makeProgram, hc1, bind, Except.bind] at hp ⊢
    exact hp
  rw [hp'] at hprog
  obtain rfl := Except.ok.inj hprog
  have hgrid : grid.length = V - 1 := by
    have := ht.card
    simp only [gridEdges, List.length_map] at this
    omega
  have hpar : ∀ v < V, v ≠ c → par v < V ∧ eid v < V - 1 := by
    intro v hv hvr
    refine ⟨Rt.par_lt v hv hvr, ?_⟩
    rw [← hgrid]
    rcases h1 v hv hvr with h | h <;> exact hids _ h
  refine ⟨orderly_progOf T hpar, ?_, ⟨_, mem_progOf.2 (.inr (.inl rfl)), rfl⟩, ?_, ?_⟩
  · unfold progOf
    refine downs_append _ ?_ [] _ (downs_outBlocks L T.nodup (fun v hv => T.mem.1 hv) [] (by simp))
    intro i hi
    rcases List.mem_append.1 hi with hi | hi
    · obtain ⟨v, -, hi⟩ := List.mem_flatMap.1 hi
      unfold inBlock at hi
      rcases List.mem_cons.1 hi with rfl | hi
      · simp
      · obtain ⟨c, -, rfl⟩ := List.mem_map.1 hi
        simp
    · rw [List.mem_singleton] at hi
      rw [hi]
      simp
  · unfold progOf
    rw [List.filter_append, List.filter_append, List.length_append, List.length_append, filter_flatMap_in]
    have e1 : ([⟨.ROOT, c, 0, 0⟩] : List Instr).filter (fun i => i.op = .IN) = [] := rfl
    have e2 : (L.flatMap (outBlock c par eid)).filter (fun i => i.op = .IN) = [] := by
      rw [List.filter_eq_nil_iff]
      intro i hi
      obtain ⟨v, -, hi⟩ := List.mem_flatMap.1 hi
      unfold outBlock at hi
      split at hi
      · rw [List.mem_singleton] at hi
        rw [hi]
        simp
      · rcases List.mem_cons.1 hi with rfl | hi
        · simp
        · rw [List.mem_singleton] at hi
          rw [hi]
          simp
    have e3 : (L.reverse.flatMap ch).length = (L.flatMap ch).length := ((List.reverse_perm L).flatMap_right _).length_eq
    rw [e1, e2, e3, T.sum_ch.length_eq]
    exact T.filter_length
  · intro v hv
    refine ⟨⟨.DOWN, v, 0, 0⟩, mem_progOf.2 (.inr (.inr ⟨v, T.mem.2 hv, ?_⟩)), rfl, rfl⟩
    unfold outBlock
    split <;> simp

section
variable {K : Type} [Field K] [LinearOrder K] [IsStrictOrderedRing K] {M : Nat} [NeZero M] {A : ServeOps M} {model : Model K M}

theorem singleRow_sum {data : List Int} (hrow : Spec.SingleRow model data) {srv : FloatServer M} (hr : srv.raggedIndex = model.raggedIndex) :
    ∀ v < model.tree.numVertices, ((srv.block v).map fun r => data.getD r 0).sum ≤ 1 := by
  intro v hv
  have := hrow.2 v hv
  have e : srv.block v = columnList model v := by
    unfold FloatServer.block columnList
    rw [hr]
  rw [e]
  have h2 : ((columnList model v).map fun r => data.getD r 0).sum = ∑ r ∈ (columnList model v).toFinset, data.getD r 0 := (List.sum_toFinset _ List.nodup_range').symm
  have h3 : (columnList model v).toFinset = columns model v := by
    ext r
    rw [List.mem_toFinset, mem_columnList]
  rw [h2, h3]
  exact this

/-- **C68**. For every model with counts below `2 ^ 24`, at most 128 clusters and features of at most 256 values, and every row with at most one observation per feature,
`logprob` computed in float32 is a finite number: no sum of a message vanishes, and the logarithms add up to at most 104 per feature. -/
theorem floatLogprob_ok (O : Spec.ServeOpsOk A) (h : Model.Valid model) (S : Spec.SmallCounts model) (hV : model.tree.numVertices ≤ 2 ^ 20) {data : List Int} (hrow : Spec.SingleRow model data) :
    ∃ srv, FloatServer.init A model = .ok srv ∧ ∃ q, srv.logprob A data = some (some q) ∧ |q| ≤ 104 * model.tree.numVertices := by
  have ht : IsTree model.tree.numVertices (gridEdges model.tree.treeGrid) := h.isTree
  have hids : ∀ c ∈ model.tree.treeGrid, c.1 < model.tree.treeGrid.length := by
    obtain ⟨edges, hs⟩ := h.sorted
    rw [hs]
    exact makeTree_ids edges
  obtain ⟨srv, hs⟩ : ∃ srv, FloatServer.init A model = .ok srv := by
    obtain ⟨c, hc1, hc2⟩ := findCenter_spec ht
    obtain ⟨d, par, ch, eid, L, -, -, -, -, hp⟩ := makeProgram_some ht hc2.1
    have hp' : makeProgram model.tree.treeGrid none = .ok (progOf c par ch eid L) := by
      simp only [makeProgram, hc1, bind, Except.bind] at hp ⊢
      exact hp
    simp only [FloatServer.init, hp', bind, Except.bind]
    exact ⟨_, rfl⟩
  refine ⟨srv, hs, ?_⟩
  obtain ⟨B, hp, hr⟩ := floatServer_bounds O h S hs
  obtain ⟨h1, -, h2, h3, -⟩ := serve_program ht hids hp
  exact floatLogLoop_ok S.clusters O B hrow.1 (singleRow_sum hrow hr) srv.program h2 h1 (s := ⟨srv.vert, some 0⟩) (serveInv_init B) (n := 0) (l := 0) rfl (by simp) (by omega) hV

/-- The state of `sample` after `k` instructions. -/
def FloatServer.sampleTake {M : Nat} [NeZero M] (A : ServeOps M) (srv : FloatServer M) (counts data : List Int) (draw : Nat → ℚ) (drawF : Nat → Nat → ℚ) (k : Nat) : Py (FloatDraw M) :=
  FloatServer.sample A { srv with program := srv.program.take k } counts data draw drawF

theorem floatSampleLoop_ok (hM : M ≤ 128) (O : Spec.ServeOpsOk A) {V E : Nat} {srv : FloatServer M} (B : ServeBounds V E srv) (hne : ∀ v < V, srv.block v ≠ [])
    (hdisj : ∀ v < V, ∀ w < V, v ≠ w → ∀ r ∈ srv.block v, r ∉ srv.block w) {data : List Int} (hd : ∀ r, 0 ≤ data.getD r 0)
    (hsum : ∀ v < V, ((srv.block v).map fun r => data.getD r 0).sum ≤ 1) {counts : List Int} (hcounts : ∀ v, 0 ≤ counts.getD v 0 ∧ counts.getD v 0 ≤ 127)
    {draw : Nat → ℚ} {drawF : Nat → Nat → ℚ} (hu : ∀ v, Spec.IsDraw (draw v)) (hu' : ∀ v k, Spec.IsDraw (drawF v k))
    (prog : List Instr) {U D W : List Nat} (hord : Orderly V E U D prog) (hdown : Downs V W prog) {s : FloatDraw M} (I : DrawInv V srv counts U W s) :
    (∃ U' W' s', prog.foldlM (floatSampleStep A srv counts data draw drawF) s = .ok s' ∧ DrawInv V srv counts U' W' s' ∧
      (∀ v, v ∈ W ∨ (∃ i ∈ prog, i.op = .DOWN ∧ i.v = v) → v ∈ W')) ∧
    ∀ k, ∃ s', (prog.take k).foldlM (floatSampleStep A srv counts data draw drawF) s = .ok s' ∧
      (∀ v < V, ∀ a, (∃ q, s'.messagesIn v a = some q ∧ 0 ≤ q ∧ q ≤ 1) ∧ ∃ q, s'.messagesOut v a = some q ∧ 0 ≤ q ∧ q ≤ 1) ∧
      ∀ i, prog[k]? = some i → i.op = .DOWN → ∃ s'', floatSampleStep A srv counts data draw drawF s' i = .ok s'' ∧ ∃ q, s'.messagesOut i.v (s''.vertSample i.v) = some q ∧ 0 < q := by
  induction prog generalizing U D W s with
  | nil =>
    refine ⟨⟨U, W, s, rfl, I, ?_⟩, fun k => ⟨s, by simp [pure, Except.pure], fun v hv a => I.numbers hv a, by simp⟩⟩
    rintro v (h | ⟨i, hi, -⟩)
    · exact h
    · cases hi
  | cons i prog ih =>
    obtain ⟨U', D', W', s', h1, h2, h3, h4, h5, h6⟩ := floatSampleStep_ok hM O B hne hdisj hd hsum hcounts hu hu' hord hdown I
    obtain ⟨⟨U'', W'', s'', h7, h8, h9⟩, h10⟩ := ih h2 h3 h4
    refine ⟨⟨U'', W'', s'', ?_, h8, ?_⟩, ?_⟩
    · rw [List.foldlM_cons, h1]
      exact h7
    · rintro v (h | ⟨j, hj, hj1, hj2⟩)
      · exact h9 v (.inl (h5 v h))
      · rcases List.mem_cons.1 hj with rfl | hj
        · exact h9 v (.inl (hj2 ▸ (h6 hj1).1))
        · exact h9 v (.inr ⟨j, hj, hj1, hj2⟩)
    · intro k
      cases k with
      | zero =>
        refine ⟨s, rfl, fun v hv a => I.numbers hv a, ?_⟩
        intro j hj hj1
        rw [List.getElem?_cons_zero, Option.some.injEq] at hj
        subst hj
        exact ⟨s', h1, (h6 hj1).2⟩
      | succ k =>
        obtain ⟨s3, h11, h12, h13⟩ := h10 k
        refine ⟨s3, ?_, h12, ?_⟩
        · rw [List.take_succ_cons, List.foldlM_cons, h1]
          exact h11
        · intro j hj hj1
          rw [List.getElem?_cons_succ] at hj
          exact h13 j hj hj1

/-- **C68**. Under the same conditions `sample` works in float32, whatever `np.random.rand` returns: it returns with the requested number of observations of each feature;
all messages are numbers between zero and one after every instruction; and every class that is drawn had a positive weight. -/
theorem floatSample_ok (O : Spec.ServeOpsOk A) (h : Model.Valid model) (S : Spec.SmallCounts model) (hne : ∀ v < model.tree.numVertices, (columns model v).Nonempty)
    {data : List Int} (hrow : Spec.SingleRow model data) {counts : List Int} (hcounts : ∀ v, 0 ≤ counts.getD v 0 ∧ counts.getD v 0 ≤ 127)
    {draw : Nat → ℚ} {drawF : Nat → Nat → ℚ} (hu : ∀ v, Spec.IsDraw (draw v)) (hu' : ∀ v k, Spec.IsDraw (drawF v k)) {srv : FloatServer M} (hs : FloatServer.init A model = .ok srv) :
    (∃ s, srv.sample A counts data draw drawF = .ok s ∧
      ∀ v < model.tree.numVertices, ∑ r ∈ columns model v, s.featSample r = counts.getD v 0 ∧ ∀ r ∈ columns model v, 0 ≤ s.featSample r) ∧
    ∀ k, ∃ s, srv.sampleTake A counts data draw drawF k = .ok s ∧
      (∀ v < model.tree.numVertices, ∀ a, (∃ q, s.messagesIn v a = some q ∧ 0 ≤ q ∧ q ≤ 1) ∧ ∃ q, s.messagesOut v a = some q ∧ 0 ≤ q ∧ q ≤ 1) ∧
      ∀ i, srv.program[k]? = some i → i.op = .DOWN →
        ∃ s', srv.sampleTake A counts data draw drawF (k + 1) = .ok s' ∧ ∃ q, s.messagesOut i.v (s'.vertSample i.v) = some q ∧ 0 < q := by
  have ht : IsTree model.tree.numVertices (gridEdges model.tree.treeGrid) := h.isTree
  have hids : ∀ c ∈ model.tree.treeGrid, c.1 < model.tree.treeGrid.length := by
    obtain ⟨edges, hs⟩ := h.sorted
    rw [hs]
    exact makeTree_ids edges
  obtain ⟨B, hp, hr⟩ := floatServer_bounds O h S hs
  obtain ⟨h1, h2, -, -, h3⟩ := serve_program ht hids hp
  have hblock : ∀ v, srv.block v = columnList model v := by
    intro v
    unfold FloatServer.block columnList
    rw [hr]
  obtain ⟨⟨U, W, s, h4, h5, h6⟩, h7⟩ := floatSampleLoop_ok (A := A) (srv := srv) S.clusters O B (fun v hv => by
      rw [hblock]
      obtain ⟨r, hr⟩ := hne v hv
      exact List.ne_nil_of_mem (mem_columnList.2 hr)) (fun v hv w hw hvw r hr hr' => by
      rw [hblock, mem_columnList] at hr hr'
      exact hvw (columns_disjoint h hv hw hr hr')) hrow.1 (singleRow_sum hrow hr) hcounts hu hu' srv.program h1 h2
    (s := { messagesIn := srv.vert, messagesOut := srv.vert, vertSample := fun _ => 0, featSample := fun _ => 0 })
    ⟨serveInv_init B, fun v hv => (B.vert v hv).weaken (by norm_num) (le_refl _), fun v _ _ r _ => rfl, fun v _ hv => by cases hv⟩
  refine ⟨⟨s, h4, fun v hv => ?_⟩, fun k => ?_⟩
  · obtain ⟨h8, h9⟩ := h5.drawn v hv (h6 v (.inr (h3 v hv)))
    rw [hblock] at h8 h9
    refine ⟨?_, fun r hr => h8 r (mem_columnList.2 hr)⟩
    have h3 : (columnList model v).toFinset = columns model v := by
      ext r
      rw [List.mem_toFinset, mem_columnList]
    rw [← h9, ← h3]
    exact List.sum_toFinset _ List.nodup_range'
  · obtain ⟨s', h8, h9, h10⟩ := h7 k
    refine ⟨s', h8, h9, fun i hi hi' => ?_⟩
    obtain ⟨s'', h11, h12⟩ := h10 i hi hi'
    refine ⟨s'', ?_, h12⟩
    show List.foldlM (m := Py) (floatSampleStep A srv counts data draw drawF) _ (srv.program.take (k + 1)) = _
    rw [List.take_succ, hi, List.foldlM_append, h8]
    show List.foldlM (m := Py) _ s' [i] = _
    rw [List.foldlM_cons, h11]
    rfl

end

end TreeCat
