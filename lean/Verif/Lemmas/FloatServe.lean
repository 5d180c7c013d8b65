import Verif.Lemmas.FloatRow
import Verif.Lemmas.Server
import Verif.Model.FloatServe

/-! # Bounds in the floating point server -/

namespace TreeCat

open Util Spec

/-- What is assumed of `np.sum` on nonnegative float32 numbers: the result is a float32 that is at least every summand, and at most as many times a power of two as there are
summands if that bounds the summands. Any order of summation satisfies this. -/
def Spec.SumOk (sum : List Flt → Flt) : Prop :=
  ∀ l : List ℚ, l.length ≤ 2 ^ 24 → (∀ x ∈ l, IsFloat 24 (-149) x ∧ 0 ≤ x) →
    ∃ d, sum (l.map some) = some d ∧ IsFloat 24 (-149) d ∧ 0 ≤ d ∧ (∀ x ∈ l, x ≤ d) ∧ ∀ k : Int, -149 ≤ k → (∀ x ∈ l, x ≤ 2 ^ k) → d ≤ l.length * 2 ^ k

/-- The assumptions on the arithmetic of the server: powers with exponents zero and one are exact, and the logarithm of a positive float32 is a number that is not larger than
logarithms of float32 numbers are. -/
structure Spec.ServeOpsOk {M : Nat} (A : ServeOps M) : Prop where
  ops : Spec.OpsOk A.toFloatOps
  sum : Spec.SumOk A.sum
  pow : ∀ q, IsFloat 24 (-149) q → 0 ≤ q → A.pow (some q) 0 = some 1 ∧ A.pow (some q) 1 = some q
  log : ∀ q, IsFloat 24 (-149) q → 0 < q → q ≤ 2 ^ 127 → ∃ l, A.log (some q) = some l ∧ |l| ≤ 104

/-- Float32 numbers between `2 ^ lo` and `2 ^ hi`. -/
def FBd (lo hi : Int) (x : Flt) : Prop := ∃ q, x = some q ∧ IsFloat 24 (-149) q ∧ 2 ^ lo ≤ q ∧ q ≤ 2 ^ hi

theorem FBd.le {lo hi : Int} {x : Flt} (h : FBd lo hi x) : FLe hi x := by
  obtain ⟨q, h1, h2, h3, h4⟩ := h
  exact ⟨q, h1, h2, le_trans (two_zpow_pos _).le h3, h4⟩

theorem FBd.ge {lo hi : Int} {x : Flt} (h : FBd lo hi x) : FGe lo x := by
  obtain ⟨q, h1, h2, h3, h4⟩ := h
  exact ⟨q, h1, h3⟩

theorem FBd.weaken {a b c d : Int} (h1 : c ≤ a) (h2 : b ≤ d) {x : Flt} (h : FBd a b x) : FBd c d x := by
  obtain ⟨q, h3, h4, h5, h6⟩ := h
  exact ⟨q, h3, h4, le_trans (zpow_mono h1) h5, le_trans h6 (zpow_mono h2)⟩

theorem fbd_of {lo hi : Int} {x : Flt} (h1 : FLe hi x) (h2 : FGe lo x) : FBd lo hi x := by
  obtain ⟨q, rfl, h3, h4, h5⟩ := h1
  obtain ⟨q', h6, h7⟩ := h2
  obtain rfl := Option.some.inj h6
  exact ⟨q, rfl, h3, h7, h5⟩

section
variable {rnd : ℚ → ℚ} (R : MonoRounding 24 (-149) rnd)
include R

theorem FBd.div {a b c d : Int} {x y : Flt} (hx : FBd a b x) (hy : FBd c d y) (h1 : -149 ≤ a - d) (h2 : -149 ≤ b - c) : FBd (a - d) (b - c) (Flt.div rnd x y) := by
  obtain ⟨r, rfl, -, hr1, hr2⟩ := hy
  have hr0 : 0 < r := lt_of_lt_of_le (two_zpow_pos c) hr1
  exact fbd_of (FLe.div R hx.le hr1 h2) (FGe.div R hx.ge hr0 hr2 h1)

theorem FLe.divLe {hi : Int} {x : Flt} {d : ℚ} (hx : FLe hi x) (h : ∀ q, x = some q → q ≤ d) (hd : 0 < d) : FLe 0 (Flt.div rnd x (some d)) := by
  obtain ⟨q, rfl, -, h2, -⟩ := hx
  refine ⟨rnd (q / d), by simp [Flt.div, hd.ne'], R.float _, R.nonneg (div_nonneg h2 hd.le), R.le_of (isFloat_pow (by norm_num)) ?_⟩
  rw [zpow_zero]
  exact (div_le_one hd).2 (h q rfl)

end

theorem map_some {ι : Type} {f : ι → Flt} {g : ι → ℚ} (l : List ι) (h : ∀ a ∈ l, f a = some (g a)) : l.map f = (l.map g).map some := by
  rw [List.map_map]
  exact List.map_congr_left fun a ha => h a ha

/-- The sum of numbers that are not all zero. -/
theorem sum_bounds {sum : List Flt → Flt} (hs : Spec.SumOk sum) {ι : Type} {f : ι → Flt} {l : List ι} {n : Nat} (hl : l.length ≤ 2 ^ n) (hn : n ≤ 24) {lo hi : Int} (hhi : -149 ≤ hi)
    (h : ∀ a ∈ l, FLe hi (f a)) (h' : ∃ a ∈ l, FGe lo (f a)) : ∃ d, sum (l.map f) = some d ∧ IsFloat 24 (-149) d ∧ 2 ^ lo ≤ d ∧ d ≤ 2 ^ (hi + n) ∧ 0 < d ∧ ∀ a ∈ l, ∀ q, f a = some q → q ≤ d := by
  have hg : ∀ a ∈ l, f a = some ((f a).getD 0) := by
    intro a ha
    obtain ⟨q, hq, -⟩ := h a ha
    rw [hq]
    rfl
  have hlen : (l.map fun a => (f a).getD 0).length ≤ 2 ^ 24 := by
    rw [List.length_map]
    exact le_trans hl (Nat.pow_le_pow_right (by norm_num) hn)
  obtain ⟨d, h1, h2, h3, h4, h5⟩ := hs (l.map fun a => (f a).getD 0) hlen (by
    intro x hx
    obtain ⟨a, ha, rfl⟩ := List.mem_map.1 hx
    obtain ⟨q, hq, h2, h3, -⟩ := h a ha
    rw [hq]
    exact ⟨h2, h3⟩)
  have hle : ∀ a ∈ l, ∀ q, f a = some q → q ≤ d := by
    intro a ha q hq
    have := h4 _ (List.mem_map.2 ⟨a, ha, rfl⟩)
    rw [hq] at this
    exact this
  obtain ⟨a, ha, q, hq, hlo⟩ := h'
  have hlod := le_trans hlo (hle a ha q hq)
  refine ⟨d, by rw [map_some l hg]; exact h1, h2, hlod, ?_, lt_of_lt_of_le (two_zpow_pos lo) hlod, hle⟩
  have := h5 hi hhi (by
    intro x hx
    obtain ⟨a, ha, rfl⟩ := List.mem_map.1 hx
    obtain ⟨q, hq, -, -, h3⟩ := h a ha
    rw [hq]
    exact h3)
  refine le_trans this ?_
  rw [zpow_split, mul_comm, List.length_map, zpow_natCast]
  have : ((l.length : Nat) : ℚ) ≤ 2 ^ n := by exact_mod_cast hl
  exact mul_le_mul_of_nonneg_left this (two_zpow_pos hi).le

/-- Dividing a vector by its sum. -/
theorem Msg.norm {M : Nat} [NeZero M] (hM : M ≤ 128) {A : ServeOps M} (O : Spec.ServeOpsOk A) {lo hi : Int} (hhi : -149 ≤ hi) {f : Fin M → Flt} (h : Msg lo hi f) :
    (∃ d, A.sum ((List.finRange M).map f) = some d ∧ IsFloat 24 (-149) d ∧ 2 ^ lo ≤ d ∧ d ≤ 2 ^ (hi + 7)) ∧
      Msg (-8) 0 fun a => Flt.div A.rnd (f a) (A.sum ((List.finRange M).map f)) := by
  have hlen : (List.finRange M).length ≤ 2 ^ 7 := by simpa using hM
  obtain ⟨b, hb⟩ := h.2
  obtain ⟨d, h1, h2, h3, h4, h5, h6⟩ := sum_bounds O.sum hlen (by norm_num) hhi (fun a _ => h.1 a) ⟨b, List.mem_finRange b, hb⟩
  refine ⟨⟨d, h1, h2, h3, h4⟩, ?_, ?_⟩
  · intro a
    rw [h1]
    exact FLe.divLe O.ops.rnd (h.1 a) (fun q hq => h6 a (List.mem_finRange a) q hq) h5
  · choose g g1 g2 g3 g4 using h.1
    obtain ⟨r, -, hmax, a, ha⟩ := fltMax_spec g1
    have hr : 0 < r := by
      obtain ⟨q, hq, hlo⟩ := hb
      have : q = g b := by rw [g1 b] at hq; exact (Option.some.inj hq).symm
      have := hmax b
      have := two_zpow_pos lo
      linarith
    obtain ⟨k, hk1, hk2⟩ := exists_binade hr
    have hk : -149 ≤ k := by
      have h7 : (2 : ℚ) ^ (-149 : Int) ≤ r := (ha ▸ g2 a).ge hr
      by_contra hcon
      have : (2 : ℚ) ^ (k + 1) ≤ 2 ^ (-149 : Int) := zpow_mono (by omega)
      linarith
    obtain ⟨d', h1', -, -, h4', -, -⟩ := sum_bounds O.sum hlen (by norm_num) (lo := lo) (hi := k + 1) (by omega) (f := f) (fun c _ => ⟨g c, g1 c, g2 c, g3 c, le_trans (hmax c) hk2.le⟩) ⟨b, List.mem_finRange b, hb⟩
    rw [h1] at h1'
    obtain rfl := Option.some.inj h1'
    refine ⟨a, ?_⟩
    rw [h1]
    have := FGe.div O.ops.rnd (a := k) (x := f a) ⟨g a, g1 a, ha ▸ hk1⟩ h5 h4' (by push_cast; omega)
    exact this.weaken (by push_cast; omega)

/-! ### The arrays -/

/-- The bounds on counts under which the server is safe. -/
structure Spec.SmallCounts {K : Type} {M : Nat} (model : Model K M) : Prop where
  clusters : M ≤ 128
  vert : ∀ v < model.tree.numVertices, ∀ m, 0 ≤ model.vertSS v m ∧ model.vertSS v m < 2 ^ 24
  edge : ∀ c ∈ model.tree.treeGrid, ∀ a b, 0 ≤ model.edgeSS c.1 a b ∧ model.edgeSS c.1 a b < 2 ^ 24
  feat : ∀ v < model.tree.numVertices, ∀ r ∈ columns model v, ∀ m, 0 ≤ model.featSS r m ∧ model.featSS r m < 2 ^ 24
  width : ∀ v < model.tree.numVertices, (columns model v).card ≤ 256

/-- The ranges of the arrays of the server. -/
structure ServeBounds {M : Nat} (V E : Nat) (srv : FloatServer M) : Prop where
  vert : ∀ v < V, Msg (-8) 0 (srv.vert v)
  trans : ∀ e < E, ∀ a b, FBd (-46) 64 (srv.trans e a b)
  cond : ∀ v < V, ∀ r ∈ srv.block v, ∀ a, FBd (-40) 0 (srv.cond r a)

section
set_option linter.unusedSectionVars false
variable {K : Type} [Field K] [LinearOrder K] [IsStrictOrderedRing K] {M : Nat} [NeZero M] {A : ServeOps M} {model : Model K M}

omit [NeZero M] in
theorem fltPrior_bounds (O : Spec.ServeOpsOk A) {c : Int} (h0 : 0 ≤ c) (h1 : c < 2 ^ 24) {p : ℚ} {lo : Int} (hlo : -149 ≤ lo) (hp1 : 2 ^ lo ≤ p) (hp2 : p ≤ 1 / 2) :
    FBd lo 24 (fltPrior A c p) := by
  have R := O.ops.rnd
  have hc : A.rnd c = c := R.id (by
    have := isFloat_of_le (p := 24) (emin := -149) (e := 0) (by norm_num) (by norm_num) (m := c) (by rw [abs_of_nonneg h0]; exact h1.le)
    simpa using this)
  have hp3 : (2 : ℚ) ^ lo ≤ A.rnd p := R.ge_of (isFloat_pow hlo) hp1
  have hp4 : A.rnd p ≤ 1 / 2 := R.le_of (by have := isFloat_pow (e := -1) (by norm_num); norm_num at this ⊢; exact this) hp2
  have hc0 : (0 : ℚ) ≤ c := by exact_mod_cast h0
  have hc1 : (c : ℚ) + 1 ≤ 2 ^ 24 := by exact_mod_cast h1
  refine ⟨A.rnd (A.rnd c + A.rnd p), rfl, R.float _, R.ge_of (isFloat_pow hlo) ?_, R.le_of (isFloat_pow (by norm_num)) ?_⟩
  · rw [hc]
    linarith
  · rw [hc]
    have : (2 : ℚ) ^ (24 : Int) = 2 ^ 24 := by norm_num
    rw [this]
    linarith

theorem fltHalf_bounds (O : Spec.ServeOpsOk A) (hM : M ≤ 128) : 2 ^ (-8 : Int) ≤ fltHalf A ∧ fltHalf A ≤ 1 / 2 := by
  have hM1 : (1 : ℚ) ≤ M := by exact_mod_cast Nat.one_le_iff_ne_zero.2 (NeZero.ne M)
  have hM2 : (M : ℚ) ≤ 128 := by exact_mod_cast hM
  have R := O.ops.rp.monoRounding
  have hf : ∀ e : Int, -1074 ≤ e → IsFloat 53 (-1074) (2 ^ e) := fun e he => ⟨1, e, by norm_num, he, by simp⟩
  constructor
  · refine R.ge_of (hf _ (by norm_num)) ?_
    rw [le_div_iff₀ (by linarith)]
    norm_num
    linarith
  · refine R.le_of (by have := hf (-1) (by norm_num); norm_num at this ⊢; exact this) ?_
    rw [div_le_iff₀ (by linarith)]
    linarith

theorem floatEdgeTrans_eq (vert : Nat → Fin M → Flt) : ∀ (grid : Grid) (edge : Nat → Fin M → Fin M → Flt), (grid.map Prod.fst).Nodup →
    (∀ c ∈ grid, floatEdgeTrans A grid vert edge c.1 = fun a b => Flt.div A.rnd (Flt.div A.rnd (edge c.1 a b) (vert c.2.1 a)) (vert c.2.2 b)) ∧
    ∀ e, e ∉ grid.map Prod.fst → floatEdgeTrans A grid vert edge e = edge e := by
  intro grid
  induction grid with
  | nil => intro edge _; exact ⟨by simp, fun _ _ => rfl⟩
  | cons c grid ih =>
    intro edge hn
    rw [List.map_cons, List.nodup_cons] at hn
    simp only [floatEdgeTrans, List.foldl_cons]
    obtain ⟨h1, h2⟩ := ih (Function.update (Function.update edge c.1 fun a b => Flt.div A.rnd (edge c.1 a b) (vert c.2.1 a)) c.1
      fun a b => Flt.div A.rnd ((Function.update edge c.1 fun a b => Flt.div A.rnd (edge c.1 a b) (vert c.2.1 a)) c.1 a b) (vert c.2.2 b)) hn.2
    refine ⟨?_, ?_⟩
    · intro c' hc'
      rcases List.mem_cons.1 hc' with rfl | hc'
      · refine (h2 _ hn.1).trans ?_
        rw [Function.update_self]
        funext a b
        rw [Function.update_self]
      · refine (h1 c' hc').trans ?_
        have hne : c'.1 ≠ c.1 := fun h => hn.1 (by rw [← h]; exact List.mem_map_of_mem hc')
        rw [Function.update_of_ne hne, Function.update_of_ne hne]
    · intro e he
      rw [List.map_cons, List.mem_cons, not_or] at he
      refine (h2 e he.2).trans ?_
      rw [Function.update_of_ne he.1, Function.update_of_ne he.1]

/-- The positions of a feature as a list. -/
def columnList (model : Model K M) (v : Nat) : List Nat :=
  List.range' (model.raggedIndex.getD v 0) (model.raggedIndex.getD (v + 1) 0 - model.raggedIndex.getD v 0)

theorem mem_columnList {v r : Nat} : r ∈ columnList model v ↔ r ∈ columns model v := by
  rw [mem_columns]
  unfold columnList
  rw [List.mem_range'_1]
  omega

omit [NeZero M] [LinearOrder K] [IsStrictOrderedRing K] [Field K] in
theorem length_columnList {v : Nat} : (columnList model v).length = (columns model v).card := by
  unfold columnList columns
  rw [List.length_range', Nat.card_Ico]

theorem floatFeatCond_eq (h : Model.Valid model) : ∀ n, n ≤ model.tree.numVertices →
    (∀ v < n, ∀ r ∈ columns model v, floatFeatCond A model.raggedIndex n model.featSS r = fun m => Flt.div A.rnd (fltPrior A (model.featSS r m) (fltHalf A))
      (A.sum ((columnList model v).map fun r' => fltPrior A (model.featSS r' m) (fltHalf A)))) ∧
    ∀ r, (∀ v < n, r ∉ columns model v) → floatFeatCond A model.raggedIndex n model.featSS r = fun m => fltPrior A (model.featSS r m) (fltHalf A) := by
  intro n
  induction n with
  | zero => intro _; exact ⟨fun v hv => by omega, fun r _ => rfl⟩
  | succ n ih =>
    intro hn
    obtain ⟨h1, h2⟩ := ih (by omega)
    have e : floatFeatCond A model.raggedIndex (n + 1) model.featSS
        = floatNormBlock A (floatFeatCond A model.raggedIndex n model.featSS) (model.raggedIndex.getD n 0) (model.raggedIndex.getD (n + 1) 0) := by
      unfold floatFeatCond; rw [List.range_succ, List.foldl_append]; rfl
    rw [e]
    have hraw : ∀ r ∈ columns model n, floatFeatCond A model.raggedIndex n model.featSS r = fun m => fltPrior A (model.featSS r m) (fltHalf A) := by
      intro r hr
      refine h2 r fun v hv hr' => ?_
      have := columns_disjoint h (by omega) (by omega) hr hr'
      omega
    refine ⟨?_, ?_⟩
    · intro v hv r hr
      funext m
      by_cases hvn : v = n
      · subst hvn
        have hr' := mem_columns.1 hr
        unfold floatNormBlock
        rw [if_pos hr', hraw r hr]
        congr 2
        refine List.map_congr_left fun r' hr' => ?_
        rw [hraw r' (mem_columnList.1 hr')]
      · have hr' : ¬ (model.raggedIndex.getD n 0 ≤ r ∧ r < model.raggedIndex.getD (n + 1) 0) := by
          intro hc
          have := columns_disjoint h (by omega) (by omega) hr (mem_columns.2 hc)
          omega
        unfold floatNormBlock
        rw [if_neg hr', h1 v (by omega) r hr]
    · intro r hr
      funext m
      have hr' : ¬ (model.raggedIndex.getD n 0 ≤ r ∧ r < model.raggedIndex.getD (n + 1) 0) :=
        fun hc => hr n (by omega) (mem_columns.2 hc)
      unfold floatNormBlock
      rw [if_neg hr', h2 r fun v hv => hr v (by omega)]

theorem floatVertProbs_bounds (O : Spec.ServeOpsOk A) (S : Spec.SmallCounts model) {v : Nat} (hv : v < model.tree.numVertices) :
    Msg (-8) 0 (floatVertProbs A model.vertSS v) ∧ ∀ a, FBd (-32) 0 (floatVertProbs A model.vertSS v a) := by
  have hb : ∀ a, FBd (-1) 24 (fltPrior A (model.vertSS v a) (1 / 2)) := fun a =>
    fltPrior_bounds O (S.vert v hv a).1 (S.vert v hv a).2 (by norm_num) (by norm_num) (le_refl _)
  have hm : Msg (-1) 24 fun a => fltPrior A (model.vertSS v a) (1 / 2) := ⟨fun a => (hb a).le, 0, (hb 0).ge⟩
  obtain ⟨⟨d, h1, h2, h3, h4⟩, h5⟩ := hm.norm S.clusters O (by norm_num)
  refine ⟨h5, fun a => fbd_of (h5.1 a) ?_⟩
  show FGe _ (Flt.div A.rnd _ _)
  rw [h1]
  exact FGe.div O.ops.rnd (hb a).ge (lt_of_lt_of_le (two_zpow_pos _) h3) h4 (by norm_num)

theorem floatEdgeProbs_bounds (O : Spec.ServeOpsOk A) (S : Spec.SmallCounts model) {c : Nat × Nat × Nat} (hc : c ∈ model.tree.treeGrid) (a b : Fin M) :
    FBd (-46) 0 (floatEdgeProbs A model.edgeSS c.1 a b) := by
  obtain ⟨p1, p2⟩ := fltHalf_bounds O S.clusters
  have hb : ∀ a b, FBd (-8) 24 (fltPrior A (model.edgeSS c.1 a b) (fltHalf A)) := fun a b =>
    fltPrior_bounds O (S.edge c hc a b).1 (S.edge c hc a b).2 (by norm_num) p1 p2
  have e : ((List.finRange M).flatMap fun a' => (List.finRange M).map fun b' => fltPrior A (model.edgeSS c.1 a' b') (fltHalf A))
      = ((List.finRange M).flatMap fun a' => (List.finRange M).map fun b' => (a', b')).map fun p => fltPrior A (model.edgeSS c.1 p.1 p.2) (fltHalf A) := by
    rw [List.map_flatMap]
    simp only [List.map_map]
    rfl
  have hmem : ∀ p : Fin M × Fin M, p ∈ (List.finRange M).flatMap fun a' => (List.finRange M).map fun b' => (a', b') := by
    intro p
    exact List.mem_flatMap.2 ⟨p.1, List.mem_finRange _, List.mem_map.2 ⟨p.2, List.mem_finRange _, rfl⟩⟩
  have hlen : ((List.finRange M).flatMap fun a' => (List.finRange M).map fun b' => (a', b')).length ≤ 2 ^ 14 := by
    have hM := S.clusters
    simp only [List.length_flatMap, List.length_map, List.length_finRange, List.map_const', List.sum_replicate, smul_eq_mul]
    exact le_trans (Nat.mul_le_mul hM hM) (by norm_num)
  obtain ⟨d, h1, h2, h3, h4, h5, h6⟩ := sum_bounds O.sum hlen (by norm_num) (hi := 24) (by norm_num) (fun p _ => (hb p.1 p.2).le) ⟨(a, b), hmem _, (hb a b).ge⟩
  unfold floatEdgeProbs
  rw [e, h1]
  exact fbd_of (FLe.divLe O.ops.rnd (hb a b).le (fun q hq => h6 (a, b) (hmem _) q hq) h5) (FGe.div O.ops.rnd (hb a b).ge h5 h4 (by norm_num))

theorem floatFeat_bounds' (O : Spec.ServeOpsOk A) (S : Spec.SmallCounts model) {v : Nat} (hv : v < model.tree.numVertices) {r : Nat} (hr : r ∈ columns model v) (m : Fin M) :
    FBd (-40) 0 (Flt.div A.rnd (fltPrior A (model.featSS r m) (fltHalf A)) (A.sum ((columnList model v).map fun r' => fltPrior A (model.featSS r' m) (fltHalf A)))) := by
  obtain ⟨p1, p2⟩ := fltHalf_bounds O S.clusters
  have hb : ∀ r ∈ columnList model v, FBd (-8) 24 (fltPrior A (model.featSS r m) (fltHalf A)) := fun r hr =>
    fltPrior_bounds O (S.feat v hv r (mem_columnList.1 hr) m).1 (S.feat v hv r (mem_columnList.1 hr) m).2 (by norm_num) p1 p2
  have hr' := mem_columnList.2 hr
  have hlen : (columnList model v).length ≤ 2 ^ 8 := by
    rw [length_columnList]
    exact S.width v hv
  obtain ⟨d, h1, h2, h3, h4, h5, h6⟩ := sum_bounds O.sum hlen (by norm_num) (hi := 24) (by norm_num) (fun r hr => (hb r hr).le) ⟨r, hr', (hb r hr').ge⟩
  rw [h1]
  exact fbd_of (FLe.divLe O.ops.rnd (hb r hr').le (fun q hq => h6 r hr' q hq) h5) (FGe.div O.ops.rnd (hb r hr').ge h5 h4 (by norm_num))

/-- The arrays that `__init__` makes are in range. -/
theorem floatServer_bounds (O : Spec.ServeOpsOk A) (h : Model.Valid model) (S : Spec.SmallCounts model) {srv : FloatServer M} (hs : FloatServer.init A model = .ok srv) :
    ServeBounds model.tree.numVertices (model.tree.numVertices - 1) srv ∧ makeProgram model.tree.treeGrid none = .ok srv.program ∧ srv.raggedIndex = model.raggedIndex := by
  cases hp : makeProgram model.tree.treeGrid none with
  | error e =>
    simp only [FloatServer.init, hp, bind, Except.bind] at hs
    cases hs
  | ok prog =>
    simp only [FloatServer.init, hp, bind, Except.bind] at hs
    obtain rfl := Except.ok.inj hs
    refine ⟨⟨fun v hv => (floatVertProbs_bounds O S hv).1, fun e he a b => ?_, fun v hv r hr a => ?_⟩, rfl, rfl⟩
    · have hlen : model.tree.treeGrid.length = model.tree.numVertices - 1 := by
        have := h.isTree.card
        simp only [TreeStructure.getEdges, List.length_map] at this
        omega
      obtain ⟨edges, hsort⟩ := h.sorted
      have he' : e < model.tree.treeGrid.length := by omega
      obtain ⟨c, hc⟩ : ∃ c, model.tree.treeGrid[e]? = some c := ⟨_, List.getElem?_eq_getElem he'⟩
      have hmem : c ∈ model.tree.treeGrid := List.mem_of_getElem? hc
      have hid : c.1 = e := by
        rw [hsort, makeTree, List.getElem?_mapIdx, Option.map_eq_some_iff] at hc
        obtain ⟨p, -, rfl⟩ := hc
        rfl
      have hnd : (model.tree.treeGrid.map Prod.fst).Nodup := by
        rw [hsort]
        exact makeTree_nodup edges
      obtain ⟨hv1, hv2⟩ : c.2.1 < model.tree.numVertices ∧ c.2.2 < model.tree.numVertices := h.isTree.range c.2 (List.mem_map.2 ⟨c, hmem, rfl⟩)
      have := (floatEdgeTrans_eq (A := A) (floatVertProbs A model.vertSS) _ (floatEdgeProbs A model.edgeSS) hnd).1 c hmem
      rw [hid] at this
      show FBd _ _ (floatEdgeTrans A model.tree.treeGrid (floatVertProbs A model.vertSS) (floatEdgeProbs A model.edgeSS) e a b)
      rw [this]
      have h1 := floatEdgeProbs_bounds O S hmem a b
      rw [hid] at h1
      have h2 := h1.div O.ops.rnd ((floatVertProbs_bounds O S hv1).2 a) (by norm_num) (by norm_num)
      exact (h2.div O.ops.rnd ((floatVertProbs_bounds O S hv2).2 b) (by norm_num) (by norm_num)).weaken (by norm_num) (by norm_num)
    · have hr' : r ∈ columns model v := mem_columnList.1 hr
      show FBd _ _ (floatFeatCond A model.raggedIndex model.tree.numVertices model.featSS r a)
      rw [(floatFeatCond_eq h _ (le_refl _)).1 v hv r hr']
      exact floatFeat_bounds' O S hv hr' a

end

end TreeCat
