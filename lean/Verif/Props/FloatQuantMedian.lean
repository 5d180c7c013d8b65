import Verif.Props.FloatQuant
import Verif.Props.FloatServeBad
import Verif.Props.Median

/-! # C71: `median` in float32 -/

namespace TreeCat

open Util Spec

/-! ### The assumption on `np.sum` can be met -/

/-- The sum of two float32 numbers is accurate however small they are. -/
theorem rnd_add_close {rnd : ℚ → ℚ} (R : MonoRounding 24 (-149) rnd) {x y : ℚ} (hx : IsFloat 24 (-149) x) (hy : IsFloat 24 (-149) y) (hx0 : 0 ≤ x) (hy0 : 0 ≤ y) :
    rnd (x + y) ≤ (x + y) * ulp ∧ x + y ≤ rnd (x + y) * ulp := by
  rcases le_total (2 ^ (-126 : Int)) (x + y) with h | h
  · exact R.factor (by norm_num) (by norm_num at h ⊢; exact h)
  · have grid : ∀ z, IsFloat 24 (-149) z → ∃ k : Int, z = k * (2 : ℚ) ^ (-149 : Int) := by
      rintro z ⟨m, e, -, he, rfl⟩
      refine ⟨m * 2 ^ (e + 149).toNat, ?_⟩
      push_cast
      rw [mul_assoc, ← zpow_natCast, ← zpow_add₀ (by norm_num)]
      congr 2
      omega
    obtain ⟨a, ha⟩ := grid x hx
    obtain ⟨b, hb⟩ := grid y hy
    have hpos := two_zpow_pos (-149)
    have hs : x + y = ((a + b : Int) : ℚ) * 2 ^ (-149 : Int) := by rw [ha, hb]; push_cast; ring
    have h0 : 0 ≤ a + b := by
      by_contra hneg
      have : ((a + b : Int) : ℚ) < 0 := by exact_mod_cast not_le.1 hneg
      have := mul_neg_of_neg_of_pos this hpos
      linarith
    have h1 : a + b ≤ 2 ^ 23 := by
      rw [hs, show (2 : ℚ) ^ (-126 : Int) = 2 ^ 23 * 2 ^ (-149 : Int) by norm_num] at h
      have := le_of_mul_le_mul_right h hpos
      exact_mod_cast this
    have hf : IsFloat 24 (-149) (x + y) := ⟨a + b, -149, by rw [abs_of_nonneg h0]; omega, le_refl _, hs⟩
    rw [R.id hf]
    have : x + y ≤ (x + y) * ulp := le_mul_of_one_le_right (by linarith) ulp_ge
    exact ⟨this, this⟩

theorem seqSum_close_fold {rnd : ℚ → ℚ} (R : MonoRounding 24 (-149) rnd) (l : List ℚ) (hl : ∀ x ∈ l, IsFloat 24 (-149) x ∧ 0 ≤ x) (k : Nat) (s q : ℚ) (hs : 0 ≤ s) (h1 : q ≤ s * ulp ^ k)
    (h2 : s ≤ q * ulp ^ k) (hq : 0 ≤ q) (hqf : IsFloat 24 (-149) q) :
    ∃ d, (l.map some).foldl (Flt.add rnd) (some q) = some d ∧ d ≤ (s + l.sum) * ulp ^ (k + l.length) ∧ s + l.sum ≤ d * ulp ^ (k + l.length) := by
  induction l generalizing k s q with
  | nil => exact ⟨q, rfl, by simpa using h1, by simpa using h2⟩
  | cons x l ih =>
    obtain ⟨hxf, hx0⟩ := hl x List.mem_cons_self
    have hp := ulp_pow_ge k
    have hu := ulp_pos
    obtain ⟨f1, f2⟩ := rnd_add_close R hqf hxf hq hx0
    have hx1 : x ≤ x * ulp ^ k := le_mul_of_one_le_right hx0 hp
    have hr : 0 ≤ rnd (q + x) := R.nonneg (by linarith)
    obtain ⟨d, h3, h4, h5⟩ := ih (fun y hy => hl y (List.mem_cons_of_mem _ hy)) (k + 1) (s + x) (rnd (q + x)) (by linarith)
      (by
        calc rnd (q + x) ≤ (q + x) * ulp := f1
          _ ≤ ((s + x) * ulp ^ k) * ulp := mul_le_mul_of_nonneg_right (by linarith) hu.le
          _ = _ := by rw [pow_succ]; ring)
      (by
        calc s + x ≤ (q + x) * ulp ^ k := by linarith
          _ ≤ (rnd (q + x) * ulp) * ulp ^ k := mul_le_mul_of_nonneg_right f2 (by positivity)
          _ = _ := by rw [pow_succ]; ring) hr (R.float _)
    refine ⟨d, h3, ?_, ?_⟩
    · rw [List.sum_cons, List.length_cons, ← add_assoc, show k + (l.length + 1) = k + 1 + l.length by omega]
      exact h4
    · rw [List.sum_cons, List.length_cons, ← add_assoc, show k + (l.length + 1) = k + 1 + l.length by omega]
      exact h5

/-- **C71**. Summation from left to right satisfies the assumption. -/
theorem seqSum_close {rnd : ℚ → ℚ} (R : MonoRounding 24 (-149) rnd) : Spec.SumClose (seqSum rnd) := by
  intro l _ h
  obtain ⟨d, h1, h2, h3⟩ := seqSum_close_fold R l h 0 0 0 (le_refl _) (by simp) (by simp) (le_refl _) (isFloat_zero _ _)
  exact ⟨d, h1, by simpa using h2, by simpa using h3⟩

/-- **C71** is not vacuous: a row of three values at resolution 10. -/
example : floatQuantRow float32 float64 (seqSum float32) (fun i : Fin 3 => some (![1, 2, 4] i)) 10 = .ok ![1, 3, 6] := by decide +kernel
example : (∀ i : Fin 3, IsFloat 24 (-149) ((![1, 2, 4] : Fin 3 → ℚ) i) ∧ 0 ≤ (![1, 2, 4] : Fin 3 → ℚ) i) ∧ 0 < ∑ i, (![1, 2, 4] : Fin 3 → ℚ) i := by
  refine ⟨fun i => ?_, by decide +kernel⟩
  fin_cases i
  · exact ⟨⟨1, 0, by norm_num, by norm_num, by simp⟩, by decide +kernel⟩
  · exact ⟨⟨2, 0, by norm_num, by norm_num, by simp⟩, by decide +kernel⟩
  · exact ⟨⟨4, 0, by norm_num, by norm_num, by simp⟩, by decide +kernel⟩

/-- **C71**. The error is real: near a tie float32 returns `(2, 0)`, although `(1, 1)` is closer to the target. -/
theorem floatQuantRow_differs :
    floatQuantRow float32 float64 (seqSum float32) (fun i : Fin 2 => some (![12582913 / 2 ^ 24, 8388609 / 2 ^ 25] i)) 2 = .ok ![2, 0] ∧
    quantizeRow (![12582913 / 2 ^ 24, 8388609 / 2 ^ 25] : Fin 2 → ℚ) 2 = .ok ![1, 1] ∧
    l1 (target (![12582913 / 2 ^ 24, 8388609 / 2 ^ 25] : Fin 2 → ℚ) 2) ![1, 1] < l1 (target (![12582913 / 2 ^ 24, 8388609 / 2 ^ 25] : Fin 2 → ℚ) 2) ![2, 0] := by
  decide +kernel

/-! ### nan -/

theorem fltArgmax_nan {W : Nat} (f : Fin (W + 1) → Flt) (h : f 0 = none) : fltArgmax f = some 0 := by
  unfold fltArgmax
  rw [List.finRange_succ, List.find?_cons_of_pos (by simp [h])]

theorem floatQuantLoop_nan {W : Nat} (rnd : ℚ → ℚ) (step : ℚ) (k : Nat) (s : (Fin (W + 1) → Int) × (Fin (W + 1) → Flt)) (h : s.2 0 = none) (h0 : 0 ≤ s.1 0) (hk : s.1 0 + k ≤ 127) :
    ∃ s', floatQuantLoop rnd step k s = .ok s' ∧ s'.1 = Function.update s.1 0 (s.1 0 + k) := by
  induction k generalizing s with
  | zero => exact ⟨s, rfl, by simp⟩
  | succ k ih =>
    have hwrap : wrap8 (s.1 0 + 1) = s.1 0 + 1 := by unfold wrap8; push_cast at hk; omega
    obtain ⟨s', h1, h2⟩ := ih (Function.update s.1 0 (wrap8 (s.1 0 + 1)), Function.update s.2 0 ((s.2 0).map fun q => rnd (q - step))) (by simp [h])
      (by simp only [Function.update_self, hwrap]; omega) (by simp only [Function.update_self, hwrap]; push_cast at hk; omega)
    refine ⟨s', ?_, ?_⟩
    · simp only [floatQuantLoop, floatQuantStep, fltArgmax_nan _ h]
      exact h1
    · rw [h2, hwrap]
      simp only [Function.update_self, Function.update_idem]
      congr 1
      push_cast
      ring

/-- **C71**. If the probabilities are not numbers, nothing is raised: the whole count goes to the first value. -/
theorem floatQuantRow_nan {W : Nat} {rnd rp : ℚ → ℚ} {sum : List Flt → Flt} {p : Fin (W + 1) → Flt} (hp : ∀ i, p i = none) {R : Nat} (hR : R ≤ 127) :
    floatQuantRow rnd rp sum p R = .ok fun i => if i = 0 then (R : Int) else 0 := by
  obtain ⟨s', h1, h2⟩ := floatQuantLoop_nan rnd (rnd (rp (1 / R))) R (fun _ => 0, fun i => Flt.div rnd (p i) (sum ((List.finRange (W + 1)).map p))) (by simp [hp, Flt.div]) (le_refl _)
    (by simp only; omega)
  unfold floatQuantRow
  rw [h1]
  show Except.ok s'.1 = _
  rw [h2]
  congr 1
  funext i
  by_cases hi : i = 0
  · subst hi; simp
  · simp [hi]

/-- The model of `chainModel` with the names of the values exchanged. -/
def flipModel : Model ℚ 1 := { chainModel with featSS := fun r _ => if r % 2 = 0 then 0 else 511 }

/-- The row with the first value everywhere. -/
def flipRow : List Int := (List.range 58).map fun r => if r % 2 = 0 then 1 else 0

theorem flipModel_valid : Model.Valid flipModel :=
  { chainModel_valid with feat := fun v _ r _ m => by simp only [flipModel]; split_ifs <;> decide }

/-- **C71**. `median` is wrong in float32 without a warning: the marginals of the first feature underflow to `0 / 0`, and the first value is returned, whose probability is 1/1024. Without
rounding the second value is returned. -/
theorem floatMedian_nan : Model.Valid flipModel ∧
    (∃ srv, FloatServer.init (numpyServe 1 floorLog) flipModel = .ok srv ∧
      ∃ row, srv.median (numpyServe 1 floorLog) (fun _ _ => some 0) (List.replicate 29 1) flipRow = .ok row ∧ row 0 = 1 ∧ row 1 = 0) ∧
    ∃ srv, FloatServer.init (exactServe 1 ⟨id, id, id⟩) flipModel = .ok srv ∧
      srv.marginals (exactServe 1 ⟨id, id, id⟩) (fun _ _ => some 1) flipRow 0 = some (1 / 1024) ∧
      ∃ row, srv.median (exactServe 1 ⟨id, id, id⟩) (fun _ _ => some 1) (List.replicate 29 1) flipRow = .ok row ∧ row 0 = 0 ∧ row 1 = 1 := by
  refine ⟨flipModel_valid, ?_, ?_⟩
  · have h : ((FloatServer.init (numpyServe 1 floorLog) flipModel).toOption.bind fun srv =>
        (srv.median (numpyServe 1 floorLog) (fun _ _ => some 0) (List.replicate 29 1) flipRow).toOption.map fun row => (row 0, row 1)) = some (1, 0) := by decide +kernel
    cases hs : FloatServer.init (numpyServe 1 floorLog) flipModel with
    | error e => rw [hs] at h; cases h
    | ok srv =>
      rw [hs] at h
      refine ⟨srv, rfl, ?_⟩
      change ((srv.median (numpyServe 1 floorLog) (fun _ _ => some 0) (List.replicate 29 1) flipRow).toOption.map fun row => (row 0, row 1)) = some (1, 0) at h
      cases hm : srv.median (numpyServe 1 floorLog) (fun _ _ => some 0) (List.replicate 29 1) flipRow with
      | error e => rw [hm] at h; cases h
      | ok row =>
        rw [hm] at h
        have h' := Prod.ext_iff.1 (Option.some.inj h)
        exact ⟨row, rfl, h'.1, h'.2⟩
  · have h : ((FloatServer.init (exactServe 1 ⟨id, id, id⟩) flipModel).toOption.bind fun srv =>
        (srv.median (exactServe 1 ⟨id, id, id⟩) (fun _ _ => some 1) (List.replicate 29 1) flipRow).toOption.map fun row =>
          (srv.marginals (exactServe 1 ⟨id, id, id⟩) (fun _ _ => some 1) flipRow 0, row 0, row 1)) = some (some (1 / 1024), 0, 1) := by decide +kernel
    cases hs : FloatServer.init (exactServe 1 ⟨id, id, id⟩) flipModel with
    | error e => rw [hs] at h; cases h
    | ok srv =>
      rw [hs] at h
      refine ⟨srv, rfl, ?_⟩
      change ((srv.median (exactServe 1 ⟨id, id, id⟩) (fun _ _ => some 1) (List.replicate 29 1) flipRow).toOption.map fun row =>
          (srv.marginals (exactServe 1 ⟨id, id, id⟩) (fun _ _ => some 1) flipRow 0, row 0, row 1)) = some (some (1 / 1024), 0, 1) at h
      cases hm : srv.median (exactServe 1 ⟨id, id, id⟩) (fun _ _ => some 1) (List.replicate 29 1) flipRow with
      | error e => rw [hm] at h; cases h
      | ok row =>
        rw [hm] at h
        have h' := Prod.ext_iff.1 (Option.some.inj h)
        have h'' := Prod.ext_iff.1 h'.2
        exact ⟨h'.1, row, rfl, h''.1, h''.2⟩

/-! ### `median` where the marginals are numbers -/

section
variable {K : Type} [Field K] [LinearOrder K] [IsStrictOrderedRing K] {M : Nat} [NeZero M] {model : Model K M}

/-- **C71**. One row of `median` in float32, for marginals that are nonnegative float32 numbers with a positive total in every block: every block has exactly the requested count, and no other counts are
closer to the marginals by more than the error of `floatQuantRow_near`. -/
theorem floatMedianRow_near (h : Model.Valid model) {A : ServeOps M} (Rn : MonoRounding 24 (-149) A.rnd) (Rp : MonoRounding 53 (-1074) A.rp) (hs : Spec.SumClose A.sum)
    {srv : FloatServer M} (hri : srv.raggedIndex = model.raggedIndex) {counts : List Int} (hc : ∀ v < model.tree.numVertices, 0 ≤ counts.getD v 0 ∧ counts.getD v 0 ≤ 127)
    (hw : ∀ v < model.tree.numVertices, (columns model v).card ≤ 2 ^ 10) {marginal : Nat → Flt} {p : Nat → ℚ}
    (hm : ∀ v < model.tree.numVertices, (∀ c ∈ columns model v, marginal c = some (p c) ∧ IsFloat 24 (-149) (p c) ∧ 0 ≤ p c) ∧ 0 < ∑ c ∈ columns model v, p c) :
    ∃ row : Nat → Int, floatMedianRow A srv counts marginal = .ok row ∧ ∀ v < model.tree.numVertices,
      (∀ c ∈ columns model v, 0 ≤ row c) ∧ ∑ c ∈ columns model v, row c = counts.getD v 0 ∧
      ∀ q : Nat → Int, ∑ c ∈ columns model v, q c = counts.getD v 0 →
        ∑ c ∈ columns model v, |counts.getD v 0 * p c / ∑ c ∈ columns model v, p c - (row c : ℚ)| ≤
          ∑ c ∈ columns model v, |counts.getD v 0 * p c / ∑ c ∈ columns model v, p c - (q c : ℚ)| +
            2 * (columns model v).card * Spec.quantError (columns model v).card (counts.getD v 0).toNat := by
  have hV : srv.raggedIndex.length - 1 = model.tree.numVertices := by rw [hri, h.ragged]; rfl
  let beg : Nat → Nat := fun v => srv.raggedIndex.getD v 0
  let stop : Nat → Nat := fun v => srv.raggedIndex.getD (v + 1) 0
  have hmem : ∀ v c, c ∈ columns model v ↔ beg v ≤ c ∧ c < stop v := by
    intro v c
    rw [mem_columns]
    simp only [beg, stop, hri]
  have hcsum : ∀ {β : Type} [AddCommMonoid β] (v : Nat) (f : Nat → β), ∑ c ∈ columns model v, f c = ∑ i : Fin (stop v - beg v), f (beg v + i.val) := by
    intro β _ v f
    have hb : beg v = model.raggedIndex.getD v 0 := by simp only [beg, hri]
    have he : stop v = model.raggedIndex.getD (v + 1) 0 := by simp only [stop, hri]
    rw [he, hb]
    unfold columns
    rw [Finset.sum_Ico_eq_sum_range, Finset.sum_range]
  have hcard : ∀ v, (columns model v).card = stop v - beg v := by
    intro v
    simp only [beg, stop, hri]
    unfold columns
    rw [Nat.card_Ico]
  let good : (Nat → Int) → Nat → Prop := fun row v =>
    (∀ c ∈ columns model v, 0 ≤ row c) ∧ ∑ c ∈ columns model v, row c = counts.getD v 0 ∧
      ∀ q : Nat → Int, ∑ c ∈ columns model v, q c = counts.getD v 0 →
        ∑ c ∈ columns model v, |counts.getD v 0 * p c / ∑ c ∈ columns model v, p c - (row c : ℚ)| ≤
          ∑ c ∈ columns model v, |counts.getD v 0 * p c / ∑ c ∈ columns model v, p c - (q c : ℚ)| +
            2 * (columns model v).card * Spec.quantError (columns model v).card (counts.getD v 0).toNat
  have key : ∀ n, n ≤ model.tree.numVertices → ∃ row : Nat → Int,
      (List.range n).foldlM (fun (result : Nat → Int) v => do
        let q ← floatQuantRow A.rnd A.rp A.sum (fun c : Fin (stop v - beg v) => marginal (beg v + c.val)) (counts.getD v 0).toNat
        .ok fun r => if h : beg v ≤ r ∧ r < stop v then q ⟨r - beg v, by omega⟩ else result r)
        (fun _ => 0) = (.ok row : Py (Nat → Int)) ∧ ∀ v < n, good row v := by
    intro n
    induction n with
    | zero => intro _; exact ⟨_, rfl, by simp⟩
    | succ n ih =>
      intro hn
      obtain ⟨row, e, hrow⟩ := ih (by omega)
      obtain ⟨hm0, hm1⟩ := hm n (by omega)
      obtain ⟨hc0, hc1⟩ := hc n (by omega)
      have hcol : ∀ i : Fin (stop n - beg n), beg n + i.val ∈ columns model n := by
        intro i
        have := i.isLt
        rw [hmem]
        omega
      have hfun : (fun c : Fin (stop n - beg n) => marginal (beg n + c.val)) = fun c => some (p (beg n + c.val)) := funext fun c => (hm0 _ (hcol c)).1
      obtain ⟨q, q1, q2, q3, -, q5⟩ := floatQuantRow_near (W := stop n - beg n) (by rw [← hcard]; exact hw n (by omega)) Rn Rp hs
        (p := fun i => p (beg n + i.val)) (fun i => (hm0 _ (hcol i)).2) (by rw [← hcsum n p]; exact hm1) (R := (counts.getD n 0).toNat) (by omega)
      rw [← hfun] at q1
      have hcast : ((counts.getD n 0).toNat : Int) = counts.getD n 0 := Int.toNat_of_nonneg hc0
      have hcastK : (((counts.getD n 0).toNat : Nat) : ℚ) = ((counts.getD n 0 : Int) : ℚ) := by
        rw [← Int.cast_natCast, hcast]
      set row' : Nat → Int := fun r => if h : beg n ≤ r ∧ r < stop n then q ⟨r - beg n, by omega⟩ else row r with hrow'
      have hin : ∀ i : Fin (stop n - beg n), row' (beg n + i.val) = q i := by
        intro i
        have := i.isLt
        rw [hrow']
        simp only
        rw [dif_pos ⟨by omega, by omega⟩]
        congr 1
        exact Fin.ext (by simp)
      have hout : ∀ v < n, ∀ c ∈ columns model v, row' c = row c := by
        intro v hv c hcv
        rw [hrow']
        simp only
        rw [dif_neg]
        intro hcn
        have := columns_disjoint h (by omega) (by omega) hcv ((hmem n c).2 hcn)
        omega
      refine ⟨row', ?_, fun v hv => ?_⟩
      · rw [List.range_succ, List.foldlM_append, e]
        simp only [bind, Except.bind, List.foldlM_cons, q1, List.foldlM_nil, pure, Except.pure]
        rfl
      · rcases Nat.lt_or_ge v n with hvn | hvn
        · obtain ⟨r1, r2, r3⟩ := hrow v hvn
          refine ⟨fun c hcv => by rw [hout v hvn c hcv]; exact r1 c hcv, ?_, fun p' hp' => ?_⟩
          · rw [Finset.sum_congr rfl fun c hcv => hout v hvn c hcv]; exact r2
          · rw [Finset.sum_congr rfl fun c hcv => by rw [hout v hvn c hcv]]
            exact r3 p' hp'
        · obtain rfl : v = n := by omega
          refine ⟨fun c hcv => ?_, ?_, fun p' hp' => ?_⟩
          · have hcv' := (hmem v c).1 hcv
            have := hin ⟨c - beg v, by omega⟩
            simp only at this
            rw [show beg v + (c - beg v) = c by omega] at this
            rw [this]; exact q2 _
          · rw [hcsum, Finset.sum_congr rfl fun i _ => hin i, q3, hcast]
          · have := q5 (fun i => p' (beg v + i.val)) (by rw [← hcsum v p', hp', hcast])
            unfold l1 target at this
            simp only [hcastK] at this
            rw [← hcsum v p] at this
            rw [hcard, hcsum v, hcsum v fun c => |_ - (p' c : ℚ)|]
            simpa only [hin] using this
  obtain ⟨row, e, hrow⟩ := key _ (le_refl _)
  refine ⟨row, ?_, hrow⟩
  unfold floatMedianRow
  rw [hV]
  exact e

end

/-- **C71** is not vacuous: marginals `1, 2, 3, …` for the three features of `exampleModel`, with counts 1, 10 and 127. -/
example (srv : FloatServer 2) (hri : srv.raggedIndex = (exampleModel ℚ).raggedIndex) :
    ∃ row, floatMedianRow (numpyServe 2 floorLog) srv [1, 10, 127] (fun r => some (r + 1)) = .ok row ∧ ∑ c ∈ columns (exampleModel ℚ) 1, row c = 10 := by
  obtain ⟨row, h1, h2⟩ := floatMedianRow_near (exampleModel_valid ℚ) (A := numpyServe 2 floorLog) float32_mono float64_mono (seqSum_close float32_mono) hri (counts := [1, 10, 127])
    (by change ∀ v < 3, _; decide) (by change ∀ v < 3, (columns (exampleModel ℚ) v).card ≤ 2 ^ 10; decide +kernel) (marginal := fun r => some (r + 1)) (p := fun r => r + 1) (by
      intro v hv
      have hlt : ∀ v < 3, ∀ c ∈ columns (exampleModel ℚ) v, c < 7 := by decide +kernel
      refine ⟨fun c hc => ⟨rfl, ⟨c + 1, 0, ?_, by norm_num, by simp⟩, by positivity⟩, ?_⟩
      · have := hlt v hv c hc
        rw [abs_of_nonneg (by omega)]
        omega
      · have hne : ∀ v < 3, (columns (exampleModel ℚ) v).Nonempty := by decide +kernel
        exact Finset.sum_pos (fun c _ => by positivity) (hne v hv))
  exact ⟨row, h1, (h2 1 (by change 1 < 3; omega)).2.1⟩

end TreeCat
