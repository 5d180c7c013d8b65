import Verif.Model.Float
import Verif.Model.FloatEstimate
import Verif.Lemmas.Float
import Verif.Lemmas.MstOrder
import Verif.Props.EstimateTree
import Verif.Props.FloatSample

/-!
# C74: `estimate_tree` in float32

The weights are rounded twice, so the tree is a spanning tree whose total logit is nearly the greatest one, and it is exactly the greatest if different
logits are far enough from each other. If they are not, it need not be.
-/

namespace TreeCat

open Spec Util

theorem foldl_min_mem' {K : Type} [LinearOrder K] (xs : List K) : ∀ x : K, xs.foldl min x = x ∨ xs.foldl min x ∈ xs := by
  induction xs with
  | nil => intro x; exact .inl rfl
  | cons a xs ih =>
    intro x
    rcases ih (min x a) with h | h
    · rcases min_choice x a with h' | h'
      · left; rw [List.foldl_cons, h, h']
      · right; rw [List.foldl_cons, h, h']; exact List.mem_cons_self ..
    · right; exact List.mem_cons_of_mem _ h

theorem matMin_mem {K : Type} [Field K] [LinearOrder K] {w : List (List K)} {mn : K} (h : matMin w = .ok mn) : mn ∈ w.flatten := by
  unfold matMin at h
  cases hf : w.flatten with
  | nil => rw [hf] at h; simp at h
  | cons x xs =>
    rw [hf] at h
    simp only [Except.ok.injEq] at h
    rcases foldl_min_mem' xs x with h' | h'
    · rw [← h, h']; exact List.mem_cons_self ..
    · rw [← h]; exact List.mem_cons_of_mem _ h'

section
variable {p : Nat} {emin : Int} {rs : ℚ → ℚ}

theorem Util.IsFloat.neg {x : ℚ} (h : IsFloat p emin x) : IsFloat p emin (-x) := by
  obtain ⟨m, e, h1, h2, rfl⟩ := h
  exact ⟨-m, e, by simpa using h1, h2, by push_cast; ring⟩

theorem isFloat_one (hp : 1 ≤ p) (he : emin ≤ 0) : IsFloat p emin 1 :=
  ⟨1, 0, by
    have : (2 : Int) ^ 1 ≤ 2 ^ p := pow_le_pow_right₀ (by norm_num) hp
    simpa using lt_of_lt_of_le (by norm_num : (1 : Int) < 2 ^ 1) this, he, by simp⟩

/-- The weight of a pair with logit `x`. -/
theorem floatTreeWeights_spec (R : IsRounding p emin rs) (V : Nat) (hV : 1 ≤ V) (grid : Grid) (hg : makeCompleteGraph V = .ok grid)
    (logit : Nat → Nat → ℚ) (hfl : ∀ i j, i < j → j < V → IsFloat p emin (logit i j)) {lo hi : ℚ} (h0 : 0 ≤ hi)
    (hb : ∀ i j, i < j → j < V → logit i j ≤ hi) :
    ∃ (w : List (List ℚ)) (mn dg : ℚ), floatTreeWeights rs grid (grid.map fun p => logit p.2.1 p.2.2) = .ok w ∧
      IsSquare V w ∧ IsFloat p emin mn ∧ -hi ≤ mn ∧ (∀ i < V, entry? w i i = some dg) ∧
      ∀ i < V, ∀ j < V, i ≠ j → entry? w i j = some (rs (rs (-logit (min i j) (max i j) - mn) + 1)) ∧ mn ≤ -logit (min i j) (max i j) := by
  have hg' := hg
  rw [makeCompleteGraph_eq, Except.ok.injEq] at hg'
  set t := grid.map fun p => logit p.2.1 p.2.2 with ht
  have hlen : t.length = V * (V - 1) / 2 := by
    rw [ht, List.length_map, ← hg', completeGrid_length]; rfl
  obtain ⟨sq, h1, h2, h3, h4⟩ := triangularToSquare_spec V hV grid hg t hlen
  have h2' := isSquare_map (fun x => rs (x * (-1))) h2
  obtain ⟨mn, h5, h6⟩ := matMin_spec hV h2'
  have hent : ∀ i < V, ∀ j < V, i ≠ j → entry? sq i j = some (logit (min i j) (max i j)) := by
    intro i hi j hj hij
    have hf : findCompleteEdge i j = findCompleteEdge (min i j) (max i j) := by
      rcases Nat.le_total i j with h | h
      · rw [min_eq_left h, max_eq_right h]
      · rw [min_eq_right h, max_eq_left h, fce_comm]
    rw [(h4 i hi j hj hij).1, hf, ht, ← hg', List.getElem?_map, completeGrid_getElem?,
      pairs_getElem? V _ _ (by omega) (by omega)]
    rfl
  have hneg : ∀ i < V, ∀ j < V, i ≠ j → rs (logit (min i j) (max i j) * (-1)) = -logit (min i j) (max i j) := by
    intro i hi j hj hij
    rw [mul_neg_one]
    exact R.id (hfl (min i j) (max i j) (by omega) (by omega)).neg
  have hz : rs (0 * (-1)) = 0 := by rw [zero_mul]; exact R.id (isFloat_zero ..)
  have hmn : IsFloat p emin mn ∧ -hi ≤ mn := by
    have hm := matMin_mem h5
    obtain ⟨r, hr, hm⟩ := List.mem_flatten.1 hm
    obtain ⟨i, hi', hri⟩ := List.getElem_of_mem hr
    obtain ⟨j, hj', hrj⟩ := List.getElem_of_mem hm
    have hi : i < V := by rw [← h2'.1]; exact hi'
    have hj : j < V := by rw [← h2'.2 r hr]; exact hj'
    have he : entry? (sq.map fun r => r.map fun x => rs (x * (-1))) i j = some mn := by
      unfold entry?
      rw [List.getElem?_eq_getElem hi', hri, Option.bind_some, List.getElem?_eq_getElem hj', hrj]
    rw [entry?_map] at he
    by_cases hij : i = j
    · subst hij
      rw [h3 i hi, Option.map_some, Option.some.injEq, hz] at he
      rw [← he]
      exact ⟨isFloat_zero .., by linarith⟩
    · rw [hent i hi j hj hij, Option.map_some, Option.some.injEq, hneg i hi j hj hij] at he
      rw [← he]
      exact ⟨(hfl (min i j) (max i j) (by omega) (by omega)).neg, neg_le_neg (hb _ _ (by omega) (by omega))⟩
  refine ⟨_, mn, rs (rs (0 - mn) + 1), ?_, isSquare_map (fun x => rs (x + 1)) (isSquare_map (fun x => rs (x - mn)) h2'), hmn.1, hmn.2, ?_, ?_⟩
  · have ha : pyAssert (grid.length == t.length) = .ok () := by
      rw [ht, List.length_map, beq_self_eq_true]; rfl
    simp only [floatTreeWeights, ha, h1, h5, bind, Except.bind]
  · intro i hi
    rw [entry?_map, entry?_map, entry?_map, h3 i hi]
    simp only [Option.map_some, hz]
  · intro i hi j hj hij
    have h7 := hent i hi j hj hij
    have h8 := h6 i j (-logit (min i j) (max i j)) (by rw [entry?_map, h7, Option.map_some, hneg i hi j hj hij])
    refine ⟨?_, h8⟩
    rw [entry?_map, entry?_map, entry?_map, h7]
    simp only [Option.map_some, hneg i hi j hj hij]

/-- The error of the weight of an edge. -/
theorem floatWeight_near (R : IsRounding p emin rs) (hp : 1 ≤ p) (he : emin ≤ 0) {x mn D : ℚ} (hx : IsFloat p emin x) (hm : IsFloat p emin mn)
    (h0 : mn ≤ -x) (hD : -x - mn ≤ D) :
    1 ≤ rs (rs (-x - mn) + 1) ∧ |rs (rs (-x - mn) + 1) - (1 - mn - x)| ≤ D * ((1 + 1 / 2 ^ p) ^ 2 - 1) + 1 / 2 ^ p := by
  have h1 := isFloat_one (p := p) hp he
  have e1 := R.add_error hp hx.neg hm.neg
  rw [← sub_eq_add_neg] at e1
  have hn : 0 ≤ -x - mn := by linarith
  have hr := R.nonneg hn
  have e2 := R.add_error hp (R.float (-x - mn)) h1
  rw [abs_of_nonneg hn] at e1
  rw [abs_of_nonneg (by linarith : 0 ≤ rs (-x - mn) + 1)] at e2
  refine ⟨?_, ?_⟩
  · have := R.mono (by linarith : (1 : ℚ) ≤ rs (-x - mn) + 1)
    rwa [R.id h1] at this
  · have hu : (0 : ℚ) ≤ 1 / 2 ^ p := by positivity
    rw [div_eq_mul_one_div] at e1 e2
    generalize (1 : ℚ) / 2 ^ p = u at *
    generalize rs (rs (-x - mn) + 1) = b at *
    generalize rs (-x - mn) = a at *
    have e1' := abs_le.1 e1
    have ha : a ≤ D * (1 + u) := by nlinarith
    have h5 : |b - (1 - mn - x)| ≤ |b - (a + 1)| + |a - (-x - mn)| := by
      have := abs_add_le (b - (a + 1)) (a - (-x - mn))
      rwa [show b - (a + 1) + (a - (-x - mn)) = b - (1 - mn - x) by ring] at this
    have h6 : (-x - mn) * u ≤ D * u := mul_le_mul_of_nonneg_right hD hu
    have h7 : (a + 1) * u ≤ (D * (1 + u) + 1) * u := mul_le_mul_of_nonneg_right (by linarith) hu
    have h8 : D * ((1 + u) ^ 2 - 1) + u = (D * (1 + u) + 1) * u + D * u := by ring
    linarith

/-- The result of `minimum_spanning_tree` on a full symmetric matrix without zeros off the diagonal. -/
theorem mst_full {mst : List (List ℚ) → List Edge} (hmst : MstContract mst) {V : Nat} (hV : 1 ≤ V) {w : List (List ℚ)} (hsq : IsSquare V w) {dg : ℚ}
    (hdg : ∀ i < V, entry? w i i = some dg) {v : Nat → Nat → ℚ}
    (hv : ∀ i < V, ∀ j < V, i ≠ j → entry? w i j = some (v (min i j) (max i j)) ∧ v (min i j) (max i j) ≠ 0) :
    IsTree V (mst w) ∧ ∀ T', IsTree V T' →
      ((mst w).map fun p => v (min p.1 p.2) (max p.1 p.2)).sum ≤ (T'.map fun p => v (min p.1 p.2) (max p.1 p.2)).sum := by
  set W : Nat → Nat → ℚ := fun i j => if i = j then dg else v (min i j) (max i j) with hW
  have hne : ∀ {T : List Edge}, IsTree V T → ∀ p ∈ T, p.1 < V ∧ p.2 < V ∧ p.1 ≠ p.2 := by
    intro T hT p hp
    have hr := hT.range p hp
    obtain ⟨d, par, R⟩ := exists_rooted hT hr.1
    refine ⟨hr.1, hr.2, fun hc => R.irrefl (v := p.1) (.inl ?_)⟩
    obtain ⟨a, b⟩ := p
    simp only at hc; subst hc
    exact hp
  have hin : ∀ T, IsTree V T → TreeIn V W T := by
    intro T hT
    refine ⟨hT, fun p hp => ?_⟩
    obtain ⟨a, b, hab⟩ := hne hT p hp
    simp only [hW, if_neg hab]
    exact (hv p.1 a p.2 b hab).2
  have htot : ∀ T, IsTree V T → total W T = (T.map fun p => v (min p.1 p.2) (max p.1 p.2)).sum := by
    intro T hT
    unfold total
    congr 1
    refine List.map_congr_left fun p hp => ?_
    simp only [hW, if_neg (hne hT p hp).2.2]
  have hex : ∃ T, TreeIn V W T := by
    refine ⟨(List.range (V - 1)).map fun i => (i, i + 1), hin _ ?_⟩
    apply isTree_of_smaller
    · simp; omega
    · intro p hp
      obtain ⟨i, hi, rfl⟩ := List.mem_map.1 hp
      rw [List.mem_range] at hi
      constructor <;> simp only <;> omega
    · intro v hv h0
      refine ⟨v - 1, by omega, .inr (List.mem_map.2 ⟨v - 1, List.mem_range.2 (by omega), ?_⟩)⟩
      rw [Nat.sub_add_cancel (by omega)]
  have hM := hmst V w W hsq.1 (by
    intro i hi
    have hlt : i < w.length := by rw [hsq.1]; exact hi
    refine ⟨w[i], List.getElem?_eq_getElem hlt, hsq.2 _ (List.getElem_mem hlt), fun j hj => ?_⟩
    have : entry? w i j = w[i][j]? := by unfold entry?; rw [List.getElem?_eq_getElem hlt]; rfl
    rw [← this]
    by_cases hij : i = j
    · subst hij; rw [hdg i hi]; simp [hW]
    · rw [(hv i hi j hj hij).1]; simp [hW, hij]) (by
    intro i _ j _
    simp only [hW, eq_comm (a := i) (b := j), min_comm i j, max_comm i j]) hex
  obtain ⟨⟨hT, -⟩, hmin⟩ := hM
  refine ⟨hT, fun T' hT' => ?_⟩
  have := hmin T' (hin T' hT')
  rwa [htot _ hT, htot _ hT'] at this

/-- The allowance for the rounding of one weight, if the logits lie between `lo` and `hi`. -/
def weightSlack (p : Nat) (lo hi : ℚ) : ℚ := (hi - lo) * ((1 + 1 / 2 ^ p) ^ 2 - 1) + 1 / 2 ^ p

theorem sum_logit_sorted (logit : Nat → Nat → ℚ) (T : List Edge) :
    ((sortEdges T).map fun p => logit p.1 p.2).sum = (T.map fun p => logit (min p.1 p.2) (max p.1 p.2)).sum := by
  have h5 : ((sortEdges T).map fun p => logit p.1 p.2).Perm
      ((T.map sortPair).map fun p => logit p.1 p.2) := (List.perm_insertionSort edgeLe _).map _
  rw [h5.sum_eq, List.map_map]
  congr 1
  apply List.map_congr_left
  intro p _
  simp only [Function.comp, sortPair_eq]

theorem sum_near {T : List Edge} {a b : Edge → ℚ} {c s : ℚ} (h : ∀ p ∈ T, |a p - (c - b p)| ≤ s) :
    |(T.map a).sum - (T.length * c - (T.map b).sum)| ≤ T.length * s := by
  induction T with
  | nil => simp
  | cons q T ih =>
    have h1 := h q (by simp)
    have h2 := ih fun p hp => h p (by simp [hp])
    simp only [List.map_cons, List.sum_cons, List.length_cons, Nat.cast_add, Nat.cast_one]
    rw [abs_le] at *
    constructor <;> nlinarith [h1.1, h1.2, h2.1, h2.2]

/-- Shared part of the two theorems below: what the program returns, and the weights it minimises. -/
theorem floatEstimateTree_spec (R : IsRounding p emin rs) (hp : 1 ≤ p) (he : emin ≤ 0) (mst : List (List ℚ) → List Edge) (hmst : MstContract mst) (V : Nat)
    (hV : 1 ≤ V) (grid : Grid) (hg : makeCompleteGraph V = .ok grid) (logit : Nat → Nat → ℚ) (hfl : ∀ i j, i < j → j < V → IsFloat p emin (logit i j))
    {lo hi : ℚ} (h0 : 0 ≤ hi) (hb : ∀ i j, i < j → j < V → lo ≤ logit i j ∧ logit i j ≤ hi) :
    ∃ (T : List Edge) (v : Nat → Nat → ℚ) (c : ℚ), floatEstimateTree rs mst grid (grid.map fun p => logit p.2.1 p.2.2) = .ok (sortEdges T) ∧ IsTree V T ∧
      (∀ i j, i < j → j < V → |v i j - (c - logit i j)| ≤ weightSlack p lo hi) ∧
      ∀ T', IsTree V T' → (T.map fun p => v (min p.1 p.2) (max p.1 p.2)).sum ≤ (T'.map fun p => v (min p.1 p.2) (max p.1 p.2)).sum := by
  obtain ⟨w, mn, dg, h1, h2, h3, h4, h5, h6⟩ := floatTreeWeights_spec (lo := lo) R V hV grid hg logit hfl h0 fun i j hij hj => (hb i j hij hj).2
  set v : Nat → Nat → ℚ := fun i j => rs (rs (-logit i j - mn) + 1) with hv
  have hw : ∀ i j, i < j → j < V → 1 ≤ v i j ∧ |v i j - (1 - mn - logit i j)| ≤ weightSlack p lo hi := by
    intro i j hij hj
    have h7 := (h6 i (by omega) j hj (by omega)).2
    rw [min_eq_left hij.le, max_eq_right hij.le] at h7
    exact floatWeight_near R hp he (hfl i j hij hj) h3 h7 (by linarith [(hb i j hij hj).1])
  obtain ⟨hT, hmin⟩ := mst_full hmst hV h2 h5 (v := v) (by
    intro i hi j hj hij
    refine ⟨(h6 i hi j hj hij).1, fun hz => ?_⟩
    have := (hw (min i j) (max i j) (by omega) (by omega)).1
    rw [hz] at this
    norm_num at this)
  refine ⟨mst w, v, 1 - mn, ?_, hT, fun i j hij hj => (hw i j hij hj).2, hmin⟩
  have hTs : IsTree V (sortEdges (mst w)) := (sortEdges_samePairs (mst w)).isTree hT
  have hlen : (((sortEdges (mst w)).length : Int) == (w.length : Int) - 1) = true := by
    have := hTs.card
    rw [beq_iff_eq, h2.1]; omega
  have ha : pyAssert (((sortEdges (mst w)).length : Int) == (w.length : Int) - 1) = .ok () := by
    rw [hlen]; rfl
  simp only [floatEstimateTree, h1, bind, Except.bind, ha]

theorem isTree_pair {V : Nat} {T : List Edge} (hT : IsTree V T) {q : Edge} (hq : q ∈ T) : min q.1 q.2 < max q.1 q.2 ∧ max q.1 q.2 < V := by
  have hr := hT.range q hq
  obtain ⟨d, par, R⟩ := exists_rooted hT hr.1
  have hne : q.1 ≠ q.2 := by
    intro hc
    refine R.irrefl (v := q.1) (.inl ?_)
    obtain ⟨a, b⟩ := q
    simp only at hc; subst hc
    exact hq
  omega

/-- **C74** (near). In floating point `estimate_tree` returns a spanning tree, in canonical form, and no spanning tree has a total logit that is greater by more
than twice the allowance for each edge. -/
theorem floatEstimateTree_near (R : IsRounding p emin rs) (hp : 1 ≤ p) (he : emin ≤ 0) (mst : List (List ℚ) → List Edge) (hmst : MstContract mst) (V : Nat)
    (hV : 1 ≤ V) (grid : Grid) (hg : makeCompleteGraph V = .ok grid) (logit : Nat → Nat → ℚ) (hfl : ∀ i j, i < j → j < V → IsFloat p emin (logit i j))
    (lo hi : ℚ) (h0 : 0 ≤ hi) (hb : ∀ i j, i < j → j < V → lo ≤ logit i j ∧ logit i j ≤ hi) :
    ∃ T, floatEstimateTree rs mst grid (grid.map fun p => logit p.2.1 p.2.2) = .ok T ∧ Canonical T ∧ IsTree V T ∧
      ∀ T', IsTree V T' →
        (T'.map fun p => logit (min p.1 p.2) (max p.1 p.2)).sum ≤ (T.map fun p => logit p.1 p.2).sum + ((V - 1 : Nat) : ℚ) * (2 * weightSlack p lo hi) := by
  obtain ⟨T, v, c, h1, hT, h2, h3⟩ := floatEstimateTree_spec R hp he mst hmst V hV grid hg logit hfl h0 hb
  refine ⟨_, h1, canonical_sortEdges hT, (sortEdges_samePairs T).isTree hT, fun T' hT' => ?_⟩
  rw [sum_logit_sorted]
  have hn : ∀ T, IsTree V T → |(T.map fun p => v (min p.1 p.2) (max p.1 p.2)).sum - (T.length * c - (T.map fun p => logit (min p.1 p.2) (max p.1 p.2)).sum)|
      ≤ T.length * weightSlack p lo hi := fun T hT => sum_near fun q hq => h2 _ _ (isTree_pair hT hq).1 (isTree_pair hT hq).2
  have h4 := hn T hT
  have h5 := hn T' hT'
  have h6 := h3 T' hT'
  have hl : T.length = V - 1 := by have := hT.card; omega
  have hl' : T'.length = V - 1 := by have := hT'.card; omega
  rw [hl] at h4
  rw [hl'] at h5
  rw [abs_le] at h4 h5
  generalize ((V - 1 : Nat) : ℚ) = n at *
  linarith only [h4.1, h4.2, h5.1, h5.2, h6]

/-- The function of unordered pairs that `v (min i j) (max i j)` is. -/
def symOf {α : Type} (v : Nat → Nat → α) : Sym2 Nat → α := Sym2.lift ⟨fun i j => v (min i j) (max i j), fun i j => by simp only [min_comm i j, max_comm i j]⟩

/-- **C74** (exact). If different logits differ by more than twice the allowance, `estimate_tree` in floating point returns a spanning tree of greatest total
logit, as in exact arithmetic. -/
theorem floatEstimateTree_exact (R : IsRounding p emin rs) (hp : 1 ≤ p) (he : emin ≤ 0) (mst : List (List ℚ) → List Edge) (hmst : MstContract mst) (V : Nat)
    (hV : 1 ≤ V) (grid : Grid) (hg : makeCompleteGraph V = .ok grid) (logit : Nat → Nat → ℚ) (hfl : ∀ i j, i < j → j < V → IsFloat p emin (logit i j))
    (lo hi : ℚ) (h0 : 0 ≤ hi) (hb : ∀ i j, i < j → j < V → lo ≤ logit i j ∧ logit i j ≤ hi)
    (hgap : ∀ i j k l, i < j → j < V → k < l → l < V → logit i j < logit k l → logit i j + 2 * weightSlack p lo hi < logit k l) :
    ∃ T, floatEstimateTree rs mst grid (grid.map fun p => logit p.2.1 p.2.2) = .ok T ∧ Canonical T ∧ IsTree V T ∧
      ∀ T', IsTree V T' → (T'.map fun p => logit (min p.1 p.2) (max p.1 p.2)).sum ≤ (T.map fun p => logit p.1 p.2).sum := by
  obtain ⟨T, v, c, h1, hT, h2, h3⟩ := floatEstimateTree_spec R hp he mst hmst V hV grid hg logit hfl h0 hb
  refine ⟨_, h1, canonical_sortEdges hT, (sortEdges_samePairs T).isTree hT, fun T' hT' => ?_⟩
  rw [sum_logit_sorted]
  have key := total_le_of_exchange (symOf v) (fun q => -symOf logit q) hT (by
    intro i hi q hq1 hq2 hqne hle
    have h4 := isTree_pair hT (List.getElem_mem hi)
    simp only [symOf, Sym2.lift_mk] at hle ⊢
    by_contra hcon
    push Not at hcon
    have h5 := hgap _ _ _ _ h4.1 h4.2 (by omega : min q.1 q.2 < max q.1 q.2) (by omega) (by linarith)
    have h6 := abs_le.1 (h2 _ _ h4.1 h4.2)
    have h7 := abs_le.1 (h2 _ _ (by omega : min q.1 q.2 < max q.1 q.2) (by omega))
    linarith [h6.1, h7.2]) (by
    intro i hi q hq
    have h4 := h3 _ hq
    have h5 := pairTotal_set (symOf v) hi q
    have h6 : ∀ T : List Edge, pairTotal (symOf v) T = (T.map fun p => v (min p.1 p.2) (max p.1 p.2)).sum := fun T => rfl
    rw [h6, h6] at h5
    linarith) T' hT'
  have h4 : ∀ T : List Edge, pairTotal (fun q => -symOf logit q) T = -(T.map fun p => logit (min p.1 p.2) (max p.1 p.2)).sum := by
    intro T
    induction T with
    | nil => simp [pairTotal]
    | cons q T ih =>
      have : pairTotal (fun q => -symOf logit q) (q :: T) = -logit (min q.1 q.2) (max q.1 q.2) + pairTotal (fun q => -symOf logit q) T := rfl
      rw [this, ih, List.map_cons, List.sum_cons]
      ring
  rw [h4, h4] at key
  linarith

end

/-- **C74** (float32). The two theorems above in the arithmetic of the code: logits in float32 with absolute value at most `B` give a tree whose total logit is
within `(V - 1) * (2 ^ -21 * B + 2 ^ -23)` and a little more of the greatest one. -/
theorem floatEstimateTree_float32 (mst : List (List ℚ) → List Edge) (hmst : MstContract mst) (V : Nat) (hV : 1 ≤ V) (grid : Grid)
    (hg : makeCompleteGraph V = .ok grid) (logit : Nat → Nat → ℚ) (hfl : ∀ i j, i < j → j < V → IsFloat 24 (-149) (logit i j)) (B : ℚ)
    (hb : ∀ i j, i < j → j < V → |logit i j| ≤ B) (hB : 0 ≤ B) :
    ∃ T, floatEstimateTree float32 mst grid (grid.map fun p => logit p.2.1 p.2.2) = .ok T ∧ Canonical T ∧ IsTree V T ∧
      ∀ T', IsTree V T' → (T'.map fun p => logit (min p.1 p.2) (max p.1 p.2)).sum
        ≤ (T.map fun p => logit p.1 p.2).sum + ((V - 1 : Nat) : ℚ) * ((1 + 1 / 2 ^ 25) / 2 ^ 21 * B + 1 / 2 ^ 23) := by
  obtain ⟨T, h1, h2, h3, h4⟩ := floatEstimateTree_near float32_isRounding (by norm_num) (by norm_num) mst hmst V hV grid hg logit hfl (-B) B hB
    fun i j hij hj => abs_le.1 (hb i j hij hj)
  refine ⟨T, h1, h2, h3, fun T' hT' => ?_⟩
  have h5 := h4 T' hT'
  have h6 : 2 * weightSlack 24 (-B) B = (1 + 1 / 2 ^ 25) / 2 ^ 21 * B + 1 / 2 ^ 23 := by
    unfold weightSlack
    ring
  rwa [h6] at h5

/-- The weights of two different vectors of logits can be the same after rounding. -/
theorem floatTreeWeights_collide :
    floatTreeWeights float32 (completeGrid 3) [2 ^ 25, -1, 0] = floatTreeWeights float32 (completeGrid 3) [2 ^ 25, 0, -1] := by decide +kernel

/-- **C74** (why not exactly). With float32 weights the tree need not be the best one, whatever `minimum_spanning_tree` does with equal weights: of two inputs
on which it sees the same matrix, at least one gets a tree that is worse than another by 1. -/
theorem floatEstimateTree_not_max (mst : List (List ℚ) → List Edge) (hmst : MstContract mst) :
    ∃ logit : Nat → Nat → ℚ, (∀ i j, i < j → j < 3 → IsFloat 24 (-149) (logit i j)) ∧
      ∃ T T', floatEstimateTree float32 mst (completeGrid 3) ((completeGrid 3).map fun p => logit p.2.1 p.2.2) = .ok T ∧ IsTree 3 T' ∧
        (T.map fun p => logit p.1 p.2).sum + 1 ≤ (T'.map fun p => logit (min p.1 p.2) (max p.1 p.2)).sum := by
  have hf25 : IsFloat 24 (-149) (2 ^ 25 : ℚ) := ⟨1, 25, by norm_num, by norm_num, by norm_num⟩
  have hf1 : IsFloat 24 (-149) (-1 : ℚ) := (isFloat_one (by norm_num) (by norm_num)).neg
  set la : Nat → Nat → ℚ := fun i j => if i = 0 ∧ j = 1 then 2 ^ 25 else if i = 0 then -1 else 0 with hla
  set lb : Nat → Nat → ℚ := fun i j => if i = 0 ∧ j = 1 then 2 ^ 25 else if i = 0 then 0 else -1 with hlb
  have hfa : ∀ i j, i < j → j < 3 → IsFloat 24 (-149) (la i j) := by
    intro i j _ _
    simp only [hla]
    split_ifs
    · exact hf25
    · exact hf1
    · exact isFloat_zero ..
  have hfb : ∀ i j, i < j → j < 3 → IsFloat 24 (-149) (lb i j) := by
    intro i j _ _
    simp only [hlb]
    split_ifs
    · exact hf25
    · exact isFloat_zero ..
    · exact hf1
  have hba : ∀ i j, i < j → j < 3 → |la i j| ≤ 2 ^ 25 := by
    intro i j _ _
    simp only [hla]
    split_ifs <;> norm_num
  obtain ⟨T, h1, h2, h3, -⟩ := floatEstimateTree_float32 mst hmst 3 (by norm_num) (completeGrid 3) (makeCompleteGraph_eq 3) la hfa _ hba (by norm_num)
  have hma : ((completeGrid 3).map fun p => la p.2.1 p.2.2) = [2 ^ 25, -1, 0] := by decide +kernel
  have hmb : ((completeGrid 3).map fun p => lb p.2.1 p.2.2) = [2 ^ 25, 0, -1] := by decide +kernel
  have hsame : floatEstimateTree float32 mst (completeGrid 3) ((completeGrid 3).map fun p => lb p.2.1 p.2.2) = .ok T := by
    rw [← h1, hma, hmb, floatEstimateTree, floatEstimateTree, floatTreeWeights_collide]
  have t1 : IsTree 3 [(0, 1), (1, 2)] := isTree_of_smaller (by simp) (by simp) (by
    intro v hv h0
    refine ⟨v - 1, by omega, ?_⟩
    interval_cases v <;> simp_all [Adj])
  have t2 : IsTree 3 [(0, 1), (0, 2)] := isTree_of_smaller (by simp) (by simp) (by
    intro v hv h0
    refine ⟨0, by omega, ?_⟩
    interval_cases v <;> simp_all [Adj])
  have hc := h3.card
  match T, hc, h1, h2, h3, hsame with
  | [e, f], _, h1, h2, h3, hsame =>
    have he := h3.range e (by simp)
    have hf := h3.range f (by simp)
    have hce := h2.small_large e (by simp)
    have hcf := h2.small_large f (by simp)
    have hs := (List.pairwise_cons.1 h2.sorted).1 f (by simp)
    obtain ⟨e1, e2⟩ := e
    obtain ⟨f1, f2⟩ := f
    simp only at he hf hce hcf hs
    by_cases hcase : (e1 = 0 ∧ e2 = 1) ∧ (f1 = 1 ∧ f2 = 2)
    · obtain ⟨⟨rfl, rfl⟩, rfl, rfl⟩ := hcase
      refine ⟨lb, hfb, _, [(0, 1), (0, 2)], hsame, t2, ?_⟩
      simp [hlb]
    · refine ⟨la, hfa, _, [(0, 1), (1, 2)], h1, t1, ?_⟩
      obtain ⟨he1, he2⟩ := he
      obtain ⟨hf1, hf2⟩ := hf
      have : (e1 = 0 ∧ (f1 = 0 ∧ f2 = 2 ∧ e2 = 1)) ∨ (e1 = 0 ∧ e2 = 2 ∧ f1 = 1 ∧ f2 = 2) := by omega
      rcases this with ⟨rfl, rfl, rfl, rfl⟩ | ⟨rfl, rfl, rfl, rfl⟩ <;> norm_num [hla]

/-- The hypotheses of the theorems can be met. -/
example : ∃ mst : List (List ℚ) → List Edge, MstContract mst := exists_mst

example (mst : List (List ℚ) → List Edge) (hmst : MstContract mst) :
    ∃ T, floatEstimateTree float32 mst (completeGrid 3) ((completeGrid 3).map fun p => ((fun i j => (i : ℚ) - j) : Nat → Nat → ℚ) p.2.1 p.2.2) = .ok T ∧
      Canonical T ∧ IsTree 3 T ∧
      ∀ T', IsTree 3 T' → (T'.map fun p => (((min p.1 p.2 : Nat) : ℚ) - (max p.1 p.2 : Nat))).sum ≤ (T.map fun p => ((p.1 : ℚ) - p.2)).sum := by
  refine floatEstimateTree_exact float32_isRounding (by norm_num) (by norm_num) mst hmst 3 (by norm_num) (completeGrid 3) (makeCompleteGraph_eq 3)
    (fun i j => (i : ℚ) - j) ?_ (-2) 0 (by norm_num) ?_ ?_
  · intro i j _ hj
    refine ⟨(i : Int) - j, 0, ?_, by norm_num, by push_cast; ring⟩
    rw [abs_lt]
    constructor <;> omega
  · intro i j hij hj
    have h1 : (i : ℚ) < j := by exact_mod_cast hij
    have h2 : (j : ℚ) ≤ i + 2 := by exact_mod_cast (by omega : j ≤ i + 2)
    constructor <;> linarith
  · intro i j k l _ _ _ _ hlt
    have h1 : (i : ℚ) + l < k + j := by linarith
    have h2 : i + l + 1 ≤ k + j := by exact_mod_cast h1
    have h3 : (i : ℚ) + l + 1 ≤ k + j := by exact_mod_cast h2
    have h4 : 2 * weightSlack 24 (-2) 0 < 1 := by unfold weightSlack; norm_num
    linarith

example : floatTreeWeights float32 (completeGrid 3) [2 ^ 25, -1, 0]
    = .ok [[2 ^ 25, 1, 2 ^ 25], [1, 2 ^ 25, 2 ^ 25], [2 ^ 25, 2 ^ 25, 2 ^ 25]] := by decide +kernel

end TreeCat
