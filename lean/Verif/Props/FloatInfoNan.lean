import Verif.Props.FloatInfo
import Verif.Props.FloatMarginalNear
import Mathlib.Analysis.SpecialFunctions.Log.Deriv

/-!
# C83: the correlation of two classes can be `nan`

For independent latent classes the mutual information is zero, and the computed value can be a little less. Then `1.0 - np.exp(-2.0 * mutual_information)` is negative and its root
`nan`, serving.py:50. Two rows are enough.
-/

namespace TreeCat
open Util Spec

/-! ### Enclosures of logarithms -/

/-- A partial sum of the series of `-log (1 - x)`. -/
def logSum (x : ℚ) : Nat → ℚ
  | 0 => 0
  | n + 1 => logSum x n + x ^ (n + 1) / (n + 1)

theorem logSum_cast (x : ℚ) (n : Nat) : ((logSum x n : ℚ) : ℝ) = ∑ i ∈ Finset.range n, (x : ℝ) ^ (i + 1) / (i + 1) := by
  induction n with
  | zero => simp [logSum]
  | succ n ih =>
    rw [Finset.sum_range_succ, ← ih, logSum]
    push_cast
    rfl

theorem log_enclosed {q lo hi : ℚ} (n : Nat) (h0 : 0 < q) (h1 : q ≤ 1) (hlo : lo ≤ -logSum (1 - q) n - (1 - q) ^ (n + 1) / q) (hhi : -logSum (1 - q) n + (1 - q) ^ (n + 1) / q ≤ hi) :
    (lo : ℝ) ≤ Real.log q ∧ Real.log q ≤ hi := by
  have h0' : (0 : ℝ) < q := by exact_mod_cast h0
  have h1' : (q : ℝ) ≤ 1 := by exact_mod_cast h1
  have habs : |1 - (q : ℝ)| = 1 - q := abs_of_nonneg (by linarith)
  have key := Real.abs_log_sub_add_sum_range_le (x := 1 - (q : ℝ)) (by rw [habs]; linarith) n
  have e := logSum_cast (1 - q) n
  push_cast at e
  rw [habs, ← e, sub_sub_cancel, abs_le] at key
  have hlo' := (Rat.cast_le (K := ℝ)).2 hlo
  have hhi' := (Rat.cast_le (K := ℝ)).2 hhi
  push_cast at hlo' hhi'
  constructor <;> linarith [key.1, key.2]

/-- What is assumed of `log` on float64: it rounds a value with a relative error of at most `2 ^ -56`. -/
def Spec.GoodLog (log : ℚ → ℚ) : Prop := ∀ q : ℚ, 0 < q → ∃ r : ℚ, log q = float64 r ∧ |(r : ℝ) - Real.log q| ≤ 2 ^ (-56 : Int) * |Real.log q|

theorem log_forced {log : ℚ → ℚ} (H : Spec.GoodLog log) {q lo hi v : ℚ} (hq : 0 < q) (h : (lo : ℝ) ≤ Real.log q ∧ Real.log q ≤ hi) (hneg : hi ≤ 0) (h1 : float64 (lo * (1 + 1 / 2 ^ 56)) = v)
    (h2 : float64 (hi * (1 - 1 / 2 ^ 56)) = v) : log q = v := by
  obtain ⟨r, h3, h4⟩ := H q hq
  have hneg' : (hi : ℝ) ≤ 0 := by exact_mod_cast hneg
  have e : (2 : ℝ) ^ (-56 : Int) = 1 / 2 ^ 56 := by norm_num
  rw [e, abs_of_nonpos (a := Real.log q) (by linarith [h.2]), abs_le] at h4
  have hr1 : lo * (1 + 1 / 2 ^ 56) ≤ r := by
    have : ((lo * (1 + 1 / 2 ^ 56) : ℚ) : ℝ) ≤ r := by
      push_cast
      nlinarith [h4.1, h.1]
    exact_mod_cast this
  have hr2 : r ≤ hi * (1 - 1 / 2 ^ 56) := by
    have : (r : ℝ) ≤ ((hi * (1 - 1 / 2 ^ 56) : ℚ) : ℝ) := by
      push_cast
      nlinarith [h4.2, h.2]
    exact_mod_cast this
  rw [h3]
  exact le_antisymm (h2 ▸ float64_mono.mono hr2) (h1 ▸ float64_mono.mono hr1)

/-- The larger and the smaller probability of the classes of vertex 0, and of the pairs, as computed. -/
def nanA : ℚ := 6004799771596121 / 36028797018963968
def nanB : ℚ := 3752999655920981 / 4503599627370496

theorem log_half_enclosed : ((-26186360105375038791249 / 2 ^ 75 : ℚ) : ℝ) ≤ Real.log ((1 / 2 : ℚ) : ℝ) ∧ Real.log ((1 / 2 : ℚ) : ℝ) ≤ ((-26186360105375038791246 / 2 ^ 75 : ℚ) : ℝ) :=
  log_enclosed 90 (by norm_num) (by norm_num) (by decide +kernel) (by decide +kernel)

theorem log_fourA_enclosed : ((-15318037003175056004819 / 2 ^ 75 : ℚ) : ℝ) ≤ Real.log ((4 * nanA : ℚ) : ℝ) ∧ Real.log ((4 * nanA : ℚ) : ℝ) ≤ ((-15318037003175056004816 / 2 ^ 75 : ℚ) : ℝ) :=
  log_enclosed 60 (by decide +kernel) (by decide +kernel) (by decide +kernel) (by decide +kernel)

theorem log_b_enclosed : ((-6887914009037063128346 / 2 ^ 75 : ℚ) : ℝ) ≤ Real.log (nanB : ℝ) ∧ Real.log (nanB : ℝ) ≤ ((-6887914009037063128343 / 2 ^ 75 : ℚ) : ℝ) :=
  log_enclosed 40 (by decide +kernel) (by decide +kernel) (by decide +kernel) (by decide +kernel)

theorem log_shift_enclosed {q l1 h1 l2 h2 : ℚ} (hq : 0 < q) (n : Nat) (e1 : (l1 : ℝ) ≤ Real.log q ∧ Real.log q ≤ h1) (e2 : (l2 : ℝ) ≤ Real.log ((1 / 2 : ℚ) : ℝ) ∧ Real.log ((1 / 2 : ℚ) : ℝ) ≤ h2) :
    ((l1 + n * l2 : ℚ) : ℝ) ≤ Real.log ((q * (1 / 2) ^ n : ℚ) : ℝ) ∧ Real.log ((q * (1 / 2) ^ n : ℚ) : ℝ) ≤ ((h1 + n * h2 : ℚ) : ℝ) := by
  have hq' : (q : ℝ) ≠ 0 := by exact_mod_cast hq.ne'
  have e : Real.log ((q * (1 / 2) ^ n : ℚ) : ℝ) = Real.log q + n * Real.log ((1 / 2 : ℚ) : ℝ) := by
    push_cast
    rw [Real.log_mul hq' (by positivity), Real.log_pow]
  have hn : (0 : ℝ) ≤ n := by positivity
  rw [e]
  push_cast at *
  exact ⟨add_le_add e1.1 (mul_le_mul_of_nonneg_left e2.1 hn), add_le_add e1.2 (mul_le_mul_of_nonneg_left e2.2 hn)⟩

theorem log_half {log : ℚ → ℚ} (H : Spec.GoodLog log) : log (1 / 2) = -6243314768165359 / 2 ^ 53 :=
  log_forced H (by norm_num) log_half_enclosed (by decide +kernel) (by decide +kernel) (by decide +kernel)

theorem log_b {log : ℚ → ℚ} (H : Spec.GoodLog log) : log nanB = -3284413342016727 / 2 ^ 54 :=
  log_forced H (by decide +kernel) log_b_enclosed (by decide +kernel) (by decide +kernel) (by decide +kernel)

theorem log_a {log : ℚ → ℚ} (H : Spec.GoodLog log) : log nanA = -2017341769156609 / 2 ^ 50 := by
  have e : nanA = 4 * nanA * (1 / 2) ^ 2 := by norm_num; ring
  have := log_shift_enclosed (by decide +kernel) 2 log_fourA_enclosed log_half_enclosed
  rw [← e] at this
  exact log_forced H (by decide +kernel) this (by decide +kernel) (by decide +kernel) (by decide +kernel)

theorem log_a2 {log : ℚ → ℚ} (H : Spec.GoodLog log) : log (nanA / 2) = -2797756115177279 / 2 ^ 50 := by
  have e : nanA / 2 = 4 * nanA * (1 / 2) ^ 3 := by norm_num; ring
  have := log_shift_enclosed (by decide +kernel) 3 log_fourA_enclosed log_half_enclosed
  rw [← e] at this
  exact log_forced H (by decide +kernel) this (by decide +kernel) (by decide +kernel) (by decide +kernel)

theorem log_b2 {log : ℚ → ℚ} (H : Spec.GoodLog log) : log (nanB / 2) = -7885521439173723 / 2 ^ 53 := by
  have e : nanB / 2 = nanB * (1 / 2) ^ 1 := by norm_num; ring
  have := log_shift_enclosed (by decide +kernel) 1 log_b_enclosed log_half_enclosed
  rw [← e] at this
  exact log_forced H (by decide +kernel) this (by decide +kernel) (by decide +kernel) (by decide +kernel)

/-! ### The counterexample -/

/-- The float64 arithmetic of numpy and scipy with sums from left to right; `log`, `exp` and `sqrt` are parameters. `entr` is `-x * log(x)` (scipy/special/_convex_analysis.pxd). -/
def numpyCorr (M : Nat) (log exp sqrt : ℚ → ℚ) : CorrOps M where
  rnd := float64
  sum := seqSum float64
  entr x := x.bind fun q => if q = 0 then some 0 else if 0 < q then some (float64 (-q * log q)) else none
  dot := seqDot float64
  exp x := x.map exp
  sqrt x := x.bind fun q => if q < 0 then none else some (sqrt q)

/-- Two rows of two features. The latent classes are `(1, 0)` in the first row and `(1, 1)` in the second, the values `(0, 0)` and `(0, 1)`. -/
noncomputable def twoRows : Model ℝ 2 where
  tree := { numVertices := 2, treeGrid := makeTree [(0, 1)] }
  raggedIndex := [0, 2, 4]
  vertSS v a := if v = 0 then (if a = 1 then 2 else 0) else 1
  edgeSS _ a _ := if a = 1 then 1 else 0
  featSS r m := if r = 0 then (if m = 1 then 2 else 0) else if r = 2 then (if m = 0 then 1 else 0) else if r = 3 then (if m = 1 then 1 else 0) else 0
  edgeLogits := [0]

theorem twoRows_grid : twoRows.tree.treeGrid = [(0, 0, 1)] := by
  change makeTree [(0, 1)] = _
  decide +kernel

theorem twoRows_valid : Model.Valid twoRows where
  isTree := by
    change IsTree 2 (twoRows.tree.treeGrid.map fun c => (c.2.1, c.2.2))
    rw [twoRows_grid]
    exact isTree_of_smaller rfl (by decide) (by decide)
  sorted := ⟨_, rfl⟩
  ragged := rfl
  mono := by change [0, 2, 4].Pairwise (· ≤ ·); decide
  vert v _ m := by simp only [twoRows]; split_ifs <;> decide
  edge c _ a b := by simp only [twoRows]; split_ifs <;> decide
  feat v _ r _ m := by simp only [twoRows]; split_ifs <;> decide
  logits := by simp [twoRows]

theorem twoRows_consistent : Model.Consistent twoRows := by
  intro c hc
  rw [twoRows_grid, List.mem_singleton] at hc
  subst hc
  simp only [twoRows]
  decide

/-- The joint distribution of the two latent classes as computed, with vertex 1 as root. -/
def nanProbs (a _ : Fin 2) : Flt := some (if a = 0 then 11184811 / 134217728 else 13981013 / 33554432)

theorem twoRows_message (log : ℚ → ℚ) (a c : Fin 2) :
    seqDot float64 (fun b => Flt.div float32 (transAt (floatEdgeProbs (numpyServe 2 log) twoRows.edgeSS) 0 0 1 a b) (floatVertProbs (numpyServe 2 log) twoRows.vertSS 1 b))
      (fun b => if b = c then floatVertProbs (numpyServe 2 log) twoRows.vertSS 1 b else some 0) = nanProbs a c := by
  change seqDot float64 (fun b => Flt.div float32 (transAt (floatEdgeProbs (numpyServe 2 fun _ => 0) fun _ a _ => if a = 1 then 1 else 0) 0 0 1 a b)
      (floatVertProbs (numpyServe 2 fun _ => 0) (fun v a => if v = 0 then (if a = 1 then 2 else 0) else 1) 1 b))
      (fun b => if b = c then floatVertProbs (numpyServe 2 fun _ => 0) (fun v a => if v = 0 then (if a = 1 then 2 else 0) else 1) 1 b else some 0) = nanProbs a c
  revert a c
  decide +kernel

/-- `entropy` with the logarithms filled in. -/
theorem floatEntropy_eq {log exp sqrt : ℚ → ℚ} {pk : List Flt} {ps ys : List ℚ} {d : ℚ} (h1 : (pk.map fun x => Flt.div float64 x (seqSum float64 pk)) = ps.map some)
    (h2 : ps.map (fun q => (if q = 0 then some 0 else if 0 < q then some (float64 (-q * log q)) else none : Flt)) = ys.map some) (h3 : seqSum float64 (ys.map some) = some d) :
    floatEntropy (numpyCorr 2 log exp sqrt).toEntropyOps pk = some d := by
  rw [← h3, ← h2]
  unfold floatEntropy
  have e : (pk.map fun x => (numpyCorr 2 log exp sqrt).entr (Flt.div float64 x (seqSum float64 pk))) = ((pk.map fun x => Flt.div float64 x (seqSum float64 pk))).map (numpyCorr 2 log exp sqrt).entr := by
    rw [List.map_map]
    rfl
  change seqSum float64 (pk.map fun x => (numpyCorr 2 log exp sqrt).entr (Flt.div float64 x (seqSum float64 pk))) = _
  rw [e, h1, List.map_map]
  rfl

theorem entr_eq {log : ℚ → ℚ} {q l : ℚ} (h : log q = l) (hq : 0 < q) : (if q = 0 then some 0 else if 0 < q then some (float64 (-q * log q)) else none : Flt) = some (float64 (-q * l)) := by
  rw [if_neg hq.ne', if_pos hq, h]

/-- The computed mutual information of the two classes is negative. -/
theorem nanProbs_info {log : ℚ → ℚ} (H : Spec.GoodLog log) (exp sqrt : ℚ → ℚ) : floatMutualInfo (numpyCorr 2 log exp sqrt).toEntropyOps nanProbs = some (-1 / 2 ^ 52) := by
  have c0 : floatEntropy (numpyCorr 2 log exp sqrt).toEntropyOps ((List.finRange 2).map fun b => seqSum float64 ((List.finRange 2).map fun a => nanProbs a b)) = some (6243314768165359 / 2 ^ 53) := by
    refine floatEntropy_eq (ps := [1 / 2, 1 / 2]) (ys := [float64 (-(1 / 2) * (-6243314768165359 / 2 ^ 53)), float64 (-(1 / 2) * (-6243314768165359 / 2 ^ 53))]) (by decide +kernel) ?_ (by decide +kernel)
    simp only [List.map_cons, List.map_nil, entr_eq (log_half H) (by norm_num)]
  have c1 : floatEntropy (numpyCorr 2 log exp sqrt).toEntropyOps ((List.finRange 2).map fun a => seqSum float64 ((List.finRange 2).map fun b => nanProbs a b)) = some (8116589385446659 / 2 ^ 54) := by
    refine floatEntropy_eq (ps := [nanA, nanB]) (ys := [float64 (-nanA * (-2017341769156609 / 2 ^ 50)), float64 (-nanB * (-3284413342016727 / 2 ^ 54))]) (by decide +kernel) ?_ (by decide +kernel)
    simp only [List.map_cons, List.map_nil, entr_eq (log_a H) (by decide +kernel), entr_eq (log_b H) (by decide +kernel)]
  have c2 : floatEntropy (numpyCorr 2 log exp sqrt).toEntropyOps ((List.finRange 2).flatMap fun a => (List.finRange 2).map fun b => nanProbs a b) = some (5150804730444345 / 2 ^ 52) := by
    refine floatEntropy_eq (ps := [nanA / 2, nanA / 2, nanB / 2, nanB / 2]) (ys := [float64 (-(nanA / 2) * (-2797756115177279 / 2 ^ 50)), float64 (-(nanA / 2) * (-2797756115177279 / 2 ^ 50)),
      float64 (-(nanB / 2) * (-7885521439173723 / 2 ^ 53)), float64 (-(nanB / 2) * (-7885521439173723 / 2 ^ 53))]) (by decide +kernel) ?_ (by decide +kernel)
    simp only [List.map_cons, List.map_nil, entr_eq (log_a2 H) (by decide +kernel), entr_eq (log_b2 H) (by decide +kernel)]
  unfold floatMutualInfo
  change Flt.sub float64 (Flt.add float64 (floatEntropy (numpyCorr 2 log exp sqrt).toEntropyOps ((List.finRange 2).map fun b => seqSum float64 ((List.finRange 2).map fun a => nanProbs a b)))
    (floatEntropy (numpyCorr 2 log exp sqrt).toEntropyOps ((List.finRange 2).map fun a => seqSum float64 ((List.finRange 2).map fun b => nanProbs a b))))
    (floatEntropy (numpyCorr 2 log exp sqrt).toEntropyOps ((List.finRange 2).flatMap fun a => (List.finRange 2).map fun b => nanProbs a b)) = _
  rw [c0, c1, c2]
  decide +kernel

/-- What is assumed of `np.exp` on float64 near zero: an error of at most one and a half units in the last place. -/
def Spec.GoodExp (exp : ℚ → ℚ) : Prop := ∀ q : ℚ, |q| ≤ 1 → |(exp q : ℝ) - Real.exp q| ≤ 3 / 2 ^ 53 * Real.exp q

theorem nanProbs_correlation {log exp : ℚ → ℚ} (H : Spec.GoodLog log) (E : Spec.GoodExp exp) (sqrt : ℚ → ℚ) : floatCorrelation (numpyCorr 2 log exp sqrt) nanProbs = none := by
  unfold floatCorrelation
  rw [nanProbs_info H]
  have e1 : Flt.mul float64 (some (-2)) (some (-1 / 2 ^ 52)) = some (1 / 2 ^ 51) := by decide +kernel
  have e2 : (1 : ℚ) - exp (1 / 2 ^ 51) ≤ -1 / 2 ^ 54 := by
    have h1 := E (1 / 2 ^ 51) (by norm_num [abs_of_pos])
    have h2 := Real.add_one_le_exp ((1 / 2 ^ 51 : ℚ) : ℝ)
    have : (1 : ℝ) - exp (1 / 2 ^ 51) ≤ ((-1 / 2 ^ 54 : ℚ) : ℝ) := by
      rw [abs_le] at h1
      push_cast at *
      nlinarith [h1.1]
    exact_mod_cast this
  have e3 : float64 (1 - exp (1 / 2 ^ 51)) < 0 := lt_of_le_of_lt (float64_mono.mono e2) (by decide +kernel)
  change (Flt.sub float64 (some 1) ((Flt.mul float64 (some (-2)) (some (-1 / 2 ^ 52))).map exp)).bind (fun q => if q < 0 then none else some (sqrt q)) = none
  rw [e1]
  change (if float64 (1 - exp (1 / 2 ^ 51)) < 0 then none else some (sqrt (float64 (1 - exp (1 / 2 ^ 51)))) : Flt) = none
  rw [if_pos e3]

/-- **C83, counterexample**. After two rows `latent_correlation` returns a matrix with an entry that is not a number. -/
theorem latentCorrelation_nan {log exp : ℚ → ℚ} (H : Spec.GoodLog log) (E : Spec.GoodExp exp) (sqrt log32 : ℚ → ℚ) (junk : Nat → Fin 2 → Fin 2 → Flt) :
    ∃ m, floatLatentCorrelation (numpyServe 2 log32) (numpyCorr 2 log exp sqrt) twoRows junk = .ok m ∧ (m[1]?.bind fun row => row[0]?) = some none := by
  unfold floatLatentCorrelation
  rw [twoRows_grid]
  have h0 : makeProgram [(0, 0, 1)] (some 0) = .ok [⟨.UP, 1, 0, 0⟩, ⟨.UP, 0, 0, 0⟩, ⟨.IN, 0, 1, 0⟩, ⟨.ROOT, 0, 0, 0⟩, ⟨.DOWN, 0, 0, 0⟩, ⟨.OUT, 1, 0, 0⟩, ⟨.DOWN, 1, 0, 0⟩] := by decide +kernel
  have h1 : makeProgram [(0, 0, 1)] (some 1) = .ok [⟨.UP, 0, 0, 0⟩, ⟨.UP, 1, 0, 0⟩, ⟨.IN, 1, 0, 0⟩, ⟨.ROOT, 1, 0, 0⟩, ⟨.DOWN, 1, 0, 0⟩, ⟨.OUT, 0, 1, 0⟩, ⟨.DOWN, 0, 0, 0⟩] := by decide +kernel
  have hV : List.range twoRows.tree.numVertices = [0, 1] := by
    change List.range 2 = _
    decide
  rw [hV]
  simp only [List.mapM_cons, List.mapM_nil, h0, h1, bind, Except.bind, pure, Except.pure]
  refine ⟨_, rfl, ?_⟩
  simp only [List.map_cons, List.getElem?_cons_succ, List.getElem?_cons_zero, Option.bind_some, List.foldl_cons, List.foldl_nil, floatCorrStep, Function.update_self]
  have hm : (fun a c => (numpyCorr 2 log exp sqrt).dot (fun b => Flt.div (numpyServe 2 log32).rnd (transAt (floatEdgeProbs (numpyServe 2 log32) twoRows.edgeSS) 0 0 1 a b) (floatVertProbs (numpyServe 2 log32) twoRows.vertSS 1 b))
      fun b => if b = c then floatVertProbs (numpyServe 2 log32) twoRows.vertSS 1 b else some 0) = nanProbs := by
    funext a c
    exact twoRows_message log32 a c
  rw [hm, nanProbs_correlation H E]
  rfl

/-! ### The hypotheses can be met -/

theorem exists_goodLog' (rnd : ℚ → ℚ) : ∃ log : ℚ → ℚ, ∀ q : ℚ, 0 < q → ∃ r : ℚ, log q = rnd r ∧ |(r : ℝ) - Real.log q| ≤ 2 ^ (-56 : Int) * |Real.log q| := by
  have : ∀ q : ℚ, ∃ r : ℚ, 0 < q → |(r : ℝ) - Real.log q| ≤ 2 ^ (-56 : Int) * |Real.log q| := by
    intro q
    by_cases h : Real.log q = 0
    · exact ⟨0, fun _ => by simp [h]⟩
    · have hp : 0 < (2 : ℝ) ^ (-56 : Int) * |Real.log q| := mul_pos (by positivity) (abs_pos.2 h)
      obtain ⟨r, h1, h2⟩ := exists_rat_btwn (show Real.log q - 2 ^ (-56 : Int) * |Real.log q| < Real.log q by linarith)
      exact ⟨r, fun _ => abs_le.2 ⟨by linarith, by linarith⟩⟩
  choose r hr using this
  exact ⟨fun q => rnd (r q), fun q hq => ⟨r q, rfl, hr q hq⟩⟩

theorem exists_goodLog : ∃ log, Spec.GoodLog log := exists_goodLog' float64

theorem Util.MonoRounding.error_rel {p : Nat} {emin : Int} {rnd : ℚ → ℚ} (R : MonoRounding p emin rnd) (hp : 1 ≤ p) (x : ℚ) : |rnd x - x| ≤ 2 ^ (1 - p : Int) * |x| + 2 ^ emin := by
  by_cases hx : |x| ≤ 2 ^ (emin + p)
  · have := R.error_abs hp (le_refl _) hx
    have : (0 : ℚ) ≤ 2 ^ (1 - p : Int) * |x| := by positivity
    linarith
  · rw [not_le] at hx
    obtain ⟨j, h1, h2⟩ := exists_mem_Ico_zpow (x := |x|) (y := (2 : ℚ)) (lt_trans (by positivity) hx) (by norm_num)
    have hj : emin + p ≤ j := by
      by_contra hc
      have : |x| < 2 ^ (emin + p) := lt_of_lt_of_le h2 (zpow_mono (by omega))
      linarith
    have := R.error_abs hp (j := j + 1 - p) (by omega) (by rw [sub_add_cancel]; exact h2.le)
    refine le_trans this (le_trans (b := (2 : ℚ) ^ (1 - p : Int) * 2 ^ j) ?_ ?_)
    · rw [← zpow_add₀ (by norm_num)]
      exact zpow_mono (by omega)
    · have := mul_le_mul_of_nonneg_left h1 (show (0 : ℚ) ≤ 2 ^ (1 - p : Int) by positivity)
      have : (0 : ℚ) ≤ 2 ^ emin := by positivity
      linarith

theorem isFloat_multiple_min {p : Nat} {emin : Int} {x : ℚ} (h : IsFloat p emin x) : ∃ k : Int, x = k * 2 ^ emin := by
  obtain ⟨m, e, -, he, rfl⟩ := h
  refine ⟨m * 2 ^ (e - emin).toNat, ?_⟩
  push_cast
  rw [mul_assoc, ← zpow_natCast, Int.toNat_of_nonneg (by omega), ← zpow_add₀ (by norm_num), sub_add_cancel]

/-- The error of an addition is relative to the result even if the result is small. -/
theorem Util.MonoRounding.error_add {p : Nat} {emin : Int} {rnd : ℚ → ℚ} (R : MonoRounding p emin rnd) (hp : 1 ≤ p) {x y : ℚ} (hx : IsFloat p emin x) (hy : IsFloat p emin y) :
    |rnd (x + y) - (x + y)| ≤ 2 ^ (1 - p : Int) * |x + y| := by
  obtain ⟨k, hk⟩ := isFloat_multiple_min hx
  obtain ⟨l, hl⟩ := isFloat_multiple_min hy
  have e : x + y = ((k + l : Int) : ℚ) * 2 ^ emin := by
    rw [hk, hl]
    push_cast
    ring
  by_cases hs : |x + y| ≤ 2 ^ (emin + p)
  · have hkl : |(k + l : Int)| ≤ 2 ^ p := by
      rw [e, abs_mul, abs_of_pos (two_zpow_pos _), zpow_add₀ (by norm_num), mul_comm, mul_le_mul_iff_right₀ (two_zpow_pos _), zpow_natCast] at hs
      exact_mod_cast hs
    have hf : IsFloat p emin (x + y) := by
      rw [e]
      exact isFloat_of_le hp (le_refl _) hkl
    rw [R.id hf, sub_self, abs_zero]
    positivity
  · rw [not_le] at hs
    obtain ⟨j, h1, h2⟩ := exists_mem_Ico_zpow (x := |x + y|) (y := (2 : ℚ)) (lt_trans (by positivity) hs) (by norm_num)
    have hj : emin + p ≤ j := by
      by_contra hc
      have : |x + y| < 2 ^ (emin + p) := lt_of_lt_of_le h2 (zpow_mono (by omega))
      linarith
    have := R.error_abs hp (j := j + 1 - p) (by omega) (by rw [sub_add_cancel]; exact h2.le)
    refine le_trans this (le_trans (b := (2 : ℚ) ^ (1 - p : Int) * 2 ^ j) ?_ (mul_le_mul_of_nonneg_left h1 (by positivity)))
    rw [← zpow_add₀ (by norm_num)]
    exact zpow_mono (by omega)

theorem seqSum_error_fold {p : Nat} {emin : Int} {rnd : ℚ → ℚ} (R : MonoRounding p emin rnd) (hp : 1 ≤ p) (l : List ℚ) (hl : ∀ x ∈ l, IsFloat p emin x) (n : Nat)
    (hn : 2 * (n + l.length : ℚ) * 2 ^ (1 - p : Int) ≤ 1) (s S B : ℚ) (hs : IsFloat p emin s) (hB : |S| ≤ B) (h : |s - S| ≤ 2 * n * 2 ^ (1 - p : Int) * B) :
    ∃ d, (l.map some).foldl (Flt.add rnd) (some s) = some d ∧ IsFloat p emin d ∧ |d - (S + l.sum)| ≤ 2 * (n + l.length) * 2 ^ (1 - p : Int) * (B + (l.map fun x => |x|).sum) := by
  induction l generalizing n s S B with
  | nil => exact ⟨s, rfl, hs, by simpa using h⟩
  | cons x l ih =>
    have hx := hl x List.mem_cons_self
    have he := R.error_add hp hs hx
    set w : ℚ := 2 ^ (1 - p : Int) with hw
    have hw0 : 0 ≤ w := by positivity
    have hB0 : 0 ≤ B := le_trans (abs_nonneg _) hB
    have hx0 := abs_nonneg x
    rw [List.length_cons] at hn
    push_cast at hn
    have hnw : 2 * (n : ℚ) * w ≤ 1 := by
      have : 0 ≤ (l.length : ℚ) * w := by positivity
      nlinarith
    have hstep : |rnd (s + x) - (S + x)| ≤ 2 * ((n + 1 : Nat) : ℚ) * w * (B + |x|) := by
      have h1 : |s + x| ≤ (B + |x|) + 2 * n * w * B := by
        have e : s + x = (S + x) + (s - S) := by ring
        rw [e]
        exact le_trans (abs_add_le _ _) (add_le_add (le_trans (abs_add_le _ _) (by linarith)) h)
      have h2 : |rnd (s + x) - (S + x)| ≤ w * |s + x| + 2 * n * w * B := by
        have e : rnd (s + x) - (S + x) = (rnd (s + x) - (s + x)) + (s - S) := by ring
        rw [e]
        exact le_trans (abs_add_le _ _) (add_le_add he h)
      have h3 : w * |s + x| ≤ w * ((B + |x|) + 1 * B) := mul_le_mul_of_nonneg_left (le_trans h1 (by nlinarith)) hw0
      have h4 : 0 ≤ (n : ℚ) * w * |x| := by positivity
      have h5 : 0 ≤ w * |x| := by positivity
      push_cast
      nlinarith
    obtain ⟨d, d1, d2, d3⟩ := ih (fun y hy => hl y (List.mem_cons_of_mem _ hy)) (n + 1) (by push_cast; linarith) (rnd (s + x)) (S + x) (B + |x|) (R.float _) (le_trans (abs_add_le _ _) (by linarith)) hstep
    refine ⟨d, d1, d2, ?_⟩
    simp only [List.sum_cons, List.map_cons, List.length_cons]
    push_cast at d3 ⊢
    have e1 : S + (x + l.sum) = S + x + l.sum := by ring
    have e2 : B + (|x| + (l.map fun x => |x|).sum) = B + |x| + (l.map fun x => |x|).sum := by ring
    have e3 : (n : ℚ) + (l.length + 1) = n + 1 + l.length := by ring
    rw [e1, e2, e3]
    exact d3

/-- Summation from left to right. -/
theorem seqSum_error {p : Nat} {emin : Int} {rnd : ℚ → ℚ} (R : MonoRounding p emin rnd) (hp : 1 ≤ p) (l : List ℚ) (hl : ∀ x ∈ l, IsFloat p emin x) (hn : 2 * (l.length : ℚ) * 2 ^ (1 - p : Int) ≤ 1) :
    ∃ d, seqSum rnd (l.map some) = some d ∧ IsFloat p emin d ∧ |d - l.sum| ≤ l.length * (2 * 2 ^ (1 - p : Int)) * (l.map fun x => |x|).sum := by
  obtain ⟨d, h1, h2, h3⟩ := seqSum_error_fold R hp l hl 0 (by simpa using hn) 0 0 0 (isFloat_zero _ _) (by simp) (by simp)
  refine ⟨d, h1, h2, ?_⟩
  simp only [Nat.cast_zero, zero_add] at h3
  linarith

/-- `scipy.special.entr` on positive numbers and zero. -/
def entrOf (rnd log : ℚ → ℚ) (x : Flt) : Flt := x.bind fun q => if q = 0 then some 0 else if 0 < q then some (rnd (-q * log q)) else none

theorem mul_log_le {x : ℝ} (h0 : 0 < x) (h2 : x ≤ 2) : x * |Real.log x| ≤ 2 := by
  have h3 := Real.log_le_sub_one_of_pos h0
  have h4 := Real.one_sub_inv_le_log_of_pos h0
  have h5 : x * x⁻¹ = 1 := mul_inv_cancel₀ h0.ne'
  rcases abs_cases (Real.log x) with ⟨e, -⟩ | ⟨e, -⟩ <;> rw [e] <;> nlinarith

/-- An `entropy` that sums from left to right and rounds a good logarithm satisfies the assumptions. -/
theorem seqEntropy_ok {p : Nat} {emin : Int} {rnd : ℚ → ℚ} (R : MonoRounding p emin rnd) (hp : 24 ≤ p) (hp' : p ≤ 57) (he : emin ≤ -2 - p) {log : ℚ → ℚ}
    (H : ∀ q : ℚ, 0 < q → ∃ r : ℚ, log q = rnd r ∧ |(r : ℝ) - Real.log q| ≤ 2 ^ (-56 : Int) * |Real.log q|) :
    Spec.EntropyOk p emin (2 * 2 ^ (1 - p : Int)) (10 * 2 ^ (1 - p : Int)) ⟨rnd, seqSum rnd, entrOf rnd log⟩ := by
  have hw1 : (2 : ℝ) ^ (1 - p : Int) ≤ 2 ^ (-23 : Int) := zpow_le_zpow_right₀ (by norm_num) (by omega)
  have hw2 : (2 : ℝ) ^ (-56 : Int) ≤ 2 ^ (1 - p : Int) := zpow_le_zpow_right₀ (by norm_num) (by omega)
  have hw3 : (8 : ℝ) * 2 ^ emin ≤ 2 ^ (1 - p : Int) := by
    have : (8 : ℝ) = 2 ^ (3 : Int) := by norm_num
    rw [this, ← zpow_add₀ (by norm_num)]
    exact zpow_le_zpow_right₀ (by norm_num) (by omega)
  have ht : (0 : ℝ) < 2 ^ emin := by positivity
  have herr : ∀ x : ℚ, |((rnd x : ℚ) : ℝ) - x| ≤ 2 ^ (1 - p : Int) * |(x : ℝ)| + 2 ^ emin := by
    intro x
    have := (Rat.cast_le (K := ℝ)).2 (R.error_rel (by omega) x)
    push_cast at this
    exact this
  refine ⟨R, fun l hl hx => ?_, fun x hx h0 h2 => ?_⟩
  · obtain ⟨d, h1, h2, h3⟩ := seqSum_error R (by omega) l (fun x h => (hx x h).1) (by
      have h5 : (l.length : ℚ) ≤ 2 ^ 14 := by exact_mod_cast hl
      have h6 : (2 : ℚ) ^ (1 - p : Int) ≤ 2 ^ (-23 : Int) := zpow_mono (by omega)
      calc 2 * (l.length : ℚ) * 2 ^ (1 - p : Int) ≤ 2 * 2 ^ 14 * 2 ^ (-23 : Int) := by gcongr
        _ ≤ 1 := by norm_num)
    refine ⟨d, h1, h2, ?_⟩
    have := (Rat.cast_le (K := ℝ)).2 h3
    push_cast at this ⊢
    exact this
  · rcases eq_or_lt_of_le h0 with h0 | h0
    · subst h0
      refine ⟨0, rfl, isFloat_zero _ _, ?_⟩
      simp [Real.negMulLog]
      positivity
    · refine ⟨rnd (-x * log x), ?_, R.float _, ?_⟩
      · change (if x = 0 then some 0 else if 0 < x then some (rnd (-x * log x)) else none : Flt) = _
        rw [if_neg h0.ne', if_pos h0]
      · obtain ⟨r, hr1, hr2⟩ := H x h0
        have hx0 : (0 : ℝ) < x := by exact_mod_cast h0
        have hx2 : (x : ℝ) ≤ 2 := by exact_mod_cast h2
        have hm := mul_log_le hx0 hx2
        have e1 := herr r
        have e2 := herr (-x * log x)
        rw [← hr1] at e1
        push_cast at e2
        unfold Real.negMulLog
        generalize (2 : ℝ) ^ (1 - p : Int) = w at *
        generalize (2 : ℝ) ^ (-56 : Int) = z at *
        generalize (2 : ℝ) ^ emin = t at *
        norm_num at hw1
        set L := Real.log x with hL
        have hL0 := abs_nonneg L
        have hw0 : 0 ≤ w := by linarith
        have hr : |(r : ℝ)| ≤ 2 * |L| := by
          have e : (r : ℝ) = (r - L) + L := by ring
          rw [e]
          refine le_trans (abs_add_le _ _) ?_
          nlinarith
        have e3 : |(log x : ℝ) - L| ≤ 3 * w * |L| + t := by
          have e : (log x : ℝ) - L = (log x - r) + (r - L) := by ring
          rw [e]
          refine le_trans (abs_add_le _ _) ?_
          have : w * |(r : ℝ)| ≤ w * (2 * |L|) := mul_le_mul_of_nonneg_left hr hw0
          nlinarith
        have e4 : |-(x : ℝ) * log x - -x * L| ≤ 6 * w + 2 * t := by
          have e : -(x : ℝ) * log x - -x * L = -(x * (log x - L)) := by ring
          rw [e, abs_neg, abs_mul, abs_of_pos hx0]
          have h1 : (x : ℝ) * |(log x : ℝ) - L| ≤ x * (3 * w * |L| + t) := mul_le_mul_of_nonneg_left e3 hx0.le
          have h3 : 3 * w * (x * |L|) ≤ 3 * w * 2 := mul_le_mul_of_nonneg_left hm (by positivity)
          nlinarith
        have e5 : |-(x : ℝ) * log x| ≤ 2 + (6 * w + 2 * t) := by
          have e : -(x : ℝ) * log x = (-x * log x - -x * L) + -(x * L) := by ring
          rw [e]
          refine le_trans (abs_add_le _ _) ?_
          rw [abs_neg, abs_mul, abs_of_pos hx0]
          linarith
        have e6 : w * |-(x : ℝ) * log x| ≤ w * (2 + (6 * w + 2 * t)) := mul_le_mul_of_nonneg_left e5 hw0
        have e : ((rnd (-x * log x) : ℚ) : ℝ) - -x * L = (((rnd (-x * log x) : ℚ) : ℝ) - -x * log x) + (-x * log x - -x * L) := by ring
        rw [e]
        refine le_trans (abs_add_le _ _) ?_
        have : 6 * w + 2 * t ≤ 1 / 2 := by linarith
        have := mul_le_mul_of_nonneg_left this hw0
        linarith

/-- `np.exp` and `np.sqrt` with one rounding. -/
noncomputable def nearExp (q : ℚ) : ℚ := float64 (⌊Real.exp q * 2 ^ 200⌋ / 2 ^ 200)
noncomputable def nearSqrt (q : ℚ) : ℚ := float64 (⌊√(q : ℝ) * 2 ^ 200⌋ / 2 ^ 200)

theorem floor200_near (x : ℝ) : (((⌊x * 2 ^ 200⌋ / 2 ^ 200 : ℚ)) : ℝ) ≤ x ∧ x ≤ (((⌊x * 2 ^ 200⌋ / 2 ^ 200 : ℚ)) : ℝ) + 1 / 2 ^ 200 := by
  have h1 := Int.floor_le (x * 2 ^ 200)
  have h2 := Int.lt_floor_add_one (x * 2 ^ 200)
  push_cast
  constructor
  · rwa [div_le_iff₀ (by positivity)]
  · rw [← add_div, le_div_iff₀ (by positivity)]
    exact h2.le

theorem nearExp_error {q : ℚ} (hq : |q| ≤ 64) : 0 ≤ nearExp q ∧ (q ≤ 0 → nearExp q ≤ 1) ∧ |(nearExp q : ℝ) - Real.exp q| ≤ 3 / 2 ^ 53 * Real.exp q := by
  obtain ⟨h1, h2⟩ := floor200_near (Real.exp q)
  have hnn : (0 : ℚ) ≤ ⌊Real.exp q * 2 ^ 200⌋ / 2 ^ 200 := by
    have : (0 : Int) ≤ ⌊Real.exp q * 2 ^ 200⌋ := Int.floor_nonneg.2 (by positivity)
    have : (0 : ℚ) ≤ ⌊Real.exp q * 2 ^ 200⌋ := by exact_mod_cast this
    positivity
  set z : ℚ := ⌊Real.exp q * 2 ^ 200⌋ / 2 ^ 200 with hz
  have hlow : (1 : ℝ) / 2 ^ 128 ≤ Real.exp q := by
    have h3 : Real.exp (-64) ≤ Real.exp q := Real.exp_le_exp.2 (by
      have := (abs_le.1 hq).1
      exact_mod_cast this)
    have h4 : Real.exp 1 ^ 64 ≤ 4 ^ 64 := pow_le_pow_left₀ (Real.exp_pos _).le (by linarith [Real.exp_one_lt_d9]) 64
    rw [← Real.exp_nat_mul] at h4
    have h5 : Real.exp (-64) = (Real.exp (((64 : Nat) : ℝ) * 1))⁻¹ := by
      rw [← Real.exp_neg]
      norm_num
    rw [h5] at h3
    refine le_trans ?_ h3
    rw [one_div]
    refine inv_anti₀ (Real.exp_pos _) (le_trans h4 ?_)
    norm_num
  refine ⟨float64_mono.nonneg hnn, fun h0 => float64_mono.le_of ⟨1, 0, by norm_num, by norm_num, by norm_num⟩ ?_, ?_⟩
  · have h3 : Real.exp q ≤ 1 := Real.exp_le_one_iff.2 (by exact_mod_cast h0)
    have h4 : (z : ℝ) ≤ (1 : ℚ) := by push_cast; linarith
    exact (Rat.cast_le (K := ℝ)).1 h4
  · have e := (Rat.cast_le (K := ℝ)).2 (float64_mono.error_rel (by norm_num) z)
    push_cast at e
    have hz0 : (0 : ℝ) ≤ z := by exact_mod_cast hnn
    rw [abs_of_nonneg hz0] at e
    have ht : (2 : ℝ) ^ (-1074 : Int) ≤ 1 / 2 ^ 200 := by
      rw [one_div, ← zpow_natCast, ← zpow_neg]
      exact zpow_le_zpow_right₀ (by norm_num) (by norm_num)
    have hs : (1 : ℝ) / 2 ^ 200 ≤ 1 / 2 ^ 70 * Real.exp q := by
      have := mul_le_mul_of_nonneg_left hlow (show (0 : ℝ) ≤ 1 / 2 ^ 70 by positivity)
      refine le_trans ?_ this
      norm_num
    have hw : (2 : ℝ) ^ (-52 : Int) = 1 / 2 ^ 52 := by norm_num
    rw [hw] at e
    have hc : ((nearExp q : ℚ) : ℝ) = (float64 z : ℝ) := rfl
    rw [hc]
    have hx := Real.exp_pos (q : ℝ)
    generalize (2 : ℝ) ^ (-1074 : Int) = t at *
    rw [abs_le] at e ⊢
    constructor <;> linarith [e.1, e.2]

theorem nearExp_good : Spec.GoodExp nearExp := fun _ hq => (nearExp_error (by linarith)).2.2

theorem nearSqrt_error {y : ℚ} (h1 : y ≤ 1) : 0 ≤ nearSqrt y ∧ nearSqrt y ≤ 1 ∧ |(nearSqrt y : ℝ) - √(y : ℝ)| ≤ 1 / 2 ^ 51 := by
  obtain ⟨g1, g2⟩ := floor200_near √(y : ℝ)
  have hs1 : √(y : ℝ) ≤ 1 := Real.sqrt_le_one.2 (by exact_mod_cast h1)
  have hnn : (0 : ℚ) ≤ ⌊√(y : ℝ) * 2 ^ 200⌋ / 2 ^ 200 := by
    have : (0 : Int) ≤ ⌊√(y : ℝ) * 2 ^ 200⌋ := Int.floor_nonneg.2 (by positivity)
    have : (0 : ℚ) ≤ ⌊√(y : ℝ) * 2 ^ 200⌋ := by exact_mod_cast this
    positivity
  set z : ℚ := ⌊√(y : ℝ) * 2 ^ 200⌋ / 2 ^ 200 with hz
  have hz1 : z ≤ 1 := by
    have : (z : ℝ) ≤ (1 : ℚ) := by push_cast; linarith
    exact_mod_cast this
  have e := (Rat.cast_le (K := ℝ)).2 (float64_mono.error (by norm_num) (j := -53) (by norm_num) hnn (by simpa using hz1))
  push_cast at e
  have hw : (2 : ℝ) ^ (-53 : Int) = 1 / 2 ^ 53 := by norm_num
  rw [hw] at e
  refine ⟨float64_mono.nonneg hnn, float64_mono.le_of ⟨1, 0, by norm_num, by norm_num, by norm_num⟩ hz1, ?_⟩
  have hc : ((nearSqrt y : ℚ) : ℝ) = (float64 z : ℝ) := rfl
  rw [hc]
  have h200 : (1 : ℝ) / 2 ^ 200 ≤ 1 / 2 ^ 53 := by norm_num
  have h53 : (1 : ℝ) / 2 ^ 53 + 1 / 2 ^ 53 ≤ 1 / 2 ^ 51 := by norm_num
  generalize (1 : ℝ) / 2 ^ 200 = t at *
  generalize (1 : ℝ) / 2 ^ 53 = w at *
  rw [abs_le] at e ⊢
  constructor <;> linarith [e.1, e.2]

/-- The arithmetic with sums from left to right satisfies the assumptions. -/
theorem numpyCorr_ok {M : Nat} (hM : M ≤ 128) {log : ℚ → ℚ} (H : Spec.GoodLog log) : Spec.CorrOk (M := M) (1 / 2 ^ 51) (10 / 2 ^ 52) (3 / 2 ^ 53) (1 / 2 ^ 51) (numpyCorr M log nearExp nearSqrt) where
  ent := by
    have := seqEntropy_ok float64_mono (by norm_num) (by norm_num) (by norm_num) H
    have e1 : (2 : ℝ) * 2 ^ (1 - (53 : Nat) : Int) = 1 / 2 ^ 51 := by norm_num
    have e2 : (10 : ℝ) * 2 ^ (1 - (53 : Nat) : Int) = 10 / 2 ^ 52 := by norm_num
    rw [e1, e2] at this
    exact this
  dot x y hx hy hxy := by
    have hpos : ∀ b, 0 ≤ x b * y b := fun b => mul_nonneg (hx b).2.1 (hy b).2.1
    have herr : ∀ b, |float64 (x b * y b) - x b * y b| ≤ 3 / 2 ^ 53 * (x b * y b) := by
      intro b
      rcases hxy b with h | h
      · rw [h, float64_mono.id (isFloat_zero _ _)]
        simp
      · have e := float64_mono.error_rel (by norm_num) (x b * y b)
        rw [abs_of_nonneg (hpos b)] at e
        have h3 : (2 : ℚ) ^ (-1074 : Int) ≤ 1 / 2 ^ 53 * 2 ^ (-500 : Int) := by
          have : (1 : ℚ) / 2 ^ 53 = 2 ^ (-53 : Int) := by norm_num
          rw [this, ← zpow_add₀ (by norm_num)]
          exact zpow_mono (by norm_num)
        have h4 := mul_le_mul_of_nonneg_left h (show (0 : ℚ) ≤ 1 / 2 ^ 53 by norm_num)
        have hw : (2 : ℚ) ^ (1 - (53 : Nat) : Int) = 1 / 2 ^ 52 := by norm_num
        rw [hw] at e
        generalize (2 : ℚ) ^ (-1074 : Int) = t at *
        generalize (2 : ℚ) ^ (-500 : Int) = t2 at *
        linarith
    have hp0 : ∀ b, 0 ≤ float64 (x b * y b) := fun b => float64_mono.nonneg (hpos b)
    have hMQ : (M : ℚ) ≤ 128 := by exact_mod_cast hM
    obtain ⟨d, d1, d2, d3⟩ := seqSum_error float64_mono (by norm_num) ((List.finRange M).map fun b => float64 (x b * y b)) (by
      intro z hz
      obtain ⟨b, -, rfl⟩ := List.mem_map.1 hz
      exact float64_mono.float _) (by
      rw [List.length_map, List.length_finRange]
      have hw : (2 : ℚ) ^ (1 - (53 : Nat) : Int) = 1 / 2 ^ 52 := by norm_num
      rw [hw]
      linarith)
    have e1 : seqDot float64 (fun b => some (x b)) (fun b => some (y b)) = seqSum float64 (((List.finRange M).map fun b => float64 (x b * y b)).map some) := by
      unfold seqDot seqSum
      rw [List.map_map, List.foldl_map]
      rfl
    have e2 : (((List.finRange M).map fun b => float64 (x b * y b)).map fun z => |z|) = (List.finRange M).map fun b => float64 (x b * y b) := by
      rw [List.map_map]
      refine List.map_congr_left fun b _ => ?_
      exact abs_of_nonneg (hp0 b)
    have e3 : ((List.finRange M).map fun b => float64 (x b * y b)).sum = ∑ b, float64 (x b * y b) := by rw [← List.ofFn_eq_map, List.sum_ofFn]
    have hw : (2 : ℚ) ^ (1 - (53 : Nat) : Int) = 1 / 2 ^ 52 := by norm_num
    rw [e2, e3, List.length_map, List.length_finRange, hw] at d3
    refine ⟨d, e1.trans d1, d2, ?_⟩
    have h5 : |∑ b, float64 (x b * y b) - ∑ b, x b * y b| ≤ 3 / 2 ^ 53 * ∑ b, x b * y b := by
      rw [← Finset.sum_sub_distrib, Finset.mul_sum]
      exact le_trans (Finset.abs_sum_le_sum_abs _ _) (Finset.sum_le_sum fun b _ => herr b)
    have h6 : 0 ≤ ∑ b, x b * y b := Finset.sum_nonneg fun b _ => hpos b
    have key : |d - ∑ b, x b * y b| ≤ (M + 1) * (1 / 2 ^ 51) * ∑ b, x b * y b := by
      set S := ∑ b, x b * y b with hS
      set T := ∑ b, float64 (x b * y b) with hT
      have e : d - S = (d - T) + (T - S) := by ring
      rw [e]
      refine le_trans (abs_add_le _ _) (le_trans (add_le_add d3 h5) ?_)
      have h7 : T ≤ (1 + 3 / 2 ^ 53) * S := by linarith [(abs_le.1 h5).2]
      have hM0 : (0 : ℚ) ≤ M := by positivity
      have h8 := mul_le_mul_of_nonneg_left h7 (show (0 : ℚ) ≤ M * (2 * (1 / 2 ^ 52)) by positivity)
      have h9 : (M : ℚ) * S ≤ 128 * S := mul_le_mul_of_nonneg_right hMQ h6
      nlinarith
    have := (Rat.cast_le (K := ℝ)).2 key
    push_cast at this ⊢
    exact this
  exp q _ hq := by
    obtain ⟨h1, h2, h3⟩ := nearExp_error hq
    exact ⟨nearExp q, rfl, float64_mono.float _, h1, h2, h3⟩
  sqrt y _ h0 h1 := by
    obtain ⟨g1, g2, g3⟩ := nearSqrt_error h1
    refine ⟨nearSqrt y, ?_, g1, g2, g3⟩
    change (if y < 0 then none else some (nearSqrt y) : Flt) = _
    rw [if_neg (not_lt.2 h0)]
  sqrt_neg y h := by
    change (if y < 0 then none else some (nearSqrt y) : Flt) = _
    rw [if_pos h]

/-- The hypotheses of the theorem can be met: three features and two clusters, for which every number is correct up to 1/20. -/
example : ∃ log, ∀ junk, ∃ m : Nat → Nat → Flt,
    floatLatentCorrelation (numpyServe 2 floorLog) (numpyCorr 2 log nearExp nearSqrt) (exampleModel ℝ) junk = .ok ((List.range 3).map fun i => (List.range 3).map fun j => m i j) ∧
      ∀ i < 3, ∀ j < 3, (1 / 1000 ≤ mutualInfo (pairProb (exampleModel ℝ) i j) → ∃ q, m i j = some q) ∧
        ∀ q, m i j = some q → 0 ≤ q ∧ q ≤ 1 ∧ |(q : ℝ) - rho (pairProb (exampleModel ℝ) i j)| ≤ 1 / 20 := by
  obtain ⟨log, H⟩ := exists_goodLog
  refine ⟨log, fun junk => ?_⟩
  have hκ : Spec.corrKappa 3 2 (1 / 2 ^ 51) ≤ 65 / 2 ^ 23 := by
    unfold Spec.corrKappa
    norm_num
  have hκ0 : 0 ≤ Spec.corrKappa 3 2 (1 / 2 ^ 51) := by
    unfold Spec.corrKappa
    positivity
  have hinfo : Spec.infoError 2 (1 / 2 ^ 51) (10 / 2 ^ 52) (Spec.corrKappa 3 2 (1 / 2 ^ 51)) ≤ 6 / 10000 := by
    unfold Spec.infoError Spec.entropyError
    have h2 := Real.log_two_lt_d9
    have h20 := Real.log_two_gt_d9
    have h4 : Real.log ((2 * 2 : Nat) : ℝ) = 2 * Real.log 2 := by
      have : ((2 * 2 : Nat) : ℝ) = 2 ^ 2 := by norm_num
      rw [this, Real.log_pow]
      norm_num
    rw [h4]
    generalize Spec.corrKappa 3 2 (1 / 2 ^ 51) = κ at *
    norm_num
    norm_num at hκ
    have hk := mul_le_mul_of_nonneg_left h2.le hκ0
    nlinarith
  obtain ⟨m, h1, h2⟩ := floatLatentCorrelation_near (numpyServe_near (M := 2) (by norm_num)) (numpyCorr_ok (by norm_num) H) (exampleModel_valid ℝ) (exampleModel_consistent ℝ) exampleReal_small
    (by positivity) (by norm_num) (by positivity) (by norm_num) (by norm_num) (le_trans hκ (by norm_num)) (le_trans hinfo (by norm_num)) junk
  refine ⟨m, h1, fun i hi j hj => ?_⟩
  obtain ⟨g1, g2⟩ := h2 i hi j hj
  refine ⟨fun h => g1 (le_trans hinfo (le_trans (by norm_num) h)), fun q hq => ?_⟩
  obtain ⟨-, q1, q2, q3⟩ := g2 q hq
  refine ⟨q1, q2, le_trans q3 ?_⟩
  unfold Spec.corrError
  have hs : √(4 * Spec.infoError 2 (1 / 2 ^ 51) (10 / 2 ^ 52) (Spec.corrKappa 3 2 (1 / 2 ^ 51)) + 2 * (3 / 2 ^ 53) + 2 ^ (-50 : Int)) ≤ 499 / 10000 := by
    rw [Real.sqrt_le_left (by norm_num)]
    norm_num
    linarith
  refine le_trans (add_le_add (add_le_add hs (le_refl _)) (le_refl _)) ?_
  norm_num

/-- The hypotheses of the counterexample can be met. -/
example : ∃ log, ∀ junk, ∃ m, floatLatentCorrelation (numpyServe 2 floorLog) (numpyCorr 2 log nearExp nearSqrt) twoRows junk = .ok m ∧ (m[1]?.bind fun row => row[0]?) = some none := by
  obtain ⟨log, H⟩ := exists_goodLog
  exact ⟨log, fun junk => latentCorrelation_nan H nearExp_good nearSqrt floorLog junk⟩

end TreeCat
