import Verif.Lemmas.FloatServeHub

/-!
# C79: underflow at a hub

The theorem at the end of this file.
-/

set_option linter.unusedSectionVars false
set_option maxRecDepth 20000

namespace TreeCat

open Util Spec
open scoped BigOperators

/-! ### The exact law -/

theorem star_vertMean (v : Nat) (a : Fin 2) : vertMean starModel v a = 1 / 2 := by
  simp [vertMean, starModel]
  norm_num

theorem star_edgeMean (e : Nat) (a b : Fin 2) : edgeMean starModel e a b = (if a = b then 65 / 4 else 1 / 4) / 33 := by
  rcases (show a = 0 ∨ a = 1 by omega) with rfl | rfl <;> rcases (show b = 0 ∨ b = 1 by omega) with rfl | rfl <;> norm_num [edgeMean, starModel]

theorem star_featMean {v : Nat} (hv : v < 65) {r : Nat} (a : Fin 2) : featMean starModel v r a = (if (r % 2 = 0) = (a = 0) then 65 / 4 else 1 / 4) / (33 / 2) := by
  have hs : (∑ r' ∈ columns starModel v, (starModel.featSS r' a : ℝ)) = 16 := by
    rw [hub_columns hv, Finset.sum_pair (by omega)]
    simp only [starModel]
    rw [show 2 * v % 2 = 0 by omega, show (2 * v + 1) % 2 = 1 by omega]
    rcases (show a = 0 ∨ a = 1 by omega) with rfl | rfl <;> norm_num
  unfold featMean
  rw [hs, hub_columns hv, Finset.card_pair (by omega)]
  simp only [starModel]
  split_ifs <;> norm_num

theorem star_cell {v : Nat} (hv : v < 65) (a : Fin 2) : (∏ r ∈ columns starModel v, featMean starModel v r a ^ starRow.getD r 0) =
    if v = 0 then 1 else (if (v ≤ 31) = (a = 0) then 65 / 4 else 1 / 4) / (33 / 2) := by
  rw [hub_columns hv, Finset.prod_pair (by omega), (starRow_get v hv).1, (starRow_get v hv).2, star_featMean hv, star_featMean hv, show 2 * v % 2 = 0 by omega, show (2 * v + 1) % 2 = 1 by omega]
  by_cases h0 : v = 0
  · subst h0
    norm_num
  by_cases h31 : 31 < v
  · have : ¬ v ≤ 31 := by omega
    rcases (show a = 0 ∨ a = 1 by omega) with rfl | rfl <;> norm_num [h0, h31, this]
  · have : v ≤ 31 := by omega
    rcases (show a = 0 ∨ a = 1 by omega) with rfl | rfl <;> norm_num [h0, h31, this]

theorem star_prob (z : Nat → Fin 2) : latentProb starModel z * rowProb starModel (fun r => starRow.getD r 0) z = 1 / 2 * ∏ i : Fin 64, hubG i (z 0) (z (i + 1)) := by
  have hsucc : ∀ f : Nat → ℝ, ∏ v ∈ Finset.range starModel.tree.numVertices, f v = f 0 * ∏ i ∈ Finset.range 64, f (i + 1) := fun f => by
    show ∏ v ∈ Finset.range (64 + 1), f v = _
    rw [Finset.prod_range_succ', mul_comm]
  have hcell : ∏ i ∈ Finset.range 64, (∏ r ∈ columns starModel (i + 1), featMean starModel (i + 1) r (z (i + 1)) ^ starRow.getD r 0) =
      ∏ i ∈ Finset.range 64, (if (i + 1 ≤ 31) = (z (i + 1) = 0) then 65 / 4 else 1 / 4) / (33 / 2) :=
    Finset.prod_congr rfl fun i hi => by rw [star_cell (by have := Finset.mem_range.1 hi; omega), if_neg (by omega)]
  unfold latentProb rowProb
  rw [starModel_grid, List.map_map, prod_range_list, hsucc, hsucc, hcell, star_cell (by norm_num), if_pos rfl, one_mul]
  simp only [star_vertMean, Function.comp, star_edgeMean]
  rw [mul_assoc, mul_assoc, ← Finset.prod_mul_distrib, ← Finset.prod_mul_distrib, Finset.prod_range]
  refine congrArg (1 / 2 * ·) (Finset.prod_congr rfl fun i _ => ?_)
  unfold hubG
  ring

/-- `sample` in float32 of a row of 65 features with two values, joined in a star, of which 31 speak for class 0 of the hub and 33 for class 1. Given the row, the class of the hub is 1 with
probability 0.999 and more, but `sample` never draws it: its message for class 1 is divided by the largest after each of the 31 features, and underflows. All hypotheses of `floatSample_near`
hold except that no message underflows. -/
theorem floatSample_hub : Model.Valid starModel ∧ Spec.SmallCounts starModel ∧ Spec.SingleRow starModel starRow ∧
    (∃ srv, FloatServer.init (numpyServe 2 floorLog) starModel = .ok srv ∧
      ∀ draw drawF, ∃ s, srv.sample (numpyServe 2 floorLog) [] starRow draw drawF = .ok s ∧ s.vertSample 0 = 0) ∧
    999 / 1000 ≤ sampleMean starModel (fun r => starRow.getD r 0) [] fun z _ => if z 0 = 1 then 1 else 0 := by
  refine ⟨starModel_valid, starModel_small, starRow_single, ?_, ?_⟩
  · obtain ⟨srv, h1, h2⟩ := hub_server
    exact ⟨srv, h1, fun draw drawF => hub_sample h2 draw drawF⟩
  have hreq : requested starModel.tree.numVertices [] = [] := by simp [requested]
  have e1 := sum_star (n := 64) (fun a => 1 / 2 * if a = 1 then 1 else 0) fun i => hubG i
  have e2 := sum_star (n := 64) (fun _ => 1 / 2) fun i => hubG i
  rw [Fin.sum_univ_two] at e1 e2
  simp only [zero_ne_one, if_false, if_true, mul_zero, zero_mul, zero_add, mul_one] at e1
  have hz : ∀ (z : Fin 65 → Fin 2) (i : Fin 64), (if h : i.val + 1 < 65 then z ⟨i + 1, h⟩ else 0) = z i.succ := fun z i => dif_pos (by omega)
  have hz0 : ∀ z : Fin 65 → Fin 2, (if h : 0 < 65 then z ⟨0, h⟩ else 0) = z 0 := fun z => dif_pos (by norm_num)
  have hnum : sumLatent starModel.tree.numVertices (fun z => latentProb starModel z * rowProb starModel (fun r => starRow.getD r 0) z *
      observe starModel z (requested starModel.tree.numVertices []) (fun _ => 0) fun _ => if z 0 = 1 then 1 else 0) = 1 / 2 * ∏ i : Fin 64, ∑ b, hubG i 1 b := by
    rw [← e1, hreq]
    refine Finset.sum_congr rfl fun (z : Fin 65 → Fin 2) _ => ?_
    refine (congrArg (· * _) (star_prob _)).trans ?_
    show 1 / 2 * (∏ i : Fin 64, hubG i (if h : 0 < 65 then z ⟨0, h⟩ else 0) (if h : i.val + 1 < 65 then z ⟨i + 1, h⟩ else 0)) * (if (if h : 0 < 65 then z ⟨0, h⟩ else 0) = 1 then 1 else 0) = _
    rw [hz0]
    simp only [hz]
    ring
  have hden : dataProb starModel (fun r => starRow.getD r 0) = 1 / 2 * (∏ i : Fin 64, ∑ b, hubG i 0 b) + 1 / 2 * ∏ i : Fin 64, ∑ b, hubG i 1 b := by
    rw [← e2]
    unfold dataProb sumLatent
    refine Finset.sum_congr rfl fun (z : Fin 65 → Fin 2) _ => ?_
    refine (star_prob _).trans ?_
    show 1 / 2 * (∏ i : Fin 64, hubG i (if h : 0 < 65 then z ⟨0, h⟩ else 0) (if h : i.val + 1 < 65 then z ⟨i + 1, h⟩ else 0)) = _
    rw [hz0]
    simp only [hz]
  have hpos : 0 < ∏ i : Fin 64, ∑ b, hubG i 0 b := Finset.prod_pos fun i _ => Finset.sum_pos (fun b _ => hubG_pos i 0 b) ⟨0, Finset.mem_univ _⟩
  unfold sampleMean
  rw [hnum, hden, hub_evidence]
  rw [div_le_div_iff₀ (by norm_num) (by positivity)]
  nlinarith [hpos]

end TreeCat
