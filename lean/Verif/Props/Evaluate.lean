import Verif.Lemmas.Lists
import Verif.Lemmas.ServeLaw
import Verif.Props.Correlation
import Verif.Props.Ensemble
import Verif.Props.Folds
import Verif.Props.Median

/-! # C50: the scores of cross-validation -/

namespace TreeCat

open Spec Util
open Config (Config)
open scoped BigOperators

/-! ### Sums over arrays -/

theorem sum_map_getD {α β : Type} [AddCommMonoid β] (d : α) (f : α → β) (l : List α) : (l.map f).sum = ∑ i ∈ Finset.range l.length, f (l.getD i d) := by
  induction l with
  | nil => rfl
  | cons a l ih =>
    rw [List.map_cons, List.sum_cons, ih, List.length_cons, Finset.sum_range_succ']
    simp only [List.getD_cons_succ, List.getD_cons_zero]
    rw [add_comm]

theorem maskSum_eq {mask : List (List Bool)} {N R : Nat} (h : Shape N R mask) :
    maskSum mask = ∑ i ∈ Finset.range N, ∑ p ∈ Finset.range R, if at2 false mask i p = true then 1 else 0 := by
  unfold maskSum
  rw [sum_map_getD [], h.1]
  refine Finset.sum_congr rfl fun i hi => ?_
  have hi' : i < mask.length := by rw [h.1]; exact Finset.mem_range.1 hi
  have hR : (mask.getD i []).length = R := by
    rw [List.getD_eq_getElem _ _ hi']; exact h.2 _ (List.getElem_mem hi')
  rw [← hR]
  unfold at2
  generalize mask.getD i [] = row
  induction row with
  | nil => rfl
  | cons b row ih =>
    rw [List.count_cons, ih, List.length_cons, Finset.sum_range_succ']
    simp

theorem absDiff_eq {a b : List (List Int)} {N R : Nat} (ha : Shape N R a) (hb : Shape N R b) :
    absDiff a b = ∑ i ∈ Finset.range N, ∑ p ∈ Finset.range R, wrap8 |wrap8 (at2 0 a i p - at2 0 b i p)| := by
  unfold absDiff
  rw [sum_map_getD ([], [])]
  have hl : (a.zip b).length = N := by rw [List.length_zip, ha.1, hb.1, min_self]
  rw [hl]
  refine Finset.sum_congr rfl fun i hi => ?_
  have hi := Finset.mem_range.1 hi
  have h1 : i < a.length := by rw [ha.1]; exact hi
  have h2 : i < b.length := by rw [hb.1]; exact hi
  have h3 := ha.2 _ (List.getElem_mem h1)
  have h4 := hb.2 _ (List.getElem_mem h2)
  rw [List.getD_eq_getElem _ _ (by omega), List.getElem_zip, sum_map_getD (0, 0)]
  simp only [List.length_zip, h3, h4, min_self]
  refine Finset.sum_congr rfl fun p hp => ?_
  have hp := Finset.mem_range.1 hp
  rw [at2_eq 0 a i p h1 (by omega), at2_eq 0 b i p h2 (by omega), List.getD_eq_getElem _ _ (by rw [List.length_zip]; omega), List.getElem_zip]

/-- A sum over the columns, block by block. -/
theorem sum_blocks {β : Type} [AddCommMonoid β] (ws : List Nat) (f : Nat → β) :
    ∑ p ∈ Finset.range ws.sum, f p = ∑ v ∈ Finset.range ws.length, ∑ p ∈ Finset.Ico (blockStart ws v) (blockStart ws (v + 1)), f p := by
  have gen : ∀ n ≤ ws.length, ∑ p ∈ Finset.range (blockStart ws n), f p =
      ∑ v ∈ Finset.range n, ∑ p ∈ Finset.Ico (blockStart ws v) (blockStart ws (v + 1)), f p := by
    intro n
    induction n with
    | zero => intro _; simp [blockStart]
    | succ n ih =>
      intro hn
      rw [Finset.sum_range_succ, ← ih (by omega), Finset.range_eq_Ico, Finset.range_eq_Ico,
        Finset.sum_Ico_consecutive _ (by omega) (blockStart_mono ws (by omega))]
  have := gen ws.length le_rfl
  rwa [show blockStart ws ws.length = ws.sum by simp [blockStart]] at this

theorem blockSum_Ico (ws : List Nat) (row : List Int) (hl : row.length = ws.sum) (v : Nat) (hv : v < ws.length) :
    blockSum ws row v = ∑ p ∈ Finset.Ico (blockStart ws v) (blockStart ws (v + 1)), row.getD p 0 := by
  unfold blockSum
  have e : ∀ n (g : Nat → Int), ((List.range n).map g).sum = ∑ p ∈ Finset.range n, g p := by
    intro n g
    induction n with
    | zero => rfl
    | succ n ih => rw [List.range_succ, List.map_append, List.sum_append, ih, Finset.sum_range_succ]; simp
  rw [e, ← Finset.sum_filter]
  congr 1
  ext c
  have := blockStart_mono ws (show v + 1 ≤ ws.length by omega)
  rw [show blockStart ws ws.length = ws.sum by simp [blockStart]] at this
  simp only [Finset.mem_filter, Finset.mem_range, Finset.mem_Ico]
  omega

/-! ### The specification -/

namespace Spec

/-- The fold `partid` of `parts` holds out the cell of row `i` and feature `v`. -/
def Held (draw : Nat → Nat → Nat → List (List Nat)) (parts partid : Int) (N V i v : Nat) : Prop := (foldOf draw parts.toNat N V i v : Int) = partid

instance (draw : Nat → Nat → Nat → List (List Nat)) (parts partid : Int) (N V i v : Nat) : Decidable (Held draw parts partid N V i v) :=
  inferInstanceAs (Decidable (_ = _))

/-- Number of observations in a cell. -/
def observations (ws : List Nat) (data : List (List Int)) (i v : Nat) : Int :=
  ∑ p ∈ Finset.Ico (blockStart ws v) (blockStart ws (v + 1)), at2 0 data i p

/-- No row has more observations of the feature. -/
def Full (ws : List Nat) (data : List (List Int)) (N i v : Nat) : Prop := ∀ j < N, observations ws data j v ≤ observations ws data i v

instance (ws : List Nat) (data : List (List Int)) (N i v : Nat) : Decidable (Full ws data N i v) :=
  inferInstanceAs (Decidable (∀ j < N, _))

end Spec

/-! ### The scores -/

theorem meanDiff_eq {α : Type} (d : α) (f : α → ℝ) (a b : List α) (N : Nat) (ha : a.length = N) (hb : b.length = N) (hN : 0 < N) :
    meanDiff (a.map fun x => some (f x)) (b.map fun x => some (f x)) = some ((∑ i ∈ Finset.range N, (f (a.getD i d) - f (b.getD i d))) / N) := by
  unfold meanDiff
  have e : ∀ (l : List (α × α)), ((l.map fun xy => (some (f xy.1), some (f xy.2))).mapM fun (ab : Option ℝ × Option ℝ) => (do
      let x ← ab.1
      let y ← ab.2
      some (x - y) : Option ℝ)) = some (l.map fun xy => f xy.1 - f xy.2) := by
    intro l
    induction l with
    | nil => rfl
    | cons xy l ih => rw [List.map_cons, List.mapM_cons, ih]; rfl
  have hz : (a.map fun x => some (f x)).zip (b.map fun x => some (f x)) = (a.zip b).map fun xy => (some (f xy.1), some (f xy.2)) := by
    rw [List.zip_map]; rfl
  have hl : (a.zip b).length = N := by rw [List.length_zip, ha, hb, min_self]
  rw [hz, e]
  change (if (a.zip b).map (fun xy => f xy.1 - f xy.2) = [] then none else some _) = _
  rw [if_neg (by intro h; have := congrArg List.length h; rw [List.length_map, hl, List.length_nil] at this; omega), List.length_map, hl, sum_map_getD (d, d), hl]
  congr 2
  refine Finset.sum_congr rfl fun i hi => ?_
  have hi := Finset.mem_range.1 hi
  rw [List.getD_eq_getElem _ _ (by omega), List.getElem_zip, List.getD_eq_getElem _ _ (by omega), List.getD_eq_getElem _ _ (by omega)]

section
variable {M : Nat} [NeZero M] {mst : List (List ℝ) → List Edge} {draw : Nat → Nat → Nat → List (List Nat)} {model : Model ℝ M}
variable (hmst : MstContract mst) (hd : Randint draw) (h : Model.Valid model) (ws : List Nat)
  (hri : model.raggedIndex = makeRaggedIndex ws) (table : Table) (htri : table.raggedIndex = makeRaggedIndex ws)
  (hsh : Shape table.numRows ws.sum table.data) (hN : 0 < table.numRows) (h0 : ∀ row ∈ table.data, ∀ x ∈ row, 0 ≤ x)
  (h127 : ∀ i < table.numRows, ∀ v < ws.length, observations ws table.data i v ≤ 127)
  (c : Config) (parts partid : Int) (hparts : Config.lookup c "model_ensemble_size" = some parts) (hpart : Config.lookup c "seed" = some partid)
  (hr : 0 ≤ partid ∧ partid < parts)
include hmst hd h hri htri hsh hN h0 h127 hparts hpart hr

omit [NeZero M] hmst hd hri htri hsh hN h0 h127 hparts hpart hr in
theorem featMean_le_one {v : Nat} (hv : v < model.tree.numVertices) {r : Nat} (hr : r ∈ columns model v) [NeZero M] (m : Fin M) : featMean model v r m ≤ 1 := by
  rw [← featMean_sum h hv ⟨r, hr⟩ m]
  exact Finset.single_le_sum (f := fun r => featMean model v r m) (fun r hr => (featMean_pos h hv hr m).le) hr

omit hmst hd hri htri hsh hN h0 h127 hparts hpart hr in
/-- More observations are less likely. -/
theorem dataProb_anti {x y : Nat → Int} (hxy : ∀ v < model.tree.numVertices, ∀ r ∈ columns model v, y r ≤ x r) : dataProb model x ≤ dataProb model y := by
  unfold dataProb sumLatent
  refine Finset.sum_le_sum fun z _ => mul_le_mul_of_nonneg_left ?_ ?_
  · unfold rowProb
    refine Finset.prod_le_prod (fun v hv => Finset.prod_nonneg fun r hr => (zpow_pos (featMean_pos h (Finset.mem_range.1 hv) hr _) _).le) fun v hv => ?_
    refine Finset.prod_le_prod (fun r hr => (zpow_pos (featMean_pos h (Finset.mem_range.1 hv) hr _) _).le) fun r hr => ?_
    exact zpow_le_zpow_right_of_le_one₀ (featMean_pos h (Finset.mem_range.1 hv) hr _) (featMean_le_one h (Finset.mem_range.1 hv) hr _)
      (hxy v (Finset.mem_range.1 hv) r hr)
  · exact (latentProb_pos' h _).le

/-- **C50**: `process_eval_task` scores a model by the mean log probability of the held out data given the rest, and by the L1 distance between
the held out data and the median given the rest, over the held out cells that have as many observations as any row has. -/
theorem evaluateModel_spec (junk1 : Nat → List Bool) (junk2 : Nat → Fin M → ℝ) :
    ∃ srv top training median, Server.init mst model = .ok srv ∧
      Shape table.numRows ws.sum training ∧ (∀ i < table.numRows, ∀ v p, InBlock ws v p →
        at2 0 training i p = if Held draw parts partid table.numRows ws.length i v then 0 else at2 0 table.data i p) ∧
      top.length = ws.length ∧ (∀ v < ws.length, (∀ i < table.numRows, observations ws table.data i v ≤ top.getD v 0) ∧
        ∃ i < table.numRows, observations ws table.data i v = top.getD v 0) ∧
      srv.median junk2 top training = .ok median ∧ Shape table.numRows ws.sum median ∧
      (∀ i < table.numRows, ∀ v < ws.length, observations ws median i v = top.getD v 0) ∧
      (∀ i < table.numRows, ∀ p < ws.sum, 0 ≤ at2 0 median i p) ∧
      evaluateModel realNum mst draw junk1 junk2 table model c = .ok
        { logprob := some ((∑ i ∈ Finset.range table.numRows,
            (Real.log (dataProb model (at2 0 table.data i)) - Real.log (dataProb model (at2 0 training i)))) / table.numRows)
          l1Loss := 1 / 2 * (∑ i ∈ Finset.range table.numRows, ∑ v ∈ Finset.range ws.length,
              if Held draw parts partid table.numRows ws.length i v ∧ Full ws table.data table.numRows i v then
                ∑ p ∈ Finset.Ico (blockStart ws v) (blockStart ws (v + 1)), |((at2 0 median i p - at2 0 table.data i p : Int) : ℝ)| else 0) /
            ((∑ i ∈ Finset.range table.numRows, ∑ v ∈ Finset.range ws.length,
              if Held draw parts partid table.numRows ws.length i v ∧ Full ws table.data table.numRows i v then (ws.getD v 0 : ℝ) else 0) + 1 / 10) } := by
  obtain ⟨srv, hsrv, s, -, -⟩ := server_init hmst h
  obtain ⟨mask, hmask, hms, hm⟩ := (splitData_spec hd junk1 ws table.numRows parts partid).1 hr
  obtain ⟨g1, g3, g2⟩ := makeRaggedIndex_spec ws
  have hlast : (makeRaggedIndex ws).getLastD 0 = ws.sum := by rw [List.getLastD_eq_getLast?, g2]; rfl
  have hVw : model.tree.numVertices = ws.length := by have := h.ragged; rw [hri, g1] at this; omega
  have hcol : ∀ v < ws.length, columns model v = Finset.Ico (blockStart ws v) (blockStart ws (v + 1)) := by
    intro v hv
    unfold columns
    rw [hri, List.getD_eq_getElem?_getD, List.getD_eq_getElem?_getD, g3 v (by omega), g3 (v + 1) (by omega)]
    rfl
  have hin : ∀ v < ws.length, ∀ p ∈ Finset.Ico (blockStart ws v) (blockStart ws (v + 1)), InBlock ws v p := fun v hv p hp =>
    ⟨hv, (Finset.mem_Ico.1 hp).1, (Finset.mem_Ico.1 hp).2⟩
  have hnn : ∀ i p, 0 ≤ at2 0 table.data i p := by
    intro i p
    unfold at2
    rw [List.getD_eq_getElem?_getD (l := table.data.getD i [])]
    cases hp : (table.data.getD i [])[p]? with
    | none => simp
    | some x =>
      have hx := List.mem_of_getElem? hp
      rw [List.getD_eq_getElem?_getD] at hx
      cases hrow : table.data[i]? with
      | none => rw [hrow] at hx; simp at hx
      | some row => rw [hrow] at hx; exact h0 row (List.mem_of_getElem? hrow) x hx
  have hobs : ∀ i < table.numRows, ∀ v < ws.length, blockSum ws (table.data.getD i []) v = observations ws table.data i v := by
    intro i hi v hv
    have hi' : i < table.data.length := hi
    rw [blockSum_Ico ws _ (by rw [List.getD_eq_getElem _ _ hi']; exact hsh.2 _ (List.getElem_mem hi')) v hv]
    rfl
  have hobs0 : ∀ i v, 0 ≤ observations ws table.data i v := fun i v => Finset.sum_nonneg fun p _ => hnn i p
  -- the counts
  have hfit : ∀ row ∈ table.data, ∀ v < ws.length, -128 ≤ blockSum ws row v ∧ blockSum ws row v ≤ 127 := by
    intro row hrow v hv
    obtain ⟨i, hi, rfl⟩ := List.getElem_of_mem hrow
    have := hobs i hi v hv
    rw [List.getD_eq_getElem _ _ hi] at this
    rw [this]
    exact ⟨by have := hobs0 i v; omega, h127 i hi v hv⟩
  have hco := countObservations_spec ws table.data hfit
  obtain ⟨top, htop, htl, ht⟩ := guessCounts_spec ws table.data (by intro e; unfold Table.numRows at hN; rw [e] at hN; simp at hN) hfit
  have htop' : ∀ v < ws.length, (∀ i < table.numRows, observations ws table.data i v ≤ top.getD v 0) ∧
      ∃ i < table.numRows, observations ws table.data i v = top.getD v 0 := by
    intro v hv
    obtain ⟨t1, row, hrow, t2⟩ := ht v hv
    refine ⟨fun i hi => ?_, ?_⟩
    · rw [← hobs i hi v hv]
      have hi' : i < table.data.length := hi
      rw [List.getD_eq_getElem _ _ hi']
      exact t1 _ (List.getElem_mem hi')
    · obtain ⟨i, hi, rfl⟩ := List.getElem_of_mem hrow
      refine ⟨i, hi, ?_⟩
      rw [t2, ← hobs i hi v hv, List.getD_eq_getElem _ _ hi]
  have htr := shape_zero hms hsh
  have hti : ∀ i < table.numRows, ∀ v p, InBlock ws v p → at2 0 (zeroWhere mask table.data) i p =
      if Held draw parts partid table.numRows ws.length i v then 0 else at2 0 table.data i p := by
    intro i hi v p hp
    rw [at2_zero hms hsh i p hi (inBlock_lt ws hp), hm i hi v p hp]
    simp only [decide_eq_true_eq]
    rfl
  have hR : model.raggedIndex.getLastD 0 = ws.sum := by rw [hri, hlast]
  -- the median
  obtain ⟨marg, -, hmarg, median, hmed, hall⟩ := server_median h s junk2 top (by rw [hVw, htl]) (by
    intro x hx
    obtain ⟨v, hv, rfl⟩ := List.getElem_of_mem hx
    rw [htl] at hv
    obtain ⟨-, i, hi, e⟩ := htop' v hv
    rw [List.getD_eq_getElem _ _ (by omega)] at e
    rw [← e]
    exact ⟨hobs0 i v, h127 i hi v hv⟩) (by
    intro v hv hpos
    rw [hVw] at hv
    obtain ⟨-, i, -, e⟩ := htop' v hv
    rw [← e] at hpos
    rw [hcol v hv]
    by_contra hemp
    unfold observations at hpos
    rw [Finset.not_nonempty_iff_eq_empty.1 hemp, Finset.sum_empty] at hpos
    exact lt_irrefl _ hpos) (zeroWhere mask table.data) (by rw [hR]; exact htr.2)
  have hml : median.length = table.numRows := by rw [← hall.length_eq, hmarg, htr.1]
  have hmsh : Shape table.numRows ws.sum median := by
    refine ⟨hml, fun row hrow => ?_⟩
    obtain ⟨p, -, hp⟩ := forall₂_mem_right hall hrow
    rw [hp.1, hR]
  have hmrow : ∀ i < table.numRows, ∀ v < ws.length, (∀ p ∈ Finset.Ico (blockStart ws v) (blockStart ws (v + 1)), 0 ≤ at2 0 median i p) ∧
      observations ws median i v = top.getD v 0 := by
    intro i hi v hv
    have hi' : i < median.length := by omega
    obtain ⟨p, -, hp⟩ := forall₂_mem_right hall (List.getElem_mem hi')
    obtain ⟨p1, p2, -⟩ := hp.2 v (by omega)
    rw [hcol v hv] at p1 p2
    have e : ∀ q, at2 0 median i q = median[i].getD q 0 := fun q => by unfold at2; rw [List.getD_eq_getElem _ _ hi']
    refine ⟨fun q hq => by rw [e]; exact p1 q hq, ?_⟩
    unfold observations
    rw [← p2]
    exact Finset.sum_congr rfl fun q _ => e q
  refine ⟨srv, top, zeroWhere mask table.data, median, hsrv, htr, hti, htl, htop', hmed, hmsh, fun i hi v hv => (hmrow i hi v hv).2, ?_, ?_⟩
  · intro i hi p hp
    obtain ⟨v, hv⟩ := inBlock_exists ws p hp
    exact (hmrow i hi v hv.1).1 p (Finset.mem_Ico.2 hv.2)
  -- the log probabilities
  have hlp : ∀ data, Shape table.numRows ws.sum data →
      srv.logprob realNum data = .ok (data.map fun row => some (Real.log (dataProb model fun r => row.getD r 0))) := by
    intro data hdata
    obtain ⟨lp, e, hexp⟩ := server_logprob_of h s data (by rw [hR]; exact hdata.2)
    rw [e]
    congr 2
    funext row
    rw [← hexp row, Real.log_exp]
  have hmean := meanDiff_eq [] (fun row : List Int => Real.log (dataProb model fun r => row.getD r 0)) table.data (zeroWhere mask table.data) table.numRows rfl htr.1 hN
  -- the fully observed cells
  obtain ⟨o, os, ho⟩ : ∃ o os, (table.data.map fun row => (List.range ws.length).map (blockSum ws row)) = o :: os := by
    cases e : table.data with
    | nil => unfold Table.numRows at hN; rw [e] at hN; simp at hN
    | cons a l => exact ⟨_, _, List.map_cons⟩
  have htop2 : os.foldl rowMax o = top := by
    unfold guessCounts at htop
    rw [hco, ho] at htop
    exact Except.ok.inj htop
  have hosh : Shape table.numRows ws.length (o :: os) := by
    rw [← ho]
    refine ⟨by rw [List.length_map]; rfl, fun row hrow => ?_⟩
    obtain ⟨r, -, rfl⟩ := List.mem_map.1 hrow
    simp
  have hoat : ∀ i < table.numRows, ∀ v < ws.length, at2 0 (o :: os) i v = observations ws table.data i v := by
    intro i hi v hv
    have hi' : i < table.data.length := hi
    rw [← ho, ← hobs i hi v hv]
    unfold at2
    simp [List.getD_eq_getElem?_getD, hi', hv]
  obtain ⟨b, hb, hbs, hbat⟩ := raggedMask_spec junk1 ws table.numRows ((o :: os).map fun row => List.zipWith (fun a b => decide (a = b)) row top)
  have hfull : ∀ i < table.numRows, ∀ v p, InBlock ws v p →
      at2 false (transposed false table.numRows b) i p = decide (Full ws table.data table.numRows i v) := by
    intro i hi v p hp
    rw [hbat i hi v p hp]
    have hv := hp.1
    have hi1 : i < (o :: os).length := by rw [hosh.1]; exact hi
    have hi2 := hosh.2 _ (List.getElem_mem hi1)
    have e : at2 false ((o :: os).map fun row => List.zipWith (fun a b => decide (a = b)) row top) i v = decide (at2 0 (o :: os) i v = top.getD v 0) := by
      unfold at2
      simp only [List.getD_eq_getElem?_getD, List.getElem?_map, List.getElem?_eq_getElem hi1, Option.map_some, Option.getD_some,
        List.getElem?_zipWith, List.getElem?_eq_getElem (show v < (o :: os)[i].length by omega), List.getElem?_eq_getElem (show v < top.length by omega)]
    rw [e, hoat i hi v hv, decide_eq_decide]
    obtain ⟨t1, j, hj, t2⟩ := htop' v hv
    constructor
    · intro e k hk
      rw [e]
      exact t1 k hk
    · intro hF
      exact le_antisymm (t1 i hi) (t2 ▸ hF j hj)
  have hrel := shape_zipWith and hbs hms
  have hrat : ∀ i < table.numRows, ∀ v p, InBlock ws v p → at2 false (List.zipWith (List.zipWith and) (transposed false table.numRows b) mask) i p =
      decide (Held draw parts partid table.numRows ws.length i v ∧ Full ws table.data table.numRows i v) := by
    intro i hi v p hp
    rw [at2_zipWith false false false and hbs hms i p hi (inBlock_lt ws hp), hfull i hi v p hp, hm i hi v p hp, Bool.decide_and, Bool.and_comm]
    rfl
  -- the sums
  have hval := shape_zero (shape_not hms) hsh
  have hbound : ∀ (a : List (List Int)) (i v p : Nat), (∀ q ∈ Finset.Ico (blockStart ws v) (blockStart ws (v + 1)), 0 ≤ at2 0 a i q) → InBlock ws v p →
      at2 0 a i p ≤ observations ws a i v := by
    intro a i v p hq hp
    exact Finset.single_le_sum (f := fun q => at2 0 a i q) hq (Finset.mem_Ico.2 hp.2)
  have habs : absDiff (zeroWhere (maskNot (List.zipWith (List.zipWith and) (transposed false table.numRows b) mask)) median)
      (zeroWhere (maskNot (List.zipWith (List.zipWith and) (transposed false table.numRows b) mask)) (zeroWhere (maskNot mask) table.data)) =
      ∑ i ∈ Finset.range table.numRows, ∑ v ∈ Finset.range ws.length,
        if Held draw parts partid table.numRows ws.length i v ∧ Full ws table.data table.numRows i v then
          ∑ p ∈ Finset.Ico (blockStart ws v) (blockStart ws (v + 1)), |at2 0 median i p - at2 0 table.data i p| else 0 := by
    rw [absDiff_eq (shape_zero (shape_not hrel) hmsh) (shape_zero (shape_not hrel) hval)]
    refine Finset.sum_congr rfl fun i hi => ?_
    have hi := Finset.mem_range.1 hi
    rw [sum_blocks]
    refine Finset.sum_congr rfl fun v hv => ?_
    have hv := Finset.mem_range.1 hv
    have entry : ∀ p ∈ Finset.Ico (blockStart ws v) (blockStart ws (v + 1)), wrap8 |wrap8 (at2 0 (zeroWhere (maskNot (List.zipWith (List.zipWith and)
        (transposed false table.numRows b) mask)) median) i p - at2 0 (zeroWhere (maskNot (List.zipWith (List.zipWith and)
        (transposed false table.numRows b) mask)) (zeroWhere (maskNot mask) table.data)) i p)| =
        if Held draw parts partid table.numRows ws.length i v ∧ Full ws table.data table.numRows i v then |at2 0 median i p - at2 0 table.data i p| else 0 := by
      intro p hp
      have hp := hin v hv p hp
      have hlt := inBlock_lt ws hp
      rw [at2_zero (shape_not hrel) hmsh i p hi hlt, at2_zero (shape_not hrel) hval i p hi hlt, at2_not hrel i p hi hlt, hrat i hi v p hp,
        at2_zero (shape_not hms) hsh i p hi hlt, at2_not hms i p hi hlt, hm i hi v p hp]
      by_cases hc : Held draw parts partid table.numRows ws.length i v ∧ Full ws table.data table.numRows i v
      · have hc1 : (foldOf draw parts.toNat table.numRows ws.length i v : Int) = partid := hc.1
        have e1 := hbound median i v p (hmrow i hi v hv).1 hp
        have e2 := hbound table.data i v p (fun q _ => hnn i q) hp
        have e3 := (hmrow i hi v hv).1 p (Finset.mem_Ico.2 hp.2)
        have e4 := hnn i p
        rw [(hmrow i hi v hv).2] at e1
        obtain ⟨-, j, hj, e5⟩ := htop' v hv
        have e6 := h127 j hj v hv
        have e7 := h127 i hi v hv
        simp only [hc, hc1, and_self, decide_true, Bool.not_true, if_true, Bool.false_eq_true, if_false]
        have e8 : |at2 0 median i p - at2 0 table.data i p| ≤ 127 := by rw [abs_le]; constructor <;> omega
        rw [wrap8_id (i := at2 0 median i p - at2 0 table.data i p) (by omega) (by omega), wrap8_id (by have := abs_nonneg (at2 0 median i p - at2 0 table.data i p); omega) e8]
      · simp only [hc, decide_false, Bool.not_false, if_true, if_false]
        decide
    rw [Finset.sum_congr rfl entry]
    split
    · rfl
    · simp
  have hcount : (maskSum (List.zipWith (List.zipWith and) (transposed false table.numRows b) mask) : ℝ) = ∑ i ∈ Finset.range table.numRows, ∑ v ∈ Finset.range ws.length,
      if Held draw parts partid table.numRows ws.length i v ∧ Full ws table.data table.numRows i v then (ws.getD v 0 : ℝ) else 0 := by
    rw [maskSum_eq hrel]
    push_cast
    refine Finset.sum_congr rfl fun i hi => ?_
    have hi := Finset.mem_range.1 hi
    rw [sum_blocks]
    refine Finset.sum_congr rfl fun v hv => ?_
    have hv := Finset.mem_range.1 hv
    have entry : ∀ p ∈ Finset.Ico (blockStart ws v) (blockStart ws (v + 1)),
        (if at2 false (List.zipWith (List.zipWith and) (transposed false table.numRows b) mask) i p = true then (1 : ℝ) else 0) =
        if Held draw parts partid table.numRows ws.length i v ∧ Full ws table.data table.numRows i v then 1 else 0 := fun p hp => by
      simp only [hrat i hi v p (hin v hv p hp), decide_eq_true_eq]
    rw [Finset.sum_congr rfl entry, Finset.sum_const, Nat.card_Ico, blockStart_succ ws v hv,
      Nat.add_sub_cancel_left, List.getD_eq_getElem _ _ hv]
    split <;> simp
  unfold evaluateModel
  simp only [hsrv, configGet, hparts, hpart, hr.1, hr.2, decide_true, Bool.and_self, pyAssert, if_true, bind, Except.bind, htri, hmask, hlp _ hsh, hlp _ htr, hlast,
    hco, ho, htop2, hmed, g1, Nat.add_sub_cancel, hb, habs, hcount, hmean]
  congr 3
  · congr 1
    push_cast
    rfl

/-- **C50**: the log probability is at most 0 and the loss is between 0 and the largest number of observations per column. -/
theorem evaluateModel_bounds (junk1 : Nat → List Bool) (junk2 : Nat → Fin M → ℝ) (B : ℝ) (hB0 : 0 ≤ B)
    (hB : ∀ i < table.numRows, ∀ v < ws.length, (observations ws table.data i v : ℝ) ≤ B * ws.getD v 0) :
    ∃ lp l1, evaluateModel realNum mst draw junk1 junk2 table model c = .ok ⟨some lp, l1⟩ ∧ lp ≤ 0 ∧ 0 ≤ l1 ∧ l1 ≤ B := by
  obtain ⟨srv, top, training, median, -, htr, hti, -, htop, -, hmsh, hms, hm0, e⟩ := evaluateModel_spec hmst hd h ws hri table htri hsh hN h0 h127 c parts partid
    hparts hpart hr junk1 junk2
  obtain ⟨g1, g3, g2⟩ := makeRaggedIndex_spec ws
  have hlast : model.raggedIndex.getLastD 0 = ws.sum := by rw [hri, List.getLastD_eq_getLast?, g2]; rfl
  have hVw : model.tree.numVertices = ws.length := by have := h.ragged; rw [hri, g1] at this; omega
  have hcol : ∀ v < ws.length, columns model v = Finset.Ico (blockStart ws v) (blockStart ws (v + 1)) := by
    intro v hv
    unfold columns
    rw [hri, List.getD_eq_getElem?_getD, List.getD_eq_getElem?_getD, g3 v (by omega), g3 (v + 1) (by omega)]
    rfl
  have hnn : ∀ i < table.numRows, ∀ p < ws.sum, 0 ≤ at2 0 table.data i p := by
    intro i hi p hp
    have hi' : i < table.data.length := hi
    have hl := hsh.2 _ (List.getElem_mem hi')
    rw [at2_eq 0 _ i p hi' (by omega)]
    exact h0 _ (List.getElem_mem hi') _ (List.getElem_mem _)
  have hlt : ∀ v < ws.length, ∀ p ∈ Finset.Ico (blockStart ws v) (blockStart ws (v + 1)), p < ws.sum := fun v hv p hp =>
    inBlock_lt ws ⟨hv, (Finset.mem_Ico.1 hp).1, (Finset.mem_Ico.1 hp).2⟩
  refine ⟨_, _, e, ?_, ?_, ?_⟩
  · refine div_nonpos_of_nonpos_of_nonneg (Finset.sum_nonpos fun i hi => ?_) (Nat.cast_nonneg _)
    have hi := Finset.mem_range.1 hi
    obtain ⟨srv, -, s, -, -⟩ := server_init hmst h
    obtain ⟨lp, -, hexp⟩ := server_logprob_of h s [] (by simp)
    rw [sub_nonpos]
    refine Real.log_le_log ?_ (dataProb_anti h fun v hv r hr => ?_)
    · change 0 < dataProb model fun r => (table.data.getD i []).getD r 0
      rw [← hexp]
      exact Real.exp_pos _
    · rw [hVw] at hv
      rw [hcol v hv] at hr
      rw [hti i hi v r ⟨hv, (Finset.mem_Ico.1 hr).1, (Finset.mem_Ico.1 hr).2⟩]
      split
      · exact hnn i hi r (hlt v hv r hr)
      · exact le_rfl
  · refine div_nonneg (mul_nonneg (by norm_num) (Finset.sum_nonneg fun i _ => Finset.sum_nonneg fun v _ => ?_))
      (add_nonneg (Finset.sum_nonneg fun i _ => Finset.sum_nonneg fun v _ => ?_) (by norm_num))
    · split
      · exact Finset.sum_nonneg fun _ _ => abs_nonneg _
      · exact le_rfl
    · split
      · exact Nat.cast_nonneg _
      · exact le_rfl
  · have hden : (0 : ℝ) ≤ ∑ i ∈ Finset.range table.numRows, ∑ v ∈ Finset.range ws.length,
        if Held draw parts partid table.numRows ws.length i v ∧ Full ws table.data table.numRows i v then (ws.getD v 0 : ℝ) else 0 :=
      Finset.sum_nonneg fun i _ => Finset.sum_nonneg fun v _ => by split; exacts [Nat.cast_nonneg _, le_rfl]
    rw [div_le_iff₀ (by linarith)]
    refine le_trans ?_ (show B * _ ≤ _ from mul_le_mul_of_nonneg_left (le_add_of_nonneg_right (by norm_num : (0 : ℝ) ≤ 1 / 10)) hB0)
    rw [Finset.mul_sum, Finset.mul_sum]
    refine Finset.sum_le_sum fun i hi => ?_
    have hi := Finset.mem_range.1 hi
    rw [Finset.mul_sum, Finset.mul_sum]
    refine Finset.sum_le_sum fun v hv => ?_
    have hv := Finset.mem_range.1 hv
    split
    · rename_i hc
      obtain ⟨t1, j, hj, t2⟩ := htop v hv
      have hto : observations ws table.data i v = top.getD v 0 := le_antisymm (t1 i hi) (t2 ▸ hc.2 j hj)
      have hle : ∑ p ∈ Finset.Ico (blockStart ws v) (blockStart ws (v + 1)), |((at2 0 median i p - at2 0 table.data i p : Int) : ℝ)| ≤
          ∑ p ∈ Finset.Ico (blockStart ws v) (blockStart ws (v + 1)), (((at2 0 median i p : Int) : ℝ) + ((at2 0 table.data i p : Int) : ℝ)) := by
        refine Finset.sum_le_sum fun p hp => ?_
        have a1 : (0 : ℝ) ≤ ((at2 0 median i p : Int) : ℝ) := by exact_mod_cast hm0 i hi p (hlt v hv p hp)
        have a2 : (0 : ℝ) ≤ ((at2 0 table.data i p : Int) : ℝ) := by exact_mod_cast hnn i hi p (hlt v hv p hp)
        push_cast
        rw [abs_le]
        constructor <;> linarith
      have hs : ∑ p ∈ Finset.Ico (blockStart ws v) (blockStart ws (v + 1)), (((at2 0 median i p : Int) : ℝ) + ((at2 0 table.data i p : Int) : ℝ)) =
          (observations ws median i v : ℝ) + observations ws table.data i v := by
        unfold observations
        push_cast
        rw [Finset.sum_add_distrib]
      rw [hs, hms i hi v hv, ← hto] at hle
      have := hB i hi v hv
      linarith
    · simp

end

/-- **C50** as intended is false: the cells of a feature that no row observes count as fully observed. They add their columns to the
denominator of the loss, and nothing to the numerator, since the median is 0 there too. -/
theorem unobserved_full {ws : List Nat} {data : List (List Int)} {N v : Nat} (h : ∀ i < N, ∀ p, InBlock ws v p → at2 0 data i p = 0) (hv : v < ws.length)
    {i : Nat} (hi : i < N) : Full ws data N i v ∧ observations ws data i v = 0 := by
  have e : ∀ i < N, observations ws data i v = 0 := fun i hi => Finset.sum_eq_zero fun p hp => h i hi p ⟨hv, Finset.mem_Ico.1 hp⟩
  exact ⟨fun j hj => by rw [e j hj, e i hi], e i hi⟩

/-- A table of three binary features in two rows, the third of which is never observed; its cell in row 0 is relevant in fold 1. -/
example : ∃ mst, MstContract mst ∧ ∃ draw, Randint draw ∧ draw 2 2 3 = [[0, 1, 1], [1, 0, 0]] ∧ ∃ lp l1, evaluateModel realNum mst draw (fun _ => []) (fun _ _ => 0)
      ⟨[0, 0, 0], [0, 2, 4, 6], [[1, 0, 0, 3, 0, 0], [0, 1, 1, 2, 0, 0]]⟩ (pathModel ℝ) (Config.defaultConfig.map fun kv =>
        if kv.1 = "model_ensemble_size" then (kv.1, 2) else if kv.1 = "seed" then (kv.1, 1) else kv) = .ok ⟨some lp, l1⟩ ∧ lp ≤ 0 ∧ 0 ≤ l1 ∧ l1 ≤ 3 / 2 ∧
    Full [2, 2, 2] [[1, 0, 0, 3, 0, 0], [0, 1, 1, 2, 0, 0]] 2 0 2 := by
  obtain ⟨mst, hmst⟩ := exists_mst (K := ℝ)
  refine ⟨mst, hmst, ?_⟩
  have hd : ∃ draw : Nat → Nat → Nat → List (List Nat), Randint draw ∧ draw 2 2 3 = [[0, 1, 1], [1, 0, 0]] :=
    ⟨fun P N V => if (P, N, V) = (2, 2, 3) then [[0, 1, 1], [1, 0, 0]] else List.replicate N (List.replicate V 0), by
      intro P N V hP
      dsimp only
      split
      · rename_i e; cases e; decide
      · refine ⟨by simp, fun row hrow => ?_⟩
        rw [List.eq_of_mem_replicate hrow]
        refine ⟨by simp, fun x hx => ?_⟩
        rw [List.eq_of_mem_replicate hx]
        exact hP, rfl⟩
  obtain ⟨draw, hd1, hd2⟩ := hd
  obtain ⟨lp, l1, e, h1, h2, h3⟩ := evaluateModel_bounds hmst hd1 (pathModel_valid ℝ) [2, 2, 2] rfl
    ⟨[0, 0, 0], [0, 2, 4, 6], [[1, 0, 0, 3, 0, 0], [0, 1, 1, 2, 0, 0]]⟩ rfl (by unfold Shape; decide) (by decide) (by decide) (by decide)
    (Config.defaultConfig.map fun kv => if kv.1 = "model_ensemble_size" then (kv.1, 2) else if kv.1 = "seed" then (kv.1, 1) else kv) 2 1
    (by decide) (by decide) (by decide) (fun _ => []) (fun _ _ => 0) (3 / 2) (by norm_num) (by
      intro i hi v hv
      have hb : ∀ i < 2, ∀ v < 3, observations [2, 2, 2] [[1, 0, 0, 3, 0, 0], [0, 1, 1, 2, 0, 0]] i v ≤ 3 ∧ [2, 2, 2].getD v 0 = 2 := by decide
      obtain ⟨b1, b2⟩ := hb i hi v hv
      dsimp only at b1 ⊢
      rw [b2]
      have : ((observations [2, 2, 2] [[1, 0, 0, 3, 0, 0], [0, 1, 1, 2, 0, 0]] i v : Int) : ℝ) ≤ 3 := by exact_mod_cast b1
      push_cast
      linarith)
  exact ⟨draw, hd1, hd2, lp, l1, e, h1, h2, h3, by decide⟩

end TreeCat
