import Verif.Lemmas.FloatMono
import Verif.Model.FloatAnneal
import Verif.Props.Anneal

/-! # The annealing schedule in floating point -/

namespace TreeCat

open Spec Util

/-- The error is at most the distance of two floats around the number. -/
theorem Util.MonoRounding.error_abs {p : Nat} {emin : Int} {rnd : ℚ → ℚ} (R : MonoRounding p emin rnd) (hp : 1 ≤ p) {x : ℚ} {j : Int} (hj : emin ≤ j) (hx : |x| ≤ 2 ^ (j + p)) :
    |rnd x - x| ≤ 2 ^ j := by
  have hpos := two_zpow_pos j
  have hfl := Int.floor_le (x / 2 ^ j)
  have hlt := Int.lt_floor_add_one (x / 2 ^ j)
  have hb : |x / 2 ^ j| ≤ 2 ^ p := by
    rw [abs_div, abs_of_pos hpos, div_le_iff₀ hpos]
    rwa [zpow_add₀ (by norm_num), mul_comm, zpow_natCast] at hx
  rw [abs_le] at hb
  have h1 : -2 ^ p ≤ ⌊x / 2 ^ j⌋ := by
    rw [Int.le_floor]
    push_cast
    exact hb.1
  have h2 : ⌊x / 2 ^ j⌋ ≤ 2 ^ p := by
    have : (⌊x / 2 ^ j⌋ : ℚ) ≤ 2 ^ p := le_trans hfl hb.2
    exact_mod_cast this
  have f1 : IsFloat p emin (⌊x / 2 ^ j⌋ * (2 : ℚ) ^ j) := isFloat_of_le hp hj (abs_le.2 ⟨h1, h2⟩)
  have g1 := R.ge_of f1 ((le_div_iff₀ hpos).1 hfl)
  rcases eq_or_lt_of_le h2 with h2 | h2
  · have hxe : x = ⌊x / 2 ^ j⌋ * (2 : ℚ) ^ j := by
      rw [h2]
      push_cast
      have h3 := hb.2
      rw [h2] at hfl
      push_cast at hfl
      rw [← le_antisymm h3 hfl, div_mul_cancel₀ _ hpos.ne']
    rw [hxe, R.id f1, sub_self, abs_zero]
    exact hpos.le
  · have f2 : IsFloat p emin (((⌊x / 2 ^ j⌋ + 1 : Int) : ℚ) * (2 : ℚ) ^ j) := isFloat_of_le hp hj (abs_le.2 ⟨by omega, by omega⟩)
    have h3 : x ≤ ((⌊x / 2 ^ j⌋ + 1 : Int) : ℚ) * (2 : ℚ) ^ j := by
      rw [div_lt_iff₀ hpos] at hlt
      push_cast
      exact hlt.le
    have g2 := R.le_of f2 h3
    have h4 : (⌊x / 2 ^ j⌋ : ℚ) * 2 ^ j ≤ x := by rwa [le_div_iff₀ hpos] at hfl
    push_cast at g2 h3
    rw [abs_le]
    constructor <;> linarith

/-! ### Windows -/

section
variable {rows : List Nat} {N : Nat} (hp : rows.Perm (List.range N))
include hp

theorem window_add {r a : Nat} (h : r ≤ a) (hlt : a < r + N) : rows.getD (a % rows.length) 0 < N ∧ rows.getD (a % rows.length) 0 ∉ window rows r a ∧
    insert (rows.getD (a % rows.length) 0) (window rows r a) = window rows r (a + 1) := by
  have hlen : rows.length = N := by rw [hp.length_eq, List.length_range]
  have hnd : rows.Nodup := hp.nodup_iff.2 List.nodup_range
  have hne : rows ≠ [] := by rw [← List.length_pos_iff]; omega
  refine ⟨?_, ?_, ?_⟩
  · have hm : a % rows.length < rows.length := Nat.mod_lt _ (by omega)
    rw [getD_lt hm, ← List.mem_range, ← hp.mem_iff]
    exact List.getElem_mem hm
  · rw [window, Finset.mem_image]
    rintro ⟨i, hi, he'⟩
    rw [Finset.mem_Ico] at hi
    have := cyc_inj hnd hne (i := i) (j := a) (by omega) (by omega) he'
    omega
  · have : Finset.Ico r (a + 1) = insert a (Finset.Ico r a) := by
      ext x; simp only [Finset.mem_Ico, Finset.mem_insert]; omega
    rw [window, window, this, Finset.image_insert]

theorem window_remove {r a : Nat} (h : r < a) (hle : a ≤ r + N) : rows.getD (r % rows.length) 0 ∈ window rows r a ∧
    (window rows r a).erase (rows.getD (r % rows.length) 0) = window rows (r + 1) a := by
  have hlen : rows.length = N := by rw [hp.length_eq, List.length_range]
  have hnd : rows.Nodup := hp.nodup_iff.2 List.nodup_range
  have hne : rows ≠ [] := by rw [← List.length_pos_iff]; omega
  constructor
  · rw [window, Finset.mem_image]
    exact ⟨r, by rw [Finset.mem_Ico]; omega, rfl⟩
  · have : Finset.Ico r a = insert r (Finset.Ico (r + 1) a) := by
      ext x; simp only [Finset.mem_Ico, Finset.mem_insert]; omega
    rw [window, this, Finset.image_insert, Finset.erase_insert]
    · rfl
    · rw [Finset.mem_image]
      rintro ⟨i, hi, he'⟩
      rw [Finset.mem_Ico] at hi
      have := cyc_inj hnd hne (i := r) (j := i) (by omega) (by omega) he'.symm
      omega

theorem window_full (r : Nat) : window rows r (r + N) = Finset.range N := by
  have hlen : rows.length = N := by rw [hp.length_eq, List.length_range]
  have hnd : rows.Nodup := hp.nodup_iff.2 List.nodup_range
  rcases Nat.eq_zero_or_pos N with h0 | h0
  · rw [h0]; simp [window]
  have hne : rows ≠ [] := by rw [← List.length_pos_iff]; omega
  apply Finset.eq_of_subset_of_card_le
  · intro x hx
    rw [window, Finset.mem_image] at hx
    obtain ⟨i, -, rfl⟩ := hx
    have hm : i % rows.length < rows.length := Nat.mod_lt _ (by omega)
    rw [getD_lt hm, Finset.mem_range, ← List.mem_range, ← hp.mem_iff]
    exact List.getElem_mem hm
  · rw [window, Finset.card_image_of_injOn, Finset.card_range, Nat.card_Ico]
    · omega
    · intro i hi j hj hij
      rw [Finset.mem_coe, Finset.mem_Ico] at hi hj
      rcases Nat.le_total i j with h | h
      · exact cyc_inj hnd hne h (by omega) hij
      · exact (cyc_inj hnd hne h (by omega) hij.symm).symm

end

/-! ### Any number of epochs -/

namespace Spec

/-- Starting with `n` rows, a row is removed only while more than `k` are present. -/
def Keeps (k : Nat) : Nat → List Action → Prop
  | _, [] => True
  | n, .addRow _ :: l => Keeps k (n + 1) l
  | n, .removeRow _ :: l => k < n ∧ Keeps k (n - 1) l
  | n, .sampleTree :: l => Keeps k n l

end Spec

/-- The loop invariant: the state has drifted by at most `δ` for each operation. -/
structure FloatAnnealInv (N : Nat) (epochs δ : ℚ) (s : AnnealState ℚ) : Prop where
  num : s.numAssigned = (s.added : Int) - s.removed
  le : s.removed ≤ s.added
  leN : s.added ≤ s.removed + N
  drift : |s.state - (2 * epochs + s.added - epochs * ((s.added : ℚ) - s.removed))| ≤ δ * (2 * s.added + s.removed)
  float : IsFloat 53 (-1074) s.state
  lower : -epochs ≤ s.state
  upper : s.state ≤ 2 * epochs
  small : s.removed = 0 ∨ s.state ≤ epochs
  batch : s.added = 0 ∧ s.nextBatch = 0 ∨ 0 < s.added ∧ 0 < s.nextBatch

/-- Steps that remain. -/
def floatAnnealMeasure (n N a r : Nat) : Nat := 2 * (2 * n * N - a) + if a < 2 * n * N then (a - r) + N else N - (a - r)

section
variable {rnd : ℚ → ℚ} (R : MonoRounding 53 (-1074) rnd) {rows : List Nat} {N n : Nat} {epochs rate δ : ℚ}
include R

theorem floatAnnealLoop_spec (he : 1 ≤ epochs) (hr : 1 ≤ rate) (hef : IsFloat 53 (-1074) epochs) (hef2 : IsFloat 53 (-1074) (2 * epochs)) (hn : epochs ≤ n) (hδ0 : 0 ≤ δ) (hδ : δ ≤ 1 / 16)
    (hrnd : ∀ x, |x| ≤ 2 * epochs → |rnd x - x| ≤ δ) (hp : rows.Perm (List.range N)) : ∀ fuel (s : AnnealState ℚ), FloatAnnealInv N epochs δ s →
    floatAnnealMeasure n N s.added s.removed ≤ fuel →
    ∃ acts, floatAnnealLoop rnd rows N epochs (rnd (epochs - 1)) rate fuel s = .ok acts ∧ Legal N (window rows s.removed s.added) acts (Finset.range N) ∧
      s.added + numAdds acts = s.removed + numRemoves acts + N ∧ Keeps 2 (s.added - s.removed) acts ∧
      (s.added = 0 → 0 < N → ∃ r rest, acts = .addRow r :: .sampleTree :: rest) ∧
      (acts = [] ∨ (s.removed + numRemoves acts = 0 ∧ s.added + numAdds acts = N) ∨
        epochs * ((N : ℚ) - 3) + 1 - 3 * δ * ((s.added + numAdds acts : Nat) : ℚ) ≤ ((s.added + numAdds acts : Nat) : ℚ) ∧
        ((s.added + numAdds acts : Nat) : ℚ) ≤ epochs * ((N : ℚ) - 2) + 1 + 3 * δ * ((s.added + numAdds acts : Nat) : ℚ)) := by
  have hrr0 : 0 ≤ rnd (epochs - 1) := R.nonneg (by linarith)
  have hrr1 : rnd (epochs - 1) ≤ epochs := R.le_of hef (by linarith)
  have hrr2 : |rnd (epochs - 1) - (epochs - 1)| ≤ δ := hrnd _ (by rw [abs_le]; constructor <;> linarith)
  have hefn : IsFloat 53 (-1074) (-epochs) := by
    obtain ⟨m, e, h1, h2, h3⟩ := hef
    exact ⟨-m, e, by rwa [abs_neg], h2, by rw [h3]; push_cast; ring⟩
  intro fuel
  induction fuel with
  | zero =>
    intro s I hm
    have h1 := I.num
    have h2 := I.le
    have h3 := I.leN
    have hnot : ¬ s.numAssigned < N := by
      intro h
      unfold floatAnnealMeasure at hm
      split at hm <;> omega
    have h4 : s.added = s.removed + N := by omega
    refine ⟨[], by simp [floatAnnealLoop, hnot], ?_, by simpa [numAdds, numRemoves] using h4, trivial, by omega, .inl rfl⟩
    show _ = _
    rw [h4]
    exact window_full hp _
  | succ fuel ih =>
    intro s I hm
    have h1 := I.num
    have h2 := I.le
    have h3 := I.leN
    by_cases hlt : s.numAssigned < N
    swap
    · have h4 : s.added = s.removed + N := by omega
      refine ⟨[], by simp [floatAnnealLoop, hlt], ?_, by simpa [numAdds, numRemoves] using h4, trivial, by omega, .inl rfl⟩
      show _ = _
      rw [h4]
      exact window_full hp _
    have hlen : rows.length = N := by rw [hp.length_eq, List.length_range]
    have hne : rows ≠ [] := by rw [← List.length_pos_iff]; omega
    have hD := abs_le.1 I.drift
    have hbaq : (s.removed : ℚ) ≤ s.added := by exact_mod_cast h2
    have ha0 : (0 : ℚ) ≤ s.added := by positivity
    have hD3 : δ * (2 * s.added + s.removed) ≤ 3 * δ * s.added := by
      have : δ * s.removed ≤ δ * s.added := mul_le_mul_of_nonneg_left hbaq hδ0
      linarith
    have hD4 : 3 * δ * s.added ≤ 3 / 16 * s.added := mul_le_mul_of_nonneg_right (by linarith) ha0
    by_cases h0 : 0 ≤ s.state
    · -- a row is added
      obtain ⟨w1, w2, w3⟩ := window_add hp h2 (show s.added < s.removed + N by omega)
      set r := rows.getD (s.added % rows.length) 0
      have hpre : |s.state - rnd (epochs - 1)| ≤ 2 * epochs := by
        have := I.upper
        rw [abs_le]
        constructor <;> linarith
      have hrs := hrnd _ hpre
      have hmove : floatAnnealMove rnd rows epochs (rnd (epochs - 1)) rate s = .ok (.addRow r, ⟨s.added + 1, s.removed, rnd (s.state - rnd (epochs - 1)), s.numAssigned + 1,
          rnd (rnd s.nextBatch - rate)⟩) := by simp [floatAnnealMove, h0, cycleGet_ok hne, bind, Except.bind, r]
      have I' : ∀ nb, 0 < nb → FloatAnnealInv N epochs δ ⟨s.added + 1, s.removed, rnd (s.state - rnd (epochs - 1)), s.numAssigned + 1, nb⟩ := by
        intro nb hnb
        refine ⟨by dsimp only; push_cast; omega, by dsimp only; omega, by dsimp only; omega, ?_, R.float _, ?_, ?_, ?_, .inr ⟨Nat.succ_pos _, hnb⟩⟩
        · dsimp only
          push_cast
          have e1 := abs_le.1 hrs
          have e2 := abs_le.1 hrr2
          rw [abs_le]
          constructor <;> linarith
        · exact R.ge_of hefn (by linarith)
        · exact R.le_of hef2 (by have := I.upper; linarith)
        · rcases I.small with h | h
          · exact .inl h
          · exact .inr (R.le_of hef (by linarith))
      have hmeas : floatAnnealMeasure n N (s.added + 1) s.removed ≤ fuel := by
        unfold floatAnnealMeasure at hm ⊢
        split at hm <;> split <;> omega
      have hfin : ∀ rest : List Action,
          (rest = [] ∨ (s.removed + numRemoves rest = 0 ∧ s.added + 1 + numAdds rest = N) ∨
            epochs * ((N : ℚ) - 3) + 1 - 3 * δ * ((s.added + 1 + numAdds rest : Nat) : ℚ) ≤ ((s.added + 1 + numAdds rest : Nat) : ℚ) ∧
            ((s.added + 1 + numAdds rest : Nat) : ℚ) ≤ epochs * ((N : ℚ) - 2) + 1 + 3 * δ * ((s.added + 1 + numAdds rest : Nat) : ℚ)) →
          s.added + 1 + numAdds rest = s.removed + numRemoves rest + N →
          ((s.removed + numRemoves rest = 0 ∧ s.added + (numAdds rest + 1) = N) ∨
            epochs * ((N : ℚ) - 3) + 1 - 3 * δ * ((s.added + (numAdds rest + 1) : Nat) : ℚ) ≤ ((s.added + (numAdds rest + 1) : Nat) : ℚ) ∧
            ((s.added + (numAdds rest + 1) : Nat) : ℚ) ≤ epochs * ((N : ℚ) - 2) + 1 + 3 * δ * ((s.added + (numAdds rest + 1) : Nat) : ℚ)) := by
        intro rest h hc
        rw [show s.added + (numAdds rest + 1) = s.added + 1 + numAdds rest by omega]
        rcases h with rfl | h | h
        · simp only [numRemoves, numAdds, List.countP_nil, add_zero] at hc ⊢
          rcases I.small with h5 | h5
          · exact .inl ⟨h5, by omega⟩
          · right
            have h7 : (s.added : ℚ) + 1 = s.removed + N := by exact_mod_cast hc
            push_cast
            have h8 : (s.added : ℚ) - s.removed = N - 1 := by linarith
            rw [h8] at hD
            have h9 : 3 * δ * s.added ≤ 3 * δ * (s.added + 1) := mul_le_mul_of_nonneg_left (by linarith) (by linarith)
            constructor <;> linarith
        · exact .inl h
        · exact .inr h
      have hnumpos : (0 : Int) < s.numAssigned + 1 := by omega
      by_cases hs : rnd (rnd s.nextBatch - rate) ≤ 0
      · obtain ⟨rest, e1, e2, e3, e4, -, e5⟩ := ih ⟨s.added + 1, s.removed, rnd (s.state - rnd (epochs - 1)), s.numAssigned + 1, ((s.numAssigned + 1 : Int) : ℚ)⟩
          (I' _ (by exact_mod_cast hnumpos)) hmeas
        have a1 : numAdds (.addRow r :: .sampleTree :: rest) = numAdds rest + 1 := by simp [numAdds]
        have a2 : numRemoves (.addRow r :: .sampleTree :: rest) = numRemoves rest := by simp [numRemoves]
        refine ⟨.addRow r :: .sampleTree :: rest, ?_, ?_, ?_, ?_, fun _ _ => ⟨r, rest, rfl⟩, ?_⟩
        · rw [floatAnnealLoop, if_pos hlt]
          simp only [hmove, bind, Except.bind]
          rw [if_pos ⟨hnumpos, hs⟩]
          simp only [e1]
        · refine ⟨w1, w2, ⟨r, by simp⟩, ?_⟩
          rw [w3]; exact e2
        · rw [a1, a2]; dsimp only at e3; omega
        · show Keeps 2 (s.added - s.removed + 1) rest
          rw [show s.added - s.removed + 1 = s.added + 1 - s.removed by omega]
          exact e4
        · right
          rw [a1, a2]
          exact hfin rest e5 e3
      · obtain ⟨rest, e1, e2, e3, e4, -, e5⟩ := ih _ (I' _ (not_le.1 hs)) hmeas
        have a1 : numAdds (.addRow r :: rest) = numAdds rest + 1 := by simp [numAdds]
        have a2 : numRemoves (.addRow r :: rest) = numRemoves rest := by simp [numRemoves]
        refine ⟨.addRow r :: rest, ?_, ?_, ?_, ?_, ?_, ?_⟩
        · rw [floatAnnealLoop, if_pos hlt]
          simp only [hmove, bind, Except.bind]
          rw [if_neg (fun h => hs h.2)]
          simp only [e1]
        · refine ⟨w1, w2, ?_⟩
          rw [w3]; exact e2
        · rw [a1, a2]; dsimp only at e3; omega
        · show Keeps 2 (s.added - s.removed + 1) rest
          rw [show s.added - s.removed + 1 = s.added + 1 - s.removed by omega]
          exact e4
        · intro ha
          exfalso
          rcases I.batch with hb | hb
          · apply hs
            rw [hb.2, R.id (isFloat_zero _ _)]
            exact R.le_of (isFloat_zero _ _) (by linarith)
          · omega
        · right
          rw [a1, a2]
          exact hfin rest e5 e3
    · -- a row is removed
      have hneg : s.state < 0 := not_le.1 h0
      have hgt : s.removed + 2 < s.added := by
        by_contra hc
        have h4 : ((s.added : ℚ) - s.removed) ≤ 2 := by
          have : (s.added : ℚ) ≤ (s.removed + 2 : Nat) := by exact_mod_cast not_lt.1 hc
          push_cast at this; linarith
        have h5 : epochs * ((s.added : ℚ) - s.removed) ≤ epochs * 2 := mul_le_mul_of_nonneg_left h4 (by linarith)
        linarith
      obtain ⟨w1, w2⟩ := window_remove hp (show s.removed < s.added by omega) h3
      set r := rows.getD (s.removed % rows.length) 0
      have hmove : floatAnnealMove rnd rows epochs (rnd (epochs - 1)) rate s = .ok (.removeRow r, ⟨s.added, s.removed + 1, rnd (s.state + epochs), s.numAssigned - 1, s.nextBatch⟩) := by
        simp [floatAnnealMove, h0, cycleGet_ok hne, bind, Except.bind, r]
      have hrs := hrnd (s.state + epochs) (by
        have := I.lower
        rw [abs_le]
        constructor <;> linarith)
      have hb' : 0 < s.added ∧ 0 < s.nextBatch := by
        rcases I.batch with hb | hb
        · omega
        · exact hb
      have I' : FloatAnnealInv N epochs δ ⟨s.added, s.removed + 1, rnd (s.state + epochs), s.numAssigned - 1, s.nextBatch⟩ := by
        refine ⟨by dsimp only; push_cast; omega, by dsimp only; omega, by dsimp only; omega, ?_, R.float _, ?_, ?_, ?_, .inr hb'⟩
        · dsimp only
          push_cast
          have e1 := abs_le.1 hrs
          rw [abs_le]
          constructor <;> linarith
        · exact R.ge_of hefn (by have := I.lower; linarith)
        · exact R.le_of hef2 (by linarith)
        · exact .inr (R.le_of hef (by linarith))
      have hsmall : s.added < 2 * n * N := by
        by_contra hc
        have h5 : 2 * (n : ℚ) * N ≤ s.added := by exact_mod_cast not_lt.1 hc
        have h6 : (s.added : ℚ) - s.removed ≤ N := by
          have : (s.added : ℚ) ≤ s.removed + N := by exact_mod_cast h3
          linarith
        have hN0 : (0 : ℚ) ≤ N := by positivity
        have h7 : epochs * ((s.added : ℚ) - s.removed) ≤ n * N :=
          le_trans (mul_le_mul_of_nonneg_left h6 (by linarith)) (mul_le_mul_of_nonneg_right hn hN0)
        linarith
      have hmeas : floatAnnealMeasure n N s.added (s.removed + 1) ≤ fuel := by
        unfold floatAnnealMeasure at hm ⊢
        rw [if_pos hsmall] at hm ⊢
        omega
      obtain ⟨rest, e1, e2, e3, e4, -, e5⟩ := ih _ I' hmeas
      have a1 : numAdds (.removeRow r :: rest) = numAdds rest := by simp [numAdds]
      have a2 : numRemoves (.removeRow r :: rest) = numRemoves rest + 1 := by simp [numRemoves]
      refine ⟨.removeRow r :: rest, ?_, ?_, ?_, ?_, by omega, ?_⟩
      · rw [floatAnnealLoop, if_pos hlt]
        simp only [hmove, bind, Except.bind]
        rw [if_neg (fun h => absurd h.2 (not_le.2 hb'.2))]
        simp only [e1]
      · refine ⟨w1, ?_⟩
        rw [w2]; exact e2
      · rw [a1, a2]; dsimp only at e3; omega
      · refine ⟨by omega, ?_⟩
        rw [show s.added - s.removed - 1 = s.added - (s.removed + 1) by omega]
        exact e4
      · right
        rw [a1, a2]
        rcases e5 with rfl | h | h
        · exfalso
          simp only [numAdds, numRemoves, List.countP_nil] at e3
          omega
        · dsimp only at h; omega
        · exact .inr h

/-- **C69**. With every sum rounded to float64, for every number of epochs that is a float64 between 1 and 2^48, every `sample_tree_rate ≥ 1`, number of rows and shuffle, the
schedule ends, is legal, removes a row only while more than two are present, and leads to all rows. The first row is followed by `sample_tree`. Either nothing is ever removed, or the number of additions is that of the linear schedule up to
a relative error of `3 * 2 ^ (n - 52)` where `2 ^ n` bounds the epochs. -/
theorem floatAnnealingSchedule_spec {k : Nat} (he : 1 ≤ epochs) (hr : 1 ≤ rate) (hef : IsFloat 53 (-1074) epochs) (hk : epochs ≤ 2 ^ k) (hk' : k ≤ 48) (hn : epochs ≤ n)
    (hp : rows.Perm (List.range N)) (fuel : Nat) (hf : (4 * n + 1) * N ≤ fuel) :
    ∃ acts, floatAnnealingSchedule rnd fuel rows N epochs rate = .ok acts ∧ Legal N ∅ acts (Finset.range N) ∧ Keeps 2 0 acts ∧
      (0 < N → ∃ r rest, acts = .addRow r :: .sampleTree :: rest) ∧
      (numRemoves acts = 0 ∨
        epochs * ((N : ℚ) - 3) + 1 - 3 * 2 ^ ((k : Int) - 52) * (numAdds acts : ℚ) ≤ numAdds acts ∧
        (numAdds acts : ℚ) ≤ epochs * ((N : ℚ) - 2) + 1 + 3 * 2 ^ ((k : Int) - 52) * (numAdds acts : ℚ)) := by
  have hef2 : IsFloat 53 (-1074) (2 * epochs) := by
    obtain ⟨m, e, h1, h2, h3⟩ := hef
    refine ⟨m, e + 1, h1, by omega, ?_⟩
    rw [h3, zpow_add₀ (by norm_num), zpow_one]
    ring
  have hδ : (2 : ℚ) ^ ((k : Int) - 52) ≤ 1 / 16 := by
    have : (2 : ℚ) ^ ((k : Int) - 52) ≤ 2 ^ (-4 : Int) := zpow_mono (by omega)
    refine le_trans this ?_
    norm_num
  have hrnd : ∀ x, |x| ≤ 2 * epochs → |rnd x - x| ≤ 2 ^ ((k : Int) - 52) := by
    intro x hx
    refine R.error_abs (by norm_num) (by omega) (le_trans hx ?_)
    have : (2 : ℚ) ^ ((k : Int) - 52 + (53 : Nat)) = 2 * 2 ^ k := by
      rw [show (k : Int) - 52 + (53 : Nat) = k + 1 by push_cast; ring, zpow_add₀ (by norm_num), zpow_one, zpow_natCast]
      ring
    rw [this]
    linarith
  have hm : floatAnnealMeasure n N 0 0 ≤ fuel := by
    unfold floatAnnealMeasure
    have : (4 * n + 1) * N = 2 * (2 * n * N) + N := by ring
    split <;> omega
  obtain ⟨acts, h1, h2, h3, h6, h4, h5⟩ := floatAnnealLoop_spec R he hr hef hef2 hn (two_zpow_pos _).le hδ hrnd hp fuel ⟨0, 0, rnd (2 * epochs), 0, 0⟩
    ⟨by simp, le_refl _, by simp, by
      rw [R.id hef2]
      simp, R.float _, by rw [R.id hef2]; dsimp only; linarith, by rw [R.id hef2], .inl rfl, .inl ⟨rfl, rfl⟩⟩ hm
  have hw : window rows 0 0 = ∅ := by simp [window]
  simp only [hw, Nat.zero_add] at h2 h3 h5
  refine ⟨acts, ?_, h2, h6, h4 rfl, ?_⟩
  · simp only [floatAnnealingSchedule, he, hr, pyAssert, decide_true, if_true, bind, Except.bind, h1]
  · rcases h5 with rfl | h5 | h5
    · exact .inl rfl
    · exact .inl h5.1
    · exact .inr h5

end

/-! ### A whole number of epochs -/

theorem isFloat64_int {z : Int} (h : |z| ≤ 2 ^ 53) : IsFloat 53 (-1074) (z : ℚ) := by
  have := isFloat_of_le (p := 53) (emin := -1074) (by norm_num) (show (-1074 : Int) ≤ 0 by norm_num) (m := z) h
  simpa using this

section
variable {rnd : ℚ → ℚ} (R : MonoRounding 53 (-1074) rnd) {rows : List Nat} {N : Nat} {E r : Int}
include R

theorem floatAnnealLoop_exact (hE : 1 ≤ E) (hE' : E ≤ 2 ^ 51) (hr : 1 ≤ r) (hr' : r ≤ 2 ^ 52) (hN : N ≤ 2 ^ 52) (hp : rows.Perm (List.range N)) :
    ∀ fuel (s : AnnealState ℚ), AnnealInv N (E : ℚ) (r : ℚ) s → (∃ x : Int, s.state = x ∧ -E ≤ x ∧ x ≤ 2 * E) → (∃ y : Int, s.nextBatch = y ∧ 0 ≤ y ∧ y ≤ N) →
    floatAnnealLoop rnd rows N E (rnd ((E : ℚ) - 1)) r fuel s = annealLoop rows N (E : ℚ) r fuel s := by
  have hint : ∀ z : Int, |z| ≤ 2 ^ 53 → rnd (z : ℚ) = z := fun z hz => R.id (isFloat64_int hz)
  have hE1 : rnd ((E : ℚ) - 1) = (E : ℚ) - 1 := by
    have := hint (E - 1) (by rw [abs_le]; constructor <;> omega)
    push_cast at this
    exact this
  intro fuel
  induction fuel with
  | zero => intro s _ _ _; rfl
  | succ fuel ih =>
    intro s I ⟨x, hx, hx1, hx2⟩ ⟨y, hy, hy1, hy2⟩
    unfold floatAnnealLoop annealLoop
    by_cases hlt : s.numAssigned < N
    swap
    · rw [if_neg hlt, if_neg hlt]
    rw [if_pos hlt, if_pos hlt, hE1]
    have hlen : rows.length = N := by rw [hp.length_eq, List.length_range]
    have h2 := I.le
    have h1 := I.num
    have hne : rows ≠ [] := by rw [← List.length_pos_iff]; omega
    have hmove : floatAnnealMove rnd rows E ((E : ℚ) - 1) r s = annealMove rows (E : ℚ) r s := by
      unfold floatAnnealMove annealMove
      by_cases h0 : 0 ≤ s.state
      · rw [if_pos h0, if_pos h0]
        have e1 : rnd (s.state - ((E : ℚ) - 1)) = s.state - ((E : ℚ) - 1) := by
          have := hint (x - (E - 1)) (by rw [abs_le]; constructor <;> omega)
          rw [hx]
          push_cast at this
          exact this
        have e2 : rnd s.nextBatch = s.nextBatch := by
          rw [hy]
          exact hint y (by rw [abs_le]; constructor <;> omega)
        have e3 : rnd (s.nextBatch - (r : ℚ)) = s.nextBatch - r := by
          have := hint (y - r) (by rw [abs_le]; constructor <;> omega)
          rw [hy]
          push_cast at this
          exact this
        rw [e1, e2, e3]
      · rw [if_neg h0, if_neg h0]
        have e1 : rnd (s.state + (E : ℚ)) = s.state + E := by
          have := hint (x + E) (by rw [abs_le]; constructor <;> omega)
          rw [hx]
          push_cast at this
          exact this
        rw [e1]
    rw [hmove]
    rw [hE1] at ih
    have hx0 : 0 ≤ s.state ↔ 0 ≤ x := by rw [hx]; exact_mod_cast Iff.rfl
    rcases annealMove_spec (rate := (r : ℚ)) (by exact_mod_cast hE) hp I hlt with ⟨q, h0, h3, I', -⟩ | ⟨q, h0, h00, h3, I', -⟩
    · simp only [h3, bind, Except.bind]
      have hst : ∃ x' : Int, s.state - ((E : ℚ) - 1) = x' ∧ -E ≤ x' ∧ x' ≤ 2 * E := ⟨x - (E - 1), by rw [hx]; push_cast; ring, by have := hx0.1 h0; omega, by omega⟩
      by_cases hs : 0 < s.numAssigned + 1 ∧ s.nextBatch - (r : ℚ) ≤ 0
      · rw [if_pos hs, if_pos hs]
        rw [ih ⟨s.added + 1, s.removed, s.state - ((E : ℚ) - 1), s.numAssigned + 1, ((s.numAssigned + 1 : Int) : ℚ)⟩ ⟨I'.num, I'.le, I'.leN, I'.state, I'.pos, I'.small⟩ hst
          ⟨s.numAssigned + 1, rfl, by omega, by omega⟩]
      · rw [if_neg hs, if_neg hs]
        rw [ih _ I' hst ⟨y - r, by dsimp only; rw [hy]; push_cast; ring, ?_, by omega⟩]
        have h4 : ¬ s.nextBatch - (r : ℚ) ≤ 0 := fun h => hs ⟨by omega, h⟩
        rw [hy, not_le] at h4
        have : (0 : ℚ) < ((y - r : Int) : ℚ) := by push_cast; exact h4
        have : (0 : Int) < y - r := by exact_mod_cast this
        omega
    · simp only [h3, bind, Except.bind]
      have hx' : x < 0 := by
        by_contra hc
        exact absurd (hx0.2 (not_lt.1 hc)) (not_le.2 h0)
      have hst : ∃ x' : Int, s.state + (E : ℚ) = x' ∧ -E ≤ x' ∧ x' ≤ 2 * E := ⟨x + E, by rw [hx]; push_cast; ring, by omega, by omega⟩
      by_cases hs : 0 < s.numAssigned - 1 ∧ s.nextBatch ≤ 0
      · rw [if_pos hs, if_pos hs]
        rw [ih ⟨s.added, s.removed + 1, s.state + (E : ℚ), s.numAssigned - 1, ((s.numAssigned - 1 : Int) : ℚ)⟩ ⟨I'.num, I'.le, I'.leN, I'.state, I'.pos, I'.small⟩ hst
          ⟨s.numAssigned - 1, rfl, by omega, by omega⟩]
      · rw [if_neg hs, if_neg hs]
        rw [ih _ I' hst ⟨y, hy, hy1, hy2⟩]

/-- **C69**. The configs of this project have whole numbers of epochs and whole rates. For them nothing is rounded: the schedule is the exact one. -/
theorem floatAnnealingSchedule_exact (hE' : E ≤ 2 ^ 51) (hr' : r ≤ 2 ^ 52) (hN : N ≤ 2 ^ 52) (hp : rows.Perm (List.range N)) (fuel : Nat) :
    floatAnnealingSchedule rnd fuel rows N E r = annealingSchedule fuel rows N (E : ℚ) r := by
  unfold floatAnnealingSchedule annealingSchedule
  by_cases h1 : (1 : ℚ) ≤ E
  swap
  · simp [h1, pyAssert, bind, Except.bind]
  by_cases h2 : (1 : ℚ) ≤ r
  swap
  · simp [h1, h2, pyAssert, bind, Except.bind]
  have h1' : 1 ≤ E := by exact_mod_cast h1
  have h2' : 1 ≤ r := by exact_mod_cast h2
  have e : rnd (2 * (E : ℚ)) = 2 * E := by
    have := R.id (isFloat64_int (z := 2 * E) (by rw [abs_le]; constructor <;> omega))
    push_cast at this
    exact this
  rw [e]
  simp only [h1, h2, pyAssert, decide_true, if_true, bind, Except.bind]
  exact floatAnnealLoop_exact R h1' hE' h2' hr' hN hp fuel ⟨0, 0, 2 * E, 0, 0⟩ ⟨by simp, le_refl _, by simp, by simp, .inl rfl, .inl rfl⟩ ⟨2 * E, by push_cast; ring, by omega, by omega⟩
    ⟨0, by simp, le_refl _, by omega⟩

end

/-- `10.0 / 3.0` as a float64. -/
def tenThirds : ℚ := 7505999378950827 / 2 ^ 51

/-- Concrete cases of the hypotheses, for both theorems. -/
example : IsFloat 53 (-1074) tenThirds ∧ 1 ≤ tenThirds ∧ tenThirds ≤ 2 ^ 2 ∧ tenThirds ≤ (4 : Nat) ∧ [2, 0, 3, 1, 4, 5].Perm (List.range 6) :=
  ⟨⟨7505999378950827, -51, by norm_num, by norm_num, by norm_num [tenThirds]⟩, by norm_num [tenThirds], by norm_num [tenThirds], by norm_num [tenThirds], by decide⟩

example : floatAnnealingSchedule float64 42 [2, 0, 3, 1, 4, 5] 6 ((3 : Int) : ℚ) ((2 : Int) : ℚ) = .ok [.addRow 2, .sampleTree, .addRow 0, .sampleTree,
    .addRow 3, .sampleTree, .addRow 1, .removeRow 2, .addRow 4, .sampleTree, .removeRow 0, .addRow 5, .addRow 2,
    .sampleTree, .removeRow 3, .addRow 0, .removeRow 1, .addRow 3, .addRow 1, .sampleTree] := by decide +kernel

/-- **C69**, why equality needs whole numbers: with `10.0 / 3.0` epochs over six rows the float64 schedule adds eleven rows and the exact one twelve. -/
theorem floatAnnealingSchedule_differs : ((floatAnnealingSchedule float64 102 [0, 1, 2, 3, 4, 5] 6 tenThirds 1).toOption.map numAdds,
    (annealingSchedule 102 [0, 1, 2, 3, 4, 5] 6 tenThirds (1 : ℚ)).toOption.map numAdds) = (some 11, some 12) := by decide +kernel

end TreeCat
