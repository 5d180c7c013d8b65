import Mathlib.Tactic.Linarith
import Mathlib.Tactic.Positivity
import Mathlib.Tactic.Ring
import Mathlib.Tactic.NormNum
import Mathlib.Order.Interval.Finset.Nat
import Mathlib.Data.Finset.Image
import Mathlib.Data.Finset.Range
import Mathlib.Data.List.Range
import Mathlib.Algebra.Order.Archimedean.Basic
import Mathlib.Algebra.Order.Ring.Rat
import Mathlib.Algebra.Field.Rat
import Mathlib.Data.List.Perm.Basic
import Verif.Spec.Anneal

/-!
# C16: annealing schedules
-/

set_option linter.unusedSectionVars false

namespace TreeCat

open Spec

theorem numAdds_append (as bs : List Action) : numAdds (as ++ bs) = numAdds as + numAdds bs :=
  List.countP_append ..

theorem numRemoves_append (as bs : List Action) : numRemoves (as ++ bs) = numRemoves as + numRemoves bs :=
  List.countP_append ..

theorem getD_lt {l : List Nat} {i : Nat} (h : i < l.length) : l.getD i 0 = l[i] := by
  simp [List.getElem?_eq_getElem h]

section
variable {K : Type} [Field K] [LinearOrder K] [IsStrictOrderedRing K]

/-- Rows assigned after `a` adds and `r` removes. -/
def window (rows : List Nat) (r a : Nat) : Finset Nat :=
  (Finset.Ico r a).image fun i => rows.getD (i % rows.length) 0

theorem cycleGet_ok {rows : List Nat} (h : rows ≠ []) (i : Nat) :
    cycleGet rows i = .ok (rows.getD (i % rows.length) 0) := by
  have : i % rows.length < rows.length := Nat.mod_lt _ (List.length_pos_iff.2 h)
  simp [cycleGet, List.getElem?_eq_getElem this]

theorem cyc_inj {rows : List Nat} (hn : rows.Nodup) (h : rows ≠ []) {i j : Nat} (hij : i ≤ j)
    (hlt : j < i + rows.length)
    (he : rows.getD (i % rows.length) 0 = rows.getD (j % rows.length) 0) : i = j := by
  have hp := List.length_pos_iff.2 h
  have hi : i % rows.length < rows.length := Nat.mod_lt _ hp
  have hj : j % rows.length < rows.length := Nat.mod_lt _ hp
  rw [getD_lt hi, getD_lt hj, hn.getElem_inj_iff] at he
  have h1 : (j - i) % rows.length = 0 := Nat.sub_mod_eq_zero_of_mod_eq he.symm
  have h2 : j - i < rows.length := by omega
  rw [Nat.mod_eq_of_lt h2] at h1
  omega

/-- The loop invariant. -/
structure AnnealInv (N : Nat) (epochs rate : K) (s : AnnealState K) : Prop where
  num : s.numAssigned = (s.added : Int) - s.removed
  le : s.removed ≤ s.added
  leN : s.added ≤ s.removed + N
  state : s.state = 2 * epochs + s.added - epochs * ((s.added : K) - s.removed)
  pos : s.added = 0 ∨ s.removed < s.added
  small : s.removed = 0 ∨ s.state < epochs

/-- One move of the loop keeps the invariant and is legal. -/
theorem annealMove_spec {rows : List Nat} {N : Nat} {epochs rate : K} (he : 1 ≤ epochs)
    (hp : rows.Perm (List.range N)) {s : AnnealState K} (I : AnnealInv N epochs rate s)
    (hlt : s.numAssigned < N) :
    (∃ r, 0 ≤ s.state ∧ annealMove rows epochs rate s = .ok (.addRow r, ⟨s.added + 1, s.removed,
        s.state - (epochs - 1), s.numAssigned + 1, s.nextBatch - rate⟩) ∧
      AnnealInv N epochs rate ⟨s.added + 1, s.removed, s.state - (epochs - 1), s.numAssigned + 1, s.nextBatch - rate⟩ ∧
      r < N ∧ r ∉ window rows s.removed s.added ∧
      insert r (window rows s.removed s.added) = window rows s.removed (s.added + 1)) ∨
    (∃ r, s.state < 0 ∧ s.removed + 2 < s.added ∧
      annealMove rows epochs rate s = .ok (.removeRow r, ⟨s.added, s.removed + 1,
        s.state + epochs, s.numAssigned - 1, s.nextBatch⟩) ∧
      AnnealInv N epochs rate ⟨s.added, s.removed + 1, s.state + epochs, s.numAssigned - 1, s.nextBatch⟩ ∧
      r ∈ window rows s.removed s.added ∧
      (window rows s.removed s.added).erase r = window rows (s.removed + 1) s.added) := by
  have hlen : rows.length = N := by rw [hp.length_eq, List.length_range]
  have hnd : rows.Nodup := hp.nodup_iff.2 List.nodup_range
  have hnum := I.num
  have hN : 0 < N := by have := I.le; omega
  have hne : rows ≠ [] := by rw [← List.length_pos_iff]; omega
  have haN : s.added < s.removed + N := by omega
  by_cases h0 : 0 ≤ s.state
  · refine .inl ⟨rows.getD (s.added % rows.length) 0, h0, ?_, ?_, ?_, ?_, ?_⟩
    · simp [annealMove, h0, cycleGet_ok hne, bind, Except.bind]
    · have h1 := I.state
      have h2 := I.le
      have h3 := I.small
      refine ⟨?_, by dsimp only; omega, by dsimp only; omega, ?_, .inr (by dsimp only; omega), ?_⟩
      · dsimp only; push_cast; omega
      · dsimp only; push_cast; rw [h1]; ring
      · rcases h3 with h3 | h3
        · exact .inl h3
        · exact .inr (by dsimp only; linarith)
    · have hm : s.added % rows.length < rows.length := Nat.mod_lt _ (by omega)
      rw [getD_lt hm, ← List.mem_range, ← hp.mem_iff]
      exact List.getElem_mem hm
    · rw [window, Finset.mem_image]
      rintro ⟨i, hi, he'⟩
      rw [Finset.mem_Ico] at hi
      have := cyc_inj hnd hne (i := i) (j := s.added) (by omega) (by omega) he'
      omega
    · have : Finset.Ico s.removed (s.added + 1) = insert s.added (Finset.Ico s.removed s.added) := by
        ext x; simp only [Finset.mem_Ico, Finset.mem_insert]; have := I.le; omega
      rw [window, window, this, Finset.image_insert]
  · have hneg : s.state < 0 := not_le.1 h0
    have hgt : s.removed + 2 < s.added := by
      by_contra hc
      have h1 := I.state
      have h2 : ((s.added : K) - s.removed) ≤ 2 := by
        have : (s.added : K) ≤ (s.removed + 2 : Nat) := by exact_mod_cast not_lt.1 hc
        push_cast at this; linarith
      have h3 : (0 : K) ≤ s.added := by positivity
      nlinarith
    refine .inr ⟨rows.getD (s.removed % rows.length) 0, hneg, hgt, ?_, ?_, ?_, ?_⟩
    · simp [annealMove, h0, cycleGet_ok hne, bind, Except.bind]
    · have h1 := I.state
      have h2 := I.leN
      refine ⟨?_, by dsimp only; omega, by dsimp only; omega, ?_, .inr (by dsimp only; omega), ?_⟩
      · dsimp only; push_cast; omega
      · dsimp only; push_cast; rw [h1]; ring
      · exact .inr (by dsimp only; linarith)
    · rw [window, Finset.mem_image]
      exact ⟨s.removed, by rw [Finset.mem_Ico]; omega, rfl⟩
    · have : Finset.Ico s.removed s.added = insert s.removed (Finset.Ico (s.removed + 1) s.added) := by
        ext x; simp only [Finset.mem_Ico, Finset.mem_insert]; omega
      rw [window, this, Finset.image_insert, Finset.erase_insert]
      · rfl
      · rw [Finset.mem_image]
        rintro ⟨i, hi, he'⟩
        rw [Finset.mem_Ico] at hi
        have := cyc_inj hnd hne (i := s.removed) (j := i) (by omega) (by omega) he'.symm
        omega

/-- `pending` is the amount of work until the next `sample_tree` is due, `n` the number
of assigned rows: the recursive form of the timing property. -/
def Timed (rate : K) : K → Int → List Action → Prop
  | _, _, [] => True
  | p, n, .addRow _ :: .sampleTree :: as => p - rate ≤ 0 ∧ 0 < n + 1 ∧ Timed rate ((n + 1 : Int) : K) (n + 1) as
  | p, n, .addRow _ :: as => 0 < p - rate ∧ Timed rate (p - rate) (n + 1) as
  | p, n, .removeRow _ :: as => Timed rate p (n - 1) as
  | _, _, .sampleTree :: _ => False

/-- Steps that remain. -/
def annealMeasure (n N : Nat) (s : AnnealState K) : Nat :=
  2 * (n * N - s.added) + if s.added < n * N then (s.added - s.removed) + N else N - (s.added - s.removed)

theorem annealLoop_spec {rows : List Nat} {N n : Nat} {epochs rate : K} (he : 1 ≤ epochs)
    (hn : epochs ≤ n) (hp : rows.Perm (List.range N)) : ∀ fuel (s : AnnealState K),
    AnnealInv N epochs rate s → (s.added = 0 ∧ s.nextBatch = 0 ∨ 0 < s.added ∧ 0 < s.nextBatch) →
    annealMeasure n N s ≤ fuel →
    ∃ acts, annealLoop rows N epochs rate fuel s = .ok acts ∧
      Legal N (window rows s.removed s.added) acts (Finset.range N) ∧
      Timed rate s.nextBatch s.numAssigned acts ∧
      s.added + numAdds acts = s.removed + numRemoves acts + N ∧
      (acts = [] ∨ (s.removed + numRemoves acts = 0 ∧ s.added + numAdds acts = N) ∨
        epochs * ((N : K) - 3) + 1 ≤ ((s.added + numAdds acts : Nat) : K) ∧
        ((s.added + numAdds acts : Nat) : K) < epochs * ((N : K) - 2) + 1) := by
  intro fuel
  have hlen : rows.length = N := by rw [hp.length_eq, List.length_range]
  have hnd : rows.Nodup := hp.nodup_iff.2 List.nodup_range
  have hdone : ∀ s : AnnealState K, AnnealInv N epochs rate s → ¬ s.numAssigned < N →
      s.added = s.removed + N ∧ window rows s.removed s.added = Finset.range N := by
    intro s I h
    have h1 := I.num
    have h2 := I.leN
    have h3 : s.added = s.removed + N := by omega
    refine ⟨h3, ?_⟩
    rcases Nat.eq_zero_or_pos N with h0 | h0
    · rw [h3, h0]; simp [window]
    have hne : rows ≠ [] := by rw [← List.length_pos_iff]; omega
    apply Finset.eq_of_subset_of_card_le
    · intro x hx
      rw [window, Finset.mem_image] at hx
      obtain ⟨i, -, rfl⟩ := hx
      have hm : i % rows.length < rows.length := Nat.mod_lt _ (by omega)
      rw [getD_lt hm, Finset.mem_range, ← List.mem_range, ← hp.mem_iff]
      exact List.getElem_mem hm
    · rw [window, Finset.card_image_of_injOn, Finset.card_range, Nat.card_Ico]
      · omega
      · intro i hi j hj hij
        rw [Finset.mem_coe, Finset.mem_Ico] at hi hj
        rcases Nat.le_total i j with h | h
        · exact cyc_inj hnd hne h (by omega) hij
        · exact (cyc_inj hnd hne h (by omega) hij.symm).symm
  induction fuel with
  | zero =>
    intro s I hb hm
    have hnot : ¬ s.numAssigned < N := by
      intro h
      have := I.num
      have := I.le
      unfold annealMeasure at hm
      split at hm <;> omega
    refine ⟨[], by simp [annealLoop, hnot], (hdone s I hnot).2, trivial, ?_, .inl rfl⟩
    simpa [numAdds, numRemoves] using (hdone s I hnot).1
  | succ fuel ih =>
    intro s I hb hm
    by_cases hlt : s.numAssigned < N
    swap
    · refine ⟨[], by simp [annealLoop, hlt], (hdone s I hlt).2, trivial, ?_, .inl rfl⟩
      simpa [numAdds, numRemoves] using (hdone s I hlt).1
    have hInum := I.num
    have hIle := I.le
    have hIleN := I.leN
    rcases annealMove_spec (rate := rate) he hp I hlt with ⟨r, h0, h1, I', h2, h3, h4⟩ | ⟨r, h0, h00, h1, I', h2, h3⟩
    · have hmeas : ∀ nb, annealMeasure n N (⟨s.added + 1, s.removed, s.state - (epochs - 1), s.numAssigned + 1, nb⟩ : AnnealState K) ≤ fuel := by
        intro nb
        unfold annealMeasure at hm ⊢
        dsimp only at hm ⊢
        split at hm <;> split <;> omega
      have hfin : ∀ rest : List Action,
          (rest = [] ∨ (s.removed + numRemoves rest = 0 ∧ s.added + 1 + numAdds rest = N) ∨
            epochs * ((N : K) - 3) + 1 ≤ ((s.added + 1 + numAdds rest : Nat) : K) ∧
            ((s.added + 1 + numAdds rest : Nat) : K) < epochs * ((N : K) - 2) + 1) →
          s.added + 1 + numAdds rest = s.removed + numRemoves rest + N →
          ((s.removed + numRemoves rest = 0 ∧ s.added + (numAdds rest + 1) = N) ∨
            epochs * ((N : K) - 3) + 1 ≤ ((s.added + (numAdds rest + 1) : Nat) : K) ∧
            ((s.added + (numAdds rest + 1) : Nat) : K) < epochs * ((N : K) - 2) + 1) := by
        intro rest h hc
        rw [show s.added + (numAdds rest + 1) = s.added + 1 + numAdds rest by omega]
        rcases h with rfl | h | h
        · simp only [numRemoves, numAdds, List.countP_nil, add_zero] at hc ⊢
          rcases I.small with h5 | h5
          · exact .inl ⟨h5, by omega⟩
          · right
            have h6 := I.state
            have h7 : (s.added : K) + 1 = s.removed + N := by exact_mod_cast hc
            push_cast
            rw [h6] at h0 h5
            have h8 : (s.added : K) - s.removed = N - 1 := by linarith
            rw [h8] at h0 h5
            constructor <;> linarith
        · exact .inl h
        · exact .inr h
      by_cases hs : s.nextBatch - rate ≤ 0
      · have hnumpos : (0 : Int) < s.numAssigned + 1 := by omega
        obtain ⟨rest, e1, e2, e3, e4, e5⟩ := ih ⟨s.added + 1, s.removed, s.state - (epochs - 1), s.numAssigned + 1,
          ((s.numAssigned + 1 : Int) : K)⟩ ⟨I'.num, I'.le, I'.leN, I'.state, I'.pos, I'.small⟩
          (.inr ⟨Nat.succ_pos _, by dsimp only; exact_mod_cast hnumpos⟩) (hmeas _)
        refine ⟨.addRow r :: .sampleTree :: rest, ?_, ?_, ?_, ?_, ?_⟩
        · rw [annealLoop, if_pos hlt]
          simp only [h1, bind, Except.bind]
          rw [if_pos ⟨hnumpos, hs⟩]
          simp only [e1]
        · refine ⟨h2, h3, ⟨r, by simp⟩, ?_⟩
          rw [h4]; exact e2
        · exact ⟨hs, hnumpos, e3⟩
        · have : numAdds (.addRow r :: .sampleTree :: rest) = numAdds rest + 1 := by
            simp [numAdds]
          have : numRemoves (.addRow r :: .sampleTree :: rest) = numRemoves rest := by
            simp [numRemoves]
          dsimp only at e4; omega
        · right
          have a1 : numAdds (.addRow r :: .sampleTree :: rest) = numAdds rest + 1 := by
            simp [numAdds]
          have a2 : numRemoves (.addRow r :: .sampleTree :: rest) = numRemoves rest := by
            simp [numRemoves]
          rw [a1, a2]
          exact hfin rest e5 e4
      · have hs' : 0 < s.nextBatch - rate := not_le.1 hs
        obtain ⟨rest, e1, e2, e3, e4, e5⟩ := ih _ I' (.inr ⟨Nat.succ_pos _, hs'⟩) (hmeas _)
        refine ⟨.addRow r :: rest, ?_, ?_, ?_, ?_, ?_⟩
        · rw [annealLoop, if_pos hlt]
          simp only [h1, bind, Except.bind]
          rw [if_neg (fun h => hs h.2)]
          simp only [e1]
        · refine ⟨h2, h3, ?_⟩
          rw [h4]; exact e2
        · cases rest with
          | nil => exact ⟨hs', trivial⟩
          | cons a rest =>
            cases a with
            | addRow => exact ⟨hs', e3⟩
            | removeRow => exact ⟨hs', e3⟩
            | sampleTree => exact absurd e3 (by simp [Timed])
        · have : numAdds (.addRow r :: rest) = numAdds rest + 1 := by
            simp [numAdds]
          have : numRemoves (.addRow r :: rest) = numRemoves rest := by
            simp [numRemoves]
          dsimp only at e4; omega
        · right
          have a1 : numAdds (.addRow r :: rest) = numAdds rest + 1 := by
            simp [numAdds]
          have a2 : numRemoves (.addRow r :: rest) = numRemoves rest := by
            simp [numRemoves]
          rw [a1, a2]
          exact hfin rest e5 e4
    · have hsmall : s.added < n * N := by
        by_contra hc
        have h4 := I.state
        have h5 : (n : K) * N ≤ s.added := by exact_mod_cast not_lt.1 hc
        have h6 : (s.added : K) - s.removed ≤ N := by
          have : (s.added : K) ≤ s.removed + N := by exact_mod_cast hIleN
          linarith
        have h7 : epochs * ((s.added : K) - s.removed) ≤ n * N := by
          have : (0 : K) ≤ N := by positivity
          nlinarith
        linarith
      have hmeas : annealMeasure n N (⟨s.added, s.removed + 1, s.state + epochs, s.numAssigned - 1, s.nextBatch⟩ : AnnealState K) ≤ fuel := by
        unfold annealMeasure at hm ⊢
        dsimp only at hm ⊢
        rw [if_pos hsmall] at hm ⊢
        omega
      have hb' : 0 < s.added ∧ 0 < s.nextBatch := by
        rcases hb with hb | hb
        · omega
        · exact hb
      obtain ⟨rest, e1, e2, e3, e4, e5⟩ := ih _ I' (.inr hb') hmeas
      have a1 : numAdds (.removeRow r :: rest) = numAdds rest := by simp [numAdds]
      have a2 : numRemoves (.removeRow r :: rest) = numRemoves rest + 1 := by simp [numRemoves]
      refine ⟨.removeRow r :: rest, ?_, ?_, ?_, ?_, ?_⟩
      · rw [annealLoop, if_pos hlt]
        simp only [h1, bind, Except.bind]
        rw [if_neg (fun h => absurd h.2 (not_le.2 hb'.2))]
        simp only [e1]
      · refine ⟨h2, ?_⟩
        rw [h3]; exact e2
      · exact e3
      · rw [a1, a2]; dsimp only at e4; omega
      · right
        rw [a1, a2]
        rcases e5 with rfl | h | h
        · exfalso
          simp only [numAdds, numRemoves, List.countP_nil] at e4
          omega
        · dsimp only at h; omega
        · exact .inr h

/-! ### Timing of `sample_tree` -/

theorem Timed.add_sample {rate p : K} {n : Int} {r : Nat} {as : List Action} :
    Timed rate p n (.addRow r :: .sampleTree :: as) ↔
      p - rate ≤ 0 ∧ 0 < n + 1 ∧ Timed rate ((n + 1 : Int) : K) (n + 1) as := Iff.rfl

theorem Timed.add_other {rate p : K} {n : Int} {r : Nat} {a : Action} {as : List Action}
    (ha : a ≠ .sampleTree) :
    Timed rate p n (.addRow r :: a :: as) ↔ 0 < p - rate ∧ Timed rate (p - rate) (n + 1) (a :: as) := by
  cases a <;> first | exact Iff.rfl | exact absurd rfl ha

theorem Timed.after {rate : K} : ∀ (k : Nat) (A D : List Action), A.length ≤ k → ∀ (p : K) (n : Int),
    Timed rate p n (A ++ .sampleTree :: D) →
    0 < n + numAdds A - numRemoves A ∧
      Timed rate ((n + numAdds A - numRemoves A : Int) : K) (n + numAdds A - numRemoves A) D := by
  intro k
  induction k with
  | zero =>
    intro A D hA p n h
    have : A = [] := List.length_eq_zero_iff.1 (by omega)
    subst this
    exact absurd h (by simp [Timed])
  | succ k ih =>
    intro A D hA p n h
    cases A with
    | nil => exact absurd h (by simp [Timed])
    | cons a A =>
      cases a with
      | sampleTree => exact absurd h (by simp [Timed])
      | removeRow r =>
        have a1 : numAdds (.removeRow r :: A) = numAdds A := by simp [numAdds]
        have a2 : numRemoves (.removeRow r :: A) = numRemoves A + 1 := by simp [numRemoves]
        have := ih A D (by simpa using hA) p (n - 1) h
        rw [a1, a2]
        have e : n + (numAdds A : Int) - ((numRemoves A + 1 : Nat) : Int) = n - 1 + numAdds A - numRemoves A := by
          push_cast; omega
        rw [e]; exact this
      | addRow r =>
        cases A with
        | nil =>
          have h' := Timed.add_sample.1 h
          simpa [numAdds, numRemoves] using h'.2
        | cons b A =>
          have hA' : A.length + 1 ≤ k := by simpa using hA
          by_cases hb : b = .sampleTree
          · subst hb
            have a1 : numAdds (.addRow r :: .sampleTree :: A) = numAdds A + 1 := by simp [numAdds]
            have a2 : numRemoves (.addRow r :: .sampleTree :: A) = numRemoves A := by simp [numRemoves]
            have := ih A D (by omega) _ (n + 1) (Timed.add_sample.1 h).2.2
            rw [a1, a2]
            have e : n + ((numAdds A + 1 : Nat) : Int) - (numRemoves A : Int) = n + 1 + numAdds A - numRemoves A := by
              push_cast; omega
            rw [e]; exact this
          · have a1 : numAdds (.addRow r :: b :: A) = numAdds (b :: A) + 1 := by
              simp [numAdds, List.countP_cons]
            have a2 : numRemoves (.addRow r :: b :: A) = numRemoves (b :: A) := by
              simp [numRemoves, List.countP_cons]
            have := ih (b :: A) D (by simpa using hA') _ (n + 1) ((Timed.add_other hb).1 h).2
            rw [a1, a2]
            have e : n + ((numAdds (b :: A) + 1 : Nat) : Int) - (numRemoves (b :: A) : Int)
                = n + 1 + numAdds (b :: A) - numRemoves (b :: A) := by
              push_cast; omega
            rw [e]; exact this

theorem Timed.between {rate : K} (B C : List Action) (hB : .sampleTree ∉ B) : ∀ (p : K) (n : Int), 0 < p →
    Timed rate p n (B ++ .sampleTree :: C) →
    ((numAdds B : K) - 1) * rate < p ∧ p ≤ numAdds B * rate := by
  induction B with
  | nil => intro p n _ h; exact absurd h (by simp [Timed])
  | cons a B ih =>
    intro p n hp h
    have hB' : .sampleTree ∉ B := fun h' => hB (List.mem_cons_of_mem _ h')
    cases a with
    | sampleTree => exact absurd h (by simp [Timed])
    | removeRow r =>
      have a1 : numAdds (.removeRow r :: B) = numAdds B := by simp [numAdds]
      rw [a1]
      exact ih hB' p (n - 1) hp h
    | addRow r =>
      have a1 : numAdds (.addRow r :: B) = numAdds B + 1 := by simp [numAdds]
      rw [a1]
      cases B with
      | nil =>
        have h' := Timed.add_sample.1 h
        simp only [numAdds, List.countP_nil]
        push_cast
        constructor <;> linarith [h'.1]
      | cons b B =>
        have hb : b ≠ .sampleTree := by rintro rfl; simp at hB'
        have h' := (Timed.add_other hb).1 h
        have := ih hB' _ _ h'.1 h'.2
        push_cast
        constructor <;> linarith [this.1, this.2]

theorem Timed.last {rate : K} (B : List Action) (hB : .sampleTree ∉ B) : ∀ (p : K) (n : Int), 0 < p →
    Timed rate p n B → (numAdds B : K) * rate < p := by
  induction B with
  | nil => intro p n hp _; simpa [numAdds] using hp
  | cons a B ih =>
    intro p n hp h
    have hB' : .sampleTree ∉ B := fun h' => hB (List.mem_cons_of_mem _ h')
    cases a with
    | sampleTree => exact absurd h (by simp [Timed])
    | removeRow r =>
      have a1 : numAdds (.removeRow r :: B) = numAdds B := by simp [numAdds]
      rw [a1]
      exact ih hB' p (n - 1) hp h
    | addRow r =>
      have a1 : numAdds (.addRow r :: B) = numAdds B + 1 := by simp [numAdds]
      rw [a1]
      cases B with
      | nil =>
        have h' : 0 < p - rate := h.1
        simp only [numAdds, List.countP_nil]
        push_cast
        linarith
      | cons b B =>
        have hb : b ≠ .sampleTree := by rintro rfl; simp at hB'
        have h' := (Timed.add_other hb).1 h
        have := ih hB' _ _ h'.1 h'.2
        push_cast
        linarith

/-- **C16**. For every number of rows, every `epochs ≥ 1`, every `sample_tree_rate ≥ 1`
and every shuffle, the schedule ends; its actions are legal and lead from no rows to
all rows. Either nothing is ever removed, or the number of additions lies between
`epochs * (N - 3) + 1` and `epochs * (N - 2) + 1`. -/
theorem annealingSchedule_spec (rows : List Nat) (N n : Nat) (epochs rate : K) (he : 1 ≤ epochs)
    (hr : 1 ≤ rate) (hn : epochs ≤ n) (hp : rows.Perm (List.range N)) (fuel : Nat)
    (hf : (2 * n + 1) * N ≤ fuel) :
    ∃ acts, annealingSchedule fuel rows N epochs rate = .ok acts ∧
      Legal N ∅ acts (Finset.range N) ∧
      numAdds acts = numRemoves acts + N ∧
      (numRemoves acts = 0 ∨ epochs * ((N : K) - 3) + 1 ≤ numAdds acts ∧
        (numAdds acts : K) < epochs * ((N : K) - 2) + 1) ∧
      (0 < N → ∃ r rest, acts = .addRow r :: .sampleTree :: rest) ∧
      (∀ A B C, acts = A ++ .sampleTree :: (B ++ .sampleTree :: C) → .sampleTree ∉ B →
        ((numAdds B : K) - 1) * rate < numAdds A - numRemoves A ∧
        (numAdds A : K) - numRemoves A ≤ numAdds B * rate) ∧
      (∀ A B, acts = A ++ .sampleTree :: B → .sampleTree ∉ B →
        (numAdds B : K) * rate < numAdds A - numRemoves A) := by
  have hm : annealMeasure n N (⟨0, 0, 2 * epochs, 0, 0⟩ : AnnealState K) ≤ fuel := by
    unfold annealMeasure
    dsimp only
    have : (2 * n + 1) * N = 2 * (n * N) + N := by ring
    split <;> omega
  obtain ⟨acts, h1, h2, h3, h4, h5⟩ := annealLoop_spec (rows := rows) (rate := rate) he hn hp fuel ⟨0, 0, 2 * epochs, 0, 0⟩
    ⟨by simp, le_refl _, by simp, by simp, .inl rfl, .inl rfl⟩ (.inl ⟨rfl, rfl⟩) hm
  have hw : window rows 0 0 = ∅ := by simp [window]
  simp only [hw, Nat.zero_add] at h2 h4 h5
  dsimp only at h3
  refine ⟨acts, ?_, h2, h4, ?_, ?_, ?_, ?_⟩
  · simp only [annealingSchedule, he, hr, pyAssert, decide_true, if_true, bind, Except.bind, h1]
  · rcases h5 with rfl | h5 | h5
    · exact .inl rfl
    · exact .inl h5.1
    · exact .inr h5
  · intro hN
    match acts, h2, h3, h4 with
    | [], _, _, h4 => simp [numAdds, numRemoves] at h4; omega
    | .sampleTree :: _, _, h3, _ => exact absurd h3 (by simp [Timed])
    | .removeRow r :: _, h2, _, _ => exact absurd h2.1 (by simp)
    | .addRow r :: .sampleTree :: rest, _, _, _ => exact ⟨r, rest, rfl⟩
    | [.addRow r], _, h3, _ => have := h3.1; linarith
    | .addRow r :: .addRow _ :: _, _, h3, _ => have := h3.1; linarith
    | .addRow r :: .removeRow _ :: _, _, h3, _ => have := h3.1; linarith
  · intro A B C hABC hB
    rw [hABC] at h3
    obtain ⟨h6, h7⟩ := Timed.after _ _ _ (le_refl _) _ _ h3
    have h8 : (0 : K) < ((0 + numAdds A - numRemoves A : Int) : K) := by exact_mod_cast h6
    have := Timed.between _ _ hB _ _ h8 h7
    push_cast at this
    rwa [zero_add] at this
  · intro A B hAB hB
    rw [hAB] at h3
    obtain ⟨h6, h7⟩ := Timed.after _ _ _ (le_refl _) _ _ h3
    have h8 : (0 : K) < ((0 + numAdds A - numRemoves A : Int) : K) := by exact_mod_cast h6
    have := Timed.last _ hB _ _ h8 h7
    push_cast at this
    rwa [zero_add] at this

end

theorem Legal.count_add {N : Nat} : ∀ (acts : List Action) (S T : Finset Nat), Legal N S acts T →
    numRemoves acts = 0 → S ⊆ T ∧ ∀ r, acts.count (.addRow r) = if r ∈ T ∧ r ∉ S then 1 else 0 := by
  intro acts
  induction acts with
  | nil =>
    intro S T h _
    have : S = T := h
    subst this
    simp
  | cons a acts ih =>
    intro S T h h0
    cases a with
    | removeRow r => simp [numRemoves] at h0
    | sampleTree =>
      obtain ⟨h1, h2⟩ := ih S T h.2 (by simpa [numRemoves] using h0)
      refine ⟨h1, fun r => ?_⟩
      rw [List.count_cons_of_ne (by simp), h2]
    | addRow q =>
      obtain ⟨-, hq, h⟩ := h
      obtain ⟨h1, h2⟩ := ih (insert q S) T h (by simpa [numRemoves] using h0)
      refine ⟨(Finset.subset_insert _ _).trans h1, fun r => ?_⟩
      have hqT : q ∈ T := h1 (Finset.mem_insert_self _ _)
      by_cases hr : r = q
      · subst hr
        rw [List.count_cons_self, h2]
        simp [hq, hqT]
      · rw [List.count_cons_of_ne (by simpa using Ne.symm hr), h2]
        simp [hr]

section
variable {K : Type} [Field K] [LinearOrder K] [IsStrictOrderedRing K]

/-- **C16** (one epoch). With `epochs = 1` nothing is removed and every row is added
exactly once. -/
theorem annealingSchedule_one_epoch (rows : List Nat) (N : Nat) (rate : K) (hr : 1 ≤ rate)
    (hp : rows.Perm (List.range N)) (fuel : Nat) (hf : 3 * N ≤ fuel) :
    ∃ acts, annealingSchedule fuel rows N 1 rate = .ok acts ∧ numRemoves acts = 0 ∧
      ∀ r < N, acts.count (.addRow r) = 1 := by
  obtain ⟨acts, h1, h2, h3, h4, -⟩ := annealingSchedule_spec rows N 1 1 rate (le_refl _) hr (by simp) hp fuel (by omega)
  have h0 : numRemoves acts = 0 := by
    rcases h4 with h4 | ⟨-, h4⟩
    · exact h4
    · rw [h3] at h4
      push_cast at h4
      have : (0 : K) ≤ numRemoves acts := by positivity
      linarith
  refine ⟨acts, h1, h0, fun r hrN => ?_⟩
  rw [(Legal.count_add acts _ _ h2 h0).2]
  simp [hrN]

/-- **C16** (bad arguments). -/
theorem annealingSchedule_rejects (fuel : Nat) (rows : List Nat) (N : Nat) (epochs rate : K)
    (h : epochs < 1 ∨ rate < 1) : annealingSchedule fuel rows N epochs rate = .error .assertion := by
  unfold annealingSchedule
  by_cases he : 1 ≤ epochs
  · have hr : ¬ 1 ≤ rate := by
      rcases h with h | h
      · exact absurd h (not_lt.2 he)
      · exact not_le.2 h
    simp [he, hr, pyAssert, bind, Except.bind]
  · simp [he, pyAssert, bind, Except.bind]

/-- Every `epochs` has the bound that the termination theorem asks for. -/
theorem exists_epoch_bound [Archimedean K] (epochs : K) : ∃ n : Nat, epochs ≤ n := exists_nat_ge epochs

end

/-- A schedule with removals: 10 additions for `epochs = 3` and 6 rows. -/
example : annealingSchedule 42 [2, 0, 3, 1, 4, 5] 6 (3 : ℚ) 2 = .ok [.addRow 2, .sampleTree, .addRow 0, .sampleTree,
    .addRow 3, .sampleTree, .addRow 1, .removeRow 2, .addRow 4, .sampleTree, .removeRow 0, .addRow 5, .addRow 2,
    .sampleTree, .removeRow 3, .addRow 0, .removeRow 1, .addRow 3, .addRow 1, .sampleTree] := by decide +kernel

example : [2, 0, 3, 1, 4, 5].Perm (List.range 6) := by decide

end TreeCat
