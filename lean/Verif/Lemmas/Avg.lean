import Mathlib.Algebra.BigOperators.Field
import Mathlib.Algebra.Order.BigOperators.Group.Finset
import Mathlib.Data.Fintype.Prod
import Mathlib.Data.Real.Basic
import Mathlib.Tactic.Linarith
import Mathlib.Tactic.Ring

/-!
# Averages and the convergence of positive chains
-/

namespace TreeCat

open scoped BigOperators

/-- `E` averages over results in `D`, and gives weight to every result in `H`. -/
structure Avg {α : Type} (D H : α → Prop) (E : (α → ℝ) → ℝ) : Prop where
  lin : ∀ f g c, E (fun a => f a + c * g a) = E f + c * E g
  one : E (fun _ => 1) = 1
  congr : ∀ f g, (∀ a, D a → f a = g a) → E f = E g
  pos : ∀ f, (∀ a, D a → 0 ≤ f a) → 0 ≤ E f
  hit : ∀ f a, (∀ a, D a → 0 ≤ f a) → H a → 0 < f a → 0 < E f

variable {α β : Type}

theorem Avg.mono_hit {D H H' : α → Prop} {E : (α → ℝ) → ℝ} (h : Avg D H E) (hH : ∀ a, H' a → H a) : Avg D H' E :=
  ⟨h.lin, h.one, h.congr, h.pos, fun f a h1 h2 h3 => h.hit f a h1 (hH a h2) h3⟩

theorem Avg.mono_dom {D D' H : α → Prop} {E : (α → ℝ) → ℝ} (h : Avg D H E) (hD : ∀ a, D a → D' a) : Avg D' H E :=
  ⟨h.lin, h.one, fun f g h1 => h.congr f g fun a ha => h1 a (hD a ha), fun f h1 => h.pos f fun a ha => h1 a (hD a ha),
    fun f a h1 h2 h3 => h.hit f a (fun b hb => h1 b (hD b hb)) h2 h3⟩

theorem Avg.point (a : α) : Avg (fun b => b = a) (fun b => b = a) fun f => f a :=
  ⟨fun _ _ _ => rfl, rfl, fun _ _ h => h a rfl, fun _ h => h a rfl, fun _ _ _ h1 h2 => by subst h1; exact h2⟩

theorem Avg.bind {D1 H1 : α → Prop} {E : (α → ℝ) → ℝ} {D2 : β → Prop} {H2 : α → β → Prop} {F : α → (β → ℝ) → ℝ}
    (hE : Avg D1 H1 E) (hF : ∀ a, D1 a → Avg D2 (H2 a) (F a)) :
    Avg D2 (fun b => ∃ a, H1 a ∧ D1 a ∧ H2 a b) fun k => E fun a => F a k where
  lin f g c := by
    rw [← hE.lin]
    exact hE.congr _ _ fun a ha => (hF a ha).lin f g c
  one := by
    rw [hE.congr _ (fun _ => 1) fun a ha => (hF a ha).one]
    exact hE.one
  congr f g h := hE.congr _ _ fun a ha => (hF a ha).congr f g h
  pos f h := hE.pos _ fun a ha => (hF a ha).pos f h
  hit f b h1 := by
    rintro ⟨a, h2, h3, h4⟩ h5
    exact hE.hit _ a (fun a ha => (hF a ha).pos f h1) h2 ((hF a h3).hit f b h1 h4 h5)

theorem Avg.map {D H : α → Prop} {E : (α → ℝ) → ℝ} (h : Avg D H E) (g : α → β) :
    Avg (fun b => ∃ a, D a ∧ b = g a) (fun b => ∃ a, H a ∧ D a ∧ b = g a) fun k => E fun a => k (g a) :=
  Avg.bind (F := fun a k => k (g a)) h fun a ha => (Avg.point (g a)).mono_dom fun _ hb => ⟨a, ha, hb⟩

/-- A weighted mean. -/
theorem Avg.weights {ι : Type} (s : Finset ι) (hs : s.Nonempty) (w : ι → ℝ) (hw : ∀ i ∈ s, 0 < w i) :
    Avg (fun i => i ∈ s) (fun i => i ∈ s) fun f => (∑ i ∈ s, w i * f i) / ∑ i ∈ s, w i := by
  have hpos : 0 < ∑ i ∈ s, w i := Finset.sum_pos hw hs
  refine ⟨fun f g c => ?_, ?_, fun f g h => ?_, fun f h => ?_, fun f a h1 h2 h3 => ?_⟩
  · rw [← mul_div_assoc, ← add_div, Finset.mul_sum, ← Finset.sum_add_distrib]
    congr 1
    exact Finset.sum_congr rfl fun i _ => by ring
  · simp only [mul_one]
    exact div_self hpos.ne'
  · rw [Finset.sum_congr rfl fun i hi => by rw [h i hi]]
  · exact div_nonneg (Finset.sum_nonneg fun i hi => mul_nonneg (hw i hi).le (h i hi)) hpos.le
  · exact div_pos (Finset.sum_pos' (fun i hi => mul_nonneg (hw i hi).le (h1 i hi)) ⟨a, h2, mul_pos (hw a h2) h3⟩) hpos

/-- The mean over a list. -/
theorem Avg.list (l : List α) (n : Nat) (hn : l.length = n) (hl : l ≠ []) :
    Avg (fun a => a ∈ l) (fun a => a ∈ l) fun f => (l.map f).sum / (n : ℝ) := by
  have hpos : (0 : ℝ) < n := by
    rw [← hn]; exact_mod_cast List.length_pos_iff.2 hl
  refine ⟨fun f g c => ?_, ?_, fun f g h => ?_, fun f h => ?_, fun f a h1 h2 h3 => ?_⟩
  · rw [← mul_div_assoc, ← add_div, List.sum_map_add, List.sum_map_mul_left]
  · rw [List.map_const', List.sum_replicate, nsmul_eq_mul, mul_one, hn]
    exact div_self hpos.ne'
  · rw [List.map_congr_left fun a ha => h a ha]
  · refine div_nonneg (List.sum_nonneg ?_) hpos.le
    rintro x hx
    obtain ⟨a, ha, rfl⟩ := List.mem_map.1 hx
    exact h a ha
  · refine div_pos ?_ hpos
    have h4 : f a ≤ (l.map f).sum := List.single_le_sum (fun x hx => by
      obtain ⟨b, hb, rfl⟩ := List.mem_map.1 hx
      exact h1 b hb) _ (List.mem_map_of_mem h2)
    linarith

/-- Averages over a part of a type, as averages over the subtype. -/
theorem Avg.subtype {D H : α → Prop} {E : (α → ℝ) → ℝ} (h : Avg D H E) [DecidablePred D] :
    Avg (fun _ : {a // D a} => True) (fun a => H a.1) fun f => E fun a => if ha : D a then f ⟨a, ha⟩ else 0 := by
  refine ⟨fun f g c => ?_, ?_, fun f g h1 => ?_, fun f h1 => ?_, fun f a h1 h2 h3 => ?_⟩
  · rw [← h.lin]
    exact h.congr _ _ fun a ha => by simp only [dif_pos ha]
  · rw [h.congr _ (fun _ => 1) fun a ha => dif_pos ha]
    exact h.one
  · exact h.congr _ _ fun a ha => by simp only [dif_pos ha, h1 ⟨a, ha⟩ trivial]
  · exact h.pos _ fun a ha => by simp only [dif_pos ha]; exact h1 _ trivial
  · exact h.hit _ a.1 (fun b hb => by simp only [dif_pos hb]; exact h1 _ trivial) h2 (by simp only [dif_pos a.2]; exact h3)

/-- Doeblin: if from every state every state has positive weight and the weights `q` (of sum one) are invariant, then
the averages converge to the mean under `q`, geometrically and uniformly. -/
theorem doeblin {Ω : Type} [Fintype Ω] [DecidableEq Ω] [Nonempty Ω] (P : (Ω → ℝ) → Ω → ℝ)
    (hP : ∀ ω, Avg (fun _ => True) (fun _ => True) fun f => P f ω) (q : Ω → ℝ) (hq : ∀ ω, 0 ≤ q ω) (hq1 : ∑ ω, q ω = 1)
    (inv : ∀ f, ∑ ω, q ω * P f ω = ∑ ω, q ω * f ω) :
    ∃ ρ : ℝ, 0 ≤ ρ ∧ ρ < 1 ∧ ∀ (f : Ω → ℝ) (lo hi : ℝ), (∀ ω, lo ≤ f ω ∧ f ω ≤ hi) → ∀ (n : Nat) (ω : Ω),
      |P^[n] f ω - ∑ ω, q ω * f ω| ≤ ρ ^ n * (hi - lo) := by
  -- the least weight
  obtain ⟨p0, -, hp0⟩ := Finset.exists_min_image (Finset.univ : Finset (Ω × Ω))
    (fun p => P (fun a => if a = p.2 then 1 else 0) p.1) Finset.univ_nonempty
  set ε := P (fun a => if a = p0.2 then 1 else 0) p0.1 with hε
  have ind0 : ∀ (b a : Ω), True → (0 : ℝ) ≤ if a = b then 1 else 0 := fun b a _ => by split <;> norm_num
  have hεpos : 0 < ε := (hP p0.1).hit _ p0.2 (ind0 p0.2) trivial (by simp)
  have hmin : ∀ ω b, ε ≤ P (fun a => if a = b then 1 else 0) ω := fun ω b => hp0 (ω, b) (Finset.mem_univ _)
  have hconst : ∀ (c : ℝ) ω, P (fun _ => c) ω = c := by
    intro c ω
    have h := (hP ω).lin (fun _ => 0) (fun _ => 1) c
    have h0 := (hP ω).lin (fun _ => 1) (fun _ => 1) (-1)
    simp only [(hP ω).one, mul_one, zero_add] at h h0
    norm_num at h0
    rw [h0] at h
    linarith
  have hmono : ∀ f g : Ω → ℝ, (∀ a, f a ≤ g a) → ∀ ω, P f ω ≤ P g ω := by
    intro f g h ω
    have h1 := (hP ω).pos (fun a => g a + (-1) * f a) fun a _ => by have := h a; linarith
    rw [(hP ω).lin] at h1
    linarith
  have hε1 : ε ≤ 1 := by
    have := hmono (fun a => if a = p0.2 then 1 else 0) (fun _ => 1) (fun a => by split <;> norm_num) p0.1
    rw [hconst] at this
    exact this
  refine ⟨1 - ε, by linarith, by linarith, ?_⟩
  -- one step shrinks the range
  have step : ∀ f : Ω → ℝ, ∀ lo hi, (∀ ω, lo ≤ f ω ∧ f ω ≤ hi) →
      ∃ lo' hi', (∀ ω, lo' ≤ P f ω ∧ P f ω ≤ hi') ∧ hi' - lo' ≤ (1 - ε) * (hi - lo) := by
    intro f lo hi hf
    obtain ⟨b, -, hb⟩ := Finset.exists_min_image (Finset.univ : Finset Ω) f Finset.univ_nonempty
    refine ⟨f b, hi - ε * (hi - f b), fun ω => ⟨?_, ?_⟩, ?_⟩
    · have := hmono (fun _ => f b) f (fun a => hb a (Finset.mem_univ _)) ω
      rwa [hconst] at this
    · have h1 := hmono (fun a => 0 + (hi - f b) * if a = b then 1 else 0) (fun a => hi + (-1) * f a) (fun a => by
        split
        · rename_i h; subst h; linarith
        · have := (hf a).2; linarith) ω
      rw [(hP ω).lin, (hP ω).lin, hconst, hconst] at h1
      have h2 := mul_le_mul_of_nonneg_left (hmin ω b) (sub_nonneg.2 (hf b).2)
      linarith
    · have h3 := mul_le_mul_of_nonneg_left (sub_le_sub_left (hf b).1 hi) (sub_nonneg.2 hε1)
      linarith
  intro f lo hi hf n ω
  have key : ∀ n, ∃ lo' hi', (∀ ω, lo' ≤ P^[n] f ω ∧ P^[n] f ω ≤ hi') ∧ hi' - lo' ≤ (1 - ε) ^ n * (hi - lo) := by
    intro n
    induction n with
    | zero => exact ⟨lo, hi, hf, by simp⟩
    | succ n ih =>
      obtain ⟨lo', hi', h1, h2⟩ := ih
      obtain ⟨lo2, hi2, h3, h4⟩ := step _ lo' hi' h1
      refine ⟨lo2, hi2, fun ω => by rw [Function.iterate_succ_apply']; exact h3 ω, h4.trans ?_⟩
      have := mul_le_mul_of_nonneg_left h2 (sub_nonneg.2 hε1)
      rw [pow_succ']
      linarith
  have hinv : ∀ n, ∑ ω, q ω * P^[n] f ω = ∑ ω, q ω * f ω := by
    intro n
    induction n with
    | zero => rfl
    | succ n ih => rw [Function.iterate_succ_apply', inv, ih]
  obtain ⟨lo', hi', h1, h2⟩ := key n
  have hlo : lo' ≤ ∑ ω, q ω * f ω := by
    rw [← hinv n]
    calc lo' = ∑ ω, q ω * lo' := by rw [← Finset.sum_mul, hq1, one_mul]
      _ ≤ _ := Finset.sum_le_sum fun ω _ => mul_le_mul_of_nonneg_left (h1 ω).1 (hq ω)
  have hhi : ∑ ω, q ω * f ω ≤ hi' := by
    rw [← hinv n]
    calc ∑ ω, q ω * P^[n] f ω ≤ ∑ ω, q ω * hi' := Finset.sum_le_sum fun ω _ => mul_le_mul_of_nonneg_left (h1 ω).2 (hq ω)
      _ = hi' := by rw [← Finset.sum_mul, hq1, one_mul]
  refine abs_le.2 ⟨?_, ?_⟩
  · have := (h1 ω).1; linarith
  · have := (h1 ω).2; linarith

end TreeCat
