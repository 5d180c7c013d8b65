import Verif.Lemmas.FloatDrawList
import Verif.Lemmas.ServeLaw

/-! # The observations of a sample in float32 -/

namespace TreeCat

open Util Spec
open scoped BigOperators

section
set_option linter.unusedSectionVars false
variable {M : Nat} [NeZero M] {A : ServeOps M} {model : Model ℝ M}

theorem observe_range (h : Model.Valid model) {z : Nat → Fin M} {K : (Nat → Int) → ℝ} {lo hi : ℝ} (hK : ∀ x, lo ≤ K x ∧ K x ≤ hi) : ∀ (fs : List Nat) (x : Nat → Int),
    (∀ v ∈ fs, v < model.tree.numVertices ∧ (columns model v).Nonempty) → lo ≤ observe model z fs x K ∧ observe model z fs x K ≤ hi := by
  intro fs
  induction fs with
  | nil => intro x _; exact hK x
  | cons v fs ih =>
    intro x hf
    obtain ⟨hv, hne⟩ := hf v List.mem_cons_self
    have hf' : ∀ w ∈ fs, w < model.tree.numVertices ∧ (columns model w).Nonempty := fun w hw => hf w (List.mem_cons_of_mem _ hw)
    have hs := featMean_sum h hv hne (z v)
    simp only [observe]
    constructor
    · calc lo = ∑ r ∈ columns model v, featMean model v r (z v) * lo := by rw [← Finset.sum_mul, hs, one_mul]
        _ ≤ _ := Finset.sum_le_sum fun r hr => mul_le_mul_of_nonneg_left (ih _ hf').1 (featMean_pos h hv hr _).le
    · calc _ ≤ ∑ r ∈ columns model v, featMean model v r (z v) * hi := Finset.sum_le_sum fun r hr => mul_le_mul_of_nonneg_left (ih _ hf').2 (featMean_pos h hv hr _).le
        _ = hi := by rw [← Finset.sum_mul, hs, one_mul]

/-- One observation of feature `v` in class `a`. -/
def obsPick (A : ServeOps M) (srv : FloatServer M) (v : Nat) (a : Fin M) (d : Nat) (f : Nat → Int) : Nat → Int :=
  Function.update f (srv.raggedIndex.getD v 0 + listPick A.toFloatOps ((srv.block v).map fun r => srv.cond r a) d)
    (wrap8 (f (srv.raggedIndex.getD v 0 + listPick A.toFloatOps ((srv.block v).map fun r => srv.cond r a) d) + 1))

variable {kv kt kc : Nat} {srv : FloatServer M}

theorem block_near (S : ServeNear model kv kt kc srv) (hr : srv.raggedIndex = model.raggedIndex) {v : Nat} (hv : v < model.tree.numVertices) (a : Fin M) :
    ∀ i < ((srv.block v).map fun r => srv.cond r a).length,
      Near kc (((srv.block v).map fun r => srv.cond r a).getD i none) (featMean model v (model.raggedIndex.getD v 0 + i) a) := by
  intro i hi
  rw [List.length_map] at hi
  have hi' : i < model.raggedIndex.getD (v + 1) 0 - model.raggedIndex.getD v 0 := by
    unfold FloatServer.block at hi
    rw [List.length_range', hr] at hi
    exact hi
  rw [List.getD_eq_getElem _ _ (by rw [List.length_map]; exact hi), List.getElem_map]
  have e : (srv.block v)[i] = model.raggedIndex.getD v 0 + i := by
    have h1 : srv.block v = List.range' (model.raggedIndex.getD v 0) (model.raggedIndex.getD (v + 1) 0 - model.raggedIndex.getD v 0) := by
      unfold FloatServer.block
      rw [hr]
    simp only [h1, List.getElem_range', one_mul]
  rw [e]
  refine S.cond v hv _ ?_ a
  unfold columns
  rw [Finset.mem_Ico]
  omega

theorem block_length (hr : srv.raggedIndex = model.raggedIndex) (v : Nat) (a : Fin M) : ((srv.block v).map fun r => srv.cond r a).length = (columns model v).card := by
  unfold FloatServer.block columns
  rw [List.length_map, List.length_range', hr, Nat.card_Ico]

theorem block_nonempty (hr : srv.raggedIndex = model.raggedIndex) {v : Nat} (hne : (columns model v).Nonempty) (a : Fin M) : ((srv.block v).map fun r => srv.cond r a) ≠ [] := by
  refine List.ne_nil_of_length_pos ?_
  rw [block_length hr]
  exact hne.card_pos

theorem floatDrawFeatures_pick (S : ServeNear model kv kt kc srv) (hr : srv.raggedIndex = model.raggedIndex) {v : Nat} (hv : v < model.tree.numVertices) (a : Fin M) (d : Nat → Nat)
    (count : Nat) (hne : count ≠ 0 → (columns model v).Nonempty) (f : Nat → Int) :
    floatDrawFeatures A srv v a (fun k => (d k : ℚ) / 2 ^ 53) count f = .ok ((List.range count).foldl (fun f k => obsPick A srv v a (d k) f) f) := by
  have key : ∀ (l : List Nat) (f : Nat → Int), (l ≠ [] → (columns model v).Nonempty) →
      l.foldlM (fun f k => do
        let i ← fltSample A.rs A.rp ((srv.block v).map fun r => srv.cond r a) ((d k : ℚ) / 2 ^ 53)
        (.ok (Function.update f (srv.raggedIndex.getD v 0 + i) (wrap8 (f (srv.raggedIndex.getD v 0 + i) + 1))) : Py (Nat → Int))) f
      = .ok (l.foldl (fun f k => obsPick A srv v a (d k) f) f) := by
    intro l
    induction l with
    | nil => intro f _; rfl
    | cons k l ih =>
      intro f hl
      have hne := hl (by simp)
      rw [List.foldlM_cons, (listPick_ok (A := A.toFloatOps) (block_near S hr hv a) (block_nonempty hr hne a) (d k)).1]
      exact ih _ fun _ => hne
  exact key _ _ fun h => hne (by intro h0; exact h (by rw [h0]; rfl))

/-- Observations drawn in float32, for given classes. -/
theorem features_average (O : Spec.ServeOpsOk A) (h : Model.Valid model) (S : ServeNear model kv kt kc srv) (hr : srv.raggedIndex = model.raggedIndex) {W : Nat}
    (hW : ∀ v < model.tree.numVertices, (columns model v).card ≤ W) (hW' : W ≤ 2 ^ 23) (z : Nat → Fin M) {ι : Type} [Fintype ι] [DecidableEq ι] (e : Nat × Nat → ι) {B : List (Nat × Nat)}
    (hnd : (B.map e).Nodup) (hB : ∀ b ∈ B, b.1 < model.tree.numVertices ∧ (columns model b.1).Nonempty) (hcount : ∀ v < model.tree.numVertices, (B.map Prod.fst).count v ≤ 127)
    {K : (Nat → Int) → ℝ} {lo hi : ℝ} (hK : ∀ x, lo ≤ K x ∧ K x ≤ hi) :
    |(∑ d : ι → Fin (2 ^ 53), K (B.foldl (fun f b => obsPick A srv b.1 (z b.1) (d (e b)).val f) fun _ => 0)) / ((2 ^ 53 : Nat) : ℝ) ^ Fintype.card ι
      - observe model z (B.map Prod.fst) (fun _ => 0) K| ≤ B.length * drawErr W kc * (hi - lo) := by
  have hlh : 0 ≤ hi - lo := by linarith [(hK fun _ => 0).1, (hK fun _ => 0).2]
  have hfold := foldl_average (n := 2 ^ 53) (by positivity) e (fun b m f => obsPick A srv b.1 (z b.1) m.val f) (fun B s => observe model z (B.map Prod.fst) s K)
    (fun B s => (∀ b ∈ B, b.1 < model.tree.numVertices ∧ (columns model b.1).Nonempty) ∧ ∀ v < model.tree.numVertices, ∀ r ∈ columns model v, 0 ≤ s r ∧ s r + ((B.map Prod.fst).count v : Int) ≤ 127)
    (fun _ => drawErr W kc) (lo := lo) (hi := hi) ?_ B hnd (fun _ => 0) ⟨hB, fun v hv r _ => ⟨le_refl _, by rw [zero_add]; exact_mod_cast hcount v hv⟩⟩
  · rw [List.map_const', List.sum_replicate, nsmul_eq_mul] at hfold
    exact hfold
  · rintro ⟨v, j⟩ B s ⟨hB, hs⟩
    obtain ⟨hv, hne⟩ := hB (v, j) List.mem_cons_self
    simp only at hv hne
    set ws := (srv.block v).map fun r => srv.cond r (z v) with hws
    have hnear := block_near S hr hv (z v)
    have hwne := block_nonempty hr hne (z v)
    have hwl := block_length hr v (z v)
    rw [← hws] at hnear hwne hwl
    set beg := model.raggedIndex.getD v 0 with hbeg
    have hmem : ∀ i < ws.length, beg + i ∈ columns model v := by
      intro i hi
      rw [hwl] at hi
      unfold columns at hi ⊢
      rw [Nat.card_Ico] at hi
      rw [Finset.mem_Ico]
      omega
    have hpick : ∀ i < ws.length, Function.update s (beg + i) (wrap8 (s (beg + i) + 1)) = Function.update s (beg + i) (s (beg + i) + 1) := by
      intro i hi
      have := hs v hv _ (hmem i hi)
      rw [List.map_cons, List.count_cons_self] at this
      rw [wrap8_id (by omega) (by push_cast at this; omega)]
    have hobs : ∀ m : Fin (2 ^ 53), obsPick A srv v (z v) m.val s = Function.update s (beg + listPick A.toFloatOps ws m.val) (s (beg + listPick A.toFloatOps ws m.val) + 1) := by
      intro m
      unfold obsPick
      rw [hr, ← hws, ← hbeg]
      exact hpick _ (listPick_ok hnear hwne _).2
    refine ⟨fun m => ⟨fun b hb => hB b (List.mem_cons_of_mem _ hb), fun w hw q hq => ?_⟩, ?_⟩
    · have h1 := hs w hw q hq
      rw [List.map_cons] at h1
      simp only [hobs m]
      by_cases hqe : q = beg + listPick A.toFloatOps ws m.val
      · have hwv : w = v := columns_disjoint h hw hv hq (hqe ▸ hmem _ (listPick_ok hnear hwne _).2)
        subst hwv
        subst hqe
        rw [Function.update_self]
        rw [List.count_cons_self] at h1
        push_cast at h1
        constructor <;> omega
      · rw [Function.update_of_ne hqe]
        have : (B.map Prod.fst).count w ≤ ((v, j).1 :: B.map Prod.fst).count w := List.count_le_count_cons
        refine ⟨h1.1, le_trans ?_ h1.2⟩
        omega
    · set F : Nat → ℝ := fun i => observe model z (B.map Prod.fst) (Function.update s (beg + i) (s (beg + i) + 1)) K with hF
      have h1 := listPick_average O.ops hnear hwne (by rw [hwl]; exact le_trans (hW v hv) hW') (f := F) (lo := lo) (hi := hi)
        (fun i _ => observe_range h hK _ _ fun w hw => by
          obtain ⟨b, hb, rfl⟩ := List.mem_map.1 hw
          exact hB b (List.mem_cons_of_mem _ hb))
      have e1 : ∑ m : Fin (2 ^ 53), observe model z (B.map Prod.fst) (obsPick A srv v (z v) m.val s) K = ∑ d ∈ Finset.range (2 ^ 53), F (listPick A.toFloatOps ws d) := by
        rw [Finset.sum_range]
        exact Finset.sum_congr rfl fun m _ => by rw [hobs m]
      have e2 : ∀ G : Nat → ℝ, ∑ i ∈ Finset.range ws.length, G (beg + i) = ∑ r ∈ columns model v, G r := by
        intro G
        unfold columns
        rw [Finset.sum_Ico_eq_sum_range, hwl]
        unfold columns
        rw [Nat.card_Ico]
      have e3 : (∑ i ∈ Finset.range ws.length, featMean model v (beg + i) (z v) * F i) / ∑ i ∈ Finset.range ws.length, featMean model v (beg + i) (z v)
          = observe model z (((v, j) :: B).map Prod.fst) s K := by
        rw [e2 fun r => featMean model v r (z v), e2 fun r => featMean model v r (z v) * observe model z (B.map Prod.fst) (Function.update s r (s r + 1)) K, featMean_sum h hv hne, div_one]
        rfl
      rw [e3, ← e1] at h1
      refine le_trans h1 (mul_le_mul_of_nonneg_right ?_ hlh)
      unfold drawErr
      have : (ws.length : ℝ) ≤ W := by rw [hwl]; exact_mod_cast hW v hv
      gcongr

end

end TreeCat
