import Verif.Spec.Program
import Verif.Lemmas.Program
import Verif.Lemmas.Center

/-!
# C04: propagation programs are complete and correctly ordered
-/

namespace TreeCat

open Spec

theorem before_of_split {prog X Y : List Instr} (hn : prog.Nodup) (h : prog = X ++ Y) {i j : Instr}
    (hi : i ∈ X) (hj : j ∈ Y) : Before prog i j := by
  intro a b ha hb
  subst h
  rw [List.nodup_append] at hn
  have ha' : a < X.length := by
    by_contra hc
    rw [List.getElem?_append_right (by omega)] at ha
    exact hn.2.2 i hi i (List.mem_of_getElem? ha) rfl
  have hb' : X.length ≤ b := by
    by_contra hc
    rw [List.getElem?_append_left (by omega)] at hb
    exact hn.2.2 j (List.mem_of_getElem? hb) j hj rfl
  omega

section
variable {V : Nat} {grid : Grid} {r : Nat} {d par : Nat → Nat} {ch : Nat → List Nat} {eid : Nat → Nat}
  {L : List Nat}

theorem isParent_iff {edges : List (Nat × Nat)} (R : Rooted V edges r d par) (c p : Nat) :
    IsParent edges r c p ↔ c < V ∧ c ≠ r ∧ par c = p := by
  constructor
  · rintro ⟨ha, n, hn, hm⟩
    have hc := (R.range _ _ ha).1
    have hp := (R.range _ _ ha).2
    have h1 := hm _ (R.walk c hc)
    have h2 := R.short _ _ hn
    have hcr : c ≠ r := by
      rintro rfl
      have := hm 0 (.nil _); omega
    refine ⟨hc, hcr, ?_⟩
    rcases R.edge _ _ ha with ⟨-, h⟩ | ⟨h3, h⟩
    · exact h
    · have := R.d_par p hp h3
      rw [h] at this; omega
  · rintro ⟨hc, hcr, rfl⟩
    refine ⟨R.par_adj c hc hcr, d (par c), R.walk _ (R.par_lt c hc hcr), fun m hm => ?_⟩
    have := R.short _ _ hm
    have := R.d_par c hc hcr
    omega

theorem mem_inBlock {v : Nat} {i : Instr} : i ∈ inBlock ch eid v ↔
    i = ⟨.UP, v, 0, 0⟩ ∨ ∃ c ∈ ch v, i = ⟨.IN, v, c, eid c⟩ := by
  simp only [inBlock, List.mem_cons, List.mem_map]
  constructor
  · rintro (h | ⟨c, h1, h2⟩)
    · exact .inl h
    · exact .inr ⟨c, h1, h2.symm⟩
  · rintro (h | ⟨c, h1, h2⟩)
    · exact .inl h
    · exact .inr ⟨c, h1, h2.symm⟩

theorem mem_outBlock {v : Nat} {i : Instr} : i ∈ outBlock r par eid v ↔
    i = ⟨.DOWN, v, 0, 0⟩ ∨ (v ≠ r ∧ i = ⟨.OUT, v, par v, eid v⟩) := by
  unfold outBlock
  by_cases h : v = r
  · simp [h]
  · simp [h]; tauto

theorem mem_progOf {i : Instr} : i ∈ progOf r par ch eid L ↔
    (∃ v ∈ L, i ∈ inBlock ch eid v) ∨ i = ⟨.ROOT, r, 0, 0⟩ ∨ ∃ v ∈ L, i ∈ outBlock r par eid v := by
  simp only [progOf, List.mem_append, List.mem_flatMap, List.mem_reverse, List.mem_singleton,
    or_assoc]

theorem nodup_progOf (T : Topo V r par ch L) : (progOf r par ch eid L).Nodup := by
  have hin : (L.reverse.flatMap (inBlock ch eid)).Nodup := by
    rw [List.nodup_flatMap]
    constructor
    · intro v hv
      have hv' := T.mem.1 (List.mem_reverse.1 hv)
      unfold inBlock
      rw [List.nodup_cons]
      refine ⟨by simp, ?_⟩
      refine (List.nodup_map_iff_inj_on (T.ch_nodup v hv')).2 ?_
      intro a _ b _ hab
      simpa using (Instr.mk.inj hab).2.2.1
    · refine (List.nodup_reverse.2 T.nodup).imp fun {a b} hab => ?_
      rw [Function.onFun, List.disjoint_left]
      intro i hia hib
      rw [mem_inBlock] at hia hib
      rcases hia with rfl | ⟨c, -, rfl⟩ <;> rcases hib with h | ⟨c', -, h⟩ <;>
        exact hab (Instr.mk.inj h).2.1
  have hout : (L.flatMap (outBlock r par eid)).Nodup := by
    rw [List.nodup_flatMap]
    constructor
    · intro v _
      unfold outBlock
      split <;> simp
    · refine T.nodup.imp fun {a b} hab => ?_
      rw [Function.onFun, List.disjoint_left]
      intro i hia hib
      rw [mem_outBlock] at hia hib
      rcases hia with rfl | ⟨-, rfl⟩ <;> rcases hib with h | ⟨-, h⟩ <;>
        exact hab (Instr.mk.inj h).2.1
  unfold progOf
  rw [List.nodup_append, List.nodup_append]
  refine ⟨⟨hin, List.nodup_singleton _, ?_⟩, hout, ?_⟩
  · intro a ha b hb
    rw [List.mem_singleton] at hb
    subst hb
    rw [List.mem_flatMap] at ha
    obtain ⟨v, -, hv⟩ := ha
    rw [mem_inBlock] at hv
    rcases hv with rfl | ⟨c, -, rfl⟩ <;> simp
  · intro a ha b hb
    rw [List.mem_flatMap] at hb
    obtain ⟨v, -, hv⟩ := hb
    rw [mem_outBlock] at hv
    rw [List.mem_append, List.mem_flatMap, List.mem_singleton] at ha
    rcases ha with ⟨w, -, hw⟩ | rfl
    · rw [mem_inBlock] at hw
      rcases hw with rfl | ⟨c, -, rfl⟩ <;> rcases hv with rfl | ⟨-, rfl⟩ <;> simp
    · rcases hv with rfl | ⟨-, rfl⟩ <;> simp

/-- Inward work of a child comes before that of its parent. -/
theorem in_before (T : Topo V r par ch L) {c : Nat} (hc : c < V) (hcr : c ≠ r) {i j : Instr}
    (hi : i ∈ inBlock ch eid c) (hj : j ∈ inBlock ch eid (par c)) :
    Before (progOf r par ch eid L) i j := by
  obtain ⟨A, B, hAB⟩ := List.append_of_mem (T.mem.2 hc)
  have hp := T.before A c B hAB hcr
  refine before_of_split (nodup_progOf T)
    (X := (B.reverse ++ [c]).flatMap (inBlock ch eid))
    (Y := A.reverse.flatMap (inBlock ch eid) ++ [⟨.ROOT, r, 0, 0⟩] ++ L.flatMap (outBlock r par eid))
    ?_ ?_ ?_
  · unfold progOf
    conv_lhs => rw [show L.reverse = (B.reverse ++ [c]) ++ A.reverse by rw [hAB]; simp]
    rw [List.flatMap_append]
    simp only [List.append_assoc]
  · rw [List.mem_flatMap]; exact ⟨c, by simp, hi⟩
  · simp only [List.mem_append, List.mem_flatMap]
    exact .inl (.inl ⟨par c, by simpa using hp, hj⟩)

/-- Outward work of a parent comes before that of its child. -/
theorem out_before (T : Topo V r par ch L) {c : Nat} (hc : c < V) (hcr : c ≠ r) {i j : Instr}
    (hi : i ∈ outBlock r par eid (par c)) (hj : j ∈ outBlock r par eid c) :
    Before (progOf r par ch eid L) i j := by
  obtain ⟨A, B, hAB⟩ := List.append_of_mem (T.mem.2 hc)
  have hp := T.before A c B hAB hcr
  refine before_of_split (nodup_progOf T)
    (X := L.reverse.flatMap (inBlock ch eid) ++ [⟨.ROOT, r, 0, 0⟩] ++ A.flatMap (outBlock r par eid))
    (Y := (c :: B).flatMap (outBlock r par eid)) ?_ ?_ ?_
  · unfold progOf
    conv_lhs => arg 2; rw [hAB]
    rw [List.flatMap_append]
    simp only [List.append_assoc]
  · simp only [List.mem_append, List.mem_flatMap]
    exact .inr ⟨par c, hp, hi⟩
  · rw [List.mem_flatMap]; exact ⟨c, by simp, hj⟩

theorem isProgram_progOf (R : Rooted V (gridEdges grid) r d par) (T : Topo V r par ch L)
    (heid : ∀ v < V, v ≠ r → ((eid v, v, par v) ∈ grid ∨ (eid v, par v, v) ∈ grid))
    (hids : ∀ c ∈ grid, c.1 < grid.length) : IsProgram grid r (progOf r par ch eid L) := by
  have hV : 1 + grid.length = V := by
    have := R.card; simp only [gridEdges, List.length_map] at this; omega
  have hn := nodup_progOf (eid := eid) T
  have hcV : ∀ {v c}, v ∈ L → c ∈ ch v → c < V ∧ c ≠ r ∧ par c = v := fun hv hc =>
    (T.ch_mem _ (T.mem.1 hv) _).1 hc
  have hin : ∀ {p c e}, (⟨.IN, p, c, e⟩ : Instr) ∈ progOf r par ch eid L ↔
      (c < V ∧ c ≠ r ∧ par c = p ∧ e = eid c) := by
    intro p c e
    rw [mem_progOf]
    constructor
    · rintro (⟨v, hv, h⟩ | h | ⟨v, hv, h⟩)
      · rw [mem_inBlock] at h
        rcases h with h | ⟨c', hc', h⟩
        · cases (Instr.mk.inj h).1
        · obtain ⟨-, h1, h2, h3⟩ := Instr.mk.inj h
          subst h1 h2 h3
          obtain ⟨a, b, c⟩ := hcV hv hc'
          exact ⟨a, b, c, rfl⟩
      · cases (Instr.mk.inj h).1
      · rw [mem_outBlock] at h
        rcases h with h | ⟨-, h⟩ <;> cases (Instr.mk.inj h).1
    · rintro ⟨h1, h2, rfl, rfl⟩
      have hp := R.par_lt c h1 h2
      exact .inl ⟨par c, T.mem.2 hp, mem_inBlock.2 (.inr ⟨c, (T.ch_mem _ hp _).2 ⟨h1, h2, rfl⟩, rfl⟩)⟩
  have hout : ∀ {p c e}, (⟨.OUT, c, p, e⟩ : Instr) ∈ progOf r par ch eid L ↔
      (c < V ∧ c ≠ r ∧ par c = p ∧ e = eid c) := by
    intro p c e
    rw [mem_progOf]
    constructor
    · rintro (⟨v, hv, h⟩ | h | ⟨v, hv, h⟩)
      · rw [mem_inBlock] at h
        rcases h with h | ⟨c', hc', h⟩ <;> cases (Instr.mk.inj h).1
      · cases (Instr.mk.inj h).1
      · rw [mem_outBlock] at h
        rcases h with h | ⟨hr, h⟩
        · cases (Instr.mk.inj h).1
        · obtain ⟨-, h1, h2, h3⟩ := Instr.mk.inj h
          subst h1 h2 h3
          exact ⟨T.mem.1 hv, hr, rfl, rfl⟩
    · rintro ⟨h1, h2, rfl, rfl⟩
      exact .inr (.inr ⟨c, T.mem.2 h1, mem_outBlock.2 (.inr ⟨h2, rfl⟩)⟩)
  have hup : ∀ {v a b}, (⟨.UP, v, a, b⟩ : Instr) ∈ progOf r par ch eid L ↔ v < V ∧ a = 0 ∧ b = 0 := by
    intro v a b
    rw [mem_progOf]
    constructor
    · rintro (⟨w, hw, h⟩ | h | ⟨w, hw, h⟩)
      · rw [mem_inBlock] at h
        rcases h with h | ⟨c', hc', h⟩
        · obtain ⟨-, h1, h2, h3⟩ := Instr.mk.inj h
          subst h1; exact ⟨T.mem.1 hw, h2, h3⟩
        · cases (Instr.mk.inj h).1
      · cases (Instr.mk.inj h).1
      · rw [mem_outBlock] at h
        rcases h with h | ⟨-, h⟩ <;> cases (Instr.mk.inj h).1
    · rintro ⟨h, rfl, rfl⟩
      exact .inl ⟨v, T.mem.2 h, mem_inBlock.2 (.inl rfl)⟩
  have hdown : ∀ {v a b}, (⟨.DOWN, v, a, b⟩ : Instr) ∈ progOf r par ch eid L ↔
      v < V ∧ a = 0 ∧ b = 0 := by
    intro v a b
    rw [mem_progOf]
    constructor
    · rintro (⟨w, hw, h⟩ | h | ⟨w, hw, h⟩)
      · rw [mem_inBlock] at h
        rcases h with h | ⟨c', hc', h⟩ <;> cases (Instr.mk.inj h).1
      · cases (Instr.mk.inj h).1
      · rw [mem_outBlock] at h
        rcases h with h | ⟨-, h⟩
        · obtain ⟨-, h1, h2, h3⟩ := Instr.mk.inj h
          subst h1; exact ⟨T.mem.1 hw, h2, h3⟩
        · cases (Instr.mk.inj h).1
    · rintro ⟨h, rfl, rfl⟩
      exact .inr (.inr ⟨v, T.mem.2 h, mem_outBlock.2 (.inl rfl)⟩)
  have hroot : ∀ {v a b}, (⟨.ROOT, v, a, b⟩ : Instr) ∈ progOf r par ch eid L ↔
      v = r ∧ a = 0 ∧ b = 0 := by
    intro v a b
    rw [mem_progOf]
    constructor
    · rintro (⟨w, hw, h⟩ | h | ⟨w, hw, h⟩)
      · rw [mem_inBlock] at h
        rcases h with h | ⟨c', hc', h⟩ <;> cases (Instr.mk.inj h).1
      · exact (Instr.mk.inj h).2
      · rw [mem_outBlock] at h
        rcases h with h | ⟨-, h⟩ <;> cases (Instr.mk.inj h).1
    · rintro ⟨rfl, rfl, rfl⟩; exact .inr (.inl rfl)
  have hedge : ∀ {c}, c < V → c ≠ r → ∀ e, ((e, par c, c) ∈ grid ∨ (e, c, par c) ∈ grid) ↔ e = eid c := by
    intro c h1 h2 e
    constructor
    · intro h; exact grid_id_unique R.nodup h.symm (heid c h1 h2)
    · rintro rfl; exact (heid c h1 h2).symm
  have hpar := isParent_iff R
  have hupin : ∀ c, c < V → c ≠ r → Before (progOf r par ch eid L) ⟨.UP, par c, 0, 0⟩
      ⟨.IN, par c, c, eid c⟩ := by
    intro c h1 h2
    have hp := R.par_lt c h1 h2
    obtain ⟨A, B, hAB⟩ := List.append_of_mem (T.mem.2 hp)
    refine before_of_split hn
      (X := B.reverse.flatMap (inBlock ch eid) ++ [⟨.UP, par c, 0, 0⟩])
      (Y := ((ch (par c)).map fun c' => ⟨.IN, par c, c', eid c'⟩) ++ A.reverse.flatMap (inBlock ch eid)
        ++ [⟨.ROOT, r, 0, 0⟩] ++ L.flatMap (outBlock r par eid)) ?_ (by simp) ?_
    · unfold progOf
      conv_lhs => rw [show L.reverse = (B.reverse ++ [par c]) ++ A.reverse by rw [hAB]; simp]
      rw [List.flatMap_append, List.flatMap_append]
      simp only [List.append_assoc, List.flatMap_cons, List.flatMap_nil, inBlock, List.append_nil,
        List.cons_append, List.nil_append]
    · simp only [List.append_assoc, List.mem_append, List.mem_map]
      exact .inl ⟨c, (T.ch_mem _ hp _).2 ⟨h1, h2, rfl⟩, rfl⟩
  have houtdown : ∀ c, c < V → c ≠ r → Before (progOf r par ch eid L) ⟨.OUT, c, par c, eid c⟩
      ⟨.DOWN, c, 0, 0⟩ := by
    intro c h1 h2
    obtain ⟨A, B, hAB⟩ := List.append_of_mem (T.mem.2 h1)
    refine before_of_split hn
      (X := L.reverse.flatMap (inBlock ch eid) ++ [⟨.ROOT, r, 0, 0⟩] ++ A.flatMap (outBlock r par eid)
        ++ [⟨.OUT, c, par c, eid c⟩])
      (Y := ⟨.DOWN, c, 0, 0⟩ :: B.flatMap (outBlock r par eid)) ?_ (by simp) (by simp)
    unfold progOf
    conv_lhs => arg 2; rw [hAB]
    rw [List.flatMap_append, List.flatMap_cons]
    simp only [outBlock, if_neg h2, List.append_assoc, List.cons_append, List.nil_append]
  refine ⟨?_, hn, ?_, ?_, ?_, ?_, ?_, ?_, ?_, ?_⟩
  · have := T.prog_length (eid := eid); omega
  · rintro ⟨op, v, v2, e⟩
    cases op with
    | UP =>
      rw [hup]
      constructor
      · rintro ⟨h, rfl, rfl⟩; exact .up (by omega)
      · intro h; cases h with | up h => exact ⟨by omega, rfl, rfl⟩
    | DOWN =>
      rw [hdown]
      constructor
      · rintro ⟨h, rfl, rfl⟩; exact .down (by omega)
      · intro h; cases h with | down h => exact ⟨by omega, rfl, rfl⟩
    | ROOT =>
      rw [hroot]
      constructor
      · rintro ⟨rfl, rfl, rfl⟩; exact .root
      · intro h; cases h; exact ⟨rfl, rfl, rfl⟩
    | IN =>
      rw [hin]
      constructor
      · rintro ⟨h1, h2, rfl, rfl⟩
        exact .inward ((hedge h1 h2 _).2 rfl) ((hpar _ _).2 ⟨h1, h2, rfl⟩)
      · intro h
        cases h with
        | inward h h' =>
          obtain ⟨h1, h2, rfl⟩ := (hpar _ _).1 h'
          exact ⟨h1, h2, rfl, (hedge h1 h2 _).1 h⟩
    | OUT =>
      rw [hout]
      constructor
      · rintro ⟨h1, h2, rfl, rfl⟩
        exact .out ((hedge h1 h2 _).2 rfl) ((hpar _ _).2 ⟨h1, h2, rfl⟩)
      · intro h
        cases h with
        | out h h' =>
          obtain ⟨h1, h2, rfl⟩ := (hpar _ _).1 h'
          exact ⟨h1, h2, rfl, (hedge h1 h2 _).1 h⟩
  · intro p c e h
    obtain ⟨h1, h2, rfl, rfl⟩ := hin.1 h
    refine ⟨hupin c h1 h2, in_before T h1 h2 (mem_inBlock.2 (.inl rfl)) (mem_inBlock.2 (.inr ⟨c, ?_, rfl⟩))⟩
    exact (T.ch_mem _ (R.par_lt c h1 h2) _).2 ⟨h1, h2, rfl⟩
  · intro p c e c' e' h h'
    obtain ⟨h1, h2, rfl, rfl⟩ := hin.1 h
    obtain ⟨h3, h4, h5, rfl⟩ := hin.1 h'
    refine in_before T h1 h2 (mem_inBlock.2 (.inr ⟨c', ?_, rfl⟩)) (mem_inBlock.2 (.inr ⟨c, ?_, rfl⟩))
    · exact (T.ch_mem _ h1 _).2 ⟨h3, h4, h5⟩
    · exact (T.ch_mem _ (R.par_lt c h1 h2) _).2 ⟨h1, h2, rfl⟩
  · intro i hi hop
    refine before_of_split hn (X := L.reverse.flatMap (inBlock ch eid))
      (Y := [⟨.ROOT, r, 0, 0⟩] ++ L.flatMap (outBlock r par eid)) (by simp [progOf]) ?_ (by simp)
    rw [mem_progOf] at hi
    rcases hi with ⟨v, hv, h⟩ | rfl | ⟨v, hv, h⟩
    · rw [List.mem_flatMap]; exact ⟨v, by simpa using hv, h⟩
    · simp at hop
    · rw [mem_outBlock] at h
      rcases h with rfl | ⟨-, rfl⟩ <;> simp at hop
  · intro i hi hop
    refine before_of_split hn (X := L.reverse.flatMap (inBlock ch eid) ++ [⟨.ROOT, r, 0, 0⟩])
      (Y := L.flatMap (outBlock r par eid)) rfl (by simp) ?_
    rw [mem_progOf] at hi
    rcases hi with ⟨v, hv, h⟩ | rfl | ⟨v, hv, h⟩
    · rw [mem_inBlock] at h
      rcases h with rfl | ⟨c, -, rfl⟩ <;> simp at hop
    · simp at hop
    · rw [List.mem_flatMap]; exact ⟨v, hv, h⟩
  · intro p c e h
    obtain ⟨h1, h2, rfl, rfl⟩ := hout.1 h
    exact ⟨out_before T h1 h2 (mem_outBlock.2 (.inl rfl)) (mem_outBlock.2 (.inr ⟨h2, rfl⟩)),
      houtdown c h1 h2⟩
  · intro p c e p' e' h h'
    obtain ⟨h1, h2, rfl, rfl⟩ := hout.1 h
    obtain ⟨h3, h4, rfl, rfl⟩ := hout.1 h'
    exact out_before T h1 h2 (mem_outBlock.2 (.inr ⟨h4, rfl⟩)) (mem_outBlock.2 (.inr ⟨h2, rfl⟩))
  · rintro ⟨op, v, v2, e⟩ hi
    have hel : ∀ c, c < V → c ≠ r → eid c < grid.length := by
      intro c h1 h2
      rcases heid c h1 h2 with h | h <;> exact hids _ h
    cases op with
    | UP => obtain ⟨h, rfl, rfl⟩ := hup.1 hi; simp; omega
    | DOWN => obtain ⟨h, rfl, rfl⟩ := hdown.1 hi; simp; omega
    | ROOT => obtain ⟨rfl, rfl, rfl⟩ := hroot.1 hi; have := R.root_lt; simp; omega
    | IN =>
      obtain ⟨h1, h2, rfl, rfl⟩ := hin.1 hi
      have := R.par_lt _ h1 h2
      exact ⟨by simp only; omega, by simp only; omega, .inr (hel _ h1 h2)⟩
    | OUT =>
      obtain ⟨h1, h2, rfl, rfl⟩ := hout.1 hi
      have := R.par_lt _ h1 h2
      exact ⟨by simp only; omega, by simp only; omega, .inr (hel _ h1 h2)⟩

end

theorem makeTree_ids (l : List Edge) : ∀ c ∈ makeTree l, c.1 < (makeTree l).length := by
  intro c hc
  obtain ⟨i, hi, rfl⟩ := List.getElem_of_mem hc
  simpa [makeTree] using hi

theorem makeTree_isTree {V : Nat} {l : List Edge} (h : IsTree V l) : IsTree V (gridEdges (makeTree l)) := by
  rw [gridEdges_makeTree]
  exact (sortEdges_samePairs l).isTree h

/-- **C04** (given root). For every tree and every root the program is produced, and
consists of exactly the required instructions in a valid order. -/
theorem makeProgram_isProgram (V : Nat) (edges : List Edge) (h : IsTree V edges) (root : Nat)
    (hr : root < V) :
    ∃ prog, makeProgram (makeTree edges) (some root) = .ok prog ∧
      IsProgram (makeTree edges) root prog := by
  obtain ⟨d, par, ch, eid, L, R, T, h1, -, h2⟩ := makeProgram_some (makeTree_isTree h) hr
  exact ⟨_, h2, isProgram_progOf R T h1 (makeTree_ids edges)⟩

/-- **C03**. For every tree `find_center_of_tree` returns a vertex of minimal
eccentricity. -/
theorem findCenter_isCenter (V : Nat) (edges : List Edge) (h : IsTree V edges) :
    ∃ c, findCenter (makeTree edges) = .ok c ∧ IsCenter V edges c := by
  obtain ⟨c, h1, h2, h3⟩ := findCenter_spec (makeTree_isTree h)
  have hadj : ∀ u v, Adj (gridEdges (makeTree edges)) u v ↔ Adj edges u v := by
    intro u v
    rw [gridEdges_makeTree]; exact (sortEdges_samePairs edges).adj u v
  have hwalk : ∀ n u v, Walk (gridEdges (makeTree edges)) n u v ↔ Walk edges n u v := by
    intro n u v
    constructor
    · intro hw
      induction hw with
      | nil u => exact .nil u
      | cons ha _ ih => exact .cons ((hadj _ _).1 ha) ih
    · intro hw
      induction hw with
      | nil u => exact .nil u
      | cons ha _ ih => exact .cons ((hadj _ _).2 ha) ih
  refine ⟨c, h1, h2, fun v hv n hn w hw => ?_⟩
  have := h3 v hv n (fun w hw => by
    obtain ⟨m, hm, hmw⟩ := hn w hw
    exact ⟨m, hm, (hwalk _ _ _).2 hmw⟩) w hw
  obtain ⟨m, hm, hmw⟩ := this
  exact ⟨m, hm, (hwalk _ _ _).1 hmw⟩

/-- **C04** (default root). Without a root the program is that for a centre. -/
theorem makeProgram_default (V : Nat) (edges : List Edge) (h : IsTree V edges) :
    ∃ root prog, makeProgram (makeTree edges) none = .ok prog ∧ IsCenter V edges root ∧
      IsProgram (makeTree edges) root prog := by
  obtain ⟨c, h1, h2⟩ := findCenter_isCenter V edges h
  obtain ⟨prog, h3, h4⟩ := makeProgram_isProgram V edges h c h2.1
  refine ⟨c, prog, ?_, h2, h4⟩
  rw [← h3]
  simp only [makeProgram, h1, bind, Except.bind]

/-- A tree on five vertices used as an example. -/
def exTree : List Edge := [(0, 1), (1, 2), (1, 3), (3, 4)]

theorem exTree_isTree : IsTree 5 exTree := isTree_of_smaller rfl (by decide) (by decide)

example : findCenter (makeTree exTree) = .ok 1 := by decide +kernel
example : makeProgram (makeTree exTree) (some 3) = .ok
    [⟨.UP, 2, 0, 0⟩, ⟨.UP, 0, 0, 0⟩, ⟨.UP, 4, 0, 0⟩, ⟨.UP, 1, 0, 0⟩, ⟨.IN, 1, 0, 0⟩, ⟨.IN, 1, 2, 1⟩,
      ⟨.UP, 3, 0, 0⟩, ⟨.IN, 3, 1, 2⟩, ⟨.IN, 3, 4, 3⟩, ⟨.ROOT, 3, 0, 0⟩, ⟨.DOWN, 3, 0, 0⟩,
      ⟨.OUT, 1, 3, 2⟩, ⟨.DOWN, 1, 0, 0⟩, ⟨.OUT, 4, 3, 3⟩, ⟨.DOWN, 4, 0, 0⟩, ⟨.OUT, 0, 1, 0⟩,
      ⟨.DOWN, 0, 0, 0⟩, ⟨.OUT, 2, 1, 1⟩, ⟨.DOWN, 2, 0, 0⟩] := by decide +kernel

end TreeCat
