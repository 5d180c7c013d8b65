import Mathlib.Data.List.Basic
import Mathlib.Data.List.Nodup
import Mathlib.Data.List.TakeDrop
import Mathlib.Data.Finset.Max
import Verif.Lemmas.Program

/-!
# Peeling leaves off a tree in queue order ends at a centre
-/

namespace TreeCat

open Spec

/-- Number of neighbours of `u` outside `S`. -/
def cntOut (nb : Nat → List Nat) (S : List Nat) (u : Nat) : Nat :=
  ((nb u).filter (· ∉ S)).length

/-- `P` lists the vertices in an order in which they can be peeled off as leaves,
first become leaf first peeled. -/
structure Peel (V : Nat) (nb : Nat → List Nat) (P : List Nat) : Prop where
  perm : P.Perm (List.range V)
  leaf : ∀ v < V, cntOut nb (P.take (P.idxOf v)) v ≤ 1
  fifo : ∀ t, ∀ u < V, ∀ v < V, P.idxOf u < P.idxOf v →
    cntOut nb (P.take t) v ≤ 1 → cntOut nb (P.take t) u ≤ 1

/-- `x` is in the subtree of `c`. -/
inductive Sub (V : Nat) (par : Nat → Nat) (r c : Nat) : Nat → Prop
  | refl : Sub V par r c c
  | step {x : Nat} : x < V → x ≠ r → Sub V par r c (par x) → Sub V par r c x

/-- Some vertex of the subtree of `c` is `k` levels below it. -/
def HeightGe (V : Nat) (par d : Nat → Nat) (r c k : Nat) : Prop :=
  ∃ x < V, Sub V par r c x ∧ d x = d c + k

section
variable {V : Nat} {edges : List (Nat × Nat)} {r : Nat} {d par : Nat → Nat}

theorem Sub.trans {a b c : Nat} (h : Sub V par r b c) (h' : Sub V par r a b) : Sub V par r a c := by
  induction h with
  | refl => exact h'
  | step h1 h2 _ ih => exact .step h1 h2 ih

theorem Sub.d_le (R : Rooted V edges r d par) {c x : Nat} (h : Sub V par r c x) : d c ≤ d x := by
  induction h with
  | refl => exact Nat.le_refl _
  | step h1 h2 _ ih => rw [R.d_par _ h1 h2]; omega

theorem HeightGe.child (R : Rooted V edges r d par) {c k : Nat} (h : HeightGe V par d r c (k + 1)) :
    ∃ b < V, b ≠ r ∧ par b = c ∧ HeightGe V par d r b k := by
  obtain ⟨x, hx, hs, hd⟩ := h
  -- the subtree member strictly below `c` passes through a child of `c`
  have key : ∀ x, Sub V par r c x → x = c ∨ ∃ b < V, b ≠ r ∧ par b = c ∧ Sub V par r b x := by
    intro x hs
    induction hs with
    | refl => exact .inl rfl
    | @step x h1 h2 h3 ih =>
      rcases ih with ih | ⟨b, hb1, hb2, hb3, hb4⟩
      · exact .inr ⟨x, h1, h2, ih, .refl⟩
      · exact .inr ⟨b, hb1, hb2, hb3, .step h1 h2 hb4⟩
  rcases key x hs with rfl | ⟨b, hb1, hb2, hb3, hb4⟩
  · omega
  · refine ⟨b, hb1, hb2, hb3, x, hx, hb4, ?_⟩
    rw [R.d_par b hb1 hb2, hb3]; omega

theorem HeightGe.parent (R : Rooted V edges r d par) {b k : Nat} (hb : b < V) (hbr : b ≠ r)
    (h : HeightGe V par d r b k) : HeightGe V par d r (par b) (k + 1) := by
  obtain ⟨x, hx, hs, hd⟩ := h
  refine ⟨x, hx, hs.trans (.step hb hbr .refl), ?_⟩
  rw [hd, R.d_par b hb hbr]; omega

theorem sub_root (R : Rooted V edges r d par) : ∀ n, ∀ x < V, d x = n → Sub V par r r x := by
  intro n
  induction n with
  | zero =>
    intro x hx hd
    by_cases h : x = r
    · subst h; exact .refl
    · have := R.d_pos hx h; omega
  | succ n ih =>
    intro x hx hd
    by_cases h : x = r
    · subst h; exact .refl
    · have := R.d_par x hx h
      exact .step hx h (ih _ (R.par_lt x hx h) (by omega))

/-- A walk that leaves the branch of a child `c` of the root passes the root. -/
theorem walk_through_root (R : Rooted V edges r d par) {c : Nat}
    (hpc : par c = r) {m v w : Nat} (hw : Walk edges m v w) (hv : v ≠ r) (hs : Sub V par r c v)
    (hn : ¬ Sub V par r c w) : d v + d w ≤ m := by
  have key : ∀ {m v w : Nat}, Walk edges m v w → v ≠ r → Sub V par r c v → ¬ Sub V par r c w →
      ∃ a b, a + b = m ∧ Walk edges a v r ∧ Walk edges b r w := by
    intro m v w hw
    induction hw with
    | nil u => intro _ h1 h2; exact absurd h1 h2
    | @cons n u x w ha hw ih =>
      intro hur hs hn
      by_cases hx : x = r
      · subst hx
        exact ⟨1, n, by omega, .cons ha (.nil _), hw⟩
      · have hsx : Sub V par r c x := by
          rcases R.edge _ _ ha with ⟨h1, h2⟩ | ⟨h1, h2⟩
          · cases hs with
            | refl => exact absurd (h2.symm.trans hpc) hx
            | step _ _ h3 => rw [h2] at h3; exact h3
          · exact .step (R.range _ _ ha).2 h1 (by rw [h2]; exact hs)
        obtain ⟨a, b, h1, h2, h3⟩ := ih hx hsx hn
        exact ⟨a + 1, b, by omega, .cons ha h2, h3⟩
  obtain ⟨a, b, h1, h2, h3⟩ := key hw hv hs hn
  have := R.short _ _ h2.symm
  have := R.short _ _ h3
  omega

/-! ### Peeling orders -/

theorem two_le_length {l : List Nat} {x y : Nat} (hx : x ∈ l) (hy : y ∈ l) (hxy : x ≠ y) :
    2 ≤ l.length := by
  have : [x, y].Subperm l := List.Nodup.subperm (by simp [hxy]) (by
    intro a ha
    simp only [List.mem_cons, List.not_mem_nil, or_false] at ha
    rcases ha with rfl | rfl <;> assumption)
  simpa using this.length_le

theorem length_le_one {l : List Nat} (hn : l.Nodup) (x : Nat) (h : ∀ y ∈ l, y = x) : l.length ≤ 1 := by
  have : l.Subperm [x] := hn.subperm fun y hy => by simpa using h y hy
  simpa using this.length_le

section
variable {nb : Nat → List Nat} {P : List Nat}

theorem Peel.nodup (hP : Peel V nb P) : P.Nodup := hP.perm.nodup_iff.2 List.nodup_range

theorem Peel.mem (hP : Peel V nb P) {v : Nat} : v ∈ P ↔ v < V := by
  rw [hP.perm.mem_iff, List.mem_range]

theorem Peel.not_mem_take (hP : Peel V nb P) {v t : Nat} (hv : v < V) :
    v ∉ P.take t ↔ t ≤ P.idxOf v := by
  have hm := hP.mem.2 hv
  have hl : P.idxOf v < P.length := List.idxOf_lt_length_iff.2 hm
  rw [← not_lt, not_iff_not]
  constructor
  · intro h
    obtain ⟨i, hi, hiv⟩ := List.getElem_of_mem h
    rw [List.getElem_take] at hiv
    rw [List.length_take] at hi
    have : P.idxOf v = i := by
      rw [← hiv]; exact List.Nodup.idxOf_getElem hP.nodup i (by omega)
    omega
  · intro h
    have h1 : P[P.idxOf v] = v := List.getElem_idxOf hl
    rw [← h1]
    exact List.mem_take_iff_getElem.2 ⟨P.idxOf v, by omega, rfl⟩

theorem Peel.inj (hP : Peel V nb P) {u v : Nat} (hu : u < V) (h : P.idxOf u = P.idxOf v) : u = v :=
  (List.idxOf_inj (hP.mem.2 hu)).1 h

theorem Peel.two_le (hP : Peel V nb P) (hnb : ∀ v < V, ∀ u, u ∈ nb v ↔ Adj edges v u)
    {t v x y : Nat} (hv : v < V) (hx : Adj edges v x) (hy : Adj edges v y) (hxV : x < V) (hyV : y < V)
    (hxy : x ≠ y) (htx : t ≤ P.idxOf x) (hty : t ≤ P.idxOf y) : 2 ≤ cntOut nb (P.take t) v := by
  unfold cntOut
  refine two_le_length (x := x) (y := y) ?_ ?_ hxy
  · rw [List.mem_filter]
    exact ⟨(hnb v hv x).2 hx, by simpa using (hP.not_mem_take hxV).2 htx⟩
  · rw [List.mem_filter]
    exact ⟨(hnb v hv y).2 hy, by simpa using (hP.not_mem_take hyV).2 hty⟩

theorem Peel.child_before (R : Rooted V edges r d par) (hP : Peel V nb P)
    (hnb : ∀ v < V, ∀ u, u ∈ nb v ↔ Adj edges v u) (hlast : ∀ v < V, P.idxOf v ≤ P.idxOf r)
    {v : Nat} (hv : v < V) (hvr : v ≠ r) : P.idxOf v < P.idxOf (par v) := by
  have up : ∀ t, ∀ v < V, v ≠ r → t ≤ P.idxOf v → t ≤ P.idxOf (par v) := by
    intro t
    induction t with
    | zero => intros; exact Nat.zero_le _
    | succ t ih =>
      intro v hv hvr ht
      have h1 := ih v hv hvr (by omega)
      have hp := R.par_lt v hv hvr
      by_contra hc
      have hpt : P.idxOf (par v) = t := by omega
      by_cases hpr : par v = r
      · have := hlast v hv
        rw [← hpr] at this; omega
      · have h2 := ih (par v) hp hpr (by omega)
        have hpp := R.par_lt _ hp hpr
        have hleaf := hP.leaf (par v) hp
        rw [hpt] at hleaf
        have := hP.two_le hnb (t := t) hp (R.par_adj v hv hvr).symm (R.par_adj _ hp hpr) hv hpp
          (by
            intro he
            have e1 := R.d_par v hv hvr
            have e2 := R.d_par _ hp hpr
            rw [← he] at e2; omega) (by omega) h2
        omega
  have h1 := up (P.idxOf v) v hv hvr (Nat.le_refl _)
  rcases Nat.lt_or_ge (P.idxOf v) (P.idxOf (par v)) with h | h
  · exact h
  · have := hP.inj hv (le_antisymm h1 h)
    have e1 := R.d_par v hv hvr
    rw [← this] at e1; omega

/-- Later vertices have subtrees at least as high. -/
theorem Peel.height_mono (R : Rooted V edges r d par) (hP : Peel V nb P)
    (hnd : ∀ v < V, (nb v).Nodup)
    (hnb : ∀ v < V, ∀ u, u ∈ nb v ↔ Adj edges v u) (hlast : ∀ v < V, P.idxOf v ≤ P.idxOf r) :
    ∀ k, ∀ u < V, ∀ v < V, u ≠ r → v ≠ r → P.idxOf u ≤ P.idxOf v → HeightGe V par d r u k →
      HeightGe V par d r v k := by
  intro k
  induction k with
  | zero => intro u _ v hv _ _ _ _; exact ⟨v, hv, .refl, rfl⟩
  | succ k ih =>
    intro u hu v hv hur hvr huv hh
    rcases Nat.eq_or_lt_of_le huv with huv | huv
    · rw [← hP.inj hu huv]; exact hh
    obtain ⟨c, hc, hcr, hpc, hck⟩ := hh.child R
    have hcu := hP.child_before R hnb hlast hc hcr
    rw [hpc] at hcu
    by_cases hex : ∃ c' < V, c' ≠ r ∧ par c' = v ∧ P.idxOf c ≤ P.idxOf c'
    · obtain ⟨c', hc', hcr', hpc', hle⟩ := hex
      have := (ih c hc c' hc' hcr hcr' hle hck).parent R hc' hcr'
      rwa [hpc'] at this
    · exfalso
      have hv1 : cntOut nb (P.take (P.idxOf c)) v ≤ 1 := by
        refine length_le_one ((hnd v hv).filter _) (par v) ?_
        intro y hy
        rw [List.mem_filter] at hy
        have hadj := (hnb v hv y).1 hy.1
        have hyV := (R.range _ _ hadj).2
        rcases R.edge _ _ hadj with ⟨-, h⟩ | ⟨h1, h2⟩
        · exact h.symm
        · exact absurd ⟨y, hyV, h1, h2, (hP.not_mem_take hyV).1 (by simpa using hy.2)⟩ hex
      have hu1 := hP.fifo (P.idxOf c) u hu v hv huv hv1
      have hpu := hP.child_before R hnb hlast hu hur
      have hca := R.par_adj c hc hcr
      rw [hpc] at hca
      have := hP.two_le hnb (t := P.idxOf c) hu hca.symm (R.par_adj u hu hur) hc (R.par_lt u hu hur)
        (by
          intro he
          have e1 := R.d_par c hc hcr
          have e2 := R.d_par u hu hur
          rw [hpc] at e1; rw [← he] at e2; omega) (Nat.le_refl _) (by omega)
      omega

/-- The last vertex of a peeling order is a centre. -/
theorem Peel.center (ht : IsTree V edges) (hP : Peel V nb P)
    (hnd : ∀ v < V, (nb v).Nodup) (hnb : ∀ v < V, ∀ u, u ∈ nb v ↔ Adj edges v u)
    (hr : r < V) (hlast : ∀ v < V, P.idxOf v ≤ P.idxOf r) : IsCenter V edges r := by
  classical
  obtain ⟨d, par, R⟩ := exists_rooted ht hr
  refine ⟨hr, fun v hv n hecc => ?_⟩
  intro w hw
  refine ⟨d w, ?_, R.walk w hw⟩
  cases hD : d w with
  | zero => omega
  | succ k =>
    -- a highest branch, at the latest child of the root
    have h0 : HeightGe V par d r r (k + 1) := ⟨w, hw, sub_root R _ w hw rfl, by rw [R.d_root]; omega⟩
    obtain ⟨c0, hc0, hc0r, hpc0, hk0⟩ := h0.child R
    let C := (Finset.range V).filter fun c => c ≠ r ∧ par c = r
    have hC : C.Nonempty := ⟨c0, by simp [C, hc0, hc0r, hpc0]⟩
    obtain ⟨c, hcC, hcmax⟩ := Finset.exists_max_image C (fun c => P.idxOf c) hC
    simp only [C, Finset.mem_filter, Finset.mem_range] at hcC hcmax
    obtain ⟨hc, hcr, hpc⟩ := hcC
    have hk : HeightGe V par d r c k := hP.height_mono R hnd hnb hlast k c0 hc0 c hc hc0r hcr
      (hcmax c0 ⟨hc0, hc0r, hpc0⟩) hk0
    have hdc : d c = 1 := by rw [R.d_par c hc hcr, hpc, R.d_root]
    have hrs : ¬ Sub V par r c r := by
      intro h; have := h.d_le R; rw [R.d_root] at this; omega
    by_cases hvs : Sub V par r c v
    · have hvr : v ≠ r := by rintro rfl; exact hrs hvs
      have hdv := R.d_pos hv hvr
      cases k with
      | zero =>
        obtain ⟨m, hm, hwalk⟩ := hecc r hr
        have := R.short _ _ hwalk.symm
        omega
      | succ k =>
        obtain ⟨g, hg, hgr, hpg, hgk⟩ := hk.child R
        have hgc := hP.child_before R hnb hlast hg hgr
        rw [hpg] at hgc
        have hcr' := hP.child_before R hnb hlast hc hcr
        rw [hpc] at hcr'
        by_cases hex : ∃ c2 < V, c2 ≠ r ∧ par c2 = r ∧ c2 ≠ c ∧ P.idxOf g ≤ P.idxOf c2
        · obtain ⟨c2, hc2, hc2r, hpc2, hne, hle⟩ := hex
          obtain ⟨x, hx, hxs, hxd⟩ := hP.height_mono R hnd hnb hlast k g hg c2 hc2 hgr hc2r hle hgk
          have hd2 : d c2 = 1 := by rw [R.d_par c2 hc2 hc2r, hpc2, R.d_root]
          have hxn : ¬ Sub V par r c x := by
            -- subtrees of different children of the root are disjoint
            have dis : ∀ x, Sub V par r c2 x → ¬ Sub V par r c x := by
              intro x hs
              induction hs with
              | refl =>
                intro h
                cases h with
                | refl => exact hne rfl
                | step _ _ h => rw [hpc2] at h; exact hrs h
              | @step x h1 h2 h3 ih =>
                intro h
                cases h with
                | refl =>
                  rw [hpc] at h3
                  have := h3.d_le R
                  rw [R.d_root] at this; omega
                | step _ _ h => exact ih h
            exact dis x hxs
          obtain ⟨m, hm, hwalk⟩ := hecc x hx
          have := walk_through_root R hpc hwalk hvr hvs hxn
          omega
        · exfalso
          have hr1 : cntOut nb (P.take (P.idxOf g)) r ≤ 1 := by
            refine length_le_one ((hnd r hr).filter _) c ?_
            intro y hy
            rw [List.mem_filter] at hy
            have hadj := (hnb r hr y).1 hy.1
            have hyV := (R.range _ _ hadj).2
            rcases R.edge _ _ hadj with ⟨h, -⟩ | ⟨h1, h2⟩
            · exact absurd rfl h
            · by_contra hyc
              exact hex ⟨y, hyV, h1, h2, hyc, (hP.not_mem_take hyV).1 (by simpa using hy.2)⟩
          have hc1 := hP.fifo (P.idxOf g) c hc r hr hcr' hr1
          have hga := R.par_adj g hg hgr
          rw [hpg] at hga
          have hca := R.par_adj c hc hcr
          rw [hpc] at hca
          have := hP.two_le hnb (t := P.idxOf g) hc hga.symm hca hg hr hgr (Nat.le_refl _) (by omega)
          omega
    · obtain ⟨x, hx, hxs, hxd⟩ := hk
      have hxr : x ≠ r := by rintro rfl; exact hrs hxs
      obtain ⟨m, hm, hwalk⟩ := hecc x hx
      have := walk_through_root R hpc hwalk.symm hxr hxs hvs
      omega

end

/-! ### The loop produces a peeling order -/

/-- Invariant of the main loop: `P` are the vertices popped, in order. -/
structure CenterInv (V : Nat) (nb : Nat → List Nat) (N : List (List Nat)) (P Q : List Nat) : Prop where
  nodup : (P ++ Q).Nodup
  lt : ∀ x ∈ P ++ Q, x < V
  len : N.length = V
  rows : ∀ u < V, u ∉ P → (N.getD u []).Perm ((nb u).filter (· ∉ P))
  hist : ∀ t ≤ P.length, ∃ m ≤ (P ++ Q).length, t ≤ m ∧ (t < P.length → t < m) ∧
    ∀ u < V, u ∈ (P ++ Q).take m ↔ cntOut nb (P.take t) u ≤ 1
  now : ∀ u < V, u ∈ P ++ Q ↔ cntOut nb P u ≤ 1

theorem centerInner_spec {V : Nat} (v : Nat) : ∀ (vs : List Nat) (N : List (List Nat)) (Q : List Nat),
    N.length = V → vs.Nodup → (∀ u ∈ vs, u < V ∧ v ∈ N.getD u []) →
    ∃ N', centerInner v vs (N, Q) = .ok (N', Q ++ vs.filter fun u => ((N.getD u []).erase v).length = 1) ∧
      N'.length = V ∧ ∀ u, N'.getD u [] = if u ∈ vs then (N.getD u []).erase v else N.getD u [] := by
  intro vs
  induction vs with
  | nil => intro N Q hl _ _; exact ⟨N, by simp [centerInner], hl, by simp⟩
  | cons v2 vs ih =>
    intro N Q hl hn hvs
    obtain ⟨hv2, hvm⟩ := hvs v2 (by simp)
    rw [List.nodup_cons] at hn
    have hget : pyGet N v2 = .ok (N.getD v2 []) := pyGet_eq_ok.2 (by
      rw [List.getD_eq_getElem?_getD, List.getElem?_eq_getElem (by omega)]; rfl)
    set N1 := N.set v2 ((N.getD v2 []).erase v) with hN1
    have hl1 : N1.length = V := by simp [hN1, hl]
    have g1 : ∀ u, N1.getD u [] = if u = v2 then (N.getD v2 []).erase v else N.getD u [] := by
      intro u
      simp only [hN1, List.getD_eq_getElem?_getD, List.getElem?_set]
      by_cases hu : u = v2
      · subst hu; simp [show u < N.length by omega]
      · simp [hu, Ne.symm hu]
    have hne : ∀ u ∈ vs, u ≠ v2 := by rintro u hu rfl; exact hn.1 hu
    obtain ⟨N', h1, h2, h3⟩ := ih N1 (if ((N.getD v2 []).erase v).length = 1 then Q ++ [v2] else Q) hl1
      hn.2 (fun u hu => by
        rw [g1, if_neg (hne u hu)]
        exact hvs u (by simp [hu]))
    refine ⟨N', ?_, h2, ?_⟩
    · simp only [centerInner, hget, bind, Except.bind, if_pos hvm, pySet_ok N v2 _ (by omega : v2 < N.length),
        ← hN1, h1]
      congr 2
      have hf : vs.filter (fun u => decide (((N1.getD u []).erase v).length = 1))
          = vs.filter fun u => decide (((N.getD u []).erase v).length = 1) := by
        apply List.filter_congr
        intro u hu
        rw [g1, if_neg (hne u hu)]
      rw [hf, List.filter_cons]
      by_cases hc : ((N.getD v2 []).erase v).length = 1
      · rw [if_pos hc, if_pos (decide_eq_true hc), List.append_assoc]; rfl
      · rw [if_neg hc, if_neg (by simpa using hc)]
    · intro u
      rw [h3, g1]
      by_cases hu : u = v2
      · subst hu; simp [hn.1]
      · simp [hu]

theorem CenterInv.step
    {nb : Nat → List Nat} (hnd : ∀ v < V, (nb v).Nodup)
    (hnb : ∀ v < V, ∀ u, u ∈ nb v ↔ Adj edges v u) (hr : ∀ u v, Adj edges u v → u < V ∧ v < V)
    {N : List (List Nat)} {P Q : List Nat} {v : Nat} (I : CenterInv V nb N P (v :: Q)) :
    ∃ N' Q', centerInner v (sortDesc (N.getD v [])) (N, Q) = .ok (N', Q') ∧
      CenterInv V nb N' (P ++ [v]) Q' := by
  have hv : v < V := I.lt v (by simp)
  have hvP : v ∉ P := by
    have := I.nodup
    rw [List.nodup_append] at this
    intro h; exact this.2.2 v h v (by simp) rfl
  have hrow := I.rows v hv hvP
  have hmem : ∀ u, u ∈ sortDesc (N.getD v []) ↔ Adj edges v u ∧ u ∉ P := by
    intro u
    unfold sortDesc
    rw [List.mem_insertionSort, hrow.mem_iff, List.mem_filter, hnb v hv]
    simp
  have hnodup : (sortDesc (N.getD v [])).Nodup :=
    (List.perm_insertionSort _ _).nodup_iff.2 (hrow.nodup_iff.2 ((hnd v hv).filter _))
  have hrow2 : ∀ u, Adj edges v u → u ∉ P → v ∈ N.getD u [] := by
    intro u ha hu
    have hu' := (hr _ _ ha).2
    rw [(I.rows u hu' hu).mem_iff, List.mem_filter, hnb u hu']
    exact ⟨ha.symm, by simpa using hvP⟩
  obtain ⟨N', h1, h2, h3⟩ := centerInner_spec v (sortDesc (N.getD v [])) N Q I.len hnodup
    (fun u hu => by
      obtain ⟨ha, hu'⟩ := (hmem u).1 hu
      exact ⟨(hr _ _ ha).2, hrow2 u ha hu'⟩)
  set new := (sortDesc (N.getD v [])).filter fun u => ((N.getD u []).erase v).length = 1 with hnew
  have hcnt : ∀ u < V, cntOut nb (P ++ [v]) u = if Adj edges v u then cntOut nb P u - 1
      else cntOut nb P u := by
    intro u hu
    unfold cntOut
    have hf : (nb u).filter (· ∉ P ++ [v]) = ((nb u).filter (· ∉ P)).filter (· != v) := by
      rw [List.filter_filter]
      apply List.filter_congr
      intro x _
      by_cases h1 : x ∈ P <;> by_cases h2 : x = v <;> simp [h1, h2]
    rw [hf, ← List.Nodup.erase_eq_filter ((hnd u hu).filter _), List.length_erase]
    by_cases ha : Adj edges v u
    · rw [if_pos ha, if_pos]
      rw [List.mem_filter, hnb u hu]
      exact ⟨ha.symm, by simpa using hvP⟩
    · rw [if_neg ha, if_neg]
      rw [List.mem_filter, hnb u hu]
      exact fun h => ha h.1.symm
  have hpos : ∀ u < V, Adj edges v u → 1 ≤ cntOut nb P u := by
    intro u hu ha
    unfold cntOut
    rw [Nat.one_le_iff_ne_zero, ne_eq, List.length_eq_zero_iff]
    intro h0
    have : v ∈ (nb u).filter (· ∉ P) := by
      rw [List.mem_filter, hnb u hu]
      exact ⟨ha.symm, by simpa using hvP⟩
    rw [h0] at this; simp at this
  have hlen : ∀ u, Adj edges v u → u ∉ P → ((N.getD u []).erase v).length = cntOut nb P u - 1 := by
    intro u ha hu
    rw [List.length_erase_of_mem (hrow2 u ha hu), (I.rows u (hr _ _ ha).2 hu).length_eq]
    rfl
  have hnewmem : ∀ u, u ∈ new ↔ (Adj edges v u ∧ u ∉ P) ∧ cntOut nb P u = 2 := by
    intro u
    rw [hnew, List.mem_filter, hmem]
    constructor
    · rintro ⟨⟨ha, hu⟩, h⟩
      have h' : ((N.getD u []).erase v).length = 1 := by simpa using h
      rw [hlen u ha hu] at h'
      exact ⟨⟨ha, hu⟩, by omega⟩
    · rintro ⟨⟨ha, hu⟩, h⟩
      refine ⟨⟨ha, hu⟩, ?_⟩
      have := hlen u ha hu
      rw [h] at this
      simpa using this
  have hnow : ∀ u < V, u ∈ P ++ [v] ++ (Q ++ new) ↔ cntOut nb (P ++ [v]) u ≤ 1 := by
    intro u hu
    have e : P ++ [v] ++ (Q ++ new) = (P ++ v :: Q) ++ new := by simp
    rw [e, List.mem_append, I.now u hu, hcnt u hu]
    by_cases ha : Adj edges v u
    · rw [if_pos ha]
      constructor
      · rintro (h | h)
        · omega
        · rw [((hnewmem u).1 h).2]
      · intro h
        by_cases h2 : cntOut nb P u ≤ 1
        · exact .inl h2
        · refine .inr ((hnewmem u).2 ⟨⟨ha, fun hP => h2 ?_⟩, by omega⟩)
          exact (I.now u hu).1 (List.mem_append_left _ hP)
    · rw [if_neg ha]
      constructor
      · rintro (h | h)
        · exact h
        · exact absurd ((hnewmem u).1 h).1.1 ha
      · exact .inl
  refine ⟨N', Q ++ new, h1, ?_, ?_, h2, ?_, ?_, hnow⟩
  · have e : P ++ [v] ++ (Q ++ new) = (P ++ v :: Q) ++ new := by simp
    rw [e, List.nodup_append]
    refine ⟨I.nodup, hnodup.filter _, ?_⟩
    rintro a ha b hb rfl
    have h := (hnewmem a).1 hb
    have := (I.now a (hr _ _ h.1.1).2).1 ha
    omega
  · intro x hx
    have e : P ++ [v] ++ (Q ++ new) = (P ++ v :: Q) ++ new := by simp
    rw [e, List.mem_append] at hx
    rcases hx with h | h
    · exact I.lt x h
    · exact (hr _ _ ((hnewmem x).1 h).1.1).2
  · intro u hu huP
    have hu1 : u ∉ P := fun h => huP (by simp [h])
    have hf : (nb u).filter (· ∉ P ++ [v]) = ((nb u).filter (· ∉ P)).filter (· != v) := by
      rw [List.filter_filter]
      apply List.filter_congr
      intro x _
      by_cases h1 : x ∈ P <;> by_cases h2 : x = v <;> simp [h1, h2]
    rw [h3, hf, ← List.Nodup.erase_eq_filter ((hnd u hu).filter _)]
    by_cases ha : u ∈ sortDesc (N.getD v [])
    · rw [if_pos ha]
      exact (I.rows u hu hu1).erase v
    · rw [if_neg ha, List.erase_of_not_mem]
      · exact I.rows u hu hu1
      · intro h
        rw [List.mem_filter, hnb u hu] at h
        exact ha ((hmem u).2 ⟨h.1.symm, hu1⟩)
  · intro t ht
    have e : P ++ [v] ++ (Q ++ new) = (P ++ v :: Q) ++ new := by simp
    rw [List.length_append, List.length_singleton] at ht
    rcases Nat.lt_or_ge t (P.length + 1) with hlt | hge
    · obtain ⟨m, hm, htm, htm', hmem'⟩ := I.hist t (by omega)
      have ht' : (P ++ [v]).take t = P.take t := by
        rw [List.take_append_of_le_length (by omega)]
      rcases Nat.lt_or_ge t P.length with h | h
      · refine ⟨m, by rw [e, List.length_append (as := P ++ v :: Q)]; omega, htm, fun _ => htm' h, ?_⟩
        intro u hu
        rw [e, List.take_append_of_le_length hm, ht']
        exact hmem' u hu
      · -- `t = |P|`: everything queued so far
        have htP : t = P.length := by omega
        refine ⟨(P ++ v :: Q).length, by rw [e, List.length_append (as := P ++ v :: Q)]; omega, ?_, ?_, ?_⟩
        · rw [List.length_append]; omega
        · intro _; rw [List.length_append, List.length_cons]; omega
        · intro u hu
          rw [e, List.take_left', ht', htP, List.take_length]
          · exact I.now u hu
          · rfl
    · have ht2 : t = (P ++ [v]).length := by rw [List.length_append, List.length_singleton]; omega
      refine ⟨(P ++ [v] ++ (Q ++ new)).length, Nat.le_refl _, ?_, ?_, ?_⟩
      · rw [List.length_append]; omega
      · intro h; omega
      · intro u hu
        rw [List.take_length, ht2, List.take_length]
        exact hnow u hu

theorem centerLoop_spec
    {nb : Nat → List Nat} (hnd : ∀ v < V, (nb v).Nodup)
    (hnb : ∀ v < V, ∀ u, u ∈ nb v ↔ Adj edges v u) (ht : IsTree V edges) :
    ∀ (fuel : Nat) (N : List (List Nat)) (P Q : List Nat), CenterInv V nb N P Q → V ≤ fuel + P.length →
      ∃ c P', centerLoop fuel N Q P.getLast? = .ok c ∧ Peel V nb P' ∧ P'.getLast? = some c := by
  have hr : ∀ u v, Adj edges u v → u < V ∧ v < V := fun u v h => h.lt ht.range
  have hV : 0 < V := by have := ht.card; omega
  -- while vertices remain, one of them is a leaf
  have live : ∀ N P Q, CenterInv V nb N P Q → Q = [] → ∀ v < V, v ∈ P := by
    intro N P Q I hQ
    subst hQ
    obtain ⟨d, par, R⟩ := exists_rooted ht hV
    by_contra hc
    push Not at hc
    obtain ⟨v, hv, hvP⟩ := hc
    let C := (Finset.range V).filter fun v => v ∉ P
    have hC : C.Nonempty := ⟨v, by simp [C, hv, hvP]⟩
    obtain ⟨u, huC, humax⟩ := Finset.exists_max_image C d hC
    simp only [C, Finset.mem_filter, Finset.mem_range] at huC humax
    have : u ∈ P ++ [] := by
      rw [I.now u huC.1]
      refine length_le_one ((hnd u huC.1).filter _) (par u) ?_
      intro y hy
      rw [List.mem_filter] at hy
      have hadj := (hnb u huC.1 y).1 hy.1
      have hyV := (R.range _ _ hadj).2
      rcases R.edge _ _ hadj with ⟨-, h⟩ | ⟨h1, h2⟩
      · exact h.symm
      · have e1 := humax y ⟨hyV, by simpa using hy.2⟩
        have e2 := R.d_par y hyV h1
        rw [h2] at e2; omega
    exact huC.2 (by simpa using this)
  have fin : ∀ N P, CenterInv V nb N P [] →
      ∃ c P', (∀ fuel, centerLoop fuel N [] P.getLast? = .ok c) ∧ Peel V nb P' ∧ P'.getLast? = some c := by
    intro N P I
    have hall := live N P [] I rfl
    have hn : P.Nodup := by simpa using I.nodup
    have hperm : P.Perm (List.range V) :=
      perm_range_of hn fun x => ⟨fun h => I.lt x (by simpa using h), hall x⟩
    obtain ⟨c, hc⟩ : ∃ c, P.getLast? = some c := by
      cases hP : P.getLast? with
      | some c => exact ⟨c, rfl⟩
      | none =>
        rw [List.getLast?_eq_none_iff] at hP
        have := hall 0 hV
        rw [hP] at this; simp at this
    have htake : ∀ t, P.take t = P.take (min t P.length) := by
      intro t
      rcases Nat.le_total t P.length with h | h
      · rw [Nat.min_eq_left h]
      · rw [Nat.min_eq_right h, List.take_length, List.take_of_length_le h]
    have hpos : ∀ v < V, ∀ m, v ∈ P.take m ↔ P.idxOf v < m := fun v hv m =>
      List.mem_take_iff_idxOf_lt (hall v hv)
    refine ⟨c, P, fun fuel => by rw [hc]; cases fuel <;> rfl, ⟨hperm, ?_, ?_⟩, hc⟩
    · intro v hv
      have hlt : P.idxOf v < P.length := List.idxOf_lt_length_iff.2 (hall v hv)
      obtain ⟨m, -, -, hm, hmem⟩ := I.hist (P.idxOf v) (by omega)
      rw [← hmem v hv, List.append_nil, hpos v hv]
      exact hm hlt
    · intro t u hu v hv huv h
      rw [htake] at h ⊢
      obtain ⟨m, -, -, -, hmem⟩ := I.hist (min t P.length) (Nat.min_le_right _ _)
      rw [← hmem v hv, List.append_nil, hpos v hv] at h
      rw [← hmem u hu, List.append_nil, hpos u hu]
      omega
  intro fuel
  induction fuel with
  | zero =>
    intro N P Q I hf
    cases Q with
    | nil =>
      obtain ⟨c, P', h1, h2, h3⟩ := fin N P I
      exact ⟨c, P', h1 0, h2, h3⟩
    | cons v Q =>
      have := length_le_of_nodup_lt I.nodup I.lt
      simp at this; omega
  | succ fuel ih =>
    intro N P Q I hf
    cases Q with
    | nil =>
      obtain ⟨c, P', h1, h2, h3⟩ := fin N P I
      exact ⟨c, P', h1 _, h2, h3⟩
    | cons v Q =>
      obtain ⟨N', Q', h1, I'⟩ := I.step hnd hnb hr
      obtain ⟨c, P', h2, h3, h4⟩ := ih N' (P ++ [v]) Q' I' (by simp; omega)
      refine ⟨c, P', ?_, h3, h4⟩
      have hv : v < V := I.lt v (by simp)
      have hget : pyGet N v = .ok (N.getD v []) := pyGet_eq_ok.2 (by
        rw [List.getD_eq_getElem?_getD, List.getElem?_eq_getElem (by rw [I.len]; exact hv)]; rfl)
      rw [List.getLast?_append] at h2
      simp only [List.getLast?_singleton, Option.some_or] at h2
      simp only [centerLoop, hget, bind, Except.bind, h1]
      exact h2

theorem findCenter_spec {V : Nat} {grid : Grid} (ht : IsTree V (gridEdges grid)) :
    ∃ c, findCenter grid = .ok c ∧ IsCenter V (gridEdges grid) c := by
  have hV : 1 + grid.length = V := by
    have := ht.card; simp only [gridEdges, List.length_map] at this; omega
  obtain ⟨N, hN1, hN⟩ := buildNeighbors_spec V (gridEdges grid) ht.range
  let nb : Nat → List Nat := fun v => N.getD v []
  set Q := (List.range V).reverse.filter fun v => (N.getD v []).length ≤ 1 with hQ
  have hQm : ∀ u, u ∈ Q ↔ u < V ∧ (nb u).length ≤ 1 := by
    intro u; simp [hQ, nb]
  have hc0 : ∀ u, cntOut nb [] u = (nb u).length := by
    intro u; simp [cntOut]
  have I0 : CenterInv V nb N [] Q := by
    refine ⟨?_, ?_, hN.length, ?_, ?_, ?_⟩
    · exact (List.nodup_reverse.2 List.nodup_range).filter _
    · intro x hx; exact ((hQm x).1 hx).1
    · intro u _ _; simp [nb]
    · intro t ht
      simp only [List.length_nil, Nat.le_zero_eq] at ht
      subst ht
      refine ⟨Q.length, by simp, Nat.zero_le _, by simp, ?_⟩
      intro u hu
      rw [List.nil_append, List.take_length, List.take_nil, hc0, hQm]
      exact ⟨fun h => h.2, fun h => ⟨hu, h⟩⟩
    · intro u hu
      rw [List.nil_append, hc0, hQm]
      exact ⟨fun h => h.2, fun h => ⟨hu, h⟩⟩
  obtain ⟨c, P, h1, h2, h3⟩ := centerLoop_spec (edges := gridEdges grid) hN.nodup hN.mem ht V N [] Q I0
    (by simp)
  refine ⟨c, ?_, ?_⟩
  · subst hV
    simp only [findCenter, hN1, bind, Except.bind]
    exact h1
  · have hcP : c ∈ P := List.mem_of_getLast? h3
    refine h2.center ht hN.nodup hN.mem (h2.mem.1 hcP) ?_
    intro v hv
    have hlt : P.idxOf v < P.length := List.idxOf_lt_length_iff.2 (h2.mem.2 hv)
    have hlc : P.idxOf c = P.length - 1 := by
      rw [List.getLast?_eq_getElem?] at h3
      have h4 : P.length - 1 < P.length := by omega
      rw [List.getElem?_eq_getElem h4, Option.some.injEq] at h3
      rw [← h3]
      exact List.Nodup.idxOf_getElem h2.nodup _ h4
    omega

end

end TreeCat
