import Verif.Lemmas.Center

/-!
# Depth first search of a tree

`print_tree` and `order_vertices` share one loop: look for an unseen neighbour of the
top of the stack, push it, and otherwise finish and pop the top.
-/

namespace TreeCat

open Spec

/-- The common loop. `fin v k` finishes vertex `v` when `k` vertices are left on the
stack. -/
def dfs {S : Type} (iter : Nat → List Nat) (fin : Nat → Nat → S → Py S) :
    Nat → List Nat → List Nat → S → Py S
  | _, [], _, st => .ok st
  | 0, _ :: _, _, _ => .error .timeout
  | fuel + 1, v :: stack, seen, st =>
    match (iter v).find? fun n => n ∉ seen with
    | some n => dfs iter fin fuel (n :: v :: stack) (n :: seen) st
    | none => do
      let st ← fin v stack.length st
      dfs iter fin fuel stack seen st

/-- Children in the order of iteration. -/
def kids (iter : Nat → List Nat) (d : Nat → Nat) (v : Nat) : List Nat :=
  (iter v).filter fun u => decide (d v < d u)

/-- Vertices of the subtree of `v`, to depth `n`, children before parents. -/
def post (iter : Nat → List Nat) (d : Nat → Nat) : Nat → Nat → List Nat
  | 0, v => [v]
  | n + 1, v => (kids iter d v).flatMap (post iter d n) ++ [v]

section
variable {V : Nat} {edges : List (Nat × Nat)} {r : Nat} {d par : Nat → Nat} {iter : Nat → List Nat}

theorem Rooted.d_lt_V (R : Rooted V edges r d par) : ∀ v < V, d v < V := by
  intro v hv
  exact R.d_lt hv

theorem mem_kids (R : Rooted V edges r d par) (hiter : ∀ v < V, ∀ u, u ∈ iter v ↔ Adj edges v u) {v : Nat}
    (hv : v < V) (u : Nat) : u ∈ kids iter d v ↔ u < V ∧ u ≠ r ∧ par u = v := by
  unfold kids
  rw [List.mem_filter, hiter v hv, decide_eq_true_iff]
  constructor
  · rintro ⟨h1, h2⟩
    rcases R.edge _ _ h1 with ⟨h3, h4⟩ | ⟨h3, h4⟩
    · have := R.d_par v hv h3
      rw [h4] at this; omega
    · exact ⟨(R.range _ _ h1).2, h3, h4⟩
  · rintro ⟨h1, h2, rfl⟩
    refine ⟨(R.par_adj u h1 h2).symm, ?_⟩
    rw [R.d_par u h1 h2]; omega

theorem sub_cases {c x : Nat} (h : Sub V par r c x) :
    x = c ∨ ∃ b < V, b ≠ r ∧ par b = c ∧ Sub V par r b x := by
  induction h with
  | refl => exact .inl rfl
  | step h1 h2 h3 ih =>
    rename_i x
    rcases ih with h | ⟨b, hb, hbr, hp, hs⟩
    · exact .inr ⟨x, h1, h2, h, .refl⟩
    · exact .inr ⟨b, hb, hbr, hp, .step h1 h2 hs⟩

theorem sub_lt {c x : Nat} (hc : c < V) (h : Sub V par r c x) : x < V := by
  cases h with
  | refl => exact hc
  | step h1 _ _ => exact h1

/-- Two subtrees that meet are nested. -/
theorem sub_nested {a b x : Nat} (ha : Sub V par r a x) (hb : Sub V par r b x) :
    Sub V par r a b ∨ Sub V par r b a := by
  induction ha with
  | refl => exact .inr hb
  | step h1 h2 h3 ih =>
    cases hb with
    | refl => exact .inl (.step h1 h2 h3)
    | step _ _ hb => exact ih hb

theorem sub_sibling (R : Rooted V edges r d par) {a b x : Nat} (ha : a < V) (hb : b < V) (har : a ≠ r)
    (hbr : b ≠ r) (hp : par a = par b) (h1 : Sub V par r a x) (h2 : Sub V par r b x) : a = b := by
  have hd : d a = d b := by rw [R.d_par a ha har, R.d_par b hb hbr, hp]
  have key : ∀ {a b : Nat}, a < V → b < V → d a = d b → Sub V par r a b → a = b := by
    intro a b ha hb hd h
    rcases sub_cases h with h | ⟨c, hc, hcr, hpc, hs⟩
    · exact h.symm
    · have := R.d_par c hc hcr
      have := hs.d_le R
      rw [hpc] at *; omega
  rcases sub_nested h1 h2 with h | h
  · exact key ha hb hd h
  · exact (key hb ha hd.symm h).symm

theorem mem_post (R : Rooted V edges r d par) (hiter : ∀ v < V, ∀ u, u ∈ iter v ↔ Adj edges v u) :
    ∀ n v, v < V → V ≤ d v + n → ∀ x, x ∈ post iter d n v ↔ Sub V par r v x := by
  intro n
  induction n with
  | zero => intro v hv hn; have := R.d_lt_V v hv; omega
  | succ n ih =>
    intro v hv hn x
    simp only [post, List.mem_append, List.mem_flatMap, List.mem_singleton]
    constructor
    · rintro (⟨c, hc, hx⟩ | rfl)
      · obtain ⟨h1, h2, h3⟩ := (mem_kids R hiter hv c).1 hc
        have := R.d_par c h1 h2
        rw [ih c h1 (by rw [h3] at this; omega)] at hx
        exact hx.trans (.step h1 h2 (by rw [h3]; exact .refl))
      · exact .refl
    · intro h
      rcases sub_cases h with rfl | ⟨c, hc, hcr, hp, hs⟩
      · exact .inr rfl
      · refine .inl ⟨c, (mem_kids R hiter hv c).2 ⟨hc, hcr, hp⟩, ?_⟩
        have := R.d_par c hc hcr
        rw [ih c hc (by rw [hp] at this; omega)]
        exact hs

theorem nodup_post (R : Rooted V edges r d par) (hiter : ∀ v < V, ∀ u, u ∈ iter v ↔ Adj edges v u)
    (hnd : ∀ v < V, (iter v).Nodup) : ∀ n v, v < V → V ≤ d v + n → (post iter d n v).Nodup := by
  intro n
  induction n with
  | zero => intro v hv hn; have := R.d_lt_V v hv; omega
  | succ n ih =>
    intro v hv hn
    have hk := fun c => mem_kids R hiter hv c
    have hdc : ∀ c ∈ kids iter d v, c < V ∧ V ≤ d c + n ∧ d c = d v + 1 := by
      intro c hc
      obtain ⟨h1, h2, h3⟩ := (hk c).1 hc
      have := R.d_par c h1 h2
      rw [h3] at this
      exact ⟨h1, by omega, this⟩
    simp only [post]
    rw [List.nodup_append]
    refine ⟨?_, by simp, ?_⟩
    · rw [List.nodup_flatMap]
      refine ⟨fun c hc => ih c (hdc c hc).1 (hdc c hc).2.1, ?_⟩
      have hkn : (kids iter d v).Nodup := (hnd v hv).filter _
      refine hkn.imp_of_mem ?_
      intro a b ha hb hab
      rw [Function.onFun, List.disjoint_left]
      intro x hxa hxb
      rw [mem_post R hiter n a (hdc a ha).1 (hdc a ha).2.1] at hxa
      rw [mem_post R hiter n b (hdc b hb).1 (hdc b hb).2.1] at hxb
      obtain ⟨a1, a2, a3⟩ := (hk a).1 ha
      obtain ⟨b1, b2, b3⟩ := (hk b).1 hb
      exact hab (sub_sibling R a1 b1 a2 b2 (a3.trans b3.symm) hxa hxb)
    · rintro x hx y hy rfl
      rw [List.mem_singleton] at hy
      subst hy
      obtain ⟨c, hc, hx⟩ := List.mem_flatMap.1 hx
      rw [mem_post R hiter n c (hdc c hc).1 (hdc c hc).2.1] at hx
      have := hx.d_le R
      have := (hdc c hc).2.2
      omega

theorem post_root_perm (R : Rooted V edges r d par) (hiter : ∀ v < V, ∀ u, u ∈ iter v ↔ Adj edges v u)
    (hnd : ∀ v < V, (iter v).Nodup) : (post iter d V r).Perm (List.range V) := by
  rw [List.perm_ext_iff_of_nodup (nodup_post R hiter hnd V r R.root_lt (by omega)) List.nodup_range]
  intro x
  rw [mem_post R hiter V r R.root_lt (by omega), List.mem_range]
  exact ⟨fun h => sub_lt R.root_lt h, fun h => sub_root R _ x h rfl⟩

theorem post_length_pos (n v : Nat) : 0 < (post iter d n v).length := by
  cases n <;> simp [post]

theorem find?_append_unseen {A B : List Nat} {seen : List Nat} (hA : ∀ a ∈ A, a ∈ seen) :
    (A ++ B).find? (fun n => n ∉ seen) = B.find? fun n => n ∉ seen := by
  rw [List.find?_append, List.find?_eq_none.2 (by simpa using hA)]
  rfl

theorem foldlM_congr {S : Type} : ∀ (l : List Nat) (f g : S → Nat → Py S), (∀ u ∈ l, ∀ st, f st u = g st u) →
    ∀ st, l.foldlM f st = l.foldlM g st := by
  intro l
  induction l with
  | nil => intros; rfl
  | cons a l ih =>
    intro f g h st
    rw [List.foldlM_cons, List.foldlM_cons, h a (by simp)]
    congr 1
    funext st'
    exact ih f g (fun u hu => h u (List.mem_cons_of_mem _ hu)) st'

variable {S : Type} {fin : Nat → Nat → S → Py S}

/-- The loop finishes the vertices of each subtree in `post` order. -/
theorem dfs_spec (R : Rooted V edges r d par) (hiter : ∀ v < V, ∀ u, u ∈ iter v ↔ Adj edges v u)
    (hnd : ∀ v < V, (iter v).Nodup) :
    ∀ n v, v < V → V ≤ d v + n → ∀ (rest seen : List Nat) (fuel : Nat),
      (∀ x, Sub V par r v x → (x ∈ seen ↔ x = v)) → (v ≠ r → par v ∈ seen) →
      ∃ seen', (∀ x, x ∈ seen' ↔ x ∈ seen ∨ Sub V par r v x) ∧ ∀ st : S,
        dfs iter fin (fuel + (2 * (post iter d n v).length - 1)) (v :: rest) seen st
          = ((post iter d n v).foldlM (fun st u => fin u (rest.length + (d u - d v)) st) st >>=
              fun st => dfs iter fin fuel rest seen' st) := by
  intro n
  induction n with
  | zero => intro v hv hn; have := R.d_lt_V v hv; omega
  | succ n ih =>
    intro v hv hn rest seen fuel hsub hpar
    have hk := fun c => mem_kids R hiter hv c
    have hdc : ∀ c, c < V → c ≠ r → par c = v → V ≤ d c + n ∧ d c = d v + 1 := by
      intro c h1 h2 h3
      have := R.d_par c h1 h2
      rw [h3] at this
      exact ⟨by omega, this⟩
    have inner : ∀ (B A : List Nat) (seen : List Nat), iter v = A ++ B → (∀ a ∈ A, a ∈ seen) →
        v ∈ seen → (v ≠ r → par v ∈ seen) →
        (∀ c ∈ B, c ∈ kids iter d v → ∀ x, Sub V par r c x → x ∉ seen) →
        ∃ seen', (∀ x, x ∈ seen' ↔ x ∈ seen ∨ ∃ c ∈ B, c ∈ kids iter d v ∧ Sub V par r c x) ∧ ∀ st : S,
          dfs iter fin (fuel + (2 * ((B.filter fun u => decide (d v < d u)).flatMap (post iter d n)).length + 1))
              (v :: rest) seen st
            = (((B.filter fun u => decide (d v < d u)).flatMap (post iter d n) ++ [v]).foldlM
                (fun st u => fin u (rest.length + (d u - d v)) st) st >>=
                fun st => dfs iter fin fuel rest seen' st) := by
      intro B
      induction B with
      | nil =>
        intro A seen hAB hA hvs hps _
        refine ⟨seen, by simp, fun st => ?_⟩
        have hf : (iter v).find? (fun n => n ∉ seen) = none := by
          rw [hAB, find?_append_unseen hA]; rfl
        simp only [List.filter_nil, List.flatMap_nil, List.length_nil, List.nil_append, Nat.mul_zero,
          Nat.zero_add]
        rw [dfs, hf]
        simp only [List.foldlM_cons, List.foldlM_nil, Nat.sub_self, Nat.add_zero, bind, Except.bind]
        cases fin v rest.length st <;> rfl
      | cons b B ihB =>
        intro A seen hAB hA hvs hps hun
        have hbi : b ∈ iter v := by rw [hAB]; simp
        by_cases hb : d v < d b
        · have hbk : b ∈ kids iter d v := List.mem_filter.2 ⟨hbi, by simpa using hb⟩
          obtain ⟨b1, b2, b3⟩ := (hk b).1 hbk
          obtain ⟨hbn, hbd⟩ := hdc b b1 b2 b3
          have hbs : b ∉ seen := hun b (by simp) hbk b .refl
          have hf : (iter v).find? (fun n => n ∉ seen) = some b := by
            rw [hAB, find?_append_unseen hA, List.find?_cons_of_pos (by simpa using hbs)]
          rw [List.filter_cons_of_pos (by simpa using hb), List.flatMap_cons]
          set F := (B.filter fun u => decide (d v < d u)).flatMap (post iter d n) with hF
          have hlen := post_length_pos (iter := iter) (d := d) n b
          obtain ⟨seen1, h1, h2⟩ := ih b b1 hbn (v :: rest) (b :: seen) (fuel + (2 * F.length + 1))
            (by
              intro x hx
              rw [List.mem_cons]
              exact ⟨fun h => h.resolve_right (hun b (by simp) hbk x hx), .inl⟩)
            (fun _ => by rw [b3]; exact List.mem_cons_of_mem _ hvs)
          have hkn : (iter v).Nodup := hnd v hv
          have hbB : b ∉ B := by
            rw [hAB, List.nodup_append] at hkn
            exact (List.nodup_cons.1 hkn.2.1).1
          have hseen : ∃ seen', (∀ x, x ∈ seen' ↔ x ∈ seen1 ∨ ∃ c ∈ B, c ∈ kids iter d v ∧ Sub V par r c x) ∧
              ∀ st1 : S, dfs iter fin (fuel + (2 * F.length + 1)) (v :: rest) seen1 st1
                = ((F ++ [v]).foldlM (fun st u => fin u (rest.length + (d u - d v)) st) st1 >>=
                    fun st => dfs iter fin fuel rest seen' st) := by
            apply ihB (A ++ [b]) seen1 (by rw [hAB]; simp)
            · intro a ha
              rw [h1]
              rcases List.mem_append.1 ha with ha | ha
              · exact .inl (List.mem_cons_of_mem _ (hA a ha))
              · rw [List.mem_singleton] at ha; subst ha
                exact .inr .refl
            · rw [h1]; exact .inl (List.mem_cons_of_mem _ hvs)
            · intro hvr
              rw [h1]; exact .inl (List.mem_cons_of_mem _ (hps hvr))
            · intro c hc hck x hx
              rw [h1, List.mem_cons]
              obtain ⟨c1, c2, c3⟩ := (hk c).1 hck
              have hbx : ¬ Sub V par r b x := by
                intro hbx
                have := sub_sibling R c1 b1 c2 b2 (c3.trans b3.symm) hx hbx
                subst this; exact hbB hc
              rintro ((rfl | h) | h)
              · exact hbx .refl
              · exact hun c (List.mem_cons_of_mem _ hc) hck x hx h
              · exact hbx h
          obtain ⟨seen', h3, h4⟩ := hseen
          refine ⟨seen', ?_, ?_⟩
          · intro x
            rw [h3, h1, List.mem_cons]
            constructor
            · rintro (((rfl | h) | h) | ⟨c, hc, hck, hs⟩)
              · exact .inr ⟨x, by simp, hbk, .refl⟩
              · exact .inl h
              · exact .inr ⟨b, by simp, hbk, h⟩
              · exact .inr ⟨c, List.mem_cons_of_mem _ hc, hck, hs⟩
            · rintro (h | ⟨c, hc, hck, hs⟩)
              · exact .inl (.inl (.inr h))
              · rcases List.mem_cons.1 hc with rfl | hc
                · exact .inl (.inr hs)
                · exact .inr ⟨c, hc, hck, hs⟩
          · intro st
            have hfuel : fuel + (2 * (post iter d n b ++ F).length + 1)
                = (fuel + (2 * F.length + 1) + (2 * (post iter d n b).length - 1)) + 1 := by
              rw [List.length_append]; omega
            rw [hfuel, dfs, hf]
            simp only
            rw [h2, List.append_assoc, List.foldlM_append]
            have hcg := foldlM_congr (post iter d n b)
              (fun st u => fin u ((v :: rest).length + (d u - d b)) st)
              (fun st u => fin u (rest.length + (d u - d v)) st) (by
                intro u hu st
                rw [mem_post R hiter n b b1 hbn] at hu
                have := hu.d_le R
                have hidx : (v :: rest).length + (d u - d b) = rest.length + (d u - d v) := by
                  rw [List.length_cons]; omega
                simp only [hidx]) st
            rw [hcg, bind_assoc]
            congr 1
            funext st1
            exact h4 st1
        · have hb' : b ∈ seen := by
            rcases R.edge _ _ ((hiter v hv b).1 hbi) with ⟨h3, h4⟩ | ⟨h3, h4⟩
            · rw [← h4]; exact hps h3
            · have := R.d_par b (R.range _ _ ((hiter v hv b).1 hbi)).2 h3
              rw [h4] at this; omega
          rw [List.filter_cons_of_neg (by simpa using hb)]
          obtain ⟨seen', h1, h2⟩ := ihB (A ++ [b]) seen (by rw [hAB]; simp) (by
            intro a ha
            rcases List.mem_append.1 ha with ha | ha
            · exact hA a ha
            · rw [List.mem_singleton] at ha; subst ha; exact hb') hvs hps
            (fun c hc => hun c (List.mem_cons_of_mem _ hc))
          refine ⟨seen', fun x => ?_, h2⟩
          rw [h1]
          refine or_congr_right ⟨?_, ?_⟩
          · rintro ⟨c, hc, h⟩; exact ⟨c, List.mem_cons_of_mem _ hc, h⟩
          · rintro ⟨c, hc, hck, h⟩
            rcases List.mem_cons.1 hc with rfl | hc
            · exact absurd (by simpa using (List.mem_filter.1 hck).2) hb
            · exact ⟨c, hc, hck, h⟩
    obtain ⟨seen', h1, h2⟩ := inner (iter v) [] seen rfl (by simp) ((hsub v .refl).2 rfl) hpar (by
      intro c _ hck x hx hxs
      obtain ⟨c1, c2, c3⟩ := (hk c).1 hck
      have hvx : Sub V par r v x := hx.trans (.step c1 c2 (by rw [c3]; exact .refl))
      have hxv := (hsub x hvx).1 hxs
      have h3 := hx.d_le R
      have h4 := (hdc c c1 c2 c3).2
      rw [hxv] at h3; omega)
    refine ⟨seen', fun x => ?_, fun st => ?_⟩
    · rw [h1]
      constructor
      · rintro (h | ⟨c, -, hck, hs⟩)
        · exact .inl h
        · obtain ⟨c1, c2, c3⟩ := (hk c).1 hck
          exact .inr (hs.trans (.step c1 c2 (by rw [c3]; exact .refl)))
      · rintro (h | h)
        · exact .inl h
        · rcases sub_cases h with rfl | ⟨c, c1, c2, c3, hs⟩
          · exact .inl ((hsub x .refl).2 rfl)
          · have hck := (hk c).2 ⟨c1, c2, c3⟩
            exact .inr ⟨c, (List.mem_filter.1 hck).1, hck, hs⟩
    · have h3 := h2 st
      have hfuel : 2 * (post iter d (n + 1) v).length - 1
          = 2 * (((iter v).filter fun u => decide (d v < d u)).flatMap (post iter d n)).length + 1 := by
        simp only [post, kids, List.length_append, List.length_singleton]
        omega
      rw [hfuel]
      exact h3
/-- The whole search, from the root. -/
theorem dfs_root (R : Rooted V edges r d par) (hiter : ∀ v < V, ∀ u, u ∈ iter v ↔ Adj edges v u)
    (hnd : ∀ v < V, (iter v).Nodup) (st : S) :
    dfs iter fin (2 * V) [r] [r] st = (post iter d V r).foldlM (fun st u => fin u (d u) st) st := by
  have hlen : (post iter d V r).length = V := by
    rw [(post_root_perm R hiter hnd).length_eq, List.length_range]
  have hV := R.root_lt
  obtain ⟨seen', -, h⟩ := dfs_spec (fin := fin) R hiter hnd V r R.root_lt (by omega) [] [r] 1 (by
    intro x _; simp) (by simp)
  have h2 := h st
  have hf : 1 + (2 * (post iter d V r).length - 1) = 2 * V := by rw [hlen]; omega
  rw [hf] at h2
  rw [h2]
  simp only [List.length_nil, Nat.zero_add, R.d_root, Nat.sub_zero]
  cases (post iter d V r).foldlM (fun st u => fin u (d u) st) st <;> rfl

end

end TreeCat
