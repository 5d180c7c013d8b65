import Verif.Spec.Outline
import Verif.Lemmas.Dfs
import Verif.Props.Program

/-!
# C10: `print_tree`
-/

namespace TreeCat

open Spec

theorem dictNeighbors_spec (edges : List Edge) (v : Nat) :
    (dictNeighbors edges v).Nodup ∧ ∀ u, u ∈ dictNeighbors edges v ↔ Adj edges v u := by
  have key : ∀ (edges : List Edge) (s : List Nat), s.Nodup →
      (edges.foldl (fun s e =>
        let s := if e.1 = v then setAdd s e.2 else s
        if e.2 = v then setAdd s e.1 else s) s).Nodup ∧
      ∀ u, u ∈ edges.foldl (fun s e =>
        let s := if e.1 = v then setAdd s e.2 else s
        if e.2 = v then setAdd s e.1 else s) s ↔ u ∈ s ∨ Adj edges v u := by
    intro edges
    induction edges with
    | nil => intro s hs; exact ⟨hs, by simp [Adj]⟩
    | cons e edges ih =>
      intro s hs
      obtain ⟨a, b⟩ := e
      rw [List.foldl_cons]
      set s1 := if a = v then setAdd s b else s with h1
      set s2 := if b = v then setAdd s1 a else s1 with h2
      have hs1 : s1.Nodup := by rw [h1]; split; exacts [nodup_setAdd _ _ hs, hs]
      have hs2 : s2.Nodup := by rw [h2]; split; exacts [nodup_setAdd _ _ hs1, hs1]
      obtain ⟨h3, h4⟩ := ih s2 hs2
      refine ⟨h3, fun u => ?_⟩
      refine (h4 u).trans ?_
      have hm1 : u ∈ s1 ↔ u ∈ s ∨ (v = a ∧ u = b) := by
        rw [h1]; split
        · rename_i h; rw [mem_setAdd]; simp [h]
        · rename_i h; simp [Ne.symm h]
      have hm2 : u ∈ s2 ↔ u ∈ s1 ∨ (u = a ∧ v = b) := by
        rw [h2]; split
        · rename_i h; rw [mem_setAdd]; simp [h]
        · rename_i h; simp [Ne.symm h]
      rw [hm2, hm1]
      unfold Adj
      simp only [List.mem_cons, Prod.mk.injEq]
      tauto
  obtain ⟨h1, h2⟩ := key edges [] List.nodup_nil
  exact ⟨h1, fun u => (h2 u).trans (by simp)⟩

/-- The step that `print_tree` performs when it leaves a vertex. -/
def printFin {α : Type} (names : List α) (v k : Nat) (lines : List (Nat × α)) : Py (List (Nat × α)) := do
  let name ← pyGet names v
  .ok (lines ++ [(k, name)])

theorem printLoop_eq_dfs {α : Type} (names : List α) (edges : List Edge) :
    ∀ fuel stack seen lines, printLoop names edges fuel stack seen lines
      = dfs (fun v => sortDesc (dictNeighbors edges v)) (printFin names) fuel stack seen lines := by
  intro fuel
  induction fuel with
  | zero => intro stack seen lines; cases stack <;> rfl
  | succ fuel ih =>
    intro stack seen lines
    cases stack with
    | nil => rfl
    | cons v stack =>
      rw [printLoop, dfs]
      cases (sortDesc (dictNeighbors edges v)).find? fun n => n ∉ seen with
      | some n => exact ih _ _ _
      | none =>
        simp only [printFin, ih]
        cases pyGet names v <;> rfl

theorem printFold {α : Type} (names : List α) (k : Nat → Nat) (dflt : α) : ∀ (l : List Nat) (lines : List (Nat × α)),
    (∀ v ∈ l, v < names.length) →
    l.foldlM (fun st u => printFin names u (k u) st) lines
      = .ok (lines ++ l.map fun u => (k u, names.getD u dflt)) := by
  intro l
  induction l with
  | nil => intro lines _; simp [pure, Except.pure]
  | cons v l ih =>
    intro lines h
    have hv := h v (by simp)
    have hg : pyGet names v = .ok (names.getD v dflt) := by
      rw [pyGet_eq_ok, List.getD_eq_getElem?_getD, List.getElem?_eq_getElem hv]; rfl
    rw [List.foldlM_cons]
    simp only [printFin, hg, bind, Except.bind]
    have := ih (lines ++ [(k v, names.getD v dflt)]) fun u hu => h u (by simp [hu])
    simp only [printFin, bind, Except.bind] at this
    rw [this]
    simp

section
variable {V : Nat} {edges : List (Nat × Nat)} {r : Nat} {d par : Nat → Nat} {iter : Nat → List Nat}

/-- In reverse order of finishing, the parent is the nearest preceding vertex of
smaller depth. -/
theorem post_parent (R : Rooted V edges r d par) (hiter : ∀ v < V, ∀ u, u ∈ iter v ↔ Adj edges v u) :
    ∀ n v, v < V → V ≤ d v + n → ∀ X u Y, (post iter d n v).reverse = X ++ u :: Y → u ≠ v →
      ∃ X₁ X₂, X = X₁ ++ par u :: X₂ ∧ ∀ w ∈ X₂, d u ≤ d w := by
  intro n
  induction n with
  | zero => intro v hv hn; have := R.d_lt_V v hv; omega
  | succ n ih =>
    intro v hv hn X u Y hX huv
    have hdc : ∀ c ∈ kids iter d v, c < V ∧ c ≠ r ∧ par c = v ∧ V ≤ d c + n ∧ d c = d v + 1 := by
      intro c hc
      obtain ⟨h1, h2, h3⟩ := (mem_kids R hiter hv c).1 hc
      have := R.d_par c h1 h2
      rw [h3] at this
      exact ⟨h1, h2, h3, by omega, this⟩
    have key : ∀ (cs : List Nat), (∀ c ∈ cs, c ∈ kids iter d v) → ∀ X u Y,
        (cs.flatMap fun c => (post iter d n c).reverse) = X ++ u :: Y →
        (u ∈ cs ∧ ∀ w ∈ X, d u ≤ d w) ∨ ∃ X₁ X₂, X = X₁ ++ par u :: X₂ ∧ ∀ w ∈ X₂, d u ≤ d w := by
      intro cs
      induction cs with
      | nil => intro _ X u Y h; simp at h
      | cons c cs ihc =>
        intro hcs X u Y h
        obtain ⟨c1, c2, c3, c4, c5⟩ := hdc c (hcs c (by simp))
        rw [List.flatMap_cons] at h
        rcases List.append_eq_append_iff.1 h with ⟨as, h1, h2⟩ | ⟨bs, h1, h2⟩
        · rcases ihc (fun c hc => hcs c (by simp [hc])) as u Y h2 with ⟨h3, h4⟩ | ⟨X₁, X₂, h3, h4⟩
          · refine .inl ⟨by simp [h3], fun w hw => ?_⟩
            rw [h1] at hw
            rcases List.mem_append.1 hw with hw | hw
            · rw [List.mem_reverse, mem_post R hiter n c c1 c4] at hw
              have h5 := hw.d_le R
              obtain ⟨-, -, -, -, h6⟩ := hdc u (hcs u (by simp [h3]))
              omega
            · exact h4 w hw
          · refine .inr ⟨(post iter d n c).reverse ++ X₁, X₂, ?_, h4⟩
            rw [h1, h3, List.append_assoc]
        · cases bs with
          | nil =>
            rw [List.nil_append] at h2
            rw [List.append_nil] at h1
            rcases ihc (fun c hc => hcs c (by simp [hc])) [] u Y h2.symm with ⟨h3, h4⟩ | ⟨X₁, X₂, h3, h4⟩
            · refine .inl ⟨by simp [h3], fun w hw => ?_⟩
              rw [← h1, List.mem_reverse, mem_post R hiter n c c1 c4] at hw
              have h5 := hw.d_le R
              obtain ⟨-, -, -, -, h6⟩ := hdc u (hcs u (by simp [h3]))
              omega
            · simp at h3
          | cons b bs =>
            rw [List.cons_append, List.cons.injEq] at h2
            obtain ⟨rfl, h2⟩ := h2
            by_cases huc : u = c
            · subst huc
              left
              refine ⟨by simp, fun w hw => ?_⟩
              have : w ∈ (post iter d n u).reverse := by rw [h1]; simp [hw]
              rw [List.mem_reverse, mem_post R hiter n u c1 c4] at this
              exact this.d_le R
            · right
              exact ih c c1 c4 X u bs h1 huc
    have hrev : (post iter d (n + 1) v).reverse
        = v :: ((kids iter d v).reverse.flatMap fun c => (post iter d n c).reverse) := by
      simp only [post, List.reverse_append, List.reverse_singleton, List.singleton_append]
      rw [List.reverse_flatMap]
      rfl
    rw [hrev] at hX
    cases X with
    | nil =>
      rw [List.nil_append, List.cons.injEq] at hX
      exact absurd hX.1.symm huv
    | cons x X =>
      rw [List.cons_append, List.cons.injEq] at hX
      obtain ⟨rfl, hX⟩ := hX
      rcases key (kids iter d v).reverse (fun c hc => List.mem_reverse.1 hc) X u Y hX with ⟨h1, h2⟩ | ⟨X₁, X₂, h1, h2⟩
      · obtain ⟨-, -, h3, -, -⟩ := hdc u (List.mem_reverse.1 h1)
        exact ⟨[], X, by rw [h3]; rfl, h2⟩
      · exact ⟨v :: X₁, X₂, by rw [h1]; rfl, h2⟩

/-- If neighbours are visited in falling order, of two children the larger finishes first. -/
theorem post_siblings (R : Rooted V edges r d par) (hiter : ∀ v < V, ∀ u, u ∈ iter v ↔ Adj edges v u)
    (hnd : ∀ v < V, (iter v).Nodup) (hsort : ∀ v < V, (iter v).Pairwise (· ≥ ·)) :
    ∀ n v, v < V → V ≤ d v + n → (post iter d n v).Pairwise fun a b => a ≠ r → b ≠ r → par a = par b → b < a := by
  intro n
  induction n with
  | zero => intro v hv hn; have := R.d_lt_V v hv; omega
  | succ n ih =>
    intro v hv hn
    have hk := fun c => mem_kids R hiter hv c
    have hdc : ∀ c ∈ kids iter d v, c < V ∧ V ≤ d c + n ∧ d c = d v + 1 := by
      intro c hc
      obtain ⟨h1, h2, h3⟩ := (hk c).1 hc
      have := R.d_par c h1 h2
      rw [h3] at this
      exact ⟨h1, by omega, this⟩
    simp only [post]
    rw [List.pairwise_append]
    refine ⟨?_, List.pairwise_singleton _ _, ?_⟩
    · rw [List.pairwise_flatMap]
      refine ⟨fun c hc => ih c (hdc c hc).1 (hdc c hc).2.1, ?_⟩
      have hkn : (kids iter d v).Pairwise fun a b => a ≠ b ∧ a ≥ b :=
        ((hnd v hv).and (hsort v hv)).filter _
      refine hkn.imp_of_mem ?_
      rintro a b ha hb ⟨hab, hge⟩ x hx y hy hxr hyr hp
      rw [mem_post R hiter n a (hdc a ha).1 (hdc a ha).2.1] at hx
      rw [mem_post R hiter n b (hdc b hb).1 (hdc b hb).2.1] at hy
      obtain ⟨a1, a2, a3⟩ := (hk a).1 ha
      obtain ⟨b1, b2, b3⟩ := (hk b).1 hb
      have hd : d x = d y := by
        rw [R.d_par x (sub_lt a1 hx) hxr, R.d_par y (sub_lt b1 hy) hyr, hp]
      have ea := (hdc a ha).2.2
      have eb := (hdc b hb).2.2
      cases hx with
      | refl =>
        cases hy with
        | refl => omega
        | step _ _ hy =>
          have := hy.d_le R
          have := R.d_par y (by assumption) hyr
          omega
      | step _ _ hx =>
        cases hy with
        | refl =>
          have := hx.d_le R
          have := R.d_par x (by assumption) hxr
          omega
        | step _ _ hy =>
          rw [hp] at hx
          exact absurd (sub_sibling R a1 b1 a2 b2 (a3.trans b3.symm) hx hy) hab
    · intro x hx y hy hxr hyr hp
      rw [List.mem_singleton] at hy
      subst hy
      obtain ⟨c, hc, hx⟩ := List.mem_flatMap.1 hx
      rw [mem_post R hiter n c (hdc c hc).1 (hdc c hc).2.1] at hx
      have := hx.d_le R
      have := (hdc c hc).2.2
      have h1 := R.d_par x (sub_lt (hdc c hc).1 hx) hxr
      have h2 := R.d_par y hv hyr
      rw [hp] at h1
      omega

theorem post_outline (R : Rooted V edges r d par) (hiter : ∀ v < V, ∀ u, u ∈ iter v ↔ Adj edges v u)
    (hnd : ∀ v < V, (iter v).Nodup) (hsort : ∀ v < V, (iter v).Pairwise (· ≥ ·)) : IsOutline V edges r (post iter d V r).reverse d := by
  have hperm := post_root_perm R hiter hnd
  refine ⟨(List.reverse_perm _).trans hperm, ?_, fun v hv => ⟨R.walk v hv, fun m hm => R.short v m hm⟩, ?_, ?_⟩
  · have hV := R.root_lt
    obtain ⟨n, hn⟩ : ∃ n, V = n + 1 := ⟨V - 1, by omega⟩
    conv_lhs => rw [hn]
    simp [post]
  · intro X v Y hX hvr
    have hv : v < V := by
      rw [← List.mem_range, ← hperm.mem_iff, ← List.mem_reverse, hX]; simp
    obtain ⟨X₁, X₂, h1, h2⟩ := post_parent R hiter V r R.root_lt (by omega) X v Y hX hvr
    have := R.d_par v hv hvr
    exact ⟨X₁, par v, X₂, h1, (isParent_iff R v (par v)).2 ⟨hv, hvr, rfl⟩, by omega, h2⟩
  · rw [List.pairwise_reverse]
    refine (post_siblings R hiter hnd hsort V r R.root_lt (by omega)).imp ?_
    intro a b h p hb ha
    obtain ⟨-, a1, a2⟩ := (isParent_iff R a p).1 ha
    obtain ⟨-, b1, b2⟩ := (isParent_iff R b p).1 hb
    exact h a1 b1 (a2.trans b2.symm)

end

theorem printTreeLines_spec {α : Type} [DecidableEq α] (V : Nat) (edges : List Edge) (h : IsTree V edges)
    (names : List α) (hn : names.length = V) (root : Option α) (hr : ∀ s, root = some s → s ∈ names)
    (dflt : α) :
    ∃ (v₀ : Nat) (L : List Nat) (indent : Nat → Nat),
      printTreeLines edges names root = .ok (L.map fun v => (indent v, names.getD v dflt)) ∧
      IsOutline V edges v₀ L indent ∧
      (∀ s, root = some s → names[v₀]? = some s) ∧
      (root = none → ∃ c, IsCenter V edges c ∧ names[v₀]? = names[c]?) := by
  have hV := h.card
  have hlen : pyAssert (names.length == 1 + edges.length) = .ok () := by
    have : (names.length == 1 + edges.length) = true := by rw [beq_iff_eq]; omega
    rw [this]; rfl
  -- the root name
  have hroot : ∃ s, s ∈ names ∧ (∀ t, root = some t → s = t) ∧
      (root = none → ∃ c, IsCenter V edges c ∧ names[c]? = some s) ∧
      (match root with
        | some r => (.ok r : Py α)
        | none => do
          let c ← findCenter (makeTree edges)
          pyGet names c) = .ok s := by
    cases root with
    | some t => exact ⟨t, hr t rfl, by simp, by simp, rfl⟩
    | none =>
      obtain ⟨c, h1, h2⟩ := findCenter_isCenter V edges h
      have hc : c < names.length := by rw [hn]; exact h2.1
      refine ⟨names[c], List.getElem_mem hc, by simp, fun _ => ⟨c, h2, List.getElem?_eq_getElem hc⟩, ?_⟩
      simp only [h1, bind, Except.bind]
      rw [pyGet_eq_ok, List.getElem?_eq_getElem hc]
  obtain ⟨s, hs, h1, h2, h3⟩ := hroot
  have hv0 : names.idxOf s < V := by rw [← hn]; exact List.idxOf_lt_length_of_mem hs
  obtain ⟨d, par, R⟩ := exists_rooted h hv0
  have hiter : ∀ v < V, ∀ u, u ∈ sortDesc (dictNeighbors edges v) ↔ Adj edges v u := by
    intro v _ u
    unfold sortDesc
    rw [List.mem_insertionSort]
    exact (dictNeighbors_spec edges v).2 u
  have hnd : ∀ v < V, (sortDesc (dictNeighbors edges v)).Nodup := fun v _ =>
    (List.perm_insertionSort _ _).nodup_iff.2 (dictNeighbors_spec edges v).1
  have hsort : ∀ v < V, (sortDesc (dictNeighbors edges v)).Pairwise (· ≥ ·) := fun v _ =>
    List.pairwise_insertionSort (· ≥ ·) _
  have hout := post_outline R hiter hnd hsort
  refine ⟨names.idxOf s, _, d, ?_, hout, ?_, ?_⟩
  · have hloop := dfs_root (fin := printFin names) R hiter hnd []
    rw [printFold names d dflt _ _ (fun v hv => by
      rw [hn, ← List.mem_range]; exact (post_root_perm R hiter hnd).mem_iff.1 hv)] at hloop
    have hc : pyAssert (names.contains s) = .ok () := by
      rw [List.contains_iff_mem.2 hs]; rfl
    have hb : ∀ x : Py α, x = .ok s → (x >>= fun root => do
        pyAssert (names.contains root)
        let lines ← printLoop names edges (2 * names.length) [names.idxOf root] [names.idxOf root] []
        .ok lines.reverse) = .ok ((post (fun v => sortDesc (dictNeighbors edges v)) d V
          (names.idxOf s)).reverse.map fun v => (d v, names.getD v dflt)) := by
      rintro x rfl
      simp only [hc, printLoop_eq_dfs, hn, hloop, List.nil_append, List.map_reverse, bind, Except.bind]
    rw [← hb _ h3]
    unfold printTreeLines
    rw [hlen]
    cases root with
    | some t => rfl
    | none => cases findCenter (makeTree edges) <;> rfl
  · rintro t ht
    rw [← h1 t ht]
    exact List.getElem?_idxOf hs
  · intro hn
    obtain ⟨c, hc, hcs⟩ := h2 hn
    exact ⟨c, hc, by rw [hcs]; exact List.getElem?_idxOf hs⟩

/-- **C10**. `print_tree` ends and returns one line per vertex, joined by newlines. The
vertices are listed once each, starting with the root; the line of `v` is its name
after two spaces per edge between `v` and the root; and the parent of each other
vertex is the nearest preceding vertex with a smaller indentation. The children of a
vertex are listed in rising order. The root is a
vertex with the given name. Without a given name it has the name of a centre, so it is
that centre if names are distinct. -/
theorem printTree_outline (V : Nat) (edges : List Edge) (h : IsTree V edges) (names : List String)
    (hn : names.length = V) (root : Option String) (hr : ∀ s, root = some s → s ∈ names) :
    ∃ (v₀ : Nat) (L : List Nat) (indent : Nat → Nat),
      printTree edges names root = .ok ("\n".intercalate (L.map fun v =>
        String.join (List.replicate (indent v) "  ") ++ names.getD v "")) ∧
      IsOutline V edges v₀ L indent ∧
      (∀ s, root = some s → names[v₀]? = some s) ∧
      (root = none → ∃ c, IsCenter V edges c ∧ names[v₀]? = names[c]? ∧ (names.Nodup → v₀ = c)) := by
  obtain ⟨v₀, L, indent, h1, h2, h3, h4⟩ := printTreeLines_spec V edges h names hn root hr ""
  refine ⟨v₀, L, indent, ?_, h2, h3, fun hr => ?_⟩
  · simp only [printTree, h1, bind, Except.bind, List.map_map]
    rfl
  · obtain ⟨c, hc, he⟩ := h4 hr
    refine ⟨c, hc, he, fun hnd => ?_⟩
    have hL : v₀ ∈ L := List.mem_of_mem_head? h2.head
    have hv : v₀ < names.length := by rw [hn, ← List.mem_range, ← h2.perm.mem_iff]; exact hL
    exact (List.getElem?_inj hv hnd).1 he

/-- **C10** (rejection). A wrong number of names, or a root that is not a name, fails an
assertion. -/
theorem printTree_rejects (edges : List Edge) (names : List String) (s : String)
    (h : names.length ≠ 1 + edges.length ∨ s ∉ names) :
    printTree edges names (some s) = .error .assertion := by
  by_cases hl : names.length = 1 + edges.length
  · have hs := h.resolve_left fun h => h hl
    simp [printTree, printTreeLines, pyAssert, hl, hs, bind, Except.bind]
  · simp [printTree, printTreeLines, pyAssert, hl, bind, Except.bind]

example : printTree exTree ["a", "b", "c", "d", "e"] (some "d")
    = .ok "d\n  b\n    a\n    c\n  e" := by decide +kernel

end TreeCat
