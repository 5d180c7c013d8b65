import Mathlib.Data.List.Nodup
import Mathlib.Data.List.Perm.Subperm
import Verif.Lemmas.Tree
import Verif.Props.TreeStructure

/-!
# The shape of a propagation program

`make_propagation_program` lists the vertices breadth first and emits, in reverse
order, the inward instructions and, in order, the outward ones.
-/

namespace TreeCat

open Spec

/-- `L` lists the vertices with every parent before its children; `ch v` lists the
children of `v`. -/
structure Topo (V r : Nat) (par : Nat → Nat) (ch : Nat → List Nat) (L : List Nat) : Prop where
  perm : L.Perm (List.range V)
  root_lt : r < V
  head : ∃ T, L = r :: T
  before : ∀ A x B, L = A ++ x :: B → x ≠ r → par x ∈ A
  ch_nodup : ∀ v < V, (ch v).Nodup
  ch_mem : ∀ v < V, ∀ c, c ∈ ch v ↔ c < V ∧ c ≠ r ∧ par c = v

theorem Topo.nodup {V r : Nat} {par : Nat → Nat} {ch : Nat → List Nat} {L : List Nat}
    (T : Topo V r par ch L) : L.Nodup := T.perm.nodup_iff.2 List.nodup_range

theorem Topo.mem {V r : Nat} {par : Nat → Nat} {ch : Nat → List Nat} {L : List Nat}
    (T : Topo V r par ch L) {v : Nat} : v ∈ L ↔ v < V := by
  rw [T.perm.mem_iff, List.mem_range]

/-- The inward instructions of one vertex. -/
def inBlock (ch : Nat → List Nat) (eid : Nat → Nat) (v : Nat) : List Instr :=
  ⟨.UP, v, 0, 0⟩ :: (ch v).map fun c => ⟨.IN, v, c, eid c⟩

/-- The outward instructions of one vertex. -/
def outBlock (r : Nat) (par eid : Nat → Nat) (v : Nat) : List Instr :=
  if v = r then [⟨.DOWN, v, 0, 0⟩] else [⟨.OUT, v, par v, eid v⟩, ⟨.DOWN, v, 0, 0⟩]

/-- The program for the order `L`. -/
def progOf (r : Nat) (par : Nat → Nat) (ch : Nat → List Nat) (eid : Nat → Nat) (L : List Nat) :
    List Instr :=
  L.reverse.flatMap (inBlock ch eid) ++ [⟨.ROOT, r, 0, 0⟩] ++ L.flatMap (outBlock r par eid)

/-! ### The edge dictionary -/

theorem lookup_some_mem {α β : Type} [BEq α] [LawfulBEq α] {l : List (α × β)} {k : α} {e : β}
    (h : l.lookup k = some e) : (k, e) ∈ l := by
  induction l with
  | nil => simp at h
  | cons p l ih =>
    obtain ⟨a, b⟩ := p
    rw [List.lookup_cons] at h
    rcases Classical.em (k = a) with hk | hk
    · subst hk; simp at h; simp [h]
    · rw [show (k == a) = false by simpa using hk] at h
      exact List.mem_cons_of_mem _ (ih h)

theorem exists_lookup {α β : Type} [BEq α] [LawfulBEq α] {l : List (α × β)} {k : α} {e : β}
    (h : (k, e) ∈ l) : ∃ e', l.lookup k = some e' := by
  induction l with
  | nil => simp at h
  | cons p l ih =>
    obtain ⟨a, b⟩ := p
    rw [List.lookup_cons]
    rcases Classical.em (k = a) with hk | hk
    · subst hk; exact ⟨b, by simp⟩
    · rw [show (k == a) = false by simpa using hk]
      rcases List.mem_cons.1 h with h | h
      · exact absurd (congrArg Prod.fst h) hk
      · exact ih h

theorem mem_buildEdgeDict (grid : Grid) (u v e : Nat) :
    ((u, v), e) ∈ buildEdgeDict grid ↔ (e, u, v) ∈ grid ∨ (e, v, u) ∈ grid := by
  have gen : ∀ (g : Grid) (d : List (Edge × Nat)),
      ((u, v), e) ∈ g.foldl (fun d c => ((c.2.2, c.2.1), c.1) :: ((c.2.1, c.2.2), c.1) :: d) d
        ↔ ((e, u, v) ∈ g ∨ (e, v, u) ∈ g) ∨ ((u, v), e) ∈ d := by
    intro g
    induction g with
    | nil => simp
    | cons c g ih =>
      intro d
      obtain ⟨a, b, c⟩ := c
      rw [List.foldl_cons, ih]
      simp only [List.mem_cons, Prod.mk.injEq]
      tauto
  rw [buildEdgeDict, gen]; simp

theorem edgeLookup_of_adj {grid : Grid} {u v : Nat} (h : Adj (gridEdges grid) u v) :
    ∃ e, edgeLookup (buildEdgeDict grid) (u, v) = .ok e ∧ ((e, u, v) ∈ grid ∨ (e, v, u) ∈ grid) := by
  have : ∃ e, (e, u, v) ∈ grid ∨ (e, v, u) ∈ grid := by
    rcases h with h | h
    · obtain ⟨⟨e, a, b⟩, hm, he⟩ := List.mem_map.1 h
      simp only [Prod.mk.injEq] at he
      exact ⟨e, .inl (by rw [← he.1, ← he.2]; exact hm)⟩
    · obtain ⟨⟨e, a, b⟩, hm, he⟩ := List.mem_map.1 h
      simp only [Prod.mk.injEq] at he
      exact ⟨e, .inr (by rw [← he.1, ← he.2]; exact hm)⟩
  obtain ⟨e, he⟩ := this
  obtain ⟨e', he'⟩ := exists_lookup ((mem_buildEdgeDict grid u v e).2 he)
  refine ⟨e', by simp [edgeLookup, he'], (mem_buildEdgeDict grid u v e').1 (lookup_some_mem he')⟩

/-! ### Grids with distinct pairs and ids -/

/-- Each unordered pair of the grid has one id. -/
theorem grid_id_unique {grid : Grid}
    (hn : ((gridEdges grid).map fun e => s(e.1, e.2)).Nodup) {e e' u v : Nat}
    (h : (e, u, v) ∈ grid ∨ (e, v, u) ∈ grid) (h' : (e', u, v) ∈ grid ∨ (e', v, u) ∈ grid) :
    e = e' := by
  have hn' : (grid.map fun c => s(c.2.1, c.2.2)).Nodup := by
    simpa [gridEdges, List.map_map, Function.comp_def] using hn
  have inj := List.inj_on_of_nodup_map hn'
  rcases h with h | h <;> rcases h' with h' | h'
  · exact congrArg Prod.fst (inj h h' rfl)
  · exact congrArg Prod.fst (inj h h' Sym2.eq_swap)
  · exact congrArg Prod.fst (inj h h' Sym2.eq_swap)
  · exact congrArg Prod.fst (inj h h' rfl)

theorem mem_sortAsc (l : List Nat) (x : Nat) : x ∈ sortAsc l ↔ x ∈ l := by
  unfold sortAsc; exact List.mem_insertionSort _

theorem nodup_sortAsc (l : List Nat) : (sortAsc l).Nodup ↔ l.Nodup :=
  (List.perm_insertionSort _ l).nodup_iff

/-! ### The breadth first loop -/

section
variable {V : Nat} {edges : List (Nat × Nat)} {r : Nat} {d par : Nat → Nat}

/-- The parent argument that the loop carries for `v`. -/
def parOpt (r : Nat) (par : Nat → Nat) (v : Nat) : Option Nat := if v = r then none else some (par v)

/-- The children of `v`. -/
def chOf (N : List (List Nat)) (r : Nat) (par : Nat → Nat) (v : Nat) : List Nat :=
  (sortAsc (N.getD v [])).filter fun c => some c != parOpt r par v

theorem chOf_mem (R : Rooted V edges r d par) {N : List (List Nat)} (hN : IsNbrs V edges N)
    {v : Nat} (hv : v < V) (c : Nat) : c ∈ chOf N r par v ↔ c < V ∧ c ≠ r ∧ par c = v := by
  unfold chOf parOpt
  rw [List.mem_filter, mem_sortAsc, hN.mem v hv]
  by_cases hvr : v = r
  · subst hvr
    simp only [if_true, bne_iff_ne, ne_eq, reduceCtorEq, not_false_eq_true, and_true]
    constructor
    · intro h
      have hc := (R.range _ _ h).2
      rcases R.edge _ _ h with ⟨h1, -⟩ | ⟨h1, h2⟩
      · exact absurd rfl h1
      · exact ⟨hc, h1, h2⟩
    · rintro ⟨h1, h2, h3⟩
      have := R.par_adj c h1 h2
      rw [h3] at this; exact this.symm
  · simp only [if_neg hvr, bne_iff_ne, ne_eq, Option.some.injEq]
    constructor
    · rintro ⟨h, hne⟩
      have hc := (R.range _ _ h).2
      rcases R.edge _ _ h with ⟨h1, h2⟩ | ⟨h1, h2⟩
      · exact absurd h2.symm hne
      · exact ⟨hc, h1, h2⟩
    · rintro ⟨h1, h2, h3⟩
      have ha := R.par_adj c h1 h2
      rw [h3] at ha
      refine ⟨ha.symm, fun hc => ?_⟩
      have e1 := R.d_par c h1 h2
      have e2 := R.d_par v hv hvr
      rw [h3] at e1; rw [← hc] at e2; omega

theorem chOf_nodup {N : List (List Nat)} (hN : IsNbrs V edges N)
    {v : Nat} (hv : v < V) : (chOf N r par v).Nodup :=
  List.Nodup.filter _ ((nodup_sortAsc _).2 (hN.nodup v hv))

theorem childrenOf_eq {N : List (List Nat)} (hN : IsNbrs V edges N)
    {v : Nat} (hv : v < V) : childrenOf N v (parOpt r par v) = .ok (chOf N r par v) := by
  simp only [childrenOf, hN.get hv, bind, Except.bind, chOf]

theorem length_le_of_nodup_lt {l : List Nat} (hn : l.Nodup) (hl : ∀ x ∈ l, x < V) : l.length ≤ V := by
  have : l.Subperm (List.range V) := hn.subperm fun x hx => List.mem_range.2 (hl x hx)
  simpa using this.length_le

theorem perm_range_of {l : List Nat} (hn : l.Nodup) (h : ∀ x, x ∈ l ↔ x < V) :
    l.Perm (List.range V) :=
  (List.perm_ext_iff_of_nodup hn List.nodup_range).2 fun x => by rw [h, List.mem_range]

/-- Invariant of the breadth first loop: `P` are the vertices already listed, `Q`
those queued. -/
structure BfsInv (V r : Nat) (par : Nat → Nat) (P Q : List Nat) : Prop where
  nodup : (P ++ Q).Nodup
  lt : ∀ x ∈ P ++ Q, x < V
  root : ∃ T, P ++ Q = r :: T
  before : ∀ A x B, P ++ Q = A ++ x :: B → x ≠ r → par x ∈ A
  from_P : ∀ x ∈ Q, x ≠ r → par x ∈ P
  closed : ∀ c < V, c ≠ r → par c ∈ P → c ∈ P ++ Q

theorem BfsInv.step (R : Rooted V edges r d par) {P Q cs : List Nat} {v : Nat}
    (I : BfsInv V r par P (v :: Q)) (hcn : cs.Nodup)
    (hc : ∀ c, c ∈ cs ↔ c < V ∧ c ≠ r ∧ par c = v) :
    BfsInv V r par (P ++ [v]) (Q ++ cs) := by
  have e : P ++ [v] ++ (Q ++ cs) = (P ++ v :: Q) ++ cs := by simp
  have hvP : v ∉ P := by
    have := I.nodup
    rw [List.nodup_append] at this
    intro h; exact this.2.2 v h v (by simp) rfl
  have hdis : ∀ c ∈ cs, c ∉ P ++ v :: Q := by
    intro c hcs hmem
    obtain ⟨h1, h2, h3⟩ := (hc c).1 hcs
    obtain ⟨A, B, hAB⟩ := List.append_of_mem hmem
    have hpa := I.before A c B hAB h2
    rw [h3] at hpa
    -- `v` occurs before `c`, so `c` is in `Q`
    rw [List.mem_append] at hmem
    rcases hmem with h | h
    · obtain ⟨A', B', hP⟩ := List.append_of_mem h
      have := I.before A' c (B' ++ v :: Q) (by rw [hP]; simp) h2
      rw [h3] at this
      exact hvP (by rw [hP]; simp [this])
    · rcases List.mem_cons.1 h with h | h
      · subst h
        have := R.d_par c h1 h2; rw [h3] at this; omega
      · have := I.from_P c (by simp [h]) h2
        rw [h3] at this; exact hvP this
  refine ⟨?_, ?_, ?_, ?_, ?_, ?_⟩
  · rw [e, List.nodup_append]
    exact ⟨I.nodup, hcn, fun a ha b hb => by rintro rfl; exact hdis a hb ha⟩
  · rw [e]
    intro x hx
    rcases List.mem_append.1 hx with h | h
    · exact I.lt x h
    · exact ((hc x).1 h).1
  · obtain ⟨T, hT⟩ := I.root
    exact ⟨T ++ cs, by rw [e, hT]; rfl⟩
  · rw [e]
    intro A x B hAB hx
    rcases List.append_eq_append_iff.1 hAB with ⟨A', h1, h2⟩ | ⟨C, h1, h2⟩
    · -- x in cs
      have hxc : x ∈ cs := by rw [h2]; simp
      rw [h1, ((hc x).1 hxc).2.2]; simp
    · cases C with
      | nil =>
        rw [List.nil_append] at h2
        have hxc : x ∈ cs := by rw [← h2]; simp
        rw [List.append_nil] at h1
        rw [← h1, ((hc x).1 hxc).2.2]; simp
      | cons y C =>
        rw [List.cons_append, List.cons.injEq] at h2
        rw [← h2.1] at h1
        exact I.before A x C h1 hx
  · intro x hx hxr
    rcases List.mem_append.1 hx with h | h
    · exact List.mem_append_left _ (I.from_P x (by simp [h]) hxr)
    · rw [((hc x).1 h).2.2]; simp
  · rw [e]
    intro c h1 h2 h3
    rcases List.mem_append.1 h3 with h | h
    · exact List.mem_append_left _ (I.closed c h1 h2 h)
    · exact List.mem_append_right _ ((hc c).2 ⟨h1, h2, by simpa using h⟩)

theorem BfsInv.done (R : Rooted V edges r d par) {P : List Nat} (I : BfsInv V r par P []) :
    ∀ v, v ∈ P ↔ v < V := by
  have hroot : r ∈ P := by
    obtain ⟨T, hT⟩ := I.root
    rw [List.append_nil] at hT; rw [hT]; simp
  have hall : ∀ n, ∀ v < V, d v = n → v ∈ P := by
    intro n
    induction n with
    | zero =>
      intro v hv hd
      by_cases h : v = r
      · rw [h]; exact hroot
      · have := R.d_pos hv h; omega
    | succ n ih =>
      intro v hv hd
      by_cases h : v = r
      · rw [h]; exact hroot
      · have h1 := R.d_par v hv h
        have := I.closed v hv h (ih (par v) (R.par_lt v hv h) (by omega))
        simpa using this
  exact fun v => ⟨fun h => I.lt v (by simpa using h), fun h => hall (d v) v h rfl⟩

theorem bfsLoop_spec (R : Rooted V edges r d par) {N : List (List Nat)} (hN : IsNbrs V edges N) :
    ∀ (fuel : Nat) (P Q : List Nat), BfsInv V r par P Q → V ≤ fuel + P.length →
      ∃ L, bfsLoop N fuel (Q.map fun v => (v, parOpt r par v)) (P.map fun v => (v, parOpt r par v))
          = .ok (L.map fun v => (v, parOpt r par v)) ∧ Topo V r par (chOf N r par) L := by
  intro fuel
  have fin : ∀ P, BfsInv V r par P [] → Topo V r par (chOf N r par) P := by
    intro P I
    have hn : P.Nodup := by simpa using I.nodup
    have hm := I.done R
    refine ⟨perm_range_of hn hm, R.root_lt, by simpa using I.root, ?_, fun v hv => chOf_nodup hN hv,
      fun v hv c => chOf_mem R hN hv c⟩
    intro A x B h
    exact I.before A x B (by simpa using h)
  induction fuel with
  | zero =>
    intro P Q I hf
    cases Q with
    | nil => exact ⟨P, by simp [bfsLoop], fin P I⟩
    | cons v Q =>
      have := length_le_of_nodup_lt I.nodup I.lt
      simp at this; omega
  | succ fuel ih =>
    intro P Q I hf
    cases Q with
    | nil => exact ⟨P, by simp [bfsLoop], fin P I⟩
    | cons v Q =>
      have hv : v < V := I.lt v (by simp)
      have I' := I.step R (chOf_nodup (r := r) (par := par) hN hv) (chOf_mem R hN hv)
      obtain ⟨L, hL, hT⟩ := ih _ _ I' (by simp; omega)
      refine ⟨L, ?_, hT⟩
      rw [← hL]
      simp only [List.map_cons, bfsLoop, childrenOf_eq hN hv, bind, Except.bind]
      congr 1
      · rw [List.map_append]
        congr 1
        apply List.map_congr_left
        intro c hc
        obtain ⟨-, h2, h3⟩ := (chOf_mem R hN hv c).1 hc
        simp [parOpt, h2, h3]
      · simp

/-! ### The whole program -/

theorem mapM_ok {α β : Type} (f : α → Py β) (g : α → β) (l : List α) (h : ∀ a ∈ l, f a = .ok (g a)) :
    l.mapM f = .ok (l.map g) := by
  induction l with
  | nil => rfl
  | cons a l ih =>
    rw [List.mapM_cons, h a (by simp), ih fun b hb => h b (by simp [hb])]
    rfl

/-- Sum of the numbers of children. -/
theorem Topo.sum_ch {V r : Nat} {par : Nat → Nat} {ch : Nat → List Nat} {L : List Nat}
    (T : Topo V r par ch L) : (L.flatMap ch).Perm (L.filter (· ≠ r)) := by
  refine (List.perm_ext_iff_of_nodup ?_ (T.nodup.filter _)).2 ?_
  · rw [List.nodup_flatMap]
    refine ⟨fun v hv => T.ch_nodup v (T.mem.1 hv), ?_⟩
    refine T.nodup.imp_of_mem fun {a b} ha hb hab => ?_
    rw [Function.onFun, List.disjoint_left]
    intro c hca hcb
    rw [T.ch_mem a (T.mem.1 ha)] at hca
    rw [T.ch_mem b (T.mem.1 hb)] at hcb
    exact hab (hca.2.2.symm.trans hcb.2.2)
  · intro c
    rw [List.mem_flatMap, List.mem_filter]
    constructor
    · rintro ⟨v, hv, hc⟩
      obtain ⟨h1, h2, h3⟩ := (T.ch_mem v (T.mem.1 hv) c).1 hc
      exact ⟨T.mem.2 h1, by simpa using h2⟩
    · rintro ⟨h1, h2⟩
      have h2' : c ≠ r := by simpa using h2
      obtain ⟨A, B, hAB⟩ := List.append_of_mem h1
      have hp : par c ∈ L := by
        have := T.before A c B hAB h2'
        rw [hAB]; simp [this]
      exact ⟨par c, hp, (T.ch_mem _ (T.mem.1 hp) c).2 ⟨T.mem.1 h1, h2', rfl⟩⟩

theorem Topo.filter_length {V r : Nat} {par : Nat → Nat} {ch : Nat → List Nat} {L : List Nat}
    (T : Topo V r par ch L) : (L.filter (· ≠ r)).length + 1 = V := by
  obtain ⟨T', hT'⟩ := T.head
  have hn := T.nodup
  rw [hT'] at hn
  have : T'.filter (· ≠ r) = T' := by
    rw [List.filter_eq_self]
    intro x hx
    have : x ≠ r := by rintro rfl; exact (List.nodup_cons.1 hn).1 hx
    simpa using this
  have hl := T.perm.length_eq
  rw [hT'] at hl ⊢
  rw [List.filter_cons_of_neg (by simp), this]
  simpa using hl

theorem length_inBlocks (ch : Nat → List Nat) (eid : Nat → Nat) (L : List Nat) :
    (L.flatMap (inBlock ch eid)).length = L.length + (L.flatMap ch).length := by
  induction L with
  | nil => rfl
  | cons v L ih =>
    simp only [List.flatMap_cons, List.length_append, ih, inBlock, List.length_cons, List.length_map]
    omega

theorem length_outBlocks (r : Nat) (par eid : Nat → Nat) (L : List Nat) :
    (L.flatMap (outBlock r par eid)).length = L.length + (L.filter (· ≠ r)).length := by
  induction L with
  | nil => rfl
  | cons v L ih =>
    simp only [List.flatMap_cons, List.length_append, ih, outBlock, List.length_cons,
      List.filter_cons]
    by_cases h : v = r <;> simp [h] <;> omega

theorem Topo.prog_length {V r : Nat} {par eid : Nat → Nat} {ch : Nat → List Nat} {L : List Nat}
    (T : Topo V r par ch L) :
    (progOf r par ch eid L).length + 1 = V + V + V + V := by
  have h1 : (L.reverse.flatMap (inBlock ch eid)).length = (L.flatMap (inBlock ch eid)).length :=
    ((List.reverse_perm L).flatMap_right _).length_eq
  have h2 := T.sum_ch.length_eq
  have h3 := T.filter_length
  have h4 := T.perm.length_eq
  simp only [List.length_range] at h4
  simp only [progOf, List.length_append, h1, length_inBlocks, length_outBlocks, h2,
    List.length_cons, List.length_nil]
  omega

/-- Shape of the program for a given root. -/
theorem makeProgram_some {V : Nat} {grid : Grid} (ht : IsTree V (gridEdges grid)) {r : Nat}
    (hr : r < V) : ∃ d par ch eid L, Rooted V (gridEdges grid) r d par ∧ Topo V r par ch L ∧
      (∀ v < V, v ≠ r → ((eid v, v, par v) ∈ grid ∨ (eid v, par v, v) ∈ grid)) ∧
      (∀ v < V, (ch v).Pairwise (· < ·)) ∧
      makeProgram grid (some r) = .ok (progOf r par ch eid L) := by
  classical
  obtain ⟨d, par, R⟩ := exists_rooted ht hr
  have hV : 1 + grid.length = V := by
    have := ht.card; simp only [gridEdges, List.length_map] at this; omega
  obtain ⟨N, hN1, hN⟩ := buildNeighbors_spec V (gridEdges grid) ht.range
  have heid : ∀ v, ∃ e, v < V → v ≠ r → edgeLookup (buildEdgeDict grid) (v, par v) = .ok e ∧
      edgeLookup (buildEdgeDict grid) (par v, v) = .ok e ∧
      ((e, v, par v) ∈ grid ∨ (e, par v, v) ∈ grid) := by
    intro v
    by_cases hv : v < V ∧ v ≠ r
    · have ha := R.par_adj v hv.1 hv.2
      obtain ⟨e, h1, h2⟩ := edgeLookup_of_adj ha
      obtain ⟨e', h3, h4⟩ := edgeLookup_of_adj ha.symm
      have : e = e' := grid_id_unique R.nodup h2 h4.symm
      subst this
      exact ⟨e, fun _ _ => ⟨h1, h3, h2⟩⟩
    · exact ⟨0, fun h1 h2 => absurd ⟨h1, h2⟩ hv⟩
  choose eid heid using heid
  have I0 : BfsInv V r par [] [r] := by
    refine ⟨by simp, by simpa using hr, ⟨[], rfl⟩, ?_, ?_, ?_⟩
    · intro A x B h hx
      cases A with
      | nil => simp at h; exact absurd h.1.symm hx
      | cons a A => simp at h
    · intro x hx hxr; exact absurd (by simpa using hx) hxr
    · intro c _ _ h; simp at h
  obtain ⟨L, hL, T⟩ := bfsLoop_spec R hN V [] [r] I0 (by simp)
  simp only [List.map_cons, List.map_nil, show parOpt r par r = none by simp [parOpt]] at hL
  refine ⟨d, par, chOf N r par, eid, L, R, T, fun v hv hne => (heid v hv hne).2.2, ?_, ?_⟩
  · intro v hv
    have h1 : (sortAsc (N.getD v [])).Pairwise (· ≤ ·) := List.pairwise_insertionSort _ _
    have h2 : (sortAsc (N.getD v [])).Nodup := (nodup_sortAsc _).2 (hN.nodup v hv)
    have h3 : (sortAsc (N.getD v [])).Pairwise (· < ·) :=
      (h1.and h2).imp fun ⟨a, b⟩ => lt_of_le_of_ne a b
    exact h3.filter _
  have hin : (L.map fun v => (v, parOpt r par v)).reverse.mapM (inwardCode N (buildEdgeDict grid))
      = .ok ((L.map fun v => (v, parOpt r par v)).reverse.map
          fun vp => inBlock (chOf N r par) eid vp.1) := by
    apply mapM_ok
    intro vp hvp
    rw [List.mem_reverse, List.mem_map] at hvp
    obtain ⟨v, hv, rfl⟩ := hvp
    have hvV := T.mem.1 hv
    have : (chOf N r par v).mapM (fun c => (do
        let e ← edgeLookup (buildEdgeDict grid) (v, c)
        .ok ⟨.IN, v, c, e⟩ : Py Instr)) = .ok ((chOf N r par v).map fun c => ⟨.IN, v, c, eid c⟩) := by
      apply mapM_ok
      intro c hc
      obtain ⟨h1, h2, h3⟩ := (chOf_mem R hN hvV c).1 hc
      have := (heid c h1 h2).2.1
      rw [h3] at this
      simp [this, bind, Except.bind]
    simp only [inwardCode, childrenOf_eq hN hvV, bind, Except.bind] at this ⊢
    rw [this]
    rfl
  have hout : (L.map fun v => (v, parOpt r par v)).mapM (outwardCode (buildEdgeDict grid))
      = .ok ((L.map fun v => (v, parOpt r par v)).map fun vp => outBlock r par eid vp.1) := by
    apply mapM_ok
    intro vp hvp
    rw [List.mem_map] at hvp
    obtain ⟨v, hv, rfl⟩ := hvp
    by_cases hvr : v = r
    · simp [outwardCode, parOpt, outBlock, hvr]
    · simp [outwardCode, parOpt, outBlock, hvr, (heid v (T.mem.1 hv) hvr).1, bind, Except.bind]
  have hprog : (List.map (fun vp : Nat × Option Nat => inBlock (chOf N r par) eid vp.1)
        (L.map fun v => (v, parOpt r par v)).reverse).flatten ++ [⟨.ROOT, r, 0, 0⟩] ++
      (List.map (fun vp : Nat × Option Nat => outBlock r par eid vp.1)
        (L.map fun v => (v, parOpt r par v))).flatten = progOf r par (chOf N r par) eid L := by
    unfold progOf
    rw [← List.map_reverse, List.map_map, List.map_map, List.flatMap_def, List.flatMap_def]
    rfl
  have hlen := T.prog_length (eid := eid)
  subst hV
  simp only [makeProgram, hN1, hL, hin, hout, bind, Except.bind, hprog]
  rw [if_neg (by omega)]
  have : ((progOf r par (chOf N r par) eid L).length ==
      1 + grid.length + grid.length + 1 + grid.length + (1 + grid.length)) = true := by
    rw [beq_iff_eq]; omega
  rw [this]
  rfl

end

end TreeCat
