import Mathlib.Combinatorics.SimpleGraph.Acyclic
import Mathlib.Combinatorics.SimpleGraph.Diam
import Verif.Lemmas.Tree
import Verif.Props.EstimateTree
import Verif.Props.SampleTree
import Verif.Spec.Outline

/-!
# The notions of tree, distance and center are those of Mathlib

The specification speaks of lists of pairs. Here they are compared with `SimpleGraph`, and the main results about `structure.py` are
stated with Mathlib's notions.
-/

namespace TreeCat

open Spec

/-- The graph on `V` vertices with these edges. -/
def toGraph (V : Nat) (edges : List (Nat × Nat)) : SimpleGraph (Fin V) where
  Adj u v := u ≠ v ∧ Adj edges u v
  symm := ⟨fun _ _ h => ⟨h.1.symm, h.2.symm⟩⟩
  loopless := ⟨fun _ h => h.1 rfl⟩

/-- A walk in the graph is a walk in the list. -/
theorem walk_of_graph {V : Nat} {edges : List (Nat × Nat)} {u v : Fin V} (p : (toGraph V edges).Walk u v) : Walk edges p.length u v := by
  induction p with
  | nil => exact .nil _
  | cons h _ ih => exact .cons h.2 ih

/-- A walk in the list is a walk in the graph, without the loops. -/
theorem graph_of_walk {V : Nat} {edges : List (Nat × Nat)} (hr : ∀ e ∈ edges, e.1 < V ∧ e.2 < V) {n u v : Nat} (w : Walk edges n u v)
    (hu : u < V) (hv : v < V) : ∃ p : (toGraph V edges).Walk ⟨u, hu⟩ ⟨v, hv⟩, p.length ≤ n := by
  induction w with
  | nil u => exact ⟨.nil, le_rfl⟩
  | @cons n u x w h _ ih =>
    have hx : x < V := by
      rcases h with h | h
      · exact (hr _ h).2
      · exact (hr _ h).1
    obtain ⟨p, hp⟩ := ih hx hv
    by_cases hux : u = x
    · subst hux
      exact ⟨p, by omega⟩
    · exact ⟨.cons ⟨fun e => hux (Fin.mk.inj e), h⟩ p, Nat.succ_le_succ hp⟩

/-- The pairs that a graph has as edges. -/
theorem edgeSet_toGraph {V : Nat} {edges : List (Nat × Nat)} (hr : ∀ e ∈ edges, e.1 < V ∧ e.2 < V) (hl : ∀ e ∈ edges, e.1 ≠ e.2) :
    Sym2.map Fin.val '' (toGraph V edges).edgeSet = {x | x ∈ edges.map fun e => s(e.1, e.2)} := by
  ext x
  simp only [Set.mem_image, Set.mem_ofPred_eq, List.mem_map]
  constructor
  · rintro ⟨y, hy, rfl⟩
    induction y with
    | _ a b =>
      rcases hy.2 with h | h
      · exact ⟨_, h, rfl⟩
      · exact ⟨_, h, Sym2.eq_swap⟩
  · rintro ⟨e, he, rfl⟩
    exact ⟨s(⟨e.1, (hr e he).1⟩, ⟨e.2, (hr e he).2⟩), ⟨fun h => hl e he (Fin.mk.inj h), .inl he⟩, rfl⟩

theorem card_edgeSet {V : Nat} {edges : List (Nat × Nat)} (hr : ∀ e ∈ edges, e.1 < V ∧ e.2 < V) (hl : ∀ e ∈ edges, e.1 ≠ e.2)
    (hn : (edges.map fun e => s(e.1, e.2)).Nodup) : Nat.card (toGraph V edges).edgeSet = edges.length := by
  have h1 : (Sym2.map Fin.val '' (toGraph V edges).edgeSet).ncard = (toGraph V edges).edgeSet.ncard :=
    Set.ncard_image_of_injective _ (Sym2.map.injective Fin.val_injective)
  rw [edgeSet_toGraph hr hl] at h1
  have h2 : {x | x ∈ edges.map fun e => s(e.1, e.2)} = ((edges.map fun e => s(e.1, e.2)).toFinset : Set (Sym2 Nat)) := by
    ext x; simp
  rw [h2, Set.ncard_coe_finset, List.toFinset_card_of_nodup hn, List.length_map] at h1
  rw [h1]
  rfl

/-- A spanning tree in the sense of the specification is a list without repetitions of the edges of a tree in the sense of Mathlib. -/
theorem isTree_iff_graph {V : Nat} {edges : List (Nat × Nat)} : IsTree V edges ↔ (∀ e ∈ edges, e.1 < V ∧ e.2 < V) ∧ (∀ e ∈ edges, e.1 ≠ e.2) ∧
    (edges.map fun e => s(e.1, e.2)).Nodup ∧ (toGraph V edges).IsTree := by
  constructor
  · intro h
    have hV := h.card
    obtain ⟨d, par, R⟩ := exists_rooted h (r := 0) (by omega)
    have hl : ∀ e ∈ edges, e.1 ≠ e.2 := by
      intro e he hc
      refine R.irrefl (v := e.1) (.inl ?_)
      have h5 : ((e.1, e.1) : Nat × Nat) = e := Prod.ext rfl hc
      rw [h5]; exact he
    have hne : Nonempty (Fin V) := ⟨⟨0, by omega⟩⟩
    refine ⟨h.range, hl, R.nodup, SimpleGraph.isTree_iff_connected_and_card.2 ⟨.mk fun u v => ?_, ?_⟩⟩
    · have hw : ∀ a b, Relation.ReflTransGen (Adj edges) a b → ∃ n, Walk edges n a b := by
        intro a b hab
        induction hab using Relation.ReflTransGen.head_induction_on with
        | refl => exact ⟨0, .nil _⟩
        | head h1 _ ih =>
          obtain ⟨n, hn⟩ := ih
          exact ⟨n + 1, .cons h1 hn⟩
      obtain ⟨n, hn⟩ := hw _ _ (h.conn u u.2 v v.2)
      obtain ⟨p, -⟩ := graph_of_walk h.range hn u.2 v.2
      exact ⟨p⟩
    · rw [card_edgeSet h.range hl R.nodup, Nat.card_fin, hV]
  · rintro ⟨hr, hl, hn, hT⟩
    obtain ⟨hc, hcard⟩ := SimpleGraph.isTree_iff_connected_and_card.1 hT
    rw [card_edgeSet hr hl hn, Nat.card_fin] at hcard
    refine ⟨hcard, hr, fun u hu v hv => ?_⟩
    obtain ⟨p⟩ := hc.preconnected ⟨u, hu⟩ ⟨v, hv⟩
    have hw : ∀ n a b, Walk edges n a b → Relation.ReflTransGen (Adj edges) a b := by
      intro n a b w
      induction w with
      | nil => exact .refl
      | cons h _ ih => exact .head h ih
    exact hw _ _ _ (walk_of_graph p)

/-- Distance in the sense of the specification is distance in the graph. -/
theorem isDist_iff_graph {V : Nat} {edges : List (Nat × Nat)} (hr : ∀ e ∈ edges, e.1 < V ∧ e.2 < V) {u v : Nat} (hu : u < V) (hv : v < V) (n : Nat) :
    IsDist edges u v n ↔ (toGraph V edges).edist ⟨u, hu⟩ ⟨v, hv⟩ = n := by
  constructor
  · rintro ⟨hw, hmin⟩
    obtain ⟨p, hp⟩ := graph_of_walk hr hw hu hv
    obtain ⟨q, hq⟩ := p.reachable.exists_walk_length_eq_edist
    refine le_antisymm ((SimpleGraph.edist_le p).trans (by exact_mod_cast hp)) ?_
    rw [← hq]
    exact_mod_cast hmin _ (walk_of_graph q)
  · intro h
    obtain ⟨p, hp⟩ := SimpleGraph.exists_walk_of_edist_eq_coe h
    refine ⟨hp ▸ walk_of_graph p, fun m w => ?_⟩
    obtain ⟨q, hq⟩ := graph_of_walk hr w hu hv
    have h1 := SimpleGraph.edist_le q
    rw [h] at h1
    have h2 : n ≤ q.length := by exact_mod_cast h1
    omega

theorem eccLe_iff_graph {V : Nat} {edges : List (Nat × Nat)} (hr : ∀ e ∈ edges, e.1 < V ∧ e.2 < V) {v : Nat} (hv : v < V) (n : Nat) :
    EccLe V edges v n ↔ (toGraph V edges).eccent ⟨v, hv⟩ ≤ n := by
  rw [SimpleGraph.eccent, iSup_le_iff]
  constructor
  · intro h w
    obtain ⟨m, hm, hw⟩ := h w w.2
    obtain ⟨p, hp⟩ := graph_of_walk hr hw hv w.2
    exact (SimpleGraph.edist_le p).trans (by exact_mod_cast hp.trans hm)
  · intro h w hw
    have h1 := h ⟨w, hw⟩
    obtain ⟨p, hp⟩ := SimpleGraph.exists_walk_of_edist_ne_top (ne_top_of_le_ne_top (ENat.natCast_ne_top n) h1)
    rw [← hp] at h1
    exact ⟨p.length, by exact_mod_cast h1, walk_of_graph p⟩

/-- A center in the sense of the specification is a member of the center of the graph. -/
theorem isCenter_iff_graph {V : Nat} {edges : List (Nat × Nat)} (hr : ∀ e ∈ edges, e.1 < V ∧ e.2 < V) {c : Nat} (hc : c < V) :
    IsCenter V edges c ↔ (⟨c, hc⟩ : Fin V) ∈ (toGraph V edges).center := by
  rw [SimpleGraph.mem_center_iff]
  have key : ∀ a b : ℕ∞, (∀ n : Nat, a ≤ n → b ≤ n) ↔ b ≤ a := by
    intro a b
    constructor
    · intro h
      cases a with
      | top => exact le_top
      | coe a => exact h a le_rfl
    · intro h n hn
      exact h.trans hn
  have h1 : IsCenter V edges c ↔ ∀ v, (toGraph V edges).eccent ⟨c, hc⟩ ≤ (toGraph V edges).eccent v := by
    constructor
    · intro h v
      rw [← key]
      intro n hn
      rw [← eccLe_iff_graph hr hc]
      exact h.2 v v.2 n ((eccLe_iff_graph hr v.2 n).2 hn)
    · intro h
      refine ⟨hc, fun v hv n hn => ?_⟩
      rw [eccLe_iff_graph hr hc]
      exact (h ⟨v, hv⟩).trans ((eccLe_iff_graph hr hv n).1 hn)
  rw [h1]
  constructor
  · intro h
    exact le_antisymm (le_iInf h) (iInf_le _ _)
  · intro h v
    rw [h]
    exact iInf_le _ v

/-! ### Results about `structure.py` in terms of Mathlib -/

/-- `find_center_of_tree` returns a member of the center of the graph. -/
theorem findCenter_center {V : Nat} {edges : List Edge} (h : IsTree V edges) :
    ∃ (c : Nat) (hc : c < V), findCenter (makeTree edges) = .ok c ∧ (⟨c, hc⟩ : Fin V) ∈ (toGraph V edges).center := by
  obtain ⟨c, h1, h2⟩ := findCenter_isCenter V edges h
  exact ⟨c, h2.1, h1, (isCenter_iff_graph h.range h2.1).1 h2⟩

open Classical in
/-- The weight of a pair of vertices, for a weight on the unordered pairs. -/
noncomputable def pairWeight {K : Type} [Zero K] {V : Nat} (W : Sym2 (Fin V) → K) (i j : Nat) : K :=
  if h : i < V ∧ j < V then W s(⟨i, h.1⟩, ⟨j, h.2⟩) else 0

theorem pairWeight_swap {K : Type} [Zero K] {V : Nat} (W : Sym2 (Fin V) → K) (i j : Nat) : pairWeight W i j = pairWeight W j i := by
  unfold pairWeight
  by_cases h : i < V ∧ j < V
  · rw [dif_pos h, dif_pos ⟨h.2, h.1⟩, Sym2.eq_swap]
  · rw [dif_neg h, dif_neg fun h' => h ⟨h'.2, h'.1⟩]

open Classical in
/-- The total weight of the edges of the graph is the sum over the list. -/
theorem sum_edgeFinset {K : Type} [AddCommMonoid K] {V : Nat} {T : List (Nat × Nat)} (h : IsTree V T) (W : Sym2 (Fin V) → K) :
    ∑ x ∈ (toGraph V T).edgeFinset, W x = (T.map fun e => pairWeight W e.1 e.2).sum := by
  obtain ⟨hr, hl, hn, -⟩ := isTree_iff_graph.1 h
  have hw : ∀ x : Sym2 (Fin V), W x = (fun y : Sym2 Nat => y.lift ⟨pairWeight W, pairWeight_swap W⟩) (Sym2.map Fin.val x) := by
    intro x
    induction x with
    | _ a b => simp [pairWeight]
  have himg : (toGraph V T).edgeFinset.image (Sym2.map Fin.val) = (T.map fun e => s(e.1, e.2)).toFinset := by
    ext x
    rw [List.mem_toFinset]
    have := Set.ext_iff.1 (edgeSet_toGraph hr hl) x
    simpa using this
  rw [Finset.sum_congr rfl fun x _ => hw x,
    ← Finset.sum_image (f := fun y : Sym2 Nat => y.lift ⟨pairWeight W, pairWeight_swap W⟩) fun a _ b _ hab => Sym2.map.injective Fin.val_injective hab,
    himg, List.sum_toFinset _ hn, List.map_map]
  rfl

/-- Every tree on `V` vertices is given by a list. -/
theorem exists_edges {V : Nat} (G : SimpleGraph (Fin V)) (hG : G.IsTree) : ∃ T, IsTree V T ∧ toGraph V T = G := by
  classical
  let T : List (Nat × Nat) := G.edgeFinset.toList.map fun x => ((Quot.out x).1.val, (Quot.out x).2.val)
  have hout : ∀ x : Sym2 (Fin V), s((Quot.out x).1, (Quot.out x).2) = x := fun x => Quot.out_eq x
  have hmem : ∀ e ∈ T, ∃ x ∈ G.edgeSet, ∃ a b : Fin V, x = s(a, b) ∧ e = (a.val, b.val) := by
    intro e he
    obtain ⟨x, hx, rfl⟩ := List.mem_map.1 he
    exact ⟨x, by simpa using hx, (Quot.out x).1, (Quot.out x).2, (hout x).symm, rfl⟩
  have hgraph : toGraph V T = G := by
    ext a b
    constructor
    · rintro ⟨-, h | h⟩
      · obtain ⟨x, hx, a', b', rfl, he⟩ := hmem _ h
        obtain ⟨h1, h2⟩ := Prod.mk.inj he
        rw [Fin.ext h1, Fin.ext h2]
        exact hx
      · obtain ⟨x, hx, a', b', rfl, he⟩ := hmem _ h
        obtain ⟨h1, h2⟩ := Prod.mk.inj he
        rw [Fin.ext h1, Fin.ext h2]
        exact G.adj_symm hx
    · intro h
      refine ⟨h.ne, ?_⟩
      have hx : s(a, b) ∈ G.edgeFinset.toList := by simpa using h
      have he : ((Quot.out s(a, b)).1.val, (Quot.out s(a, b)).2.val) ∈ T := List.mem_map.2 ⟨_, hx, rfl⟩
      rcases Sym2.eq_iff.1 (hout s(a, b)) with ⟨h1, h2⟩ | ⟨h1, h2⟩
      · rw [h1, h2] at he; exact .inl he
      · rw [h1, h2] at he; exact .inr he
  refine ⟨T, isTree_iff_graph.2 ⟨?_, ?_, ?_, by rw [hgraph]; exact hG⟩, hgraph⟩
  · intro e he
    obtain ⟨x, -, a, b, -, rfl⟩ := hmem e he
    exact ⟨a.2, b.2⟩
  · intro e he
    obtain ⟨x, hx, a, b, rfl, rfl⟩ := hmem e he
    exact fun h => G.loopless.irrefl a (by rw [SimpleGraph.mem_edgeSet, ← Fin.ext h] at hx; exact hx)
  · have e1 : T.map (fun e => s(e.1, e.2)) = G.edgeFinset.toList.map (Sym2.map Fin.val) := by
      rw [List.map_map]
      refine List.map_congr_left fun x _ => ?_
      conv_rhs => rw [← hout x]
      rfl
    rw [e1]
    exact G.edgeFinset.nodup_toList.map (Sym2.map.injective Fin.val_injective)

open Classical in
/-- `estimate_tree` returns a tree of the largest total weight among all trees on the vertices. -/
theorem estimateTree_graph {K : Type} [Field K] [LinearOrder K] [IsStrictOrderedRing K] (mst : List (List K) → List Edge) (hmst : MstContract mst)
    (V : Nat) (hV : 1 ≤ V) (grid : Grid) (hg : makeCompleteGraph V = .ok grid) (W : Sym2 (Fin V) → K) :
    ∃ T, estimateTree mst grid (grid.map fun p => pairWeight W p.2.1 p.2.2) = .ok T ∧ (toGraph V T).IsTree ∧
      ∀ G : SimpleGraph (Fin V), G.IsTree → ∑ x ∈ G.edgeFinset, W x ≤ ∑ x ∈ (toGraph V T).edgeFinset, W x := by
  obtain ⟨T, h1, -, h2, h3⟩ := estimateTree_max mst hmst V hV grid hg (pairWeight W)
  refine ⟨T, h1, (isTree_iff_graph.1 h2).2.2.2, fun G hG => ?_⟩
  obtain ⟨T', hT', rfl⟩ := exists_edges G hG
  have h4 := h3 T' hT'
  have h5 : (T'.map fun p => pairWeight W (min p.1 p.2) (max p.1 p.2)) = T'.map fun p => pairWeight W p.1 p.2 := by
    refine List.map_congr_left fun p _ => ?_
    rcases le_total p.1 p.2 with h | h
    · rw [min_eq_left h, max_eq_right h]
    · rw [min_eq_right h, max_eq_left h, pairWeight_swap]
  rw [h5, ← sum_edgeFinset hT' W, ← sum_edgeFinset h2 W] at h4
  convert h4

/-- A tree that is not a path. -/
example : (toGraph 5 exTree).IsTree := (isTree_iff_graph.1 exTree_isTree).2.2.2

end TreeCat
