import Verif.Lemmas.Lists
import Verif.Model.DataServer
import Verif.Props.EnsembleSample
import Verif.Props.ImportData
import Verif.Props.Median
import Verif.Props.Ragged

/-! # C32: `DataServer.sample`; C33: evidence queries of `DataServer` -/

set_option linter.unusedSectionVars false

namespace TreeCat

open Spec Util
open Config (Str)

namespace Spec

/-- The total count of an observation of the feature. -/
def Feature.total : Feature → Int
  | .cat _ => 1
  | .ord lo hi => hi - lo

/-- The array holds imported rows. -/
def Imported (fs : List (Str × Feature)) (data : List (List Int)) : Prop :=
  ∀ row ∈ data, ∃ x : Str × Feature → Option Json, (∀ f ∈ fs, ∀ j, x f = some j → Canon f.2 j) ∧ row = internalRow fs x

/-- The feature is observed in some row. -/
def Observed (fs : List (Str × Feature)) (data : List (List Int)) (v : Nat) : Prop :=
  ∃ row ∈ data, ∑ c ∈ Finset.Ico (startOf fs v) (startOf fs (v + 1)), row.getD c 0 ≠ 0

end Spec

variable {T : Text} {S : Schema} {fs : List (Str × Feature)}

theorem sum_slice (l : List Int) (a b : Nat) (h : a ≤ b) : ∑ c ∈ Finset.Ico a b, l.getD c 0 = ((l.take b).drop a).sum := by
  induction b, h using Nat.le_induction with
  | base => simp
  | succ b h ih =>
    rw [Finset.sum_Ico_succ_top h, ih, List.take_add_one]
    by_cases hb : b < l.length
    · rw [List.getElem?_eq_getElem hb, Option.toList_some, List.drop_append_of_le_length (by simp; omega), List.sum_append,
        List.getD_eq_getElem?_getD, List.getElem?_eq_getElem hb]
      simp
    · rw [List.getElem?_eq_none (by omega), List.getD_eq_getElem?_getD, List.getElem?_eq_none (by omega)]
      simp

theorem startOf_le (fs : List (Str × Feature)) (v : Nat) : startOf fs v ≤ startOf fs (v + 1) := by
  unfold startOf
  by_cases hv : v < fs.length
  · rw [List.take_add_one, List.getElem?_eq_getElem hv, List.map_append, List.sum_append]
    omega
  · rw [List.take_of_length_le (by omega), List.take_of_length_le (by omega)]

theorem startOf_eq_blockStart (fs : List (Str × Feature)) (v : Nat) : blockStart (fs.map fun f => f.2.width) v = startOf fs v := by
  unfold blockStart startOf
  rw [List.map_take]

theorem startOf_le_length (fs : List (Str × Feature)) (v : Nat) : startOf fs v ≤ startOf fs fs.length := by
  unfold startOf
  rw [List.take_length]
  conv_rhs => rw [← List.take_append_drop v fs, List.map_append, List.sum_append]
  omega

theorem blockSum_slice (row : List Int) (hlen : row.length = startOf fs fs.length) (v : Nat) :
    blockSum (fs.map fun f => f.2.width) row v = ∑ c ∈ Finset.Ico (startOf fs v) (startOf fs (v + 1)), row.getD c 0 := by
  unfold blockSum
  rw [startOf_eq_blockStart, startOf_eq_blockStart]
  have e : ∀ n, ((List.range n).map fun p => if startOf fs v ≤ p ∧ p < startOf fs (v + 1) then row.getD p 0 else 0).sum =
      ∑ p ∈ Finset.range n, if startOf fs v ≤ p ∧ p < startOf fs (v + 1) then row.getD p 0 else 0 := by
    intro n
    induction n with
    | zero => rfl
    | succ n ih => rw [List.range_succ, List.map_append, List.sum_append, ih, Finset.sum_range_succ]; simp
  rw [e, ← Finset.sum_filter]
  congr 1
  ext c
  have := startOf_le_length fs (v + 1)
  simp only [Finset.mem_filter, Finset.mem_range, Finset.mem_Ico]
  omega

/-- The sums of the blocks of an imported row. -/
theorem internalRow_sum (x : Str × Feature → Option Json) (v : Nat) (f : Str × Feature) (hf : fs[v]? = some f) :
    ∑ c ∈ Finset.Ico (startOf fs v) (startOf fs (v + 1)), (internalRow fs x).getD c 0 = (blockOf f.2 (x f)).sum := by
  rw [sum_slice _ _ _ (startOf_le fs v)]
  have e : internalRow fs x = (fs.map fun f => blockOf f.2 (x f)).flatten := by unfold internalRow; rw [List.flatMap_def]
  have hb : (fs.map fun f => blockOf f.2 (x f)).map List.length = fs.map fun f => f.2.width := by
    rw [List.map_map]; exact List.map_congr_left fun f _ => blockOf_length _ _
  rw [e, flatten_slice fs _ hb v (blockOf f.2 (x f)) (by rw [List.getElem?_map, hf]; rfl)]

theorem blockOf_sum (F : Feature) (hn : ∀ vs, F = .cat vs → vs.Nodup) (x : Option Json) (hx : ∀ j, x = some j → Canon F j) :
    (x = none → (blockOf F x).sum = 0) ∧ (x ≠ none → (blockOf F x).sum = F.total) := by
  constructor
  · rintro rfl
    cases F <;> simp [blockOf]
  · intro hne
    obtain ⟨j, rfl⟩ := Option.ne_none_iff_exists'.1 hne
    have hc := hx j rfl
    cases F with
    | cat vs =>
      cases j with
      | str s => exact sum_onehot vs (hn vs rfl) s hc
      | _ => exact absurd hc (by simp [Canon])
    | ord lo hi =>
      cases j with
      | int i => simp [blockOf, Feature.total]
      | _ => exact absurd hc (by simp [Canon])

theorem exportBlock_legal (F : Feature) (b : List Int) (hlen : b.length = F.width) (hb : ∀ a ∈ b, 0 ≤ a) (hs : b.sum = 0 ∨ b.sum = F.total) :
    ∃ x, exportBlock F b = .ok x := by
  unfold exportBlock
  split
  · exact ⟨_, rfl⟩
  · rename_i hall
    have hne : b.sum ≠ 0 := by
      intro h0
      apply hall
      rw [nonneg_sum_zero b hb h0, List.all_eq_true]
      intro y hy
      rw [List.eq_of_mem_replicate hy]
      rfl
    have hs := hs.resolve_left hne
    cases F with
    | cat vs =>
      have hs : b.sum = 1 := hs
      have hlen : b.length = vs.length := hlen
      obtain ⟨i, hi, e⟩ := nonneg_sum_one b hb hs
      have ham : argmax b < vs.length := by
        unfold argmax
        rw [← hlen, List.findIdx_lt_length]
        refine ⟨1, ?_, ?_⟩
        · rw [e]
          exact List.mem_of_getElem? (i := i) (by rw [List.getElem?_set_self (by simpa using hi)])
        · rw [List.all_eq_true]
          intro y hy
          rw [e] at hy
          rcases List.mem_or_eq_of_mem_set hy with hy | rfl
          · rw [List.eq_of_mem_replicate hy]; rfl
          · simp
      simp only [hs, pyAssert, beq_self_eq_true, if_true, bind, Except.bind, pyGet, List.getElem?_eq_getElem ham]
      exact ⟨_, rfl⟩
    | ord lo hi =>
      have hs : b.sum = hi - lo := hs
      simp only [hs, pyAssert, beq_self_eq_true, if_true, bind, Except.bind]
      exact ⟨_, rfl⟩

/-- A row of samples whose blocks are empty or have the total of their feature can be exported, and all values are legal. -/
theorem exportRow_legal (h : Describes S fs) (row : List Int) (hlen : row.length = startOf fs fs.length)
    (hblock : ∀ (v : Nat) f, fs[v]? = some f → (∀ c ∈ Finset.Ico (startOf fs v) (startOf fs (v + 1)), 0 ≤ row.getD c 0) ∧
      (∑ c ∈ Finset.Ico (startOf fs v) (startOf fs (v + 1)), row.getD c 0 = 0 ∨
        ∑ c ∈ Finset.Ico (startOf fs v) (startOf fs (v + 1)), row.getD c 0 = f.2.total)) :
    ∃ x : Str × Feature → Option Json, (∀ f ∈ fs, ∀ j, x f = some j → Canon f.2 j) ∧ row = internalRow fs x ∧
      ((List.range S.featureNames.length).zip S.featureNames).foldlM (exportCell S row) [] =
        .ok (fs.filterMap fun f => (x f).map fun j => (f.1, j)) := by
  obtain ⟨bs, e, hb⟩ := exists_blocks fs row hlen
  have hl : bs.length = fs.length := by simpa using congrArg List.length hb
  have hpart : ∀ (v : Nat) f b, fs[v]? = some f → bs[v]? = some b →
      (∀ a ∈ b, 0 ≤ a) ∧ b.sum = ∑ c ∈ Finset.Ico (startOf fs v) (startOf fs (v + 1)), row.getD c 0 := by
    intro v f b hf hbv
    have hsl := flatten_slice fs bs hb v b hbv
    rw [← e] at hsl
    refine ⟨fun a ha => ?_, by rw [sum_slice _ _ _ (startOf_le fs v), hsl]⟩
    rw [← hsl] at ha
    obtain ⟨i, hi⟩ := List.mem_iff_getElem?.1 ha
    rw [List.getElem?_drop, List.getElem?_take] at hi
    split at hi
    · rename_i hlt
      have := (hblock v f hf).1 (startOf fs v + i) (Finset.mem_Ico.2 ⟨by omega, hlt⟩)
      rw [List.getD_eq_getElem?_getD, hi] at this
      exact this
    · simp at hi
  have hok : ∀ fb ∈ fs.zip bs, ∃ x, exportBlock fb.1.2 fb.2 = .ok x := by
    intro fb hfb
    obtain ⟨k, hk⟩ := List.mem_iff_getElem?.1 hfb
    rw [List.getElem?_zip_eq_some] at hk
    have hwid : fb.2.length = fb.1.2.width := by
      have := congrArg (·[k]?) hb
      simpa [hk.1, hk.2] using this
    obtain ⟨p1, p2⟩ := hpart k fb.1 fb.2 hk.1 hk.2
    exact exportBlock_legal fb.1.2 fb.2 hwid p1 (by rw [p2]; exact (hblock k fb.1 hk.1).2)
  choose! y hy using hok
  have hfold : ((List.range S.featureNames.length).zip S.featureNames).foldlM (exportCell S row) [] =
      .ok ([] ++ (fs.zip bs).filterMap fun fb => (y fb).map fun j => (fb.1.1, j)) := by
    rw [e, exportRow_blocks h bs hb, putCells _ (zip_nodup h.nodup bs hl) [] (by simp [Dict.keys]) y hy]
  have hpos : ∀ a ∈ row, 0 ≤ a := by
    intro a ha
    rw [e] at ha
    obtain ⟨b, hb', ha⟩ := List.mem_flatten.1 ha
    obtain ⟨k, hk⟩ := List.mem_iff_getElem?.1 hb'
    have hlt := getElem?_lt hk
    exact (hpart k (fs[k]'(by omega)) b (List.getElem?_eq_getElem _) hk).1 a ha
  obtain ⟨x, hx1, hx2, hx3⟩ := exportRow_ok h row hlen hpos _ hfold
  exact ⟨x, hx1, hx2, by rw [hfold, hx3]⟩

theorem describes_raggedIndex (h : Describes S fs) : S.raggedIndex = makeRaggedIndex (fs.map fun f => f.2.width) ∧
    S.raggedIndex.getLastD 0 = (fs.map fun f => f.2.width).sum := by
  obtain ⟨h1, h2, -⟩ := makeRaggedIndex_spec (fs.map fun f => f.2.width)
  constructor
  · apply List.ext_getElem?
    intro v
    by_cases hv : v ≤ fs.length
    · rw [h.ragged v hv, h2 v (by simpa using hv), startOf_eq_blockStart]
    · rw [List.getElem?_eq_none (by rw [h.ragged_length]; omega), List.getElem?_eq_none (by rw [h1, List.length_map]; omega)]
  · rw [describes_last h]
    unfold startOf
    rw [List.take_length]

theorem total_range (h : Describes S fs) (hfit : Fits fs) (f : Str × Feature) (hf : f ∈ fs) : 0 ≤ f.2.total ∧ f.2.total ≤ 127 := by
  obtain ⟨n, F⟩ := f
  cases F with
  | cat vs => simp [Feature.total]
  | ord lo hi =>
    have h1 := (h.ords n lo hi hf).1
    have h2 := hfit n lo hi hf
    simp only [Feature.total]
    omega

theorem imported_sum (h : Describes S fs) {data : List (List Int)} (himp : Imported fs data) {row : List Int} (hrow : row ∈ data) (v : Nat) (f : Str × Feature)
    (hf : fs[v]? = some f) : row.length = startOf fs fs.length ∧
    (∑ c ∈ Finset.Ico (startOf fs v) (startOf fs (v + 1)), row.getD c 0 = 0 ∨
      ∑ c ∈ Finset.Ico (startOf fs v) (startOf fs (v + 1)), row.getD c 0 = f.2.total) := by
  obtain ⟨x, hx, rfl⟩ := himp row hrow
  have hm := List.mem_of_getElem? hf
  refine ⟨internalRow_length fs x, ?_⟩
  rw [internalRow_sum x v f hf]
  obtain ⟨b1, b2⟩ := blockOf_sum f.2 (fun vs e => (h.cats f.1 vs (by rw [← e]; exact hm)).1) (x f) (hx f hm)
  by_cases e : x f = none
  · exact .inl (b1 e)
  · exact .inr (b2 e)

/-- The counts that the server draws: the total of a feature if it is ever observed, otherwise zero. -/
theorem dataServer_counts (h : Describes S fs) (hfit : Fits fs) {data : List (List Int)} (himp : Imported fs data) (hne : data ≠ []) :
    ∃ counts, guessCounts S.raggedIndex (S.raggedIndex.getLastD 0) data = .ok counts ∧ counts.length = fs.length ∧
      ∀ (v : Nat) f, fs[v]? = some f → (Observed fs data v → counts.getD v 0 = f.2.total) ∧ (¬ Observed fs data v → counts.getD v 0 = 0) := by
  obtain ⟨e1, e2⟩ := describes_raggedIndex h
  rw [e1, ← e1, e2, e1]
  have hsum : ∀ row ∈ data, ∀ (v : Nat) f, fs[v]? = some f → blockSum (fs.map fun f => f.2.width) row v = 0 ∨
      blockSum (fs.map fun f => f.2.width) row v = f.2.total := by
    intro row hrow v f hf
    obtain ⟨h1, h2⟩ := imported_sum h himp hrow v f hf
    rw [blockSum_slice row h1]
    exact h2
  obtain ⟨counts, g1, g2, g3⟩ := guessCounts_spec (fs.map fun f => f.2.width) data hne (by
    intro row hrow v hv
    rw [List.length_map] at hv
    have := total_range h hfit fs[v] (List.getElem_mem hv)
    rcases hsum row hrow v fs[v] (List.getElem?_eq_getElem hv) with e | e <;> rw [e] <;> omega)
  refine ⟨counts, g1, by simpa using g2, fun v f hf => ?_⟩
  have hv := getElem?_lt hf
  obtain ⟨g4, row0, hrow0, g5⟩ := g3 v (by simpa using hv)
  have htot := total_range h hfit f (List.mem_of_getElem? hf)
  constructor
  · rintro ⟨row, hrow, hne⟩
    have hle := g4 row hrow
    obtain ⟨h1, h2⟩ := imported_sum h himp hrow v f hf
    rw [blockSum_slice row h1, h2.resolve_left hne] at hle
    rcases hsum row0 hrow0 v f hf with e | e <;> omega
  · intro hno
    by_contra hc
    refine hno ⟨row0, hrow0, ?_⟩
    rw [← blockSum_slice row0 (imported_sum h himp hrow0 v f hf).1, ← g5]
    exact hc

section
variable {K : Type} [Field K] [LinearOrder K] [IsStrictOrderedRing K] {M : Nat} [NeZero M]
variable {models : List (Model K M)}

/-- What a `DataServer` holds. -/
structure Holds (S : Schema) (fs : List (Str × Feature)) (data : List (List Int)) (models : List (Model K M)) (ds : DataServer K M) : Prop where
  schema : ds.schema = S
  stored : ds.table.data = data
  length : ds.counts.length = fs.length
  counts : ∀ (v : Nat) f, fs[v]? = some f →
    (Observed fs data v → ds.counts.getD v 0 = f.2.total) ∧ (¬ Observed fs data v → ds.counts.getD v 0 = 0)
  server : match ds.server with
    | .one srv => ∃ model, models = [model] ∧ Serves model srv ∧ IsTree fs.length srv.estimatedTree ∧ Canonical srv.estimatedTree
    | .many ens => List.Forall₂ (fun m srv => Serves m srv ∧ IsTree fs.length srv.estimatedTree ∧ Canonical srv.estimatedTree) models ens.servers ∧
      ens.raggedIndex = S.raggedIndex

/-- The constructor succeeds on any imported dataset with at least one row, and any models of its features. -/
theorem dataServer_init {mst : List (List K) → List Edge} (hmst : MstContract mst) (h : Describes S fs) (hfit : Fits fs) (table : Table)
    (ht : table.raggedIndex = S.raggedIndex) (himp : Imported fs table.data) (hne : table.data ≠ []) (E : Members models fs.length S.raggedIndex) :
    ∃ ds, DataServer.init mst S table models = .ok ds ∧ Holds S fs table.data models ds := by
  obtain ⟨counts, e, hl, hc⟩ := dataServer_counts h hfit himp hne
  rw [← ht] at e
  obtain ⟨ens, ee, hs, hr, -⟩ := ensemble_init hmst E
  unfold DataServer.init
  simp only [e, bind, Except.bind]
  split
  · rename_i model
    obtain ⟨srv, es, s1, s2, s3⟩ := server_init hmst (E.valid model (by simp))
    rw [E.size model (by simp)] at s2
    simp only [es]
    exact ⟨_, rfl, rfl, rfl, hl, hc, model, rfl, s1, s2, s3⟩
  · simp only [ee]
    exact ⟨_, rfl, rfl, rfl, hl, hc, hs, hr⟩

theorem startOf_getD (h : Describes S fs) (v : Nat) (hv : v ≤ fs.length) : S.raggedIndex.getD v 0 = startOf fs v := by
  rw [List.getD_eq_getElem?_getD, h.ragged v hv]; rfl

theorem holds_counts (h : Describes S fs) (hfit : Fits fs) {data : List (List Int)} {ds : DataServer K M} (hd : Holds S fs data models ds) :
    (∀ x ∈ ds.counts, 0 ≤ x ∧ x ≤ 127) ∧ ∀ v < fs.length, 0 < ds.counts.getD v 0 → S.raggedIndex.getD v 0 < S.raggedIndex.getD (v + 1) 0 := by
  constructor
  · intro x hx
    obtain ⟨v, hv⟩ := List.mem_iff_getElem?.1 hx
    have hlt := getElem?_lt hv
    rw [hd.length] at hlt
    have hf : fs[v]? = some fs[v] := List.getElem?_eq_getElem hlt
    have htot := total_range h hfit fs[v] (List.getElem_mem hlt)
    obtain ⟨c1, c2⟩ := hd.counts v fs[v] hf
    rw [List.getD_eq_getElem?_getD, hv, Option.getD_some] at c1 c2
    by_cases ho : Observed fs data v
    · rw [c1 ho]; exact htot
    · rw [c2 ho]; omega
  · intro v hv hpos
    have hf : fs[v]? = some fs[v] := List.getElem?_eq_getElem hv
    rw [startOf_getD h v (by omega), startOf_getD h (v + 1) (by omega)]
    by_contra hge
    have ho : Observed fs data v := by
      by_contra hno
      rw [(hd.counts v _ hf).2 hno] at hpos
      exact absurd hpos (lt_irrefl _)
    obtain ⟨row, -, hne⟩ := ho
    rw [Finset.Ico_eq_empty (by omega)] at hne
    exact hne rfl

/-- The rows that the server draws. -/
theorem anyServer_sample (h : Describes S fs) (hfit : Fits fs) {data : List (List Int)} (E : Members models fs.length S.raggedIndex)
    {ds : DataServer K M} (hd : Holds S fs data models ds) (N : Nat) (row : Option (List Int)) (hrow : ∀ d ∈ row, d.length = S.raggedIndex.getLastD 0) :
    Sure (ds.server.sample N ds.counts row : ExceptT PyErr Poss _) fun rows => rows.length = N ∧
      ∀ row ∈ rows, row.length = S.raggedIndex.getLastD 0 ∧ ∀ v < fs.length,
        (∀ c ∈ Finset.Ico (S.raggedIndex.getD v 0) (S.raggedIndex.getD (v + 1) 0), 0 ≤ row.getD c 0) ∧
        ∑ c ∈ Finset.Ico (S.raggedIndex.getD v 0) (S.raggedIndex.getD (v + 1) 0), row.getD c 0 = ds.counts.getD v 0 := by
  obtain ⟨c1, c2⟩ := holds_counts h hfit hd
  have hsrv := hd.server
  unfold AnyServer.sample
  split at hsrv
  · rename_i srv hs
    obtain ⟨model, rfl, s1, -⟩ := hsrv
    have hsize := E.size model (by simp)
    have hidx := E.index model (by simp)
    have := server_sample_counts (E.valid model (by simp)) s1 N ds.counts row (by rw [hidx]; exact hrow) (by rw [hsize]; exact hd.length) c1
      (by
        rw [hsize]
        intro v hv hp
        unfold columns
        rw [hidx, Finset.nonempty_Ico]
        exact c2 v hv hp)
    rw [hs]
    refine Sure.mono this fun rows hr => ?_
    unfold columns at hr
    rw [hsize, hidx] at hr
    exact hr
  · rename_i ens hs
    obtain ⟨s1, -⟩ := hsrv
    rw [hs]
    have := ensemble_sample_counts E (s1.imp fun _ _ hh => hh.1) N ds.counts row hrow hd.length c1 c2
    exact Sure.mono this fun rows hr => ⟨hr.1, hr.2.2⟩

theorem raggedSize_eq (E : Members models fs.length S.raggedIndex) {data : List (List Int)} {ds : DataServer K M} (hd : Holds S fs data models ds) :
    ds.server.raggedSize = S.raggedIndex.getLastD 0 := by
  have hsrv := hd.server
  unfold AnyServer.raggedSize
  split at hsrv
  · rename_i srv hs
    obtain ⟨model, rfl, s1, -⟩ := hsrv
    rw [hs]
    simp only [Server.raggedSize]
    rw [s1.ragged, E.index model (by simp)]
  · rename_i ens hs
    obtain ⟨-, s2⟩ := hsrv
    rw [hs]
    simp only
    rw [s2]

/-- Exporting rows with the counts of the server. -/
theorem exportRows_counts (h : Describes S fs) {data : List (List Int)} {ds : DataServer K M}
    (hd : Holds S fs data models ds) (rows : List (List Int)) (hrows : ∀ row ∈ rows, row.length = S.raggedIndex.getLastD 0 ∧ ∀ v < fs.length,
        (∀ c ∈ Finset.Ico (S.raggedIndex.getD v 0) (S.raggedIndex.getD (v + 1) 0), 0 ≤ row.getD c 0) ∧
        ∑ c ∈ Finset.Ico (S.raggedIndex.getD v 0) (S.raggedIndex.getD (v + 1) 0), row.getD c 0 = ds.counts.getD v 0) :
    ∃ xs : List (Str × Feature → Option Json),
      exportRows S (S.raggedIndex.getLastD 0) rows = .ok (xs.map fun x => fs.filterMap fun f => (x f).map fun j => (f.1, j)) ∧
      List.Forall₂ (fun row x => row = internalRow fs x ∧ ∀ (v : Nat) f, fs[v]? = some f → (∀ j, x f = some j → Canon f.2 j) ∧
        (¬ Hidden f.2 → (x f ≠ none ↔ Observed fs data v)) ∧ (Hidden f.2 → x f = none)) rows xs := by
  unfold exportRows
  simp only [pyAssert, beq_self_eq_true, if_true, bind, Except.bind]
  induction rows with
  | nil => exact ⟨[], rfl, .nil⟩
  | cons row rows ih =>
    obtain ⟨xs, e1, e2⟩ := ih fun r hr => hrows r (by simp [hr])
    obtain ⟨hlen, hb⟩ := hrows row (by simp)
    rw [describes_last h] at hlen
    have hb' : ∀ (v : Nat) f, fs[v]? = some f → (∀ c ∈ Finset.Ico (startOf fs v) (startOf fs (v + 1)), 0 ≤ row.getD c 0) ∧
        ∑ c ∈ Finset.Ico (startOf fs v) (startOf fs (v + 1)), row.getD c 0 = ds.counts.getD v 0 := by
      intro v f hf
      have hv := getElem?_lt hf
      have := hb v hv
      rwa [startOf_getD h v (by omega), startOf_getD h (v + 1) (by omega)] at this
    obtain ⟨x, hx1, hx2, hx3⟩ := exportRow_legal h row hlen (by
      intro v f hf
      refine ⟨(hb' v f hf).1, ?_⟩
      rw [(hb' v f hf).2]
      by_cases ho : Observed fs data v
      · exact .inr ((hd.counts v f hf).1 ho)
      · exact .inl ((hd.counts v f hf).2 ho))
    -- hidden values are dropped
    obtain ⟨vis, hv, e3⟩ := exportRow_spec h x hx1
    rw [← hx2, hx3] at e3
    injection e3 with e3
    have hvis : ∀ f ∈ fs, x f = vis f := by
      intro f hf
      rw [← get?_filterMap h.nodup x f hf, e3, get?_filterMap h.nodup vis f hf]
    refine ⟨x :: xs, ?_, .cons ⟨hx2, fun v f hf => ⟨hx1 f (List.mem_of_getElem? hf), fun hh => ?_, fun hh => ?_⟩⟩ e2⟩
    · rw [List.mapM_cons, hx3, e1]; rfl
    · have hm := List.mem_of_getElem? hf
      obtain ⟨b1, b2⟩ := blockOf_sum f.2 (fun vs e => (h.cats f.1 vs (by rw [← e]; exact hm)).1) (x f) (hx1 f hm)
      have hsum := (hb' v f hf).2
      rw [hx2, internalRow_sum x v f hf] at hsum
      have htot : f.2.total ≠ 0 := by
        obtain ⟨n, F⟩ := f
        cases F with
        | cat vs => simp [Feature.total]
        | ord lo hi =>
          have : lo ≠ hi := hh
          simp only [Feature.total]
          omega
      constructor
      · intro hne
        by_contra hno
        rw [b2 hne, (hd.counts v f hf).2 hno] at hsum
        exact htot hsum
      · intro ho hnone
        rw [b1 hnone, (hd.counts v f hf).1 ho] at hsum
        exact htot hsum.symm
    · rw [hvis f (List.mem_of_getElem? hf)]
      exact (hv f (List.mem_of_getElem? hf)).2 hh

theorem legal_row (h : Describes S fs) {data : List (List Int)} (x : Str × Feature → Option Json)
    (hx : ∀ (v : Nat) f, fs[v]? = some f → (∀ j, x f = some j → Canon f.2 j) ∧ (¬ Hidden f.2 → (x f ≠ none ↔ Observed fs data v)) ∧ (Hidden f.2 → x f = none)) :
    (Dict.keys (fs.filterMap fun f => (x f).map fun j => (f.1, j))).Nodup ∧
    (∀ nj ∈ fs.filterMap fun f => (x f).map fun j => (f.1, j), ∃ F, (nj.1, F) ∈ fs ∧ Canon F nj.2) ∧
    ∀ (v : Nat) f, fs[v]? = some f → ¬ Hidden f.2 → (f.1 ∈ Dict.keys (fs.filterMap fun f => (x f).map fun j => (f.1, j)) ↔ Observed fs data v) := by
  refine ⟨keys_filterMap h.nodup x, ?_, ?_⟩
  · intro nj hnj
    obtain ⟨f, hf, e⟩ := List.mem_filterMap.1 hnj
    obtain ⟨j, hj, rfl⟩ := Option.map_eq_some_iff.1 e
    obtain ⟨v, hv⟩ := List.mem_iff_getElem?.1 hf
    exact ⟨f.2, hf, (hx v f hv).1 j hj⟩
  · intro v f hf hh
    rw [← (hx v f hf).2.1 hh, Dict.mem_keys, get?_filterMap h.nodup x f (List.mem_of_getElem? hf)]
    exact Option.ne_none_iff_exists'.symm

/-- **C32**: for every imported dataset, every ensemble of valid models, and any evidence that can be read, `sample` succeeds
whatever the random outcome, and each of the `N` rows has exactly the features that the dataset ever
observes, each with a legal value. (An ordinal with a single possible value is never observed.) -/
theorem dataServer_sample (h : Describes S fs) (hfit : Fits fs) {data : List (List Int)} (E : Members models fs.length S.raggedIndex)
    {ds : DataServer K M} (hd : Holds S fs data models ds) (N : Nat) (evidence : Option (Dict Str Json))
    (he : ∀ row ∈ evidence, (Dict.keys row).Nodup ∧ Readable T fs row) :
    (∃ o, (ds.sample T N evidence : ExceptT PyErr Poss _).run o) ∧
    ∀ o, (ds.sample T N evidence : ExceptT PyErr Poss _).run o → ∃ rows, o = .ok rows ∧ rows.length = N ∧
      ∀ row ∈ rows, (Dict.keys row).Nodup ∧ (∀ nj ∈ row, ∃ F, (nj.1, F) ∈ fs ∧ Canon F nj.2) ∧
        ∀ (v : Nat) f, fs[v]? = some f → ¬ Hidden f.2 → (f.1 ∈ Dict.keys row ↔ Observed fs data v) := by
  change Sure _ _
  have key : ∀ r : Option (List Int), (∀ d ∈ r, d.length = S.raggedIndex.getLastD 0) →
      Sure (do
        let samples ← ds.server.sample N ds.counts r
        liftPy (exportRows ds.schema ds.server.raggedSize samples) : ExceptT PyErr Poss _) fun rows => rows.length = N ∧
      ∀ row ∈ rows, (Dict.keys row).Nodup ∧ (∀ nj ∈ row, ∃ F, (nj.1, F) ∈ fs ∧ Canon F nj.2) ∧
        ∀ (v : Nat) f, fs[v]? = some f → ¬ Hidden f.2 → (f.1 ∈ Dict.keys row ↔ Observed fs data v) := by
    intro r hr
    refine Sure.bind ((anyServer_sample h hfit E hd N r hr).mono fun rows hrows => ?_)
    obtain ⟨xs, e1, e2⟩ := exportRows_counts h hd rows hrows.2
    rw [hd.schema, raggedSize_eq E hd]
    refine Sure.liftPy e1 ⟨by rw [List.length_map, ← e2.length_eq, hrows.1], ?_⟩
    intro row hrow
    obtain ⟨x, hx, rfl⟩ := List.mem_map.1 hrow
    obtain ⟨r0, -, hx'⟩ := forall₂_mem_right e2 hx
    exact legal_row h x hx'.2
  unfold DataServer.sample
  cases evidence with
  | none => exact Sure.bind (Sure.pure (key none (by simp)))
  | some row =>
    obtain ⟨h1, h2⟩ := he row rfl
    have hi := (importRows_spec (T := T) h hfit [row] (by simpa using h1)).1 (by simpa using h2)
    dsimp only
    rw [hd.schema] at key ⊢
    refine Sure.bind (Sure.liftPy hi (Sure.bind (Sure.pure (key _ ?_))))
    intro d hdm
    simp only [List.map_cons, List.map_nil, List.head?_cons, Option.mem_def, Option.some.injEq] at hdm
    rw [← hdm, internalRow_length, describes_last h]

/-! ### Evidence queries -/

/-- **C33** is false: with evidence, `logprob` raises for all rows and all evidence, whatever the server holds. -/
theorem dataServer_logprob_evidence (num : ServeNum K) (ds : DataServer K M) (rows : RowsArg) (evidence : Dict Str Json) :
    ∃ e, ds.logprob T num rows (some evidence) = .error e := by
  unfold DataServer.logprob
  cases importRows T ds.schema rows with
  | error e => exact ⟨e, rfl⟩
  | ok data =>
    simp only [bind, Except.bind]
    cases importRows T ds.schema (.list [evidence]) with
    | error e => exact ⟨e, rfl⟩
    | ok ragged =>
      simp only
      cases ds.server.logprob num (addEvidence data (ragged.headD [])) with
      | error e => exact ⟨e, rfl⟩
      | ok lps =>
        simp only
        split <;> exact ⟨_, rfl⟩

/-- **C33** is false: with a dict as evidence, `median` and `mode` raise an `AssertionError`. With the evidence wrapped in a list,
`median` of an ensemble and `mode` still raise. -/
theorem dataServer_median_dict (junk : Nat → Fin M → K) (ds : DataServer K M) (evidence : Dict Str Json) (arg : RowsArg) :
    ds.median T junk (.dict evidence) = .error .assertion ∧ ds.mode T (.dict evidence) = .error .assertion ∧
    (∃ e, ds.mode T arg = .error e) ∧ ∀ ens, ds.server = .many ens → ∃ e, ds.median T junk arg = .error e := by
  refine ⟨rfl, rfl, ?_, fun ens he => ?_⟩
  · unfold DataServer.mode
    cases importRows T ds.schema arg with
    | error e => exact ⟨e, rfl⟩
    | ok data => exact ⟨_, rfl⟩
  · unfold DataServer.median
    cases importRows T ds.schema arg with
    | error e => exact ⟨e, rfl⟩
    | ok data =>
      rw [he]
      exact ⟨_, rfl⟩

/-- **C33**, the part of `median` that works: for a single model, and with the evidence in a list, every returned row has
exactly the features that the dataset ever observes, each with a legal value. Missing: the documented
argument, a dict, raises (`dataServer_median_dict`). -/
theorem dataServer_median_partial (h : Describes S fs) (hfit : Fits fs) {data : List (List Int)} {model : Model K M}
    (E : Members [model] fs.length S.raggedIndex) {ds : DataServer K M} (hd : Holds S fs data [model] ds) (srv : Server K M) (hsrv : ds.server = .one srv)
    (junk : Nat → Fin M → K) (evidence : List (Dict Str Json)) (he : ∀ row ∈ evidence, (Dict.keys row).Nodup ∧ Readable T fs row) :
    ∃ rows, ds.median T junk (.list evidence) = .ok rows ∧ rows.length = evidence.length ∧
      ∀ row ∈ rows, (Dict.keys row).Nodup ∧ (∀ nj ∈ row, ∃ F, (nj.1, F) ∈ fs ∧ Canon F nj.2) ∧
        ∀ (v : Nat) f, fs[v]? = some f → ¬ Hidden f.2 → (f.1 ∈ Dict.keys row ↔ Observed fs data v) := by
  have hi := (importRows_spec (T := T) h hfit evidence fun r hr => (he r hr).1).1 fun r hr => (he r hr).2
  have hs := hd.server
  rw [hsrv] at hs
  obtain ⟨m', e, s1, -⟩ := hs
  injection e with e
  subst e
  have hsize := E.size model (by simp)
  have hidx := E.index model (by simp)
  obtain ⟨c1, c2⟩ := holds_counts h hfit hd
  obtain ⟨marg, -, hml, rows, em, hrows⟩ := server_median (E.valid model (by simp)) s1 junk ds.counts (by rw [hsize]; exact hd.length) c1 (by
      rw [hsize]
      intro v hv hpos
      unfold columns
      rw [hidx, Finset.nonempty_Ico]
      exact c2 v hv hpos) (evidence.map fun row => internalRow fs (valueOf T row)) (by
      intro row hrow
      obtain ⟨r, -, rfl⟩ := List.mem_map.1 hrow
      rw [hidx, internalRow_length, describes_last h])
  have hlegal : ∀ row ∈ rows, row.length = S.raggedIndex.getLastD 0 ∧ ∀ v < fs.length,
      (∀ c ∈ Finset.Ico (S.raggedIndex.getD v 0) (S.raggedIndex.getD (v + 1) 0), 0 ≤ row.getD c 0) ∧
      ∑ c ∈ Finset.Ico (S.raggedIndex.getD v 0) (S.raggedIndex.getD (v + 1) 0), row.getD c 0 = ds.counts.getD v 0 := by
    unfold columns at hrows
    rw [hsize, hidx] at hrows
    clear * - hrows
    induction hrows with
    | nil => simp
    | cons hab _ ih =>
      intro row hrow
      rcases List.mem_cons.1 hrow with rfl | hrow
      · exact ⟨hab.1, fun v hv => ⟨(hab.2 v hv).1, (hab.2 v hv).2.1⟩⟩
      · exact ih row hrow
  obtain ⟨xs, e1, e2⟩ := exportRows_counts h hd rows hlegal
  refine ⟨xs.map fun x => fs.filterMap fun f => (x f).map fun j => (f.1, j), ?_, ?_, ?_⟩
  rotate_left
  · rw [List.length_map, ← e2.length_eq, ← hrows.length_eq, hml, List.length_map]
  · intro row hrow
    obtain ⟨x, hx, rfl⟩ := List.mem_map.1 hrow
    obtain ⟨r0, -, hx'⟩ := forall₂_mem_right e2 hx
    exact legal_row h x hx'.2
  · unfold DataServer.median
    rw [hd.schema, hi]
    simp only [bind, Except.bind, AnyServer.median, hsrv, em]
    have := raggedSize_eq E hd
    rw [hsrv] at this
    rw [this]
    exact e1

end

/-- **C33**, the part of `logprob` that works: without evidence, the probability of each row is its mean probability under the
models. Missing: with evidence it always raises (`dataServer_logprob_evidence`). -/
theorem dataServer_logprob_partial {M : Nat} [NeZero M] {models : List (Model ℝ M)} (h : Describes S fs) (hfit : Fits fs) {data : List (List Int)}
    (E : Members models fs.length S.raggedIndex) {ds : DataServer ℝ M} (hd : Holds S fs data models ds) (rows : List (Dict Str Json))
    (hr : ∀ row ∈ rows, (Dict.keys row).Nodup ∧ Readable T fs row) :
    ∃ lps : List ℝ, ds.logprob T realNum (.list rows) none = .ok (lps.map some) ∧
      lps.map Real.exp = rows.map fun row => meanOf models fun m => dataProb m fun r => (internalRow fs (valueOf T row)).getD r 0 := by
  have hi := (importRows_spec (T := T) h hfit rows fun r hr' => (hr r hr').1).1 fun r hr' => (hr r hr').2
  have hlen : ∀ row ∈ rows.map fun row => internalRow fs (valueOf T row), row.length = S.raggedIndex.getLastD 0 := by
    intro row hrow
    obtain ⟨r, -, rfl⟩ := List.mem_map.1 hrow
    rw [internalRow_length, describes_last h]
  unfold DataServer.logprob
  rw [hd.schema, hi]
  simp only [bind, Except.bind, AnyServer.logprob]
  have hs := hd.server
  split at hs
  · rename_i srv hsrv
    obtain ⟨model, rfl, s1, -⟩ := hs
    obtain ⟨lp, e1, e2⟩ := server_logprob_of (E.valid model (by simp)) s1 _ (by rw [E.index model (by simp)]; exact hlen)
    refine ⟨rows.map fun row => lp (internalRow fs (valueOf T row)), ?_, ?_⟩
    · rw [hsrv]
      simp only [e1, List.map_map]
      rfl
    · rw [List.map_map]
      refine List.map_congr_left fun row _ => ?_
      rw [Function.comp_apply, e2]
      simp [meanOf]
  · rename_i ens hsrv
    obtain ⟨s1, -⟩ := hs
    obtain ⟨lps, e1, e2⟩ := ensemble_logprob E (s1.imp fun _ _ hh => hh.1) _ hlen
    refine ⟨lps, ?_, ?_⟩
    · rw [hsrv]
      simp only [e1]
    · rw [e2, List.map_map]
      rfl

end TreeCat
