import Verif.Lemmas.Config

/-!
# C41, C42: configuration dicts and their strings
-/

namespace TreeCat.Config

/-- `sortedKeys` really is the sorted list of `DEFAULT_CONFIG`'s keys. -/
theorem sortedKeys_sorted :
    sortedKeys.Pairwise (· < ·) ∧ sortedKeys.Perm (keys defaultConfig) := by
  constructor <;> decide

/-- Two dicts are equal as Python dicts: same value under every key. -/
def DictEq (c d : Config) : Prop := ∀ k, lookup c k = lookup d k

/-- A dict with exactly the nine config keys, as `serialize_config` asserts. -/
def IsConfig (c : Config) : Prop := (keys c).Perm (keys defaultConfig)

/-! ## C42 -/

theorem foldlM_step (opts : List (String × Int)) (hn : (keys opts).Nodup) (c : Config) :
    ((∀ k ∈ keys opts, k ∈ keys c) →
      ∃ d, opts.foldlM makeConfigStep c = (.ok d : Py Config) ∧ keys d = keys c ∧
        ∀ k, lookup d k = (lookup opts k).or (lookup c k)) ∧
    ((∃ k ∈ keys opts, k ∉ keys c) →
      opts.foldlM makeConfigStep c = (.error .valueError : Py Config)) := by
  induction opts generalizing c with
  | nil => exact ⟨fun _ => ⟨c, rfl, rfl, fun k => by simp [lookup]⟩, fun ⟨k, hk, _⟩ => by simp [keys] at hk⟩
  | cons p opts ih =>
    obtain ⟨a, b⟩ := p
    simp only [keys, List.map_cons, List.nodup_cons] at hn
    by_cases ha : a ∈ keys c
    · have hstep : makeConfigStep c (a, b) = .ok (assign c a b) := by
        simp [makeConfigStep, ha]
      have hfold : ((a, b) :: opts).foldlM makeConfigStep c
          = (opts.foldlM makeConfigStep (assign c a b) : Py Config) := by
        simp [List.foldlM_cons, hstep]
        rfl
      rw [hfold]
      obtain ⟨h1, h2⟩ := ih hn.2 (assign c a b)
      rw [keys_assign] at h1 h2
      refine ⟨fun hall => ?_, fun ⟨k, hk, hkc⟩ => h2 ⟨k, ?_, hkc⟩⟩
      · obtain ⟨d, hd, hkd, hl⟩ := h1 (fun k hk => hall k (by simp [keys] at hk ⊢; exact .inr hk))
        refine ⟨d, hd, hkd, fun k => ?_⟩
        rw [hl k, lookup_assign]
        by_cases hak : a = k
        · subst hak
          have : lookup opts a = none := by
            cases h : lookup opts a with
            | none => rfl
            | some v =>
              have := (lookup_isSome opts a).1 (by simp [h])
              exact absurd this hn.1
          obtain ⟨w, hw⟩ := Option.isSome_iff_exists.1 ((lookup_isSome c a).2 ha)
          simp [lookup, this, hw]
        · simp [lookup, hak]
      · simp only [keys, List.map_cons, List.mem_cons] at hk
        rcases hk with rfl | hk
        · exact absurd ha hkc
        · exact hk
    · have hstep : makeConfigStep c (a, b) = .error .valueError := by
        simp [makeConfigStep, ha]
      refine ⟨fun hall => absurd (hall a (by simp [keys])) ha, fun _ => ?_⟩
      simp [List.foldlM_cons, hstep]
      rfl

/-- **C42** (accepted options). If every option names a known key, `make_config`
returns a dict with the default keys in which each given option has its given
value and every other key its default. -/
theorem makeConfig_ok (opts : List (String × Int)) (hn : (keys opts).Nodup)
    (h : ∀ k ∈ keys opts, k ∈ keys defaultConfig) :
    ∃ c, makeConfig opts = .ok c ∧ keys c = keys defaultConfig ∧
      (∀ k v, (k, v) ∈ opts → lookup c k = some v) ∧
      (∀ k, k ∉ keys opts → lookup c k = lookup defaultConfig k) := by
  obtain ⟨c, hc, hk, hl⟩ := (foldlM_step opts hn defaultConfig).1 h
  refine ⟨c, hc, hk, fun k v hkv => ?_, fun k hko => ?_⟩
  · rw [hl k]
    have : lookup opts k = some v := by
      clear hc hk hl h
      induction opts with
      | nil => simp at hkv
      | cons p opts ih =>
        obtain ⟨a, b⟩ := p
        simp only [keys, List.map_cons, List.nodup_cons] at hn
        rcases List.mem_cons.1 hkv with h | h
        · cases h; simp [lookup]
        · have : k ∈ keys opts := List.mem_map.2 ⟨(k, v), h, rfl⟩
          have hne : a ≠ k := fun e => hn.1 (e ▸ this)
          simp [lookup, hne, ih hn.2 h]
    simp [this]
  · rw [hl k]
    have : lookup opts k = none := by
      cases h : lookup opts k with
      | none => rfl
      | some v => exact absurd ((lookup_isSome opts k).1 (by simp [h])) hko
    simp [this]

/-- **C42** (rejected options). Any unknown option raises `ValueError`. -/
theorem makeConfig_unknown (opts : List (String × Int)) (hn : (keys opts).Nodup)
    (k : String) (hk : k ∈ keys opts) (hu : k ∉ keys defaultConfig) :
    makeConfig opts = .error .valueError :=
  (foldlM_step opts hn defaultConfig).2 ⟨k, hk, hu⟩

example : ∃ c, makeConfig [("seed", 7), ("model_num_clusters", 4)] = .ok c ∧
    lookup c "seed" = some 7 ∧ lookup c "learning_full_epochs" = some 1 := ⟨_, rfl, by decide, by decide⟩
example : makeConfig [("sede", 7)] = .error .valueError := rfl

theorem mutateLoop_spec (h : Heap) (a : Nat) (opts : List (String × Int)) (c : Config)
    (hc : h[a]? = some c) :
    (∀ b, b ≠ a → (mutateLoop h a opts).1[b]? = h[b]?) ∧
    (mutateLoop h a opts).1.length = h.length ∧
    (∀ d, opts.foldlM makeConfigStep c = (.ok d : Py Config) →
      (mutateLoop h a opts).2 = .ok () ∧ (mutateLoop h a opts).1[a]? = some d) ∧
    (∀ e, opts.foldlM makeConfigStep c = (.error e : Py Config) →
      (mutateLoop h a opts).2 = .error e) := by
  induction opts generalizing h c with
  | nil =>
    simp only [mutateLoop, List.foldlM_nil]
    refine ⟨fun _ _ => trivial, trivial, fun d hd => ⟨trivial, ?_⟩, fun e he => ?_⟩
    · cases hd; exact hc
    · cases he
  | cons kv opts ih =>
    have halt : a < h.length := (List.getElem?_eq_some_iff.1 hc).1
    by_cases hk : kv.1 ∈ keys c
    · have hstep : makeConfigStep c kv = .ok (assign c kv.1 kv.2) := by simp [makeConfigStep, hk]
      have hfold : (kv :: opts).foldlM makeConfigStep c
          = (opts.foldlM makeConfigStep (assign c kv.1 kv.2) : Py Config) := by
        simp [List.foldlM_cons, hstep]; rfl
      have hm : mutateLoop h a (kv :: opts) = mutateLoop (h.set a (assign c kv.1 kv.2)) a opts := by
        simp [mutateLoop, hc, hk]
      obtain ⟨i1, i2, i3, i4⟩ := ih (h.set a (assign c kv.1 kv.2)) (assign c kv.1 kv.2) (by simp [halt])
      rw [hm, hfold]
      refine ⟨fun b hb => ?_, by simpa using i2, i3, i4⟩
      rw [i1 b hb, List.getElem?_set_ne (Ne.symm hb)]
    · have hstep : makeConfigStep c kv = .error .valueError := by simp [makeConfigStep, hk]
      have hfold : (kv :: opts).foldlM makeConfigStep c = (.error .valueError : Py Config) := by
        simp [List.foldlM_cons, hstep]; rfl
      have hm : mutateLoop h a (kv :: opts) = (h, .error .valueError) := by
        simp [mutateLoop, hc, hk]
      rw [hm, hfold]
      exact ⟨fun _ _ => rfl, rfl, fun d hd => (nomatch hd), fun e he => by cases he; rfl⟩

/-- **C42** (no aliasing). Whatever sequence of `make_config` calls and
mutations of returned dicts has happened, `DEFAULT_CONFIG` still has its
original value; and a further call returns a dict at a fresh address with the
same contents as the pure function `makeConfig` gives. -/
theorem default_config_never_changes (ops : List HeapOp) (opts : List (String × Int)) :
    let h := ops.foldl Heap.step Heap.init
    h[0]? = some defaultConfig ∧
    (∀ c, makeConfig opts = .ok c →
      ∃ h', makeConfigHeap h opts = (h', .ok h.length) ∧ h'[h.length]? = some c ∧
        ∀ b < h.length, h'[b]? = h[b]?) ∧
    (∀ e, makeConfig opts = .error e → (makeConfigHeap h opts).2 = .error e) := by
  have call : ∀ (h : Heap) (opts : List (String × Int)), h[0]? = some defaultConfig →
      (∀ b < h.length, (makeConfigHeap h opts).1[b]? = h[b]?) ∧
      (∀ c, makeConfig opts = .ok c →
        (makeConfigHeap h opts).2 = .ok h.length ∧ (makeConfigHeap h opts).1[h.length]? = some c) ∧
      (∀ e, makeConfig opts = .error e → (makeConfigHeap h opts).2 = .error e) := by
    intro h opts h0
    have hc : (h ++ [(h[0]?).getD []])[h.length]? = some defaultConfig := by simp [h0]
    obtain ⟨i1, i2, i3, i4⟩ := mutateLoop_spec _ h.length opts defaultConfig hc
    simp only [makeConfigHeap]
    generalize mutateLoop (h ++ [(h[0]?).getD []]) h.length opts = r at *
    obtain ⟨h2, e⟩ := r
    refine ⟨fun b hb => ?_, fun c hcc => ?_, fun e hee => ?_⟩
    · have := i1 b (by omega)
      simp only at this
      simp [this, List.getElem?_append_left hb]
    · obtain ⟨j1, j2⟩ := i3 c hcc
      simp only at j1 j2
      subst j1
      exact ⟨rfl, j2⟩
    · have := i4 e hee
      simp only at this
      subst this
      rfl
  have inv : ∀ (ops : List HeapOp) (h : Heap), h[0]? = some defaultConfig →
      (ops.foldl Heap.step h)[0]? = some defaultConfig := by
    intro ops
    induction ops with
    | nil => intro h h0; exact h0
    | cons op ops ih =>
      intro h h0
      refine ih _ ?_
      have hpos : 0 < h.length := (List.getElem?_eq_some_iff.1 h0).1
      cases op with
      | make opts => simpa [Heap.step, h0] using (call h opts h0).1 0 hpos
      | mutate addr key value =>
        simp only [Heap.step]
        split
        · rw [List.getElem?_set_ne (by omega)]; exact h0
        · exact h0
  have h0 := inv ops Heap.init rfl
  refine ⟨h0, fun c hc => ?_, fun e he => (call _ opts h0).2.2 e he⟩
  obtain ⟨j1, j2⟩ := (call _ opts h0).2.1 c hc
  refine ⟨(makeConfigHeap (ops.foldl Heap.step Heap.init) opts).1, ?_, j2, (call _ opts h0).1⟩
  rw [← j1]

example : (([.make [("seed", 3)], .mutate 0 "seed" 9, .make []] : List HeapOp).foldl
    Heap.step Heap.init).map (lookup · "seed") = [some 0, some 9, some 0] := by decide

/-! ## C41 -/

theorem valuesInOrder_some (c : Config) (h : IsConfig c) :
    ∃ vs, valuesInOrder c = some vs ∧ vs.length = sortedKeys.length ∧
      ∀ i (hi : i < sortedKeys.length), lookup c sortedKeys[i] = vs[i]? := by
  have hmem : ∀ k ∈ sortedKeys, k ∈ keys c := fun k hk =>
    h.symm.subset (sortedKeys_sorted.2.subset hk)
  have gen : ∀ ks : List String, (∀ k ∈ ks, k ∈ keys c) →
      ∃ vs, ks.mapM (lookup c) = some vs ∧ vs.length = ks.length ∧
        ∀ i (hi : i < ks.length), lookup c ks[i] = vs[i]? := by
    intro ks
    induction ks with
    | nil => intro _; exact ⟨[], rfl, rfl, fun i hi => by simp at hi⟩
    | cons k ks ih =>
      intro hk
      obtain ⟨vs, h1, h2, h3⟩ := ih (fun k hk' => hk k (by simp [hk']))
      obtain ⟨v, hv⟩ := Option.isSome_iff_exists.1 ((lookup_isSome c k).2 (hk k (by simp)))
      refine ⟨v :: vs, by simp [List.mapM_cons, hv, h1], by simp [h2], fun i hi => ?_⟩
      cases i with
      | zero => simpa using hv
      | succ i => simpa using h3 i (by simpa using hi)
  exact gen sortedKeys hmem

theorem serialize_eq (c : Config) (h : IsConfig c) :
    ∃ vs, valuesInOrder c = some vs ∧ vs.length = sortedKeys.length ∧
      serializeConfig c = .ok (joinDash (vs.map intStr)) ∧
      ∀ i (hi : i < sortedKeys.length), lookup c sortedKeys[i] = vs[i]? := by
  obtain ⟨vs, h1, h2, h3⟩ := valuesInOrder_some c h
  refine ⟨vs, h1, h2, ?_, h3⟩
  have : (keys c).isPerm sortedKeys = true :=
    List.isPerm_iff.2 (h.trans sortedKeys_sorted.2.symm)
  simp [serializeConfig, this, h1]

theorem dictEq_of_values {c d : Config} (hc : IsConfig c) (hd : IsConfig d)
    (h : ∀ i (hi : i < sortedKeys.length), lookup c sortedKeys[i] = lookup d sortedKeys[i]) :
    DictEq c d := by
  intro k
  by_cases hk : k ∈ sortedKeys
  · obtain ⟨i, hi, rfl⟩ := List.getElem_of_mem hk
    exact h i hi
  · have none_of : ∀ e : Config, IsConfig e → lookup e k = none := by
      intro e he
      cases hl : lookup e k with
      | none => rfl
      | some v =>
        have := (lookup_isSome e k).1 (by simp [hl])
        exact absurd (sortedKeys_sorted.2.symm.subset (he.subset this)) hk
    rw [none_of c hc, none_of d hd]

/-- **C41** (no collisions). Two configs with the same string are equal, for all
integer values including negative ones. -/
theorem serialize_injective (c d : Config) (hc : IsConfig c) (hd : IsConfig d)
    (h : serializeConfig c = serializeConfig d) : DictEq c d := by
  obtain ⟨vs, -, hv2, hv3, hv4⟩ := serialize_eq c hc
  obtain ⟨ws, -, hw2, hw3, hw4⟩ := serialize_eq d hd
  rw [hv3, hw3] at h
  have : vs = ws := joinDash_intStr_inj vs ws (by omega) (by simpa using h)
  subst this
  exact dictEq_of_values hc hd fun i hi => by rw [hv4 i hi, hw4 i hi]

theorem assignAll_spec (ks : List String) (vs : List Int) (c : Config)
    (hl : vs.length = ks.length) (hn : ks.Nodup) (hk : ∀ k ∈ ks, k ∈ keys c)
    (hpos : ∀ v ∈ vs, 0 ≤ v) :
    ∃ d, assignAll c (ks.zip (vs.map intStr)) = .ok d ∧ keys d = keys c ∧
      (∀ i (hi : i < ks.length), lookup d ks[i] = vs[i]?) ∧
      (∀ k, k ∉ ks → lookup d k = lookup c k) := by
  induction ks generalizing vs c with
  | nil => exact ⟨c, by simp [assignAll], rfl, fun i hi => by simp at hi, fun _ _ => rfl⟩
  | cons k ks ih =>
    cases vs with
    | nil => simp at hl
    | cons v vs =>
      have hv : parseInt (intStr v) = some v := parseInt_intStr v
      simp only [List.nodup_cons] at hn
      obtain ⟨d, h1, h2, h3, h4⟩ := ih vs (assign c k v) (by simpa using hl) hn.2
        (fun k' hk' => by rw [keys_assign]; exact hk k' (by simp [hk']))
        (fun v hv => hpos v (by simp [hv]))
      refine ⟨d, by simp [assignAll, hv, h1], by rw [h2, keys_assign], fun i hi => ?_, fun k' hk' => ?_⟩
      · cases i with
        | zero =>
          simp only [List.getElem_cons_zero, List.getElem?_cons_zero]
          rw [h4 k hn.1, lookup_assign, if_pos rfl]
          obtain ⟨w, hw⟩ := Option.isSome_iff_exists.1 ((lookup_isSome c k).2 (hk k (by simp)))
          simp [hw]
        | succ i => simpa using h3 i (by simpa using hi)
      · simp only [List.mem_cons, not_or] at hk'
        rw [h4 k' hk'.2, lookup_assign, if_neg (Ne.symm hk'.1)]

/-- **C41** (round trip, nonnegative values). The full claim is for every
config; it fails for negative values, see `roundtrip_negative_fails`. -/
theorem deserialize_serialize_partial (c : Config) (hc : IsConfig c)
    (hpos : ∀ k v, lookup c k = some v → 0 ≤ v) :
    ∃ s d, serializeConfig c = .ok s ∧ deserializeConfig s = .ok d ∧ IsConfig d ∧ DictEq d c := by
  obtain ⟨vs, -, hv2, hv3, hv4⟩ := serialize_eq c hc
  have hvpos : ∀ v ∈ vs, 0 ≤ v := by
    intro v hv
    obtain ⟨i, hi, rfl⟩ := List.getElem_of_mem hv
    exact hpos sortedKeys[i] _ (by rw [hv4 i (by omega)]; simp)
  have hnodash : ∀ s ∈ vs.map intStr, ∀ c ∈ s, c ≠ '-' := by
    intro s hs ch hch
    obtain ⟨v, hv, rfl⟩ := List.mem_map.1 hs
    have := hvpos v hv
    cases v with
    | ofNat n => exact digit_ne_dash (natDigits_digit n ch hch)
    | negSucc n => exact absurd this (by simp)
  have hne : vs.map intStr ≠ [] := by
    intro e; have := congrArg List.length e; simp [hv2] at this; exact absurd this (by decide)
  have hsplit := splitDash_joinDash _ hnodash hne
  obtain ⟨d, h1, h2, h3, -⟩ := assignAll_spec sortedKeys vs defaultConfig hv2 (by decide)
    (fun k hk => sortedKeys_sorted.2.subset hk) hvpos
  refine ⟨_, d, hv3, ?_, ?_, ?_⟩
  · simp only [deserializeConfig, hsplit, List.length_map, hv2, if_true]
    exact h1
  · rw [IsConfig, h2]
  · exact dictEq_of_values (by rw [IsConfig, h2]) hc fun i hi => by rw [h3 i hi, hv4 i hi]

/-- **C41** (where the round trip fails). A config with any negative value
serialises to a string that `deserialize_config` rejects with an
`AssertionError`: the sign is read as a separator. -/
theorem roundtrip_negative_fails (c : Config) (hc : IsConfig c)
    (k : String) (v : Int) (hk : lookup c k = some v) (hv : v < 0) :
    ∃ s, serializeConfig c = .ok s ∧ deserializeConfig s = .error .assertion := by
  obtain ⟨vs, -, hv2, hv3, hv4⟩ := serialize_eq c hc
  refine ⟨_, hv3, ?_⟩
  have hkin : k ∈ sortedKeys := by
    have := (lookup_isSome c k).1 (by simp [hk])
    exact sortedKeys_sorted.2.symm.subset (hc.subset this)
  obtain ⟨i, hi, rfl⟩ := List.getElem_of_mem hkin
  have hvi := hv4 i hi
  rw [hk] at hvi
  have hmem : v ∈ vs := List.mem_of_getElem? hvi.symm
  have hcount : 0 < vs.countP (· < 0) := List.countP_pos_iff.2 ⟨v, hmem, by simpa using hv⟩
  have hne : vs ≠ [] := by rintro rfl; simp at hmem
  have := dashes_join vs hne
  have hlen := splitDash_length (joinDash (vs.map intStr))
  simp only [deserializeConfig]
  rw [if_neg (by omega)]

example : IsConfig defaultConfig := List.Perm.refl _
example : serializeConfig defaultConfig = .ok "1-1-100-0-3-8-0-32-0".toList := by decide +kernel
example : ∃ c, makeConfig [("seed", -1)] = .ok c ∧ IsConfig c ∧ lookup c "seed" = some (-1) :=
  ⟨_, rfl, List.isPerm_iff.1 (by decide), by decide⟩

end TreeCat.Config
