import Mathlib.Data.List.Basic
import Mathlib.Tactic.Linarith
import Mathlib.Data.List.Indexes
import Verif.Model.Util

/-!
# C15: `parallel_map` is `map`
-/

namespace TreeCat.Util

variable {α β : Type}

/-- Chunk ids that cover `n` arguments, `range(ceil(n / size))`. -/
def IsSchedule (n size : Nat) (schedule : List Nat) : Prop :=
  schedule.Perm (List.range ((n + size - 1) / size))

theorem mapM_ok (f : α → Py β) (g : α → β) (args : List α) (h : ∀ a ∈ args, f a = .ok (g a)) :
    args.mapM f = .ok (args.map g) := by
  induction args with
  | nil => rfl
  | cons a args ih =>
    rw [List.mapM_cons, h a (by simp), ih (fun b hb => h b (by simp [hb]))]
    rfl

theorem mapM_error (f : α → Py β) (args : List α) (e : PyErr) (h : args.mapM f = .error e) :
    ∃ a ∈ args, f a = .error e := by
  induction args with
  | nil => cases h
  | cons a args ih =>
    rw [List.mapM_cons] at h
    cases hfa : f a with
    | error e' =>
      rw [hfa] at h
      cases h
      exact ⟨a, by simp, hfa⟩
    | ok b =>
      rw [hfa] at h
      cases hr : args.mapM f with
      | error e' =>
        rw [hr] at h
        cases h
        obtain ⟨a', ha', he⟩ := ih hr
        exact ⟨a', by simp [ha'], he⟩
      | ok bs => rw [hr] at h; cases h

theorem mapM_isError (f : α → Py β) (args : List α) (a : α) (ha : a ∈ args) (e : PyErr)
    (h : f a = .error e) : ∃ e', args.mapM f = .error e' := by
  cases hm : args.mapM f with
  | error e' => exact ⟨e', rfl⟩
  | ok bs =>
    exfalso
    induction args generalizing bs with
    | nil => simp at ha
    | cons a' args ih =>
      rw [List.mapM_cons] at hm
      cases hfa : f a' with
      | error e' => rw [hfa] at hm; cases hm
      | ok b =>
        rw [hfa] at hm
        cases hr : args.mapM f with
        | error e' => rw [hr] at hm; cases hm
        | ok bs' =>
          rcases List.mem_cons.1 ha with rfl | ha
          · rw [hfa] at h; cases h
          · exact ih ha bs' hr

theorem chunkSize_pos (n threads : Nat) (hn : 0 < n) (ht : 0 < threads) : 0 < chunkSize n threads := by
  unfold chunkSize
  split
  · rename_i h
    have h4 : 0 < threads * 4 := by omega
    exact Nat.div_pos (Nat.le_of_dvd hn (Nat.dvd_of_mod_eq_zero h)) h4
  · exact Nat.succ_pos _

theorem foldl_success (f : α → Py β) (g : α → β) (args : List α) (size : Nat) (hs : 0 < size)
    (h : ∀ a ∈ args, f a = .ok (g a)) (schedule : List Nat) (r : MapResult β)
    (hr : r.failure = none) (hv : r.value.length = args.length)
    (hgood : ∀ j : Nat, r.value[j]? = some none ∨ r.value[j]? = (args[j]?).map (fun a => some (g a))) :
    let r' := schedule.foldl (completeChunk f args size) r
    r'.failure = none ∧ r'.value.length = args.length ∧
      (∀ j : Nat, r'.value[j]? = some none ∨ r'.value[j]? = (args[j]?).map (fun a => some (g a))) ∧
      (∀ j < args.length, (j / size ∈ schedule ∨ r.value[j]? ≠ some none) →
        r'.value[j]? = (args[j]?).map (fun a => some (g a))) := by
  induction schedule generalizing r with
  | nil =>
    refine ⟨hr, hv, hgood, fun j _ hj => ?_⟩
    rcases hj with hj | hj
    · simp at hj
    · exact (hgood j).resolve_left hj
  | cons i schedule ih =>
    have hchunk : ((args.drop (i * size)).take size).mapM f
        = .ok (((args.drop (i * size)).take size).map g) :=
      mapM_ok f g _ fun a ha => h a (List.mem_of_mem_drop (List.mem_of_mem_take ha))
    set r1 := completeChunk f args size r i with hr1
    have hval : ∀ j < args.length, r1.value[j]? =
        if i * size ≤ j ∧ j < i * size + size then (args[j]?).map (fun a => some (g a)) else r.value[j]? := by
      intro j hj
      simp only [hr1, completeChunk, hchunk, List.getElem?_mapIdx]
      rw [List.getElem?_eq_getElem (show j < r.value.length by omega)]
      simp only [Option.map_some]
      split
      · rename_i hin
        rw [List.getElem?_map, List.getElem?_take, if_pos (by omega), List.getElem?_drop,
          show i * size + (j - i * size) = j by omega, List.getElem?_eq_getElem hj]
        rfl
      · rfl
    have hf : r1.failure = none := by simp [hr1, completeChunk, hchunk, hr]
    have hl : r1.value.length = args.length := by simp [hr1, completeChunk, hchunk, hv]
    have hg : ∀ j : Nat, r1.value[j]? = some none ∨ r1.value[j]? = (args[j]?).map (fun a => some (g a)) := by
      intro j
      by_cases hj : j < args.length
      · rw [hval j hj]
        split
        · exact .inr rfl
        · exact hgood j
      · right
        rw [List.getElem?_eq_none (by omega), List.getElem?_eq_none (by omega)]; rfl
    obtain ⟨a, b, c, d⟩ := ih r1 hf hl hg
    refine ⟨a, b, c, fun j hj hjs => d j hj ?_⟩
    have hin : j / size = i → r1.value[j]? ≠ some none := by
      rintro rfl
      rw [hval j hj, if_pos ?_, List.getElem?_eq_getElem hj]
      · simp
      · exact ⟨Nat.div_mul_le_self j size, Nat.lt_div_mul_add hs⟩
    rcases hjs with hjs | hjs
    · rcases List.mem_cons.1 hjs with hjs | hjs
      · exact .inr (hin hjs)
      · exact .inl hjs
    · right
      rw [hval j hj]
      split
      · rw [List.getElem?_eq_getElem hj]; simp
      · exact hjs

/-- **C15** (pool, all calls succeed). -/
theorem poolMap_ok (f : α → Py β) (g : α → β) (args : List α) (size : Nat) (hs : 0 < size)
    (schedule : List Nat) (hsch : IsSchedule args.length size schedule)
    (h : ∀ a ∈ args, f a = .ok (g a)) :
    poolMap f args size schedule = .ok (args.map g) := by
  obtain ⟨h1, h2, -, h4⟩ := foldl_success f g args size hs h schedule
    ⟨args.map fun _ => none, none⟩ rfl (by simp) (fun j => by
      by_cases hj : j < args.length
      · left; simp [hj]
      · right; simp [hj])
  have hval : (schedule.foldl (completeChunk f args size) ⟨args.map fun _ => none, none⟩).value
      = args.map (fun a => some (g a)) := by
    apply List.ext_getElem?
    intro j
    by_cases hj : j < args.length
    · rw [h4 j hj (.inl ?_), List.getElem?_map]
      rw [hsch.mem_iff, List.mem_range]
      rw [Nat.div_lt_iff_lt_mul hs]
      have := Nat.lt_div_mul_add (a := args.length + size - 1) hs
      omega
    · rw [List.getElem?_eq_none (by omega), List.getElem?_eq_none (by simp; omega)]
  have hm : (args.map (fun a => some (g a))).mapM id = some (args.map g) := by
    clear h h1 h2 h4 hval hsch
    induction args with
    | nil => rfl
    | cons a args ih => simp [List.mapM_cons, ih]
  simp only [poolMap, h1, hval, hm]

theorem foldl_failure (f : α → Py β) (args : List α) (size : Nat) (schedule : List Nat)
    (r : MapResult β) (hr : ∀ e, r.failure = some e → ∃ a ∈ args, f a = .error e) :
    let r' := schedule.foldl (completeChunk f args size) r
    (∀ e, r'.failure = some e → ∃ a ∈ args, f a = .error e) ∧
    ((r.failure.isSome ∨ ∃ i ∈ schedule, ∃ e, ((args.drop (i * size)).take size).mapM f = .error e) →
      r'.failure.isSome) := by
  induction schedule generalizing r with
  | nil => exact ⟨hr, by simp⟩
  | cons i schedule ih =>
    have step : (∀ e, (completeChunk f args size r i).failure = some e → ∃ a ∈ args, f a = .error e) ∧
        ((r.failure.isSome ∨ ∃ e, ((args.drop (i * size)).take size).mapM f = .error e) →
          (completeChunk f args size r i).failure.isSome) := by
      unfold completeChunk
      cases hm : ((args.drop (i * size)).take size).mapM f with
      | ok ys => exact ⟨hr, by rintro (h | ⟨e, h⟩); exact h; cases h⟩
      | error e =>
        refine ⟨fun e' he' => ?_, fun _ => by cases hrf : r.failure <;> simp⟩
        cases hrf : r.failure with
        | none =>
          simp only [hrf, Option.none_or, Option.some.injEq] at he'
          subst he'
          obtain ⟨a, ha, hfa⟩ := mapM_error f _ _ hm
          exact ⟨a, List.mem_of_mem_drop (List.mem_of_mem_take ha), hfa⟩
        | some e0 =>
          simp only [hrf, Option.some_or, Option.some.injEq] at he'
          subst he'
          exact hr _ hrf
    obtain ⟨h1, h2⟩ := ih (completeChunk f args size r i) step.1
    refine ⟨h1, fun h => h2 ?_⟩
    rcases h with h | ⟨j, hj, e, he⟩
    · exact .inl (step.2 (.inl h))
    · rcases List.mem_cons.1 hj with rfl | hj
      · exact .inl (step.2 (.inr ⟨e, he⟩))
      · exact .inr ⟨j, hj, e, he⟩

/-- **C15** (pool, some call raises): the result is an exception that one of the
calls raised. -/
theorem poolMap_error (f : α → Py β) (args : List α) (size : Nat) (hs : 0 < size)
    (schedule : List Nat) (hsch : IsSchedule args.length size schedule)
    (h : ∃ a ∈ args, ∃ e, f a = .error e) :
    ∃ a ∈ args, ∃ e, f a = .error e ∧ poolMap f args size schedule = .error e := by
  obtain ⟨a, ha, e, he⟩ := h
  obtain ⟨j, hj, rfl⟩ := List.getElem_of_mem ha
  obtain ⟨h1, h2⟩ := foldl_failure f args size schedule ⟨args.map fun _ => none, none⟩
    (fun e he => by simp at he)
  have : (schedule.foldl (completeChunk f args size) ⟨args.map fun _ => none, none⟩).failure.isSome := by
    refine h2 (.inr ⟨j / size, ?_, ?_⟩)
    · rw [hsch.mem_iff, List.mem_range, Nat.div_lt_iff_lt_mul hs]
      have := Nat.lt_div_mul_add (a := args.length + size - 1) hs
      omega
    · apply mapM_isError f _ args[j] _ e he
      have hle := Nat.div_mul_le_self j size
      have hlt := Nat.lt_div_mul_add (a := j) hs
      rw [List.mem_iff_getElem?]
      refine ⟨j - j / size * size, ?_⟩
      rw [List.getElem?_take, if_pos (by omega), List.getElem?_drop,
        show j / size * size + (j - j / size * size) = j by omega, List.getElem?_eq_getElem hj]
  obtain ⟨e', he'⟩ := Option.isSome_iff_exists.1 this
  obtain ⟨a', ha', hfa'⟩ := h1 e' he'
  exact ⟨a', ha', e', hfa', by simp only [poolMap, he']⟩

/-- A thread count and existing pool are usable: at least one worker. -/
def PoolOk (threads : Nat) (pool : PoolState) : Prop :=
  0 < threads ∧ ∀ n, pool = some n → 0 < n

/-- **C15**. Whatever the thread count, the existing pool and the order in which
workers finish, `parallel_map f args` is `[f a for a in args]` in argument order.
The chunk ids in `schedule` only matter when the pool is used. -/
theorem parallelMap_ok (f : α → Py β) (g : α → β) (args : List α) (threads : Nat)
    (pool : PoolState) (hp : PoolOk threads pool) (schedule : List Nat)
    (hsch : IsSchedule args.length (chunkSize args.length (pool.getD threads)) schedule)
    (h : ∀ a ∈ args, f a = .ok (g a)) :
    (parallelMap f args threads schedule pool).2 = .ok (args.map g) ∧
    PoolOk threads (parallelMap f args threads schedule pool).1 := by
  unfold parallelMap
  split
  · exact ⟨mapM_ok f g args h, hp⟩
  · rename_i hn
    have hpos : 0 < pool.getD threads := by
      cases hpool : pool with
      | none => exact hp.1
      | some n => exact hp.2 n hpool
    refine ⟨poolMap_ok f g args _ (chunkSize_pos _ _ (by omega) hpos) schedule hsch h, hp.1, ?_⟩
    rintro n hn
    cases hn
    exact hpos

/-- **C15** (exceptions). If some call raises, `parallel_map` raises an exception
that one of the calls raised. -/
theorem parallelMap_error (f : α → Py β) (args : List α) (threads : Nat)
    (pool : PoolState) (hp : PoolOk threads pool) (schedule : List Nat)
    (hsch : IsSchedule args.length (chunkSize args.length (pool.getD threads)) schedule)
    (h : ∃ a ∈ args, ∃ e, f a = .error e) :
    ∃ a ∈ args, ∃ e, f a = .error e ∧
      (parallelMap f args threads schedule pool).2 = .error e := by
  unfold parallelMap
  split
  · obtain ⟨a, ha, e, he⟩ := h
    obtain ⟨e', he'⟩ := mapM_isError f args a ha e he
    obtain ⟨a', ha', hfa'⟩ := mapM_error f args e' he'
    exact ⟨a', ha', e', hfa', he'⟩
  · rename_i hn
    have hpos : 0 < pool.getD threads := by
      cases hpool : pool with
      | none => exact hp.1
      | some n => exact hp.2 n hpool
    exact poolMap_error f args _ (chunkSize_pos _ _ (by omega) hpos) schedule hsch h

example : IsSchedule 9 (chunkSize 9 1) [2, 0, 1] := by
  unfold IsSchedule; decide
example : (parallelMap (fun n : Nat => .ok (n * n)) [1, 2, 3, 4, 5, 6, 7, 8, 9] 2 [2, 0, 1]
    (some 1)).2 = .ok [1, 4, 9, 16, 25, 36, 49, 64, 81] := by decide

end TreeCat.Util
