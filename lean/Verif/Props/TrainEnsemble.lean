import Verif.Model.Ensemble
import Verif.Props.Parallel
import Verif.Props.Config

/-!
# C21: ensembles are independent seeded runs
-/

namespace TreeCat

open Config

variable {K β : Type}

/-- A config with another seed. -/
def withSeed (c : Config) (s : Int) : Config := assign c "seed" s

/-- `d` is the config of the i-th run: the same keys and values as `c`, whose seed is `s`, except
that its seed is `s + i`. -/
structure SubConfig (c : Config) (s : Int) (i : Nat) (d : Config) : Prop where
  keys : keys d = keys c
  seed : lookup d "seed" = some (s + (i : Int))
  rest : ∀ k, k ≠ "seed" → lookup d k = lookup c k

theorem ensembleLoop_ok {c : Config} {s : Int} (a : Nat) (hs : lookup c "seed" = some s) :
    ∀ (is : List Nat) (h : Heap) (tasks : List Nat), h[a]? = some c →
      ensembleLoop a is h tasks = .ok (h ++ is.map (fun (i : Nat) => withSeed c (s + (i : Int))),
        tasks ++ (List.range is.length).map (h.length + ·)) := by
  intro is
  induction is with
  | nil => intro h tasks _; simp [ensembleLoop]
  | cons i is ih =>
    intro h tasks ha
    have hlt : a < h.length := (List.getElem?_eq_some_iff.mp ha).1
    have hstep : ensembleStep a h i = .ok (h ++ [withSeed c (s + (i : Int))], h.length) := by
      simp only [ensembleStep, ha, List.length_append, List.length_singleton, Nat.add_sub_cancel,
        List.getElem?_concat_length, configGet, hs, bind, Except.bind]
      simp [withSeed]
    simp only [ensembleLoop, hstep, bind, Except.bind]
    rw [ih _ _ (by rw [List.getElem?_append_left hlt]; exact ha)]
    simp only [List.length_append, List.length_cons, List.append_assoc, List.map_cons,
      List.singleton_append, List.range_succ_eq_map, List.map_map]
    congr 5
    funext x
    simp only [List.length_nil, Function.comp_apply]
    omega

/-- Code run with the heap of dicts. -/
theorem trainEnsemble_eq {c : Config} {s n : Int} (run : TrainerKind → Table → List K → Config → Py β) (t : Table)
    (prior : List K) (threads : Nat) (schedule : List Nat) (pool : Util.PoolState) (h : Heap) (a : Nat)
    (ha : h[a]? = some c) (hs : lookup c "seed" = some s) (hn : lookup c "model_ensemble_size" = some n) :
    trainEnsemble run t prior threads schedule pool h a =
      .ok (h ++ (List.range n.toNat).map (fun (i : Nat) => withSeed c (s + (i : Int))),
        (Util.parallelMap (runTask run t prior (h ++ (List.range n.toNat).map (fun (i : Nat) => withSeed c (s + (i : Int))))) ((List.range n.toNat).map (h.length + ·)) threads schedule pool).2) := by
  simp only [trainEnsemble, ha, configGet, hn, bind, Except.bind, ensembleLoop_ok a hs _ h [] ha, List.nil_append,
    List.length_range]

/-- **C21**. `train_ensemble` returns exactly `model_ensemble_size` models in order; the i-th is the
result of `train_model` on the same table and prior with a config that has seed `seed + i` and
otherwise agrees with the caller's config. Every dict that existed before the call, in
particular the caller's config, is unchanged. This holds for every thread count, pool and order
in which the workers finish. -/
theorem trainEnsemble_runs {c : Config} {s n : Int} (run : TrainerKind → Table → List K → Config → Py β) (t : Table)
    (prior : List K) (threads : Nat) (schedule : List Nat) (pool : Util.PoolState) (h : Heap) (a : Nat)
    (ha : h[a]? = some c) (hs : lookup c "seed" = some s) (hn : lookup c "model_ensemble_size" = some n)
    (hp : Util.PoolOk threads pool)
    (hsch : Util.IsSchedule n.toNat (Util.chunkSize n.toNat (pool.getD threads)) schedule)
    (hrun : ∀ i < n.toNat, ∀ d, SubConfig c s i d → ∃ m, trainModel run t prior d = .ok m) :
    ∃ h' models, trainEnsemble run t prior threads schedule pool h a = .ok (h', .ok models) ∧
      models.length = n.toNat ∧
      (∀ i < n.toNat, ∃ d m, SubConfig c s i d ∧ trainModel run t prior d = .ok m ∧ models[i]? = some m) ∧
      (∀ b < h.length, h'[b]? = h[b]?) := by
  rw [trainEnsemble_eq run t prior threads schedule pool h a ha hs hn]
  have hw : ∀ i : Nat, SubConfig c s i (withSeed c (s + (i : Int))) := by
    intro i
    refine ⟨keys_assign _ _ _, by simp [withSeed, lookup_assign, hs], ?_⟩
    intro k hk
    simp [withSeed, lookup_assign, hk.symm]
  have hex : ∀ i : Nat, ∃ m : Option β, i < n.toNat → ∃ x, m = some x ∧
      trainModel run t prior (withSeed c (s + (i : Int))) = .ok x := by
    intro i
    by_cases hi : i < n.toNat
    · obtain ⟨m, hm⟩ := hrun i hi _ (hw i)
      exact ⟨some m, fun _ => ⟨m, rfl, hm⟩⟩
    · exact ⟨none, fun h => absurd h hi⟩
  choose model hmodel using hex
  by_cases hz : n.toNat = 0
  · refine ⟨_, [], congrArg Except.ok (Prod.ext rfl ?_), by simp [hz], by simp [hz], ?_⟩
    · rw [hz]
      rfl
    · intro b hb
      exact List.getElem?_append_left hb
  obtain ⟨x0, _, _⟩ := hmodel 0 (by omega)
  refine ⟨_, (List.range n.toNat).map fun i => (model i).getD x0, congrArg Except.ok (Prod.ext rfl ?_), by simp, ?_, ?_⟩
  · have hok := (Util.parallelMap_ok (runTask run t prior (h ++ (List.range n.toNat).map
          (fun (i : Nat) => withSeed c (s + (i : Int))))) (fun sub => (model (sub - h.length)).getD x0)
          ((List.range n.toNat).map (h.length + ·)) threads pool hp schedule (by simpa using hsch) ?_).1
    · refine hok.trans (congrArg Except.ok ?_)
      rw [List.map_map]
      exact List.map_congr_left fun i _ => by simp
    · intro sub hsub
      obtain ⟨i, hi, rfl⟩ := List.mem_map.mp hsub
      have hi' := List.mem_range.mp hi
      rw [runTask, List.getElem?_append_right (by omega)]
      simp only [Nat.add_sub_cancel_left, List.getElem?_map, List.getElem?_range hi', Option.map_some]
      obtain ⟨x, hx, hr⟩ := hmodel i hi'
      rw [hr, hx]
      rfl
  · intro i hi
    obtain ⟨x, hx, hr⟩ := hmodel i hi
    exact ⟨_, x, hw i, hr, by simp [hi, hx]⟩
  · intro b hb
    exact List.getElem?_append_left hb

/-- **C21** (failures). If the caller's dict lacks one of the two keys, the call raises `KeyError`
unless the ensemble is empty. -/
theorem trainEnsemble_missing {c : Config} (run : TrainerKind → Table → List K → Config → Py β) (t : Table)
    (prior : List K) (threads : Nat) (schedule : List Nat) (pool : Util.PoolState) (h : Heap) (a : Nat)
    (ha : h[a]? = some c)
    (hk : "model_ensemble_size" ∉ keys c ∨
      ("seed" ∉ keys c ∧ ∃ n, lookup c "model_ensemble_size" = some n ∧ 0 < n)) :
    trainEnsemble run t prior threads schedule pool h a = .error .keyError := by
  have hnone : ∀ k, k ∉ keys c → lookup c k = none := by
    intro k hk
    have := (lookup_isSome c k).not.mpr hk
    simpa using this
  rcases hk with hk | ⟨hk, n, hn, hpos⟩
  · simp [trainEnsemble, ha, configGet, hnone _ hk, bind, Except.bind]
  · obtain ⟨m, hm⟩ : ∃ m, n.toNat = m + 1 := ⟨n.toNat - 1, by omega⟩
    simp [trainEnsemble, ha, configGet, hn, hm, List.range_succ_eq_map, ensembleLoop, ensembleStep, hnone _ hk,
      bind, Except.bind]

/-- **C21** (failures). If one of the runs raises, the call raises the exception of one of the runs. -/
theorem trainEnsemble_raises {c : Config} {s n : Int} (run : TrainerKind → Table → List K → Config → Py β) (t : Table)
    (prior : List K) (threads : Nat) (schedule : List Nat) (pool : Util.PoolState) (h : Heap) (a : Nat)
    (ha : h[a]? = some c) (hs : lookup c "seed" = some s) (hn : lookup c "model_ensemble_size" = some n)
    (hp : Util.PoolOk threads pool)
    (hsch : Util.IsSchedule n.toNat (Util.chunkSize n.toNat (pool.getD threads)) schedule)
    (hrun : ∃ i < n.toNat, ∃ e, trainModel run t prior (withSeed c (s + (i : Int))) = .error e) :
    ∃ h', ∃ i < n.toNat, ∃ e, trainModel run t prior (withSeed c (s + (i : Int))) = .error e ∧
      trainEnsemble run t prior threads schedule pool h a = .ok (h', .error e) := by
  rw [trainEnsemble_eq run t prior threads schedule pool h a ha hs hn]
  obtain ⟨i, hi, e, he⟩ := hrun
  have hread : ∀ i < n.toNat, (h ++ (List.range n.toNat).map
      (fun (i : Nat) => withSeed c (s + (i : Int))))[h.length + i]? = some (withSeed c (s + (i : Int))) := by
    intro i hi
    rw [List.getElem?_append_right (by omega)]
    simp [hi]
  obtain ⟨b, hb, e', he', hres⟩ := Util.parallelMap_error (runTask run t prior (h ++ (List.range n.toNat).map (fun (i : Nat) => withSeed c (s + (i : Int))))) ((List.range n.toNat).map (h.length + ·)) threads pool hp schedule
          (by simpa using hsch) ⟨h.length + i, List.mem_map.mpr ⟨i, List.mem_range.mpr hi, rfl⟩, e, by
            simp only [runTask, hread i hi]; exact he⟩
  obtain ⟨j, hj, rfl⟩ := List.mem_map.mp hb
  have hj' := List.mem_range.mp hj
  simp only [runTask, hread j hj'] at he'
  exact ⟨_, j, hj', e', he', congrArg Except.ok (Prod.ext rfl hres)⟩

/-- A trainer stub that reports its seed. -/
def seedRun (_ : TrainerKind) (_ : Table) (_ : List ℚ) (c : Config) : Py Int := configGet c "seed"

example : trainEnsemble seedRun ⟨[], [], []⟩ [] 2 [2, 0, 1] (some 1)
      [defaultConfig, [("model_num_clusters", 4), ("model_latent_dim", 0), ("model_ensemble_size", 3), ("seed", 7)]] 1
    = .ok ([defaultConfig, [("model_num_clusters", 4), ("model_latent_dim", 0), ("model_ensemble_size", 3), ("seed", 7)],
        [("model_num_clusters", 4), ("model_latent_dim", 0), ("model_ensemble_size", 3), ("seed", 7)],
        [("model_num_clusters", 4), ("model_latent_dim", 0), ("model_ensemble_size", 3), ("seed", 8)],
        [("model_num_clusters", 4), ("model_latent_dim", 0), ("model_ensemble_size", 3), ("seed", 9)]],
      .ok [7, 8, 9]) := by decide +kernel

end TreeCat
