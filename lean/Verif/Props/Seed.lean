import Verif.Lemmas.Seed
import Verif.Props.QuickStart
import Verif.Props.Sampling

/-!
# C87: training is reproducible

What `train_ensemble` returns depends on the table, the prior and the config only, not on the states of the generators of the process
and of the workers, nor on how the work is distributed. What it returns is one of the possible outcomes of training.
-/

set_option linter.unusedSectionVars false

namespace TreeCat

open Spec Util Config

section
variable {S K : Type} {host : Host S K} {α β : Type}

namespace Spec

/-- The result of a program does not depend on the states of the generators when it starts. -/
def Seeded (x : RunOn host α) (r : Py α) : Prop := ∀ g, (x.from g).1 = r

end Spec

theorem Seeded.mapM {f : α → RunOn host β} {f0 : α → Py β} (l : List α) (h : ∀ a ∈ l, Seeded (f a) (f0 a)) : Seeded (l.mapM f) (l.mapM f0) := by
  induction l with
  | nil => exact fun g => rfl
  | cons a l ih =>
    intro g
    rw [List.mapM_cons, List.mapM_cons, RunOn.from_bind]
    have ha := h a (by simp) g
    rcases hx : (f a).from g with ⟨r, g'⟩
    rw [hx] at ha
    dsimp only at ha
    subst ha
    have hl := ih (fun b hb => h b (by simp [hb])) g'
    cases hr : f0 a with
    | error e => rfl
    | ok b =>
      dsimp only
      rw [RunOn.from_bind]
      rcases hx : (l.mapM f).from g' with ⟨r', g''⟩
      rw [hx] at hl
      dsimp only at hl
      rw [← hl]
      cases r' <;> rfl

theorem completeChunkOn_eq {f : α → RunOn host β} {f0 : α → Py β} (args : List α) (h : ∀ a ∈ args, Seeded (f a) (f0 a)) (size : Nat) (owner : Nat → Nat)
    (gens : Nat → Gens S) : completeChunkOn f args size owner gens = completeChunk f0 args size := by
  funext r i
  have : Seeded ((chunkOf args size i).mapM f) ((chunkOf args size i).mapM f0) :=
    Seeded.mapM _ fun a ha => h a (List.mem_of_mem_drop (List.mem_of_mem_take ha))
  unfold completeChunkOn completeChunk
  rw [this]
  rfl

/-- `parallel_map` of functions that seed the generators: where and after what they run does not matter. -/
theorem parallelMapOn_eq {f : α → RunOn host β} {f0 : α → Py β} (args : List α) (h : ∀ a ∈ args, Seeded (f a) (f0 a)) (threads : Nat)
    (schedule : List Nat) (pool : PoolState) (w : Workers S) (g : Gens S) :
    (parallelMapOn f args threads schedule pool w g).1 = (parallelMap f0 args threads schedule pool).1 ∧
    (parallelMapOn f args threads schedule pool w g).2.1 = (parallelMap f0 args threads schedule pool).2 := by
  unfold parallelMapOn parallelMap
  split
  · exact ⟨rfl, Seeded.mapM _ h g⟩
  · refine ⟨rfl, ?_⟩
    dsimp only
    unfold poolMapOn poolMap
    rw [completeChunkOn_eq args h]
    rfl

theorem trainModelOn_seeded {run : TrainerKind → Table → List K → Config → RunOn host β} {run0 : TrainerKind → Table → List K → Config → Py β}
    (h : ∀ k t p c, Seeded (run k t p c) (run0 k t p c)) (t : Table) (prior : List K) (c : Config) :
    Seeded (trainModelOn run t prior c) (trainModel run0 t prior c) := by
  intro g
  unfold trainModelOn trainModel
  rw [RunOn.from_bind, RunOn.from_py]
  cases configGet c "model_num_clusters" with
  | error e => rfl
  | ok M =>
    dsimp only
    rw [RunOn.from_bind, RunOn.from_py]
    cases configGet c "model_latent_dim" with
    | error e => rfl
    | ok D =>
      dsimp only
      rw [RunOn.from_bind, RunOn.from_py]
      simp only [bind, Except.bind]
      cases pickTrainer M D with
      | error e => rfl
      | ok kind => exact h kind t prior c g

/-- An ensemble trained in processes with generators is the ensemble trained without regard to them. -/
theorem trainEnsembleOn_eq {run : TrainerKind → Table → List K → Config → RunOn host β} {run0 : TrainerKind → Table → List K → Config → Py β}
    (h : ∀ k t p c, Seeded (run k t p c) (run0 k t p c)) (t : Table) (prior : List K) (threads : Nat) (schedule : List Nat) (pool : PoolState)
    (w : Workers S) (g : Gens S) (heap : Heap) (a : Nat) :
    trainEnsembleOn run t prior threads schedule pool w g heap a = trainEnsemble run0 t prior threads schedule pool heap a := by
  have htask : ∀ h' sub, Seeded (runTaskOn run t prior h' sub) (runTask run0 t prior h' sub) := by
    intro h' sub g
    unfold runTaskOn runTask
    cases h'[sub]? with
    | none => rfl
    | some d => exact trainModelOn_seeded h t prior d g
  unfold trainEnsembleOn trainEnsemble
  cases heap[a]? with
  | none => rfl
  | some c =>
    simp only [bind, Except.bind]
    cases configGet c "model_ensemble_size" with
    | error e => rfl
    | ok size =>
      dsimp only
      cases ensembleLoop a (List.range size.toNat) heap [] with
      | error e => rfl
      | ok r =>
        dsimp only
        rw [(parallelMapOn_eq r.2 (fun sub _ => htask r.1 sub) threads schedule pool w g).2]

end

/-! ### The result for one thread is the result for any -/

section
variable {α β K : Type}

theorem mapM_value {f : α → Py β} {l : List α} {ys : List β} (h : l.mapM f = .ok ys) : (∀ a ∈ l, ∃ y, f a = .ok y) ∧ ys.map some = l.map fun a => (f a).toOption := by
  constructor
  · intro a ha
    cases hf : f a with
    | ok y => exact ⟨y, rfl⟩
    | error e =>
      obtain ⟨e', he'⟩ := mapM_isError f l a ha e hf
      rw [h] at he'
      cases he'
  · induction l generalizing ys with
    | nil => cases h; rfl
    | cons a l ih =>
      rw [List.mapM_cons] at h
      cases hf : f a with
      | error e =>
        rw [hf] at h
        cases h
      | ok y =>
        rw [hf] at h
        cases hl : l.mapM f with
        | error e =>
          simp only [hl, bind, Except.bind] at h
          cases h
        | ok zs =>
          simp only [hl, bind, Except.bind, pure, Except.pure, Except.ok.injEq] at h
          subst h
          simp only [List.map_cons, hf, ih hl]
          rfl

theorem mapM_ext {f f' : α → Py β} {l : List α} (h : ∀ a ∈ l, f a = f' a) : l.mapM f = l.mapM f' := by
  induction l with
  | nil => rfl
  | cons a l ih => rw [List.mapM_cons, List.mapM_cons, h a (by simp), ih fun b hb => h b (by simp [hb])]

theorem parallelMap_serial {f : α → Py β} {args : List α} {ys : List β} (h : args.mapM f = .ok ys) (threads : Nat) (pool : PoolState) (hp : PoolOk threads pool)
    (schedule : List Nat) (hsch : IsSchedule args.length (chunkSize args.length (pool.getD threads)) schedule) :
    (parallelMap f args threads schedule pool).2 = .ok ys := by
  obtain ⟨hv, hys⟩ := mapM_value h
  cases args with
  | nil =>
    cases h
    rfl
  | cons a l =>
    obtain ⟨y0, -⟩ := hv a (by simp)
    have := (parallelMap_ok f (fun a => ((f a).toOption).getD y0) (a :: l) threads pool hp schedule hsch fun b hb => by
      obtain ⟨y, e⟩ := hv b hb
      rw [e]
      rfl).1
    rw [this]
    congr 1
    have e : (List.map (fun a => ((f a).toOption).getD y0) (a :: l)).map some = ys.map some := by
      rw [hys, List.map_map]
      refine List.map_congr_left fun b hb => ?_
      obtain ⟨y, e⟩ := hv b hb
      simp [e, Except.toOption]
    exact List.map_injective_iff.2 (Option.some_injective β) e

/-- The members of the ensemble one after the other. -/
def serialEnsemble (run : TrainerKind → Table → List K → Config → Py β) (t : Table) (prior : List K) (c : Config) (s n : Int) : Py (List β) :=
  (List.range n.toNat).mapM fun (i : Nat) => trainModel run t prior (withSeed c (s + (i : Int)))

theorem runTask_members (run : TrainerKind → Table → List K → Config → Py β) (t : Table) (prior : List K) (c : Config) (s n : Int) (h : Heap) :
    ((List.range n.toNat).map (h.length + ·)).mapM (runTask run t prior (h ++ (List.range n.toNat).map (fun (i : Nat) => withSeed c (s + (i : Int))))) =
      serialEnsemble run t prior c s n := by
  rw [List.mapM_map]
  unfold serialEnsemble
  refine mapM_ext fun i hi => ?_
  have hi' := List.mem_range.1 hi
  simp only [Function.comp_apply, runTask]
  rw [List.getElem?_append_right (by omega)]
  simp [hi']

theorem trainEnsemble_serial {run : TrainerKind → Table → List K → Config → Py β} {t : Table} {prior : List K} {c : Config} {s n : Int} {models : List β}
    (hm : serialEnsemble run t prior c s n = .ok models) (threads : Nat) (schedule : List Nat) (pool : PoolState) (hp : PoolOk threads pool)
    (hsch : IsSchedule n.toNat (chunkSize n.toNat (pool.getD threads)) schedule) (h : Heap) (a : Nat)
    (ha : h[a]? = some c) (hs : lookup c "seed" = some s) (hn : lookup c "model_ensemble_size" = some n) :
    ∃ h', trainEnsemble run t prior threads schedule pool h a = .ok (h', .ok models) ∧ ∀ b < h.length, h'[b]? = h[b]? := by
  refine ⟨h ++ (List.range n.toNat).map (fun (i : Nat) => withSeed c (s + (i : Int))), ?_, fun b hb => List.getElem?_append_left hb⟩
  rw [trainEnsemble_eq run t prior threads schedule pool h a ha hs hn]
  rw [parallelMap_serial (by rw [runTask_members]; exact hm) threads pool hp schedule (by simpa using hsch)]

end

/-! ### Training with generators -/

section
variable {S K : Type} [Field K] [LinearOrder K] {M : Nat} [NeZero M] {host : Host S K}

theorem setRandomSeed_ok {seed : Int} (h0 : 0 ≤ seed) (h1 : seed < 2 ^ 32) (g : Gens S) :
    (setRandomSeed host seed).from g = (.ok (), ⟨host.numpy.seed seed.toNat, host.numba.seed seed.toNat⟩) := by
  unfold setRandomSeed
  rw [RunOn.from_of, if_pos ⟨h0, h1⟩]

theorem setRandomSeed_bad {seed : Int} (h : ¬ (0 ≤ seed ∧ seed < 2 ^ 32)) (g : Gens S) :
    (setRandomSeed host seed).from g = (.error .valueError, g) := by
  unfold setRandomSeed
  rw [RunOn.from_of, if_neg h]

/-- The states of the generators when a model is trained do not matter. -/
theorem seededRun_seeded (num : Num K) (mst : List (List K) → List Edge) (junk : Nat → Nat) (k : TrainerKind) (t : Table) (prior : List K)
    (c : Config) (g0 : Gens S) : Seeded (seededRun (M := M) host num mst junk k t prior c) ((seededRun (M := M) host num mst junk k t prior c).from g0).1 := by
  intro g
  unfold seededRun
  cases k with
  | treeGauss => rfl
  | treeMog => rfl
  | treeCat =>
    dsimp only
    unfold seededTrain
    rw [RunOn.from_bind, RunOn.from_bind, RunOn.from_py, RunOn.from_py]
    cases Trainer.init (K := K) (M := M) t prior.length with
    | error e => rfl
    | ok s0 =>
      dsimp only
      rw [RunOn.from_bind, RunOn.from_bind, RunOn.from_py, RunOn.from_py]
      cases configGet c "seed" with
      | error e => rfl
      | ok seed =>
        dsimp only
        rw [RunOn.from_bind, RunOn.from_bind]
        by_cases h : 0 ≤ seed ∧ seed < 2 ^ 32
        · rw [setRandomSeed_ok h.1 h.2, setRandomSeed_ok h.1 h.2]
        · rw [setRandomSeed_bad h, setRandomSeed_bad h]

/-- **C87** (outcomes). A run of the trainer with generators is one of the runs of which the other theorems speak, whatever the generators and
their states: nothing is assumed about them but that the permutations are permutations. -/
theorem seededRun_draws (hp : Permutes host) (num : Num K) (mst : List (List K) → List Edge) (junk : Nat → Nat) (g : Gens S) :
    Draws num mst junk fun k t prior c => ((seededRun (M := M) host num mst junk k t prior c).from g).1 := by
  rintro t prior c cfg hread hM ⟨s, hs, h0, h1⟩ ⟨_, s0, e0, -⟩
  refine ⟨s0, e0, ?_⟩
  obtain ⟨⟨r, st⟩, g', e, ho⟩ := GenSimT.train hp num mst junk ((2 * cfg.initEpochs.toNat + 1) * t.numRows) t prior cfg s0 ⟨host.numpy.seed s.toNat, host.numba.seed s.toNat⟩
  refine ⟨r, st, ho, ?_⟩
  dsimp only [seededRun]
  unfold seededTrain
  rw [RunOn.from_bind_ok (show (RunOn.py (Trainer.init t prior.length) : RunOn host (Trainer K M)).from g = (.ok s0, g) by rw [RunOn.from_py, e0]),
    RunOn.from_bind_ok (show (RunOn.py (configGet c "seed") : RunOn host Int).from g = (.ok s, g) by rw [RunOn.from_py, configGet, hs]),
    RunOn.from_bind_ok (setRandomSeed_ok h0 h1 g), RunOn.from_bind_ok (show (RunOn.py (trainConfigOf c) : RunOn host TrainConfig).from _ = (.ok cfg, _) by rw [RunOn.from_py, hread]),
    RunOn.from_bind_ok e, RunOn.from_py]

end

section
variable {S K : Type} [Field K] [LinearOrder K] [IsStrictOrderedRing K] {M : Nat} [NeZero M] {host : Host S K}

/-- Training an ensemble of `n` models with the generators of numpy and numba returns these models whatever the states of the generators in
this process and in the workers, the number of threads, the pool that is already there, the order in which the workers finish and the distribution of the work
among them. The dicts that exist, among them the config, do not change. -/
def Spec.Trains (host : Host S K) (num : Num K) (mst : List (List K) → List Edge) (junk : Nat → Nat) (t : Table) (prior : List K) (n : Int) (c : Config)
    (result : Py (List (Model K M))) : Prop :=
  ∀ (threads : Nat) (schedule : List Nat) (pool : PoolState) (w : Workers S) (g : Gens S) (h : Heap) (a : Nat), PoolOk threads pool →
    IsSchedule n.toNat (chunkSize n.toNat (pool.getD threads)) schedule → h[a]? = some c →
    ∃ h', trainEnsembleOn (seededRun host num mst junk) t prior threads schedule pool w g h a = .ok (h', result) ∧ ∀ b < h.length, h'[b]? = h[b]?

section
variable (hperm : Permutes host) {num : Num K} {mst : List (List K) → List Edge} (hmst : MstContract mst) (junk : Nat → Nat)
  (t : Table) (ht : Table.Ordered t) (hm : ∀ ty ∈ t.featureTypes, ty = tyMultinomial)
  (hc : ∀ n < t.numRows, ∀ r, 0 ≤ t.cell n r) (hV : 1 ≤ t.numCols) (hV' : t.numCols ≤ 32768) (prior : List K)
  (hp : prior.length = t.numCols * (t.numCols - 1) / 2)

include hperm hmst ht hm hc hV hV' hp in
theorem seededEnsemble_serial {n : Int} (hn : 1 ≤ n) {c : Config} {cfg : TrainConfig} (htr : Trainable M n c cfg) {s : Int} (hs : lookup c "seed" = some s)
    (g0 : Gens S) : ∃ models : List (Model K M), models.length = n.toNat ∧ Members models t.numCols t.raggedIndex ∧
      (∀ m ∈ models, Outcome num mst junk t prior cfg (.ok m)) ∧
      serialEnsemble (fun k t p c => ((seededRun (M := M) host num mst junk k t p c).from g0).1) t prior c s n = .ok models ∧
      Trains host num mst junk t prior n c (.ok models) := by
  obtain ⟨sch, hsch⟩ : ∃ sch, IsSchedule n.toNat (chunkSize n.toNat 1) sch := ⟨_, List.Perm.refl _⟩
  obtain ⟨h', models, e, h1, h2, h3⟩ := trainEnsemble_members hmst (seededRun_draws hperm num mst junk g0) t ht hm hc hV hV' prior hp hn htr 1 sch none
    ⟨one_pos, by simp⟩ hsch [c] 0 rfl
  have hser : serialEnsemble (fun k t p c => ((seededRun (M := M) host num mst junk k t p c).from g0).1) t prior c s n = .ok models := by
    rw [trainEnsemble_eq _ t prior 1 sch none [c] 0 rfl hs htr.size] at e
    rw [← runTask_members _ _ _ _ _ _ [c]]
    simp only [Except.ok.injEq, Prod.mk.injEq] at e
    have e2 := e.2
    unfold parallelMap at e2
    rw [if_pos (Or.inr rfl)] at e2
    exact e2
  refine ⟨models, h1, h2, h3, hser, fun threads schedule pool w g h a hpool hsch' ha => ?_⟩
  rw [trainEnsembleOn_eq (fun k t p c => seededRun_seeded num mst junk k t p c g0)]
  exact trainEnsemble_serial hser threads schedule pool hpool hsch' h a ha hs htr.size

include hperm hmst ht hm hc hV hV' hp in
/-- **C87.** For every acceptable table, prior and config, training an ensemble gives the same models whatever the states of the generators in this
process and in the workers, the number of threads, the pool that is already there, the order in which the workers finish and the distribution of the work among
them; each of the models is a possible outcome of training. -/
theorem seededEnsemble_spec {n : Int} (hn : 1 ≤ n) {c : Config} {cfg : TrainConfig} (htr : Trainable M n c cfg) :
    ∃ models : List (Model K M), models.length = n.toNat ∧ Members models t.numCols t.raggedIndex ∧
      (∀ m ∈ models, Outcome num mst junk t prior cfg (.ok m)) ∧ Trains host num mst junk t prior n c (.ok models) := by
  obtain ⟨s, hs, -, -⟩ := htr.seed
  obtain ⟨models, h1, h2, h3, -, h4⟩ := seededEnsemble_serial hperm hmst junk t ht hm hc hV hV' prior hp hn htr hs ⟨host.numpy.seed 0, host.numba.seed 0⟩
  exact ⟨models, h1, h2, h3, h4⟩

include hperm hmst ht hm hc hV hV' hp in
/-- **C87** (overlap). The ensembles trained with seeds `s` and `s + 1` have all but one of their models in common: each model but the first
of the former is the model before it in the latter. -/
theorem seededEnsemble_overlap {n : Int} (hn : 1 ≤ n) {c : Config} {cfg : TrainConfig} (htr : Trainable M n c cfg) {s : Int} (hs : lookup c "seed" = some s)
    (htr' : Trainable M n (withSeed c (s + 1)) cfg) :
    ∃ models models' : List (Model K M), Trains host num mst junk t prior n c (.ok models) ∧
      Trains host num mst junk t prior n (withSeed c (s + 1)) (.ok models') ∧ models.length = n.toNat ∧ models'.length = n.toNat ∧
      models'.dropLast = models.tail := by
  have hs' : lookup (withSeed c (s + 1)) "seed" = some (s + 1) := by simp [withSeed, lookup_assign, hs]
  obtain ⟨models, h1, -, -, h4, h5⟩ := seededEnsemble_serial hperm hmst junk t ht hm hc hV hV' prior hp hn htr hs ⟨host.numpy.seed 0, host.numba.seed 0⟩
  obtain ⟨models', f1, -, -, f4, f5⟩ := seededEnsemble_serial hperm hmst junk t ht hm hc hV hV' prior hp hn htr' hs' ⟨host.numpy.seed 0, host.numba.seed 0⟩
  refine ⟨models, models', h5, f5, h1, f1, ?_⟩
  have a1 := (mapM_value h4).2
  have a2 := (mapM_value f4).2
  have htw : ∀ x, withSeed (withSeed c (s + 1)) x = withSeed c x := by
    intro x
    simp only [withSeed, assign, List.map_map]
    refine List.map_congr_left fun p _ => ?_
    simp only [Function.comp_apply]
    split <;> simp_all
  refine List.map_injective_iff.2 (Option.some_injective _) ?_
  rw [List.map_dropLast, List.map_tail, a1, a2]
  obtain ⟨k, hk⟩ : ∃ k, n.toNat = k + 1 := ⟨n.toNat - 1, by omega⟩
  rw [hk, List.range_succ, List.map_append, List.map_singleton, List.dropLast_concat, ← List.range_succ, List.range_succ_eq_map, List.map_cons, List.tail_cons,
    List.map_map]
  refine List.map_congr_left fun i _ => ?_
  simp only [Function.comp_apply, htw]
  rw [show s + 1 + (i : Int) = s + ((i.succ : Nat) : Int) by push_cast; ring]

include hperm hmst ht hm hc hV hV' hp in
/-- **C87** (seeds). If the seed of the config, or that of one of the members, is not an unsigned integer of 32 bits, training raises `ValueError`: nothing checks
the seed before. -/
theorem seededEnsemble_badSeed {n : Int} (hn : 1 ≤ n) {c : Config} {cfg : TrainConfig} (htr : Trainable M n (withSeed c 0) cfg) {s : Int}
    (hs : lookup c "seed" = some s) (hbad : s < 0 ∨ 2 ^ 32 < s + n) : Trains (M := M) host num mst junk t prior n c (.error .valueError) := by
  intro threads schedule pool w g h a hpool hsch ha
  have g0 : Gens S := ⟨host.numpy.seed 0, host.numba.seed 0⟩
  rw [trainEnsembleOn_eq (fun k t p c => seededRun_seeded num mst junk k t p c g)]
  have hrest : ∀ k, k ≠ "seed" → lookup c k = lookup (withSeed c 0) k := fun k hk => by simp [withSeed, lookup_assign, hk.symm]
  have hw : ∀ x k, k ≠ "seed" → lookup (withSeed c x) k = lookup (withSeed c 0) k := fun x k hk => by simp [withSeed, lookup_assign, hk.symm]
  have hws : ∀ x, lookup (withSeed c x) "seed" = some x := fun x => by simp [withSeed, lookup_assign, hs]
  have hsize : lookup c "model_ensemble_size" = some n := by rw [hrest _ (by decide), htr.size]
  obtain ⟨s0, e0, ⟨p, hp0⟩, hall⟩ := trainedModel_valid (M := M) num mst hmst junk t ht hm hc hV hV' htr.pos.2 prior hp cfg htr.init htr.rate
    ((2 * cfg.initEpochs.toNat + 1) * t.numRows) (le_refl _)
  have h1 : (1 : Int) ≤ M := by have := htr.pos.1; omega
  have hpick : ∀ x, trainModel (fun k t p c => ((seededRun (M := M) host num mst junk k t p c).from g).1) t prior (withSeed c x) =
      ((seededRun (M := M) host num mst junk .treeCat t prior (withSeed c x)).from g).1 := by
    intro x
    simp [trainModel, configGet, hw x "model_num_clusters" (by decide), hw x "model_latent_dim" (by decide), htr.clusters, htr.dim, pickTrainer, pyAssert, h1, bind, Except.bind]
  have hval : ∀ x e, trainModel (fun k t p c => ((seededRun (M := M) host num mst junk k t p c).from g).1) t prior (withSeed c x) = .error e →
      e = .valueError := by
    intro x e he
    rw [hpick] at he
    by_cases hx : 0 ≤ x ∧ x < 2 ^ 32
    · have hread : trainConfigOf (withSeed c x) = .ok cfg := by
        rw [trainConfigOf_congr (hw x) (by rw [hws]; rfl) (by rw [hws]; rfl), htr.read]
      obtain ⟨s0', e0', r, st, ho, er⟩ := seededRun_draws hperm num mst junk g t prior (withSeed c x) cfg hread (by rw [hw x _ (by decide), htr.clusters])
        ⟨x, hws x, hx.1, hx.2⟩ ⟨_, s0, e0, p.1, p.2, hp0, rfl⟩
      rw [e0] at e0'
      cases e0'
      obtain ⟨logits, rfl, -⟩ := hall r st ho
      dsimp only at er
      rw [er] at he
      cases he
    · unfold seededRun at he
      dsimp only at he
      unfold seededTrain at he
      rw [RunOn.from_bind_ok (show (RunOn.py (Trainer.init t prior.length) : RunOn host (Trainer K M)).from g = (.ok s0, g) by rw [RunOn.from_py, e0]),
        RunOn.from_bind_ok (show (RunOn.py (configGet (withSeed c x) "seed") : RunOn host Int).from g = (.ok x, g) by rw [RunOn.from_py, configGet, hws]),
        RunOn.from_bind, setRandomSeed_bad hx] at he
      cases he
      rfl
  have herr : ∃ i < n.toNat, ∃ e, trainModel (fun k t p c => ((seededRun (M := M) host num mst junk k t p c).from g).1) t prior (withSeed c (s + (i : Int))) = .error e := by
    obtain ⟨i, hi, hx⟩ : ∃ i < n.toNat, ¬ (0 ≤ s + (i : Int) ∧ s + (i : Int) < 2 ^ 32) := by
      rcases hbad with hb | hb
      · exact ⟨0, by omega, by simp; omega⟩
      · exact ⟨n.toNat - 1, by omega, by rw [Nat.cast_sub (by omega), Int.toNat_of_nonneg (by omega)]; push_cast; omega⟩
    refine ⟨i, hi, .valueError, ?_⟩
    rw [hpick]
    unfold seededRun
    dsimp only
    unfold seededTrain
    rw [RunOn.from_bind_ok (show (RunOn.py (Trainer.init t prior.length) : RunOn host (Trainer K M)).from g = (.ok s0, g) by rw [RunOn.from_py, e0]),
      RunOn.from_bind_ok (show (RunOn.py (configGet (withSeed c (s + (i : Int))) "seed") : RunOn host Int).from g = (.ok (s + (i : Int)), g) by rw [RunOn.from_py, configGet, hws]),
      RunOn.from_bind, setRandomSeed_bad hx]
  obtain ⟨h', i, hi, e, he, hres⟩ := trainEnsemble_raises _ t prior threads schedule pool h a ha hs hsize hpool hsch herr
  have := hval _ _ he
  subst this
  refine ⟨h', hres, ?_⟩
  rw [trainEnsemble_eq _ t prior threads schedule pool h a ha hs hsize] at hres
  simp only [Except.ok.injEq, Prod.mk.injEq] at hres
  rw [← hres.1]
  exact fun b hb => List.getElem?_append_left hb

end

end

/-! ### A pair of generators -/

/-- A simple generator: the state is a number, a permutation is the identity or the reversal. -/
def lcg : Rng Nat ℚ where
  seed n := n
  rand s := ((s % 2 ^ 16 : Nat) / 2 ^ 16, 1103515245 * s + 12345)
  permutation n s := (if s % 2 = 0 then List.range n else (List.range n).reverse, 1103515245 * s + 12345)

theorem lcg_permutes (jit : Bool) : Permutes (⟨lcg, lcg, jit⟩ : Host Nat ℚ) := by
  intro n s
  simp only [lcg]
  split
  · exact List.Perm.refl _
  · exact List.reverse_perm _

theorem exTable_cells (n r : Nat) : 0 ≤ exTable.cell n r := by
  have h : ∀ row ∈ exTable.data, ∀ x ∈ row, (0 : Int) ≤ x := by decide
  unfold Table.cell
  rw [List.getD_eq_getElem?_getD, List.getD_eq_getElem?_getD]
  cases h1 : exTable.data[n]? with
  | none => simp
  | some row =>
    cases h2 : row[r]? with
    | none => simp [h2]
    | some x => simpa [h2] using h row (List.mem_of_getElem? h1) x (List.mem_of_getElem? h2)

/-- Two models with four clusters are trained on `exTable` with these generators. -/
example (jit : Bool) : ∃ mst, MstContract (K := ℚ) mst ∧ ∃ models : List (Model ℚ 4), models.length = 2 ∧
    Trains ⟨lcg, lcg, jit⟩ ⟨fun _ => 1, fun x => x⟩ mst (fun _ => 0) exTable [0, 0, 0] 2 ((makeConfig quickOptions).toOption.getD []) (.ok models) := by
  obtain ⟨mst, hmst⟩ := exists_mst (K := ℚ)
  obtain ⟨c, hc, htr⟩ := quickOptions_trainable
  obtain ⟨models, h1, -, -, h2⟩ := seededEnsemble_spec (lcg_permutes jit) (num := ⟨fun _ => 1, fun x => x⟩) hmst (fun _ => 0) exTable exTable_ordered (by decide)
    (fun n _ r => exTable_cells n r) (by decide) (by decide) [0, 0, 0] (by decide) (by decide) htr
  rw [hc]
  exact ⟨mst, hmst, models, h1, h2⟩

/-- With seed -1 this raises. -/
example (jit : Bool) : ∃ mst, MstContract (K := ℚ) mst ∧
    Trains (M := 4) ⟨lcg, lcg, jit⟩ ⟨fun _ => 1, fun x => x⟩ mst (fun _ => 0) exTable [0, 0, 0] 2 (withSeed ((makeConfig quickOptions).toOption.getD []) (-1))
      (.error .valueError) := by
  obtain ⟨mst, hmst⟩ := exists_mst (K := ℚ)
  obtain ⟨c, hc, htr⟩ := quickOptions_trainable
  have e : withSeed (withSeed ((makeConfig quickOptions).toOption.getD []) (-1)) 0 = c := by rw [hc]; cases hc; decide
  exact ⟨mst, hmst, seededEnsemble_badSeed (lcg_permutes jit) hmst (fun _ => 0) exTable exTable_ordered (by decide)
    (fun n _ r => exTable_cells n r) (by decide) (by decide) [0, 0, 0] (by decide) (by decide) (e ▸ htr) (s := -1) (by decide) (.inl (by decide))⟩

/-- What `sample_from_probs` selects: the index whose interval contains the draw of numba's generator, or of numpy's if nothing is compiled.
Only that generator advances. -/
theorem choose_run {S K : Type} [Field K] [LinearOrder K] [IsStrictOrderedRing K] {host : Host S K} {n : Nat} (p : Fin n → K) (hp : ∀ i, 0 ≤ p i)
    (hT : 0 < ∑ i, p i) (g : Gens S) (u : K) (hu : u = if host.jit then (host.numba.rand g.numba).1 else (host.numpy.rand g.numpy).1)
    (h0 : 0 ≤ u) (h1 : u < 1) :
    ∃ i g', (Choose.choose p : RunOn host (Fin n)).from g = (.ok i, g') ∧
      ∑ j ∈ Finset.univ.filter (· < i), p j ≤ u * ∑ j, p j ∧ u * ∑ j, p j < ∑ j ∈ Finset.univ.filter (· ≤ i), p j ∧
      (if host.jit then g'.numba = (host.numba.rand g.numba).2 ∧ g'.numpy = g.numpy
        else g'.numpy = (host.numpy.rand g.numpy).2 ∧ g'.numba = g.numba) := by
  have hp' : ∀ x ∈ List.ofFn p, 0 ≤ x := by simpa [List.mem_ofFn] using hp
  have hT' : 0 < (List.ofFn p).sum := by rwa [List.sum_ofFn]
  have htake : ∀ k, ((List.ofFn p).take k).sum = ∑ j ∈ Finset.univ.filter (fun j : Fin n => j.val < k), p j := by
    intro k
    rw [← List.sum_take_ofFn]
  have hrand : (host.rand g).1 = u := by
    unfold Host.rand; rw [hu]; split <;> rfl
  obtain ⟨i, -, hi, -⟩ := sampleFromProbs_support (List.ofFn p) hp' hT' u h0 h1
  obtain ⟨hl, h2, h3⟩ := (sampleFromProbs_iff (List.ofFn p) hp' hT' u h0 h1 i).1 hi
  rw [List.length_ofFn] at hl
  rw [htake, List.sum_ofFn] at h2 h3
  refine ⟨⟨i, hl⟩, (host.rand g).2, ?_, ?_, ?_, ?_⟩
  · change (_, _) = _
    rw [hrand, hi]
    simp only [bind, Except.bind, dif_pos hl]
  · exact h2
  · convert h3 using 3
    simp [Fin.le_def, Nat.lt_succ_iff]
  · unfold Host.rand
    split <;> exact ⟨rfl, rfl⟩

example : ∃ i g', (Choose.choose (fun _ : Fin 4 => (1 : ℚ)) : RunOn (⟨lcg, lcg, true⟩ : Host Nat ℚ) (Fin 4)).from ⟨5, 40000⟩ = (.ok i, g') ∧ g'.numpy = 5 := by
  obtain ⟨i, g', e, -, -, h⟩ := choose_run (host := (⟨lcg, lcg, true⟩ : Host Nat ℚ)) (fun _ : Fin 4 => (1 : ℚ)) (by decide) (by decide +kernel)
    ⟨5, 40000⟩ _ rfl (by decide +kernel) (by decide +kernel)
  exact ⟨i, g', e, h.2⟩

/-- What is drawn does depend on the seed, and on whether the functions are compiled. -/
example : ((Choose.choose fun _ : Fin 4 => (1 : ℚ)) : RunOn (⟨lcg, lcg, true⟩ : Host Nat ℚ) (Fin 4)).from ⟨5, 40000⟩ = (.ok 2, ⟨5, 44140609812345⟩) ∧
    ((Choose.choose fun _ : Fin 4 => (1 : ℚ)) : RunOn (⟨lcg, lcg, false⟩ : Host Nat ℚ) (Fin 4)).from ⟨5, 40000⟩ = (.ok 0, ⟨5517588570, 40000⟩) := by
  decide +kernel

end TreeCat
