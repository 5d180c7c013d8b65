import Verif.Model.CommandLine
import Verif.Props.Config
import Verif.Props.TrainEnsemble
import Verif.Props.TrainedModel
import Verif.Props.ServeImport
import Verif.Props.ImportData

/-! # C60: the commands of the README, from csv files to a server -/

set_option linter.unusedSectionVars false

namespace TreeCat

open Spec Util Config

variable {K : Type} [Field K] [LinearOrder K] [IsStrictOrderedRing K] {M : Nat} [NeZero M]
variable {T : Text} {S : Schema} {fs : List (Str × Feature)}

namespace Spec

/-- The result is one of the possible outcomes of training with the given config. -/
def Outcome (num : Num K) (mst : List (List K) → List Edge) (junk : Nat → Nat) (t : Table) (prior : List K) (cfg : TrainConfig)
    (result : Py (Model K M)) : Prop :=
  ∃ s0 : Trainer K M, Trainer.init t prior.length = .ok s0 ∧
    ∃ r s, outcomes (train num mst junk ((2 * cfg.initEpochs.toNat + 1) * t.numRows) t prior cfg) s0 (r, s) ∧
      result = r.map (trainedModel t s)

/-- The seed of the config is one that numpy accepts. -/
def SeedOk (c : Config) : Prop := ∃ s, lookup c "seed" = some s ∧ 0 ≤ s ∧ s < 2 ^ 32

/-- `run` trains with some generator of random numbers: for an acceptable seed its result is always one of the possible
outcomes of training, if there is any. Nothing is assumed about which one, in particular not how it depends on
the seed. `seededRun_draws` shows this for generators like those of numpy and numba. -/
def Draws (num : Num K) (mst : List (List K) → List Edge) (junk : Nat → Nat)
    (run : TrainerKind → Table → List K → Config → Py (Model K M)) : Prop :=
  ∀ (t : Table) (prior : List K) (c : Config) (cfg : TrainConfig), trainConfigOf c = .ok cfg → lookup c "model_num_clusters" = some (M : Int) → SeedOk c →
    (∃ result : Py (Model K M), Outcome num mst junk t prior cfg result) → Outcome num mst junk t prior cfg (run .treeCat t prior c)

/-- A config that can be used for training `n` models with `M` clusters. -/
structure Trainable (M : Nat) (n : Int) (c : Config) (cfg : TrainConfig) : Prop where
  clusters : lookup c "model_num_clusters" = some (M : Int)
  dim : lookup c "model_latent_dim" = some 0
  size : lookup c "model_ensemble_size" = some n
  read : trainConfigOf c = .ok cfg
  pos : 0 < M ∧ M ≤ 128
  init : 1 ≤ cfg.initEpochs
  rate : 1 ≤ cfg.sampleTreeRate
  seed : ∃ s, lookup c "seed" = some s ∧ 0 ≤ s ∧ s + n ≤ 2 ^ 32

end Spec

/-- There is a way to train. -/
theorem exists_draws (num : Num K) (mst : List (List K) → List Edge) (junk : Nat → Nat) :
    ∃ run : TrainerKind → Table → List K → Config → Py (Model K M), Draws num mst junk run := by
  classical
  have : ∀ (t : Table) (prior : List K) (c : Config), ∃ result : Py (Model K M), ∀ cfg, trainConfigOf c = .ok cfg →
      (∃ result : Py (Model K M), Outcome num mst junk t prior cfg result) → Outcome num mst junk t prior cfg result := by
    intro t prior c
    by_cases h : ∃ cfg, trainConfigOf c = .ok cfg ∧ ∃ result : Py (Model K M), Outcome num mst junk t prior cfg result
    · obtain ⟨cfg, e, result, ho⟩ := h
      refine ⟨result, fun cfg' e' _ => ?_⟩
      rw [e] at e'
      cases e'
      exact ho
    · exact ⟨.error .assertion, fun cfg e ho => absurd ⟨cfg, e, ho⟩ h⟩
  choose f hf using this
  exact ⟨fun _ t prior c => f t prior c, fun t prior c cfg e _ _ h => hf t prior c cfg e h⟩

theorem trainConfigOf_congr {c d : Config} (h : ∀ k, k ≠ "seed" → lookup d k = lookup c k) (hs : (lookup c "seed").isSome) (hs' : (lookup d "seed").isSome) :
    trainConfigOf d = trainConfigOf c := by
  obtain ⟨s, hs⟩ := Option.isSome_iff_exists.1 hs
  obtain ⟨s', hs'⟩ := Option.isSome_iff_exists.1 hs'
  simp only [trainConfigOf, configGet, hs, hs', h "learning_init_epochs" (by decide), h "learning_full_epochs" (by decide),
    h "learning_sample_tree_rate" (by decide), h "learning_estimate_tree" (by decide), bind, Except.bind]

theorem seed_of_read {c : Config} {cfg : TrainConfig} (h : trainConfigOf c = .ok cfg) : ∃ s, lookup c "seed" = some s := by
  cases hs : lookup c "seed" with
  | some s => exact ⟨s, rfl⟩
  | none =>
    simp only [trainConfigOf, configGet, hs, bind, Except.bind] at h
    cases h

/-- Training on a table of an imported dataset gives `n` models that can be served together, each an outcome of training
on that table. -/
theorem trainEnsemble_members {num : Num K} {mst : List (List K) → List Edge} (hmst : MstContract mst)
    {junk : Nat → Nat} {run : TrainerKind → Table → List K → Config → Py (Model K M)} (hrun : Draws num mst junk run)
    (t : Table) (ht : Table.Ordered t) (hm : ∀ ty ∈ t.featureTypes, ty = tyMultinomial)
    (hc : ∀ n < t.numRows, ∀ r, 0 ≤ t.cell n r) (hV : 1 ≤ t.numCols) (hV' : t.numCols ≤ 32768) (prior : List K)
    (hp : prior.length = t.numCols * (t.numCols - 1) / 2) {n : Int} (hn : 1 ≤ n) {c : Config} {cfg : TrainConfig} (htr : Trainable M n c cfg)
    (threads : Nat) (schedule : List Nat) (pool : Util.PoolState) (hpool : Util.PoolOk threads pool)
    (hsch : Util.IsSchedule n.toNat (Util.chunkSize n.toNat (pool.getD threads)) schedule) (h : Heap) (a : Nat) (ha : h[a]? = some c) :
    ∃ h' models, trainEnsemble run t prior threads schedule pool h a = .ok (h', .ok models) ∧ models.length = n.toNat ∧
      Members models t.numCols t.raggedIndex ∧ ∀ m ∈ models, Outcome num mst junk t prior cfg (.ok m) := by
  obtain ⟨s, hs, hs0, hs1⟩ := htr.seed
  obtain ⟨s0, e0, ⟨p, hp0⟩, hall⟩ := trainedModel_valid (M := M) num mst hmst junk t ht hm hc hV hV' htr.pos.2 prior hp cfg htr.init htr.rate
    ((2 * cfg.initEpochs.toNat + 1) * t.numRows) (le_refl _)
  have hone : ∀ i < n.toNat, ∀ d, SubConfig c s i d → ∃ m, trainModel run t prior d = .ok m ∧ Outcome num mst junk t prior cfg (.ok m) ∧
      m.tree.numVertices = t.numCols ∧ m.raggedIndex = t.raggedIndex ∧ Model.Valid m := by
    intro i hi d hd
    have hread : trainConfigOf d = .ok cfg := by
      rw [trainConfigOf_congr hd.rest (by rw [hs]; rfl) (by rw [hd.seed]; rfl), htr.read]
    have hM : lookup d "model_num_clusters" = some (M : Int) := by rw [hd.rest _ (by decide), htr.clusters]
    have hD : lookup d "model_latent_dim" = some 0 := by rw [hd.rest _ (by decide), htr.dim]
    have h1 : (1 : Int) ≤ M := by have := htr.pos.1; omega
    have hpick : trainModel run t prior d = run .treeCat t prior d := by
      simp [trainModel, configGet, hM, hD, pickTrainer, pyAssert, h1, bind, Except.bind]
    obtain ⟨s0', e0', r, st, ho, er⟩ := hrun t prior d cfg hread hM ⟨_, hd.seed, by omega, by omega⟩ ⟨_, s0, e0, p.1, p.2, hp0, rfl⟩
    rw [e0] at e0'
    cases e0'
    obtain ⟨logits, rfl, v1, v2, -⟩ := hall r st ho
    refine ⟨trainedModel t st logits, by rw [hpick, er]; rfl, ⟨s0, e0, _, st, ho, rfl⟩, v1, rfl, v2⟩
  obtain ⟨h', models, e, hl, hmodels, -⟩ := trainEnsemble_runs run t prior threads schedule pool h a ha hs htr.size hpool hsch
    fun i hi d hd => (hone i hi d hd).imp fun m hm => hm.1
  have hmem : ∀ m ∈ models, Outcome num mst junk t prior cfg (.ok m) ∧ m.tree.numVertices = t.numCols ∧ m.raggedIndex = t.raggedIndex ∧ Model.Valid m := by
    intro m hm
    obtain ⟨i, hi, rfl⟩ := List.getElem_of_mem hm
    obtain ⟨d, m', hd, e1, e2⟩ := hmodels i (by omega)
    rw [List.getElem?_eq_getElem hi] at e2
    cases e2
    obtain ⟨m'', e3, h4⟩ := hone i (by omega) d hd
    rw [e1] at e3
    cases e3
    exact h4
  refine ⟨h', models, e, hl, ⟨?_, fun m hm => (hmem m hm).2.2.2, fun m hm => (hmem m hm).2.1, fun m hm => (hmem m hm).2.2.1⟩, fun m hm => (hmem m hm).1⟩
  intro h0
  rw [h0] at hl
  simp only [List.length_nil] at hl
  omega

/-! ### Imported tables can be trained on -/

theorem startOf_mono (fs : List (Str × Feature)) {v w : Nat} (h : v ≤ w) : startOf fs v ≤ startOf fs w := by
  induction w, h using Nat.le_induction with
  | base => exact le_refl _
  | succ w _ ih => exact ih.trans (startOf_le fs w)

theorem shaped_nonneg {f : Str × Feature} {b : List Int} (h : Shaped f b) : ∀ x ∈ b, 0 ≤ x := by
  obtain ⟨n, F⟩ := f
  rcases h with rfl | h
  · intro x hx
    rw [(List.mem_replicate.1 hx).2]
  · cases F with
    | cat vs =>
      obtain ⟨i, -, rfl⟩ := h
      intro x hx
      rcases List.mem_or_eq_of_mem_set hx with hx | rfl
      · rw [(List.mem_replicate.1 hx).2]
      · decide
    | ord lo hi =>
      obtain ⟨p, q, rfl, h1, h2, -⟩ := h
      intro x hx
      rcases List.mem_cons.1 hx with rfl | hx
      · exact h1
      · rw [List.mem_singleton.1 hx]; exact h2

theorem imported_trainable (h : Describes S fs) (csvs : List (List (List Str))) :
    let t : Table := ⟨fs.map fun _ => tyMultinomial, S.raggedIndex, csvs.flatMap (fileRows T fs)⟩
    Table.Ordered t ∧ (∀ ty ∈ t.featureTypes, ty = tyMultinomial) ∧ (∀ n < t.numRows, ∀ r, 0 ≤ t.cell n r) ∧ t.numCols = fs.length := by
  intro t
  have hcols : t.numCols = fs.length := List.length_map _
  refine ⟨⟨by rw [hcols]; exact h.ragged_length, ?_⟩, ?_, ?_, hcols⟩
  · rw [List.pairwise_iff_getElem]
    intro i j hi hj hij
    have hl : S.raggedIndex.length = fs.length + 1 := h.ragged_length
    have e1 := h.ragged i (by change i < S.raggedIndex.length at hi; omega)
    have e2 := h.ragged j (by change j < S.raggedIndex.length at hj; omega)
    rw [List.getElem?_eq_getElem hi, Option.some.injEq] at e1
    rw [List.getElem?_eq_getElem hj, Option.some.injEq] at e2
    change S.raggedIndex[i] ≤ S.raggedIndex[j]
    rw [e1, e2]
    exact startOf_mono fs hij.le
  · intro ty hty
    obtain ⟨_, -, rfl⟩ := List.mem_map.1 hty
    rfl
  · intro n hn r
    have hrow : t.data[n]'hn ∈ csvs.flatMap (fileRows T fs) := List.getElem_mem hn
    have e : t.data.getD n [] = t.data[n]'hn := by rw [List.getD_eq_getElem?_getD, List.getElem?_eq_getElem hn, Option.getD_some]
    unfold Table.cell
    rw [e]
    clear e
    generalize t.data[n]'hn = row at hrow
    obtain ⟨csv, -, hrow⟩ := List.mem_flatMap.1 hrow
    cases csv with
    | nil => simp [fileRows] at hrow
    | cons header rows =>
      obtain ⟨x, -, rfl⟩ := List.mem_map.1 hrow
      obtain ⟨bs, e, hbs⟩ := internalRow_shape (T := T) h (cellsOf T header x)
      rw [e, List.getD_eq_getElem?_getD]
      cases hx : bs.flatten[r]? with
      | none => exact le_refl _
      | some y =>
        obtain ⟨b, hb, hy⟩ := List.mem_flatten.1 (List.mem_of_getElem? hx)
        obtain ⟨f, -, hf⟩ := forall₂_mem_right hbs hb
        exact shaped_nonneg hf y hy

/-! ### The commands -/

theorem readTexts_ok (disk : Disk K M) (paths : List Str) (csvs : List (List (List Str)))
    (h : List.Forall₂ (fun p csv => ∃ text, disk p = some (.text text) ∧ Csv.read text = .ok csv) paths csvs) :
    ∃ texts, paths.mapM (readText disk) = .ok texts ∧ texts.mapM Csv.read = .ok csvs ∧
      paths.mapM (readNamed disk) = .ok ((paths.map basename).zip texts) ∧ texts.length = paths.length := by
  induction h with
  | nil => exact ⟨[], rfl, rfl, rfl, rfl⟩
  | @cons p csv paths csvs hp _ ih =>
    obtain ⟨text, e1, e2⟩ := hp
    obtain ⟨texts, h1, h2, h3, h4⟩ := ih
    have e : readText disk p = .ok text := by simp only [readText, e1]
    have e' : readNamed disk p = .ok (basename p, text) := by simp only [readNamed, e, bind, Except.bind]
    refine ⟨text :: texts, ?_, ?_, ?_, by simp [h4]⟩
    · rw [List.mapM_cons, e, h1]; rfl
    · rw [List.mapM_cons, e2, h2]; rfl
    · rw [List.mapM_cons, e', h3]; rfl

/-- A name that `pickle_dump` accepts. -/
def Packable (path : Str) : Prop := ".pkz".toList <:+ path ∨ ".jz".toList <:+ path

instance (path : Str) : Decidable (Packable path) := inferInstanceAs (Decidable (_ ∨ _))

theorem codecOf_iff (path : Str) : (∃ codec, codecOf path = .ok codec) ↔ Packable path := by
  unfold codecOf Packable
  split
  · rename_i h; exact ⟨fun _ => .inl h, fun _ => ⟨_, rfl⟩⟩
  · rename_i h
    split
    · rename_i h'; exact ⟨fun _ => .inr h', fun _ => ⟨_, rfl⟩⟩
    · rename_i h'
      constructor
      · rintro ⟨_, hc⟩; cases hc
      · rintro (hc | hc)
        · exact absurd hc h
        · exact absurd hc h'

/-- What has been stored is loaded again, other files are untouched, and names with other endings are refused
without touching the disk. -/
theorem pickle_roundtrip (disk : Disk K M) (obj : Stored K M) (path : Str) :
    (Packable path → ∃ disk', pickleDump disk obj path = .ok disk' ∧ pickleLoad disk' path = .ok obj ∧ ∀ p, p ≠ path → disk' p = disk p) ∧
    (¬ Packable path → pickleDump disk obj path = .error .valueError ∧ pickleLoad disk path = .error .valueError) := by
  constructor
  · intro h
    obtain ⟨codec, e⟩ := (codecOf_iff path).2 h
    refine ⟨disk.write path (.packed codec obj), ?_, ?_, fun p hp => ?_⟩
    · simp only [pickleDump, e, bind, Except.bind]
    · simp [pickleLoad, e, Disk.write, bind, Except.bind]
    · simp [Disk.write, hp]
  · intro h
    have e : codecOf path = .error .valueError := by
      unfold codecOf
      rw [if_neg fun h' => h (.inl h'), if_neg fun h' => h (.inr h')]
    simp only [pickleDump, pickleLoad, e, bind, Except.bind, and_self]

/-- **C60**, from schema files: `import-data`, `train` and `serve_model` succeed one after the other, whatever is drawn at random and however the
training is scheduled, and the server holds exactly the valid cells of the data files and the models of the ensemble, each of them
an outcome of training on that table. -/
theorem importTrainServe {num : Num K} {mst : List (List K) → List Edge} (hmst : MstContract mst)
    {junk : Nat → Nat} {run : TrainerKind → Table → List K → Config → Py (Model K M)} (hrun : Draws num mst junk run)
    (disk : Disk K M) (dataCsvs typesPath valuesPath groupsPath datasetPath ensemblePath types values : Str) (groups : Option Str)
    (ht : disk typesPath = some (.text types)) (hv : disk valuesPath = some (.text values)) (hg : readGroups disk groupsPath = .ok groups)
    (csvs : List (List (List Str)))
    (hcsvs : List.Forall₂ (fun p csv => ∃ text, disk p = some (.text text) ∧ Csv.read text = .ok csv) (splitPaths dataCsvs) csvs)
    (hdata : ∀ csv ∈ csvs, DataFile csv) (hS : loadSchemaText T types values groups = .ok S) (h : Describes S fs) (hfit : Fits fs) (hne : fs ≠ [])
    (hw : ∀ f ∈ fs, 0 < f.2.width) (hV : fs.length ≤ 32768)
    (hd : Packable datasetPath) (he : Packable ensemblePath) (hpaths : datasetPath ≠ ensemblePath)
    (options : List (String × Int)) {c : Config} (hc : makeConfig options = .ok c) {n : Int} (hn : 1 ≤ n) {cfg : TrainConfig} (htr : Trainable M n c cfg)
    (threads : Nat) (schedule : List Nat) (pool : Util.PoolState) (hpool : Util.PoolOk threads pool)
    (hsch : Util.IsSchedule n.toNat (Util.chunkSize n.toNat (pool.getD threads)) schedule) :
    ∃ disk2 disk3 models ds, importDataCmd T disk dataCsvs typesPath valuesPath groupsPath datasetPath = .ok disk2 ∧
      trainCmd run threads schedule pool disk2 datasetPath ensemblePath options = .ok disk3 ∧
      serveModel mst disk3 datasetPath ensemblePath = .ok ds ∧
      models.length = n.toNat ∧ Members models fs.length S.raggedIndex ∧ Holds S fs (csvs.flatMap (fileRows T fs)) models ds ∧
      ∀ m ∈ models, Outcome num mst junk ⟨fs.map fun _ => tyMultinomial, S.raggedIndex, csvs.flatMap (fileRows T fs)⟩
        (List.replicate (fs.length * (fs.length - 1) / 2) 0) cfg (.ok m) := by
  set t : Table := ⟨fs.map fun _ => tyMultinomial, S.raggedIndex, csvs.flatMap (fileRows T fs)⟩ with htdef
  -- the files that `load_schema` reads
  obtain ⟨rt, rv, rg, hrt, hrv, hrg, hS'⟩ : ∃ rt rv rg, Csv.read types = .ok rt ∧ Csv.read values = .ok rv ∧
      (match groups with
        | none => .ok none
        | some g => do
          let rows ← Csv.read g
          .ok (some rows) : Py (Option (List (List Str)))) = .ok rg ∧ loadSchema T rt rv rg = .ok S := by
    unfold loadSchemaText at hS
    cases e1 : Csv.read types with
    | error e => simp only [e1, bind, Except.bind] at hS; cases hS
    | ok rt =>
      cases e2 : Csv.read values with
      | error e => simp only [e1, e2, bind, Except.bind] at hS; cases hS
      | ok rv =>
        cases groups with
        | none =>
          simp only [e1, e2, bind, Except.bind] at hS
          exact ⟨rt, rv, none, rfl, rfl, rfl, hS⟩
        | some g =>
          cases e3 : Csv.read g with
          | error e => simp only [e1, e2, e3, bind, Except.bind] at hS; cases hS
          | ok rg =>
            simp only [e1, e2, e3, bind, Except.bind] at hS
            exact ⟨rt, rv, some rg, rfl, rfl, by simp only [bind, Except.bind, e3], hS⟩
  obtain ⟨texts, ex1, ex2, -, -⟩ := readTexts_ok disk _ _ hcsvs
  have himp : importDataText T texts types values groups = .ok (S, t) := by
    have := importData_spec rt rv rg hS' h hfit hne hw csvs hdata
    unfold importDataText
    cases groups with
    | none =>
      cases hrg
      simp only [ex2, hrt, hrv, bind, Except.bind]
      exact this
    | some g =>
      cases eg : Csv.read g with
      | error e => simp only [eg, bind, Except.bind] at hrg; cases hrg
      | ok rows =>
        simp only [eg, bind, Except.bind] at hrg
        cases hrg
        simp only [ex2, hrt, hrv, eg, bind, Except.bind]
        exact this
  obtain ⟨disk2, d1, d2, -⟩ := (pickle_roundtrip disk (.dataset S t) datasetPath).1 hd
  have hcmd : importDataCmd T disk dataCsvs typesPath valuesPath groupsPath datasetPath = .ok disk2 := by
    have e1 : readText disk typesPath = .ok types := by simp only [readText, ht]
    have e2 : readText disk valuesPath = .ok values := by simp only [readText, hv]
    simp only [importDataCmd, e1, e2, hg, ex1, himp, bind, Except.bind]
    exact d1
  -- training
  obtain ⟨o1, o2, o3, o4⟩ := imported_trainable (T := T) h csvs
  rw [← htdef] at o1 o2 o3 o4
  have hlen : S.featureNames.length = fs.length := by rw [h.names, List.length_map]
  have hprior : S.treePrior = List.replicate (fs.length * (fs.length - 1) / 2) 0 := by
    obtain ⟨_, _, -, -, -, -, -, -, -, -, -, hp⟩ := loadSchema_parts rt rv rg S hS'
    rw [hp, hlen]
  have hprior' : (S.treePrior.map fun q : ℚ => (q : K)) = List.replicate (fs.length * (fs.length - 1) / 2) 0 := by
    rw [hprior]
    simp
  obtain ⟨-, hmake, -⟩ := default_config_never_changes [] options
  obtain ⟨h', hm1, hm2, -⟩ := hmake c hc
  have hfl : 0 < fs.length := List.length_pos_iff.2 hne
  obtain ⟨h'', models, etr, hl, hmem, hout⟩ := trainEnsemble_members hmst hrun t o1 o2 o3 (by rw [o4]; exact hfl) (by rw [o4]; exact hV)
    (List.replicate (fs.length * (fs.length - 1) / 2) 0) (by rw [o4, List.length_replicate]) hn htr threads schedule pool hpool hsch h' Heap.init.length hm2
  obtain ⟨disk3, d3, d4, d5⟩ := (pickle_roundtrip disk2 (.ensemble models) ensemblePath).1 he
  have htrain : trainCmd run threads schedule pool disk2 datasetPath ensemblePath options = .ok disk3 := by
    have hm1' : makeConfigHeap Heap.init options = (h', .ok Heap.init.length) := hm1
    simp only [trainCmd, d2, asDataset, hm1', hprior', etr, bind, Except.bind]
    exact d3
  -- serving
  rw [o4] at hmem
  have hmem' : Members models fs.length S.raggedIndex := hmem
  have hcne : csvs ≠ [] := by
    rintro rfl
    have h0 := hcsvs.length_eq
    unfold splitPaths at h0
    simp at h0
  obtain ⟨table, i1, ds, i2, i3⟩ := importData_serves hmst rt rv rg hS' h hfit hne hw csvs hdata hcne hmem'
  rw [importData_spec rt rv rg hS' h hfit hne hw csvs hdata] at i1
  cases i1
  have hload : pickleLoad disk3 datasetPath = .ok (.dataset S t) := by
    unfold pickleLoad
    rw [d5 _ hpaths]
    exact d2
  refine ⟨disk2, disk3, models, ds, hcmd, htrain, ?_, hl, hmem', i3, hout⟩
  simp only [serveModel, hload, d4, asDataset, asEnsemble, bind, Except.bind]
  exact i2

/-- **C60**: the four steps of the README. From csv files with distinct column names and at least one row each,
`guess-schema` writes the schema files; if some column got a type, then `import-data`, `train` and `serve_model` succeed one after the
other, whatever is drawn at random and however the training is scheduled. The server holds exactly the valid cells of all the data files in order, and
`model_ensemble_size` models, each of them an outcome of training on that table with a uniform prior over trees. -/
theorem quickStart (hT : Lawful T) {num : Num K} {mst : List (List K) → List Edge} (hmst : MstContract mst)
    {junk : Nat → Nat} {run : TrainerKind → Table → List K → Config → Py (Model K M)} (hrun : Draws num mst junk run)
    (disk : Disk K M) (dataCsvs typesPath valuesPath datasetPath ensemblePath : Str) (csvs : List (List (List Str)))
    (hcsvs : List.Forall₂ (fun p csv => ∃ text, disk p = some (.text text) ∧ Csv.read text = .ok csv) (splitPaths dataCsvs) csvs)
    (hdata : ∀ csv ∈ csvs, DataFile csv) (hcr : ∀ p ∈ splitPaths dataCsvs, '\r' ∉ basename p)
    (htv : typesPath ≠ valuesPath) (htp : typesPath ∉ splitPaths dataCsvs) (hvp : valuesPath ∉ splitPaths dataCsvs)
    (hd : Packable datasetPath) (he : Packable ensemblePath) (hpaths : datasetPath ≠ ensemblePath)
    (options : List (String × Int)) {c : Config} (hc : makeConfig options = .ok c) {n : Int} (hn : 1 ≤ n) {cfg : TrainConfig} (htr : Trainable M n c cfg)
    (threads : Nat) (schedule : List Nat) (pool : Util.PoolState) (hpool : Util.PoolOk threads pool)
    (hsch : Util.IsSchedule n.toNat (Util.chunkSize n.toNat (pool.getD threads)) schedule) :
    ∃ disk1 text types, guessSchemaCmd T disk dataCsvs typesPath valuesPath = .ok disk1 ∧ disk1 typesPath = some (.text text) ∧ Csv.read text = .ok types ∧
      ((∃ row ∈ types.tail, row.getD 1 [] ≠ []) → types.length ≤ 32769 → ∃ S fs disk2 disk3 models ds,
        importDataCmd T disk1 dataCsvs typesPath valuesPath [] datasetPath = .ok disk2 ∧
        trainCmd run threads schedule pool disk2 datasetPath ensemblePath options = .ok disk3 ∧
        serveModel mst disk3 datasetPath ensemblePath = .ok ds ∧
        Describes S fs ∧ Fits fs ∧ (∀ n, n ∈ fs.map Prod.fst ↔ ∃ row ∈ types.tail, row.head? = some n ∧ row.getD 1 [] ≠ []) ∧
        models.length = n.toNat ∧ Members models fs.length S.raggedIndex ∧ Holds S fs (csvs.flatMap (fileRows T fs)) models ds ∧
        ∀ m ∈ models, Outcome num mst junk ⟨fs.map fun _ => tyMultinomial, S.raggedIndex, csvs.flatMap (fileRows T fs)⟩
          (List.replicate (fs.length * (fs.length - 1) / 2) 0) cfg (.ok m)) := by
  obtain ⟨texts, ex1, ex2, ex3, ex4⟩ := readTexts_ok disk _ _ hcsvs
  have htexts : ∀ f ∈ ((splitPaths dataCsvs).map basename).zip texts, f.2 ≠ [] := by
    rintro ⟨b, text⟩ hf h0
    have hmem := (List.of_mem_zip hf).2
    obtain ⟨csv, hcsv, e⟩ := mapM_mem ex2 text hmem
    obtain ⟨header, rows, rfl, -⟩ := hdata csv hcsv
    simp only at h0
    rw [h0] at e
    have : Csv.read [] = .ok [] := by decide
    rw [this] at e
    cases e
  have hnames : ∀ f ∈ ((splitPaths dataCsvs).map basename).zip texts, '\r' ∉ f.1 := by
    rintro ⟨b, text⟩ hf
    obtain ⟨p, hp, rfl⟩ := List.mem_map.1 (List.of_mem_zip hf).1
    exact hcr p hp
  obtain ⟨types, vals, t, v, eg, et, ev, hload⟩ := guessSchemaText_loads hT _ htexts hnames
  refine ⟨(disk.write typesPath (.text t)).write valuesPath (.text v), t, types, ?_, ?_, et, fun hty hlen => ?_⟩
  · simp only [guessSchemaCmd, ex3, eg, bind, Except.bind]
  · simp [Disk.write, htv]
  obtain ⟨S, fs, eS, hdesc, hfs, hcat, hord⟩ := hload hty
  have hfit : Fits fs := fun n lo hi hm => by have := hord n lo hi hm; omega
  have hne : fs ≠ [] := by
    obtain ⟨row, hrow, hty⟩ := hty
    intro h0
    cases hh : row.head? with
    | none =>
      rw [List.head?_eq_none_iff] at hh
      subst hh
      simp at hty
    | some n =>
      have := (hfs n).2 ⟨row, hrow, hh, hty⟩
      rw [h0] at this
      simp at this
  have hw : ∀ f ∈ fs, 0 < f.2.width := by
    rintro ⟨n, F⟩ hf
    cases F with
    | cat vs => have := (hcat n vs hf).1; simp only [Feature.width]; omega
    | ord lo hi => simp [Feature.width]
  have hV : fs.length ≤ 32768 := by
    have hsub : (fs.map Prod.fst) ⊆ types.tail.map fun row => row.headD [] := by
      intro n hn
      obtain ⟨row, hrow, hh, -⟩ := (hfs n).1 hn
      refine List.mem_map.2 ⟨row, hrow, ?_⟩
      rw [List.headD_eq_head?_getD, hh]
      rfl
    have := (List.subperm_of_subset hdesc.nodup hsub).length_le
    rw [List.length_map, List.length_map, List.length_tail] at this
    omega
  have hcsvs' : List.Forall₂ (fun p csv => ∃ text, ((disk.write typesPath (.text t)).write valuesPath (.text v)) p = some (.text text) ∧
      Csv.read text = .ok csv) (splitPaths dataCsvs) csvs := by
    have key : ∀ (ps : List Str) (cs : List (List (List Str))), (∀ p ∈ ps, p ≠ typesPath ∧ p ≠ valuesPath) →
        List.Forall₂ (fun p csv => ∃ text, disk p = some (.text text) ∧ Csv.read text = .ok csv) ps cs →
        List.Forall₂ (fun p csv => ∃ text, ((disk.write typesPath (.text t)).write valuesPath (.text v)) p = some (.text text) ∧
          Csv.read text = .ok csv) ps cs := by
      intro ps cs hps h
      induction h with
      | nil => exact .nil
      | @cons p csv ps cs hp _ ih =>
        obtain ⟨text, e1, e2⟩ := hp
        obtain ⟨n1, n2⟩ := hps p (by simp)
        exact .cons ⟨text, by simp [Disk.write, n1, n2, e1], e2⟩ (ih fun q hq => hps q (by simp [hq]))
    exact key _ _ (fun p hp => ⟨fun h0 => htp (h0 ▸ hp), fun h0 => hvp (h0 ▸ hp)⟩) hcsvs
  obtain ⟨disk2, disk3, models, ds, a1, a2, a3, a4, a5, a6, a7⟩ := importTrainServe (T := T) (S := S) (fs := fs) hmst hrun
    ((disk.write typesPath (.text t)).write valuesPath (.text v)) dataCsvs typesPath valuesPath [] datasetPath ensemblePath t v none
    (by simp [Disk.write, htv]) (by simp [Disk.write]) rfl csvs hcsvs' hdata eS hdesc hfit hne hw hV hd he hpaths options hc hn htr threads schedule pool hpool hsch
  exact ⟨S, fs, disk2, disk3, models, ds, a1, a2, a3, hdesc, hfit, hfs, a4, a5, a6, a7⟩

/-- What the server of the README answers: for any readable evidence, sampling succeeds whatever is drawn, and gives the requested number of rows,
each with a legal value for exactly the features that the data files ever observe; and the log probabilities of these rows are defined and
are the logarithms of the mean of the probabilities under the models. -/
theorem served_queries {M : Nat} [NeZero M] {models : List (Model ℝ M)} (h : Describes S fs) (hfit : Fits fs) {data : List (List Int)}
    (E : Members models fs.length S.raggedIndex) {ds : DataServer ℝ M} (hd : Holds S fs data models ds) (N : Nat) (evidence : Option (Dict Str Json))
    (he : ∀ row ∈ evidence, (Dict.keys row).Nodup ∧ Readable T fs row) :
    (∃ o, (ds.sample T N evidence : ExceptT PyErr Poss _).run o) ∧
    ∀ o, (ds.sample T N evidence : ExceptT PyErr Poss _).run o → ∃ (rows : List (Dict Str Json)) (lps : List ℝ), o = .ok rows ∧ rows.length = N ∧
      (∀ row ∈ rows, ∀ (v : Nat) f, fs[v]? = some f → ¬ Hidden f.2 → (f.1 ∈ Dict.keys row ↔ Observed fs data v)) ∧
      ds.logprob T realNum (.list rows) none = .ok (lps.map some) ∧
      lps.map Real.exp = rows.map fun row => meanOf models fun m => dataProb m fun r => (internalRow fs (valueOf T row)).getD r 0 := by
  obtain ⟨h1, h2⟩ := dataServer_sample (T := T) h hfit E hd N evidence he
  refine ⟨h1, fun o ho => ?_⟩
  obtain ⟨rows, rfl, hl, hrows⟩ := h2 o ho
  obtain ⟨lps, e1, e2⟩ := dataServer_logprob_partial (T := T) h hfit E hd rows fun row hrow =>
    ⟨(hrows row hrow).1, fun nj hnj F hF => by
      obtain ⟨F', hF', hc⟩ := (hrows row hrow).2.1 nj hnj
      have e := feature_unique h.nodup hF hF' rfl
      cases e
      exact ⟨_, readCell_self F nj.2 hc⟩⟩
  exact ⟨rows, lps, rfl, hl, fun row hrow => (hrows row hrow).2.2, e1, e2⟩

/-- **C60**: a groups file is read if its path is given. A row with all four fields in it makes `import-data` fail, and an absent file does too;
with an empty path no groups are used. -/
theorem importDataCmd_groups (disk : Disk K M) (dataCsvs typesPath valuesPath groupsPath datasetPath : Str) :
    (∀ text rows row, groupsPath ≠ [] → disk groupsPath = some (.text text) → Csv.read text = .ok rows → row ∈ rows.tail → 4 ≤ row.length →
      ∀ disk2, importDataCmd T disk dataCsvs typesPath valuesPath groupsPath datasetPath ≠ .ok disk2) ∧
    (groupsPath ≠ [] → disk groupsPath = none → ∀ disk2, importDataCmd T disk dataCsvs typesPath valuesPath groupsPath datasetPath ≠ .ok disk2) := by
  constructor
  · intro text rows row hne htext hread hrow h4 disk2 h
    have hg : readGroups disk groupsPath = .ok (some text) := by
      simp only [readGroups, if_neg hne, readText, htext, Except.map]
    cases e1 : readText disk typesPath with
    | error e => simp only [importDataCmd, e1, bind, Except.bind] at h; cases h
    | ok types =>
      cases e2 : readText disk valuesPath with
      | error e => simp only [importDataCmd, e1, e2, bind, Except.bind] at h; cases h
      | ok values =>
        cases e3 : (splitPaths dataCsvs).mapM (readText disk) with
        | error e => simp only [importDataCmd, e1, e2, e3, hg, bind, Except.bind] at h; cases h
        | ok csvs =>
          cases e4 : importDataText T csvs types values (some text) with
          | error e => simp only [importDataCmd, e1, e2, e3, hg, e4, bind, Except.bind] at h; cases h
          | ok st =>
            unfold importDataText at e4
            cases a1 : csvs.mapM Csv.read with
            | error e => simp only [a1, bind, Except.bind] at e4; cases e4
            | ok csvs' =>
              cases a2 : Csv.read types with
              | error e => simp only [a1, a2, bind, Except.bind] at e4; cases e4
              | ok types' =>
                cases a3 : Csv.read values with
                | error e => simp only [a1, a2, a3, bind, Except.bind] at e4; cases e4
                | ok values' =>
                  simp only [a1, a2, a3, hread, bind, Except.bind, importData] at e4
                  cases a4 : loadSchema T types' values' (some rows) with
                  | error e => simp only [a4] at e4; cases e4
                  | ok S => exact loadSchema_groups_raise types' values' rows row hrow h4 S a4
  · intro hne hnone disk2 h
    have hg : readGroups disk groupsPath = .error .ioError := by
      simp only [readGroups, if_neg hne, readText, hnone, Except.map]
    cases e1 : readText disk typesPath with
    | error e => simp only [importDataCmd, e1, bind, Except.bind] at h; cases h
    | ok types =>
      cases e2 : readText disk valuesPath with
      | error e => simp only [importDataCmd, e1, e2, bind, Except.bind] at h; cases h
      | ok values => simp only [importDataCmd, e1, e2, hg, bind, Except.bind] at h; cases h

/-- **C60**: a path to a single model is served as the ensemble of that one model. -/
theorem serveModel_single {mst : List (List K) → List Edge} (hmst : MstContract mst)
    (h : Describes S fs) (hfit : Fits fs) (table : Table) (htab : table.raggedIndex = S.raggedIndex)
    (hrows : Imported fs table.data) (hne : table.data ≠ []) {m : Model K M} (hm : Members [m] fs.length S.raggedIndex)
    (disk : Disk K M) (datasetPath modelPath : Str) (hd : pickleLoad disk datasetPath = .ok (.dataset S table))
    (hmod : pickleLoad disk modelPath = .ok (.model m)) :
    ∃ ds, serveModel mst disk datasetPath modelPath = .ok ds ∧ Holds S fs table.data [m] ds := by
  obtain ⟨ds, e, hh⟩ := dataServer_init hmst h hfit table htab hrows hne hm
  refine ⟨ds, ?_, hh⟩
  simp only [serveModel, hd, hmod, asDataset, asEnsemble, bind, Except.bind]
  exact e

/-! ### The commands on a small file -/

/-- A disk with one data file. -/
def quickDisk : Disk ℝ 4 := fun p => if p = "dir/d.csv".toList then some (.text "a,b\n1,x\n1,x\n2,y\n2,y\n3,z\n".toList) else none

def quickOptions : List (String × Int) := [("model_num_clusters", 4), ("model_ensemble_size", 2), ("learning_init_epochs", 3)]

theorem quickOptions_trainable : ∃ c, makeConfig quickOptions = .ok c ∧ Trainable 4 2 c ⟨3, 1, 3, true⟩ := by
  refine ⟨(makeConfig quickOptions).toOption.getD [], by decide, ⟨by decide, by decide, by decide, by decide, by decide, by decide, by decide, 0, by decide, by decide, by decide⟩⟩

/-- The README on the small file: everything succeeds, for some way of drawing. -/
example : ∃ mst run disk1 disk2 disk3 ds, guessSchemaCmd asciiText quickDisk "dir/d.csv".toList "t.csv".toList "v.csv".toList = .ok disk1 ∧
    importDataCmd asciiText disk1 "dir/d.csv".toList "t.csv".toList "v.csv".toList [] "data.pkz".toList = .ok disk2 ∧
    trainCmd run 1 [0, 1] none disk2 "data.pkz".toList "model.jz".toList quickOptions = .ok disk3 ∧
    serveModel mst disk3 "data.pkz".toList "model.jz".toList = .ok ds ∧ ds.table.data.length = 5 := by
  obtain ⟨mst, hmst⟩ := exists_mst (K := ℝ)
  obtain ⟨run, hrun⟩ := exists_draws (M := 4) (⟨Real.exp, Real.log⟩ : Num ℝ) mst fun _ => 0
  obtain ⟨c, hc, htr⟩ := quickOptions_trainable
  have hs : splitPaths "dir/d.csv".toList = ["dir/d.csv".toList] := by decide
  have hread : Csv.read "a,b\n1,x\n1,x\n2,y\n2,y\n3,z\n".toList =
      .ok ([["a", "b"], ["1", "x"], ["1", "x"], ["2", "y"], ["2", "y"], ["3", "z"]].map fun r => r.map String.toList) := by decide +kernel
  obtain ⟨disk1, text, types, e1, e2, e3, himp⟩ := quickStart asciiText_lawful hmst hrun quickDisk "dir/d.csv".toList "t.csv".toList
    "v.csv".toList "data.pkz".toList "model.jz".toList
    [[["a", "b"], ["1", "x"], ["1", "x"], ["2", "y"], ["2", "y"], ["3", "z"]].map fun r => r.map String.toList]
    (by rw [hs]; exact .cons ⟨_, if_pos rfl, hread⟩ .nil)
    (by intro csv hcsv; rw [List.mem_singleton.1 hcsv]; exact ⟨_, _, rfl, by decide, by decide⟩)
    (by rw [hs]; decide) (by decide) (by rw [hs]; decide) (by rw [hs]; decide) (by decide) (by decide) (by decide) quickOptions hc (by decide) htr 1 [0, 1] none
    ⟨by decide, by simp⟩ (by unfold Util.IsSchedule; decide)
  have htypes : (guessSchemaCmd asciiText quickDisk "dir/d.csv".toList "t.csv".toList "v.csv".toList).bind (fun d => match d "t.csv".toList with
      | some (.text t) => (Csv.read t).map fun rows => (decide (∃ row ∈ rows.tail, row.getD 1 [] ≠ []), decide (rows.length ≤ 32769))
      | _ => .error .ioError) = .ok (true, true) := by decide +kernel
  simp only [e1, Except.bind, e2, e3, Except.map, Except.ok.injEq, Prod.mk.injEq, decide_eq_true_eq] at htypes
  obtain ⟨S, fs, disk2, disk3, models, ds, a1, a2, a3, -, -, -, -, -, hd, -⟩ := himp htypes.1 htypes.2
  refine ⟨mst, run, disk1, disk2, disk3, ds, e1, a1, a2, a3, ?_⟩
  rw [hd.stored]
  rfl

/-- A groups file with one row, at the path given to `import-data`. -/
example : ∀ disk2, importDataCmd asciiText (quickDisk.write "g.csv".toList (.text "name,logit,a,b\ng,1,a,b\n".toList)) "dir/d.csv".toList "t.csv".toList
    "v.csv".toList "g.csv".toList "data.pkz".toList ≠ .ok disk2 :=
  (importDataCmd_groups _ _ _ _ _ _).1 _ (["name", "logit", "a", "b"].map String.toList :: [["g", "1", "a", "b"].map String.toList])
    (["g", "1", "a", "b"].map String.toList)
    (by decide) (if_pos rfl) (by decide +kernel) (by decide +kernel) (by decide +kernel)

/-- One model of the small schema, stored and served. -/
example : ∃ (mst : _) (disk : Disk ℚ 2) (ds : DataServer ℚ 2), serveModel mst disk "d.pkz".toList "m.pkz".toList = .ok ds ∧ ds.table.data.length = 1 := by
  obtain ⟨mst, hmst⟩ := exists_mst (K := ℚ)
  obtain ⟨h, hfit, -⟩ := tinySchema_describes
  have E : Members [(tinyModels ℚ).head (by simp [tinyModels])] tinyFeatures.length tinySchema.raggedIndex := by
    have E := tinyModels_members ℚ
    refine ⟨by simp, fun m hm => E.valid m ?_, fun m hm => E.size m ?_, fun m hm => E.index m ?_⟩ <;>
      (rw [List.mem_singleton.1 hm]; exact List.head_mem _)
  set data : List (List Int) := [[["genre"].map String.toList, ["drama"].map String.toList]].flatMap (fileRows asciiText tinyFeatures) with hdata
  have hlen : data.length = 1 := by simp [hdata, fileRows]
  set table : Table := ⟨[], tinySchema.raggedIndex, data⟩
  obtain ⟨d1, e1, l1, -⟩ := (pickle_roundtrip (fun _ => none : Disk ℚ 2) (.dataset tinySchema table) "d.pkz".toList).1 (by decide)
  obtain ⟨d2, e2, l2, k2⟩ := (pickle_roundtrip d1 (.model ((tinyModels ℚ).head (by simp [tinyModels]))) "m.pkz".toList).1 (by decide)
  have l1' : pickleLoad d2 "d.pkz".toList = .ok (.dataset tinySchema table) := by
    unfold pickleLoad
    rw [k2 _ (by decide)]
    exact l1
  obtain ⟨ds, e, hh⟩ := serveModel_single hmst h hfit table rfl (fileRows_imported _) (by rw [← List.length_pos_iff]; exact hlen ▸ Nat.one_pos) E d2 _ _ l1' l2
  exact ⟨mst, d2, ds, e, by rw [hh.stored]; exact hlen⟩

/-- A dataset is stored under its name only, a file with another ending is refused, and a text file is not a dataset. -/
example : Packable "data.pkz".toList ∧ Packable "data.jz".toList ∧ ¬ Packable "data.pkl".toList ∧
    (pickleLoad quickDisk "dir/d.csv".toList).toOption.isNone ∧ basename "dir/d.csv".toList = "d.csv".toList ∧
    splitPaths "a.csv,b.csv,".toList = ["a.csv".toList, "b.csv".toList, []] := by
  refine ⟨by decide, by decide, by decide, by decide, by decide, by decide⟩

end TreeCat
