import Verif.Model.ProfileRun
import Verif.Props.GenerateFiles
import Verif.Props.ServerSample
import Verif.Props.Median
import Verif.Props.Correlation
import Verif.Props.Logprob
import Verif.Lemmas.Dict

/-! # C86: profile.py runs the command once under each tool, and what it runs completes -/

set_option linter.unusedSectionVars false

namespace TreeCat

open Spec Util Config

/-! ### The tools -/

namespace Spec

/-- The tools of the docstrings, profile.py:95, 114, 129. -/
def profileTools : List Str := ["timers", "time", "snakeviz", "line_profiler", "pdb"].map String.toList

/-- What the profiled program sees of a variable: one thread; for the timers, profiling and messages unless the user chose otherwise. -/
def toolVariable (tool : Str) (environ : Dict Str Str) (key : Str) : Option Str :=
  if key = "TREECAT_THREADS".toList then some "1".toList
  else match Dict.get? environ key with
    | some value => some value
    | none => if tool = "timers".toList ∧ key = "TREECAT_PROFILE".toList then some "1".toList
      else if tool = "timers".toList ∧ key = "TREECAT_LOG_LEVEL".toList then some "20".toList else none

/-- The command is run by an interpreter that skips assertions. -/
def Optimized (l : Launch) (cmd : List Str) : Prop := ∃ pre, l.args = pre ++ ["-O".toList] ++ cmd

end Spec

theorem get?_setDefault (env : Dict Str Str) (key value x : Str) :
    Dict.get? (setDefault env key value) x = if x = key then some ((Dict.get? env key).getD value) else Dict.get? env x := by
  unfold setDefault Dict.has
  cases h : Dict.get? env key with
  | none =>
    simp only [Option.isSome_none, Bool.false_eq_true, if_false, Option.getD_none]
    rw [Dict.get?_set]
    by_cases hx : key = x
    · rw [if_pos hx, if_pos hx.symm]
    · rw [if_neg hx, if_neg (Ne.symm hx)]
  | some v =>
    simp only [Option.isSome_some, if_true, Option.getD_some]
    split
    · rename_i hx
      rw [hx, h]
    · rfl

/-- The environment of the timers. -/
theorem timers_env (environ : Dict Str Str) (threads prof level one twenty key : Str) (h1 : threads ≠ prof) (h2 : threads ≠ level) (h3 : prof ≠ level) :
    Dict.get? (setDefault (setDefault (Dict.set environ threads one) prof one) level twenty) key =
      if key = threads then some one
      else match Dict.get? environ key with
        | some value => some value
        | none => if key = prof then some one else if key = level then some twenty else none := by
  simp only [get?_setDefault, Dict.get?_set]
  by_cases k1 : key = threads
  · subst k1
    simp [h1, h2]
  · by_cases k2 : key = level
    · subst k2
      simp only [if_true, if_neg h3.symm, if_neg k1, if_neg (Ne.symm k1)]
      cases Dict.get? environ key <;> rfl
    · by_cases k3 : key = prof
      · subst k3
        simp only [if_true, if_neg k2, if_neg k1, if_neg (Ne.symm k1)]
        cases Dict.get? environ key <;> rfl
      · simp only [if_neg k1, if_neg (Ne.symm k1), if_neg k2, if_neg k3]
        cases Dict.get? environ key <;> rfl

/-- The environment of the other tools. -/
theorem tools_env (environ : Dict Str Str) (tool key : Str) (h : tool ≠ "timers".toList) :
    Dict.get? (Dict.set environ "TREECAT_THREADS".toList "1".toList) key = toolVariable tool environ key := by
  rw [Dict.get?_set]
  unfold toolVariable
  simp only [h, false_and, if_false]
  generalize "TREECAT_THREADS".toList = k
  by_cases hk : key = k
  · rw [if_pos hk, if_pos hk.symm]
  · rw [if_neg hk, if_neg (Ne.symm hk)]
    cases Dict.get? environ key <;> rfl

namespace Spec

/-- What a run of a tool of the documentation is: see `runWithTool_spec`. -/
def ToolRun (exit : Launch → Int) (environ : Dict Str Str) (cmd : List Str) (tool : Str) (r : List Launch × Option ToolError) : Prop :=
  ∃ l rest err, r = (l :: rest, err) ∧
    cmd <:+ l.args ∧ (∀ key, Dict.get? l.env key = toolVariable tool environ key) ∧
    ((tool = "timers".toList ∨ tool = "time".toList) → Optimized l cmd) ∧
    (exit l ≠ 0 → rest = [] ∧ err = some (.calledProcess (exit l) l.args)) ∧
    (exit l = 0 → tool ≠ "snakeviz".toList → rest = [] ∧ err = none) ∧
    (exit l = 0 → tool = "snakeviz".toList → ∃ file, rest = [⟨["snakeviz".toList, file], environ⟩] ∧
      (∃ pre, l.args = pre ++ ["-o".toList, file] ++ cmd) ∧
      err = if exit ⟨["snakeviz".toList, file], environ⟩ = 0 then none
        else some (.calledProcess (exit ⟨["snakeviz".toList, file], environ⟩) ["snakeviz".toList, file]))

end Spec

theorem toolRun_single {exit : Launch → Int} {environ : Dict Str Str} {cmd : List Str} {tool : Str} {l : Launch} (hs : tool ≠ "snakeviz".toList)
    (h1 : cmd <:+ l.args) (h2 : ∀ key, Dict.get? l.env key = toolVariable tool environ key)
    (h3 : (tool = "timers".toList ∨ tool = "time".toList) → Optimized l cmd) : ToolRun exit environ cmd tool (checkCallEnv exit l) := by
  refine ⟨l, [], _, rfl, h1, h2, h3, fun he => ⟨rfl, if_pos he⟩, fun he _ => ⟨rfl, if_neg (by rw [he]; decide)⟩, fun _ h => absurd h hs⟩

/-- **C86** (tools). A tool of the documentation starts the profiled command exactly once, as the end of the arguments of its first launch, in the environment
of the user but with one thread (and, for the timers, with profiling on unless the user turned it off). It raises just if a launch fails, and
only snakeviz starts a second program, only after the first has succeeded, on the file that the first has written. Another tool starts nothing and raises `ValueError`. -/
theorem runWithTool_spec (exit : Launch → Int) (python : Str) (darwin : Bool) (environ : Dict Str Str) (cmd : List Str) (tool dirname : Str) :
    (tool ∉ profileTools → runWithTool exit python darwin environ cmd tool dirname = ([], some .unknownTool)) ∧
    (tool ∈ profileTools → ToolRun exit environ cmd tool (runWithTool exit python darwin environ cmd tool dirname)) := by
  constructor
  · intro h
    have h' : tool ≠ "timers".toList ∧ tool ≠ "time".toList ∧ tool ≠ "snakeviz".toList ∧ tool ≠ "line_profiler".toList ∧ tool ≠ "pdb".toList := by
      refine ⟨?_, ?_, ?_, ?_, ?_⟩ <;> (rintro rfl; exact h (by decide))
    obtain ⟨h1, h2, h3, h4, h5⟩ := h'
    simp only [runWithTool, if_neg h1, if_neg h2, if_neg h3, if_neg h4, if_neg h5]
  · intro h
    have h' : tool = "timers".toList ∨ tool = "time".toList ∨ tool = "snakeviz".toList ∨ tool = "line_profiler".toList ∨ tool = "pdb".toList := by
      simp only [profileTools, List.map_cons, List.map_nil, List.mem_cons, List.not_mem_nil, or_false] at h
      exact h
    rcases h' with rfl | rfl | rfl | rfl | rfl
    · rw [runWithTool, if_pos rfl]
      refine toolRun_single (by decide) ⟨_, rfl⟩ (fun key => ?_) fun _ => ⟨[python], rfl⟩
      refine (timers_env environ _ _ _ _ _ key (by decide) (by decide) (by decide)).trans ?_
      unfold toolVariable
      simp only [true_and]
    · rw [runWithTool, if_neg (by decide), if_pos rfl]
      exact toolRun_single (by decide) ⟨_, rfl⟩ (fun key => tools_env _ _ key (by decide)) fun _ => ⟨[_, _, python], rfl⟩
    · rw [runWithTool, if_neg (by decide), if_neg (by decide), if_pos rfl]
      generalize hf : dirname ++ "/profile_train.prof".toList = file
      simp only [checkCallEnv]
      generalize hl : (⟨[python, "-m".toList, "cProfile".toList, "-o".toList, file] ++ cmd,
        Dict.set environ "TREECAT_THREADS".toList "1".toList⟩ : Launch) = l
      have hargs : l.args = [python, "-m".toList, "cProfile".toList, "-o".toList, file] ++ cmd := by rw [← hl]
      have henv : l.env = Dict.set environ "TREECAT_THREADS".toList "1".toList := by rw [← hl]
      by_cases he : exit l = 0
      · rw [if_neg (by rw [he]; decide)]
        refine ⟨l, _, _, rfl, ⟨_, hargs.symm⟩, fun key => by rw [henv]; exact tools_env _ _ key (by decide), ?_, ?_, ?_, ?_⟩
        · rintro (hs | hs) <;> exact absurd hs (by decide)
        · intro he'; exact absurd he he'
        · intro _ hs; exact absurd rfl hs
        · intro _ _
          refine ⟨file, rfl, ⟨[python, "-m".toList, "cProfile".toList], hargs⟩, ?_⟩
          simp only [ne_eq, ite_not]
      · rw [if_pos he]
        refine ⟨l, [], _, rfl, ⟨_, hargs.symm⟩, fun key => by rw [henv]; exact tools_env _ _ key (by decide), ?_, ?_, ?_, ?_⟩
        · rintro (hs | hs) <;> exact absurd hs (by decide)
        · intro _; exact ⟨rfl, by rw [hargs]⟩
        · intro he'; exact absurd he' he
        · intro he'; exact absurd he' he
    · rw [runWithTool, if_neg (by decide), if_neg (by decide), if_neg (by decide), if_pos rfl]
      exact toolRun_single (by decide) ⟨_, rfl⟩ (fun key => tools_env _ _ key (by decide)) (by rintro (hs | hs) <;> exact absurd hs (by decide))
    · rw [runWithTool, if_neg (by decide), if_neg (by decide), if_neg (by decide), if_neg (by decide), if_pos rfl]
      exact toolRun_single (by decide) ⟨_, rfl⟩ (fun key => tools_env _ _ key (by decide)) (by rintro (hs | hs) <;> exact absurd hs (by decide))

/-- The timers with a user who turned profiling off and uses four threads. -/
example : runWithTool (fun _ => 0) "py".toList false [("TREECAT_PROFILE".toList, "0".toList), ("TREECAT_THREADS".toList, "4".toList)]
      ["profile.py".toList, "serve_files".toList] "timers".toList "/tmp/x".toList =
    ([⟨["py", "-O", "profile.py", "serve_files"].map String.toList,
      [("TREECAT_PROFILE".toList, "0".toList), ("TREECAT_THREADS".toList, "1".toList), ("TREECAT_LOG_LEVEL".toList, "20".toList)]⟩], none) := by
  decide +kernel

/-! ### Training -/

section
variable {K : Type} [Field K] [LinearOrder K] [IsStrictOrderedRing K] {M : Nat} [NeZero M]

/-- The config of `profile.train`. -/
theorem profileConfig (hM : M ≤ 128) {epochs : Int} (he : 1 ≤ epochs) (parallel : Int) :
    ∃ c, makeConfig [("learning_init_epochs", epochs), ("model_num_clusters", (M : Int)), ("model_ensemble_size", 1),
      ("learning_parallel", parallel)] = .ok c ∧ Trainable M 1 c ⟨epochs, 1, 3, true⟩ :=
  ⟨_, rfl, ⟨rfl, rfl, rfl, rfl, ⟨Nat.pos_of_ne_zero (NeZero.ne M), hM⟩, he, by norm_num, 0, rfl, by decide, by decide⟩⟩

/-- **C86** (training). If the drawn counts fit into a cell, `profile.train` completes after any history of generated files, for all numbers of rows, columns,
epochs and clusters that training accepts, and trains one model on the generated dataset with a uniform prior over trees. -/
theorem profileTrain_runs {num : Num K} {mst : List (List K) → List Edge} (hmst : MstContract mst)
    {junk : Nat → Nat} {run : TrainerKind → Table → List K → Config → Py (Model K M)} (hrun : Draws num mst junk run)
    (rng : Nat → Nat → Nat → ℚ → Nat → Nat → List Nat) (history : List GenCall) (rows cols : Nat) (hV : 1 ≤ cols) (hV' : cols ≤ 32768)
    (hM : M ≤ 128) {epochs : Int} (he : 1 ≤ epochs) (parallel : Int)
    (hsmall : ∀ rate' v n c, (rng rows cols 4 rate' v n).getD c 0 ≤ 127)
    (threads : Nat) (schedule : List Nat) (pool : Util.PoolState) (hpool : Util.PoolOk threads pool)
    (hsch : Util.IsSchedule 1 (Util.chunkSize 1 (pool.getD threads)) schedule) :
    ∃ disk' m d rate', profileTrain rng run threads schedule pool (history.foldl (GenCall.run rng run) fun _ => none) rows cols epochs M parallel =
        (disk', .ok [m]) ∧ SameTenth 1 rate' ∧ generateSeeded rng rows cols 4 rate' = .ok d ∧
      Outcome num mst junk d.2.2 (List.replicate (cols * (cols - 1) / 2) 0) ⟨epochs, 1, 3, true⟩ (.ok m) ∧
      m.tree.numVertices = cols ∧ m.raggedIndex = d.2.2.raggedIndex ∧ Model.Valid m := by
  obtain ⟨c, hc, htr⟩ := profileConfig (M := M) hM he parallel
  rcases generateDatasetFile_spec rng run history rows cols 4 1 _ rfl with ⟨e, -, hg⟩ | ⟨disk', path, d, rate', e1, e2, e3, e4, -⟩
  · exfalso
    unfold generateSeeded at hg
    rw [if_neg fun h => absurd h.2.1 (by norm_num)] at hg
    obtain ⟨t, e, _⟩ := generateDataset_spec (rng rows cols 4 1) rows cols 4 (by decide)
    rw [e] at hg
    cases hg
  · obtain ⟨t1, t2, t3, t4, t5, t6, t7, t8⟩ := generateSeeded_table (by decide) e3
    obtain ⟨-, hpos⟩ := t8 fun v _ n _ c _ => hsmall rate' v n c
    obtain ⟨h', models, f1, f2, f3, f4⟩ := trainEnsemble_members hmst hrun d.2.2 t4 t3 (by rw [t1]; exact hpos) (by omega) (by omega)
      (List.replicate (cols * (cols - 1) / 2) 0) (by rw [t2, List.length_replicate]) (n := 1) (by decide) htr threads schedule pool hpool hsch [c] 0 rfl
    obtain ⟨m, rfl⟩ := List.length_eq_one_iff.1 f2
    refine ⟨disk', m, d, rate', ?_, e4, e3, f4 m (by simp), by rw [f3.size m (by simp), t2], f3.index m (by simp), f3.valid m (by simp)⟩
    simp only [profileTrain, hc, e1, trainFiles, loadTable, e2, t2, f1, bind, Except.bind]

end

/-! ### Serving -/

section

/-- **C86** (serving). If the drawn counts fit into a cell, `profile.serve` completes after any history of generated files, whatever is drawn in training and
sampling: it serves an outcome of training on the generated dataset, draws `rows` rows with one observation of each feature, computes their exact log probabilities
and medians with one observation of each feature, and a symmetric matrix of correlations in `[0, 1)`. -/
theorem profileServe_runs {num : Num ℝ} {mst : List (List ℝ) → List Edge} (hmst : MstContract mst)
    {junk : Nat → Nat} {run : TrainerKind → Table → List ℝ → Config → Py (Model ℝ 32)} (hrun : Draws num mst junk run)
    (rng : Nat → Nat → Nat → ℚ → Nat → Nat → List Nat) (history : List GenCall) (rows cols cats : Nat) (hV : 1 ≤ cols) (hV' : cols ≤ 32768) (hC : 0 < cats)
    (hsmall : ∀ rate' v n c, (rng rows cols cats rate' v n).getD c 0 ≤ 127) (junk1 : Nat → Fin 32 → ℝ) (junk2 : Nat → Fin 32 → Fin 32 → ℝ) :
    ∃ disk' path model d rate' prog, profileServe rng run mst realNum junk1 junk2 (history.foldl (GenCall.run rng run) fun _ => none) rows cols cats =
        (disk', prog) ∧ disk' path = some (.model model) ∧ SameTenth 1 rate' ∧ generateSeeded rng rows cols cats rate' = .ok d ∧
      Outcome num mst junk d.2.2 (List.replicate (cols * (cols - 1) / 2) 0) ⟨5, 1, 3, true⟩ (.ok model) ∧
      (∃ o, (prog : ExceptT PyErr Poss _).run o) ∧ ∀ o, prog.run o → ∃ (samples : List (List Int)) (lps : List ℝ) (medians : List (List Int)) (corr : List (List ℝ)),
        o = .ok ⟨samples, lps.map some, medians, corr⟩ ∧ samples.length = rows ∧ medians.length = rows ∧
        (∀ row, row ∈ samples ∨ row ∈ medians → row.length = cols * cats ∧ ∀ v < cols,
          (∀ k < cats, 0 ≤ row.getD (v * cats + k) 0) ∧ ∑ k ∈ Finset.range cats, row.getD (v * cats + k) 0 = 1) ∧
        lps.map Real.exp = samples.map (fun row => dataProb model fun r => row.getD r 0) ∧
        ∃ m : Nat → Nat → ℝ, corr = (List.range cols).map (fun i => (List.range cols).map fun j => m i j) ∧
          ∀ i < cols, ∀ j < cols, 0 ≤ m i j ∧ m i j < 1 ∧ m i j = m j i := by
  obtain ⟨disk', path, model, d, rate', e1, e2, e3, -, e4, e5, v1, v2, hval⟩ :=
    generateModelFile_trains hmst hrun rng history rows cols cats 1 hV hV' hC (by norm_num) hsmall
  obtain ⟨t1, t2, t3, t4, t5, t6, t7, t8⟩ := generateSeeded_table hC e4
  obtain ⟨-, hpos⟩ := t8 fun v _ n _ c _ => hsmall rate' v n c
  have hcons : Model.Consistent model := by
    obtain ⟨s0, f0, r, s, ho, er⟩ := e5
    obtain ⟨s0', f0', -, hall⟩ := trainedModel_valid (M := 32) num mst hmst junk d.2.2 t4 t3 (by rw [t1]; exact hpos) (by omega) (by omega)
      (by decide) (List.replicate (cols * (cols - 1) / 2) 0) (by rw [t2]; simp) ⟨5, 1, 3, true⟩ (by norm_num) (by norm_num)
      ((2 * 5 + 1) * d.2.2.numRows) (le_refl _)
    rw [f0] at f0'
    cases f0'
    obtain ⟨logits, rfl, -, -, hc⟩ := hall r s ho
    cases er
    exact hc
  have hbeg : ∀ v ≤ cols, model.raggedIndex.getD v 0 = v * cats := by
    intro v hv
    rw [v2, ← t5]
    exact t7 v hv
  have hR : model.raggedIndex.getLastD 0 = cols * cats := by
    rw [List.getLastD_eq_getLast?, List.getLast?_eq_getElem?, hval.ragged, v1, Nat.add_sub_cancel, ← List.getD_eq_getElem?_getD, hbeg cols (le_refl _)]
  have hcol : ∀ v < cols, columns model v = Finset.Ico (v * cats) ((v + 1) * cats) := by
    intro v hv
    unfold columns
    rw [hbeg v hv.le, hbeg (v + 1) hv]
  have hblock : ∀ (row : List Int) v, v < cols → (∀ c ∈ columns model v, 0 ≤ row.getD c 0) → ∑ c ∈ columns model v, row.getD c 0 = 1 →
      (∀ k < cats, 0 ≤ row.getD (v * cats + k) 0) ∧ ∑ k ∈ Finset.range cats, row.getD (v * cats + k) 0 = 1 := by
    intro row v hv h1 h2
    rw [hcol v hv] at h1 h2
    refine ⟨fun k hk => h1 _ (Finset.mem_Ico.2 ⟨by omega, by rw [Nat.add_mul]; omega⟩), ?_⟩
    rw [Finset.sum_Ico_eq_sum_range] at h2
    rw [← h2, Nat.add_mul, one_mul, Nat.add_sub_cancel_left]
  have hne : ∀ v < model.tree.numVertices, (columns model v).Nonempty := by
    intro v hv
    rw [hcol v (by omega), Finset.nonempty_Ico, Nat.add_mul]
    omega
  have hcounts : ∀ x ∈ List.replicate model.tree.numVertices (1 : Int), 0 ≤ x ∧ x ≤ 127 := by
    intro x hx
    rw [(List.mem_replicate.1 hx).2]
    decide
  have hone : ∀ v < cols, (List.replicate model.tree.numVertices (1 : Int)).getD v 0 = 1 := by
    intro v hv
    rw [List.getD_eq_getElem _ _ (by simp; omega), List.getElem_replicate]
  obtain ⟨srv, i1, i2, -⟩ := server_init hmst hval
  obtain ⟨corr, c1, c2⟩ := latentCorrelation_spec hval hcons i2 junk2
  have hserve : Sure (serveFiles mst realNum junk1 junk2 disk' path Config.defaultConfig rows : ExceptT PyErr Poss (Served ℝ)) fun o =>
      ∃ (samples : List (List Int)) (lps : List ℝ) (medians : List (List Int)) (corr : List (List ℝ)),
        o = ⟨samples, lps.map some, medians, corr⟩ ∧ samples.length = rows ∧ medians.length = rows ∧
        (∀ row, row ∈ samples ∨ row ∈ medians → row.length = cols * cats ∧ ∀ v < cols,
          (∀ k < cats, 0 ≤ row.getD (v * cats + k) 0) ∧ ∑ k ∈ Finset.range cats, row.getD (v * cats + k) 0 = 1) ∧
        lps.map Real.exp = samples.map (fun row => dataProb model fun r => row.getD r 0) ∧
        ∃ m : Nat → Nat → ℝ, corr = (List.range cols).map (fun i => (List.range cols).map fun j => m i j) ∧
          ∀ i < cols, ∀ j < cols, 0 ≤ m i j ∧ m i j < 1 ∧ m i j = m j i := by
    unfold serveFiles
    refine Sure.bind (Sure.liftPy (a := model) (by rw [loadModel, e2]) ?_)
    refine Sure.bind (Sure.liftPy (a := 32) rfl ?_)
    refine Sure.bind (Sure.liftPy (a := ()) rfl ?_)
    refine Sure.bind (Sure.liftPy i1 ?_)
    refine Sure.bind ?_
    have hs : Sure (srv.sample rows (List.replicate model.tree.numVertices 1) none : ExceptT PyErr Poss _) _ :=
      server_sample_counts hval i2 rows (List.replicate model.tree.numVertices 1) none (by simp) (by simp) hcounts fun v hv _ => hne v hv
    refine hs.mono ?_
    rintro samples ⟨s1, s2⟩
    obtain ⟨srv', j1, lps, j2, j3⟩ := server_logprob_exact hmst hval samples fun row hrow => (s2 row hrow).1
    rw [i1] at j1
    cases j1
    refine Sure.bind (Sure.liftPy j2 ?_)
    obtain ⟨marg, -, m2, medians, m3, m4⟩ := server_median hval i2 junk1 (List.replicate model.tree.numVertices 1) (by simp) hcounts (fun v hv _ => hne v hv) samples
      fun row hrow => (s2 row hrow).1
    refine Sure.bind (Sure.liftPy m3 ?_)
    refine Sure.bind (Sure.liftPy c1 ?_)
    refine Sure.pure ⟨samples, lps, medians, _, rfl, s1, by rw [← m4.length_eq, m2, s1], ?_, j3, corr, by rw [v1], fun i hi j hj => ?_⟩
    · rintro row (hrow | hrow)
      · obtain ⟨r1, r2⟩ := s2 row hrow
        refine ⟨by rw [r1, hR], fun v hv => ?_⟩
        obtain ⟨b1, b2⟩ := r2 v (by omega)
        exact hblock row v hv b1 (by rw [b2, hone v hv])
      · obtain ⟨p, -, r1, r2⟩ := forall₂_mem_right m4 hrow
        refine ⟨by rw [r1, hR], fun v hv => ?_⟩
        obtain ⟨b1, b2, -⟩ := r2 v (by omega)
        exact hblock row v hv b1 (by rw [b2, hone v hv])
    · obtain ⟨k1, k2, k3, -⟩ := c2 i (by omega) j (by omega)
      exact ⟨k1, k2, k3⟩
  refine ⟨disk', path, model, d, rate', _, ?_, e2, e3, e4, e5, hserve.1, fun o ho => ?_⟩
  · simp only [profileServe, show makeConfig [] = .ok Config.defaultConfig from rfl, e1]
  · obtain ⟨a, rfl, samples, lps, medians, corr, rfl, h⟩ := hserve.2 o ho
    exact ⟨samples, lps, medians, corr, rfl, h⟩

/-- Serving three rows of two features with two categories, after another dataset was made. -/
example : ∃ mst run disk' prog, profileServe (K := ℝ) (M := 32) (fun _ _ C _ v n => (List.replicate C 0).set ((v + n) % C) 1) run mst realNum (fun _ _ => 0)
      (fun _ _ _ => 0) ([GenCall.dataset 3 2 2 1].foldl (GenCall.run (fun _ _ C _ v n => (List.replicate C 0).set ((v + n) % C) 1) run) fun _ => none)
      3 2 2 = (disk', prog) ∧ ∃ o, (prog : ExceptT PyErr Poss _).run o := by
  obtain ⟨mst, hmst⟩ := exists_mst (K := ℝ)
  obtain ⟨run, hrun⟩ := exists_draws (M := 32) (⟨Real.exp, Real.log⟩ : Num ℝ) mst fun _ => 0
  obtain ⟨disk', -, -, -, -, prog, e, -, -, -, -, h, -⟩ := profileServe_runs hmst hrun (fun _ _ C _ v n => (List.replicate C 0).set ((v + n) % C) 1)
    [GenCall.dataset 3 2 2 1] 3 2 2 (by decide) (by decide) (by decide) (by
      intro _ v n c
      rw [List.getD_eq_getElem?_getD]
      rcases c with _ | _ | c
      · rcases Nat.mod_two_eq_zero_or_one (v + n) with h | h <;> rw [h] <;> decide
      · rcases Nat.mod_two_eq_zero_or_one (v + n) with h | h <;> rw [h] <;> decide
      · rw [List.getElem?_eq_none (by simp)]
        decide) (fun _ _ => 0) fun _ _ _ => 0
  exact ⟨mst, run, disk', prog, e, h⟩

/-- Training on two rows, with four clusters. -/
example : ∃ run disk' m, profileTrain (K := ℚ) (M := 4) (fun _ _ _ _ _ _ => [1]) run 1 [0] none (([] : List GenCall).foldl
    (GenCall.run (fun _ _ _ _ _ _ => [1]) run) fun _ => none) 2 3 5 4 0 = (disk', .ok [m]) := by
  obtain ⟨mst, hmst⟩ := exists_mst (K := ℚ)
  obtain ⟨run, hrun⟩ := exists_draws (M := 4) (⟨fun _ => 1, fun _ => 0⟩ : Num ℚ) mst fun _ => 0
  obtain ⟨disk', m, -, -, e, -⟩ := profileTrain_runs hmst hrun (fun _ _ _ _ _ _ => [1]) [] 2 3 (by decide) (by decide) (by decide) (epochs := 5) (by decide) 0
    (by intro _ _ _ c; rcases c with _ | c <;> simp) 1 [0] none ⟨by decide, by simp⟩ (by unfold Util.IsSchedule; decide)
  exact ⟨run, disk', m, e⟩

end

end TreeCat
