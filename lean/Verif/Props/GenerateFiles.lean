import Verif.Model.GenerateFiles
import Verif.Lemmas.Config
import Verif.Props.Generate
import Verif.Props.QuickStart

/-! # C62: the cache of generated datasets and models -/

set_option linter.unusedSectionVars false

namespace TreeCat

open Config (Str natDigits natDigits_digit natDigits_inj natDigits_cons)

namespace Spec

/-- Both rates are nearest to the same number of tenths. -/
def SameTenth (a b : ℚ) : Prop := ∃ n : Int, |a * 10 - n| ≤ 1 / 2 ∧ |b * 10 - n| ≤ 1 / 2

/-- The calls after the last `clean`. -/
def sinceClean (history : List GenCall) : List GenCall := (history.reverse.takeWhile fun c => c ≠ .clean).reverse

/-- A call that asks for a dataset with these parameters, directly or for a model. -/
def Asks (c : GenCall) (N V C : Nat) (rate : ℚ) : Prop := c = .dataset N V C rate ∨ c = .model N V C rate

end Spec

open Spec

/-! ### Names -/

theorem digits_until (s t x y : Str) {a : Char} (ha : a.isDigit = false) (hs : ∀ c ∈ s, c.isDigit = true) (ht : ∀ c ∈ t, c.isDigit = true)
    (h : s ++ a :: x = t ++ a :: y) : s = t ∧ x = y := by
  induction s generalizing t with
  | nil =>
    cases t with
    | nil => exact ⟨rfl, by simpa using h⟩
    | cons c t =>
      simp at h
      have := ht c (by simp)
      rw [← h.1, ha] at this
      cases this
  | cons c s ih =>
    cases t with
    | nil =>
      simp at h
      have := hs c (by simp)
      rw [h.1, ha] at this
      cases this
    | cons d t =>
      simp at h
      obtain ⟨h1, h2⟩ := ih t (fun c hc => hs c (by simp [hc])) (fun c hc => ht c (by simp [hc])) h.2
      exact ⟨by rw [h.1, h1], h2⟩

theorem natDigits_until {m n : Nat} {a : Char} (ha : a.isDigit = false) {x y : Str} (h : natDigits m ++ a :: x = natDigits n ++ a :: y) :
    m = n ∧ x = y := by
  obtain ⟨h1, h2⟩ := digits_until _ _ _ _ ha (natDigits_digit m) (natDigits_digit n) h
  exact ⟨natDigits_inj h1, h2⟩

/-- The printed rate has the same sign and the same number of tenths. -/
theorem fmtTenths_inj {a b : ℚ} : fmtTenths a = fmtTenths b ↔ (a < 0 ↔ b < 0) ∧ tenths a = tenths b := by
  constructor
  · intro h
    have key : ∀ m n : Nat, natDigits (m / 10) ++ '.' :: natDigits (m % 10) = natDigits (n / 10) ++ '.' :: natDigits (n % 10) → m = n := by
      intro m n h
      obtain ⟨h1, h2⟩ := natDigits_until (by decide) h
      have := natDigits_inj h2
      omega
    have nodash : ∀ m n : Nat, ∀ x y : Str, natDigits m ++ x ≠ '-' :: natDigits n ++ y := by
      intro m n x y h
      obtain ⟨c, t, hc, hd⟩ := natDigits_cons m
      rw [hc] at h
      simp only [List.cons_append, List.cons.injEq] at h
      rw [h.1] at hd
      revert hd
      decide
    unfold fmtTenths at h
    by_cases ha : a < 0 <;> by_cases hb : b < 0
    · simp only [ha, hb, if_true, List.cons_append, List.nil_append, List.cons.injEq, true_and] at h
      exact ⟨by simp [ha, hb], key _ _ h⟩
    · simp only [ha, hb, if_true, if_false, List.nil_append] at h
      exact absurd h.symm (nodash _ _ _ _)
    · simp only [ha, hb, if_true, if_false, List.nil_append] at h
      exact absurd h (nodash _ _ _ _)
    · simp only [ha, hb, if_false, List.nil_append] at h
      exact ⟨by simp [ha, hb], key _ _ h⟩
  · rintro ⟨h1, h2⟩
    unfold fmtTenths
    rw [h2]
    simp only [h1]

theorem fileStem_inj {N V C N' V' C' : Nat} {rate rate' : ℚ} :
    fileStem N V C rate = fileStem N' V' C' rate' ↔ N = N' ∧ V = V' ∧ C = C' ∧ fmtTenths rate = fmtTenths rate' := by
  constructor
  · intro h
    unfold fileStem at h
    obtain ⟨h1, h⟩ := natDigits_until (by decide) h
    obtain ⟨h2, h⟩ := natDigits_until (by decide) h
    obtain ⟨h3, h⟩ := natDigits_until (by decide) h
    exact ⟨h1, h2, h3, h⟩
  · rintro ⟨rfl, rfl, rfl, h⟩
    unfold fileStem
    rw [h]

theorem datasetName_inj {N V C N' V' C' : Nat} {rate rate' : ℚ} :
    datasetName N V C rate = datasetName N' V' C' rate' ↔ N = N' ∧ V = V' ∧ C = C' ∧ fmtTenths rate = fmtTenths rate' := by
  rw [← fileStem_inj]
  unfold datasetName
  exact List.append_left_inj _

theorem modelName_inj {N V C N' V' C' : Nat} {rate rate' : ℚ} :
    modelName N V C rate = modelName N' V' C' rate' ↔ N = N' ∧ V = V' ∧ C = C' ∧ fmtTenths rate = fmtTenths rate' := by
  rw [← fileStem_inj]
  unfold modelName
  exact List.append_left_inj _

theorem datasetName_ne_modelName (N V C N' V' C' : Nat) (rate rate' : ℚ) : datasetName N V C rate ≠ modelName N' V' C' rate' := by
  intro h
  have h' := congrArg (fun s : Str => s.reverse.take 6) h
  unfold datasetName modelName at h'
  simp only [List.reverse_append] at h'
  revert h'
  have e1 : (".dataset.pkz".toList.reverse : Str) = ['z', 'k', 'p', '.', 't', 'e'] ++ ['s', 'a', 't', 'a', 'd', '.'] := by decide
  have e2 : (".model.pkz".toList.reverse : Str) = ['z', 'k', 'p', '.', 'l', 'e'] ++ ['d', 'o', 'm', '.'] := by decide
  rw [e1, e2]
  simp

/-- Rounding: the number of tenths is nearest to the rate. -/
theorem tenths_near (q : ℚ) : |(|q| * 10 - tenths q)| ≤ 1 / 2 := by
  have h0 : 0 ≤ |q| * 10 := by positivity
  have hf : ((⌊|q| * 10⌋.toNat : Nat) : ℚ) = ⌊|q| * 10⌋ := by
    have : (0 : Int) ≤ ⌊|q| * 10⌋ := Int.floor_nonneg.2 h0
    have e : ((⌊|q| * 10⌋.toNat : Nat) : Int) = ⌊|q| * 10⌋ := Int.toNat_of_nonneg this
    exact_mod_cast congrArg (fun z : Int => (z : ℚ)) e
  have h1 := Int.floor_le (|q| * 10)
  have h2 := Int.lt_floor_add_one (|q| * 10)
  unfold tenths
  simp only
  rw [hf]
  split_ifs with a b c
  · rw [hf, abs_le]; constructor <;> linarith
  · push_cast; rw [hf, abs_le]; constructor <;> linarith
  · rw [hf, abs_le]; constructor <;> linarith
  · push_cast; rw [hf, abs_le]; constructor <;> linarith

theorem fmtTenths_same {a b : ℚ} (h : fmtTenths a = fmtTenths b) : SameTenth a b := by
  obtain ⟨h1, h2⟩ := fmtTenths_inj.1 h
  have ha := tenths_near a
  have hb := tenths_near b
  by_cases hs : a < 0
  · refine ⟨-(tenths a : Int), ?_, ?_⟩
    · rw [abs_of_neg hs] at ha
      rw [← abs_neg]
      push_cast
      rwa [show -(a * 10 - -(tenths a : ℚ)) = -a * 10 - tenths a by ring]
    · rw [abs_of_neg (h1.1 hs)] at hb
      rw [← abs_neg, h2]
      push_cast
      rwa [show -(b * 10 - -(tenths b : ℚ)) = -b * 10 - tenths b by ring]
  · refine ⟨(tenths a : Int), ?_, ?_⟩
    · rw [abs_of_nonneg (not_lt.1 hs)] at ha
      push_cast
      exact ha
    · rw [abs_of_nonneg (not_lt.1 fun h => hs (h1.2 h))] at hb
      rw [h2]
      push_cast
      exact hb

/-- Among multiples of one tenth, rates with the same print are equal. -/
theorem sameTenth_eq {a b : ℚ} (h : SameTenth a b) (ha : ∃ i : Int, a * 10 = i) (hb : ∃ i : Int, b * 10 = i) : a = b := by
  obtain ⟨n, h1, h2⟩ := h
  obtain ⟨i, hi⟩ := ha
  obtain ⟨j, hj⟩ := hb
  have one : ∀ k : Int, |(k : ℚ) - n| ≤ 1 / 2 → k = n := by
    intro k hk
    have : |(k - n : Int)| < 1 := by
      have : ((|k - n| : Int) : ℚ) < 1 := by
        push_cast
        linarith
      exact_mod_cast this
    have := Int.abs_lt_one_iff.1 this
    omega
  rw [hi] at h1
  rw [hj] at h2
  have e1 := one i h1
  have e2 := one j h2
  have : a * 10 = b * 10 := by rw [hi, hj, e1, e2]
  linarith

/-! ### The cache -/

section
variable {K : Type} [Field K] {M : Nat}
variable {rng : Nat → Nat → Nat → ℚ → Nat → Nat → List Nat} {run : TrainerKind → Table → List K → Config.Config → Py (Model K M)}

/-- What a file in the cache holds, given the calls since the last `clean`. -/
def Cached (rng : Nat → Nat → Nat → ℚ → Nat → Nat → List Nat) (run : TrainerKind → Table → List K → Config.Config → Py (Model K M))
    (calls : List GenCall) (disk : GenDisk K M) : Prop :=
  (∀ p d, disk p = some (.dataset d) → ∃ N V C rate, (∃ c ∈ calls, Asks c N V C rate) ∧ p = datasetName N V C rate ∧
    generateSeeded rng N V C rate = .ok d) ∧
  (∀ p m, disk p = some (.model m) → ∃ N V C rate rate' d c, GenCall.model N V C rate ∈ calls ∧ (∃ c ∈ calls, Asks c N V C rate') ∧
    p = modelName N V C rate ∧ fmtTenths rate' = fmtTenths rate ∧ generateSeeded rng N V C rate' = .ok d ∧
    Config.makeConfig [("learning_init_epochs", 5)] = .ok c ∧ trainModel run d.2.2 (List.replicate (V * (V - 1) / 2) 0) c = .ok m)

theorem Cached.mono {calls calls' : List GenCall} {disk : GenDisk K M} (h : Cached rng run calls disk) (hs : ∀ c ∈ calls, c ∈ calls') :
    Cached rng run calls' disk := by
  refine ⟨fun p d hp => ?_, fun p m hp => ?_⟩
  · obtain ⟨N, V, C, rate, ⟨c, hc, ha⟩, h'⟩ := h.1 p d hp
    exact ⟨N, V, C, rate, ⟨c, hs c hc, ha⟩, h'⟩
  · obtain ⟨N, V, C, rate, rate', d, cfg, hm, ⟨c, hc, ha⟩, h'⟩ := h.2 p m hp
    exact ⟨N, V, C, rate, rate', d, cfg, hs _ hm, ⟨c, hs c hc, ha⟩, h'⟩

theorem Cached.empty (calls : List GenCall) : Cached rng run calls fun _ => none := ⟨fun _ _ h => (by cases h), fun _ _ h => (by cases h)⟩

/-- A file with the name of a dataset is a dataset. -/
theorem Cached.dataset {calls : List GenCall} {disk : GenDisk K M} (h : Cached rng run calls disk) {N V C : Nat} {rate : ℚ} {x : GenStored K M}
    (hx : disk (datasetName N V C rate) = some x) :
    ∃ d rate', x = .dataset d ∧ (∃ c ∈ calls, Asks c N V C rate') ∧ fmtTenths rate' = fmtTenths rate ∧ generateSeeded rng N V C rate' = .ok d := by
  cases x with
  | dataset d =>
    obtain ⟨N', V', C', rate', ha, hp, hd⟩ := h.1 _ _ hx
    obtain ⟨rfl, rfl, rfl, hr⟩ := datasetName_inj.1 hp
    exact ⟨d, rate', rfl, ha, hr.symm, hd⟩
  | model m =>
    obtain ⟨N', V', C', rate', _, _, _, _, _, hp, _⟩ := h.2 _ _ hx
    exact absurd hp (datasetName_ne_modelName _ _ _ _ _ _ _ _)

theorem Cached.model {calls : List GenCall} {disk : GenDisk K M} (h : Cached rng run calls disk) {N V C : Nat} {rate : ℚ} {x : GenStored K M}
    (hx : disk (modelName N V C rate) = some x) :
    ∃ m rate' d c, x = .model m ∧ (∃ c ∈ calls, Asks c N V C rate') ∧ fmtTenths rate' = fmtTenths rate ∧ generateSeeded rng N V C rate' = .ok d ∧
      Config.makeConfig [("learning_init_epochs", 5)] = .ok c ∧ trainModel run d.2.2 (List.replicate (V * (V - 1) / 2) 0) c = .ok m := by
  cases x with
  | dataset d =>
    obtain ⟨N', V', C', rate', ha, hp, hd⟩ := h.1 _ _ hx
    exact absurd hp.symm (datasetName_ne_modelName _ _ _ _ _ _ _ _)
  | model m =>
    obtain ⟨N', V', C', r, rate', d, c, _, ha, hp, hr, hd, hc, ht⟩ := h.2 _ _ hx
    obtain ⟨rfl, rfl, rfl, hr'⟩ := modelName_inj.1 hp
    exact ⟨m, rate', d, c, rfl, ha, by rw [hr, hr'], hd, hc, ht⟩

/-- One call of `generate_dataset_file`. -/
theorem datasetFile_step {calls : List GenCall} {disk : GenDisk K M} (h : Cached rng run calls disk) (N V C : Nat) (rate : ℚ)
    (ha : ∃ c ∈ calls, Asks c N V C rate) :
    Cached rng run calls (generateDatasetFile rng disk N V C rate).1 ∧
    (∀ p x, disk p = some x → (generateDatasetFile rng disk N V C rate).1 p = some x) ∧
    (∀ path, (generateDatasetFile rng disk N V C rate).2 = .ok path → path = datasetName N V C rate ∧
      ∃ x, (generateDatasetFile rng disk N V C rate).1 path = some x) ∧
    (∀ e, (generateDatasetFile rng disk N V C rate).2 = .error e → generateSeeded rng N V C rate = .error e) := by
  unfold generateDatasetFile
  cases hd : disk (datasetName N V C rate) with
  | some x =>
    refine ⟨h, fun _ _ h => h, ?_, ?_⟩
    · intro path hp
      cases hp
      exact ⟨rfl, x, hd⟩
    · intro e he; cases he
  | none =>
    cases hg : generateSeeded rng N V C rate with
    | error e =>
      refine ⟨h, fun _ _ h => h, ?_, ?_⟩
      · intro path hp; cases hp
      · intro e' he; cases he; rfl
    | ok d =>
      simp only
      refine ⟨⟨fun p d' hp => ?_, fun p m hp => ?_⟩, fun p x hp => ?_, ?_, ?_⟩
      · by_cases e : p = datasetName N V C rate
        · simp only [if_pos e] at hp
          cases hp
          exact ⟨N, V, C, rate, ha, e, hg⟩
        · simp only [if_neg e] at hp
          exact h.1 p d' hp
      · by_cases e : p = datasetName N V C rate
        · simp only [if_pos e] at hp
          cases hp
        · simp only [if_neg e] at hp
          exact h.2 p m hp
      · have e : p ≠ datasetName N V C rate := by
          rintro rfl
          rw [hd] at hp
          cases hp
        simp only [if_neg e]
        exact hp
      · intro path hp
        cases hp
        exact ⟨rfl, _, if_pos rfl⟩
      · intro e he; cases he

theorem modelFile_hit {disk : GenDisk K M} {N V C : Nat} {rate : ℚ} {x : GenStored K M} (h : disk (modelName N V C rate) = some x) :
    generateModelFile rng run disk N V C rate = (disk, .ok (modelName N V C rate)) := by
  unfold generateModelFile
  rw [h]

/-- One call of `generate_model_file`. -/
theorem modelFile_step {calls : List GenCall} {disk : GenDisk K M} (h : Cached rng run calls disk) (N V C : Nat) (rate : ℚ)
    (hm : GenCall.model N V C rate ∈ calls) :
    Cached rng run calls (generateModelFile rng run disk N V C rate).1 ∧
    (∀ p x, disk p = some x → (generateModelFile rng run disk N V C rate).1 p = some x) ∧
    (∀ path, (generateModelFile rng run disk N V C rate).2 = .ok path → path = modelName N V C rate ∧
      ∃ x, (generateModelFile rng run disk N V C rate).1 path = some x) ∧
    (∀ e, (generateModelFile rng run disk N V C rate).2 = .error e → generateSeeded rng N V C rate = .error e ∨
      ∃ d rate' c, (∃ c ∈ calls, Asks c N V C rate') ∧ fmtTenths rate' = fmtTenths rate ∧ generateSeeded rng N V C rate' = .ok d ∧
        Config.makeConfig [("learning_init_epochs", 5)] = .ok c ∧ trainModel run d.2.2 (List.replicate (V * (V - 1) / 2) 0) c = .error e) := by
  have ha : ∃ c ∈ calls, Asks c N V C rate := ⟨_, hm, .inr rfl⟩
  obtain ⟨c, hc⟩ : ∃ c, Config.makeConfig [("learning_init_epochs", 5)] = .ok c := ⟨_, rfl⟩
  unfold generateModelFile
  cases hd : disk (modelName N V C rate) with
  | some x =>
    refine ⟨h, fun _ _ h => h, ?_, ?_⟩
    · intro path hp
      cases hp
      exact ⟨rfl, x, hd⟩
    · intro e he; cases he
  | none =>
    obtain ⟨s1, s2, s3, s4⟩ := datasetFile_step (run := run) h N V C rate ha
    cases hr : generateDatasetFile rng disk N V C rate with
    | mk disk1 r =>
      rw [hr] at s1 s2 s3 s4
      simp only at s1 s2 s3 s4
      cases r with
      | error e =>
        refine ⟨s1, s2, ?_, ?_⟩
        · intro path hp; cases hp
        · intro e' he; cases he; exact .inl (s4 e rfl)
      | ok path =>
        obtain ⟨rfl, x, hx⟩ := s3 path rfl
        obtain ⟨d, rate', rfl, hasks, hfmt, hgen⟩ := s1.dataset hx
        have htrain : trainGenerated run disk1 V (datasetName N V C rate) = trainModel run d.2.2 (List.replicate (V * (V - 1) / 2) 0) c := by
          simp only [trainGenerated, loadTable, hx, hc, bind, Except.bind]
        simp only [htrain]
        cases ht : trainModel run d.2.2 (List.replicate (V * (V - 1) / 2) 0) c with
        | error e =>
          refine ⟨s1, s2, ?_, ?_⟩
          · intro path hp; cases hp
          · intro e' he
            cases he
            exact .inr ⟨d, rate', c, hasks, hfmt, hgen, hc, ht⟩
        | ok m =>
          simp only
          refine ⟨⟨fun p d' hp => ?_, fun p m' hp => ?_⟩, fun p x hp => ?_, ?_, ?_⟩
          · by_cases e : p = modelName N V C rate
            · simp only [if_pos e] at hp
              cases hp
            · simp only [if_neg e] at hp
              exact s1.1 p d' hp
          · by_cases e : p = modelName N V C rate
            · simp only [if_pos e] at hp
              cases hp
              exact ⟨N, V, C, rate, rate', d, c, hm, hasks, e, hfmt, hgen, hc, ht⟩
            · simp only [if_neg e] at hp
              exact s1.2 p m' hp
          · have e : p ≠ modelName N V C rate := by
              rintro rfl
              rw [hd] at hp
              cases hp
            simp only [if_neg e]
            exact s2 p x hp
          · intro path hp
            cases hp
            exact ⟨rfl, _, if_pos rfl⟩
          · intro e he; cases he

theorem sinceClean_append (history : List GenCall) (c : GenCall) :
    sinceClean (history ++ [c]) = if c = .clean then [] else sinceClean history ++ [c] := by
  unfold sinceClean
  rw [List.reverse_append, List.reverse_singleton, List.singleton_append]
  by_cases h : c = .clean
  · simp [h]
  · simp [h]

theorem cached_history (rng : Nat → Nat → Nat → ℚ → Nat → Nat → List Nat) (run : TrainerKind → Table → List K → Config.Config → Py (Model K M))
    (history : List GenCall) : Cached rng run (sinceClean history) (history.foldl (GenCall.run rng run) fun _ => none) := by
  induction history using List.reverseRecOn with
  | nil => exact Cached.empty _
  | append_singleton history c ih =>
    rw [List.foldl_append, List.foldl_cons, List.foldl_nil, sinceClean_append]
    cases c with
    | clean => exact Cached.empty _
    | dataset N V C rate =>
      rw [if_neg (by simp)]
      exact (datasetFile_step (ih.mono fun c hc => by simp [hc]) N V C rate ⟨.dataset N V C rate, by simp, .inl rfl⟩).1
    | model N V C rate =>
      rw [if_neg (by simp)]
      exact (modelFile_step (ih.mono fun c hc => by simp [hc]) N V C rate (by simp)).1

/-- **C62** (datasets). After any history of calls that begins with an empty directory, `generate_dataset_file` raises only if `generate_dataset`
raises on the same arguments and then leaves the directory as it is. Otherwise it returns the path of a dataset that `generate_dataset` makes
from the same numbers of rows, columns and categories and from a rate that was asked for since the last `clean` and rounds to the same tenth.
It keeps all other files, and asking again changes nothing. -/
theorem generateDatasetFile_spec (rng : Nat → Nat → Nat → ℚ → Nat → Nat → List Nat)
    (run : TrainerKind → Table → List K → Config.Config → Py (Model K M)) (history : List GenCall) (N V C : Nat) (rate : ℚ)
    (disk : GenDisk K M) (hdisk : disk = history.foldl (GenCall.run rng run) fun _ => none) :
    ((∃ e, generateDatasetFile rng disk N V C rate = (disk, .error e) ∧ generateSeeded rng N V C rate = .error e) ∨
      ∃ disk' path d rate', generateDatasetFile rng disk N V C rate = (disk', .ok path) ∧ disk' path = some (.dataset d) ∧
        generateSeeded rng N V C rate' = .ok d ∧ SameTenth rate rate' ∧ (rate' = rate ∨ ∃ c ∈ sinceClean history, Asks c N V C rate') ∧
        (∀ p, p ≠ path → disk' p = disk p) ∧ (∀ x, disk path = some x → disk' = disk) ∧
        generateDatasetFile rng disk' N V C rate = (disk', .ok path)) := by
  have h := cached_history rng run history
  rw [← hdisk] at h
  cases hd : disk (datasetName N V C rate) with
  | some x =>
    obtain ⟨d, rate', rfl, ha, hf, hg⟩ := h.dataset hd
    have e : generateDatasetFile rng disk N V C rate = (disk, .ok (datasetName N V C rate)) := by
      unfold generateDatasetFile; rw [hd]
    exact .inr ⟨disk, _, d, rate', e, hd, hg, fmtTenths_same hf.symm, .inr ha, fun _ _ => rfl, fun _ _ => rfl, e⟩
  | none =>
    cases hg : generateSeeded rng N V C rate with
    | error e =>
      refine .inl ⟨e, ?_, rfl⟩
      unfold generateDatasetFile
      rw [hd, hg]
    | ok d =>
      refine .inr ⟨_, _, d, rate, by unfold generateDatasetFile; rw [hd, hg], if_pos rfl, hg, fmtTenths_same rfl, .inl rfl, fun p hp => if_neg hp, ?_, ?_⟩
      · intro x hx
        rw [hd] at hx
        cases hx
      · unfold generateDatasetFile
        simp

/-- **C62** (models). The same for `generate_model_file`: it returns the path of a model that `train_model` makes of such a dataset, and raises
only if generating or training raises. -/
theorem generateModelFile_spec (rng : Nat → Nat → Nat → ℚ → Nat → Nat → List Nat)
    (run : TrainerKind → Table → List K → Config.Config → Py (Model K M)) (history : List GenCall) (N V C : Nat) (rate : ℚ)
    (disk : GenDisk K M) (hdisk : disk = history.foldl (GenCall.run rng run) fun _ => none) :
    ∃ disk' r c, generateModelFile rng run disk N V C rate = (disk', r) ∧ Config.makeConfig [("learning_init_epochs", 5)] = .ok c ∧
      (∀ p x, disk p = some x → disk' p = some x) ∧
      ((∃ e, r = .error e ∧ generateSeeded rng N V C rate = .error e) ∨
        ∃ rate' d, SameTenth rate rate' ∧ (rate' = rate ∨ ∃ c ∈ sinceClean history, Asks c N V C rate') ∧ generateSeeded rng N V C rate' = .ok d ∧
          ((∃ e, r = .error e ∧ trainModel run d.2.2 (List.replicate (V * (V - 1) / 2) 0) c = .error e) ∨
            ∃ path m, r = .ok path ∧ disk' path = some (.model m) ∧ trainModel run d.2.2 (List.replicate (V * (V - 1) / 2) 0) c = .ok m ∧
              generateModelFile rng run disk' N V C rate = (disk', .ok path))) := by
  have h := (cached_history rng run history).mono (calls' := sinceClean history ++ [.model N V C rate]) fun c hc => by simp [hc]
  rw [← hdisk] at h
  obtain ⟨c, hc⟩ : ∃ c, Config.makeConfig [("learning_init_epochs", 5)] = .ok c := ⟨_, rfl⟩
  have hasks : ∀ rate', (∃ c ∈ sinceClean history ++ [.model N V C rate], Asks c N V C rate') →
      rate' = rate ∨ ∃ c ∈ sinceClean history, Asks c N V C rate' := by
    rintro rate' ⟨c, hc, ha⟩
    rcases List.mem_append.1 hc with hc | hc
    · exact .inr ⟨c, hc, ha⟩
    · rw [List.mem_singleton] at hc
      subst hc
      rcases ha with ha | ha
      · cases ha
      · injection ha with _ _ _ e
        exact .inl e.symm
  obtain ⟨s1, s2, s3, s4⟩ := modelFile_step h N V C rate (by simp)
  refine ⟨(generateModelFile rng run disk N V C rate).1, (generateModelFile rng run disk N V C rate).2, c, rfl, hc, s2, ?_⟩
  cases hr : (generateModelFile rng run disk N V C rate).2 with
  | error e =>
    rcases s4 e hr with hg | ⟨d, rate', c', ha, hf, hg, hc', ht⟩
    · exact .inl ⟨e, rfl, hg⟩
    · rw [hc] at hc'
      cases hc'
      exact .inr ⟨rate', d, fmtTenths_same hf.symm, hasks _ ha, hg, .inl ⟨e, rfl, ht⟩⟩
  | ok path =>
    obtain ⟨rfl, x, hx⟩ := s3 path hr
    obtain ⟨m, rate', d, c', rfl, ha, hf, hg, hc', ht⟩ := s1.model hx
    rw [hc] at hc'
    cases hc'
    refine .inr ⟨rate', d, fmtTenths_same hf.symm, hasks _ ha, hg, .inr ⟨_, m, rfl, hx, ht, ?_⟩⟩
    exact modelFile_hit hx

end

section
variable {K : Type} [Field K] [LinearOrder K] [IsStrictOrderedRing K]

/-- The table of a generated dataset. -/
theorem generateSeeded_table {rng : Nat → Nat → Nat → ℚ → Nat → Nat → List Nat} {N V C : Nat} {rate : ℚ} (hC : 0 < C)
    {d : List Nat × Nat × Table} (h : generateSeeded rng N V C rate = .ok d) :
    d.2.2.numRows = N ∧ d.2.2.numCols = V ∧ (∀ ty ∈ d.2.2.featureTypes, ty = tyMultinomial) ∧ Table.Ordered d.2.2 ∧
      d.1 = d.2.2.raggedIndex ∧ d.2.1 = V * (V - 1) / 2 ∧ (∀ v ≤ V, d.1.getD v 0 = v * C) ∧
      ((∀ v < V, ∀ n < N, ∀ c < C, (rng N V C rate v n).getD c 0 ≤ 127) →
        (∀ n < N, ∀ v < V, ∀ c < C, d.2.2.cell n (v * C + c) = (rng N V C rate v n).getD c 0) ∧ ∀ n < N, ∀ r, 0 ≤ d.2.2.cell n r) := by
  unfold generateSeeded at h
  split at h
  · cases h
  · obtain ⟨t, e, h1, h2, h3, h4, h5, h6, h7⟩ := generateDataset_spec (rng N V C rate) N V C hC
    rw [e] at h
    cases h
    refine ⟨h1, h2, h3, h4, rfl, rfl, h5, fun hs => ⟨fun n hn v hv c hc => (h7 n hn v hv c hc).2 (hs v hv n hn c hc), fun n hn r => ?_⟩⟩
    by_cases hr : r < V * C
    · have hv : r / C < V := Nat.div_lt_of_lt_mul (by rwa [Nat.mul_comm])
      have e := (h7 n hn (r / C) hv (r % C) (Nat.mod_lt _ hC)).2 (hs _ hv _ hn _ (Nat.mod_lt _ hC))
      rw [show r / C * C + r % C = r by rw [Nat.mul_comm]; exact Nat.div_add_mod r C] at e
      simp only
      rw [e]
      exact Int.natCast_nonneg _
    · unfold Table.cell
      simp only
      have hn' : n < t.data.length := by rw [← h1] at hn; exact hn
      rw [List.getD_eq_getElem _ _ hn', List.getD_eq_default _ _ (by rw [h6 _ (List.getElem_mem hn')]; omega)]

/-- Which arguments work: a negative rate only if nothing is drawn. -/
theorem generateSeeded_iff (rng : Nat → Nat → Nat → ℚ → Nat → Nat → List Nat) (N V C : Nat) (rate : ℚ) :
    ((∃ d, generateSeeded rng N V C rate = .ok d) ↔ 0 < C ∧ (0 ≤ rate ∨ N = 0 ∨ V = 0)) ∧
      (C = 0 → generateSeeded rng N V C rate = .error .zeroDivision) ∧
      (0 < C → rate < 0 → 0 < N → 0 < V → generateSeeded rng N V C rate = .error .valueError) := by
  have h0 : C = 0 → generateSeeded rng N V C rate = .error .zeroDivision := by
    rintro rfl
    unfold generateSeeded
    rw [if_neg (by omega)]
    exact generateDataset_zero _ N V
  have h1 : 0 < C → rate < 0 → 0 < N → 0 < V → generateSeeded rng N V C rate = .error .valueError := fun a b c d => if_pos ⟨a, b, c, d⟩
  refine ⟨⟨?_, ?_⟩, h0, h1⟩
  · rintro ⟨d, hd⟩
    by_cases hC : C = 0
    · rw [h0 hC] at hd; cases hd
    · refine ⟨by omega, ?_⟩
      by_contra hc
      push Not at hc
      rw [h1 (by omega) hc.1 (by omega) (by omega)] at hd
      cases hd
  · rintro ⟨hC, hr⟩
    obtain ⟨t, e, _⟩ := generateDataset_spec (rng N V C rate) N V C hC
    refine ⟨(t.raggedIndex, V * (V - 1) / 2, t), ?_⟩
    unfold generateSeeded
    rw [if_neg, e]
    rintro ⟨-, h, hN, hV⟩
    rcases hr with hr | hr | hr
    · exact absurd h (not_lt.2 hr)
    · omega
    · omega

/-- **C62** (training). If the drawn counts fit into a cell, `generate_model_file` succeeds after any history of calls, whatever is drawn in training,
and its file holds an outcome of training on the table of a dataset as in `generateDatasetFile_spec`: a valid model with `V` features of `C` columns. -/
theorem generateModelFile_trains {num : Num K} {mst : List (List K) → List Edge} (hmst : MstContract mst)
    {junk : Nat → Nat} {run : TrainerKind → Table → List K → Config.Config → Py (Model K 32)} (hrun : Draws num mst junk run)
    (rng : Nat → Nat → Nat → ℚ → Nat → Nat → List Nat) (history : List GenCall) (N V C : Nat) (rate : ℚ) (hV : 1 ≤ V) (hV' : V ≤ 32768) (hC : 0 < C)
    (hrate : 0 ≤ rate) (hsmall : ∀ rate' v n c, (rng N V C rate' v n).getD c 0 ≤ 127) :
    ∃ disk' path m d rate', generateModelFile rng run (history.foldl (GenCall.run rng run) fun _ => none) N V C rate = (disk', .ok path) ∧
      disk' path = some (.model m) ∧ SameTenth rate rate' ∧ (rate' = rate ∨ ∃ c ∈ sinceClean history, Asks c N V C rate') ∧
      generateSeeded rng N V C rate' = .ok d ∧
      Outcome num mst junk d.2.2 (List.replicate (V * (V - 1) / 2) 0) ⟨5, 1, 3, true⟩ (.ok m) ∧
      m.tree.numVertices = V ∧ m.raggedIndex = d.2.2.raggedIndex ∧ Model.Valid m := by
  obtain ⟨disk', r, c, e, hc, -, hcase⟩ := generateModelFile_spec rng run history N V C rate _ rfl
  have hgen : ∃ d, generateSeeded rng N V C rate = .ok d := by
    unfold generateSeeded
    rw [if_neg fun h => absurd h.2.1 (not_lt.2 hrate)]
    obtain ⟨t, e, _⟩ := generateDataset_spec (rng N V C rate) N V C hC
    exact ⟨_, e⟩
  have hcfg : Config.makeConfig [("learning_init_epochs", 5)] = .ok c ∧ Trainable 32 8 c ⟨5, 1, 3, true⟩ := by
    refine ⟨hc, ?_⟩
    have : c = (Config.makeConfig [("learning_init_epochs", 5)]).toOption.getD [] := by rw [hc]; rfl
    subst this
    exact ⟨by decide, by decide, by decide, by decide, by decide, by decide, by decide, 0, by decide, by decide, by decide⟩
  have htr := hcfg.2
  rcases hcase with ⟨err, _, hg⟩ | ⟨rate', d, hs, ha, hg, hcase⟩
  · obtain ⟨d, hd⟩ := hgen
    rw [hd] at hg
    cases hg
  · obtain ⟨t1, t2, t3, t4, t5, t6, t7, t8⟩ := generateSeeded_table hC hg
    obtain ⟨-, hpos⟩ := t8 fun v _ n _ c _ => hsmall rate' v n c
    obtain ⟨s0, e0, ⟨p, hp0⟩, hall⟩ := trainedModel_valid (M := 32) num mst hmst junk d.2.2 t4 t3 (by rw [t1]; exact hpos) (by omega) (by omega)
      htr.pos.2 (List.replicate (V * (V - 1) / 2) 0) (by rw [t2]; simp) ⟨5, 1, 3, true⟩ htr.init htr.rate ((2 * 5 + 1) * d.2.2.numRows) (le_refl _)
    have hpick : trainModel run d.2.2 (List.replicate (V * (V - 1) / 2) 0) c = run .treeCat d.2.2 (List.replicate (V * (V - 1) / 2) 0) c := by
      simp [trainModel, configGet, htr.clusters, htr.dim, pickTrainer, pyAssert, bind, Except.bind]
    obtain ⟨s0', e0', r', st, ho, er⟩ := hrun d.2.2 (List.replicate (V * (V - 1) / 2) 0) c ⟨5, 1, 3, true⟩ htr.read htr.clusters
      (by obtain ⟨s, h1, h2, h3⟩ := htr.seed; exact ⟨s, h1, h2, by omega⟩) ⟨_, s0, e0, p.1, p.2, hp0, rfl⟩
    rw [e0] at e0'
    cases e0'
    obtain ⟨logits, rfl, v1, v2, -⟩ := hall r' st ho
    have hok : trainModel run d.2.2 (List.replicate (V * (V - 1) / 2) 0) c = .ok (trainedModel d.2.2 st logits) := by rw [hpick, er]; rfl
    rcases hcase with ⟨err, _, ht⟩ | ⟨path, m, rfl, hp, ht, _⟩
    · rw [hok] at ht
      cases ht
    · rw [hok] at ht
      cases ht
      exact ⟨disk', path, _, d, rate', e, hp, hs, ha, hg, ⟨s0, e0, _, st, ho, rfl⟩, by rw [v1, t2], rfl, v2⟩

end

/-! ### Rates that round to the same tenth share a file -/

/-- Counts that show the rate. -/
def showRate (_ _ C : Nat) (rate : ℚ) (_ _ : Nat) : List Nat := (List.range C).map fun _ => ⌊rate * 100⌋.toNat

/-- **C62**, what fails: after a dataset with rate 1, asking for one with rate 1.04 returns the file of the former, although `generate_dataset`
gives another table for that rate. -/
theorem generateDatasetFile_stale : ∃ (path : Str) (d d' : List Nat × Nat × Table), ∀ run : TrainerKind → Table → List ℚ → Config.Config → Py (Model ℚ 32),
    let disk : GenDisk ℚ 32 := [GenCall.dataset 1 1 2 1].foldl (GenCall.run showRate run) fun _ => none
    generateDatasetFile showRate disk 1 1 2 (26 / 25) = (disk, .ok path) ∧ disk path = some (.dataset d) ∧
      generateSeeded showRate 1 1 2 (26 / 25) = .ok d' ∧ d'.2.2.data ≠ d.2.2.data := by
  obtain ⟨d, hd⟩ : ∃ d, generateSeeded showRate 1 1 2 1 = .ok d ∧ d.2.2.data = [[100, 100]] := by
    exact ⟨([0, 2], 0, ⟨[tyMultinomial], [0, 2], [[100, 100]]⟩), by decide +kernel, rfl⟩
  obtain ⟨d', hd'⟩ : ∃ d, generateSeeded showRate 1 1 2 (26 / 25) = .ok d ∧ d.2.2.data = [[104, 104]] := by
    exact ⟨([0, 2], 0, ⟨[tyMultinomial], [0, 2], [[104, 104]]⟩), by decide +kernel, rfl⟩
  have hname : datasetName 1 1 2 1 = datasetName 1 1 2 (26 / 25) := by decide +kernel
  refine ⟨datasetName 1 1 2 (26 / 25), d, d', fun run => ?_⟩
  have hdisk : [GenCall.dataset 1 1 2 1].foldl (GenCall.run showRate run) (fun _ => none) =
      fun p => if p = datasetName 1 1 2 (26 / 25) then some (.dataset d) else none := by
    simp only [List.foldl_cons, List.foldl_nil, GenCall.run, generateDatasetFile, hd.1, hname]
  simp only [hdisk]
  refine ⟨?_, by simp, hd'.1, by rw [hd.2, hd'.2]; decide⟩
  simp [generateDatasetFile]

/-- If all rates are multiples of one tenth, the file is always the requested one. -/
theorem generateDatasetFile_exact {K : Type} [Field K] {M : Nat} (rng : Nat → Nat → Nat → ℚ → Nat → Nat → List Nat)
    (run : TrainerKind → Table → List K → Config.Config → Py (Model K M)) (history : List GenCall) (N V C : Nat) (rate : ℚ) (hr : ∃ i : Int, rate * 10 = i)
    (hh : ∀ c ∈ history, ∀ N V C r, Asks c N V C r → ∃ i : Int, r * 10 = i) {disk' : GenDisk K M} {path : Str}
    (h : generateDatasetFile rng (history.foldl (GenCall.run rng run) fun _ => none) N V C rate = (disk', .ok path)) :
    ∃ d, disk' path = some (.dataset d) ∧ generateSeeded rng N V C rate = .ok d := by
  rcases generateDatasetFile_spec rng run history N V C rate _ rfl with ⟨e, h', _⟩ | ⟨disk2, path2, d, rate', h', hp, hg, hs, ha, _⟩
  · rw [h] at h'
    cases h'
  · rw [h] at h'
    cases h'
    have : rate' = rate := by
      rcases ha with rfl | ⟨c, hc, ha⟩
      · rfl
      · refine (sameTenth_eq hs hr (hh c ?_ _ _ _ _ ha)).symm
        unfold sinceClean at hc
        exact List.mem_reverse.1 ((List.takeWhile_sublist _).subset (List.mem_reverse.1 hc))
    subst this
    exact ⟨d, hp, hg⟩

example : datasetName 10 5 4 1 = "10-5-4-1.0.dataset.pkz".toList ∧ modelName 10 5 4 (1 / 4) = "10-5-4-0.2.model.pkz".toList ∧
    fmtTenths (3 / 4) = "0.8".toList ∧ fmtTenths (-1 / 100) = "-0.0".toList ∧ fmtTenths (1234567 / 100) = "12345.7".toList := by decide +kernel

example : (Spec.sinceClean [.dataset 1 1 2 1, .clean, .model 3 2 2 1, .dataset 1 1 2 2]) = [.model 3 2 2 1, .dataset 1 1 2 2] := by decide +kernel

example : ∃ i : Int, ((3 / 10 : ℚ)) * 10 = i := ⟨3, by norm_num⟩

end TreeCat
