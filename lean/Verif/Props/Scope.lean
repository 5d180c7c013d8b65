import Verif.Model.Scope
import Verif.Props.Seed
import Mathlib.Data.Nat.Digits.Defs
import Mathlib.Tactic.Linarith
import Mathlib.Tactic.NormNum

/-!
# C88: what the context managers and `make_seed` leave behind
-/

namespace TreeCat

open Config (Str)

namespace Spec

variable {Key V : Type}

/-- The contract of `tempfile.mkdtemp`: the new directory has a name of its own, nothing exists at or below it. -/
def FreshDirs (pick : Process Key V → Py FilePath) : Prop := ∀ p d, pick p = .ok d → ∀ q, d <+: q → p.files q = none

/-- From `p` to `q` the files changed only below the directory `d`, which is still there. -/
structure OnlyBelow (d : FilePath) (p q : Process Key V) : Prop where
  there : q.files d = some .dir
  outside : ∀ f, ¬ d <+: f → q.files f = p.files f

/-- The number written by hexadecimal digits, most significant first. -/
def HexOf (digits : List Nat) : Nat := Nat.ofDigits 16 digits.reverse

end Spec

open Spec

variable {Key V α β : Type}

/-! ### `tempdir` -/

/-- The state in which the body of `with tempdir()` starts. -/
def Spec.WithDir (p : Process Key V) (d : FilePath) : Process Key V :=
  { p with files := fun q => if q = d then some .dir else p.files q }

theorem withTempdir_eq (pick : Process Key V → Py FilePath) (body : FilePath → Act Key V α) (p : Process Key V) (d : FilePath)
    (hd : pick p = .ok d) :
    withTempdir pick body p = match body d (WithDir p d) with
      | (r, q) => match rmtree d q with
        | (.ok _, q) => (r, q)
        | (.error e, q) => (.error e, q) := by
  simp only [withTempdir, Act.andThen, mkdtemp, hd, Act.andFinally, WithDir]
  rfl

/-- `with tempdir()`: whatever the body does inside of its directory, and whether it returns or raises, afterwards all files are what they
were before, and the outcome is that of the body. The working directory and the options are those that the body left. -/
theorem withTempdir_traceless (pick : Process Key V → Py FilePath) (hp : FreshDirs pick) (body : FilePath → Act Key V α) (p : Process Key V)
    (d : FilePath) (hd : pick p = .ok d) (hb : OnlyBelow d p (body d (WithDir p d)).2) :
    (withTempdir pick body p).1 = (body d (WithDir p d)).1 ∧
      (withTempdir pick body p).2 = { (body d (WithDir p d)).2 with files := p.files } := by
  rw [withTempdir_eq pick body p d hd]
  generalize body d (WithDir p d) = z at hb
  obtain ⟨r, q⟩ := z
  simp only at hb
  simp only [rmtree, hb.there, if_true, true_and]
  congr 1
  funext f
  by_cases hf : d <+: f
  · simp [hf, hp p d hd f hf]
  · simp [hf, hb.outside f hf]

/-- Without the assumption on the body: nothing remains in the directory, and what the body did elsewhere stays. -/
theorem withTempdir_removed (pick : Process Key V → Py FilePath) (body : FilePath → Act Key V α) (p : Process Key V)
    (d : FilePath) (hd : pick p = .ok d) (hb : (body d (WithDir p d)).2.files d = some .dir) (f : FilePath) :
    (d <+: f → (withTempdir pick body p).2.files f = none) ∧
      (¬ d <+: f → (withTempdir pick body p).2.files f = (body d (WithDir p d)).2.files f) := by
  rw [withTempdir_eq pick body p d hd]
  generalize body d (WithDir p d) = z at hb
  obtain ⟨r, q⟩ := z
  simp only at hb
  constructor <;> intro hf <;> simp [rmtree, hb, hf]

/-- A body that deletes its directory, or replaces it by a file, makes the statement raise `OSError`: its own outcome is lost. -/
theorem withTempdir_gone (pick : Process Key V → Py FilePath) (body : FilePath → Act Key V α) (p : Process Key V)
    (d : FilePath) (hd : pick p = .ok d) (hb : (body d (WithDir p d)).2.files d ≠ some .dir) :
    (withTempdir pick body p).1 = .error .ioError := by
  rw [withTempdir_eq pick body p d hd]
  generalize body d (WithDir p d) = z at hb
  obtain ⟨r, q⟩ := z
  simp only at hb
  simp [rmtree, hb]

/-- If no directory can be made nothing happens. -/
theorem withTempdir_error (pick : Process Key V → Py FilePath) (body : FilePath → Act Key V α) (p : Process Key V) (e : PyErr)
    (hd : pick p = .error e) : withTempdir pick body p = (.error e, p) := by
  simp [withTempdir, Act.andThen, mkdtemp, hd]

/-! ### `in_tempdir` -/

/-- `with in_tempdir()`: the body runs in the new directory; whether it returns or raises, and wherever it went, afterwards the working
directory and all files are what they were before, and the outcome is that of the body. -/
theorem inTempdir_traceless (pick : Process Key V → Py FilePath) (hp : FreshDirs pick) (body : Act Key V α) (p : Process Key V)
    (d : FilePath) (hcwd : p.files p.cwd = some .dir) (hd : pick p = .ok d)
    (hb : OnlyBelow d p (body { WithDir p d with cwd := d }).2) :
    (inTempdir pick body p).1 = (body { WithDir p d with cwd := d }).1 ∧
      (inTempdir pick body p).2 = { (body { WithDir p d with cwd := d }).2 with files := p.files, cwd := p.cwd } := by
  have hne : ¬ d <+: p.cwd := fun h => by rw [hp p d hd _ h] at hcwd; simp at hcwd
  have hstart : (WithDir p d).files d = some .dir := by simp [WithDir]
  have key : ((chdir d).andThen fun _ => body.andFinally (chdir p.cwd)) (WithDir p d) =
      ((body { WithDir p d with cwd := d }).1, { (body { WithDir p d with cwd := d }).2 with cwd := p.cwd }) := by
    simp only [Act.andThen, chdir, hstart, if_true, Act.andFinally]
    rw [if_pos (by rw [hb.outside _ hne]; exact hcwd)]
  have e : inTempdir pick body p = withTempdir pick (fun new => (chdir new).andThen fun _ => body.andFinally (chdir p.cwd)) p := by
    simp only [inTempdir, getcwd, Act.andThen, hcwd, if_true]
  have hb' : OnlyBelow d p (((chdir d).andThen fun _ => body.andFinally (chdir p.cwd)) (WithDir p d)).2 := by
    rw [key]; exact ⟨hb.there, hb.outside⟩
  obtain ⟨h1, h2⟩ := withTempdir_traceless pick hp (fun new => (chdir new).andThen fun _ => body.andFinally (chdir p.cwd)) p d hd hb'
  rw [e]
  rw [h1, h2, key]
  exact ⟨rfl, rfl⟩

/-- In a working directory that has been deleted it raises, and makes no directory. -/
theorem inTempdir_error (pick : Process Key V → Py FilePath) (body : Act Key V α) (p : Process Key V) (hcwd : p.files p.cwd ≠ some .dir) :
    inTempdir pick body p = (.error .ioError, p) := by
  simp [inTempdir, getcwd, Act.andThen, hcwd]

/-! ### `np_printoptions` -/

/-- The options in the body of `with np_printoptions(**kwargs)`. -/
def Spec.Overridden (p : Process Key V) (kwargs : Key → Option V) : Process Key V :=
  { p with options := fun k => (kwargs k).getD (p.options k) }

/-- `with np_printoptions(**kwargs)`: if the body returns, the options are what they were before, whatever the body set. -/
theorem npPrintoptions_restores (kwargs : Key → Option V) (body : Act Key V α) (p q : Process Key V) (r : α)
    (hb : body (Overridden p kwargs) = (.ok r, q)) : npPrintoptions kwargs body p = (.ok r, { q with options := p.options }) := by
  have hb' : body { p with options := fun k => (kwargs k).getD (p.options k) } = (.ok r, q) := hb
  simp only [npPrintoptions, setPrintoptions, Act.andThen, hb', Option.getD_some]

/-- If the body raises, the options are not restored: they are those that the body left. -/
theorem npPrintoptions_raises (kwargs : Key → Option V) (body : Act Key V α) (p q : Process Key V) (e : PyErr)
    (hb : body (Overridden p kwargs) = (.error e, q)) : npPrintoptions kwargs body p = (.error e, q) := by
  have hb' : body { p with options := fun k => (kwargs k).getD (p.options k) } = (.error e, q) := hb
  simp only [npPrintoptions, setPrintoptions, Act.andThen, hb']

/-- So an exception leaks every option that the statement changed. -/
theorem npPrintoptions_leaks (kwargs : Key → Option V) (body : Act Key V α) (p q : Process Key V) (e : PyErr)
    (hb : body (Overridden p kwargs) = (.error e, q)) (hq : q.options = (Overridden p kwargs).options) (k : Key) (v : V)
    (hk : kwargs k = some v) (hv : p.options k ≠ v) : (npPrintoptions kwargs body p).2.options ≠ p.options := by
  rw [npPrintoptions_raises kwargs body p q e hb]
  intro h
  have := congrFun h k
  simp only [hq, Overridden, hk, Option.getD_some] at this
  exact hv this.symm

/-! ### `make_seed` -/

theorem hexDigit_lt (c : Char) (d : Nat) (h : hexDigit c = some d) : d < 16 := by
  unfold hexDigit at h
  split at h
  · rename_i hc
    have h2 : c.toNat ≤ '9'.toNat := hc.2
    simp at h h2; omega
  · split at h
    · rename_i hc
      have h2 : c.toNat ≤ 'f'.toNat := hc.2
      simp at h h2; omega
    · split at h
      · rename_i hc
        have h2 : c.toNat ≤ 'F'.toNat := hc.2
        simp at h h2; omega
      · simp at h

theorem hexFold_ok (ds : Str) (vals : List Nat) (hv : ds.map hexDigit = vals.map some) (n : Nat) :
    ds.foldlM (fun n c => match hexDigit c with
      | some d => (.ok (16 * n + d) : Py Nat)
      | none => .error .valueError) n = .ok (n * 16 ^ vals.length + HexOf vals) := by
  induction ds generalizing vals n with
  | nil =>
    cases vals with
    | nil => simp [HexOf, pure, Except.pure]
    | cons _ _ => simp at hv
  | cons c ds ih =>
    cases vals with
    | nil => simp at hv
    | cons v vals =>
      simp only [List.map_cons, List.cons.injEq] at hv
      simp only [List.foldlM_cons, hv.1]
      show (ds.foldlM _ (16 * n + v) : Py Nat) = _
      rw [ih vals hv.2]
      congr 1
      simp only [HexOf, List.reverse_cons, Nat.ofDigits_append, Nat.ofDigits_singleton, List.length_reverse, List.length_cons]
      ring

/-- `int('0x…', 0)` of hexadecimal digits is the number that they write. -/
theorem hexInt_ok (ds : Str) (vals : List Nat) (hv : ds.map hexDigit = vals.map some) (hne : vals ≠ []) : hexInt ds = .ok (HexOf vals) := by
  cases ds with
  | nil => cases vals <;> simp_all
  | cons c ds =>
    unfold hexInt
    have := hexFold_ok (c :: ds) vals hv 0
    rw [Nat.zero_mul, Nat.zero_add] at this
    exact this

/-- `make_seed`: for a digest of hexadecimal digits that ends with eight digits `vals`, the seed is the number written by these eight digits.
It is a function of the arguments, whatever the state of the process, and is less than 2^32. It does not only return it: the file
`/tmp/v1.json` is overwritten. -/
theorem makeSeed_spec (encode : β → Str) (sha1 : Str → Str) (args : β) (p : Process Key V)
    (htmp : p.files ["tmp".toList] = some .dir) (hfile : p.files fingerprintFile ≠ some .dir)
    (first last : List Nat) (hd : (sha1 (encode args)).map hexDigit = (first ++ last).map some) (hl : last.length = 8) :
    (makeSeed encode sha1 args p).1 = .ok (HexOf last) ∧ HexOf last < 2 ^ 32 ∧
      (makeSeed encode sha1 args p).2 = { p with files := fun f => if f = fingerprintFile then some (.file (encode args)) else p.files f } := by
  have h16 : ∀ d ∈ first ++ last, d < 16 := by
    intro d hmem
    have : some d ∈ (first ++ last).map some := List.mem_map_of_mem hmem
    rw [← hd] at this
    obtain ⟨c, _, hc⟩ := List.mem_map.mp this
    exact hexDigit_lt c d hc
  have hlt : HexOf last < 2 ^ 32 := by
    have h : Nat.ofDigits 16 last.reverse < 16 ^ last.reverse.length :=
      Nat.ofDigits_lt_base_pow_length (by norm_num) fun d hd => h16 d (by simp at hd; simp [hd])
    rw [List.length_reverse, hl] at h
    calc HexOf last < 16 ^ 8 := h
      _ = 2 ^ 32 := by norm_num
  have hmod : HexOf (first ++ last) % 2 ^ 32 = HexOf last := by
    have : HexOf (first ++ last) = HexOf last + 2 ^ 32 * HexOf first := by
      simp only [HexOf, List.reverse_append, Nat.ofDigits_append, List.length_reverse, hl]
      norm_num
    rw [this, Nat.add_mul_mod_self_left, Nat.mod_eq_of_lt hlt]
  have hwrite : p.files fingerprintFile.dropLast = some .dir ∧ p.files fingerprintFile ≠ some .dir := ⟨htmp, hfile⟩
  have hint : hexInt (sha1 (encode args)) = .ok (HexOf (first ++ last)) :=
    hexInt_ok _ _ hd (by intro h; rw [List.append_eq_nil_iff] at h; rw [h.2] at hl; simp at hl)
  refine ⟨?_, hlt, ?_⟩
  · simp only [makeSeed, fingerprint, Act.andThen, writeFile, if_pos hwrite, hint]
    show (Except.ok _ : Py Nat) = _
    rw [hmod]
  · simp only [makeSeed, fingerprint, Act.andThen, writeFile, if_pos hwrite]

/-- Its result is always accepted by `set_random_seed`. -/
theorem makeSeed_accepted {S K : Type} [Field K] [LinearOrder K] (host : Host S K) (encode : β → Str) (sha1 : Str → Str) (args : β) (p : Process Key V) (seed : Nat)
    (h : (makeSeed encode sha1 args p).1 = .ok seed) (g : Gens S) :
    ((setRandomSeed host seed).from g).1 = .ok () := by
  have hlt : seed < 2 ^ 32 := by
    by_cases hw : p.files fingerprintFile.dropLast = some .dir ∧ p.files fingerprintFile ≠ some .dir
    · simp only [makeSeed, fingerprint, Act.andThen, writeFile, if_pos hw] at h
      cases hx : hexInt (sha1 (encode args)) with
      | error e => simp [hx, bind, Except.bind] at h
      | ok b =>
        simp only [hx, bind, Except.bind, Except.ok.injEq] at h
        rw [← h]; exact Nat.mod_lt _ (Nat.two_pow_pos 32)
    · simp [makeSeed, fingerprint, Act.andThen, writeFile, if_neg hw] at h
  have hb : (0 : Int) ≤ seed ∧ (seed : Int) < 2 ^ 32 := by constructor <;> omega
  rw [setRandomSeed_ok hb.1 hb.2]

/-- If `/tmp/v1.json` cannot be written, because it is a directory or there is no `/tmp`, `make_seed` raises. -/
theorem makeSeed_unwritable (encode : β → Str) (sha1 : Str → Str) (args : β) (p : Process Key V)
    (h : p.files ["tmp".toList] ≠ some .dir ∨ p.files fingerprintFile = some .dir) :
    makeSeed encode sha1 args p = (.error .ioError, p) := by
  have hwrite : ¬ (p.files fingerprintFile.dropLast = some .dir ∧ p.files fingerprintFile ≠ some .dir) := by
    rintro ⟨h1, h2⟩
    rcases h with h | h
    · exact h h1
    · exact h2 h
  simp only [makeSeed, fingerprint, Act.andThen, writeFile, if_neg hwrite]

/-! ### Examples -/

/-- A process with a root directory, `/tmp` and `/home`, where it is. -/
def exProcess : Process Bool Nat where
  files f := if f = [] ∨ f = ["tmp".toList] ∨ f = ["home".toList] then some .dir else none
  cwd := ["home".toList]
  options k := if k then 8 else 75

/-- Names of temporary directories that avoid what is there. -/
noncomputable def exPick (p : Process Bool Nat) : Py FilePath :=
  open Classical in if ∃ q, ["tmp".toList, "x".toList] <+: q ∧ p.files q ≠ none then .error .ioError else .ok ["tmp".toList, "x".toList]

theorem exPick_fresh : FreshDirs exPick := by
  intro p d h q hq
  unfold exPick at h
  split at h
  · simp at h
  · rename_i hn
    simp only [Except.ok.injEq] at h
    subst h
    by_contra hc
    exact hn ⟨q, hq, hc⟩

theorem exPick_ok : exPick exProcess = .ok ["tmp".toList, "x".toList] := by
  unfold exPick
  rw [if_neg]
  rintro ⟨q, ⟨t, rfl⟩, hq⟩
  exact hq (by simp [exProcess])

/-- A body that writes a file, changes the directory to the root, and raises. -/
def exBody : Act Bool Nat Unit :=
  (writeFile ["tmp".toList, "x".toList, "f".toList] "text".toList).andThen fun _ => (chdir []).andThen fun _ => fun p => (.error .assertion, p)

theorem exBody_below : OnlyBelow ["tmp".toList, "x".toList] exProcess
    (exBody { WithDir exProcess ["tmp".toList, "x".toList] with cwd := ["tmp".toList, "x".toList] }).2 := by
  constructor
  · simp [exBody, Act.andThen, writeFile, chdir, WithDir, exProcess]
  · intro f hf
    have h1 : f ≠ ["tmp".toList, "x".toList, "f".toList] := by rintro rfl; exact hf ⟨["f".toList], rfl⟩
    have h2 : f ≠ ["tmp".toList, "x".toList] := by rintro rfl; exact hf (List.prefix_refl _)
    simp only [exBody, Act.andThen, writeFile, chdir, WithDir, exProcess]
    simp [show f ≠ [['t', 'm', 'p'], ['x'], ['f']] from h1, show f ≠ [['t', 'm', 'p'], ['x']] from h2]

/-- The exception comes out of `in_tempdir`, the directory is gone, and the process is where it was. -/
example : inTempdir exPick exBody exProcess = (.error .assertion, exProcess) := by
  obtain ⟨h1, h2⟩ := inTempdir_traceless exPick exPick_fresh exBody exProcess _ rfl exPick_ok exBody_below
  refine Prod.ext ?_ ?_
  · rw [h1]; simp [exBody, Act.andThen, writeFile, chdir, WithDir, exProcess]
  · rw [h2]; simp [exBody, Act.andThen, writeFile, chdir, WithDir, exProcess]

/-- `with np_printoptions(precision=2): raise …` leaves the precision at 2. -/
example : (npPrintoptions (fun k => if k then some 2 else none) (fun p => ((.error .assertion : Py Unit), p)) exProcess).2.options true = 2 ∧
    exProcess.options true = 8 := by decide

example : (npPrintoptions (fun k => if k then some 2 else none) (fun p => ((.ok () : Py Unit), p)) exProcess).2.options true = 8 := by decide

/-- A digest of ten digits: the seed is that of the last eight. -/
example : (makeSeed (fun _ : Unit => []) (fun _ => "ff0000001a".toList) () exProcess).1 = .ok 26 := by decide +kernel

example : (makeSeed (fun _ : Unit => []) (fun _ => "ff0000001a".toList) () exProcess).1 = .ok (HexOf [0, 0, 0, 0, 0, 0, 1, 10]) :=
  (makeSeed_spec _ _ () exProcess (by decide) (by decide) [15, 15] [0, 0, 0, 0, 0, 0, 1, 10] (by decide) rfl).1

end TreeCat
