import Mathlib.Analysis.SpecialFunctions.Log.Basic
import Mathlib.Analysis.Complex.ExponentialBounds
import Verif.Props.FloatServe
import Verif.Props.FloatExact
import Verif.Props.Logprob

/-! # The server without rounding, and with the rounding of numpy -/

set_option linter.unusedSectionVars false

namespace TreeCat

open Util Spec

/-! ### Without rounding -/

/-- A power that is rounded once; a negative power of zero is infinite. -/
def fltPow (rnd : ℚ → ℚ) (x : Flt) (n : Int) : Flt := do
  let q ← x
  if q = 0 ∧ n < 0 then none else some (rnd (q ^ n))

/-- Summation from left to right. -/
def seqSum (rnd : ℚ → ℚ) (l : List Flt) : Flt := l.foldl (Flt.add rnd) (some 0)

/-- Arithmetic of the server without rounding. -/
def exactServe (M : Nat) (num : ServeNum ℚ) : ServeOps M :=
  { exactOps M with
    sum := seqSum id
    pow := fltPow id
    log := fun x => do
      let q ← x
      if 0 < q then some (num.log q) else none }

theorem exactSum (l : List ℚ) : seqSum id (l.map some) = some l.sum := by
  have key : ∀ (l : List ℚ) (q : ℚ), (l.map some).foldl (Flt.add id) (some q) = some (q + l.sum) := by
    intro l
    induction l with
    | nil => intro q; simp
    | cons x l ih =>
      intro q
      rw [List.map_cons, List.foldl_cons]
      have : Flt.add id (some q) (some x) = some (q + x) := rfl
      rw [this, ih, List.sum_cons, add_assoc]
  unfold seqSum
  rw [key, zero_add]

theorem exactSum_map {ι : Type} (l : List ι) {f : ι → Flt} {g : ι → ℚ} (h : ∀ a ∈ l, f a = some (g a)) : seqSum id (l.map f) = some (l.map g).sum := by
  rw [map_some l h, exactSum]

theorem exactSum_fin {M : Nat} {f : Fin M → Flt} {g : Fin M → ℚ} (h : ∀ a, f a = some (g a)) : seqSum id ((List.finRange M).map f) = some (∑ a, g a) := by
  rw [exactSum_map _ fun a _ => h a, ← List.ofFn_eq_map, List.sum_ofFn]

theorem sum_range' (f : Nat → ℚ) (a b : Nat) : ((List.range' a (b - a)).map f).sum = ∑ r ∈ Finset.Ico a b, f r := by
  have : (List.range' a (b - a)).toFinset = Finset.Ico a b := by
    ext r
    rw [List.mem_toFinset, List.mem_range'_1, Finset.mem_Ico]
    omega
  rw [← this]
  exact (List.sum_toFinset _ List.nodup_range').symm

/-- The arrays of the two servers agree, and are positive. -/
structure SameServer {M : Nat} (srv : Server ℚ M) (fsrv : FloatServer M) : Prop where
  program : fsrv.program = srv.program
  ragged : fsrv.raggedIndex = srv.raggedIndex
  vert : ∀ v a, fsrv.vert v a = some (srv.vertProbs v a) ∧ 0 < srv.vertProbs v a
  trans : ∀ e a b, fsrv.trans e a b = some (srv.edgeTrans e a b) ∧ 0 < srv.edgeTrans e a b
  cond : ∀ r a, fsrv.cond r a = some (srv.featCond r a) ∧ 0 < srv.featCond r a

section
variable {M : Nat} [NeZero M] {num : ServeNum ℚ}

theorem exactPrior (c : Int) (p : ℚ) : fltPrior (exactServe M num) c p = some ((c : ℚ) + p) := rfl

theorem exactHalf_pos : 0 < (1 / 2 / (M : ℚ)) := by
  have : 0 < (M : ℚ) := by exact_mod_cast NeZero.pos M
  positivity

theorem exactVert {ss : Nat → Fin M → Int} (h : ∀ v m, 0 ≤ ss v m) (v : Nat) (a : Fin M) :
    floatVertProbs (exactServe M num) ss v a = some (vertProbsOf ss v a) ∧ 0 < (vertProbsOf ss v a : ℚ) := by
  have hp : ∀ m, 0 < (ss v m : ℚ) + 1 / 2 := fun m => by
    have : (0 : ℚ) ≤ ss v m := by exact_mod_cast h v m
    linarith
  have hs : 0 < ∑ m, ((ss v m : ℚ) + 1 / 2) := Finset.sum_pos (fun m _ => hp m) ⟨0, Finset.mem_univ _⟩
  refine ⟨?_, div_pos (hp a) hs⟩
  have e : (exactServe M num).sum ((List.finRange M).map fun m' => fltPrior (exactServe M num) (ss v m') (1 / 2)) = some (∑ m, ((ss v m : ℚ) + 1 / 2)) := exactSum_fin fun m => exactPrior _ _
  unfold floatVertProbs
  rw [e]
  exact exactDiv _ _ _ (exactPrior _ _) hs

theorem exactEdge {ss : Nat → Fin M → Fin M → Int} (h : ∀ e a b, 0 ≤ ss e a b) (e : Nat) (a b : Fin M) :
    floatEdgeProbs (exactServe M num) ss e a b = some (edgeProbsOf ss e a b) ∧ 0 < (edgeProbsOf ss e a b : ℚ) := by
  have hp : ∀ a b, 0 < (ss e a b : ℚ) + 1 / 2 / (M : ℚ) := fun a b => by
    have h1 : (0 : ℚ) ≤ ss e a b := by exact_mod_cast h e a b
    have h2 := exactHalf_pos (M := M)
    linarith
  have hs : 0 < ∑ a, ∑ b, ((ss e a b : ℚ) + 1 / 2 / (M : ℚ)) :=
    Finset.sum_pos (fun a _ => Finset.sum_pos (fun b _ => hp a b) ⟨0, Finset.mem_univ _⟩) ⟨0, Finset.mem_univ _⟩
  refine ⟨?_, div_pos (hp a b) hs⟩
  have e : (exactServe M num).sum ((List.finRange M).flatMap fun a' => (List.finRange M).map fun b' => fltPrior (exactServe M num) (ss e a' b') (fltHalf (exactServe M num)))
      = some (∑ a, ∑ b, ((ss e a b : ℚ) + 1 / 2 / (M : ℚ))) := by
    have e1 : ((List.finRange M).flatMap fun a' => (List.finRange M).map fun b' => fltPrior (exactServe M num) (ss e a' b') (fltHalf (exactServe M num)))
        = ((List.finRange M).flatMap fun a' => (List.finRange M).map fun b' => (ss e a' b' : ℚ) + 1 / 2 / (M : ℚ)).map some := by
      rw [List.map_flatMap]
      simp only [List.map_map]
      rfl
    rw [e1]
    refine (exactSum _).trans ?_
    rw [List.flatMap_def, List.sum_flatten, List.map_map, ← List.ofFn_eq_map, List.sum_ofFn]
    simp only [Function.comp_apply, ← List.ofFn_eq_map, List.sum_ofFn]
  unfold floatEdgeProbs
  rw [e]
  exact exactDiv _ _ _ (exactPrior _ _) hs

theorem exactTrans {vert : Nat → Fin M → Flt} {vert' : Nat → Fin M → ℚ} (hv : ∀ v a, vert v a = some (vert' v a) ∧ 0 < vert' v a) (grid : Grid)
    {edge : Nat → Fin M → Fin M → Flt} {edge' : Nat → Fin M → Fin M → ℚ} (he : ∀ e a b, edge e a b = some (edge' e a b) ∧ 0 < edge' e a b) :
    ∀ e a b, floatEdgeTrans (exactServe M num) grid vert edge e a b = some (edgeTransOf grid vert' edge' e a b) ∧ 0 < edgeTransOf grid vert' edge' e a b := by
  have upd : ∀ (t : Nat → Fin M → Fin M → Flt) (t' : Nat → Fin M → Fin M → ℚ), (∀ e a b, t e a b = some (t' e a b) ∧ 0 < t' e a b) → ∀ (k : Nat) (g : Fin M → Fin M → ℚ) (f : Fin M → Fin M → Flt),
      (∀ a b, f a b = some (g a b) ∧ 0 < g a b) → ∀ e a b, Function.update t k (fun a b => Flt.div id (t k a b) (f a b)) e a b
        = some (Function.update t' k (fun a b => t' k a b / g a b) e a b) ∧ 0 < Function.update t' k (fun a b => t' k a b / g a b) e a b := by
    intro t t' ht k g f hfg e a b
    by_cases hk : e = k
    · subst hk
      simp only [Function.update_self]
      rw [(hfg a b).1]
      exact ⟨exactDiv _ _ _ (ht e a b).1 (hfg a b).2, div_pos (ht e a b).2 (hfg a b).2⟩
    · simp only [Function.update_of_ne hk]
      exact ht e a b
  induction grid generalizing edge edge' with
  | nil => exact he
  | cons c grid ih =>
    unfold floatEdgeTrans edgeTransOf
    rw [List.foldl_cons, List.foldl_cons]
    exact ih (upd _ _ (upd _ _ he c.1 (fun a _ => vert' c.2.1 a) (fun a _ => vert c.2.1 a) fun a _ => hv _ a) c.1 (fun _ b => vert' c.2.2 b) (fun _ b => vert c.2.2 b) fun _ b => hv _ b)

theorem exactCond {ss : Nat → Fin M → Int} (h : ∀ r m, 0 ≤ ss r m) (ri : List Nat) (V : Nat) :
    ∀ r a, floatFeatCond (exactServe M num) ri V ss r a = some (featCondOf ri V ss r a) ∧ 0 < (featCondOf ri V ss r a : ℚ) := by
  have key : ∀ (l : List Nat) (f : Nat → Fin M → Flt) (g : Nat → Fin M → ℚ), (∀ r a, f r a = some (g r a) ∧ 0 < g r a) →
      ∀ r a, l.foldl (fun f v => floatNormBlock (exactServe M num) f (ri.getD v 0) (ri.getD (v + 1) 0)) f r a
        = some (l.foldl (fun f v => normBlock f (ri.getD v 0) (ri.getD (v + 1) 0)) g r a) ∧ 0 < l.foldl (fun f v => normBlock f (ri.getD v 0) (ri.getD (v + 1) 0)) g r a := by
    intro l
    induction l with
    | nil => intro f g hfg; exact hfg
    | cons v l ih =>
      intro f g hfg
      rw [List.foldl_cons, List.foldl_cons]
      refine ih _ _ fun r a => ?_
      unfold floatNormBlock normBlock
      split
      next hr =>
        have hs : 0 < ∑ r' ∈ Finset.Ico (ri.getD v 0) (ri.getD (v + 1) 0), g r' a := Finset.sum_pos (fun r' _ => (hfg r' a).2) ⟨r, Finset.mem_Ico.2 hr⟩
        have e : (exactServe M num).sum ((List.range' (ri.getD v 0) (ri.getD (v + 1) 0 - ri.getD v 0)).map fun r' => f r' a)
            = some (∑ r' ∈ Finset.Ico (ri.getD v 0) (ri.getD (v + 1) 0), g r' a) := by
          refine (exactSum_map _ fun r' _ => (hfg r' a).1).trans ?_
          rw [sum_range']
        rw [e]
        exact ⟨exactDiv _ _ _ (hfg r a).1 hs, div_pos (hfg r a).2 hs⟩
      next hr => exact hfg r a
  refine key _ _ _ fun r a => ⟨exactPrior _ _, ?_⟩
  have h1 : (0 : ℚ) ≤ ss r a := by exact_mod_cast h r a
  have h2 := exactHalf_pos (M := M)
  linarith

/-- Without rounding, `__init__` makes the arrays of the exact server. -/
theorem serverInit_exact {mst : List (List ℚ) → List Edge} {model : Model ℚ M} (hv : ∀ v m, 0 ≤ model.vertSS v m) (he : ∀ e a b, 0 ≤ model.edgeSS e a b)
    (hf : ∀ r m, 0 ≤ model.featSS r m) {srv : Server ℚ M} (h : Server.init mst model = .ok srv) :
    ∃ fsrv, FloatServer.init (exactServe M num) model = .ok fsrv ∧ SameServer srv fsrv := by
  simp only [Server.init] at h
  cases hl : model.raggedIndex.getLast? with
  | none => rw [hl] at h; cases h
  | some last =>
    rw [hl] at h
    cases hp : makeProgram model.tree.treeGrid none with
    | error err => simp only [hp, bind, Except.bind] at h; cases h
    | ok prog =>
      simp only [hp, bind, Except.bind] at h
      split at h
      · cases h
      · cases hg : makeCompleteGraph model.tree.numVertices with
        | error err => simp only [hg] at h; cases h
        | ok grid =>
          simp only [hg] at h
          cases ht : estimateTree mst grid model.edgeLogits with
          | error err => simp only [ht] at h; cases h
          | ok T =>
            simp only [ht] at h
            obtain rfl := Except.ok.inj h
            refine ⟨_, by simp only [FloatServer.init, hp, bind, Except.bind]; rfl, rfl, rfl, exactVert hv, ?_, exactCond hf _ _⟩
            exact exactTrans (exactVert hv) _ (exactEdge he)

variable {srv : Server ℚ M} {fsrv : FloatServer M} (S : SameServer srv fsrv)

/-- Messages that agree and are positive. -/
def SameMsg {M : Nat} (f : Nat → Fin M → Flt) (g : Nat → Fin M → ℚ) : Prop := ∀ v a, f v a = some (g v a) ∧ 0 < g v a

omit [NeZero M] in
theorem SameMsg.update {f : Nat → Fin M → Flt} {g : Nat → Fin M → ℚ} (h : SameMsg f g) (v : Nat) {x : Fin M → Flt} {y : Fin M → ℚ} (hx : ∀ a, x a = some (y a) ∧ 0 < y a) :
    SameMsg (Function.update f v x) (Function.update g v y) := by
  intro w a
  by_cases hw : w = v
  · subst hw
    rw [Function.update_self, Function.update_self]
    exact hx a
  · rw [Function.update_of_ne hw, Function.update_of_ne hw]
    exact h w a

theorem exactPow {x : Flt} {q : ℚ} (hx : x = some q) (hq : 0 < q) (n : Int) : fltPow id x n = some (q ^ n) := by
  subst hx
  simp [fltPow, hq.ne']

omit [NeZero M] in
include S in
theorem SameServer.block (v : Nat) : fsrv.block v = srv.block v := by
  unfold FloatServer.block Server.block Server.beg Server.stop
  rw [S.ragged]

omit [NeZero M] in
include S in
theorem serveUp_exact (skip : Bool) (data : List Int) {f : Nat → Fin M → Flt} {g : Nat → Fin M → ℚ} (h : SameMsg f g) (v : Nat) :
    SameMsg (floatServeUp (exactServe M num) fsrv skip data f v) (serveUp srv data g v) := by
  unfold floatServeUp serveUp
  rw [S.block]
  generalize srv.block v = l
  induction l generalizing f g with
  | nil => exact h
  | cons r l ih =>
    rw [List.foldl_cons, List.foldl_cons]
    apply ih
    have hstep : SameMsg (Function.update f v fun m => Flt.mul id (f v m) (fltPow id (fsrv.cond r m) (data.getD r 0))) (Function.update g v fun m => g v m * srv.featCond r m ^ (data.getD r 0)) := by
      refine h.update v fun a => ?_
      rw [(h v a).1, exactPow (S.cond r a).1 (S.cond r a).2]
      exact ⟨rfl, mul_pos (h v a).2 (zpow_pos (S.cond r a).2 _)⟩
    split
    next hc =>
      simp only [Bool.and_eq_true, beq_iff_eq] at hc
      have : (Function.update g v fun m => g v m * srv.featCond r m ^ (data.getD r 0)) = g := by
        rw [hc.2]
        simp
      rw [this]
      exact h
    next => exact hstep

include S in
theorem transDot_exact {f : Nat → Fin M → Flt} {g : Nat → Fin M → ℚ} (h : SameMsg f g) (v v2 w e : Nat) (a : Fin M) :
    (exactServe M num).dot (transAt fsrv.trans e v v2 a) (f w) = some (∑ b, transAt srv.edgeTrans e v v2 a b * g w b) ∧ 0 < ∑ b, transAt srv.edgeTrans e v v2 a b * g w b := by
  have ht : ∀ b, transAt fsrv.trans e v v2 a b = some (transAt srv.edgeTrans e v v2 a b) ∧ 0 < transAt srv.edgeTrans e v v2 a b := by
    intro b
    unfold transAt
    split <;> exact S.trans _ _ _
  constructor
  · rw [funext fun b => (ht b).1, funext fun b => (h w b).1]
    exact exactDot _ _
  · exact Finset.sum_pos (fun b _ => mul_pos (ht b).2 (h w b).2) ⟨0, Finset.mem_univ _⟩

include S in
theorem serveIn_exact {f : Nat → Fin M → Flt} {g : Nat → Fin M → ℚ} (h : SameMsg f g) (v v2 e : Nat) (a : Fin M) :
    floatServeIn (exactServe M num) fsrv f v v2 e a = some (serveIn srv g v v2 e a) ∧ 0 < serveIn srv g v v2 e a := by
  obtain ⟨h1, h2⟩ := transDot_exact (num := num) S h v v2 v2 e a
  unfold floatServeIn serveIn
  rw [h1, (h v a).1]
  exact ⟨rfl, mul_pos (h v a).2 h2⟩

theorem exactLog {q : ℚ} (hq : 0 < q) : (exactServe M num).log (some q) = some (num.log q) := if_pos hq

include S in
theorem logLoop_exact (data : List Int) (prog : List Instr) {f : FloatLog M} {g : LogState ℚ M} (h : SameMsg f.messages g.messages) (hl : f.logprob = some g.logprob) :
    floatLogLoop (exactServe M num) fsrv data prog f = (logLoop num srv data prog g).map some := by
  induction prog generalizing f g with
  | nil => rfl
  | cons i prog ih =>
    have hpos : ∀ (y : Fin M → ℚ), (∀ a, 0 < y a) → 0 < ∑ a, y a := fun y hy => Finset.sum_pos (fun a _ => hy a) ⟨0, Finset.mem_univ _⟩
    unfold floatLogLoop logLoop
    cases hop : i.op
    case ROOT =>
      simp only [Option.map_some]
      have e : (exactServe M num).sum ((List.finRange M).map (f.messages i.v)) = some (∑ a, g.messages i.v a) := exactSum_fin fun a => (h i.v a).1
      rw [e, exactLog (hpos _ fun a => (h i.v a).2), hl]
      rfl
    case UP =>
      simp only
      refine ih ?_ ?_
      · simp only [floatLogStep, logStep, hop]
        exact serveUp_exact S false data h i.v
      · simp only [floatLogStep, logStep, hop]
        exact hl
    case IN =>
      have e : (exactServe M num).sum ((List.finRange M).map (floatServeIn (exactServe M num) fsrv f.messages i.v i.v2 i.e)) = some (∑ a, serveIn srv g.messages i.v i.v2 i.e a) :=
        exactSum_fin fun a => (serveIn_exact S h i.v i.v2 i.e a).1
      have hs : 0 < ∑ a, serveIn srv g.messages i.v i.v2 i.e a := hpos _ fun a => (serveIn_exact (num := num) S h i.v i.v2 i.e a).2
      simp only
      refine ih ?_ ?_
      · simp only [floatLogStep, logStep, hop]
        refine h.update i.v fun a => ?_
        rw [e]
        exact ⟨exactDiv _ _ _ (serveIn_exact S h i.v i.v2 i.e a).1 hs, div_pos (serveIn_exact (num := num) S h i.v i.v2 i.e a).2 hs⟩
      · simp only [floatLogStep, logStep, hop]
        rw [e, exactLog hs, hl]
        rfl
    all_goals
      simp only
      refine ih ?_ ?_
      · simp only [floatLogStep, logStep, hop]
        exact h
      · simp only [floatLogStep, logStep, hop]
        exact hl

include S in
/-- Without rounding, `logprob` is the exact `logprob`. -/
theorem floatLogprob_exact (data : List Int) : fsrv.logprob (exactServe M num) data = (logprobWith num srv srv.program data).map some := by
  unfold FloatServer.logprob
  rw [S.program]
  exact logLoop_exact S data _ S.vert rfl

include S in
theorem marginalStep_exact (data : List Int) (i : Instr) {f : FloatMarginal M} {g : MarginalState ℚ M} (h1 : SameMsg f.messagesIn g.messagesIn) (h2 : SameMsg f.messagesOut g.messagesOut)
    (h3 : ∀ r, f.result r = some (g.result r)) :
    SameMsg (floatMarginalStep (exactServe M num) fsrv data f i).messagesIn (marginalStep srv data g i).messagesIn ∧
    SameMsg (floatMarginalStep (exactServe M num) fsrv data f i).messagesOut (marginalStep srv data g i).messagesOut ∧
    ∀ r, (floatMarginalStep (exactServe M num) fsrv data f i).result r = some ((marginalStep srv data g i).result r) := by
  cases hop : i.op
  case UP =>
    simp only [floatMarginalStep, marginalStep, hop]
    exact ⟨serveUp_exact S false data h1 i.v, h2.update i.v fun a => serveUp_exact S false data h1 i.v i.v a, h3⟩
  case IN =>
    simp only [floatMarginalStep, marginalStep, hop]
    refine ⟨h1.update i.v fun a => ?_, h2, h3⟩
    have hp := fun a => serveIn_exact (num := num) S h1 i.v i.v2 i.e a
    have hm : 0 < vecMax (serveIn srv g.messagesIn i.v i.v2 i.e) := lt_of_lt_of_le (hp 0).2 (Finset.le_sup' _ (Finset.mem_univ 0))
    have e : fltMax (floatServeIn (exactServe M num) fsrv f.messagesIn i.v i.v2 i.e) = some (vecMax (serveIn srv g.messagesIn i.v i.v2 i.e)) := by
      rw [← exactMax]
      congr 1
      exact funext fun a => (hp a).1
    rw [e]
    exact ⟨exactDiv _ _ _ (hp a).1 hm, div_pos (hp a).2 hm⟩
  case ROOT =>
    simp only [floatMarginalStep, marginalStep, hop]
    exact ⟨h1, h2, h3⟩
  case OUT =>
    simp only [floatMarginalStep, marginalStep, hop]
    have hp := fun a => transDot_exact (num := num) S h2 i.v i.v2 i.v2 i.e a
    refine ⟨h1.update i.v fun a => ?_, h2.update i.v fun a => ?_, h3⟩
    · rw [(hp a).1, (h1 i.v a).1]
      exact ⟨rfl, mul_pos (h1 i.v a).2 (hp a).2⟩
    · rw [(hp a).1, (h2 i.v a).1]
      exact ⟨rfl, mul_pos (h2 i.v a).2 (hp a).2⟩
  case DOWN =>
    simp only [floatMarginalStep, marginalStep, hop]
    refine ⟨h1, h2, fun r => ?_⟩
    have hd : ∀ r, (exactServe M num).dot (fsrv.cond r) (f.messagesIn i.v) = some (∑ a, srv.featCond r a * g.messagesIn i.v a) ∧ 0 < ∑ a, srv.featCond r a * g.messagesIn i.v a := by
      intro r
      constructor
      · rw [funext fun b => (S.cond r b).1, funext fun b => (h1 i.v b).1]
        exact exactDot _ _
      · exact Finset.sum_pos (fun b _ => mul_pos (S.cond r b).2 (h1 i.v b).2) ⟨0, Finset.mem_univ _⟩
    have hmem : r ∈ fsrv.block i.v ↔ srv.beg i.v ≤ r ∧ r < srv.stop i.v := by
      rw [S.block]
      unfold Server.block
      rw [List.mem_range'_1]
      omega
    by_cases hr : r ∈ fsrv.block i.v
    · have hr' := hmem.1 hr
      rw [if_pos hr, if_pos hr']
      have hs : 0 < ∑ r' ∈ Finset.Ico (srv.beg i.v) (srv.stop i.v), ∑ a, srv.featCond r' a * g.messagesIn i.v a := Finset.sum_pos (fun r' _ => (hd r').2) ⟨r, Finset.mem_Ico.2 hr'⟩
      have e : (exactServe M num).sum ((fsrv.block i.v).map fun r => (exactServe M num).dot (fsrv.cond r) (f.messagesIn i.v))
          = some (∑ r' ∈ Finset.Ico (srv.beg i.v) (srv.stop i.v), ∑ a, srv.featCond r' a * g.messagesIn i.v a) := by
        refine (exactSum_map _ fun r' _ => (hd r').1).trans ?_
        rw [S.block]
        unfold Server.block
        rw [sum_range']
      rw [e]
      exact exactDiv _ _ _ (hd r).1 hs
    · rw [if_neg hr, if_neg fun h => hr (hmem.2 h)]
      exact h3 r

include S in
/-- Without rounding, `marginals` is the exact `marginals`. The content of the uninitialised array does not matter for the result; it is taken positive here. -/
theorem floatMarginals_exact {junk : Nat → Fin M → ℚ} (hj : ∀ v a, 0 < junk v a) (data : List Int) (r : Nat) :
    fsrv.marginals (exactServe M num) (fun v a => some (junk v a)) data r = some (marginalsWith srv srv.program junk data r) := by
  unfold FloatServer.marginals marginalsWith
  rw [S.program]
  have key : ∀ (prog : List Instr) (f : FloatMarginal M) (g : MarginalState ℚ M), SameMsg f.messagesIn g.messagesIn → SameMsg f.messagesOut g.messagesOut → (∀ r, f.result r = some (g.result r)) →
      (prog.foldl (floatMarginalStep (exactServe M num) fsrv data) f).result r = some ((prog.foldl (marginalStep srv data) g).result r) := by
    intro prog
    induction prog with
    | nil => intro f g _ _ h; exact h r
    | cons i prog ih =>
      intro f g h1 h2 h3
      obtain ⟨h4, h5, h6⟩ := marginalStep_exact (num := num) S data i h1 h2 h3
      rw [List.foldl_cons, List.foldl_cons]
      exact ih _ _ h4 h5 h6
  exact key _ _ _ S.vert (fun v a => ⟨rfl, hj v a⟩) fun r => rfl

end

/-! ### numpy -/

theorem seqSum_fold {rnd : ℚ → ℚ} (R : MonoRounding 24 (-149) rnd) (l : List ℚ) (hl : ∀ x ∈ l, 0 ≤ x ∧ IsFloat 24 (-149) x) (n : Nat) (hn : n + l.length ≤ 2 ^ 24) (q : ℚ)
    (hq : IsFloat 24 (-149) q) (hq0 : 0 ≤ q) :
    ∃ d, (l.map some).foldl (Flt.add rnd) (some q) = some d ∧ IsFloat 24 (-149) d ∧ q ≤ d ∧ (∀ x ∈ l, x ≤ d) ∧
      ∀ k : Int, -149 ≤ k → q ≤ n * 2 ^ k → (∀ x ∈ l, x ≤ 2 ^ k) → d ≤ (n + l.length : Nat) * 2 ^ k := by
  induction l generalizing n q with
  | nil => exact ⟨q, rfl, hq, le_refl _, by simp, fun k _ h _ => by simpa using h⟩
  | cons x l ih =>
    obtain ⟨hx0, hxf⟩ := hl x List.mem_cons_self
    have hle : q ≤ rnd (q + x) := R.ge_of hq (by linarith)
    have hle' : x ≤ rnd (q + x) := R.ge_of hxf (by linarith)
    obtain ⟨d, h1, h2, h3, h4, h5⟩ := ih (fun y hy => hl y (List.mem_cons_of_mem _ hy)) (n + 1) (by simp at hn ⊢; omega) (rnd (q + x)) (R.float _) (le_trans hq0 hle)
    refine ⟨d, h1, h2, le_trans hle h3, ?_, ?_⟩
    · intro y hy
      rcases List.mem_cons.1 hy with rfl | hy
      · exact le_trans hle' h3
      · exact h4 y hy
    · intro k hk hqk hall
      have hn1 : n + 1 ≤ 2 ^ 24 := by simp at hn; omega
      have hfl : IsFloat 24 (-149) (((n + 1 : Nat) : ℚ) * 2 ^ k) := by
        have := isFloat_of_le (p := 24) (emin := -149) (by norm_num) hk (m := ((n + 1 : Nat) : Int)) (by
          rw [abs_of_nonneg (by omega)]
          exact_mod_cast hn1)
        simpa using this
      have := h5 k hk (R.le_of hfl (by
        have := hall x List.mem_cons_self
        push_cast
        linarith)) fun c hc => hall c (List.mem_cons_of_mem _ hc)
      refine le_trans this (le_of_eq ?_)
      congr 2
      simp only [List.length_cons]
      omega

/-- Summation from left to right satisfies the assumption. -/
theorem seqSum_ok {rnd : ℚ → ℚ} (R : MonoRounding 24 (-149) rnd) : Spec.SumOk (seqSum rnd) := by
  intro l hl h
  obtain ⟨d, h1, h2, h3, h4, h5⟩ := seqSum_fold R l (fun x hx => ⟨(h x hx).2, (h x hx).1⟩) 0 (by simpa using hl) 0 (isFloat_zero _ _) (le_refl _)
  refine ⟨d, h1, h2, h3, h4, fun k hk hall => ?_⟩
  have := h5 k hk (by simp) hall
  simpa using this

/-- The arithmetic of numpy, with a left to right sum, powers that are rounded once, and a logarithm that is a parameter. -/
def numpyServe (M : Nat) (log : ℚ → ℚ) : ServeOps M :=
  { numpyOps M with
    sum := seqSum float32
    pow := fltPow float32
    log := fun x => do
      let q ← x
      if 0 < q then some (float32 (log q)) else none }

/-- A logarithm rounded down to a multiple of `2 ^ -16`. -/
noncomputable def floorLog (q : ℚ) : ℚ := ⌊Real.log q * 2 ^ 16⌋ / 2 ^ 16

theorem floorLog_bounds {q : ℚ} (h1 : 2 ^ (-149 : Int) ≤ q) (h2 : q ≤ 2 ^ (127 : Int)) : |floorLog q| ≤ 104 := by
  have hq : (0 : ℝ) < (q : ℝ) := by
    have := lt_of_lt_of_le (two_zpow_pos (-149)) h1
    exact_mod_cast this
  have hlow : (-149 : ℝ) * Real.log 2 ≤ Real.log q := by
    have e : (-149 : ℝ) * Real.log 2 = Real.log ((2 : ℝ) ^ (-149 : Int)) := by
      rw [Real.log_zpow]
      norm_num
    rw [e]
    refine Real.log_le_log (by positivity) ?_
    have : ((2 ^ (-149 : Int) : ℚ) : ℝ) ≤ (q : ℝ) := Rat.cast_le.2 h1
    rwa [Rat.cast_zpow, Rat.cast_ofNat] at this
  have hhigh : Real.log q ≤ 127 * Real.log 2 := by
    have e : (127 : ℝ) * Real.log 2 = Real.log ((2 : ℝ) ^ (127 : Int)) := by
      rw [Real.log_zpow]
      norm_num
    rw [e]
    refine Real.log_le_log hq ?_
    have : (q : ℝ) ≤ ((2 ^ (127 : Int) : ℚ) : ℝ) := Rat.cast_le.2 h2
    rwa [Rat.cast_zpow, Rat.cast_ofNat] at this
  have hlog2 := Real.log_two_lt_d9
  have hlog2' := Real.log_two_gt_d9
  have f1 : (-104 * 2 ^ 16 : Int) ≤ ⌊Real.log q * 2 ^ 16⌋ := by
    rw [Int.le_floor]
    push_cast
    linarith
  have f2 : ⌊Real.log q * 2 ^ 16⌋ ≤ (104 * 2 ^ 16 : Int) := by
    have h1 := Int.floor_le (Real.log q * 2 ^ 16)
    have : (⌊Real.log q * 2 ^ 16⌋ : ℝ) ≤ 104 * 2 ^ 16 := by linarith
    exact_mod_cast this
  unfold floorLog
  have f1' : (-104 * 2 ^ 16 : ℚ) ≤ (⌊Real.log q * 2 ^ 16⌋ : ℚ) := by exact_mod_cast f1
  have f2' : (⌊Real.log q * 2 ^ 16⌋ : ℚ) ≤ 104 * 2 ^ 16 := by exact_mod_cast f2
  rw [abs_le, le_div_iff₀ (by norm_num), div_le_iff₀ (by norm_num)]
  constructor <;> linarith

theorem isFloat_104 : IsFloat 24 (-149) (104 : ℚ) := by
  have := isFloat_of_le (p := 24) (emin := -149) (by norm_num) (show (-149 : Int) ≤ 0 by norm_num) (m := 104) (by norm_num)
  simpa using this

theorem isFloat_neg104 : IsFloat 24 (-149) (-104 : ℚ) := by
  have := isFloat_of_le (p := 24) (emin := -149) (by norm_num) (show (-149 : Int) ≤ 0 by norm_num) (m := -104) (by norm_num)
  simpa using this

/-- The arithmetic of numpy satisfies the assumptions. -/
theorem numpyServe_ok {M : Nat} (hM : M ≤ 2 ^ 24) : Spec.ServeOpsOk (numpyServe M floorLog) where
  ops := numpyOps_ok hM
  sum := seqSum_ok float32_mono
  pow := by
    intro q hq hq0
    constructor
    · have e : fltPow float32 (some q) 0 = some (float32 1) := by simp [fltPow]
      refine e.trans ?_
      have := float32_mono.id (isFloat_pow (show (-149 : Int) ≤ 0 by norm_num))
      rw [zpow_zero] at this
      rw [this]
    · have e : fltPow float32 (some q) 1 = some (float32 q) := by simp [fltPow]
      exact e.trans (by rw [float32_mono.id hq])
  log := by
    intro q hq hq0 hq1
    refine ⟨float32 (floorLog q), if_pos hq0, ?_⟩
    have h1 : 2 ^ (-149 : Int) ≤ q := hq.ge hq0
    have h2 := abs_le.1 (floorLog_bounds h1 hq1)
    exact abs_le.2 ⟨float32_mono.ge_of isFloat_neg104 h2.1, float32_mono.le_of isFloat_104 h2.2⟩

end TreeCat
