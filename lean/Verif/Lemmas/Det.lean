import Verif.Lemmas.Train

/-!
# Methods without randomness

Such a method has one outcome, the same in the reading with possible results and in the reading with expectations.
-/

set_option linter.unusedSectionVars false

namespace TreeCat

variable {K : Type} [Field K] [LinearOrder K] {M : Nat}

/-- The only possible outcome of `x` is the one in which the expectation is taken. -/
def Det {α : Type} (x : TrainM K M Poss α) (y : TrainM K M (Expect K) α) (s : Trainer K M) : Prop :=
  ∃ r s', (∀ o, outcomes x s o ↔ o = (r, s')) ∧ ∀ k, y.run.run s k = k (r, s')

theorem Det.bind {α β : Type} {x : TrainM K M Poss α} {y : TrainM K M (Expect K) α} {f : α → TrainM K M Poss β}
    {g : α → TrainM K M (Expect K) β} {s : Trainer K M} (h : Det x y s) (hf : ∀ a s', Det (f a) (g a) s') :
    Det (x >>= f) (y >>= g) s := by
  obtain ⟨r, s', h1, h2⟩ := h
  cases r with
  | ok a =>
    obtain ⟨r2, s2, h3, h4⟩ := hf a s'
    refine ⟨r2, s2, fun o => ?_, fun k => ?_⟩
    · constructor
      · rintro ⟨o1, ho1, ho2⟩
        have := (h1 o1).1 ho1
        subst this
        exact (h3 o).1 ho2
      · rintro rfl
        exact ⟨_, (h1 _).2 rfl, (h3 _).2 rfl⟩
    · exact (h2 _).trans (h4 k)
  | error e =>
    refine ⟨.error e, s', fun o => ?_, fun k => ?_⟩
    · constructor
      · rintro ⟨o1, ho1, ho2⟩
        have := (h1 o1).1 ho1
        subst this
        exact ho2
      · rintro rfl
        exact ⟨_, (h1 _).2 rfl, rfl⟩
    · exact (h2 _).trans rfl

theorem Det.get {s : Trainer K M} : Det (get : TrainM K M Poss _) (get : TrainM K M (Expect K) _) s :=
  ⟨.ok s, s, fun _ => ⟨by rintro ⟨_, rfl, h⟩; exact h, by rintro rfl; exact ⟨_, rfl, rfl⟩⟩, fun _ => rfl⟩

theorem Det.set {s s1 : Trainer K M} : Det (set s1 : TrainM K M Poss _) (set s1 : TrainM K M (Expect K) _) s :=
  ⟨.ok ⟨⟩, s1, fun _ => ⟨by rintro ⟨_, rfl, h⟩; exact h, by rintro rfl; exact ⟨_, rfl, rfl⟩⟩, fun _ => rfl⟩

theorem Det.modify {s : Trainer K M} (f : Trainer K M → Trainer K M) :
    Det (modify f : TrainM K M Poss _) (modify f : TrainM K M (Expect K) _) s :=
  ⟨.ok ⟨⟩, f s, fun _ => ⟨by rintro ⟨_, rfl, h⟩; exact h, by rintro rfl; exact ⟨_, rfl, rfl⟩⟩, fun _ => rfl⟩

theorem Det.throw {α : Type} {s : Trainer K M} (e : PyErr) :
    Det (throw e : TrainM K M Poss α) (throw e : TrainM K M (Expect K) α) s :=
  ⟨.error e, s, fun _ => Iff.rfl, fun _ => rfl⟩

theorem Det.pure {α : Type} {s : Trainer K M} (a : α) :
    Det (pure a : TrainM K M Poss α) (pure a : TrainM K M (Expect K) α) s :=
  ⟨.ok a, s, fun _ => Iff.rfl, fun _ => rfl⟩

theorem Det.liftPy {α : Type} {s : Trainer K M} (x : Py α) :
    Det (liftPy x : TrainM K M Poss α) (liftPy x : TrainM K M (Expect K) α) s :=
  ⟨x, s, fun o => by
    constructor
    · intro h; exact h
    · rintro rfl; rfl, fun _ => rfl⟩

theorem Det.forM {α : Type} (l : List α) {f : α → TrainM K M Poss PUnit} {g : α → TrainM K M (Expect K) PUnit}
    (h : ∀ a s, Det (f a) (g a) s) (s : Trainer K M) : Det (l.forM f) (l.forM g) s := by
  induction l generalizing s with
  | nil => exact Det.pure _
  | cons a l ih => exact Det.bind (h a s) fun _ s' => ih s'

theorem Det.updateStats (t : Table) (row : Nat) (sign : Int) (z : Nat → Fin M) (s : Trainer K M) :
    Det (TreeCat.updateStats t row sign z) (TreeCat.updateStats t row sign z) s := by
  refine Det.bind (Det.modify _) fun _ s' => Det.forM _ (fun v s => ?_) s'
  split
  · exact Det.modify _
  · exact Det.throw _

theorem Det.removeRow (t : Table) (row : Nat) (s : Trainer K M) :
    Det (TreeCat.removeRow t row) (TreeCat.removeRow t row) s := by
  refine Det.bind Det.get fun s1 s' => ?_
  split
  · exact Det.bind Det.set fun _ _ => Det.bind (Det.liftPy _) fun _ _ => Det.updateStats _ _ _ _ _
  · exact Det.throw _

theorem Det.setEdges (edges : List Edge) (s : Trainer K M) :
    Det (TreeCat.setEdges edges) (TreeCat.setEdges edges) s := by
  refine Det.bind Det.get fun s1 _ => Det.bind (Det.liftPy _) fun _ _ => Det.bind (Det.modify _) fun _ _ =>
    Det.bind (Det.liftPy _) fun _ _ => Det.bind (Det.modify _) fun _ _ => Det.bind (Det.forM _ (fun c s => ?_) _)
      fun _ _ => Det.modify _
  exact Det.bind (Det.liftPy _) fun _ _ => Det.modify _

/-- What holds of the possible outcome holds of the outcome in the expectation. -/
theorem Det.of_tot {α : Type} {x : TrainM K M Poss α} {y : TrainM K M (Expect K) α} {s : Trainer K M}
    {Q : α → Trainer K M → Prop} (h : Det x y s) (hx : Tot x s Q) :
    ∃ a s', Q a s' ∧ ∀ k, y.run.run s k = k (.ok a, s') := by
  obtain ⟨r, s', h1, h2⟩ := h
  obtain ⟨a, rfl, h3⟩ := hx.2 r s' ((h1 _).2 rfl)
  exact ⟨a, s', h3, h2⟩

end TreeCat
