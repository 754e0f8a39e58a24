import Verif.Model.Init
import Verif.Props.Fronts
/-
C94: the init functions.
Full statement: after init(lowest, highest) of a platform, every kind of object can be created, through that platform; the priority range of
the threads is the given one; and as long as only that platform is initialised, every object is destroyed through the factory that created it.
False on two counts: the ITRON init registers no OneShotTimer factory (`C94_itron_no_oneshot`), and a second init keeps the first range
(`C94_second_init_ignored`).
-/
namespace Verif.Props.Init
open Verif Verif.Init
open Verif.Fronts hiding Op run

/-- What init leaves registered. -/
theorem C94_init_registers_partial (c : Conf) (p : Plat) (r : Prio.Range) (s : ISt) (k : Kind) :
    (init c p r s).fr.fac k = if p = .itron ∧ k = .oneShotTimer then s.fr.fac .oneShotTimer else some (staticFac p k) := by
  cases p <;> cases k <;> simp [init, reg, constructOnce]

/-- After init no kind raises the missing-factory assertion, except the one-shot timer of ITRON; acceptable arguments reach the platform's own
factory, once, and its answer is returned; others give null. -/
theorem C94_init_create_partial (c : Conf) (p : Plat) (r : Prio.Range) (s : ISt) (k : Kind) (hk : ¬ (p = .itron ∧ k = .oneShotTimer))
    (plat : List Ev → Option Nat) (a : Args) :
    create plat k a (init c p r s).fr = if Fronts.Valid (famOf p) a k
      then .ok (plat (init c p r s).fr.log) { (init c p r s).fr with log := (init c p r s).fr.log ++ [.create (staticFac p k) k a] }
      else .ok none (init c p r s).fr := by
  have h := C94_init_registers_partial c p r s k
  rw [if_neg hk] at h
  exact Fronts.C73_create plat k a _ _ h

/-- ITRON: no OneShotTimer can be created after init alone: the assertion fails, whatever the arguments. -/
theorem C94_itron_no_oneshot (c : Conf) (r : Prio.Range) (plat : List Ev → Option Nat) (a : Args) :
    create plat .oneShotTimer a (init c .itron r .init).fr = .exn .assertFail (init c .itron r .init).fr := by
  simp [create, theFactory, Bind.bind, Cmd.bind, Cmd.gets, Cmd.throw, init, reg, constructOnce, ISt.init, FSt.init]

/-- The range of the first init of `p` in a history. -/
def firstInit (p : Plat) : List Op → Option Prio.Range
  | [] => none
  | .init q r :: ops => if q = p then some r else firstInit p ops
  | .front _ :: ops => firstInit p ops

/-- The platform of the last init or registration of a thread factory: `some p` after init `p`. -/
def lastThread (ops : List Op) : Option Factory :=
  ops.foldl (fun cur op => match op with
    | .init p _ => some (staticFac p .thread)
    | .front (.register .thread f) => f
    | _ => cur) none

theorem run_append (c : Conf) (plat : List Ev → Option Nat) : ∀ (a b : List Op) (s : ISt), run c plat (a ++ b) s = run c plat b (run c plat a s)
  | [], _, _ => rfl
  | .init p r :: a, b, s => by simp only [List.cons_append, run]; exact run_append c plat a b _
  | .front o :: a, b, s => by simp only [List.cons_append, run]; exact run_append c plat a b _

theorem front_range (plat : List Ev → Option Nat) (op : Fronts.Op) (s : FSt) :
    (∀ k f, op ≠ .register k f) → (Fronts.run plat [op] s).fac = s.fac := by
  intro h
  cases op with
  | register k f => exact absurd rfl (h k f)
  | destroy k p =>
    cases hf : s.fac k <;> cases p <;> simp [Fronts.run, destroy, Bind.bind, Cmd.bind, Cmd.gets, Cmd.modify, Pure.pure, Cmd.pure, hf]
  | create k a =>
    cases hf : s.fac k with
    | none => simp [Fronts.run, create, theFactory, Bind.bind, Cmd.bind, Cmd.gets, Cmd.throw, hf]
    | some f =>
      cases k <;> by_cases h1 : a.runnable = none <;> by_cases h2 : a.period = 0 <;> by_cases h3 : a.blockSize = 0 <;> by_cases h4 : a.poolSize = 0 <;>
        by_cases h5 : f.family = .testDouble <;>
        simp [Fronts.run, create, theFactory, factoryCreate, askPlatform, Bind.bind, Cmd.bind, Cmd.gets, Cmd.modify, Pure.pure, Cmd.pure, hf, h1, h2, h3, h4, h5]

theorem front_register (plat : List Ev → Option Nat) (k : Kind) (f : Option Factory) (s : FSt) :
    Fronts.run plat [.register k f] s = { s with fac := fun j => if j = k then f else s.fac j } := by
  simp [Fronts.run, register, Cmd.modify]

theorem firstInit_append (p : Plat) : ∀ (a b : List Op), firstInit p (a ++ b) = (firstInit p a).or (firstInit p b)
  | [], b => by simp [firstInit]
  | .init q r :: a, b => by
    simp only [List.cons_append, firstInit]
    split
    · simp
    · exact firstInit_append p a b
  | .front _ :: a, b => by simp only [List.cons_append, firstInit]; exact firstInit_append p a b

theorem run_range (c : Conf) (plat : List Ev → Option Nat) (p : Plat) : ∀ (ops : List Op) (s : ISt),
    (run c plat ops s).range p = (s.range p).or ((firstInit p ops).map fun r => ctorRange c r p)
  | [], s => by simp [run, firstInit]
  | .init q r :: ops, s => by
    rw [run, run_range c plat p ops]
    have : (init c q r s).range p = if p = q then some ((s.range q).getD (ctorRange c r q)) else s.range p := by
      unfold init; simp only; split <;> simp [reg, constructOnce]
    rw [this]
    by_cases h : p = q
    · subst h; cases hr : s.range p <;> simp [firstInit]
    · rw [if_neg h]; simp [firstInit, Ne.symm h]
  | .front o :: ops, s => by
    rw [run, run_range c plat p ops]; simp [firstInit]

theorem run_thread (c : Conf) (plat : List Ev → Option Nat) : ∀ (ops : List Op) (s : ISt),
    (run c plat ops s).fr.fac .thread = ops.foldl (fun cur op => match op with
    | .init p _ => some (staticFac p .thread)
    | .front (.register .thread f) => f
    | _ => cur) (s.fr.fac .thread)
  | [], s => rfl
  | .init q r :: ops, s => by
    rw [run, run_thread c plat ops, List.foldl_cons]
    congr 1
    rw [C94_init_registers_partial]; simp
  | .front o :: ops, s => by
    rw [run, run_thread c plat ops, List.foldl_cons]
    congr 1
    cases o with
    | register k f => rw [front_register]; cases k <;> simp
    | create k a => rw [front_range plat _ _ (by simp)]
    | destroy k a => rw [front_range plat _ _ (by simp)]

/-- C94, the priority range after any history: when platform `p` was the last one initialised (or registered) for threads, the range is
the one of its FIRST init, whatever was passed to later ones. -/
theorem C94_range_partial (c : Conf) (plat : List Ev → Option Nat) (ops : List Op) (p : Plat) (r : Prio.Range)
    (hl : lastThread ops = some (staticFac p .thread)) (hf : firstInit p ops = some r) :
    getLowest (run c plat ops .init) = some (ctorRange c r p).lowest ∧ getHighest (run c plat ops .init) = some (ctorRange c r p).highest ∧
    getMin (run c plat ops .init) = some (min (ctorRange c r p).lowest (ctorRange c r p).highest) ∧
    getMax (run c plat ops .init) = some (max (ctorRange c r p).lowest (ctorRange c r p).highest) := by
  have hr : theRange (run c plat ops .init) = some (ctorRange c r p) := by
    have h1 : (run c plat ops .init).fr.fac .thread = some (staticFac p .thread) := by
      rw [run_thread]; exact hl
    have h2 : (run c plat ops .init).range p = some (ctorRange c r p) := by
      rw [run_range, hf]; simp [ISt.init]
    unfold theRange
    rw [h1]
    cases p <;> simp [staticFac, platNo, kindNo, famOf, h2]
  refine ⟨by simp [getLowest, hr], by simp [getHighest, hr], ?_, ?_⟩
  · simp only [getMin, hr, Option.map_some, Prio.minP]; congr 1; split <;> omega
  · simp only [getMax, hr, Option.map_some, Prio.maxP]; congr 1; split <;> omega

/-- One init of Posix or Windows, at any time after anything that did not initialise it before: the range is the given one. -/
theorem C94_range_first_partial (c : Conf) (plat : List Ev → Option Nat) (ops : List Op) (p : Plat) (lo hi : Int)
    (hp : p = .posix ∨ p = .windows) (hf : firstInit p ops = none) :
    getLowest (run c plat (ops ++ [.init p ⟨lo, hi⟩]) .init) = some lo ∧ getHighest (run c plat (ops ++ [.init p ⟨lo, hi⟩]) .init) = some hi := by
  have h := C94_range_partial c plat (ops ++ [.init p ⟨lo, hi⟩]) p ⟨lo, hi⟩ (by simp [lastThread, List.foldl_append])
    (by rw [firstInit_append, hf]; simp [firstInit])
  rcases hp with rfl | rfl <;> exact ⟨h.1, h.2.1⟩

/-- The platforms whose init takes no range: 0 everywhere for StdCpp and the test double, the kernel's constants for ITRON. -/
theorem C94_range_fixed (c : Conf) (plat : List Ev → Option Nat) (ops : List Op) (p : Plat) (r : Prio.Range)
    (hp : p = .stdcpp ∨ p = .testDouble ∨ p = .itron) :
    getLowest (run c plat (ops ++ [.init p r]) .init) = some (if p = .itron then c.tmax else 0) ∧
    getHighest (run c plat (ops ++ [.init p r]) .init) = some (if p = .itron then c.tmin else 0) := by
  obtain ⟨r', hf⟩ : ∃ r', firstInit p (ops ++ [.init p r]) = some r' := by
    rw [firstInit_append]; cases h : firstInit p ops <;> simp [firstInit]
  have h := C94_range_partial c plat (ops ++ [.init p r]) p r' (by simp [lastThread, List.foldl_append]) hf
  rcases hp with rfl | rfl | rfl <;> exact ⟨h.1, h.2.1⟩

/-- No two factories of the library are the same object: neither of two kinds nor of two platforms. -/
theorem C94_factories_distinct (p q : Plat) (k l : Kind) (h : staticFac p k = staticFac q l) : p = q ∧ k = l := by
  cases p <;> cases q <;> cases k <;> cases l <;> first | exact ⟨rfl, rfl⟩ | (exact absurd h (by decide))

/-- C94 is false for a second init: it is ignored. -/
theorem C94_second_init_ignored (c : Conf) (plat : List Ev → Option Nat) :
    getHighest (run c plat [.init .posix ⟨1, 9⟩, .init .posix ⟨1, 20⟩] .init) = some 9 := by
  have h := C94_range_partial c plat [.init .posix ⟨1, 9⟩, .init .posix ⟨1, 20⟩] .posix ⟨1, 9⟩ rfl rfl
  exact h.2.1

/-- The calls of a program that initialises only platform `p` and registers no factory itself. -/
def OnlyPlat (p : Plat) (ops : List Op) : Prop :=
  ∀ op ∈ ops, (∃ r, op = .init p r) ∨ (∃ k a, op = .front (.create k a)) ∨ (∃ k q, op = .front (.destroy k q))

theorem log_step (plat : List Ev → Option Nat) (op : Fronts.Op) (s : FSt) (h : ∀ k f, op ≠ .register k f) :
    ∀ e ∈ (Fronts.run plat [op] s).log, e ∈ s.log ∨
      (∃ f k a, s.fac k = some f ∧ e = .create f k a) ∨ (∃ f k q, s.fac k = some f ∧ e = .destroy f k q) := by
  cases op with
  | register k f => exact absurd rfl (h k f)
  | destroy k p =>
    intro e he
    cases hf : s.fac k <;> cases p <;> simp [Fronts.run, destroy, Bind.bind, Cmd.bind, Cmd.gets, Cmd.modify, Pure.pure, Cmd.pure, hf] at he
    · exact Or.inl he
    · exact Or.inl he
    · exact Or.inl he
    · rcases he with he | he
      · exact Or.inl he
      · exact Or.inr (Or.inr ⟨_, _, _, hf, he⟩)
  | create k a =>
    intro e he
    cases hf : s.fac k with
    | none => simp [Fronts.run, create, theFactory, Bind.bind, Cmd.bind, Cmd.gets, Cmd.throw, hf] at he; exact Or.inl he
    | some f =>
      have : e ∈ s.log ∨ e = .create f k a := by
        cases k <;> by_cases h1 : a.runnable = none <;> by_cases h2 : a.period = 0 <;> by_cases h3 : a.blockSize = 0 <;> by_cases h4 : a.poolSize = 0 <;>
          by_cases h5 : f.family = .testDouble <;>
          simp [Fronts.run, create, theFactory, factoryCreate, askPlatform, Bind.bind, Cmd.bind, Cmd.gets, Cmd.modify, Pure.pure, Cmd.pure, hf, h1, h2, h3, h4, h5] at he <;>
          first | exact Or.inl he | exact he
      rcases this with h | h
      · exact Or.inl h
      · exact Or.inr (Or.inl ⟨f, k, a, hf, h⟩)

/-- C94, matching factories: in a program that uses one platform only, initialised as often as it likes, every object of every kind is
created and destroyed through that platform's one factory of the kind; nothing is destroyed by a factory that did not create it. -/
theorem C94_one_platform (c : Conf) (plat : List Ev → Option Nat) (p : Plat) (ops : List Op) (h : OnlyPlat p ops) :
    ∀ e ∈ (run c plat ops .init).fr.log, (∃ k a, e = .create (staticFac p k) k a) ∨ (∃ k q, e = .destroy (staticFac p k) k q) := by
  have key : ∀ (ops : List Op) (s : ISt), OnlyPlat p ops →
      (∀ k f, s.fr.fac k = some f → f = staticFac p k) →
      (∀ e ∈ s.fr.log, (∃ k a, e = .create (staticFac p k) k a) ∨ (∃ k q, e = .destroy (staticFac p k) k q)) →
      ∀ e ∈ (run c plat ops s).fr.log, (∃ k a, e = .create (staticFac p k) k a) ∨ (∃ k q, e = .destroy (staticFac p k) k q) := by
    intro ops
    induction ops with
    | nil => intro s _ _ hl; exact hl
    | cons op ops ih =>
      intro s ho hf hl
      have ho' : OnlyPlat p ops := fun o hm => ho o (by simp [hm])
      have hfront : ∀ o : Fronts.Op, (∀ k f, o ≠ .register k f) → op = .front o →
          ∀ e ∈ (run c plat (op :: ops) s).fr.log, (∃ k a, e = .create (staticFac p k) k a) ∨ (∃ k q, e = .destroy (staticFac p k) k q) := by
        rintro o hr rfl
        refine ih _ ho' ?_ ?_
        · intro k f hk
          simp only [front_range plat _ _ hr] at hk
          exact hf k f hk
        · intro e he
          rcases log_step plat o _ hr e he with he | ⟨f, k, a, hk, rfl⟩ | ⟨f, k, q, hk, rfl⟩
          · exact hl e he
          · rw [hf k f hk]; exact Or.inl ⟨k, a, rfl⟩
          · rw [hf k f hk]; exact Or.inr ⟨k, q, rfl⟩
      rcases ho op (by simp) with ⟨r, rfl⟩ | ⟨k, a, rfl⟩ | ⟨k, q, rfl⟩
      · refine ih _ ho' ?_ ?_
        · intro k f hk
          rw [C94_init_registers_partial] at hk
          split at hk
          · next hc => rw [hc.2]; exact hf _ f hk
          · exact (Option.some.inj hk).symm
        · have : (init c p r s).fr.log = s.fr.log := by unfold init; simp only; split <;> simp [reg, constructOnce]
          rw [this]; exact hl
      · exact hfront _ (by simp) rfl
      · exact hfront _ (by simp) rfl
  exact key ops .init h (by simp [ISt.init, FSt.init]) (by simp [ISt.init, FSt.init])

/-- The proviso is needed: with two platforms, an object created by one is handed to the factory of the other. -/
theorem C94_two_platforms_mismatch (c : Conf) (plat : List Ev → Option Nat) (a : Args) (h : a.runnable ≠ none) :
    (run c plat [.init .stdcpp ⟨0, 0⟩, .front (.create .thread a), .init .itron ⟨0, 0⟩, .front (.destroy .thread (some 7))] .init).fr.log =
      [.create (staticFac .stdcpp .thread) .thread a, .destroy (staticFac .itron .thread) .thread 7] := by
  simp [run, init, reg, constructOnce, Fronts.run, create, destroy, theFactory, factoryCreate, askPlatform, staticFac, famOf, ISt.init, FSt.init,
    Bind.bind, Cmd.bind, Cmd.gets, Cmd.modify, Pure.pure, Cmd.pure, h]

-- the hypotheses are met by a non-trivial program
example : OnlyPlat .posix [.init .posix ⟨1, 9⟩, .front (.create .mutex ⟨none, 0, 0, 0⟩), .init .posix ⟨2, 3⟩, .front (.destroy .mutex (some 1))] := by
  intro op hm; simp at hm; rcases hm with rfl | rfl | rfl | rfl
  · exact Or.inl ⟨_, rfl⟩
  · exact Or.inr (Or.inl ⟨_, _, rfl⟩)
  · exact Or.inl ⟨_, rfl⟩
  · exact Or.inr (Or.inr ⟨_, _, rfl⟩)
example : lastThread [.init .posix ⟨1, 9⟩, .front (.create .mutex ⟨none, 0, 0, 0⟩)] = some (staticFac .posix .thread) := rfl

end Verif.Props.Init
