import Verif.Model.Fronts
/-
C73: the factory front-ends.
-/
namespace Verif.Props.Fronts
open Verif Verif.Fronts

/-! #### Specification -/

/-- The arguments are acceptable for this kind of object on this family of platforms. -/
def Valid (fam : Family) (a : Args) : Kind → Prop
  | .thread | .oneShotTimer => a.runnable ≠ none
  | .periodicTimer => a.runnable ≠ none ∧ a.period ≠ 0
  | .fixedPool => fam ≠ .testDouble → a.blockSize ≠ 0 ∧ a.poolSize ≠ 0
  | .variablePool => fam ≠ .testDouble → a.poolSize ≠ 0
  | .mutex | .eventFlag => True

instance (fam : Family) (a : Args) (k : Kind) : Decidable (Valid fam a k) := by cases k <;> unfold Valid <;> infer_instance

/-- The factory registered last for kind `k`. -/
def lastRegistered (ops : List Op) (k : Kind) : Option Factory :=
  match (ops.filterMap fun op => match op with | .register j f => if j = k then some f else none | _ => none).getLast? with
  | some f => f
  | none => none

/-- What a call should make the platform do, when `fac` is registered. -/
def reaches (fac : Kind → Option Factory) : Op → List Ev
  | .register _ _ => []
  | .create k a => match fac k with
    | some f => if Valid f.family a k then [.create f k a] else []
    | none => []
  | .destroy k p => match fac k, p with
    | some f, some p => [.destroy f k p]
    | _, _ => []

/-- What a whole history should make the platform do: each call as of the factories registered before it. -/
def expected (ops : List Op) : List Ev :=
  ((List.range ops.length).flatMap fun i => match ops[i]? with
    | some op => reaches (lastRegistered (ops.take i)) op
    | none => [])

/-! #### The property -/

/-- No factory registered: creating raises an assertion failure and changes nothing, whatever the arguments. -/
theorem C73_no_factory (plat : List Ev → Option Nat) (k : Kind) (a : Args) (s : FSt) (h : s.fac k = none) :
    create plat k a s = .exn .assertFail s := by
  simp [create, theFactory, Bind.bind, Cmd.bind, Cmd.gets, Cmd.throw, h]

theorem factoryCreate_eq (plat : List Ev → Option Nat) (f : Factory) (k : Kind) (a : Args) (s : FSt)
    (hk : k ≠ .thread ∧ k ≠ .oneShotTimer ∧ k ≠ .periodicTimer ∨ Valid f.family a k) :
    factoryCreate plat f k a s = if Valid f.family a k then .ok (plat s.log) { s with log := s.log ++ [.create f k a] } else .ok none s := by
  cases k <;> by_cases hf : f.family = .testDouble <;> by_cases h1 : a.blockSize = 0 <;> by_cases h2 : a.poolSize = 0 <;>
    simp_all [factoryCreate, askPlatform, Valid, Bind.bind, Cmd.bind, Cmd.gets, Cmd.modify, Pure.pure, Cmd.pure]

/-- With a factory: bad arguments give null and the platform is not called; otherwise the platform is called exactly once, with these
arguments, through the registered factory, and create returns its answer. -/
theorem C73_create (plat : List Ev → Option Nat) (k : Kind) (a : Args) (s : FSt) (f : Factory) (h : s.fac k = some f) :
    create plat k a s = if Valid f.family a k then .ok (plat s.log) { s with log := s.log ++ [.create f k a] } else .ok none s := by
  have hb : ∀ (g : Factory → Prog (Option Nat)), (theFactory k >>= g) s = g f s := by
    intro g; simp [theFactory, Bind.bind, Cmd.bind, Cmd.gets, Pure.pure, Cmd.pure, h]
  unfold create
  rw [hb]
  cases k
  case thread =>
    simp only
    split
    · next hn => simp [Valid, hn, Pure.pure, Cmd.pure]
    · next hn => exact factoryCreate_eq _ _ _ _ _ (Or.inr hn)
  case oneShotTimer =>
    simp only
    split
    · next hn => simp [Valid, hn, Pure.pure, Cmd.pure]
    · next hn => exact factoryCreate_eq _ _ _ _ _ (Or.inr hn)
  case periodicTimer =>
    simp only
    split
    · next hn => simp [Valid, hn, Pure.pure, Cmd.pure]
    · next hn =>
      split
      · next hp => simp [Valid, hp, Pure.pure, Cmd.pure]
      · next hp => exact factoryCreate_eq _ _ _ _ _ (Or.inr ⟨hn, hp⟩)
  all_goals exact factoryCreate_eq _ _ _ _ _ (Or.inl (by simp))

/-- A null runnable, a zero period and (on the real platforms) zero sizes give null without a call of the platform. -/
theorem C73_rejects (plat : List Ev → Option Nat) (k : Kind) (a : Args) (s : FSt) (f : Factory) (h : s.fac k = some f)
    (hbad : (k = .thread ∨ k = .oneShotTimer ∨ k = .periodicTimer) ∧ a.runnable = none ∨ k = .periodicTimer ∧ a.period = 0 ∨
      f.family ≠ .testDouble ∧ (k = .fixedPool ∧ (a.blockSize = 0 ∨ a.poolSize = 0) ∨ k = .variablePool ∧ a.poolSize = 0)) :
    create plat k a s = .ok none s := by
  rw [C73_create plat k a s f h, if_neg]
  intro hv
  rcases hbad with ⟨rfl | rfl | rfl, hr⟩ | ⟨rfl, hr⟩ | ⟨hf, ⟨rfl, hr⟩ | ⟨rfl, hr⟩⟩ <;> simp_all [Valid] <;> omega

/-- Destroying a null pointer, or with no factory registered, does nothing. -/
theorem C73_destroy_nothing (k : Kind) (p : Option Nat) (s : FSt) (h : p = none ∨ s.fac k = none) : destroy k p s = .ok () s := by
  rcases h with rfl | h
  · cases hf : s.fac k <;> simp [destroy, Bind.bind, Cmd.bind, Cmd.gets, Pure.pure, Cmd.pure, hf]
  · simp [destroy, Bind.bind, Cmd.bind, Cmd.gets, Pure.pure, Cmd.pure, h]

/-- Destroying an object passes it to the registered factory, once. -/
theorem C73_destroy (k : Kind) (p : Nat) (s : FSt) (f : Factory) (h : s.fac k = some f) :
    destroy k (some p) s = .ok () { s with log := s.log ++ [.destroy f k p] } := by
  simp [destroy, Bind.bind, Cmd.bind, Cmd.gets, Cmd.modify, h]

theorem lastRegistered_snoc (ops : List Op) (op : Op) (k : Kind) : lastRegistered (ops ++ [op]) k =
    match op with
    | .register j f => if j = k then f else lastRegistered ops k
    | _ => lastRegistered ops k := by
  cases op with
  | register j f =>
    by_cases hj : j = k <;> simp [lastRegistered, List.filterMap_append, hj]
  | create k' a => simp [lastRegistered, List.filterMap_append]
  | destroy k' p => simp [lastRegistered, List.filterMap_append]

theorem expected_snoc (ops : List Op) (op : Op) : expected (ops ++ [op]) = expected ops ++ reaches (lastRegistered ops) op := by
  unfold expected
  rw [List.length_append, List.length_singleton, List.range_succ, List.flatMap_append]
  congr 1
  · have : ∀ (l : List Nat) (f g : Nat → List Ev), (∀ x ∈ l, f x = g x) → l.flatMap f = l.flatMap g := by
      intro l f g h; induction l with
      | nil => rfl
      | cons a l ih => simp only [List.flatMap_cons]; rw [h a (by simp), ih (fun x hx => h x (by simp [hx]))]
    apply this
    intro i hi
    have hi : i < ops.length := by simpa using hi
    rw [List.getElem?_append_left hi, List.take_append_of_le_length (by omega)]
  · simp

theorem run_snoc (plat : List Ev → Option Nat) (op : Op) : ∀ (ops : List Op) (s : FSt), run plat (ops ++ [op]) s = run plat [op] (run plat ops s)
  | [], s => rfl
  | o :: ops, s => by
    simp only [List.cons_append, run]
    exact run_snoc plat op ops _

/-- Over every history of registrations, creations and destructions (whatever the platform answers): the platform sees exactly the calls the
specification says, in order, each with the factory that was registered last before it. -/
theorem C73_history (plat : List Ev → Option Nat) (ops : List Op) :
    (run plat ops .init).log = expected ops ∧ ∀ k, (run plat ops .init).fac k = lastRegistered ops k := by
  have key : ∀ n (ops : List Op), ops.length = n → (run plat ops .init).log = expected ops ∧ ∀ k, (run plat ops .init).fac k = lastRegistered ops k := by
    intro n
    induction n with
    | zero =>
      intro ops h
      have : ops = [] := List.length_eq_zero_iff.mp h
      subst this
      exact ⟨rfl, fun _ => rfl⟩
    | succ n ih =>
      intro ops h
      rcases List.eq_nil_or_concat ops with rfl | ⟨l, op, rfl⟩
      · simp at h
      · rw [List.concat_eq_append] at h ⊢
        obtain ⟨h1, h2⟩ := ih l (by simpa using h)
        rw [run_snoc, expected_snoc]
        generalize hs : run plat l .init = s at h1 h2
        have hf : s.fac = lastRegistered l := funext h2
        simp only [lastRegistered_snoc, run]
        cases op with
        | register k f =>
          simp only [register, Cmd.modify, reaches, List.append_nil]
          refine ⟨h1, fun j => ?_⟩
          by_cases hj : j = k
          · subst hj; simp
          · have : ¬ k = j := fun e => hj e.symm
            simp [hj, this, h2]
        | create k a =>
          simp only [reaches]
          cases hk : lastRegistered l k with
          | none =>
            rw [C73_no_factory plat k a s (by rw [h2, hk])]
            simp [h1, h2]
          | some f =>
            rw [C73_create plat k a s f (by rw [h2, hk])]
            by_cases hv : Valid f.family a k <;> simp [hv, h1, h2]
        | destroy k p =>
          simp only [reaches]
          cases p with
          | none =>
            rw [C73_destroy_nothing k none s (Or.inl rfl)]
            refine ⟨?_, h2⟩
            cases lastRegistered l k <;> simp [h1]
          | some p =>
            cases hk : lastRegistered l k with
            | none =>
              rw [C73_destroy_nothing k (some p) s (Or.inr (by rw [h2, hk]))]
              simp [h1, h2]
            | some f =>
              rw [C73_destroy k p s f (by rw [h2, hk])]
              simp [h1, h2]
  exact key _ ops rfl

/-! #### Witnesses -/

def std : Factory := ⟨1, .stdcpp⟩

example : (FSt.init.fac .thread = none) := rfl
example : ∃ s, s.fac .periodicTimer = some std ∧ create (fun _ => some 4) .periodicTimer ⟨some 1, 0, 0, 0⟩ s = .ok none s :=
  ⟨⟨fun _ => some std, []⟩, rfl, C73_rejects _ _ _ _ std rfl (Or.inr (Or.inl ⟨rfl, rfl⟩))⟩
/-- Only the second creation (valid, after the registration) and the destruction of its result reach the platform. -/
example : (run (fun _ => some 4) [.create .thread ⟨some 1, 0, 0, 0⟩, .register .thread (some std), .create .thread ⟨none, 0, 0, 0⟩,
    .create .thread ⟨some 1, 0, 0, 0⟩, .destroy .thread none, .destroy .thread (some 4), .register .thread none, .destroy .thread (some 4)] .init).log
    = [.create std .thread ⟨some 1, 0, 0, 0⟩, .destroy std .thread 4] := by decide

end Verif.Props.Fronts
