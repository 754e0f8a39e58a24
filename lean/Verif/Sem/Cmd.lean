/-
Outcome monad and Hoare-style reasoning.  Nothing in this file is about cppelib:
it fixes what "a run of a piece of C++ code" is in the container models.
-/
namespace Verif

/-- C++ exceptions the modelled container code can let escape. -/
inductive Exn where
  | badAlloc      -- Container::BadAlloc
  | outOfRange    -- Container::OutOfRange
  | assertFail    -- Assertion::Failure raised by DEBUG_ASSERT / CHECK_ASSERT
  | elemThrow     -- exception thrown by the element type's own copy / default construction / assignment
  deriving DecidableEq, Repr

/-- Kinds of undefined behaviour the models detect. -/
inductive Fault where
  | outOfBounds | deadRead | deadAssign | deadDestroy | liveConstruct | nullDeref | badShift
  deriving DecidableEq, Repr

/-- Result of running a command from a state. -/
inductive Out (σ : Type) (α : Type) where
  | ok (a : α) (s : σ)
  | exn (e : Exn) (s : σ)
  | ub (f : Fault)
  | diverge
  deriving DecidableEq, Repr

/-- A command: deterministic, given the environment's oracles. -/
def Cmd (σ : Type) (α : Type) : Type := σ → Out σ α

namespace Cmd
variable {σ α β : Type}

@[inline] protected def pure (a : α) : Cmd σ α := fun s => .ok a s

@[inline] protected def bind (m : Cmd σ α) (f : α → Cmd σ β) : Cmd σ β := fun s =>
  match m s with
  | .ok a s' => f a s'
  | .exn e s' => .exn e s'
  | .ub x => .ub x
  | .diverge => .diverge

instance : Monad (Cmd σ) where
  pure := Cmd.pure
  bind := Cmd.bind

/-- Read something off the current state. -/
def gets (f : σ → α) : Cmd σ α := fun s => .ok (f s) s
/-- Overwrite a part of the state. -/
def modify (f : σ → σ) : Cmd σ Unit := fun s => .ok () (f s)
/-- `throw e`. -/
def throw (e : Exn) : Cmd σ α := fun s => .exn e s
/-- Undefined behaviour. -/
def fault (f : Fault) : Cmd σ α := fun _ => .ub f

/-- `while (cond) body`, where the loop variables are threaded through `body`.
Running out of fuel is the separate outcome `diverge`. -/
def loop (cond : β → σ → Bool) (body : β → Cmd σ β) : Nat → β → Cmd σ β
  | 0, _ => fun _ => .diverge
  | n+1, x => fun s => if cond x s then (body x >>= loop cond body n) s else .ok x s

/-- Total-correctness weakest precondition: `Q` after normal return, `X` after an exception;
undefined behaviour and divergence are never acceptable. -/
def wp (m : Cmd σ α) (Q : α → σ → Prop) (X : Exn → σ → Prop) (s : σ) : Prop :=
  match m s with
  | .ok a s' => Q a s'
  | .exn e s' => X e s'
  | .ub _ => False
  | .diverge => False

variable {Q : α → σ → Prop} {X : Exn → σ → Prop} {s : σ}

@[simp] theorem wp_pure (a : α) : wp (Pure.pure a : Cmd σ α) Q X s ↔ Q a s := Iff.rfl
@[simp] theorem wp_gets (f : σ → α) : wp (gets f) Q X s ↔ Q (f s) s := Iff.rfl
@[simp] theorem wp_modify (f : σ → σ) {Q : Unit → σ → Prop} : wp (modify f) Q X s ↔ Q () (f s) := Iff.rfl
@[simp] theorem wp_throw (e : Exn) : wp (throw e : Cmd σ α) Q X s ↔ X e s := Iff.rfl
@[simp] theorem wp_fault (f : Fault) : wp (fault f : Cmd σ α) Q X s ↔ False := Iff.rfl

@[simp] theorem wp_bind (m : Cmd σ β) (f : β → Cmd σ α) :
    wp (m >>= f) Q X s ↔ wp m (fun b s' => wp (f b) Q X s') X s := by
  show wp (Cmd.bind m f) Q X s ↔ _
  unfold wp Cmd.bind
  cases m s <;> simp

@[simp] theorem wp_ite (c : Prop) [Decidable c] (m n : Cmd σ α) :
    wp (if c then m else n) Q X s ↔ (c → wp m Q X s) ∧ (¬ c → wp n Q X s) := by
  split <;> simp_all

theorem wp_mono {m : Cmd σ α} {Q' : α → σ → Prop} {X' : Exn → σ → Prop}
    (h : wp m Q X s) (hQ : ∀ a s', Q a s' → Q' a s') (hX : ∀ e s', X e s' → X' e s') :
    wp m Q' X' s := by
  unfold wp at *
  cases hm : m s <;> simp_all

/-- Induction rule for a loop known to make exactly `N` iterations. -/
theorem wp_loop {cond : β → σ → Bool} {body : β → Cmd σ β} {fuel : Nat} {x : β}
    {Q : β → σ → Prop} (N : Nat) (Inv : Nat → β → σ → Prop) (hfuel : N < fuel)
    (hinit : Inv 0 x s)
    (hstep : ∀ k x s, k < N → Inv k x s →
      cond x s = true ∧ wp (body x) (fun x' s' => Inv (k+1) x' s') X s)
    (hend : ∀ x s, Inv N x s → cond x s = false ∧ Q x s) :
    wp (loop cond body fuel x) Q X s := by
  have key : ∀ fuel k x s, k ≤ N → N - k < fuel → Inv k x s → wp (loop cond body fuel x) Q X s := by
    intro fuel
    induction fuel with
    | zero => intro k x s _ h; omega
    | succ f ih =>
      intro k x s hk hf hI
      by_cases hkN : k < N
      · obtain ⟨hc, hb⟩ := hstep k x s hkN hI
        have : wp (body x >>= loop cond body f) Q X s := by
          rw [wp_bind]
          exact wp_mono hb (fun a s' h => ih (k+1) a s' (by omega) (by omega) h) (fun _ _ h => h)
        simpa [wp, loop, hc] using this
      · have : k = N := by omega
        subst this
        obtain ⟨hc, hq⟩ := hend x s hI
        simpa [wp, loop, hc] using hq
  exact key fuel 0 x s (by omega) (by omega) hinit

/-- From a `wp` to the two possible concrete outcomes. -/
theorem wp_cases {m : Cmd σ α} (h : wp m Q X s) :
    (∃ a s', m s = .ok a s' ∧ Q a s') ∨ (∃ e s', m s = .exn e s' ∧ X e s') := by
  unfold wp at h
  cases hm : m s with
  | ok a s' => rw [hm] at h; exact Or.inl ⟨a, s', rfl, h⟩
  | exn e s' => rw [hm] at h; exact Or.inr ⟨e, s', rfl, h⟩
  | ub f => rw [hm] at h; exact h.elim
  | diverge => rw [hm] at h; exact h.elim

end Cmd

/-- `for (; it != stop; it = next it) body it` for an iterator that does not depend on the state. -/
def forIter {σ ι : Type} [BEq ι] (fuel : Nat) (start stop : ι) (next : ι → ι) (body : ι → Cmd σ Unit) :
    Cmd σ Unit := do
  let _ ← Cmd.loop (fun it (_ : σ) => it != stop) (fun it => do body it; pure (next it)) fuel start
  pure ()

/-- `for (size_type i = 0U; i < n; ++i) body i` (`i < n` keeps `++i` from wrapping). -/
def forN {σ : Type} (fuel : Nat) (n : Nat) (body : Nat → Cmd σ Unit) : Cmd σ Unit := do
  let _ ← Cmd.loop (fun i (_ : σ) => decide (i < n)) (fun i => do body i; pure (i+1)) fuel 0
  pure ()

namespace Cmd
variable {σ : Type} {X : Exn → σ → Prop} {s : σ}

theorem wp_forIter {ι : Type} [BEq ι] [LawfulBEq ι] {fuel : Nat} {start stop : ι} {next : ι → ι}
    {body : ι → Cmd σ Unit} {Q : Unit → σ → Prop}
    (N : Nat) (p : Nat → ι) (Inv : Nat → σ → Prop) (hfuel : N < fuel)
    (h0 : p 0 = start) (hN : p N = stop) (hne : ∀ k, k < N → p k ≠ stop)
    (hnext : ∀ k, k < N → next (p k) = p (k+1))
    (hinit : Inv 0 s)
    (hstep : ∀ k s, k < N → Inv k s → wp (body (p k)) (fun _ s' => Inv (k+1) s') X s)
    (hend : ∀ s, Inv N s → Q () s) :
    wp (forIter fuel start stop next body) Q X s := by
  unfold forIter
  rw [wp_bind]
  refine wp_loop N (fun k x s => x = p k ∧ Inv k s) hfuel ⟨h0.symm, hinit⟩ ?_ ?_
  · rintro k x s hk ⟨rfl, hI⟩
    refine ⟨by simpa using hne k hk, ?_⟩
    rw [wp_bind]
    exact wp_mono (hstep k s hk hI) (fun _ s' h => by simp [hnext k hk, h]) (fun _ _ h => h)
  · rintro x s ⟨rfl, hI⟩
    exact ⟨by simp [hN], hend s hI⟩

theorem wp_forN {fuel n : Nat} {body : Nat → Cmd σ Unit} {Q : Unit → σ → Prop}
    (Inv : Nat → σ → Prop) (hfuel : n < fuel)
    (hinit : Inv 0 s)
    (hstep : ∀ k s, k < n → Inv k s → wp (body k) (fun _ s' => Inv (k+1) s') X s)
    (hend : ∀ s, Inv n s → Q () s) :
    wp (forN fuel n body) Q X s := by
  unfold forN
  rw [wp_bind]
  refine wp_loop n (fun k x s => x = k ∧ Inv k s) hfuel ⟨rfl, hinit⟩ ?_ ?_
  · rintro k x s hk ⟨rfl, hI⟩
    refine ⟨by simpa using hk, ?_⟩
    rw [wp_bind]
    exact wp_mono (hstep x s hk hI) (fun _ s' h => by simp [h]) (fun _ _ h => h)
  · rintro x s ⟨rfl, hI⟩
    exact ⟨by simp, hend s hI⟩

end Cmd
end Verif
