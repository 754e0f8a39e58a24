/-
Specification of a factory of objects that are named by their addresses, in terms of the calls made and their results only.
-/
namespace Verif.Fac

/-- Why create returned null. -/
inductive Why where
  | noPool      -- the factory has no memory at all
  | full        -- no block of memory was free
  | kernel      -- the kernel could not make the object
  deriving DecidableEq, Repr

inductive TOp where
  | start | stop | isStarted (b : Bool)
  deriving DecidableEq, Repr

/-- What can be observed; `t` is the caller. -/
inductive Ev where
  | created (t : Nat) (p : Nat)          -- create returned the object `p`
  | null (t : Nat) (w : Why)             -- create returned null
  | destroy (t : Nat) (p : Nat)          -- destroy is called
  | destroyed (t : Nat) (p : Nat)        -- destroy has given the memory back
  | op (p : Nat) (o : TOp)               -- a call on the timer `p`
  | callback (p : Nat)                   -- the Runnable of the timer `p` is run
  | uaf (p : Nat)                        -- the callback of an object that does not exist
  deriving DecidableEq, Repr

/-- One more event. -/
def liveStep (l : List Nat) : Ev → List Nat
  | .created _ p => p :: l
  | .destroyed _ p => l.filter (· ≠ p)
  | _ => l
/-- The objects that exist after a history. -/
def live (tr : List Ev) : List Nat := tr.foldl liveStep []

/-- One more event. -/
def activeStep (p : Nat) (b : Bool) : Ev → Bool
  | .created _ q => if q = p then false else b
  | .op q .start => if q = p then true else b
  | .op q .stop => if q = p then false else b
  | _ => b
/-- Has the timer `p` been started, and not been stopped since? -/
def activeAfter (p : Nat) (tr : List Ev) : Bool := tr.foldl (activeStep p) false

end Verif.Fac
