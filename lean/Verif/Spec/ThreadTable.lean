/-
Specification of "which thread object am I running on", in terms of the calls made and their results only.
-/
namespace Verif.TTab

/-- Who makes a call. -/
inductive Who where
  | isr                 -- an interrupt handler: no task
  | other               -- a task that the thread factory did not create
  | run (o : Nat)       -- code run by the thread object `o` (its Runnable)
  deriving DecidableEq, Repr

/-- A call with its result; thread objects are named by their addresses. -/
inductive Call where
  | create (r : Option Nat)                  -- Thread::create: the object, or null
  | destroy (o : Nat)                        -- Thread::destroy
  | begins (o : Nat)                         -- the thread object's run begins
  | ends (o : Nat)                           -- the run is over
  | current (w : Who) (r : Option Nat)       -- Thread::getCurrentThread called by `w`
  deriving DecidableEq, Repr

/-- The thread objects that exist after a history. -/
def live (tr : List Call) : List Nat := tr.foldl (fun l e => match e with
  | .create (some o) => o :: l
  | .destroy o => l.filter (· ≠ o)
  | _ => l) []

/-- The thread objects whose run is in progress after a history. -/
def running (tr : List Call) : List Nat := tr.foldl (fun l e => match e with
  | .begins o => o :: l
  | .ends o => l.filter (· ≠ o)
  | _ => l) []

end Verif.TTab
