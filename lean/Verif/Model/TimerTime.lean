import Verif.Model.Timer
/-
The timers with a clock: when wait_for may time out.
-/
namespace Verif.Tm
open Verif

/-- The timer, the time, and the moment until which the timer thread's wait_for waits (OS:55, PT:58). -/
structure TSt where
  s : St
  now : Nat
  till : Nat

inductive TAct where
  | tick                 -- a unit of time (a millisecond, say) passes
  | act (a : Act)
  deriving DecidableEq, Repr

def tinit (k : Kind) (period : Nat) : TSt := ⟨init k period, 0, 0⟩

/-- `std::condition_variable::wait_for(lock, milliseconds(m_timeInMillis), pred)` (OS:55-56, PT:58-59) returns false not before that
time has elapsed since its call; it may return later.  Events carry the time. -/
def tstep (d : Disc) (x : TSt) : TAct → Option (TSt × List (Nat × Ev))
  | .tick => some ({ x with now := x.now + 1 }, [])
  | .act a =>
    if a = .expire ∧ x.now < x.till then none
    else match step d x.s a with
      | none => none
      | some (s', ev) => some (⟨s', x.now, if Ev.arm ∈ ev then x.now + s'.time else x.till⟩, ev.map (fun e => (x.now, e)))

end Verif.Tm
