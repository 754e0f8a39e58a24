import Verif.Model.Thread
import Verif.Sem.Timed
/-
`StdCppThread` (platform/StdCppOSWrapper/StdCppThreadFactory.cpp, "TF") with a clock: `m_condFinished.wait_for(lock, tmout, pred)` (TF:90)
computes its deadline when it is called, i.e. when m_mutex has been locked (TF:85), and is equivalent to waiting until that deadline in a
loop, with a last evaluation of the predicate when the deadline has been reached.  Executing the code of the library takes no time; the
Runnable takes as long as it likes.
-/
namespace Verif.Thr.Time
open Verif Thr
open _root_.Verif.Mtx (Tid)

/-- TF:88-93. -/
def arms (s : St) : Act → Option (Tid × Nat)
  | .go t => match s.pc t with
    | .tLock _ tm => (match tm with | .ms n => some (t, n) | .forever => none)
    | _ => none
  | _ => none

def expires : Act → Option Tid
  | .expire t => some t
  | _ => none

def waits (s : St) (t : Tid) : Bool := match s.pc t with
  | .tSleep _ tm => decide (tm ≠ .forever)
  | _ => false

/-- Everything but the Runnable itself (TF:23, `threadMain`) is done at once. -/
def clock : Timed.Clock St Act where
  expires := expires
  arms := arms
  waits := waits
  urgent := fun s => (∃ t s' ev, step false s (.go t) = some (s', ev)) ∨ (s.w ≠ .running ∧ ∃ s' ev, step false s .wgo = some (s', ev))

/-- Timed executions of a thread object. -/
abbrev Exec := Timed.TReach clock (step false) init

end Verif.Thr.Time
