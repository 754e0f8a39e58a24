import Verif.Model.EventFlag
import Verif.Sem.Timed
/-
`StdCppEventFlag` (platform/StdCppOSWrapper/StdCppEventFlagFactory.cpp) with a clock: `m_cond.wait_for(lock, tmout, pred)`
(lines 90-97) computes its deadline when it is called, i.e. when m_mutex has been locked (line 79), and is equivalent to waiting until that
deadline in a loop, with a last evaluation of the predicate when the deadline has been reached.  Executing the code takes no time.
Sleepers may be woken spuriously at any time.
-/
namespace Verif.EvF.Time
open Verif EvF
open _root_.Verif.Mtx (Tid)

/-- Lines 90-97. -/
def arms {w : Nat} (s : Std.St w) : Act w → Option (Tid × Nat)
  | .go t => match s.pc t with
    | .lockW _ a => (match a.tm with | .ms n => some (t, n) | .forever => none)
    | _ => none
  | _ => none

def expires {w : Nat} : Act w → Option Tid
  | .timeout t => some t
  | _ => none

def waits {w : Nat} (s : Std.St w) (t : Tid) : Bool := match s.pc t with
  | .sleep _ a => decide (a.tm ≠ .forever)
  | _ => false

def clock (w : Nat) (auto : Bool) : Timed.Clock (Std.St w) (Act w) where
  expires := expires
  arms := arms
  waits := waits
  urgent := fun s => ∃ t s' ev, Std.step auto s (.go t) = some (s', ev)

/-- Timed executions of an event flag. -/
abbrev Exec (w : Nat) (auto : Bool) := Timed.TReach (clock w auto) (Std.step auto) (Std.init w)

end Verif.EvF.Time
