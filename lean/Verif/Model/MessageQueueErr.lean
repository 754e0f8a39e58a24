import Verif.Model.MessageQueue
/-
`MessageQueue<T>` (mechanism/OSWrapper/MessageQueue.h, "MQ") on an event flag whose `set` and `reset` may fail: the queue ignores
what they return (MQ:370, 380, 389, 396).  On ITRON they return OtherError when set_flg or clr_flg does
(platform/ItronOSWrapper/ItronEventFlagFactory.cpp:127-135, 150-158); a failed one changes nothing.  Everything else is `MQ.step`,
including locks and waits that report errors (`raise`).
-/
namespace Verif.MQ.Bad
open Verif
open _root_.Verif.Mtx (Tid Err)
open _root_.Verif.EvF (Tmo)
variable {V : Type}

/-- The two bits: EV_NOT_EMPTY, EV_NOT_FULL (MQ:404-408). -/
inductive Bit where
  | notEmpty | notFull
  deriving DecidableEq, Repr

/-- Events of the queue; the event flag was asked to set a bit (and did, or failed); it failed to reset a bit. -/
inductive Ev (V : Type) where
  | q (e : MQ.Ev V)
  | signal (t : Tid) (b : Bit) (ok : Bool)
  | resetFailed (t : Tid) (b : Bit)
  deriving DecidableEq, Repr

inductive Act (V : Type) where
  | q (a : MQ.Act V)
  | setFails (t : Tid)        -- `m_event->set(..)` of `t` fails
  | resetFails (t : Tid)      -- `m_event->reset(..)` of `t` fails
  deriving DecidableEq, Repr

/-- The signal given by an undisturbed step (MQ:389, 396). -/
def signals (s : St V) : MQ.Act V → List (Ev V)
  | .go t => match s.pc t with
    | .sSet _ => [.signal t .notEmpty true]
    | .rSet _ _ => [.signal t .notFull true]
    | _ => []
  | _ => []

/-- One step. -/
def step (s : St V) : Act V → Option (St V × List (Ev V))
  | .q a => (MQ.step s a).map fun x => (x.1, x.2.map .q ++ signals s a)
  | .setFails t => if s.ub then none else
    match s.pc t with
    | .sSet c => some (s.at t (.sPushUnl c (.done .OK none)), [.signal t .notEmpty false])
    | .rSet c got => some (s.at t (.rPopUnl c (.done .OK got)), [.signal t .notFull false])
    | _ => none
  | .resetFails t => if s.ub then none else
    match s.pc t with
    | .sReset c v tm => some (s.at t (.sChkUnl c v tm true), [.resetFailed t .notFull])
    | .rReset c out tm => some (s.at t (.rChkUnl c out tm true), [.resetFailed t .notEmpty])
    | _ => none

end Verif.MQ.Bad
