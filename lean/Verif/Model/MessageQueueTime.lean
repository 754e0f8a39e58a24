import Verif.Model.MessageQueue
/-
`MessageQueue<T>` with a clock, under the assumption most favourable to the caller: executing code takes no time (the clock only
advances when no thread can take a step) and timeouts are honoured exactly by the mutex and the event flag
(`m_mtxSend->timedLock(tmout)` MQ:126, `m_event->timedWait(.., tmout)` MQ:133, `m_mtxRecv->timedLock(tmout)` MQ:212,
`m_event->timedWait(.., tmout)` MQ:219: each is given the full `tmout`).
-/
namespace Verif.MQ.Time
open Verif
open _root_.Verif.Mtx (Tid Err)
open _root_.Verif.EvF (Tmo)
variable {V : Type}

/-- `since t`: when `t` began its current timed operation; `start t` (ghost): when `t` made its current call. -/
structure TSt (V : Type) where
  s : St V
  now : Nat
  since : Tid → Nat
  start : Tid → Nat

def tinit (V : Type) (cap : Nat) : TSt V := ⟨MQ.init V cap, 0, fun _ => 0, fun _ => 0⟩

/-- The timeout of the timed operation a thread is in. -/
def timed : PC V → Option Tmo
  | .sLock _ _ tm | .sWait _ _ tm | .rLock _ _ tm | .rWait _ _ tm => some tm
  | _ => none

/-- When the timed operation of `t` ends at the latest. -/
def deadline (x : TSt V) (t : Tid) : Option Nat :=
  match timed (x.s.pc t) with
  | some (.ms n) => some (x.since t + n)
  | _ => none

def actor : Act V → Tid
  | .call t _ | .go t | .expire t | .raise t _ | .throw t _ => t

/-- The ghost: a call starts now. -/
def startAfter (x : TSt V) : Act V → Tid → Nat
  | .call t _ => upd x.start t x.now
  | _ => x.start

/-- A step of a thread: the clock stands still, a timeout expires at its deadline, a new timed operation begins now. -/
inductive TStep : TSt V → TSt V → List (Ev V) → Prop where
  | act {x a s' ev} (h : MQ.step x.s a = some (s', ev)) (hd : ∀ t, a = .expire t → deadline x t = some x.now) :
      TStep x ⟨s', x.now, if (timed (s'.pc (actor a))).isSome then upd x.since (actor a) x.now else x.since,
        startAfter x a⟩ ev
  | tick {x : TSt V} (h : ∀ t, MQ.step x.s (.go t) = none) (hd : ∀ t d, deadline x t = some d → x.now < d) :
      TStep x { x with now := x.now + 1 } []

inductive TReach (cap : Nat) : TSt V → List (Ev V) → Prop where
  | init : TReach cap (tinit V cap) []
  | step {x tr x' ev} : TReach cap x tr → TStep x x' ev → TReach cap x' (tr ++ ev)

end Verif.MQ.Time
