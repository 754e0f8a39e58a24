import Verif.Model.ThreadPool
/-
`ThreadPool` with a clock, under the assumption most favourable to the caller: the code of the pool takes no time when executed by a
client (the clock only advances when no client can take a step) and timeouts are honoured exactly by the event flag
(`m_ev->timedWait(.., tmout)`, TP:336, TP:298) and the thread (`t->timedWait(tmout)`, TP:194).  The pool's threads take as long
as they like: tasks are the user's.

The free-runner queue (`m_freeRunnerQueue->timedReceive(&runner, tmout)`, TP:188) is given by a factor `k`: with timeout `n` it blocks
for at least `n` before it gives up and for at most `k * n`.  `k = 1` is an ideal queue; for `MessageQueue` it is 2 (C54).
-/
namespace Verif.TP.Time
open Verif
open _root_.Verif.Mtx (Tid)
open _root_.Verif.EvF (Tmo)

/-- `since t`: when `t` began its current timed operation; `start t` (ghost): when `t` made its current call. -/
structure TSt where
  s : TP.St
  now : Nat
  since : Tid → Nat
  start : Tid → Nat

def tinit (n : Nat) (dflt : Int) : TSt := ⟨TP.init n dflt, 0, fun _ => 0, fun _ => 0⟩

/-- The timed operation a client is in: its timeout and the factor by which it may be exceeded.  TP:188, TP:194, TP:336. -/
def timed (k : Nat) : PC → Option (Tmo × Nat)
  | .on (.start _ tm _ _) .sRecv => some (tm, k)
  | .on (.start _ tm _ _) (.sWait _) => some (tm, 1)
  | .on (.wait _ tm) (.wWait _) => some (tm, 1)
  | _ => none

/-- The timed operation of `t` has lasted for its timeout. -/
def due (k : Nat) (x : TSt) (t : Tid) : Bool := match timed k (x.s.pc t) with
  | some (.ms n, _) => x.since t + n ≤ x.now
  | _ => false

/-- When the timed operation of `t` ends at the latest. -/
def deadline (k : Nat) (x : TSt) (t : Tid) : Option Nat := match timed k (x.s.pc t) with
  | some (.ms n, f) => some (x.since t + f * n)
  | _ => none

/-- The client that takes a step. -/
def actor : Act → Option Tid
  | .call t _ | .go t | .expire t => some t
  | .pgo _ | .throw _ => none

/-- A timed operation begins when a client gets there. -/
def sinceAfter (k : Nat) (x : TSt) (s' : TP.St) : Act → Tid → Nat
  | .call t _ | .go t | .expire t => if (timed k (s'.pc t)).isSome then upd x.since t x.now else x.since
  | .pgo _ | .throw _ => x.since

/-- The ghost: a call starts now. -/
def startAfter (x : TSt) : Act → Tid → Nat
  | .call t _ => upd x.start t x.now
  | _ => x.start

/-- A step of a client or pool thread: the clock stands still; a wait gives up when it is due.  The clock advances when no client can
go on and no deadline has come. -/
inductive TStep (k : Nat) : TSt → TSt → List Ev → Prop where
  | act {x a s' ev} (h : TP.step x.s a = some (s', ev)) (hd : ∀ t, a = .expire t → due k x t = true) :
      TStep k x ⟨s', x.now, sinceAfter k x s' a, startAfter x a⟩ ev
  | tick {x : TSt} (h : ∀ t, TP.step x.s (.go t) = none) (hd : ∀ t d, deadline k x t = some d → x.now < d) :
      TStep k x { x with now := x.now + 1 } []

inductive TReach (k n : Nat) (dflt : Int) : TSt → List Ev → Prop where
  | init : TReach k n dflt (tinit n dflt) []
  | step {x tr x' ev} : TReach k n dflt x tr → TStep k x x' ev → TReach k n dflt x' (tr ++ ev)

end Verif.TP.Time
