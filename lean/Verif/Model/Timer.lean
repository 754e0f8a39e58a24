import Verif.Model.EventFlag
/-
Model of `StdCppOneShotTimer` (platform/StdCppOSWrapper/StdCppOneShotTimerFactory.cpp, "OS") and `StdCppPeriodicTimer`
(platform/StdCppOSWrapper/StdCppPeriodicTimerFactory.cpp, "PT"): one timer, its timer thread and any number of clients; the callback
itself may also call the timer's methods (client `self`).

Simplification: m_isActive, m_started, m_stopped, m_endThreadRequested and m_timeInMillis are accessed only with m_mutex held, so each
critical section (from acquiring the mutex to releasing it or to going to sleep on a condition variable) is one step.  The condition
variables are modelled by their contract: notify_all wakes all sleepers, who then have to test their predicate again in a critical
section of their own; spurious wake-ups are possible; wait_for may end any time (when it may end is the subject of
`Verif/Model/TimerTime.lean`).  The timer thread's own `wait` and destruction (OS:103, 32) are C56 and C57.
-/
namespace Verif.Tm
open Verif
open _root_.Verif.Mtx (Tid)

inductive Kind where
  | oneShot | periodic
  deriving DecidableEq, Repr

/-- OS:106-135, PT:104-132, and the factories' destroy (OS:174-180, PT:176-182).  A periodic timer's start has no argument; `tm` is then not used. -/
inductive Call where
  | start (tm : Nat) | stop | isStarted | destroy
  deriving DecidableEq, Repr

/-- What a call did: start and stop took effect or were ignored; isStarted returned a bool; destroy returned. -/
inductive Out where
  | started | stopped | ignored | active (b : Bool) | destroyed
  deriving DecidableEq, Repr

inductive Ev where
  | call (t : Tid) (c : Call)
  | lin (t : Tid) (c : Call) (o : Out)      -- the moment the call takes effect (not observable)
  | ret (t : Tid) (c : Call) (o : Out)
  | arm                                     -- the timer thread begins to wait for the time
  | due                                     -- the time is up and the timer is active: a callback is going to be made
  | cbBegin | cbEnd                         -- Runnable::run is entered / left
  | fin                                     -- one-shot: the timer becomes inactive after its callback
  | ack                                     -- the timer thread has noticed that the timer was stopped
  | quit                                    -- the timer thread ends
  deriving DecidableEq, Repr

inductive Act where
  | call (t : Tid) (c : Call)
  | go (t : Tid)
  | spur (t : Tid)                          -- a sleeping client wakes up without notification
  | wgo                                     -- the timer thread
  | expire                                  -- its wait_for times out
  | wspur                                   -- it wakes up without notification
  deriving DecidableEq, Repr

inductive PC where
  | idle
  | sEnter (tm : Nat) | sWait (tm : Nat) | sRetest (tm : Nat)    -- start: called; asleep on m_condStopped; to test m_stopped again
  | pEnter | pWait | pRetest                                     -- stop: called; asleep on m_condStarted; to test m_started again
  | iEnter
  | dEnter | dJoin                                               -- destroy: called; in m_thread->wait()
  | ret (c : Call) (o : Out)
  deriving DecidableEq, Repr

inductive WPC where
  | w0            -- to test m_isActive || m_endThreadRequested (OS:47-48, PT:47-48)
  | w0s           -- asleep in that wait
  | toArm         -- periodic: to enter wait_for (PT:57)
  | armed         -- asleep in wait_for (OS:55, PT:58)
  | chk           -- woken there, to test the predicate
  | late          -- timed out there, to test the predicate for the last time
  | due           -- to call timerMain (OS:65, PT:68)
  | running       -- in it
  | post          -- one-shot: to do OS:66-71
  | dead          -- the thread function has returned
  deriving DecidableEq, Repr

structure St where
  kind : Kind
  active : Bool      -- m_isActive
  started : Bool     -- m_started
  stopped : Bool     -- m_stopped
  endReq : Bool      -- m_endThreadRequested
  time : Nat         -- m_timeInMillis / m_periodInMillis
  w : WPC
  pc : Tid → PC
  inside : List Tid        -- ghost: the clients inside a call
  dying : Option Tid       -- ghost: who has called destroy
  gone : Bool              -- ghost: the object is deleted

/-- OS:76-94, PT:74-92 (the timer thread has been started). -/
def init (k : Kind) (period : Nat) : St := ⟨k, false, false, true, false, period, .w0, fun _ => .idle, [], none, false⟩

/-- The thread id of the callback's own calls. -/
def self : Tid := 0

def St.at (s : St) (t : Tid) (p : PC) : St := { s with pc := upd s.pc t p }

/-- m_condStarted.notify_all(). -/
def wakeP (pc : Tid → PC) : Tid → PC := fun t => match pc t with
  | .pWait => .pRetest
  | p => p
/-- m_condStopped.notify_all(). -/
def wakeS (pc : Tid → PC) : Tid → PC := fun t => match pc t with
  | .sWait tm => .sRetest tm
  | p => p
/-- m_condActive.notify_all(). -/
def wakeW : WPC → WPC
  | .w0s => .w0
  | .armed => .chk
  | w => w

def entry : Call → PC
  | .start tm => .sEnter tm
  | .stop => .pEnter
  | .isStarted => .iEnter
  | .destroy => .dEnter

/-- The rest of start once m_stopped is seen true: OS:113-116, PT:111-113. -/
def doStart (s : St) (t : Tid) (tm : Nat) : St × List Ev :=
  ({ s.at t (.ret (.start tm) .started) with
      time := match s.kind with | .oneShot => tm | .periodic => s.time
      stopped := false, active := true, w := wakeW s.w }, [.lin t (.start tm) .started])

/-- The rest of stop once m_started is seen true: OS:126-128, PT:123-125. -/
def doStop (s : St) (t : Tid) : St × List Ev :=
  ({ s.at t (.ret .stop .stopped) with started := false, active := false, w := wakeW s.w }, [.lin t .stop .stopped])

/-- wait_for returned true: OS:57-62, PT:60-65. -/
def ackStep (s : St) : St × List Ev :=
  ({ s with stopped := true, pc := wakeS s.pc, w := if s.endReq then .dead else .w0 }, [if s.endReq then .quit else .ack])

/-- The client is inside a call of the same method (start or stop). -/
def sameKind : Call → PC → Bool
  | .start _, .sEnter _ | .start _, .sWait _ | .start _, .sRetest _ | .start _, .ret (.start _) _ => true
  | .stop, .pEnter | .stop, .pWait | .stop, .pRetest | .stop, .ret .stop _ => true
  | _, _ => false

/-- How the clients behave.  `excl`: a start() does not overlap with another start(), nor a stop() with another stop().
`selfCalls`: the callback calls the timer's methods.
In any case destroy overlaps with no other call, nothing is called after it, and the callback does not destroy its own timer. -/
structure Disc where
  excl : Bool
  selfCalls : Bool

def step (d : Disc) (s : St) : Act → Option (St × List Ev)
  | .call t c =>
    if s.pc t = .idle ∧ s.gone = false ∧ s.dying = none ∧ (c = .destroy → s.inside = []) ∧ (d.excl = true → ∀ u, u ∈ s.inside → sameKind c (s.pc u) = false) ∧
        (t = self → d.selfCalls = true ∧ s.w = .running ∧ c ≠ .destroy) then
      some ({ s.at t (entry c) with inside := t :: s.inside, dying := if c = .destroy then some t else s.dying }, [.call t c])
    else none
  | .go t =>
    match s.pc t with
    | .idle => none
    -- start: OS:106-117, PT:104-114
    | .sEnter tm =>
      if s.active then some (s.at t (.ret (.start tm) .ignored), [.lin t (.start tm) .ignored])
      else if s.stopped then some (doStart s t tm)
      else some (s.at t (.sWait tm), [])
    | .sWait _ => none
    | .sRetest tm => if s.stopped then some (doStart s t tm) else some (s.at t (.sWait tm), [])
    -- stop: OS:119-129, PT:116-126
    | .pEnter =>
      if s.active = false then some (s.at t (.ret .stop .ignored), [.lin t .stop .ignored])
      else if s.started then some (doStop s t)
      else some (s.at t .pWait, [])
    | .pWait => none
    | .pRetest => if s.started then some (doStop s t) else some (s.at t .pWait, [])
    -- OS:131-135, PT:128-132
    | .iEnter => some (s.at t (.ret .isStarted (.active s.active)), [.lin t .isStarted (.active s.active)])
    -- endThread: OS:96-104, PT:94-102
    | .dEnter => some ({ s.at t .dJoin with endReq := true, w := wakeW s.w }, [])
    | .dJoin => if s.w = .dead then some ({ s.at t (.ret .destroy .destroyed) with gone := true }, [.lin t .destroy .destroyed]) else none
    | .ret c o => some ({ s.at t .idle with inside := s.inside.erase t }, [.ret t c o])
  | .spur t =>
    match s.pc t with
    | .sWait tm => some (s.at t (.sRetest tm), [])
    | .pWait => some (s.at t .pRetest, [])
    | _ => none
  | .wgo =>
    match s.w with
    -- OS:47-53, PT:47-53
    | .w0 =>
      if s.active || s.endReq then
        let s1 := { s with started := true, pc := wakeP s.pc }
        if s.endReq then some ({ s1 with w := .dead }, [.quit])
        else match s.kind with
          -- the predicate of wait_for is tested in the same critical section (OS:55); it is false here
          | .oneShot => some ({ s1 with w := .armed }, [.arm])
          | .periodic => some ({ s1 with w := .toArm }, [])
      else some ({ s with w := .w0s }, [])
    | .w0s => none
    -- PT:57-66
    | .toArm => if s.active = false ∨ s.endReq = true then some (ackStep s) else some ({ s with w := .armed }, [.arm])
    | .armed => none
    | .chk => if s.active = false ∨ s.endReq = true then some (ackStep s) else some ({ s with w := .armed }, [])
    | .late => if s.active = false ∨ s.endReq = true then some (ackStep s) else some ({ s with w := .due }, [.due])
    -- OS:65, PT:68
    | .due => some ({ s with w := .running }, [.cbBegin])
    | .running =>
      if s.pc self = .idle then
        some ({ s with w := match s.kind with | .oneShot => .post | .periodic => .toArm }, [.cbEnd])
      else none
    -- OS:66-71
    | .post => some ({ s with started := false, stopped := true, active := false, w := .w0 }, [.fin])
    | .dead => none
  | .expire => match s.w with
    | .armed => some ({ s with w := .late }, [])
    | _ => none
  | .wspur => match s.w with
    | .w0s => some ({ s with w := .w0 }, [])
    | .armed => some ({ s with w := .chk }, [])
    | _ => none

end Verif.Tm
