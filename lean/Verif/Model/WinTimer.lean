import Verif.Sem.Lts
/-
The Windows timers: WO = platform/WindowsOSWrapper/WindowsOneShotTimerFactory.cpp, WP = platform/WindowsOSWrapper/WindowsPeriodicTimerFactory.cpp.
One timer, any number of clients, and the multimedia timer service, which calls back on threads of its own.
start, stop and isStarted are one critical section of m_mutex each, so each is one step.  The event flag m_evFinished (one bit pattern, not auto
reset) is a Boolean; its own correctness is C43-C47.  The steps of a callback are the ones between which others can run.
The service is represented by its contract (Windows documentation of timeSetEvent / timeKillEvent, no TIME_KILL_SYNCHRONOUS flag):
a registered event is dispatched after its delay, once (TIME_ONESHOT) or again and again (TIME_PERIODIC); a dispatched callback runs later;
timeKillEvent removes a registered event and does not wait for, or prevent, dispatched callbacks.  How long delays are is not modelled.
-/
namespace Verif.WT
open Verif

inductive Kind where
  | oneShot | periodic
  deriving DecidableEq, Repr

inductive Call where
  | start | stop | isStarted
  deriving DecidableEq, Repr

/-- What a call did. -/
inductive Out where
  | started          -- start took effect
  | refused          -- start: timeSetEvent failed, nothing happened
  | stopped          -- stop took effect
  | tooLate          -- stop: timeKillEvent failed, nothing happened
  | ignored          -- start of a started timer, stop of a timer that is not started
  | active (b : Bool)
  deriving DecidableEq, Repr

inductive Ev where
  | op (c : Call) (o : Out)
  | disp                       -- the service decides to call back
  | enter                      -- m_evFinished is reset: WO:31, WP:26
  | cbBegin | cbEnd            -- Runnable::run is entered / left
  | fin                        -- m_evFinished is set: WO:33-35 (m_started becomes false, too), WP:28
  | back                       -- the callback has returned to the service
  | destroy | waited | gone    -- destroy begins; its waitAny has returned; the timer is deleted
  | uaf                        -- a callback accesses the deleted timer
  deriving DecidableEq, Repr

/-- Where a dispatched callback is. -/
inductive IPC where
  | pending     -- dispatched, before WO:31 / WP:26
  | ready       -- m_evFinished is reset, before the Runnable is called
  | running     -- in it
  | toFin       -- before WO:33 / WP:28
  | unlock      -- one-shot: m_evFinished is set, ~lock_guard is still to come (WO:36)
  deriving DecidableEq, Repr

/-- A dispatched callback: its number (any), the id of its event, where it is. -/
structure Inst where
  n : Nat
  id : Nat
  pc : IPC
  deriving DecidableEq, Repr

inductive DPh where
  | alive | stopping | waiting | deleting | gone
  deriving DecidableEq, Repr

structure WSt where
  kind : Kind
  started : Bool        -- m_started
  timer : Nat           -- m_timer
  ev : Bool             -- m_evFinished is set
  lock : Bool           -- m_mutex is held by a callback between WO:35 and WO:36
  regs : List Nat       -- the events registered with the service
  inst : List Inst      -- the dispatched callbacks that have not returned
  ph : DPh
  deriving DecidableEq, Repr

/-- WO:39-45, WP:33-39. -/
def WSt.init (k : Kind) : WSt := ⟨k, false, 0, true, false, [], [], .alive⟩

inductive Act where
  | start (ans : Option Nat)     -- the id that timeSetEvent returns
  | stop (r : Bool)              -- what timeKillEvent answers where it has a choice
  | isStarted
  | destroy | dstop (r : Bool) | dwait | delete
  | fire (id n : Nat)            -- the service dispatches the event `id`
  | cb (n : Nat)                 -- the next step of the callback `n`
  deriving DecidableEq, Repr

/-- What is assumed about the service.  `strict`: timeKillEvent does not succeed for a one-shot event that has been dispatched.
`serial`: a callback of this timer is not dispatched while another one has not returned. -/
structure Cfg where
  strict : Bool
  serial : Bool

/-- timeKillEvent(m_timer): the answer and the remaining events. -/
def kill (c : Cfg) (s : WSt) (r : Bool) : Bool × List Nat :=
  if s.timer ∈ s.regs then (true, s.regs.filter (· ≠ s.timer))
  else if c.strict = false ∧ s.inst.any (fun x => x.id == s.timer) then (r, s.regs)
  else (false, s.regs)

/-- The critical section of stop: WO:69-77, WP:63-71. -/
def doStop (c : Cfg) (s : WSt) (r : Bool) : WSt × Out :=
  if s.started = false then (s, .ignored)
  else
    let k := kill c s r
    if k.1 then ({ s with started := false, regs := k.2 }, .stopped) else ({ s with regs := k.2 }, .tooLate)

def setPc (l : List Inst) (n : Nat) (p : IPC) : List Inst := l.map fun x => if x.n = n then { x with pc := p } else x
def drop (l : List Inst) (n : Nat) : List Inst := l.filter fun x => x.n ≠ n

/-- One step of a callback: WO:29-36, WP:22-30. -/
def cbStep (s : WSt) (x : Inst) : Option (WSt × List Ev) :=
  if s.ph = .gone then
    match x.pc with
    | .running => some ({ s with inst := setPc s.inst x.n .toFin }, [.cbEnd])
    | _ => some ({ s with inst := drop s.inst x.n }, [.uaf])
  else match x.pc with
    | .pending => some ({ s with ev := false, inst := setPc s.inst x.n .ready }, [.enter])
    | .ready => some ({ s with inst := setPc s.inst x.n .running }, [.cbBegin])
    | .running => some ({ s with inst := setPc s.inst x.n .toFin }, [.cbEnd])
    | .toFin => match s.kind with
      | .oneShot =>
        if s.lock then none
        else some ({ s with started := false, ev := true, lock := true, inst := setPc s.inst x.n .unlock }, [.fin])
      | .periodic => some ({ s with ev := true, inst := drop s.inst x.n }, [.fin, .back])
    | .unlock => some ({ s with lock := false, inst := drop s.inst x.n }, [.back])

def step (c : Cfg) (s : WSt) : Act → Option (WSt × List Ev)
  | .start ans =>                                             -- WO:53-65, WP:47-59; not called once destroy has begun
    if s.ph = .alive ∧ s.lock = false then
      if s.started then some (s, [.op .start .ignored])
      else match ans with
        | none => some (s, [.op .start .refused])
        | some id =>
          if id ∉ s.regs ∧ s.inst.all (fun x => x.id != id) then
            some ({ s with timer := id, started := true, regs := id :: s.regs }, [.op .start .started])
          else none
    else none
  | .stop r =>                                                -- WO:67-78, WP:61-72; the callback may call it until the timer is deleted
    if s.ph ≠ .gone ∧ s.lock = false then
      some ((doStop c s r).1, [.op .stop (doStop c s r).2])
    else none
  | .isStarted =>                                             -- WO:80-84, WP:74-78
    if s.ph ≠ .gone ∧ s.lock = false then some (s, [.op .isStarted (.active s.started)]) else none
  | .destroy => if s.ph = .alive then some ({ s with ph := .stopping }, [.destroy]) else none       -- WO:122-126, WP:121-125
  | .dstop r =>                                               -- WO:49, WP:43
    if s.ph = .stopping ∧ s.lock = false then some ({ (doStop c s r).1 with ph := .waiting }, [.op .stop (doStop c s r).2]) else none
  | .dwait => if s.ph = .waiting ∧ s.ev then some ({ s with ph := .deleting }, [.waited]) else none   -- WO:50, WP:44
  | .delete => if s.ph = .deleting then some ({ s with ph := .gone }, [.gone]) else none              -- WO:51, 125
  | .fire id n =>
    if id ∈ s.regs ∧ s.inst.all (fun x => x.n != n) ∧ (c.serial = true → s.inst = []) then
      some ({ s with inst := ⟨n, id, .pending⟩ :: s.inst
                     regs := match s.kind with | .oneShot => s.regs.filter (· ≠ id) | .periodic => s.regs }, [.disp])
    else none
  | .cb n => match s.inst.find? (fun x => x.n == n) with
    | none => none
    | some x => cbStep s x

end Verif.WT
