import Verif.Model.EventFlag
/-
Model of `StdCppThread` (platform/StdCppOSWrapper/StdCppThreadFactory.cpp, "TF"): one thread object, its native thread ("worker") and
any number of client threads.  Every statement between two synchronisation points is its own step; std::mutex and
std::condition_variable are modelled by their contract (notify_all wakes all sleepers, spurious wake-ups are possible, wait_for may
end at any time).  What `threadMain` does is the subject of C58; here it is a begin and an end.
-/
namespace Verif.Thr
open Verif
open _root_.Verif.Mtx (Tid Err)
open _root_.Verif.EvF (Tmo)

/-- The methods modelled: TF:63-101, and the factory's `destroy`, TF:211-218. -/
inductive Call where
  | start | wait | tryWait | timedWait (tm : Tmo) | isFinished | destroy
  deriving DecidableEq, Repr

/-- What a call did: start was effective or ignored; a wait returned OK or TimedOut; isFinished returned a bool; destroy returned. -/
inductive Out where
  | started | ignored | ok | timedOut | finished (b : Bool) | destroyed
  deriving DecidableEq, Repr

inductive Ev where
  | call (t : Tid) (c : Call)
  | lin (t : Tid) (c : Call) (o : Out)      -- the moment the call takes effect (not observable)
  | ret (t : Tid) (c : Call) (o : Out)
  | runBegin | runEnd                       -- Runnable::run is entered / left
  | fin                                     -- m_isActive = false after a run
  deriving DecidableEq, Repr

inductive Act where
  | call (t : Tid) (c : Call)
  | go (t : Tid)
  | expire (t : Tid)                        -- a wait_for of `t` ends
  | spur (t : Tid)                          -- a sleeper of `t` wakes up without notification
  | wgo                                     -- the worker
  | wspur
  deriving DecidableEq, Repr

/-- Clients.  `d`: the wait inside destroy. -/
inductive PC where
  | idle
  -- start, TF:63-71
  | sLock | sTest | sSet | sNotify | sUnl (o : Out)
  -- timedWait, TF:83-95
  | tLock (c : Call) (tm : Tmo)
  | tTest (c : Call) (tm : Tmo) (last : Bool)     -- the predicate, mutex held; `last`: after the time is up
  | tSleep (c : Call) (tm : Tmo)
  | tWoken (c : Call) (tm : Tmo) (last : Bool)    -- to reacquire the mutex
  | tUnl (c : Call) (o : Out)
  -- isFinished, TF:97-101
  | fLock | fRead | fUnl (o : Out)
  -- endThread after its wait(), TF:54-60
  | dLock | dReq | dAct | dNotify | dUnl | dJoin
  | ret (c : Call) (o : Out)
  deriving DecidableEq, Repr

/-- The worker, TF:15-32. -/
inductive WPC where
  | lock1 | test | sleep | woken | check | unl1 | run | running | lock2 | clear | notify | unl2
  | unlEnd                                        -- `break`: release the mutex
  | dead
  deriving DecidableEq, Repr

inductive Who where
  | worker | client (t : Tid)
  deriving DecidableEq, Repr

structure St where
  holder : Option Who      -- m_mutex
  active : Bool            -- m_isActive
  endReq : Bool            -- m_endThreadRequested
  w : WPC
  pc : Tid → PC
  inside : List Tid        -- ghost: the clients inside a call
  dying : Option Tid       -- ghost: who has called destroy
  gone : Bool              -- ghost: the object is deleted

/-- TF:34-49: after create; the worker has been started. -/
def init : St := ⟨none, false, false, .lock1, fun _ => .idle, [], none, false⟩

def St.at (s : St) (t : Tid) (p : PC) : St := { s with pc := upd s.pc t p }

/-- notify_all of m_condFinished: every sleeping client has to reacquire the mutex. -/
def wakeAll (pc : Tid → PC) : Tid → PC := fun t => match pc t with
  | .tSleep c tm => .tWoken c tm false
  | p => p

def wakeWorker : WPC → WPC
  | .sleep => .woken
  | w => w

/-- First step of each call: wait/tryWait forward to timedWait (TF:73-81), destroy starts with wait() (TF:53). -/
def entry : Call → PC
  | .start => .sLock
  | .wait => .tLock .wait .forever
  | .tryWait => .tLock .tryWait (.ms 0)
  | .timedWait tm => .tLock (.timedWait tm) tm
  | .isFinished => .fLock
  | .destroy => .tLock .destroy .forever

/-- `conc = false`: the client discipline is that `destroy` does not overlap with other calls and nothing is called after it;
`conc = true`: other calls may overlap with `destroy`. -/
def step (conc : Bool) (s : St) : Act → Option (St × List Ev)
  | .call t c =>
    if s.pc t = .idle ∧ s.gone = false ∧ (c = .destroy → s.dying = none ∧ (conc = true ∨ s.inside = [])) ∧ (conc = true ∨ s.dying = none) then
      some ({ s.at t (entry c) with inside := t :: s.inside, dying := if c = .destroy then some t else s.dying }, [.call t c])
    else none
  | .go t =>
    match s.pc t with
    | .idle => none
    | .sLock => if s.holder = none then some ({ s.at t .sTest with holder := some (.client t) }, []) else none
    | .sTest => if s.active then some (s.at t (.sUnl .ignored), [.lin t .start .ignored]) else some (s.at t .sSet, [])
    | .sSet => some ({ s.at t .sNotify with active := true }, [.lin t .start .started])
    | .sNotify => some ({ s.at t (.sUnl .started) with w := wakeWorker s.w }, [])
    | .sUnl o => some ({ s.at t (.ret .start o) with holder := none }, [])
    | .tLock c tm => if s.holder = none then some ({ s.at t (.tTest c tm false) with holder := some (.client t) }, []) else none
    | .tTest c tm last =>
      if s.active = false then some (s.at t (.tUnl c .ok), if c = .destroy then [] else [.lin t c .ok])
      else if last then some (s.at t (.tUnl c .timedOut), [.lin t c .timedOut])
      else some ({ s.at t (.tSleep c tm) with holder := none }, [])
    | .tSleep _ _ => none
    | .tWoken c tm last => if s.holder = none then some ({ s.at t (.tTest c tm last) with holder := some (.client t) }, []) else none
    | .tUnl c o => some ({ s.at t (if c = .destroy then .dLock else .ret c o) with holder := none }, [])
    | .fLock => if s.holder = none then some ({ s.at t .fRead with holder := some (.client t) }, []) else none
    | .fRead => some (s.at t (.fUnl (.finished (!s.active))), [.lin t .isFinished (.finished (!s.active))])
    | .fUnl o => some ({ s.at t (.ret .isFinished o) with holder := none }, [])
    | .dLock => if s.holder = none then some ({ s.at t .dReq with holder := some (.client t) }, []) else none
    | .dReq => some ({ s.at t .dAct with endReq := true }, [])
    | .dAct => some ({ s.at t .dNotify with active := true }, [])
    | .dNotify => some ({ s.at t .dUnl with w := wakeWorker s.w }, [])
    | .dUnl => some ({ s.at t .dJoin with holder := none }, [])
    | .dJoin => if s.w = .dead then some ({ s.at t (.ret .destroy .destroyed) with gone := true }, [.lin t .destroy .destroyed]) else none
    | .ret c o => some ({ s.at t .idle with inside := s.inside.erase t }, [.ret t c o])
  | .expire t =>
    match s.pc t with
    | .tSleep c tm => if tm ≠ .forever then some (s.at t (.tWoken c tm true), []) else none
    | _ => none
  | .spur t =>
    match s.pc t with
    | .tSleep c tm => some (s.at t (.tWoken c tm false), [])
    | _ => none
  | .wgo =>
    match s.w with
    | .lock1 => if s.holder = none then some ({ s with w := .test, holder := some .worker }, []) else none
    | .test => if s.active then some ({ s with w := .check }, []) else some ({ s with w := .sleep, holder := none }, [])
    | .sleep => none
    | .woken => if s.holder = none then some ({ s with w := .test, holder := some .worker }, []) else none
    | .check => if s.endReq then some ({ s with w := .unlEnd }, []) else some ({ s with w := .unl1 }, [])
    | .unl1 => some ({ s with w := .run, holder := none }, [])
    | .run => some ({ s with w := .running }, [.runBegin])
    | .running => some ({ s with w := .lock2 }, [.runEnd])
    | .lock2 => if s.holder = none then some ({ s with w := .clear, holder := some .worker }, []) else none
    | .clear => some ({ s with w := .notify, active := false }, [.fin])
    | .notify => some ({ s with w := .unl2, pc := wakeAll s.pc }, [])
    | .unl2 => some ({ s with w := .lock1, holder := none }, [])
    | .unlEnd => some ({ s with w := .dead, holder := none }, [])
    | .dead => none
  | .wspur =>
    match s.w with
    | .sleep => some ({ s with w := .woken }, [])
    | _ => none

end Verif.Thr
