import Verif.Model.Thread
/-
Model of `ItronThread` (platform/ItronOSWrapper/ItronThreadFactory.cpp, "IT"): one thread object, its kernel task and any number of
client tasks.  Every kernel call is one step of its own.  The kernel is represented by its contract: an event flag with the attribute TA_WMUL
(set_flg releases every task whose condition holds, in the same step), a mutex, tasks (sta_tsk makes a dormant task ready with its initial
priority and fails otherwise; returning from the task function makes it dormant; chg_pri changes the base priority of a task that is not
dormant and fails otherwise).
What `threadMain` does is the subject of C58; here it is a begin and an end.
Not modelled: rel_wai / ter_tsk by somebody else, a mutex that cannot be locked (private/ItronLock.h ignores that), names and stacks.
-/
namespace Verif.ITh
open Verif
open _root_.Verif.Mtx (Tid)
open _root_.Verif.EvF (Tmo)

/-- IT:145-227 and the factory's `destroy`, IT:317-330.  `setPriority p self`: `self` is the base priority of the caller. -/
inductive Call where
  | thr (c : Thr.Call)
  | setPriority (p self : Nat)
  | getPriority
  deriving DecidableEq, Repr

inductive Out where
  | thr (o : Thr.Out)
  | set
  | prio (p : Nat)
  deriving DecidableEq, Repr

inductive Ev where
  | call (t : Tid) (c : Call)
  | lin (t : Tid) (c : Call) (o : Out)      -- the moment the call takes effect (not observable); isFinished has no such event
  | ret (t : Tid) (c : Call) (o : Out)
  | runBegin (base : Nat)                   -- Runnable::run is entered, with the task's base priority
  | runEnd                                  -- Runnable::run is left
  | fin                                     -- the task has become dormant
  deriving DecidableEq, Repr

inductive Act where
  | call (t : Tid) (c : Call)
  | go (t : Tid)
  | expire (t : Tid)                        -- a twai_flg of `t` times out
  | task                                    -- the thread's own task
  deriving DecidableEq, Repr

/-- Clients. -/
inductive PC where
  | idle
  -- start, IT:145-163
  | sLock | sFlg | sTst | sClr | sSta | sRef | sChg | sUnl (o : Thr.Out) | sSet
  -- timedWait, IT:175-188; `seen`: ghost, the thread has been finished since the flag was seen
  | wFlg (c : Thr.Call) (tm : Tmo) | wWait (c : Thr.Call) (tm : Tmo) | wPoll (c : Thr.Call) (seen : Bool)
  -- isFinished, IT:190-201
  | fFlg | fTst
  -- setPriority, IT:215-222
  | pLock (p self : Nat) | pSet (p self : Nat) | pFlg (p self : Nat) | pTst (p self : Nat) | pChg (p self : Nat) | pUnl (p self : Nat)
  -- getPriority, IT:224-228
  | gLock | gRead | gUnl (v : Nat)
  -- destroy after its wait(), IT:321-329
  | dDel
  | ret (c : Call) (o : Out)
  deriving DecidableEq, Repr

/-- The task, IT:78-86. -/
inductive WPC where
  | dormant | wStart | clr | begin | running | setF | exiting
  deriving DecidableEq, Repr

/-- `lo`, `hi`: TMIN_TPRI, TMAX_TPRI; `ini`: m_initialPriority. -/
structure Cfg where
  lo : Nat
  hi : Nat
  ini : Nat

structure St where
  holder : Option Tid      -- m_mtxId
  started : Bool           -- EV_STARTED of m_evWait
  finished : Bool          -- EV_FINISHED of m_evWait
  w : WPC
  prio : Nat               -- m_priority
  base : Nat               -- the task's base priority, as the kernel has it
  pc : Tid → PC
  inside : List Tid        -- ghost: the clients inside a call
  dying : Option Tid       -- ghost: who has called destroy
  gone : Bool              -- ghost: the object is deleted
  aprio : Nat              -- ghost: the priority of the last setPriority that has taken effect

/-- IT:89-130: after create (the flag is created with EV_FINISHED set, IT:111). -/
def init (c : Cfg) : St := ⟨none, false, true, .dormant, c.ini, c.ini, fun _ => .idle, [], none, false, c.ini⟩

def St.at (s : St) (t : Tid) (p : PC) : St := { s with pc := upd s.pc t p }

/-- IT:38-46 getInheritPriority. -/
def inherit (c : Cfg) (p self : Nat) : Nat := if c.lo ≤ p ∧ p ≤ c.hi then p else self

/-- set_flg(EV_FINISHED): every task waiting for it is released. -/
def release (pc : Tid → PC) : Tid → PC := fun t => match pc t with
  | .wWait c _ => .wPoll c false
  | p => p

/-- Ghost: the task has become dormant; those polling for it (after seeing EV_FINISHED) may be served. -/
def notice (pc : Tid → PC) : Tid → PC := fun t => match pc t with
  | .wPoll c false => .wPoll c true
  | p => p
def noticed (pc : Tid → PC) (t : Tid) : Option Ev := match pc t with
  | .wPoll c false => if c = .destroy then none else some (.lin t (.thr c) (.thr .ok))
  | _ => none

/-- First step of each call: wait/tryWait forward to timedWait (IT:165-173), destroy starts with wait() (IT:320). -/
def entry : Call → PC
  | .thr .start => .sLock
  | .thr .wait => .wFlg .wait .forever
  | .thr .tryWait => .wFlg .tryWait (.ms 0)
  | .thr (.timedWait tm) => .wFlg (.timedWait tm) tm
  | .thr .isFinished => .fFlg
  | .thr .destroy => .wFlg .destroy .forever
  | .setPriority p self => .pLock p self
  | .getPriority => .gLock

/-- The client discipline is that `destroy` does not overlap with other calls and nothing is called after it. -/
def step (k : Cfg) (s : St) : Act → Option (St × List Ev)
  | .call t c =>
    if s.pc t = .idle ∧ s.gone = false ∧ (c = .thr .destroy → s.inside = []) ∧ s.dying = none then
      some ({ s.at t (entry c) with inside := t :: s.inside, dying := if c = .thr .destroy then some t else none }, [.call t c])
    else none
  | .go t =>
    match s.pc t with
    | .idle => none
    | .sLock => if s.holder = none then some ({ s.at t .sFlg with holder := some t }, []) else none
    | .sFlg => if s.finished then some (s.at t .sTst, []) else some (s.at t (.sUnl .ignored), [.lin t (.thr .start) (.thr .ignored)])
    | .sTst => if s.w = .dormant then some (s.at t .sClr, []) else some (s.at t (.sUnl .ignored), [.lin t (.thr .start) (.thr .ignored)])
    | .sClr => some ({ s.at t .sSta with finished := false }, [.lin t (.thr .start) (.thr .started)])
    | .sSta => if s.w = .dormant then some ({ s.at t .sRef with w := .wStart, base := k.ini }, []) else some (s.at t (.sUnl .ignored), [])
    | .sRef => if s.base ≠ s.prio then some (s.at t .sChg, []) else some (s.at t (.sUnl .started), [])
    | .sChg => some ({ s.at t (.sUnl .started) with base := if s.w = .dormant then s.base else s.prio }, [])
    | .sUnl o => some ({ s.at t (if o = .started then .sSet else .ret (.thr .start) (.thr o)) with holder := none }, [])
    | .sSet => some ({ s.at t (.ret (.thr .start) (.thr .started)) with started := true }, [])
    | .wFlg c tm =>
      if s.finished then
        some (s.at t (.wPoll c (decide (s.w = .dormant))), if s.w = .dormant ∧ c ≠ .destroy then [.lin t (.thr c) (.thr .ok)] else [])
      else if tm = .ms 0 then some (s.at t (.ret (.thr c) (.thr .timedOut)), [.lin t (.thr c) (.thr .timedOut)])
      else some (s.at t (.wWait c tm), [])
    | .wWait _ _ => none
    | .wPoll c seen =>
      if s.w = .dormant then some (s.at t (if c = .destroy then .dDel else .ret (.thr c) (.thr .ok)), [])
      else some (s.at t (.wPoll c seen), [])                                                   -- dly_tsk(0)
    | .fFlg => if s.finished then some (s.at t .fTst, []) else some (s.at t (.ret (.thr .isFinished) (.thr (.finished false))), [])
    | .fTst => some (s.at t (.ret (.thr .isFinished) (.thr (.finished (decide (s.w = .dormant))))), [])
    | .pLock p self => if s.holder = none then some ({ s.at t (.pSet p self) with holder := some t }, []) else none
    | .pSet p self => some ({ s.at t (.pFlg p self) with prio := inherit k p self }, [])
    | .pFlg p self => if s.finished then some (s.at t (.pTst p self), []) else some (s.at t (.pChg p self), [])
    | .pTst p self =>
      if s.w = .dormant then some ({ s.at t (.pUnl p self) with aprio := s.prio }, [.lin t (.setPriority p self) .set])
      else some (s.at t (.pChg p self), [])
    | .pChg p self =>
      some ({ s.at t (.pUnl p self) with aprio := s.prio, base := if s.w = .dormant then s.base else s.prio }, [.lin t (.setPriority p self) .set])
    | .pUnl p self => some ({ s.at t (.ret (.setPriority p self) .set) with holder := none }, [])
    | .gLock => if s.holder = none then some ({ s.at t .gRead with holder := some t }, []) else none
    | .gRead => some (s.at t (.gUnl s.prio), [.lin t .getPriority (.prio s.prio)])
    | .gUnl v => some ({ s.at t (.ret .getPriority (.prio v)) with holder := none }, [])
    | .dDel => some ({ s.at t (.ret (.thr .destroy) (.thr .destroyed)) with gone := true }, [.lin t (.thr .destroy) (.thr .destroyed)])
    | .ret c o => some ({ s.at t .idle with inside := s.inside.erase t }, [.ret t c o])
  | .expire t =>
    match s.pc t with
    | .wWait c tm =>
      if tm ≠ .forever then some (s.at t (.ret (.thr c) (.thr .timedOut)), [.lin t (.thr c) (.thr .timedOut)]) else none
    | _ => none
  | .task =>
    match s.w with
    | .dormant => none
    | .wStart => if s.started then some ({ s with w := .clr }, []) else none
    | .clr => some ({ s with w := .begin, started := false }, [])
    | .begin => some ({ s with w := .running }, [.runBegin s.base])
    | .running => some ({ s with w := .setF }, [.runEnd])
    | .setF => some ({ s with w := .exiting, finished := true, pc := release s.pc }, [])
    | .exiting => some ({ s with w := .dormant, pc := notice s.pc }, .fin :: s.inside.filterMap (noticed s.pc))

end Verif.ITh
