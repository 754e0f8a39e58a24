import Verif.Model.Priority
import Verif.Model.Mutex
import Verif.Sem.Lts
/-
The priorities of `Thread` objects on StdCpp, Posix and Windows over arbitrary concurrent histories:
platform/StdCppOSWrapper/StdCppThreadFactory.cpp ("ST"), platform/PosixOSWrapper/PosixThreadFactory.cpp ("PT"),
platform/WindowsOSWrapper/WindowsThreadFactory.cpp ("WT").  A thread object is named by the thread it stands for (`getCurrentThread`,
ST:224-232, is C79).  An object is not known to anybody before its `create` has returned.  The range of priorities does not change.
Creating never fails for another reason (C80).
-/
namespace Verif.TPrio
open Verif
open _root_.Verif.Mtx (Tid)

/-- The three thread classes; Posix with m_defaultPolicy, the number of SCHED_RR and m_defaultPriority. -/
inductive Plat where
  | std
  | posix (defPolicy rr dflt : Int)
  | windows
  deriving DecidableEq, Repr

structure Cfg where
  plat : Plat
  W : Nat
  r : Prio.Range
  pm : Prio.PMap

/-- Thread.cpp:71 -/
def INHERIT : Int := -1

/-- Whether `setPriority(p)` takes `p` itself: ST:118, PT:27, WT:31. -/
def valid (k : Cfg) (p : Int) : Bool := match k.plat with
  | .std => decide (p ≠ INHERIT)
  | _ => decide (Prio.minP k.r ≤ p) && decide (p ≤ Prio.maxP k.r)

/-- `Thread::getNormalPriority()` of the platform (Thread.cpp:194-198, ST:236-254). -/
def normal (k : Cfg) : Option Int := match k.plat with
  | .std => Prio.normalP k.W Prio.stdCpp
  | _ => Prio.normalP k.W k.r

/-- What the operating system is told: nothing (ST:117), policy and priority (PT:31-33, 48-50), or the priority (WT:34, 48);
`none`: `m_prioMap.at` throws. -/
def native (k : Cfg) (v : Int) : Option (Option (Int × Int)) := match k.plat with
  | .std => some none
  | .posix pol rr dflt => (k.pm v).map fun n => some (if n = dflt then pol else rr, n)
  | .windows => (k.pm v).map fun n => some (0, n)

inductive Call where
  | create (u : Tid) (p : Int)
  | set (u : Tid) (p : Int)
  deriving DecidableEq, Repr
def Call.target : Call → Tid
  | .create u _ | .set u _ => u
def Call.arg : Call → Int
  | .create _ p | .set _ p => p

inductive Ev where
  | call (c : Tid) (k : Call)                 -- create(.., p, ..) or setPriority(p) is called
  | done (c : Tid) (k : Call) (v : Int)       -- it has stored the priority v and returns
  | thrown (c : Tid) (k : Call)               -- std::out_of_range
  | get (c u : Tid) (v : Int)                 -- getPriority
  | getInitial (c u : Tid) (v : Int)          -- getInitialPriority
  | destroyed (c u : Tid)
  deriving DecidableEq, Repr

inductive PC where
  | idle
  | on (k : Call)
  | storing (k : Call) (v : Int)              -- this_priority has been read
  deriving DecidableEq, Repr
def PC.target : PC → Option Tid
  | .idle => none
  | .on k | .storing k _ => some k.target

/-- m_priority and m_initialPriority -/
structure Th where
  prio : Int
  init : Int
  deriving DecidableEq, Repr

/-- `os u`: what the operating system was told last about thread `u`; `inside`: the threads in a call. -/
structure St where
  th : Tid → Option Th
  os : Tid → Option (Int × Int)
  pc : Tid → PC
  inside : List Tid

def init : St := ⟨fun _ => none, fun _ => none, fun _ => .idle, []⟩

inductive Act where
  | call (c : Tid) (k : Call)
  | go (c : Tid)
  | get (c u : Tid)
  | getInitial (c u : Tid)
  | destroy (c u : Tid)
  deriving DecidableEq, Repr

/-- setPriority is called on an existing object, create makes a new one. -/
def allowed (s : St) (c : Tid) : Call → Bool
  | .set u _ => (s.th u).isSome
  | .create u _ => (s.th u).isNone && decide (s.pc u = .idle) && decide (c ≠ u)

/-- Client discipline: only existing objects are used; an object is destroyed when its thread is not in a call and nobody is in a call on it. -/
def step (k : Cfg) (s : St) : Act → Option (St × List Ev)
  | .call c q =>
    if s.pc c = .idle ∧ allowed s c q = true then
      some ({ s with pc := upd s.pc c (.on q), inside := c :: s.inside }, [.call c q])
    else none
  | .go c =>
    match s.pc c with
    | .idle => none
    -- ST:115-131, PT:25-46, WT:29-46: the argument, or the priority of the calling thread, or the normal priority
    | .on q =>
      if valid k q.arg then some ({ s with pc := upd s.pc c (.storing q q.arg) }, [])
      else match s.th c with
        | some x => some ({ s with pc := upd s.pc c (.storing q x.prio) }, [])
        | none => match normal k with
          | some v => some ({ s with pc := upd s.pc c (.storing q v) }, [])
          | none => none
    -- the part under m_mutex: ST:119-120, 132-133, PT:28-33, 45-50, WT:32-34, 46-48; for create also ST:47-48
    | .storing q v =>
      match native k v with
      | none => some ({ s with pc := upd s.pc c .idle, inside := s.inside.erase c }, [.thrown c q])
      | some n =>
        match q, s.th q.target with
        | .set u _, some x =>
          some (⟨upd s.th u (some ⟨v, x.init⟩), upd s.os u n, upd s.pc c .idle, s.inside.erase c⟩, [.done c q v])
        | .create u _, none =>
          some (⟨upd s.th u (some ⟨v, v⟩), upd s.os u n, upd s.pc c .idle, s.inside.erase c⟩, [.done c q v])
        | _, _ => none
  -- ST:136-146
  | .get c u =>
    match s.pc c, s.th u with
    | .idle, some x => some (s, [.get c u x.prio])
    | _, _ => none
  | .getInitial c u =>
    match s.pc c, s.th u with
    | .idle, some x => some (s, [.getInitial c u x.init])
    | _, _ => none
  -- ST:206-213
  | .destroy c u =>
    if s.pc c = .idle ∧ c ≠ u ∧ s.pc u = .idle ∧ (s.th u).isSome ∧ (∀ t, t ∈ s.inside → (s.pc t).target ≠ some u) then
      some ({ s with th := upd s.th u none, os := upd s.os u none }, [.destroyed c u])
    else none

end Verif.TPrio
