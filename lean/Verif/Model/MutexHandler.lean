import Verif.Model.Mutex
/-
`ItronMutex` (platform/ItronOSWrapper/ItronMutexFactory.cpp:13-119) called also from interrupt and cyclic handlers ("non thread context" in
Mutex.h), and the translation of µITRON error codes.

Handlers preempt the tasks and each other: task steps happen only while no handler is active, and of the active handlers only the innermost one
runs.  Which task is in the running state does not change while a handler is active.  Of the service calls made here tloc_mtx and unl_mtx answer
E_CTX in a handler; get_tid answers E_CTX too or, on kernels where it is the same as iget_tid, gives the task in the running state (parameter `tid`).
Simplification: one processor.
-/
namespace Verif.Mtx.Handler
open Verif

/-- Where a handler is inside a method. -/
inductive HPC where
  | tloc (c : Call)                -- in tloc_mtx (line 79)
  | ulLck                          -- unlock: about to evaluate isLockedByThisThread (line 102)
  | ulTst                          -- about to test m_recursiveCount > 0U (line 103)
  | dec | decW (n : Nat)           -- --m_recursiveCount (line 104)
  | unl                            -- about to call unl_mtx (line 108)
  | ret (c : Call) (e : Err)
  deriving DecidableEq, Repr

/-- `run`: the task in the running state when the outermost handler began; `hs`: the calls of the active handlers, innermost first. -/
structure HSt where
  b : Itron.St
  run : Option Tid
  hs : List HPC

def init : HSt := ⟨Itron.init, none, []⟩

inductive HAct where
  | task (a : Act)
  | intr (r : Option Tid) (c : Call)    -- a handler calls `c`; if it is the outermost one, the running task is `r`
  | hgo                                 -- the innermost handler takes a step
  deriving DecidableEq, Repr

inductive HEv where
  | ev (e : Ev)
  | hcall (c : Call)                    -- a handler calls `c`
  | hret (c : Call) (e : Err)           -- ... and gets `e`
  deriving DecidableEq, Repr

/-- Where a handler's call begins: ItronMutexFactory.cpp:67-79, 100-102. -/
def start : Call → HPC
  | .unlock => .ulLck
  | c => .tloc c

/-- ItronMutexFactory.cpp:18-36 in a handler: get_tid, if it answers, names the task `run` (TSK_NONE is 0, as is the `htskid` of a mutex that is not locked). -/
def lockedByThis (tid : Bool) (s : HSt) : Bool := tid && s.b.owner == s.run

/-- ItronMutexFactory.cpp:77-118 in a handler. -/
def hstep (tid : Bool) (s : HSt) : HPC → Option (Itron.St × Option HPC × List HEv)
  | .tloc c => some (s.b, some (.ret c .CalledByNonThread), [])                                      -- E_CTX: 85-86
  | .ulLck => some (s.b, some (if lockedByThis tid s then .ulTst else .unl), [])
  | .ulTst => some (s.b, some (if s.b.rc > 0 then .dec else .unl), [])
  | .dec => some (s.b, some (.decW s.b.rc), [])
  | .decW n => some ({ s.b with rc := n - 1 }, some (.ret .unlock .OK), [])
  | .unl => some (s.b, some (.ret .unlock .OtherError), [])                                          -- E_CTX: 114-115
  | .ret c e => some (s.b, none, [.hret c e])

def step (tid : Bool) (ceil : Tid → Bool) (s : HSt) : HAct → Option (HSt × List HEv)
  | .task a => if s.hs = [] then (match Itron.step ceil s.b a with
      | some (b, ev) => some (⟨b, s.run, []⟩, ev.map .ev)
      | none => none) else none
  | .intr r c => some (⟨s.b, if s.hs = [] then r else s.run, start c :: s.hs⟩, [.hcall c])
  | .hgo => match s.hs with
    | [] => none
    | p :: l => match hstep tid s p with
      | some (b, some p', ev) => some (⟨b, s.run, p' :: l⟩, ev)
      | some (b, none, ev) => some (⟨b, s.run, l⟩, ev)
      | none => none

/-! ### Error codes -/

/-- µITRON 4.0 main error codes used by the wrapper. -/
abbrev ER := Int
def E_OK : ER := 0
def E_PAR : ER := -17
def E_CTX : ER := -25
def E_ILUSE : ER := -28
def E_TMOUT : ER := -50

/-- ItronMutexFactory.cpp:77-98, the switch of timedLock; `mine`: isLockedByThisThread(). -/
def timedLockErr (mine : Bool) (er : ER) : Err :=
  if er = E_OK then .OK
  else if er = E_TMOUT then .TimedOut
  else if er = E_CTX then .CalledByNonThread
  else if er = E_PAR then .InvalidParameter
  else if er = E_ILUSE then (if mine then .OK else .OtherError)
  else .OtherError

/-- ItronMutexFactory.cpp:108-116, the switch of unlock. -/
def unlockErr (er : ER) : Err :=
  if er = E_OK then .OK else if er = E_ILUSE then .NotLocked else .OtherError

/-- ItronEventFlagFactory.cpp:96-112, the switch of timedWait. -/
def flagWaitErr (er : ER) : Err :=
  if er = E_OK then .OK
  else if er = E_TMOUT then .TimedOut
  else if er = E_CTX then .CalledByNonThread
  else if er = E_PAR then .InvalidParameter
  else .OtherError

/-- ItronThreadFactory.cpp:175-188, the switch of Thread::timedWait. -/
def threadWaitErr (er : ER) : Err :=
  if er = E_OK then .OK
  else if er = E_TMOUT then .TimedOut
  else .OtherError

end Verif.Mtx.Handler
