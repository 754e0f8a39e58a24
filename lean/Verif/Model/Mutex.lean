import Verif.Sem.Lts
/-
Model of the mutexes: `StdCppMutex` (platform/StdCppOSWrapper/StdCppMutexFactory.cpp:8-95), `ItronMutex`
(platform/ItronOSWrapper/ItronMutexFactory.cpp:13-119) and `LockGuard` (mechanism/OSWrapper/Mutex.cpp:33-58).
Any number of threads (thread ids are natural numbers); every read and write of a shared variable is its own step.
-/
namespace Verif.Mtx
open Verif

abbrev Tid := Nat

/-- mechanism/OSWrapper/OSWrapperError.h. -/
inductive Err where
  | OK | TimedOut | NotLocked | CalledByNonThread | InvalidParameter | OtherError
  deriving DecidableEq, Repr

/-- Calls of the Mutex interface; the timeout is `none` for FOREVER and milliseconds otherwise (POLLING is 0). -/
inductive Call where
  | lock | tryLock | timedLock (tmout : Option Nat) | unlock
  deriving DecidableEq, Repr
/-- The call may end because time is over (without waiting, for tryLock). -/
def Call.bounded : Call → Bool
  | .tryLock | .timedLock (some _) => true
  | _ => false

/-- Observable events: a thread calls a method; a method returns. -/
inductive Ev where
  | call (t : Tid) (c : Call)
  | ret (t : Tid) (c : Call) (e : Err)
  deriving DecidableEq, Repr

/-- One action of a schedule. -/
inductive Act where
  | call (t : Tid) (c : Call)     -- idle thread `t` calls a method
  | go (t : Tid)                  -- thread `t` executes its next step
  | expire (t : Tid)              -- the bounded attempt of `t` to get the native mutex ends unsuccessfully
  | raise (t : Tid)               -- the native operation of `t` reports a failure (std::system_error, kernel error)
  deriving DecidableEq, Repr

/-! #### StdCppMutex -/
namespace Std

/-- Where a thread is inside a method. -/
inductive PC where
  | idle
  | acq (c : Call)                -- in m_mutex.lock() / try_lock() / try_lock_for() (lines 29, 46, 69)
  | inc (c : Call)                -- about to read m_lockingCount for `++` (lines 30, 47, 70)
  | incW (c : Call) (n : Nat)     -- about to write n+1
  | chk                           -- unlock: about to test m_lockingCount == 0U (line 87)
  | dec                           -- about to read m_lockingCount for `--` (line 90)
  | decW (n : Nat)                -- about to write n-1
  | rel                           -- about to call m_mutex.unlock() (line 91)
  | ret (c : Call) (e : Err)      -- about to return `e`
  deriving DecidableEq, Repr

/-- Shared state: `std::recursive_timed_mutex m_mutex` (owner and recursion depth), `m_lockingCount`, and whether undefined
behaviour has happened (unlocking a std mutex one does not own). -/
structure St where
  owner : Option Tid
  depth : Nat
  cnt : Nat
  ub : Bool
  pc : Tid → PC

/-- StdCppMutexFactory.cpp:14-17. -/
def init : St := ⟨none, 0, 0, false, fun _ => .idle⟩

/-- Thread `t` moves to `p`. -/
def St.at (s : St) (t : Tid) (p : PC) : St := { s with pc := upd s.pc t p }

/-- The native mutex can be locked by `t` (it is free or already `t`'s). -/
def St.avail (s : St) (t : Tid) : Bool := s.owner = none || s.owner = some t

/-- `m_lockingCount--` on `std::size_t`. -/
def pred (M n : Nat) : Nat := if n = 0 then M - 1 else n - 1

/-- StdCppMutexFactory.cpp:23-94.  `raise` models the native call throwing (the `catch (...)` clauses).
A `try_lock`/`try_lock_for` does not fail while the mutex is available. -/
def step (M : Nat) (s : St) : Act → Option (St × List Ev)
  | .call t c =>
    if s.ub then none else
    if s.pc t = .idle then
      match c with
      | .unlock => some (s.at t .chk, [.call t c])
      | _ => some (s.at t (.acq c), [.call t c])
    else none
  | .go t =>
    if s.ub then none else
    match s.pc t with
    | .idle => none
    | .acq c => if s.avail t then some ({ s.at t (.inc c) with owner := some t, depth := s.depth + 1 }, []) else none
    | .inc c => some (s.at t (.incW c s.cnt), [])
    | .incW c n => some ({ s.at t (.ret c .OK) with cnt := n + 1 }, [])
    | .chk => if s.cnt = 0 then some (s.at t (.ret .unlock .NotLocked), []) else some (s.at t .dec, [])
    | .dec => some (s.at t (.decW s.cnt), [])
    | .decW n => some ({ s.at t .rel with cnt := pred M n }, [])
    | .rel =>
      if s.owner = some t then
        some ({ s.at t (.ret .unlock .OK) with owner := if s.depth = 1 then none else some t, depth := s.depth - 1 }, [])
      else some ({ s with ub := true }, [])
    | .ret c e => some (s.at t .idle, [.ret t c e])
  | .expire t =>
    if s.ub then none else
    match s.pc t with
    | .acq c => if c.bounded && !s.avail t then some (s.at t (.ret c .TimedOut), []) else none
    | _ => none
  | .raise t =>
    if s.ub then none else
    match s.pc t with
    | .acq c => some (s.at t (.ret c .OtherError), [])
    | _ => none

end Std

/-! #### ItronMutex on an ITRON kernel -/
namespace Itron

/-- Where a task is inside a method. -/
inductive PC where
  | idle
  | tloc (c : Call)                -- in tloc_mtx (line 79)
  | ilLck (c : Call)               -- E_ILUSE: about to evaluate isLockedByThisThread (line 90)
  | inc (c : Call) | incW (c : Call) (n : Nat)   -- ++m_recursiveCount (line 91)
  | ulLck                          -- unlock: about to evaluate isLockedByThisThread (line 102)
  | ulTst                          -- about to test m_recursiveCount > 0U (line 103)
  | dec | decW (n : Nat)           -- --m_recursiveCount (line 104)
  | unl                            -- about to call unl_mtx (line 108)
  | ret (c : Call) (e : Err)
  deriving DecidableEq, Repr

/-- Kernel state of the (non-recursive) mutex and `m_recursiveCount`. -/
structure St where
  owner : Option Tid
  rc : Nat
  pc : Tid → PC

/-- ItronMutexFactory.cpp:41-56. -/
def init : St := ⟨none, 0, fun _ => .idle⟩
def St.at (s : St) (t : Tid) (p : PC) : St := { s with pc := upd s.pc t p }

/-- ItronMutexFactory.cpp:18-36, 67-118.  `ceil t` tells whether task `t` may use the mutex (TA_CEILING: its base priority does
not exceed the ceiling); `tloc_mtx` answers E_ILUSE when it may not or when it already owns the mutex.
Tasks that own the mutex do not exit (kernel release on task exit is not modelled). -/
def step (ceil : Tid → Bool) (s : St) : Act → Option (St × List Ev)
  | .call t c =>
    if s.pc t = .idle then
      match c with
      | .unlock => some (s.at t .ulLck, [.call t c])
      | _ => some (s.at t (.tloc c), [.call t c])
    else none
  | .go t =>
    match s.pc t with
    | .idle => none
    | .tloc c =>
      if ceil t = false || s.owner = some t then some (s.at t (.ilLck c), [])          -- E_ILUSE
      else if s.owner = none then some ({ s.at t (.ret c .OK) with owner := some t }, [])
      else none
    | .ilLck c => if s.owner = some t then some (s.at t (.inc c), []) else some (s.at t (.ret c .OtherError), [])
    | .inc c => some (s.at t (.incW c s.rc), [])
    | .incW c n => some ({ s.at t (.ret c .OK) with rc := n + 1 }, [])
    | .ulLck => if s.owner = some t then some (s.at t .ulTst, []) else some (s.at t .unl, [])
    | .ulTst => if s.rc > 0 then some (s.at t .dec, []) else some (s.at t .unl, [])
    | .dec => some (s.at t (.decW s.rc), [])
    | .decW n => some ({ s.at t (.ret .unlock .OK) with rc := n - 1 }, [])
    | .unl =>
      if s.owner = some t then some ({ s.at t (.ret .unlock .OK) with owner := none }, [])
      else some (s.at t (.ret .unlock .NotLocked), [])                                 -- E_ILUSE
    | .ret c e => some (s.at t .idle, [.ret t c e])
  | .expire t =>
    match s.pc t with
    | .tloc c => if c.bounded && ceil t && (s.owner ≠ none) && (s.owner ≠ some t) then some (s.at t (.ret c .TimedOut), []) else none
    | _ => none
  | .raise t =>
    match s.pc t with
    | .tloc c => some (s.at t (.ret c .OtherError), [])
    | _ => none

end Itron

/-! #### LockGuard -/
namespace Guard

/-- How a LockGuard was constructed. -/
inductive Ctor where
  | locking | adopting
  deriving DecidableEq, Repr
/-- Members of LockGuard (Mutex.h:126-127); the mutex pointer may be null. -/
structure Obj where
  mutex : Option Nat
  lockErr : Err
  deriving DecidableEq, Repr
/-- Calls made on mutexes. -/
inductive Op where
  | lock (m : Nat) (r : Err)
  | unlock (m : Nat)
  deriving DecidableEq, Repr
/-- How the guarded block is left. -/
inductive Exit where
  | normal | exception
  deriving DecidableEq, Repr

/-- Mutex.cpp:33-47: the constructors; `lockRes` is what `lock()` returns. -/
def construct (k : Ctor) (m : Option Nat) (lockRes : Err) : Obj × List Op :=
  match k with
  | .locking =>
    match m with
    | some x => (⟨m, lockRes⟩, [.lock x lockRes])
    | none => (⟨m, .OtherError⟩, [])
  | .adopting => (⟨m, .OK⟩, [])
/-- Mutex.cpp:49-56: the destructor. -/
def destruct (g : Obj) : List Op :=
  match g.mutex with
  | some x => if g.lockErr = .OK then [.unlock x] else []
  | none => []
/-- `{ LockGuard g(...); body }`: the destructor runs whichever way the block is left. -/
def scope (k : Ctor) (m : Option Nat) (lockRes : Err) (body : List Op × Exit) : List Op × Exit :=
  let (g, pre) := construct k m lockRes
  (pre ++ body.1 ++ destruct g, body.2)

end Guard
end Verif.Mtx
