import Verif.Sem.Lts
/-
create and destroy of the timer factories while callbacks run: which of them wait for what, holding which lock.
WO = platform/WindowsOSWrapper/WindowsOneShotTimerFactory.cpp, WP = platform/WindowsOSWrapper/WindowsPeriodicTimerFactory.cpp,
SO = platform/StdCppOSWrapper/StdCppOneShotTimerFactory.cpp, SP = platform/StdCppOSWrapper/StdCppPeriodicTimerFactory.cpp.
All timers of one factory, any number of threads, any thread may run callbacks (the service threads of Windows, the timers' threads of StdCpp).
Simplifications: a callback resets m_evFinished when it is dispatched (the window in between is C83/C84's subject); callbacks of one timer do not
overlap; the timer's own lock is never held for long and is left out (C91); what StdCpp's destroy waits for (the end of the timer's thread) is that
no callback of the timer is running, as for m_evFinished.
-/
namespace Verif.TFac
open Verif

/-- What a thread does; `cb` is the timer whose callback it is running, if any. -/
inductive PC where
  | user (cb : Option Nat)               -- code of the user
  | wantC (cb : Option Nat)              -- create: before the lock_guard on the factory's mutex (WO:111, WP:110, SO:162, SP:164)
  | inC (cb : Option Nat)                -- create: inside
  | stopping (cb : Option Nat) (o : Nat) -- destroy, StdCpp: endThread waits for the timer's thread (SO:96-104, 177; SP:94-102, 179)
  | wantD (cb : Option Nat) (o : Nat)    -- destroy: before the lock_guard (WO:124, WP:123, SO:178, SP:180)
  | inD (cb : Option Nat) (o : Nat)      -- destroy: inside; Windows: stop(), then m_evFinished->waitAny() (WO:47-51, WP:41-45)
  deriving DecidableEq, Repr

/-- The timer whose callback the thread is running. -/
def PC.cb : PC → Option Nat
  | .user c | .wantC c | .inC c | .stopping c _ | .wantD c _ | .inD c _ => c

structure Tm where
  live : Bool      -- created and not deleted
  armed : Bool     -- started
  idle : Bool      -- no callback is running (m_evFinished is set)
  deriving DecidableEq, Repr

structure FSt where
  fac : Option Nat         -- who holds the factory's mutex (a std::mutex, not recursive)
  tm : Nat → Tm
  pc : Nat → PC

def init : FSt := ⟨none, fun _ => ⟨false, false, true⟩, fun _ => .user none⟩

/-- `waitFirst`: destroy waits for the callbacks before it takes the factory's mutex (StdCpp), not while it holds it (Windows).
`cbCreate`, `cbDestroy`: callbacks call create / destroy of this factory. -/
structure Cfg where
  waitFirst : Bool
  cbCreate : Bool
  cbDestroy : Bool

inductive Act where
  | create (t : Nat) | destroy (t o : Nat)   -- thread `t` calls it
  | go (t n : Nat)                           -- next step of the call; `n` names the timer that create returns
  | arm (o : Nat) | disarm (o : Nat)         -- start; stop, or a one-shot timer has fired
  | fire (t o : Nat)                         -- thread `t` begins a callback of timer `o`
  | ret (t : Nat)                            -- the callback that `t` runs returns
  deriving DecidableEq, Repr

inductive Ev where
  | created (t n : Nat) | destroyed (t o : Nat) | begin (t o : Nat) | done (t o : Nat)
  deriving DecidableEq, Repr

def put {α : Type} (f : Nat → α) (i : Nat) (x : α) : Nat → α := fun j => if j = i then x else f j

/-- WO:106-126, WP:105-125, SO:157-180, SP:159-182 and the callbacks. -/
def step (c : Cfg) (s : FSt) : Act → Option (FSt × List Ev)
  | .create t => match s.pc t with
    | .user cb => if cb = none ∨ c.cbCreate then some ({ s with pc := put s.pc t (.wantC cb) }, []) else none
    | _ => none
  | .destroy t o => match s.pc t with
    | .user cb =>
      if (cb = none ∨ c.cbDestroy) ∧ (s.tm o).live then
        if c.waitFirst then some ({ s with pc := put s.pc t (.stopping cb o), tm := put s.tm o { s.tm o with armed := false } }, [])
        else some ({ s with pc := put s.pc t (.wantD cb o) }, [])
      else none
    | _ => none
  | .go t n => match s.pc t with
    | .user _ => none
    | .wantC cb => if s.fac = none then some ({ s with fac := some t, pc := put s.pc t (.inC cb) }, []) else none
    | .inC cb =>
      if (s.tm n).live = false then
        some ({ s with fac := none, pc := put s.pc t (.user cb), tm := put s.tm n ⟨true, false, true⟩ }, [.created t n])
      else none
    | .stopping cb o => if (s.tm o).idle then some ({ s with pc := put s.pc t (.wantD cb o) }, []) else none
    | .wantD cb o =>
      if s.fac = none then some ({ s with fac := some t, pc := put s.pc t (.inD cb o), tm := put s.tm o { s.tm o with armed := false } }, []) else none
    | .inD cb o =>
      if c.waitFirst ∨ (s.tm o).idle then
        some ({ s with fac := none, pc := put s.pc t (.user cb), tm := put s.tm o ⟨false, false, (s.tm o).idle⟩ }, [.destroyed t o])
      else none
  | .arm o => if (s.tm o).live then some ({ s with tm := put s.tm o { s.tm o with armed := true } }, []) else none
  | .disarm o => some ({ s with tm := put s.tm o { s.tm o with armed := false } }, [])
  | .fire t o =>
    if s.pc t = .user none ∧ (s.tm o).armed ∧ (s.tm o).idle then
      some ({ s with pc := put s.pc t (.user (some o)), tm := put s.tm o { s.tm o with idle := false } }, [.begin t o])
    else none
  | .ret t => match s.pc t with
    | .user (some o) => some ({ s with pc := put s.pc t (.user none), tm := put s.tm o { s.tm o with idle := true } }, [.done t o])
    | _ => none

end Verif.TFac
