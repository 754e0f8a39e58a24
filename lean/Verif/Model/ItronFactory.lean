import Verif.Sem.Lts
import Verif.Spec.Factory
/-
The ITRON factories of mutexes, event flags and periodic timers, and the ITRON periodic timer:
IM = platform/ItronOSWrapper/ItronMutexFactory.cpp, IE = ItronEventFlagFactory.cpp, IP = ItronPeriodicTimerFactory.cpp (same folder).
The steps are the kernel calls.  The factory's own mutex (`Lock lk`) is left out: without it there are more executions, so what is proved also
holds with it; it covers a factory whose mutex could not be created (m_mtxId = 0, IM:141-143) and a loc_mtx that fails (private/ItronLock.h
ignores the error).
The kernel is represented by its contract: an action carries the kernel's answers, and is possible only if the contract allows them.  Kernel
objects of the rest of the system (`ours = false`) come and go.  A cyclic handler runs to its end before tasks go on (one processor), so it is
one step; what the Runnable does to timers are separate steps.
Client contract: destroy is called once per object; no call is made on a timer after destroy's own stop() (IP:152).
What the created mutexes and event flags do is C39 and C45.
-/
namespace Verif.IFa
open Verif Verif.Fac

/-- `N` = MAX_MUTEXES, MAX_EVENT_FLAGS or MAX_PERIODIC_TIMERS; `pool`: the factory's acre_mpf succeeded; `timer`: it is the timer factory. -/
structure Cfg where
  N : Nat
  pool : Bool
  timer : Bool

/-- A kernel mutex, event flag or cyclic handler.  `ex` is exinf. -/
structure KObj where
  id : Nat
  ours : Bool
  sta : Bool
  ex : Nat
  deriving DecidableEq, Repr

/-- Ghost: how far the object is in its life. -/
inductive Ph where
  | live | dying | stopped
  deriving DecidableEq, Repr

/-- A constructed object: m_mutexId, m_flgId or m_timerId. -/
structure Obj where
  id : Nat
  ph : Ph
  deriving DecidableEq, Repr

/-- Where a caller is. -/
inductive PC where
  | out
  | get               -- create, before pget_mpf: IM:170, IE:216, IP:131
  | new (p : Nat)     -- before acre_xxx: IM:51, IE:26, IP:35
  | back (p : Nat)    -- create, before rel_mpf: IM:181, IE:227, IP:142
  | stp (p : Nat)     -- destroy of a timer, before stp_cyc: IP:152
  | del (p : Nat)     -- destroy, before del_xxx: IM:191, IE:237, IP:154
  | rel (p : Nat)     -- destroy, before rel_mpf: IM:192, IE:238, IP:155
  deriving DecidableEq, Repr

structure FSt where
  blk : List Nat               -- kernel: blocks of the factory's pool handed out
  ker : List KObj              -- kernel: mutexes / event flags / cyclic handlers
  obj : Nat → Option Obj       -- constructed objects by address
  pc : Nat → PC

def FSt.init : FSt := ⟨[], [], fun _ => none, fun _ => .out⟩

def put {α : Type} (f : Nat → α) (i : Nat) (x : α) : Nat → α := fun j => if j = i then x else f j

inductive Act where
  | create (t : Nat)
  | get (t : Nat) (ans : Option Nat)     -- pget_mpf's answer
  | new (t : Nat) (ans : Option Nat)     -- acre_xxx's answer
  | rel (t : Nat)
  | destroy (t : Nat) (p : Nat)
  | stp (t : Nat)
  | del (t : Nat)
  | start (p : Nat) | stop (p : Nat) | isStarted (p : Nat)
  | fire (id : Nat)                      -- the time of the cyclic handler `id` has come
  | newK (id : Nat) | delK (id : Nat)    -- the rest of the system
  deriving DecidableEq, Repr

/-- Contract of acre_mtx, acre_flg, acre_cyc: a positive id not in use. -/
def fresh (s : FSt) (id : Nat) : Bool := decide (0 < id) && s.ker.all (fun x => x.id != id)

/-- sta_cyc / stp_cyc. -/
def setSta (l : List KObj) (id : Nat) (b : Bool) : List KObj := l.map fun x => if x.id = id then { x with sta := b } else x

/-- ref_cyc: IP:61-69; an error counts as stopped. -/
def getSta (l : List KObj) (id : Nat) : Bool := match l.find? (fun x => x.id == id) with
  | some x => x.sta
  | none => false

/-- Calls on a timer are allowed. -/
def usable (c : Cfg) (s : FSt) (p : Nat) : Option Nat := match s.obj p with
  | some ⟨id, ph⟩ => if c.timer ∧ ph ≠ .stopped then some id else none
  | none => none

def step (c : Cfg) (s : FSt) : Act → Option (FSt × List Ev)
  | .create t =>                                                              -- IM:162-167, IE:208-213, IP:123-128
    if s.pc t = .out then
      if c.pool then some ({ s with pc := put s.pc t .get }, []) else some (s, [.null t .noPool])
    else none
  | .get t ans =>                                                             -- IM:169-176, IE:215-222, IP:130-137
    if s.pc t = .get then
      match ans with
      | none => if c.N ≤ s.blk.length then some ({ s with pc := put s.pc t .out }, [.null t .full]) else none
      | some p =>
        if 0 < p ∧ p ∉ s.blk ∧ s.blk.length < c.N then some ({ s with pc := put s.pc t (.new p), blk := p :: s.blk }, []) else none
    else none
  | .new t ans =>                                                             -- IM:178-185, IE:224-231, IP:139-146 and the constructors
    match s.pc t with
    | .new p => match ans with
      | none => some ({ s with pc := put s.pc t (.back p) }, [])              -- m_xxxId = 0: the destructor does nothing
      | some id =>
        if fresh s id then
          some ({ s with pc := put s.pc t .out, ker := ⟨id, true, false, p⟩ :: s.ker, obj := put s.obj p (some ⟨id, .live⟩) }, [.created t p])
        else none
    | _ => none
  | .rel t =>
    match s.pc t with
    | .back p => some ({ s with pc := put s.pc t .out, blk := s.blk.filter (· ≠ p) }, [.null t .kernel])
    | .rel p => some ({ s with pc := put s.pc t .out, blk := s.blk.filter (· ≠ p) }, [.destroyed t p])
    | _ => none
  | .destroy t p =>                                                           -- IM:188-190, IE:234-236, IP:149-151
    match s.obj p with
    | some ⟨id, .live⟩ =>
      if s.pc t = .out then
        some ({ s with pc := put s.pc t (if c.timer then .stp p else .del p), obj := put s.obj p (some ⟨id, .dying⟩) }, [.destroy t p])
      else none
    | _ => none
  | .stp t =>                                                                 -- IP:152
    match s.pc t with
    | .stp p => match s.obj p with
      | some ⟨id, _⟩ => some ({ s with pc := put s.pc t (.del p), ker := setSta s.ker id false, obj := put s.obj p (some ⟨id, .stopped⟩) }, [.op p .stop])
      | none => none
    | _ => none
  | .del t =>                                                                 -- IM:58-63, IE:33-38, IP:42-47
    match s.pc t with
    | .del p => match s.obj p with
      | some ⟨id, _⟩ =>
        some ({ s with pc := put s.pc t (.rel p), ker := if 0 < id then s.ker.filter (fun x => x.id ≠ id) else s.ker, obj := put s.obj p none }, [])
      | none => none
    | _ => none
  | .start p => match usable c s p with                                       -- IP:51-54
    | some id => some ({ s with ker := setSta s.ker id true }, [.op p .start])
    | none => none
  | .stop p => match usable c s p with                                        -- IP:56-59
    | some id => some ({ s with ker := setSta s.ker id false }, [.op p .stop])
    | none => none
  | .isStarted p => match usable c s p with                                   -- IP:61-69
    | some id => some (s, [.op p (.isStarted (getSta s.ker id))])
    | none => none
  | .fire id => match s.ker.find? (fun x => x.id == id) with                  -- IP:16-22; mechanism/OSWrapper/PeriodicTimer.cpp timerMain
    | some x =>
      if x.ours && x.sta then some (s, if (s.obj x.ex).isSome then [.callback x.ex] else [.uaf x.ex])
      else none
    | none => none
  | .newK id => if fresh s id then some ({ s with ker := ⟨id, false, false, 0⟩ :: s.ker }, []) else none
  | .delK id => some ({ s with ker := s.ker.filter fun x => ¬ (x.id = id ∧ x.ours = false) }, [])

end Verif.IFa
