import Verif.Model.Mutex
/-
Model of the event flags: `StdCppEventFlag` (platform/StdCppOSWrapper/StdCppEventFlagFactory.cpp:11-157) and `ItronEventFlag`
(platform/ItronOSWrapper/ItronEventFlagFactory.cpp:15-171).  A pattern (`BitPattern<unsigned int>`) is a `BitVec w` for any
width `w`; that the BitPattern operations are those of bit sets is property C24.
-/
namespace Verif.EvF
open Verif Mtx

/-- `EventFlag::Mode`; `other` is an out-of-range enumeration value. -/
inductive Mode where
  | OR | AND | other (n : Nat)
  deriving DecidableEq, Repr
/-- `Timeout`: FOREVER or milliseconds (POLLING = 0). -/
inductive Tmo where
  | forever | ms (n : Nat)
  deriving DecidableEq, Repr

/-- The calls of the EventFlag interface (EventFlag.h:48-250); `out` tells whether `releasedPattern` is non-null. -/
inductive Call (w : Nat) where
  | waitAny | waitOne (pos : Nat) | wait (p : BitVec w) (m : Mode) (out : Bool)
  | tryWaitAny | tryWaitOne (pos : Nat) | tryWait (p : BitVec w) (m : Mode) (out : Bool)
  | timedWaitAny (tm : Tmo) | timedWaitOne (pos : Nat) (tm : Tmo) | timedWait (p : BitVec w) (m : Mode) (out : Bool) (tm : Tmo)
  | setAll | setOne (pos : Nat) | set (p : BitVec w)
  | resetAll | resetOne (pos : Nat) | reset (p : BitVec w)
  | getCurrentPattern
  deriving DecidableEq, Repr

/-- What a call returns: an error code and possibly a pattern (`*releasedPattern`, or the value of getCurrentPattern). -/
structure Res (w : Nat) where
  err : Err
  pat : Option (BitVec w)
  deriving DecidableEq, Repr

/-- `Pattern().set()`. -/
def allBits (w : Nat) : BitVec w := BitVec.allOnes w
/-- `Pattern().set(pos)`. -/
def oneBit (w pos : Nat) : BitVec w := BitVec.twoPow w pos

/-- The primitive operation a call ends up in. -/
inductive Prim (w : Nat) where
  | twait (p : BitVec w) (m : Mode) (out : Bool) (tm : Tmo)
  | set (p : BitVec w)
  | reset (p : BitVec w)
  | get
  | invalid                        -- returns InvalidParameter at once
  deriving DecidableEq, Repr

/-- The forwarding methods: StdCppEventFlagFactory.cpp:27-68 (waits), 106-117 (sets), 128-139 (resets); the same code in
ItronEventFlagFactory.cpp:42-85, 113-124, 136-147. -/
def dispatch {w : Nat} : Call w → Prim w
  | .timedWait p m out tm => .twait p m out tm
  | .timedWaitAny tm => .twait (allBits w) .OR false tm
  | .timedWaitOne pos tm => if pos ≥ w then .invalid else .twait (oneBit w pos) .OR false tm
  | .waitAny => .twait (allBits w) .OR false .forever
  | .waitOne pos => if pos ≥ w then .invalid else .twait (oneBit w pos) .OR false .forever
  | .wait p m out => .twait p m out .forever
  | .tryWaitAny => .twait (allBits w) .OR false (.ms 0)
  | .tryWaitOne pos => if pos ≥ w then .invalid else .twait (oneBit w pos) .OR false (.ms 0)
  | .tryWait p m out => .twait p m out (.ms 0)
  | .setAll => .set (allBits w)
  | .setOne pos => if pos ≥ w then .invalid else .set (oneBit w pos)
  | .set p => .set p
  | .resetAll => .reset (allBits w)
  | .resetOne pos => if pos ≥ w then .invalid else .reset (oneBit w pos)
  | .reset p => .reset p
  | .getCurrentPattern => .get

/-- The predicates of lines 84, 86, 91, 96: `EventFlag::Pattern(bitPattern & m_pattern).any()` and
`(bitPattern & m_pattern) == bitPattern`. -/
def pred {w : Nat} (m : Mode) (p pat : BitVec w) : Bool :=
  if m = .OR then (p &&& pat) != 0 else (p &&& pat) == p

/-- Events: call, the moment the call takes effect (a marker, not observable), return. -/
inductive Ev (w : Nat) where
  | call (t : Tid) (c : Call w)
  | lin (t : Tid) (c : Call w) (r : Res w)
  | ret (t : Tid) (c : Call w) (r : Res w)
  deriving DecidableEq, Repr

inductive Act (w : Nat) where
  | call (t : Tid) (c : Call w)
  | go (t : Tid)                   -- next step of `t`
  | wake (t : Tid)                 -- spurious wake-up of a sleeping waiter
  | timeout (t : Tid)              -- the timed wait of a sleeping waiter ends
  | raise (t : Tid) (e : Err)      -- ITRON only: the service call reports an error
  deriving DecidableEq, Repr

/-! #### StdCppEventFlag -/
namespace Std

/-- Parameters of the wait in progress. -/
structure W (w : Nat) where
  p : BitVec w
  m : Mode
  out : Bool
  tm : Tmo
  deriving DecidableEq, Repr

inductive PC (w : Nat) where
  | idle
  | entry (c : Call w)                     -- inside the method, no lock yet
  | lockW (c : Call w) (a : W w)           -- about to lock m_mutex (line 79)
  | test (c : Call w) (a : W w) (last : Bool)   -- evaluating the predicate; `last`: after the timeout
  | sleep (c : Call w) (a : W w)           -- blocked in m_cond, mutex released
  | woken (c : Call w) (a : W w) (last : Bool)  -- left the wait set, about to reacquire m_mutex
  | out (c : Call w) (a : W w)             -- predicate true: about to store *releasedPattern (lines 100-102)
  | clear (c : Call w) (r : Option (BitVec w))  -- about to do the auto reset (lines 103-105)
  | lockS (c : Call w) (p : BitVec w) | writeS (c : Call w) (p : BitVec w) | notify (c : Call w)     -- lines 119-125
  | lockR (c : Call w) (p : BitVec w) | writeR (c : Call w) (p : BitVec w)                             -- lines 141-146
  | lockG (c : Call w) | readG (c : Call w)                                                            -- lines 148-152
  | unlock (c : Call w) (r : Res w)        -- end of scope: release m_mutex
  | ret (c : Call w) (r : Res w)           -- about to return
  deriving DecidableEq, Repr

structure St (w : Nat) where
  holder : Option Tid                      -- m_mutex
  pat : BitVec w                           -- m_pattern
  pc : Tid → PC w

/-- Constructor, lines 19-22: empty pattern. -/
def init (w : Nat) : St w := ⟨none, 0, fun _ => .idle⟩
def St.at {w : Nat} (s : St w) (t : Tid) (p : PC w) : St w := { s with pc := upd s.pc t p }

/-- `m_cond.notify_all()`: every sleeper leaves the wait set. -/
def wakeAll {w : Nat} (pc : Tid → PC w) : Tid → PC w := fun u =>
  match pc u with
  | .sleep c a => .woken c a false
  | p => p

/-- StdCppEventFlagFactory.cpp:27-152, `auto` is `m_autoReset`. -/
def step {w : Nat} (auto : Bool) (s : St w) : Act w → Option (St w × List (Ev w))
  | .call t c => if s.pc t = .idle then some (s.at t (.entry c), [.call t c]) else none
  | .go t =>
    match s.pc t with
    | .idle => none
    | .entry c =>
      match dispatch c with
      | .invalid => some (s.at t (.ret c ⟨.InvalidParameter, none⟩), [.lin t c ⟨.InvalidParameter, none⟩])
      | .twait p m out tm =>
        if m ≠ .OR ∧ m ≠ .AND then some (s.at t (.ret c ⟨.InvalidParameter, none⟩), [.lin t c ⟨.InvalidParameter, none⟩])    -- 72-74
        else if p = 0 then some (s.at t (.ret c ⟨.InvalidParameter, none⟩), [.lin t c ⟨.InvalidParameter, none⟩])            -- 75-77
        else some (s.at t (.lockW c ⟨p, m, out, tm⟩), [])
      | .set p => some (s.at t (.lockS c p), [])
      | .reset p => some (s.at t (.lockR c p), [])
      | .get => some (s.at t (.lockG c), [])
    | .lockW c a => if s.holder = none then some ({ s.at t (.test c a false) with holder := some t }, []) else none
    | .test c a last =>                    -- cond.wait(lock, pred) / wait_for(lock, rel, pred), lines 81-98
      if pred a.m a.p s.pat then some (s.at t (.out c a), [])
      else if last then some (s.at t (.unlock c ⟨.TimedOut, none⟩), [.lin t c ⟨.TimedOut, none⟩])
      else some ({ s.at t (.sleep c a) with holder := none }, [])
    | .sleep _ _ => none
    | .woken c a last => if s.holder = none then some ({ s.at t (.test c a last) with holder := some t }, []) else none
    | .out c a => some (s.at t (.clear c (if a.out then some s.pat else none)), [])
    | .clear c r => some ({ s.at t (.unlock c ⟨.OK, r⟩) with pat := if auto then 0 else s.pat }, [.lin t c ⟨.OK, r⟩])
    | .lockS c p => if s.holder = none then some ({ s.at t (.writeS c p) with holder := some t }, []) else none
    | .writeS c p => some ({ s.at t (.notify c) with pat := s.pat ||| p }, [.lin t c ⟨.OK, none⟩])
    | .notify c => some ({ s with pc := upd (wakeAll s.pc) t (.unlock c ⟨.OK, none⟩) }, [])
    | .lockR c p => if s.holder = none then some ({ s.at t (.writeR c p) with holder := some t }, []) else none
    | .writeR c p => some ({ s.at t (.unlock c ⟨.OK, none⟩) with pat := s.pat &&& ~~~p }, [.lin t c ⟨.OK, none⟩])
    | .lockG c => if s.holder = none then some ({ s.at t (.readG c) with holder := some t }, []) else none
    | .readG c => some (s.at t (.unlock c ⟨.OK, some s.pat⟩), [.lin t c ⟨.OK, some s.pat⟩])
    | .unlock c r => some ({ s.at t (.ret c r) with holder := none }, [])
    | .ret c r => some (s.at t .idle, [.ret t c r])
  | .wake t =>
    match s.pc t with
    | .sleep c a => some (s.at t (.woken c a false), [])
    | _ => none
  | .timeout t =>
    match s.pc t with
    | .sleep c a => if a.tm = .forever then none else some (s.at t (.woken c a true), [])
    | _ => none
  | .raise _ _ => none

end Std

/-! #### ItronEventFlag on an ITRON kernel -/
namespace Itron

inductive PC (w : Nat) where
  | idle
  | entry (c : Call w)
  | waiting (c : Call w)                   -- in the kernel's wait queue (twai_flg)
  | ret (c : Call w) (r : Res w)
  deriving DecidableEq, Repr

/-- An entry of the kernel's wait queue. -/
structure Waiter (w : Nat) where
  t : Tid
  c : Call w
  p : BitVec w
  m : Mode
  out : Bool
  tm : Tmo
  deriving DecidableEq, Repr

structure St (w : Nat) where
  pat : BitVec w
  queue : List (Waiter w)
  pc : Tid → PC w

/-- ItronEventFlagFactory.cpp:20-31: iflgptn = 0. -/
def init (w : Nat) : St w := ⟨0, [], fun _ => .idle⟩
def St.at {w : Nat} (s : St w) (t : Tid) (p : PC w) : St w := { s with pc := upd s.pc t p }

/-- What the wrapper answers when twai_flg gives E_OK with released pattern `ptn` (lines 101-105). -/
def okRes {w : Nat} (out : Bool) (ptn : BitVec w) : Res w := ⟨.OK, if out then some ptn else none⟩

/-- The kernel's part of `set_flg` after OR-ing: go through the queue in order and release every task whose condition holds; with
TA_CLR a release clears the pattern.  Result: the remaining queue, the pattern, and the released tasks with their patterns. -/
def release {w : Nat} (clr : Bool) : List (Waiter w) → BitVec w → List (Waiter w) × BitVec w × List (Waiter w × BitVec w)
  | [], pat => ([], pat, [])
  | x :: q, pat =>
    if pred x.m x.p pat then
      let (q', pat', rel) := release clr q (if clr then 0 else pat)
      (q', pat', (x, pat) :: rel)
    else
      let (q', pat', rel) := release clr q pat
      (x :: q', pat', rel)

/-- ItronEventFlagFactory.cpp:42-170 over the kernel calls twai_flg, set_flg, clr_flg, ref_flg; `clr` is TA_CLR (auto reset),
the wait queue holds any number of tasks (TA_WMUL), `ins` is where the kernel enqueues (priority or FIFO order). -/
def step {w : Nat} (clr : Bool) (ins : List (Waiter w) → Waiter w → Nat) (s : St w) : Act w → Option (St w × List (Ev w))
  | .call t c => if s.pc t = .idle then some (s.at t (.entry c), [.call t c]) else none
  | .go t =>
    match s.pc t with
    | .idle | .waiting _ => none
    | .entry c =>
      match dispatch c with
      | .invalid => some (s.at t (.ret c ⟨.InvalidParameter, none⟩), [.lin t c ⟨.InvalidParameter, none⟩])
      | .twait p m out tm =>
        if m ≠ .OR ∧ m ≠ .AND then some (s.at t (.ret c ⟨.InvalidParameter, none⟩), [.lin t c ⟨.InvalidParameter, none⟩])    -- 89-91
        else if p = 0 then some (s.at t (.ret c ⟨.InvalidParameter, none⟩), [.lin t c ⟨.InvalidParameter, none⟩])            -- 92-94
        else if pred m p s.pat then
          some ({ s.at t (.ret c (okRes out s.pat)) with pat := if clr then 0 else s.pat }, [.lin t c (okRes out s.pat)])
        else if tm = .ms 0 then some (s.at t (.ret c ⟨.TimedOut, none⟩), [.lin t c ⟨.TimedOut, none⟩])
        else
          let x : Waiter w := ⟨t, c, p, m, out, tm⟩
          some ({ s.at t (.waiting c) with queue := s.queue.insertIdx (min (ins s.queue x) s.queue.length) x }, [])
      | .set p =>
        let (q', pat', rel) := release clr s.queue (s.pat ||| p)
        some (⟨pat', q', rel.foldl (fun pc x => upd pc x.1.t (.ret x.1.c (okRes x.1.out x.2))) (upd s.pc t (.ret c ⟨.OK, none⟩))⟩,
          .lin t c ⟨.OK, none⟩ :: rel.map (fun x => .lin x.1.t x.1.c (okRes x.1.out x.2)))
      | .reset p => some ({ s.at t (.ret c ⟨.OK, none⟩) with pat := s.pat &&& ~~~p }, [.lin t c ⟨.OK, none⟩])       -- clr_flg with flipped pattern
      | .get => some (s.at t (.ret c ⟨.OK, some s.pat⟩), [.lin t c ⟨.OK, some s.pat⟩])
    | .ret c r => some (s.at t .idle, [.ret t c r])
  | .wake _ => none
  | .timeout t =>
    match s.pc t with
    | .waiting c =>
      match s.queue.find? (fun x => x.t == t) with
      | some x => if x.tm = .forever then none
          else some ({ s.at t (.ret c ⟨.TimedOut, none⟩) with queue := s.queue.filter (fun x => x.t != t) }, [.lin t c ⟨.TimedOut, none⟩])
      | none => none
    | _ => none
  | .raise t e =>
    match s.pc t with
    | .entry c =>
      match dispatch c with
      | .twait p m _ _ =>
        if (m = .OR ∨ m = .AND) ∧ p ≠ 0 ∧ (e = .CalledByNonThread ∨ e = .OtherError) then
          some (s.at t (.ret c ⟨e, none⟩), [.lin t c ⟨e, none⟩])
        else none
      | _ => none
    | .waiting c =>                        -- E_RLWAI and the like: released by force
      if e = .OtherError then
        some ({ s.at t (.ret c ⟨e, none⟩) with queue := s.queue.filter (fun x => x.t != t) }, [.lin t c ⟨e, none⟩])
      else none
    | _ => none

end Itron
end Verif.EvF
