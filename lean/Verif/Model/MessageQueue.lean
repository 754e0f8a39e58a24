import Verif.Model.EventFlag
/-
Model of `MessageQueue<T>` (mechanism/OSWrapper/MessageQueue.h, "MQ").  Any number of threads; every statement that touches shared
state is its own step.  The three mutexes are used through their interface (mutual exclusion with blocking, timed and polling
acquisition: properties C37, C39), the event flag as the atomic object of C42/C45 with its two bits EV_NOT_EMPTY and EV_NOT_FULL.
Messages are values of any type `V`; copying one may throw.  Not modelled: a failing `lock()` of m_mtxRB (LockGuard ignores it),
a message copy constructor that itself calls the queue, calls concurrent with `destroy`.
-/
namespace Verif.MQ
open Verif
open _root_.Verif.Mtx (Tid Err)
open _root_.Verif.EvF (Tmo)
variable {V : Type}

/-- The public methods (MQ:87-253); `out` tells whether the `msg` pointer of receive is non-null. -/
inductive Call (V : Type) where
  | send (v : V) | trySend (v : V) | timedSend (v : V) (tm : Tmo)
  | receive (out : Bool) | tryReceive (out : Bool) | timedReceive (out : Bool) (tm : Tmo)
  | getSize | getMaxSize
  deriving DecidableEq, Repr

/-- What a call gives back: an error code with possibly a received message, a number, or an Assertion::Failure thrown by copying
the message (MQ:140-142, 226-228). -/
inductive Res (V : Type) where
  | done (e : Err) (v : Option V)
  | num (n : Nat)
  | failure
  deriving DecidableEq, Repr

/-- What the methods forward to (MQ:87-90, 104-107, 169-172, 186-189). -/
inductive Prim (V : Type) where
  | snd (v : V) (tm : Tmo)
  | rcv (out : Bool) (tm : Tmo)
  | size | maxSize

def dispatch : Call V → Prim V
  | .send v => .snd v .forever
  | .trySend v => .snd v (.ms 0)
  | .timedSend v tm => .snd v tm
  | .receive out => .rcv out .forever
  | .tryReceive out => .rcv out (.ms 0)
  | .timedReceive out tm => .rcv out tm
  | .getSize => .size
  | .getMaxSize => .maxSize

/-- Events: call, return; and markers (not observable): the moment a call takes effect, a lock attempt given up because another
call holds the lock, the moments a call finds the queue full / empty. -/
inductive Ev (V : Type) where
  | call (t : Tid) (c : Call V)
  | busy (t : Tid)
  | sawFull (t : Tid)
  | sawEmpty (t : Tid)
  | lin (t : Tid) (c : Call V) (r : Res V)
  | ret (t : Tid) (c : Call V) (r : Res V)
  deriving DecidableEq, Repr

inductive Act (V : Type) where
  | call (t : Tid) (c : Call V)
  | go (t : Tid)                    -- next step of `t`
  | expire (t : Tid)                -- a timed lock or wait of `t` ends
  | raise (t : Tid) (e : Err)       -- the native lock or wait of `t` reports an error
  | throw (t : Tid) (fail : Bool)   -- copying the message throws; `fail`: an Assertion::Failure
  deriving DecidableEq, Repr

/-- Program counters; `c` is the call in progress. -/
inductive PC (V : Type) where
  | idle
  | entry (c : Call V)
  -- timedSend, MQ:124-149
  | sLock (c : Call V) (v : V) (tm : Tmo)                    -- m_mtxSend->timedLock(tmout)
  | sChkLock (c : Call V) (v : V) (tm : Tmo)                 -- isFull(): lock m_mtxRB (MQ:377)
  | sChk (c : Call V) (v : V) (tm : Tmo)                     -- m_rb.isFull() (MQ:378)
  | sReset (c : Call V) (v : V) (tm : Tmo)                   -- m_event->reset(EV_NOT_FULL) (MQ:380)
  | sChkUnl (c : Call V) (v : V) (tm : Tmo) (full : Bool)    -- unlock m_mtxRB
  | sWait (c : Call V) (v : V) (tm : Tmo)                    -- m_event->timedWait(EV_NOT_FULL, OR, 0, tmout)
  | sPushLock (c : Call V) (v : V)                           -- push(): lock m_mtxRB (MQ:387)
  | sCons (c : Call V) (v : V)                               -- construct(&m_buf[m_end], data) (MQ:305)
  | sAdv (c : Call V) (v : V)                                -- m_end = next_idx(m_end) (MQ:306)
  | sSet (c : Call V)                                        -- m_event->set(EV_NOT_EMPTY) (MQ:389)
  | sPushUnl (c : Call V) (r : Res V)                        -- unlock m_mtxRB
  | sUnl (c : Call V) (r : Res V)                            -- unlock m_mtxSend
  -- timedReceive, MQ:210-235
  | rLock (c : Call V) (out : Bool) (tm : Tmo)
  | rChkLock (c : Call V) (out : Bool) (tm : Tmo)            -- isEmpty(): lock m_mtxRB (MQ:367)
  | rChk (c : Call V) (out : Bool) (tm : Tmo)
  | rReset (c : Call V) (out : Bool) (tm : Tmo)              -- m_event->reset(EV_NOT_EMPTY) (MQ:370)
  | rChkUnl (c : Call V) (out : Bool) (tm : Tmo) (empty : Bool)
  | rWait (c : Call V) (out : Bool) (tm : Tmo)               -- m_event->timedWait(EV_NOT_EMPTY, OR, 0, tmout)
  | rPopLock (c : Call V) (out : Bool)                       -- pop(): lock m_mtxRB (MQ:394)
  | rCopy (c : Call V) (out : Bool)                          -- if (data != 0) *data = m_buf[m_begin] (MQ:311-313)
  | rDes (c : Call V) (got : Option V)                       -- destroy(&m_buf[m_begin]) (MQ:314)
  | rAdv (c : Call V) (got : Option V) (x : V)               -- m_begin = next_idx(m_begin) (MQ:315); `x` (ghost): what was destroyed
  | rSet (c : Call V) (got : Option V)                       -- m_event->set(EV_NOT_FULL) (MQ:396)
  | rPopUnl (c : Call V) (r : Res V)
  | rUnl (c : Call V) (r : Res V)
  -- getSize, getMaxSize, MQ:241-254
  | zLock (c : Call V)
  | zRead (c : Call V)
  | zUnl (c : Call V) (r : Res V)
  | ret (c : Call V) (r : Res V)
  deriving DecidableEq, Repr

/-- Ring buffer (`buf i = none`: no live message in slot `i`), holders of the mutexes, event bits, and whether undefined behaviour
has happened (constructing over a live message, using a dead one, leaving the buffer). -/
structure St (V : Type) where
  nb : Nat                  -- m_bufSize
  b : Nat                   -- m_begin
  e : Nat                   -- m_end
  buf : Nat → Option V
  ms : Option Tid           -- m_mtxSend
  mr : Option Tid           -- m_mtxRecv
  mb : Option Tid           -- m_mtxRB
  ne : Bool                 -- EV_NOT_EMPTY
  nf : Bool                 -- EV_NOT_FULL
  ub : Bool
  pc : Tid → PC V

/-- A queue as `create(cap)` leaves it (MQ:30-56, 277, 334-337): `m_bufSize = maxSize + 1`, raw storage, flag empty. -/
def init (V : Type) (cap : Nat) : St V := ⟨cap + 1, 0, 0, fun _ => none, none, none, none, false, false, false, fun _ => .idle⟩

def St.at (s : St V) (t : Tid) (p : PC V) : St V := { s with pc := upd s.pc t p }

/-- MQ:263-269 `next_idx`; `idx < nb` and `nb` fits in size_t, so nothing wraps. -/
def nextIdx (nb idx : Nat) : Nat := if idx + 1 < nb then idx + 1 else idx + 1 - nb
/-- MQ:281-287 `getSize`. -/
def size (s : St V) : Nat := if s.b ≤ s.e then s.e - s.b else s.nb - s.b + s.e
/-- MQ:289-292 `getMaxSize`. -/
def maxSize (s : St V) : Nat := s.nb - 1
/-- MQ:294-297 `isEmpty`. -/
def isEmpty (s : St V) : Bool := s.b == s.e
/-- MQ:299-302 `isFull`. -/
def isFull (s : St V) : Bool := size s == maxSize s

/-- One step. -/
def step (s : St V) : Act V → Option (St V × List (Ev V))
  | .call t c => if s.ub then none else
    match s.pc t with
    | .idle => some (s.at t (.entry c), [.call t c])
    | _ => none
  | .go t => if s.ub then none else
    match s.pc t with
    | .idle => none
    | .entry c =>
      match dispatch c with
      | .snd v tm => some (s.at t (.sLock c v tm), [])
      | .rcv out tm => some (s.at t (.rLock c out tm), [])
      | .size => some (s.at t (.zLock c), [])
      | .maxSize => some (s.at t (.zLock c), [])
    -- send
    | .sLock c v tm => if s.ms = none then some ({ s.at t (.sChkLock c v tm) with ms := some t }, []) else none
    | .sChkLock c v tm => if s.mb = none then some ({ s.at t (.sChk c v tm) with mb := some t }, []) else none
    | .sChk c v tm =>
      if isFull s then some (s.at t (.sReset c v tm), [.sawFull t]) else some (s.at t (.sChkUnl c v tm false), [])
    | .sReset c v tm => some ({ s.at t (.sChkUnl c v tm true) with nf := false }, [])
    | .sChkUnl c v tm full =>
      if full then some ({ s.at t (.sWait c v tm) with mb := none }, []) else some ({ s.at t (.sPushLock c v) with mb := none }, [])
    | .sWait c v _ => if s.nf then some (s.at t (.sPushLock c v), []) else none
    | .sPushLock c v => if s.mb = none then some ({ s.at t (.sCons c v) with mb := some t }, []) else none
    | .sCons c v =>
      if s.e < s.nb ∧ (s.buf s.e).isNone then some ({ s.at t (.sAdv c v) with buf := upd s.buf s.e (some v) }, [])
      else some ({ s with ub := true }, [])
    | .sAdv c _ => some ({ s.at t (.sSet c) with e := nextIdx s.nb s.e }, [.lin t c (.done .OK none)])
    | .sSet c => some ({ s.at t (.sPushUnl c (.done .OK none)) with ne := true }, [])
    | .sPushUnl c r => some ({ s.at t (.sUnl c r) with mb := none }, [])
    | .sUnl c r => some ({ s.at t (.ret c r) with ms := none }, [])
    -- receive
    | .rLock c out tm => if s.mr = none then some ({ s.at t (.rChkLock c out tm) with mr := some t }, []) else none
    | .rChkLock c out tm => if s.mb = none then some ({ s.at t (.rChk c out tm) with mb := some t }, []) else none
    | .rChk c out tm =>
      if isEmpty s then some (s.at t (.rReset c out tm), [.sawEmpty t]) else some (s.at t (.rChkUnl c out tm false), [])
    | .rReset c out tm => some ({ s.at t (.rChkUnl c out tm true) with ne := false }, [])
    | .rChkUnl c out tm empty =>
      if empty then some ({ s.at t (.rWait c out tm) with mb := none }, []) else some ({ s.at t (.rPopLock c out) with mb := none }, [])
    | .rWait c out _ => if s.ne then some (s.at t (.rPopLock c out), []) else none
    | .rPopLock c out => if s.mb = none then some ({ s.at t (.rCopy c out) with mb := some t }, []) else none
    | .rCopy c out =>
      if out then
        match s.buf s.b with
        | some v => some (s.at t (.rDes c (some v)), [])
        | none => some ({ s with ub := true }, [])
      else some (s.at t (.rDes c none), [])
    | .rDes c got =>
      match s.buf s.b with
      | some x => some ({ s.at t (.rAdv c got x) with buf := upd s.buf s.b none }, [])
      | none => some ({ s with ub := true }, [])
    | .rAdv c got _ => some ({ s.at t (.rSet c got) with b := nextIdx s.nb s.b }, [.lin t c (.done .OK got)])
    | .rSet c got => some ({ s.at t (.rPopUnl c (.done .OK got)) with nf := true }, [])
    | .rPopUnl c r => some ({ s.at t (.rUnl c r) with mb := none }, [])
    | .rUnl c r => some ({ s.at t (.ret c r) with mr := none }, [])
    -- sizes
    | .zLock c => if s.mb = none then some ({ s.at t (.zRead c) with mb := some t }, []) else none
    | .zRead c =>
      match dispatch c with
      | .size => some (s.at t (.zUnl c (.num (size s))), [.lin t c (.num (size s))])
      | _ => some (s.at t (.zUnl c (.num (maxSize s))), [.lin t c (.num (maxSize s))])
    | .zUnl c r => some ({ s.at t (.ret c r) with mb := none }, [])
    | .ret c r => some (s.at t .idle, [.ret t c r])
  | .expire t => if s.ub then none else
    match s.pc t with
    | .sLock c _ tm => if tm ≠ .forever ∧ s.ms ≠ none then
        some (s.at t (.ret c (.done .TimedOut none)), [.busy t, .lin t c (.done .TimedOut none)]) else none
    | .sWait c _ tm => if tm ≠ .forever ∧ s.nf = false then
        some (s.at t (.sUnl c (.done .TimedOut none)), [.lin t c (.done .TimedOut none)]) else none
    | .rLock c _ tm => if tm ≠ .forever ∧ s.mr ≠ none then
        some (s.at t (.ret c (.done .TimedOut none)), [.busy t, .lin t c (.done .TimedOut none)]) else none
    | .rWait c _ tm => if tm ≠ .forever ∧ s.ne = false then
        some (s.at t (.rUnl c (.done .TimedOut none)), [.lin t c (.done .TimedOut none)]) else none
    | _ => none
  | .raise t e => if s.ub then none else
    if e = .OtherError ∨ e = .CalledByNonThread then
      match s.pc t with
      | .sLock c _ _ => some (s.at t (.ret c (.done e none)), [.lin t c (.done e none)])
      | .sWait c _ _ => some (s.at t (.sUnl c (.done e none)), [.lin t c (.done e none)])
      | .rLock c _ _ => some (s.at t (.ret c (.done e none)), [.lin t c (.done e none)])
      | .rWait c _ _ => some (s.at t (.rUnl c (.done e none)), [.lin t c (.done e none)])
      | _ => none
    else none
  | .throw t fail => if s.ub then none else
    let r : Res V := if fail then .failure else .done .OtherError none
    match s.pc t with
    | .sCons c _ => some (s.at t (.sPushUnl c r), [.lin t c r])               -- MQ:134-147: nothing has changed yet
    | .rCopy c out => if out then some (s.at t (.rPopUnl c r), [.lin t c r]) else none
    | _ => none

end Verif.MQ
