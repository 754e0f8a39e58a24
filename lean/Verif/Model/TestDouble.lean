import Verif.Model.MessageQueue
import Verif.Sem.Mem
/-
`MessageQueue<T>` (mechanism/OSWrapper/MessageQueue.h, "MQ") and the runner queue of `ThreadPool` (mechanism/OSWrapper/ThreadPool.cpp, "TP")
used by one thread on mutexes and event flags of any class derived from the test doubles (platform/TestDoubleOSWrapper): `plat` is what such
an object answers, and may depend on everything called so far.  The doubles as shipped answer OK to everything (`stub`).
-/
namespace Verif.TD
open Verif Cmd
open _root_.Verif.Mtx (Err)
variable {V α : Type}

/-- m_mtxRB, m_mtxSend, m_mtxRecv. -/
inductive Mx where
  | rb | send | recv
  deriving DecidableEq, Repr
/-- EV_NOT_EMPTY, EV_NOT_FULL. -/
inductive Bit where
  | notEmpty | notFull
  deriving DecidableEq, Repr
/-- Calls on the OS objects, with the answer where the code looks at it. -/
inductive Os where
  | lock (m : Mx) (r : Err)          -- lock() or timedLock()
  | unlock (m : Mx)
  | wait (b : Bit) (r : Err)
  | set (b : Bit) | reset (b : Bit)
  deriving DecidableEq, Repr
/-- A question to a double. -/
inductive Rq where
  | lock (m : Mx) | wait (b : Bit)
  deriving DecidableEq, Repr

abbrev Plat := List Os → Rq → Err
/-- TestDoubleMutexFactory.h:31-49, TestDoubleEventFlagFactory.h:26-84: every method returns OK. -/
def stub : Plat := fun _ _ => .OK

/-- The ring buffer (slots, `m_begin`, `m_end`) and what was called on the doubles. -/
structure QSt (V : Type) where
  mem : St V
  log : List Os

/-- A queue as `create(cap)` leaves it (MQ:278, 345-364). -/
def QSt.fresh (cap : Nat) : QSt V := ⟨{ nbuf := cap + 1, slot := fun _ => none, cnt := 0, b := 0, e := 0 }, []⟩

/-- Run something on the ring buffer. -/
def onMem (m : Cmd (St V) α) : Cmd (QSt V) α := fun q =>
  match m q.mem with
  | .ok a s => .ok a { q with mem := s }
  | .exn e s => .exn e { q with mem := s }
  | .ub f => .ub f
  | .diverge => .diverge

/-- `m->lock()` / `m->timedLock(tmout)`. -/
def lock (P : Plat) (m : Mx) : Cmd (QSt V) Err := fun q =>
  .ok (P q.log (.lock m)) { q with log := q.log ++ [.lock m (P q.log (.lock m))] }
/-- `m_event->timedWait(b, OR, 0, tmout)`. -/
def wait (P : Plat) (b : Bit) : Cmd (QSt V) Err := fun q =>
  .ok (P q.log (.wait b)) { q with log := q.log ++ [.wait b (P q.log (.wait b))] }
def emit (o : Os) : Cmd (QSt V) Unit := fun q => .ok () { q with log := q.log ++ [o] }

/-- A scope with a LockGuard whose `m_lockErr` is `r` (Mutex.cpp:34-57): the destructor runs on return and on exceptions. -/
def guarded (m : Mx) (r : Err) (body : Cmd (QSt V) α) : Cmd (QSt V) α := fun q =>
  match body q with
  | .ok a q' => .ok a (if r = .OK then { q' with log := q'.log ++ [.unlock m] } else q')
  | .exn e q' => .exn e (if r = .OK then { q' with log := q'.log ++ [.unlock m] } else q')
  | .ub f => .ub f
  | .diverge => .diverge
/-- `LockGuard lock(m); body`. -/
def locking (P : Plat) (m : Mx) (body : Cmd (QSt V) α) : Cmd (QSt V) α := do
  let r ← lock P m
  guarded m r body

/-- MQ:282-288 `getSize`. -/
def rbSize (s : St V) : Nat := if s.b ≤ s.e then s.e - s.b else s.nbuf - s.b + s.e
/-- MQ:290-293, 300-303 `isFull`. -/
def rbFull (s : St V) : Bool := rbSize s == s.nbuf - 1
/-- MQ:295-298 `isEmpty`. -/
def rbEmpty (s : St V) : Bool := s.b == s.e
/-- MQ:305-309 `RingBuf::push`. -/
def rbPush (E : Env V) (v : V) : Cmd (St V) Unit := do
  let e ← gets (·.e)
  construct E e (.ext v)
  modify (fun s => { s with e := MQ.nextIdx s.nbuf s.e })
/-- The copy assignment `*data = m_buf[m_begin]` to an object of the caller. -/
def copyOut (E : Env V) (v : V) : Cmd (St V) V := fun s =>
  if E.thr s.cnt then .exn .elemThrow { s with cnt := s.cnt + 1 } else .ok v { s with cnt := s.cnt + 1 }
/-- MQ:311-318 `RingBuf::pop`; `want`: `data != 0`. -/
def rbPop (E : Env V) (want : Bool) : Cmd (St V) (Option V) := do
  let b ← gets (·.b)
  let r ← (if want then do let x ← readSlot b; let y ← copyOut E x; pure (some y) else pure none : Cmd (St V) (Option V))
  destroySlot b
  modify (fun s => { s with b := MQ.nextIdx s.nbuf s.b })
  pure r

/-- MQ:366-374 `isEmpty`. -/
def isEmpty (P : Plat) : Cmd (QSt V) Bool := locking P .rb do
  let b ← gets (fun q => rbEmpty q.mem)
  (if b then emit (.reset .notEmpty) else pure () : Cmd (QSt V) Unit)
  pure b
/-- MQ:376-384 `isFull`. -/
def isFull (P : Plat) : Cmd (QSt V) Bool := locking P .rb do
  let b ← gets (fun q => rbFull q.mem)
  (if b then emit (.reset .notFull) else pure () : Cmd (QSt V) Unit)
  pure b
/-- MQ:386-391 `push`. -/
def push (P : Plat) (E : Env V) (v : V) : Cmd (QSt V) Unit := locking P .rb do
  onMem (rbPush E v)
  emit (.set .notEmpty)
/-- MQ:393-398 `pop`. -/
def pop (P : Plat) (E : Env V) (want : Bool) : Cmd (QSt V) (Option V) := locking P .rb do
  let r ← onMem (rbPop E want)
  emit (.set .notFull)
  pure r

/-- `try { m } catch (const Assertion::Failure&) { throw; } catch (...) { err = OtherError; }` MQ:139-151, 220-232. -/
def catching (m : Cmd (QSt V) α) : Cmd (QSt V) (Err × Option α) := fun q =>
  match m q with
  | .ok a q' => .ok (.OK, some a) q'
  | .exn .assertFail q' => .exn .assertFail q'
  | .exn _ q' => .ok (.OtherError, none) q'
  | .ub f => .ub f
  | .diverge => .diverge

/-- MQ:131-152, `timedSend` with `m_mtxSend` locked. -/
def sendBody (P : Plat) (E : Env V) (v : V) : Cmd (QSt V) Err := do
  let full ← isFull P
  let err ← (if full then wait P .notFull else pure .OK : Cmd (QSt V) Err)
  if err ≠ .OK then pure err
  else do
    let r ← catching (push P E v)
    pure r.1
/-- MQ:123-153 `timedSend` (and `send`, `trySend`). -/
def send (P : Plat) (E : Env V) (v : V) : Cmd (QSt V) Err := do
  let err ← lock P .send
  if err ≠ .OK then pure err
  else guarded .send .OK (sendBody P E v)

/-- MQ:212-233, `timedReceive` with `m_mtxRecv` locked. -/
def receiveBody (P : Plat) (E : Env V) (want : Bool) : Cmd (QSt V) (Err × Option V) := do
  let empty ← isEmpty P
  let err ← (if empty then wait P .notEmpty else pure .OK : Cmd (QSt V) Err)
  if err ≠ .OK then pure (err, none)
  else do
    let r ← catching (pop P E want)
    pure (r.1, r.2.join)
/-- MQ:204-234 `timedReceive` (and `receive`, `tryReceive`); the message is what `*msg` is assigned, if it is. -/
def receive (P : Plat) (E : Env V) (want : Bool) : Cmd (QSt V) (Err × Option V) := do
  let err ← lock P .recv
  if err ≠ .OK then pure (err, none)
  else guarded .recv .OK (receiveBody P E want)

/-- MQ:240-244 `getSize`. -/
def getSize (P : Plat) : Cmd (QSt V) Nat := locking P .rb (gets (fun q => rbSize q.mem))

/-- TP:148-157, one round of the loop of `destroyRunners`.  Loop state: still running, runners destroyed so far. -/
def destroyStep (P : Plat) (E : Env V) (p : Bool × List V) : Cmd (QSt V) (Bool × List V) := do
  let r ← receive P E true
  match r with
  | (.OK, some x) => pure (true, p.2 ++ [x])
  | (.OK, none) => fault .nullDeref           -- `runner` would stay 0 and is dereferenced
  | _ => pure (false, p.2)
/-- TP:139-159 `destroyRunners`: the runners taken from the free queue and destroyed, in order. -/
def destroyRunners (P : Plat) (E : Env V) (fuel : Nat) : Cmd (QSt V) (List V) := do
  let p ← Cmd.loop (fun (p : Bool × List V) (_ : QSt V) => p.1) (destroyStep P E) fuel (true, [])
  pure p.2

/-- TP:76-101, the part that concerns the free queue: one `send` per runner created (its result is ignored). -/
def sendAll (P : Plat) (E : Env V) : List V → Cmd (QSt V) Unit
  | [] => pure ()
  | v :: vs => do
    let _ ← send P E v
    sendAll P E vs

/-- A client's calls. -/
inductive Op (V : Type) where
  | send (v : V)
  | receive (want : Bool)
  | getSize
/-- Result of a call. -/
inductive Res (V : Type) where
  | err (e : Err) | got (e : Err) (v : Option V) | num (n : Nat)
  deriving DecidableEq
def exec (P : Plat) (E : Env V) : Op V → Cmd (QSt V) (Res V)
  | .send v => do let e ← send P E v; pure (.err e)
  | .receive want => do let r ← receive P E want; pure (.got r.1 r.2)
  | .getSize => do let n ← getSize P; pure (.num n)
/-- A history of calls by one thread; `none`: undefined behaviour, an escaping exception or divergence. -/
def run (P : Plat) (E : Env V) : List (Op V) → QSt V → Option (QSt V × List (Res V))
  | [], q => some (q, [])
  | o :: os, q =>
    match exec P E o q with
    | .ok r q' => (run P E os q').map fun p => (p.1, r :: p.2)
    | _ => none

end Verif.TD
