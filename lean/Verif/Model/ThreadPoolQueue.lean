import Verif.Model.ThreadPool
import Verif.Model.MessageQueue
/-
`ThreadPool` (mechanism/OSWrapper/ThreadPool.cpp, "TP") running on a message queue *implementation*: where Model/ThreadPool.lean
uses the free-runner queue as an atomic FIFO list, here every `m_freeRunnerQueue->…` is a call into a given queue program (`MQ.step`,
the queue on an event flag program of Model/MessageQueueEvent.lean, or any other with the same events), which takes its own steps,
interleaved with everything else, until it returns.  The list `free` of `TP.St` is not used.  Considered are executions in which the
platform reports no error and the message (a pointer) is copied without an exception, as in Model/ThreadPool.lean.
-/
namespace Verif.TP.OnQueue
open Verif TP
open _root_.Verif.Mtx (Tid Err)
open _root_.Verif.EvF (Tmo)

/-- The threads that use the queue: clients of the pool and the pool's own threads. -/
inductive Who where
  | client (t : Tid)
  | worker (i : Rid)
  deriving DecidableEq, Repr

/-- Their names within the queue. -/
def cli (t : Tid) : Tid := 2 * t
def wrk (i : Rid) : Tid := 2 * i + 1
def who (u : Tid) : Who := if u % 2 = 0 then .client (u / 2) else .worker (u / 2)

/-- The call of m_freeRunnerQueue a client at this point makes: TP:188 `timedReceive(&runner, tmout)`, TP:209 `send(runner)` (from
TP:293), TP:149 `tryReceive(&runner)`. -/
def qPos : PC → Option (MQ.Call Rid)
  | .on (.start (some _) tm _ _) .sRecv => some (.timedReceive true tm)
  | .on (.release _) (.rSend i) => some (.send i)
  | .on .destroy .dDrain => some (.tryReceive true)
  | _ => none

/-- The same for a pool thread: TP:209 `send(runner)`, from TP:293. -/
def qW (i : Rid) : W → Option (MQ.Call Rid)
  | .send _ => some (.send i)
  | _ => none

def qCall (p : St) (u : Tid) : Option (MQ.Call Rid) := match who u with
  | .client t => qPos (p.pc t)
  | .worker i => qW i (p.w i)

/-- Where a client continues when the queue returns `r` (the results of `send` are ignored, TP:209). -/
def afterPC (p : PC) (r : MQ.Res Rid) : PC :=
  match p with
  | .on (.start (some k) tm g pr) .sRecv => match r with
    | .done .OK (some i) => .on (.start (some k) tm g pr) (.sWait i)                -- TP:193-194
    | _ => .on (.start (some k) tm g pr) (.ret .timedOut)                           -- TP:189-191
  | .on (.release g) (.rSend _) => .on (.release g) .rClear
  | p => p

def afterW (w : W) : W := match w with
  | .send x => .leave x
  | w => w

/-- The queue returns. -/
def resume (p : St) (u : Tid) (r : MQ.Res Rid) : Option (St × List Ev) :=
  match who u with
  | .worker i => some (p.wAt i (afterW (p.w i)), [])
  | .client t =>
    match p.pc t with
    | .on .destroy .dDrain => match r with
      -- TP:154-157; Thread::destroy waits for the thread (C60)
      | .done .OK (some i) => if p.w i = .finished then some (p.wAt i .dead, [.kill i]) else none
      -- TP:150-153, and the rest of destroy
      | _ => some ({ p.at t .destroy (.ret .done) with gone := true }, [.lin t .destroy .done])
    | q => some ({ p with pc := upd p.pc t (afterPC q r) }, [])

/-- No platform error, no exception. -/
def good : MQ.Res Rid → Bool
  | .done .OK _ => true
  | .done .TimedOut _ => true
  | _ => false

/-- Markers of the specification (not code): the moments at which calls take effect and threads become available. -/
def marks (p : St) (u : Tid) (r : MQ.Res Rid) : List Ev :=
  match who u with
  | .worker i => [.back i none]
  | .client t => match p.pc t with
    | .on (.start k tm g pr) .sRecv => match r with
      | .done .OK (some _) => []
      | _ => [.lin t (.start k tm g pr) .timedOut]
    | .on (.release g) (.rSend i) => [.back i (some g), .lin t (.release g) .done]
    | _ => []

/-- The pool's side of an event of the queue: a call is made where the pool's code makes it, a return resumes the caller. -/
def onEv (p : St) : MQ.Ev Rid → Option (St × List Ev)
  | .call u c => if qCall p u = some c then some (p, []) else none
  | .busy _ | .sawFull _ | .sawEmpty _ => some (p, [])
  | .lin u _ r => if good r then some (p, marks p u r) else none
  | .ret u _ r => resume p u r

def onEvs (p : St) : List (MQ.Ev Rid) → Option (St × List Ev)
  | [] => some (p, [])
  | x :: xs =>
    match onEv p x with
    | none => none
    | some (p', a) =>
      match onEvs p' xs with
      | none => none
      | some (p'', b) => some (p'', a ++ b)

/-- Whether the thread of an action is at a call of the queue. -/
def atQueue (p : St) : Act → Bool
  | .call t _ | .go t | .expire t => (qPos (p.pc t)).isSome
  | .pgo i | .throw i => (qW i (p.w i)).isSome

inductive CAct (A : Type) where
  | tp (a : Act)         -- a step of the pool's code other than a use of the queue
  | mq (a : A)           -- a step of the queue's code

structure CSt (Q : Type) where
  p : St
  q : Q

/-- The program of the pool together with the program `O` of its queue. -/
def step {Q A : Type} (O : Q → A → Option (Q × List (MQ.Ev Rid))) (s : CSt Q) : CAct A → Option (CSt Q × List Ev)
  | .tp a =>
    if atQueue s.p a then none else
    match TP.step s.p a with
    | some (p, ev) => some (⟨p, s.q⟩, ev)
    | none => none
  | .mq a =>
    match O s.q a with
    | none => none
    | some (q, evs) =>
      match onEvs s.p evs with
      | none => none
      | some (p, ev) => some (⟨p, q⟩, ev)

/-- A pool as `create(n, ...)` leaves it, with its queue (TP:54, 100: a queue of `n` places with the `n` runners in it). -/
def init {Q : Type} (n : Nat) (dflt : Int) (q0 : Q) : CSt Q := ⟨TP.init n dflt, q0⟩

end Verif.TP.OnQueue
