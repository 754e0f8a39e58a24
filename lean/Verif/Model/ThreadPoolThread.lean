import Verif.Model.ThreadPool
import Verif.Model.Thread
/-
`ThreadPool` (mechanism/OSWrapper/ThreadPool.cpp, "TP") running on *implementations* of its threads: every method of a Thread the pool
calls (TP:125 wait, TP:155 Thread::destroy, TP:194 timedWait, TP:249 start) is a call into a thread program, which takes its own steps,
interleaved with everything else, until it returns; the thread program decides when TaskRunner::run is entered and left.  The field `w` of
`TP.St` says only where the thread is inside TaskRunner::run (`finished`: not in it).  The queue and the event flags are atomic, as in
Model/ThreadPool.lean (their implementations: Model/ThreadPoolQueue.lean, Model/ThreadPoolFlag.lean).
-/
namespace Verif.TP.OnThreads
open Verif TP
open _root_.Verif.Mtx (Tid)
open _root_.Verif.EvF (Tmo)

/-- The Thread method a client at this point calls, and the pool thread it calls it on: TP:194, TP:249, TP:125 (TP:124: for every thread),
TP:155 (for every runner in the queue).  Simplification: TP:149 takes the runner out of the queue before TP:155, here it leaves the queue when
Thread::destroy returns; while destroy runs nobody else uses the queue. -/
def tCall (p : St) (t : Tid) : Option (Rid × Thr.Call) :=
  match p.pc t with
  | .on (.start (some _) tm _ _) (.sWait i) => some (i, .timedWait tm)
  | .on (.start (some _) _ _ _) (.sGo i) => some (i, .start)
  | .on .destroy (.dWait j) => if j < p.n then some (j, .wait) else none
  | .on .destroy .dDrain => match p.free with
    | i :: _ => some (i, .destroy)
    | [] => none
  | _ => none

/-- Where a client continues when the thread returns `o`: TP:195-197, TP:199; TP:249 is the last statement of startThread; TP:124; TP:147. -/
def afterPC (q : PC) (o : Thr.Out) : PC :=
  match q with
  | .on (.start k tm g pr) (.sWait i) => if o = .ok then .on (.start k tm g pr) (.sSet i) else .on (.start k tm g pr) (.ret .timedOut)
  | .on (.start k tm g pr) (.sGo i) => .on (.start k tm g pr) (.sGuard i)
  | .on .destroy (.dWait j) => .on .destroy (.dWait (j + 1))
  | q => q

/-- The thread returns. -/
def resume (p : St) (t : Tid) (o : Thr.Out) : St :=
  { p with pc := upd p.pc t (afterPC (p.pc t) o), free := if p.pc t = .on .destroy .dDrain then p.free.tail else p.free }

/-- Markers of the specification (not code): the moments at which a start or destroy takes effect. -/
def marks (p : St) (t : Tid) (o : Thr.Out) : List Ev :=
  match p.pc t with
  | .on (.start k tm g pr) (.sWait i) => if o = .ok then [] else [.drop t i, .lin t (.start k tm g pr) .timedOut]
  | .on (.start (some k) tm g pr) (.sGo i) =>
    if o = .started then [.acc t i k g pr, .lin t (.start (some k) tm g pr) .ok] else [.lin t (.start (some k) tm g pr) .ok]
  | .on .destroy .dDrain => match p.free with
    | i :: _ => [.kill i]
    | [] => []
  | _ => []

/-- The pool's side of an event of pool thread `i`: a method is called where the pool's code calls it, a return resumes the caller; TaskRunner::run
is entered (TP:252), and left when its code is through (TP:261, 266). -/
def onEv (i : Rid) (p : St) : Thr.Ev → Option (St × List Ev)
  | .call t c => if tCall p t = some (i, c) then some (p, []) else none
  | .lin t _ o => some (p, marks p t o)
  | .ret t _ o => some (resume p t o, [])
  | .runBegin => some (p.wAt i .pending, [])
  | .runEnd => if p.w i = .over then some (p.wAt i .finished, []) else none
  | .fin => some (p, [.fin i])

def onEvs (i : Rid) (p : St) : List Thr.Ev → Option (St × List Ev)
  | [] => some (p, [])
  | x :: xs =>
    match onEv i p x with
    | none => none
    | some (p', a) =>
      match onEvs i p' xs with
      | none => none
      | some (p'', b) => some (p'', a ++ b)

/-- Whether an action is one of the pool's own code: the client is not inside a Thread method, the pool thread is inside TaskRunner::run. -/
def own (p : St) : Act → Bool
  | .call t _ | .go t | .expire t => (tCall p t).isNone
  | .pgo i | .throw i => match p.w i with
    | .finished | .over | .dead => false
    | _ => true

inductive CAct (A : Type) where
  | tp (a : Act)                   -- a step of the pool's code other than a use of a thread
  | thr (i : Rid) (a : A)          -- a step of the code of pool thread `i`

structure CSt (F : Type) where
  p : St
  f : Rid → F

/-- The program of the pool together with the program `T` of its threads `0 .. n - 1`. -/
def step {F A : Type} (T : F → A → Option (F × List Thr.Ev)) (s : CSt F) : CAct A → Option (CSt F × List Ev)
  | .tp a =>
    if own s.p a then
      match TP.step s.p a with
      | some (p, ev) => some (⟨p, s.f⟩, ev)
      | none => none
    else none
  | .thr i a =>
    if i < s.p.n then
      match T (s.f i) a with
      | none => none
      | some (f, evs) =>
        match onEvs i s.p evs with
        | none => none
        | some (p, ev) => some (⟨p, upd s.f i f⟩, ev)
    else none

/-- A pool as `create(n, ...)` leaves it: its threads are created and not started (TP:88-99). -/
def init {F : Type} (n : Nat) (dflt : Int) (f0 : F) : CSt F := ⟨{ TP.init n dflt with w := fun _ => .finished }, fun _ => f0⟩

end Verif.TP.OnThreads
