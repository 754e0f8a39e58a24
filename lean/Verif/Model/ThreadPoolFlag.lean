import Verif.Model.ThreadPoolQueue
/-
`ThreadPool` (mechanism/OSWrapper/ThreadPool.cpp, "TP") running on *implementations* of its queue and of its event flags: as in
Model/ThreadPoolQueue.lean every `m_freeRunnerQueue->…` is a call into a queue program, and here also every `m_ev->…` of a TaskRunner is a
call into an event flag program (one flag per pool thread, TP:82), which takes its own steps, interleaved with everything else, until
it returns.  The bits `ev` of `TP.St` are not used.  As in Model/ThreadPool.lean the platform reports no error.
-/
namespace Verif.TP.OnFlags
open Verif TP
open _root_.Verif.Mtx (Tid Err)
open _root_.Verif.EvF (Tmo)
open _root_.Verif.TP.OnQueue (Who cli wrk who)
variable {w : Nat}

/-- The call of an event flag a client at this point makes, and the pool thread whose flag it is: TP:336 with TP:298 (WaitGuard::timedWait),
TP:315 with TP:323, 336, 298 (WaitGuard::release waits FOREVER), TP:316 with TP:292 (TaskRunner::release). -/
def fPos (w : Nat) : PC → Option (Rid × EvF.Call w)
  | .on (.wait _ tm) (.wWait i) => some (i, .timedWaitAny tm)
  | .on (.release _) (.rWait i) => some (i, .timedWaitAny .forever)
  | .on (.release _) (.rReset i) => some (i, .resetAll)
  | _ => none

/-- The same for pool thread `i`, with its own flag: TP:287 `m_ev->setAll()`, TP:292 `m_ev->resetAll()`. -/
def fW (w : Nat) (i : Rid) : W → Option (Rid × EvF.Call w)
  | .notify _ => some (i, .setAll)
  | .reset _ => some (i, .resetAll)
  | _ => none

def fCall (w : Nat) (p : St) (u : Tid) : Option (Rid × EvF.Call w) := match who u with
  | .client t => fPos w (p.pc t)
  | .worker i => fW w i (p.w i)

/-- What WaitGuard::timedWait returns (TP:336: the result of the event flag). -/
def outOf (r : EvF.Res w) : TP.Out := if r.err = .OK then .ok else .timedOut

/-- Where a client continues when the flag returns `r`: TP:336 returns; TP:315 ignores the result, TP:292 goes on to TP:293. -/
def afterPC (p : PC) (r : EvF.Res w) : PC :=
  match p with
  | .on (.wait g tm) (.wWait _) => .on (.wait g tm) (.ret (outOf r))
  | .on (.release g) (.rWait i) => .on (.release g) (.rReset i)
  | .on (.release g) (.rReset i) => .on (.release g) (.rSend i)
  | p => p

/-- The same for a pool thread: TP:287 is the last statement, TP:292 goes on to TP:293. -/
def afterW (p : W) : W := match p with
  | .notify x => .leave x
  | .reset x => .send x
  | p => p

/-- The flag returns. -/
def resume (p : St) (u : Tid) (r : EvF.Res w) : St :=
  match who u with
  | .worker i => p.wAt i (afterW (p.w i))
  | .client t => { p with pc := upd p.pc t (afterPC (p.pc t) r) }

/-- No platform error. -/
def good (r : EvF.Res w) : Bool := decide (r.err = .OK ∨ r.err = .TimedOut)

/-- Markers of the specification (not code): the moments at which a wait takes effect and a guard is notified. -/
def marks (p : St) (u : Tid) (r : EvF.Res w) : List Ev :=
  match who u with
  | .worker i => match p.w i with
    | .notify _ => [.note i]
    | _ => []
  | .client t => match p.pc t with
    | .on (.wait g tm) (.wWait _) => [.lin t (.wait g tm) (outOf r)]
    | _ => []

/-- The pool's side of an event of the flag of pool thread `i`: a call is made where the pool's code makes it, a return resumes the caller. -/
def onEv (i : Rid) (p : St) : EvF.Ev w → Option (St × List Ev)
  | .call u c => if fCall w p u = some (i, c) then some (p, []) else none
  | .lin u _ r => if good r then some (p, marks p u r) else none
  | .ret u _ r => some (resume p u r, [])

def onEvs (i : Rid) (p : St) : List (EvF.Ev w) → Option (St × List Ev)
  | [] => some (p, [])
  | x :: xs =>
    match onEv i p x with
    | none => none
    | some (p', a) =>
      match onEvs i p' xs with
      | none => none
      | some (p'', b) => some (p'', a ++ b)

/-- Whether the thread of an action is at a call of an event flag. -/
def atFlag (w : Nat) (p : St) : Act → Bool
  | .call t _ | .go t | .expire t => (fPos w (p.pc t)).isSome
  | .pgo i | .throw i => (fW w i (p.w i)).isSome

inductive CAct (A : Type) (w : Nat) where
  | tp (a : Act)                   -- a step of the pool's code other than a use of the queue or of an event flag
  | mq (a : A)                     -- a step of the queue's code
  | ev (i : Rid) (a : EvF.Act w)   -- a step of the code of the event flag of pool thread `i`

structure CSt (Q F : Type) where
  c : OnQueue.CSt Q
  f : Rid → F

/-- The program of the pool together with the program `O` of its queue and the program `P` of its event flags. -/
def step {Q A F : Type} (O : Q → A → Option (Q × List (MQ.Ev Rid))) (P : F → EvF.Act w → Option (F × List (EvF.Ev w))) (s : CSt Q F) :
    CAct A w → Option (CSt Q F × List Ev)
  | .tp a =>
    if atFlag w s.c.p a then none else
    match OnQueue.step O s.c (.tp a) with
    | some (c, ev) => some (⟨c, s.f⟩, ev)
    | none => none
  | .mq a =>
    match OnQueue.step O s.c (.mq a) with
    | some (c, ev) => some (⟨c, s.f⟩, ev)
    | none => none
  | .ev i a =>
    match P (s.f i) a with
    | none => none
    | some (f, evs) =>
      match onEvs i s.c.p evs with
      | none => none
      | some (p, ev) => some (⟨⟨p, s.c.q⟩, upd s.f i f⟩, ev)

/-- A pool as `create(n, ...)` leaves it, with its queue and its event flags (TP:82 `EventFlag::create(false)`). -/
def init {Q F : Type} (n : Nat) (dflt : Int) (q0 : Q) (f0 : F) : CSt Q F := ⟨OnQueue.init n dflt q0, fun _ => f0⟩

end Verif.TP.OnFlags
