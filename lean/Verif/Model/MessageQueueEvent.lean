import Verif.Model.MessageQueue
/-
`MessageQueue<T>` (mechanism/OSWrapper/MessageQueue.h, "MQ") running on an event flag *implementation*: where
Model/MessageQueue.lean uses the event flag as an atomic object with two bits, here every `m_event->…` is a call into a
given event flag program (`EvF.Std.step`, `EvF.Itron.step`, or any other with the same call / effect / return events), which takes
its own steps, interleaved with everything else, until it returns.  The bits `ne`, `nf` of `MQ.St` are not used.
-/
namespace Verif.MQ.OnFlag
open Verif MQ
open _root_.Verif.Mtx (Tid Err)
open _root_.Verif.EvF (Tmo)
variable {V F : Type} {w : Nat}

/-- MQ:405 `EV_NOT_EMPTY = 0x0001U`. -/
def evNotEmpty (w : Nat) : BitVec w := BitVec.ofNat w 1
/-- MQ:408 `EV_NOT_FULL = 0x0002U`. -/
def evNotFull (w : Nat) : BitVec w := BitVec.ofNat w 2

/-- The call of `m_event` a thread at this program point makes: MQ:381, 132, 390, 371, 213, 397. -/
def evCall : PC V → Option (EvF.Call w)
  | .sReset _ _ _ => some (.reset (evNotFull w))
  | .sWait _ _ tm => some (.timedWait (evNotFull w) .OR false tm)
  | .sSet _ => some (.set (evNotEmpty w))
  | .rReset _ _ _ => some (.reset (evNotEmpty w))
  | .rWait _ _ tm => some (.timedWait (evNotEmpty w) .OR false tm)
  | .rSet _ _ => some (.set (evNotFull w))
  | _ => none

/-- Where the thread continues when the call returns `r`: MQ:132-135, 213-216 (`if (err != OK) return err;`); the results of `set` and
`reset` are ignored (MQ:371, 381, 390, 397). -/
def after (p : PC V) (r : EvF.Res w) : PC V :=
  match p with
  | .sReset c v tm => .sChkUnl c v tm true
  | .sWait c v _ => if r.err = .OK then .sPushLock c v else .sUnl c (.done r.err none)
  | .sSet c => .sPushUnl c (.done .OK none)
  | .rReset c out tm => .rChkUnl c out tm true
  | .rWait c out _ => if r.err = .OK then .rPopLock c out else .rUnl c (.done r.err none)
  | .rSet c got => .rPopUnl c (.done .OK got)
  | p => p

/-- Marker of the queue's specification (not code): a failing wait is where a failing call takes effect. -/
def linEv (t : Tid) (p : PC V) (r : EvF.Res w) : List (Ev V) :=
  match p with
  | .sWait c _ _ | .rWait c _ _ => if r.err = .OK then [] else [.lin t c (.done r.err none)]
  | _ => []

/-- The queue's side of an event of the flag: a call is made where the queue's code makes it, a return resumes the caller. -/
def onEv (m : St V) : EvF.Ev w → Option (St V × List (Ev V))
  | .call t c => if evCall (m.pc t) = some c then some (m, []) else none
  | .lin t _ r => some (m, linEv t (m.pc t) r)
  | .ret t _ r => some (m.at t (after (m.pc t) r), [])

def onEvs (m : St V) : List (EvF.Ev w) → Option (St V × List (Ev V))
  | [] => some (m, [])
  | x :: xs =>
    match onEv m x with
    | none => none
    | some (m', a) =>
      match onEvs m' xs with
      | none => none
      | some (m'', b) => some (m'', a ++ b)

/-- Thread of an action. -/
def tid : Act V → Tid
  | .call t _ | .go t | .expire t | .raise t _ | .throw t _ => t

inductive CAct (V : Type) (w : Nat) where
  | mq (a : Act V)         -- a step of the queue's code other than a use of the event flag
  | ev (a : EvF.Act w)     -- a step of the event flag's code

structure CSt (V F : Type) where
  m : St V
  f : F

/-- The program of the queue together with the program `O` of its event flag. -/
def step (O : F → EvF.Act w → Option (F × List (EvF.Ev w))) (s : CSt V F) : CAct V w → Option (CSt V F × List (Ev V))
  | .mq a =>
    if (evCall (s.m.pc (tid a)) : Option (EvF.Call w)) = none then
      match MQ.step s.m a with
      | some (m, ev) => some (⟨m, s.f⟩, ev)
      | none => none
    else none
  | .ev a =>
    match O s.f a with
    | none => none
    | some (f, evs) =>
      match onEvs s.m evs with
      | none => none
      | some (m, ev) => some (⟨m, f⟩, ev)

/-- A queue as `create(cap)` leaves it, with its event flag (MQ:359 `EventFlag::create(false)`). -/
def init (V : Type) (cap : Nat) (f : F) : CSt V F := ⟨MQ.init V cap, f⟩

end Verif.MQ.OnFlag
