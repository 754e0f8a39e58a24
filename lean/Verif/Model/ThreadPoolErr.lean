import Verif.Model.ThreadPool
import Verif.Model.Mutex
/-
`ThreadPool` when the calls it makes of its queue, event flags and threads can fail, e.g. with CalledByNonThread on µITRON
(ItronMutexFactory.cpp:86, ItronEventFlagFactory.cpp:106) if a client calls from an interrupt handler: the steps of
`Verif/Model/ThreadPool.lean` ("TP" is mechanism/OSWrapper/ThreadPool.cpp), and at every such call the alternative that it returns an
error instead.  A call that fails has no effect of its own.

Thread::setPriority and Thread::start return nothing; they are taken as before.
-/
namespace Verif.TPE
open Verif
open _root_.Verif.Mtx (Tid Err)
open _root_.Verif.EvF (Tmo)
open _root_.Verif.TP (Gid Rid Task Call Out PC Pos W Own)

/-- `err t`: the error the call of `t` is about to return. -/
structure XSt where
  b : TP.St
  err : Tid → Option Err

def init (n : Nat) (dflt : Int) : XSt := ⟨TP.init n dflt, fun _ => none⟩

inductive XAct where
  | base (a : TP.Act)
  | fail (t : Tid) (e : Err)       -- what client `t` is calling returns the error `e`
  | pfail (i : Rid) (e : Err)      -- what pool thread `i` is calling returns the error `e`
  deriving DecidableEq, Repr

inductive XEv where
  | ev (e : TP.Ev)
  | err (t : Tid) (c : Call) (e : Err)       -- the call returns the error `e`
  | failed (t : Tid) (c : Call) (e : Err)    -- something client `t` called in its call `c` has failed with `e` (not observable)
  | pfailed (i : Rid) (e : Err)
  deriving DecidableEq, Repr

def isErr : Err → Bool
  | .OK | .TimedOut => false
  | _ => true

/-- The events of a step; a return yields the error, if there is one. -/
def events (s : XSt) (l : List TP.Ev) : List XEv := l.map fun x => match x with
  | .ret t c o => (match s.err t with | some e => .err t c e | none => .ev (.ret t c o))
  | x => .ev x

/-- The error has been returned. -/
def cleared (s : XSt) : TP.Act → Tid → Option Err
  | .call t _ => upd s.err t none
  | _ => s.err

/-- The call of `t` returns the error `e`. -/
def giveUp (s : XSt) (b : TP.St) (t : Tid) (c : Call) (e : Err) : XSt := ⟨b.at t c (.ret .timedOut), upd s.err t (some e)⟩

def step (s : XSt) : XAct → Option (XSt × List XEv)
  | .base a => match TP.step s.b a with
    | some (b', l) => some (⟨b', cleared s a⟩, events s l)
    | none => none
  | .fail t e =>
    if isErr e = false then none else
    match s.b.pc t with
    | .idle => none
    | .on c p =>
      match c, p with
      -- TP:188-191
      | .start (some _) _ _ _, .sRecv => some (giveUp s s.b t c e, [.failed t c e])
      -- TP:194-197
      | .start (some _) _ _ _, .sWait i => some (giveUp s (s.b.ownAt i .lost) t c e, [.failed t c e, .ev (.drop t i)])
      -- TP:298, 336
      | .wait _ _, .wWait _ => some (giveUp s s.b t c e, [.failed t c e])
      -- TP:315: the result of wait() is ignored
      | .release _, .rWait i => some (⟨(s.b.at t c (.rReset i)).ownAt i (.rel t), s.err⟩, [.failed t c e])
      -- TP:292: the result of resetAll() is ignored
      | .release _, .rReset i => some (⟨s.b.at t c (.rSend i), s.err⟩, [.failed t c e])
      -- TP:209: the result of send() is ignored
      | .release _, .rSend i => some (⟨(s.b.at t c .rClear).ownAt i .lost, s.err⟩, [.failed t c e, .ev (.drop t i)])
      -- TP:125: the result of wait() is ignored
      | .destroy, .dWait j => if j < s.b.n then some (⟨s.b.at t c (.dWait (j + 1)), s.err⟩, [.failed t c e]) else none
      -- TP:149-153: any error ends the loop
      | .destroy, .dDrain => some (⟨{ s.b.at t c (.ret .done) with gone := true }, s.err⟩, [.failed t c e])
      | _, _ => none
  | .pfail i e =>
    if isErr e = false then none else
    match s.b.w i with
    -- TP:287: the result of setAll() is ignored
    | .notify x => some (⟨s.b.wAt i (.leave x), s.err⟩, [.pfailed i e])
    -- TP:292
    | .reset x => some (⟨s.b.wAt i (.send x), s.err⟩, [.pfailed i e])
    -- TP:209
    | .send x => some (⟨(s.b.wAt i (.leave x)).ownAt i .lost, s.err⟩, [.pfailed i e])
    | _ => none

end Verif.TPE
