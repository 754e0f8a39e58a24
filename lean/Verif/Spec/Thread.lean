import Verif.Model.Thread
import Verif.Sem.Proto
/-
Specification of a thread object as an atomic object.
-/
namespace Verif.Thr.Spec
open Verif Thr
open _root_.Verif.Mtx (Tid Err)
open _root_.Verif.EvF (Tmo)

/-- finished: ready to be started; pending: started, the Runnable not entered yet; running: inside the Runnable; over: the Runnable
has returned but the thread does not count as finished yet; dead: destroyed. -/
inductive A where
  | finished | pending | running | over | dead
  deriving DecidableEq, Repr

/-- What happens to a thread. -/
inductive Eff where
  | op (c : Call) (o : Out) | runBegin | runEnd | fin
  deriving DecidableEq, Repr

/-- The timeout of a wait. -/
def tmo : Call → Option Tmo
  | .wait => some .forever
  | .tryWait => some (.ms 0)
  | .timedWait tm => some tm
  | _ => none

inductive Legal : A → Eff → A → Prop where
  /-- start() on a finished thread is effective, -/
  | started : Legal .finished (.op .start .started) .pending
  /-- otherwise it is ignored. -/
  | ignored {a} : a ≠ .finished → a ≠ .dead → Legal a (.op .start .ignored) a
  /-- A wait returns OK when the thread is finished, -/
  | ok {c tm} : tmo c = some tm → Legal .finished (.op c .ok) .finished
  /-- TimedOut only with a finite timeout and when it is not finished. -/
  | timedOut {a c tm} : tmo c = some tm → tm ≠ .forever → a ≠ .finished → a ≠ .dead → Legal a (.op c .timedOut) a
  | isFinished {a} : a ≠ .dead → Legal a (.op .isFinished (.finished (decide (a = .finished)))) a
  | runBegin : Legal .pending .runBegin .running
  | runEnd : Legal .running .runEnd .over
  | fin : Legal .over .fin .finished
  /-- destroy() returns when the thread is finished; nothing happens after that. -/
  | destroyed : Legal .finished (.op .destroy .destroyed) .dead

inductive Hist : List Eff → A → Prop where
  | nil : Hist [] .finished
  | snoc {h a x a'} : Hist h a → Legal a x a' → Hist (h ++ [x]) a'

def effects (tr : List Ev) : List Eff :=
  tr.filterMap (fun | .lin _ c o => some (.op c o) | .runBegin => some .runBegin | .runEnd => some .runEnd | .fin => some .fin | _ => none)

/-- Calls, effects and returns (`Verif/Sem/Proto.lean`). -/
def view : Ev → Option (Proto.PEv Tid Call Out)
  | .call t c => some (.call t c)
  | .lin t c o => some (.lin t c o)
  | .ret t c o => some (.ret t c o)
  | _ => none

/-- Where a client is, judging by the trace; `bad`: not a sequence of (call, effect, return with that effect's result). -/
abbrev phase (t : Tid) (tr : List Ev) : Proto.Phase Call Out := Proto.phase view t tr

def Linearizable (tr : List Ev) (a : A) : Prop := Hist (effects tr) a ∧ ∀ t, phase t tr ≠ .bad

end Verif.Thr.Spec
