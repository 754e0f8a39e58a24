import Verif.Model.Timer
import Verif.Sem.Proto
/-
Specification of a timer as an atomic object.
-/
namespace Verif.Tm.Spec
open Verif Tm
open _root_.Verif.Mtx (Tid)

/-- Where the timer thread is: no callback; one is due; inside it; it is over (one-shot); the thread has ended; the timer is destroyed. -/
inductive Ph where
  | rest | due | run | over | quit | dead
  deriving DecidableEq, Repr

structure A where
  /-- started and not stopped or finished since -/
  active : Bool
  /-- the last effective start has not been dealt with yet (a new start has to wait) -/
  owes : Bool
  ph : Ph
  deriving DecidableEq, Repr

inductive Eff where
  | op (c : Call) (o : Out) | arm | due | cbBegin | cbEnd | fin | ack | quit
  deriving DecidableEq, Repr

/-- After a callback. -/
def afterCb : Kind → Ph
  | .oneShot => .over
  | .periodic => .rest

inductive Legal (k : Kind) : A → Eff → A → Prop where
  | started {a tm} : a.active = false → a.owes = false → Legal k a (.op (.start tm) .started) { a with active := true, owes := true }
  | startIgnored {a tm} : a.active = true → Legal k a (.op (.start tm) .ignored) a
  | stopped {a} : a.active = true → Legal k a (.op .stop .stopped) { a with active := false }
  | stopIgnored {a} : a.active = false → Legal k a (.op .stop .ignored) a
  | isStarted {a} : Legal k a (.op .isStarted (.active a.active)) a
  /-- The time is measured while the timer is active; -/
  | arm {a} : a.active = true → a.ph = .rest → Legal k a .arm a
  /-- only an active timer's callback becomes due. -/
  | due {a} : a.active = true → a.owes = true → a.ph = .rest → Legal k a .due { a with ph := .due }
  | cbBegin {a} : a.ph = .due → Legal k a .cbBegin { a with ph := .run }
  | cbEnd {a} : a.ph = .run → Legal k a .cbEnd { a with ph := afterCb k }
  /-- A one-shot timer becomes inactive after its callback. -/
  | fin {a} : k = .oneShot → a.ph = .over → Legal k a .fin { a with ph := .rest, active := false, owes := false }
  | ack {a} : a.active = false → a.owes = true → a.ph = .rest → Legal k a .ack { a with owes := false }
  | quit {a b} : a.ph = .rest → Legal k a .quit { a with ph := .quit, owes := b }
  | destroyed {a} : a.ph = .quit → Legal k a (.op .destroy .destroyed) { a with ph := .dead }

inductive Hist (k : Kind) : List Eff → A → Prop where
  | nil : Hist k [] ⟨false, false, .rest⟩
  | snoc {h a x a'} : Hist k h a → Legal k a x a' → Hist k (h ++ [x]) a'

def eff : Ev → Option Eff
  | .lin _ c o => some (.op c o)
  | .arm => some .arm
  | .due => some .due
  | .cbBegin => some .cbBegin
  | .cbEnd => some .cbEnd
  | .fin => some .fin
  | .ack => some .ack
  | .quit => some .quit
  | .call .. | .ret .. => none

def effects (tr : List Ev) : List Eff := tr.filterMap eff

/-- Calls, effects and returns (`Verif/Sem/Proto.lean`). -/
def view : Ev → Option (Proto.PEv Tid Call Out)
  | .call t c => some (.call t c)
  | .lin t c o => some (.lin t c o)
  | .ret t c o => some (.ret t c o)
  | _ => none

abbrev phase (t : Tid) (tr : List Ev) : Proto.Phase Call Out := Proto.phase view t tr

def Linearizable (k : Kind) (tr : List Ev) (a : A) : Prop := Hist k (effects tr) a ∧ ∀ t, phase t tr ≠ .bad

end Verif.Tm.Spec
