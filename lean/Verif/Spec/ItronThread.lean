import Verif.Model.ItronThread
import Verif.Spec.Thread
/-
Specification of an ITRON thread object: the same atomic object as on the other platforms (`Thr.Spec.Legal`), with its priority.
-/
namespace Verif.ITh.Spec
open Verif ITh
open _root_.Verif.Mtx (Tid)
open _root_.Verif.Thr.Spec (A)

/-- What happens to a thread. -/
inductive Eff where
  | op (c : Call) (o : Out) | runBegin (base : Nat) | runEnd | fin
  deriving DecidableEq, Repr

/-- State: the thread, and the priority last set. -/
inductive Legal (k : Cfg) : A × Nat → Eff → A × Nat → Prop where
  | thr {a a' p c o} : Thr.Spec.Legal a (.op c o) a' → Legal k (a, p) (.op (.thr c) (.thr o)) (a', p)
  /-- A run begins with the priority last set. -/
  | runBegin {p} : Legal k (.pending, p) (.runBegin p) (.running, p)
  | runEnd {p} : Legal k (.running, p) .runEnd (.over, p)
  | fin {p} : Legal k (.over, p) .fin (.finished, p)
  /-- setPriority: a legal priority, or that of the caller (INHERIT_PRIORITY and everything else). -/
  | set {a p q self} : a ≠ .dead → Legal k (a, p) (.op (.setPriority q self) .set) (a, if k.lo ≤ q ∧ q ≤ k.hi then q else self)
  | get {a p} : a ≠ .dead → Legal k (a, p) (.op .getPriority (.prio p)) (a, p)

inductive Hist (k : Cfg) : List Eff → A × Nat → Prop where
  | nil : Hist k [] (.finished, k.ini)
  | snoc {h a x a'} : Hist k h a → Legal k a x a' → Hist k (h ++ [x]) a'

def effect : Ev → Option Eff
  | .lin _ c o => some (.op c o)
  | .runBegin b => some (.runBegin b)
  | .runEnd => some .runEnd
  | .fin => some .fin
  | _ => none
def effects (tr : List Ev) : List Eff := tr.filterMap effect

/-- Calls, effects and returns (`Verif/Sem/Proto.lean`); isFinished is not one of them (see `Saw`). -/
def view : Ev → Option (Proto.PEv Tid Call Out)
  | .call _ (.thr .isFinished) => none
  | .call t c => some (.call t c)
  | .lin t c o => some (.lin t c o)
  | .ret _ (.thr .isFinished) _ => none
  | .ret t c o => some (.ret t c o)
  | _ => none

abbrev phase (t : Tid) (tr : List Ev) : Proto.Phase Call Out := Proto.phase view t tr

/-- Every call but isFinished takes effect at one moment between call and return, and these moments make a history of the atomic object. -/
def Linearizable (k : Cfg) (tr : List Ev) (a : A × Nat) : Prop := Hist k (effects tr) a ∧ ∀ t, phase t tr ≠ .bad

/-- Since `t` last called isFinished there was a moment when the thread was finished (`b = true`) or not (`b = false`). -/
def Saw (k : Cfg) (t : Tid) (tr : List Ev) (b : Bool) : Prop :=
  ∃ u v w a p, tr = u ++ .call t (.thr .isFinished) :: (v ++ w) ∧ Ev.call t (.thr .isFinished) ∉ v ++ w ∧
    Hist k (effects (u ++ .call t (.thr .isFinished) :: v)) (a, p) ∧ a ≠ .dead ∧ (a = .finished ↔ b = true)

end Verif.ITh.Spec
