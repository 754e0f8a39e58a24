import Verif.Model.WinTimer
/-
Specification of the Windows timers: what is counted in a history, when a timer is active, what is needed of the timer service.
-/
namespace Verif.WT
open Verif
open _root_.Verif.Lts (Reach)

/-- The histories of one timer of kind `k`, with a timer service as in `c`. -/
abbrev Exec (k : Kind) (c : Cfg) (s : WSt) (tr : List Ev) : Prop := Reach (step c) (WSt.init k) s tr

def starts (tr : List Ev) : Nat := tr.count (.op .start .started)
def disps (tr : List Ev) : Nat := tr.count .disp
def enters (tr : List Ev) : Nat := tr.count .enter
def begun (tr : List Ev) : Nat := tr.count .cbBegin
def ended (tr : List Ev) : Nat := tr.count .cbEnd
def fins (tr : List Ev) : Nat := tr.count .fin
def backs (tr : List Ev) : Nat := tr.count .back

/-- How an event changes whether the timer is active: started, and neither stopped nor (one-shot) over since. -/
def activeStep (k : Kind) (b : Bool) : Ev → Bool
  | .op .start .started => true
  | .op .stop .stopped => false
  | .fin => (match k with | .oneShot => false | .periodic => b)
  | _ => b

/-- Is the timer active after this history? -/
def activeAfter (k : Kind) (tr : List Ev) : Bool := tr.foldl (activeStep k) false

/-- What the theorems need of the timer service: a one-shot event that has been dispatched cannot be killed any more; callbacks of a periodic
event do not overlap. -/
def Good (k : Kind) (c : Cfg) : Prop := match k with
  | .oneShot => c.strict = true
  | .periodic => c.serial = true

end Verif.WT
