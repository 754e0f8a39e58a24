import Verif.Model.ThreadPoolThread
import Verif.Model.ItronThread
/-
`ThreadPool` (mechanism/OSWrapper/ThreadPool.cpp) running on ITRON threads (platform/ItronOSWrapper/ItronThreadFactory.cpp, Model/ItronThread.lean): the thread
program for `TP.OnThreads.step`.  Every kernel call of start, timedWait, wait, destroy and of the thread's task is a step.
-/
namespace Verif.TP.OnItron
open Verif
open _root_.Verif.Mtx (Tid)

/-- An event of an ITRON thread as the pool sees it: calls, effects and returns of the methods it uses, and the way of the task through TaskRunner::run.  The pool
does not see who else asks for isFinished or uses priorities. -/
def seen : ITh.Ev → Option Thr.Ev
  | .call _ (.thr .isFinished) => none
  | .call t (.thr c) => some (.call t c)
  | .lin _ (.thr .isFinished) _ => none
  | .lin t (.thr c) (.thr o) => some (.lin t c o)
  | .ret _ (.thr .isFinished) _ => none
  | .ret t (.thr c) (.thr o) => some (.ret t c o)
  | .runBegin _ => some .runBegin
  | .runEnd => some .runEnd
  | .fin => some .fin
  | _ => none

/-- The calls that are no business of the pool: priorities and isFinished.  The pool's own calls of setPriority (TP:248, 277) are steps of `TP.step`, as on the
other platforms (simplification). -/
def foreign : ITh.Act → Bool
  | .call _ (.thr .isFinished) => true
  | .call _ (.thr _) => false
  | .call _ _ => true
  | _ => false

/-- The program of an ITRON thread (IT:78-86, 145-228, 317-330).  `others`: whether anybody may ask for isFinished, getPriority and setPriority meanwhile (by
getCurrentThread(), from a task). -/
def program (k : ITh.Cfg) (others : Bool) (s : ITh.St) (a : ITh.Act) : Option (ITh.St × List Thr.Ev) :=
  if foreign a = true ∧ others = false then none
  else match ITh.step k s a with
    | some (s', ev) => some (s', ev.filterMap seen)
    | none => none

end Verif.TP.OnItron
