import Verif.Model.Mutex
/-
`ItronMutex` (platform/ItronOSWrapper/ItronMutexFactory.cpp:13-119) when tasks end: µITRON unlocks the mutexes a task holds when it exits
(ext_tsk), but nothing resets `m_recursiveCount`.  Everything else as in Model/Mutex.
Simplification: a task exits only between calls of the mutex (it is not terminated inside one by another task).
-/
namespace Verif.Mtx.Itron
open Verif

inductive ActX where
  | op (a : Act)
  | exit (t : Tid)
  deriving DecidableEq, Repr

inductive EvX where
  | ev (e : Ev)
  | exit (t : Tid)
  deriving DecidableEq, Repr

/-- The steps of Model/Mutex and ext_tsk. -/
def stepX (ceil : Tid → Bool) (s : St) : ActX → Option (St × List EvX)
  | .op a => match step ceil s a with
    | some (s', ev) => some (s', ev.map .ev)
    | none => none
  | .exit t => if s.pc t = .idle then some (if s.owner = some t then { s with owner := none } else s, [.exit t]) else none

end Verif.Mtx.Itron
