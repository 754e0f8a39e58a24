import Verif.Model.Fronts
import Verif.Model.Priority
/-
The init functions of the platforms and the thread front-ends that only forward to the registered thread factory.
SI = platform/StdCppOSWrapper/StdCppOSWrapper.cpp:27-46, PI = platform/PosixOSWrapper/PosixOSWrapper.cpp:32-50,
WI = platform/WindowsOSWrapper/WindowsOSWrapper.cpp:32-50, II = platform/ItronOSWrapper/ItronOSWrapper.cpp:17-33,
TI = platform/TestDoubleOSWrapper/TestDoubleOSWrapper.cpp:34-52, TH = mechanism/OSWrapper/Thread.cpp.
A function-local `static` factory is constructed by the first call of its init function and is the same object in every later call.
Simplified: the constructor of the Posix factory keeps the range (0,0) when pthread_getschedparam fails; that failure is not modelled.
Not modelled: two first calls of init at the same time.
-/
namespace Verif.Init
open Verif Verif.Fronts

inductive Plat where
  | stdcpp | posix | windows | itron | testDouble
  deriving DecidableEq, Repr

/-- Numbering of the static factories (only identity matters). -/
def platNo : Plat → Nat
  | .stdcpp => 0 | .posix => 1 | .windows => 2 | .itron => 3 | .testDouble => 4
def kindNo : Kind → Nat
  | .thread => 0 | .mutex => 1 | .eventFlag => 2 | .fixedPool => 3 | .variablePool => 4 | .periodicTimer => 5 | .oneShotTimer => 6
/-- The Posix and Windows factories are subclasses of the StdCpp ones. -/
def famOf : Plat → Family
  | .stdcpp | .posix | .windows => .stdcpp
  | .itron => .itron
  | .testDouble => .testDouble
/-- The static factory object of kind `k` in the init function of platform `p`. -/
def staticFac (p : Plat) (k : Kind) : Factory := ⟨7 * platNo p + kindNo k, famOf p⟩

/-- The registered factories and, per platform, the priority range of its static thread factory once that is constructed. -/
structure ISt where
  fr : FSt
  range : Plat → Option Prio.Range

def ISt.init : ISt := ⟨.init, fun _ => none⟩

/-- `registerXFactory(&theXFactory)`, as Fronts.register. -/
def reg (k : Kind) (f : Option Factory) (s : ISt) : ISt :=
  { s with fr := { s.fr with fac := fun j => if j = k then f else s.fr.fac j } }

/-- The µITRON configuration constants TMIN_TPRI and TMAX_TPRI. -/
structure Conf where
  tmin : Int
  tmax : Int

/-- The range a newly constructed thread factory has: StdCppThreadFactory.cpp:236-254 (0 everywhere), PosixThreadFactory.cpp:53-74 and
WindowsThreadFactory.cpp:52-61 (the arguments), ItronThreadFactory.cpp:359-377 (TMIN_TPRI is the most urgent),
TestDoubleThreadFactory.h:146-164 (0 everywhere). -/
def ctorRange (c : Conf) (r : Prio.Range) : Plat → Prio.Range
  | .stdcpp | .testDouble => ⟨0, 0⟩
  | .posix | .windows => r
  | .itron => ⟨c.tmax, c.tmin⟩

/-- `static PosixThreadFactory theThreadFactory(lowestPriority, highestPriority);` -/
def constructOnce (c : Conf) (p : Plat) (r : Prio.Range) (s : ISt) : ISt :=
  { s with range := fun q => if q = p then some ((s.range p).getD (ctorRange c r p)) else s.range q }

/-- SI, PI, WI, II, TI `init`: the statement list of the function. -/
def init (c : Conf) (p : Plat) (r : Prio.Range) (s : ISt) : ISt :=
  let s := constructOnce c p r s
  let s := reg .thread (some (staticFac p .thread)) s
  let s := reg .mutex (some (staticFac p .mutex)) s
  let s := reg .eventFlag (some (staticFac p .eventFlag)) s
  let s := reg .fixedPool (some (staticFac p .fixedPool)) s
  let s := reg .variablePool (some (staticFac p .variablePool)) s
  let s := reg .periodicTimer (some (staticFac p .periodicTimer)) s
  if p = .itron then s                                             -- II has no OneShotTimer
  else reg .oneShotTimer (some (staticFac p .oneShotTimer)) s

/-- The range of the registered thread factory, if that is a static one. -/
def theRange (s : ISt) : Option Prio.Range :=
  match s.fr.fac .thread with
  | none => none
  | some f =>
    if f = staticFac .stdcpp .thread then s.range .stdcpp
    else if f = staticFac .posix .thread then s.range .posix
    else if f = staticFac .windows .thread then s.range .windows
    else if f = staticFac .itron .thread then s.range .itron
    else if f = staticFac .testDouble .thread then s.range .testDouble
    else none

/-- TH:200-204, 206-210 `getHighestPriority`, `getLowestPriority`; `none`: the assertion fails (or a foreign factory answers). -/
def getHighest (s : ISt) : Option Int := (theRange s).map (·.highest)
def getLowest (s : ISt) : Option Int := (theRange s).map (·.lowest)
/-- TH:182-186, 188-192 `getMaxPriority`, `getMinPriority`. -/
def getMax (s : ISt) : Option Int := (theRange s).map Prio.maxP
def getMin (s : ISt) : Option Int := (theRange s).map Prio.minP

/-- A call of the client. -/
inductive Op where
  | init (p : Plat) (r : Prio.Range)
  | front (op : Fronts.Op)

/-- A history of calls. -/
def run (c : Conf) (plat : List Ev → Option Nat) : List Op → ISt → ISt
  | [], s => s
  | .init p r :: ops, s => run c plat ops (init c p r s)
  | .front op :: ops, s => run c plat ops { s with fr := Fronts.run plat [op] s.fr }

end Verif.Init
