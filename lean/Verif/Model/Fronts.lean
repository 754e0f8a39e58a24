import Verif.Sem.Cmd
/-
The static create / destroy functions of OSWrapper and the registration of factories.
TH = mechanism/OSWrapper/Thread.cpp, OT = OneShotTimer.cpp, PT = PeriodicTimer.cpp, MX = Mutex.cpp, EF = EventFlag.cpp,
FP = FixedMemoryPool.cpp, VP = VariableMemoryPool.cpp (all in mechanism/OSWrapper); the zero-size tests of the pool factories
SF = platform/StdCppOSWrapper/StdCppFixedMemoryPoolFactory.cpp, SV = StdCppVariableMemoryPoolFactory.cpp,
IF, IV = platform/ItronOSWrapper/ItronFixedMemoryPoolFactory.cpp, ItronVariableMemoryPoolFactory.cpp.
(The Posix and Windows pool, mutex and event flag factories are subclasses of the StdCpp ones without changes.)
Everything behind a factory that creates or deletes something is one call of the platform, recorded in a log.
Not modelled here: what the platform does; failures inside it are its answer `none`.
-/
namespace Verif.Fronts
open Verif

inductive Kind where
  | thread | mutex | eventFlag | fixedPool | variablePool | oneShotTimer | periodicTimer
  deriving DecidableEq, Repr

/-- Which implementation a registered factory is. -/
inductive Family where
  | stdcpp | itron | testDouble
  deriving DecidableEq, Repr

structure Factory where
  name : Nat
  family : Family
  deriving DecidableEq, Repr

/-- The arguments that are tested somewhere. -/
structure Args where
  runnable : Option Nat     -- Runnable* (null: none)
  period : Nat              -- periodInMillis
  blockSize : Nat
  poolSize : Nat
  deriving DecidableEq, Repr

/-- Calls that reach the platform. -/
inductive Ev where
  | create (f : Factory) (k : Kind) (a : Args)
  | destroy (f : Factory) (k : Kind) (p : Nat)
  deriving DecidableEq, Repr

/-- One `s_factory` per kind (TH:73, MX:7, EF:7, FP:7, VP:7, OT:9, PT:9), and the log of calls of the platform. -/
structure FSt where
  fac : Kind → Option Factory
  log : List Ev

def FSt.init : FSt := ⟨fun _ => none, []⟩

abbrev Prog := Cmd FSt

/-- `CHECK_ASSERT(s_factory)`. -/
def theFactory (k : Kind) : Prog Factory := do
  let s ← Cmd.gets id
  match s.fac k with
  | none => Cmd.throw .assertFail
  | some f => pure f

/-- The platform is asked for an object; `plat` gives its answer (a pointer or null) from the log so far. -/
def askPlatform (plat : List Ev → Option Nat) (f : Factory) (k : Kind) (a : Args) : Prog (Option Nat) := do
  let s ← Cmd.gets id
  Cmd.modify fun s => { s with log := s.log ++ [.create f k a] }
  pure (plat s.log)

/-- `s_factory->create(...)`: the pool factories test for zero sizes first, SF:40-42, SV:31-33, IF:77-79, IV:73-75 (not the test doubles). -/
def factoryCreate (plat : List Ev → Option Nat) (f : Factory) (k : Kind) (a : Args) : Prog (Option Nat) :=
  if f.family = .testDouble then askPlatform plat f k a
  else if k = .fixedPool then
    if a.blockSize = 0 ∨ a.poolSize = 0 then pure none else askPlatform plat f k a
  else if k = .variablePool then
    if a.poolSize = 0 then pure none else askPlatform plat f k a
  else askPlatform plat f k a

/-- TH:147-154, OT:84-91, PT:84-94, MX:14-18, 20-24, EF:14-18, FP:14-18, VP:14-18 `create`. -/
def create (plat : List Ev → Option Nat) (k : Kind) (a : Args) : Prog (Option Nat) := do
  let f ← theFactory k
  match k with
  | .thread => if a.runnable = none then pure none else factoryCreate plat f k a
  | .oneShotTimer => if a.runnable = none then pure none else factoryCreate plat f k a
  | .periodicTimer =>
    if a.runnable = none then pure none
    else if a.period = 0 then pure none
    else factoryCreate plat f k a
  | _ => factoryCreate plat f k a

/-- TH:156-161, OT:93-98, PT:96-101, MX:26-31, EF:20-25, FP:20-25, VP:20-25 `destroy`. -/
def destroy (k : Kind) (p : Option Nat) : Prog Unit := do
  let s ← Cmd.gets id
  match s.fac k, p with
  | some f, some p => Cmd.modify fun s => { s with log := s.log ++ [.destroy f k p] }
  | _, _ => pure ()

/-- `registerXFactory(f)`, MX:9-12 and the like; a null pointer unregisters. -/
def register (k : Kind) (f : Option Factory) : Prog Unit :=
  Cmd.modify fun s => { s with fac := fun j => if j = k then f else s.fac j }

/-- A call of the client. -/
inductive Op where
  | register (k : Kind) (f : Option Factory)
  | create (k : Kind) (a : Args)
  | destroy (k : Kind) (p : Option Nat)
  deriving DecidableEq, Repr

/-- A sequence of calls; an assertion failure is caught by the caller, who goes on. -/
def run (plat : List Ev → Option Nat) : List Op → FSt → FSt
  | [], s => s
  | op :: ops, s =>
    let out := match op with
      | .register k f => (match register k f s with | .ok _ s' => s' | .exn _ s' => s' | _ => s)
      | .create k a => (match create plat k a s with | .ok _ s' => s' | .exn _ s' => s' | _ => s)
      | .destroy k p => (match destroy k p s with | .ok _ s' => s' | .exn _ s' => s' | _ => s)
    run plat ops out

end Verif.Fronts
