/-
Model of the common main functions of threads and timers and of their exception handling: mechanism/OSWrapper/Thread.cpp:83-145,
OneShotTimer.cpp:19-82, PeriodicTimer.cpp:19-82 (compiled with exceptions).

User code (Runnable::run, the handlers' handle) and the platform's stop() are arbitrary: functions of the state that may change
everything a program can change, end normally or with any exception.  That they end at all is an assumption.
-/
namespace Verif.Main

/-- What can be thrown, as far as the catch clauses of Thread.cpp:135-143 can tell: something derived from std::exception (also if
derived from Assertion::Failure too: the first clause wins), an Assertion::Failure, anything else. -/
inductive Thrown where
  | std (what : String)
  | failure (message : String)
  | other
  deriving DecidableEq, Repr

/-- The three classes that have a copy of this code. -/
inductive Kind where
  | thread | oneShot | periodic
  deriving DecidableEq, Repr

/-- What happens. -/
inductive Ev (H : Type) where
  | run
  | stop
  | handle (h : H) (self : Nat) (msg : String)
  deriving DecidableEq, Repr

/-- m_uncaughtExceptionHandler, m_defaultUncaughtExceptionHandler (null = none), the rest of the program's state, and what has
happened so far. -/
structure W (H U : Type) where
  own : Option H
  dflt : Option H
  user : U
  log : List (Ev H)

/-- A piece of code: the state afterwards and the exception it ended with, if any. -/
abbrev Code (σ : Type) := σ → σ × Option Thrown

variable {H U σ : Type}

/-- Sequence. -/
def seq (m n : Code σ) : Code σ := fun s => match m s with
  | (s', none) => n s'
  | r => r
/-- try m catch: `f` handles the exception. -/
def tryC (m : Code σ) (f : Thrown → Code σ) : Code σ := fun s => match m s with
  | (s', some e) => f e s'
  | r => r
def skip : Code σ := fun s => (s, none)

/-- Arbitrary code from outside: it sees and may change the handlers and its own state, not the log. -/
abbrev Ext (H U : Type) := Option H → Option H → U → Option H × Option H × U × Option Thrown

/-- Run it, and record the event. -/
def ext (e : Ev H) (f : Ext H U) : Code (W H U) := fun w =>
  let r := f w.own w.dflt w.user
  (⟨r.1, r.2.1, r.2.2.1, w.log ++ [e]⟩, r.2.2.2)

/-- The object and the world around it. -/
structure Env (H U : Type) where
  kind : Kind
  self : Nat
  runnable : Option (Ext H U)                   -- m_runnable (null = none)
  stop : Ext H U
  handler : H → Nat → String → Ext H U

/-- The try block: Thread.cpp:107-111; timers: OneShotTimer.cpp:43-48, PeriodicTimer.cpp:43-48. -/
def handleTry (E : Env H U) (msg : String) : Code (W H U) :=
  seq (match E.kind with | .thread => skip | _ => ext .stop E.stop) fun w =>
    match w.own with
    | some h => ext (.handle h E.self msg) (E.handler h E.self msg) w
    | none => match w.dflt with
      | some h => ext (.handle h E.self msg) (E.handler h E.self msg) w
      | none => (w, none)

/-- Thread.cpp:103-119, OneShotTimer.cpp:39-56, PeriodicTimer.cpp:39-56. -/
def handleException (E : Env H U) (msg : String) : Code (W H U) :=
  tryC (handleTry E msg) fun _ => skip

/-- Thread.cpp:125-145 threadMain, OneShotTimer.cpp:62-82, PeriodicTimer.cpp:62-82 timerMain. -/
def main (E : Env H U) : Code (W H U) :=
  tryC (match E.runnable with
    | some r => ext .run r
    | none => skip) fun
  | .std what => handleException E what
  | .failure message => handleException E message
  | .other => handleException E "Unknown Exception"

end Verif.Main
