import Verif.Sem.Cmd
import Verif.Spec.Resource
import Verif.Model.Priority
/-
Creating and destroying threads and timers on the StdCpp platform family when calls inside fail:
SF = platform/StdCppOSWrapper/StdCppThreadFactory.cpp, OF = StdCppOneShotTimerFactory.cpp, PF = StdCppPeriodicTimerFactory.cpp (same folder).
PosixThreadFactory and WindowsThreadFactory inherit create and destroy and override setName and setPriority; the timers are the StdCpp ones on
the StdCpp and Posix platforms.  Build with exceptions (CPPELIB_NO_EXCEPTIONS not defined).
Modelled: which call throws what, the catch clauses, what is obtained and given back and in which order, `delete` of an object whose
std::thread is joinable (std::terminate), the null dereference.  Not modelled here: other clients (Model/StdThreadTable), the thread's and the
timer's own loops (Model/Thread, Model/Timer), exceptions thrown by locking a mutex.
-/
namespace Verif.SCr
open Verif

/-- What is obtained. -/
inductive Rsrc where
  | timer      -- the timer object, OF:163 `new StdCppOneShotTimer`, PF:165
  | obj        -- the thread object, SF:170 `new StdCppThread`
  | os         -- the operating system thread, SF:43
  | entry      -- the entry in m_threadIdMap, SF:198
  deriving DecidableEq, Repr

abbrev Ev := Res.Ev Rsrc

/-- The calls that can throw. -/
inductive Site where
  | newObj       -- SF:170 operator new or a member's constructor
  | osThread     -- SF:43 the constructor of std::thread
  | setName      -- SF:46 (virtual)
  | setPriority  -- SF:47 (virtual)
  | insert       -- SF:198 unordered_map::insert
  | newTimer     -- OF:163, PF:165 operator new
  | timerMembers -- OF:80, PF:78 the constructors of std::mutex and std::condition_variable
  | timerPriority -- OF:92, PF:90 m_thread->setPriority(getHighestPriority())
  deriving DecidableEq, Repr

/-- What every call throws, if anything; `Exn.assertFail` is Assertion::Failure. -/
abbrev Cfg := Site → Option Exn

structure CSt where
  log : List Ev
  made : Bool        -- the local `t != nullptr` in SF:176
  joinable : Bool    -- t->m_thread.joinable()
  mThread : Bool     -- the timer's m_thread != nullptr
  deriving DecidableEq, Repr

def CSt.init : CSt := ⟨[], false, false, false⟩

abbrev Prog := Cmd CSt

/-- std::terminate: the program ends. -/
def terminate {α : Type} : Prog α := fun _ => .diverge

/-- `try { m } catch …`; `h` gets the exception. -/
def catching {α : Type} (m : Prog α) (h : Exn → Prog α) : Prog α := fun s => match m s with
  | .exn e s' => h e s'
  | r => r

def emit (e : Ev) : Prog Unit := Cmd.modify fun s => { s with log := s.log ++ [e] }

/-- A call that may throw. -/
def call (c : Cfg) (x : Site) : Prog Unit := match c x with
  | some e => Cmd.throw e
  | none => pure ()

/-- A call that obtains `r` or throws. -/
def obtain (c : Cfg) (x : Site) (r : Rsrc) : Prog Unit := match c x with
  | some e => do emit (.fail r); Cmd.throw e
  | none => emit (.acq r)

/-- SF:41-49 beginThread. -/
def beginThread (c : Cfg) : Prog Unit := do
  obtain c .osThread .os                                       -- SF:43-45
  Cmd.modify fun s => { s with joinable := true }
  call c .setName                                              -- SF:46
  call c .setPriority                                          -- SF:47

/-- SF:51-60 endThread: wait, join. -/
def endThread : Prog Unit := do
  emit (.use .obj)
  emit (.rel .os)
  Cmd.modify fun s => { s with joinable := false }

/-- `delete t`: nothing for null; ~std::thread of a joinable thread calls std::terminate. -/
def deleteThread : Prog Unit := do
  let s ← Cmd.gets id
  if s.made = false then pure ()
  else if s.joinable then terminate
  else emit (.rel .obj)

/-- SF:177-193 the first part of StdCppThreadFactory::create; `false`: null is returned. -/
def createFirst (c : Cfg) : Prog Bool := catching
  (do
    obtain c .newObj .obj                                      -- SF:182
    Cmd.modify fun s => { s with made := true }
    beginThread c                                              -- SF:183
    pure true)
  (fun e => if e = .assertFail then Cmd.throw e                -- SF:186-188
    else do
      deleteThread                                             -- SF:189-193
      pure false)

/-- SF:194-208 the second part. -/
def createSecond (c : Cfg) : Prog Bool := catching
  (do
    obtain c .insert .entry                                    -- SF:198-199
    pure true)
  (fun _ => do                                                 -- SF:202-207
    endThread
    deleteThread
    pure false)

/-- SF:173-209 StdCppThreadFactory::create; the result is whether the returned pointer is not null. -/
def create (c : Cfg) : Prog Bool := do
  let r ← createFirst c
  if r then createSecond c else pure false

/-- SF:211-218 StdCppThreadFactory::destroy. -/
def destroy : Prog Unit := do
  endThread
  emit (.rel .entry)
  deleteThread

/-- OSWrapper::Thread::destroy on the timer's m_thread (unique_ptr's deleter; mechanism/OSWrapper/Thread.cpp: null is ignored). -/
def destroyThread : Prog Unit := do
  let s ← Cmd.gets id
  if s.mThread then destroy else pure ()

/-- OF:75-83, PF:73-81 the timer's constructor: an exception destroys the members made so far and frees the memory (`new`). -/
def newTimer (c : Cfg) : Prog Unit := do
  obtain c .newTimer .timer
  catching (do
      let b ← create c                                         -- OF:79 Thread::create(&m_task), INHERIT_PRIORITY
      Cmd.modify fun s => { s with mThread := b }
      catching (call c .timerMembers) (fun e => do             -- OF:80
        destroyThread
        Cmd.throw e))
    fun e => do
      emit (.rel .timer)
      Cmd.throw e

/-- OF:89-94, PF:87-92 beginThread. -/
def beginTimer (c : Cfg) : Prog Unit := do
  let s ← Cmd.gets id
  emit (.use .timer)
  if s.mThread = false then Cmd.fault .nullDeref               -- OF:92 m_thread->setPriority
  else do
    emit (.use .obj)
    call c .timerPriority                                      -- OF:92
    emit (.use .obj)                                           -- OF:93

/-- OF:156-172, PF:158-174 create. -/
def createTimer (c : Cfg) : Prog Bool :=
  catching (do
    newTimer c
    beginTimer c
    pure true)
  fun _ => pure false

/-- OF:174-180, PF:176-182 destroy: endThread waits for the loop to end, then the destructor destroys the thread. -/
def destroyTimer : Prog Unit := do
  emit (.use .timer)
  emit (.use .obj)
  destroyThread
  emit (.rel .timer)

/-- What SF:47 does on the Posix and Windows platforms: PosixThreadFactory.cpp:25-51, WindowsThreadFactory.cpp:30-50; `none` from
`Prio.setPriority` is `std::out_of_range` from `m_prioMap.at` (or int overflow in getNormalPriority). -/
def prioSite (W : Nat) (r : Prio.Range) (pm : Prio.PMap) (cur : Option Int) (priority : Int) : Option Exn :=
  if (Prio.setPriority W r pm cur priority).isSome then none else some .outOfRange

end Verif.SCr
