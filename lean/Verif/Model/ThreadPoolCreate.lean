import Verif.Sem.Cmd
import Verif.Spec.Resource
/-
ThreadPool::create / destroy: who acquires and releases what, TP = mechanism/OSWrapper/ThreadPool.cpp.
Modelled: the order of all acquisitions and releases, the pointers stored in the object, the free-runner queue and the thread
table with their capacities, `std::size_t` arithmetic modulo `cfg.M`.
Not modelled: what the resources are made of (a queue is one resource, see Model/MessageQueueLife for its own parts), priorities,
names, the concurrent life of the pool between create and destroy (Model/ThreadPool).
-/
namespace Verif.TPC
open Verif

/-- What create can obtain; the argument is the number of the loop round. -/
inductive Rsrc where
  | objPool                -- TP:28 FixedMemoryPool for the ThreadPool object
  | objBlk                 -- TP:34 its block
  | tpObj                  -- TP:39 the ThreadPool object in that block
  | queue                  -- TP:54 m_freeRunnerQueue
  | tmPool                 -- TP:59 m_threadMemoryPool
  | tmBlk                  -- TP:64 m_threadMemory
  | runnerPool             -- TP:70 m_runnerPool
  | runBlk (i : Nat)       -- TP:77 block of runner i
  | event (i : Nat)        -- TP:82 EventFlag of runner i
  | runner (i : Nat)       -- TP:88 TaskRunner object i
  | thread (i : Nat)       -- TP:90 Thread of runner i
  deriving DecidableEq, Repr

abbrev Ev := Res.Ev Rsrc

/-- What is fixed: whether a request succeeds, whether the platform's getRequiredMemorySize etc. make it fail is part of `ok`;
`M` = 2^(width of size_t), `ptr` = sizeof(Thread*). -/
structure Cfg where
  ok : Rsrc → Bool
  M : Nat
  ptr : Nat

/-- A TaskRunner object, ThreadPool.h:51-53 (m_ev and m_thread; the other members are not needed here). -/
structure Runner where
  ev : Nat
  thr : Option Nat
  deriving DecidableEq, Repr

/-- The log, and the members of the ThreadPool object. -/
structure St where
  log : List Ev
  mQueue : Bool            -- m_freeRunnerQueue != 0
  qCap : Nat               -- its capacity
  q : List Nat             -- the runners in it, oldest first
  mTmPool : Bool           -- m_threadMemoryPool != 0
  mTmMem : Bool            -- m_threadMemory != 0
  thCap : Nat              -- m_threads.capacity()
  threads : List Nat       -- m_threads
  mRunnerPool : Bool       -- m_runnerPool != 0
  run : Nat → Runner       -- contents of the TaskRunner objects

def St.init : St := ⟨[], false, 0, [], false, false, 0, [], false, fun _ => ⟨0, none⟩⟩

abbrev Prog := Cmd St

/-- A call that never returns. -/
def hang {α : Type} : Prog α := fun _ => .diverge

def emit (e : Ev) : Prog Unit := Cmd.modify fun s => { s with log := s.log ++ [e] }

/-- A request that can fail: an `allocate()` or `X::create()`. -/
def request (c : Cfg) (r : Rsrc) : Prog Bool :=
  if c.ok r then do emit (.acq r); pure true else do emit (.fail r); pure false

/-- `FixedMemoryPool::create(size, ...)`: null for a zero block size on every platform
(StdCppFixedMemoryPoolFactory.cpp:40, ItronFixedMemoryPoolFactory.cpp:77). -/
def createPool (c : Cfg) (r : Rsrc) (size : Nat) : Prog Bool :=
  if size = 0 then do emit (.fail r); pure false else request c r

/-- `X::destroy(p)` with a possibly null pointer. -/
def destroyIf (p : Bool) (r : Rsrc) : Prog Unit := if p then emit (.rel r) else pure ()

/-- TP:139-159 `destroyRunners`, the loop; every round takes one runner out of the queue. -/
def drain : Nat → Prog Unit
  | 0 => hang
  | fuel + 1 => do
    let q ← Cmd.gets (·.q)                                   -- TP:149 tryReceive
    match q with
    | [] => pure ()                                          -- TP:150-153
    | r :: tl => do
      Cmd.modify fun s => { s with q := tl }
      let o ← Cmd.gets (·.run r)
      emit (.use (.runner r))
      emit (.rel (.event o.ev))                              -- TP:154
      match o.thr with                                       -- TP:155; null: nothing
      | some t => emit (.rel (.thread t))
      | none => pure ()
      emit (.rel (.runner r))                                -- TP:156
      emit (.rel (.runBlk r))                                -- TP:157
      drain fuel

/-- TP:139-159 `destroyRunners`. -/
def destroyRunners : Prog Unit := do
  let s ← Cmd.gets id
  if s.mQueue = false then pure ()
  else if s.mRunnerPool = false then pure ()
  else drain (s.q.length + 1)

/-- TP:161-170 `destroyThreads`. -/
def destroyThreads : Prog Unit := do
  let s ← Cmd.gets id
  if s.mTmPool = false then pure ()
  else if s.mTmMem = false then pure ()
  else emit (.rel .tmBlk)

/-- TP:129-137 `destroyMembers`. -/
def destroyMembers : Prog Unit := do
  destroyRunners
  destroyThreads
  let s ← Cmd.gets id
  destroyIf s.mRunnerPool .runnerPool
  destroyIf s.mTmPool .tmPool
  destroyIf s.mQueue .queue

/-- TP:76-101, the loop over `i`; `k` rounds are left.  `false`: `goto failed`. -/
def makeRunners (c : Cfg) : (k i : Nat) → Prog Bool
  | 0, _ => pure true
  | k + 1, i => do
    let p ← request c (.runBlk i)                            -- TP:77
    if p = false then pure false
    else do
      let e ← request c (.event i)                           -- TP:82
      if e = false then do
        emit (.rel (.runBlk i))                              -- TP:84
        pure false
      else do
        emit (.acq (.runner i))                              -- TP:88
        Cmd.modify fun s => { s with run := fun j => if j = i then ⟨i, none⟩ else s.run j }
        let t ← request c (.thread i)                        -- TP:90
        if t = false then do
          emit (.rel (.event i))                             -- TP:92
          emit (.rel (.runner i))                            -- TP:93
          emit (.rel (.runBlk i))                            -- TP:94
          pure false
        else do
          Cmd.modify fun s => { s with run := fun j => if j = i then { s.run j with thr := some i } else s.run j }  -- TP:97
          let s ← Cmd.gets id
          if s.threads.length < s.thCap then do              -- TP:99 push_back throws BadAlloc when full
            Cmd.modify fun s => { s with threads := s.threads ++ [i] }
            if s.q.length < s.qCap then do                   -- TP:100 send blocks for ever when full
              Cmd.modify fun s => { s with q := s.q ++ [i] }
              makeRunners c k (i + 1)
            else hang
          else Cmd.throw .badAlloc

/-- TP:50-107 `constructMembers`. -/
def constructMembers (c : Cfg) (maxThreads : Nat) : Prog Bool := do
  let tmSize := c.ptr * maxThreads % c.M                     -- TP:52
  let failed : Prog Bool := do destroyMembers; pure false    -- TP:104-106
  let b ← request c .queue                                   -- TP:54
  Cmd.modify fun s => { s with mQueue := b, qCap := maxThreads }
  if b = false then failed
  else do
    let b ← createPool c .tmPool tmSize                      -- TP:59
    Cmd.modify fun s => { s with mTmPool := b }
    if b = false then failed
    else do
      let b ← request c .tmBlk                               -- TP:64
      Cmd.modify fun s => { s with mTmMem := b }
      if b = false then failed
      else do
        Cmd.modify fun s => { s with thCap := tmSize / c.ptr }  -- TP:68, PreallocatedVector.h init
        let b ← request c .runnerPool                        -- TP:70
        Cmd.modify fun s => { s with mRunnerPool := b }
        if b = false then failed
        else do
          let b ← makeRunners c maxThreads 0
          if b then pure true else failed

/-- TP:25-48 `create`; the result is whether the returned pointer is not null. -/
def create (c : Cfg) (maxThreads : Nat) : Prog Bool := do
  let b ← request c .objPool                                 -- TP:28
  if b = false then pure false
  else do
    let b ← request c .objBlk                                -- TP:34
    if b = false then do
      emit (.rel .objPool)                                   -- TP:36
      pure false
    else do
      emit (.acq .tpObj)                                     -- TP:39
      let b ← constructMembers c maxThreads                  -- TP:41
      if b = false then do
        emit (.rel .tpObj)                                   -- TP:42
        emit (.rel .objBlk)                                  -- TP:43
        emit (.rel .objPool)                                 -- TP:44
        pure false
      else pure true

/-- TP:122-127 `waitThreads`. -/
def waitThreads : List Nat → Prog Unit
  | [] => pure ()
  | t :: tl => do emit (.use (.thread t)); waitThreads tl

/-- TP:109-120 `destroy`; `p`: whether the pointer is not null. -/
def destroy (p : Bool) : Prog Unit :=
  if p = false then pure ()
  else do
    let ts ← Cmd.gets (·.threads)
    waitThreads ts                                           -- TP:115
    destroyMembers                                           -- TP:116
    emit (.rel .tpObj)                                       -- TP:117
    emit (.rel .objBlk)                                      -- TP:118
    emit (.rel .objPool)                                     -- TP:119

end Verif.TPC
