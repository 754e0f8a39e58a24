import Verif.Sem.Race
/-
Access skeletons of the ITRON classes (platform/ItronOSWrapper) and of MessageQueue on them: for every function the locks it takes and the member
variables it reads and writes, in the order of the source, conditions replaced by "either way".
IT = ItronThreadFactory.cpp, IP = ItronPeriodicTimerFactory.cpp, IE = ItronEventFlagFactory.cpp, IM = ItronMutexFactory.cpp,
IF = ItronFixedMemoryPoolFactory.cpp, IV = ItronVariableMemoryPoolFactory.cpp, IL = private/ItronLock.h,
MQ = mechanism/OSWrapper/MessageQueue.h, TH = Thread.cpp, PE = PeriodicTimer.cpp, MU = Mutex.cpp, FP = FixedMemoryPool.cpp, VP = VariableMemoryPool.cpp.

What is different from Model/Access.lean: the class Lock (IL:8-26) goes on without the mutex when the mutex does not exist (acre_mtx failed in the
factory's constructor) or loc_mtx fails, which it does (E_CTX) in a handler, such as the callback of a periodic timer.  So every skeleton depends on
`av : Lk → Bool`, the mutexes that can be locked where the function is called.

Simplifications:
* Constructors show only the locks they take and the shared variables they read; deleting an object shows only the locks taken.
* What the kernel keeps (task states, event flag patterns, memory pools, cyclic handlers, mutexes) is not a member variable.  The identifiers of
  kernel objects are member variables that are not written after construction; they are one variable per object here (`thConst`, ...).
* The slots of the two memory pool factories (IF:13-36, IV:13-32) are written under the factory's lock; a pool that exists reads its own slot without
  the lock.  As a pool is used only between its create and its destroy, this reading is shown as one of a variable of the pool, `fixConst`.
* loc_mtx in a task succeeds (no task holds a mutex of the library while it waits for the same one: C108).
* User code that runs in a callback (`user`) may call any function of the API, and so may any thread at any time.
* A handler is a thread whose calls are made with `handler = true`; that it cannot be interrupted by tasks is not used.
-/
namespace Verif.ItAccess
open Verif Race

/-- The factories that have a mutex. -/
inductive Fac where
  | thread | ev | mtx | timer | fix | var
  deriving DecidableEq, Repr

/-- Locks: ItronThread::m_mtxId (IT:22), m_mtxId / m_mutexId of the factories, the mutexes of MessageQueue (MQ:324-326). -/
inductive Lk where
  | thread (o : Nat)
  | fac (f : Fac)
  | mqRB (o : Nat) | mqSend (o : Nat) | mqRecv (o : Nat)
  deriving DecidableEq, Repr

/-- Member variables. -/
inductive Var where
  | thPrio (o : Nat) | thName (o : Nat)                       -- IT:15, 18
  | thConst (o : Nat)                                         -- IT:16-17, 20-22: initial priority, stack size, identifiers
  | thRunnable (o : Nat) | thHandler (o : Nat) | thDefaultHandler
  | idMap                                                     -- ItronThreadFactory::m_threadIdMap
  | factories                                                 -- s_factory of the front classes, m_mpfId and m_mtxId of the factories
  | evConst (o : Nat)                                         -- m_flgId
  | peName (o : Nat) | peConst (o : Nat) | peHandler (o : Nat) | peDefaultHandler
  | fixSlots | fixConst (o : Nat) | varSlots | varConst (o : Nat)
  | mqBegin (o : Nat) | mqEnd (o : Nat) | mqBuf (o : Nat) | mqConst (o : Nat) | mqCntRB (o : Nat) | mqCntSend (o : Nat) | mqCntRecv (o : Nat)
  deriving DecidableEq, Repr

abbrev Sk := Prog Lk Var

/-- A block of statements. -/
def blk : List Sk → Sk
  | [] => .skip
  | [p] => p
  | p :: ps => .seq p (blk ps)

/-- `if (…) p`. -/
def may (p : Sk) : Sk := .alt p .skip

/-- `Lock lk(l); p` (IL:13-25): without the lock when it cannot be had. -/
def lock (av : Lk → Bool) (l : Lk) (p : Sk) : Sk := if av l then .scope l p else p

/-! #### ItronThread -/
namespace Th

/-- TH:103-119. -/
def handleException (o : Nat) : Sk := blk [.rd (.thHandler o), .alt (blk [.rd (.thHandler o), .user]) (blk [.rd .thDefaultHandler, may (blk [.rd .thDefaultHandler, .user])])]
/-- IT:70-86 with TH:125-145. -/
def main (o : Nat) : Sk := blk [.rd (.thConst o), .rd (.thRunnable o), may (blk [.rd (.thRunnable o), .user]), may (.call (handleException o)), .rd (.thConst o)]
/-- IT:190-201, 47-58. -/
def isFinished (o : Nat) : Sk := blk [.rd (.thConst o), may .ret, may (.rd (.thConst o))]
/-- IT:145-163. -/
def start (av : Lk → Bool) (o : Nat) : Sk := blk [
  lock av (.thread o) (blk [.call (isFinished o), may .ret, .rd (.thConst o), may .ret, .rd (.thPrio o), may (blk [.rd (.thConst o), .rd (.thPrio o)])]),
  .rd (.thConst o)]
/-- IT:175-188; wait and tryWait (IT:165-173) call it. -/
def timedWait (o : Nat) : Sk := blk [.rd (.thConst o), may (.rd (.thConst o))]
/-- IT:203-207. -/
def setName (av : Lk → Bool) (o : Nat) : Sk := lock av (.thread o) (.wr (.thName o))
/-- IT:209-213. -/
def getName (av : Lk → Bool) (o : Nat) : Sk := lock av (.thread o) (.rd (.thName o))
/-- IT:215-222, 37-45. -/
def setPriority (av : Lk → Bool) (o : Nat) : Sk := lock av (.thread o) (blk [.rd .factories, .wr (.thPrio o), .call (isFinished o), may (blk [.rd (.thConst o), .rd (.thPrio o)])])
/-- IT:224-228. -/
def getPriority (av : Lk → Bool) (o : Nat) : Sk := lock av (.thread o) (.rd (.thPrio o))
/-- IT:230-243 getInitialPriority, getStackSize, getNativeHandle. -/
def getConst (o : Nat) : Sk := .rd (.thConst o)
/-- IT:282-315 through TH:147-154. -/
def create (av : Lk → Bool) : Sk := blk [.rd .factories, may .ret, lock av (.fac .thread) (blk [.rd .factories, may .ret, .rd .idMap, may .ret, .rd .factories, may .ret, .rd .idMap, .wr .idMap, .ret])]
/-- IT:317-330 through TH:156-161. -/
def destroy (av : Lk → Bool) (o : Nat) : Sk := blk [.rd .factories, may (blk [.call (timedWait o), lock av (.fac .thread) (blk [.rd .idMap, may (blk [.rd .idMap, .wr .idMap]), .rd .factories])])]
/-- IT:342-357 through TH:175-179: in a handler it returns before it takes the lock. -/
def getCurrentThread (av : Lk → Bool) (handler : Bool) : Sk := blk [.rd .factories, if handler then .ret else lock av (.fac .thread) (blk [.rd .idMap, .ret])]
/-- TH:98-101. -/
def getHandler (o : Nat) : Sk := .rd (.thHandler o)
/-- TH:88-91. -/
def getDefaultHandler : Sk := .rd .thDefaultHandler
/-- TH:93-96. -/
def setHandler (o : Nat) : Sk := .wr (.thHandler o)
/-- TH:83-86. -/
def setDefaultHandler : Sk := .wr .thDefaultHandler

end Th

/-! #### ItronEventFlag and ItronMutexFactory -/
namespace EvF

/-- IE:85-112, 127-135, 150-158, 160-169: one kernel call on m_flgId each, after checking the arguments. -/
def use (o : Nat) : Sk := blk [may .ret, .rd (.evConst o)]
/-- IE:208-232. -/
def create (av : Lk → Bool) : Sk := blk [.rd .factories, lock av (.fac .ev) (blk [.rd .factories, .ret])]
/-- IE:234-239. -/
def destroy (av : Lk → Bool) : Sk := blk [.rd .factories, may (lock av (.fac .ev) (.rd .factories))]

end EvF

namespace Mx

/-- IM:157-186, MU:14-24. -/
def create (av : Lk → Bool) : Sk := blk [.rd .factories, lock av (.fac .mtx) (blk [.rd .factories, .ret])]
/-- IM:188-193, MU:26-31. -/
def destroy (av : Lk → Bool) : Sk := blk [.rd .factories, may (lock av (.fac .mtx) (.rd .factories))]

end Mx

/-! #### ItronPeriodicTimer -/
namespace Per

/-- IP:51-69 start, stop, isStarted: one kernel call on m_timerId; IP:71-74 getPeriodInMillis. -/
def use (o : Nat) : Sk := .rd (.peConst o)
/-- PE:39-56. -/
def handleException (o : Nat) : Sk := blk [.call (use o), .rd (.peHandler o),
  .alt (blk [.rd (.peHandler o), .user]) (blk [.rd .peDefaultHandler, may (blk [.rd .peDefaultHandler, .user])])]
/-- IP:16-22 with PE:62-82. -/
def callback (o : Nat) : Sk := blk [.rd (.peConst o), may (blk [.rd (.peConst o), .user]), may (.call (handleException o))]
/-- IP:76-79. -/
def setName (o : Nat) : Sk := .wr (.peName o)
/-- IP:81-84. -/
def getName (o : Nat) : Sk := .rd (.peName o)
/-- IP:123-147 through PE:84-94. -/
def create (av : Lk → Bool) : Sk := blk [.rd .factories, may .ret, lock av (.fac .timer) (blk [.rd .factories, .ret])]
/-- IP:149-156 through PE:96-101. -/
def destroy (av : Lk → Bool) (o : Nat) : Sk := blk [.rd .factories, may (blk [.call (use o), lock av (.fac .timer) (.rd .factories)])]
/-- PE:29-32. -/
def setHandler (o : Nat) : Sk := .wr (.peHandler o)
/-- PE:34-37. -/
def getHandler (o : Nat) : Sk := .rd (.peHandler o)
/-- PE:19-22. -/
def setDefaultHandler : Sk := .wr .peDefaultHandler
/-- PE:24-27. -/
def getDefaultHandler : Sk := .rd .peDefaultHandler

end Per

/-! #### Memory pools -/
namespace Fix

/-- IF:38-53 allocate, deallocate; getBlockSize (ItronFixedMemoryPoolFactory.h). -/
def use (o : Nat) : Sk := .rd (.fixConst o)
/-- IF:75-91, 13-29 through FP:14-18. -/
def create (av : Lk → Bool) : Sk := blk [.rd .factories, may .ret, lock av (.fac .fix) (blk [.rd .fixSlots, may (.wr .fixSlots), .ret])]
/-- IF:93-98, 31-36 through FP:20-25. -/
def destroy (av : Lk → Bool) : Sk := blk [.rd .factories, may (lock av (.fac .fix) (blk [.rd .fixSlots, .wr .fixSlots]))]

end Fix

namespace Vari

/-- IV:34-49 allocate, deallocate. -/
def use (o : Nat) : Sk := .rd (.varConst o)
/-- IV:71-87, 13-26 through VP. -/
def create (av : Lk → Bool) : Sk := blk [.rd .factories, may .ret, lock av (.fac .var) (blk [.rd .varSlots, may (.wr .varSlots), .ret])]
/-- IV:89-94, 28-32 through VP. -/
def destroy (av : Lk → Bool) : Sk := blk [.rd .factories, may (lock av (.fac .var) (blk [.rd .varSlots, .wr .varSlots]))]

end Vari

/-! #### MessageQueue on ItronMutex and ItronEventFlag -/
namespace Queue

/-- LockGuard (MU:34-57) on an ItronMutex: unlock reads m_recursiveCount (IM:103) while it has the mutex; a lock that failed is ignored. -/
def guard (av : Lk → Bool) (l : Lk) (cnt : Var) (p : Sk) : Sk := if av l then .scope l (blk [.call p, .rd cnt]) else .call p
/-- MQ:282-303. -/
def rbSize (o : Nat) : Sk := blk [.rd (.mqBegin o), .rd (.mqEnd o), .rd (.mqConst o)]
/-- MQ:366-374. -/
def isEmpty (av : Lk → Bool) (o e : Nat) : Sk := guard av (.mqRB o) (.mqCntRB o) (blk [.rd (.mqBegin o), .rd (.mqEnd o), may (.call (EvF.use e))])
/-- MQ:376-384. -/
def isFull (av : Lk → Bool) (o e : Nat) : Sk := guard av (.mqRB o) (.mqCntRB o) (blk [rbSize o, may (.call (EvF.use e))])
/-- MQ:386-391 with MQ:305-309; copying may throw. -/
def push (av : Lk → Bool) (o e : Nat) : Sk := guard av (.mqRB o) (.mqCntRB o) (blk [.rd (.mqEnd o), .wr (.mqBuf o), may .ret, .rd (.mqEnd o), .rd (.mqConst o), .wr (.mqEnd o), .call (EvF.use e)])
/-- MQ:393-398 with MQ:311-318. -/
def pop (av : Lk → Bool) (o e : Nat) : Sk := guard av (.mqRB o) (.mqCntRB o) (blk [may (blk [.rd (.mqBegin o), .rd (.mqBuf o), may .ret]), .rd (.mqBegin o), .wr (.mqBuf o), .rd (.mqConst o), .wr (.mqBegin o), .call (EvF.use e)])
/-- MQ:123-153: returns the error if the lock is not granted (CalledByNonThread in a handler). -/
def timedSend (av : Lk → Bool) (o e : Nat) : Sk := blk [.rd (.mqConst o), if av (.mqSend o) then .alt .ret (guard av (.mqSend o) (.mqCntSend o) (blk [
  .call (isFull av o e), may (blk [.call (EvF.use e), may .ret]), .call (push av o e), .ret])) else .ret]
/-- MQ:204-234. -/
def timedReceive (av : Lk → Bool) (o e : Nat) : Sk := blk [.rd (.mqConst o), if av (.mqRecv o) then .alt .ret (guard av (.mqRecv o) (.mqCntRecv o) (blk [
  .call (isEmpty av o e), may (blk [.call (EvF.use e), may .ret]), .call (pop av o e), .ret])) else .ret]
/-- MQ:240-244. -/
def getSize (av : Lk → Bool) (o : Nat) : Sk := guard av (.mqRB o) (.mqCntRB o) (blk [rbSize o, .ret])
/-- MQ:250-254. -/
def getMaxSize (av : Lk → Bool) (o : Nat) : Sk := guard av (.mqRB o) (.mqCntRB o) (blk [.rd (.mqConst o), .ret])
/-- MQ:63-72, 337-343 destroy. -/
def destroy (av : Lk → Bool) (p : Nat) : Sk := blk [may .ret, .call (EvF.destroy av), .call (Mx.destroy av), .call (Mx.destroy av), .call (Mx.destroy av), .call (Fix.use p), .call (Fix.destroy av)]
/-- MQ:29-55, 345-364 create. -/
def create (av : Lk → Bool) (p : Nat) : Sk := blk [.call (Fix.create av), may .ret, .call (Fix.use p), may (blk [.call (Fix.destroy av), .ret]),
  .call (Mx.create av), may (blk [.call (destroy av p), .ret]), .call (Mx.create av), may (blk [.call (destroy av p), .ret]),
  .call (Mx.create av), may (blk [.call (destroy av p), .ret]), .call (EvF.create av), may (.call (destroy av p)), .ret]

end Queue

/-! #### The API -/

/-- The functions of the API other than the setters of `Setter`, and the entry points of the library's tasks and callbacks. -/
inductive Fn where
  | thMain | thStart | thWait | thFinished | thSetName | thGetName | thSetPriority | thGetPriority | thConsts
  | thCurrent | thCreate | thDestroy | thGetHandler | thGetDefault
  | evUse | evCreate | evDestroy
  | mxCreate | mxDestroy
  | peCallback | peUse | peGetName | peCreate | peDestroy | peGetHandler | peGetDefault
  | fixUse | fixCreate | fixDestroy | varUse | varCreate | varDestroy
  | mqSend | mqReceive | mqSize | mqMaxSize | mqCreate | mqDestroy
  deriving DecidableEq, Repr

/-- What a function does; `o` is the object, `e` the event flag (or memory pool) of a message queue. -/
def fn (av : Lk → Bool) (handler : Bool) (o e : Nat) : Fn → Sk
  | .thMain => Th.main o | .thStart => Th.start av o | .thWait => Th.timedWait o | .thFinished => Th.isFinished o
  | .thSetName => Th.setName av o | .thGetName => Th.getName av o | .thSetPriority => Th.setPriority av o | .thGetPriority => Th.getPriority av o
  | .thConsts => Th.getConst o | .thCurrent => Th.getCurrentThread av handler | .thCreate => Th.create av | .thDestroy => Th.destroy av o
  | .thGetHandler => Th.getHandler o | .thGetDefault => Th.getDefaultHandler
  | .evUse => EvF.use o | .evCreate => EvF.create av | .evDestroy => EvF.destroy av
  | .mxCreate => Mx.create av | .mxDestroy => Mx.destroy av
  | .peCallback => Per.callback o | .peUse => Per.use o | .peGetName => Per.getName o | .peCreate => Per.create av | .peDestroy => Per.destroy av o
  | .peGetHandler => Per.getHandler o | .peGetDefault => Per.getDefaultHandler
  | .fixUse => Fix.use o | .fixCreate => Fix.create av | .fixDestroy => Fix.destroy av
  | .varUse => Vari.use o | .varCreate => Vari.create av | .varDestroy => Vari.destroy av
  | .mqSend => Queue.timedSend av o e | .mqReceive => Queue.timedReceive av o e | .mqSize => Queue.getSize av o | .mqMaxSize => Queue.getMaxSize av o
  | .mqCreate => Queue.create av e | .mqDestroy => Queue.destroy av e

/-- Setters that take no lock: of uncaught exception handlers (TH:83-96, PE:19-32), and ItronPeriodicTimer::setName (IP:76-79). -/
inductive Setter where
  | thHandler | thDefault | peHandler | peDefault | peName
  deriving DecidableEq, Repr

/-- Their bodies. -/
def setter (o : Nat) : Setter → Sk
  | .thHandler => Th.setHandler o | .thDefault => Th.setDefaultHandler | .peHandler => Per.setHandler o | .peDefault => Per.setDefaultHandler
  | .peName => Per.setName o

/-- Which mutexes can be locked: `ex f` tells whether factory `f` has got its mutex when it was constructed (e.g. IT:263-269); the mutexes of threads
(IT:118-129) and message queues (MQ:345-358) exist if the object does; in a handler none can be locked. -/
def avail (ex : Fac → Bool) (handler : Bool) : Lk → Bool
  | .fac f => !handler && ex f
  | _ => !handler

/-- A call: of a function, in a task or in a handler, or of a setter. -/
inductive Call where
  | call (f : Fn) (handler : Bool) (o e : Nat)
  | set (x : Setter) (o : Nat)
  deriving DecidableEq, Repr

/-- The API when handlers call only functions with `allow`, and tasks everything but the setters (if `sets` is false): what is not allowed does nothing. -/
def api (ex : Fac → Bool) (allow : Fn → Bool) (sets : Bool) : Call → Sk
  | .call f handler o e => if handler && !allow f then .skip else fn (avail ex handler) handler o e f
  | .set x o => if sets then setter o x else .skip

/-- No mutex is treated as recursive: those of threads and factories are not, and the recursion of ItronMutex (IM:89-94) is not needed by MessageQueue. -/
def recursive (_ : Lk) : Bool := false

end Verif.ItAccess
