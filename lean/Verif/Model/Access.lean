import Verif.Sem.Race
/-
Access skeletons of the StdCpp, Posix and Windows classes and of MessageQueue: for every function the locks it takes and the member variables
it reads and writes, in the order of the source, conditions replaced by "either way" (so every execution of the code is one of the skeleton).
ST = platform/StdCppOSWrapper/StdCppThreadFactory.cpp, PT = platform/PosixOSWrapper/PosixThreadFactory.cpp,
WT = platform/WindowsOSWrapper/WindowsThreadFactory.cpp, SE = StdCppEventFlagFactory.cpp, SO = StdCppOneShotTimerFactory.cpp,
SP = StdCppPeriodicTimerFactory.cpp, WO = WindowsOneShotTimerFactory.cpp, WP = WindowsPeriodicTimerFactory.cpp,
MQ = mechanism/OSWrapper/MessageQueue.h, TH = mechanism/OSWrapper/Thread.cpp, OT = OneShotTimer.cpp, PE = PeriodicTimer.cpp.
Objects are named by numbers.  Simplifications:
* Constructors, and functions called on an object nobody else has yet (beginThread), show only the locks they take; their accesses are to
  an object that is not shared.  Deleting an object shows only the locks taken.
* condition_variable::notify_all touches no member variable.  System calls and malloc are not shown.
* The message type's copy and assignment are accesses to the buffer; they do not call the API.
* A mutex of MessageQueue (StdCppMutex) is its std::recursive_timed_mutex together with m_lockingCount; the timed lock may fail, which is an
  alternative.
* User code that runs in a callback (`user`) may call any function of the API, and so may any thread at any time; this includes the loops of
  the library's own threads and the callbacks of the operating system, which makes more executions possible, never fewer.
-/
namespace Verif.Access
open Verif Race

/-- Locks. -/
inductive Lk where
  | thread (o : Nat) | threadFac                 -- StdCppThread::m_mutex, StdCppThreadFactory::m_mutex
  | ev (o : Nat) | evFac
  | oneShot (o : Nat) | oneShotFac
  | periodic (o : Nat) | periodicFac
  | winOne (o : Nat) | winOneFac
  | winPer (o : Nat) | winPerFac
  | mqRB (o : Nat) | mqSend (o : Nat) | mqRecv (o : Nat)
  | mtxFac | fixFac | varFac
  deriving DecidableEq, Repr

/-- Member variables. -/
inductive Var where
  | thActive (o : Nat) | thEnd (o : Nat) | thPrio (o : Nat) | thInitPrio (o : Nat) | thName (o : Nat) | thWideName (o : Nat)
  | thStack (o : Nat) | thThread (o : Nat) | thMap (o : Nat) | thRunnable (o : Nat) | thHandler (o : Nat)
  | thDefaultHandler | factories
  | idMap
  | evPattern (o : Nat) | evAuto (o : Nat)
  | osTime (o : Nat) | osName (o : Nat) | osActive (o : Nat) | osStarted (o : Nat) | osStopped (o : Nat) | osEnd (o : Nat)
  | osConst (o : Nat) | osHandler (o : Nat) | osDefaultHandler
  | peTime (o : Nat) | peName (o : Nat) | peActive (o : Nat) | peStarted (o : Nat) | peStopped (o : Nat) | peEnd (o : Nat)
  | peConst (o : Nat) | peHandler (o : Nat) | peDefaultHandler
  | woName (o : Nat) | woStarted (o : Nat) | woTimer (o : Nat) | woConst (o : Nat)
  | wpName (o : Nat) | wpStarted (o : Nat) | wpTimer (o : Nat) | wpConst (o : Nat)
  | mqBegin (o : Nat) | mqEnd (o : Nat) | mqBuf (o : Nat) | mqConst (o : Nat) | mqCntRB (o : Nat) | mqCntSend (o : Nat) | mqCntRecv (o : Nat)
  deriving DecidableEq, Repr

abbrev Sk := Prog Lk Var

/-- A block of statements. -/
def blk : List Sk → Sk
  | [] => .skip
  | [p] => p
  | p :: ps => .seq p (blk ps)

/-- `if (…) p`. -/
def may (p : Sk) : Sk := .alt p .skip

/-- `cond.wait(lock, pred)`: the predicate reads `vs`. -/
def condWait (l : Lk) (vs : List Var) : Sk := .loop (blk (vs.map (.rd ·) ++ [.alt .brk (.wait l)]))
/-- `cond.wait_for(lock, …, pred)`: the same, and once more at the end when time is over. -/
def condWaitFor (l : Lk) (vs : List Var) : Sk := .seq (condWait l vs) (blk (vs.map (.rd ·)))

/-! #### StdCppThread -/
namespace Th

/-- TH:103-120 handleException. -/
def handleException (o : Nat) : Sk := blk [.rd (.thHandler o), .alt (blk [.rd (.thHandler o), .user]) (blk [.rd .thDefaultHandler, may (blk [.rd .thDefaultHandler, .user])])]
/-- TH:125-145 threadMain. -/
def threadMain (o : Nat) : Sk := blk [.rd (.thRunnable o), may (blk [.rd (.thRunnable o), .user]), may (.call (handleException o))]
/-- ST:8-32 threadEntry and threadLoop. -/
def threadLoop (o : Nat) : Sk := .loop (blk [
  .scope (.thread o) (blk [condWait (.thread o) [.thActive o], .rd (.thEnd o), may .brk]),
  .call (threadMain o),
  .scope (.thread o) (.wr (.thActive o))])
/-- ST:63-71. -/
def start (o : Nat) : Sk := .scope (.thread o) (blk [.rd (.thActive o), may .ret, .wr (.thActive o)])
/-- ST:83-95; ST:73-81 wait and tryWait call it. -/
def timedWait (o : Nat) : Sk := .scope (.thread o) (blk [.alt (condWait (.thread o) [.thActive o]) (blk [condWaitFor (.thread o) [.thActive o], may .ret]), .ret])
/-- ST:97-101. -/
def isFinished (o : Nat) : Sk := .scope (.thread o) (.rd (.thActive o))
/-- ST:103-107, PT:19-26, WT:17-29. -/
def setName (o : Nat) : Sk := .scope (.thread o) (blk [.wr (.thName o), may (.rd (.thThread o)), may (blk [.wr (.thWideName o), .rd (.thThread o), .rd (.thWideName o)])])
/-- ST:109-113. -/
def getName (o : Nat) : Sk := .scope (.thread o) (.rd (.thName o))
/-- ST:230-238 getCurrentThread, through TH:175-179. -/
def getCurrentThread : Sk := blk [.rd .factories, .scope .threadFac (blk [.rd .idMap, may .ret])]
/-- ST:135-139. -/
def getPriority (o : Nat) : Sk := .scope (.thread o) (.rd (.thPrio o))
/-- ST:115-133, PT:28-53, WT:31-50; `u` is the current thread. -/
def setPriority (o u : Nat) : Sk := blk [.rd .factories,
  may (.scope (.thread o) (blk [.wr (.thPrio o), may (blk [.rd (.thMap o), .rd (.thThread o)]), .ret])),
  .call getCurrentThread,
  .alt (.rd .factories) (.call (getPriority u)),
  .scope (.thread o) (blk [.wr (.thPrio o), may (blk [.rd (.thMap o), .rd (.thThread o)])])]
/-- ST:141-145. -/
def getInitialPriority (o : Nat) : Sk := .scope (.thread o) (.rd (.thInitPrio o))
/-- ST:147-154. -/
def getStackSize (o : Nat) : Sk := blk [.rd (.thStack o), may .ret, .rd (.thStack o)]
/-- ST:156-160. -/
def getNativeHandle (o : Nat) : Sk := .scope (.thread o) (.rd (.thThread o))
/-- ST:51-61 endThread (join waits for the thread, which holds no lock when it ends). -/
def endThread (o : Nat) : Sk := blk [.call (timedWait o), .scope (.thread o) (blk [.wr (.thEnd o), .wr (.thActive o)]), .rd (.thThread o)]
/-- ST:41-49 beginThread on a new object: the locks of setName and setPriority. -/
def beginThread (o u : Nat) : Sk := blk [.call (setName o), .call (setPriority o u)]
/-- ST:173-209 create, through TH:147-154. -/
def create (o u : Nat) : Sk := blk [.rd .factories,
  .alt (.scope .threadFac (.call (beginThread o u))) (blk [.scope .threadFac (may (.call (beginThread o u))), .scope .threadFac .skip, .ret]),
  .alt (.scope .threadFac (blk [.wr .idMap, .ret])) (blk [.scope .threadFac (may (.wr .idMap)), .call (endThread o), .scope .threadFac .skip, .ret])]
/-- ST:211-218 destroy, through TH:156-161. -/
def destroy (o : Nat) : Sk := blk [.rd .factories, may (blk [.call (endThread o), .scope .threadFac (.wr .idMap)])]
/-- TH:98-101. -/
def getHandler (o : Nat) : Sk := .rd (.thHandler o)
/-- TH:88-91. -/
def getDefaultHandler : Sk := .rd .thDefaultHandler
/-- TH:93-96. -/
def setHandler (o : Nat) : Sk := .wr (.thHandler o)
/-- TH:83-86. -/
def setDefaultHandler : Sk := .wr .thDefaultHandler

end Th

/-! #### StdCppEventFlag -/
namespace EvF

/-- SE:72-112 timedWait; all other waits call it. -/
def timedWait (o : Nat) : Sk := blk [may .ret, may .ret, .scope (.ev o) (blk [
  .alt (condWait (.ev o) [.evPattern o]) (blk [condWaitFor (.ev o) [.evPattern o], may .ret]),
  may (.rd (.evPattern o)),
  .rd (.evAuto o), may (.wr (.evPattern o)), .ret])]
/-- SE:125-131 set; setAll and setOne call it. -/
def set (o : Nat) : Sk := blk [may .ret, .scope (.ev o) (blk [.rd (.evPattern o), .wr (.evPattern o), .ret])]
/-- SE:146-151 reset. -/
def reset (o : Nat) : Sk := blk [may .ret, .scope (.ev o) (blk [.rd (.evPattern o), .wr (.evPattern o), .ret])]
/-- SE:153-157. -/
def getCurrentPattern (o : Nat) : Sk := .scope (.ev o) (.rd (.evPattern o))
/-- SE:167-181. -/
def create : Sk := blk [.rd .factories, .scope .evFac .ret]
/-- SE:183-187. -/
def destroy : Sk := blk [.rd .factories, may (.scope .evFac .skip)]

end EvF

/-! #### StdCppOneShotTimer -/
namespace One

/-- SO:119-129 stop. -/
def stop (o : Nat) : Sk := .scope (.oneShot o) (blk [.rd (.osActive o), may .ret, condWait (.oneShot o) [.osStarted o],
  .wr (.osStarted o), .wr (.osActive o)])
/-- OT:38-56 handleException. -/
def handleException (o : Nat) : Sk := blk [.call (stop o), .rd (.osHandler o),
  .alt (blk [.rd (.osHandler o), .user]) (blk [.rd .osDefaultHandler, may (blk [.rd .osDefaultHandler, .user])])]
/-- OT:62-82 timerMain. -/
def timerMain (o : Nat) : Sk := blk [.rd (.osConst o), may (blk [.rd (.osConst o), .user]), may (.call (handleException o))]
/-- SO:43-73. -/
def threadLoop (o : Nat) : Sk := .loop (.loop (blk [
  .scope (.oneShot o) (blk [
    condWait (.oneShot o) [.osActive o, .osEnd o],
    .wr (.osStarted o),
    .rd (.osEnd o), may .ret,
    .rd (.osTime o), condWaitFor (.oneShot o) [.osActive o, .osEnd o],
    may (blk [.wr (.osStopped o), .rd (.osEnd o), may .ret, .brk])]),   -- continue: leaves the inner loop, the outer one begins again
  .call (timerMain o),
  .scope (.oneShot o) (blk [.wr (.osStarted o), .wr (.osStopped o), .wr (.osActive o)])]))
/-- SO:106-117. -/
def start (o : Nat) : Sk := .scope (.oneShot o) (blk [.rd (.osActive o), may .ret, condWait (.oneShot o) [.osStopped o],
  .wr (.osTime o), .wr (.osStopped o), .wr (.osActive o)])
/-- SO:131-135. -/
def isStarted (o : Nat) : Sk := .scope (.oneShot o) (.rd (.osActive o))
/-- SO:137-141. -/
def setName (o : Nat) : Sk := .scope (.oneShot o) (.wr (.osName o))
/-- SO:143-147. -/
def getName (o : Nat) : Sk := .scope (.oneShot o) (.rd (.osName o))
/-- SO:96-104 endThread; `th` is the timer's thread. -/
def endThread (o th : Nat) : Sk := blk [.scope (.oneShot o) (.wr (.osEnd o)), .rd (.osConst o), .call (Th.timedWait th)]
/-- SO:157-172 create: the constructor makes the thread, beginThread (SO:89-94) starts it. -/
def create (th u : Nat) : Sk := blk [.rd .factories, .scope .oneShotFac (blk [.call (Th.create th u), may .ret, .call (Th.setPriority th u), .call (Th.start th), .ret])]
/-- SO:174-180 destroy; deleting the timer destroys the thread. -/
def destroy (o th : Nat) : Sk := blk [.rd .factories, may (blk [.call (endThread o th), .scope .oneShotFac (.call (Th.destroy th))])]
/-- OT:27-30. -/
def setHandler (o : Nat) : Sk := .wr (.osHandler o)
/-- OT:32-35. -/
def getHandler (o : Nat) : Sk := .rd (.osHandler o)
/-- OT:17-20. -/
def setDefaultHandler : Sk := .wr .osDefaultHandler
/-- OT:22-25. -/
def getDefaultHandler : Sk := .rd .osDefaultHandler

end One

/-! #### StdCppPeriodicTimer -/
namespace Per

/-- SP:116-126. -/
def stop (o : Nat) : Sk := .scope (.periodic o) (blk [.rd (.peActive o), may .ret, condWait (.periodic o) [.peStarted o],
  .wr (.peStarted o), .wr (.peActive o)])
/-- PE:39-56. -/
def handleException (o : Nat) : Sk := blk [.call (stop o), .rd (.peHandler o),
  .alt (blk [.rd (.peHandler o), .user]) (blk [.rd .peDefaultHandler, may (blk [.rd .peDefaultHandler, .user])])]
/-- PE:62-82. -/
def timerMain (o : Nat) : Sk := blk [.rd (.peConst o), may (blk [.rd (.peConst o), .user]), may (.call (handleException o))]
/-- SP:43-70. -/
def threadLoop (o : Nat) : Sk := .loop (blk [
  .scope (.periodic o) (blk [condWait (.periodic o) [.peActive o, .peEnd o], .wr (.peStarted o), .rd (.peEnd o), may .brk]),
  .loop (blk [
    .scope (.periodic o) (blk [.rd (.peTime o), condWaitFor (.periodic o) [.peActive o, .peEnd o],
      may (blk [.wr (.peStopped o), .rd (.peEnd o), may .ret, .brk])]),
    .call (timerMain o)])])
/-- SP:104-114. -/
def start (o : Nat) : Sk := .scope (.periodic o) (blk [.rd (.peActive o), may .ret, condWait (.periodic o) [.peStopped o],
  .wr (.peStopped o), .wr (.peActive o)])
/-- SP:128-132. -/
def isStarted (o : Nat) : Sk := .scope (.periodic o) (.rd (.peActive o))
/-- SP:134-137. -/
def getPeriodInMillis (o : Nat) : Sk := .rd (.peTime o)
/-- SP:139-143. -/
def setName (o : Nat) : Sk := .scope (.periodic o) (.wr (.peName o))
/-- SP:145-149. -/
def getName (o : Nat) : Sk := .scope (.periodic o) (.rd (.peName o))
/-- SP:94-102. -/
def endThread (o th : Nat) : Sk := blk [.scope (.periodic o) (.wr (.peEnd o)), .rd (.peConst o), .call (Th.timedWait th)]
/-- SP:159-174 with SP:87-92. -/
def create (th u : Nat) : Sk := blk [.rd .factories, .scope .periodicFac (blk [.call (Th.create th u), may .ret, .call (Th.setPriority th u), .call (Th.start th), .ret])]
/-- SP:176-182. -/
def destroy (o th : Nat) : Sk := blk [.rd .factories, may (blk [.call (endThread o th), .scope .periodicFac (.call (Th.destroy th))])]
/-- PE:29-32. -/
def setHandler (o : Nat) : Sk := .wr (.peHandler o)
/-- PE:34-37. -/
def getHandler (o : Nat) : Sk := .rd (.peHandler o)
/-- PE:19-22. -/
def setDefaultHandler : Sk := .wr .peDefaultHandler
/-- PE:24-27. -/
def getDefaultHandler : Sk := .rd .peDefaultHandler

end Per

/-! #### Windows timers; `e` is the timer's event flag -/
namespace WinOne

/-- WO:67-78. -/
def stop (o : Nat) : Sk := .scope (.winOne o) (blk [.rd (.woStarted o), may .ret, .rd (.woTimer o), may .ret, .wr (.woStarted o)])
/-- OT:38-56 on a Windows timer. -/
def handleException (o : Nat) : Sk := blk [.call (stop o), .rd (.osHandler o),
  .alt (blk [.rd (.osHandler o), .user]) (blk [.rd .osDefaultHandler, may (blk [.rd .osDefaultHandler, .user])])]
/-- OT:62-82 on a Windows timer. -/
def timerMain (o : Nat) : Sk := blk [.rd (.woConst o), may (blk [.rd (.woConst o), .user]), may (.call (handleException o))]
/-- WO:21-36 timerCallback and timerFunc. -/
def callback (o e : Nat) : Sk := blk [.rd (.woConst o), .call (EvF.reset e), .call (timerMain o),
  .scope (.winOne o) (blk [.wr (.woStarted o), .call (EvF.set e)])]
/-- WO:53-65. -/
def start (o : Nat) : Sk := .scope (.winOne o) (blk [.rd (.woStarted o), may .ret, may .ret, .wr (.woTimer o), .wr (.woStarted o)])
/-- WO:80-84. -/
def isStarted (o : Nat) : Sk := .scope (.winOne o) (.rd (.woStarted o))
/-- WO:86-90. -/
def setName (o : Nat) : Sk := .scope (.winOne o) (.wr (.woName o))
/-- WO:92-96. -/
def getName (o : Nat) : Sk := .scope (.winOne o) (.rd (.woName o))
/-- WO:106-120 with the constructor WO:39-45. -/
def create (e : Nat) : Sk := blk [.rd .factories, .scope .winOneFac (blk [.call EvF.create, may .ret, .call (EvF.set e), .ret])]
/-- WO:122-126 with the destructor WO:47-51. -/
def destroy (o e : Nat) : Sk := blk [.rd .factories, may (.scope .winOneFac (blk [.call (stop o), .rd (.woConst o), .call (EvF.timedWait e), .call EvF.destroy]))]

end WinOne

namespace WinPer

/-- WP:61-72. -/
def stop (o : Nat) : Sk := .scope (.winPer o) (blk [.rd (.wpStarted o), may .ret, .rd (.wpTimer o), may .ret, .wr (.wpStarted o)])
/-- PE:39-56 on a Windows timer. -/
def handleException (o : Nat) : Sk := blk [.call (stop o), .rd (.peHandler o),
  .alt (blk [.rd (.peHandler o), .user]) (blk [.rd .peDefaultHandler, may (blk [.rd .peDefaultHandler, .user])])]
/-- PE:62-82 on a Windows timer. -/
def timerMain (o : Nat) : Sk := blk [.rd (.wpConst o), may (blk [.rd (.wpConst o), .user]), may (.call (handleException o))]
/-- WP:22-30. -/
def callback (o e : Nat) : Sk := blk [.rd (.wpConst o), .call (EvF.reset e), .call (timerMain o), .call (EvF.set e)]
/-- WP:47-59. -/
def start (o : Nat) : Sk := .scope (.winPer o) (blk [.rd (.wpStarted o), may .ret, .rd (.wpConst o), may .ret, .wr (.wpTimer o), .wr (.wpStarted o)])
/-- WP:74-78. -/
def isStarted (o : Nat) : Sk := .scope (.winPer o) (.rd (.wpStarted o))
/-- WP:80-83. -/
def getPeriodInMillis (o : Nat) : Sk := .rd (.wpConst o)
/-- WP:85-89. -/
def setName (o : Nat) : Sk := .scope (.winPer o) (.wr (.wpName o))
/-- WP:91-95. -/
def getName (o : Nat) : Sk := .scope (.winPer o) (.rd (.wpName o))
/-- WP:105-119 with the constructor WP:33-39. -/
def create (e : Nat) : Sk := blk [.rd .factories, .scope .winPerFac (blk [.call EvF.create, may .ret, .call (EvF.set e), .ret])]
/-- WP:121-125 with the destructor WP:41-45. -/
def destroy (o e : Nat) : Sk := blk [.rd .factories, may (.scope .winPerFac (blk [.call (stop o), .rd (.wpConst o), .call (EvF.timedWait e), .call EvF.destroy]))]

end WinPer

/-! #### MessageQueue; `e` is the queue's event flag -/
namespace Queue

/-- LockGuard on a StdCppMutex: m_lockingCount is changed after locking and before unlocking (StdCppMutexFactory.cpp:23-94). -/
def guard (l : Lk) (cnt : Var) (p : Sk) : Sk := .scope l (blk [.rd cnt, .wr cnt, .call p, .rd cnt, .wr cnt])

/-- MQ:282-303 RingBuf::getSize, getMaxSize, isEmpty, isFull. -/
def rbSize (o : Nat) : Sk := blk [.rd (.mqBegin o), .rd (.mqEnd o), .rd (.mqConst o)]
/-- MQ:366-374 isEmpty. -/
def isEmpty (o e : Nat) : Sk := guard (.mqRB o) (.mqCntRB o) (blk [.rd (.mqBegin o), .rd (.mqEnd o), may (.call (EvF.reset e))])
/-- MQ:376-384 isFull. -/
def isFull (o e : Nat) : Sk := guard (.mqRB o) (.mqCntRB o) (blk [rbSize o, may (.call (EvF.reset e))])
/-- MQ:386-391 push with MQ:305-309; copying may throw. -/
def push (o e : Nat) : Sk := guard (.mqRB o) (.mqCntRB o) (blk [.rd (.mqEnd o), .wr (.mqBuf o), may .ret, .rd (.mqEnd o), .rd (.mqConst o), .wr (.mqEnd o), .call (EvF.set e)])
/-- MQ:393-398 pop with MQ:311-318. -/
def pop (o e : Nat) : Sk := guard (.mqRB o) (.mqCntRB o) (blk [may (blk [.rd (.mqBegin o), .rd (.mqBuf o), may .ret]), .rd (.mqBegin o), .wr (.mqBuf o), .rd (.mqConst o), .wr (.mqBegin o), .call (EvF.set e)])
/-- MQ:123-155; send and trySend call it. -/
def timedSend (o e : Nat) : Sk := blk [may .ret, guard (.mqSend o) (.mqCntSend o) (blk [
  .call (isFull o e), may (blk [.call (EvF.timedWait e), may .ret]), .call (push o e), .ret])]
/-- MQ:204-236. -/
def timedReceive (o e : Nat) : Sk := blk [may .ret, guard (.mqRecv o) (.mqCntRecv o) (blk [
  .call (isEmpty o e), may (blk [.call (EvF.timedWait e), may .ret]), .call (pop o e), .ret])]
/-- MQ:240-244. -/
def getSize (o : Nat) : Sk := guard (.mqRB o) (.mqCntRB o) (blk [rbSize o, .ret])
/-- MQ:250-254. -/
def getMaxSize (o : Nat) : Sk := guard (.mqRB o) (.mqCntRB o) (blk [.rd (.mqConst o), .ret])
/-- MQ:29-55 create: the factories' locks, one after the other. -/
def create : Sk := blk [.rd .factories, .scope .fixFac .skip, .scope .mtxFac .skip, .scope .mtxFac .skip, .scope .mtxFac .skip, .call EvF.create]
/-- MQ:63-80 destroy. -/
def destroy : Sk := blk [.rd .factories, .call EvF.destroy, .scope .mtxFac .skip, .scope .mtxFac .skip, .scope .mtxFac .skip, .scope .fixFac .skip]

end Queue

/-- The functions of the API that can run at the same time: everything on existing objects, create and destroy, and the threads and callbacks of the
library.  The setters of the exception handlers come in `CallX`. -/
inductive Call where
  | thLoop (o : Nat) | thStart (o : Nat) | thWait (o : Nat) | thFinished (o : Nat) | thSetName (o : Nat) | thGetName (o : Nat)
  | thSetPriority (o u : Nat) | thGetPriority (o : Nat) | thInitialPriority (o : Nat) | thStackSize (o : Nat) | thNativeHandle (o : Nat)
  | thCurrent | thCreate (o u : Nat) | thDestroy (o : Nat) | thGetHandler (o : Nat) | thGetDefault
  | evWait (o : Nat) | evSet (o : Nat) | evReset (o : Nat) | evCurrent (o : Nat) | evCreate | evDestroy
  | osLoop (o : Nat) | osStart (o : Nat) | osStop (o : Nat) | osStarted (o : Nat) | osSetName (o : Nat) | osGetName (o : Nat)
  | osCreate (th u : Nat) | osDestroy (o th : Nat) | osGetHandler (o : Nat) | osGetDefault
  | peLoop (o : Nat) | peStart (o : Nat) | peStop (o : Nat) | peStarted (o : Nat) | pePeriod (o : Nat) | peSetName (o : Nat) | peGetName (o : Nat)
  | peCreate (th u : Nat) | peDestroy (o th : Nat) | peGetHandler (o : Nat) | peGetDefault
  | woCallback (o e : Nat) | woStart (o : Nat) | woStop (o : Nat) | woStarted (o : Nat) | woSetName (o : Nat) | woGetName (o : Nat)
  | woCreate (e : Nat) | woDestroy (o e : Nat)
  | wpCallback (o e : Nat) | wpStart (o : Nat) | wpStop (o : Nat) | wpStarted (o : Nat) | wpPeriod (o : Nat) | wpSetName (o : Nat) | wpGetName (o : Nat)
  | wpCreate (e : Nat) | wpDestroy (o e : Nat)
  | mqSend (o e : Nat) | mqReceive (o e : Nat) | mqSize (o : Nat) | mqMaxSize (o : Nat) | mqCreate | mqDestroy
  deriving DecidableEq, Repr

/-- The public methods of OSWrapper::Thread, EventFlag, OneShotTimer, PeriodicTimer and MessageQueue (mechanism/OSWrapper), and the entry points of the
library's threads and callbacks (ST:8-32, SO:43-73, SP:43-71, WO:21-36, WP:22-30). -/
def api : Call → Sk
  | .thLoop o => Th.threadLoop o | .thStart o => Th.start o | .thWait o => Th.timedWait o | .thFinished o => Th.isFinished o
  | .thSetName o => Th.setName o | .thGetName o => Th.getName o | .thSetPriority o u => Th.setPriority o u | .thGetPriority o => Th.getPriority o
  | .thInitialPriority o => Th.getInitialPriority o | .thStackSize o => Th.getStackSize o | .thNativeHandle o => Th.getNativeHandle o
  | .thCurrent => Th.getCurrentThread | .thCreate o u => Th.create o u | .thDestroy o => Th.destroy o
  | .thGetHandler o => Th.getHandler o | .thGetDefault => Th.getDefaultHandler
  | .evWait o => EvF.timedWait o | .evSet o => EvF.set o | .evReset o => EvF.reset o | .evCurrent o => EvF.getCurrentPattern o
  | .evCreate => EvF.create | .evDestroy => EvF.destroy
  | .osLoop o => One.threadLoop o | .osStart o => One.start o | .osStop o => One.stop o | .osStarted o => One.isStarted o
  | .osSetName o => One.setName o | .osGetName o => One.getName o | .osCreate th u => One.create th u | .osDestroy o th => One.destroy o th
  | .osGetHandler o => One.getHandler o | .osGetDefault => One.getDefaultHandler
  | .peLoop o => Per.threadLoop o | .peStart o => Per.start o | .peStop o => Per.stop o | .peStarted o => Per.isStarted o
  | .pePeriod o => Per.getPeriodInMillis o | .peSetName o => Per.setName o | .peGetName o => Per.getName o
  | .peCreate th u => Per.create th u | .peDestroy o th => Per.destroy o th | .peGetHandler o => Per.getHandler o | .peGetDefault => Per.getDefaultHandler
  | .woCallback o e => WinOne.callback o e | .woStart o => WinOne.start o | .woStop o => WinOne.stop o | .woStarted o => WinOne.isStarted o
  | .woSetName o => WinOne.setName o | .woGetName o => WinOne.getName o | .woCreate e => WinOne.create e | .woDestroy o e => WinOne.destroy o e
  | .wpCallback o e => WinPer.callback o e | .wpStart o => WinPer.start o | .wpStop o => WinPer.stop o | .wpStarted o => WinPer.isStarted o
  | .wpPeriod o => WinPer.getPeriodInMillis o | .wpSetName o => WinPer.setName o | .wpGetName o => WinPer.getName o
  | .wpCreate e => WinPer.create e | .wpDestroy o e => WinPer.destroy o e
  | .mqSend o e => Queue.timedSend o e | .mqReceive o e => Queue.timedReceive o e | .mqSize o => Queue.getSize o | .mqMaxSize o => Queue.getMaxSize o
  | .mqCreate => Queue.create | .mqDestroy => Queue.destroy

/-- With the setters of the exception handlers. -/
inductive CallX where
  | base (c : Call)
  | thSetHandler (o : Nat) | thSetDefault | osSetHandler (o : Nat) | osSetDefault | peSetHandler (o : Nat) | peSetDefault
  deriving DecidableEq, Repr

/-- Adds TH:83-96, OT:17-30, PE:19-32. -/
def apiX : CallX → Sk
  | .base c => api c
  | .thSetHandler o => Th.setHandler o | .thSetDefault => Th.setDefaultHandler
  | .osSetHandler o => One.setHandler o | .osSetDefault => One.setDefaultHandler
  | .peSetHandler o => Per.setHandler o | .peSetDefault => Per.setDefaultHandler

/-- Which std mutexes are recursive: that of the thread factory (StdCppThreadFactory.h:78) and those of Mutex objects (StdCppMutexFactory.cpp:10). -/
def recursive : Lk → Bool
  | .threadFac | .mqRB _ | .mqSend _ | .mqRecv _ => true
  | _ => false

end Verif.Access
