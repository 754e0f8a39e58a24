# Formal model of katono/cppelib in Lean 4 — design

The code under /repo is read as text; nothing of it was built or run.  `properties.jsonl` lists the semantic properties (C01, C02, ...),
`MANIFEST.json` says which theorems settle which property, `AXIOMS.md` lists the axioms of every such theorem, `seeded/LOG.jsonl` the
experiments with wrong programs.

## Layout

* `lean/Verif/Sem/*`   — outcome monad, lifetime-checked memory, loop rule, transition systems, fairness, call protocols (no cppelib content).
* `lean/Verif/Model/*` — the model of the code, function by function, each definition with `file:lines` citations and its simplifications.
* `lean/Verif/Spec/*`  — small independent specifications (bounded lists, bit sets, event flags, resource discipline, thread tables ...).
* `lean/Verif/Proof/*` — lemmas and invariants.
* `lean/Verif/Props/*` — the property theorems, each with an `example` showing that a non-trivial case meets its hypotheses.

## Trusted base

1. **Lean's kernel** (4.33.0), which checks every proof term.  No theorem depends on compiled code.
2. **Axioms**: only Lean's standard ones, `propext`, `Classical.choice` and `Quot.sound`; per theorem in `AXIOMS.md`.  The development
   declares no axiom.
3. **The model is faithful to the C++ text** at the places its comments cite.  This is a reading, not a proof; it is probed by the mutation
   experiments (`seeded/LOG.jsonl`), which show that the theorems notice realistic changes of the model.
4. **The surroundings behave as the model says** — contracts of things that are not cppelib code, represented by transition rules or oracle
   functions: C++ language rules (object lifetime, integer promotion, unsigned wrap-around, catch matching, destruction order), `std::mutex`,
   `std::condition_variable` (spurious wake-ups allowed), `std::thread`, `std::unordered_map`, `malloc`, POSIX/Windows priority calls, µITRON
   service calls, `timeSetEvent`/`timeKillEvent`.  Failures of these (throwing copies, failed allocations, error codes, exceptions) are
   universally quantified oracles wherever the code reacts to them.
5. **The specifications** in `Spec/` and the statements in `Props/` say what the English properties say.

## How things are modelled

**Containers on raw storage** (`FixedVector`, `PreallocatedVector`, `FixedDeque`, `PreallocatedDeque`, `Array`).  A program is `St → Out`, with
`Out = ok value state | exn e state | ub fault | diverge`.  Undefined behaviour is a distinct outcome, never assumed away.  The buffer is a map
from slot index to `none` (raw storage) or `some v` (live object).  Placement-new on a live slot, reading / assigning / destroying a raw slot
and any index outside the buffer are `ub`.  Element copies are numbered, and an oracle `thr : Nat → Bool` says which of them throw (so "every
throw point" is a universally quantified function); a throwing copy-assignment leaves an arbitrary (oracle-chosen) value in its target.
`size_t` arithmetic is modulo `M` (any word size); pointers/vector iterators are integer offsets from the buffer; deque iterators are ring
indices exactly as in the code.  `DEBUG_ASSERT` is controlled by a flag `dbg`; a failing assertion is the exception `assertFail`.  Value
arguments are references (`ext v` or `elem slot`) so aliasing is expressible.  Loops are `loop fuel cond body` with fuel `M+1` (more than any
non-repeating `size_t` counter) and `diverge` when it runs out; every theorem shows `diverge` does not happen.

**IntrusiveList**: a heap of nodes with `next`/`prev`, several lists at once, link writes in program order.

**BitPattern**: `BitVec w` with explicit integer promotion to `max w intWidth` and UB for over-wide shifts.

**Assertion**: characters written one at a time into a bounded buffer, out-of-range writes are `ub`.

**Concurrency** (mutex, event flag, message queue, thread, timers, thread pool, thread tables): labelled transition systems
`step : State → Act → Option (State × List Event)`, one program counter per thread, atomic steps no coarser than the critical sections of the
code; condition variables with spurious wake-ups; timeouts are nondeterministic.  A property holds for every schedule because it is proved for
every action list by induction with an invariant; statements are about the trace of API calls, returns and callbacks.  Progress claims are
about infinite fair executions (`Sem/Fair`).  Negative results are concrete schedules evaluated by the kernel (`decide`).

**Resources** (create/destroy under failures): programs that log `acq`/`fail`/`use`/`rel` events, judged by the independent discipline in
`Spec/Resource` (nothing used or released unless held, nothing released twice, nothing kept on failure).

## Modelled code

| /repo file | model | not modelled |
|---|---|---|
| mechanism/Container/FixedVector.h, PreallocatedVector.h, private/Construct.h | Vector, VectorApi, History, Prealloc, Refs | std::reverse_iterator is taken from the standard; move semantics do not occur in the code |
| mechanism/Container/FixedDeque.h, PreallocatedDeque.h | Deque, DequeIter, History, Prealloc, Refs | as above |
| mechanism/Container/Array.h | Array | aggregate initialisation syntax |
| mechanism/Container/BitPattern.h | BitPattern | - |
| mechanism/Container/IntrusiveList.h | IntrusiveList | - |
| mechanism/Container/ContainerException.h, private/TypeTraits.h | exception names; both meanings of CPPELIB_CONTAINER_THROW (NoExceptions) | template dispatch (IsInteger overload choice) is resolved by hand |
| mechanism/Assertion/Assertion.h | Assertion | stdio of the default handler |
| mechanism/OSWrapper/Mutex.cpp/.h | Mutex, Fronts | - |
| mechanism/OSWrapper/EventFlag.cpp/.h, FixedMemoryPool, VariableMemoryPool, OneShotTimer, PeriodicTimer, Thread (.cpp) | Fronts, Main, Priority | - |
| mechanism/OSWrapper/MessageQueue.h | MessageQueue, MessageQueueLife, MessageQueueTime, MessageQueueEvent, MessageQueueErr, TestDouble | T's own behaviour beyond throwing copies |
| mechanism/OSWrapper/ThreadPool.cpp/.h | ThreadPool, ThreadPoolCreate, ThreadPoolQueue, ThreadPoolFlag, ThreadPoolThread, ThreadPoolItron, ThreadPoolTime, ThreadPoolErr, TestDouble | - |
| mechanism/OSWrapper/Timeout.h | as the type of timeouts | - |
| platform/StdCppOSWrapper/* | Mutex, EventFlag, EventFlagTime, Thread, ThreadTime, StdThreadTable, ThreadPriority, StdCreate, StdPool, Access, TimerFactory, Timer, TimerTime, Priority, Fronts | log output |
| platform/PosixOSWrapper/PosixThreadFactory.cpp | Priority, ThreadPriority, StdCreate | setName's system calls |
| platform/WindowsOSWrapper/* | Priority, ThreadPriority, WinTimer, Access, TimerFactory | setName's system calls; timeBeginPeriod |
| platform/ItronOSWrapper/* | Mutex, MutexExit, MutexHandler, EventFlag, ItronPool, ItronThread, ItronThreadTable, ItronFactory, ItronAccess | which µITRON kernel |
| platform/*/…OSWrapper.cpp | Init | two first calls of init at the same time |
| platform/TestDoubleOSWrapper/* | Init, Fronts, TestDouble | the stub memory pools, threads and timers (their answers are the arguments of Fronts) |

## Per property

| id | what is modelled / how proved |
|----|----|
| C01–C09 | FixedVector.h/PreallocatedVector.h; a Hoare-style lemma per operation against the bounded list spec; histories by induction; C06 is false for insert/assign and true for push_back/resize; for insert the exact inserted value and the exact condition for it to be right are proved, assign is undefined in every case |
| C10–C20 | FixedDeque.h/PreallocatedDeque.h; the ring is viewed as a rotated array and the vector lemmas are reused |
| C21, C22 | init/capacity arithmetic; C22 is false for buffers smaller than one element (witness) |
| C23 | Array model |
| C24, C25 | BitVec laws for every width, promotion modelled |
| C26–C30 | heap model, ring invariant, refinement by induction on histories, frame lemmas |
| C31, C32 | bounded character buffer model |
| C33–C36 | integer arithmetic with explicit int overflow; maps as association lists with `insert` not overwriting |
| C37–C40 | mutex transition systems; C38 is false (witness) |
| C41–C45 | event flag transition system, refinement for ITRON |
| C46–C54 | message queue transition system over a ring buffer with lifetimes; create arithmetic modulo M; C51, C53, C54 are false (witnesses) with partial theorems |
| C55–C58 | StdCpp thread transition system; exception dispatch as a function |
| C59–C63, C76 | timer transition systems; C60, C61, C62 are false (witness schedules); for one-shot timers `Props/TimerReturn` says exactly when start and stop do not return: start, if the timer finishes while it sleeps, which needs a stop that took effect after the callback became due; stop, if a whole run of the timer falls between its notification and its getting the mutex |
| C64–C71, C77 | thread pool transition system; ghost trace lemmas for each task; C67, C70 are false (witness schedules); C69 by the resource discipline |
| C72, C74 | ITRON pool slots and the ITRON thread table: programs over a table with interleaved clients |
| C73 | front-end functions of the factories |
| C75, C78 | ITRON thread start/wait protocol, refinement of Spec/ItronThread and progress under fairness |
| C79 | StdCpp thread table with thread-id reuse |
| C80, C81 | create of threads and timers with every call inside failing or not |
| C82–C84 | Windows timers against the contract of timeSetEvent/timeKillEvent |
| C85–C86 | ITRON mutex, event flag and periodic timer factories, and the periodic timer, against the kernel contract; invariant over all interleavings |
| C87 | container constructors, exact outcome with a copy failing at any point (partial: the elements already built are leaked) |
| C88 | ITRON mutex with tasks that exit: LTS of the mutex plus an exit action (partial: clean exits, depth 1) |
| C89 | StdCpp memory pools over the contract of malloc/free, all histories (partial: size and address of the pool are ignored, destroy leaks) |
| C90 | access skeletons of every function (locks, reads, writes, waits; conditions nondeterministic) in `Model/Access`, semantics for any number of threads and a static check proved sound in `Sem/Race` (partial: the setters of exception handlers race; unlock by a non-holder races) |
| C91 | the same skeletons; lock order check proved sound in `Sem/Race`: no deadlock, no lock held in user code |
| C92 | factory mutex, create, destroy and callbacks as a transition system; a call's chain of waiting ends at a thread that is not blocked (partial: Windows deadlocks if a callback creates a timer; everywhere if a callback destroys its own) |
| C93 | the thread pool transition system; next accesses of every client and pool thread; no two conflict, by the ownership invariant |
| C94 | the init functions as lists of registrations over the front-end model, static factories constructed once; by induction on histories; false for the ITRON one-shot timer and for a second init (witnesses) |
| C95 | reference-returning members and iterator expressions as slots (Model/Refs); exact theorems per path, then simulation of mixed histories by the list (Spec/Paths) |
| C96 | iterators as (owner, index) in a world of several deques (Model/DequeIter); agreement with the index-level model by equational reasoning, detection by cases |
| C97 | the queue's program composed with an event flag program step by step (Model/MessageQueueEvent); forward simulation onto the queue with the atomic flag, using only linearizability of the flag; then instantiated with C42/C45 and, for deadlock, C43/C45 stuck theorems |
| C98 | the copy counter of the memory model; a partial-correctness cost calculus (Proof/Cost) over the same functions as C01-C20, exact counts by Spec/Cost, summed over histories |
| C99 | the queue's calls as sequential commands over the ring memory and OS objects answering by an arbitrary function of the call log (Model/TestDouble); stack-machine spec of the lock discipline, exact outcome per call, histories by induction; witnesses for the shipped stubs |
| C100 | composition of the pool's code with a queue program `O` (Model/ThreadPoolQueue: every use of m_freeRunnerQueue is a call into `O`, which takes its own steps); forward simulation of the pool over the atomic queue for every linearizable `O`, instantiated with MessageQueue over the atomic, C++11 and ITRON event flags; deadlock: a stuck composition is a stuck pool (C77); progress (Props/ThreadPoolQueueLive): weighted sum of the pool's measure, the threads outside the queue and the queue's measure decreases. Executions in which the platform reports no error |
| C101 | Thread objects with m_priority/m_initialPriority and what the OS was told, setPriority in two steps (read the caller's priority; store under m_mutex) (Model/ThreadPriority); the priority is a fold over the trace; invariant induction. ITRON priorities are in C75 |
| C102 | ThreadPool's steps with a clock that advances only when no client can go on and no deadline has come (Model/ThreadPoolTime); the queue's receive is given by the factor by which it exceeds its timeout (2 by C54); positional invariant by induction, witnesses of every length |
| C103 | ThreadPool's steps, and at each call of the queue, an event flag or a thread the alternative that it fails with an error (Model/ThreadPoolErr, Spec/ThreadPoolErr); ownership, trace and notification invariants; what silently ignored results break is shown by witnesses |
| C104 | EventFlag's steps with a clock (Sem/Timed, Model/EventFlagTime): the clock advances only when no thread can go on and no deadline has been reached; per-thread invariant relating the clock, the time of the call and the deadline; at every advance of the clock everybody inside a call sleeps with a false condition (from C26's invariant) |
| C105 | the same for Thread's steps (Model/ThreadTime); the Runnable is the only code that takes time |
| C106 | the container bodies with CPPELIB_CONTAINER_THROW/DEBUG_ASSERT as statements, for each meaning of the macro (Model/NoExceptions); shown equal to the default build where a failing check ends the call, a simulation where no check fails, and exact outcomes where the handler returns |
| C107 | access skeletons of the ITRON classes (`Model/ItronAccess`), each depending on which mutexes can be locked where it is called (none in a handler; a factory's only if it exists); the check of `Sem/Race`, and a schedule with a race for every function that a handler must not call and every missing mutex that guards something, so the conditions are exact (partial: those conditions, and the setters without a lock) |
| C108 | the lock-order check of `Sem/Race` on the same skeletons, for every context, with and without the factories' mutexes |
| C109 | composition of the pool's code with a queue program and event flag programs (Model/ThreadPoolFlag: every `m_ev->…` of a TaskRunner is a call into a flag program, on top of Model/ThreadPoolQueue); forward simulation, for every linearizable flag, of the pool on the same queue program with atomic flags, composed with C100; a destroyed flag is idle; deadlock: a stuck composition is a stuck pool (C77); progress (Props/ThreadPoolFlagLive): the measure of C100 extended by what each thread can still do in each flag |
| C110 | the ITRON mutex LTS with handlers that preempt tasks and nest; simulation by the mutex without handlers; error codes as functions of every code (partial: on kernels where get_tid works in handlers, an unlock in a handler takes away a lock of the interrupted task; Thread::wait reports E_CTX as OtherError) |
| C111 | composition of the pool's code with thread programs (Model/ThreadPoolThread: every method of a Thread the pool calls is a call into a thread program, which enters and leaves TaskRunner::run); forward simulation, for every linearizable thread, of the pool on atomic threads, composed with C55; the pool keeps the rules of the threads; deadlock: a stuck composition is a stuck pool (C77) |
| C112 | C111's composition with the ITRON thread program (Model/ThreadPoolItron: the events of Model/ItronThread a pool can see); these are linearizable whoever else uses the thread, so C111's simulation applies; a quiescent composition (only polls that find nothing) is a stuck pool (C77): nobody polls for a restarted thread |
| C113 | MessageQueue with failing set/reset: `Bad.step` adds to `MQ.step` the failing `set` and `reset`; the invariant of C46-C50, with its two progress clauses made conditional on the latest signal having got through, is inductive; failing reset and failing set refute the full statement. Partial. |
| C114 | the skeletons of C90/C91; a third static check proved sound in `Sem/RaceWait`: which locks are held where the code waits for a condition; schedules show that the exceptions occur |

## Defects found (each a machine-checked counterexample)

* C06/C15 insert/assign of a vector/deque with an argument inside the container uses an element already moved or overwritten.
* C22 PreallocatedDeque on a buffer smaller than one element writes outside it.
* C34 getNormalPriority is not strictly between for ranges of one or two; C35 the Posix priority map is not monotone if the creating thread is real-time.
* C38 unlock by a thread that does not hold the StdCpp mutex releases the holder's lock.
* C51 size computations of MessageQueue::create wrap; C53 queued messages are leaked by destroy; C54 a call can wait twice its timeout.
* C60 a callback can begin after stop; C61/C62 start and stop of StdCpp timers can block for ever.
* C67/C70 a timed start of the thread pool that times out loses the thread; C69 create of a huge pool throws and leaks.
* C72 an ITRON pool can hold fewer blocks than getRequiredMemorySize promises; C78 ITRON tryWait can block.
* C79 getCurrentThread can miss or mistake a thread when ids are reused; C80/C81 throwing setPriority/setName: terminate or leak; failed timer thread: null dereference.
* C87 a copy that throws in a FixedVector/FixedDeque constructor leaks the elements built before it.
* C88 a task that ends while holding an ITRON mutex recursively leaves its count behind: the next holder must unlock more often than it locked.
* C89 StdCpp pools hand out more than fits, ignore the memory given, and leak the blocks of a destroyed pool; getRequiredMemorySize wraps.
* C90 set(Default)UncaughtExceptionHandler writes without a lock what a failing thread or timer reads (data race); Mutex::unlock by a thread that does not hold the mutex races on the count.
* C92 Windows timers: destroy waits for the callback while it holds the factory's mutex; a callback that creates (or destroys) a timer then blocks for ever, with everybody else who uses the factory.  On every platform a callback that destroys its own timer blocks for ever.
* C94 ItronOSWrapper::init registers no OneShotTimer factory; a second PosixOSWrapper/WindowsOSWrapper::init keeps the first priority range.
* C99 with the shipped test doubles every wait answers OK: send on a full MessageQueue returns OK and overruns the ring (getSize 0), receive on an empty one reads a slot that holds no object, and ThreadPool::destroy always does the latter after the last runner.
* C101 with a range that contains -1, INHERIT_PRIORITY is the priority -1 (Posix, Windows).
* C102 timedStart passes its full timeout to the queue and again to the thread: it can block for twice its timeout (three times with MessageQueue's receive, C54), and then lose the thread it took (C67).
* C103 start and timedWait report errors, but release, destroy and the pool threads ignore them: a failing wait in release puts a running thread into the queue and leaves a notification behind with which the wait for a later guard returns OK at once; a failing send loses the thread; a failing wait in destroy lets it return while tasks run; a failing notification makes wait() hang.
* C107 On ITRON class Lock goes on without the lock when loc_mtx fails or the mutex does not exist: a timer callback that starts a thread, uses its name or priority, creates or destroys threads, pools or queues, or asks a queue's size races with tasks; so do two tasks' create when the factory's mutex could not be created. ItronPeriodicTimer::setName/getName take no lock at all.
* C83/C84 Windows timers: callbacks after stop; use of the deleted timer by a late callback or unlock.
* C113 MessageQueue ignores a failing reset, and then lets a receive on an empty queue read a dead slot (a send on a full one overrun it); it ignores a failing set, and a waiting call stays blocked until a later signal gets through.
* C110 On ITRON kernels whose get_tid works in interrupt handlers, Mutex::unlock in a handler decrements the recursion count of the interrupted task and returns OK (ItronMutexFactory.cpp:100-106); Thread::wait in a handler returns OtherError instead of the documented CalledByNonThread (ItronThreadFactory.cpp:175-188).

## Not expressible / not modelled

Wall-clock durations (only *how many* full timeouts a call can wait, and time as a counter in MessageQueueTime/TimerTime/ThreadPoolTime), the C++ memory model
below the mutex level (data races are excluded by the locking discipline that is modelled), scheduling fairness other than where stated, OS
failures other than those the code checks or that throw where stated.  `CPPELIB_NO_EXCEPTIONS` builds are modelled for the
containers only (C106); elsewhere such a build only lacks the try blocks.
