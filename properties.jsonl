{"id": "C01", "title": "Vector behaves like a bounded list for every call history", "statement": "After any sequence of in-contract public calls (push_back, pop_back, insert one/n/range, erase one/range, resize, assign n/range, clear, at, operator[], front, back, size, empty, full, available_size, max_size) on a FixedVector or PreallocatedVector, every returned value and thrown exception, and the final contents, are exactly those of a list of at most max_size() elements under the obvious list operations.", "quantifier": "every capacity, element type value, debug/release build and finite history of in-contract calls", "why_tests_cant": "every finite history of calls is a distinct input; tests sample a few short ones", "anchors": ["mechanism/Container/FixedVector.h: FixedVector::*", "mechanism/Container/PreallocatedVector.h: PreallocatedVector::*"]}
{"id": "C02", "title": "Vector over-capacity calls throw BadAlloc and change nothing", "statement": "push_back, resize, assign(n,v), assign(first,last), insert(pos,v), insert(pos,n,v) and insert(pos,first,last) throw BadAlloc exactly when the result would not fit in max_size(), and in that case no element is constructed, destroyed, moved or overwritten and size() is unchanged.", "quantifier": "every capacity, contents, position, count (including counts near SIZE_MAX) and source range", "why_tests_cant": "overflow boundaries depend on all (capacity,size,n) triples, including wrap-around of size_t arithmetic", "anchors": ["mechanism/Container/FixedVector.h: resize, push_back, assign, insert_n, insert_range", "mechanism/Container/PreallocatedVector.h"]}
{"id": "C03", "title": "Vector element lifetimes are exact", "statement": "No in-contract call constructs over a live element, reads/assigns/destroys a dead slot, or touches a slot outside the buffer; after the call exactly the first size() slots hold live objects; after the destructor no slot is live.", "quantifier": "every state reachable by any history, every in-contract call, including calls that exit by a throwing element copy", "why_tests_cant": "lifetime errors on raw storage are invisible to most assertions and depend on the exact insert/erase geometry", "anchors": ["mechanism/Container/FixedVector.h: construct/destroy_range uses", "mechanism/Container/private/Construct.h"]}
{"id": "C04", "title": "Vector at() is exact", "statement": "at(i) returns the i-th element when i < size() and throws OutOfRange, changing nothing, otherwise.", "quantifier": "every contents and every index value", "why_tests_cant": "all indices x all states", "anchors": ["mechanism/Container/FixedVector.h: at", "mechanism/Container/PreallocatedVector.h: at"]}
{"id": "C05", "title": "Vector basic exception safety under throwing copies", "statement": "If any element copy/default construction or copy assignment throws during push_back, resize, assign, insert or erase, that exception propagates and the vector is left valid: live slots are exactly a prefix of length size() and size() <= max_size(); push_back leaves contents unchanged; insert and erase leave every element before the position unchanged.", "quantifier": "every operation, every state and every choice of which element copy throws", "why_tests_cant": "the throw can happen at any of unboundedly many copy points", "anchors": ["mechanism/Container/FixedVector.h: push_back, resize, assign, insert_n, insert_range, erase"]}
{"id": "C06", "title": "Vector value arguments may alias own elements", "statement": "push_back(v[i]), resize(n,v[i]), insert(pos,v[i]), insert(pos,n,v[i]) and assign(n,v[i]) behave as if the argument had been copied before the call, as for std::vector.", "quantifier": "every contents, index, position and count", "why_tests_cant": "aliasing bugs appear only for particular (i,pos,n) combinations", "anchors": ["mechanism/Container/FixedVector.h: push_back, resize, insert_n, assign", "mechanism/Container/PreallocatedVector.h"]}
{"id": "C07", "title": "Vector insert/erase positions and untouched prefix", "statement": "insert(pos,v) returns an iterator to the inserted element, erase returns the position of the element following the removed ones, and the elements before the position keep both their value and their address.", "quantifier": "every contents, position and count", "why_tests_cant": "all positions x sizes", "anchors": ["mechanism/Container/FixedVector.h: insert, erase"]}
{"id": "C08", "title": "Vector copy, assignment and equality", "statement": "Copy construction and assignment make the target equal element by element to the source and leave the source unchanged; self-assignment changes nothing; x == y is true iff the sizes (and for PreallocatedVector the capacities) agree and all corresponding elements compare equal; != is its negation.", "quantifier": "every pair of vectors and every element equality predicate", "why_tests_cant": "all pairs of contents", "anchors": ["mechanism/Container/FixedVector.h: operator=, operator==, operator!=", "mechanism/Container/PreallocatedVector.h: operator=, operator=="]}
{"id": "C09", "title": "Vector debug contract", "statement": "In a debug build front/back/pop_back on an empty vector and insert/erase with a position outside the documented range raise an assertion failure before anything is modified; for in-contract calls debug and release builds behave identically.", "quantifier": "every state and every argument, in or out of contract", "why_tests_cant": "out-of-contract arguments are unbounded", "anchors": ["mechanism/Container/FixedVector.h: DEBUG_ASSERT uses", "mechanism/Assertion/Assertion.h"]}
{"id": "C10", "title": "Deque behaves like a bounded list for every call history", "statement": "After any sequence of in-contract public calls (push/pop at both ends, insert one/n/range, erase one/range, resize, assign, clear, at, operator[], front, back, size queries) on a FixedDeque or PreallocatedDeque, all results and the final contents are exactly those of a list of at most max_size() elements.", "quantifier": "every capacity, rotation of the ring buffer, element values and finite history", "why_tests_cant": "behaviour depends on where the ring buffer wraps; unboundedly many rotations and histories", "anchors": ["mechanism/Container/FixedDeque.h", "mechanism/Container/PreallocatedDeque.h"]}
{"id": "C11", "title": "Deque over-capacity calls throw BadAlloc and change nothing", "statement": "push_back, push_front, resize, assign and insert throw BadAlloc exactly when the result would exceed max_size(), leaving every slot and the size unchanged.", "quantifier": "every capacity, rotation, contents, position, count and source range", "why_tests_cant": "all (rotation,size,n) triples", "anchors": ["mechanism/Container/FixedDeque.h: push_back, push_front, resize, assign, insert_n, insert_range", "mechanism/Container/PreallocatedDeque.h"]}
{"id": "C12", "title": "Deque element lifetimes are exact", "statement": "No in-contract call constructs over a live element, uses a dead slot or leaves the buffer; afterwards exactly size() slots are live; the destructor leaves none live.", "quantifier": "every reachable ring state and every in-contract call including those ended by a throwing copy", "why_tests_cant": "wrap-around geometry", "anchors": ["mechanism/Container/FixedDeque.h", "mechanism/Container/PreallocatedDeque.h", "mechanism/Container/private/Construct.h"]}
{"id": "C13", "title": "Deque at() is exact", "statement": "at(i) returns the i-th element when i < size() and throws OutOfRange, changing nothing, otherwise.", "quantifier": "every contents, rotation and index", "why_tests_cant": "all indices x rotations", "anchors": ["mechanism/Container/FixedDeque.h: at", "mechanism/Container/PreallocatedDeque.h: at"]}
{"id": "C14", "title": "Deque basic exception safety under throwing copies", "statement": "If an element copy throws during push_back, push_front, resize, assign, insert or erase, the exception propagates and the deque is left valid with size() <= max_size() and exactly size() live slots; push_back and push_front leave the contents unchanged.", "quantifier": "every operation, ring state and choice of throwing copy", "why_tests_cant": "the throw can happen at any copy point", "anchors": ["mechanism/Container/FixedDeque.h", "mechanism/Container/PreallocatedDeque.h"]}
{"id": "C15", "title": "Deque value arguments may alias own elements", "statement": "push_back, push_front, resize, insert(pos,v), insert(pos,n,v) and assign(n,v) called with a reference to an element of the deque behave as if it had been copied first.", "quantifier": "every contents, rotation, index, position, count", "why_tests_cant": "aliasing bugs appear only for particular combinations", "anchors": ["mechanism/Container/FixedDeque.h: insert_n, assign", "mechanism/Container/PreallocatedDeque.h"]}
{"id": "C16", "title": "Deque iterators are random-access iterators over the logical sequence", "statement": "For iterators of a deque with k elements: (begin+i)-(begin+j) = i-j, begin+i < begin+j iff i<j, (it+n)-n = it, it[n] is *(it+n), *(begin+i) is element i, == is equality of positions, and begin+size() == end, regardless of where the ring wraps.", "quantifier": "every rotation, size and pair of positions in [0,size]", "why_tests_cant": "all rotations", "anchors": ["mechanism/Container/FixedDeque.h: FixedDeque_iterator", "mechanism/Container/PreallocatedDeque.h: PreallocatedDeque_iterator"]}
{"id": "C17", "title": "Deque end operations never relocate other elements", "statement": "push_back, push_front, pop_back and pop_front leave every other element at its address with its value, so references stay valid.", "quantifier": "every ring state", "why_tests_cant": "all rotations and sizes", "anchors": ["mechanism/Container/FixedDeque.h: push_back, push_front, pop_back, pop_front"]}
{"id": "C18", "title": "Deque insert/erase touch only the chosen side", "statement": "insert moves only the elements on the end side of the position when size()/2 < index and only those on the begin side otherwise; erase moves only the end side when first-begin >= end-last and only the begin side otherwise; elements on the other side keep address and value; the returned iterator designates the first inserted element, respectively the element after the erased ones.", "quantifier": "every ring state, position and count", "why_tests_cant": "all positions x rotations", "anchors": ["mechanism/Container/FixedDeque.h: insert_n, insert_range, erase", "mechanism/Container/PreallocatedDeque.h"]}
{"id": "C19", "title": "Deque debug contract", "statement": "In a debug build front/back/pop_* on an empty deque and insert/erase outside the documented range raise an assertion failure before modification; for in-contract calls debug and release behave identically.", "quantifier": "every state and argument", "why_tests_cant": "out-of-contract arguments are unbounded", "anchors": ["mechanism/Container/FixedDeque.h: DEBUG_ASSERT uses", "mechanism/Container/PreallocatedDeque.h"]}
{"id": "C20", "title": "Deque copy, assignment and equality", "statement": "As C08 for deques: equality compares logical sequences (and capacities for PreallocatedDeque), independent of ring rotation.", "quantifier": "every pair of deques", "why_tests_cant": "all pairs of rotations and contents", "anchors": ["mechanism/Container/FixedDeque.h: operator=, operator==", "mechanism/Container/PreallocatedDeque.h"]}
{"id": "C21", "title": "Preallocated containers bind their buffer once", "statement": "init() binds the buffer only if none is bound yet, later init calls have no effect; capacity is buffer_size/sizeof(T) for the vector and buffer_size/sizeof(T)-1 for the deque.", "quantifier": "every sequence of constructor/init calls and every buffer size", "why_tests_cant": "all byte sizes", "anchors": ["mechanism/Container/PreallocatedVector.h: init, max_size", "mechanism/Container/PreallocatedDeque.h: init, max_size"]}
{"id": "C22", "title": "PreallocatedDeque never writes outside its buffer", "statement": "For every buffer size, push_back/push_front either store the element inside the buffer or throw BadAlloc.", "quantifier": "every buffer size in bytes including sizes smaller than one element, and the uninitialised state", "why_tests_cant": "the failing sizes are a corner of the domain (capacity computed as n-1 wraps)", "anchors": ["mechanism/Container/PreallocatedDeque.h: max_size, num_elems_in_buf, full"]}
{"id": "C23", "title": "Array laws", "statement": "fill makes every element equal to the value; at throws OutOfRange iff index >= Size; == holds iff all elements are equal; size()=max_size()=Size.", "quantifier": "every size, contents and element equality", "why_tests_cant": "all sizes and contents", "anchors": ["mechanism/Container/Array.h"]}
{"id": "C24", "title": "BitPattern is a set of bit positions", "statement": "set/reset/flip of a position change exactly that bit, set()/reset()/flip() act on all bits, test reads a bit, all/any/none count correctly, and the value converts back to the integer with exactly those bits.", "quantifier": "every unsigned width (8,16,32,64,...), every value and position", "why_tests_cant": "2^width values x positions x widths", "anchors": ["mechanism/Container/BitPattern.h"]}
{"id": "C25", "title": "BitPattern is immune to integer promotion and never shifts out of range", "statement": "For widths below int the results are the same as if all arithmetic were done in the width of T; for in-range positions no shift exceeds the promoted width; in debug builds out-of-range positions raise an assertion failure first.", "quantifier": "every width below and above int, every value, position", "why_tests_cant": "promotion depends on the platform's width of int", "anchors": ["mechanism/Container/BitPattern.h: set(pos), reset(pos), flip()"]}
{"id": "C26", "title": "IntrusiveList behaves like a list of elements for every history", "statement": "push_back, push_front, pop_back, pop_front, insert and erase on a family of IntrusiveLists act on the sequence of elements exactly like list operations; size, empty, front, back, forward and backward traversal report that sequence.", "quantifier": "any number of lists and elements, any finite history of in-contract calls", "why_tests_cant": "every finite history of calls is a distinct input; tests sample a few short ones", "anchors": ["mechanism/Container/IntrusiveList.h: insert, erase, push_*, pop_*, size, empty, begin, end"]}
{"id": "C27", "title": "IntrusiveList splice moves exactly the given range", "statement": "splice(pos,x), splice(pos,x,i) and splice(pos,x,first,last) remove the designated range from its source list and insert it in order before pos, for different lists and for the same list.", "quantifier": "all lists, ranges and positions (pos not inside the moved range)", "why_tests_cant": "all range/position combinations", "anchors": ["mechanism/Container/IntrusiveList.h: splice"]}
{"id": "C28", "title": "IntrusiveList swap", "statement": "swap exchanges the two sequences, for every pair of lists, and self-swap does nothing.", "quantifier": "every pair of lists (including empty ones)", "why_tests_cant": "all pairs", "anchors": ["mechanism/Container/IntrusiveList.h: swap"]}
{"id": "C29", "title": "IntrusiveList operations touch only the lists involved", "statement": "Every operation writes only links of nodes in the lists it involves (and the inserted element): other lists and unlinked elements are unaffected, and iterators to elements that were not erased stay valid.", "quantifier": "every heap of lists and every operation", "why_tests_cant": "frame conditions quantify over everything else in memory", "anchors": ["mechanism/Container/IntrusiveList.h"]}
{"id": "C30", "title": "IntrusiveList debug contract", "statement": "In debug builds pop/front/back on an empty list, null iterators, erase on an empty list, splice of end() or of a list into itself raise an assertion failure before modifying any link.", "quantifier": "every state and argument", "why_tests_cant": "out-of-contract arguments are unbounded", "anchors": ["mechanism/Container/IntrusiveList.h: DEBUG_ASSERT uses"]}
{"id": "C31", "title": "Assertion failure message is correct, terminated and in bounds", "statement": "The message is the first BUFSIZE-1 characters of \"file(line): Assertion failed (expr)\", always NUL terminated, and constructing it never writes outside its buffer.", "quantifier": "every file name, expression text, line number and buffer size >= 1", "why_tests_cant": "all lengths around the truncation boundary", "anchors": ["mechanism/Assertion/Assertion.h: Failure::Failure, concatCString, copyCString, toCString"]}
{"id": "C32", "title": "CHECK_ASSERT control flow", "statement": "A true condition has no effect; a false condition calls the registered handler exactly once with the message and then throws Assertion::Failure carrying the same message (or only throws when no handler is set).", "quantifier": "every condition, handler (returning or throwing)", "why_tests_cant": "handlers are arbitrary code", "anchors": ["mechanism/Assertion/Assertion.h: assertFail, CHECK_ASSERT"]}
{"id": "C33", "title": "getPriorityHigherThan is clamped and directed", "statement": "The result always lies in [getMinPriority(), getMaxPriority()]; for d>=0 and a base in range it is at least as urgent as the base, exactly d steps more urgent unless clamped, whichever numeric direction the platform uses.", "quantifier": "every base, d and priority range in either direction (no int overflow)", "why_tests_cant": "all ranges and directions", "anchors": ["mechanism/OSWrapper/Thread.cpp: Thread::getPriorityHigherThan"]}
{"id": "C34", "title": "getNormalPriority lies strictly between minimum and maximum", "statement": "min < normal < max as documented.", "quantifier": "every platform priority range", "why_tests_cant": "ranges differ per platform", "anchors": ["mechanism/OSWrapper/Thread.cpp: Thread::getNormalPriority", "mechanism/OSWrapper/Thread.h"]}
{"id": "C35", "title": "Posix priority map is total and monotone", "statement": "After setPriorityRange every priority in [min,max] has a native priority (so setPriority never throws), and a more urgent priority never maps to a less urgent native one.", "quantifier": "every range in either direction and every native SCHED_RR range", "why_tests_cant": "all ranges", "anchors": ["platform/PosixOSWrapper/PosixThreadFactory.cpp: setPriorityRange, setPriority"]}
{"id": "C36", "title": "Windows priority map is total and monotone", "statement": "After setPriorityRange every priority in [min,max] has a native priority, the extremes map to TIME_CRITICAL and IDLE, and the map is monotone in urgency.", "quantifier": "every range in either direction", "why_tests_cant": "all ranges", "anchors": ["platform/WindowsOSWrapper/WindowsThreadFactory.cpp: setPriorityRange, setPriority"]}
{"id": "C37", "title": "Mutex gives mutual exclusion and recursion (StdCpp)", "statement": "At any moment at most one thread has more successful lock/tryLock/timedLock calls than successful unlocks; tryLock fails with TimedOut iff another thread holds the mutex; a mutex locked n times is released after n unlocks.", "quantifier": "every interleaving of any number of threads", "why_tests_cant": "all schedules", "anchors": ["platform/StdCppOSWrapper/StdCppMutexFactory.cpp: StdCppMutex"]}
{"id": "C38", "title": "unlock by a thread that does not hold the mutex returns NotLocked and changes nothing (StdCpp)", "statement": "unlock() returns NotLocked whenever the calling thread has not locked the mutex, leaving the mutex state unchanged.", "quantifier": "every interleaving", "why_tests_cant": "needs unlock while another thread holds the lock", "anchors": ["platform/StdCppOSWrapper/StdCppMutexFactory.cpp: unlock", "mechanism/OSWrapper/Mutex.h: unlock"]}
{"id": "C39", "title": "ITRON mutex wrapper: exclusion, recursion and NotLocked", "statement": "On an ITRON kernel whose mutex is non-recursive, the wrapper gives recursive locking with mutual exclusion: n locks need n unlocks, and unlock by a non-owner returns NotLocked without effect.", "quantifier": "every interleaving of any number of tasks", "why_tests_cant": "all schedules", "anchors": ["platform/ItronOSWrapper/ItronMutexFactory.cpp: ItronMutex"]}
{"id": "C40", "title": "LockGuard unlocks exactly what it locked", "statement": "A LockGuard's scope leaves the mutex exactly as before for the calling thread: it unlocks once iff its lock (or the adopted lock) succeeded, also when the scope is left by an exception; a null mutex is ignored.", "quantifier": "every mutex outcome, scope body", "why_tests_cant": "error paths of lock()", "anchors": ["mechanism/OSWrapper/Mutex.cpp: LockGuard"]}
{"id": "C41", "title": "EventFlag set/reset algebra", "statement": "The pattern after any sequence of set/setOne/setAll/reset/resetOne/resetAll is the initial empty pattern with those bits OR-ed in and removed in order; getCurrentPattern returns it.", "quantifier": "every sequence and pattern", "why_tests_cant": "2^32 patterns x histories", "anchors": ["platform/StdCppOSWrapper/StdCppEventFlagFactory.cpp", "platform/ItronOSWrapper/ItronEventFlagFactory.cpp"]}
{"id": "C42", "title": "EventFlag wait returns OK only when its condition holds", "statement": "A wait in OR (AND) mode returns OK only at a moment when any (all) of the requested bits are set, reports the whole pattern at that moment, and with autoReset clears the whole pattern atomically with the wake-up, so one set releases at most one auto-reset waiter; otherwise the pattern is unchanged. TimedOut leaves everything unchanged and is only possible for a non-FOREVER timeout.", "quantifier": "every interleaving of waiters, setters, resetters and timeouts", "why_tests_cant": "all schedules", "anchors": ["platform/StdCppOSWrapper/StdCppEventFlagFactory.cpp: timedWait"]}
{"id": "C43", "title": "EventFlag has no lost wake-up", "statement": "No waiter remains asleep without a pending notification while its condition holds; in particular when nothing else runs, a FOREVER waiter whose bits are set returns.", "quantifier": "every interleaving including spurious wake-ups", "why_tests_cant": "all schedules", "anchors": ["platform/StdCppOSWrapper/StdCppEventFlagFactory.cpp: timedWait, set"]}
{"id": "C44", "title": "EventFlag parameter validation", "statement": "Waiting with an empty pattern, an invalid mode, or a position >= the pattern width returns InvalidParameter without blocking or changing the pattern.", "quantifier": "every pattern, mode value, position", "why_tests_cant": "all argument values", "anchors": ["platform/StdCppOSWrapper/StdCppEventFlagFactory.cpp", "platform/ItronOSWrapper/ItronEventFlagFactory.cpp"]}
{"id": "C45", "title": "ITRON EventFlag refines the same specification", "statement": "On an ITRON kernel with standard event-flag semantics the wrapper's results and pattern after each call equal those of the same abstract event flag.", "quantifier": "every history of calls", "why_tests_cant": "all histories", "anchors": ["platform/ItronOSWrapper/ItronEventFlagFactory.cpp"]}
{"id": "C46", "title": "MessageQueue is FIFO, loses and duplicates nothing", "statement": "At every moment, the messages received so far followed by those in the queue are exactly the messages whose send took effect, in order.", "quantifier": "every interleaving of any number of senders, receivers and getSize callers, with arbitrary timeouts and throwing message copies", "why_tests_cant": "all schedules", "anchors": ["mechanism/OSWrapper/MessageQueue.h"]}
{"id": "C47", "title": "MessageQueue never exceeds its capacity", "statement": "getSize() never exceeds getMaxSize(), which equals the maxSize given to create.", "quantifier": "every interleaving", "why_tests_cant": "all schedules", "anchors": ["mechanism/OSWrapper/MessageQueue.h: getSize, getMaxSize"]}
{"id": "C48", "title": "MessageQueue ring buffer is never misused", "statement": "No schedule pushes into a full buffer, pops an empty one, overwrites a live message or reads a dead one.", "quantifier": "every interleaving", "why_tests_cant": "all schedules", "anchors": ["mechanism/OSWrapper/MessageQueue.h: RingBuf, push, pop"]}
{"id": "C49", "title": "MessageQueue failed operations have no effect", "statement": "send/receive that return TimedOut or OtherError leave queue contents unchanged; trySend/tryReceive report TimedOut only if the lock was busy or the queue was full/empty at some moment during the call.", "quantifier": "every interleaving", "why_tests_cant": "all schedules", "anchors": ["mechanism/OSWrapper/MessageQueue.h: timedSend, timedReceive"]}
{"id": "C50", "title": "MessageQueue makes progress", "statement": "When no new calls arrive, every execution reaches a state where the only pending calls are FOREVER sends on a full queue or FOREVER receives on an empty queue (or calls queued behind such a call): no deadlock and no lost wake-up.", "quantifier": "every interleaving", "why_tests_cant": "liveness over all schedules", "anchors": ["mechanism/OSWrapper/MessageQueue.h"]}
{"id": "C51", "title": "MessageQueue create allocates room for maxSize messages", "statement": "If create(maxSize) succeeds, the queue's buffer really has room for maxSize+1 elements inside the allocated block, aligned after the header.", "quantifier": "every maxSize, element size and word size", "why_tests_cant": "size_t overflow only at huge sizes", "anchors": ["mechanism/OSWrapper/MessageQueue.h: create"]}
{"id": "C52", "title": "MessageQueue create failure releases everything", "statement": "When any allocation or OS object creation fails, create returns null and every resource obtained so far is released exactly once.", "quantifier": "every failure point", "why_tests_cant": "all failure points", "anchors": ["mechanism/OSWrapper/MessageQueue.h: create, createOSObjects, destroy"]}
{"id": "C53", "title": "MessageQueue destroy destroys queued messages", "statement": "Destroying a queue destroys every message still queued exactly once.", "quantifier": "every queue contents", "why_tests_cant": "destructor effects on leftover messages", "anchors": ["mechanism/OSWrapper/MessageQueue.h: destroy, ~RingBuf"]}
{"id": "C54", "title": "MessageQueue timeouts are bounded by tmout", "statement": "timedSend/timedReceive block at most tmout milliseconds in total.", "quantifier": "every interleaving and timeout", "why_tests_cant": "real time on all schedules", "anchors": ["mechanism/OSWrapper/MessageQueue.h: timedSend, timedReceive"]}
{"id": "C55", "title": "Thread runs its Runnable exactly once per effective start", "statement": "The number of run() invocations begun never exceeds the number of start() calls that found the thread finished, each effective start leads to exactly one run, and start() while active is ignored.", "quantifier": "every interleaving of any number of client threads calling start/wait/tryWait/timedWait/isFinished, spurious wake-ups and timeouts included; destroy not overlapping other calls of the same object", "why_tests_cant": "all schedules", "anchors": ["platform/StdCppOSWrapper/StdCppThreadFactory.cpp: threadLoop, start"]}
{"id": "C56", "title": "Thread wait semantics", "statement": "wait/tryWait/timedWait return OK only at a moment when no started run is pending or in progress; TimedOut only for non-FOREVER timeouts; no lost wake-up: a FOREVER waiter eventually returns when the run ends and nothing restarts it.", "quantifier": "every interleaving of any number of client threads calling start/wait/tryWait/timedWait/isFinished, spurious wake-ups and timeouts included; destroy not overlapping other calls of the same object", "why_tests_cant": "all schedules", "anchors": ["platform/StdCppOSWrapper/StdCppThreadFactory.cpp: timedWait"]}
{"id": "C57", "title": "Thread destroy joins after the running task finished", "statement": "destroy returns only after the started run completed, the native thread has exited, and no run starts afterwards.", "quantifier": "every interleaving in which destroy does not overlap other calls of the same object (C57_overlap_* show what happens otherwise)", "why_tests_cant": "all schedules", "anchors": ["platform/StdCppOSWrapper/StdCppThreadFactory.cpp: endThread, destroy"]}
{"id": "C58", "title": "Exceptions never escape a thread or timer main", "statement": "Whatever Runnable::run throws, threadMain/timerMain returns normally; the handler called is the object's own if set, else the default if set, else none, with message what()/message()/\"Unknown Exception\"; exceptions thrown by the handler are swallowed; timers are stopped before the handler runs.", "quantifier": "every thrown object, handler combination and handler behaviour", "why_tests_cant": "arbitrary user code", "anchors": ["mechanism/OSWrapper/Thread.cpp: threadMain, handleException", "mechanism/OSWrapper/OneShotTimer.cpp", "mechanism/OSWrapper/PeriodicTimer.cpp"]}
{"id": "C59", "title": "One-shot timer fires at most once per start (StdCpp)", "statement": "The number of expirations begun never exceeds the number of effective start() calls, and a timer that was never started never fires.", "quantifier": "every interleaving of start/stop/expiry/destroy", "why_tests_cant": "all schedules", "anchors": ["platform/StdCppOSWrapper/StdCppOneShotTimerFactory.cpp"]}
{"id": "C60", "title": "Timer stop is effective (StdCpp)", "statement": "After stop() has returned and no callback was in progress at that moment, no callback begins until a later start(); isStarted() tells whether the timer is active.", "quantifier": "every interleaving", "why_tests_cant": "all schedules", "anchors": ["platform/StdCppOSWrapper/StdCppOneShotTimerFactory.cpp: stop", "platform/StdCppOSWrapper/StdCppPeriodicTimerFactory.cpp: stop"]}
{"id": "C61", "title": "Timer start never blocks forever (StdCpp)", "statement": "start() always returns (given that callbacks return and the timer thread is scheduled).", "quantifier": "every interleaving of start, stop and expiry, including calls from the callback itself", "why_tests_cant": "needs a schedule where stop() hits a running callback", "anchors": ["platform/StdCppOSWrapper/StdCppOneShotTimerFactory.cpp: start, threadLoop", "platform/StdCppOSWrapper/StdCppPeriodicTimerFactory.cpp: start"]}
{"id": "C62", "title": "Timer stop never blocks forever (StdCpp)", "statement": "stop() always returns (given that the timer thread is scheduled).", "quantifier": "every interleaving of any number of start/stop callers", "why_tests_cant": "needs racing stop calls", "anchors": ["platform/StdCppOSWrapper/StdCppOneShotTimerFactory.cpp: stop"]}
{"id": "C63", "title": "Periodic timer fires only while active (StdCpp)", "statement": "A callback begins only after a whole period elapsed with the timer active; it repeats until stop; no callback begins before start.", "quantifier": "every interleaving", "why_tests_cant": "all schedules", "anchors": ["platform/StdCppOSWrapper/StdCppPeriodicTimerFactory.cpp: threadLoop"]}
{"id": "C64", "title": "ThreadPool runs each accepted task exactly once", "statement": "Every task for which start/tryStart/timedStart returned OK is run exactly once; a task for which an error was returned is never run.", "quantifier": "every interleaving of any number of clients and pool threads", "why_tests_cant": "all schedules", "anchors": ["mechanism/OSWrapper/ThreadPool.cpp: timedStart, TaskRunner::run"]}
{"id": "C65", "title": "ThreadPool never exceeds maxThreads concurrent tasks", "statement": "At most maxThreads tasks are in progress at once and a pool thread never runs two tasks at the same time.", "quantifier": "every interleaving", "why_tests_cant": "all schedules", "anchors": ["mechanism/OSWrapper/ThreadPool.cpp"]}
{"id": "C66", "title": "WaitGuard reports completion exactly", "statement": "WaitGuard wait/tryWait/timedWait return OK only after the guarded task has finished (or the guard is invalid); release waits for it and returns the thread to the pool exactly once; destroying the guard releases it.", "quantifier": "every interleaving", "why_tests_cant": "all schedules", "anchors": ["mechanism/OSWrapper/ThreadPool.cpp: WaitGuard, TaskRunner::release, notifyFinished"]}
{"id": "C67", "title": "ThreadPool never loses a thread", "statement": "Once all started tasks have finished and all guards are released, all maxThreads threads are available again, whatever start/tryStart/timedStart calls were made and whatever they returned.", "quantifier": "every interleaving and timeout", "why_tests_cant": "needs a rare schedule between release and thread end", "anchors": ["mechanism/OSWrapper/ThreadPool.cpp: timedStart"]}
{"id": "C68", "title": "ThreadPool survives throwing tasks", "statement": "A task that throws is treated like one that finished: the thread's priority is reset to the default, waiters are notified or the runner released, and the exception goes to the thread's handler.", "quantifier": "every task outcome", "why_tests_cant": "arbitrary user code", "anchors": ["mechanism/OSWrapper/ThreadPool.cpp: TaskRunner::run, afterInvoke"]}
{"id": "C69", "title": "ThreadPool create failure releases everything", "statement": "If any allocation or object creation fails during create, null is returned and every resource obtained so far has been released exactly once.", "quantifier": "every maxThreads and failure point", "why_tests_cant": "all failure points", "anchors": ["mechanism/OSWrapper/ThreadPool.cpp: create, constructMembers, destroyMembers"]}
{"id": "C70", "title": "ThreadPool destroy waits for all tasks", "statement": "destroy returns only after every started task has finished and every thread has been destroyed.", "quantifier": "every interleaving", "why_tests_cant": "all schedules", "anchors": ["mechanism/OSWrapper/ThreadPool.cpp: destroy, waitThreads"]}
{"id": "C71", "title": "ThreadPool rejects null tasks", "statement": "start/tryStart/timedStart with a null task return InvalidParameter without touching the pool.", "quantifier": "every state", "why_tests_cant": "all states", "anchors": ["mechanism/OSWrapper/ThreadPool.cpp: timedStart"]}
{"id": "C72", "title": "ITRON fixed memory pool slots are exclusive and reusable", "statement": "create returns a slot not in use by any other live pool or null; destroy makes it reusable; allocate never hands out a block that is still allocated; a pool created with getRequiredMemorySize(bs,n) bytes can hold n blocks.", "quantifier": "every history of create/destroy/allocate/deallocate", "why_tests_cant": "all histories", "anchors": ["platform/ItronOSWrapper/ItronFixedMemoryPoolFactory.cpp"]}
{"id": "C73", "title": "Factory front-ends validate arguments", "statement": "Creating with a null runnable (thread, timers), zero period, or zero sizes returns null without calling the platform; with no registered factory creation raises an assertion failure; destroying a null pointer does nothing.", "quantifier": "every factory state and argument", "why_tests_cant": "all combinations", "anchors": ["mechanism/OSWrapper/Thread.cpp: create, destroy", "mechanism/OSWrapper/PeriodicTimer.cpp: create", "mechanism/OSWrapper/OneShotTimer.cpp: create", "mechanism/OSWrapper/FixedMemoryPool.cpp"]}
{"id": "C74", "title": "ITRON thread table maps task ids to live threads", "statement": "getCurrentThread returns exactly the thread object created for the calling task and not yet destroyed, or null.", "quantifier": "every history of create/destroy/getCurrentThread", "why_tests_cant": "all histories", "anchors": ["platform/ItronOSWrapper/ItronThreadFactory.cpp: create, destroy, getCurrentThread"]}
{"id": "C75", "title": "ITRON thread start/wait protocol", "statement": "Each effective start leads to exactly one run; start while not finished is ignored; wait returns OK only when the task is dormant and its run finished.", "quantifier": "every interleaving with kernel task states", "why_tests_cant": "all schedules", "anchors": ["platform/ItronOSWrapper/ItronThreadFactory.cpp: ItronThread"]}
{"id": "C76", "title": "Timer destroy (StdCpp)", "statement": "Under fair schedules destroy() of a timer returns; when it has returned the timer thread has ended, every callback that began has ended, none is due, and nothing happens afterwards.", "quantifier": "every interleaving of clients, timer thread, spurious wake-ups and time-outs, both timer kinds", "why_tests_cant": "all schedules", "anchors": ["platform/StdCppOSWrapper/StdCppOneShotTimerFactory.cpp: endThread", "platform/StdCppOSWrapper/StdCppPeriodicTimerFactory.cpp: endThread"]}
{"id": "C77", "title": "ThreadPool calls make progress", "statement": "Under fair scheduling of the clients and the pool threads, with tasks that end and timeouts that pass, every thread pool and WaitGuard call except a start without timeout returns; without new calls the pool always comes to rest; if it comes to rest with calls in progress, these are starts without timeout and every pool thread is held by a guard whose task is over (or has been lost, see C67).", "quantifier": "every interleaving of any number of clients and pool threads, every outcome of timeouts and tasks", "why_tests_cant": "termination and deadlock freedom over all schedules", "anchors": ["mechanism/OSWrapper/ThreadPool.cpp: timedStart, WaitGuard::timedWait, WaitGuard::release, destroy, TaskRunner"]}
{"id": "C78", "title": "Waits on an ITRON thread return", "statement": "wait, tryWait, timedWait and destroy of an ITRON thread return once the thread's run is over or the time is up; a tryWait never blocks for a run.", "quantifier": "every fair schedule of clients and the task", "why_tests_cant": "progress over all infinite schedules", "anchors": ["platform/ItronOSWrapper/ItronThreadFactory.cpp: ItronThread::timedWait, tryWait, wait, waitUntilDormant, destroy"]}
{"id": "C79", "title": "StdCpp/Posix/Windows Thread::getCurrentThread names the caller's own thread object", "statement": "With the StdCpp, Posix or Windows thread factory, Thread::getCurrentThread called by code that a thread object runs returns that object; called by any other thread of the program it returns null; it never returns an object that does not exist. Thread::create returns an object that does not exist yet, Thread::destroy deletes an existing object whose run is over, and between calls there is exactly one operating system thread per existing thread object.", "quantifier": "every history and interleaving of create, destroy, runs and getCurrentThread by any number of clients, every point where creating a thread or inserting the table entry fails, and every allocation of thread ids the operating system may make (an id may be used again once its thread has been joined)", "why_tests_cant": "The table goes wrong only when a thread id is reused inside the short window between join and erase of a concurrent destroy; a test cannot choose thread ids or that window, and the claim is about all histories.", "anchors": ["platform/StdCppOSWrapper/StdCppThreadFactory.cpp: StdCppThreadFactory::create, destroy, getCurrentThread", "platform/StdCppOSWrapper/StdCppThreadFactory.cpp: StdCppThread::beginThread, endThread"]}
{"id": "C80", "title": "Thread::create on StdCpp/Posix/Windows is all or nothing when something inside fails", "statement": "Thread::create either returns a thread whose object, operating system thread and table entry all exist, or returns null and keeps nothing: whichever of the memory allocation, the creation of the operating system thread, setting the name, setting the priority or the table insertion fails, everything obtained before is given back exactly once, in an order in which nothing is used after it was given back. Thread::destroy gives everything back. setPriority inside create does not fail when the creating thread's own priority lies in the factory's range.", "quantifier": "every combination of failing calls and every exception they throw, every priority range, requested priority and priority of the creating thread", "why_tests_cant": "Each failure point needs fault injection in the C++ runtime or the operating system, and the claim ranges over all combinations.", "anchors": ["platform/StdCppOSWrapper/StdCppThreadFactory.cpp: StdCppThreadFactory::create, destroy, StdCppThread::beginThread, endThread", "platform/PosixOSWrapper/PosixThreadFactory.cpp: PosixThread::setPriority, setPriorityRange", "platform/WindowsOSWrapper/WindowsThreadFactory.cpp: WindowsThread::setPriority"]}
{"id": "C81", "title": "Timer create on StdCpp/Posix is all or nothing when something inside fails", "statement": "OneShotTimer::create and PeriodicTimer::create either return a timer with its running timer thread, or return null and keep nothing, whichever call inside fails; destroy gives the timer, its thread and the table entry back exactly once in a safe order.", "quantifier": "every combination of failing calls inside create (memory, thread creation, synchronisation members, setPriority) and every exception they throw", "why_tests_cant": "Each failure point needs fault injection in the C++ runtime or the operating system, and the claim ranges over all combinations.", "anchors": ["platform/StdCppOSWrapper/StdCppOneShotTimerFactory.cpp: create, destroy, StdCppOneShotTimer::beginThread", "platform/StdCppOSWrapper/StdCppPeriodicTimerFactory.cpp: create, destroy, StdCppPeriodicTimer::beginThread"]}
{"id": "C82", "title": "Windows timers: callbacks come from starts", "statement": "A Windows one-shot timer calls its Runnable at most once per effective start; no timer calls its Runnable before it was started. If the timer service does not cancel an event it has already dispatched, each start is followed by at most one callback before the next effective start, earlier callbacks are over by then, and an active timer always has an event registered or a callback under way.", "quantifier": "every interleaving of any number of clients, the timer service and its callback threads, every answer of timeSetEvent/timeKillEvent", "why_tests_cant": "The order of client calls and callback threads is chosen by the operating system; a test sees a few of the orders.", "anchors": ["platform/WindowsOSWrapper/WindowsOneShotTimerFactory.cpp: timerCallback, start, stop, isStarted, ~WindowsOneShotTimer, destroy", "platform/WindowsOSWrapper/WindowsPeriodicTimerFactory.cpp: timerCallback, start, stop, isStarted, ~WindowsPeriodicTimer, destroy"]}
{"id": "C83", "title": "Windows timers: start, stop and isStarted", "statement": "isStarted tells whether the timer was started and has neither been stopped nor (one-shot) run to its end since; start of an active timer and stop of an inactive one do nothing; after stop has returned, no callback begins until the next start.", "quantifier": "every interleaving of clients, the timer service and callbacks", "why_tests_cant": "The claim about stop fails only in the window between the dispatch of a callback and its first instruction.", "anchors": ["platform/WindowsOSWrapper/WindowsOneShotTimerFactory.cpp: timerCallback, start, stop, isStarted, ~WindowsOneShotTimer, destroy", "platform/WindowsOSWrapper/WindowsPeriodicTimerFactory.cpp: timerCallback, start, stop, isStarted, ~WindowsPeriodicTimer, destroy"]}
{"id": "C84", "title": "Windows timers: destroy", "statement": "destroy waits for a callback in progress, blocks only while there is one, and afterwards nothing accesses the deleted timer and no callback begins.", "quantifier": "every interleaving of destroy with the timer service and callbacks at every point of their execution", "why_tests_cant": "The window in which a dispatched callback has not yet announced itself (or has still to unlock) cannot be hit deliberately by a test.", "anchors": ["platform/WindowsOSWrapper/WindowsOneShotTimerFactory.cpp: timerCallback, start, stop, isStarted, ~WindowsOneShotTimer, destroy", "platform/WindowsOSWrapper/WindowsPeriodicTimerFactory.cpp: timerCallback, start, stop, isStarted, ~WindowsPeriodicTimer, destroy"]}
{"id": "C85", "title": "ITRON mutex, event flag and timer factories", "statement": "create never returns the address of an object that exists, at most the configured number of objects exist, and each has its own kernel object; create returns null only if the factory has no memory, or all blocks are in use by existing objects or other creates, or the kernel refuses; a failed create and a destroy give everything back, so that with no call in progress the blocks and kernel objects in use are exactly those of the existing objects; kernel objects of the rest of the system are never touched.", "quantifier": "every number of callers, every interleaving of their kernel calls, every answer of the kernel within its contract", "why_tests_cant": "Failure paths and concurrent creates and destroys on a real kernel cannot be enumerated.", "anchors": ["platform/ItronOSWrapper/ItronMutexFactory.cpp: create, destroy, ItronMutex, ~ItronMutex", "platform/ItronOSWrapper/ItronEventFlagFactory.cpp: create, destroy, ItronEventFlag, ~ItronEventFlag", "platform/ItronOSWrapper/ItronPeriodicTimerFactory.cpp: create, destroy, ItronPeriodicTimer, ~ItronPeriodicTimer"]}
{"id": "C86", "title": "ITRON periodic timer", "statement": "A callback is only ever that of a timer that exists and was started and not stopped since; an active timer's next period does run its callback; isStarted tells exactly this; destroy of a running timer stops it first, and no callback is made on a destroyed timer even if its address or kernel id is used again.", "quantifier": "every interleaving of start, stop, isStarted, create, destroy and the kernel's cyclic handlers", "why_tests_cant": "A callback between destroy's stop and delete, and reuse of addresses and ids, are timing dependent.", "anchors": ["platform/ItronOSWrapper/ItronPeriodicTimerFactory.cpp: cyclicHandler, start, stop, isStarted, destroy", "mechanism/OSWrapper/PeriodicTimer.cpp: timerMain"]}
{"id": "C87", "title": "Container constructors that throw leave nothing behind", "statement": "FixedVector and FixedDeque constructed from (n, value), from a range or by copying hold exactly the elements asked for; if they do not fit BadAlloc is thrown and nothing is constructed; if an element's copy constructor throws, that exception leaves the constructor and no element object stays alive (as for the standard containers).", "quantifier": "every capacity, number of elements, source range and point at which a copy throws", "why_tests_cant": "The failing copy can be any of the copies; the leak is invisible unless lifetimes are tracked.", "anchors": ["mechanism/Container/FixedVector.h: constructors, assign, resize, push_back", "mechanism/Container/FixedDeque.h: constructors, assign, resize, push_back"]}
{"id": "C88", "title": "ITRON mutex whose holder ends", "statement": "When a task ends while it holds an ITRON mutex, the mutex becomes free and from then on behaves like a mutex nobody has locked: the next task gets it at once, and n locks need exactly n unlocks.", "quantifier": "every schedule of tasks that lock, unlock and exit, any recursion depth at the exit", "why_tests_cant": "It depends on the recursion depth at which a task ends and on who locks next.", "anchors": ["platform/ItronOSWrapper/ItronMutexFactory.cpp: ItronMutex::timedLock, unlock, m_recursiveCount"]}
{"id": "C89", "title": "StdCpp memory pools", "statement": "The StdCpp (Posix, Windows) memory pools: a block handed out is not null, has the length asked for (the block size of a fixed pool) and shares no byte with any block the caller holds from any pool; giving back blocks held is always valid, null is ignored; when all blocks of the pools have been given back no memory stays in use; getBlockSize is the size the pool was created with; getRequiredMemorySize(bs, n) is what n blocks need; a pool hands out no more than fits in its memory, from the memory given to create, and destroying it releases its blocks.", "quantifier": "every history of create, destroy, allocate, deallocate over any number of pools and every answer of malloc within its contract", "why_tests_cant": "The space of histories and heap answers is infinite; overlapping blocks show only for particular addresses.", "anchors": ["platform/StdCppOSWrapper/StdCppFixedMemoryPoolFactory.cpp: StdCppFixedMemoryPool, create, destroy, getRequiredMemorySize", "platform/StdCppOSWrapper/StdCppVariableMemoryPoolFactory.cpp: StdCppVariableMemoryPool, create, destroy"]}
{"id": "C90", "title": "No data races inside the library", "statement": "The member variables of threads, event flags, timers and message queues (StdCpp, Posix and Windows platforms) are never accessed by two threads at the same time, one of them writing, whatever functions of the API any threads and callbacks call at the same time on the same or on different objects between their creation and destruction.", "quantifier": "every number of threads and objects, every sequence of calls and every interleaving of their reads, writes, locks and waits", "why_tests_cant": "Data races depend on the interleaving of single accesses; a test shows some interleavings only.", "anchors": ["platform/StdCppOSWrapper/StdCppThreadFactory.cpp", "platform/StdCppOSWrapper/StdCppEventFlagFactory.cpp", "platform/StdCppOSWrapper/StdCppOneShotTimerFactory.cpp", "platform/StdCppOSWrapper/StdCppPeriodicTimerFactory.cpp", "platform/StdCppOSWrapper/StdCppMutexFactory.cpp", "platform/WindowsOSWrapper/WindowsOneShotTimerFactory.cpp", "platform/WindowsOSWrapper/WindowsPeriodicTimerFactory.cpp", "mechanism/OSWrapper/MessageQueue.h", "mechanism/OSWrapper/Thread.cpp: setUncaughtExceptionHandler, setDefaultUncaughtExceptionHandler"]}
{"id": "C91", "title": "The library's locks never deadlock", "statement": "While code of the user runs (a Runnable, a timer callback, an exception handler) the calling thread holds no lock of the library, so any function can be called from there; a thread that wants a lock gets it or another thread that holds one can go on: no set of threads waits for each other's locks.", "quantifier": "every number of threads and objects, every sequence of calls, also from callbacks, and every interleaving", "why_tests_cant": "A deadlock needs a particular interleaving of particular calls.", "anchors": ["platform/StdCppOSWrapper/StdCppThreadFactory.cpp", "platform/StdCppOSWrapper/StdCppEventFlagFactory.cpp", "platform/StdCppOSWrapper/StdCppOneShotTimerFactory.cpp", "platform/StdCppOSWrapper/StdCppPeriodicTimerFactory.cpp", "platform/WindowsOSWrapper/WindowsOneShotTimerFactory.cpp", "platform/WindowsOSWrapper/WindowsPeriodicTimerFactory.cpp", "mechanism/OSWrapper/MessageQueue.h"]}
{"id": "C92", "title": "Creating and destroying timers does not deadlock with callbacks", "statement": "OneShotTimer/PeriodicTimer create and destroy always return once the callbacks they wait for have returned, also when callbacks create or destroy timers themselves.", "quantifier": "every number of timers and threads, every schedule of create, destroy, start, stop and callbacks", "why_tests_cant": "The deadlock needs a callback that creates a timer just while its own timer is being destroyed.", "anchors": ["platform/WindowsOSWrapper/WindowsOneShotTimerFactory.cpp: destroy, ~WindowsOneShotTimer", "platform/WindowsOSWrapper/WindowsPeriodicTimerFactory.cpp: destroy, ~WindowsPeriodicTimer", "platform/StdCppOSWrapper/StdCppOneShotTimerFactory.cpp: destroy", "platform/StdCppOSWrapper/StdCppPeriodicTimerFactory.cpp: destroy"]}
{"id": "C93", "title": "A thread pool never lets two threads use a hand-over at once", "statement": "The task, the wait flag and the WaitGuard given to ThreadPool::start are never accessed by two threads at the same time with one of them writing, and a pool thread is never used after ThreadPool::destroy has destroyed it, although the pool takes no lock around them.", "quantifier": "every pool size, number of clients, tasks and guards, every schedule, throwing tasks and timeouts", "why_tests_cant": "A race shows only under particular interleavings; the absence of a lock has to be justified by ownership in every schedule.", "anchors": ["mechanism/OSWrapper/ThreadPool.cpp: timedStart, TaskRunner::startThread, run, afterInvoke, WaitGuard::release, destroy"]}
{"id": "C94", "title": "Platform initialisation", "statement": "After init of a platform (on Posix and Windows with a priority range) every kind of OS object can be created and is created by that platform's factory; getLowestPriority/getHighestPriority are the values given to init; and in a program that initialises one platform only, every object is destroyed by the factory that created it.", "quantifier": "every history of init calls, creations and destructions, every platform, argument and platform answer", "why_tests_cant": "tests call init once at start with one range; the claim ranges over all histories of calls", "anchors": ["platform/StdCppOSWrapper/StdCppOSWrapper.cpp: init", "platform/PosixOSWrapper/PosixOSWrapper.cpp: init", "platform/WindowsOSWrapper/WindowsOSWrapper.cpp: init", "platform/ItronOSWrapper/ItronOSWrapper.cpp: init", "platform/TestDoubleOSWrapper/TestDoubleOSWrapper.cpp: init", "mechanism/OSWrapper/Thread.cpp: getLowestPriority, getHighestPriority"]}
{"id": "C95", "title": "All access paths name the same element; writes through them act on exactly that element", "statement": "For a vector or deque (fixed or preallocated), v[i], at(i), front(), back(), *(begin()+i), *(end()-i), *(rbegin()+i), *(rend()-i) (and data()[i] for vectors) that designate the same list position evaluate to the same object; reading yields the list element there, assigning through it (also from another element of the same container) replaces exactly that element and nothing else, whatever the rotation of the deque; if the element's assignment throws, only that element is affected. Every history mixing calls, reads, writes and copies gives the results of a bounded list.", "quantifier": "every capacity, content, rotation, path pair, value, element-throw pattern, build mode, history of calls and accesses", "why_tests_cant": "infinitely many capacities, rotations and histories; the wrap-around of each path differs", "anchors": ["mechanism/Container/FixedVector.h operator[] at front back begin end rbegin rend data", "mechanism/Container/PreallocatedVector.h", "mechanism/Container/FixedDeque.h iterator operator* operator[] at front back rbegin rend", "mechanism/Container/PreallocatedDeque.h"]}
{"id": "C96", "title": "Misused deque iterators are reported in debug builds, owned ones behave as positions", "statement": "Operations on iterators that belong to a deque (movement, difference, ordering, access, insert and erase at them) behave as on positions of that deque. In a debug build, moving, dereferencing or indexing a default-constructed iterator, ordering or subtracting iterators of two deques, and insert or erase with an iterator that is null or belongs to another deque raise the assertion failure before any deque changes; == never asserts and holds exactly for the same position of the same deque.", "quantifier": "every pair of iterators, every offset, any number of deques in any state", "why_tests_cant": "ranges over all pairs of iterators and all states of several objects", "anchors": ["mechanism/Container/FixedDeque.h FixedDeque_iterator", "mechanism/Container/PreallocatedDeque.h PreallocatedDeque_iterator", "mechanism/Container/FixedDeque.h insert erase"]}
{"id": "C97", "title": "The message queue is correct on the real event flags", "statement": "MessageQueue keeps its guarantees when its event flag is not an atomic object but the actual implementation running concurrently (mutex plus condition variable with spurious wake-ups, or the ITRON kernel flag with its wait queue): every execution has the calls, results and effects of an execution on an atomic event flag, so the queue is a linearizable bounded FIFO, never exceeds its capacity and never touches a dead slot; and the event flag's internal lock, taken while the queue's locks are held, introduces no deadlock: when nothing can move, every pending call is a FOREVER send on a full queue or a FOREVER receive on an empty one. Without new calls and spurious wake-ups the threads inside reach such a state within a bounded number of steps.", "quantifier": "every number of threads, every interleaving of the queue's steps with the steps inside the event flag, every capacity, every wake-up and timeout, every kernel wait order", "why_tests_cant": "the interleavings of two layers of synchronisation are unbounded; a lost wake-up needs one particular schedule", "anchors": ["mechanism/OSWrapper/MessageQueue.h timedSend timedReceive isFull isEmpty push pop", "platform/StdCppOSWrapper/StdCppEventFlagFactory.cpp StdCppEventFlag", "platform/ItronOSWrapper/ItronEventFlagFactory.cpp ItronEventFlag"]}
{"id": "C98", "title": "Cost of container calls in element copies", "statement": "push_back and push_front construct one element; pop, clear, access and the observers construct or assign none; resize constructs the difference, assign the new elements; insert of n elements into a vector of z elements at p constructs or assigns n+(z-p) elements, or 2n+(z-p) if fewer than z-p are inserted, and erase [a,b) assigns z-b; a deque moves only one side of the position, at most half of its elements (erase: the shorter side exactly), so work at either end does not depend on the size. A call refused for capacity copies nothing, a call whose element operation throws has made at most that many. Over a whole history the number of constructions and assignments is the sum.", "quantifier": "every capacity, content, rotation, position, count, element type behaviour, build mode, history of calls", "why_tests_cant": "infinitely many sizes, positions and rotations; timing tests cannot give exact counts for all of them", "anchors": ["mechanism/Container/FixedVector.h: insert_n, insert_range, erase, resize, assign, push_back", "mechanism/Container/PreallocatedVector.h: insert_n, insert_range, erase", "mechanism/Container/FixedDeque.h: insert_n, insert_range, erase, push_front, push_back", "mechanism/Container/PreallocatedDeque.h: insert_n, insert_range, erase"]}
{"id": "C99", "title": "A MessageQueue used by one thread is a bounded FIFO whatever its OS objects answer", "statement": "For a MessageQueue (and the runner queue inside ThreadPool) whose mutexes and event flag are of any class derived from the shipped test doubles and which is used by one thread: every call makes well nested lock/unlock pairs also when a copy throws, never waits with the buffer mutex held and never locks a mutex it holds; a lock or wait that fails is returned and changes nothing; otherwise sends append and receives take the oldest message; creating a ThreadPool and destroying it destroys every runner exactly once.", "quantifier": "all answers of the OS objects (functions of everything called so far), all capacities, contents, rotations of the ring, call histories, throwing copies, numbers of runners", "why_tests_cant": "a test with mocks fixes the answers, the capacity and one history; the shipped stubs answer OK to every wait, a case no test in the repository exercises", "anchors": ["mechanism/OSWrapper/MessageQueue.h MessageQueue::timedSend timedReceive getSize RingBuf", "mechanism/OSWrapper/ThreadPool.cpp destroyRunners", "platform/TestDoubleOSWrapper/TestDoubleEventFlagFactory.h", "platform/TestDoubleOSWrapper/TestDoubleMutexFactory.h", "mechanism/OSWrapper/Mutex.cpp LockGuard"]}
{"id": "C100", "title": "ThreadPool keeps its promises on the real MessageQueue", "statement": "A ThreadPool whose runner queue is MessageQueue itself (its ring, mutexes and event-flag waits interleaved step by step with the pool, the event flag being the atomic one, the C++11 or the ITRON implementation) behaves as with an ideal FIFO queue: every accepted task runs exactly once with its priority, start/wait/release/destroy keep their guarantees, at most n tasks run at a time; without new calls the whole comes to rest within a bounded number of steps; and when nothing more can happen, every client has returned except starts without timeout that wait while each pool thread is held by a guard whose task is over or was dropped.", "quantifier": "all numbers of threads, priorities, clients and guards, all call histories, all interleavings of clients, pool threads and the steps inside the queue and its event flag, all timeouts", "why_tests_cant": "the queue, the flag and the pool each have lost-wakeup windows that only particular interleavings of three layers hit; a test runs a few of them", "anchors": ["mechanism/OSWrapper/ThreadPool.cpp ThreadPool::timedStart releaseWait destroyRunners", "mechanism/OSWrapper/MessageQueue.h MessageQueue::timedSend timedReceive", "platform/StdCppOSWrapper/StdCppEventFlagFactory.cpp StdCppEventFlag", "platform/ItronOSWrapper/ItronEventFlagFactory.cpp ItronEventFlag"]}
{"id": "C101", "title": "Thread priorities are what was asked for last, for every concurrent history", "statement": "On StdCpp, Posix and Windows: getPriority returns the priority given by the last completed create or setPriority of that Thread, getInitialPriority the one create gave it; a priority of the range is taken as it is; INHERIT_PRIORITY (or a number outside the range on Posix/Windows) gives the priority the calling thread had at some moment of the call, or getNormalPriority if the caller is not a Thread; on Posix and Windows no call ever throws, every priority returned is in the range and the operating system has been told the native priority of the current one with a policy that admits it.", "quantifier": "all priority ranges without int overflow, SCHED_RR ranges, default priorities, histories of create/setPriority/getPriority/getInitialPriority/destroy, all interleavings of callers", "why_tests_cant": "tests use one range and one thread; the claims are about all ranges, histories and interleavings", "anchors": ["platform/StdCppOSWrapper/StdCppThreadFactory.cpp StdCppThread::setPriority getPriority beginThread", "platform/PosixOSWrapper/PosixThreadFactory.cpp PosixThread::setPriority", "platform/WindowsOSWrapper/WindowsThreadFactory.cpp WindowsThread::setPriority", "mechanism/OSWrapper/Thread.cpp Thread::INHERIT_PRIORITY"]}
{"id": "C102", "title": "ThreadPool's timed calls keep their timeouts", "statement": "timedStart(task, n ms) and WaitGuard::timedWait(n ms) return within n milliseconds of the call (apart from the time it takes to execute the pool's own code), tryStart and tryWait without waiting; and no call reports TimedOut before its timeout has passed.", "quantifier": "every pool size, timeout, time at which tasks end and threads finish, and interleaving of clients and pool threads", "why_tests_cant": "A test measures one schedule on one machine; the bound has to hold for every moment at which another thread finishes, hands over or stalls.", "anchors": ["mechanism/OSWrapper/ThreadPool.cpp: ThreadPool::timedStart, ThreadPool::tryStart, ThreadPool::WaitGuard::timedWait, ThreadPool::TaskRunner::timedWait"]}
{"id": "C103", "title": "ThreadPool reports what fails and loses nothing by it", "statement": "If a call of the queue, of an event flag or of a thread fails with an error e: start and timedWait (and the calls that are the same) return e, and a start that does so has handed its task to no thread; a start that returns OK has handed its task over once and nothing has failed in it; every accepted task still runs once, with its priority, and at most as many at a time as there are threads. Nevertheless wait returns OK, and release and destroy return, only when the task is over (resp. all are); and at rest every thread is available.", "quantifier": "every pool size, every set of calls that fail, every error, all interleavings of clients and pool threads", "why_tests_cant": "The operating system's calls do not fail in tests (CalledByNonThread needs an interrupt handler on ITRON), and which of them fail, when and in which interleaving is unbounded.", "anchors": ["mechanism/OSWrapper/ThreadPool.cpp: ThreadPool::timedStart, ThreadPool::destroy, ThreadPool::releaseThread, ThreadPool::WaitGuard::timedWait, ThreadPool::WaitGuard::release, ThreadPool::TaskRunner::afterInvoke, ThreadPool::TaskRunner::wait"]}
{"id": "C104", "title": "Timed waits of an event flag keep their timeouts", "statement": "With the StdCpp event flag a wait with a timeout of n milliseconds returns at most n milliseconds after it was called (executing code taking no time), and if it returns TimedOut then exactly n milliseconds after; calls that do not wait take no time; whenever time passes, no call is under way whose condition holds: every pending wait could only return TimedOut. Spurious wake-ups, sets that do not fulfil the condition and the resets by other waiters neither lengthen nor shorten a wait.", "quantifier": "all pattern widths, auto reset or not, all timed executions of any number of threads with any calls, timeouts, wake-ups", "why_tests_cant": "A test measures one timeout under one schedule; that notifications and spurious wake-ups never restart or shorten the wait must hold for every schedule.", "anchors": ["platform/StdCppOSWrapper/StdCppEventFlagFactory.cpp: StdCppEventFlag::timedWait", "platform/StdCppOSWrapper/StdCppEventFlagFactory.cpp: StdCppEventFlag::set"]}
{"id": "C105", "title": "Timed waits for a thread keep their timeouts", "statement": "With the StdCpp thread, timedWait(n) returns at most n milliseconds after it was called (executing library code taking no time), and if it returns TimedOut then exactly n milliseconds after; start, tryWait and isFinished take no time; a started thread enters its Runnable at once and counts as finished as soon as that returns; calls are pending only while the Runnable runs, and only waits and destroy are.", "quantifier": "all timed executions of any number of client threads, any calls and timeouts, any running times of the Runnable, any spurious wake-ups, destroy not overlapping other calls", "why_tests_cant": "A test measures one timeout under one schedule; restarts, notifications and spurious wake-ups during the wait are schedules it does not choose.", "anchors": ["platform/StdCppOSWrapper/StdCppThreadFactory.cpp: StdCppThread::timedWait", "platform/StdCppOSWrapper/StdCppThreadFactory.cpp: StdCppThread::threadLoop", "platform/StdCppOSWrapper/StdCppThreadFactory.cpp: StdCppThread::start"]}
{"id": "C106", "title": "Containers in a build without exceptions", "statement": "In a CPPELIB_NO_EXCEPTIONS build, provided an assertion handler that does not return is set, every vector, deque and array call behaves as in the default build, except that where that build throws (no room, index out of range, failed debug assertion) the handler is entered instead, at the same moment and with the container exactly as it was before the call. The provision cannot be dropped: with no handler, or one that returns, every vector call that does not fit and every out-of-range at() is undefined behaviour, push_back/push_front on a full deque empties it and leaks all elements, deque at(max_size()+1) returns the first element, and debug assertions check nothing; calls that fit still behave as in the default build.", "quantifier": "All capacities, contents, ring positions, element values, calls and arguments, debug and release builds", "why_tests_cant": "Tests of the exception-free build exercise one overflowing call per container with a longjmp handler; no test can show that no call touches the container before its check, nor what happens in every state when the handler returns.", "anchors": ["mechanism/Container/ContainerException.h: CPPELIB_CONTAINER_THROW", "mechanism/Assertion/Assertion.h: Failure::assertFail", "mechanism/Container/FixedVector.h", "mechanism/Container/FixedDeque.h", "mechanism/Container/PreallocatedVector.h", "mechanism/Container/PreallocatedDeque.h", "mechanism/Container/Array.h: Array::at"]}
{"id": "C107", "title": "No data races on the ITRON platform, from tasks and from timer callbacks", "statement": "On ITRON, however many tasks call the library's functions at the same time, and whatever a periodic timer's callback calls, no two of them access the same member variable of a library object at the same time with one of them writing it.", "quantifier": "every number of tasks and handlers, every schedule, every sequence of calls made in tasks and in cyclic handlers, every subset of the factories' mutexes that could be created", "why_tests_cant": "a race shows up only in a window of a few instructions; whether a call is made from a task or a handler and which kernel mutexes exist multiplies the interleavings", "anchors": ["platform/ItronOSWrapper/private/ItronLock.h: Lock", "platform/ItronOSWrapper/ItronThreadFactory.cpp: ItronThread, ItronThreadFactory", "platform/ItronOSWrapper/ItronPeriodicTimerFactory.cpp: ItronPeriodicTimer", "platform/ItronOSWrapper/ItronMutexFactory.cpp: ItronMutex", "platform/ItronOSWrapper/ItronFixedMemoryPoolFactory.cpp", "mechanism/OSWrapper/MessageQueue.h"]}
{"id": "C108", "title": "The library's locks never deadlock on the ITRON platform", "statement": "On ITRON, no task ever waits for a lock of the library that it holds itself, no set of tasks waits for each other's locks of the library, and user code (a Runnable, a timer callback, an exception handler) runs without any lock of the library, in tasks and handlers, with or without the factories' mutexes.", "quantifier": "every number of tasks and handlers, every schedule and sequence of calls, also from callbacks", "why_tests_cant": "a deadlock needs a particular interleaving of lock acquisitions; its absence is a statement about all of them", "anchors": ["platform/ItronOSWrapper/private/ItronLock.h: Lock", "platform/ItronOSWrapper/ItronThreadFactory.cpp", "mechanism/OSWrapper/MessageQueue.h", "mechanism/OSWrapper/Mutex.cpp: LockGuard"]}
{"id": "C109", "title": "ThreadPool keeps its promises on the real MessageQueue and the real EventFlags together", "statement": "A ThreadPool whose runner queue is MessageQueue itself and whose threads' event flags are the C++11 or ITRON EventFlag implementation (all their locks, condition waits and kernel calls interleaved step by step with the pool) behaves as with ideal ones: every accepted task runs exactly once with its priority, a wait on a guard that returned OK came after the end of the task, release and destroy keep their guarantees; an event flag that destroy has destroyed is in use by nobody and never used again; and when nothing more can happen, every client has returned except starts without timeout that wait while each pool thread is held by a guard whose task is over or was dropped; without new calls the whole comes to rest within a bounded number of steps.", "quantifier": "all numbers of threads, priorities, clients and guards, all call histories, all interleavings of clients, pool threads and the steps inside the queue, its event flag and every thread's event flag, all timeouts", "why_tests_cant": "the guard's wait, the thread's notification and the queue's hand-over each have lost-wakeup and use-after-destroy windows that only particular interleavings of all layers hit", "anchors": ["mechanism/OSWrapper/ThreadPool.cpp TaskRunner::release notifyRelease wait ThreadPool::timedStart destroyRunners", "mechanism/OSWrapper/MessageQueue.h MessageQueue::timedSend timedReceive", "platform/StdCppOSWrapper/StdCppEventFlagFactory.cpp StdCppEventFlag", "platform/ItronOSWrapper/ItronEventFlagFactory.cpp ItronEventFlag"]}
{"id": "C110", "title": "ITRON calls from interrupt handlers are refused and reported", "statement": "On ITRON, lock, tryLock and timedLock of a mutex called from an interrupt or timer handler return CalledByNonThread, unlock returns an error, and none of them changes the mutex: whatever handlers call, nested or not and whenever they interrupt, the tasks see exclusion and recursion as if there were no handlers. E_CTX of a lock, of an event flag wait and of a thread wait is reported as CalledByNonThread and E_TMOUT as TimedOut, no other code is.", "quantifier": "all numbers of tasks, all schedules, all interrupt times and nestings, all kernel answers", "why_tests_cant": "An interrupt can come between any two instructions of a task that is inside the mutex; tests run a few.", "anchors": ["platform/ItronOSWrapper/ItronMutexFactory.cpp: ItronMutex::timedLock, unlock, isLockedByThisThread", "platform/ItronOSWrapper/ItronThreadFactory.cpp: ItronThread::timedWait", "platform/ItronOSWrapper/ItronEventFlagFactory.cpp: timedWait", "mechanism/OSWrapper/Thread.h: wait, timedWait (CalledByNonThread)"]}
{"id": "C111", "title": "ThreadPool keeps its promises on the real Thread objects", "statement": "A ThreadPool whose threads are the C++11/POSIX/Windows Thread implementation itself (start, wait, timedWait, destroy and the native worker loop with its mutex and condition variable interleaved step by step with the pool's code) behaves as with ideal threads: every accepted task runs exactly once, on its thread, with its priority, waits, release and destroy keep their guarantees; the pool never breaks the rules of its Thread objects (no call on a destroyed thread, Thread::destroy called by one caller with nobody inside); when destroy has destroyed a thread, its native thread has ended and nobody is inside the object; and when nothing more can happen every client has returned except starts without timeout that wait while each pool thread is held by a guard whose task is over or was dropped.", "quantifier": "all numbers of threads, priorities, clients and guards, all schedules, all spurious wake-ups and timeouts", "why_tests_cant": "The interleavings of the pool's code with the worker loops of all its threads are unbounded; a lost wake-up or a start that is swallowed by a thread which is not finished yet needs one particular interleaving.", "anchors": ["mechanism/OSWrapper/ThreadPool.cpp: timedStart, TaskRunner::startThread, TaskRunner::run, destroy, destroyRunners, waitThreads", "platform/StdCppOSWrapper/StdCppThreadFactory.cpp: StdCppThread::start, timedWait, threadLoop, endThread", "platform/PosixOSWrapper/PosixThreadFactory.cpp", "platform/WindowsOSWrapper/WindowsThreadFactory.cpp"]}
{"id": "C112", "title": "ThreadPool keeps its promises on ITRON threads", "statement": "A ThreadPool whose threads are the ITRON Thread implementation itself (every kernel call of start, timedWait, wait, destroy and of the thread's task interleaved step by step with the pool's code, and with anybody who asks isFinished or changes priorities of these threads) behaves as with ideal threads: every accepted task runs exactly once, on its thread, with its priority argument, waits, release and destroy keep their guarantees. The pool never breaks the rules of its Thread objects; when destroy has destroyed a thread its task is dormant and nobody is inside the object; and no pool call polls for ever for a task that became dormant and was started again (the weakness of ItronThread::timedWait, C78): when nothing more can happen except polls that find nothing, every client has returned except starts without timeout that wait while each pool thread is held by a guard whose task is over or was dropped.", "quantifier": "all numbers of threads, priorities, clients and guards, all schedules, all timeouts, all priority changes", "why_tests_cant": "The interleavings of the pool's code with kernel calls and task switches are unbounded; C78 shows that a bare ITRON thread does have a schedule in which a wait never returns.", "anchors": ["mechanism/OSWrapper/ThreadPool.cpp: timedStart, TaskRunner::startThread, TaskRunner::run, destroy, destroyRunners, waitThreads", "platform/ItronOSWrapper/ItronThreadFactory.cpp: ItronThread::start, timedWait, threadEntry, ItronThreadFactory::destroy"]}
{"id": "C113", "title": "A message queue shared by threads survives an event flag that fails", "statement": "MessageQueue ignores what its event flag answers to set and reset. However its locks, waits, sets and resets fail, sends and receives of any number of threads form one FIFO history of at most maxSize messages, nothing is read that was never sent, nothing is lost or duplicated, and a call returning an error has no effect; and no send on a queue with room and no receive on a queue with messages waits forever.", "quantifier": "every interleaving of any number of threads and every choice of failing OS calls", "why_tests_cant": "failures of single OS calls at every point of every interleaving cannot be enumerated; the test doubles never fail a set", "anchors": ["mechanism/OSWrapper/MessageQueue.h MessageQueue::timedSend, timedReceive, isEmpty, isFull, push, pop", "platform/ItronOSWrapper/ItronEventFlagFactory.cpp set, reset"]}
{"id": "C114", "title": "Waiting threads are in nobody's way", "statement": "While a thread waits for a condition inside the library (for a thread to end, in an event flag, for room or a message in a queue, for a timer's thread in start or stop) it holds no lock of the library, except the send or receive lock of the message queue it waits for, and the lock of a timer factory while a timer is created or destroyed; so a waiting thread never holds up calls on threads, event flags, timers, the size of a queue, or the creation and destruction of anything but timers.", "quantifier": "all threads, objects, calls (also from callbacks and exception handlers) and schedules on the StdCpp, Posix and Windows platforms", "why_tests_cant": "Which locks are held at a wait depends on the whole call path and on the schedule; a test sees a few of them.", "anchors": ["platform/StdCppOSWrapper/StdCppThreadFactory.cpp", "platform/StdCppOSWrapper/StdCppEventFlagFactory.cpp", "platform/StdCppOSWrapper/StdCppOneShotTimerFactory.cpp", "platform/StdCppOSWrapper/StdCppPeriodicTimerFactory.cpp", "mechanism/OSWrapper/MessageQueue.h MessageQueue::timedSend, timedReceive"]}
