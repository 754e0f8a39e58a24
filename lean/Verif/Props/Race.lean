import Verif.Model.Access
import Verif.Props.Mutex
/-
C90: no data race on the member variables of the library's classes.  C91: locks are never held while code of the user runs, and never deadlock.
The programs are the access skeletons of Model/Access.lean; the semantics, the definition of a data race (`Racy`) and of a thread that wants a lock
(`Wants`) are in Sem/Race.lean.  Any number of threads, objects and calls; a thread may call any function at any time, also from a callback.
-/
namespace Verif.Props.Race
open Verif _root_.Verif.Race _root_.Verif.Access

/-- Variables that are not written after construction (except by the setters of `CallX`). -/
def imm : Var → Bool
  | .thStack _ | .thThread _ | .thMap _ | .thRunnable _ | .thHandler _ | .thDefaultHandler | .factories | .evAuto _ | .osConst _ | .osHandler _ | .osDefaultHandler
  | .peTime _ | .peConst _ | .peHandler _ | .peDefaultHandler | .woConst _ | .wpConst _ | .mqConst _ => true
  | _ => false

/-- The lock that guards a variable. -/
def grd : Var → Lk
  | .thActive o | .thEnd o | .thPrio o | .thInitPrio o | .thName o | .thWideName o => .thread o
  | .idMap => .threadFac
  | .evPattern o => .ev o
  | .osTime o | .osName o | .osActive o | .osStarted o | .osStopped o | .osEnd o => .oneShot o
  | .peName o | .peActive o | .peStarted o | .peStopped o | .peEnd o => .periodic o
  | .woName o | .woStarted o | .woTimer o => .winOne o
  | .wpName o | .wpStarted o | .wpTimer o => .winPer o
  | .mqBegin o | .mqEnd o | .mqBuf o | .mqCntRB o => .mqRB o
  | .mqCntSend o => .mqSend o
  | .mqCntRecv o => .mqRecv o
  | _ => .threadFac

/-- The order in which locks are taken. -/
def rank : Lk → Nat
  | .oneShotFac | .periodicFac | .winOneFac | .winPerFac => 0
  | .oneShot _ | .periodic _ | .winOne _ | .winPer _ => 1
  | .threadFac | .mqSend _ | .mqRecv _ => 2
  | .thread _ | .mqRB _ => 3
  | .evFac | .mtxFac | .fixFac | .varFac => 4
  | .ev _ => 5

theorem api_guarded (c : Call) : guarded imm grd [] (api c) = true := by
  cases c <;>
  simp [guarded, api, Th.threadLoop, Th.start, Th.timedWait, Th.isFinished, Th.setName, Th.getName, Th.setPriority, Th.getPriority, Th.getInitialPriority, Th.getStackSize, Th.getNativeHandle, Th.getCurrentThread, Th.create, Th.destroy, Th.getHandler, Th.getDefaultHandler, Th.threadMain, Th.handleException, Th.endThread, Th.beginThread,
    EvF.timedWait, EvF.set, EvF.reset, EvF.getCurrentPattern, EvF.create, EvF.destroy,
    One.threadLoop, One.start, One.stop, One.isStarted, One.setName, One.getName, One.create, One.destroy, One.getHandler, One.getDefaultHandler, One.handleException, One.timerMain, One.endThread,
    Per.threadLoop, Per.start, Per.stop, Per.isStarted, Per.setName, Per.getName, Per.getPeriodInMillis, Per.create, Per.destroy, Per.getHandler, Per.getDefaultHandler, Per.handleException, Per.timerMain, Per.endThread,
    WinOne.callback, WinOne.start, WinOne.stop, WinOne.isStarted, WinOne.setName, WinOne.getName, WinOne.create, WinOne.destroy, WinOne.handleException, WinOne.timerMain,
    WinPer.callback, WinPer.start, WinPer.stop, WinPer.isStarted, WinPer.setName, WinPer.getName, WinPer.getPeriodInMillis, WinPer.create, WinPer.destroy, WinPer.handleException, WinPer.timerMain,
    Queue.guard, Queue.rbSize, Queue.isEmpty, Queue.isFull, Queue.push, Queue.pop, Queue.timedSend, Queue.timedReceive, Queue.getSize, Queue.getMaxSize, Queue.create, Queue.destroy,
    blk, may, condWait, condWaitFor, chk, byLock, imm, grd]

theorem api_ordered (c : Call) : ordered rank recursive [] (api c) = true := by
  cases c <;>
  simp [api, Th.threadLoop, Th.start, Th.timedWait, Th.isFinished, Th.setName, Th.getName, Th.setPriority, Th.getPriority, Th.getInitialPriority, Th.getStackSize, Th.getNativeHandle, Th.getCurrentThread, Th.create, Th.destroy, Th.getHandler, Th.getDefaultHandler, Th.threadMain, Th.handleException, Th.endThread, Th.beginThread,
    EvF.timedWait, EvF.set, EvF.reset, EvF.getCurrentPattern, EvF.create, EvF.destroy,
    One.threadLoop, One.start, One.stop, One.isStarted, One.setName, One.getName, One.create, One.destroy, One.getHandler, One.getDefaultHandler, One.handleException, One.timerMain, One.endThread,
    Per.threadLoop, Per.start, Per.stop, Per.isStarted, Per.setName, Per.getName, Per.getPeriodInMillis, Per.create, Per.destroy, Per.getHandler, Per.getDefaultHandler, Per.handleException, Per.timerMain, Per.endThread,
    WinOne.callback, WinOne.start, WinOne.stop, WinOne.isStarted, WinOne.setName, WinOne.getName, WinOne.create, WinOne.destroy, WinOne.handleException, WinOne.timerMain,
    WinPer.callback, WinPer.start, WinPer.stop, WinPer.isStarted, WinPer.setName, WinPer.getName, WinPer.getPeriodInMillis, WinPer.create, WinPer.destroy, WinPer.handleException, WinPer.timerMain,
    Queue.guard, Queue.rbSize, Queue.isEmpty, Queue.isFull, Queue.push, Queue.pop, Queue.timedSend, Queue.timedReceive, Queue.getSize, Queue.getMaxSize, Queue.create, Queue.destroy,
    blk, may, condWait, condWaitFor, ordered, rank, recursive]

theorem apiX_ordered (c : CallX) : ordered rank recursive [] (apiX c) = true := by
  cases c with
  | base c => exact api_ordered c
  | _ => rfl

theorem rank_le (l : Lk) : rank l ≤ 5 := by cases l <;> simp [rank]

/-! #### C90 -/

/-- **C90.**  No schedule of calls, other than of the setters of uncaught exception handlers, leads to a data race. -/
theorem C90_race_free_partial (s : State Lk Var) (h : Reachable api recursive s) : ¬ Racy s :=
  race_free api_guarded h

/-- The variables that hold uncaught exception handlers. -/
def isHandler : Var → Bool
  | .thHandler _ | .thDefaultHandler | .osHandler _ | .osDefaultHandler | .peHandler _ | .peDefaultHandler => true
  | _ => false

/-- With the setters, too: a data race can only be on a variable that holds an uncaught exception handler. -/
theorem C90_only_handlers_partial (s : State Lk Var) (h : Reachable apiX recursive s) (t u : Nat) (v : Var) (w : Bool) (hne : t ≠ u)
    (h1 : Accesses s t v true) (h2 : Accesses s u v w) : isHandler v = true := by
  refine race_free_on (api := apiX) (imm := imm) (grd := grd) (fun m => ?_) h hne h1 h2
  cases m with
  | base c => exact chk_weaken (fun H v w h => by simp [byLockX, h]) (api_guarded c)
  | _ => rfl

def g (t n : Nat) : List (Nat × Choice CallX) := List.replicate n (t, .go)

/-- What thread `t` does next. -/
def head (s : State Lk Var) (t : Nat) : Option Sk :=
  match s.kont t with
  | .run p :: _ => some p
  | _ => none

/-- The next access of thread `t`: variable, and whether it is written. -/
def nextAccess (s : State Lk Var) (t : Nat) : Option (Var × Bool) :=
  match head s t with
  | some (.rd v) => some (v, false)
  | some (.wr v) => some (v, true)
  | _ => none

theorem nextAccess_accesses {s : State Lk Var} {t : Nat} {v : Var} {w : Bool} (h : nextAccess s t = some (v, w)) : Accesses s t v w := by
  simp only [nextAccess, head] at h
  split at h <;> simp only [Option.some.injEq, Prod.mk.injEq, reduceCtorEq] at h
  · next e => obtain ⟨rfl, rfl⟩ := h; split at e <;> simp only [Option.some.injEq, reduceCtorEq] at e; next k e' => subst e; exact ⟨k, e'⟩
  · next e => obtain ⟨rfl, rfl⟩ := h; split at e <;> simp only [Option.some.injEq, reduceCtorEq] at e; next k e' => subst e; exact ⟨k, e'⟩

/-- A thread is started; its Runnable throws, and the handler is read while another thread sets it. -/
def raceDemo : List (Nat × Choice CallX) :=
  [(1, .call (.base (.thStart 0)))] ++ g 1 9 ++ [(0, .call (.base (.thLoop 0)))] ++ g 0 7 ++ [(0, .left)] ++ g 0 11 ++ [(0, .left)] ++ g 0 3 ++ [(0, .left)] ++ g 0 2
  ++ [(1, .call (.thSetHandler 0))]

/-- With the setters (Thread.cpp:83-96, OneShotTimer.cpp:17-30, PeriodicTimer.cpp:19-32) there is one. -/
theorem C90_setters : ∃ s, Reachable apiX recursive s ∧ Racy s := by
  obtain ⟨s, tr, h, hp⟩ := Lts.runSat_ex (step := Race.step apiX recursive) (init := init) (as := raceDemo)
    (P := fun s _ => decide (nextAccess s 0 = some (.thHandler 0, false) ∧ nextAccess s 1 = some (.thHandler 0, true))) (by decide)
  have := of_decide_eq_true hp
  exact ⟨s, ⟨tr, h⟩, 1, 0, .thHandler 0, false, by decide, nextAccess_accesses this.2, nextAccess_accesses this.1⟩

/-- Concrete case: two threads use the same message queue; one is about to write the buffer, the other waits for the queue's lock. -/
def queueDemo : List (Nat × Choice Call) :=
  [(0, .call (.mqSend 0 0))] ++ List.replicate 48 (0, .go) ++ [(1, .call (.mqSize 0))]

/-- The lock thread `t` wants. -/
def wanted (s : State Lk Var) (t : Nat) : Option Lk :=
  match s.kont t with
  | .run (.scope l _) :: _ => some l
  | .reacq l :: _ => some l
  | _ => none

theorem wanted_wants {s : State Lk Var} {t : Nat} {l : Lk} (h : wanted s t = some l) : Wants s t l := by
  simp only [wanted] at h
  split at h <;> simp only [Option.some.injEq, reduceCtorEq] at h
  · next p k e => subst h; exact Or.inl ⟨p, k, e⟩
  · next k e => subst h; exact Or.inr ⟨k, e⟩

example : ∃ s, Reachable api recursive s ∧ Accesses s 0 (.mqBuf 0) true ∧ Wants s 1 (.mqRB 0) ∧ s.own (.mqRB 0) = some 0 := by
  obtain ⟨s, tr, h, hp⟩ := Lts.runSat_ex (step := Race.step api recursive) (init := init) (as := queueDemo)
    (P := fun s _ => decide (nextAccess s 0 = some (.mqBuf 0, true) ∧ wanted s 1 = some (.mqRB 0) ∧ s.own (.mqRB 0) = some 0)) (by decide)
  have := of_decide_eq_true hp
  exact ⟨s, ⟨tr, h⟩, nextAccess_accesses this.1, wanted_wants this.2.1, this.2.2⟩

/-! m_lockingCount of StdCppMutex (StdCppMutexFactory.cpp:12, 30, 47, 70, 87, 90) in the model of Model/Mutex.lean. -/

/-- Thread `t` is about to read (`w = false`) or write m_lockingCount. -/
def countAccess (s : Mtx.Std.St) (t : Nat) (w : Bool) : Prop :=
  match s.pc t with
  | .inc _ | .chk | .dec => w = false
  | .incW .. | .decW _ => w = true
  | _ => False

/-- If every unlock is made by the thread that holds the mutex, the count of a mutex is never accessed by two threads at the same time. -/
theorem C90_mutex_partial (M : Nat) (s : Mtx.Std.St) (tr : List Mtx.Ev) (h : Lts.Reach (Mtx.Std.step M) Mtx.Std.init s tr) (hd : Props.Mutex.Disciplined tr)
    (t u : Nat) (v w : Bool) (ht : countAccess s t v) (hu : countAccess s u w) : t = u := by
  have I := Props.Mutex.inv_reach h hd
  have key : ∀ x b, countAccess s x b → s.owner = some x := by
    intro x b hx
    have := I.loc x
    simp only [countAccess] at hx
    split at hx <;> simp_all [Props.Mutex.Loc, Props.Mutex.holding]
  have h1 := key t v ht; have h2 := key u w hu
  rw [h1] at h2
  exact Option.some.inj h2

/-- Otherwise it can be: one thread locks while another one, which does not hold the mutex, unlocks. -/
theorem C90_undisciplined : ∃ s tr, Lts.Reach (Mtx.Std.step 4) Mtx.Std.init s tr ∧ countAccess s 1 true ∧ countAccess s 2 false := by
  obtain ⟨s, tr, h, hp⟩ := Lts.runSat_ex (step := Mtx.Std.step 4) (init := Mtx.Std.init) (as := [.call 1 .lock, .go 1, .go 1, .call 2 .unlock])
    (P := fun s _ => decide (s.pc 1 = .incW .lock 0 ∧ s.pc 2 = .chk)) (by decide)
  have := of_decide_eq_true hp
  exact ⟨s, tr, h, by simp [countAccess, this.1], by simp [countAccess, this.2]⟩

/-! #### C91 -/

/-- **C91.**  A thread that runs code of the user (its own, a Runnable, a timer callback, an exception handler) holds no lock of the library: no call
can deadlock because of where it is made. -/
theorem C91_callback_holds_nothing (s : State Lk Var) (h : Reachable apiX recursive s) (t : Nat) (k : List (Frame Lk Var)) (hk : s.kont t = .run .user :: k) (l : Lk) :
    s.own l ≠ some t := user_free apiX_ordered h hk l

/-- **C91.**  No set of threads deadlocks on locks of the library: a thread that wants a lock can go on, or another thread, which holds a lock, can. -/
theorem C91_no_deadlock (s : State Lk Var) (h : Reachable apiX recursive s) (t : Nat) (l : Lk) (hw : Wants s t l) :
    CanStep apiX recursive s t ∨ ∃ w l', s.own l' = some w ∧ CanStep apiX recursive s w := by
  rcases no_deadlock apiX_ordered rank_le h 5 t l (by omega) hw with h | ⟨w, l', -, h1, h2⟩
  · exact Or.inl h
  · exact Or.inr ⟨w, l', h1, h2⟩

/-- In particular two threads never wait for each other's locks. -/
theorem C91_no_cycle (s : State Lk Var) (h : Reachable apiX recursive s) (t u : Nat) (l l' : Lk) (ht : Wants s t l) (hu : Wants s u l')
    (h1 : s.own l = some u) (h2 : s.own l' = some t) : t = u := by
  rcases Classical.em (t = u) with e | e
  · exact e
  · have r1 := wants_up apiX_ordered h h1 hu (by rw [h2]; simpa using e)
    have r2 := wants_up apiX_ordered h h2 ht (by rw [h1]; simpa using Ne.symm e)
    exact absurd r1 (by omega)

/-- A thread that holds a lock and wants it again (the thread factory's recursive mutex) is not blocked by itself. -/
theorem C91_no_self_deadlock (s : State Lk Var) (h : Reachable apiX recursive s) (t : Nat) (l : Lk) (ht : Wants s t l) (ho : s.own l = some t) :
    CanStep apiX recursive s t := by
  rcases wants_key apiX_ordered h ht with h1 | ⟨u, hu, h1⟩
  · exact h1
  · rw [ho] at h1; exact absurd (Option.some.inj h1).symm hu

/-- Concrete case: thread 1 creates a timer and is about to take the thread factory's mutex, which thread 0 holds in Thread::create. -/
def orderDemo : List (Nat × Choice CallX) :=
  [(0, .call (.base (.thCreate 0 9))), (0, .go), (0, .go), (0, .go), (0, .left), (0, .go), (1, .call (.base (.osCreate 1 9)))] ++ g 1 10

example : ∃ s, Reachable apiX recursive s ∧ Wants s 1 .threadFac ∧ s.own .threadFac = some 0 ∧ s.own .oneShotFac = some 1 := by
  obtain ⟨s, tr, h, hp⟩ := Lts.runSat_ex (step := Race.step apiX recursive) (init := init) (as := orderDemo)
    (P := fun s _ => decide (wanted s 1 = some .threadFac ∧ s.own .threadFac = some 0 ∧ s.own .oneShotFac = some 1)) (by decide)
  have := of_decide_eq_true hp
  exact ⟨s, ⟨tr, h⟩, wanted_wants this.1, this.2⟩

/-- Running code of the user that was called by the library. -/
def inCallback (s : State Lk Var) (t : Nat) : Bool :=
  match s.kont t with
  | .run .user :: _ :: _ => true
  | _ => false

/-- Concrete case: the Runnable of a thread is running. -/
example : ∃ s f k, Reachable apiX recursive s ∧ s.kont 0 = .run .user :: f :: k := by
  obtain ⟨s, tr, h, hp⟩ := Lts.runSat_ex (step := Race.step apiX recursive) (init := init)
    (as := [(0, .call (.base (.thLoop 0)))] ++ g 0 7 ++ [(0, .left)] ++ g 0 11 ++ [(0, .left)] ++ g 0 2) (P := fun s _ => inCallback s 0) (by decide)
  simp only [inCallback] at hp
  split at hp
  · next f k e => exact ⟨s, f, k, ⟨tr, h⟩, e⟩
  · simp at hp

end Verif.Props.Race
