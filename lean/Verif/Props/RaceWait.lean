import Verif.Sem.RaceWait
import Verif.Props.Race
/-
C114: which locks of the library a thread holds while it waits for a condition (the end of a thread, an event flag, room or a message in a queue, a timer's
thread).  The programs are the access skeletons of Model/Access.lean, with the setters; `Waits` is in Sem/RaceWait.lean.
-/
namespace Verif.Props.RaceWait
open Verif _root_.Verif.Race _root_.Verif.Access
open _root_.Verif.Props.Race (apiX_ordered rank wanted)

/-- `allowed h l`: lock `h` may be held while waiting for a condition with lock `l`.  A sender or receiver keeps the queue's send or receive lock while it
waits in the queue's event flag; create and destroy of a timer keep the timer factory's lock while they wait for the timer's thread (StdCpp) or for its
callback (Windows: an event flag). -/
def allowed : Lk → Lk → Bool
  | .mqSend _, .ev _ | .mqRecv _, .ev _ => true
  | .oneShotFac, .thread _ | .periodicFac, .thread _ => true
  | .winOneFac, .ev _ | .winPerFac, .ev _ => true
  | _, _ => false

theorem api_waits (c : Call) : waitsOk allowed [] (api c) = true := by
  cases c <;>
  simp [api, Th.threadLoop, Th.start, Th.timedWait, Th.isFinished, Th.setName, Th.getName, Th.setPriority, Th.getPriority, Th.getInitialPriority, Th.getStackSize, Th.getNativeHandle, Th.getCurrentThread, Th.create, Th.destroy, Th.getHandler, Th.getDefaultHandler, Th.threadMain, Th.handleException, Th.endThread, Th.beginThread,
    EvF.timedWait, EvF.set, EvF.reset, EvF.getCurrentPattern, EvF.create, EvF.destroy,
    One.threadLoop, One.start, One.stop, One.isStarted, One.setName, One.getName, One.create, One.destroy, One.getHandler, One.getDefaultHandler, One.handleException, One.timerMain, One.endThread,
    Per.threadLoop, Per.start, Per.stop, Per.isStarted, Per.setName, Per.getName, Per.getPeriodInMillis, Per.create, Per.destroy, Per.getHandler, Per.getDefaultHandler, Per.handleException, Per.timerMain, Per.endThread,
    WinOne.callback, WinOne.start, WinOne.stop, WinOne.isStarted, WinOne.setName, WinOne.getName, WinOne.create, WinOne.destroy, WinOne.handleException, WinOne.timerMain,
    WinPer.callback, WinPer.start, WinPer.stop, WinPer.isStarted, WinPer.setName, WinPer.getName, WinPer.getPeriodInMillis, WinPer.create, WinPer.destroy, WinPer.handleException, WinPer.timerMain,
    Queue.guard, Queue.rbSize, Queue.isEmpty, Queue.isFull, Queue.push, Queue.pop, Queue.timedSend, Queue.timedReceive, Queue.getSize, Queue.getMaxSize, Queue.create, Queue.destroy,
    blk, may, condWait, condWaitFor, waitsOk, allowed]

theorem apiX_waits (c : CallX) : waitsOk allowed [] (apiX c) = true := by
  cases c with
  | base c => exact api_waits c
  | _ => rfl

/-- **C114.**  While a thread waits for a condition it holds no lock of the library, except: the send or receive lock of a message queue while it waits in
an event flag; a timer factory's lock while it waits for a thread to end (StdCpp) or in an event flag (Windows). -/
theorem C114_holds (s : State Lk Var) (h : Reachable apiX recursive s) (t : Nat) (l h' : Lk) (hw : Waits s t l) (ho : s.own h' = some t) :
    (∃ e, l = .ev e ∧ ((∃ o, h' = .mqSend o ∨ h' = .mqRecv o) ∨ h' = .winOneFac ∨ h' = .winPerFac)) ∨
    ∃ o, l = .thread o ∧ (h' = .oneShotFac ∨ h' = .periodicFac) := by
  have := waits_holds apiX_ordered apiX_waits h hw ho
  unfold allowed at this
  split at this <;> simp at this ⊢

/-- **C114.**  A thread that waits for a condition is in nobody's way who uses a thread, an event flag, a timer, the size of a message queue, or creates and
destroys threads, event flags, mutexes and memory pools: it holds no lock these functions take. -/
theorem C114_out_of_the_way (s : State Lk Var) (h : Reachable apiX recursive s) (t : Nat) (l : Lk) (hw : Waits s t l) (o : Nat) :
    s.own (.thread o) ≠ some t ∧ s.own .threadFac ≠ some t ∧ s.own (.ev o) ≠ some t ∧ s.own .evFac ≠ some t ∧
    s.own (.oneShot o) ≠ some t ∧ s.own (.periodic o) ≠ some t ∧ s.own (.winOne o) ≠ some t ∧ s.own (.winPer o) ≠ some t ∧
    s.own (.mqRB o) ≠ some t ∧ s.own .mtxFac ≠ some t ∧ s.own .fixFac ≠ some t ∧ s.own .varFac ≠ some t := by
  refine ⟨?_, ?_, ?_, ?_, ?_, ?_, ?_, ?_, ?_, ?_, ?_, ?_⟩ <;> (intro ho; have := C114_holds s h t l _ hw ho; simp at this)

/-- **C114.**  So a thread that wants one of these locks is held up only by a thread that is not waiting for a condition itself. -/
theorem C114_owner_runs (s : State Lk Var) (h : Reachable apiX recursive s) (t : Nat) (l : Lk) (hw : Wants s t l)
    (hl : ¬ (l = .oneShotFac ∨ l = .periodicFac ∨ l = .winOneFac ∨ l = .winPerFac ∨ ∃ o, l = .mqSend o ∨ l = .mqRecv o)) :
    CanStep apiX recursive s t ∨ ∃ u, u ≠ t ∧ s.own l = some u ∧ ∀ l', ¬ Waits s u l' := by
  rcases wants_key apiX_ordered h hw with h1 | ⟨u, hu, ho⟩
  · exact .inl h1
  · refine .inr ⟨u, hu, ho, fun l' hw' => hl ?_⟩
    rcases C114_holds s h u l' l hw' ho with ⟨e, -, h1⟩ | ⟨o, -, h1⟩
    · rcases h1 with ⟨o, h1⟩ | h1 | h1
      · exact .inr (.inr (.inr (.inr ⟨o, h1⟩)))
      · exact .inr (.inr (.inl h1))
      · exact .inr (.inr (.inr (.inl h1)))
    · rcases h1 with h1 | h1
      · exact .inl h1
      · exact .inr (.inl h1)

/-! The exceptions occur. -/

/-- The condition thread `t` waits for. -/
def waiting (s : State Lk Var) (t : Nat) : Option Lk :=
  match s.kont t with
  | .reacq l :: _ => some l
  | _ => none

theorem waiting_waits {s : State Lk Var} {t : Nat} {l : Lk} (h : waiting s t = some l) : Waits s t l := by
  simp only [waiting] at h
  split at h <;> simp only [Option.some.injEq, reduceCtorEq] at h
  next k e => subst h; exact ⟨k, e⟩

def g (n : Nat) : List (Nat × Choice CallX) := List.replicate n (0, .go)

set_option maxRecDepth 10000 in
/-- A sender waits for room in a full queue with the send lock held; meanwhile another thread is inside getSize. -/
theorem C114_sender : ∃ s, Reachable apiX recursive s ∧ Waits s 0 (.ev 0) ∧ s.own (.mqSend 0) = some 0 ∧ s.own (.mqRB 0) = some 1 := by
  obtain ⟨s, tr, h, hp⟩ := Lts.runSat_ex (step := Race.step apiX recursive) (init := init)
    (as := [(0, .call (.base (.mqSend 0 0)))] ++ g 34 ++ [(0, .left)] ++ g 18 ++ [(1, .call (.base (.mqSize 0))), (1, .go)])
    (P := fun s _ => decide (waiting s 0 = some (.ev 0) ∧ s.own (.mqSend 0) = some 0 ∧ s.own (.mqRB 0) = some 1)) (by decide)
  have := of_decide_eq_true hp
  exact ⟨s, ⟨tr, h⟩, waiting_waits this.1, this.2⟩

set_option maxRecDepth 10000 in
/-- A receiver waits for a message with the receive lock held. -/
theorem C114_receiver : ∃ s, Reachable apiX recursive s ∧ Waits s 0 (.ev 0) ∧ s.own (.mqRecv 0) = some 0 := by
  obtain ⟨s, tr, h, hp⟩ := Lts.runSat_ex (step := Race.step apiX recursive) (init := init)
    (as := [(0, .call (.base (.mqReceive 0 0)))] ++ g 32 ++ [(0, .left)] ++ g 18)
    (P := fun s _ => decide (waiting s 0 = some (.ev 0) ∧ s.own (.mqRecv 0) = some 0)) (by decide)
  have := of_decide_eq_true hp
  exact ⟨s, ⟨tr, h⟩, waiting_waits this.1, this.2⟩

set_option maxRecDepth 10000 in
/-- Destroying a Windows timer waits for the timer's callback with the timer factory locked: nobody can create or destroy a timer meanwhile (C92). -/
theorem C114_windows_destroy : ∃ s, Reachable apiX recursive s ∧ Waits s 0 (.ev 0) ∧ s.own .winOneFac = some 0 ∧ Wants s 1 .winOneFac := by
  obtain ⟨s, tr, h, hp⟩ := Lts.runSat_ex (step := Race.step apiX recursive) (init := init)
    (as := [(0, .call (.base (.woDestroy 0 0))), (0, .go), (0, .go), (0, .left)] ++ g 37 ++ [(1, .call (.base (.woCreate 1))), (1, .go), (1, .go)])
    (P := fun s _ => decide (waiting s 0 = some (.ev 0) ∧ s.own .winOneFac = some 0 ∧ wanted s 1 = some .winOneFac)) (by decide)
  have := of_decide_eq_true hp
  exact ⟨s, ⟨tr, h⟩, waiting_waits this.1, this.2.1, Props.Race.wanted_wants this.2.2⟩

end Verif.Props.RaceWait
