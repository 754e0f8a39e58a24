import Verif.Model.MutexHandler
import Verif.Props.Mutex
/-
C110: an ITRON mutex called also from interrupt handlers, and what the µITRON error codes are reported as.
-/
namespace Verif.Props.MutexHandler
open Verif Mtx Verif.Mtx.Handler
open _root_.Verif.Lts (Reach)
open Verif.Props.Mutex (owns Exclusive)

/-- `s` and `tr` come from an execution with any number of tasks and nested handlers; `tid`: get_tid works in handlers. -/
abbrev Exec (tid : Bool) (ceil : Tid → Bool) (s : HSt) (tr : List HEv) : Prop := Reach (Handler.step tid ceil) Handler.init s tr

/-- The calls and returns of the tasks. -/
def tasks (tr : List HEv) : List Ev := tr.filterMap fun e => match e with
  | .ev e => some e
  | _ => none

theorem tasks_app (a b : List HEv) : tasks (a ++ b) = tasks a ++ tasks b := List.filterMap_append
theorem tasks_ev (l : List Ev) : tasks (l.map .ev) = l := by unfold tasks; induction l <;> simp_all

/-- What a handler's call may be about to return. -/
def fine (tid : Bool) : HPC → Bool
  | .tloc c => c != .unlock
  | .ulLck | .unl => true
  | .ulTst | .dec | .decW _ => tid
  | .ret c e => if c = .unlock then e == .OtherError || (tid && e == .OK) else e == .CalledByNonThread

theorem fine_step {tid : Bool} {s : HSt} {p : HPC} {b : Itron.St} {p' : HPC} {ev : List HEv} (h : hstep tid s p = some (b, some p', ev)) (hf : fine tid p = true) : fine tid p' = true ∧ ev = [] := by
  cases p <;> simp only [hstep, Option.some.injEq, Prod.mk.injEq, reduceCtorEq, false_and, and_false] at h <;> obtain ⟨_, rfl, rfl⟩ := h <;> refine ⟨?_, rfl⟩
  case tloc c => simpa [fine] using hf
  case ulLck =>
    cases hl : lockedByThis tid s with
    | false => rfl
    | true => simp only [lockedByThis, Bool.and_eq_true] at hl; exact hl.1
  case ulTst => split <;> simp_all [fine]
  case dec => simpa [fine] using hf
  case decW => simpa [fine] using hf
  case unl => rfl

theorem fine_reach {tid : Bool} {ceil : Tid → Bool} {s : HSt} {tr : List HEv} (h : Exec tid ceil s tr) :
    (∀ p, p ∈ s.hs → fine tid p = true) ∧ ∀ c e, HEv.hret c e ∈ tr → fine tid (.ret c e) = true := by
  induction h with
  | init => simp [Handler.init]
  | @step s tr a s' ev h1 hs ih =>
    obtain ⟨i1, i2⟩ := ih
    cases a with
    | task a =>
      simp only [Handler.step] at hs
      (repeat' split at hs) <;> simp only [Option.some.injEq, Prod.mk.injEq, reduceCtorEq] at hs
      obtain ⟨rfl, rfl⟩ := hs
      refine ⟨by simp, fun c e hm => ?_⟩
      rcases List.mem_append.1 hm with hm | hm
      · exact i2 c e hm
      · simp at hm
    | intr r c =>
      simp only [Handler.step, Option.some.injEq, Prod.mk.injEq] at hs
      obtain ⟨rfl, rfl⟩ := hs
      refine ⟨fun p hp => ?_, fun c e hm => ?_⟩
      · rcases List.mem_cons.1 hp with rfl | hp
        · cases c <;> simp [start, fine]
        · exact i1 p hp
      · rcases List.mem_append.1 hm with hm | hm
        · exact i2 c e hm
        · simp at hm
    | hgo =>
      simp only [Handler.step] at hs
      split at hs
      · simp at hs
      · next p l hl =>
        have hp := i1 p (by rw [hl]; exact List.mem_cons_self)
        split at hs
        · next h2 =>
          simp only [Option.some.injEq, Prod.mk.injEq] at hs
          obtain ⟨rfl, rfl⟩ := hs
          obtain ⟨f1, rfl⟩ := fine_step h2 hp
          refine ⟨fun q hq => ?_, fun c e hm => i2 c e (by simpa using hm)⟩
          rcases List.mem_cons.1 hq with rfl | hq
          · exact f1
          · exact i1 q (by rw [hl]; exact List.mem_cons_of_mem _ hq)
        · next h2 =>
          simp only [Option.some.injEq, Prod.mk.injEq] at hs
          obtain ⟨rfl, rfl⟩ := hs
          refine ⟨fun q hq => i1 q (by rw [hl]; exact List.mem_cons_of_mem _ hq), fun c e hm => ?_⟩
          rcases List.mem_append.1 hm with hm | hm
          · exact i2 c e hm
          · cases p <;> simp [hstep] at h2
            next c' e' =>
            obtain ⟨_, rfl⟩ := h2
            simp at hm
            obtain ⟨rfl, rfl⟩ := hm
            exact hp
        · simp at hs

/-- **C110.** lock, tryLock and timedLock return CalledByNonThread to a handler, and unlock OtherError, unless get_tid works in handlers; then it may also return OK. -/
theorem C110_reported {tid : Bool} {ceil : Tid → Bool} {s : HSt} {tr : List HEv} (h : Exec tid ceil s tr) {c : Call} {e : Err} (hm : HEv.hret c e ∈ tr) :
    (c ≠ .unlock → e = .CalledByNonThread) ∧ (c = .unlock → e = .OtherError ∨ (tid = true ∧ e = .OK)) := by
  have := (fine_reach h).2 c e hm
  simp only [fine] at this
  split at this <;> simp_all

/-- A handler's call ends after at most six steps, if no other handler comes in between. -/
theorem C110_returns (tid : Bool) (ceil : Tid → Bool) (s : HSt) (r : Option Tid) (c : Call) :
    ∃ n e s', n ≤ 6 ∧ Lts.run (Handler.step tid ceil) (.intr r c :: List.replicate n .hgo) s = some (s', [.hcall c, .hret c e]) ∧ s'.hs = s.hs ∧ s'.b.pc = s.b.pc ∧ s'.b.owner = s.b.owner ∧
      (c ≠ .unlock → s'.b = s.b ∧ e = .CalledByNonThread) ∧
      (c = .unlock → (e = .OK ∧ s.b.rc = s'.b.rc + 1 ∧ tid = true ∧ s.b.owner = if s.hs = [] then r else s.run) ∨ (e = .OtherError ∧ s'.b = s.b)) := by
  cases c with
  | unlock =>
    have hx : ∀ l, lockedByThis tid ⟨s.b, if s.hs = [] then r else s.run, l⟩ = lockedByThis tid ⟨s.b, if s.hs = [] then r else s.run, []⟩ := fun l => rfl
    cases hl : lockedByThis tid ⟨s.b, if s.hs = [] then r else s.run, []⟩ with
    | false => exact ⟨3, .OtherError, ⟨s.b, if s.hs = [] then r else s.run, s.hs⟩, by omega, by simp [Lts.run, List.replicate, Handler.step, start, hstep, hx, hl], by simp⟩
    | true =>
      by_cases hz : 0 < s.b.rc
      · refine ⟨5, .OK, ⟨{ s.b with rc := s.b.rc - 1 }, if s.hs = [] then r else s.run, s.hs⟩, by omega, ?_, rfl, rfl, rfl, by simp, fun _ => Or.inl ⟨rfl, ?_, ?_, ?_⟩⟩
        · simp [Lts.run, List.replicate, Handler.step, start, hstep, hx, hl, hz]
        · show s.b.rc = s.b.rc - 1 + 1; omega
        · simp only [lockedByThis, Bool.and_eq_true] at hl; exact hl.1
        · simp only [lockedByThis, Bool.and_eq_true, beq_iff_eq] at hl; exact hl.2
      · exact ⟨4, .OtherError, ⟨s.b, if s.hs = [] then r else s.run, s.hs⟩, by omega, by simp [Lts.run, List.replicate, Handler.step, start, hstep, hx, hl, hz], by simp⟩
  | lock => exact ⟨2, .CalledByNonThread, ⟨s.b, if s.hs = [] then r else s.run, s.hs⟩, by omega, by simp_all [Lts.run, List.replicate, Handler.step, start, hstep], by simp⟩
  | tryLock => exact ⟨2, .CalledByNonThread, ⟨s.b, if s.hs = [] then r else s.run, s.hs⟩, by omega, by simp_all [Lts.run, List.replicate, Handler.step, start, hstep], by simp⟩
  | timedLock n => exact ⟨2, .CalledByNonThread, ⟨s.b, if s.hs = [] then r else s.run, s.hs⟩, by omega, by simp_all [Lts.run, List.replicate, Handler.step, start, hstep], by simp⟩

/-- No handler is about to change anything. -/
def harmless : HPC → Bool
  | .tloc _ | .unl | .ret _ _ => true
  | _ => false

theorem tasks_only {tid : Bool} {ceil : Tid → Bool} {s : HSt} {tr : List HEv} (h : Exec tid ceil s tr) (hu : tid = false ∨ HEv.hcall .unlock ∉ tr) :
    Reach (Itron.step ceil) Itron.init s.b (tasks tr) ∧ ∀ p, p ∈ s.hs → harmless p = true ∨ (tid = false ∧ p = .ulLck) := by
  induction h with
  | init => exact ⟨.init, by simp [Handler.init]⟩
  | @step s tr a s' ev h1 hs ih =>
    obtain ⟨i1, i2⟩ := ih (hu.imp id fun hu hm => hu (List.mem_append_left _ hm))
    cases a with
    | task a =>
      simp only [Handler.step] at hs
      (repeat' split at hs) <;> simp only [Option.some.injEq, Prod.mk.injEq, reduceCtorEq] at hs
      next h2 =>
      obtain ⟨rfl, rfl⟩ := hs
      rw [tasks_app, tasks_ev]
      exact ⟨i1.step h2, by simp⟩
    | intr r c =>
      simp only [Handler.step, Option.some.injEq, Prod.mk.injEq] at hs
      obtain ⟨rfl, rfl⟩ := hs
      refine ⟨by rw [tasks_app]; simpa [tasks] using i1, fun p hp => ?_⟩
      rcases List.mem_cons.1 hp with rfl | hp
      · cases c <;> simp [start, harmless]
        rcases hu with hu | hu
        · exact hu
        · exact absurd (List.mem_append_right _ (List.mem_singleton.2 rfl)) hu
      · exact i2 p hp
    | hgo =>
      simp only [Handler.step] at hs
      split at hs
      · simp at hs
      · next p l hl =>
        have hp := i2 p (by rw [hl]; exact List.mem_cons_self)
        have hrest : ∀ q, q ∈ l → harmless q = true ∨ (tid = false ∧ q = .ulLck) := fun q hq => i2 q (by rw [hl]; exact List.mem_cons_of_mem _ hq)
        rcases hp with hp | ⟨rfl, rfl⟩
        · cases p <;> simp [harmless] at hp <;> simp [hstep] at hs <;> obtain ⟨rfl, rfl⟩ := hs <;>
            refine ⟨by rw [tasks_app]; simpa [tasks] using i1, ?_⟩ <;> simp_all [harmless]
        · simp [hstep, lockedByThis] at hs
          obtain ⟨rfl, rfl⟩ := hs
          refine ⟨by rw [tasks_app]; simpa [tasks] using i1, ?_⟩
          simp_all [harmless]

/-- **C110, partial: get_tid refuses to work in handlers, or no handler calls unlock.**  Then the tasks see the mutex as if there were no handlers
(so C39 applies): what they call and get is an execution of the mutex by tasks alone that ends in the same state. -/
theorem C110_tasks_partial {tid : Bool} {ceil : Tid → Bool} {s : HSt} {tr : List HEv} (h : Exec tid ceil s tr) (hu : tid = false ∨ HEv.hcall .unlock ∉ tr) :
    Reach (Itron.step ceil) Itron.init s.b (tasks tr) := (tasks_only h hu).1

/-- **C110, partial.**  In particular at most one task holds the mutex. -/
theorem C110_exclusion_partial {tid : Bool} {ceil : Tid → Bool} {s : HSt} {tr : List HEv} (h : Exec tid ceil s tr) (hu : tid = false ∨ HEv.hcall .unlock ∉ tr) : Exclusive (tasks tr) :=
  Verif.Props.Mutex.C39_exclusion ceil s.b (tasks tr) (tasks_only h hu).1

/-- **C110.** If get_tid works in handlers, an unlock in a handler that interrupts task `t` between its calls of the mutex (all handlers before having done no
unlock) takes away one lock of `t`, with OK, exactly if `t` holds the mutex at least twice; otherwise it returns OtherError and does nothing. -/
theorem C110_steals {ceil : Tid → Bool} {s : HSt} {tr : List HEv} (h : Exec true ceil s tr) (hu : HEv.hcall .unlock ∉ tr) (hs : s.hs = []) {t : Tid} (ht : s.b.pc t = .idle) :
    ∃ n e s', Lts.run (Handler.step true ceil) (.intr (some t) .unlock :: List.replicate n .hgo) s = some (s', [.hcall .unlock, .hret .unlock e]) ∧
      ((2 ≤ owns (tasks tr) t ∧ e = .OK ∧ s'.b = { s.b with rc := s.b.rc - 1 }) ∨ (owns (tasks tr) t ≤ 1 ∧ e = .OtherError ∧ s'.b = s.b)) := by
  obtain ⟨h1, h2, h3⟩ := Verif.Props.Mutex.C39_recursion ceil s.b (tasks tr) (tasks_only h (Or.inr hu)).1 t ht
  by_cases ho : s.b.owner = some t
  · have := h3 ho
    by_cases hz : 0 < s.b.rc
    · refine ⟨5, .OK, ⟨{ s.b with rc := s.b.rc - 1 }, some t, s.hs⟩, ?_, Or.inl ⟨by omega, rfl, rfl⟩⟩
      simp [Lts.run, List.replicate, Handler.step, start, hstep, lockedByThis, hs, ho, hz]
    · refine ⟨4, .OtherError, ⟨s.b, some t, s.hs⟩, ?_, Or.inr ⟨by omega, rfl, rfl⟩⟩
      simp [Lts.run, List.replicate, Handler.step, start, hstep, lockedByThis, hs, ho, hz]
  · refine ⟨3, .OtherError, ⟨s.b, some t, s.hs⟩, ?_, Or.inr ⟨?_, rfl, rfl⟩⟩
    · simp [Lts.run, List.replicate, Handler.step, start, hstep, lockedByThis, hs, ho]
    · have := mt h2.2 ho; omega

/-- **C110 is false in full**, on kernels where get_tid works in handlers: task 1 locks twice, a handler that interrupts it calls unlock, task 1 unlocks once, and now task 1,
which still holds the mutex once, and task 2 both hold it. -/
theorem C110_unlock_counterexample : ∃ s tr, Exec true (fun _ => true) s tr ∧ HEv.hret .unlock .OK ∈ tr ∧ owns (tasks tr) 1 = 1 ∧ owns (tasks tr) 2 = 1 := by
  obtain ⟨s, tr, h, hp⟩ := Lts.runSat_ex (step := Handler.step true fun _ => true) (init := Handler.init)
    (as := [.task (.call 1 .lock), .task (.go 1), .task (.go 1), .task (.call 1 .lock), .task (.go 1), .task (.go 1), .task (.go 1), .task (.go 1), .task (.go 1),
      .intr (some 1) .unlock, .hgo, .hgo, .hgo, .hgo, .hgo,
      .task (.call 1 .unlock), .task (.go 1), .task (.go 1), .task (.go 1), .task (.go 1), .task (.call 2 .lock), .task (.go 2), .task (.go 2)])
    (P := fun _ tr => decide (HEv.hret .unlock .OK ∈ tr ∧ owns (tasks tr) 1 = 1 ∧ owns (tasks tr) 2 = 1)) (by decide)
  exact ⟨s, tr, h, of_decide_eq_true hp⟩

-- Non-vacuity: nested handlers try to lock and to unlock (get_tid does not work in them) while task 1 holds the mutex twice.
example : ∃ s tr, Exec false (fun _ => true) s tr ∧ HEv.hret .tryLock .CalledByNonThread ∈ tr ∧ HEv.hret .unlock .OtherError ∈ tr ∧ owns (tasks tr) 1 = 2 := by
  obtain ⟨s, tr, h, hp⟩ := Lts.runSat_ex (step := Handler.step false fun _ => true) (init := Handler.init)
    (as := [.task (.call 1 .lock), .task (.go 1), .task (.go 1), .task (.call 1 .lock), .task (.go 1), .intr (some 1) .unlock, .hgo, .intr none .tryLock, .hgo, .hgo, .hgo, .hgo,
      .task (.go 1), .task (.go 1), .task (.go 1), .task (.go 1)])
    (P := fun _ tr => decide (HEv.hret .tryLock .CalledByNonThread ∈ tr ∧ HEv.hret .unlock .OtherError ∈ tr ∧ owns (tasks tr) 1 = 2)) (by decide)
  exact ⟨s, tr, h, of_decide_eq_true hp⟩

/-! ### Error codes -/

/-- **C110.** What timedLock of a mutex answers, for every error code: CalledByNonThread exactly for E_CTX, TimedOut exactly for E_TMOUT, OK only if the kernel has locked the mutex
or the caller holds it already. -/
theorem C110_lock_codes (mine : Bool) (er : ER) : (timedLockErr mine er = .CalledByNonThread ↔ er = E_CTX) ∧ (timedLockErr mine er = .TimedOut ↔ er = E_TMOUT) ∧
    (timedLockErr mine er = .OK ↔ er = E_OK ∨ (er = E_ILUSE ∧ mine = true)) ∧ (timedLockErr mine er = .InvalidParameter ↔ er = E_PAR) ∧ timedLockErr mine er ≠ .NotLocked := by
  unfold timedLockErr; (repeat' split) <;> simp_all [E_OK, E_CTX, E_TMOUT, E_PAR, E_ILUSE]

/-- **C110.** The same for waits of an event flag. -/
theorem C110_flag_codes (er : ER) : (flagWaitErr er = .CalledByNonThread ↔ er = E_CTX) ∧ (flagWaitErr er = .TimedOut ↔ er = E_TMOUT) ∧ (flagWaitErr er = .OK ↔ er = E_OK) ∧
    (flagWaitErr er = .InvalidParameter ↔ er = E_PAR) ∧ flagWaitErr er ≠ .NotLocked := by
  unfold flagWaitErr; (repeat' split) <;> simp_all [E_OK, E_CTX, E_TMOUT, E_PAR]

/-- **C110.** unlock reports NotLocked exactly for E_ILUSE. -/
theorem C110_unlock_codes (er : ER) : (unlockErr er = .NotLocked ↔ er = E_ILUSE) ∧ (unlockErr er = .OK ↔ er = E_OK) := by
  unfold unlockErr; (repeat' split) <;> simp_all [E_OK, E_ILUSE]

/-- **C110, partial.** Thread::wait: OK and TimedOut are right ... -/
theorem C110_thread_codes_partial (er : ER) : (threadWaitErr er = .TimedOut ↔ er = E_TMOUT) ∧ (threadWaitErr er = .OK ↔ er = E_OK) := by
  unfold threadWaitErr; (repeat' split) <;> simp_all [E_OK, E_TMOUT]

/-- ... but **C110 is false in full**: it never returns CalledByNonThread, which Thread.h promises; a handler gets OtherError. -/
theorem C110_thread_counterexample : threadWaitErr E_CTX = .OtherError ∧ ∀ er, threadWaitErr er ≠ .CalledByNonThread := by
  refine ⟨by decide, fun er => ?_⟩
  unfold threadWaitErr; (repeat' split) <;> simp

end Verif.Props.MutexHandler
