import Verif.Model.StdCreate
import Verif.Props.Priority
/-
C80, C81: Thread::create and the timers' create on the StdCpp platform family when calls inside them fail.
-/
namespace Verif.Props.StdCreate
open Verif Verif.SCr
open _root_.Verif.Res (Disciplined live disciplined_nil)

/-! #### Specification -/

/-- What lives on what when a thread is created: the operating system thread runs the thread object and the table points to it. -/
def parent : Rsrc → Option Rsrc
  | .os => some .obj
  | .entry => some .obj
  | _ => none

/-- With a timer: the thread runs the timer object. -/
def parentT : Rsrc → Option Rsrc
  | .os => some .obj
  | .entry => some .obj
  | .obj => some .timer
  | .timer => none

/-- A complete thread holds everything but a timer. -/
def thread (r : Rsrc) : Bool := decide (r ≠ .timer)

set_option linter.unusedSimpArgs false

/-! #### Deciding discipline -/

def every : List Rsrc := [.timer, .obj, .os, .entry]
theorem mem_every (r : Rsrc) : r ∈ every := by cases r <;> simp [every]

def allowedB (par : Rsrc → Option Rsrc) (L : Rsrc → Bool) : Ev → Bool
  | .acq r => !L r && (match par r with | some p => L p | none => true)
  | .fail r => (match par r with | some p => L p | none => true)
  | .use r => L r
  | .rel r => L r && every.all fun c => par c != some r || !L c

theorem allowed_of {par : Rsrc → Option Rsrc} {L : Rsrc → Bool} {e : Ev} (h : allowedB par L e = true) : e.allowed par L := by
  cases e with
  | acq r =>
    simp only [allowedB, Bool.and_eq_true, Bool.not_eq_true'] at h
    refine ⟨h.1, fun p hp => ?_⟩
    have := h.2; rw [hp] at this; exact this
  | fail r => intro p hp; simp only [allowedB, hp] at h; exact h
  | use r => exact h
  | rel r =>
    simp only [allowedB, Bool.and_eq_true, List.all_eq_true, Bool.or_eq_true, bne_iff_ne, Bool.not_eq_true'] at h
    refine ⟨h.1, fun c hc => ?_⟩
    rcases h.2 c (mem_every c) with h1 | h1
    · exact absurd hc h1
    · exact h1

def okFrom (par : Rsrc → Option Rsrc) (L : Rsrc → Bool) : List Ev → Bool
  | [] => true
  | e :: l => allowedB par L e && okFrom par (e.apply L) l

theorem okFrom_disc {par : Rsrc → Option Rsrc} : ∀ (l pre : List Ev), Disciplined par pre → okFrom par (live pre) l = true → Disciplined par (pre ++ l)
  | [], pre, h, _ => by simpa using h
  | e :: l, pre, h, hk => by
    simp only [okFrom, Bool.and_eq_true] at hk
    have := okFrom_disc l (pre ++ [e]) (h.snoc (allowed_of hk.1)) (by rw [Res.live_snoc]; exact hk.2)
    simpa using this

theorem disc {par : Rsrc → Option Rsrc} {l : List Ev} (h : okFrom par (fun _ => false) l = true) : Disciplined par l := by
  simpa using okFrom_disc l [] (disciplined_nil par) h

/-! #### C80: threads -/

/-- create gives a complete thread if nothing throws, and otherwise null with nothing held; everything is given back in a good order.
Missing: setName or setPriority throwing after the thread exists; there the claim is false, `C80_terminate`, `C80_assert`. -/
theorem C80_create_partial (c : Cfg) (h1 : c .setName = none) (h2 : c .setPriority = none) (h3 : c .newObj ≠ some .assertFail)
    (h4 : c .osThread ≠ some .assertFail) :
    ∃ b s, create c CSt.init = .ok b s ∧ Disciplined parent s.log ∧ (b = true ↔ c .newObj = none ∧ c .osThread = none ∧ c .insert = none) ∧
      ∀ r, live s.log r = (b && thread r) := by
  cases e1 : c .newObj with
  | some e =>
    refine ⟨false, ⟨[.fail .obj], false, false, false⟩, ?_, disc (by decide), by simp, by intro r; cases r <;> decide⟩
    have : e ≠ .assertFail := fun h => h3 (by rw [e1, h])
    simp [create, createFirst, catching, obtain, e1, this, emit, deleteThread, bind, pure, Cmd.bind, Cmd.pure, Cmd.modify, Cmd.throw, Cmd.gets, CSt.init]
  | none =>
    cases e2 : c .osThread with
    | some e =>
      refine ⟨false, ⟨[.acq .obj, .fail .os, .rel .obj], true, false, false⟩, ?_, disc (by decide), by simp, by intro r; cases r <;> decide⟩
      have : e ≠ .assertFail := fun h => h4 (by rw [e2, h])
      simp [create, createFirst, beginThread, catching, obtain, e1, e2, this, emit, deleteThread, bind, pure, Cmd.bind, Cmd.pure, Cmd.modify, Cmd.throw, Cmd.gets, CSt.init]
    | none =>
      cases e3 : c .insert with
      | some e =>
        refine ⟨false, ⟨[.acq .obj, .acq .os, .fail .entry, .use .obj, .rel .os, .rel .obj], true, false, false⟩, ?_, disc (by decide), by simp,
          by intro r; cases r <;> decide⟩
        simp [create, createFirst, createSecond, beginThread, endThread, call, catching, obtain, e1, e2, e3, h1, h2, emit, deleteThread, bind, pure, Cmd.bind,
          Cmd.pure, Cmd.modify, Cmd.throw, Cmd.gets, CSt.init]
      | none =>
        refine ⟨true, ⟨[.acq .obj, .acq .os, .acq .entry], true, true, false⟩, ?_, disc (by decide), by simp, by intro r; cases r <;> decide⟩
        simp [create, createFirst, createSecond, beginThread, call, catching, obtain, e1, e2, e3, h1, h2, emit, bind, pure, Cmd.bind,
          Cmd.pure, Cmd.modify, CSt.init]

/-- destroy gives everything back, in a good order. -/
theorem C80_destroy (c : Cfg) {s : CSt} (h : create c CSt.init = .ok true s) :
    ∃ s', destroy s = .ok () s' ∧ Disciplined parent s'.log ∧ ∀ r, live s'.log r = false := by
  cases e1 : c .newObj with
  | some e =>
    by_cases he : e = .assertFail
    · simp [create, createFirst, catching, obtain, e1, he, emit, bind, Cmd.bind, Cmd.modify, Cmd.throw] at h
    · simp [create, createFirst, catching, obtain, e1, he, emit, deleteThread, bind, pure, Cmd.bind, Cmd.pure, Cmd.modify, Cmd.throw, Cmd.gets, CSt.init] at h
  | none =>
    cases e2 : c .osThread with
    | some e =>
      by_cases he : e = .assertFail
      · simp [create, createFirst, beginThread, catching, obtain, e1, e2, he, emit, bind, Cmd.bind, Cmd.modify, Cmd.throw] at h
      · simp [create, createFirst, beginThread, catching, obtain, e1, e2, he, emit, deleteThread, bind, pure, Cmd.bind, Cmd.pure, Cmd.modify, Cmd.throw, Cmd.gets, CSt.init] at h
    | none =>
      cases e4 : c .setName with
      | some e =>
        by_cases he : e = .assertFail <;>
        simp [create, createFirst, beginThread, call, catching, obtain, e1, e2, e4, he, emit, deleteThread, terminate, bind, pure, Cmd.bind, Cmd.pure, Cmd.modify, Cmd.throw, Cmd.gets, CSt.init] at h
      | none =>
        cases e5 : c .setPriority with
        | some e =>
          by_cases he : e = .assertFail <;>
          simp [create, createFirst, beginThread, call, catching, obtain, e1, e2, e4, e5, he, emit, deleteThread, terminate, bind, pure, Cmd.bind, Cmd.pure, Cmd.modify, Cmd.throw, Cmd.gets, CSt.init] at h
        | none =>
          cases e3 : c .insert with
          | some e =>
            simp [create, createFirst, createSecond, beginThread, endThread, call, catching, obtain, e1, e2, e3, e4, e5, emit, deleteThread, bind, pure, Cmd.bind,
              Cmd.pure, Cmd.modify, Cmd.throw, Cmd.gets, CSt.init] at h
          | none =>
            simp [create, createFirst, createSecond, beginThread, call, catching, obtain, e1, e2, e3, e4, e5, emit, bind, pure, Cmd.bind,
              Cmd.pure, Cmd.modify, CSt.init] at h
            subst h
            exact ⟨⟨[.acq .obj, .acq .os, .acq .entry, .use .obj, .rel .os, .rel .entry, .rel .obj], true, false, false⟩, by decide, disc (by decide),
              by intro r; cases r <;> decide⟩

/-- The claim fails: an exception from setName or setPriority is caught, but deleting the object whose thread is running ends the program. -/
theorem C80_terminate (c : Cfg) (h1 : c .newObj = none) (h2 : c .osThread = none) {e : Exn} (he : e ≠ .assertFail)
    (h3 : c .setName = some e ∨ (c .setName = none ∧ c .setPriority = some e)) : create c CSt.init = .diverge := by
  rcases h3 with h3 | ⟨h3, h4⟩
  · simp [create, createFirst, beginThread, call, catching, obtain, h1, h2, h3, he, emit, deleteThread, terminate, bind, pure, Cmd.bind, Cmd.pure, Cmd.modify, Cmd.throw, Cmd.gets, CSt.init]
  · simp [create, createFirst, beginThread, call, catching, obtain, h1, h2, h3, h4, he, emit, deleteThread, terminate, bind, pure, Cmd.bind, Cmd.pure, Cmd.modify, Cmd.throw, Cmd.gets, CSt.init]

/-- The claim fails: an Assertion::Failure is passed on and the thread object and its thread are lost. -/
theorem C80_assert (c : Cfg) (h1 : c .newObj = none) (h2 : c .osThread = none)
    (h3 : c .setName = some .assertFail ∨ (c .setName = none ∧ c .setPriority = some .assertFail)) :
    ∃ s, create c CSt.init = .exn .assertFail s ∧ live s.log .obj = true ∧ live s.log .os = true := by
  refine ⟨⟨[.acq .obj, .acq .os], true, true, false⟩, ?_, by decide, by decide⟩
  rcases h3 with h3 | ⟨h3, h4⟩
  · simp [create, createFirst, beginThread, call, catching, obtain, h1, h2, h3, emit, bind, Cmd.bind, Cmd.modify, Cmd.throw, CSt.init]
  · simp [create, createFirst, beginThread, call, catching, obtain, h1, h2, h3, h4, emit, bind, pure, Cmd.bind, Cmd.pure, Cmd.modify, Cmd.throw, CSt.init]

/-- On Posix setPriority does not throw if the priority of the creating thread lies in the range (or it is no OSWrapper thread). -/
theorem C80_posix_priority (W : Nat) (dflt rrMin rrMax : Int) (r : Prio.Range) (hs : Priority.Sane W r) (cur : Option Int)
    (hc : ∀ p, cur = some p → Priority.InRange r p) (priority : Int) :
    ∃ pm, Prio.posixMap W dflt rrMin rrMax r = some pm ∧ prioSite W r pm cur priority = none := by
  obtain ⟨pm, p, v, h1, h2, _⟩ := Priority.C35_setPriority_partial W dflt rrMin rrMax r hs cur hc priority
  exact ⟨pm, h1, by simp [prioSite, h2]⟩
/-- The same on Windows. -/
theorem C80_windows_priority (W : Nat) (r : Prio.Range) (hs : Priority.Sane W r) (cur : Option Int)
    (hc : ∀ p, cur = some p → Priority.InRange r p) (priority : Int) :
    ∃ pm, Prio.winMap W r = some pm ∧ prioSite W r pm cur priority = none := by
  obtain ⟨pm, p, v, h1, h2, _⟩ := Priority.C36_setPriority W r hs cur hc priority
  exact ⟨pm, h1, by simp [prioSite, h2]⟩

/-- So a thread whose priority was allowed by an earlier range, 1 to 9, and that creates a thread with INHERIT_PRIORITY after the range has
become 1 to 5 ends the program. -/
theorem C80_inherit_terminates : ∃ pm, Prio.posixMap 32 0 1 99 ⟨1, 5⟩ = some pm ∧
    create (fun x => if x = .setPriority then prioSite 32 ⟨1, 5⟩ pm (some 9) (-1) else none) CSt.init = .diverge := by
  have h0 : (Prio.posixMap 32 0 1 99 ⟨1, 5⟩).map (fun m => (Prio.setPriority 32 ⟨1, 5⟩ m (some 9) (-1)).isSome) = some false := by decide
  cases h1 : Prio.posixMap 32 0 1 99 ⟨1, 5⟩ with
  | none => simp [h1] at h0
  | some pm =>
    refine ⟨pm, rfl, C80_terminate _ rfl rfl (e := .outOfRange) (by simp) (Or.inr ⟨rfl, ?_⟩)⟩
    simp only [h1, Option.map_some, Option.some.injEq] at h0
    simp [prioSite, h0]

/-- The hypotheses are met: nothing throws; the table insertion throws. -/
example : ∃ s, create (fun _ => none) CSt.init = .ok true s ∧ live s.log .os = true := ⟨_, rfl, by decide⟩
example : ∃ s, create (fun x => if x = .insert then some .badAlloc else none) CSt.init = .ok false s ∧
    s.log = [.acq .obj, .acq .os, .fail .entry, .use .obj, .rel .os, .rel .obj] := ⟨_, rfl, rfl⟩

/-! #### C81: timers -/

theorem create_ok (c : Cfg) (log : List Ev) (h1 : c .newObj = none) (h2 : c .osThread = none) (h3 : c .setName = none) (h4 : c .setPriority = none)
    (h5 : c .insert = none) : create c ⟨log, false, false, false⟩ = .ok true ⟨log ++ [.acq .obj] ++ [.acq .os] ++ [.acq .entry], true, true, false⟩ := by
  simp [create, createFirst, createSecond, beginThread, call, catching, obtain, h1, h2, h3, h4, h5, emit, bind, pure, Cmd.bind, Cmd.pure, Cmd.modify]

/-- create gives a complete timer with its thread, or null with nothing held, if the timer's thread can be made and setPriority does not throw.
Missing: the thread cannot be made (`C81_null_deref`); setPriority throws (`C81_leak`). -/
theorem C81_create_partial (c : Cfg) (h1 : c .newObj = none) (h2 : c .osThread = none) (h3 : c .setName = none) (h4 : c .setPriority = none)
    (h5 : c .insert = none) (h6 : c .timerPriority = none) :
    ∃ b s, createTimer c CSt.init = .ok b s ∧ Disciplined parentT s.log ∧ (b = true ↔ c .newTimer = none ∧ c .timerMembers = none) ∧
      ∀ r, live s.log r = b := by
  cases e1 : c .newTimer with
  | some e =>
    refine ⟨false, ⟨[.fail .timer], false, false, false⟩, ?_, disc (by decide), by simp, by intro r; cases r <;> decide⟩
    simp [createTimer, newTimer, catching, obtain, e1, emit, bind, pure, Cmd.bind, Cmd.pure, Cmd.modify, Cmd.throw, CSt.init]
  | none =>
    cases e2 : c .timerMembers with
    | some e =>
      refine ⟨false, ⟨[.acq .timer, .acq .obj, .acq .os, .acq .entry, .use .obj, .rel .os, .rel .entry, .rel .obj, .rel .timer], true, false, true⟩, ?_,
        disc (by decide), by simp, by intro r; cases r <;> decide⟩
      simp [createTimer, newTimer, catching, obtain, e1, e2, emit, create_ok, h1, h2, h3, h4, h5, call, destroyThread, destroy, endThread, deleteThread,
        bind, pure, Cmd.bind, Cmd.pure, Cmd.modify, Cmd.throw, Cmd.gets, CSt.init]
    | none =>
      refine ⟨true, ⟨[.acq .timer, .acq .obj, .acq .os, .acq .entry, .use .timer, .use .obj, .use .obj], true, true, true⟩, ?_,
        disc (by decide), by simp, by intro r; cases r <;> decide⟩
      simp [createTimer, newTimer, beginTimer, catching, obtain, e1, e2, emit, create_ok, h1, h2, h3, h4, h5, h6, call,
        bind, pure, Cmd.bind, Cmd.pure, Cmd.modify, Cmd.gets, CSt.init]

/-- destroy gives everything back, in a good order. -/
theorem C81_destroy (c : Cfg) (h1 : c .newObj = none) (h2 : c .osThread = none) (h3 : c .setName = none) (h4 : c .setPriority = none)
    (h5 : c .insert = none) {s : CSt} (h : createTimer c CSt.init = .ok true s) :
    ∃ s', destroyTimer s = .ok () s' ∧ Disciplined parentT s'.log ∧ ∀ r, live s'.log r = false := by
  cases e1 : c .newTimer with
  | some e => simp [createTimer, newTimer, catching, obtain, e1, emit, bind, pure, Cmd.bind, Cmd.pure, Cmd.modify, Cmd.throw, CSt.init] at h
  | none =>
    cases e2 : c .timerMembers with
    | some e =>
      simp [createTimer, newTimer, catching, obtain, e1, e2, emit, create_ok, h1, h2, h3, h4, h5, call, destroyThread, destroy, endThread, deleteThread,
        bind, pure, Cmd.bind, Cmd.pure, Cmd.modify, Cmd.throw, Cmd.gets, CSt.init] at h
    | none =>
      cases e3 : c .timerPriority with
      | some e =>
        simp [createTimer, newTimer, beginTimer, catching, obtain, e1, e2, e3, emit, create_ok, h1, h2, h3, h4, h5, call,
          bind, pure, Cmd.bind, Cmd.pure, Cmd.modify, Cmd.gets, Cmd.throw, CSt.init] at h
      | none =>
        simp [createTimer, newTimer, beginTimer, catching, obtain, e1, e2, e3, emit, create_ok, h1, h2, h3, h4, h5, call,
          bind, pure, Cmd.bind, Cmd.pure, Cmd.modify, Cmd.gets, CSt.init] at h
        subst h
        exact ⟨⟨[.acq .timer, .acq .obj, .acq .os, .acq .entry, .use .timer, .use .obj, .use .obj, .use .timer, .use .obj, .use .obj, .rel .os,
          .rel .entry, .rel .obj, .rel .timer], true, false, true⟩, by decide, disc (by decide), by intro r; cases r <;> decide⟩

/-- The claim fails: whenever the timer's thread cannot be made, create dereferences the null pointer instead of returning null. -/
theorem C81_null_deref (c : Cfg) (h0 : c .newTimer = none) (h1 : c .timerMembers = none) (h2 : c .setName = none) (h3 : c .setPriority = none) {e : Exn}
    (he : e ≠ .assertFail) (h : c .newObj = some e ∨ (c .newObj = none ∧ c .osThread = some e) ∨
      (c .newObj = none ∧ c .osThread = none ∧ c .insert = some e)) : createTimer c CSt.init = .ub .nullDeref := by
  rcases h with h | ⟨h4, h⟩ | ⟨h4, h5, h⟩
  · simp [createTimer, newTimer, beginTimer, create, createFirst, catching, obtain, h0, h1, h, he, call, emit, deleteThread, bind, pure, Cmd.bind, Cmd.pure,
      Cmd.modify, Cmd.throw, Cmd.gets, Cmd.fault, CSt.init]
  · simp [createTimer, newTimer, beginTimer, create, createFirst, beginThread, catching, obtain, h0, h1, h4, h, he, call, emit, deleteThread, bind, pure,
      Cmd.bind, Cmd.pure, Cmd.modify, Cmd.throw, Cmd.gets, Cmd.fault, CSt.init]
  · simp [createTimer, newTimer, beginTimer, create, createFirst, createSecond, beginThread, endThread, catching, obtain, h0, h1, h2, h3, h4, h5, h, call,
      emit, deleteThread, bind, pure, Cmd.bind, Cmd.pure, Cmd.modify, Cmd.throw, Cmd.gets, Cmd.fault, CSt.init]

/-- The claim fails: if setPriority throws, create returns null and the timer, its thread object, its thread and its table entry are lost. -/
theorem C81_leak (c : Cfg) (h0 : c .newTimer = none) (h : c .timerMembers = none) (h1 : c .newObj = none) (h2 : c .osThread = none) (h3 : c .setName = none)
    (h4 : c .setPriority = none) (h5 : c .insert = none) (h6 : c .timerPriority ≠ none) :
    ∃ s, createTimer c CSt.init = .ok false s ∧ ∀ r, live s.log r = true := by
  obtain ⟨e, h6⟩ := Option.ne_none_iff_exists'.1 h6
  refine ⟨⟨[.acq .timer, .acq .obj, .acq .os, .acq .entry, .use .timer, .use .obj], true, true, true⟩, ?_, by intro r; cases r <;> decide⟩
  simp [createTimer, newTimer, beginTimer, catching, obtain, h0, h, emit, create_ok, h1, h2, h3, h4, h5, h6, call,
    bind, pure, Cmd.bind, Cmd.pure, Cmd.modify, Cmd.gets, Cmd.throw, CSt.init]

/-- On Posix setPriority(getHighestPriority()) does not throw for a range that fits. -/
theorem C81_posix_priority (W : Nat) (dflt rrMin rrMax : Int) (r : Prio.Range) (hs : Priority.Sane W r) (hrr : rrMin ≤ rrMax) (cur : Option Int) :
    ∃ pm, Prio.posixMap W dflt rrMin rrMax r = some pm ∧ prioSite W r pm cur r.highest = none := by
  obtain ⟨pm, h1, h2⟩ := Priority.C35_total_partial W dflt rrMin rrMax r hs hrr
  have hin : Priority.InRange r r.highest := by unfold Priority.InRange; omega
  obtain ⟨v, hv, _⟩ := h2 r.highest hin
  refine ⟨pm, h1, ?_⟩
  simp [prioSite, Prio.setPriority, (Priority.inRange_iff r r.highest).1 hin, hv]

/-- But a Posix factory made when pthread_getschedparam failed has the range 0..0 and an empty map (PosixThreadFactory.cpp:55-63): there every
setPriority throws, so every Thread::create ends the program. -/
theorem C81_no_map (W : Nat) (cur : Option Int) (p : Int) : prioSite W ⟨0, 0⟩ (fun _ => none) cur p = some .outOfRange := by
  unfold prioSite Prio.setPriority
  split
  · simp
  · cases cur with
    | some q => simp
    | none => cases Prio.normalP W ⟨0, 0⟩ <;> simp

/-- The hypotheses are met: nothing throws; a condition variable cannot be made. -/
example : ∃ s, createTimer (fun _ => none) CSt.init = .ok true s ∧ live s.log .entry = true := ⟨_, rfl, by decide⟩
example : ∃ s, createTimer (fun x => if x = .timerMembers then some .elemThrow else none) CSt.init = .ok false s ∧ live s.log .timer = false := ⟨_, rfl, by decide⟩

end Verif.Props.StdCreate
