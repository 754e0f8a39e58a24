import Verif.Model.ItronAccess
import Verif.Props.Mutex
/-
C107: data races on the member variables of the ITRON classes.  C108: the locks of the ITRON classes never deadlock.
The programs are the access skeletons of Model/ItronAccess.lean; the semantics, the definition of a data race (`Racy`) and of a thread that wants a
lock (`Wants`) are in Sem/Race.lean.  Any number of tasks, handlers, objects and calls.
-/
namespace Verif.Props.ItronRace
open Verif _root_.Verif.Race _root_.Verif.ItAccess

/-- Variables that are not written after construction (except by the functions of `Setter`). -/
def imm : Var → Bool
  | .thConst _ | .thRunnable _ | .thHandler _ | .thDefaultHandler | .factories | .evConst _ | .peName _ | .peConst _ | .peHandler _ | .peDefaultHandler
  | .fixConst _ | .varConst _ | .mqConst _ => true
  | _ => false

/-- The lock that guards a variable. -/
def grd : Var → Lk
  | .thPrio o | .thName o => .thread o
  | .fixSlots => .fac .fix
  | .varSlots => .fac .var
  | .mqBegin o | .mqEnd o | .mqBuf o | .mqCntRB o => .mqRB o
  | .mqCntSend o => .mqSend o
  | .mqCntRecv o => .mqRecv o
  | _ => .fac .thread

/-- The order in which locks are taken. -/
def rank : Lk → Nat
  | .mqSend _ | .mqRecv _ => 0
  | _ => 1

/-- The functions that a handler (the callback of a periodic timer) may call.  Not: starting a thread, names and priorities of threads, creating and
destroying threads, memory pools and message queues, and the size of a message queue. -/
def safe : Fn → Bool
  | .thStart | .thSetName | .thGetName | .thSetPriority | .thGetPriority | .thCreate | .thDestroy | .fixCreate | .fixDestroy | .varCreate | .varDestroy
  | .mqSize | .mqCreate | .mqDestroy => false
  | _ => true

theorem chk_lock {acc : List Lk → Var → Bool → Bool} {H : List Lk} {av : Lk → Bool} {l : Lk} {p : Sk} :
    chk acc H (lock av l p) = if av l then chk acc (l :: H) p else chk acc H p := by unfold lock; split <;> rfl

theorem ordered_lock {H : List Lk} {av : Lk → Bool} {l : Lk} {p : Sk} :
    ordered rank recursive H (lock av l p) = if av l then ordered rank recursive H (.scope l p) else ordered rank recursive H p := by unfold lock; split <;> rfl

theorem fn_guarded (ex : Fac → Bool) (h1 : ex .thread = true) (h2 : ex .fix = true) (h3 : ex .var = true) (handler : Bool) (o e : Nat) (f : Fn)
    (hs : handler = true → safe f = true) : guarded imm grd [] (fn (avail ex handler) handler o e f) = true := by
  cases handler <;> cases f <;> first
  | (exact absurd (hs rfl) (by decide))
  | simp [guarded, fn, avail, h1, h2, h3, Th.handleException, Th.main, Th.isFinished, Th.start, Th.timedWait, Th.setName, Th.getName, Th.setPriority, Th.getPriority, Th.getConst, Th.create, Th.destroy, Th.getCurrentThread, Th.getHandler, Th.getDefaultHandler, EvF.use, EvF.create, EvF.destroy, Mx.create, Mx.destroy, Per.use, Per.handleException, Per.callback, Per.getName, Per.create, Per.destroy, Per.getHandler, Per.getDefaultHandler, Fix.use, Fix.create, Fix.destroy, Vari.use, Vari.create, Vari.destroy, Queue.guard, Queue.rbSize, Queue.isEmpty, Queue.isFull, Queue.push, Queue.pop, Queue.timedSend, Queue.timedReceive, Queue.getSize, Queue.getMaxSize, Queue.destroy, Queue.create, blk, may, chk_lock, chk, byLock, imm, grd]

theorem fn_ordered (ex : Fac → Bool) (handler : Bool) (o e : Nat) (f : Fn) : ordered rank recursive [] (fn (avail ex handler) handler o e f) = true := by
  cases handler <;> cases f <;> simp [fn, avail, Th.handleException, Th.main, Th.isFinished, Th.start, Th.timedWait, Th.setName, Th.getName, Th.setPriority, Th.getPriority, Th.getConst, Th.create, Th.destroy, Th.getCurrentThread, Th.getHandler, Th.getDefaultHandler, EvF.use, EvF.create, EvF.destroy, Mx.create, Mx.destroy, Per.use, Per.handleException, Per.callback, Per.getName, Per.create, Per.destroy, Per.getHandler, Per.getDefaultHandler, Fix.use, Fix.create, Fix.destroy, Vari.use, Vari.create, Vari.destroy, Queue.guard, Queue.rbSize, Queue.isEmpty, Queue.isFull, Queue.push, Queue.pop, Queue.timedSend, Queue.timedReceive, Queue.getSize, Queue.getMaxSize, Queue.destroy, Queue.create, blk, may, ordered_lock, ordered, rank, recursive]

theorem api_guarded {ex : Fac → Bool} (h1 : ex .thread = true) (h2 : ex .fix = true) (h3 : ex .var = true) {allow : Fn → Bool}
    (ha : ∀ f, allow f = true → safe f = true) (c : Call) : guarded imm grd [] (api ex allow false c) = true := by
  cases c with
  | call f handler o e =>
    simp only [api]
    split
    · rfl
    · next h =>
      refine fn_guarded ex h1 h2 h3 handler o e f (fun hh => ha f ?_)
      subst hh; simpa using h
  | set x o => rfl

theorem api_ordered (ex : Fac → Bool) (allow : Fn → Bool) (sets : Bool) (c : Call) : ordered rank recursive [] (api ex allow sets c) = true := by
  cases c with
  | call f handler o e =>
    simp only [api]
    split
    · rfl
    · exact fn_ordered ex handler o e f
  | set x o => simp only [api]; split <;> cases x <;> rfl

/-- The next access of thread `t`: variable, and whether it is written. -/
def nextAccess (s : State Lk Var) (t : Nat) : Option (Var × Bool) :=
  match s.kont t with
  | .run (.rd v) :: _ => some (v, false)
  | .run (.wr v) :: _ => some (v, true)
  | _ => none

theorem nextAccess_accesses {s : State Lk Var} {t : Nat} {v : Var} {w : Bool} (h : nextAccess s t = some (v, w)) : Accesses s t v w := by
  simp only [nextAccess] at h
  split at h <;> simp only [Option.some.injEq, Prod.mk.injEq, reduceCtorEq] at h
  · next k e => obtain ⟨rfl, rfl⟩ := h; exact ⟨k, e⟩
  · next k e => obtain ⟨rfl, rfl⟩ := h; exact ⟨k, e⟩

/-! Two APIs that agree on the calls of a schedule run it in the same way. -/

def used : Choice Call → Option Call
  | .call m => some m
  | _ => none

theorem stepT_congr {a1 a2 : Call → Sk} {s : State Lk Var} {t : Nat} {c : Choice Call} (h : ∀ m, used c = some m → a1 m = a2 m) :
    stepT a1 recursive s t c = stepT a2 recursive s t c := by
  cases c with
  | call m => simp only [stepT, h m rfl]
  | _ => rfl

theorem run_congr {a1 a2 : Call → Sk} : ∀ {as : List (Nat × Choice Call)} {s : State Lk Var}, (∀ m, m ∈ as.filterMap (used ·.2) → a1 m = a2 m) →
    Lts.run (Race.step a1 recursive) as s = Lts.run (Race.step a2 recursive) as s
  | [], _, _ => rfl
  | (t, c) :: as, s, h => by
    have e : Race.step a1 recursive s (t, c) = Race.step a2 recursive s (t, c) := by
      simp only [Race.step]
      rw [stepT_congr (a1 := a1) (a2 := a2)]
      intro m hm; exact h m (by simp [hm])
    have ih := fun s' => run_congr (a1 := a1) (a2 := a2) (as := as) (s := s') (fun m hm => h m (by
      rw [List.filterMap_cons]; cases used c <;> simp_all))
    simp only [Lts.run, e, ih]

/-- A schedule that ends with two threads about to access the same variable, run under another API. -/
theorem racy_of {a1 a2 : Call → Sk} {as : List (Nat × Choice Call)} {v : Var} {w : Bool} {t u : Nat} (hne : t ≠ u)
    (h : Lts.runSat (Race.step a1 recursive) init as (fun s _ => decide (nextAccess s t = some (v, true) ∧ nextAccess s u = some (v, w))) = true)
    (hc : ∀ m, m ∈ as.filterMap (used ·.2) → a1 m = a2 m) : ∃ s, Reachable a2 recursive s ∧ Racy s := by
  have h' : Lts.runSat (Race.step a2 recursive) init as (fun s _ => decide (nextAccess s t = some (v, true) ∧ nextAccess s u = some (v, w))) = true := by
    simpa only [Lts.runSat, run_congr hc] using h
  obtain ⟨s, tr, hr, hp⟩ := Lts.runSat_ex h'
  have := of_decide_eq_true hp
  exact ⟨s, ⟨tr, hr⟩, t, u, v, w, hne, nextAccess_accesses this.1, nextAccess_accesses this.2⟩

/-! #### C107 -/

/-- **C107.**  Any number of tasks call everything but the setters without a lock, the factories have their mutexes, and handlers call only `safe`
functions: no schedule leads to a data race. -/
theorem C107_race_free_partial (ex : Fac → Bool) (h1 : ex .thread = true) (h2 : ex .fix = true) (h3 : ex .var = true) (allow : Fn → Bool)
    (ha : ∀ f, allow f = true → safe f = true) (s : State Lk Var) (h : Reachable (api ex allow false) recursive s) : ¬ Racy s :=
  race_free (api_guarded h1 h2 h3 ha) h

/-- The variables of the setters. -/
def isSet : Var → Bool
  | .thHandler _ | .thDefaultHandler | .peHandler _ | .peDefaultHandler | .peName _ => true
  | _ => false

/-- With the setters, too: a data race can only be on an uncaught exception handler or the name of a periodic timer. -/
theorem C107_only_setters_partial (ex : Fac → Bool) (h1 : ex .thread = true) (h2 : ex .fix = true) (h3 : ex .var = true) (allow : Fn → Bool)
    (ha : ∀ f, allow f = true → safe f = true) (s : State Lk Var) (h : Reachable (api ex allow true) recursive s) (t u : Nat) (v : Var) (w : Bool) (hne : t ≠ u)
    (hw : Accesses s t v true) (hu : Accesses s u v w) : isSet v = true := by
  refine race_free_on (api := api ex allow true) (imm := imm) (grd := grd) (fun m => ?_) h hne hw hu
  cases m with
  | call f handler o e => exact chk_weaken (fun H v w h => by simp [byLockX, h]) (api_guarded h1 h2 h3 ha (.call f handler o e))
  | set x o => cases x <;> rfl

def g (t n : Nat) : List (Nat × Choice Call) := List.replicate n (t, .go)

/-- Task 0: the call and the steps up to its access. -/
def taskPart : Fn → List (Nat × Choice Call)
  | .thStart => (0, .call (.call .thSetPriority false 0 0)) :: (g 0 4)
  | .thSetName => (0, .call (.call .thGetName false 0 0)) :: (g 0 1)
  | .thGetName => (0, .call (.call .thSetName false 0 0)) :: (g 0 1)
  | .thSetPriority => (0, .call (.call .thGetPriority false 0 0)) :: (g 0 1)
  | .thGetPriority => (0, .call (.call .thSetPriority false 0 0)) :: (g 0 4)
  | .thCreate => (0, .call (.call .thCreate false 0 0)) :: (g 0 24)
  | .thDestroy => (0, .call (.call .thCreate false 0 0)) :: (g 0 24)
  | .fixCreate => (0, .call (.call .fixCreate false 0 0)) :: (g 0 9 ++ List.replicate 1 (0, .left))
  | .fixDestroy => (0, .call (.call .fixCreate false 0 0)) :: (g 0 9 ++ List.replicate 1 (0, .left))
  | .mqCreate => (0, .call (.call .fixCreate false 0 0)) :: (g 0 9 ++ List.replicate 1 (0, .left))
  | .mqDestroy => (0, .call (.call .fixCreate false 0 0)) :: (g 0 9 ++ List.replicate 1 (0, .left))
  | .varCreate => (0, .call (.call .varCreate false 0 0)) :: (g 0 9 ++ List.replicate 1 (0, .left))
  | .varDestroy => (0, .call (.call .varCreate false 0 0)) :: (g 0 9 ++ List.replicate 1 (0, .left))
  | .mqSize => (0, .call (.call .mqSend false 0 0)) :: (g 0 43)
  | _ => []
/-- Handler 1: the steps of the function up to its access. -/
def handlerPart : Fn → List (Nat × Choice Call)
  | .thStart => g 1 6 ++ List.replicate 1 (1, .left) ++ g 1 11
  | .thSetName => []
  | .thGetName => []
  | .thSetPriority => g 1 3
  | .thGetPriority => []
  | .thCreate => g 1 23
  | .thDestroy => g 1 2 ++ List.replicate 1 (1, .left) ++ g 1 10 ++ List.replicate 1 (1, .left) ++ g 1 2
  | .fixCreate => g 1 8 ++ List.replicate 1 (1, .left)
  | .fixDestroy => g 1 2 ++ List.replicate 1 (1, .left) ++ g 1 2
  | .mqCreate => g 1 10 ++ List.replicate 1 (1, .left)
  | .mqDestroy => g 1 38 ++ List.replicate 1 (1, .left) ++ g 1 2
  | .varCreate => g 1 8 ++ List.replicate 1 (1, .left)
  | .varDestroy => g 1 2 ++ List.replicate 1 (1, .left) ++ g 1 2
  | .mqSize => g 1 5
  | _ => []
/-- The variable, and who writes it: the task, the handler. -/
def contested : Fn → Var × Bool × Bool
  | .thStart => (.thPrio 0, true, false)
  | .thSetName => (.thName 0, false, true)
  | .thGetName => (.thName 0, true, false)
  | .thSetPriority => (.thPrio 0, false, true)
  | .thGetPriority => (.thPrio 0, true, false)
  | .thCreate => (.idMap, true, true)
  | .thDestroy => (.idMap, true, true)
  | .fixCreate => (.fixSlots, true, true)
  | .fixDestroy => (.fixSlots, true, true)
  | .mqCreate => (.fixSlots, true, true)
  | .mqDestroy => (.fixSlots, true, true)
  | .varCreate => (.varSlots, true, true)
  | .varDestroy => (.varSlots, true, true)
  | .mqSize => (.mqEnd 0, true, false)
  | _ => (.factories, false, false)

/-- Handler 1 is in the callback of a periodic timer, where it calls `f`. -/
def clash (f : Fn) : List (Nat × Choice Call) :=
  taskPart f ++ (1, .call (.call .peCallback true 0 0)) :: g 1 3 ++ (1, .left) :: g 1 2 ++ (1, .call (.call f true 0 0)) :: handlerPart f

/-- Handlers run the callbacks of timers, in which they call `f`. -/
def only (f : Fn) (x : Fn) : Bool := x = f || x = .peCallback

/-- Factories whose mutex guards a variable. -/
def needed : Fac → Bool
  | .thread | .fix | .var => true
  | _ => false

/-- The call is one of those in `taskPart`, or an allowed one of a handler. -/
def okCall (f : Fn) : Call → Bool
  | .call x true _ _ => only f x
  | .call x false _ _ => x = .thSetPriority || x = .thGetName || x = .thSetName || x = .thGetPriority || x = .thCreate || x = .fixCreate || x = .varCreate || x = .mqSend
  | .set .. => true

theorem avail_handler (ex : Fac → Bool) : avail ex true = fun _ => false := funext fun l => by cases l <;> rfl

theorem agree {f : Fn} {allow : Fn → Bool} {ex : Fac → Bool} (hx : ∀ x, needed x = true → ex x = true) (hc : allow .peCallback = true) (ha : allow f = true)
    (as : List (Nat × Choice Call)) (h : (as.filterMap (used ·.2)).all (okCall f) = true) (m : Call) (hm : m ∈ as.filterMap (used ·.2)) :
    api (fun _ => true) (only f) false m = api ex allow false m := by
  have := List.all_eq_true.mp h m hm
  cases m with
  | set x o => rfl
  | call x handler o e =>
    cases handler with
    | false =>
      simp only [okCall, Bool.or_eq_true, decide_eq_true_eq] at this
      rcases this with ((((((rfl | rfl) | rfl) | rfl) | rfl) | rfl) | rfl) | rfl <;>
        simp [api, fn, Th.setPriority, Th.getName, Th.setName, Th.getPriority, Th.create, Fix.create, Vari.create, Queue.timedSend, Queue.isFull, Queue.push, Queue.guard,
          lock, avail, hx .thread rfl, hx .fix rfl, hx .var rfl]
    | true =>
      simp only [okCall] at this
      have h2 : allow x = true := by
        simp only [only, Bool.or_eq_true, decide_eq_true_eq] at this
        rcases this with rfl | rfl
        · exact ha
        · exact hc
      simp [api, this, h2, avail_handler]

/-- **C107.**  A function that is not `safe` must not be called by a handler: each of them alone leads to a data race with a task. -/
theorem C107_handler (f : Fn) (hf : safe f = false) (ex : Fac → Bool) (hx : ∀ x, needed x = true → ex x = true) (allow : Fn → Bool) (hc : allow .peCallback = true) (ha : allow f = true) :
    ∃ s, Reachable (api ex allow false) recursive s ∧ Racy s := by
  cases f <;> simp only [safe, Bool.true_eq_false] at hf
  case thStart => exact racy_of (a1 := api (fun _ => true) (only .thStart) false) (as := clash .thStart) (v := .thPrio 0) (w := false) (t := 0) (u := 1) (by decide) (by decide) (agree hx hc ha _ (by decide))
  case thSetName => exact racy_of (a1 := api (fun _ => true) (only .thSetName) false) (as := clash .thSetName) (v := .thName 0) (w := false) (t := 1) (u := 0) (by decide) (by decide) (agree hx hc ha _ (by decide))
  case thGetName => exact racy_of (a1 := api (fun _ => true) (only .thGetName) false) (as := clash .thGetName) (v := .thName 0) (w := false) (t := 0) (u := 1) (by decide) (by decide) (agree hx hc ha _ (by decide))
  case thSetPriority => exact racy_of (a1 := api (fun _ => true) (only .thSetPriority) false) (as := clash .thSetPriority) (v := .thPrio 0) (w := false) (t := 1) (u := 0) (by decide) (by decide) (agree hx hc ha _ (by decide))
  case thGetPriority => exact racy_of (a1 := api (fun _ => true) (only .thGetPriority) false) (as := clash .thGetPriority) (v := .thPrio 0) (w := false) (t := 0) (u := 1) (by decide) (by decide) (agree hx hc ha _ (by decide))
  case thCreate => exact racy_of (a1 := api (fun _ => true) (only .thCreate) false) (as := clash .thCreate) (v := .idMap) (w := true) (t := 0) (u := 1) (by decide) (by decide) (agree hx hc ha _ (by decide))
  case thDestroy => exact racy_of (a1 := api (fun _ => true) (only .thDestroy) false) (as := clash .thDestroy) (v := .idMap) (w := true) (t := 0) (u := 1) (by decide) (by decide) (agree hx hc ha _ (by decide))
  case fixCreate => exact racy_of (a1 := api (fun _ => true) (only .fixCreate) false) (as := clash .fixCreate) (v := .fixSlots) (w := true) (t := 0) (u := 1) (by decide) (by decide) (agree hx hc ha _ (by decide))
  case fixDestroy => exact racy_of (a1 := api (fun _ => true) (only .fixDestroy) false) (as := clash .fixDestroy) (v := .fixSlots) (w := true) (t := 0) (u := 1) (by decide) (by decide) (agree hx hc ha _ (by decide))
  case varCreate => exact racy_of (a1 := api (fun _ => true) (only .varCreate) false) (as := clash .varCreate) (v := .varSlots) (w := true) (t := 0) (u := 1) (by decide) (by decide) (agree hx hc ha _ (by decide))
  case varDestroy => exact racy_of (a1 := api (fun _ => true) (only .varDestroy) false) (as := clash .varDestroy) (v := .varSlots) (w := true) (t := 0) (u := 1) (by decide) (by decide) (agree hx hc ha _ (by decide))
  case mqSize => exact racy_of (a1 := api (fun _ => true) (only .mqSize) false) (as := clash .mqSize) (v := .mqEnd 0) (w := false) (t := 0) (u := 1) (by decide) (by decide) (agree hx hc ha _ (by decide))
  case mqCreate => exact racy_of (a1 := api (fun _ => true) (only .mqCreate) false) (as := clash .mqCreate) (v := .fixSlots) (w := true) (t := 0) (u := 1) (by decide) (by decide) (agree hx hc ha _ (by decide))
  case mqDestroy => exact racy_of (a1 := api (fun _ => true) (only .mqDestroy) false) (as := clash .mqDestroy) (v := .fixSlots) (w := true) (t := 0) (u := 1) (by decide) (by decide) (agree hx hc ha _ (by decide))


/-- Two tasks create an object each. -/
def two (x : Fac) : List (Nat × Choice Call) :=
  match x with
  | .thread => (0, .call (.call .thCreate false 0 0)) :: g 0 23 ++ (1, .call (.call .thCreate false 0 0)) :: g 1 23
  | .fix => (0, .call (.call .fixCreate false 0 0)) :: g 0 8 ++ (0, .left) :: (1, .call (.call .fixCreate false 0 0)) :: g 1 8 ++ [(1, .left)]
  | _ => (0, .call (.call .varCreate false 0 0)) :: g 0 8 ++ (0, .left) :: (1, .call (.call .varCreate false 0 0)) :: g 1 8 ++ [(1, .left)]

/-- **C107.**  If the mutex of the thread factory or of a memory pool factory could not be created, two tasks that create objects race. -/
theorem C107_mutex (x : Fac) (hn : needed x = true) (ex : Fac → Bool) (hx : ex x = false) (allow : Fn → Bool) :
    ∃ s, Reachable (api ex allow false) recursive s ∧ Racy s := by
  cases x <;> simp only [needed, Bool.false_eq_true] at hn
  · exact racy_of (a1 := api (fun _ => false) (fun _ => false) false) (as := two .thread) (v := .idMap) (w := true) (t := 0) (u := 1) (by decide) (by decide)
      (by intro m hm; simp [two, g, used] at hm; subst hm; simp [api, fn, Th.create, lock, avail, hx])
  · exact racy_of (a1 := api (fun _ => false) (fun _ => false) false) (as := two .fix) (v := .fixSlots) (w := true) (t := 0) (u := 1) (by decide) (by decide)
      (by intro m hm; simp [two, g, used] at hm; subst hm; simp [api, fn, Fix.create, lock, avail, hx])
  · exact racy_of (a1 := api (fun _ => false) (fun _ => false) false) (as := two .var) (v := .varSlots) (w := true) (t := 0) (u := 1) (by decide) (by decide)
      (by intro m hm; simp [two, g, used] at hm; subst hm; simp [api, fn, Vari.create, lock, avail, hx])

/-- **C107.**  Exactly when the library on ITRON is free of data races: all of the factories' mutexes that guard something exist, and handlers call only
`safe` functions. -/
theorem C107_exactly (ex : Fac → Bool) (allow : Fn → Bool) (hc : allow .peCallback = true) :
    (∀ s, Reachable (api ex allow false) recursive s → ¬ Racy s) ↔ ((∀ x, needed x = true → ex x = true) ∧ ∀ f, allow f = true → safe f = true) := by
  constructor
  · intro h
    have hex : ∀ x, needed x = true → ex x = true := by
      intro x hn
      cases he : ex x with
      | true => rfl
      | false => obtain ⟨s, hr, hrace⟩ := C107_mutex x hn ex he allow; exact absurd hrace (h s hr)
    refine ⟨hex, fun f hf => ?_⟩
    cases hsf : safe f with
    | true => rfl
    | false =>
      obtain ⟨s, hr, hrace⟩ := C107_handler f hsf ex hex allow hc hf; exact absurd hrace (h s hr)
  · rintro ⟨hex, ha⟩ s h
    exact C107_race_free_partial ex (hex _ rfl) (hex _ rfl) (hex _ rfl) allow ha s h

/-- **C107.**  ItronPeriodicTimer::setName and getName (ItronPeriodicTimerFactory.cpp:76-84) in two tasks race. -/
theorem C107_timer_name : ∃ s, Reachable (api (fun _ => true) (fun _ => false) true) recursive s ∧ Racy s :=
  racy_of (a1 := api (fun _ => true) (fun _ => false) true) (as := [(0, .call (.set .peName 0)), (1, .call (.call .peGetName false 0 0))]) (v := .peName 0) (w := false)
    (t := 0) (u := 1) (by decide) (by decide) (fun _ _ => rfl)

/-- So do the setters of uncaught exception handlers: the callback of a timer throws while a task sets its handler. -/
theorem C107_setters : ∃ s, Reachable (api (fun _ => true) (only .peCallback) true) recursive s ∧ Racy s :=
  racy_of (a1 := api (fun _ => true) (only .peCallback) true)
    (as := (0, .call (.set .peHandler 0)) :: (1, .call (.call .peCallback true 0 0)) :: g 1 5 ++ (1, .left) :: g 1 6) (v := .peHandler 0) (w := false)
    (t := 0) (u := 1) (by decide) (by decide) (fun _ _ => rfl)

/-! m_recursiveCount of ItronMutex (ItronMutexFactory.cpp:16, 91, 103-104) in the model of Model/Mutex.lean. -/

/-- Task `t` is about to read (`w = false`) or write m_recursiveCount. -/
def countAccess (s : Mtx.Itron.St) (t : Nat) (w : Bool) : Prop :=
  match s.pc t with
  | .inc _ | .ulTst | .dec => w = false
  | .incW .. | .decW _ => w = true
  | _ => False

/-- **C107.**  The count of an ItronMutex is never accessed by two tasks at the same time, also if tasks unlock what they have not locked. -/
theorem C107_mutex_count (ceil : Nat → Bool) (s : Mtx.Itron.St) (tr : List Mtx.Ev) (h : Lts.Reach (Mtx.Itron.step ceil) Mtx.Itron.init s tr)
    (t u : Nat) (v w : Bool) (ht : countAccess s t v) (hu : countAccess s u w) : t = u := by
  have I := Props.Mutex.iinv_reach h
  have key : ∀ x b, countAccess s x b → s.owner = some x := by
    intro x b hx
    have := I.loc x
    simp only [countAccess] at hx
    split at hx <;> simp_all [Props.Mutex.ILoc]
  have h1 := key t v ht; have h2 := key u w hu
  rw [h1] at h2
  exact Option.some.inj h2

/-- Concrete case: task 1 has locked twice and unlocks, task 2 waits and task 3 unlocks what it has not locked. -/
example : ∃ s tr, Lts.Reach (Mtx.Itron.step fun _ => true) Mtx.Itron.init s tr ∧ countAccess s 1 true := by
  obtain ⟨s, tr, h, hp⟩ := Lts.runSat_ex (step := Mtx.Itron.step fun _ => true) (init := Mtx.Itron.init)
    (as := [.call 1 .lock, .go 1, .go 1, .call 1 .lock, .go 1, .go 1, .call 2 .lock, .call 3 .unlock, .go 3, .go 3, .go 1])
    (P := fun s _ => decide (s.pc 1 = .incW .lock 0)) (by decide)
  exact ⟨s, tr, h, by simp [countAccess, of_decide_eq_true hp]⟩

/-- The lock thread `t` wants. -/
def wanted (s : State Lk Var) (t : Nat) : Option Lk :=
  match s.kont t with
  | .run (.scope l _) :: _ => some l
  | .reacq l :: _ => some l
  | _ => none

theorem wanted_wants {s : State Lk Var} {t : Nat} {l : Lk} (h : wanted s t = some l) : Wants s t l := by
  simp only [wanted] at h
  split at h <;> simp only [Option.some.injEq, reduceCtorEq] at h
  · next p k e => subst h; exact Or.inl ⟨p, k, e⟩
  · next k e => subst h; exact Or.inr ⟨k, e⟩

/-- Concrete case for C107 and C108: task 0 is about to write the queue's buffer, which it has locked; task 1 wants the lock, handler 2 has its send refused. -/
def queueDemo : List (Nat × Choice Call) :=
  (0, .call (.call .mqSend false 0 0)) :: g 0 34 ++ (1, .call (.call .mqSize false 0 0)) :: (2, .call (.call .mqSend true 0 0)) :: g 2 4

example : ∃ s, Reachable (api (fun _ => true) safe false) recursive s ∧ Accesses s 0 (.mqBuf 0) true ∧ Wants s 1 (.mqRB 0) ∧ s.own (.mqRB 0) = some 0 ∧ s.own (.mqSend 0) = some 0 := by
  obtain ⟨s, tr, h, hp⟩ := Lts.runSat_ex (step := Race.step (api (fun _ => true) safe false) recursive) (init := init) (as := queueDemo)
    (P := fun s _ => decide (nextAccess s 0 = some (.mqBuf 0, true) ∧ wanted s 1 = some (.mqRB 0) ∧ s.own (.mqRB 0) = some 0 ∧ s.own (.mqSend 0) = some 0)) (by decide)
  have := of_decide_eq_true hp
  exact ⟨s, ⟨tr, h⟩, nextAccess_accesses this.1, wanted_wants this.2.1, this.2.2⟩

/-! #### C108: in tasks and handlers, whatever handlers call, with or without the factories' mutexes, and with the setters. -/

theorem rank_le (l : Lk) : rank l ≤ 1 := by cases l <;> simp [rank]

/-- **C108.**  Code of the user runs without any lock of the library: no call can deadlock because of where it is made. -/
theorem C108_callback_holds_nothing (ex : Fac → Bool) (allow : Fn → Bool) (sets : Bool) (s : State Lk Var) (h : Reachable (api ex allow sets) recursive s) (t : Nat)
    (k : List (Frame Lk Var)) (hk : s.kont t = .run .user :: k) (l : Lk) : s.own l ≠ some t := user_free (api_ordered ex allow sets) h hk l

/-- **C108.**  No set of tasks deadlocks on locks of the library: one that wants a lock can go on, or another one, which holds a lock, can. -/
theorem C108_no_deadlock (ex : Fac → Bool) (allow : Fn → Bool) (sets : Bool) (s : State Lk Var) (h : Reachable (api ex allow sets) recursive s) (t : Nat) (l : Lk)
    (hw : Wants s t l) : CanStep (api ex allow sets) recursive s t ∨ ∃ w l', s.own l' = some w ∧ CanStep (api ex allow sets) recursive s w := by
  rcases no_deadlock (api_ordered ex allow sets) rank_le h 1 t l (by omega) hw with h | ⟨w, l', -, h1, h2⟩
  · exact Or.inl h
  · exact Or.inr ⟨w, l', h1, h2⟩

/-- **C108.**  A task never waits for a mutex that it holds itself (the mutexes of threads and factories are not recursive: loc_mtx would fail). -/
theorem C108_no_self_lock (ex : Fac → Bool) (allow : Fn → Bool) (sets : Bool) (s : State Lk Var) (h : Reachable (api ex allow sets) recursive s) (t : Nat) (l : Lk)
    (hw : Wants s t l) : s.own l ≠ some t := by
  intro ho
  rcases wants_key (api_ordered ex allow sets) h hw with ⟨c, hc⟩ | ⟨u, hu, h1⟩
  · rcases hw with ⟨p, k, hk⟩ | ⟨k, hk⟩ <;> simp [stepT, hk, ho, recursive] at hc
  · rw [ho] at h1; exact hu (Option.some.inj h1).symm

/-- **C108.**  Two tasks never wait for each other's locks. -/
theorem C108_no_cycle (ex : Fac → Bool) (allow : Fn → Bool) (sets : Bool) (s : State Lk Var) (h : Reachable (api ex allow sets) recursive s) (t u : Nat) (l l' : Lk)
    (ht : Wants s t l) (hu : Wants s u l') (h1 : s.own l = some u) (h2 : s.own l' = some t) : t = u := by
  rcases Classical.em (t = u) with e | e
  · exact e
  · have r1 := wants_up (api_ordered ex allow sets) h h1 hu (by rw [h2]; simpa using e)
    have r2 := wants_up (api_ordered ex allow sets) h h2 ht (by rw [h1]; simpa using Ne.symm e)
    exact absurd r1 (by omega)

end Verif.Props.ItronRace
