import Verif.Model.EventFlag
/-
Model of `ThreadPool` (mechanism/OSWrapper/ThreadPool.cpp, "TP"): a pool with `n` threads, any number of clients and of WaitGuards.

Simplification: the objects the pool is built from are represented by their contracts, each method one step: the free-runner queue is
a bounded FIFO queue (C46, C47), the event flag a boolean (its methods are used for all bits at once: C41, C42), the thread the
automaton finished - pending - running - over - finished (C55, C56).  Statements between two such method calls are steps of their own
where another thread can see the difference.  `create` is the subject of `Verif/Model/ThreadPoolCreate.lean`.
-/
namespace Verif.TP
open Verif
open _root_.Verif.Mtx (Tid)
open _root_.Verif.EvF (Tmo)

/-- WaitGuards, pool threads (with their TaskRunner), tasks (Runnable pointers). -/
abbrev Gid := Nat
abbrev Rid := Nat
abbrev Task := Nat

/-- TP:172-205 (start: FOREVER, tryStart: 0 ms; `task = none`: null), TP:312-342, TP:109-120.  `release` is also the destructor of
the guard. -/
inductive Call where
  | start (task : Option Task) (tm : Tmo) (g : Option Gid) (prio : Int)
  | wait (g : Gid) (tm : Tmo)
  | release (g : Gid)
  | isValid (g : Gid)
  | destroy
  deriving DecidableEq, Repr

inductive Out where
  | ok | invalidParameter | timedOut | valid (b : Bool) | done
  deriving DecidableEq, Repr

inductive Ev where
  | call (t : Tid) (c : Call)
  | lin (t : Tid) (c : Call) (o : Out)                  -- the moment the call takes effect (not observable)
  | ret (t : Tid) (c : Call) (o : Out)
  | acc (t : Tid) (i : Rid) (k : Task) (g : Option Gid) (p : Int)    -- a start hands task `k` to pool thread `i`
  | begin (i : Rid) (k : Task) (p : Int)                -- task->run() is entered, on thread `i`, with priority `p`
  | ended (i : Rid) (k : Task) (threw : Bool)           -- it is left, by an exception or not
  | reprio (i : Rid) (p : Int)                          -- setPriority(p) by the thread itself
  | note (i : Rid)                                      -- the guard of the task is notified
  | back (i : Rid) (g : Option Gid)                     -- the thread is available again: released by guard `g` / by itself
  | uncaught (i : Rid)                                  -- the task's exception reaches the thread's main function (C58)
  | fin (i : Rid)                                       -- the thread is finished
  | drop (t : Tid) (i : Rid)                            -- start gives up after it had taken thread `i` from the queue
  | kill (i : Rid)                                      -- the thread and its event flag are destroyed
  deriving DecidableEq, Repr

inductive Act where
  | call (t : Tid) (c : Call)
  | go (t : Tid)
  | expire (t : Tid)                                    -- the wait `t` is in times out
  | pgo (i : Rid)                                       -- pool thread `i` (a running task returns)
  | throw (i : Rid)                                     -- the task running on thread `i` throws
  deriving DecidableEq, Repr

/-- Where a client is within a call. -/
inductive Pos where
  -- timedStart, TP:184-204
  | sEnter
  | sRecv                          -- in m_freeRunnerQueue->timedReceive
  | sWait (i : Rid)                -- in t->timedWait
  | sSet (i : Rid)                 -- to do TP:246-247
  | sPrio (i : Rid)                -- TP:248
  | sGo (i : Rid)                  -- TP:249
  | sGuard (i : Rid)               -- TP:201-204
  -- WaitGuard::timedWait, TP:333-336
  | wEnter
  | wWait (i : Rid)
  -- WaitGuard::release, TP:314-318
  | rEnter
  | rWait (i : Rid)
  | rReset (i : Rid)               -- TP:292
  | rSend (i : Rid)                -- TP:293
  | rClear                         -- TP:317
  | vEnter
  -- destroy
  | dWait (j : Rid)                -- TP:122-127
  | dDrain                         -- TP:147-158
  | ret (o : Out)
  deriving DecidableEq, Repr

inductive PC where
  | idle
  | on (c : Call) (p : Pos)
  deriving DecidableEq, Repr

/-- A pool thread; `x`: the task threw. -/
inductive W where
  | finished
  | pending                        -- started
  | inTask (k : Task)              -- in m_task->run(), TP:271
  | prio (x : Bool)                -- to do TP:277
  | branch (x : Bool)              -- TP:278
  | notify (x : Bool)              -- TP:287
  | reset (x : Bool)               -- TP:292
  | send (x : Bool)                -- TP:293
  | leave (x : Bool)               -- TP:261, 266: run() is left
  | over                           -- to become finished
  | dead
  deriving DecidableEq, Repr

/-- Ghost: who a pool thread belongs to. -/
inductive Own where
  | free                           -- in the queue
  | client (t : Tid)               -- of a start in progress
  | pool                           -- working, will release itself
  | guard (g : Gid)                -- to be released by guard `g`
  | rel (t : Tid)                  -- of a release in progress
  | lost
  | dead
  deriving DecidableEq, Repr

structure St where
  n : Nat
  dflt : Int                       -- m_defaultPriority
  free : List Rid                  -- m_freeRunnerQueue
  w : Rid → W
  task : Rid → Option Task         -- m_task
  needs : Rid → Bool               -- m_needsWaiting
  prio : Rid → Int                 -- the thread's priority: the argument of the last setPriority
  ev : Rid → Bool                  -- m_ev
  guard : Gid → Option Rid         -- WaitGuard::m_runner
  pc : Tid → PC
  own : Rid → Own
  inside : List Tid                -- ghost: the clients inside a call
  dying : Option Tid               -- ghost: who has called destroy
  gone : Bool                      -- ghost: the pool is destroyed

/-- After `create(n, ...)`. -/
def init (n : Nat) (dflt : Int) : St where
  n := n
  dflt := dflt
  free := List.range n
  w := fun i => if i < n then .finished else .dead
  task := fun _ => none
  needs := fun _ => false
  prio := fun _ => dflt
  ev := fun _ => false
  guard := fun _ => none
  pc := fun _ => .idle
  own := fun i => if i < n then .free else .dead
  inside := []
  dying := none
  gone := false

def St.at (s : St) (t : Tid) (c : Call) (p : Pos) : St := { s with pc := upd s.pc t (.on c p) }
def St.wAt (s : St) (i : Rid) (w : W) : St := { s with w := upd s.w i w }
def St.ownAt (s : St) (i : Rid) (o : Own) : St := { s with own := upd s.own i o }
def St.evAt (s : St) (i : Rid) (b : Bool) : St := { s with ev := upd s.ev i b }

def entry : Call → Pos
  | .start .. => .sEnter
  | .wait .. => .wEnter
  | .release _ => .rEnter
  | .isValid _ => .vEnter
  | .destroy => .dWait 0

/-- The guard a call uses, and whether it changes it. -/
def uses : Call → Option (Gid × Bool)
  | .start _ _ (some g) _ => some (g, true)
  | .release g => some (g, true)
  | .wait g _ => some (g, false)
  | .isValid g => some (g, false)
  | _ => none
def conflict (c c' : Call) : Bool := match uses c, uses c' with
  | some (g, b), some (g', b') => g == g' && (b || b')
  | _, _ => false
def callOf : PC → Option Call
  | .idle => none
  | .on c _ => some c
/-- A guard passed to start must not be valid (ThreadPool.h: a valid guard has to be released). -/
def freshGuard (s : St) : Call → Bool
  | .start _ _ (some g) _ => (s.guard g).isNone
  | _ => true
def clash (c : Call) (p : PC) : Bool := match p with
  | .idle => false
  | .on c' _ => conflict c c'

/-- Ghost: who releases the thread of a task started with guard argument `g`. -/
def toOwn : Option Gid → Own
  | some g => .guard g
  | none => .pool
/-- TP:201-203, `if (waiter != 0) { waiter->m_runner = runner; }` (null pointers have no effect) -/
def setGuard (m : Gid → Option Rid) (g : Option Gid) (i : Rid) : Gid → Option Rid := match g with
  | some g => upd m g (some i)
  | none => m

/-- Client discipline: a guard is changed by one call at a time, a guard passed to start is not valid; destroy overlaps with no other
call and nothing is called after it. -/
def step (s : St) : Act → Option (St × List Ev)
  | .call t c =>
    if s.pc t = .idle ∧ s.gone = false ∧ s.dying = none ∧ (c = .destroy → s.inside = []) ∧ (∀ u, u ∈ s.inside → clash c (s.pc u) = false) ∧ freshGuard s c = true then
      some ({ s.at t c (entry c) with inside := t :: s.inside, dying := if c = .destroy then some t else s.dying }, [.call t c])
    else none
  | .go t =>
    match s.pc t with
    | .idle => none
    | .on c p =>
      match c, p with
      -- timedStart
      | .start none _ _ _, .sEnter => some (s.at t c (.ret .invalidParameter), [.lin t c .invalidParameter])
      | .start (some _) _ _ _, .sEnter => some (s.at t c .sRecv, [])
      | .start (some _) _ _ _, .sRecv => match s.free with
        | [] => none
        | i :: rest => some ({ (s.at t c (.sWait i)).ownAt i (.client t) with free := rest }, [])
      | .start (some _) _ _ _, .sWait i => if s.w i = .finished then some (s.at t c (.sSet i), []) else none
      | .start (some k) _ g _, .sSet i => some ({ s.at t c (.sPrio i) with task := upd s.task i (some k), needs := upd s.needs i g.isSome }, [])
      | .start (some _) _ _ p, .sPrio i => some ({ s.at t c (.sGo i) with prio := upd s.prio i p }, [])
      | .start (some k) _ g p, .sGo i =>
        -- m_thread->start() is ignored if the thread is not finished
        if s.w i = .finished then
          some (((s.at t c (.sGuard i)).wAt i .pending).ownAt i (toOwn g), [.acc t i k g p, .lin t c .ok])
        else some (s.at t c (.sGuard i), [.lin t c .ok])
      | .start (some _) _ g _, .sGuard i => some ({ s.at t c (.ret .ok) with guard := setGuard s.guard g i }, [])
      -- WaitGuard::timedWait
      | .wait g _, .wEnter => match s.guard g with
        | none => some (s.at t c (.ret .ok), [.lin t c .ok])
        | some i => some (s.at t c (.wWait i), [])
      | .wait _ _, .wWait i => if s.ev i then some (s.at t c (.ret .ok), [.lin t c .ok]) else none
      -- WaitGuard::release
      | .release g, .rEnter => match s.guard g with
        | none => some (s.at t c (.ret .done), [.lin t c .done])
        | some i => some (s.at t c (.rWait i), [])
      | .release _, .rWait i => if s.ev i then some ((s.at t c (.rReset i)).ownAt i (.rel t), []) else none
      | .release _, .rReset i => some ((s.at t c (.rSend i)).evAt i false, [])
      | .release g, .rSend i =>
        if s.free.length < s.n then some ({ (s.at t c .rClear).ownAt i .free with free := s.free ++ [i] }, [.back i (some g), .lin t c .done]) else none
      | .release g, .rClear => some ({ s.at t c (.ret .done) with guard := upd s.guard g none }, [])
      | .isValid g, .vEnter => some (s.at t c (.ret (.valid (s.guard g).isSome)), [.lin t c (.valid (s.guard g).isSome)])
      -- destroy
      | .destroy, .dWait j =>
        if j < s.n then (if s.w j = .finished then some (s.at t c (.dWait (j + 1)), []) else none)
        else some (s.at t c .dDrain, [])
      | .destroy, .dDrain => match s.free with
        | i :: rest => if s.w i = .finished then some ({ (s.wAt i .dead).ownAt i .dead with free := rest }, [.kill i]) else none
        | [] => some ({ s.at t c (.ret .done) with gone := true }, [.lin t c .done])
      | c, .ret o => some ({ s with pc := upd s.pc t .idle, inside := s.inside.erase t }, [.ret t c o])
      | _, _ => none
  | .expire t =>
    match s.pc t with
    | .on c p =>
      match c, p with
      | .start (some _) tm _ _, .sRecv => if tm ≠ .forever then some (s.at t c (.ret .timedOut), [.lin t c .timedOut]) else none
      -- TP:194-197
      | .start (some _) tm _ _, .sWait i =>
        if tm ≠ .forever ∧ s.w i ≠ .finished then some ((s.at t c (.ret .timedOut)).ownAt i .lost, [.drop t i, .lin t c .timedOut]) else none
      | .wait _ tm, .wWait i => if tm ≠ .forever ∧ s.ev i = false then some (s.at t c (.ret .timedOut), [.lin t c .timedOut]) else none
      | _, _ => none
    | .idle => none
  | .pgo i =>
    match s.w i with
    | .finished => none
    -- TaskRunner::run, invoke (TP:252-273)
    | .pending => match s.task i with
      | some k => some (s.wAt i (.inTask k), [.begin i k (s.prio i)])
      | none => some (s.wAt i (.prio false), [])
    | .inTask k => some (s.wAt i (.prio false), [.ended i k false])
    -- afterInvoke (TP:275-294)
    | .prio x => some ({ s.wAt i (.branch x) with prio := upd s.prio i s.dflt }, [.reprio i s.dflt])
    | .branch x => some (s.wAt i (if s.needs i then .notify x else .reset x), [])
    | .notify x => some ((s.wAt i (.leave x)).evAt i true, [.note i])
    | .reset x => some ((s.wAt i (.send x)).evAt i false, [])
    | .send x => if s.free.length < s.n then some ({ (s.wAt i (.leave x)).ownAt i .free with free := s.free ++ [i] }, [.back i none]) else none
    -- the exception, if any, is thrown again (TP:261)
    | .leave x => some (s.wAt i .over, if x then [.uncaught i] else [])
    | .over => some (s.wAt i .finished, [.fin i])
    | .dead => none
  | .throw i =>
    match s.w i with
    | .inTask k => some (s.wAt i (.prio true), [.ended i k true])
    | _ => none

end Verif.TP
