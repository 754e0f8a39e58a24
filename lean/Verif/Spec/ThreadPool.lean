import Verif.Model.ThreadPool
import Verif.Sem.Proto
/-
Specification of a thread pool: what each pool thread and each WaitGuard goes through, judging by the trace alone.
-/
namespace Verif.TP.Spec
open Verif TP
open _root_.Verif.Mtx (Tid)
open _root_.Verif.EvF (Tmo)

/-- The life of a pool thread. -/
inductive RP where
  /-- available, or about to be -/
  | rest
  /-- a start accepted task `k` for it, with guard `g` and priority `p`; the task has not begun -/
  | accepted (k : Task) (g : Option Gid) (p : Int)
  | running (k : Task) (g : Option Gid)
  /-- the task is over; `x`: it threw -/
  | ended (g : Option Gid) (x : Bool)
  /-- the priority is the default again -/
  | reset (g : Option Gid) (x : Bool)
  /-- the guard has been notified, or (no guard) the thread is in the queue again; `x`: the exception is still to be dealt with -/
  | told (x : Bool)
  | dead
  /-- anything else -/
  | bad
  deriving DecidableEq, Repr

/-- Effect of an event on pool thread `i` (of a pool whose default priority is `d`). -/
def RP.next (d : Int) (i : Rid) (r : RP) : Ev → RP
  | .acc _ j k g p => if j = i then (if r = .rest then .accepted k g p else .bad) else r
  | .begin j k p => if j = i then (match r with | .accepted k' g p' => if k = k' ∧ p = p' then .running k g else .bad | _ => .bad) else r
  | .ended j k x => if j = i then (match r with | .running k' g => if k = k' then .ended g x else .bad | _ => .bad) else r
  | .reprio j p => if j = i then (match r with | .ended g x => if p = d then .reset g x else .bad | _ => .bad) else r
  | .note j => if j = i then (match r with | .reset (some _) x => .told x | _ => .bad) else r
  | .back j none => if j = i then (match r with | .reset none x => .told x | _ => .bad) else r
  | .uncaught j => if j = i then (if r = .told true then .told false else .bad) else r
  | .fin j => if j = i then (if r = .told false then .rest else .bad) else r
  | .kill j => if j = i then (if r = .rest then .dead else .bad) else r
  | _ => r

def rphase (n : Nat) (d : Int) (i : Rid) (tr : List Ev) : RP := tr.foldl (RP.next d i) (if i < n then .rest else .dead)

/-- The life of a WaitGuard. -/
inductive GP where
  /-- not valid -/
  | free
  /-- its task, on pool thread `i`, is not over -/
  | busy (i : Rid)
  /-- its task is over -/
  | over (i : Rid)
  | bad
  deriving DecidableEq, Repr

def GP.next (g : Gid) (r : GP) : Ev → GP
  | .acc _ i _ (some g') _ => if g' = g then (if r = .free then .busy i else .bad) else r
  | .ended i _ _ => if r = .busy i then .over i else r
  | .back i (some g') => if g' = g then (if r = .over i then .free else .bad) else r
  | _ => r

def gphase (g : Gid) (tr : List Ev) : GP := tr.foldl (GP.next g) .free

/-- The same, with the notification. -/
inductive GN where
  | free
  | busy (i : Rid)
  | over (i : Rid)
  /-- its task is over and it has been notified -/
  | told (i : Rid)
  | bad
  deriving DecidableEq, Repr

def GN.next (g : Gid) (r : GN) : Ev → GN
  | .acc _ i _ (some g') _ => if g' = g then (if r = .free then .busy i else .bad) else r
  | .ended i _ _ => if r = .busy i then .over i else r
  | .note i => if r = .over i then .told i else if r = .busy i ∨ r = .told i then .bad else r
  | .back i (some g') => if g' = g then (if r = .told i then .free else .bad) else r
  | _ => r

def gnote (g : Gid) (tr : List Ev) : GN := tr.foldl (GN.next g) .free

/-- Calls, effects and returns (`Verif/Sem/Proto.lean`). -/
def view : Ev → Option (Proto.PEv Tid Call Out)
  | .call t c => some (.call t c)
  | .lin t c o => some (.lin t c o)
  | .ret t c o => some (.ret t c o)
  | _ => none

abbrev phase (t : Tid) (tr : List Ev) : Proto.Phase Call Out := Proto.phase view t tr

/-! What a pool thread does, as a list of events. -/

/-- One task on pool thread `i`: accepted by a start of client `t` (task `k`, guard `g`, priority `p`); `x`: it throws. -/
structure Round where
  t : Tid
  k : Task
  g : Option Gid
  p : Int
  x : Bool
  deriving DecidableEq, Repr

/-- What happens on pool thread `i` for a task: it is accepted, begun with its priority, ended; the priority is reset to the default; the guard is
notified or, without one, the thread is available again; the exception, if any, is handed on; the thread is finished. -/
def Round.events (d : Int) (i : Rid) (r : Round) : List Ev :=
  [.acc r.t i r.k r.g r.p, .begin i r.k r.p, .ended i r.k r.x, .reprio i d, if r.g.isSome then .note i else .back i none] ++
    (if r.x then [.uncaught i] else []) ++ [.fin i]

/-- The events that concern pool thread `i` (but for its release by a guard). -/
def about (i : Rid) : Ev → Bool
  | .acc _ j _ _ _ | .begin j _ _ | .ended j _ _ | .reprio j _ | .note j | .back j none | .uncaught j | .fin j | .kill j => j == i
  | _ => false

/-- The life of a client's start calls. -/
inductive CP where
  | out
  | called (c : Call)
  /-- the task has been handed to pool thread `i` -/
  | got (c : Call) (i : Rid)
  | done (c : Call) (o : Out)
  | bad
  deriving DecidableEq, Repr

def isStart : Call → Bool
  | .start .. => true
  | _ => false

/-- The results a call can have. -/
def Results : Call → Out → Prop
  | .start none _ _ _, o => o = .invalidParameter
  | .start (some _) tm _ _, o => o = .ok ∨ o = .timedOut ∧ tm ≠ .forever
  | .wait _ tm, o => o = .ok ∨ o = .timedOut ∧ tm ≠ .forever
  | .release _, o => o = .done
  | .isValid _, o => ∃ b, o = .valid b
  | .destroy, o => o = .done

def CP.next (t : Tid) (r : CP) : Ev → CP
  | .call u c => if u = t then (if r = .out then .called c else .bad) else r
  | .acc u i k g p => if u = t then (match r with | .called (.start k' tm g' p') => if k' = some k ∧ g' = g ∧ p' = p then .got (.start k' tm g' p') i else .bad | _ => .bad) else r
  | .lin u c o => if u = t then (match r with
      | .called c' => if c = c' ∧ ¬ (isStart c = true ∧ o = .ok) then .done c o else .bad
      | .got c' _ => if c = c' ∧ o = .ok then .done c o else .bad
      | _ => .bad) else r
  | .ret u c o => if u = t then (if r = .done c o then .out else .bad) else r
  | _ => r

def cphase (t : Tid) (tr : List Ev) : CP := tr.foldl (CP.next t) .out

end Verif.TP.Spec
