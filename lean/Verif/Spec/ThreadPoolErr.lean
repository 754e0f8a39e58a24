import Verif.Model.ThreadPoolErr
/-
Specification of a thread pool whose operating system calls may fail: what a pool thread goes through, and what a trace says about a call.
-/
namespace Verif.TPE.Spec
open Verif
open _root_.Verif.Mtx (Tid Err)
open _root_.Verif.TP (Gid Rid Task Call Out Ev)

/-- The events of the pool, without the failures and the error returns. -/
def plain (tr : List XEv) : List Ev := tr.filterMap fun e => match e with
  | .ev e => some e
  | _ => none

/-- The life of a pool thread. -/
inductive XP where
  /-- finished, or never used -/
  | rest
  /-- a start accepted task `k` for it, with priority `p`; the task has not begun -/
  | accepted (k : Task) (p : Int)
  | running (k : Task)
  /-- the task is over; `x`: it threw -/
  | ended (x : Bool)
  /-- the priority is the default again; `x`: the exception is still to be dealt with -/
  | reset (x : Bool)
  | dead
  /-- anything else -/
  | bad
  deriving DecidableEq, Repr

/-- Effect of an event on pool thread `i` (of a pool whose default priority is `d`). -/
def XP.next (d : Int) (i : Rid) (r : XP) : Ev → XP
  | .acc _ j k _ p => if j = i then (if r = .rest then .accepted k p else .bad) else r
  | .begin j k p => if j = i then (if r = .accepted k p then .running k else .bad) else r
  | .ended j k x => if j = i then (if r = .running k then .ended x else .bad) else r
  | .reprio j p => if j = i then (match r with | .ended x => if p = d then .reset x else .bad | _ => .bad) else r
  | .uncaught j => if j = i then (if r = .reset true then .reset false else .bad) else r
  | .fin j => if j = i then (if r = .reset false then .rest else .bad) else r
  | .kill j => if j = i then (if r = .rest then .dead else .bad) else r
  | _ => r

def xphase (n : Nat) (d : Int) (i : Rid) (tr : List Ev) : XP := tr.foldl (XP.next d i) (if i < n then .rest else .dead)

/-- Calls, returns (with or without an error) and accepted tasks of client `t`. -/
def ofT (t : Tid) : XEv → Bool
  | .ev (.call u _) | .ev (.ret u _ _) | .ev (.acc u _ _ _ _) | .err u _ _ => u == t
  | _ => false

/-- `t` has called `c`, and nothing else of `t` has happened since. -/
def Called (t : Tid) (c : Call) (tr : List XEv) : Prop := ∃ a b, tr = a ++ .ev (.call t c) :: b ∧ ∀ x, x ∈ b → ofT t x = false

/-- `t` has called a start `c`, which has handed its task, once, with its guard and priority to pool thread `i`. -/
def Handed (t : Tid) (c : Call) (i : Rid) (tr : List XEv) : Prop := ∃ a b b' k tm g p, c = .start (some k) tm g p ∧
  tr = a ++ .ev (.call t c) :: (b ++ .ev (.acc t i k g p) :: b') ∧ (∀ x, x ∈ b → ofT t x = false) ∧ ∀ x, x ∈ b' → ofT t x = false

/-- The last error of something `t` has called in its current call. -/
def failing (t : Tid) (tr : List XEv) : Option Err := tr.foldl (fun r x => match x with
  | .ev (.call u _) => if u = t then none else r
  | .failed u _ e => if u = t then some e else r
  | _ => r) none

/-- Something has failed. -/
def isFail : XEv → Bool
  | .failed _ _ _ | .pfailed _ _ => true
  | _ => false

/-- Something has failed whose result is ignored: in a release or destroy, or on a pool thread. -/
def isSilent : XEv → Bool
  | .failed _ (.release _) _ | .failed _ .destroy _ | .pfailed _ _ => true
  | _ => false

/-- A thread is given up: by a client that held it, or by itself when it could not go back to the queue. -/
def loses (i : Rid) : XEv → Bool
  | .ev (.drop _ j) => j == i
  | .pfailed j _ => j == i
  | _ => false

end Verif.TPE.Spec
