import Verif.Model.MessageQueue
/-
Specification of a bounded FIFO queue as an atomic object with capacity `cap`; the state is the list of messages, oldest first.
-/
namespace Verif.MQ.Spec
open Verif MQ
open _root_.Verif.Mtx (Tid Err)
open _root_.Verif.EvF (Tmo)
variable {V : Type}

/-- An error of the platform, or an exception while copying the message. -/
def Failed (r : Res V) : Prop := r = .done .OtherError none ∨ r = .done .CalledByNonThread none ∨ r = .failure

/-- Sending `v`. -/
def Snd (cap : Nat) (v : V) (tm : Tmo) (q : List V) (r : Res V) (q' : List V) : Prop :=
  (r = .done .OK none ∧ q.length < cap ∧ q' = q ++ [v]) ∨
  (r = .done .TimedOut none ∧ tm ≠ .forever ∧ q' = q) ∨
  (Failed r ∧ q' = q)

/-- Receiving; `out`: the caller wants the message. -/
def Rcv (out : Bool) (tm : Tmo) (q : List V) (r : Res V) (q' : List V) : Prop :=
  (∃ v, q = v :: q' ∧ r = .done .OK (if out then some v else none)) ∨
  (r = .done .TimedOut none ∧ tm ≠ .forever ∧ q' = q) ∨
  (Failed r ∧ q' = q)

/-- What happens to the queue: a call takes effect, or a caller finds the queue full or empty. -/
inductive Eff (V : Type) where
  | op (c : Call V) (r : Res V)
  | sawFull | sawEmpty
  deriving DecidableEq, Repr

def Legal (cap : Nat) (q : List V) : Eff V → List V → Prop
  | .op (.send v) r, q' => Snd cap v .forever q r q'
  | .op (.trySend v) r, q' => Snd cap v (.ms 0) q r q'
  | .op (.timedSend v tm) r, q' => Snd cap v tm q r q'
  | .op (.receive out) r, q' => Rcv out .forever q r q'
  | .op (.tryReceive out) r, q' => Rcv out (.ms 0) q r q'
  | .op (.timedReceive out tm) r, q' => Rcv out tm q r q'
  | .op .getSize r, q' => r = .num q.length ∧ q' = q
  | .op .getMaxSize r, q' => r = .num cap ∧ q' = q
  | .sawFull, q' => q.length = cap ∧ q' = q
  | .sawEmpty, q' => q = [] ∧ q' = q

/-- A history, from the empty queue. -/
inductive Hist (cap : Nat) : List (Eff V) → List V → Prop where
  | nil : Hist cap [] []
  | snoc {h q x q'} : Hist cap h q → Legal cap q x q' → Hist cap (h ++ [x]) q'

def effects (tr : List (Ev V)) : List (Eff V) :=
  tr.filterMap (fun | .lin _ c r => some (.op c r) | .sawFull _ => some .sawFull | .sawEmpty _ => some .sawEmpty | _ => none)

def isSend : Call V → Bool
  | .send _ | .trySend _ | .timedSend _ _ => true
  | _ => false
def isRecv : Call V → Bool
  | .receive _ | .tryReceive _ | .timedReceive _ _ => true
  | _ => false

/-- Where a thread is, judging by the trace.  `why`: during this call a reason for giving up was met (another call held the lock,
or the queue was full for a send / empty for a receive).  `bad`: the trace is not a sequence of (call, effect, return) with the
returned result being that of the effect and TimedOut only for a reason. -/
inductive Phase (V : Type) where
  | out | called (c : Call V) (why : Bool) | done (c : Call V) (r : Res V) | bad
  deriving DecidableEq, Repr

variable [DecidableEq V]

def Phase.next (t : Tid) (ph : Phase V) : Ev V → Phase V
  | .call u c => if u = t then (match ph with | .out => .called c false | _ => .bad) else ph
  | .busy u => if u = t then (match ph with | .called c _ => .called c true | _ => .bad) else ph
  | .sawFull u => if u = t then (match ph with | .called c _ => if isSend c then .called c true else .bad | _ => .bad) else ph
  | .sawEmpty u => if u = t then (match ph with | .called c _ => if isRecv c then .called c true else .bad | _ => .bad) else ph
  | .lin u c r => if u = t then
      (match ph with
       | .called c' why => if c' = c ∧ (r = .done .TimedOut none → why = true) then .done c r else .bad
       | _ => .bad) else ph
  | .ret u c r => if u = t then (if ph = .done c r then .out else .bad) else ph

def phase (t : Tid) (tr : List (Ev V)) : Phase V := tr.foldl (Phase.next t) .out

/-- Linearizability with respect to the atomic queue. -/
def Linearizable (cap : Nat) (tr : List (Ev V)) (q : List V) : Prop :=
  Hist cap (effects tr) q ∧ ∀ t, phase t tr ≠ .bad

end Verif.MQ.Spec
