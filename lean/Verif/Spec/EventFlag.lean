import Verif.Model.EventFlag
/-
Specification of an event flag as an atomic object (EventFlag.h): a set of bit positions `< w`, given as a `BitVec w`.
A history is a list of calls with their results, in the order in which they took effect.
-/
namespace Verif.EvF.Spec
open Verif Mtx EvF
variable {w : Nat}

/-- The wait condition on the set `σ` for the requested positions `req`. -/
def Cond (m : Mode) (req : Nat → Bool) (σ : BitVec w) : Prop :=
  match m with
  | .OR => ∃ i, i < w ∧ req i = true ∧ σ.getLsbD i = true
  | .AND => ∀ i, i < w → req i = true → σ.getLsbD i = true
  | .other _ => False

/-- A wait for the positions `req`.  `auto`: created with autoReset.  `os`: the platform may report an error of its own
(called from a non-thread context, ...), in which case nothing happens. -/
def Wait (auto os : Bool) (req : Nat → Bool) (m : Mode) (out : Bool) (tm : Tmo) (σ : BitVec w) (r : Res w) (σ' : BitVec w) : Prop :=
  if (m ≠ .OR ∧ m ≠ .AND) ∨ (∀ i, i < w → req i = false) then r = ⟨.InvalidParameter, none⟩ ∧ σ' = σ
  else
    (Cond m req σ ∧ r = ⟨.OK, if out then some σ else none⟩ ∧ σ' = if auto then 0 else σ) ∨
    (r = ⟨.TimedOut, none⟩ ∧ tm ≠ .forever ∧ σ' = σ ∧ ¬ Cond m req σ) ∨
    (os = true ∧ (r = ⟨.CalledByNonThread, none⟩ ∨ r = ⟨.OtherError, none⟩) ∧ σ' = σ)

/-- `σ'` is `σ` with the positions of `f` changed to `b`. -/
def Change (f : Nat → Bool) (b : Bool) (σ σ' : BitVec w) : Prop := ∀ i, i < w → σ'.getLsbD i = if f i then b else σ.getLsbD i

/-- One call: state before, result, state after. -/
def Legal (auto os : Bool) (σ : BitVec w) : Call w → Res w → BitVec w → Prop
  | .waitAny, r, σ' => Wait auto os (fun _ => true) .OR false .forever σ r σ'
  | .waitOne pos, r, σ' => Wait auto os (fun i => i == pos) .OR false .forever σ r σ'
  | .wait p m out, r, σ' => Wait auto os p.getLsbD m out .forever σ r σ'
  | .tryWaitAny, r, σ' => Wait auto os (fun _ => true) .OR false (.ms 0) σ r σ'
  | .tryWaitOne pos, r, σ' => Wait auto os (fun i => i == pos) .OR false (.ms 0) σ r σ'
  | .tryWait p m out, r, σ' => Wait auto os p.getLsbD m out (.ms 0) σ r σ'
  | .timedWaitAny tm, r, σ' => Wait auto os (fun _ => true) .OR false tm σ r σ'
  | .timedWaitOne pos tm, r, σ' => Wait auto os (fun i => i == pos) .OR false tm σ r σ'
  | .timedWait p m out tm, r, σ' => Wait auto os p.getLsbD m out tm σ r σ'
  | .setAll, r, σ' => r = ⟨.OK, none⟩ ∧ Change (fun _ => true) true σ σ'
  | .setOne pos, r, σ' => if pos < w then r = ⟨.OK, none⟩ ∧ Change (fun i => i == pos) true σ σ' else r = ⟨.InvalidParameter, none⟩ ∧ σ' = σ
  | .set p, r, σ' => r = ⟨.OK, none⟩ ∧ Change p.getLsbD true σ σ'
  | .resetAll, r, σ' => r = ⟨.OK, none⟩ ∧ Change (fun _ => true) false σ σ'
  | .resetOne pos, r, σ' => if pos < w then r = ⟨.OK, none⟩ ∧ Change (fun i => i == pos) false σ σ' else r = ⟨.InvalidParameter, none⟩ ∧ σ' = σ
  | .reset p, r, σ' => r = ⟨.OK, none⟩ ∧ Change p.getLsbD false σ σ'
  | .getCurrentPattern, r, σ' => r = ⟨.OK, some σ⟩ ∧ σ' = σ

/-- A whole history, from the empty set. -/
inductive Hist (auto os : Bool) : List (Call w × Res w) → BitVec w → Prop where
  | nil : Hist auto os [] 0
  | snoc {h σ c r σ'} : Hist auto os h σ → Legal auto os σ c r σ' → Hist auto os (h ++ [(c, r)]) σ'

/-- The calls of a trace in the order in which they took effect. -/
def effects (tr : List (Ev w)) : List (Call w × Res w) := tr.filterMap (fun | .lin _ c r => some (c, r) | _ => none)

/-- Where a thread is, judging by the trace: outside, inside a call that has not / has taken effect; `bad` if the trace is not
of the form (call, effect, return)*, with the returned result being that of the effect. -/
inductive Phase (w : Nat) where
  | out | called (c : Call w) | done (c : Call w) (r : Res w) | bad
  deriving DecidableEq, Repr

def Phase.next (t : Tid) (ph : Phase w) : Ev w → Phase w
  | .call u c => if u = t then (if ph = .out then .called c else .bad) else ph
  | .lin u c r => if u = t then (if ph = .called c then .done c r else .bad) else ph
  | .ret u c r => if u = t then (if ph = .done c r then .out else .bad) else ph

def phase (t : Tid) (tr : List (Ev w)) : Phase w := tr.foldl (Phase.next t) .out

/-- Linearizability: the effects form a legal history of the atomic event flag, and every call takes effect exactly once,
between its call and its return, with the result it returns. -/
def Linearizable (auto os : Bool) (tr : List (Ev w)) (σ : BitVec w) : Prop :=
  Hist auto os (effects tr) σ ∧ ∀ t, phase t tr ≠ .bad

end Verif.EvF.Spec
