import Verif.Spec.BList
/-
Specification of element access through references and iterators: a path designates a list position,
reading yields the element there, assigning replaces it.  Nothing here refers to the model of the code.
-/
namespace Verif.Spec
open Verif

/-- Expressions that yield a `T&`. -/
inductive Path where
  | index (i : Nat)        -- `c[i]`
  | at_ (i : Nat)          -- `c.at(i)`
  | front | back
  | fromBegin (i : Nat)    -- `*(c.begin() + i)`, `c.begin()[i]`, for a vector also `c.data()[i]`
  | fromEnd (i : Nat)      -- `*(c.end() - i)`
  | fromRBegin (i : Nat)   -- `*(c.rbegin() + i)`
  | fromREnd (i : Nat)     -- `*(c.rend() - i)`
  deriving DecidableEq, Repr

/-- The list position a path designates in a sequence of `n` elements; `none` = no element. -/
def Path.pos (n : Nat) : Path → Option Nat
  | .index i | .at_ i | .fromBegin i => if i < n then some i else none
  | .front => if 0 < n then some 0 else none
  | .back => if 0 < n then some (n - 1) else none
  | .fromEnd i => if 0 < i ∧ i ≤ n then some (n - i) else none
  | .fromRBegin i => if i < n then some (n - 1 - i) else none
  | .fromREnd i => if 0 < i ∧ i ≤ n then some (i - 1) else none

/-- The path is `at`, which checks. -/
def Path.checked : Path → Bool
  | .at_ _ => true
  | _ => false

/-- Evaluating a path: a position, the exception of `at`, or (`none`) out of contract. -/
inductive Target where
  | elem (i : Nat) | outOfRange | undefined
  deriving DecidableEq, Repr

def Path.target (n : Nat) (p : Path) : Target :=
  match p.pos n with
  | some i => .elem i
  | none => if p.checked then .outOfRange else .undefined

/-- What a user does with a container: calls, reads, writes, copies between its own elements. -/
inductive XOp (V : Type) where
  | call (o : Op V)
  | read (p : Path)             -- `x = path`
  | write (p : Path) (v : V)    -- `path = v`
  | copy (p q : Path)           -- `path = path'`, both in this container
  deriving DecidableEq, Repr

variable {V : Type}

/-- Effect on the list; `none` = out of contract. -/
def xapply (cap : Nat) (xs : List V) : XOp V → Option (List V × Res V)
  | .call o => apply cap xs o
  | .read p =>
    match p.target xs.length with
    | .elem i => xs[i]?.map (fun v => (xs, .ret (.val v)))
    | .outOfRange => some (xs, .threw .outOfRange)
    | .undefined => none
  | .write p v =>
    match p.target xs.length with
    | .elem i => some (xs.set i v, .ret .unit)
    | .outOfRange => some (xs, .threw .outOfRange)
    | .undefined => none
  | .copy p q =>
    match p.target xs.length, q.target xs.length with
    | .elem i, .elem j => xs[j]?.map (fun v => (xs.set i v, .ret .unit))
    | .undefined, _ => none
    | _, .undefined => none
    | _, _ => some (xs, .threw .outOfRange)

def xapplyAll (cap : Nat) : List V → List (XOp V) → Option (List V × List (Res V))
  | xs, [] => some (xs, [])
  | xs, o :: os => do
    let (ys, r) ← xapply cap xs o
    let (zs, rs) ← xapplyAll cap ys os
    pure (zs, r :: rs)

end Verif.Spec
