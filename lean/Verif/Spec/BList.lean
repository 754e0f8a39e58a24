import Verif.Sem.Cmd
/-
Independent specification of the sequence containers: a list of at most `cap` elements.
Nothing here refers to the model of the code.
-/
namespace Verif.Spec
open Verif

/-- Public calls on a sequence container.  Positions are offsets from `begin()`;
value arguments are objects outside the container. -/
inductive Op (V : Type) where
  | pushBack (v : V) | popBack
  | pushFront (v : V) | popFront                  -- deques only
  | insert (p : Nat) (v : V)
  | insertN (p n : Nat) (v : V)
  | insertInt (p : Nat) (n : Int) (v : V)         -- insert(pos, n, v) called with integer types
  | insertRange (p : Nat) (src : List V)
  | erase (p : Nat)
  | eraseRange (a b : Nat)
  | resize (n : Nat) (v : V)
  | assignN (n : Nat) (v : V)
  | assignRange (src : List V)
  | clear
  | at_ (i : Nat) | index (i : Nat) | front | back
  | size | empty | full | availableSize | maxSize
  deriving DecidableEq, Repr

/-- Calls a vector has. -/
def Op.onVector {V : Type} : Op V → Bool
  | .pushFront _ | .popFront => false
  | _ => true

/-- Returned value of a call. -/
inductive Ret (V : Type) where
  | unit | val (v : V) | num (n : Nat) | flag (b : Bool)
  | pos (p : Nat)    -- an iterator, given by the position it designates in the resulting sequence
  deriving DecidableEq, Repr

/-- What the caller sees: a returned value or an exception. -/
inductive Res (V : Type) where
  | ret (r : Ret V) | threw (e : Exn)
  deriving DecidableEq, Repr

variable {V : Type}

/-- A growing call either fits and yields `ys`, or throws `BadAlloc` and changes nothing. -/
def grow (cap : Nat) (xs ys : List V) (r : Ret V) : List V × Res V :=
  if ys.length ≤ cap then (ys, .ret r) else (xs, .threw .badAlloc)

/-- `xs` with `ys` inserted before position `p`. -/
def ins (xs : List V) (p : Nat) (ys : List V) : List V := xs.take p ++ ys ++ xs.drop p

/-- The effect of one call on a list of at most `cap` elements; `none` = the call is out of contract. -/
def apply (cap : Nat) (xs : List V) : Op V → Option (List V × Res V)
  | .pushBack v => some (grow cap xs (xs ++ [v]) .unit)
  | .pushFront v => some (grow cap xs (v :: xs) .unit)
  | .popBack => if xs = [] then none else some (xs.dropLast, .ret .unit)
  | .popFront => if xs = [] then none else some (xs.tail, .ret .unit)
  | .insert p v => if p ≤ xs.length then some (grow cap xs (ins xs p [v]) (.pos p)) else none
  | .insertN p n v => if p ≤ xs.length then some (grow cap xs (ins xs p (List.replicate n v)) .unit) else none
  | .insertInt p n v =>
      if p ≤ xs.length then
        some (if n < 0 then (xs, .threw .badAlloc) else grow cap xs (ins xs p (List.replicate n.toNat v)) .unit)
      else none
  | .insertRange p src => if p ≤ xs.length then some (grow cap xs (ins xs p src) .unit) else none
  | .erase p => if p < xs.length then some (xs.take p ++ xs.drop (p+1), .ret (.pos p)) else none
  | .eraseRange a b => if a < b ∧ b ≤ xs.length then some (xs.take a ++ xs.drop b, .ret (.pos a)) else none
  | .resize n v => some (grow cap xs (xs.take n ++ List.replicate (n - xs.length) v) .unit)
  | .assignN n v => some (grow cap xs (List.replicate n v) .unit)
  | .assignRange src => some (grow cap xs src .unit)
  | .clear => some ([], .ret .unit)
  | .at_ i => some (xs, match xs[i]? with | some v => .ret (.val v) | none => .threw .outOfRange)
  | .index i => xs[i]?.map (fun v => (xs, .ret (.val v)))
  | .front => xs.head?.map (fun v => (xs, .ret (.val v)))
  | .back => xs.getLast?.map (fun v => (xs, .ret (.val v)))
  | .size => some (xs, .ret (.num xs.length))
  | .empty => some (xs, .ret (.flag (xs.length = 0)))
  | .full => some (xs, .ret (.flag (xs.length = cap)))
  | .availableSize => some (xs, .ret (.num (cap - xs.length)))
  | .maxSize => some (xs, .ret (.num cap))

/-- A whole history of calls (the caller catches exceptions and goes on). -/
def applyAll (cap : Nat) : List V → List (Op V) → Option (List V × List (Res V))
  | xs, [] => some (xs, [])
  | xs, o :: os => do
    let (ys, r) ← apply cap xs o
    let (zs, rs) ← applyAll cap ys os
    pure (zs, r :: rs)

/-- The numeric arguments of a call are representable: counts in `size_t` (`M` values), the integer
count of the dispatching `insert` in `ptrdiff_t` or `size_t`, and a source range has fewer than `M` elements. -/
def Op.representable (M : Nat) : Op V → Prop
  | .insertN _ n _ | .resize n _ | .assignN n _ => n < M
  | .insertInt _ n _ => -(M : Int) ≤ 2 * n ∧ n < M
  | .insertRange _ src | .assignRange src => src.length < M
  | _ => True

/-- Number of leading elements a call promises to leave alone. -/
def Op.kept (xs : List V) : Op V → Nat
  | .insert p _ | .insertN p _ _ | .insertInt p _ _ | .insertRange p _ | .erase p | .eraseRange p _ => p
  | .pushBack _ | .resize _ _ => xs.length
  | _ => 0

end Verif.Spec
