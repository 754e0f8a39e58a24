import Verif.Spec.BList
/-
Independent specification of the cost of a container call: how many elements are constructed or assigned.
-/
namespace Verif.Spec
variable {V : Type}

/-- Making room for `n` elements by moving `m` elements and then filling the gap: a construction and an assignment per new element if
the gap lies inside the moved block, one of the two otherwise. -/
def gapCost (m n : Nat) : Nat := if n < m then 2 * n + m else n + m

/-- Elements constructed or assigned by a call that returns normally, on a vector of `z` elements: what lies behind the position moves. -/
def vecCost (z : Nat) : Op V → Nat
  | .pushBack _ => 1
  | .insert p _ => gapCost (z - p) 1
  | .insertN p n _ => gapCost (z - p) n
  | .insertInt p n _ => gapCost (z - p) n.toNat
  | .insertRange p src => gapCost (z - p) src.length
  | .erase p => z - (p + 1)
  | .eraseRange _ b => z - b
  | .resize n _ => n - z
  | .assignN n _ => n
  | .assignRange src => src.length
  | _ => 0

/-- How many elements of a deque of `z` elements move to open a gap at `p`: the ones behind it if `p` is in the back half, else the ones before it. -/
def shortSide (z p : Nat) : Nat := if z / 2 < p then z - p else p

/-- The same on a deque of `z` elements: only one side of the position moves. -/
def deqCost (z : Nat) : Op V → Nat
  | .pushBack _ | .pushFront _ => 1
  | .insert p _ => gapCost (shortSide z p) 1
  | .insertN p n _ => gapCost (shortSide z p) n
  | .insertInt p n _ => gapCost (shortSide z p) n.toNat
  | .insertRange p src => gapCost (shortSide z p) src.length
  | .erase p => min p (z - (p + 1))
  | .eraseRange a b => min a (z - b)
  | .resize n _ => n - z
  | .assignN n _ => n
  | .assignRange src => src.length
  | _ => 0

/-- Sum over a history of the costs of the calls that return normally. -/
def totalCost (cost : Nat → Op V → Nat) (cap : Nat) : List V → List (Op V) → Nat
  | _, [] => 0
  | xs, o :: os =>
    match apply cap xs o with
    | some (ys, .ret _) => cost xs.length o + totalCost cost cap ys os
    | some (ys, .threw _) => totalCost cost cap ys os
    | none => 0

end Verif.Spec
