import Verif.Sem.Mem
/-
Independent specification of intrusive lists: a family of lists, each named by an identifier, whose members are
elements of a common pool; an element is in at most one list.  Nothing here refers to the model of the code.
-/
namespace Verif.Spec.IList
open Verif

/-- The sequence of each list. -/
abbrev Fam := Nat → List Nat

/-- `d` is an element that is in none of the lists. -/
def unlinked (T : List Nat) (F : Fam) (d : Nat) : Prop := d ≠ 0 ∧ ∀ u ∈ T, d ≠ u ∧ d ∉ F u
instance (T : List Nat) (F : Fam) (d : Nat) : Decidable (unlinked T F d) := by unfold unlinked; infer_instance

/-- Calls; `t`, `x` name lists, `k`, `a`, `b` are positions (offsets from `begin()`, the length being `end()`). -/
inductive Op where
  | pushBack (t d : Nat) | pushFront (t d : Nat) | popBack (t : Nat) | popFront (t : Nat)
  | insert (t k d : Nat) | erase (t k : Nat)
  | spliceAll (t k x : Nat) | spliceOne (t k x i : Nat) | spliceRange (t k x a b : Nat)
  | swap (t x tmp : Nat)                       -- `tmp` is the address of the local list object inside `swap`
  | front (t : Nat) | back (t : Nat) | size (t : Nat) | empty (t : Nat)
  | forward (t : Nat) | backward (t : Nat)     -- the elements visited by a full traversal
  deriving DecidableEq, Repr

/-- Results; an iterator is given by the element it designates, `end()` of list `t` by `t`. -/
inductive Ret where
  | unit | elem (n : Nat) | num (n : Nat) | flag (b : Bool) | elems (l : List Nat)
  deriving DecidableEq, Repr

/-- Element at position `k` of list `t`; `t` itself stands for `end()`. -/
def elemAt (F : Fam) (t k : Nat) : Nat := ((F t)[k]?).getD t

/-- Move positions `[a,b)` of list `x` in front of position `k` of list `t` (`k` counted before the move). -/
def move (F : Fam) (t k x a b : Nat) : Fam :=
  let range := ((F x).take b).drop a
  let F' := upd F x ((F x).take a ++ (F x).drop b)
  let k' := if t = x ∧ b ≤ k then k - (b - a) else k
  upd F' t ((F' t).take k' ++ range ++ (F' t).drop k')

/-- Effect and result of a call; `none` = out of contract. `T` are the existing lists. -/
def apply (T : List Nat) (F : Fam) : Op → Option (Fam × Ret)
  | .pushBack t d => if t ∈ T ∧ unlinked T F d then some (upd F t (F t ++ [d]), .unit) else none
  | .pushFront t d => if t ∈ T ∧ unlinked T F d then some (upd F t (d :: F t), .unit) else none
  | .popBack t => if t ∈ T ∧ F t ≠ [] then some (upd F t (F t).dropLast, .unit) else none
  | .popFront t => if t ∈ T ∧ F t ≠ [] then some (upd F t (F t).tail, .unit) else none
  | .insert t k d => if t ∈ T ∧ k ≤ (F t).length ∧ unlinked T F d then
      some (upd F t ((F t).take k ++ d :: (F t).drop k), .elem d) else none
  | .erase t k => if t ∈ T ∧ k < (F t).length then
      some (upd F t ((F t).take k ++ (F t).drop (k+1)), .elem (elemAt F t (k+1))) else none
  | .spliceAll t k x => if t ∈ T ∧ x ∈ T ∧ t ≠ x ∧ k ≤ (F t).length then
      some (move F t k x 0 (F x).length, .unit) else none
  | .spliceOne t k x i => if t ∈ T ∧ x ∈ T ∧ k ≤ (F t).length ∧ i < (F x).length then
      some (move F t k x i (i+1), .unit) else none
  | .spliceRange t k x a b =>
      if t ∈ T ∧ x ∈ T ∧ k ≤ (F t).length ∧ a ≤ b ∧ b ≤ (F x).length ∧ a < (F x).length ∧ ¬ (t = x ∧ a ≤ k ∧ k < b) then
        some (move F t k x a b, .unit) else none
  | .swap t x tmp => if t ∈ T ∧ x ∈ T ∧ unlinked T F tmp then some (upd (upd F t (F x)) x (F t), .unit) else none
  | .front t => if t ∈ T then (F t).head?.map (fun n => (F, .elem n)) else none
  | .back t => if t ∈ T then (F t).getLast?.map (fun n => (F, .elem n)) else none
  | .size t => if t ∈ T then some (F, .num (F t).length) else none
  | .empty t => if t ∈ T then some (F, .flag (F t = [])) else none
  | .forward t => if t ∈ T then some (F, .elems (F t)) else none
  | .backward t => if t ∈ T then some (F, .elems (F t).reverse) else none

/-- A history of calls. -/
def applyAll (T : List Nat) : Fam → List Op → Option (Fam × List Ret)
  | F, [] => some (F, [])
  | F, o :: os => do
    let (G, r) ← apply T F o
    let (H, rs) ← applyAll T G os
    pure (H, r :: rs)

/-- The lists a call involves. -/
def involved : Op → List Nat
  | .pushBack t _ | .pushFront t _ | .popBack t | .popFront t | .insert t _ _ | .erase t _ => [t]
  | .spliceAll t _ x | .spliceOne t _ x _ | .spliceRange t _ x _ _ | .swap t x _ => [t, x]
  | .front t | .back t | .size t | .empty t | .forward t | .backward t => [t]

/-- The element a call links in, if any. -/
def newElem : Op → List Nat
  | .pushBack _ d | .pushFront _ d | .insert _ _ d => [d]
  | _ => []

/-- Storage local to a call. -/
def scratch : Op → List Nat
  | .swap _ _ tmp => [tmp]
  | _ => []

end Verif.Spec.IList
