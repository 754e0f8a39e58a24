import Verif.Model.Deque
/-
Deque iterators as the pair the class really stores, `m_deq` and `m_idx` (FD = FixedDeque.h:22-180; PD has the same
text), in a world of several deque objects.  `Model/Deque.lean` works with the bare index of iterators that belong to
the deque; this file adds the owner and its assertions, and the member functions taking iterators.
-/
namespace Verif.Deq
open Verif Cmd
variable {V α : Type}

/-- All deque objects, by address. -/
abbrev World (V : Type) := Nat → St V

/-- FD:177-178: `m_deq` (`none` = null pointer) and `m_idx`. -/
structure It where
  deq : Option Nat
  idx : Nat
  deriving DecidableEq, Repr

/-- Run a member function on the object `d`. -/
def on (d : Nat) (m : Cmd (St V) α) : Cmd (World V) α := fun w =>
  match m (w d) with
  | .ok a s => .ok a (fun k => if k = d then s else w k)
  | .exn e s => .exn e (fun k => if k = d then s else w k)
  | .ub f => .ub f
  | .diverge => .diverge

/-- `DEBUG_ASSERT(c)` (Assertion.h:32-40) where evaluating `c` may itself fail; not evaluated at all under NDEBUG. -/
def wassert (E : Env V) (c : Cmd (World V) Bool) : Cmd (World V) Unit :=
  if E.dbg then do
    let b ← c
    if b then pure () else throw .assertFail
  else pure ()

/-- `m_deq->…`: undefined if `m_deq` is null. -/
def owner (x : It) : Cmd (World V) Nat :=
  match x.deq with
  | some d => pure d
  | none => fault .nullDeref

/-- FD:37 default constructor. -/
def itNull : It := ⟨none, 0⟩
/-- FD:332-350 `begin()`. -/
def itBegin (d : Nat) : Cmd (World V) It := gets (fun w => ⟨some d, (w d).b⟩)
/-- FD:332-350 `end()`. -/
def itEnd (d : Nat) : Cmd (World V) It := gets (fun w => ⟨some d, (w d).e⟩)

/-- FD:48-64 `operator+=`, `operator+`. -/
def xAdd (E : Env V) (x : It) (n : Int) : Cmd (World V) It := do
  wassert E (pure (decide (x.deq ≠ none)))
  let d ← owner x
  gets (fun w => ⟨some d, itAdd E.M (w d).nbuf x.idx n⟩)
/-- FD:66-76, 88-92 `operator-=`, `operator-`. -/
def xSub (E : Env V) (x : It) (n : Int) : Cmd (World V) It := do
  wassert E (pure (decide (x.deq ≠ none)))
  let d ← owner x
  gets (fun w => ⟨some d, itSub E.M (w d).nbuf x.idx n⟩)
/-- FD:145-152 `operator<`. -/
def xLt (E : Env V) (x y : It) : Cmd (World V) Bool := do
  wassert E (pure (decide (x.deq ≠ none)))
  wassert E (pure (decide (x.deq = y.deq)))
  let d ← owner x
  let d' ← owner y
  gets (fun w => decide (distIdx E.M (w d).nbuf (w d).b x.idx < distIdx E.M (w d).nbuf (w d').b y.idx))
/-- FD:154-157 `operator>`. -/
def xGt (E : Env V) (x y : It) : Cmd (World V) Bool := xLt E y x
/-- FD:159-162 `operator<=`. -/
def xLe (E : Env V) (x y : It) : Cmd (World V) Bool := do
  let b ← xLt E y x
  pure (!b)
/-- FD:164-167 `operator>=`. -/
def xGe (E : Env V) (x y : It) : Cmd (World V) Bool := do
  let b ← xLt E x y
  pure (!b)
/-- FD:135-143 `operator==` (`!=` is its negation). -/
def xEq (x y : It) : Bool := x.deq == y.deq && x.idx == y.idx
/-- FD:78-86 `operator-` of two iterators. -/
def xDiff (E : Env V) (x y : It) : Cmd (World V) Int := do
  wassert E (pure (decide (x.deq ≠ none)))
  wassert E (pure (decide (x.deq = y.deq)))
  let ge ← xGe E x y
  let d ← owner x
  if ge then gets (fun w => toDiff E.M (distIdx E.M (w d).nbuf y.idx x.idx))
  else gets (fun w => - toDiff E.M (distIdx E.M (w d).nbuf x.idx y.idx))
/-- FD:118-128 `operator*`, `operator->` followed by a read. -/
def xRead (E : Env V) (x : It) : Cmd (World V) V := do
  wassert E (pure (decide (x.deq ≠ none)))
  let d ← owner x
  on d (readSlot x.idx)
/-- FD:130-133 `operator[]` followed by a read. -/
def xIndex (E : Env V) (x : It) (n : Int) : Cmd (World V) V := do
  let y ← xAdd E x n
  xRead E y

/-- The test `(begin() <= a) && cmp(a, end())` of FD:474, 480, 487, 494, 501, 502. -/
def within (E : Env V) (d : Nat) (a : It) (cmp : It → It → Cmd (World V) Bool) : Cmd (World V) Bool := do
  let b ← itBegin d
  let l ← xLe E b a
  if l then do
    let e ← itEnd d
    cmp a e
  else pure false

/-- FD:472-476 `insert(pos, data)`. After the assertion the body is that of `Model/Deque.lean`, on the index
(the release build with a position of another deque is not modelled beyond that). -/
def xInsert (E : Env V) (d : Nat) (pos : It) (r : Ref V) : Cmd (World V) It := do
  wassert E (within E d pos (xLe E))
  let i ← on d (insertN_ E pos.idx 1 r)
  pure ⟨some d, i⟩
/-- FD:478-482 `insert(pos, n, data)`. -/
def xInsertN (E : Env V) (d : Nat) (pos : It) (n : Nat) (r : Ref V) : Cmd (World V) Unit := do
  wassert E (within E d pos (xLe E))
  let _ ← on d (insertN_ E pos.idx n r)
  pure ()
/-- FD:484-490, 564-568 `insert(pos, first, last)`. -/
def xInsertRange (E : Env V) (d : Nat) (pos : It) (src : List V) : Cmd (World V) Unit := do
  wassert E (within E d pos (xLe E))
  on d (insertRange_ E pos.idx src)
/-- The body of `erase(first, last)` after its assertions, FD:503-522 (the release build). -/
def eraseBody (E : Env V) (first last : Nat) : Cmd (St V) Nat := eraseRange { E with dbg := false } first last
/-- FD:498-522 `erase(first, last)`. -/
def xEraseRange (E : Env V) (d : Nat) (first last : It) : Cmd (World V) It := do
  wassert E (xLt E first last)
  wassert E (within E d first (xLt E))
  wassert E (within E d last (xLe E))
  let i ← on d (eraseBody E first.idx last.idx)
  pure ⟨some d, i⟩
/-- FD:492-496 `erase(pos)`. -/
def xErase (E : Env V) (d : Nat) (pos : It) : Cmd (World V) It := do
  wassert E (within E d pos (xLt E))
  let nx ← xAdd E pos 1
  xEraseRange E d pos nx

end Verif.Deq
