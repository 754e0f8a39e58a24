import Verif.Model.Vector
/-
Model of `Array<T, Size>` (mechanism/Container/Array.h).  All `Size` elements are alive from construction to
destruction, so a state is storage with `nbuf = Size` live slots (`b`, `e` are unused).  Iterators are `T*`,
given by their slot index.  `Size = 0` is not valid C++ (zero-length array member).
-/
namespace Verif.Arr
open Verif Cmd
variable {V : Type}

/-- Array.h:37-40 `size()`. -/
def size (s : St V) : Nat := s.nbuf
/-- Array.h:42-45 `max_size()`. -/
def maxSize (s : St V) : Nat := size s
/-- Array.h:47-50 `empty()`. -/
def empty (s : St V) : Bool := size s == 0
/-- Array.h:52-60 `operator[]`. -/
def index (i : Nat) : Cmd (St V) V := readSlot i
/-- Array.h:62-76 `at`. -/
def at_ (i : Nat) : Cmd (St V) V := do
  let n ← gets size
  if i ≥ n then throw .outOfRange else readSlot i
/-- Array.h:127-135 `front`. -/
def front : Cmd (St V) V := readSlot 0
/-- Array.h:137-145 `back`: `*(end() - 1)`; for `Size = 0` the pointer would be out of bounds. -/
def back : Cmd (St V) V := do
  let n ← gets size
  if n = 0 then Cmd.fault .outOfBounds else readSlot (n - 1)
/-- `a[i] = data` through the reference `operator[]` returns. -/
def setAt (E : Env V) (i : Nat) (r : Ref V) : Cmd (St V) Unit := assignSlot E i r
/-- Array.h:147-152 `fill`: `for (iterator i = begin(); i < end(); ++i) *i = data;` -/
def fill (E : Env V) (r : Ref V) : Cmd (St V) Unit := do
  let n ← gets size
  let _ ← Cmd.loop (fun i (_ : St V) => decide (i < n)) (fun i => do assignSlot E i r; pure (i + 1)) E.fuel 0
  pure ()
/-- Array.h:156-165 `operator==` (both operands have the same `Size` by their type). -/
def eq [BEq V] (E : Env V) (x y : St V) : Cmd Unit Bool := Vec.eqElems E.fuel (size x) (Vec.peek x) (Vec.peek y)
/-- Array.h:167-171 `operator!=`. -/
def ne [BEq V] (E : Env V) (x y : St V) : Cmd Unit Bool := do
  let r ← eq E x y
  pure (!r)

end Verif.Arr
