import Verif.Model.VectorApi
import Verif.Model.Deque
import Verif.Spec.Paths
/-
Reference-returning access of the sequence containers (FV = FixedVector.h, PV = PreallocatedVector.h,
FD = FixedDeque.h, PD = PreallocatedDeque.h): the `T&` each expression evaluates to, before it is read or assigned.
`reverse_iterator` is `std::reverse_iterator` (FV:38-41, FD:212-215): `rbegin() + i` has base `end() - i`,
and `*r` is `tmp = base; return *--tmp` (C++ standard; not code of the library).
-/
namespace Verif
open Spec Cmd
variable {V : Type}

/-- Driving a container with calls, reads and writes: the caller, not code of the library. -/
def xhistory {σ : Type} (exec : XOp V → Cmd σ (Ret V)) : σ → List (XOp V) → Option (σ × List (Res V))
  | s, [] => some (s, [])
  | s, o :: os =>
    match exec o s with
    | .ok r s' => (xhistory exec s' os).map (fun p => (p.1, Res.ret r :: p.2))
    | .exn e s' => (xhistory exec s' os).map (fun p => (p.1, Res.threw e :: p.2))
    | .ub _ => none
    | .diverge => none

namespace Vec

/-- The pointer each reference expression binds to, as an offset from `begin()`:
FV:129-137 `operator[]`, FV:139-153 `at`, FV:207-217 `front`, FV:219-229 `back`,
FV:155-173 `data()`/`begin()`, FV:175-183 `end()`, FV:185-205 `rbegin()`/`rend()`. -/
def pathPtr (E : Env V) : Path → Cmd (St V) Int
  | .index i => pure (begin_ + (i : Int))
  | .at_ i => do
    let n ← gets size
    if i ≥ n then throw .outOfRange else pure (begin_ + (i : Int))
  | .front => do
    dassert E (fun s => !empty s)
    pure begin_
  | .back => do
    dassert E (fun s => !empty s)
    let e ← gets end_
    pure (e - 1)
  | .fromBegin i => pure (begin_ + (i : Int))
  | .fromEnd i => do
    let e ← gets end_
    pure (e - (i : Int))
  | .fromRBegin i => do
    let e ← gets end_
    pure ((e - (i : Int)) - 1)
  | .fromREnd i => pure ((begin_ + (i : Int)) - 1)

/-- A call, or a use of a reference: lvalue-to-rvalue read, `path = v`, `path = path'` (`T::operator=`). -/
def xexec (E : Env V) : XOp V → Cmd (St V) (Ret V)
  | .call o => exec E o
  | .read p => do
    let z ← pathPtr E p
    let v ← deref z readSlot
    pure (.val v)
  | .write p v => do
    let z ← pathPtr E p
    deref z (fun i => assignSlot E i (.ext v))
    pure .unit
  | .copy p q => do
    let z ← pathPtr E p
    let y ← pathPtr E q
    deref z (fun i => deref y (fun j => assignSlot E i (.elem j)))
    pure .unit

end Vec

namespace Deq

/-- The slot each reference expression binds to: FD:306-314 `operator[]`, FD:316-330 `at`, FD:374-384 `front`,
FD:386-396 `back`, FD:332-350 `begin()`/`end()`, FD:352-372 `rbegin()`/`rend()`; iterator arithmetic FD:48-102. -/
def pathSlot (E : Env V) : Path → Cmd (St V) Nat
  | .index i => gets (fun s => itAddU E.M s.nbuf s.b i)
  | .at_ i => do
    let n ← gets (size E)
    if i ≥ n then throw .outOfRange else gets (fun s => itAddU E.M s.nbuf s.b i)
  | .front => do
    dassert E (fun s => !empty s)
    gets (·.b)
  | .back => do
    dassert E (fun s => !empty s)
    gets (fun s => itSub E.M s.nbuf s.e 1)
  | .fromBegin i => gets (fun s => itAddU E.M s.nbuf s.b i)
  | .fromEnd i => gets (fun s => itSubU E.M s.nbuf s.e i)
  | .fromRBegin i => gets (fun s => itDec E.M s.nbuf (itSubU E.M s.nbuf s.e i))
  | .fromREnd i => gets (fun s => itDec E.M s.nbuf (itAddU E.M s.nbuf s.b i))

/-- A call, or a use of a reference: lvalue-to-rvalue read, `path = v`, `path = path'`. -/
def xexec (E : Env V) : XOp V → Cmd (St V) (Ret V)
  | .call o => exec E o
  | .read p => do
    let i ← pathSlot E p
    let v ← readSlot i
    pure (.val v)
  | .write p v => do
    let i ← pathSlot E p
    assignSlot E i (.ext v)
    pure .unit
  | .copy p q => do
    let i ← pathSlot E p
    let j ← pathSlot E q
    assignSlot E i (.elem j)
    pure .unit

end Deq
end Verif
