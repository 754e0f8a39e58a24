import Verif.Model.VectorApi
import Verif.Model.Deque
/-
The buffer binding of `PreallocatedVector` (mechanism/Container/PreallocatedVector.h, "PV") and
`PreallocatedDeque` (mechanism/Container/PreallocatedDeque.h, "PD").  Buffers are given by a non-null address
and a size in bytes; `sz` is `sizeof(T)`.  The caller's buffer really has that many bytes and is suitably
aligned (documented requirement); a null buffer passed to the constructor or `init` is not modelled.
-/
namespace Verif.Pre
open Verif Cmd Spec
variable {V : Type}

/-- PV:43-45, PD:217-220: `m_buf` (0 = null), `m_buf_size`, and the element storage with its indices;
`st.nbuf` is always `m_buf_size / sizeof(T)` (PV:120, PD:524-529). -/
structure Obj (V : Type) where
  buf : Nat
  bytes : Nat
  st : St V

/-- PV:63-65, PD:238-240 default constructor. -/
def ctor0 (cnt : Nat) : Obj V := ⟨0, 0, { nbuf := 0, slot := fun _ => none, cnt := cnt, b := 0, e := 0 }⟩

/-- PV:74-77, PD:248-251 constructor with a buffer. -/
def ctor (sz a n cnt : Nat) : Obj V := ⟨a, n, { nbuf := n / sz, slot := fun _ => none, cnt := cnt, b := 0, e := 0 }⟩

/-- PV:96-103, PD:270-277 `init`.  A newly bound buffer is raw storage. -/
def init (sz a n : Nat) (p : Obj V) : Obj V :=
  if p.buf ≠ 0 then p
  else { buf := a, bytes := n, st := { p.st with nbuf := n / sz, slot := fun _ => none } }

/-- The class the object belongs to. -/
inductive Kind where
  | vec | deq
  deriving DecidableEq, Repr

/-- A public call on the container part. -/
def exec (k : Kind) (E : Env V) (o : Op V) : Cmd (St V) (Ret V) :=
  match k with
  | .vec => Vec.exec E o
  | .deq => Deq.exec E o

/-- What a caller can do with the object. -/
inductive Ev (V : Type) where
  | init (a n : Nat)
  | call (o : Op V)

/-- The calls of an event list, without the `init`s. -/
def calls : List (Ev V) → List (Op V)
  | [] => []
  | .init _ _ :: es => calls es
  | .call o :: es => o :: calls es

/-- Run a list of events; `none` = undefined behaviour or non-termination. -/
def run (k : Kind) (sz : Nat) (E : Env V) : Obj V → List (Ev V) → Option (Obj V × List (Res V))
  | p, [] => some (p, [])
  | p, .init a n :: es => run k sz E (init sz a n p) es
  | p, .call o :: es =>
    match exec k E o p.st with
    | .ok r s' => (run k sz E { p with st := s' } es).map (fun q => (q.1, Res.ret r :: q.2))
    | .exn e s' => (run k sz E { p with st := s' } es).map (fun q => (q.1, Res.threw e :: q.2))
    | .ub _ => none
    | .diverge => none

end Verif.Pre
