import Verif.Model.Deque
import Verif.Model.Array
import Verif.Model.VectorApi
/-
The containers as the preprocessor makes them: `CPPELIB_CONTAINER_THROW(x)` is `throw x` in the default build and
`CHECK_ASSERT(false && #x)` when CPPELIB_NO_EXCEPTIONS is defined (mechanism/Container/ContainerException.h:7-12), and in that
build a failing CHECK_ASSERT calls the registered handler, if any, and then *returns* (Assertion.h:28-29, 103-113): control goes
on behind the check unless the handler itself does not return.  The bodies below are those of Model/Vector, Model/Deque and
Model/Array with every failing check written as the statement it is (`if (c) { MACRO } rest`), for each meaning of the macro.
FV = FixedVector.h, FD = FixedDeque.h (PV, PD have the same text).
Without exceptions an element operation cannot throw either (`Env.thr` constantly false in the theorems).
-/
namespace Verif
open Cmd

/-- What a failing check does. -/
inductive OnFail where
  | raise  -- default build: `throw x` (ContainerException.h:11) / `throw failure` (Assertion.h:111)
  | stop   -- CPPELIB_NO_EXCEPTIONS, a handler is set and does not return (abort, longjmp, …)
  | cont   -- CPPELIB_NO_EXCEPTIONS, no handler is set or it returns: `assertFail` returns
  deriving DecidableEq, Repr

/-- The macro as a statement.  For `stop` the outcome `.exn e s` reads "the handler was entered for failure `e` while the container
was in state `s`, and control has left the call for good". -/
def onFail {σ : Type} (h : OnFail) (e : Exn) : Cmd σ Unit :=
  match h with
  | .raise => throw e
  | .stop => throw e
  | .cont => pure ()

/-- `if (c) { CPPELIB_CONTAINER_THROW(e); }` -/
def check {σ : Type} (h : OnFail) (e : Exn) (c : Bool) : Cmd σ Unit := if c = true then onFail h e else pure ()

/-- `DEBUG_ASSERT(c)` (Assertion.h:32-40). -/
def dassertM {V : Type} (h : OnFail) (E : Env V) (c : St V → Bool) : Cmd (St V) Unit := fun s =>
  if (E.dbg && !c s) = true then onFail h .assertFail s else .ok () s

namespace VecM
open Vec Spec
variable {V : Type}

/-- FV:139-153 `at`. -/
def at_ (h : OnFail) (i : Nat) : Cmd (St V) V := do
  let n ← gets size
  check h .outOfRange (decide (i ≥ n))
  deref (begin_ + (i : Int)) readSlot

/-- FV:207-217 `front`. -/
def front (h : OnFail) (E : Env V) : Cmd (St V) V := do
  dassertM h E (fun s => !empty s)
  deref begin_ readSlot

/-- FV:219-229 `back`. -/
def back (h : OnFail) (E : Env V) : Cmd (St V) V := do
  dassertM h E (fun s => !empty s)
  let e ← gets end_
  deref (e - 1) readSlot

/-- FV:248-255 `push_back`. -/
def pushBack (h : OnFail) (E : Env V) (r : Ref V) : Cmd (St V) Unit := do
  let f ← gets full
  check h .badAlloc f
  constructEnd E r

/-- FV:231-246 `resize`. -/
def resize (h : OnFail) (E : Env V) (n : Nat) (r : Ref V) : Cmd (St V) Unit := do
  let sz ← gets size
  if sz ≥ n then do
    let e ← gets end_
    destroyRange E (begin_ + (n : Int)) e
    modify (fun s => { s with e := n })
  else do
    let mx ← gets maxSize
    check h .badAlloc (decide (mx < n))
    let sz ← gets size
    forN E.fuel (usub E.M n sz) (fun _ => pushBack h E r)

/-- FV:257-262 `pop_back`. -/
def popBack (h : OnFail) (E : Env V) : Cmd (St V) Unit := do
  dassertM h E (fun s => !empty s)
  let e ← gets end_
  deref (e - 1) destroySlot
  modify (fun s => { s with e := usub E.M s.e 1 })

/-- FV:264-271 `assign(n, data)`. -/
def assignN (h : OnFail) (E : Env V) (n : Nat) (r : Ref V) : Cmd (St V) Unit := do
  let mx ← gets maxSize
  check h .badAlloc (decide (mx < n))
  clear E
  resize h E n r

/-- FV:273-287 `assign(first, last)`. -/
def assignRange (h : OnFail) (E : Env V) (src : List V) : Cmd (St V) Unit := do
  let n ← countRange E src
  let mx ← gets maxSize
  check h .badAlloc (decide (mx < n))
  clear E
  forIter E.fuel 0 src.length (· + 1) (fun j => do
    let v ← srcRead src j
    pushBack h E (.ext v))

/-- FV:346-378 `insert_n`. -/
def insertN_ (h : OnFail) (E : Env V) (pos : Int) (n : Nat) (r : Ref V) : Cmd (St V) Unit := do
  let av ← gets (availableSize E)
  check h .badAlloc (decide (av < n))
  let oldEnd ← gets end_
  let num := toSize E.M (oldEnd - pos)
  if num > n then do
    forN E.fuel n (fun _ => constructEnd E (.ext E.dflt))
    forIter E.fuel (oldEnd - 1) (pos - 1) (· - 1) (fun it =>
      deref (it + (n : Int)) fun i => deref it fun j => assignSlot E i (.elem j))
    forIter E.fuel pos (pos + (n : Int)) (· + 1) (fun it => deref it fun i => assignSlot E i r)
  else do
    forN E.fuel (usub E.M n num) (fun _ => constructEnd E r)
    forIter E.fuel pos (pos + (num : Int)) (· + 1) (fun it => deref it fun j => constructEnd E (.elem j))
    forIter E.fuel pos oldEnd (· + 1) (fun it => deref it fun i => assignSlot E i r)

/-- FV:380-422 `insert_range`. -/
def insertRange_ (h : OnFail) (E : Env V) (pos : Int) (src : List V) : Cmd (St V) Unit := do
  let n ← countRange E src
  let av ← gets (availableSize E)
  check h .badAlloc (decide (av < n))
  let oldEnd ← gets end_
  let num := toSize E.M (oldEnd - pos)
  if num > n then do
    forN E.fuel n (fun _ => constructEnd E (.ext E.dflt))
    forIter E.fuel (oldEnd - 1) (pos - 1) (· - 1) (fun it =>
      deref (it + (n : Int)) fun i => deref it fun j => assignSlot E i (.elem j))
    copyAssignLoop E src (fun p => p.2 == src.length) pos 0
  else do
    -- `mid` starts `num` positions after `first` (FV:405-408) and advances with the loop counter
    forN E.fuel (usub E.M n num) (fun i => do
      let v ← srcRead src (num + i)
      constructEnd E (.ext v))
    forIter E.fuel pos (pos + (num : Int)) (· + 1) (fun it => deref it fun j => constructEnd E (.elem j))
    copyAssignLoop E src (fun p => p.1 == oldEnd) pos 0

/-- FV:289-294 `insert(pos, data)`; the result is the returned iterator. -/
def insert (h : OnFail) (E : Env V) (pos : Int) (r : Ref V) : Cmd (St V) Int := do
  dassertM h E (posOk pos)
  insertN_ h E pos 1 r
  pure pos

/-- FV:296-300 `insert(pos, n, data)`. -/
def insertN (h : OnFail) (E : Env V) (pos : Int) (n : Nat) (r : Ref V) : Cmd (St V) Unit := do
  dassertM h E (posOk pos)
  insertN_ h E pos n r

/-- FV:302-308, 340-344 `insert(pos, first, last)` for real iterators. -/
def insertRange (h : OnFail) (E : Env V) (pos : Int) (src : List V) : Cmd (St V) Unit := do
  dassertM h E (posOk pos)
  insertRange_ h E pos src

/-- FV:302-308, 334-338 `insert(pos, n, data)` chosen for integer types: `n` is converted to `size_type`,
`data` to a temporary `T`. -/
def insertInteger (h : OnFail) (E : Env V) (pos : Int) (n : Int) (v : V) : Cmd (St V) Unit := do
  dassertM h E (posOk pos)
  insertN_ h E pos (toSize E.M n) (.ext v)

/-- FV:316-328 `erase(first, last)`. -/
def eraseRange (h : OnFail) (E : Env V) (first last : Int) : Cmd (St V) Int := do
  dassertM h E (fun _ => decide (first < last))
  dassertM h E (fun s => decide (begin_ ≤ first) && decide (first < end_ s))
  dassertM h E (fun s => decide (begin_ ≤ last) && decide (last ≤ end_ s))
  let n := last - first
  let e ← gets end_
  forIter E.fuel last e (· + 1) (fun it =>
    deref (it - n) fun i => deref it fun j => assignSlot E i (.elem j))
  destroyRange E (e - n) e
  modify (fun s => { s with e := usub E.M s.e (toSize E.M n) })
  pure first

/-- FV:310-314 `erase(pos)`. -/
def erase (h : OnFail) (E : Env V) (pos : Int) : Cmd (St V) Int := do
  dassertM h E (fun s => decide (begin_ ≤ pos) && decide (pos < end_ s))
  eraseRange h E pos (pos + 1)

/-- One public call on a vector (value arguments outside the container).  A returned iterator `T*`
is reported as its offset from `begin()`. -/
def exec (h : OnFail) (E : Env V) : Op V → Cmd (St V) (Ret V)
  | .pushBack v => do pushBack h E (.ext v); pure .unit
  | .pushFront _ => fault .outOfBounds   -- vectors have no push_front / pop_front
  | .popFront => fault .outOfBounds
  | .popBack => do popBack h E; pure .unit
  | .insert p v => do let it ← insert h E (p : Int) (.ext v); pure (.pos it.toNat)
  | .insertN p n v => do insertN h E (p : Int) n (.ext v); pure .unit
  | .insertInt p n v => do insertInteger h E (p : Int) n v; pure .unit
  | .insertRange p src => do insertRange h E (p : Int) src; pure .unit
  | .erase p => do let it ← erase h E (p : Int); pure (.pos it.toNat)
  | .eraseRange a b => do let it ← eraseRange h E (a : Int) (b : Int); pure (.pos it.toNat)
  | .resize n v => do resize h E n (.ext v); pure .unit
  | .assignN n v => do assignN h E n (.ext v); pure .unit
  | .assignRange src => do assignRange h E src; pure .unit
  | .clear => do clear E; pure .unit
  | .at_ i => do let v ← at_ h i; pure (.val v)
  | .index i => do let v ← index i; pure (.val v)
  | .front => do let v ← front h E; pure (.val v)
  | .back => do let v ← back h E; pure (.val v)
  | .size => do let n ← gets size; pure (.num n)
  | .empty => do let b ← gets empty; pure (.flag b)
  | .full => do let b ← gets full; pure (.flag b)
  | .availableSize => do let n ← gets (availableSize E); pure (.num n)
  | .maxSize => do let n ← gets maxSize; pure (.num n)

end VecM

namespace DeqM
open Deq Spec
variable {V : Type}

/-- FD:316-330 `at`. -/
def at_ (h : OnFail) (E : Env V) (i : Nat) : Cmd (St V) V := do
  let n ← gets (size E)
  check h .outOfRange (decide (i ≥ n))
  index E i

/-- FD:374-384 `front`. -/
def front (h : OnFail) (E : Env V) : Cmd (St V) V := do
  dassertM h E (fun s => !empty s)
  let b ← gets (·.b)
  readSlot b

/-- FD:386-396 `back`. -/
def back (h : OnFail) (E : Env V) : Cmd (St V) V := do
  dassertM h E (fun s => !empty s)
  let it ← gets (fun s => itSub E.M s.nbuf s.e 1)
  readSlot it

/-- FD:415-422 `push_back`. -/
def pushBack (h : OnFail) (E : Env V) (r : Ref V) : Cmd (St V) Unit := do
  let f ← gets (full E)
  check h .badAlloc f
  constructEnd E r

/-- FD:431-438 `push_front`. -/
def pushFront (h : OnFail) (E : Env V) (r : Ref V) : Cmd (St V) Unit := do
  let f ← gets (full E)
  check h .badAlloc f
  constructBegin E r

/-- FD:424-429 `pop_back`. -/
def popBack (h : OnFail) (E : Env V) : Cmd (St V) Unit := do
  dassertM h E (fun s => !empty s)
  let it ← gets (fun s => itSub E.M s.nbuf s.e 1)
  destroySlot it
  modify (fun s => { s with e := prevIdx E.M s.nbuf s.e 1 })

/-- FD:440-445 `pop_front`. -/
def popFront (h : OnFail) (E : Env V) : Cmd (St V) Unit := do
  dassertM h E (fun s => !empty s)
  let b ← gets (·.b)
  destroySlot b
  modify (fun s => { s with b := nextIdx E.M s.nbuf s.b 1 })

/-- FD:398-413 `resize`. -/
def resize (h : OnFail) (E : Env V) (n : Nat) (r : Ref V) : Cmd (St V) Unit := do
  let sz ← gets (size E)
  if sz ≥ n then do
    let nb ← gets (·.nbuf)
    let first ← gets (fun s => itAddU E.M s.nbuf s.b n)
    let e ← gets (·.e)
    destroyRange E nb first e
    modify (fun s => { s with e := prevIdx E.M s.nbuf s.e (usub E.M (size E s) n) })
  else do
    let mx ← gets (maxSize E)
    check h .badAlloc (decide (mx < n))
    let sz ← gets (size E)
    forN E.fuel (usub E.M n sz) (fun _ => pushBack h E r)

/-- FD:447-454 `assign(n, data)`. -/
def assignN (h : OnFail) (E : Env V) (n : Nat) (r : Ref V) : Cmd (St V) Unit := do
  let mx ← gets (maxSize E)
  check h .badAlloc (decide (mx < n))
  clear E
  resize h E n r

/-- FD:456-470 `assign(first, last)` (the counting loop is the same text as in the vector). -/
def assignRange (h : OnFail) (E : Env V) (src : List V) : Cmd (St V) Unit := do
  let n ← Vec.countRange E src
  let mx ← gets (maxSize E)
  check h .badAlloc (decide (mx < n))
  clear E
  forIter E.fuel 0 src.length (· + 1) (fun j => do
    let v ← srcRead src j
    pushBack h E (.ext v))

/-- FD:569-635 `insert_n`; returns the iterator. -/
def insertN_ (h : OnFail) (E : Env V) (pos n : Nat) (r : Ref V) : Cmd (St V) Nat := do
  let av ← gets (availableSize E)
  check h .badAlloc (decide (av < n))
  let nb ← gets (·.nbuf)
  let sz ← gets (size E)
  let d ← gets (fun s => itDiff E.M s.nbuf s.b pos s.b)
  if sz / 2 < toSize E.M d then do
    let num ← gets (fun s => toSize E.M (itDiff E.M s.nbuf s.b s.e pos))
    let oldEnd ← gets (·.e)
    if num > n then do
      forN E.fuel n (fun _ => constructEnd E (.ext E.dflt))
      forIter E.fuel (itSub E.M nb oldEnd 1) (itSub E.M nb pos 1) (itDec E.M nb) (fun it =>
        assignSlot E (itAddU E.M nb it n) (.elem it))
      forIter E.fuel pos (itAddU E.M nb pos n) (itInc E.M nb) (fun it => assignSlot E it r)
    else do
      forN E.fuel (usub E.M n num) (fun _ => constructEnd E r)
      forIter E.fuel pos (itAddU E.M nb pos num) (itInc E.M nb) (fun it => constructEnd E (.elem it))
      forIter E.fuel pos oldEnd (itInc E.M nb) (fun it => assignSlot E it r)
    pure pos
  else do
    let num ← gets (fun s => toSize E.M (itDiff E.M s.nbuf s.b pos s.b))
    let oldBegin ← gets (·.b)
    if num > n then do
      forN E.fuel n (fun _ => constructBegin E (.ext E.dflt))
      forIter E.fuel oldBegin pos (itInc E.M nb) (fun it =>
        assignSlot E (itSubU E.M nb it n) (.elem it))
      forIter E.fuel (itSubU E.M nb pos n) pos (itInc E.M nb) (fun it => assignSlot E it r)
    else do
      forN E.fuel (usub E.M n num) (fun _ => constructBegin E r)
      forIter E.fuel (itSub E.M nb pos 1) (itSub E.M nb oldBegin 1) (itDec E.M nb) (fun it => constructBegin E (.elem it))
      forIter E.fuel oldBegin pos (itInc E.M nb) (fun it => assignSlot E it r)
    pure (itSubU E.M nb pos n)

/-- FD:637-715 `insert_range`. -/
def insertRange_ (h : OnFail) (E : Env V) (pos : Nat) (src : List V) : Cmd (St V) Unit := do
  let n ← Vec.countRange E src
  let av ← gets (availableSize E)
  check h .badAlloc (decide (av < n))
  let nb ← gets (·.nbuf)
  let sz ← gets (size E)
  let d ← gets (fun s => itDiff E.M s.nbuf s.b pos s.b)
  if sz / 2 < toSize E.M d then do
    let num ← gets (fun s => toSize E.M (itDiff E.M s.nbuf s.b s.e pos))
    let oldEnd ← gets (·.e)
    if num > n then do
      forN E.fuel n (fun _ => constructEnd E (.ext E.dflt))
      forIter E.fuel (itSub E.M nb oldEnd 1) (itSub E.M nb pos 1) (itDec E.M nb) (fun it =>
        assignSlot E (itAddU E.M nb it n) (.elem it))
      copyAssignLoop E nb src (fun p => p.2 == src.length) pos 0
    else do
      -- `mid` starts `num` positions after `first` (FD:664-667) and advances with the loop counter
      forN E.fuel (usub E.M n num) (fun i => do
        let v ← srcRead src (num + i)
        constructEnd E (.ext v))
      forIter E.fuel pos (itAddU E.M nb pos num) (itInc E.M nb) (fun it => constructEnd E (.elem it))
      copyAssignLoop E nb src (fun p => p.1 == oldEnd) pos 0
  else do
    let num ← gets (fun s => toSize E.M (itDiff E.M s.nbuf s.b pos s.b))
    let oldBegin ← gets (·.b)
    if num > n then do
      forN E.fuel n (fun _ => constructBegin E (.ext E.dflt))
      forIter E.fuel oldBegin pos (itInc E.M nb) (fun it =>
        assignSlot E (itSubU E.M nb it n) (.elem it))
      copyAssignLoop E nb src (fun p => p.1 == pos) (itSubU E.M nb pos n) 0
    else do
      -- `mid` is `first + (n - num)` (FD:697-700); `*--p` runs backwards from it (FD:701-705)
      let mid := usub E.M n num
      forN E.fuel mid (fun i => do
        let v ← srcRead src (mid - 1 - i)
        constructBegin E (.ext v))
      forIter E.fuel (itSub E.M nb pos 1) (itSub E.M nb oldBegin 1) (itDec E.M nb) (fun it => constructBegin E (.elem it))
      copyAssignLoop E nb src (fun p => p.1 == pos) oldBegin mid

/-- FD:472-476 `insert(pos, data)`. -/
def insert (h : OnFail) (E : Env V) (pos : Nat) (r : Ref V) : Cmd (St V) Nat := do
  dassertM h E (posOk E pos)
  insertN_ h E pos 1 r

/-- FD:478-482 `insert(pos, n, data)`. -/
def insertN (h : OnFail) (E : Env V) (pos n : Nat) (r : Ref V) : Cmd (St V) Unit := do
  dassertM h E (posOk E pos)
  let _ ← insertN_ h E pos n r
  pure ()

/-- FD:484-490, 564-568 `insert(pos, first, last)` for real iterators. -/
def insertRange (h : OnFail) (E : Env V) (pos : Nat) (src : List V) : Cmd (St V) Unit := do
  dassertM h E (posOk E pos)
  insertRange_ h E pos src

/-- FD:484-490, 558-562 `insert(pos, n, data)` chosen for integer types. -/
def insertInteger (h : OnFail) (E : Env V) (pos : Nat) (n : Int) (v : V) : Cmd (St V) Unit := do
  dassertM h E (posOk E pos)
  let _ ← insertN_ h E pos (toSize E.M n) (.ext v)
  pure ()

/-- FD:498-522 `erase(first, last)`. -/
def eraseRange (h : OnFail) (E : Env V) (first last : Nat) : Cmd (St V) Nat := do
  dassertM h E (fun s => itLt E.M s.nbuf s.b first last)
  dassertM h E (fun s => itLe E.M s.nbuf s.b s.b first && itLt E.M s.nbuf s.b first s.e)
  dassertM h E (fun s => itLe E.M s.nbuf s.b s.b last && itLe E.M s.nbuf s.b last s.e)
  let nb ← gets (·.nbuf)
  let n ← gets (fun s => toSize E.M (itDiff E.M s.nbuf s.b last first))
  let db ← gets (fun s => itDiff E.M s.nbuf s.b first s.b)
  let de ← gets (fun s => itDiff E.M s.nbuf s.b s.e last)
  if db ≥ de then do
    let e ← gets (·.e)
    forIter E.fuel last e (itInc E.M nb) (fun it => assignSlot E (itSubU E.M nb it n) (.elem it))
    destroyRange E nb (itSubU E.M nb e n) e
    modify (fun s => { s with e := prevIdx E.M s.nbuf s.e n })
    pure first
  else do
    let b ← gets (·.b)
    forIter E.fuel (itSub E.M nb first 1) (itSub E.M nb b 1) (itDec E.M nb) (fun it =>
      assignSlot E (itAddU E.M nb it n) (.elem it))
    destroyRange E nb b (itAddU E.M nb b n)
    modify (fun s => { s with b := nextIdx E.M s.nbuf s.b n })
    pure last

/-- FD:492-496 `erase(pos)`. -/
def erase (h : OnFail) (E : Env V) (pos : Nat) : Cmd (St V) Nat := do
  dassertM h E (fun s => itLe E.M s.nbuf s.b s.b pos && itLt E.M s.nbuf s.b pos s.e)
  let nx ← gets (fun s => itAdd E.M s.nbuf pos 1)
  eraseRange h E pos nx

/-- One public call on a deque.  Position arguments are `begin() + p`; a returned iterator is
reported as its distance from `begin()` after the call. -/
def exec (h : OnFail) (E : Env V) : Op V → Cmd (St V) (Ret V)
  | .pushBack v => do pushBack h E (.ext v); pure .unit
  | .pushFront v => do pushFront h E (.ext v); pure .unit
  | .popFront => do popFront h E; pure .unit
  | .popBack => do popBack h E; pure .unit
  | .insert p v => do
      let pos ← gets (fun s => itAddU E.M s.nbuf s.b p)
      let it ← insert h E pos (.ext v)
      let d ← gets (fun s => itDiff E.M s.nbuf s.b it s.b)
      pure (.pos d.toNat)
  | .insertN p n v => do
      let pos ← gets (fun s => itAddU E.M s.nbuf s.b p)
      insertN h E pos n (.ext v); pure .unit
  | .insertInt p n v => do
      let pos ← gets (fun s => itAddU E.M s.nbuf s.b p)
      insertInteger h E pos n v; pure .unit
  | .insertRange p src => do
      let pos ← gets (fun s => itAddU E.M s.nbuf s.b p)
      insertRange h E pos src; pure .unit
  | .erase p => do
      let pos ← gets (fun s => itAddU E.M s.nbuf s.b p)
      let it ← erase h E pos
      let d ← gets (fun s => itDiff E.M s.nbuf s.b it s.b)
      pure (.pos d.toNat)
  | .eraseRange a b => do
      let first ← gets (fun s => itAddU E.M s.nbuf s.b a)
      let last ← gets (fun s => itAddU E.M s.nbuf s.b b)
      let it ← eraseRange h E first last
      let d ← gets (fun s => itDiff E.M s.nbuf s.b it s.b)
      pure (.pos d.toNat)
  | .resize n v => do resize h E n (.ext v); pure .unit
  | .assignN n v => do assignN h E n (.ext v); pure .unit
  | .assignRange src => do assignRange h E src; pure .unit
  | .clear => do clear E; pure .unit
  | .at_ i => do let v ← at_ h E i; pure (.val v)
  | .index i => do let v ← index E i; pure (.val v)
  | .front => do let v ← front h E; pure (.val v)
  | .back => do let v ← back h E; pure (.val v)
  | .size => do let n ← gets (size E); pure (.num n)
  | .empty => do let b ← gets empty; pure (.flag b)
  | .full => do let b ← gets (full E); pure (.flag b)
  | .availableSize => do let n ← gets (availableSize E); pure (.num n)
  | .maxSize => do let n ← gets (maxSize E); pure (.num n)

end DeqM

namespace ArrM
variable {V : Type}

/-- Array.h:62-76 `at`. -/
def at_ (h : OnFail) (i : Nat) : Cmd (St V) V := do
  let n ← gets Arr.size
  check h .outOfRange (decide (i ≥ n))
  readSlot i

end ArrM

end Verif
