import Verif.Model.Vector
import Verif.Model.History
/-
Model of `FixedDeque` (mechanism/Container/FixedDeque.h, "FD") and `PreallocatedDeque`
(mechanism/Container/PreallocatedDeque.h, "PD").  The bodies are textually identical except for the buffer:
`nbuf = BufSize = MaxSize + 1` for FD, `nbuf = num_elems_in_buf() = m_buf_size / sizeof(T)` for PD.
An iterator is its ring index `m_idx` (all iterators passed to a deque belong to it; the assertions
`m_deq != 0`, `m_deq == x.m_deq` of the iterator class are in Model/DequeIter.lean).
-/
namespace Verif.Deq
open Verif Cmd Spec
variable {V : Type}

/-- `ptrdiff_t` value of a `size_t` (two's complement). -/
def toDiff (M n : Nat) : Int := if 2 * n < M then (n : Int) else (n : Int) - M

/-- FD:531-538 / PD:548-555 `next_idx`. -/
def nextIdx (M nb idx un : Nat) : Nat :=
  if uadd M idx un < nb then uadd M idx un else usub M (uadd M idx un) nb
/-- FD:540-547 / PD:557-564 `prev_idx`. -/
def prevIdx (M nb idx un : Nat) : Nat :=
  if idx ≥ un then usub M idx un else usub M (uadd M nb idx) un
/-- FD:549-556 / PD:566-573 `distance_idx`. -/
def distIdx (M nb first last : Nat) : Nat :=
  if first ≤ last then usub M last first else uadd M (usub M nb first) last

/-- FD:48-64 iterator `operator+=` / `operator+` with a signed offset. -/
def itAdd (M nb it : Nat) (n : Int) : Nat :=
  if n < 0 then prevIdx M nb it (toSize M (-n)) else nextIdx M nb it (toSize M n)
/-- FD:66-76, 88-92 iterator `operator-=` / `operator-` with a signed offset. -/
def itSub (M nb it : Nat) (n : Int) : Nat :=
  if n < 0 then nextIdx M nb it (toSize M (-n)) else prevIdx M nb it (toSize M n)
/-- `it + n` for an unsigned `n` (converted to `difference_type`). -/
def itAddU (M nb it n : Nat) : Nat := itAdd M nb it (toDiff M n)
/-- `it - n` for an unsigned `n`. -/
def itSubU (M nb it n : Nat) : Nat := itSub M nb it (toDiff M n)
/-- FD:145-152 iterator `operator<`; `b` is `m_begin`. -/
def itLt (M nb b x y : Nat) : Bool := decide (distIdx M nb b x < distIdx M nb b y)
/-- FD:159-162 iterator `operator<=`. -/
def itLe (M nb b x y : Nat) : Bool := !itLt M nb b y x
/-- FD:164-167 iterator `operator>=`. -/
def itGe (M nb b x y : Nat) : Bool := !itLt M nb b x y
/-- FD:78-86 iterator difference. -/
def itDiff (M nb b x y : Nat) : Int :=
  if itGe M nb b x y = true then toDiff M (distIdx M nb y x) else - toDiff M (distIdx M nb x y)
/-- FD:94-97 `++it`. -/
def itInc (M nb it : Nat) : Nat := itAdd M nb it 1
/-- FD:99-102 `--it`. -/
def itDec (M nb it : Nat) : Nat := itSub M nb it 1

/-- FD:275-278 `size()`. -/
def size (E : Env V) (s : St V) : Nat := distIdx E.M s.nbuf s.b s.e
/-- FD:280-283 (`MaxSize = BufSize - 1`) / PD:292-295 `max_size()`. -/
def maxSize (E : Env V) (s : St V) : Nat := usub E.M s.nbuf 1
/-- FD:285-288 `available_size()`. -/
def availableSize (E : Env V) (s : St V) : Nat := usub E.M (maxSize E s) (size E s)
/-- FD:290-293 `empty()`. -/
def empty (s : St V) : Bool := s.b == s.e
/-- FD:295-298 `full()`. -/
def full (E : Env V) (s : St V) : Bool := size E s == maxSize E s

/-- private/Construct.h:26-32 `destroy_range` on deque iterators. -/
def destroyRange (E : Env V) (nb first last : Nat) : Cmd (St V) Unit :=
  forIter E.fuel first last (itInc E.M nb) destroySlot

/-- `construct(&*end(), ref); m_end = next_idx(m_end);` FD:420-421, 582-583, 593-594, 597-598, 669-671, 674-675. -/
def constructEnd (E : Env V) (r : Ref V) : Cmd (St V) Unit := do
  let e ← gets (·.e)
  construct E e r
  modify (fun s => { s with e := nextIdx E.M s.nbuf s.e 1 })

/-- `construct(&*(begin() - 1), ref); m_begin = prev_idx(m_begin);` FD:436-437, 611-612, 622-623, 626-627, 687-688, 703-704, 707-708. -/
def constructBegin (E : Env V) (r : Ref V) : Cmd (St V) Unit := do
  let p ← gets (fun s => itSub E.M s.nbuf s.b 1)
  construct E p r
  modify (fun s => { s with b := prevIdx E.M s.nbuf s.b 1 })

/-- FD:300-304 `clear()`. -/
def clear (E : Env V) : Cmd (St V) Unit := do
  let nb ← gets (·.nbuf)
  let b ← gets (·.b)
  let e ← gets (·.e)
  destroyRange E nb b e
  modify (fun s => { s with e := s.b })

/-- FD:262-265 destructor. -/
def dtor (E : Env V) : Cmd (St V) Unit := do
  let nb ← gets (·.nbuf)
  let b ← gets (·.b)
  let e ← gets (·.e)
  destroyRange E nb b e

/-- FD:306-314 `operator[]`. -/
def index (E : Env V) (i : Nat) : Cmd (St V) V := do
  let it ← gets (fun s => itAddU E.M s.nbuf s.b i)
  readSlot it

/-- FD:316-330 `at`. -/
def at_ (E : Env V) (i : Nat) : Cmd (St V) V := do
  let n ← gets (size E)
  if i ≥ n then throw .outOfRange
  else index E i

/-- FD:374-384 `front`. -/
def front (E : Env V) : Cmd (St V) V := do
  dassert E (fun s => !empty s)
  let b ← gets (·.b)
  readSlot b

/-- FD:386-396 `back`. -/
def back (E : Env V) : Cmd (St V) V := do
  dassert E (fun s => !empty s)
  let it ← gets (fun s => itSub E.M s.nbuf s.e 1)
  readSlot it

/-- FD:415-422 `push_back`. -/
def pushBack (E : Env V) (r : Ref V) : Cmd (St V) Unit := do
  let f ← gets (full E)
  if f = true then throw .badAlloc
  else constructEnd E r

/-- FD:431-438 `push_front`. -/
def pushFront (E : Env V) (r : Ref V) : Cmd (St V) Unit := do
  let f ← gets (full E)
  if f = true then throw .badAlloc
  else constructBegin E r

/-- FD:424-429 `pop_back`. -/
def popBack (E : Env V) : Cmd (St V) Unit := do
  dassert E (fun s => !empty s)
  let it ← gets (fun s => itSub E.M s.nbuf s.e 1)
  destroySlot it
  modify (fun s => { s with e := prevIdx E.M s.nbuf s.e 1 })

/-- FD:440-445 `pop_front`. -/
def popFront (E : Env V) : Cmd (St V) Unit := do
  dassert E (fun s => !empty s)
  let b ← gets (·.b)
  destroySlot b
  modify (fun s => { s with b := nextIdx E.M s.nbuf s.b 1 })

/-- FD:398-413 `resize`. -/
def resize (E : Env V) (n : Nat) (r : Ref V) : Cmd (St V) Unit := do
  let sz ← gets (size E)
  if sz ≥ n then do
    let nb ← gets (·.nbuf)
    let first ← gets (fun s => itAddU E.M s.nbuf s.b n)
    let e ← gets (·.e)
    destroyRange E nb first e
    modify (fun s => { s with e := prevIdx E.M s.nbuf s.e (usub E.M (size E s) n) })
  else do
    let mx ← gets (maxSize E)
    if mx < n then throw .badAlloc
    else do
      let sz ← gets (size E)
      forN E.fuel (usub E.M n sz) (fun _ => pushBack E r)

/-- FD:447-454 `assign(n, data)`. -/
def assignN (E : Env V) (n : Nat) (r : Ref V) : Cmd (St V) Unit := do
  let mx ← gets (maxSize E)
  if mx < n then throw .badAlloc
  else do
    clear E
    resize E n r

/-- FD:456-470 `assign(first, last)` (the counting loop is the same text as in the vector). -/
def assignRange (E : Env V) (src : List V) : Cmd (St V) Unit := do
  let n ← Vec.countRange E src
  let mx ← gets (maxSize E)
  if mx < n then throw .badAlloc
  else do
    clear E
    forIter E.fuel 0 src.length (· + 1) (fun j => do
      let v ← srcRead src j
      pushBack E (.ext v))

/-- FD:569-635 `insert_n`; returns the iterator. -/
def insertN_ (E : Env V) (pos n : Nat) (r : Ref V) : Cmd (St V) Nat := do
  let av ← gets (availableSize E)
  if av < n then throw .badAlloc
  else do
    let nb ← gets (·.nbuf)
    let sz ← gets (size E)
    let d ← gets (fun s => itDiff E.M s.nbuf s.b pos s.b)
    if sz / 2 < toSize E.M d then do
      let num ← gets (fun s => toSize E.M (itDiff E.M s.nbuf s.b s.e pos))
      let oldEnd ← gets (·.e)
      if num > n then do
        forN E.fuel n (fun _ => constructEnd E (.ext E.dflt))
        forIter E.fuel (itSub E.M nb oldEnd 1) (itSub E.M nb pos 1) (itDec E.M nb) (fun it =>
          assignSlot E (itAddU E.M nb it n) (.elem it))
        forIter E.fuel pos (itAddU E.M nb pos n) (itInc E.M nb) (fun it => assignSlot E it r)
      else do
        forN E.fuel (usub E.M n num) (fun _ => constructEnd E r)
        forIter E.fuel pos (itAddU E.M nb pos num) (itInc E.M nb) (fun it => constructEnd E (.elem it))
        forIter E.fuel pos oldEnd (itInc E.M nb) (fun it => assignSlot E it r)
      pure pos
    else do
      let num ← gets (fun s => toSize E.M (itDiff E.M s.nbuf s.b pos s.b))
      let oldBegin ← gets (·.b)
      if num > n then do
        forN E.fuel n (fun _ => constructBegin E (.ext E.dflt))
        forIter E.fuel oldBegin pos (itInc E.M nb) (fun it =>
          assignSlot E (itSubU E.M nb it n) (.elem it))
        forIter E.fuel (itSubU E.M nb pos n) pos (itInc E.M nb) (fun it => assignSlot E it r)
      else do
        forN E.fuel (usub E.M n num) (fun _ => constructBegin E r)
        forIter E.fuel (itSub E.M nb pos 1) (itSub E.M nb oldBegin 1) (itDec E.M nb) (fun it => constructBegin E (.elem it))
        forIter E.fuel oldBegin pos (itInc E.M nb) (fun it => assignSlot E it r)
      pure (itSubU E.M nb pos n)

/-- `for (; ...; ++it, ++first) *it = *first` (FD:660-662, 677-679, 693-695, 710-712). -/
def copyAssignLoop (E : Env V) (nb : Nat) (src : List V) (stop : Nat × Nat → Bool) (it j : Nat) :
    Cmd (St V) Unit := do
  let _ ← Cmd.loop (fun (p : Nat × Nat) (_ : St V) => !stop p)
    (fun p => do
      let v ← srcRead src p.2
      assignSlot E p.1 (.ext v)
      pure (itInc E.M nb p.1, p.2 + 1)) E.fuel (it, j)
  pure ()

/-- FD:637-715 `insert_range`. -/
def insertRange_ (E : Env V) (pos : Nat) (src : List V) : Cmd (St V) Unit := do
  let n ← Vec.countRange E src
  let av ← gets (availableSize E)
  if av < n then throw .badAlloc
  else do
    let nb ← gets (·.nbuf)
    let sz ← gets (size E)
    let d ← gets (fun s => itDiff E.M s.nbuf s.b pos s.b)
    if sz / 2 < toSize E.M d then do
      let num ← gets (fun s => toSize E.M (itDiff E.M s.nbuf s.b s.e pos))
      let oldEnd ← gets (·.e)
      if num > n then do
        forN E.fuel n (fun _ => constructEnd E (.ext E.dflt))
        forIter E.fuel (itSub E.M nb oldEnd 1) (itSub E.M nb pos 1) (itDec E.M nb) (fun it =>
          assignSlot E (itAddU E.M nb it n) (.elem it))
        copyAssignLoop E nb src (fun p => p.2 == src.length) pos 0
      else do
        -- `mid` starts `num` positions after `first` (FD:664-667) and advances with the loop counter
        forN E.fuel (usub E.M n num) (fun i => do
          let v ← srcRead src (num + i)
          constructEnd E (.ext v))
        forIter E.fuel pos (itAddU E.M nb pos num) (itInc E.M nb) (fun it => constructEnd E (.elem it))
        copyAssignLoop E nb src (fun p => p.1 == oldEnd) pos 0
    else do
      let num ← gets (fun s => toSize E.M (itDiff E.M s.nbuf s.b pos s.b))
      let oldBegin ← gets (·.b)
      if num > n then do
        forN E.fuel n (fun _ => constructBegin E (.ext E.dflt))
        forIter E.fuel oldBegin pos (itInc E.M nb) (fun it =>
          assignSlot E (itSubU E.M nb it n) (.elem it))
        copyAssignLoop E nb src (fun p => p.1 == pos) (itSubU E.M nb pos n) 0
      else do
        -- `mid` is `first + (n - num)` (FD:697-700); `*--p` runs backwards from it (FD:701-705)
        let mid := usub E.M n num
        forN E.fuel mid (fun i => do
          let v ← srcRead src (mid - 1 - i)
          constructBegin E (.ext v))
        forIter E.fuel (itSub E.M nb pos 1) (itSub E.M nb oldBegin 1) (itDec E.M nb) (fun it => constructBegin E (.elem it))
        copyAssignLoop E nb src (fun p => p.1 == pos) oldBegin mid

/-- The position test `(begin() <= pos) && (pos <= end())` of FD:474, 480, 487. -/
def posOk (E : Env V) (pos : Nat) (s : St V) : Bool :=
  itLe E.M s.nbuf s.b s.b pos && itLe E.M s.nbuf s.b pos s.e

/-- FD:472-476 `insert(pos, data)`. -/
def insert (E : Env V) (pos : Nat) (r : Ref V) : Cmd (St V) Nat := do
  dassert E (posOk E pos)
  insertN_ E pos 1 r

/-- FD:478-482 `insert(pos, n, data)`. -/
def insertN (E : Env V) (pos n : Nat) (r : Ref V) : Cmd (St V) Unit := do
  dassert E (posOk E pos)
  let _ ← insertN_ E pos n r
  pure ()

/-- FD:484-490, 564-568 `insert(pos, first, last)` for real iterators. -/
def insertRange (E : Env V) (pos : Nat) (src : List V) : Cmd (St V) Unit := do
  dassert E (posOk E pos)
  insertRange_ E pos src

/-- FD:484-490, 558-562 `insert(pos, n, data)` chosen for integer types. -/
def insertInteger (E : Env V) (pos : Nat) (n : Int) (v : V) : Cmd (St V) Unit := do
  dassert E (posOk E pos)
  let _ ← insertN_ E pos (toSize E.M n) (.ext v)
  pure ()

/-- FD:498-522 `erase(first, last)`. -/
def eraseRange (E : Env V) (first last : Nat) : Cmd (St V) Nat := do
  dassert E (fun s => itLt E.M s.nbuf s.b first last)
  dassert E (fun s => itLe E.M s.nbuf s.b s.b first && itLt E.M s.nbuf s.b first s.e)
  dassert E (fun s => itLe E.M s.nbuf s.b s.b last && itLe E.M s.nbuf s.b last s.e)
  let nb ← gets (·.nbuf)
  let n ← gets (fun s => toSize E.M (itDiff E.M s.nbuf s.b last first))
  let db ← gets (fun s => itDiff E.M s.nbuf s.b first s.b)
  let de ← gets (fun s => itDiff E.M s.nbuf s.b s.e last)
  if db ≥ de then do
    let e ← gets (·.e)
    forIter E.fuel last e (itInc E.M nb) (fun it => assignSlot E (itSubU E.M nb it n) (.elem it))
    destroyRange E nb (itSubU E.M nb e n) e
    modify (fun s => { s with e := prevIdx E.M s.nbuf s.e n })
    pure first
  else do
    let b ← gets (·.b)
    forIter E.fuel (itSub E.M nb first 1) (itSub E.M nb b 1) (itDec E.M nb) (fun it =>
      assignSlot E (itAddU E.M nb it n) (.elem it))
    destroyRange E nb b (itAddU E.M nb b n)
    modify (fun s => { s with b := nextIdx E.M s.nbuf s.b n })
    pure last

/-- FD:492-496 `erase(pos)`. -/
def erase (E : Env V) (pos : Nat) : Cmd (St V) Nat := do
  dassert E (fun s => itLe E.M s.nbuf s.b s.b pos && itLt E.M s.nbuf s.b pos s.e)
  let nx ← gets (fun s => itAdd E.M s.nbuf pos 1)
  eraseRange E pos nx

/-- A freshly constructed deque (FD:239-241; PD:238-251): `m_begin = m_end = 0`. -/
def fresh (nbuf cnt : Nat) : St V := { nbuf := nbuf, slot := fun _ => none, cnt := cnt, b := 0, e := 0 }

/-- FD:243-247 `FixedDeque(n, data)`. -/
def ctorN (E : Env V) (n : Nat) (r : Ref V) : Cmd (St V) Unit := assignN E n r
/-- FD:249-254 `FixedDeque(first, last)`. -/
def ctorRange (E : Env V) (src : List V) : Cmd (St V) Unit := assignRange E src

/-- The range `[x.begin(), x.end())` of another deque (read before the copy loop; `x` is not modified by it). -/
def contents (E : Env V) (x : St V) : Option (List V) :=
  (List.range (size E x)).mapM (fun i =>
    let j := itAddU E.M x.nbuf x.b i
    if j < x.nbuf then x.slot j else none)

/-- FD:256-260 copy constructor. -/
def ctorCopy (E : Env V) (x : St V) : Cmd (St V) Unit :=
  match contents E x with
  | none => Cmd.fault .deadRead
  | some l => assignRange E l

/-- FD:267-273 / PD:279-285 `operator=`; `same` is `this == &x`. -/
def assignOp (E : Env V) (same : Bool) (x : St V) : Cmd (St V) Unit :=
  if same = true then pure ()
  else match contents E x with
    | none => Cmd.fault .deadRead
    | some l => assignRange E l

/-- `x[i]` on a constant deque (FD:311-314). -/
def peek (E : Env V) (x : St V) (i : Nat) : Cmd Unit V := fun _ =>
  let j := itAddU E.M x.nbuf x.b i
  if x.nbuf ≤ j then .ub .outOfBounds else
  match x.slot j with
  | none => .ub .deadRead
  | some v => .ok v ()

/-- FD:719-731 `operator==`; `cmpCap` is true for PD, which also compares `max_size()` (PD:736-751). -/
def eq [BEq V] (E : Env V) (cmpCap : Bool) (x y : St V) : Cmd Unit Bool := do
  if (cmpCap && maxSize E x != maxSize E y) = true then pure false
  else if (size E x != size E y) = true then pure false
  else Vec.eqElems E.fuel (size E x) (peek E x) (peek E y)

/-- FD:733-737 `operator!=`. -/
def ne [BEq V] (E : Env V) (cmpCap : Bool) (x y : St V) : Cmd Unit Bool := do
  let r ← eq E cmpCap x y
  pure (!r)

/-- One public call on a deque.  Position arguments are `begin() + p`; a returned iterator is
reported as its distance from `begin()` after the call. -/
def exec (E : Env V) : Op V → Cmd (St V) (Ret V)
  | .pushBack v => do pushBack E (.ext v); pure .unit
  | .pushFront v => do pushFront E (.ext v); pure .unit
  | .popFront => do popFront E; pure .unit
  | .popBack => do popBack E; pure .unit
  | .insert p v => do
      let pos ← gets (fun s => itAddU E.M s.nbuf s.b p)
      let it ← insert E pos (.ext v)
      let d ← gets (fun s => itDiff E.M s.nbuf s.b it s.b)
      pure (.pos d.toNat)
  | .insertN p n v => do
      let pos ← gets (fun s => itAddU E.M s.nbuf s.b p)
      insertN E pos n (.ext v); pure .unit
  | .insertInt p n v => do
      let pos ← gets (fun s => itAddU E.M s.nbuf s.b p)
      insertInteger E pos n v; pure .unit
  | .insertRange p src => do
      let pos ← gets (fun s => itAddU E.M s.nbuf s.b p)
      insertRange E pos src; pure .unit
  | .erase p => do
      let pos ← gets (fun s => itAddU E.M s.nbuf s.b p)
      let it ← erase E pos
      let d ← gets (fun s => itDiff E.M s.nbuf s.b it s.b)
      pure (.pos d.toNat)
  | .eraseRange a b => do
      let first ← gets (fun s => itAddU E.M s.nbuf s.b a)
      let last ← gets (fun s => itAddU E.M s.nbuf s.b b)
      let it ← eraseRange E first last
      let d ← gets (fun s => itDiff E.M s.nbuf s.b it s.b)
      pure (.pos d.toNat)
  | .resize n v => do resize E n (.ext v); pure .unit
  | .assignN n v => do assignN E n (.ext v); pure .unit
  | .assignRange src => do assignRange E src; pure .unit
  | .clear => do clear E; pure .unit
  | .at_ i => do let v ← at_ E i; pure (.val v)
  | .index i => do let v ← index E i; pure (.val v)
  | .front => do let v ← front E; pure (.val v)
  | .back => do let v ← back E; pure (.val v)
  | .size => do let n ← gets (size E); pure (.num n)
  | .empty => do let b ← gets empty; pure (.flag b)
  | .full => do let b ← gets (full E); pure (.flag b)
  | .availableSize => do let n ← gets (availableSize E); pure (.num n)
  | .maxSize => do let n ← gets (maxSize E); pure (.num n)

end Verif.Deq
