import Verif.Sem.Mem
/-
Model of `FixedVector` (mechanism/Container/FixedVector.h, "FV" below) and `PreallocatedVector`
(mechanism/Container/PreallocatedVector.h, "PV").  The two classes have textually identical bodies
(diff of the files: only construction, `max_size`, `init`, `begin` and the capacity test in
`operator==` differ), so the shared members are modelled once, on a state with `nbuf` slots:
`nbuf = MaxSize` for FV, `nbuf = m_buf_size / sizeof(T)` for PV.

Iterators are `T*`; the model represents `begin() + z` by the integer `z` (flat pointer arithmetic:
forming `pos - 1` for `pos = begin()` as the code does is not a fault in the model, dereferencing it is).
-/
namespace Verif.Vec
open Verif Cmd
variable {V α : Type}

/-- Use of `*(begin() + z)`: a negative offset is out of bounds, larger ones are checked by the slot primitives. -/
def deref (z : Int) (f : Nat → Cmd (St V) α) : Cmd (St V) α :=
  if z < 0 then Cmd.fault .outOfBounds else f z.toNat

/-- FV:98-101 / PV:113-116 `size()`. -/
def size (s : St V) : Nat := s.e
/-- FV:103-106 (`MaxSize`) / PV:118-121 (`m_buf_size / sizeof(T)`): `max_size()`. -/
def maxSize (s : St V) : Nat := s.nbuf
/-- FV:108-111 `available_size()`: size_t subtraction. -/
def availableSize (E : Env V) (s : St V) : Nat := usub E.M (maxSize s) (size s)
/-- FV:113-116 `empty()`. -/
def empty (s : St V) : Bool := size s == 0
/-- FV:118-121 `full()`. -/
def full (s : St V) : Bool := size s == maxSize s
/-- FV:165-173 `begin()`. -/
def begin_ : Int := 0
/-- FV:175-183 `end()`. -/
def end_ (s : St V) : Int := begin_ + (s.e : Int)

/-- private/Construct.h:26-32 `destroy_range(first, last)`. -/
def destroyRange (E : Env V) (first last : Int) : Cmd (St V) Unit :=
  forIter E.fuel first last (· + 1) (fun it => deref it destroySlot)

/-- `construct(&*end(), ref); ++m_end;` — the repeated pair of statements, FV:253-254, 356-357, 367-368, 371-372, 410-412, 415-416. -/
def constructEnd (E : Env V) (r : Ref V) : Cmd (St V) Unit := do
  let e ← gets end_
  deref e (fun i => construct E i r)
  modify (fun s => { s with e := uadd E.M s.e 1 })

/-- FV:123-127 `clear()`. -/
def clear (E : Env V) : Cmd (St V) Unit := do
  let e ← gets end_
  destroyRange E begin_ e
  modify (fun s => { s with e := 0 })

/-- FV:85-88 / PV:83-86 destructor. -/
def dtor (E : Env V) : Cmd (St V) Unit := do
  let e ← gets end_
  destroyRange E begin_ e

/-- FV:129-137 `operator[]`. -/
def index (i : Nat) : Cmd (St V) V := deref (begin_ + (i : Int)) readSlot

/-- FV:139-153 `at`. -/
def at_ (i : Nat) : Cmd (St V) V := do
  let n ← gets size
  if i ≥ n then throw .outOfRange
  else deref (begin_ + (i : Int)) readSlot

/-- FV:207-217 `front`. -/
def front (E : Env V) : Cmd (St V) V := do
  dassert E (fun s => !empty s)
  deref begin_ readSlot

/-- FV:219-229 `back`. -/
def back (E : Env V) : Cmd (St V) V := do
  dassert E (fun s => !empty s)
  let e ← gets end_
  deref (e - 1) readSlot

/-- FV:248-255 `push_back`. -/
def pushBack (E : Env V) (r : Ref V) : Cmd (St V) Unit := do
  let f ← gets full
  if f = true then throw .badAlloc
  else constructEnd E r

/-- FV:231-246 `resize`. -/
def resize (E : Env V) (n : Nat) (r : Ref V) : Cmd (St V) Unit := do
  let sz ← gets size
  if sz ≥ n then do
    let e ← gets end_
    destroyRange E (begin_ + (n : Int)) e
    modify (fun s => { s with e := n })
  else do
    let mx ← gets maxSize
    if mx < n then throw .badAlloc
    else do
      let sz ← gets size
      forN E.fuel (usub E.M n sz) (fun _ => pushBack E r)

/-- FV:257-262 `pop_back`. -/
def popBack (E : Env V) : Cmd (St V) Unit := do
  dassert E (fun s => !empty s)
  let e ← gets end_
  deref (e - 1) destroySlot
  modify (fun s => { s with e := usub E.M s.e 1 })

/-- FV:264-271 `assign(n, data)`. -/
def assignN (E : Env V) (n : Nat) (r : Ref V) : Cmd (St V) Unit := do
  let mx ← gets maxSize
  if mx < n then throw .badAlloc
  else do
    clear E
    resize E n r

/-- `size_type n = 0U; for (i = first; i != last; ++i) ++n;` FV:276-279, 383-386: the source range is
a list, an iterator into it is a position. -/
def countRange (E : Env V) (src : List V) : Cmd (St V) Nat := do
  let (_, n) ← Cmd.loop (fun (p : Nat × Nat) (_ : St V) => p.1 != src.length)
    (fun p => pure (p.1 + 1, uadd E.M p.2 1)) E.fuel (0, 0)
  pure n

/-- FV:273-287 `assign(first, last)`. -/
def assignRange (E : Env V) (src : List V) : Cmd (St V) Unit := do
  let n ← countRange E src
  let mx ← gets maxSize
  if mx < n then throw .badAlloc
  else do
    clear E
    forIter E.fuel 0 src.length (· + 1) (fun j => do
      let v ← srcRead src j
      pushBack E (.ext v))

/-- FV:346-378 `insert_n`. -/
def insertN_ (E : Env V) (pos : Int) (n : Nat) (r : Ref V) : Cmd (St V) Unit := do
  let av ← gets (availableSize E)
  if av < n then throw .badAlloc
  else do
    let oldEnd ← gets end_
    let num := toSize E.M (oldEnd - pos)
    if num > n then do
      forN E.fuel n (fun _ => constructEnd E (.ext E.dflt))
      forIter E.fuel (oldEnd - 1) (pos - 1) (· - 1) (fun it =>
        deref (it + (n : Int)) fun i => deref it fun j => assignSlot E i (.elem j))
      forIter E.fuel pos (pos + (n : Int)) (· + 1) (fun it => deref it fun i => assignSlot E i r)
    else do
      forN E.fuel (usub E.M n num) (fun _ => constructEnd E r)
      forIter E.fuel pos (pos + (num : Int)) (· + 1) (fun it => deref it fun j => constructEnd E (.elem j))
      forIter E.fuel pos oldEnd (· + 1) (fun it => deref it fun i => assignSlot E i r)

/-- `for (; ...; ++it, ++first) *it = *first` with both iterators advancing (FV:401-403, 418-420):
`stop` tests the pair. -/
def copyAssignLoop (E : Env V) (src : List V) (stop : Int × Nat → Bool) (it : Int) (j : Nat) :
    Cmd (St V) Unit := do
  let _ ← Cmd.loop (fun (p : Int × Nat) (_ : St V) => !stop p)
    (fun p => do
      let v ← srcRead src p.2
      deref p.1 fun i => assignSlot E i (.ext v)
      pure (p.1 + 1, p.2 + 1)) E.fuel (it, j)
  pure ()

/-- FV:380-422 `insert_range`. -/
def insertRange_ (E : Env V) (pos : Int) (src : List V) : Cmd (St V) Unit := do
  let n ← countRange E src
  let av ← gets (availableSize E)
  if av < n then throw .badAlloc
  else do
    let oldEnd ← gets end_
    let num := toSize E.M (oldEnd - pos)
    if num > n then do
      forN E.fuel n (fun _ => constructEnd E (.ext E.dflt))
      forIter E.fuel (oldEnd - 1) (pos - 1) (· - 1) (fun it =>
        deref (it + (n : Int)) fun i => deref it fun j => assignSlot E i (.elem j))
      copyAssignLoop E src (fun p => p.2 == src.length) pos 0
    else do
      -- `mid` starts `num` positions after `first` (FV:405-408) and advances with the loop counter
      forN E.fuel (usub E.M n num) (fun i => do
        let v ← srcRead src (num + i)
        constructEnd E (.ext v))
      forIter E.fuel pos (pos + (num : Int)) (· + 1) (fun it => deref it fun j => constructEnd E (.elem j))
      copyAssignLoop E src (fun p => p.1 == oldEnd) pos 0

/-- The position test `(begin() <= pos) && (pos <= end())` of FV:291, 298, 305. -/
def posOk (pos : Int) (s : St V) : Bool := decide (begin_ ≤ pos) && decide (pos ≤ end_ s)

/-- FV:289-294 `insert(pos, data)`; the result is the returned iterator. -/
def insert (E : Env V) (pos : Int) (r : Ref V) : Cmd (St V) Int := do
  dassert E (posOk pos)
  insertN_ E pos 1 r
  pure pos

/-- FV:296-300 `insert(pos, n, data)`. -/
def insertN (E : Env V) (pos : Int) (n : Nat) (r : Ref V) : Cmd (St V) Unit := do
  dassert E (posOk pos)
  insertN_ E pos n r

/-- FV:302-308, 340-344 `insert(pos, first, last)` for real iterators. -/
def insertRange (E : Env V) (pos : Int) (src : List V) : Cmd (St V) Unit := do
  dassert E (posOk pos)
  insertRange_ E pos src

/-- FV:302-308, 334-338 `insert(pos, n, data)` chosen for integer types: `n` is converted to `size_type`,
`data` to a temporary `T`. -/
def insertInteger (E : Env V) (pos : Int) (n : Int) (v : V) : Cmd (St V) Unit := do
  dassert E (posOk pos)
  insertN_ E pos (toSize E.M n) (.ext v)

/-- FV:316-328 `erase(first, last)`. -/
def eraseRange (E : Env V) (first last : Int) : Cmd (St V) Int := do
  dassert E (fun _ => decide (first < last))
  dassert E (fun s => decide (begin_ ≤ first) && decide (first < end_ s))
  dassert E (fun s => decide (begin_ ≤ last) && decide (last ≤ end_ s))
  let n := last - first
  let e ← gets end_
  forIter E.fuel last e (· + 1) (fun it =>
    deref (it - n) fun i => deref it fun j => assignSlot E i (.elem j))
  destroyRange E (e - n) e
  modify (fun s => { s with e := usub E.M s.e (toSize E.M n) })
  pure first

/-- FV:310-314 `erase(pos)`. -/
def erase (E : Env V) (pos : Int) : Cmd (St V) Int := do
  dassert E (fun s => decide (begin_ ≤ pos) && decide (pos < end_ s))
  eraseRange E pos (pos + 1)

/-- A freshly constructed object: raw storage, `m_end(0U)` (FV:62-64; PV:56-77). -/
def fresh (nbuf cnt : Nat) : St V := { nbuf := nbuf, slot := fun _ => none, cnt := cnt, b := 0, e := 0 }

/-- FV:66-70 `FixedVector(n, data)`. -/
def ctorN (E : Env V) (n : Nat) (r : Ref V) : Cmd (St V) Unit := assignN E n r
/-- FV:72-77 `FixedVector(first, last)`. -/
def ctorRange (E : Env V) (src : List V) : Cmd (St V) Unit := assignRange E src

/-- The range `[x.begin(), x.end())` of another container, read through its slots
(simplification: the elements are read before the copy loop; `x` is not modified by it). -/
def contents (x : St V) : Option (List V) :=
  (List.range x.e).mapM (fun i => if i < x.nbuf then x.slot i else none)

/-- FV:79-83 copy constructor. -/
def ctorCopy (E : Env V) (x : St V) : Cmd (St V) Unit :=
  match contents x with
  | none => Cmd.fault .deadRead
  | some l => assignRange E l

/-- FV:90-96 `operator=(x)`; `same` is `this == &x`. -/
def assignOp (E : Env V) (same : Bool) (x : St V) : Cmd (St V) Unit :=
  if same = true then pure ()
  else match contents x with
    | none => Cmd.fault .deadRead
    | some l => assignRange E l

/-- `x[i]` on a constant container (FV:134-137). -/
def peek (x : St V) (i : Nat) : Cmd Unit V := fun _ =>
  if x.nbuf ≤ i then .ub .outOfBounds else
  match x.slot i with
  | none => .ub .deadRead
  | some v => .ok v ()

/-- `for (i = 0; i < n; ++i) if (!(x[i] == y[i])) return false; return true;` — FV:431-436, PV:449-454,
FD:725-730, PD:745-750, Array.h:153-158.  Loop state: the index and whether no difference returned yet. -/
def eqElems [BEq V] (fuel n : Nat) (px py : Nat → Cmd Unit V) : Cmd Unit Bool := do
  let (_, r) ← Cmd.loop (fun (p : Nat × Bool) (_ : Unit) => decide (p.1 < n) && p.2)
    (fun p => do
      let a ← px p.1
      let b ← py p.1
      if (!(a == b)) = true then pure (p.1, false) else pure (p.1 + 1, true)) fuel (0, true)
  pure r

/-- FV:426-438 `operator==`; `cmpCap` is true for PV, which also compares `max_size()` (PV:441-456). -/
def eq [BEq V] (cmpCap : Bool) (fuel : Nat) (x y : St V) : Cmd Unit Bool := do
  if (cmpCap && maxSize x != maxSize y) = true then pure false
  else if (size x != size y) = true then pure false
  else eqElems fuel (size x) (peek x) (peek y)

/-- FV:440-444 `operator!=`. -/
def ne [BEq V] (cmpCap : Bool) (fuel : Nat) (x y : St V) : Cmd Unit Bool := do
  let r ← eq cmpCap fuel x y
  pure (!r)

end Verif.Vec
