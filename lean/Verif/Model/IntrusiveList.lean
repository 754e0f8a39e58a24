import Verif.Sem.Mem
import Verif.Spec.IList
/-
Model of `IntrusiveList<T>` (mechanism/Container/IntrusiveList.h).  Nodes are addresses (0 = null) with two link
members; a list object is identified with the address of its terminator node; an iterator is the address in
`m_node`.  Several lists share the heap.  Elements are never copied, constructed or destroyed by the list.
-/
namespace Verif.IL
open Verif Cmd Spec.IList

/-- The link members of all nodes. -/
structure Heap where
  next : Nat → Nat
  prev : Nat → Nat

/-- Build mode and number of values of `size_t`. -/
structure Cfg where
  dbg : Bool
  M : Nat

/-- Loop fuel: more than any `size_t` count. -/
def Cfg.fuel (c : Cfg) : Nat := c.M + 1

/-- `p->m_nextListNode`. -/
def rdNext (p : Nat) : Cmd Heap Nat := fun h => if p = 0 then .ub .nullDeref else .ok (h.next p) h
/-- `p->m_prevListNode`. -/
def rdPrev (p : Nat) : Cmd Heap Nat := fun h => if p = 0 then .ub .nullDeref else .ok (h.prev p) h
/-- `p->m_nextListNode = v`. -/
def wrNext (p v : Nat) : Cmd Heap Unit := fun h =>
  if p = 0 then .ub .nullDeref else .ok () { h with next := upd h.next p v }
/-- `p->m_prevListNode = v`. -/
def wrPrev (p v : Nat) : Cmd Heap Unit := fun h =>
  if p = 0 then .ub .nullDeref else .ok () { h with prev := upd h.prev p v }
/-- `DEBUG_ASSERT(b)`. -/
def dassert (c : Cfg) (b : Bool) : Cmd Heap Unit := fun h =>
  if c.dbg && !b then .exn .assertFail h else .ok () h

/-- IntrusiveList.h:60-65 iterator `++`. -/
def itInc (c : Cfg) (it : Nat) : Cmd Heap Nat := do
  dassert c (it != 0)
  rdNext it
/-- IntrusiveList.h:67-72 iterator `--`. -/
def itDec (c : Cfg) (it : Nat) : Cmd Heap Nat := do
  dassert c (it != 0)
  rdPrev it
/-- IntrusiveList.h:88-92 iterator `*`: the element is the node. -/
def deref (c : Cfg) (it : Nat) : Cmd Heap Nat := do
  dassert c (it != 0)
  if it = 0 then Cmd.fault .nullDeref else pure it

/-- IntrusiveList.h:147-151 constructor. -/
def ctor (t : Nat) : Cmd Heap Unit := do
  wrNext t t
  wrPrev t t
/-- IntrusiveList.h:153-156 `empty()`. -/
def empty (t : Nat) : Cmd Heap Bool := do
  let n ← rdNext t
  pure (n == t)
/-- IntrusiveList.h:167-175 `begin()`. -/
def begin_ (t : Nat) : Cmd Heap Nat := rdNext t
/-- IntrusiveList.h:177-185 `end()`. -/
def end_ (t : Nat) : Nat := t
/-- IntrusiveList.h:158-165 `size()`. -/
def size (c : Cfg) (t : Nat) : Cmd Heap Nat := do
  let b ← begin_ t
  let (_, n) ← Cmd.loop (fun (p : Nat × Nat) (_ : Heap) => p.1 != end_ t)
    (fun p => do
      let j ← itInc c p.1
      pure (j, uadd c.M p.2 1)) c.fuel (b, 0)
  pure n
/-- IntrusiveList.h:209-219 `front()`. -/
def front (c : Cfg) (t : Nat) : Cmd Heap Nat := do
  let e ← empty t
  dassert c (!e)
  let b ← begin_ t
  deref c b
/-- IntrusiveList.h:221-231 `back()`. -/
def back (c : Cfg) (t : Nat) : Cmd Heap Nat := do
  let e ← empty t
  dassert c (!e)
  let p ← itDec c (end_ t)
  deref c p
/-- IntrusiveList.h:255-263 `insert`. -/
def insert (c : Cfg) (pos d : Nat) : Cmd Heap Nat := do
  dassert c (pos != 0)
  wrNext d pos
  let p ← rdPrev pos
  wrPrev d p
  wrPrev pos d
  let q ← rdPrev d
  wrNext q d
  pure d
/-- IntrusiveList.h:265-273 `erase`. -/
def erase (c : Cfg) (t pos : Nat) : Cmd Heap Nat := do
  let e ← empty t
  dassert c (!e)
  dassert c (pos != 0)
  let node ← rdNext pos
  let p ← rdPrev pos
  let n ← rdNext pos
  wrNext p n
  let n' ← rdNext pos
  let p' ← rdPrev pos
  wrPrev n' p'
  pure node
/-- IntrusiveList.h:233-236 `push_back`. -/
def pushBack (c : Cfg) (t d : Nat) : Cmd Heap Unit := do
  let _ ← insert c (end_ t) d
  pure ()
/-- IntrusiveList.h:238-242 `pop_back`. -/
def popBack (c : Cfg) (t : Nat) : Cmd Heap Unit := do
  let e ← empty t
  dassert c (!e)
  let p ← itDec c (end_ t)
  let _ ← erase c t p
  pure ()
/-- IntrusiveList.h:244-247 `push_front`. -/
def pushFront (c : Cfg) (t d : Nat) : Cmd Heap Unit := do
  let b ← begin_ t
  let _ ← insert c b d
  pure ()
/-- IntrusiveList.h:249-253 `pop_front`. -/
def popFront (c : Cfg) (t : Nat) : Cmd Heap Unit := do
  let e ← empty t
  dassert c (!e)
  let b ← begin_ t
  let _ ← erase c t b
  pure ()
/-- IntrusiveList.h:300-323 `splice(pos, x, first, last)`. -/
def spliceRange (c : Cfg) (t pos x first last : Nat) : Cmd Heap Unit := do
  dassert c (pos != 0)
  dassert c (first != 0)
  dassert c (last != 0)
  dassert c (first != end_ t)
  dassert c (first != end_ x)
  if first = last then pure ()
  else if pos = last then pure ()
  else do
    let lp ← rdPrev last
    wrNext lp pos
    let fp ← rdPrev first
    wrNext fp last
    let pp ← rdPrev pos
    wrNext pp first
    let tmp ← rdPrev pos
    let lp' ← rdPrev last
    wrPrev pos lp'
    let fp' ← rdPrev first
    wrPrev last fp'
    wrPrev first tmp
/-- IntrusiveList.h:285-298 `splice(pos, x, i)`. -/
def spliceOne (c : Cfg) (t pos x i : Nat) : Cmd Heap Unit := do
  dassert c (i != end_ t)
  dassert c (i != end_ x)
  if pos = i then pure ()
  else do
    let j ← itInc c i
    if pos = j then pure ()
    else spliceRange c t pos x i j
/-- IntrusiveList.h:275-283 `splice(pos, x)`. -/
def spliceAll (c : Cfg) (t pos x : Nat) : Cmd Heap Unit := do
  dassert c (t != x)
  let e ← empty x
  if e = true then pure ()
  else do
    let b ← begin_ x
    spliceRange c t pos x b (end_ x)
/-- IntrusiveList.h:325-334 `swap` (the free function at 344-348 calls it); `tmp` is the address of the local list. -/
def swap (c : Cfg) (tmp t x : Nat) : Cmd Heap Unit := do
  if t = x then pure ()
  else do
    ctor tmp
    spliceAll c tmp (end_ tmp) x
    spliceAll c x (end_ x) t
    spliceAll c t (end_ t) tmp

/-- Caller code: `begin() + k` by `k` increments. -/
def nth (c : Cfg) (t : Nat) : Nat → Cmd Heap Nat
  | 0 => begin_ t
  | k+1 => do
    let i ← nth c t k
    itInc c i

/-- Caller code: `for (it = begin(); it != end(); ++it) use(*it)`. -/
def forward (c : Cfg) (t : Nat) : Cmd Heap (List Nat) := do
  let b ← begin_ t
  let (_, l) ← Cmd.loop (fun (p : Nat × List Nat) (_ : Heap) => p.1 != end_ t)
    (fun p => do
      let v ← deref c p.1
      let j ← itInc c p.1
      pure (j, p.2 ++ [v])) c.fuel (b, [])
  pure l
/-- Caller code: `for (it = end(); it != begin();) use(*--it)` (what `rbegin()..rend()` does, IntrusiveList.h:187-207). -/
def backward (c : Cfg) (t : Nat) : Cmd Heap (List Nat) := do
  let b ← begin_ t
  let (_, l) ← Cmd.loop (fun (p : Nat × List Nat) (_ : Heap) => p.1 != b)
    (fun p => do
      let j ← itDec c p.1
      let v ← deref c j
      pure (j, p.2 ++ [v])) c.fuel (end_ t, [])
  pure l

/-- One call; positions are turned into iterators by the caller. -/
def exec (c : Cfg) : Op → Cmd Heap Ret
  | .pushBack t d => do pushBack c t d; pure .unit
  | .pushFront t d => do pushFront c t d; pure .unit
  | .popBack t => do popBack c t; pure .unit
  | .popFront t => do popFront c t; pure .unit
  | .insert t k d => do let p ← nth c t k; let r ← insert c p d; pure (.elem r)
  | .erase t k => do let p ← nth c t k; let r ← erase c t p; pure (.elem r)
  | .spliceAll t k x => do let p ← nth c t k; spliceAll c t p x; pure .unit
  | .spliceOne t k x i => do let p ← nth c t k; let i ← nth c x i; spliceOne c t p x i; pure .unit
  | .spliceRange t k x a b => do
      let p ← nth c t k; let f ← nth c x a; let l ← nth c x b; spliceRange c t p x f l; pure .unit
  | .swap t x tmp => do swap c tmp t x; pure .unit
  | .front t => do let n ← front c t; pure (.elem n)
  | .back t => do let n ← back c t; pure (.elem n)
  | .size t => do let n ← size c t; pure (.num n)
  | .empty t => do let b ← empty t; pure (.flag b)
  | .forward t => do let l ← forward c t; pure (.elems l)
  | .backward t => do let l ← backward c t; pure (.elems l)

/-- A history of calls; `none` if any of them is undefined, does not return or throws. -/
def history (c : Cfg) : Heap → List Op → Option (Heap × List Ret)
  | h, [] => some (h, [])
  | h, o :: os =>
    match exec c o h with
    | .ok r h' => (history c h' os).map (fun p => (p.1, r :: p.2))
    | _ => none

/-- Constructing list objects one after another (caller code; IntrusiveList.h:147-151 for each). -/
def ctorAll : List Nat → Cmd Heap Unit
  | [] => pure ()
  | t :: ts => do
    ctorAll ts
    ctor t

end Verif.IL
