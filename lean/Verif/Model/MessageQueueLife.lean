import Verif.Model.MessageQueue
/-
Creation and destruction of `MessageQueue<T>` (mechanism/OSWrapper/MessageQueue.h, "MQ"): the size computation on machine words, the
acquisition and release of the resources, and what `destroy` does to the messages.
-/
namespace Verif.MQ.Life
open Verif
open _root_.Verif.Mtx (Tid Err)

/-! #### Sizes, MQ:30-38.  `w`: width of size_t; `sizeof(double)` is 8. -/
variable {w : Nat}

/-- MQ:32-33: `(sizeof(MessageQueue) + (sizeof(double) - 1U)) & ~(sizeof(double) - 1U)`. -/
def alignedMQSize (szMQ : BitVec w) : BitVec w := (szMQ + 7#w) &&& ~~~(7#w)
/-- MQ:34. -/
def rbBufSize (maxSize : BitVec w) : BitVec w := maxSize + 1#w
/-- MQ:35: the block size requested from the pool. -/
def poolBufSize (szMQ szT maxSize : BitVec w) : BitVec w := alignedMQSize szMQ + szT * rbBufSize maxSize

/-! #### Resources, MQ:30-73, 319-361. -/

inductive Rsrc where
  | pool | block | object | mtxRB | mtxSend | mtxRecv | event
  deriving DecidableEq, Repr
inductive REv where
  | acquire (r : Rsrc) | release (r : Rsrc)
  deriving DecidableEq, Repr

/-- The pointers of a MessageQueue object that are not null. -/
structure Obj where
  mtxRB : Bool
  mtxSend : Bool
  mtxRecv : Bool
  event : Bool
  deriving DecidableEq, Repr

/-- `X::destroy(p)`: nothing for a null pointer. -/
def rel (p : Bool) (r : Rsrc) : List REv := if p then [.release r] else []

/-- MQ:64-73 `destroy`, with the destructor MQ:334-340. -/
def destroy (m : Obj) : List REv :=
  rel m.event .event ++ rel m.mtxRecv .mtxRecv ++ rel m.mtxSend .mtxSend ++ rel m.mtxRB .mtxRB ++
  [.release .object, .release .block, .release .pool]

/-- MQ:342-361 `createOSObjects`; `ok r`: whether creating `r` succeeds. -/
def createOSObjects (ok : Rsrc → Bool) : Bool × Obj × List REv :=
  if !ok .mtxRB then (false, ⟨false, false, false, false⟩, [])
  else if !ok .mtxSend then (false, ⟨true, false, false, false⟩, [.acquire .mtxRB])
  else if !ok .mtxRecv then (false, ⟨true, true, false, false⟩, [.acquire .mtxRB, .acquire .mtxSend])
  else if !ok .event then (false, ⟨true, true, true, false⟩, [.acquire .mtxRB, .acquire .mtxSend, .acquire .mtxRecv])
  else (true, ⟨true, true, true, true⟩, [.acquire .mtxRB, .acquire .mtxSend, .acquire .mtxRecv, .acquire .event])

/-- MQ:30-56 `create`: the object, if not null, and what was acquired and released. -/
def create (ok : Rsrc → Bool) : Option Obj × List REv :=
  if !ok .pool then (none, [])
  else if !ok .block then (none, [.acquire .pool, .release .pool])
  else
    let pre : List REv := [.acquire .pool, .acquire .block, .acquire .object]
    match createOSObjects ok with
    | (false, m, log) => (none, pre ++ log ++ destroy m)
    | (true, m, log) => (some m, pre ++ log)

/-! #### The messages at destruction -/

/-- The slots whose message is destroyed by `destroy`: none, `~RingBuf()` is empty (MQ:279). -/
def dtorSlots {V : Type} (_ : St V) : List Nat := []
/-- The buffer after `destroy`. -/
def afterDestroy {V : Type} (s : St V) : Nat → Option V := (dtorSlots s).foldl (fun b i => upd b i none) s.buf

end Verif.MQ.Life
