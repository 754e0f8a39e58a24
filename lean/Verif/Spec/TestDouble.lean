import Verif.Model.TestDouble
/-
What is claimed of a message queue used by one thread on test doubles: the lock discipline as a stack machine over the calls made on the
OS objects, and the bounded first-in first-out queue.
-/
namespace Verif.TD
open _root_.Verif.Mtx (Err)
variable {V : Type}

/-- The mutexes held (most recently locked first) after a sequence of calls; `none` if a mutex is locked while held by the caller, if one is
unlocked that is not the most recently locked one, or if the caller waits while it holds the mutex the other side needs to make progress. -/
def held : List Mx → List Os → Option (List Mx)
  | st, [] => some st
  | st, .lock m .OK :: l => if m ∈ st then none else held (m :: st) l
  | st, .lock m _ :: l => if m ∈ st then none else held st l
  | m' :: st, .unlock m :: l => if m = m' then held st l else none
  | [], .unlock _ :: _ => none
  | st, .wait _ _ :: l => if Mx.rb ∈ st then none else held st l
  | st, .set _ :: l => held st l
  | st, .reset _ :: l => held st l

/-- A double whose waits never claim that an event happened. -/
def Truthful (P : Plat) : Prop := ∀ l b, P l (.wait b) ≠ .OK
/-- Locks succeed, waits time out: what one thread alone sees of any real implementation with `trySend` / `tryReceive`. -/
def Ideal (P : Plat) : Prop := (∀ l m, P l (.lock m) = .OK) ∧ ∀ l b, P l (.wait b) = .TimedOut

/-- The bounded queue: contents after the call and its result. -/
def queue (cap : Nat) (q : List V) : Op V → List V × Res V
  | .send v => if q.length < cap then (q ++ [v], .err .OK) else (q, .err .TimedOut)
  | .receive want =>
    match q with
    | [] => ([], .got .TimedOut none)
    | x :: q' => (q', .got .OK (if want then some x else none))
  | .getSize => (q, .num q.length)
/-- A history of the bounded queue. -/
def queueRun (cap : Nat) : List V → List (Op V) → List V × List (Res V)
  | q, [] => (q, [])
  | q, o :: os =>
    let p := queue cap q o
    let r := queueRun cap p.1 os
    (r.1, p.2 :: r.2)

/-- A history (calls with their results) of a queue that held `q` before and `q'` after: successful sends append, successful receives take the
oldest message and return it (unless the caller passed a null pointer), failed calls do nothing, `getSize` counts. -/
def Explains : List V → List (Op V × Res V) → List V → Prop
  | q, [], q' => q' = q
  | q, (.send v, .err e) :: h, q' => if e = .OK then Explains (q ++ [v]) h q' else Explains q h q'
  | q, (.receive want, .got e r) :: h, q' =>
    if e = .OK then ∃ x rest, q = x :: rest ∧ r = (if want then some x else none) ∧ Explains rest h q' else r = none ∧ Explains q h q'
  | q, (.getSize, .num n) :: h, q' => n = q.length ∧ Explains q h q'
  | _, _ :: _, _ => False

end Verif.TD
