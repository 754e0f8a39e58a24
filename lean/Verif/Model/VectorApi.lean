import Verif.Model.Vector
import Verif.Model.History
/- The public interface of the vector classes as one dispatch function. -/
namespace Verif.Vec
open Verif Cmd Spec
variable {V : Type}

/-- One public call on a vector (value arguments outside the container).  A returned iterator `T*`
is reported as its offset from `begin()`. -/
def exec (E : Env V) : Op V → Cmd (St V) (Ret V)
  | .pushBack v => do pushBack E (.ext v); pure .unit
  | .pushFront _ => fault .outOfBounds   -- vectors have no push_front / pop_front
  | .popFront => fault .outOfBounds
  | .popBack => do popBack E; pure .unit
  | .insert p v => do let it ← insert E (p : Int) (.ext v); pure (.pos it.toNat)
  | .insertN p n v => do insertN E (p : Int) n (.ext v); pure .unit
  | .insertInt p n v => do insertInteger E (p : Int) n v; pure .unit
  | .insertRange p src => do insertRange E (p : Int) src; pure .unit
  | .erase p => do let it ← erase E (p : Int); pure (.pos it.toNat)
  | .eraseRange a b => do let it ← eraseRange E (a : Int) (b : Int); pure (.pos it.toNat)
  | .resize n v => do resize E n (.ext v); pure .unit
  | .assignN n v => do assignN E n (.ext v); pure .unit
  | .assignRange src => do assignRange E src; pure .unit
  | .clear => do clear E; pure .unit
  | .at_ i => do let v ← at_ i; pure (.val v)
  | .index i => do let v ← index i; pure (.val v)
  | .front => do let v ← front E; pure (.val v)
  | .back => do let v ← back E; pure (.val v)
  | .size => do let n ← gets size; pure (.num n)
  | .empty => do let b ← gets empty; pure (.flag b)
  | .full => do let b ← gets full; pure (.flag b)
  | .availableSize => do let n ← gets (availableSize E); pure (.num n)
  | .maxSize => do let n ← gets maxSize; pure (.num n)

end Verif.Vec
