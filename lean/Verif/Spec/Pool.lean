/-
Specification of memory pools in terms of the calls made and their results only.
-/
namespace Verif.PoolSpec

/-- A call with its result; pools are named by handles. -/
inductive Call where
  | create (bs size : Nat) (r : Option Nat)      -- block size, memory size; the handle, or null
  | destroy (i : Nat)
  | alloc (i size : Nat) (r : Option Nat)        -- pool, size asked for; the address, or null
  | dealloc (i : Nat) (a : Option Nat)           -- pool, address or null
  deriving DecidableEq, Repr

/-- A block handed out: pool, address, length. -/
structure Block where
  pool : Nat
  addr : Nat
  len : Nat
  deriving DecidableEq, Repr

/-- What the caller knows: the pools that exist (with the parameters they were created with) and the blocks it holds. -/
structure Known where
  pool : Nat → Option (Nat × Nat)
  out : List Block

def Known.init : Known := ⟨fun _ => none, []⟩

/-- `fixed`: blocks have the block size of the pool, otherwise the size asked for. -/
def Known.next (fixed : Bool) (w : Known) : Call → Known
  | .create bs size (some i) => { w with pool := fun j => if j = i then some (bs, size) else w.pool j }
  | .create _ _ none => w
  | .destroy i => ⟨fun j => if j = i then none else w.pool j, w.out.filter (·.pool ≠ i)⟩
  | .alloc i size (some a) => { w with out := ⟨i, a, if fixed then ((w.pool i).map (·.1)).getD 0 else size⟩ :: w.out }
  | .alloc _ _ none => w
  | .dealloc i (some a) => { w with out := w.out.filter fun b => ¬ (b.pool = i ∧ b.addr = a) }
  | .dealloc _ none => w

/-- What the caller knows after a history of calls. -/
def known (fixed : Bool) (tr : List Call) : Known := tr.foldl (Known.next fixed) .init

/-- Two address ranges share no byte. -/
def apart (a la b lb : Nat) : Prop := ∀ x, ¬ ((a ≤ x ∧ x < a + la) ∧ (b ≤ x ∧ x < b + lb))

end Verif.PoolSpec
