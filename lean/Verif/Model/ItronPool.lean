import Verif.Sem.Lts
import Verif.Spec.Pool
/-
The ITRON memory pool factories: IF = platform/ItronOSWrapper/ItronFixedMemoryPoolFactory.cpp (and .h = IFH),
IV = platform/ItronOSWrapper/ItronVariableMemoryPoolFactory.cpp (and .h).  The two share the slot table logic word for word, so they are
one model with a `Kind`.
create and destroy are one atomic step each: both run under the factory's mutex (IF:81, 95) and nothing else writes the table; allocate and
deallocate are one kernel call each.
The kernel is represented by its contract: an action carries the kernel's answer, and is possible only if the contract allows that answer.
Not modelled: a factory whose own mutex could not be created or locked (private/ItronLock.h ignores the error).
-/
namespace Verif.ItronPool
open Verif

inductive Kind where
  | fixed | variable
  deriving DecidableEq, Repr

/-- `N` = MAX_FIXED_MEMORY_POOLS, MAX_VARIABLE_MEMORY_POOLS; `tsz n bs` = the kernel's TSZ_MPF(n, bs). -/
structure Cfg where
  kind : Kind
  N : Nat
  tsz : Nat → Nat → Nat

/-- IFH:19-20, one element of m_pools: m_blockSize, m_mpfId; `mpf = 0`: not created (IFH:28). -/
structure Slot where
  blockSize : Nat
  mpf : Nat
  deriving DecidableEq, Repr

/-- A kernel memory pool: fixed size blocks (`blkcnt` of `blksz` bytes) or not, in the area [base, base+len). -/
structure KPool where
  blksz : Nat
  blkcnt : Nat
  base : Nat
  len : Nat
  out : List (Nat × Nat)   -- address and length of the blocks handed out
  deriving DecidableEq, Repr

structure PSt where
  slot : Nat → Slot
  k : Nat → Option KPool    -- the kernel's pools by id
  ids : List Nat            -- the ids in use

def PSt.init : PSt := ⟨fun _ => ⟨0, 0⟩, fun _ => none, []⟩

/-- Address ranges. -/
def disjoint (a la b lb : Nat) : Prop := a + la ≤ b ∨ b + lb ≤ a
instance (a la b lb : Nat) : Decidable (disjoint a la b lb) := inferInstanceAs (Decidable (_ ∨ _))

/-- The kernel's contract for acre_mpf / acre_mpl that succeed: a positive id not in use, a non-empty pool, memory that is not part of
another pool (memory supplied by the caller has to be such memory). -/
def acreOk (c : Cfg) (s : PSt) (blkcnt blksz : Nat) (id base len : Nat) : Bool :=
  decide (0 < id) && (s.k id).isNone && decide (c.kind = .fixed → 0 < blkcnt ∧ 0 < blksz) &&
  s.ids.all fun j => match s.k j with
    | some p => decide (disjoint base len p.base p.len)
    | none => true

/-- The kernel's contract for pget_mpf / pget_mpl with the answer `a`: memory inside the pool that is not handed out; a fixed pool hands
out a block exactly when fewer than `blkcnt` are out. -/
def pgetOk (c : Cfg) (p : KPool) (size : Nat) : Option Nat → Bool
  | some a => decide (0 < size ∧ p.base ≤ a ∧ a + size ≤ p.base + p.len) && (p.out.all fun b => decide (disjoint a size b.1 b.2)) &&
      decide (c.kind = .fixed → p.out.length < p.blkcnt)
  | none => decide (c.kind = .fixed → p.blkcnt ≤ p.out.length)

/-- API calls with their results. -/
abbrev Ev := PoolSpec.Call

inductive Act where
  | create (bs size : Nat) (ans : Option (Nat × Nat × Nat))   -- the kernel's answer: id, base, length
  | destroy (i : Nat)
  | alloc (i size : Nat) (ans : Option Nat)
  | dealloc (i : Nat) (a : Option Nat)
  deriving DecidableEq, Repr

def put {α : Type} (f : Nat → α) (i : Nat) (x : α) : Nat → α := fun j => if j = i then x else f j

/-- IF:82-89 the loop: the first slot from `i` on that is not created; `n` are left. -/
def firstFree (s : PSt) : (n i : Nat) → Option Nat
  | 0, _ => none
  | n + 1, i => if (s.slot i).mpf = 0 then some i else firstFree s n (i + 1)

/-- IF:77-79, IV:73-75. -/
def rejects (c : Cfg) (bs size : Nat) : Bool := match c.kind with
  | .fixed => decide (bs = 0) || decide (size = 0)
  | .variable => decide (size = 0)

/-- IF:17-18: blkcnt.  (A kernel whose TSZ_MPF(1, bs) is 0 would make the code divide by zero; see `Contract` in Props/ItronPool.) -/
def blkcnt (c : Cfg) (bs size : Nat) : Nat := size / c.tsz 1 bs

/-- The size of the block that allocate asks for: IF:41 the pool's block size, IV:37 the argument. -/
def want (c : Cfg) (p : KPool) (size : Nat) : Nat := match c.kind with
  | .fixed => p.blksz
  | .variable => size

def step (c : Cfg) (s : PSt) : Act → Option (PSt × List Ev)
  | .create bs size ans =>                                             -- IF:75-91, IV:71-87
    if rejects c bs size then some (s, [.create bs size none])
    else match firstFree s c.N 0 with
      | none => some (s, [.create bs size none])
      | some i => match ans with
        | none => some (s, [.create bs size none])                     -- IF:23-25, 85-87: then break
        | some (id, base, len) =>
          if acreOk c s (blkcnt c bs size) bs id base len then
            some ({ s with slot := put s.slot i ⟨bs, id⟩, k := put s.k id (some ⟨bs, blkcnt c bs size, base, len, []⟩), ids := id :: s.ids },
              [.create bs size (some i)])                              -- IF:26-28
          else none
  | .destroy i =>                                                      -- IF:93-98, 31-36
    if i < c.N then
      some ({ s with slot := put s.slot i ⟨0, 0⟩, k := put s.k (s.slot i).mpf none, ids := s.ids.filter (· ≠ (s.slot i).mpf) }, [.destroy i])
    else none
  | .alloc i size ans =>                                               -- IF:38-46
    if i < c.N then
      match s.k (s.slot i).mpf with
      | none => some (s, [.alloc i size none])                         -- E_ID
      | some p =>
        if pgetOk c p (want c p size) ans then
          match ans with
          | none => some (s, [.alloc i size none])
          | some a => some ({ s with k := put s.k (s.slot i).mpf (some { p with out := (a, want c p size) :: p.out }) }, [.alloc i size (some a)])
        else none
    else none
  | .dealloc i a =>                                                    -- IF:48-53; the kernel ignores an address it did not hand out
    if i < c.N then
      match a with
      | none => some (s, [.dealloc i none])
      | some a => match s.k (s.slot i).mpf with
        | none => some (s, [.dealloc i (some a)])
        | some p => some ({ s with k := put s.k (s.slot i).mpf (some { p with out := p.out.filter (fun b => b.1 ≠ a) }) }, [.dealloc i (some a)])
    else none

/-- IF:100-103 getRequiredMemorySize. -/
def getRequiredMemorySize (c : Cfg) (bs n : Nat) : Nat := c.tsz n bs
/-- IFH:32 getBlockSize. -/
def getBlockSize (s : PSt) (i : Nat) : Nat := (s.slot i).blockSize

end Verif.ItronPool
