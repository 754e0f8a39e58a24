import Verif.Sem.Lts
import Verif.Spec.Pool
/-
The StdCpp memory pools: SF = platform/StdCppOSWrapper/StdCppFixedMemoryPoolFactory.cpp, SV = StdCppVariableMemoryPoolFactory.cpp (the Posix
and Windows factories are subclasses without changes).  One model with a `Kind`.
malloc, free, new and delete are represented by their contract: an action carries the answer and is possible only if the contract allows it.
Each call is one step: the pools have no state of their own that changes (SF:9), the factories' mutexes protect nothing else.
Memory for the pool objects themselves is not part of `heap`.
-/
namespace Verif.StdPool
open Verif PoolSpec

inductive Kind where
  | fixed | variable
  deriving DecidableEq, Repr

/-- The heap: address and length of every block malloc has handed out and free has not taken back; the pool objects (their m_blockSize). -/
structure HSt where
  pool : Nat → Option Nat
  heap : List (Nat × Nat)
  ub : Bool            -- free was called with an address that is not that of a block

def HSt.init : HSt := ⟨fun _ => none, [], false⟩

inductive Act where
  | create (bs size : Nat) (base : Option Nat) (ans : Option Nat)   -- memoryPoolAddress; the pool object `new` gives, if any
  | destroy (i : Nat)
  | alloc (i size : Nat) (ans : Option Nat)                         -- malloc's answer
  | dealloc (i : Nat) (a : Option Nat)
  deriving DecidableEq, Repr

def put {α : Type} (f : Nat → α) (i : Nat) (x : α) : Nat → α := fun j => if j = i then x else f j

/-- SF:16-19 malloc(m_blockSize), SV:13-16 malloc(size). -/
def want (k : Kind) (bs size : Nat) : Nat := match k with
  | .fixed => bs
  | .variable => size

/-- Contract of malloc: not null, an address of its own, sharing no byte with any block in use. -/
def mallocOk (s : HSt) (a n : Nat) : Bool :=
  decide (0 < a) && s.heap.all fun b => decide (b.1 ≠ a ∧ (a + n ≤ b.1 ∨ b.1 + b.2 ≤ a))

/-- SF:40-42, SV:31-33. -/
def rejects (k : Kind) (bs size : Nat) : Bool := match k with
  | .fixed => decide (bs = 0) || decide (size = 0)
  | .variable => decide (size = 0)

def step (k : Kind) (s : HSt) : Act → Option (HSt × List Call)
  | .create bs size _ ans =>                                              -- SF:37-55, SV:28-46: memoryPoolAddress is not used
    if rejects k bs size then some (s, [.create bs size none])
    else match ans with
      | none => some (s, [.create bs size none])                          -- new threw
      | some i => if s.pool i = none then some ({ s with pool := put s.pool i (some bs) }, [.create bs size (some i)]) else none
  | .destroy i =>                                                         -- SF:57-61, SV:48-52
    if s.pool i ≠ none then some ({ s with pool := put s.pool i none }, [.destroy i]) else none
  | .alloc i size ans => match s.pool i with                              -- SF:16-19, SV:13-16
    | none => none
    | some bs => match ans with
      | none => some (s, [.alloc i size none])
      | some a =>
        if mallocOk s a (want k bs size) then some ({ s with heap := (a, want k bs size) :: s.heap }, [.alloc i size (some a)]) else none
  | .dealloc i a => match s.pool i with                                   -- SF:21-24, SV:18-21
    | none => none
    | some _ => match a with
      | none => some (s, [.dealloc i none])                               -- free(NULL) does nothing
      | some a =>
        some ({ s with heap := s.heap.filter (fun b => b.1 ≠ a), ub := s.ub || !(s.heap.any fun b => b.1 == a) }, [.dealloc i (some a)])

/-- SF:63-66 getRequiredMemorySize, on size_t of `M` values. -/
def getRequiredMemorySize (M bs n : Nat) : Nat := bs * n % M
/-- SF:26-29 getBlockSize. -/
def getBlockSize (s : HSt) (i : Nat) : Option Nat := s.pool i

end Verif.StdPool
