import Verif.Sem.Lts
import Verif.Spec.ThreadTable
/-
StdCppThreadFactory's table of threads: SF = platform/StdCppOSWrapper/StdCppThreadFactory.cpp (PosixThreadFactory and WindowsThreadFactory
inherit create, destroy and getCurrentThread).
The steps are the sections under m_mutex, SF:181-183, 197-199, 215-217, 232-237, and the join of SF:214.  What start and wait do is C55/C56.
The operating system is represented by its contract: a new thread gets an id that no thread has that is running or not yet joined
(std::thread::id: "the library may reuse the value of a thread::id of a terminated thread that can no longer be joined").
Exceptions inside create are the subject of Model/StdCreate; here a create that fails before or after the thread exists returns null.
-/
namespace Verif.STT
open Verif Verif.TTab

/-- A client. -/
abbrev Tid := Nat

/-- What an operating system thread executes. -/
inductive Job where
  | idle (o : Nat)      -- threadLoop of the StdCppThread `o`, not inside Runnable::run
  | busy (o : Nat)      -- inside Runnable::run of `o`
  | foreign             -- a thread that the factory did not create
  deriving DecidableEq, Repr

structure OsT where
  id : Nat
  job : Job
  deriving DecidableEq, Repr

/-- Where a client is. -/
inductive PC where
  | out                  -- in neither create nor destroy
  | inserting (o : Nat)  -- create, before SF:197
  | joining (o : Nat)    -- destroy, in endThread, SF:214
  | erasing (o : Nat)    -- destroy, before SF:215
  deriving DecidableEq, Repr

structure TSt where
  os : List OsT                -- the threads that exist and are not joined
  obj : Nat → Option Nat       -- StdCppThread objects by address: m_threadId
  map : List (Nat × Nat)       -- m_threadIdMap
  pc : Tid → PC
  busy : List Tid              -- the clients inside create or destroy

def TSt.init : TSt := ⟨[], fun _ => none, [], fun _ => .out, []⟩

inductive Act where
  | create (t : Tid) (ans : Option (Nat × Nat))   -- the address and the id of the new thread, or an exception (SF:189-193)
  | insert (t : Tid) (ok : Bool)                  -- `ok = false`: insert throws
  | destroy (t : Tid) (o : Nat)
  | join (t : Tid)
  | erase (t : Tid)
  | begins (o : Nat)
  | ends (o : Nat)
  | current (id : Nat)                            -- called by the thread `id`
  | newOs (id : Nat) | delOs (id : Nat)           -- other threads of the program
  deriving DecidableEq, Repr

def put {α : Type} (f : Nat → α) (i : Nat) (x : α) : Nat → α := fun j => if j = i then x else f j

/-- unordered_map::insert: nothing happens if the key is there. -/
def mapInsert (m : List (Nat × Nat)) (k v : Nat) : List (Nat × Nat) := if m.any (fun e => e.1 == k) then m else m ++ [(k, v)]
/-- unordered_map::erase(key). -/
def mapErase (m : List (Nat × Nat)) (k : Nat) : List (Nat × Nat) := m.filter fun e => e.1 ≠ k
/-- unordered_map::find. -/
def mapFind (m : List (Nat × Nat)) (k : Nat) : Option Nat := (m.find? fun e => e.1 == k).map (·.2)

/-- No unjoined thread has the id. -/
def freshId (s : TSt) (id : Nat) : Bool := s.os.all fun x => x.id != id

/-- Assumptions about the surroundings that a theorem may make:
`reuse = false`: no new thread gets the id of a thread object that still exists; `serial = true`: create and destroy do not overlap. -/
structure Cfg where
  reuse : Bool
  serial : Bool

def idOk (c : Cfg) (s : TSt) (id : Nat) : Bool := freshId s id && (c.reuse || !s.map.any fun e => e.1 == id)

def who : Job → Who
  | .idle _ => .other       -- library code does not call getCurrentThread there
  | .busy o => .run o
  | .foreign => .other

/-- The thread object is not in a create or destroy. -/
def owned (s : TSt) (o : Nat) : Bool := s.busy.all fun t => match s.pc t with
  | .inserting o' | .joining o' | .erasing o' => o' != o
  | .out => true

def step (c : Cfg) (s : TSt) : Act → Option (TSt × List Call)
  | .create t ans =>                                                      -- SF:173-194
    if s.pc t = .out ∧ (c.serial = true → s.busy = []) then
      match ans with
      | none => some (s, [.create none])
      | some (o, id) =>
        if (s.obj o).isNone && idOk c s id then
          some ({ s with pc := put s.pc t (.inserting o), busy := t :: s.busy, obj := put s.obj o (some id), os := ⟨id, .idle o⟩ :: s.os }, [])
        else none
    else none
  | .insert t ok =>
    match s.pc t with
    | .inserting o => match s.obj o with
      | none => none
      | some id =>
        if ok then                                                        -- SF:197-199
          some ({ s with pc := put s.pc t .out, busy := s.busy.erase t, map := mapInsert s.map id o }, [.create (some o)])
        else                                                              -- SF:202-206
          some ({ s with pc := put s.pc t .out, busy := s.busy.erase t, obj := put s.obj o none, os := s.os.filter fun x => x.id ≠ id }, [.create none])
    | _ => none
  | .destroy t o =>                                                       -- SF:211-214; the client owns the thread object
    if s.pc t = .out ∧ (c.serial = true → s.busy = []) ∧ (s.obj o).isSome ∧ owned s o then
      some ({ s with pc := put s.pc t (.joining o), busy := t :: s.busy }, [])
    else none
  | .join t =>                                                            -- SF:51-61 endThread: wait, then join
    match s.pc t with
    | .joining o => match s.obj o with
      | none => none
      | some id =>
        if s.os.any (fun x => x.id == id && x.job == .idle o) then
          some ({ s with pc := put s.pc t (.erasing o), os := s.os.filter fun x => x.id ≠ id }, [])
        else none
    | _ => none
  | .erase t =>
    match s.pc t with
    | .erasing o => match s.obj o with
      | none => none
      | some id =>                                                        -- SF:215-217
        some ({ s with pc := put s.pc t .out, busy := s.busy.erase t, map := mapErase s.map id, obj := put s.obj o none }, [.destroy o])
    | _ => none
  | .begins o =>
    if owned s o ∧ s.os.any (fun x => x.job == .idle o) then
      some ({ s with os := s.os.map fun x => if x.job = .idle o then { x with job := .busy o } else x }, [.begins o])
    else none
  | .ends o =>
    if s.os.any (fun x => x.job == .busy o) then
      some ({ s with os := s.os.map fun x => if x.job = .busy o then { x with job := .idle o } else x }, [.ends o])
    else none
  | .current id =>                                                        -- SF:230-238
    match s.os.find? (fun x => x.id == id) with
    | none => none
    | some x => match x.job with
      | .idle _ => none
      | j => some (s, [.current (who j) (mapFind s.map id)])
  | .newOs id => if idOk c s id then some ({ s with os := ⟨id, .foreign⟩ :: s.os }, []) else none
  | .delOs id => some ({ s with os := s.os.filter fun x => ¬ (x.id = id ∧ x.job = .foreign) }, [])

end Verif.STT
