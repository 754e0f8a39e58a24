import Verif.Sem.Lts
import Verif.Spec.ThreadTable
/-
The ITRON thread factory: IT = platform/ItronOSWrapper/ItronThreadFactory.cpp.
create, destroy (after its wait, which is C75's subject) and getCurrentThread's search run under the factory's mutex (IT:284, 321, 350), and
nothing else writes the table: one atomic step each.  The table (FixedVector<IDMap, MAX_THREADS>) is a list; push_back at the end and erase of
one element are its operations by C01-C06.
The kernel is represented by its contract: an action carries the kernel's answers, and is possible only if the contract allows them.  Kernel
objects that do not belong to the factory (`ours = false`) come and go at any time.
Not modelled: a factory whose own mutex could not be created (`Lock` ignores the error; the table is then unguarded); a client that starts a
thread that is being destroyed.
-/
namespace Verif.ITT
open Verif Verif.TTab

/-- `N` = MAX_THREADS; `pool`: the factory's acre_mpf succeeded (IT:260-264). -/
structure Cfg where
  N : Nat
  pool : Bool

/-- What a task does. -/
inductive Job where
  | dormant
  | entry (o : Nat)     -- threadEntry((void*) o), IT:70-76
  | foreign             -- code of another task
  deriving DecidableEq, Repr

structure Task where
  id : Nat
  ours : Bool
  job : Job
  deriving DecidableEq, Repr

/-- An event flag or a mutex of the kernel. -/
structure KObj where
  id : Nat
  ours : Bool
  deriving DecidableEq, Repr

/-- IT: ItronThread's members m_taskId, m_evWait, m_mtxId. -/
structure Obj where
  taskId : Nat
  evWait : Nat
  mtxId : Nat
  deriving DecidableEq, Repr

structure TSt where
  tsk : List Task            -- kernel: tasks
  flg : List KObj            -- kernel: event flags
  mtx : List KObj            -- kernel: mutexes
  blk : List Nat             -- kernel: blocks of the factory's pool handed out
  obj : Nat → Option Obj     -- constructed ItronThread objects by address
  map : List (Nat × Nat)     -- m_threadIdMap: tid, thread

def TSt.init : TSt := ⟨[], [], [], [], fun _ => none, []⟩

/-- The kernel's answers to one create. -/
structure Ans where
  blk : Option Nat
  tsk : Option Nat
  flg : Option Nat
  mtx : Option Nat
  deriving DecidableEq, Repr

inductive Act where
  | create (a : Ans)
  | destroy (o : Nat)
  | start (o : Nat)
  | finish (tid : Nat)
  | current (tid : Option Nat)          -- by the task `tid`, or in a non-task context
  | newTsk (id : Nat) | newFlg (id : Nat) | newMtx (id : Nat)     -- the rest of the system
  | delTsk (id : Nat) | delFlg (id : Nat) | delMtx (id : Nat)
  deriving DecidableEq, Repr

def put {α : Type} (f : Nat → α) (i : Nat) (x : α) : Nat → α := fun j => if j = i then x else f j

/-- Contract of acre_tsk: a positive id not in use. -/
def freshTsk (s : TSt) (id : Nat) : Bool := decide (0 < id) && s.tsk.all (fun x => x.id != id)
/-- Contract of acre_flg, acre_mtx. -/
def fresh (l : List KObj) (id : Nat) : Bool := decide (0 < id) && l.all (fun x => x.id != id)

/-- del_tsk: only a dormant task is deleted. -/
def delTsk (s : TSt) (id : Nat) : TSt := { s with tsk := s.tsk.filter fun x => ¬ (x.id = id ∧ x.job = .dormant) }
/-- del_flg. -/
def delFlg (s : TSt) (id : Nat) : TSt := { s with flg := s.flg.filter fun x => x.id ≠ id }
/-- del_mtx. -/
def delMtx (s : TSt) (id : Nat) : TSt := { s with mtx := s.mtx.filter fun x => x.id ≠ id }

/-- IT:89-130 the constructor, as far as kernel objects are concerned; `none`: the kernel's answers break its contract.
The members are initialized to 0 (IT:91). -/
def ctor (s : TSt) (a : Ans) : Option (TSt × Obj) :=
  match a.tsk with
  | none => some (s, ⟨0, 0, 0⟩)                                                        -- IT:106-108
  | some t =>
    if freshTsk s t then
      let s1 := { s with tsk := ⟨t, true, .dormant⟩ :: s.tsk }
      match a.flg with
      | none => some (delTsk s1 t, ⟨0, 0, 0⟩)                                          -- IT:112-115
      | some f =>
        if fresh s1.flg f then
          let s2 := { s1 with flg := ⟨f, true⟩ :: s1.flg }
          match a.mtx with
          | none => some (delTsk (delFlg s2 f) t, ⟨0, 0, 0⟩)                           -- IT:120-124
          | some m =>
            if fresh s2.mtx m then some ({ s2 with mtx := ⟨m, true⟩ :: s2.mtx }, ⟨t, f, m⟩)   -- IT:126-128
            else none
        else none
    else none

/-- IT:132-139 the destructor. -/
def dtor (s : TSt) (x : Obj) : TSt :=
  if 0 < x.taskId then delMtx (delFlg (delTsk s x.taskId) x.evWait) x.mtxId else s

/-- rel_mpf, and the object is gone. -/
def relBlk (s : TSt) (p : Nat) : TSt := { s with blk := s.blk.filter (· ≠ p), obj := put s.obj p none }

/-- IT:320-325: erase the first entry with the id. -/
def eraseId (m : List (Nat × Nat)) (tid : Nat) : List (Nat × Nat) := m.eraseP fun e => e.1 == tid

/-- IT:351-356. -/
def find (m : List (Nat × Nat)) (tid : Nat) : Option Nat := (m.find? fun e => e.1 == tid).map (·.2)

/-- Who executes on the task. -/
def who : Job → Option Who
  | .dormant => none
  | .entry o => some (.run o)
  | .foreign => some .other

def step (c : Cfg) (s : TSt) : Act → Option (TSt × List Call)
  | .create a =>                                                                      -- IT:282-315
    if c.pool = false then some (s, [.create none])                                   -- IT:285-287
    else if c.N ≤ s.map.length then some (s, [.create none])                          -- IT:289-291
    else match a.blk with
      | none => if c.N ≤ s.blk.length then some (s, [.create none]) else none         -- IT:295-297; pget_mpf fails only if no block is left
      | some p =>
        if 0 < p ∧ p ∉ s.blk ∧ s.blk.length < c.N then                                -- pget_mpf's contract; so p ≠ 0, IT:298-300
          match ctor { s with blk := p :: s.blk } a with
          | none => none
          | some (s1, x) =>
            if 0 < x.taskId then                                                      -- IT:303
              some ({ s1 with obj := put s1.obj p (some x), map := s1.map ++ [(x.taskId, p)] }, [.create (some p)])   -- IT:309-314
            else some (relBlk (dtor s1 x) p, [.create none])                          -- IT:304-306
        else none
  | .destroy o =>                                                                     -- IT:317-330
    match s.obj o with
    | none => none
    | some x =>
      if s.tsk.any (fun t => t.id == x.taskId && t.job == .dormant) then              -- IT:320 wait() has returned
        some (relBlk (dtor { s with map := eraseId s.map x.taskId } x) o, [.destroy o])
      else none
  | .start o =>                                                                       -- IT:155 sta_tsk(m_taskId, this) that succeeds
    match s.obj o with
    | none => none
    | some x =>
      if s.tsk.any (fun t => t.id == x.taskId && t.job == .dormant) then
        some ({ s with tsk := s.tsk.map fun t => if t.id = x.taskId then { t with job := .entry o } else t }, [.begins o])
      else none
  | .finish tid =>                                                                    -- threadEntry returns: the task is dormant
    match s.tsk.find? (fun t => t.id == tid) with
    | some ⟨_, _, .entry o⟩ =>
      some ({ s with tsk := s.tsk.map fun t => if t.id = tid then { t with job := .dormant } else t }, [.ends o])
    | _ => none
  | .current none => some (s, [.current .isr none])                                   -- IT:344-347
  | .current (some tid) =>                                                            -- IT:348-357
    match s.tsk.find? (fun t => t.id == tid) with
    | none => none
    | some t => match who t.job with
      | none => none
      | some w => some (s, [.current w (find s.map tid)])
  | .newTsk id => if freshTsk s id then some ({ s with tsk := ⟨id, false, .foreign⟩ :: s.tsk }, []) else none
  | .newFlg id => if fresh s.flg id then some ({ s with flg := ⟨id, false⟩ :: s.flg }, []) else none
  | .newMtx id => if fresh s.mtx id then some ({ s with mtx := ⟨id, false⟩ :: s.mtx }, []) else none
  | .delTsk id => some ({ s with tsk := s.tsk.filter fun x => ¬ (x.id = id ∧ x.ours = false) }, [])
  | .delFlg id => some ({ s with flg := s.flg.filter fun x => ¬ (x.id = id ∧ x.ours = false) }, [])
  | .delMtx id => some ({ s with mtx := s.mtx.filter fun x => ¬ (x.id = id ∧ x.ours = false) }, [])

end Verif.ITT
