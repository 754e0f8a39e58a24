import Verif.Sem.Cmd
/-
Raw storage with object lifetimes, `size_t` arithmetic, element-copy oracles.
-/
namespace Verif

/-- `size_t` addition modulo `M` (both operands below `M`). -/
def uadd (M a b : Nat) : Nat := if a + b < M then a + b else a + b - M
/-- `size_t` subtraction modulo `M`. -/
def usub (M a b : Nat) : Nat := if b ≤ a then a - b else a + M - b
/-- Conversion of a signed value to `size_t`. -/
def toSize (M : Nat) (z : Int) : Nat := (z % (M : Int)).toNat

theorem toSize_of_nonneg {M : Nat} {z : Int} (h0 : 0 ≤ z) (h1 : z < M) : toSize M z = z.toNat := by
  unfold toSize; rw [Int.emod_eq_of_lt h0 h1]

/-- What the code's environment fixes: the word size, the build mode and the element type's behaviour. -/
structure Env (V : Type) where
  /-- `SIZE_MAX + 1` -/
  M : Nat
  /-- `true` iff `NDEBUG` is not defined, i.e. `DEBUG_ASSERT` is active -/
  dbg : Bool
  /-- does the `k`-th element construction/assignment of the run throw? -/
  thr : Nat → Bool
  /-- value left in the target of a copy assignment that threw (number of the copy, old value) -/
  junk : Nat → V → V
  /-- `T()` -/
  dflt : V

/-- Fuel for every loop: more iterations than a `size_t` counter has values. -/
def Env.fuel {V} (E : Env V) : Nat := E.M + 1

/-- State of one container: `nbuf` element slots, which are raw (`none`) or hold a live object,
the copy counter and the two index members (`b` = `m_begin`, unused by vectors; `e` = `m_end`). -/
structure St (V : Type) where
  nbuf : Nat
  slot : Nat → Option V
  cnt : Nat
  b : Nat
  e : Nat

/-- A `const T&` argument: an object outside the container or the element living in a slot of it. -/
inductive Ref (V : Type) where
  | ext (v : V)
  | elem (i : Nat)

/-- Pointwise update. -/
def upd {α : Type} (f : Nat → α) (i : Nat) (a : α) : Nat → α := fun j => if j = i then a else f j

@[simp] theorem upd_same {α : Type} (f : Nat → α) (i : Nat) (a : α) : upd f i a i = a := by simp [upd]
theorem upd_ne {α : Type} (f : Nat → α) {i j : Nat} (a : α) (h : j ≠ i) : upd f i a j = f j := by simp [upd, h]

variable {V : Type}

/-- The object a reference designates, if it is alive. -/
def Ref.get (s : St V) : Ref V → Option V
  | .ext v => some v
  | .elem i => if i < s.nbuf then s.slot i else none

/-- Placement new: `new(p) T(ref)` (private/Construct.h:8-18). -/
def construct (E : Env V) (i : Nat) (r : Ref V) : Cmd (St V) Unit := fun s =>
  if s.nbuf ≤ i then .ub .outOfBounds else
  match s.slot i with
  | some _ => .ub .liveConstruct
  | none =>
    match r.get s with
    | none => .ub .deadRead
    | some v =>
      if E.thr s.cnt then .exn .elemThrow { s with cnt := s.cnt + 1 }
      else .ok () { s with slot := upd s.slot i (some v), cnt := s.cnt + 1 }

/-- Copy assignment `*p = ref`. -/
def assignSlot (E : Env V) (i : Nat) (r : Ref V) : Cmd (St V) Unit := fun s =>
  if s.nbuf ≤ i then .ub .outOfBounds else
  match s.slot i with
  | none => .ub .deadAssign
  | some old =>
    match r.get s with
    | none => .ub .deadRead
    | some v =>
      if E.thr s.cnt then
        .exn .elemThrow { s with slot := upd s.slot i (some (E.junk s.cnt old)), cnt := s.cnt + 1 }
      else .ok () { s with slot := upd s.slot i (some v), cnt := s.cnt + 1 }

/-- Destructor call `p->~T()` (private/Construct.h:20-24). -/
def destroySlot (i : Nat) : Cmd (St V) Unit := fun s =>
  if s.nbuf ≤ i then .ub .outOfBounds else
  match s.slot i with
  | none => .ub .deadDestroy
  | some _ => .ok () { s with slot := upd s.slot i none }

/-- Reading through a reference to a slot. -/
def readSlot (i : Nat) : Cmd (St V) V := fun s =>
  if s.nbuf ≤ i then .ub .outOfBounds else
  match s.slot i with
  | none => .ub .deadRead
  | some v => .ok v s

/-- `DEBUG_ASSERT(c)` (Assertion.h:32-40). -/
def dassert (E : Env V) (c : St V → Bool) : Cmd (St V) Unit := fun s =>
  if E.dbg && !c s then .exn .assertFail s else .ok () s

/-- Dereferencing a position of a caller-supplied source range `[first,last)`. -/
def srcRead (src : List V) (j : Nat) : Cmd (St V) V :=
  match src[j]? with
  | some v => pure v
  | none => Cmd.fault .outOfBounds

theorem Cmd.bind_ok {σ α β : Type} {m : Cmd σ α} {f : α → Cmd σ β} {s s' : σ} {a : α} (h : m s = .ok a s') :
    (m >>= f) s = f a s' := by show Cmd.bind m f s = _; unfold Cmd.bind; rw [h]
theorem Cmd.bind_exn {σ α β : Type} {m : Cmd σ α} {f : α → Cmd σ β} {s s' : σ} {e : Exn} (h : m s = .exn e s') :
    (m >>= f) s = .exn e s' := by show Cmd.bind m f s = _; unfold Cmd.bind; rw [h]
theorem Cmd.bind_left {σ α β : Type} {m m' : Cmd σ α} {f : α → Cmd σ β} {s : σ} (h : m s = m' s) :
    (m >>= f) s = (m' >>= f) s := by show Cmd.bind m f s = Cmd.bind m' f s; unfold Cmd.bind; rw [h]

theorem Cmd.bind_ub {σ α β : Type} {m : Cmd σ α} {k : α → Cmd σ β} {s : σ} {f : Fault} (h : m s = .ub f) : (m >>= k) s = .ub f := by
  show Cmd.bind m k s = _
  simp [Cmd.bind, h]
theorem forN_ub {σ : Type} {fuel n : Nat} {body : Nat → Cmd σ Unit} {s : σ} {f : Fault} (hn : 0 < n) (hf : 0 < fuel) (h : body 0 s = .ub f) :
    forN fuel n body s = .ub f := by
  unfold forN
  apply Cmd.bind_ub
  obtain ⟨k, rfl⟩ : ∃ k, fuel = k + 1 := ⟨fuel - 1, by omega⟩
  simp only [Cmd.loop, hn, decide_true, if_true]
  exact Cmd.bind_ub (Cmd.bind_ub h)

theorem dassert_ok {E : Env V} {c : St V → Bool} {s : St V} (h : c s = true) : dassert E c s = .ok () s := by
  simp [dassert, h]
theorem dassert_fail {E : Env V} {c : St V → Bool} {s : St V} (hd : E.dbg = true) (h : c s = false) :
    dassert E c s = .exn .assertFail s := by simp [dassert, h, hd]

end Verif
