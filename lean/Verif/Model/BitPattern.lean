import Verif.Sem.Cmd
/-
Model of `BitPattern<T>` (mechanism/Container/BitPattern.h) with the C++ arithmetic rules.  `T` is an unsigned
integer type of `w` bits (8-bit bytes: `w = sizeof(T) * 8`), `int` has `W` bits.  If `w < W` operands of type `T`
are promoted to (signed) `int`; otherwise arithmetic is done in an unsigned type of `w` bits.
The state is the value of `m_data`.
-/
namespace Verif.Bit
open Verif Cmd

/-- Platform and instantiation. -/
structure Cfg where
  w : Nat
  W : Nat
  dbg : Bool

/-- `static_cast<T>(x)`. -/
def castT (c : Cfg) (x : Int) : Nat := (x % (2 ^ c.w : Nat)).toNat

/-- `static_cast<T>(1U) << pos`: undefined if `pos` is not below the width of the promoted type, or if the
promoted type is `int` and the result does not fit. -/
def shl1 (c : Cfg) (pos : Nat) : Cmd Nat Int :=
  if c.w < c.W then
    if pos + 1 < c.W then pure ((2 ^ pos : Nat) : Int) else Cmd.fault .badShift
  else
    if pos < c.w then pure ((2 ^ pos : Nat) : Int) else Cmd.fault .badShift

/-- `~x` for a promoted operand: in `int` it is `-x - 1`, in unsigned arithmetic `2^w - 1 - x`. -/
def bnot (c : Cfg) (x : Int) : Int :=
  if c.w < c.W then - x - 1 else ((2 ^ c.w : Nat) : Int) - 1 - x

/-- `DEBUG_ASSERT(pos < (sizeof m_data * 8U))`. -/
def assertPos (c : Cfg) (pos : Nat) : Cmd Nat Unit := fun s =>
  if c.dbg && !(decide (pos < c.w)) then .exn .assertFail s else .ok () s

/-- BitPattern.h:23 default constructor. -/
def ctor0 : Nat := 0
/-- BitPattern.h:24 `BitPattern(T pattern)`. -/
def ctor (pattern : Nat) : Nat := pattern
/-- BitPattern.h:26-29 `size()`. -/
def size (c : Cfg) : Nat := c.w
/-- BitPattern.h:31-35 `set()`. -/
def setAll (c : Cfg) : Cmd Nat Unit := modify (fun _ => castT c (bnot c 0))
/-- BitPattern.h:37-42 `set(pos)`; `m_data |= ...` with both operands non-negative. -/
def set (c : Cfg) (pos : Nat) : Cmd Nat Unit := do
  assertPos c pos
  let b ← shl1 c pos
  modify (fun d => castT c ((d ||| castT c b : Nat) : Int))
/-- BitPattern.h:44-48 `reset()`. -/
def resetAll : Cmd Nat Unit := modify (fun _ => 0)
/-- BitPattern.h:50-55 `reset(pos)`. -/
def reset (c : Cfg) (pos : Nat) : Cmd Nat Unit := do
  assertPos c pos
  let b ← shl1 c pos
  modify (fun d => castT c ((d &&& castT c (bnot c b) : Nat) : Int))
/-- BitPattern.h:57-61 `flip()`. -/
def flipAll (c : Cfg) : Cmd Nat Unit := modify (fun d => castT c (bnot c (d : Int)))
/-- BitPattern.h:63-68 `flip(pos)`. -/
def flip (c : Cfg) (pos : Nat) : Cmd Nat Unit := do
  assertPos c pos
  let b ← shl1 c pos
  modify (fun d => castT c ((d ^^^ castT c b : Nat) : Int))
/-- BitPattern.h:70-78 `operator const T&` / `operator T&` (read). -/
def value : Cmd Nat Nat := gets (fun d => d)
/-- BitPattern.h:80-84 `test(pos)`. -/
def test (c : Cfg) (pos : Nat) : Cmd Nat Bool := do
  assertPos c pos
  let b ← shl1 c pos
  gets (fun d => (d &&& castT c b) != 0)
/-- BitPattern.h:86-89 `all()`. -/
def all (c : Cfg) : Cmd Nat Bool := gets (fun d => d == castT c (bnot c 0))
/-- BitPattern.h:91-94 `any()`. -/
def any : Cmd Nat Bool := gets (fun d => d != 0)
/-- BitPattern.h:96-99 `none()`. -/
def none : Cmd Nat Bool := gets (fun d => d == 0)

/-- Public calls. -/
inductive Op where
  | setAll | set (p : Nat) | resetAll | reset (p : Nat) | flipAll | flip (p : Nat) | value | test (p : Nat) | all | any | none
  deriving DecidableEq, Repr
/-- Results of calls. -/
inductive Ret where
  | unit | flag (b : Bool) | num (n : Nat)
  deriving DecidableEq, Repr

/-- One public call. -/
def exec (c : Cfg) : Op → Cmd Nat Ret
  | .setAll => do setAll c; pure .unit
  | .set p => do set c p; pure .unit
  | .resetAll => do resetAll; pure .unit
  | .reset p => do reset c p; pure .unit
  | .flipAll => do flipAll c; pure .unit
  | .flip p => do flip c p; pure .unit
  | .value => do let n ← value; pure (.num n)
  | .test p => do let b ← test c p; pure (.flag b)
  | .all => do let b ← all c; pure (.flag b)
  | .any => do let b ← any; pure (.flag b)
  | .none => do let b ← none; pure (.flag b)

end Verif.Bit
