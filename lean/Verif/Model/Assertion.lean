import Verif.Sem.Mem
/-
Model of `Assertion::Failure` and CHECK_ASSERT (mechanism/Assertion/Assertion.h).  Characters are `Char`, the string
terminator is `'\x00'`; C strings handed in by callers are character lists without terminator (the terminator is read at index
`length`; reading further is undefined).  Arrays are bounds-checked and track initialisation.
-/
namespace Verif.Asrt
open Verif Cmd

/-- NUL. -/
def nul : Char := Char.ofNat 0

/-- The character arrays involved: `m_buf`, `lineBuf` (line 84), `tmp` (line 135). -/
inductive Arr where
  | buf | line | tmp
  deriving DecidableEq, Repr

/-- Contents; `none` = not initialised. -/
abbrev Mem := Arr → Nat → Option Char

/-- Array sizes: `CPPELIB_ASSERTION_FAILURE_BUFSIZE` (Assertion.h:6-16, 121), 16 (line 84), TMP_SIZE (line 134). -/
def asize (B : Nat) : Arr → Nat
  | .buf => B
  | .line => 16
  | .tmp => 16

/-- `a[i] = c`. -/
def wr (B : Nat) (a : Arr) (i : Nat) (c : Char) : Cmd Mem Unit := fun m =>
  if i < asize B a then .ok () (fun b => if b = a then upd (m a) i (some c) else m b) else .ub .outOfBounds
/-- `a[i]`. -/
def rd (B : Nat) (a : Arr) (i : Nat) : Cmd Mem Char := fun m =>
  if i < asize B a then
    match m a i with
    | some c => .ok c m
    | none => .ub .deadRead
  else .ub .outOfBounds

/-- A `const char*` argument: a constant string or one of the arrays. -/
inductive Src where
  | str (l : List Char)
  | arr (a : Arr)
/-- `*(from + i)`. -/
def srcRd (B : Nat) : Src → Nat → Cmd Mem Char
  | .str l, i => fun m => if i < l.length then .ok (l.getD i nul) m else if i = l.length then .ok nul m else .ub .outOfBounds
  | .arr a, i => rd B a i

/-- Assertion.h:174-184, the loop of `copyCString`; `n` iterations are left. -/
def copyLoop (B : Nat) (a : Arr) (to size : Nat) (src : Src) : Nat → Nat → Cmd Mem Nat
  | _, 0 => do
    wr B a (to + size - 1) nul
    pure (size - 1)
  | i, n+1 => do
    let c ← srcRd B src i
    if c = nul then do
      wr B a (to + i) nul
      pure i
    else do
      wr B a (to + i) c
      copyLoop B a to size src (i+1) n
/-- Assertion.h:167-185 `copyCString`. -/
def copyCString (B : Nat) (a : Arr) (to size : Nat) (src : Src) : Cmd Mem Nat :=
  if size = 0 then pure 0 else copyLoop B a to size src 0 size
/-- Assertion.h:157-165 `concatCString`; returns the new `buf` (as an offset) and the new `remain`. -/
def concatCString (B : Nat) (a : Arr) (p remain : Nat) (src : Src) : Cmd Mem (Nat × Nat) :=
  if remain ≤ 1 then pure (p, remain)
  else do
    let len ← copyCString B a p remain src
    pure (p + len, remain - len)
/-- Assertion.h:138-144, first loop of `toCString`; `n` iterations are left; returns `i`. -/
def digLoop (B : Nat) : Nat → Nat → Nat → Cmd Mem Nat
  | i, _, 0 => pure i
  | i, val, n+1 =>
    if val = 0 then pure i
    else do
      wr B .tmp i (Nat.digitChar (val % 10))
      digLoop B (i+1) (val / 10) n
/-- Assertion.h:146-154, second loop of `toCString`; `n = tmpLen - i` iterations are left. -/
def outLoop (B : Nat) (size tmpLen : Nat) : Nat → Nat → Cmd Mem Unit
  | _, 0 => wr B .line tmpLen nul
  | i, n+1 =>
    if i < size then do
      let c ← rd B .tmp (tmpLen - i - 1)
      wr B .line i c
      outLoop B size tmpLen (i+1) n
    else wr B .line (size - 1) nul
/-- Assertion.h:129-155 `toCString`, target `lineBuf`. -/
def toCString (B : Nat) (size val : Nat) : Cmd Mem Unit :=
  if size = 0 then pure ()
  else do
    let tmpLen ← digLoop B 0 val 15
    outLoop B size tmpLen 0 tmpLen

/-- `static_cast<unsigned int>(line)` for a `W`-bit `int`. -/
def toUnsigned (W : Nat) (line : Int) : Nat := (line % (2 ^ W : Nat)).toNat

/-- Assertion.h:77-90 `Failure::Failure(file, line, expr)`. -/
def construct (B W : Nat) (file : List Char) (line : Int) (expr : List Char) : Cmd Mem Unit := do
  Cmd.modify (fun m b => if b = .buf then fun _ => some nul else m b)      -- : m_buf()
  let (p, r) ← concatCString B .buf 0 (asize B .buf) (.str file)
  let (p, r) ← concatCString B .buf p r (.str "(".toList)
  toCString B (asize B .line) (toUnsigned W line)
  let (p, r) ← concatCString B .buf p r (.arr .line)
  let (p, r) ← concatCString B .buf p r (.str "): Assertion failed (".toList)
  let (p, r) ← concatCString B .buf p r (.str expr)
  let _ ← concatCString B .buf p r (.str ")".toList)
  pure ()

/-- Read `m_buf` as a C string (Assertion.h:97-100 `message()` as the caller sees it): the characters before the first NUL;
`none` if there is none inside the array. -/
def readStr (B : Nat) (m : Mem) : Nat → Nat → Option (List Char)
  | _, 0 => none
  | i, n+1 =>
    match m .buf i with
    | none => none
    | some c => if c = nul then some [] else (readStr B m (i+1) n).map (c :: ·)
/-- Assertion.h:97-100 `message()`. -/
def message (B : Nat) (m : Mem) : Option (List Char) := readStr B m 0 B

/-! #### Control flow of a failing assertion -/

/-- Observable events of an assertion. -/
inductive Ev where
  | handled (h : Nat) (msg : List Char)      -- handler `h` called with the message
  deriving DecidableEq, Repr
/-- How evaluating CHECK_ASSERT ends. -/
inductive End where
  | continues                   -- the next statement runs
  | throwsFailure (msg : List Char)
  | throwsOther (e : Nat)       -- exception thrown by the handler
  | never                       -- the handler does not return (abort, endless loop)
  deriving DecidableEq, Repr
/-- What a handler does when called. -/
inductive HBeh where
  | returns | throws (e : Nat) | noReturn
  deriving DecidableEq, Repr

/-- Assertion.h:103-113 `assertFail`: `handler` is the registered pointer (`none` = null), `beh` what it does, `excs` tells
whether exceptions are enabled (CPPELIB_NO_EXCEPTIONS not defined). -/
def assertFail (excs : Bool) (handler : Option Nat) (beh : Nat → List Char → HBeh) (msg : List Char) : List Ev × End :=
  let fin := if excs then End.throwsFailure msg else End.continues
  match handler with
  | none => ([], fin)
  | some h =>
    match beh h msg with
    | .returns => ([.handled h msg], fin)
    | .throws e => ([.handled h msg], .throwsOther e)
    | .noReturn => ([.handled h msg], .never)

/-- Assertion.h:28-29 `CHECK_ASSERT(x)`, with the message `Failure::Failure` builds from `file`, `line`, `#x`;
`none` if building it is undefined. -/
def checkAssert (B W : Nat) (excs : Bool) (handler : Option Nat) (beh : Nat → List Char → HBeh) (x : Bool)
    (file : List Char) (line : Int) (expr : List Char) (m : Mem) : Option (List Ev × End) :=
  if x then some ([], .continues)
  else
    match construct B W file line expr m with
    | .ok _ m' => (message B m').map (assertFail excs handler beh)
    | _ => none

/-- Assertion.h:32-40 `DEBUG_ASSERT(x)`: `ndebug` tells whether NDEBUG is defined. -/
def debugAssert (ndebug : Bool) (B W : Nat) (excs : Bool) (handler : Option Nat) (beh : Nat → List Char → HBeh) (x : Bool)
    (file : List Char) (line : Int) (expr : List Char) (m : Mem) : Option (List Ev × End) :=
  if ndebug then some ([], .continues) else checkAssert B W excs handler beh x file line expr m

/-- Assertion.h:115-118, 123-127: the registered handler after a sequence of `setHandler` calls (initially null). -/
def handlerAfter (calls : List (Option Nat)) : Option Nat := calls.foldl (fun _ h => h) none

end Verif.Asrt
