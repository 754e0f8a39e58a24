import Verif.Sem.Cmd
/-
Model of the thread-priority arithmetic: mechanism/OSWrapper/Thread.cpp:182-230, platform/PosixOSWrapper/
PosixThreadFactory.cpp:25-140, platform/WindowsOSWrapper/WindowsThreadFactory.cpp:30-120,
platform/StdCppOSWrapper/StdCppThreadFactory.cpp:236-258.  `int` has `W` bits; signed overflow is undefined and modelled as `none`.
-/
namespace Verif.Prio

/-- A priority range as handed to the factory: (lowest, highest) in urgency, in either numeric direction. -/
structure Range where
  lowest : Int
  highest : Int
  deriving DecidableEq, Repr

/-- `getMaxPriority` (PosixThreadFactory.cpp:114-121, WindowsThreadFactory.cpp:108-115). -/
def maxP (r : Range) : Int := if r.lowest < r.highest then r.highest else r.lowest
/-- `getMinPriority` (PosixThreadFactory.cpp:123-130, WindowsThreadFactory.cpp:117-124). -/
def minP (r : Range) : Int := if r.lowest < r.highest then r.lowest else r.highest
/-- StdCppThreadFactory.cpp:236-254: all four getters return 0. -/
def stdCpp : Range := ⟨0, 0⟩

/-- `x` is representable in a `W`-bit `int`. -/
def fits (W : Nat) (x : Int) : Bool := decide (-(2 ^ (W-1) : Int) ≤ x) && decide (x < 2 ^ (W-1))
/-- The result of an `int` operation. -/
def chk (W : Nat) (x : Int) : Option Int := if fits W x then some x else none

/-- Thread.cpp:194-198 `getNormalPriority`; `/` on `int` truncates toward zero. -/
def normalP (W : Nat) (r : Range) : Option Int := do
  let s ← chk W (minP r + maxP r)
  pure (s.tdiv 2)

/-- Thread.cpp:212-230 `getPriorityHigherThan(basePriority, d)`. -/
def higherThan (W : Nat) (r : Range) (base d : Int) : Option Int := do
  let ret ← if r.lowest < r.highest then chk W (base + d) else chk W (base - d)
  if ret ≤ minP r then pure (minP r)
  else if ret ≥ maxP r then pure (maxP r)
  else pure ret

/-- `std::unordered_map<int,int>`. -/
abbrev PMap := Int → Option Int
/-- `m_prioMap.insert(std::make_pair(i, v))`: never overwrites. -/
def ins (m : PMap) (i v : Int) : PMap := fun j => if j = i then some ((m i).getD v) else m j

/-- The loops of `setPriorityRange`: `n` iterations with control variable `i` going in steps of `s` (1 or -1), each inserting
`(i, val p)` and then replacing `p` by `bump p`; the control variable must not overflow. -/
def fill (W : Nat) (s : Int) (val bump : Int → Int) : Nat → Int → Int → PMap → Option PMap
  | 0, _, _, m => some m
  | n+1, i, p, m => do
    let i' ← chk W (i + s)
    fill W s val bump n i' (bump p) (ins m i (val p))

/-- Number of iterations of `for (i = a; i <= b; ++i)`. -/
def upTo (a b : Int) : Nat := (b - a + 1).toNat
/-- Number of iterations of `for (i = a; i >= b; --i)`. -/
def downTo (a b : Int) : Nat := (a - b + 1).toNat

/-- PosixThreadFactory.cpp:70-107 `setPriorityRange`: `dflt` is `m_defaultPriority`, `[rrMin, rrMax]` the SCHED_RR range. -/
def posixMap (W : Nat) (dflt rrMin rrMax : Int) (r : Range) : Option PMap := do
  let s ← chk W (r.lowest + r.highest)
  let mid := s.tdiv 2
  let bump := fun p => if p < rrMax then p + 1 else p          -- lines 86-88, 102-104
  if r.lowest < r.highest then do
    let m ← fill W 1 (fun p => p) bump (upTo (mid + 1) r.highest) (mid + 1) rrMin (fun _ => none)      -- 83-89
    fill W (-1) (fun _ => dflt) (fun p => p) (downTo mid r.lowest) mid 0 m                             -- 91-93
  else do
    let m ← fill W 1 (fun _ => dflt) (fun p => p) (upTo mid r.lowest) mid 0 (fun _ => none)            -- 95-97
    fill W (-1) (fun p => p) bump (downTo (mid - 1) r.highest) (mid - 1) rrMin m                       -- 99-105

/-- winbase.h values: THREAD_PRIORITY_TIME_CRITICAL, IDLE, NORMAL, HIGHEST, LOWEST. -/
def timeCritical : Int := 15
def idle : Int := -15
def normal : Int := 0
def highestW : Int := 2
def lowestW : Int := -2

/-- WindowsThreadFactory.cpp:58-101 `setPriorityRange`. -/
def winMap (W : Nat) (r : Range) : Option PMap := do
  let m := ins (ins (fun _ => none) r.highest timeCritical) r.lowest idle           -- 64-65
  let s ← chk W (r.lowest + r.highest)
  let mid := s.tdiv 2
  let bumpUp := fun d => if normal + d < highestW then d + 1 else d
  let bumpDn := fun d => if normal - d > lowestW then d + 1 else d
  if r.lowest < r.highest then do
    let m ← fill W 1 (fun d => normal + d) bumpUp (upTo mid (r.highest - 1)) mid 0 m              -- 69-75
    fill W (-1) (fun d => normal - d) bumpDn (downTo (mid - 1) (r.lowest + 1)) (mid - 1) 1 m      -- 77-83
  else do
    let m ← fill W 1 (fun d => normal - d) bumpDn (upTo mid (r.lowest - 1)) mid 0 m               -- 85-91
    fill W (-1) (fun d => normal + d) bumpUp (downTo (mid - 1) (r.highest + 1)) (mid - 1) 1 m     -- 93-99

/-- PosixThreadFactory.cpp:25-51 / WindowsThreadFactory.cpp:30-50 `setPriority(priority)`: `cur` is the priority of the calling
thread (`none` when it is not an OSWrapper thread).  Result: the stored priority and the native one handed to the OS;
`none` models `m_prioMap.at` throwing or an overflow. -/
def setPriority (W : Nat) (r : Range) (pm : PMap) (cur : Option Int) (priority : Int) : Option (Int × Int) :=
  if minP r ≤ priority ∧ priority ≤ maxP r then (pm priority).map (fun v => (priority, v))
  else do
    let p ← match cur with
      | none => normalP W r
      | some p => pure p
    (pm p).map (fun v => (p, v))

end Verif.Prio
