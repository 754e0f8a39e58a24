import Verif.Model.Priority
/-
Properties C33–C36: thread priorities.  Specification: `urgency r p` grows with the urgency of priority `p`
in the range `r`, whichever numeric direction the platform uses.
-/
namespace Verif.Props.Priority
open Verif Prio

/-- How urgent a priority is: the numeric distance from the lowest priority towards the highest. -/
def urgency (r : Range) (p : Int) : Int := if r.lowest < r.highest then p - r.lowest else r.lowest - p
/-- Priorities between the two ends of the range. -/
def InRange (r : Range) (p : Int) : Prop := (r.lowest ≤ p ∧ p ≤ r.highest) ∨ (r.highest ≤ p ∧ p ≤ r.lowest)
/-- No `int` overflow for these two end points and everything between and one beyond. -/
def Sane (W : Nat) (r : Range) : Prop :=
  fits W (r.lowest + r.highest) = true ∧ fits W (r.lowest - 1) = true ∧ fits W (r.lowest + 1) = true ∧
  fits W (r.highest - 1) = true ∧ fits W (r.highest + 1) = true

theorem inRange_iff (r : Range) (p : Int) : InRange r p ↔ minP r ≤ p ∧ p ≤ maxP r := by
  unfold InRange minP maxP; grind

theorem chk_some {W : Nat} {x y : Int} : chk W x = some y ↔ fits W x = true ∧ x = y := by
  unfold chk; split <;> simp_all

/-! #### C33 -/

/-- C33: without `int` overflow the call yields a priority within the range. -/
theorem C33_clamped (W : Nat) (r : Range) (base d p : Int) (h : higherThan W r base d = some p) : minP r ≤ p ∧ p ≤ maxP r := by
  unfold higherThan at h
  have : minP r ≤ maxP r := by unfold minP maxP; grind
  simp only [bind, Option.bind, pure] at h
  grind

/-- C33: it is defined exactly when the result of the addition or subtraction is an `int` of `W` bits. -/
theorem C33_defined (W : Nat) (r : Range) (base d : Int) :
    (higherThan W r base d).isSome = true ↔
      -(2 ^ (W - 1) : Int) ≤ (if r.lowest < r.highest then base + d else base - d) ∧ (if r.lowest < r.highest then base + d else base - d) ≤ 2 ^ (W - 1) - 1 := by
  unfold higherThan chk fits
  simp only [bind, Option.bind, pure]
  grind

/-- C33: the result is `d` steps more urgent than the base, clamped to the range, for every base and every `d` (also negative). -/
theorem C33_steps (W : Nat) (r : Range) (base d p : Int) (h : higherThan W r base d = some p) :
    urgency r p = max 0 (min (urgency r r.highest) (urgency r base + d)) := by
  unfold higherThan chk at h
  simp only [bind, Option.bind, pure] at h
  unfold urgency
  unfold minP maxP at h
  grind

/-- C33: for `d ≥ 0` and a base in range the result is at least as urgent as the base, exactly `d` steps unless clamped at the highest. -/
theorem C33_directed (W : Nat) (r : Range) (base d p : Int) (h : higherThan W r base d = some p) (hd : 0 ≤ d) (hb : InRange r base) :
    urgency r base ≤ urgency r p ∧ (urgency r p = urgency r base + d ∨ p = r.highest) := by
  have h1 := C33_steps W r base d p h
  have h2 := C33_clamped W r base d p h
  rw [inRange_iff] at hb
  unfold urgency minP maxP at *
  grind

example : higherThan 32 ⟨255, 1⟩ 128 2 = some 126 ∧ higherThan 32 ⟨1, 9⟩ 5 2 = some 7 ∧ higherThan 32 ⟨255, 1⟩ 2 100 = some 1 := by decide

/-! #### C34 -/

/-- The full property: whatever the platform range, min < normal < max. -/
def C34_full : Prop := ∀ (W : Nat) (r : Range) (n : Int), normalP W r = some n → minP r < n ∧ n < maxP r

/-- C34 does not hold as documented: the StdCpp platform has a single priority. -/
theorem C34_full_false : ¬ C34_full := by
  intro h
  have := h 32 stdCpp 0 (by decide)
  revert this; decide

/-- The StdCpp platform: one priority, 0, is the lowest, the highest and the normal one, and nothing is higher. -/
theorem C34_stdCpp (W : Nat) : minP stdCpp = 0 ∧ maxP stdCpp = 0 ∧ normalP W stdCpp = some 0 ∧
    ∀ d : Int, -(2 ^ (W - 1) : Int) < d → d < 2 ^ (W - 1) → higherThan W stdCpp 0 d = some 0 := by
  have hp : (0 : Int) < 2 ^ (W - 1) := Int.pow_pos (by decide)
  refine ⟨by decide, by decide, ?_, ?_⟩
  · simp [normalP, stdCpp, minP, maxP, chk, fits, hp, Int.le_of_lt hp, bind, Option.bind]
  · intro d h1 h2
    unfold higherThan chk fits
    simp only [bind, Option.bind, pure, stdCpp, minP, maxP]
    grind

/-- C34, the part that holds: strictly between whenever min and max are at least two apart; in general between (inclusive). -/
theorem C34_normal_partial (W : Nat) (r : Range) (n : Int) (h : normalP W r = some n) :
    (minP r ≤ n ∧ n ≤ maxP r) ∧ (minP r + 2 ≤ maxP r → minP r < n ∧ n < maxP r) := by
  unfold normalP at h
  simp only [bind, Option.bind, pure] at h
  split at h
  · simp at h
  · next heq =>
    rw [chk_some] at heq
    obtain ⟨_, rfl⟩ := heq
    simp only [Option.some.injEq] at h
    have hm : minP r ≤ maxP r := by unfold minP maxP; grind
    generalize minP r = a at *
    generalize maxP r = b at *
    rw [Int.tdiv_eq_ediv] at h
    grind

/-- C34: it is the middle: the distances to both ends differ by at most one. -/
theorem C34_middle_partial (W : Nat) (r : Range) (n : Int) (h : normalP W r = some n) :
    (n - minP r) - (maxP r - n) ≤ 1 ∧ (maxP r - n) - (n - minP r) ≤ 1 := by
  unfold normalP at h
  simp only [bind, Option.bind, pure] at h
  split at h
  · simp at h
  · next heq =>
    rw [chk_some] at heq
    obtain ⟨_, rfl⟩ := heq
    simp only [Option.some.injEq] at h
    have hm : minP r ≤ maxP r := by unfold minP maxP; grind
    generalize minP r = a at *
    generalize maxP r = b at *
    rw [Int.tdiv_eq_ediv] at h
    grind

example : normalP 32 ⟨255, 1⟩ = some 128 ∧ normalP 32 ⟨0, 0⟩ = some 0 := by decide

/-! #### The filling loops -/

/-- `bump` iterated. -/
def iter (bump : Int → Int) : Nat → Int → Int
  | 0, p => p
  | n+1, p => iter bump n (bump p)

theorem fill_spec {W : Nat} {s : Int} (hs : s = 1 ∨ s = -1) {val bump : Int → Int} :
    ∀ n i p m, (∀ k : Nat, k < n → fits W (i + s * (k + 1)) = true) →
      ∃ m', fill W s val bump n i p m = some m' ∧
        (∀ k : Nat, k < n → m' (i + s * k) = some ((m (i + s * k)).getD (val (iter bump k p)))) ∧
        (∀ j, (∀ k : Nat, k < n → j ≠ i + s * k) → m' j = m j) := by
  intro n
  induction n with
  | zero => intro i p m _; exact ⟨m, rfl, fun k h => absurd h (by omega), fun _ _ => rfl⟩
  | succ n ih =>
    intro i p m hf
    obtain ⟨m', h1, h2, h3⟩ := ih (i + s) (bump p) (ins m i (val p)) (by
      intro k hk
      have := hf (k+1) (by omega)
      rw [show i + s + s * ((k : Int) + 1) = i + s * (((k + 1 : Nat) : Int) + 1) by rcases hs with rfl | rfl <;> omega]
      exact this)
    refine ⟨m', ?_, ?_, ?_⟩
    · have h0 := hf 0 (by omega)
      simp only [Int.natCast_zero, Int.zero_add, Int.mul_one] at h0
      simp only [fill, chk, h0, if_true, bind, Option.bind]
      exact h1
    · intro k hk
      cases k with
      | zero =>
        have := h3 i (by intro k hk; rcases hs with rfl | rfl <;> omega)
        simp only [Int.natCast_zero, Int.mul_zero, Int.add_zero]
        rw [this]; simp [ins, iter]
      | succ k =>
        have := h2 k (by omega)
        rw [show i + s * ((k+1 : Nat) : Int) = i + s + s * (k : Int) by rcases hs with rfl | rfl <;> omega]
        rw [this]
        have hne : i + s + s * (k : Int) ≠ i := by rcases hs with rfl | rfl <;> omega
        simp [ins, hne, iter]
    · intro j hj
      have h0 := hj 0 (by omega)
      simp at h0
      rw [h3 j (by
        intro k hk
        have := hj (k+1) (by omega)
        rcases hs with rfl | rfl <;> omega)]
      simp [ins, h0]

theorem iter_const (n : Nat) (p : Int) : iter (fun p => p) n p = p := by
  induction n generalizing p with
  | zero => rfl
  | succ n ih => exact ih p

theorem iter_up {top : Int} (n : Nat) (p : Int) : iter (fun p => if p < top then p + 1 else p) n p = max p (min (p + n) top) := by
  induction n generalizing p with
  | zero => simp only [iter]; omega
  | succ n ih => simp only [iter]; rw [ih]; grind

theorem fits_between {W : Nat} {a b x : Int} (ha : fits W a = true) (hb : fits W b = true) (h1 : a ≤ x) (h2 : x ≤ b) : fits W x = true := by
  simp only [fits, Bool.and_eq_true, decide_eq_true_eq] at *
  omega

/-! #### C35: the Posix map -/

/-- The map of PosixThreadFactory in closed form: priorities up to the middle get the default, the `k`-th above it gets
`min (rrMin + k - 1) rrMax` (never below `rrMin`). -/
theorem posix_closed {W : Nat} {dflt rrMin rrMax : Int} {r : Range} (hs : Sane W r) :
    ∃ pm mid, normalP W r = some mid ∧ posixMap W dflt rrMin rrMax r = some pm ∧
      ∀ p, InRange r p → pm p = some (if urgency r p ≤ urgency r mid then dflt
        else max rrMin (min (rrMin + (urgency r p - urgency r mid - 1)) rrMax)) := by
  obtain ⟨f0, f1, f2, f3, f4⟩ := hs
  have hn : normalP W r = some ((r.lowest + r.highest).tdiv 2) := by
    have : minP r + maxP r = r.lowest + r.highest := by unfold minP maxP; grind
    simp only [normalP, this, chk, f0, if_true, bind, Option.bind, pure]
  obtain ⟨hmid, _⟩ := C34_normal_partial W r _ hn
  generalize hM : (r.lowest + r.highest).tdiv 2 = mid at *
  unfold minP maxP at hmid
  by_cases hdir : r.lowest < r.highest
  · simp only [if_pos hdir] at hmid
    obtain ⟨m1, e1, g1, g1'⟩ := fill_spec (W := W) (s := 1) (Or.inl rfl) (val := fun p => p)
      (bump := fun p => if p < rrMax then p + 1 else p) (upTo (mid+1) r.highest) (mid+1) rrMin (fun _ => none)
      (by intro k hk; unfold upTo at hk; exact fits_between f1 f4 (by omega) (by omega))
    obtain ⟨m2, e2, g2, g2'⟩ := fill_spec (W := W) (s := -1) (Or.inr rfl) (val := fun _ => dflt)
      (bump := fun p => p) (downTo mid r.lowest) mid 0 m1
      (by intro k hk; unfold downTo at hk; exact fits_between f1 f4 (by omega) (by omega))
    refine ⟨m2, mid, hn, ?_, ?_⟩
    · simp only [posixMap, chk, f0, if_true, bind, Option.bind, hM, if_pos hdir, e1, e2]
    · intro p hp
      have hp' : r.lowest ≤ p ∧ p ≤ r.highest := by unfold InRange at hp; omega
      simp only [urgency, if_pos hdir]
      by_cases hle : p ≤ mid
      · rw [if_pos (by omega)]
        have h := g2 (mid - p).toNat (by unfold downTo; omega)
        rw [show mid + -1 * ((mid - p).toNat : Int) = p by omega] at h
        rw [h, g1' p (by intro k hk; omega)]
        rfl
      · rw [if_neg (by omega), g2' p (by intro k hk; omega)]
        have h := g1 (p - mid - 1).toNat (by unfold upTo; omega)
        rw [show mid + 1 + 1 * ((p - mid - 1).toNat : Int) = p by omega] at h
        rw [h, iter_up]
        simp only [Option.getD_none, Option.some.injEq]
        omega
  · simp only [if_neg hdir] at hmid
    obtain ⟨m1, e1, g1, g1'⟩ := fill_spec (W := W) (s := 1) (Or.inl rfl) (val := fun _ => dflt)
      (bump := fun p => p) (upTo mid r.lowest) mid 0 (fun _ => none)
      (by intro k hk; unfold upTo at hk; exact fits_between f3 f2 (by omega) (by omega))
    obtain ⟨m2, e2, g2, g2'⟩ := fill_spec (W := W) (s := -1) (Or.inr rfl) (val := fun p => p)
      (bump := fun p => if p < rrMax then p + 1 else p) (downTo (mid-1) r.highest) (mid-1) rrMin m1
      (by intro k hk; unfold downTo at hk; exact fits_between f3 f2 (by omega) (by omega))
    refine ⟨m2, mid, hn, ?_, ?_⟩
    · simp only [posixMap, chk, f0, if_true, bind, Option.bind, hM, if_neg hdir, e1, e2]
    · intro p hp
      have hp' : r.highest ≤ p ∧ p ≤ r.lowest := by unfold InRange at hp; omega
      simp only [urgency, if_neg hdir]
      by_cases hle : mid ≤ p
      · rw [if_pos (by omega)]
        rw [g2' p (by intro k hk; omega)]
        have h := g1 (p - mid).toNat (by unfold upTo; omega)
        rw [show mid + 1 * ((p - mid).toNat : Int) = p by omega] at h
        rw [h]; rfl
      · rw [if_neg (by omega)]
        have h := g2 (mid - 1 - p).toNat (by unfold downTo; omega)
        rw [show mid - 1 + -1 * ((mid - 1 - p).toNat : Int) = p by omega] at h
        rw [h, iter_up, g1' p (by intro k hk; omega)]
        simp only [Option.getD_none, Option.some.injEq]
        omega

/-- C35, full statement: for every range and native configuration, total and monotone. -/
def C35_full : Prop := ∀ (W : Nat) (dflt rrMin rrMax : Int) (r : Range), Sane W r → rrMin ≤ rrMax →
  ∃ pm, posixMap W dflt rrMin rrMax r = some pm ∧ (∀ p, InRange r p → ∃ v, pm p = some v) ∧
    ∀ p q v w, InRange r p → InRange r q → urgency r p ≤ urgency r q → pm p = some v → pm q = some w → v ≤ w

/-- C35 totality: every priority in the range has a native priority: either the default or one inside the SCHED_RR range. -/
theorem C35_total_partial (W : Nat) (dflt rrMin rrMax : Int) (r : Range) (hs : Sane W r) (hrr : rrMin ≤ rrMax) :
    ∃ pm, posixMap W dflt rrMin rrMax r = some pm ∧
      ∀ p, InRange r p → ∃ v, pm p = some v ∧ (v = dflt ∨ (rrMin ≤ v ∧ v ≤ rrMax)) := by
  obtain ⟨pm, mid, h1, h2, h3⟩ := posix_closed (dflt := dflt) (rrMin := rrMin) (rrMax := rrMax) hs
  refine ⟨pm, h2, fun p hp => ⟨_, h3 p hp, ?_⟩⟩
  split
  · exact Or.inl rfl
  · right; omega

/-- C35 monotonicity, provided the default priority (that of the thread that created the factory) is not above the
smallest SCHED_RR priority – true when that thread runs under SCHED_OTHER (0).  The map also is flat exactly below the
middle and strictly increasing above it until the SCHED_RR range is exhausted. -/
theorem C35_monotone_partial (W : Nat) (dflt rrMin rrMax : Int) (r : Range) (hs : Sane W r) (hd : dflt ≤ rrMin) :
    ∃ pm, posixMap W dflt rrMin rrMax r = some pm ∧
      ∀ p q v w, InRange r p → InRange r q → urgency r p ≤ urgency r q → pm p = some v → pm q = some w → v ≤ w := by
  obtain ⟨pm, mid, h1, h2, h3⟩ := posix_closed (dflt := dflt) (rrMin := rrMin) (rrMax := rrMax) hs
  refine ⟨pm, h2, fun p q v w hp hq hu hv hw => ?_⟩
  rw [h3 p hp] at hv
  rw [h3 q hq] at hw
  simp only [Option.some.injEq] at hv hw
  subst hv hw
  grind

/-- C35: the normal priority and everything below it get the default; the first more urgent one gets the smallest SCHED_RR
priority, each further step one more, up to the largest. -/
theorem C35_exact_partial (W : Nat) (dflt rrMin rrMax : Int) (r : Range) (hs : Sane W r) (hrr : rrMin ≤ rrMax) :
    ∃ pm mid, posixMap W dflt rrMin rrMax r = some pm ∧ normalP W r = some mid ∧
      (∀ p, InRange r p → urgency r p ≤ urgency r mid → pm p = some dflt) ∧
      (∀ p, InRange r p → urgency r mid < urgency r p → pm p = some (min (rrMin + (urgency r p - urgency r mid - 1)) rrMax)) := by
  obtain ⟨pm, mid, h1, h2, h3⟩ := posix_closed (dflt := dflt) (rrMin := rrMin) (rrMax := rrMax) hs
  refine ⟨pm, mid, h2, h1, fun p hp hu => by rw [h3 p hp, if_pos hu], fun p hp hu => ?_⟩
  rw [h3 p hp, if_neg (by omega)]
  congr 1; omega

/-- C35 fails when the factory is created by a real-time thread whose own priority exceeds the SCHED_RR minimum. -/
theorem C35_full_false : ¬ C35_full := by
  intro h
  obtain ⟨pm, h1, _, h3⟩ := h 32 50 1 99 ⟨0, 2⟩ (by unfold Sane; decide) (by decide)
  have e1 : (posixMap 32 50 1 99 ⟨0, 2⟩).map (fun m => (m 1, m 2)) = some (some 50, some 1) := by decide
  rw [h1] at e1
  simp only [Option.map_some, Option.some.injEq, Prod.mk.injEq] at e1
  have := h3 1 2 50 1 (by unfold InRange; decide) (by unfold InRange; decide) (by decide) e1.1 e1.2
  revert this; decide

/-- C35: `setPriority` never throws: with the factory's own range every argument (in range, or anything else meaning "inherit")
finds a native priority, provided the calling thread's own priority is in the range. -/
theorem C35_setPriority_partial (W : Nat) (dflt rrMin rrMax : Int) (r : Range) (hs : Sane W r) (cur : Option Int)
    (hc : ∀ p, cur = some p → InRange r p) (priority : Int) :
    ∃ pm p v, posixMap W dflt rrMin rrMax r = some pm ∧ setPriority W r pm cur priority = some (p, v) ∧ InRange r p ∧ pm p = some v ∧
      (InRange r priority → p = priority) ∧
      (¬ InRange r priority → (∀ q, cur = some q → p = q) ∧ (cur = none → normalP W r = some p)) := by
  obtain ⟨pm, mid, h1, h2, h3⟩ := posix_closed (dflt := dflt) (rrMin := rrMin) (rrMax := rrMax) hs
  by_cases hin : minP r ≤ priority ∧ priority ≤ maxP r
  · have hin' := (inRange_iff r priority).2 hin
    refine ⟨pm, priority, _, h2, ?_, hin', h3 priority hin', fun _ => rfl, fun h => absurd hin' h⟩
    simp [setPriority, hin, h3 priority hin']
  · have hin' : ¬ InRange r priority := fun h => hin ((inRange_iff r priority).1 h)
    cases cur with
    | none =>
      have hm : InRange r mid := (inRange_iff r mid).2 (C34_normal_partial W r mid h1).1
      refine ⟨pm, mid, _, h2, ?_, hm, h3 mid hm, fun h => absurd h hin', fun _ => ⟨by simp, fun _ => h1⟩⟩
      simp only [setPriority, if_neg hin, h1, bind, Option.bind, h3 mid hm, Option.map_some]
    | some q =>
      have hm := hc q rfl
      refine ⟨pm, q, _, h2, ?_, hm, h3 q hm, fun h => absurd h hin', fun _ => ⟨by simp, by simp⟩⟩
      simp only [setPriority, if_neg hin, bind, Option.bind, pure, h3 q hm, Option.map_some]

example : (posixMap 32 0 1 3 ⟨9, 1⟩).map (fun m => [m 9, m 5, m 4, m 3, m 1]) =
    some [some 0, some 0, some 1, some 2, some 3] := by decide
example : Sane 32 ⟨255, 1⟩ := by unfold Sane; decide

/-! #### C36: the Windows map -/

theorem win_closed {W : Nat} {r : Range} (hs : Sane W r) :
    ∃ pm mid, normalP W r = some mid ∧ winMap W r = some pm ∧
      ∀ p, InRange r p → pm p = some (if p = r.highest then timeCritical else if p = r.lowest then idle
        else max (-2) (min 2 (urgency r p - urgency r mid))) := by
  obtain ⟨f0, f1, f2, f3, f4⟩ := hs
  have hn : normalP W r = some ((r.lowest + r.highest).tdiv 2) := by
    have : minP r + maxP r = r.lowest + r.highest := by unfold minP maxP; grind
    simp only [normalP, this, chk, f0, if_true, bind, Option.bind, pure]
  obtain ⟨hmid, _⟩ := C34_normal_partial W r _ hn
  generalize hM : (r.lowest + r.highest).tdiv 2 = mid at *
  unfold minP maxP at hmid
  have bu : (fun d => if normal + d < highestW then d + 1 else d) = (fun d : Int => if d < 2 then d + 1 else d) := by
    funext d; simp [normal, highestW]
  have bd : (fun d => if normal - d > lowestW then d + 1 else d) = (fun d : Int => if d < 2 then d + 1 else d) := by
    funext d; simp only [normal, lowestW]; grind
  by_cases hdir : r.lowest < r.highest
  · simp only [if_pos hdir] at hmid
    obtain ⟨m1, e1, g1, g1'⟩ := fill_spec (W := W) (s := 1) (Or.inl rfl) (val := fun d => normal + d)
      (bump := fun p => if p < 2 then p + 1 else p) (upTo mid (r.highest - 1)) mid 0
      (ins (ins (fun _ => none) r.highest timeCritical) r.lowest idle)
      (by intro k hk; unfold upTo at hk; exact fits_between f1 f4 (by omega) (by omega))
    obtain ⟨m2, e2, g2, g2'⟩ := fill_spec (W := W) (s := -1) (Or.inr rfl) (val := fun d => normal - d)
      (bump := fun p => if p < 2 then p + 1 else p) (downTo (mid-1) (r.lowest+1)) (mid-1) 1 m1
      (by intro k hk; unfold downTo at hk; exact fits_between f1 f4 (by omega) (by omega))
    refine ⟨m2, mid, hn, ?_, ?_⟩
    · simp only [winMap, chk, f0, if_true, bind, Option.bind, hM, if_pos hdir, bu, bd, e1, e2]
    · intro p hp
      have hp' : r.lowest ≤ p ∧ p ≤ r.highest := by unfold InRange at hp; omega
      simp only [urgency, if_pos hdir]
      by_cases hle : p < mid
      · by_cases hlo : p = r.lowest
        · subst hlo
          rw [if_neg (by omega), if_pos rfl, g2' _ (by intro k hk; unfold downTo at hk; omega), g1' _ (by intro k hk; omega)]
          simp [ins, show r.lowest ≠ r.highest by omega]
        · have h := g2 (mid - 1 - p).toNat (by unfold downTo; omega)
          rw [show mid - 1 + -1 * ((mid - 1 - p).toNat : Int) = p by omega] at h
          rw [h, iter_up, g1' p (by intro k hk; omega)]
          rw [if_neg (by omega), if_neg hlo]
          simp only [ins, if_neg hlo, if_neg (show p ≠ r.highest by omega), Option.getD_none, Option.some.injEq, normal]
          omega
      · rw [g2' p (by intro k hk; omega)]
        by_cases hhi : p = r.highest
        · subst hhi
          rw [if_pos rfl, g1' _ (by intro k hk; unfold upTo at hk; omega)]
          simp [ins, show r.highest ≠ r.lowest by omega]
        · have h := g1 (p - mid).toNat (by unfold upTo; omega)
          rw [show mid + 1 * ((p - mid).toNat : Int) = p by omega] at h
          rw [h, iter_up, if_neg hhi]
          by_cases hlo : p = r.lowest
          · subst hlo
            simp [ins, show r.lowest ≠ r.highest by omega]
          · simp only [ins, if_neg hlo, if_neg hhi, Option.getD_none, Option.some.injEq, normal]
            omega
  · simp only [if_neg hdir] at hmid
    obtain ⟨m1, e1, g1, g1'⟩ := fill_spec (W := W) (s := 1) (Or.inl rfl) (val := fun d => normal - d)
      (bump := fun p => if p < 2 then p + 1 else p) (upTo mid (r.lowest - 1)) mid 0
      (ins (ins (fun _ => none) r.highest timeCritical) r.lowest idle)
      (by intro k hk; unfold upTo at hk; exact fits_between f3 f2 (by omega) (by omega))
    obtain ⟨m2, e2, g2, g2'⟩ := fill_spec (W := W) (s := -1) (Or.inr rfl) (val := fun d => normal + d)
      (bump := fun p => if p < 2 then p + 1 else p) (downTo (mid-1) (r.highest+1)) (mid-1) 1 m1
      (by intro k hk; unfold downTo at hk; exact fits_between f3 f2 (by omega) (by omega))
    refine ⟨m2, mid, hn, ?_, ?_⟩
    · simp only [winMap, chk, f0, if_true, bind, Option.bind, hM, if_neg hdir, bu, bd, e1, e2]
    · intro p hp
      have hp' : r.highest ≤ p ∧ p ≤ r.lowest := by unfold InRange at hp; omega
      simp only [urgency, if_neg hdir]
      by_cases hle : p < mid
      · by_cases hhi : p = r.highest
        · subst hhi
          rw [if_pos rfl, g2' _ (by intro k hk; unfold downTo at hk; omega), g1' _ (by intro k hk; omega)]
          simp [ins]; grind
        · have h := g2 (mid - 1 - p).toNat (by unfold downTo; omega)
          rw [show mid - 1 + -1 * ((mid - 1 - p).toNat : Int) = p by omega] at h
          rw [h, iter_up, g1' p (by intro k hk; omega)]
          rw [if_neg hhi, if_neg (by omega)]
          simp only [ins, if_neg hhi, if_neg (show p ≠ r.lowest by omega), Option.getD_none, Option.some.injEq, normal]
          omega
      · rw [g2' p (by intro k hk; omega)]
        by_cases hlo : p = r.lowest
        · subst hlo
          rw [g1' _ (by intro k hk; unfold upTo at hk; omega)]
          simp [ins]; grind
        · have h := g1 (p - mid).toNat (by unfold upTo; omega)
          rw [show mid + 1 * ((p - mid).toNat : Int) = p by omega] at h
          rw [h, iter_up]
          by_cases hhi : p = r.highest
          · subst hhi
            simp [ins, hlo]
          · rw [if_neg hhi, if_neg hlo]
            simp only [ins, if_neg hlo, if_neg hhi, Option.getD_none, Option.some.injEq, normal]
            omega

/-- C36: total; the most urgent priority maps to TIME_CRITICAL, the least urgent to IDLE, everything else to LOWEST..HIGHEST
(the number of steps from the normal priority, clamped); the map is monotone in urgency. -/
theorem C36_windows (W : Nat) (r : Range) (hs : Sane W r) :
    ∃ pm mid, winMap W r = some pm ∧ normalP W r = some mid ∧
      (∀ p, InRange r p → ∃ v, pm p = some v) ∧
      pm r.highest = some 15 ∧ (r.lowest ≠ r.highest → pm r.lowest = some (-15)) ∧
      (∀ p, InRange r p → p ≠ r.highest → p ≠ r.lowest → pm p = some (max (-2) (min 2 (urgency r p - urgency r mid)))) ∧
      ∀ p q v w, InRange r p → InRange r q → urgency r p ≤ urgency r q → pm p = some v → pm q = some w → v ≤ w := by
  obtain ⟨pm, mid, h1, h2, h3⟩ := win_closed hs
  have hh : InRange r r.highest := by unfold InRange; omega
  have hl : InRange r r.lowest := by unfold InRange; omega
  refine ⟨pm, mid, h2, h1, fun p hp => ⟨_, h3 p hp⟩, ?_, ?_, ?_, ?_⟩
  · rw [h3 _ hh]; simp [timeCritical]
  · intro hne; rw [h3 _ hl]; simp [idle, hne]
  · intro p hp n1 n2; rw [h3 p hp, if_neg n1, if_neg n2]
  · intro p q v w hp hq hu hv hw
    rw [h3 p hp] at hv
    rw [h3 q hq] at hw
    simp only [Option.some.injEq] at hv hw
    subst hv hw
    unfold InRange at hp hq
    clear h3
    unfold urgency at *
    simp only [timeCritical, idle]
    by_cases hdir : r.lowest < r.highest
    · simp only [if_pos hdir] at *
      split <;> split <;> (try split) <;> (try split) <;> omega
    · simp only [if_neg hdir] at *
      split <;> split <;> (try split) <;> (try split) <;> omega

/-- C36: `setPriority` never throws on Windows either. -/
theorem C36_setPriority (W : Nat) (r : Range) (hs : Sane W r) (cur : Option Int)
    (hc : ∀ p, cur = some p → InRange r p) (priority : Int) :
    ∃ pm p v, winMap W r = some pm ∧ setPriority W r pm cur priority = some (p, v) ∧ InRange r p ∧ pm p = some v ∧
      (InRange r priority → p = priority) ∧
      (¬ InRange r priority → (∀ q, cur = some q → p = q) ∧ (cur = none → normalP W r = some p)) := by
  obtain ⟨pm, mid, h1, h2, h3⟩ := win_closed hs
  by_cases hin : minP r ≤ priority ∧ priority ≤ maxP r
  · have hin' := (inRange_iff r priority).2 hin
    refine ⟨pm, priority, _, h2, ?_, hin', h3 priority hin', fun _ => rfl, fun h => absurd hin' h⟩
    simp [setPriority, hin, h3 priority hin']
  · have hin' : ¬ InRange r priority := fun h => hin ((inRange_iff r priority).1 h)
    cases cur with
    | none =>
      have hm : InRange r mid := (inRange_iff r mid).2 (C34_normal_partial W r mid h1).1
      refine ⟨pm, mid, _, h2, ?_, hm, h3 mid hm, fun h => absurd h hin', fun _ => ⟨by simp, fun _ => h1⟩⟩
      simp only [setPriority, if_neg hin, h1, bind, Option.bind, h3 mid hm, Option.map_some]
    | some q =>
      have hm := hc q rfl
      refine ⟨pm, q, _, h2, ?_, hm, h3 q hm, fun h => absurd h hin', fun _ => ⟨by simp, by simp⟩⟩
      simp only [setPriority, if_neg hin, bind, Option.bind, pure, h3 q hm, Option.map_some]

example : (winMap 32 ⟨9, 1⟩).map (fun m => [m 9, m 8, m 6, m 5, m 4, m 2, m 1]) =
    some [some (-15), some (-2), some (-1), some 0, some 1, some 2, some 15] := by decide

end Verif.Props.Priority
