import Verif.Model.BitPattern
/-
Properties C24, C25.  Specification: a pattern is the set of its bit positions, a function `Nat → Bool` that is
false from the width on.
-/
namespace Verif.Props.BitPattern
open Verif Cmd Bit

/-! #### Specification: sets of bit positions -/

/-- Position argument of a call, if it has one. -/
def posOf : Op → Option Nat
  | .set p | .reset p | .flip p | .test p => some p
  | _ => none

/-- The set of positions after a call. -/
def after (w : Nat) (S : Nat → Bool) : Op → Nat → Bool
  | .setAll => fun i => decide (i < w)
  | .set p => fun i => if i = p then true else S i
  | .resetAll => fun _ => false
  | .reset p => fun i => if i = p then false else S i
  | .flipAll => fun i => decide (i < w) && !S i
  | .flip p => fun i => if i = p then !S i else S i
  | .value | .test _ | .all | .any | .none => S

/-- The result of a call is the right answer about the set. -/
def answers (w : Nat) (S : Nat → Bool) : Op → Ret → Prop
  | .value, r => ∃ n, r = .num n ∧ ∀ i, n.testBit i = S i
  | .test p, r => r = .flag (S p)
  | .all, r => ∃ b, r = .flag b ∧ (b = true ↔ ∀ i, i < w → S i = true)
  | .any, r => ∃ b, r = .flag b ∧ (b = true ↔ ∃ i, i < w ∧ S i = true)
  | .none, r => ∃ b, r = .flag b ∧ (b = true ↔ ∀ i, i < w → S i = false)
  | _, r => r = .unit

/-- The object's value `d` (of type `T`, `w` bits) represents the set `S`. -/
def Rep (w : Nat) (S : Nat → Bool) (d : Nat) : Prop := d < 2 ^ w ∧ ∀ i, d.testBit i = S i

theorem Rep.out {w : Nat} {S : Nat → Bool} {d : Nat} (h : Rep w S d) {i : Nat} (hi : w ≤ i) : S i = false := by
  rw [← h.2 i]; exact Nat.testBit_lt_two_pow (Nat.lt_of_lt_of_le h.1 (Nat.pow_le_pow_right (by decide) hi))

/-! #### Arithmetic lemmas -/

theorem castT_nat (c : Cfg) {n : Nat} (h : n < 2 ^ c.w) : castT c (n : Int) = n := by
  unfold castT
  rw [Int.emod_eq_of_lt (by omega) (by exact_mod_cast h)]; simp

theorem castT_bnot (c : Cfg) {n : Nat} (h : n < 2 ^ c.w) : castT c (bnot c (n : Int)) = 2 ^ c.w - 1 - n := by
  unfold bnot
  have key : castT c (((2 ^ c.w : Nat) : Int) - 1 - n) = 2 ^ c.w - 1 - n := by
    have : ((2 ^ c.w : Nat) : Int) - 1 - n = ((2 ^ c.w - 1 - n : Nat) : Int) := by omega
    rw [this]; exact castT_nat c (by omega)
  split
  · rw [← key]
    unfold castT
    congr 1
    have : ((2 ^ c.w : Nat) : Int) - 1 - n = (-(n : Int) - 1) + (2 ^ c.w : Nat) := by omega
    rw [this, Int.add_emod_right]
  · exact key

theorem testBit_compl (w n i : Nat) (h : n < 2 ^ w) : (2 ^ w - 1 - n).testBit i = (decide (i < w) && !n.testBit i) := by
  have : 2 ^ w - 1 - n = 2 ^ w - (n + 1) := by omega
  rw [this, Nat.testBit_two_pow_sub_succ h]

theorem testBit_pow (p i : Nat) : (2 ^ p).testBit i = decide (p = i) := Nat.testBit_two_pow

theorem shl1_ok (c : Cfg) {p : Nat} (hp : p < c.w) (d : Nat) : shl1 c p d = .ok ((2 ^ p : Nat) : Int) d := by
  unfold shl1
  by_cases h : c.w < c.W
  · rw [if_pos h, if_pos (by omega)]; rfl
  · rw [if_neg h, if_pos hp]; rfl

theorem assertPos_ok (c : Cfg) {p : Nat} (hp : p < c.w) (d : Nat) : assertPos c p d = .ok () d := by
  simp [assertPos, hp]

theorem zero_iff {w : Nat} {S : Nat → Bool} {d : Nat} (h : Rep w S d) : d = 0 ↔ ∀ i, i < w → S i = false := by
  constructor
  · rintro rfl i _
    rw [← h.2 i]; simp
  · intro hz
    apply Nat.eq_of_testBit_eq
    intro i
    rw [h.2 i, Nat.zero_testBit]
    by_cases hi : i < w
    · exact hz i hi
    · exact h.out (by omega)

theorem full_iff {w : Nat} {S : Nat → Bool} {d : Nat} (h : Rep w S d) : d = 2 ^ w - 1 ↔ ∀ i, i < w → S i = true := by
  constructor
  · rintro rfl i hi
    rw [← h.2 i, Nat.testBit_two_pow_sub_one]; simpa using hi
  · intro hz
    apply Nat.eq_of_testBit_eq
    intro i
    rw [h.2 i, Nat.testBit_two_pow_sub_one]
    by_cases hi : i < w
    · rw [hz i hi]; simp [hi]
    · rw [h.out (by omega)]; simp; omega

/-! ### C24 -/

/-- C24: for any width of `T`, any width of `int`, either build mode, and any call with an in-range position,
the call returns normally with the right answer, and the set of positions changes exactly as it should. -/
theorem C24_bitpattern_is_a_set (c : Cfg) {S : Nat → Bool} {d : Nat} (h : Rep c.w S d) (o : Op)
    (hp : ∀ p, posOf o = some p → p < c.w) :
    ∃ r d', exec c o d = .ok r d' ∧ Rep c.w (after c.w S o) d' ∧ answers c.w S o r := by
  have hpow : ∀ p, p < c.w → 2 ^ p < 2 ^ c.w := fun p hp => Nat.pow_lt_pow_right (by decide) hp
  have hpos : 0 < 2 ^ c.w := Nat.pow_pos (by decide)
  cases o with
  | setAll =>
    refine ⟨.unit, castT c (bnot c 0), rfl, ?_, rfl⟩
    have := castT_bnot c (n := 0) hpos
    simp only [Int.natCast_zero, Nat.sub_zero] at this
    rw [show ((0 : Int)) = ((0 : Nat) : Int) from rfl] at *
    rw [this]
    exact ⟨by omega, fun i => Nat.testBit_two_pow_sub_one _ _⟩
  | set p =>
    have hp := hp p rfl
    refine ⟨.unit, castT c ((d ||| castT c ((2 ^ p : Nat) : Int) : Nat) : Int), ?_, ?_, rfl⟩
    · show Cmd.bind (Cmd.bind _ _) _ d = _
      simp only [Cmd.bind, assertPos_ok c hp d, Bind.bind, shl1_ok c hp d]; rfl
    · rw [castT_nat c (hpow p hp)]
      have hlt : d ||| 2 ^ p < 2 ^ c.w := Nat.or_lt_two_pow h.1 (hpow p hp)
      rw [castT_nat c hlt]
      refine ⟨hlt, fun i => ?_⟩
      rw [Nat.testBit_or, testBit_pow, h.2 i]
      simp only [after]
      by_cases hi : i = p
      · subst hi; simp
      · simp [hi, Ne.symm hi]
  | resetAll => exact ⟨.unit, 0, rfl, ⟨hpos, fun i => Nat.zero_testBit i⟩, rfl⟩
  | reset p =>
    have hp := hp p rfl
    refine ⟨.unit, castT c ((d &&& castT c (bnot c ((2 ^ p : Nat) : Int)) : Nat) : Int), ?_, ?_, rfl⟩
    · show Cmd.bind (Cmd.bind _ _) _ d = _
      simp only [Cmd.bind, assertPos_ok c hp d, Bind.bind, shl1_ok c hp d]; rfl
    · rw [castT_bnot c (hpow p hp)]
      have hlt : d &&& (2 ^ c.w - 1 - 2 ^ p) < 2 ^ c.w := Nat.lt_of_le_of_lt Nat.and_le_left h.1
      rw [castT_nat c hlt]
      refine ⟨hlt, fun i => ?_⟩
      rw [Nat.testBit_and, testBit_compl _ _ _ (hpow p hp), testBit_pow, h.2 i]
      simp only [after]
      by_cases hi : i = p
      · subst hi; simp
      · by_cases hw : i < c.w
        · simp [hi, Ne.symm hi, hw]
        · simp [hi, h.out (show c.w ≤ i by omega)]
  | flipAll =>
    refine ⟨.unit, castT c (bnot c (d : Int)), rfl, ?_, rfl⟩
    rw [castT_bnot c h.1]
    refine ⟨by omega, fun i => ?_⟩
    rw [testBit_compl _ _ _ h.1, h.2 i]; rfl
  | flip p =>
    have hp := hp p rfl
    refine ⟨.unit, castT c ((d ^^^ castT c ((2 ^ p : Nat) : Int) : Nat) : Int), ?_, ?_, rfl⟩
    · show Cmd.bind (Cmd.bind _ _) _ d = _
      simp only [Cmd.bind, assertPos_ok c hp d, Bind.bind, shl1_ok c hp d]; rfl
    · rw [castT_nat c (hpow p hp)]
      have hlt : d ^^^ 2 ^ p < 2 ^ c.w := Nat.xor_lt_two_pow h.1 (hpow p hp)
      rw [castT_nat c hlt]
      refine ⟨hlt, fun i => ?_⟩
      rw [Nat.testBit_xor, testBit_pow, h.2 i]
      simp only [after]
      by_cases hi : i = p
      · subst hi; simp
      · simp [hi, Ne.symm hi]
  | value => exact ⟨.num d, d, rfl, h, d, rfl, h.2⟩
  | test p =>
    have hp := hp p rfl
    refine ⟨.flag ((d &&& castT c ((2 ^ p : Nat) : Int)) != 0), d, ?_, h, ?_⟩
    · show Cmd.bind (Cmd.bind _ _) _ d = _
      simp only [Cmd.bind, assertPos_ok c hp d, Bind.bind, shl1_ok c hp d]; rfl
    · rw [castT_nat c (hpow p hp)]
      show Ret.flag _ = Ret.flag _
      congr 1
      rw [← h.2 p, Bool.eq_iff_iff, bne_iff_ne]
      have hbits : ∀ i, (d &&& 2 ^ p).testBit i = (d.testBit i && decide (p = i)) := fun i => by
        rw [Nat.testBit_and, testBit_pow]
      constructor
      · intro hne
        cases hb : d.testBit p with
        | true => rfl
        | false =>
          refine absurd (Nat.eq_of_testBit_eq fun i => ?_) hne
          rw [hbits, Nat.zero_testBit]
          by_cases hi : p = i
          · subst hi; rw [hb]; rfl
          · simp [hi]
      · intro hb hz
        have := hbits p
        rw [hz, Nat.zero_testBit, hb] at this; simp at this
  | all =>
    have := castT_bnot c (n := 0) hpos
    simp only [Nat.sub_zero] at this
    refine ⟨.flag (d == castT c (bnot c 0)), d, rfl, h, _, rfl, ?_⟩
    rw [show bnot c 0 = bnot c ((0 : Nat) : Int) from rfl, this, ← full_iff h]; simp
  | any =>
    refine ⟨.flag (d != 0), d, rfl, h, _, rfl, ?_⟩
    rw [bne_iff_ne, Ne, zero_iff h]
    constructor
    · intro hh
      apply Classical.byContradiction
      intro hn
      exact hh (fun i hi => by
        cases hS : S i with
        | false => rfl
        | true => exact absurd ⟨i, hi, hS⟩ hn)
    · rintro ⟨i, hi, hS⟩ hh
      rw [hh i hi] at hS; cases hS
  | none =>
    refine ⟨.flag (d == 0), d, rfl, h, _, rfl, ?_⟩
    rw [beq_iff_eq, zero_iff h]

/-- C24, whole histories: starting from the empty pattern or from any integer, every call of any sequence with
in-range positions returns normally, and the final integer has exactly the bits of the final set. -/
theorem C24_bitpattern_histories (c : Cfg) (os : List Op) (hos : ∀ o ∈ os, ∀ p, posOf o = some p → p < c.w)
    (S : Nat → Bool) (d : Nat) (h : Rep c.w S d) :
    ∃ d', (os.foldl (fun (x : Option Nat) o => x.bind (fun d => match exec c o d with | .ok _ d' => some d' | _ => Option.none)) (some d)) = some d' ∧
      Rep c.w (os.foldl (after c.w) S) d' := by
  induction os generalizing S d with
  | nil => exact ⟨d, rfl, h⟩
  | cons o os ih =>
    obtain ⟨r, d', he, hr, _⟩ := C24_bitpattern_is_a_set c h o (hos o (by simp))
    obtain ⟨d'', h1, h2⟩ := ih (fun o ho => hos o (by simp [ho])) _ d' hr
    refine ⟨d'', ?_, h2⟩
    rw [List.foldl_cons]
    simp only [Option.bind_some, he]; exact h1

/-- C24: construction from a value of type `T` is the set of its bits; the default pattern is empty; `size()` is the width. -/
theorem C24_bitpattern_construct (c : Cfg) (n : Nat) (hn : n < 2 ^ c.w) :
    Rep c.w n.testBit (ctor n) ∧ Rep c.w (fun _ => false) ctor0 ∧ size c = c.w :=
  ⟨⟨hn, fun _ => rfl⟩, ⟨Nat.pow_pos (by decide), fun i => Nat.zero_testBit i⟩, rfl⟩

/-- `unsigned char` on a platform with 32-bit `int`, debug build. -/
def c8 : Cfg := { w := 8, W := 32, dbg := true }
example : Rep c8.w (Nat.testBit 0x85) 0x85 := ⟨by decide, fun _ => rfl⟩
example : exec c8 .flipAll 0x85 = .ok .unit 0x7A := rfl
example : exec c8 (.reset 7) 0x85 = .ok .unit 0x05 := by decide
example : ∀ o ∈ [Op.flipAll, .set 0, .reset 6], ∀ p, posOf o = some p → p < c8.w := by decide

/-! ### C25 -/

/-- The same class on a machine without promotion: all arithmetic in the width of `T`. -/
def noPromotion (c : Cfg) : Cfg := { c with W := 0 }

/-- C25: for in-range positions, results and values are the same as if all arithmetic were done in the width
of `T`, whatever the width of `int`; in particular no shift is out of range. -/
theorem C25_bitpattern_promotion_immune (c : Cfg) {d : Nat} (hd : d < 2 ^ c.w) (o : Op)
    (hp : ∀ p, posOf o = some p → p < c.w) :
    exec c o d = exec (noPromotion c) o d ∧ (∀ f, exec c o d ≠ .ub f) := by
  have hpow : ∀ p, p < c.w → 2 ^ p < 2 ^ c.w := fun p hp => Nat.pow_lt_pow_right (by decide) hp
  have hpos : 0 < 2 ^ c.w := Nat.pow_pos (by decide)
  have hcast : ∀ z, castT c z = castT (noPromotion c) z := fun _ => rfl
  have hnot : ∀ n : Nat, n < 2 ^ c.w → castT c (bnot c n) = castT (noPromotion c) (bnot (noPromotion c) n) := fun n hn => by
    rw [castT_bnot c hn, castT_bnot (noPromotion c) hn]; rfl
  have has : ∀ p d, assertPos c p d = assertPos (noPromotion c) p d := fun _ _ => rfl
  refine ⟨?_, fun f hf => ?_⟩
  · cases o with
    | setAll =>
      show Out.ok _ _ = Out.ok _ _
      congr 1; exact hnot 0 hpos
    | resetAll => rfl
    | value => rfl
    | any => rfl
    | none => rfl
    | all =>
      show Out.ok _ _ = Out.ok _ _
      congr 2; exact congrArg (fun x => d == x) (hnot 0 hpos)
    | flipAll =>
      show Out.ok _ _ = Out.ok _ _
      congr 1; exact hnot d hd
    | set p =>
      have hp := hp p rfl
      show Cmd.bind (Cmd.bind _ _) _ d = Cmd.bind (Cmd.bind _ _) _ d
      simp only [Cmd.bind, Bind.bind, assertPos_ok c hp d, assertPos_ok (noPromotion c) hp d, shl1_ok c hp d, shl1_ok (noPromotion c) hp d]; rfl
    | flip p =>
      have hp := hp p rfl
      show Cmd.bind (Cmd.bind _ _) _ d = Cmd.bind (Cmd.bind _ _) _ d
      simp only [Cmd.bind, Bind.bind, assertPos_ok c hp d, assertPos_ok (noPromotion c) hp d, shl1_ok c hp d, shl1_ok (noPromotion c) hp d]; rfl
    | test p =>
      have hp := hp p rfl
      show Cmd.bind (Cmd.bind _ _) _ d = Cmd.bind (Cmd.bind _ _) _ d
      simp only [Cmd.bind, Bind.bind, assertPos_ok c hp d, assertPos_ok (noPromotion c) hp d, shl1_ok c hp d, shl1_ok (noPromotion c) hp d]; rfl
    | reset p =>
      have hp := hp p rfl
      show Cmd.bind (Cmd.bind _ _) _ d = Cmd.bind (Cmd.bind _ _) _ d
      simp only [Cmd.bind, Bind.bind, assertPos_ok c hp d, assertPos_ok (noPromotion c) hp d, shl1_ok c hp d, shl1_ok (noPromotion c) hp d, Cmd.modify]
      rw [hnot _ (hpow p hp)]; rfl
  · obtain ⟨r, d', he, _⟩ := C24_bitpattern_is_a_set c (S := d.testBit) ⟨hd, fun _ => rfl⟩ o hp
    rw [he] at hf; cases hf

/-- C25: in a debug build an out-of-range position raises an assertion failure and the value is untouched. -/
theorem C25_bitpattern_debug_range (c : Cfg) (hdbg : c.dbg = true) (d : Nat) (o : Op) (p : Nat) (ho : posOf o = some p)
    (hp : c.w ≤ p) : exec c o d = .exn .assertFail d := by
  have ha : assertPos c p d = .exn .assertFail d := by
    simp [assertPos, hdbg]; omega
  cases o <;> simp only [posOf, Option.some.injEq, reduceCtorEq] at ho <;> subst ho <;>
  · show Cmd.bind (Cmd.bind _ _) _ d = _
    simp only [Cmd.bind, ha]

example : exec c8 (.set 8) 1 = .exn .assertFail 1 := rfl
-- what the assertion protects: without it the shift is out of range
example : exec { c8 with dbg := false } (.set 40) 1 = .ub .badShift := rfl

end Verif.Props.BitPattern
