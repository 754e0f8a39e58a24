import Verif.Proof.Assertion
/-
Properties C31, C32: the assertion message and the control flow of CHECK_ASSERT / DEBUG_ASSERT.
-/
namespace Verif.Props.Assertion
open Verif Cmd Asrt

/-! #### Specification -/

/-- The untruncated message: `file(line): Assertion failed (expr)`. -/
def fullMsg (file : List Char) (line : Nat) (expr : List Char) : List Char :=
  file ++ "(".toList ++ (toString line).toList ++ "): Assertion failed (".toList ++ expr ++ ")".toList

/-- What the documentation promises for a failing assertion: which calls of handlers happen and how the macro ends. -/
def failing (excs : Bool) (handler : Option Nat) (beh : Nat → List Char → HBeh) (msg : List Char) (evs : List Ev) (e : End) : Prop :=
  let finish := if excs then End.throwsFailure msg else End.continues
  match handler with
  | none => evs = [] ∧ e = finish
  | some h => evs = [.handled h msg] ∧
      (beh h msg = .returns → e = finish) ∧ (∀ x, beh h msg = .throws x → e = .throwsOther x) ∧
      (beh h msg = .noReturn → e = .never)

theorem text_eq {file expr : List Char} {n : Nat} (hn : n ≠ 0) : text file n expr = fullMsg file n expr := by
  simp only [text, fullMsg, if_neg hn]
  congr 4
  simp [toString, Nat.repr]

theorem no_nul_text {file expr : List Char} {n : Nat} (hf : nul ∉ file) (he : nul ∉ expr) : nul ∉ text file n expr := by
  simp only [text, List.mem_append, not_or]
  exact ⟨⟨⟨⟨⟨hf, by decide⟩, digits_no_nul n⟩, by decide⟩, he⟩, by decide⟩

theorem toUnsigned_pos {W line : Nat} (h : line < 2 ^ W) : toUnsigned W (line : Int) = line := by
  unfold toUnsigned
  rw [Int.emod_eq_of_lt (by omega) (by exact_mod_cast h)]; simp

/-- General form: whatever `int` the line number is. -/
theorem construct_any (B W : Nat) (file expr : List Char) (line : Int) (m : Mem) (hB : 1 ≤ B)
    (hf : nul ∉ file) (he : nul ∉ expr) (hv : toUnsigned W line < 10 ^ 15) :
    ∃ m', Asrt.construct B W file line expr m = .ok () m' ∧
      message B m' = some ((text file (toUnsigned W line) expr).take (B - 1)) := by
  have h := construct_wp (m := m) (X := fun _ _ => False) hB hf he hv
  unfold wp at h
  split at h <;> try exact h.elim
  next heq =>
    obtain ⟨p, r, hfil⟩ := h
    exact ⟨_, heq, message_filled hB (no_nul_text hf he) hfil⟩

/-- C31: for every file name and expression (C strings: no NUL inside), every line number a compiler can produce
(`1 ≤ line`, fits in an `int` of at most 49 bits), every buffer size ≥ 1 and whatever garbage the stack holds:
constructing the failure never leaves its arrays (the outcome is `ok`, no fault), and `message()` is the first
`BUFSIZE-1` characters of the full text, terminated inside the buffer. -/
theorem C31_message (B W : Nat) (file expr : List Char) (line : Nat) (garbage : Mem) (hB : 1 ≤ B) (hW : line < 2 ^ W)
    (hl : 1 ≤ line) (hl' : line < 10 ^ 15) (hf : '\x00' ∉ file) (he : '\x00' ∉ expr) :
    ∃ m', Asrt.construct B W file line expr garbage = .ok () m' ∧
      message B m' = some ((fullMsg file line expr).take (B - 1)) := by
  obtain ⟨m', h1, h2⟩ := construct_any B W file expr line garbage hB hf he (by rw [toUnsigned_pos hW]; exact hl')
  refine ⟨m', h1, ?_⟩
  rw [h2, toUnsigned_pos hW, text_eq (by omega)]

/-- C31, every `int` (32 bits), also `#line 0` and negative: no out-of-bounds access and a terminated message. -/
theorem C31_in_bounds (B : Nat) (file expr : List Char) (line : Int) (garbage : Mem) (hB : 1 ≤ B)
    (hf : '\x00' ∉ file) (he : '\x00' ∉ expr) :
    ∃ m' s, Asrt.construct B 32 file line expr garbage = .ok () m' ∧ message B m' = some s ∧ s.length ≤ B - 1 := by
  obtain ⟨m', h1, h2⟩ := construct_any B 32 file expr line garbage hB hf he (by
    unfold toUnsigned
    have : line % ((2^32 : Nat) : Int) < ((2^32 : Nat) : Int) := Int.emod_lt_of_pos _ (by decide)
    have h2 : 0 ≤ line % ((2^32 : Nat) : Int) := Int.emod_nonneg _ (by decide)
    have : (((2:Nat)^32 : Nat) : Int) = 4294967296 := by decide
    omega)
  exact ⟨m', _, h1, h2, by simp; omega⟩

/-- C31, the buffer itself: the text is at its start, and directly behind it the terminator '\x00'. -/
theorem C31_buffer (B W : Nat) (file expr : List Char) (line : Nat) (garbage : Mem) (hB : 1 ≤ B) (hW : line < 2 ^ W)
    (hl : 1 ≤ line) (hl' : line < 10 ^ 15) (hf : '\x00' ∉ file) (he : '\x00' ∉ expr) :
    ∃ m', Asrt.construct B W file line expr garbage = .ok () m' ∧
      (∀ i, i < B - 1 → ∀ c, (fullMsg file line expr)[i]? = some c → m' .buf i = some c) ∧
      m' .buf (min (fullMsg file line expr).length (B - 1)) = some '\x00' := by
  have h := construct_wp (m := garbage) (W := W) (line := line) (X := fun _ _ => False) hB hf he (by rw [toUnsigned_pos hW]; exact hl')
  unfold wp at h
  split at h <;> try exact h.elim
  next heq =>
    obtain ⟨p, r, hfil⟩ := h
    rw [toUnsigned_pos hW, text_eq (by omega)] at hfil
    refine ⟨_, heq, fun i hi c hc => ?_, ?_⟩
    · obtain ⟨hlt, rfl⟩ := List.getElem?_eq_some_iff.1 hc
      exact hfil.chars i hlt hi
    · rw [← hfil.hp]; exact hfil.term

/-- C31, when the text fits nothing is cut off. -/
theorem C31_untruncated (B W : Nat) (file expr : List Char) (line : Nat) (garbage : Mem) (hW : line < 2 ^ W)
    (hl : 1 ≤ line) (hl' : line < 10 ^ 15) (hf : '\x00' ∉ file) (he : '\x00' ∉ expr)
    (hfit : (fullMsg file line expr).length < B) :
    ∃ m', Asrt.construct B W file line expr garbage = .ok () m' ∧ message B m' = some (fullMsg file line expr) := by
  obtain ⟨m', h1, h2⟩ := C31_message B W file expr line garbage (by omega) hW hl hl' hf he
  exact ⟨m', h1, by rw [h2, List.take_of_length_le (by omega)]⟩

/-- non-vacuity, and the truncation boundary on an instance -/
example : ∃ m', Asrt.construct 512 32 "a.cpp".toList (42 : Nat) "x > 0".toList (fun _ _ => none) = .ok () m' ∧
    message 512 m' = some "a.cpp(42): Assertion failed (x > 0)".toList := by
  have := C31_untruncated 512 32 "a.cpp".toList "x > 0".toList 42 (fun _ _ => none) (by decide) (by decide) (by decide)
    (by decide) (by decide) (by decide)
  rw [show fullMsg "a.cpp".toList 42 "x > 0".toList = "a.cpp(42): Assertion failed (x > 0)".toList by decide] at this
  exact this
example : (fullMsg "a.cpp".toList 42 "x > 0".toList).take (11 - 1) = "a.cpp(42):".toList := by decide

/-- C32: a true condition has no effect at all. -/
theorem C32_true_no_effect (B W : Nat) (excs : Bool) (handler : Option Nat) (beh : Nat → List Char → HBeh)
    (file : List Char) (line : Int) (expr : List Char) (m : Mem) :
    checkAssert B W excs handler beh true file line expr m = some ([], .continues) := rfl

/-- C32: a false condition: the registered handler (arbitrary code) is called exactly once with the message; if it returns,
or none is registered, `Assertion::Failure` carrying that message is thrown (when exceptions are enabled). -/
theorem C32_false (B W : Nat) (excs : Bool) (handler : Option Nat) (beh : Nat → List Char → HBeh)
    (file expr : List Char) (line : Nat) (garbage : Mem) (hB : 1 ≤ B) (hW : line < 2 ^ W)
    (hl : 1 ≤ line) (hl' : line < 10 ^ 15) (hf : '\x00' ∉ file) (he : '\x00' ∉ expr) :
    ∃ evs e, checkAssert B W excs handler beh false file line expr garbage = some (evs, e) ∧
      failing excs handler beh ((fullMsg file line expr).take (B - 1)) evs e := by
  obtain ⟨m', h1, h2⟩ := C31_message B W file expr line garbage hB hW hl hl' hf he
  refine ⟨(assertFail excs handler beh ((fullMsg file line expr).take (B - 1))).1,
    (assertFail excs handler beh ((fullMsg file line expr).take (B - 1))).2,
    by rw [checkAssert]; simp only [Bool.false_eq_true, if_false, h1, h2, Option.map_some], ?_⟩
  unfold failing assertFail
  cases handler with
  | none => simp
  | some h =>
    cases hb : beh h ((fullMsg file line expr).take (B - 1)) <;> simp [hb]

/-- C32: with exceptions enabled, control never reaches the statement after a failed CHECK_ASSERT, whatever the handler does. -/
theorem C32_no_fall_through (B W : Nat) (handler : Option Nat) (beh : Nat → List Char → HBeh)
    (file expr : List Char) (line : Int) (m : Mem) (evs : List Ev) :
    checkAssert B W true handler beh false file line expr m ≠ some (evs, .continues) := by
  unfold checkAssert
  simp only [Bool.false_eq_true, if_false]
  cases Asrt.construct B W file line expr m with
  | ok a m' =>
    simp only
    cases message B m' with
    | none => simp
    | some s =>
      simp only [Option.map_some, ne_eq, Option.some.injEq]
      unfold assertFail
      cases handler with
      | none => simp
      | some h => cases hb : beh h s <;> simp [hb]
  | exn => simp
  | ub => simp
  | diverge => simp

/-- C32: DEBUG_ASSERT is CHECK_ASSERT without NDEBUG and nothing with it (the condition is not even looked at). -/
theorem C32_debug (ndebug : Bool) (B W : Nat) (excs : Bool) (handler : Option Nat) (beh : Nat → List Char → HBeh) (x : Bool)
    (file : List Char) (line : Int) (expr : List Char) (m : Mem) :
    (ndebug = true → debugAssert ndebug B W excs handler beh x file line expr m = some ([], .continues)) ∧
    (ndebug = false → debugAssert ndebug B W excs handler beh x file line expr m = checkAssert B W excs handler beh x file line expr m) := by
  cases ndebug <;> simp [debugAssert]

/-- C32: the handler in force is the one set last (null initially, and again after `setHandler(0)`). -/
theorem C32_handler_last (calls : List (Option Nat)) (h : Option Nat) :
    handlerAfter [] = none ∧ handlerAfter (calls ++ [h]) = h := by
  simp [handlerAfter]

/-- non-vacuity: a returning handler, then the throw -/
example : ∃ evs e, checkAssert 40 32 true (some 7) (fun _ _ => .returns) false "f".toList (3 : Nat) "e".toList (fun _ _ => none) =
    some (evs, e) ∧ evs = [.handled 7 "f(3): Assertion failed (e)".toList] ∧ e = .throwsFailure "f(3): Assertion failed (e)".toList := by
  obtain ⟨evs, e, h1, h2, h3, _⟩ := C32_false 40 32 true (some 7) (fun _ _ => .returns) "f".toList "e".toList 3 (fun _ _ => none)
    (by decide) (by decide) (by decide) (by decide) (by decide) (by decide)
  exact ⟨evs, e, h1, h2, h3 rfl⟩

end Verif.Props.Assertion
