import Verif.Model.MessageQueueLife
import Verif.Props.MessageQueue
/-
Properties C51–C53: creation and destruction of a MessageQueue.
-/
namespace Verif.Props.MessageQueueLife
open Verif
open _root_.Verif.Mtx (Tid Err)
open MQ Life Lts

/-! #### C51 -/

/-- The least multiple of 8 that is `≥ n`. -/
def roundUp8 (n : Nat) : Nat := (n + 7) / 8 * 8

theorem roundUp8_spec (n : Nat) : n ≤ roundUp8 n ∧ roundUp8 n < n + 8 ∧ roundUp8 n % 8 = 0 := by
  unfold roundUp8; omega

variable {w : Nat}

theorem aligned_toNat {sz : BitVec w} (hw : 4 ≤ w) (h : sz.toNat + 7 < 2 ^ w) : (alignedMQSize sz).toNat = roundUp8 sz.toNat := by
  have h16 : 16 ≤ 2 ^ w := Nat.le_trans (by decide) (Nat.pow_le_pow_right (by decide) hw)
  have e7 : (7#w).toNat = 7 := by rw [BitVec.toNat_ofNat]; exact Nat.mod_eq_of_lt (by omega)
  have hx : (sz + 7#w).toNat = sz.toNat + 7 := by rw [BitVec.toNat_add, e7]; exact Nat.mod_eq_of_lt h
  have key : alignedMQSize sz = ((sz + 7#w) >>> 3) <<< 3 := by
    unfold alignedMQSize
    apply BitVec.eq_of_getLsbD_eq
    intro i hi
    rw [BitVec.getLsbD_and, BitVec.getLsbD_not, BitVec.getLsbD_shiftLeft, BitVec.getLsbD_ushiftRight]
    have h7 : (7#w).getLsbD i = decide (i < 3) := by
      rw [BitVec.getLsbD_ofNat]
      have : Nat.testBit 7 i = decide (i < 3) := by
        rw [show (7 : Nat) = 2 ^ 3 - 1 by decide, Nat.testBit_two_pow_sub_one]
      simp [hi, this]
    rw [h7]
    by_cases h3 : i < 3
    · simp [h3]
    · simp [h3, hi, show 3 + (i - 3) = i by omega]
  rw [key, BitVec.toNat_shiftLeft, BitVec.toNat_ushiftRight, hx, Nat.shiftLeft_eq, Nat.shiftRight_eq_div_pow]
  unfold roundUp8
  apply Nat.mod_eq_of_lt
  have : (sz.toNat + 7) / 2 ^ 3 * 2 ^ 3 ≤ sz.toNat + 7 := Nat.div_mul_le_self _ _
  omega

/-- If the sizes do not overflow size_t, every one of the `maxSize + 1` elements lies inside the block of `poolBufSize` bytes, after
the header, and the element area starts at a multiple of 8. -/
theorem C51_room_partial (hw : 4 ≤ w) {szMQ szT maxSize : BitVec w}
    (h : roundUp8 szMQ.toNat + szT.toNat * (maxSize.toNat + 1) < 2 ^ w) (hT : 0 < szT.toNat) (hM : szMQ.toNat + 7 < 2 ^ w) :
    (rbBufSize maxSize).toNat = maxSize.toNat + 1 ∧
    (alignedMQSize szMQ).toNat % 8 = 0 ∧ szMQ.toNat ≤ (alignedMQSize szMQ).toNat ∧
    ∀ i, i ≤ maxSize.toNat → (alignedMQSize szMQ).toNat + szT.toNat * i + szT.toNat ≤ (poolBufSize szMQ szT maxSize).toNat := by
  have h16 : 16 ≤ 2 ^ w := Nat.le_trans (by decide) (Nat.pow_le_pow_right (by decide) hw)
  have e1 : (1#w).toNat = 1 := by rw [BitVec.toNat_ofNat]; exact Nat.mod_eq_of_lt (by omega)
  have ha := aligned_toNat hw hM
  have hm1 : maxSize.toNat + 1 ≤ szT.toNat * (maxSize.toNat + 1) := Nat.le_mul_of_pos_left _ hT
  have hr : (rbBufSize maxSize).toNat = maxSize.toNat + 1 := by
    unfold rbBufSize; rw [BitVec.toNat_add, e1]; exact Nat.mod_eq_of_lt (by omega)
  have hp : (poolBufSize szMQ szT maxSize).toNat = roundUp8 szMQ.toNat + szT.toNat * (maxSize.toNat + 1) := by
    unfold poolBufSize
    rw [BitVec.toNat_add, BitVec.toNat_mul, hr, ha, Nat.mod_eq_of_lt (a := szT.toNat * (maxSize.toNat + 1)) (by omega)]
    exact Nat.mod_eq_of_lt h
  have hs := roundUp8_spec szMQ.toNat
  refine ⟨hr, by rw [ha]; exact hs.2.2, by rw [ha]; exact hs.1, fun i hi => ?_⟩
  rw [hp, ha]
  have : szT.toNat * i + szT.toNat ≤ szT.toNat * (maxSize.toNat + 1) := by
    rw [← Nat.mul_succ]; exact Nat.mul_le_mul_left _ (by omega)
  omega

/-- The full property is false for every word size and all sizes: with the largest `maxSize` the element area has zero bytes, the
block is just the header. -/
theorem C51_counterexample (szMQ szT : BitVec w) :
    rbBufSize (BitVec.allOnes w) = 0 ∧ poolBufSize szMQ szT (BitVec.allOnes w) = alignedMQSize szMQ := by
  have : rbBufSize (BitVec.allOnes w) = 0 := by
    unfold rbBufSize
    rw [← BitVec.neg_one_eq_allOnes]
    exact BitVec.add_left_neg _
  exact ⟨this, by unfold poolBufSize; rw [this]; simp⟩

/-- Also for a multiplication that wraps: 64-bit size_t, 8-byte messages, `maxSize = 2^61 - 1`. -/
example : poolBufSize (w := 64) 72#64 8#64 2305843009213693951#64 = 72#64 := by decide
/-- A case within the bounds. -/
example : poolBufSize (w := 32) 50#32 12#32 10#32 = 188#32 := by decide

/-! #### C52 -/

def acquired (l : List REv) : List Rsrc := l.filterMap (fun | .acquire r => some r | _ => none)
def released (l : List REv) : List Rsrc := l.filterMap (fun | .release r => some r | _ => none)
/-- Everything acquired is released exactly once, and only after it was acquired. -/
def Balanced (l : List REv) : Prop :=
  (acquired l).Nodup ∧ (released l).Perm (acquired l) ∧ ∀ a r b, l = a ++ REv.release r :: b → REv.acquire r ∈ a
/-- `destroy` gives back what it depends on only after what depends on it: in reverse order of acquisition. -/
def ReverseOrder (l : List REv) : Prop := released l = (acquired l).reverse

instance (l : List REv) : Decidable (ReverseOrder l) := by unfold ReverseOrder; infer_instance

/-- A check of the last clause of `Balanced`. -/
def afterAcq : List REv → List Rsrc → Bool
  | [], _ => true
  | .acquire r :: l, h => afterAcq l (r :: h)
  | .release r :: l, h => decide (r ∈ h) && afterAcq l h

theorem afterAcq_sound {l : List REv} {h : List Rsrc} (hc : afterAcq l h = true) :
    ∀ a r b, l = a ++ REv.release r :: b → REv.acquire r ∈ a ∨ r ∈ h := by
  induction l generalizing h with
  | nil => intro a r b e; simp at e
  | cons x l ih =>
    intro a r b e
    cases a with
    | nil =>
      simp only [List.nil_append, List.cons.injEq] at e
      obtain ⟨rfl, rfl⟩ := e
      simp only [afterAcq, Bool.and_eq_true, decide_eq_true_eq] at hc
      exact Or.inr hc.1
    | cons y a =>
      simp only [List.cons_append, List.cons.injEq] at e
      obtain ⟨rfl, e⟩ := e
      cases x with
      | acquire r' =>
        simp only [afterAcq] at hc
        rcases ih hc a r b e with h1 | h1
        · exact Or.inl (by simp [h1])
        · rcases List.mem_cons.1 h1 with rfl | h1
          · exact Or.inl (by simp)
          · exact Or.inr h1
      | release r' =>
        simp only [afterAcq, Bool.and_eq_true] at hc
        rcases ih hc.2 a r b e with h1 | h1
        · exact Or.inl (by simp [h1])
        · exact Or.inr h1

theorem balanced_of {l : List REv} (h1 : (acquired l).Nodup) (h2 : (released l).Perm (acquired l)) (h3 : afterAcq l [] = true) : Balanced l := by
  refine ⟨h1, h2, fun a r b e => ?_⟩
  rcases afterAcq_sound h3 a r b e with h | h
  · exact h
  · simp at h

/-- Whatever fails: a null result means everything obtained was given back, exactly once; a non-null result holds all seven resources
and then `destroy` gives each of them back exactly once, in reverse order. -/
theorem C52_create (ok : Rsrc → Bool) :
    match create ok with
    | (none, log) => Balanced log ∧ ∃ r, ok r = false
    | (some m, log) => (∀ r, r ∈ acquired log) ∧ released log = [] ∧ Balanced (log ++ destroy m) ∧ ReverseOrder (log ++ destroy m) := by
  unfold create createOSObjects
  cases h1 : ok .pool
  · exact ⟨balanced_of (by decide) (by decide) (by decide), _, h1⟩
  cases h2 : ok .block
  · exact ⟨balanced_of (by decide) (by decide) (by decide), _, h2⟩
  cases h3 : ok .mtxRB
  · exact ⟨balanced_of (by decide) (by decide) (by decide), _, h3⟩
  cases h4 : ok .mtxSend
  · exact ⟨balanced_of (by decide) (by decide) (by decide), _, h4⟩
  cases h5 : ok .mtxRecv
  · exact ⟨balanced_of (by decide) (by decide) (by decide), _, h5⟩
  cases h6 : ok .event
  · exact ⟨balanced_of (by decide) (by decide) (by decide), _, h6⟩
  refine ⟨?_, by decide, balanced_of (by decide) (by decide) (by decide), by decide⟩
  intro r; cases r <;> decide

/-- Both outcomes occur. -/
example : (create (fun _ => true)).1.isSome = true ∧ (create (fun r => r ≠ .mtxRecv)).1 = none ∧
    (create (fun r => r ≠ .mtxRecv)).2.length = 10 := by decide

/-! #### C53 -/
variable {V : Type} [DecidableEq V]

/-- The live messages after `destroy`, at a moment when no call is in progress, are exactly those that were still queued: if the
queue was empty nothing is left alive. -/
theorem C53_destroy_partial {cap : Nat} {s : MQ.St V} {tr : List (Ev V)} (h : Reach MQ.step (MQ.init V cap) s tr) (hq : ∀ t, s.pc t = .idle) :
    (∀ i, i < s.nb → (afterDestroy s ((s.b + i) % s.nb)).isSome = decide (i < size s)) ∧
    (size s = 0 → ∀ i, i < s.nb → afterDestroy s i = none) := by
  have hset : Props.MessageQueue.Settled s := fun t => by simp [hq t]
  obtain ⟨_, hb, _, _, hc⟩ := Props.MessageQueue.C48_ring h
  have e : afterDestroy s = s.buf := rfl
  refine ⟨fun i hi => by rw [e]; exact hc hset i hi, fun h0 i hi => ?_⟩
  have ⟨j, hj, hij⟩ : ∃ j, j < s.nb ∧ (s.b + j) % s.nb = i := by
    by_cases hle : s.b ≤ i
    · exact ⟨i - s.b, by omega, by rw [show s.b + (i - s.b) = i by omega]; exact Nat.mod_eq_of_lt hi⟩
    · refine ⟨i + s.nb - s.b, by omega, ?_⟩
      rw [show s.b + (i + s.nb - s.b) = i + s.nb by omega, Nat.add_mod_right]; exact Nat.mod_eq_of_lt hi
  have := hc hset j hj
  rw [hij, h0] at this
  rw [e]
  simpa using this

/-- The full property is false: after one send and `destroy` the message is still alive in the freed block. -/
theorem C53_counterexample : ∃ (s : MQ.St Nat) (tr : List (Ev Nat)), Reach MQ.step (MQ.init Nat 1) s tr ∧
    decide (s.pc 0 = .idle ∧ size s = 1 ∧ afterDestroy s 0 = some 5) = true :=
  runSat_ex (as := .call 0 (.send 5) :: List.replicate 12 (.go 0))
    (P := fun (s : MQ.St Nat) _ => decide (s.pc 0 = .idle ∧ size s = 1 ∧ afterDestroy s 0 = some 5)) (by decide)

end Verif.Props.MessageQueueLife
