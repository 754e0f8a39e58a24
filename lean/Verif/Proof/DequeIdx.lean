import Verif.Model.Deque
import Verif.Proof.Vector
/- Ring-index arithmetic and the representation predicate of the deque model. -/
namespace Verif.Deq
open Verif Cmd
variable {V : Type} {E : Env V} {nb o A c : Nat} {xs : List V} {s : St V}

/-- Physical index of the `k`-th slot counted from `o` around a ring of `nb` slots (`k ≤ nb`). -/
def ring (nb o k : Nat) : Nat := if o + k < nb then o + k else o + k - nb

theorem ring_zero (ho : o < nb) : ring nb o 0 = o := by unfold ring; rw [if_pos (by omega)]; rfl
theorem ring_lt {k : Nat} (ho : o < nb) (hk : k ≤ nb) : ring nb o k < nb := by unfold ring; split <;> omega
theorem ring_inj {j k : Nat} (ho : o < nb) (hjk : j ≤ k) (hk : k ≤ nb) (hd : k - j < nb) (h : ring nb o j = ring nb o k) : j = k := by
  unfold ring at h; split at h <;> split at h <;> omega
theorem ring_bij (ho : o < nb) : Bij nb (ring nb o) :=
  ⟨fun k hk => ring_lt ho (by omega), fun j k hj hk h => by
    rcases Nat.le_total j k with hl | hl
    · exact ring_inj ho hl (by omega) (by omega) h
    · exact (ring_inj ho hl (by omega) (by omega) h.symm).symm⟩
theorem ring_ring {j k : Nat} (ho : o < nb) (h : j + k ≤ nb) : ring nb (ring nb o j) k = ring nb o (j + k) := by
  unfold ring; grind

/-- Word-size assumption: twice the number of slots is a `ptrdiff_t`-addressable count. -/
def Fits (M nb : Nat) : Prop := 2 * nb + 2 ≤ M

variable {M : Nat}

theorem nextIdx_ring {j n : Nat} (hF : Fits M nb) (ho : o < nb) (h : j + n ≤ nb) :
    nextIdx M nb (ring nb o j) n = ring nb o (j + n) := by
  have := ring_lt ho (show j ≤ nb by omega)
  unfold Fits at hF
  unfold nextIdx uadd usub
  rw [if_pos (show ring nb o j + n < M by omega)]
  unfold ring at *; grind
theorem prevIdx_ring {j n : Nat} (hF : Fits M nb) (ho : o < nb) (hj : j ≤ nb) (h : n ≤ j) :
    prevIdx M nb (ring nb o j) n = ring nb o (j - n) := by
  have := ring_lt ho hj
  unfold Fits at hF
  unfold prevIdx uadd usub
  rw [if_pos (show nb + ring nb o j < M by omega)]
  unfold ring at *; grind
theorem distIdx_ring {i j : Nat} (hF : Fits M nb) (ho : o < nb) (hij : i ≤ j) (hj : j ≤ nb) (hd : j - i < nb) :
    distIdx M nb (ring nb o i) (ring nb o j) = j - i := by
  have := ring_lt ho hj
  have := ring_lt ho (show i ≤ nb by omega)
  unfold Fits at hF
  unfold distIdx uadd usub ring at *
  grind

theorem toDiff_small {n : Nat} (hF : Fits M nb) (h : n ≤ nb) : toDiff M n = n := by
  unfold toDiff Fits at *; rw [if_pos (by omega)]
theorem toSize_nat {n : Nat} (h : n < M) : toSize M (n : Int) = n := by
  rw [toSize_of_nonneg (by omega) (by omega)]; simp

theorem itAdd_ring {j n : Nat} (hF : Fits M nb) (ho : o < nb) (h : j + n ≤ nb) :
    itAdd M nb (ring nb o j) (n : Int) = ring nb o (j + n) := by
  have hF' := hF; unfold Fits at hF'
  unfold itAdd
  rw [if_neg (by omega), toSize_nat (by omega), nextIdx_ring hF ho h]
theorem itSub_ring {j n : Nat} (hF : Fits M nb) (ho : o < nb) (hj : j ≤ nb) (h : n ≤ j) :
    itSub M nb (ring nb o j) (n : Int) = ring nb o (j - n) := by
  have hF' := hF; unfold Fits at hF'
  unfold itSub
  rw [if_neg (by omega), toSize_nat (by omega), prevIdx_ring hF ho hj h]
theorem itAdd_neg_ring {j n : Nat} (hF : Fits M nb) (ho : o < nb) (hj : j ≤ nb) (h : n ≤ j) :
    itAdd M nb (ring nb o j) (-(n : Int)) = ring nb o (j - n) := by
  have hF' := hF; unfold Fits at hF'
  unfold itAdd
  by_cases hn : n = 0
  · subst hn
    rw [if_neg (by omega), show (-((0 : Nat) : Int)) = ((0 : Nat) : Int) by rfl, toSize_nat (by omega), nextIdx_ring hF ho (by omega)]; rfl
  · rw [if_pos (by omega), show (-(-(n : Int))) = (n : Int) by omega, toSize_nat (by omega), prevIdx_ring hF ho hj h]
theorem itSub_neg_ring {j n : Nat} (hF : Fits M nb) (ho : o < nb) (h : j + n ≤ nb) :
    itSub M nb (ring nb o j) (-(n : Int)) = ring nb o (j + n) := by
  have hF' := hF; unfold Fits at hF'
  unfold itSub
  by_cases hn : n = 0
  · subst hn
    rw [if_neg (by omega), show (-((0 : Nat) : Int)) = ((0 : Nat) : Int) by rfl, toSize_nat (by omega), prevIdx_ring hF ho (by omega) (by omega)]; rfl
  · rw [if_pos (by omega), show (-(-(n : Int))) = (n : Int) by omega, toSize_nat (by omega), nextIdx_ring hF ho h]
theorem itAddU_ring {j n : Nat} (hF : Fits M nb) (ho : o < nb) (h : j + n ≤ nb) :
    itAddU M nb (ring nb o j) n = ring nb o (j + n) := by
  unfold itAddU; rw [toDiff_small hF (by omega), itAdd_ring hF ho h]
theorem itSubU_ring {j n : Nat} (hF : Fits M nb) (ho : o < nb) (hj : j ≤ nb) (h : n ≤ j) :
    itSubU M nb (ring nb o j) n = ring nb o (j - n) := by
  unfold itSubU; rw [toDiff_small hF (by omega), itSub_ring hF ho hj h]
theorem itInc_ring {j : Nat} (hF : Fits M nb) (ho : o < nb) (h : j + 1 ≤ nb) :
    itInc M nb (ring nb o j) = ring nb o (j + 1) := itAdd_ring (n := 1) hF ho h
theorem itDec_ring {j : Nat} (hF : Fits M nb) (ho : o < nb) (hj : j ≤ nb) (h : 1 ≤ j) :
    itDec M nb (ring nb o j) = ring nb o (j - 1) := itSub_ring (n := 1) hF ho hj h
theorem itSub1_ring {j : Nat} (hF : Fits M nb) (ho : o < nb) (hj : j ≤ nb) (h : 1 ≤ j) :
    itSub M nb (ring nb o j) 1 = ring nb o (j - 1) := itSub_ring (n := 1) hF ho hj h

/-- Ordering of two positions counted from `A`, the position of `begin()`. -/
theorem itLt_ring {i j : Nat} (hF : Fits M nb) (ho : o < nb) (hi : A ≤ i) (hj : A ≤ j)
    (hi' : i ≤ nb) (hj' : j ≤ nb) (hdi : i - A < nb) (hdj : j - A < nb) :
    itLt M nb (ring nb o A) (ring nb o i) (ring nb o j) = decide (i < j) := by
  unfold itLt
  rw [distIdx_ring hF ho hi hi' hdi, distIdx_ring hF ho hj hj' hdj]
  rw [decide_eq_decide]; omega

theorem itDiff_ring {i j : Nat} (hF : Fits M nb) (ho : o < nb) (hi : A ≤ i) (hj : A ≤ j)
    (hi' : i ≤ nb) (hj' : j ≤ nb) (hdi : i - A < nb) (hdj : j - A < nb) :
    itDiff M nb (ring nb o A) (ring nb o i) (ring nb o j) = (i : Int) - j := by
  unfold itDiff itGe
  rw [itLt_ring hF ho hi hj hi' hj' hdi hdj]
  by_cases h : i < j
  · simp only [h, decide_true, Bool.not_true, Bool.false_eq_true, if_false]
    rw [distIdx_ring hF ho (by omega) hj' (by omega), toDiff_small hF (by omega)]; omega
  · simp only [h, decide_false, Bool.not_false, if_true]
    rw [distIdx_ring hF ho (by omega) hi' (by omega), toDiff_small hF (by omega)]; omega

/-- The deque whose `begin()` is the `A`-th slot from `o` holds `xs`. -/
structure DSh (nb o A : Nat) (xs : List V) (c : Nat) (s : St V) : Prop where
  ho : o < nb
  hA : A + xs.length ≤ nb
  hl : xs.length < nb
  sh : Sh nb (ring nb o) (fun k => if k < A then none else xs[k - A]?) (ring nb o A) (ring nb o (A + xs.length)) c s

/-- Moving the origin. -/
theorem DSh.reorigin {o' A' : Nat} (h : DSh nb o A xs c s) (ho' : o' < nb) (hA' : A' + xs.length ≤ nb)
    (hb : ring nb o' A' = ring nb o A) : DSh nb o' A' xs c s := by
  have ho := h.ho
  have hA := h.hA
  have hl := h.hl
  refine ⟨ho', hA', hl, h.sh.nbuf, ?_, ?_, ?_, h.sh.hc⟩
  · intro k hk
    -- the same physical slot seen from the old origin
    let k' := if A' ≤ k then (if k - A' + A < nb then k - A' + A else k - A' + A - nb)
      else (if k + nb - A' + A < nb then k + nb - A' + A else k + nb - A' + A - nb)
    have hk' : k' < nb := by simp only [k']; split <;> split <;> omega
    have he : ring nb o' k = ring nb o k' := by
      simp only [k']; unfold ring at *; grind
    rw [he, h.sh.view k' hk']
    simp only [k']
    have hnone : ∀ i, xs.length ≤ i → xs[i]? = none := fun i hi => List.getElem?_eq_none hi
    grind
  · rw [h.sh.hb, hb]
  · rw [h.sh.he]
    unfold ring at *; grind

/-- For any target offset there is a suitable origin. -/
theorem exists_origin {A' : Nat} (ho : o < nb) (hA : A ≤ nb) (hA' : A' ≤ nb) :
    ∃ o', o' < nb ∧ ring nb o' A' = ring nb o A := by
  have := ring_lt ho hA
  refine ⟨if A' ≤ ring nb o A then (if ring nb o A - A' < nb then ring nb o A - A' else 0) else ring nb o A + nb - A', ?_, ?_⟩
  · split
    · split <;> omega
    · omega
  · generalize ring nb o A = q at *
    unfold ring; grind

theorem DSh.hb (h : DSh nb o A xs c s) : s.b = ring nb o A := h.sh.hb
theorem DSh.he (h : DSh nb o A xs c s) : s.e = ring nb o (A + xs.length) := h.sh.he

theorem DSh.size (hF : Fits E.M nb) (h : DSh nb o A xs c s) : size E s = xs.length := by
  have := h.hA; have := h.hl
  unfold Deq.size
  rw [h.sh.nbuf, h.hb, h.he, distIdx_ring hF h.ho (by omega) h.hA (by omega)]; omega
theorem DSh.maxSize (h : DSh nb o A xs c s) : maxSize E s = nb - 1 := by
  have := h.ho
  unfold Deq.maxSize usub
  rw [h.sh.nbuf, if_pos (by omega)]
theorem DSh.available (hF : Fits E.M nb) (h : DSh nb o A xs c s) : availableSize E s = nb - 1 - xs.length := by
  have := h.hl
  unfold Deq.availableSize
  rw [h.size hF, h.maxSize]; unfold usub; rw [if_pos (by omega)]
theorem DSh.empty (h : DSh nb o A xs c s) : empty s = decide (xs.length = 0) := by
  have := h.hA; have := h.hl
  unfold Deq.empty
  rw [h.hb, h.he]
  by_cases h0 : xs.length = 0
  · simp [h0]
  · have : ring nb o A ≠ ring nb o (A + xs.length) := fun hh => by
      have := ring_inj h.ho (by omega) h.hA (by omega) hh; omega
    simp [h0, this]
theorem DSh.full (hF : Fits E.M nb) (h : DSh nb o A xs c s) : full E s = decide (xs.length = nb - 1) := by
  unfold Deq.full
  rw [h.size hF, h.maxSize, Bool.eq_iff_iff]; simp

/-- The live positions of a deque view. -/
theorem DSh.live (h : DSh nb o A xs c s) :
    LiveIn nb (fun k => if k < A then none else xs[k - A]?) A (A + xs.length) := by
  intro k hk
  dsimp only
  split
  · simp; omega
  · simp; omega

/-- A state left behind by a throwing element operation: the live slots are exactly those of the ring
segment `[begin, end)`, and the positions in `keep` are as in `L0`. -/
def DExc (E : Env V) (nb c o : Nat) (L0 : Nat → Option V) (keep : Nat → Prop) (ex : Exn) (s' : St V) : Prop :=
  ex = .elemThrow ∧ Thrown E c ∧ ∃ L' lo hi,
    Sh nb (ring nb o) L' (ring nb o lo) (ring nb o hi) c s' ∧ LiveIn nb L' lo hi ∧ lo ≤ hi ∧ hi ≤ nb ∧ hi - lo < nb ∧
    ∀ j, j < nb → keep j → L' j = L0 j

/-- Reading the list off such a state. -/
theorem DExc.toList {L0 : Nat → Option V} {keep : Nat → Prop} {ex : Exn} {s' : St V} (ho : o < nb)
    (h : DExc E nb c o L0 keep ex s') : ex = .elemThrow ∧ Thrown E c ∧ ∃ ys A', DSh nb o A' ys c s' ∧
      ∀ j, j < nb → keep j → (if j < A' then none else ys[j - A']?) = L0 j := by
  obtain ⟨h1, h2, L', lo, hi, hsh, hlive, hle, hhi, hd, hk⟩ := h
  obtain ⟨ys, hlen, hys⟩ := hlive.toList hle hhi
  have hL : ∀ k, k < nb → L' k = if k < lo then none else ys[k - lo]? := by
    intro k hk
    split
    · rename_i hlt
      have := hlive k hk
      cases hh : L' k with
      | none => rfl
      | some w => rw [hh] at this; simp at this; omega
    · exact hys k hk (by omega)
  refine ⟨h1, h2, ys, lo, ⟨ho, by omega, by omega, ?_⟩, ?_⟩
  · have : lo + ys.length = hi := by omega
    rw [this]
    exact hsh.congr hL
  · intro j hj hkj
    rw [← hL j hj, hk j hj hkj]

/-- Forward iterator loop over ring positions `[q, q+N)`. -/
theorem wp_up {q N : Nat} {body : Nat → Cmd (St V) Unit} {start stop : Nat} {Q : Unit → St V → Prop} {X : Exn → St V → Prop}
    (hF : Fits E.M nb) (ho : o < nb) (hq : q + N ≤ nb) (hN : N < nb)
    (h1 : start = ring nb o q) (h2 : stop = ring nb o (q + N)) (Inv : Nat → St V → Prop) (hinit : Inv 0 s)
    (hstep : ∀ k s, k < N → Inv k s → wp (body (ring nb o (q + k))) (fun _ s' => Inv (k+1) s') X s)
    (hend : ∀ s, Inv N s → Q () s) :
    wp (forIter E.fuel start stop (itInc E.M nb) body) Q X s := by
  have hF' := hF; unfold Fits at hF'
  refine wp_forIter N (fun k => ring nb o (q + k)) Inv ?_ ?_ ?_ ?_ ?_ hinit hstep hend
  · unfold Env.fuel; omega
  · rw [h1]; rfl
  · rw [h2]
  · intro k hk hh
    rw [h2] at hh
    have := ring_inj ho (by omega) (by omega) (by omega) hh; omega
  · intro k hk; rw [itInc_ring hF ho (by omega)]; rfl

/-- Backward iterator loop over ring positions `q+N, ..., q+1` (stopping at `q`). -/
theorem wp_down {q N : Nat} {body : Nat → Cmd (St V) Unit} {start stop : Nat} {Q : Unit → St V → Prop} {X : Exn → St V → Prop}
    (hF : Fits E.M nb) (ho : o < nb) (hq : q + N ≤ nb) (hN : N < nb)
    (h1 : start = ring nb o (q + N)) (h2 : stop = ring nb o q) (Inv : Nat → St V → Prop) (hinit : Inv 0 s)
    (hstep : ∀ k s, k < N → Inv k s → wp (body (ring nb o (q + N - k))) (fun _ s' => Inv (k+1) s') X s)
    (hend : ∀ s, Inv N s → Q () s) :
    wp (forIter E.fuel start stop (itDec E.M nb) body) Q X s := by
  have hF' := hF; unfold Fits at hF'
  refine wp_forIter N (fun k => ring nb o (q + N - k)) Inv ?_ ?_ ?_ ?_ ?_ hinit hstep hend
  · unfold Env.fuel; omega
  · rw [h1]; rfl
  · rw [h2]; congr 1; omega
  · intro k hk hh
    rw [h2] at hh
    have := ring_inj ho (by omega) (by omega) (by omega) hh.symm; omega
  · intro k hk; rw [itDec_ring hF ho (by omega) (by omega)]; congr 1

end Verif.Deq
