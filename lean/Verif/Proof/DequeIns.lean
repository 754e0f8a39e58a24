import Verif.Proof.Deque
/- insert and erase of the deque model. -/
namespace Verif.Deq
open Verif Cmd
variable {V : Type} {E : Env V} {nb o c p n : Nat} {xs : List V} {s : St V} {X : Exn → St V → Prop}

theorem DSh.good0 (h : DSh nb o 0 xs c s) (K : Nat → Prop) :
    Good nb o c (fun k => xs[k]?) K (fun k => xs[k]?) 0 xs.length s := by
  have g := h.good K
  rw [Nat.zero_add] at g
  have : (fun k => if k < 0 then none else xs[k - 0]?) = fun k => xs[k]? := by funext k; simp
  rwa [this] at g

theorem insertN_full_wp {pos : Nat} {r : Ref V} {Q : Nat → St V → Prop} (hF : Fits E.M nb) (h : DSh nb o 0 xs c s)
    (hfull : nb ≤ xs.length + n) (hX : X .badAlloc s) : wp (insertN_ E pos n r) Q X s := by
  have hl := h.hl
  unfold insertN_
  simp only [wp_bind, wp_gets, wp_ite, wp_throw, h.available hF]
  exact ⟨fun _ => hX, fun hh => absurd hh (by omega)⟩

theorem insertRange_full_wp {pos : Nat} {src : List V} {Q : Unit → St V → Prop} (hF : Fits E.M nb) (h : DSh nb o 0 xs c s)
    (hn : src.length < E.M) (hfull : nb ≤ xs.length + src.length) (hX : X .badAlloc s) : wp (insertRange_ E pos src) Q X s := by
  have hl := h.hl
  unfold insertRange_
  rw [wp_bind]
  refine Vec.countRange_wp hn ?_
  simp only [wp_bind, wp_gets, wp_ite, wp_throw, h.available hF]
  exact ⟨fun _ => hX, fun hh => absurd hh (by omega)⟩

/-- What the argument of `insert(pos, n, r)` means while it is used, on the end side. -/
def InsRef (nb o p n : Nat) (xs : List V) (r : Ref V) (v : V) : Prop :=
  ∀ L : Nat → Option V, Vec.InsView xs p n v L → RefIs nb (ring nb o) L r v
theorem StableRef.ins {r : Ref V} {v : V} (h : StableRef nb o p xs r v) : InsRef nb o p n xs r v := fun L hL => h L hL.1

theorem insRef_elem {i : Nat} (hi : i < xs.length) (hl : xs.length ≤ nb) :
    InsRef nb o p n xs (.elem (ring nb o i)) (if n < xs.length - p ∧ p + n ≤ i then xs[i - n]'(by omega) else xs[i]) := by
  intro L hL
  obtain ⟨k, hk, e, hv⟩ := Vec.insRef_elem (nb := nb) hi hl L hL
  have hki : k = i := e.symm
  exact ⟨i, by omega, rfl, hki ▸ hv⟩

/-- Insertion on the end side of the position. -/
theorem insertN_end_wp {r : Ref V} {v : V} {Q : Nat → St V → Prop} (hF : Fits E.M nb) (h : DSh nb o 0 xs c s)
    (hp : p ≤ xs.length) (hside : xs.length / 2 < p) (hfit : xs.length + n < nb) (hr : InsRef nb o p n xs r v)
    (hQ : ∀ s', DSh nb o 0 (xs.take p ++ List.replicate n v ++ xs.drop p) c s' → Q (ring nb o p) s')
    (hX : ∀ ex s', DExc E nb c o (fun k => xs[k]?) (· < p) ex s' → X ex s') :
    wp (insertN_ E (ring nb o p) n r) Q X s := by
  have ho := h.ho; have hl := h.hl
  have hF' := hF; unfold Fits at hF'
  have hv := h.view0
  have hspec := Vec.insertSpec_get xs (List.replicate n v) p
  have hl2 : (xs.take p ++ List.replicate n v ++ xs.drop p).length = xs.length + n := by simp; omega
  unfold insertN_
  have hd1 : itDiff E.M nb (ring nb o 0) (ring nb o p) (ring nb o 0) = (p : Int) := by
    rw [itDiff_ring hF ho (by omega) (by omega) (by omega) (by omega) (by omega) (by omega)]; omega
  have hd2 : itDiff E.M nb (ring nb o 0) (ring nb o xs.length) (ring nb o p) = ((xs.length - p : Nat) : Int) := by
    rw [itDiff_ring hF ho (by omega) (by omega) (by omega) (by omega) (by omega) (by omega)]; omega
  have hb0 : s.b = ring nb o 0 := by rw [hv.hb, ring_zero ho]
  simp only [wp_bind, wp_gets, wp_ite, wp_throw, wp_pure, h.available hF, h.size hF, hv.nbuf, hv.he, hb0, hd1, hd2,
    toSize_nat (show p < E.M by omega), toSize_nat (show xs.length - p < E.M by omega)]
  refine ⟨fun hh => by omega, fun _ => ⟨fun _ => ⟨fun hnum => ?_, fun hnum => ?_⟩, fun hh => absurd hside (by omega)⟩⟩
  · -- more elements behind the position than inserted
    refine ctorEnd_forN (f := fun _ => some E.dflt) hF ho (h.good0 (· < p)) (by omega) (by omega) (fun j hj => by omega) ?_ ?_ hX
    · intro k s' hk _
      exact ⟨.ext E.dflt, E.dflt, rfl, rfl, fun Q hq => hq⟩
    · intro s1 h1
      refine assign_down (q := p - 1) (d := p + n) (m := xs.length - p) (f := fun j => xs[j - n]?) hF ho h1 (by omega) (by omega) (by omega)
        ?_ ?_ (fun j h1 h2 => by omega) ?_ ?_ hX
      · rw [itSub1_ring hF ho (by omega) (by omega)]; congr 1; omega
      · rw [itSub1_ring hF ho (by omega) (by omega)]
      · intro k s' hk hs'
        have hlt : xs.length - 1 - k < xs.length := by omega
        refine ⟨.elem (ring nb o (xs.length - 1 - k)), xs[xs.length - 1 - k], ?_, ⟨_, by omega, rfl, ?_⟩, fun Q hq => ?_⟩
        · have : p + n + (xs.length - p) - k - 1 - n = xs.length - 1 - k := by omega
          (try dsimp only); rw [this]; simp [hlt]
        · unfold fill
          rw [if_neg (by omega), if_neg (by omega)]; simp [hlt]
        · have e1 : p - 1 + (xs.length - p) - k = xs.length - 1 - k := by omega
          have e2 : p + n + (xs.length - p) - k - 1 = xs.length - 1 - k + n := by omega
          rw [e2] at hq
          rw [e1, itAddU_ring hF ho (by omega)]; exact hq
      · intro s2 h2
        refine assign_up (q := p) (d := p) (m := n) (f := fun _ => some v) hF ho h2 (by omega) (by omega) (by omega) rfl ?_
          (fun j h1 h2 => by omega) ?_ ?_ hX
        · rw [itAddU_ring hF ho (by omega)]
        · intro k s' hk hs'
          refine ⟨r, v, rfl, hr _ ⟨fun j hj => hs'.keep j (by omega) hj, fun hh => by omega, fun _ => ⟨fun j hj => ?_, fun j hj1 hj2 => ?_⟩⟩, fun Q hq => hq⟩
          · unfold fill; clear hX hQ hr hspec; grind
          · unfold fill; clear hX hQ hr hspec; grind
        · intro s3 h3
          refine hQ s3 (h3.dsh ho rfl (by rw [hl2]; omega) (fun k hk => ?_))
          rw [if_neg (by omega), Nat.sub_zero, hspec k hp]
          unfold fill
          clear hX hQ hr hspec
          grind
  · -- at most as many elements behind the position as inserted
    have hu : usub E.M n (xs.length - p) = n - (xs.length - p) := by unfold usub; rw [if_pos (by omega)]
    rw [hu]
    refine ctorEnd_forN (f := fun _ => some v) hF ho (h.good0 (· < p)) (by omega) (by omega) (fun j hj => by omega) ?_ ?_ hX
    · intro k s' hk hs'
      refine ⟨r, v, rfl, hr _ ⟨fun j hj => hs'.keep j (by omega) hj, fun _ j hj => ?_, fun hh => by omega⟩, fun Q hq => hq⟩
      unfold fill; clear hX hQ hr hspec; grind
    · intro s1 h1
      refine ctorEnd_up (q := p) (m := xs.length - p) (f := fun j => xs[j - n]?) hF ho h1 (by omega) (by omega) (by omega) rfl ?_
        (fun j hj => by omega) ?_ ?_ hX
      · rw [itAddU_ring hF ho (by omega)]
      · intro k s' hk hs'
        have hlt : p + k < xs.length := by omega
        refine ⟨.elem (ring nb o (p + k)), xs[p + k], ?_, ⟨_, by omega, rfl, ?_⟩, fun Q hq => hq⟩
        · have : xs.length + (n - (xs.length - p)) + k - n = p + k := by omega
          (try dsimp only); rw [this]; simp [hlt]
        · unfold fill
          rw [if_neg (by omega), if_neg (by omega)]; simp [hlt]
      · intro s2 h2
        refine assign_up (q := p) (d := p) (m := xs.length - p) (f := fun _ => some v) hF ho h2 (by omega) (by omega) (by omega) rfl ?_
          (fun j h1 h2 => by omega) ?_ ?_ hX
        · congr 1; omega
        · intro k s' hk hs'
          refine ⟨r, v, rfl, hr _ ⟨fun j hj => hs'.keep j (by omega) hj, fun _ j hj => ?_, fun hh => by omega⟩, fun Q hq => hq⟩
          unfold fill; clear hX hQ hr hspec; grind
        · intro s3 h3
          refine hQ s3 (h3.dsh ho rfl (by rw [hl2]; omega) (fun k hk => ?_))
          rw [if_neg (by omega), Nat.sub_zero, hspec k hp]
          unfold fill
          clear hX hQ hr hspec
          grind

/-- The reference stays meaningful as long as the positions from `q` on are untouched. -/
def StableRefB (nb o q : Nat) (L0 : Nat → Option V) (r : Ref V) (v : V) : Prop :=
  ∀ L : Nat → Option V, (∀ j, j < nb → q ≤ j → L j = L0 j) → RefIs nb (ring nb o) L r v

/-- View of a deque that begins `A` slots after the origin. -/
def LV (A : Nat) (xs : List V) : Nat → Option V := fun k => if k < A then none else xs[k - A]?

/-- The memory at the moments when `insert(pos, n, r)` reads its argument, on the begin side. -/
def InsViewB (xs : List V) (p n : Nat) (v : V) (nb : Nat) (L : Nat → Option V) : Prop :=
  (∀ j, j < nb → n + 1 + p ≤ j → L j = LV (n+1) xs j) ∧
  (p ≤ n → ∀ i, i < xs.length → L (n + 1 + i) = xs[i]? ∨ L (n + 1 + i) = some v) ∧
  (n < p → (∀ i, p ≤ i + n → i < p → L (n + 1 + i) = xs[i]? ∨ L (n + 1 + i) = some v) ∧ ∀ i, i + n < p → L (n + 1 + i) = xs[i + n]?)
def InsRefB (nb o p n : Nat) (xs : List V) (r : Ref V) (v : V) : Prop :=
  ∀ L : Nat → Option V, InsViewB xs p n v nb L → RefIs nb (ring nb o) L r v
theorem StableRefB.ins {r : Ref V} {v : V} (h : StableRefB nb o (n + 1 + p) (LV (n+1) xs) r v) : InsRefB nb o p n xs r v := fun L hL => h L hL.1

theorem insRefB_elem {i : Nat} (hi : i < xs.length) (hp : p ≤ xs.length) (hl : n + 1 + xs.length ≤ nb) :
    InsRefB nb o p n xs (.elem (ring nb o (n + 1 + i))) (if h : n < p ∧ i + n < p then xs[i + n]'(by omega) else xs[i]) := by
  intro L hL
  refine ⟨n + 1 + i, by omega, rfl, ?_⟩
  obtain ⟨h1, h2, h3⟩ := hL
  by_cases hip : p ≤ i
  · rw [dif_neg (by omega), h1 _ (by omega) (by omega)]
    unfold LV
    have : n + 1 + i - (n + 1) = i := by omega
    rw [if_neg (by omega), this]; simp [hi]
  · split
    · next h => rw [(h3 h.1).2 i h.2]; simp
    · next h =>
      rw [dif_neg h] at h2 h3
      by_cases hn : n < p
      · rcases (h3 hn).1 i (by omega) (by omega) with e | e
        · rw [e]; simp [hi]
        · exact e
      · rcases h2 (by omega) i hi with e | e
        · rw [e]; simp [hi]
        · exact e

/-- Insertion on the begin side of the position; `begin()` lies `n + 1` slots after the origin `o`. -/
theorem insertN_begin_wp {r : Ref V} {v : V} {Q : Nat → St V → Prop} (hF : Fits E.M nb) (h : DSh nb o (n+1) xs c s)
    (hp : p ≤ xs.length) (hside : p ≤ xs.length / 2)
    (hr : InsRefB nb o p n xs r v)
    (hQ : ∀ s', DSh nb o 1 (xs.take p ++ List.replicate n v ++ xs.drop p) c s' → Q (ring nb o (1 + p)) s')
    (hX : ∀ ex s', DExc E nb c o (LV (n+1) xs) (n + 1 + p ≤ ·) ex s' → X ex s') :
    wp (insertN_ E (ring nb o (n + 1 + p)) n r) Q X s := by
  have ho := h.ho; have hl := h.hl; have hA := h.hA
  have hF' := hF; unfold Fits at hF'
  have hspec := Vec.insertSpec_get xs (List.replicate n v) p
  have hl2 : (xs.take p ++ List.replicate n v ++ xs.drop p).length = xs.length + n := by simp; omega
  unfold insertN_
  have hd1 : itDiff E.M nb (ring nb o (n+1)) (ring nb o (n+1+p)) (ring nb o (n+1)) = (p : Int) := by
    rw [itDiff_ring hF ho (by omega) (by omega) (by omega) (by omega) (by omega) (by omega)]; omega
  simp only [wp_bind, wp_gets, wp_ite, wp_throw, wp_pure, h.available hF, h.size hF, h.sh.nbuf, h.sh.he, h.sh.hb, hd1,
    toSize_nat (show p < E.M by omega)]
  refine ⟨fun hh => by omega, fun _ => ⟨fun hh => absurd hh (by omega), fun _ => ⟨fun hnum => ?_, fun hnum => ?_⟩⟩⟩
  · refine ctorBegin_forN (f := fun _ => some E.dflt) hF ho (h.good (n + 1 + p ≤ ·)) (by omega) (by omega) (fun j hj => by omega) ?_ ?_ hX
    · intro k s' hk _
      exact ⟨.ext E.dflt, E.dflt, rfl, rfl, fun Q hq => hq⟩
    · intro s1 h1
      refine assign_up (q := n + 1) (d := 1) (m := p) (f := fun j => xs[j - 1]?) hF ho h1 (by omega) (by omega) (by omega)
        rfl rfl (fun j h1 h2 => by omega) ?_ ?_ hX
      · intro k s' hk hs'
        have hlt : k < xs.length := by omega
        refine ⟨.elem (ring nb o (n + 1 + k)), xs[k], ?_, ⟨_, by omega, rfl, ?_⟩, fun Q hq => ?_⟩
        · have : 1 + k - 1 = k := by omega
          (try dsimp only); rw [this]; simp [hlt]
        · unfold fill
          have : n + 1 + k - (n + 1) = k := by omega
          rw [if_neg (by omega), if_neg (by omega)]; (try dsimp only); rw [if_neg (by omega), this]; simp [hlt]
        · have e2 : n + 1 + k - n = 1 + k := by omega
          rw [itSubU_ring hF ho (by omega) (by omega), e2]; exact hq
      · intro s2 h2
        have e3 : n + 1 + p - n = 1 + p := by omega
        rw [itSubU_ring hF ho (by omega) (by omega), e3]
        refine assign_up (q := 1 + p) (d := 1 + p) (m := n) (f := fun _ => some v) hF ho h2 (by omega) (by omega) (by omega) rfl ?_
          (fun j h1 h2 => by omega) ?_ ?_ hX
        · congr 1; omega
        · intro k s' hk hs'
          refine ⟨r, v, rfl, hr _ ⟨fun j hj hj2 => hs'.keep j (by omega) hj2, fun hh => by omega, fun _ => ⟨fun j hj1 hj2 => ?_, fun j hj => ?_⟩⟩, fun Q hq => hq⟩
          · unfold fill; clear hX hQ hr hspec; grind
          · unfold fill; clear hX hQ hr hspec; grind
        · intro s3 h3
          refine hQ s3 (h3.dsh ho (by omega) (by rw [hl2]; omega) (fun k hk => ?_))
          rw [hspec (k - 1) hp]
          unfold fill
          clear hX hQ hr hspec
          grind
  · have hu : usub E.M n p = n - p := by unfold usub; rw [if_pos (by omega)]
    rw [hu]
    refine ctorBegin_forN (f := fun _ => some v) hF ho (h.good (n + 1 + p ≤ ·)) (by omega) (by omega) (fun j hj => by omega) ?_ ?_ hX
    · intro k s' hk hs'
      refine ⟨r, v, rfl, hr _ ⟨fun j hj hj2 => hs'.keep j (by omega) hj2, fun _ j hj => ?_, fun hh => by omega⟩, fun Q hq => hq⟩
      unfold fill; clear hX hQ hr hspec; grind
    · intro s1 h1
      have e1 : n + 1 - (n - p) = p + 1 := by omega
      rw [e1] at h1
      refine ctorBegin_down (q := n) (m := p) (f := fun j => xs[j - 1]?) hF ho h1 (by omega) (by omega) (by omega) ?_ ?_
        (fun j hj => by omega) ?_ ?_ hX
      · rw [itSub1_ring hF ho (by omega) (by omega)]; congr 1; omega
      · rw [itSub1_ring hF ho (by omega) (by omega)]; congr 1
      · intro k s' hk hs'
        have hlt : p - 1 - k < xs.length := by omega
        refine ⟨.elem (ring nb o (n + p - k)), xs[p - 1 - k], ?_, ⟨_, by omega, rfl, ?_⟩, fun Q hq => hq⟩
        · have : p + 1 - k - 1 - 1 = p - 1 - k := by omega
          (try dsimp only); rw [this]; simp [hlt]
        · unfold fill
          have : n + p - k - (n + 1) = p - 1 - k := by omega
          rw [if_neg (by omega), if_neg (by omega)]; (try dsimp only); rw [if_neg (by omega), this]; simp [hlt]
      · intro s2 h2
        refine assign_up (q := n + 1) (d := n + 1) (m := p) (f := fun _ => some v) hF ho h2 (by omega) (by omega) (by omega) rfl rfl
          (fun j h1 h2 => by omega) ?_ ?_ hX
        · intro k s' hk hs'
          refine ⟨r, v, rfl, hr _ ⟨fun j hj hj2 => hs'.keep j (by omega) hj2, fun _ j hj => ?_, fun hh => by omega⟩, fun Q hq => hq⟩
          unfold fill; clear hX hQ hr hspec; grind
        · intro s3 h3
          have e3 : n + 1 + p - n = 1 + p := by omega
          rw [itSubU_ring hF ho (by omega) (by omega), e3]
          refine hQ s3 (h3.dsh ho (by omega) (by rw [hl2]; omega) (fun k hk => ?_))
          rw [hspec (k - 1) hp]
          unfold fill
          clear hX hQ hr hspec
          grind

theorem insertRange_end_wp {src : List V} {Q : Unit → St V → Prop} (hF : Fits E.M nb) (h : DSh nb o 0 xs c s)
    (hp : p ≤ xs.length) (hside : xs.length / 2 < p) (hfit : xs.length + src.length < nb)
    (hQ : ∀ s', DSh nb o 0 (xs.take p ++ src ++ xs.drop p) c s' → Q () s')
    (hX : ∀ ex s', DExc E nb c o (fun k => xs[k]?) (· < p) ex s' → X ex s') :
    wp (insertRange_ E (ring nb o p) src) Q X s := by
  have ho := h.ho; have hl := h.hl
  have hF' := hF; unfold Fits at hF'
  have hv := h.view0
  have hspec := Vec.insertSpec_get xs src p
  have hl2 : (xs.take p ++ src ++ xs.drop p).length = xs.length + src.length := by simp; omega
  unfold insertRange_
  rw [wp_bind]
  refine Vec.countRange_wp (by omega) ?_
  have hd1 : itDiff E.M nb (ring nb o 0) (ring nb o p) (ring nb o 0) = (p : Int) := by
    rw [itDiff_ring hF ho (by omega) (by omega) (by omega) (by omega) (by omega) (by omega)]; omega
  have hd2 : itDiff E.M nb (ring nb o 0) (ring nb o xs.length) (ring nb o p) = ((xs.length - p : Nat) : Int) := by
    rw [itDiff_ring hF ho (by omega) (by omega) (by omega) (by omega) (by omega) (by omega)]; omega
  have hb0 : s.b = ring nb o 0 := by rw [hv.hb, ring_zero ho]
  simp only [wp_bind, wp_gets, wp_ite, wp_throw, wp_pure, h.available hF, h.size hF, hv.nbuf, hv.he, hb0, hd1, hd2,
    toSize_nat (show p < E.M by omega), toSize_nat (show xs.length - p < E.M by omega)]
  refine ⟨fun hh => by omega, fun _ => ⟨fun _ => ⟨fun hnum => ?_, fun hnum => ?_⟩, fun hh => absurd hside (by omega)⟩⟩
  · generalize hn : src.length = n at *
    refine ctorEnd_forN (f := fun _ => some E.dflt) hF ho (h.good0 (· < p)) (by omega) (by omega) (fun j hj => by omega) ?_ ?_ hX
    · intro k s' hk _
      exact ⟨.ext E.dflt, E.dflt, rfl, rfl, fun Q hq => hq⟩
    · intro s1 h1
      refine assign_down (q := p - 1) (d := p + n) (m := xs.length - p) (f := fun j => xs[j - n]?) hF ho h1 (by omega) (by omega) (by omega)
        ?_ ?_ (fun j h1 h2 => by omega) ?_ ?_ hX
      · rw [itSub1_ring hF ho (by omega) (by omega)]; congr 1; omega
      · rw [itSub1_ring hF ho (by omega) (by omega)]
      · intro k s' hk hs'
        have hlt : xs.length - 1 - k < xs.length := by omega
        refine ⟨.elem (ring nb o (xs.length - 1 - k)), xs[xs.length - 1 - k], ?_, ⟨_, by omega, rfl, ?_⟩, fun Q hq => ?_⟩
        · have : p + n + (xs.length - p) - k - 1 - n = xs.length - 1 - k := by omega
          (try dsimp only); rw [this]; simp [hlt]
        · unfold fill
          rw [if_neg (by omega), if_neg (by omega)]; simp [hlt]
        · have e1 : p - 1 + (xs.length - p) - k = xs.length - 1 - k := by omega
          have e2 : p + n + (xs.length - p) - k - 1 = xs.length - 1 - k + n := by omega
          rw [e2] at hq
          rw [e1, itAddU_ring hF ho (by omega)]; exact hq
      · intro s2 h2
        refine assign_copy (d := p) (m := n) (j0 := 0) (f := fun j => src[j - p]?) hF ho h2 (by omega) (by omega) rfl
          (fun j h1 h2 => by omega) (by omega) (fun k hk => ?_) (fun k hk => ?_) ?_ ?_ hX
        · (try dsimp only); congr 1; omega
        · simp; omega
        · simp
        · intro s3 h3
          refine hQ s3 (h3.dsh ho rfl (by rw [hl2]; omega) (fun k hk => ?_))
          rw [if_neg (by omega), Nat.sub_zero, hspec k hp]
          unfold fill
          clear hX hQ hspec
          grind
  · have hu : usub E.M src.length (xs.length - p) = src.length - (xs.length - p) := by unfold usub; rw [if_pos (by omega)]
    rw [hu]
    generalize hn : src.length = n at *
    refine ctorEnd_forN (f := fun j => src[j - p]?) hF ho (h.good0 (· < p)) (by omega) (by omega) (fun j hj => by omega) ?_ ?_ hX
    · intro k s' hk hs'
      have hlt : xs.length - p + k < src.length := by omega
      refine ⟨.ext src[xs.length - p + k], src[xs.length - p + k], ?_, rfl, fun Q hq => ?_⟩
      · have : xs.length + k - p = xs.length - p + k := by omega
        (try dsimp only); rw [this]; simp [hlt]
      · simp only [wp_bind, wp_srcRead]
        exact ⟨_, by simp [hlt], hq⟩
    · intro s1 h1
      refine ctorEnd_up (q := p) (m := xs.length - p) (f := fun j => xs[j - n]?) hF ho h1 (by omega) (by omega) (by omega) rfl ?_
        (fun j hj => by omega) ?_ ?_ hX
      · rw [itAddU_ring hF ho (by omega)]
      · intro k s' hk hs'
        have hlt : p + k < xs.length := by omega
        refine ⟨.elem (ring nb o (p + k)), xs[p + k], ?_, ⟨_, by omega, rfl, ?_⟩, fun Q hq => hq⟩
        · have : xs.length + (n - (xs.length - p)) + k - n = p + k := by omega
          (try dsimp only); rw [this]; simp [hlt]
        · unfold fill
          rw [if_neg (by omega), if_neg (by omega)]; simp [hlt]
      · intro s2 h2
        refine assign_copy (d := p) (m := xs.length - p) (j0 := 0) (f := fun j => src[j - p]?) hF ho h2 (by omega) (by omega) rfl
          (fun j h1 h2 => by omega) (by omega) (fun k hk => ?_) (fun k hk => ?_) ?_ ?_ hX
        · (try dsimp only); congr 1; omega
        · simp only [beq_eq_false_iff_ne]
          intro hh
          have := ring_inj ho (by omega) (by omega) (by omega) hh; omega
        · have : p + (xs.length - p) = xs.length := by omega
          simp [this]
        · intro s3 h3
          refine hQ s3 (h3.dsh ho rfl (by rw [hl2]; omega) (fun k hk => ?_))
          rw [if_neg (by omega), Nat.sub_zero, hspec k hp]
          unfold fill
          clear hX hQ hspec
          grind

theorem insertRange_begin_wp {src : List V} {Q : Unit → St V → Prop} (hF : Fits E.M nb) (hn : src.length = n) (h : DSh nb o (n+1) xs c s)
    (hp : p ≤ xs.length) (hside : p ≤ xs.length / 2)
    (hQ : ∀ s', DSh nb o 1 (xs.take p ++ src ++ xs.drop p) c s' → Q () s')
    (hX : ∀ ex s', DExc E nb c o (LV (n+1) xs) (n + 1 + p ≤ ·) ex s' → X ex s') :
    wp (insertRange_ E (ring nb o (n + 1 + p)) src) Q X s := by
  have ho := h.ho; have hl := h.hl; have hA := h.hA
  have hF' := hF; unfold Fits at hF'
  have hspec := Vec.insertSpec_get xs src p
  have hl2 : (xs.take p ++ src ++ xs.drop p).length = xs.length + src.length := by simp; omega
  unfold insertRange_
  rw [wp_bind]
  refine Vec.countRange_wp (by omega) ?_
  have hd1 : itDiff E.M nb (ring nb o (n+1)) (ring nb o (n+1+p)) (ring nb o (n+1)) = (p : Int) := by
    rw [itDiff_ring hF ho (by omega) (by omega) (by omega) (by omega) (by omega) (by omega)]; omega
  rw [hn]
  simp only [wp_bind, wp_gets, wp_ite, wp_throw, wp_pure, h.available hF, h.size hF, h.sh.nbuf, h.sh.he, h.sh.hb, hd1,
    toSize_nat (show p < E.M by omega)]
  refine ⟨fun hh => by omega, fun _ => ⟨fun hh => absurd hh (by omega), fun _ => ⟨fun hnum => ?_, fun hnum => ?_⟩⟩⟩
  · refine ctorBegin_forN (f := fun _ => some E.dflt) hF ho (h.good (n + 1 + p ≤ ·)) (by omega) (by omega) (fun j hj => by omega) ?_ ?_ hX
    · intro k s' hk _
      exact ⟨.ext E.dflt, E.dflt, rfl, rfl, fun Q hq => hq⟩
    · intro s1 h1
      refine assign_up (q := n + 1) (d := 1) (m := p) (f := fun j => xs[j - 1]?) hF ho h1 (by omega) (by omega) (by omega)
        rfl rfl (fun j h1 h2 => by omega) ?_ ?_ hX
      · intro k s' hk hs'
        have hlt : k < xs.length := by omega
        refine ⟨.elem (ring nb o (n + 1 + k)), xs[k], ?_, ⟨_, by omega, rfl, ?_⟩, fun Q hq => ?_⟩
        · have : 1 + k - 1 = k := by omega
          (try dsimp only); rw [this]; simp [hlt]
        · unfold fill
          have : n + 1 + k - (n + 1) = k := by omega
          rw [if_neg (by omega), if_neg (by omega)]; (try dsimp only); rw [if_neg (by omega), this]; simp [hlt]
        · have e2 : n + 1 + k - n = 1 + k := by omega
          rw [itSubU_ring hF ho (by omega) (by omega), e2]; exact hq
      · intro s2 h2
        have e3 : n + 1 + p - n = 1 + p := by omega
        rw [itSubU_ring hF ho (by omega) (by omega), e3]
        refine assign_copy (d := 1 + p) (m := n) (j0 := 0) (f := fun j => src[j - (1 + p)]?) hF ho h2 (by omega) (by omega) rfl
          (fun j h1 h2 => by omega) (by omega) (fun k hk => ?_) (fun k hk => ?_) ?_ ?_ hX
        · (try dsimp only); congr 1; omega
        · simp only [beq_eq_false_iff_ne]
          intro hh
          have := ring_inj ho (by omega) (by omega) (by omega) hh; omega
        · have : 1 + p + n = n + 1 + p := by omega
          simp [this]
        · intro s3 h3
          refine hQ s3 (h3.dsh ho (by omega) (by rw [hl2]; omega) (fun k hk => ?_))
          rw [hspec (k - 1) hp]
          unfold fill
          clear hX hQ hspec
          grind
  · have hu : usub E.M n p = n - p := by unfold usub; rw [if_pos (by omega)]
    rw [hu]
    refine ctorBegin_forN (f := fun j => src[j - (1 + p)]?) hF ho (h.good (n + 1 + p ≤ ·)) (by omega) (by omega) (fun j hj => by omega) ?_ ?_ hX
    · intro k s' hk hs'
      have hlt : n - p - 1 - k < src.length := by omega
      refine ⟨.ext src[n - p - 1 - k], src[n - p - 1 - k], ?_, rfl, fun Q hq => ?_⟩
      · have : n + 1 - k - 1 - (1 + p) = n - p - 1 - k := by omega
        (try dsimp only); rw [this]; simp [hlt]
      · simp only [wp_bind, wp_srcRead]
        exact ⟨_, by simp [hlt], hq⟩
    · intro s1 h1
      have e1 : n + 1 - (n - p) = p + 1 := by omega
      rw [e1] at h1
      refine ctorBegin_down (q := n) (m := p) (f := fun j => xs[j - 1]?) hF ho h1 (by omega) (by omega) (by omega) ?_ ?_
        (fun j hj => by omega) ?_ ?_ hX
      · rw [itSub1_ring hF ho (by omega) (by omega)]; congr 1; omega
      · rw [itSub1_ring hF ho (by omega) (by omega)]; congr 1
      · intro k s' hk hs'
        have hlt : p - 1 - k < xs.length := by omega
        refine ⟨.elem (ring nb o (n + p - k)), xs[p - 1 - k], ?_, ⟨_, by omega, rfl, ?_⟩, fun Q hq => hq⟩
        · have : p + 1 - k - 1 - 1 = p - 1 - k := by omega
          (try dsimp only); rw [this]; simp [hlt]
        · unfold fill
          have : n + p - k - (n + 1) = p - 1 - k := by omega
          rw [if_neg (by omega), if_neg (by omega)]; (try dsimp only); rw [if_neg (by omega), this]; simp [hlt]
      · intro s2 h2
        refine assign_copy (d := n + 1) (m := p) (j0 := n - p) (f := fun j => src[j - (1 + p)]?) hF ho h2 (by omega) (by omega) rfl
          (fun j h1 h2 => by omega) (by omega) (fun k hk => ?_) (fun k hk => ?_) ?_ ?_ hX
        · (try dsimp only); congr 1; omega
        · simp only [beq_eq_false_iff_ne]
          intro hh
          have := ring_inj ho (by omega) (by omega) (by omega) hh; omega
        · simp
        · intro s3 h3
          refine hQ s3 (h3.dsh ho (by omega) (by rw [hl2]; omega) (fun k hk => ?_))
          rw [hspec (k - 1) hp]
          unfold fill
          clear hX hQ hspec
          grind

end Verif.Deq
