import Verif.Proof.DequeIns
/- erase, element access, copying and comparison of the deque model. -/
namespace Verif.Deq
open Verif Cmd
variable {V : Type} {E : Env V} {nb o c a b A : Nat} {xs : List V} {s : St V} {X : Exn → St V → Prop}

/-- The three assertions at the head of `erase(first,last)` hold. -/
theorem erase_asserts (hF : Fits E.M nb) (h : DSh nb o A xs c s) (hab : a < b) (hb : b ≤ xs.length) :
    itLt E.M s.nbuf s.b (ring nb o (A + a)) (ring nb o (A + b)) = true ∧
    (itLe E.M s.nbuf s.b s.b (ring nb o (A + a)) && itLt E.M s.nbuf s.b (ring nb o (A + a)) s.e) = true ∧
    (itLe E.M s.nbuf s.b s.b (ring nb o (A + b)) && itLe E.M s.nbuf s.b (ring nb o (A + b)) s.e) = true := by
  have ho := h.ho; have hl := h.hl; have hA := h.hA
  unfold itLe
  rw [h.sh.nbuf, h.sh.hb, h.sh.he]
  rw [itLt_ring hF ho (by omega) (by omega) (by omega) (by omega) (by omega) (by omega),
    itLt_ring hF ho (by omega) (by omega) (by omega) (by omega) (by omega) (by omega),
    itLt_ring hF ho (by omega) (by omega) (by omega) (by omega) (by omega) (by omega),
    itLt_ring hF ho (by omega) (by omega) (by omega) (by omega) (by omega) (by omega),
    itLt_ring hF ho (by omega) (by omega) (by omega) (by omega) (by omega) (by omega)]
  simp; omega

theorem eraseRange_end_wp {Q : Nat → St V → Prop} (hF : Fits E.M nb) (h : DSh nb o 0 xs c s)
    (hab : a < b) (hb : b ≤ xs.length) (hside : xs.length - b ≤ a)
    (hQ : ∀ s', DSh nb o 0 (xs.take a ++ xs.drop b) c s' → Q (ring nb o a) s')
    (hX : ∀ ex s', DExc E nb c o (fun k => xs[k]?) (· < a) ex s' → X ex s') :
    wp (eraseRange E (ring nb o a) (ring nb o b)) Q X s := by
  have ho := h.ho; have hl := h.hl
  have hF' := hF; unfold Fits at hF'
  have hv := h.view0
  have hasr := erase_asserts hF h hab hb
  simp only [Nat.zero_add] at hasr
  have hspec := Vec.eraseSpec_get xs a b
  have hl2 : (xs.take a ++ xs.drop b).length = xs.length - (b - a) := by simp; omega
  unfold eraseRange
  simp only [wp_bind, wp_gets, wp_dassert, wp_pure, wp_modify, hasr, wp_ite]
  have hb0 : s.b = ring nb o 0 := by rw [hv.hb, ring_zero ho]
  have hd1 : itDiff E.M nb (ring nb o 0) (ring nb o b) (ring nb o a) = ((b - a : Nat) : Int) := by
    rw [itDiff_ring hF ho (by omega) (by omega) (by omega) (by omega) (by omega) (by omega)]; omega
  have hd2 : itDiff E.M nb (ring nb o 0) (ring nb o a) (ring nb o 0) = (a : Int) := by
    rw [itDiff_ring hF ho (by omega) (by omega) (by omega) (by omega) (by omega) (by omega)]; omega
  have hd3 : itDiff E.M nb (ring nb o 0) (ring nb o xs.length) (ring nb o b) = ((xs.length - b : Nat) : Int) := by
    rw [itDiff_ring hF ho (by omega) (by omega) (by omega) (by omega) (by omega) (by omega)]; omega
  simp only [hv.nbuf, hb0, hv.he, hd1, hd2, hd3, toSize_nat (show b - a < E.M by omega)]
  refine ⟨by simp, fun _ => ⟨by simp, fun _ => ⟨by simp, fun _ => ⟨fun _ => ?_, fun hh => by omega⟩⟩⟩⟩
  refine assign_up (q := b) (d := a) (m := xs.length - b) (f := fun j => xs[j + (b - a)]?) hF ho (h.good0 (· < a)) (by omega) (by omega) (by omega)
    rfl ?_ (fun j h1 h2 => by omega) ?_ ?_ hX
  · congr 1; omega
  · intro k s' hk hs'
    have hlt : b + k < xs.length := by omega
    refine ⟨.elem (ring nb o (b + k)), xs[b + k], ?_, ⟨_, by omega, rfl, ?_⟩, fun Q hq => ?_⟩
    · have : a + k + (b - a) = b + k := by omega
      (try dsimp only); rw [this]; simp [hlt]
    · unfold fill
      rw [if_neg (by omega)]; simp [hlt]
    · have e2 : b + k - (b - a) = a + k := by omega
      rw [itSubU_ring hF ho (by omega) (by omega), e2]; exact hq
  · intro s1 h1
    refine destroyRange_wp (lo := xs.length - (b - a)) (hi := xs.length) hF ho h1.sh ?_ rfl (by omega) (by omega) (by omega) ?_ (fun s2 h2 _ => ?_)
    · rw [itSubU_ring hF ho (by omega) (by omega)]
    · intro k hk1 hk2
      exact (h1.live k (by omega)).mpr ⟨by omega, hk2⟩
    · refine hQ _ (DSh.of_view0 ho (by rw [hl2]; omega) ⟨h2.nbuf, ?_, ?_, ?_, h2.hc⟩)
      · intro k hk
        have := h2.view k hk
        (try dsimp only); rw [this, hspec k (by omega) hb]
        unfold fill
        clear hX hQ hspec
        grind
      · show s2.b = _
        rw [h2.hb, ring_zero ho]
      · show prevIdx _ _ _ _ = _
        rw [h2.nbuf, h2.he, prevIdx_ring hF ho (by omega) (by omega), hl2]

theorem eraseRange_begin_wp {Q : Nat → St V → Prop} (hF : Fits E.M nb) (h : DSh nb o 1 xs c s)
    (hab : a < b) (hb : b ≤ xs.length) (hside : a < xs.length - b)
    (hQ : ∀ s', DSh nb o (1 + (b - a)) (xs.take a ++ xs.drop b) c s' → Q (ring nb o (1 + b)) s')
    (hX : ∀ ex s', DExc E nb c o (LV 1 xs) (1 + b ≤ ·) ex s' → X ex s') :
    wp (eraseRange E (ring nb o (1 + a)) (ring nb o (1 + b))) Q X s := by
  have ho := h.ho; have hl := h.hl; have hA := h.hA
  have hF' := hF; unfold Fits at hF'
  have hasr := erase_asserts hF h hab hb
  have hspec := Vec.eraseSpec_get xs a b
  have hl2 : (xs.take a ++ xs.drop b).length = xs.length - (b - a) := by simp; omega
  unfold eraseRange
  simp only [wp_bind, wp_gets, wp_dassert, wp_pure, wp_modify, hasr, wp_ite]
  have hd1 : itDiff E.M nb (ring nb o 1) (ring nb o (1+b)) (ring nb o (1+a)) = ((b - a : Nat) : Int) := by
    rw [itDiff_ring hF ho (by omega) (by omega) (by omega) (by omega) (by omega) (by omega)]; omega
  have hd2 : itDiff E.M nb (ring nb o 1) (ring nb o (1+a)) (ring nb o 1) = (a : Int) := by
    rw [itDiff_ring hF ho (by omega) (by omega) (by omega) (by omega) (by omega) (by omega)]; omega
  have hd3 : itDiff E.M nb (ring nb o 1) (ring nb o (1+xs.length)) (ring nb o (1+b)) = ((xs.length - b : Nat) : Int) := by
    rw [itDiff_ring hF ho (by omega) (by omega) (by omega) (by omega) (by omega) (by omega)]; omega
  simp only [h.sh.nbuf, h.sh.hb, h.sh.he, hd1, hd2, hd3, toSize_nat (show b - a < E.M by omega)]
  refine ⟨by simp, fun _ => ⟨by simp, fun _ => ⟨by simp, fun _ => ⟨fun hh => by omega, fun _ => ?_⟩⟩⟩⟩
  refine assign_down (q := 0) (d := b - a + 1) (m := a) (f := fun j => xs[j - (b - a) - 1]?) hF ho (h.good (1 + b ≤ ·)) (by omega) (by omega) (by omega)
    ?_ ?_ (fun j h1 h2 => by omega) ?_ ?_ hX
  · rw [itSub1_ring hF ho (by omega) (by omega)]; congr 1; omega
  · rw [itSub1_ring hF ho (by omega) (by omega)]
  · intro k s' hk hs'
    have hlt : a - 1 - k < xs.length := by omega
    refine ⟨.elem (ring nb o (a - k)), xs[a - 1 - k], ?_, ⟨_, by omega, rfl, ?_⟩, fun Q hq => ?_⟩
    · have : b - a + 1 + a - k - 1 - (b - a) - 1 = a - 1 - k := by omega
      (try dsimp only); rw [this]; simp [hlt]
    · unfold fill
      have : a - k - 1 = a - 1 - k := by omega
      rw [if_neg (by omega)]; (try dsimp only); rw [if_neg (by omega), this]; simp [hlt]
    · have e1 : 0 + a - k = a - k := by omega
      have e2 : b - a + 1 + a - k - 1 = a - k + (b - a) := by omega
      rw [e2] at hq
      rw [e1, itAddU_ring hF ho (by omega)]; exact hq
  · intro s1 h1
    refine destroyRange_wp (lo := 1) (hi := 1 + (b - a)) hF ho h1.sh rfl ?_ (by omega) (by omega) (by omega) ?_ (fun s2 h2 _ => ?_)
    · rw [itAddU_ring hF ho (by omega)]
    · intro k hk1 hk2
      exact (h1.live k (by omega)).mpr ⟨hk1, by omega⟩
    · refine hQ _ ⟨ho, by rw [hl2]; omega, by rw [hl2]; omega, h2.nbuf, ?_, ?_, ?_, h2.hc⟩
      · intro k hk
        have := h2.view k hk
        (try dsimp only); rw [this, hspec _ (by omega) hb]
        unfold fill
        clear hX hQ hspec
        grind
      · show nextIdx _ _ _ _ = _
        rw [h2.nbuf, h2.hb, nextIdx_ring hF ho (by omega)]
      · show s2.e = _
        rw [h2.he, hl2]; congr 1; omega

theorem readAt_wp {Q : V → St V → Prop} {i k : Nat} (h : DSh nb o 0 xs c s) (hi : i < xs.length) (hk : k = ring nb o i)
    (hQ : Q xs[i] s) : wp (readSlot k) Q X s := by
  have hl := h.hl
  exact wp_readSlot (ring_bij h.ho) h.view0 hk (by omega) (by simp [hi]) hQ

theorem index_wp {Q : V → St V → Prop} {i : Nat} (hF : Fits E.M nb) (h : DSh nb o 0 xs c s) (hi : i < xs.length)
    (hQ : Q xs[i] s) : wp (index E i) Q X s := by
  have hl := h.hl
  unfold index
  simp only [wp_bind, wp_gets]
  refine readAt_wp h hi ?_ hQ
  rw [h.sh.nbuf, h.sh.hb, itAddU_ring hF h.ho (by omega), Nat.zero_add]

theorem at_wp {Q : V → St V → Prop} {i : Nat} (hF : Fits E.M nb) (h : DSh nb o 0 xs c s)
    (hQ : ∀ hi : i < xs.length, Q xs[i] s) (hX : xs.length ≤ i → X .outOfRange s) : wp (at_ E i) Q X s := by
  unfold at_
  simp only [wp_bind, wp_gets, wp_ite, wp_throw, h.size hF]
  exact ⟨fun hh => hX hh, fun hh => index_wp hF h (by omega) (hQ (by omega))⟩

theorem front_wp {Q : V → St V → Prop} (h : DSh nb o 0 xs c s) (hne : 0 < xs.length) (hQ : Q xs[0] s) : wp (front E) Q X s := by
  unfold front
  have hemp : empty s = false := by rw [h.empty]; simp; exact List.length_pos_iff.mp hne
  simp only [wp_bind, wp_gets, wp_dassert]
  exact ⟨by simp [hemp], fun _ => readAt_wp h hne h.sh.hb hQ⟩

theorem back_wp {Q : V → St V → Prop} (hF : Fits E.M nb) (h : DSh nb o 0 xs c s) (hne : 0 < xs.length)
    (hQ : Q xs[xs.length - 1] s) : wp (back E) Q X s := by
  have hl := h.hl
  unfold back
  have hemp : empty s = false := by rw [h.empty]; simp; exact List.length_pos_iff.mp hne
  simp only [wp_bind, wp_gets, wp_dassert]
  refine ⟨by simp [hemp], fun _ => readAt_wp (i := xs.length - 1) h (by omega) ?_ hQ⟩
  rw [h.sh.nbuf, h.view0.he, itSub1_ring hF h.ho (by omega) (by omega)]

theorem contents_eq (hF : Fits E.M nb) (h : DSh nb o 0 xs c s) : contents E s = some xs := by
  have hl := h.hl; have ho := h.ho
  unfold contents
  rw [h.size hF]
  have hv := h.view0
  have : ∀ n, n ≤ xs.length → (List.range n).mapM (fun i =>
      let j := itAddU E.M s.nbuf s.b i
      if j < s.nbuf then s.slot j else none) = some (xs.take n) := by
    intro n
    induction n with
    | zero => intro _; simp
    | succ n ih =>
      intro hn
      have hj : itAddU E.M s.nbuf s.b n = ring nb o n := by
        rw [h.sh.nbuf, h.sh.hb, itAddU_ring hF ho (by omega), Nat.zero_add]
      have hs : s.slot (ring nb o n) = xs[n]? := hv.view n (by omega)
      have hn' : ring nb o n < s.nbuf := by rw [hv.nbuf]; exact ring_lt ho (by omega)
      have hnl : n < xs.length := by omega
      rw [List.range_succ, List.mapM_append, ih (by omega), List.take_succ_eq_append_getElem hnl]
      simp [hj, hn', hs, hnl]
  simpa using this xs.length (by omega)

theorem peek_run {i : Nat} (hF : Fits E.M nb) (h : DSh nb o 0 xs c s) (hi : i < xs.length) : peek E s i () = .ok xs[i] () := by
  have hl := h.hl; have ho := h.ho
  have hv := h.view0
  have hj : itAddU E.M s.nbuf s.b i = ring nb o i := by
    rw [h.sh.nbuf, h.sh.hb, itAddU_ring hF ho (by omega), Nat.zero_add]
  have hs : s.slot (ring nb o i) = xs[i]? := hv.view i (by omega)
  have hlt := ring_lt ho (show i ≤ nb by omega)
  unfold peek
  simp only [hj]
  rw [if_neg (by rw [hv.nbuf]; omega), hs]
  simp [hi]

theorem eq_run [BEq V] {cmpCap : Bool} {nb' o' c' : Nat} {ys : List V} {s' : St V} (hF : Fits E.M nb) (hF2 : Fits E.M nb')
    (h : DSh nb o 0 xs c s) (h' : DSh nb' o' 0 ys c' s') :
    eq E cmpCap s s' () = .ok ((!cmpCap || nb == nb') && (xs == ys)) () := by
  have hl := h.hl; have ho := h.ho; have ho' := h'.ho
  unfold eq
  simp only [h.maxSize, h.size hF, h'.maxSize, h'.size hF2]
  have hnn : (nb - 1 != nb' - 1) = (nb != nb') := by
    rw [Bool.eq_iff_iff]; simp; omega
  rw [hnn]
  by_cases hc : (cmpCap && nb != nb') = true
  · rw [if_pos hc]
    have hc' : (!cmpCap || nb == nb') = false := by
      cases cmpCap <;> simp_all
    rw [hc']; rfl
  · rw [if_neg hc]
    have hc' : (!cmpCap || nb == nb') = true := by
      cases cmpCap <;> simp_all
    rw [hc', Bool.true_and]
    by_cases hl : xs.length = ys.length
    · rw [if_neg (by simp [hl])]
      exact Vec.eqElems_run rfl hl (fun i hi => peek_run hF h hi) (fun i hi => peek_run hF2 h' hi)
        (by unfold Env.fuel Fits at *; omega)
    · rw [if_pos (by simp [hl])]
      have : (xs == ys) = false := by
        cases hb : (xs == ys) with
        | false => rfl
        | true => exact absurd (Vec.list_beq_length _ _ hb) hl
      rw [this]; rfl

end Verif.Deq
