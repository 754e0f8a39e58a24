import Verif.Proof.DequeLoops
/- Hoare-style lemmas for every deque operation. -/
namespace Verif.Deq
open Verif Cmd
variable {V : Type} {E : Env V} {nb o c A : Nat} {xs : List V} {s : St V} {X : Exn → St V → Prop}

/-- Plain view of a deque whose origin is `begin()`. -/
theorem DSh.view0 (h : DSh nb o 0 xs c s) : Sh nb (ring nb o) (fun k => xs[k]?) o (ring nb o xs.length) c s := by
  have h1 := h.sh
  rw [ring_zero h.ho, Nat.zero_add] at h1
  exact h1.congr (fun k _ => by simp)

theorem DSh.of_view0 (ho : o < nb) (hl : xs.length < nb)
    (h : Sh nb (ring nb o) (fun k => xs[k]?) o (ring nb o xs.length) c s) : DSh nb o 0 xs c s := by
  refine ⟨ho, by omega, hl, ?_⟩
  rw [ring_zero ho, Nat.zero_add]
  exact h.congr (fun k _ => by simp)

/-- The canonical form: origin at `begin()`. -/
theorem DSh.canon (h : DSh nb o A xs c s) : DSh nb (ring nb o A) 0 xs c s := by
  have hA := h.hA; have hl := h.hl; have ho := h.ho
  have hlt := ring_lt ho (show A ≤ nb by omega)
  exact h.reorigin hlt (by omega) (ring_zero hlt)

/-- The same deque seen from an origin that lies `A'` slots before `begin()`. -/
theorem DSh.shift {A' : Nat} (h : DSh nb o 0 xs c s) (hA' : A' + xs.length ≤ nb) :
    ∃ o', ring nb o' A' = o ∧ DSh nb o' A' xs c s := by
  obtain ⟨o', ho', hr⟩ := exists_origin (o := o) (A := 0) (A' := A') h.ho (by omega) (by omega)
  refine ⟨o', by rw [hr, ring_zero h.ho], h.reorigin ho' hA' hr⟩

theorem destroyRange_wp {L : Nat → Option V} {b e lo hi first last : Nat} {Q : Unit → St V → Prop}
    (hF : Fits E.M nb) (ho : o < nb) (h : Sh nb (ring nb o) L b e c s) (h1 : first = ring nb o lo) (h2 : last = ring nb o hi)
    (hle : lo ≤ hi) (hhi : hi ≤ nb) (hd : hi - lo < nb) (hL : ∀ k, lo ≤ k → k < hi → (L k).isSome)
    (hQ : ∀ s', Sh nb (ring nb o) (fun k => if lo ≤ k ∧ k < hi then none else L k) b e c s' → s'.cnt = s.cnt → Q () s') :
    wp (destroyRange E nb first last) Q X s := by
  unfold destroyRange
  refine wp_up (q := lo) (N := hi - lo) hF ho (by omega) hd h1 (by rw [h2]; congr 1; omega)
    (fun k s' => Sh nb (ring nb o) (fun j => if lo ≤ j ∧ j < lo + k then none else L j) b e c s' ∧ s'.cnt = s.cnt) ?_ ?_ ?_
  · refine ⟨h.congr ?_, rfl⟩
    intro j _; rw [if_neg (by omega)]
  · intro k s' hk hs'
    refine wp_destroySlot (ring_bij ho) hs'.1 rfl (by omega) ?_ (fun s'' h'' hc => ⟨h''.congr ?_, by rw [hc, hs'.2]⟩)
    · rw [if_neg (by omega)]; exact hL _ (by omega) (by omega)
    · intro j hj
      simp only [upd]
      grind
  · intro s' hs'
    refine hQ s' (hs'.1.congr ?_) hs'.2
    intro j _
    have : lo + (hi - lo) = hi := by omega
    rw [this]

theorem clear_wp {Q : Unit → St V → Prop} (hF : Fits E.M nb) (h : DSh nb o 0 xs c s)
    (hQ : ∀ s', DSh nb o 0 [] c s' → s'.cnt = s.cnt → Q () s') : wp (clear E) Q X s := by
  have ho := h.ho; have hl := h.hl
  have hv := h.view0
  unfold clear
  simp only [wp_bind, wp_gets, wp_modify]
  rw [hv.nbuf]
  refine destroyRange_wp (lo := 0) (hi := xs.length) hF ho hv (by rw [hv.hb, ring_zero ho]) hv.he (by omega) (by omega) (by omega) ?_ (fun s' h' hc => ?_)
  · intro k _ hk; simp [hk]
  · refine hQ _ (DSh.of_view0 ho (by simp; omega) ⟨h'.nbuf, ?_, h'.hb, ?_, h'.hc⟩) hc
    · intro k hk
      have := h'.view k hk
      rw [show ({ s' with e := s'.b } : St V).slot = s'.slot from rfl, this]
      by_cases hk2 : k < xs.length <;> simp [hk2]
    · show s'.b = _
      rw [h'.hb]; simp [ring_zero ho]

theorem dtor_wp {Q : Unit → St V → Prop} (hF : Fits E.M nb) (h : DSh nb o 0 xs c s)
    (hQ : ∀ s', (∀ k, k < nb → s'.slot (ring nb o k) = none) → Q () s') : wp (dtor E) Q X s := by
  have ho := h.ho; have hl := h.hl
  have hv := h.view0
  unfold dtor
  simp only [wp_bind, wp_gets]
  rw [hv.nbuf]
  refine destroyRange_wp (lo := 0) (hi := xs.length) hF ho hv (by rw [hv.hb, ring_zero ho]) hv.he (by omega) (by omega) (by omega) ?_ (fun s' h' hc => ?_)
  · intro k _ hk; simp [hk]
  · apply hQ
    intro k hk
    rw [h'.view k hk]
    by_cases hk2 : k < xs.length <;> simp [hk2]

theorem append_get (xs : List V) (v : V) (k : Nat) : (xs ++ [v])[k]? = if k = xs.length then some v else xs[k]? := by
  by_cases h1 : k = xs.length
  · simp [h1]
  · by_cases h2 : k < xs.length
    · simp [h1, List.getElem?_append_left h2]
    · rw [if_neg h1, List.getElem?_eq_none (by simp; omega), List.getElem?_eq_none (by omega)]

theorem pushBack_wp {r : Ref V} {v : V} {Q : Unit → St V → Prop}
    (hF : Fits E.M nb) (h : DSh nb o 0 xs c s) (hr : RefIs nb (ring nb o) (fun k => xs[k]?) r v)
    (hQ : xs.length + 1 < nb → ∀ s', DSh nb o 0 (xs ++ [v]) c s' → Q () s')
    (hfull : xs.length + 1 = nb → X .badAlloc s)
    (hX : xs.length + 1 < nb → Thrown E c → ∀ s', DSh nb o 0 xs c s' → X .elemThrow s') :
    wp (pushBack E r) Q X s := by
  have ho := h.ho; have hl := h.hl
  unfold pushBack
  simp only [wp_bind, wp_gets, wp_ite, wp_throw, h.full hF, decide_eq_true_eq]
  refine ⟨fun hh => hfull (by omega), fun hne => ?_⟩
  have hv := h.view0
  unfold constructEnd
  simp only [wp_bind, wp_gets, wp_modify]
  refine wp_construct (ring_bij ho) hv hv.he (by omega) (by simp) hr (fun s' h' => hQ (by omega) _ (DSh.of_view0 ho (by simp; omega) ?_))
    (fun t s' h' => hX (by omega) t s' (DSh.of_view0 ho hl h'))
  refine ⟨h'.nbuf, ?_, h'.hb, ?_, h'.hc⟩
  · intro k hk
    have := h'.view k hk
    dsimp only
    rw [this, append_get]; rfl
  · show nextIdx _ _ _ _ = _
    rw [h'.nbuf, h'.he, nextIdx_ring hF ho (by omega)]; simp

theorem pushFront_wp {r : Ref V} {v : V} {Q : Unit → St V → Prop}
    (hF : Fits E.M nb) (h : DSh nb o 1 xs c s) (hr : RefIs nb (ring nb o) (fun k => if k < 1 then none else xs[k-1]?) r v)
    (hQ : xs.length + 1 < nb → ∀ s', DSh nb o 0 (v :: xs) c s' → Q () s')
    (hfull : xs.length + 1 = nb → X .badAlloc s)
    (hX : xs.length + 1 < nb → Thrown E c → ∀ s', DSh nb o 1 xs c s' → X .elemThrow s') :
    wp (pushFront E r) Q X s := by
  have ho := h.ho; have hl := h.hl; have hA := h.hA
  unfold pushFront
  simp only [wp_bind, wp_gets, wp_ite, wp_throw, h.full hF, decide_eq_true_eq]
  refine ⟨fun hh => hfull (by omega), fun hne => ?_⟩
  have hv := h.sh
  unfold constructBegin
  simp only [wp_bind, wp_gets, wp_modify]
  refine wp_construct (k := 0) (ring_bij ho) hv ?_ (by omega) (by simp) hr (fun s' h' => hQ (by omega) _ ?_)
    (fun t s' h' => hX (by omega) t s' ⟨ho, hA, hl, h'⟩)
  · rw [h.sh.nbuf, h.hb, itSub1_ring hF ho (by omega) (by omega)]
  · refine DSh.of_view0 ho (by simp; omega) ⟨h'.nbuf, ?_, ?_, ?_, h'.hc⟩
    · intro k hk
      have := h'.view k hk
      dsimp only
      rw [this]
      cases k with
      | zero => simp
      | succ k => rw [upd_ne _ _ (by omega)]; simp
    · show prevIdx _ _ _ _ = _
      rw [h'.nbuf, h'.hb, prevIdx_ring hF ho (by omega) (by omega)]; simp [ring_zero ho]
    · show s'.e = _
      rw [h'.he]; congr 1; simp; omega

theorem popBack_wp {Q : Unit → St V → Prop} (hF : Fits E.M nb) (h : DSh nb o 0 xs c s) (hne : xs ≠ [])
    (hQ : ∀ s', DSh nb o 0 xs.dropLast c s' → s'.cnt = s.cnt → Q () s') : wp (popBack E) Q X s := by
  have hpos : 0 < xs.length := List.length_pos_iff.mpr hne
  have ho := h.ho; have hl := h.hl
  have hv := h.view0
  unfold popBack
  simp only [wp_bind, wp_gets, wp_dassert, wp_modify]
  have hemp : empty s = false := by rw [h.empty]; simp; exact hne
  refine ⟨by simp [hemp], fun _ => ?_⟩
  refine wp_destroySlot (k := xs.length - 1) (ring_bij ho) hv ?_ (by omega) (by simp; omega) (fun s' h' hc => ?_)
  · rw [hv.nbuf, hv.he, itSub1_ring hF ho (by omega) (by omega)]
  · refine hQ _ (DSh.of_view0 ho (by simp; omega) ⟨h'.nbuf, ?_, h'.hb, ?_, h'.hc⟩) hc
    · intro k hk
      have := h'.view k hk
      dsimp only
      rw [this]
      simp only [upd, List.dropLast_eq_take, List.getElem?_take]
      by_cases h1 : k = xs.length - 1
      · simp [h1]
      · by_cases h2 : k < xs.length - 1
        · simp [h1, h2]
        · simp [h1, h2]; omega
    · show prevIdx _ _ _ _ = _
      rw [h'.nbuf, h'.he, prevIdx_ring hF ho (by omega) (by omega)]; simp

theorem popFront_wp {Q : Unit → St V → Prop} (hF : Fits E.M nb) (h : DSh nb o 0 xs c s) (hne : xs ≠ [])
    (hQ : ∀ s', DSh nb o 1 xs.tail c s' → s'.cnt = s.cnt → Q () s') : wp (popFront E) Q X s := by
  have hpos : 0 < xs.length := List.length_pos_iff.mpr hne
  have ho := h.ho; have hl := h.hl
  have hv := h.view0
  unfold popFront
  simp only [wp_bind, wp_gets, wp_dassert, wp_modify]
  have hemp : empty s = false := by rw [h.empty]; simp; exact hne
  refine ⟨by simp [hemp], fun _ => ?_⟩
  refine wp_destroySlot (k := 0) (ring_bij ho) hv ?_ (by omega) (by simp; omega) (fun s' h' hc => ?_)
  · rw [hv.hb, ring_zero ho]
  · refine hQ _ ⟨ho, by simp; omega, by simp; omega, h'.nbuf, ?_, ?_, ?_, h'.hc⟩ hc
    · intro k hk
      have := h'.view k hk
      dsimp only
      rw [this]
      cases k with
      | zero => simp
      | succ k => rw [upd_ne _ _ (by omega)]; simp
    · show nextIdx _ _ _ _ = _
      rw [h'.nbuf, h'.hb]
      conv => lhs; rw [← ring_zero ho]
      rw [nextIdx_ring hF ho (by omega)]
    · show s'.e = _
      rw [h'.he]; congr 1; simp; omega

/-- The reference stays meaningful as long as the first `p` elements are untouched. -/
def StableRef (nb o p : Nat) (xs : List V) (r : Ref V) (v : V) : Prop :=
  ∀ L : Nat → Option V, (∀ j, j < p → L j = xs[j]?) → RefIs nb (ring nb o) L r v

theorem stable_ext (p : Nat) (v : V) : StableRef nb o p xs (.ext v) v := fun _ _ => rfl
theorem stable_elem {p i : Nat} {v : V} (hi : i < p) (hp : p ≤ nb) (hv : xs[i]? = some v) :
    StableRef nb o p xs (.elem (ring nb o i)) v := fun L hL => ⟨i, by omega, rfl, by rw [hL i hi, hv]⟩

theorem resize_wp {n : Nat} {r : Ref V} {v : V} {Q : Unit → St V → Prop}
    (hF : Fits E.M nb) (hn : n < E.M) (h : DSh nb o 0 xs c s) (hr : StableRef nb o xs.length xs r v)
    (hQ : n < nb → ∀ s', DSh nb o 0 (xs.take n ++ List.replicate (n - xs.length) v) c s' → Q () s')
    (hfull : nb ≤ n → X .badAlloc s)
    (hX : n < nb → Thrown E c → ∀ s' k, DSh nb o 0 (xs ++ List.replicate k v) c s' → X .elemThrow s') :
    wp (resize E n r) Q X s := by
  have ho := h.ho; have hl := h.hl
  have hF' := hF; unfold Fits at hF'
  have hv := h.view0
  unfold resize
  simp only [wp_bind, wp_gets, wp_ite, wp_throw, wp_modify, h.size hF, h.maxSize]
  refine ⟨fun hge => ?_, fun hlt => ⟨fun hb => hfull (by omega), fun hnb => ?_⟩⟩
  · rw [hv.nbuf]
    refine destroyRange_wp (lo := n) (hi := xs.length) hF ho hv ?_ hv.he (by omega) (by omega) (by omega) ?_ (fun s' h' hc => ?_)
    · rw [hv.hb]
      conv => lhs; rw [← ring_zero ho]
      rw [itAddU_ring hF ho (by omega)]; simp
    · intro k _ hk; simp [hk]
    · refine hQ (by omega) _ (DSh.of_view0 ho (by simp; omega) ⟨h'.nbuf, ?_, h'.hb, ?_, h'.hc⟩)
      · intro k hk
        have := h'.view k hk
        dsimp only
        rw [this]
        have : n - xs.length = 0 := by omega
        simp only [this, List.replicate_zero, List.append_nil, List.getElem?_take]
        by_cases h1 : k < n
        · rw [if_neg (by omega), if_pos h1]
        · rw [if_neg h1]
          by_cases h2 : k < xs.length
          · rw [if_pos (by omega)]
          · rw [if_neg (by omega), List.getElem?_eq_none (by omega)]
      · show prevIdx _ _ _ _ = _
        have hsz : size E s' = xs.length := by
          unfold size
          rw [h'.nbuf, h'.hb, h'.he]
          conv => lhs; rw [← ring_zero ho]
          rw [show ring nb (ring nb o 0) xs.length = ring nb o xs.length by rw [ring_zero ho]]
          rw [distIdx_ring hF ho (by omega) (by omega) (by omega)]; simp
        have hu : usub E.M xs.length n = xs.length - n := by unfold usub; rw [if_pos hge]
        rw [hsz, hu, h'.nbuf, h'.he, prevIdx_ring hF ho (by omega) (by omega)]
        congr 1; simp; omega
  · have hsub : usub E.M n xs.length = n - xs.length := by
      unfold usub; rw [if_pos (by omega)]
    rw [hsub]
    refine wp_forN (fun k s' => DSh nb o 0 (xs ++ List.replicate k v) c s') ?_ ?_ ?_ ?_
    · unfold Env.fuel; omega
    · simpa using h
    · intro k s' hk hs'
      refine pushBack_wp (v := v) hF hs' ?_ (fun hlt s'' h'' => ?_) (fun hf => ?_) (fun _ t s'' h'' => hX (by omega) t s'' k h'')
      · apply hr
        intro j hj
        rw [List.getElem?_append_left hj]
      · rw [List.replicate_succ']
        rw [← List.append_assoc]; exact h''
      · simp at hf; omega
    · intro s' hs'
      apply hQ (by omega)
      rw [List.take_of_length_le (by omega)]
      exact hs'

theorem assignN_wp {n : Nat} {v : V} {Q : Unit → St V → Prop}
    (hF : Fits E.M nb) (hn : n < E.M) (h : DSh nb o 0 xs c s)
    (hQ : n < nb → ∀ s', DSh nb o 0 (List.replicate n v) c s' → Q () s')
    (hfull : nb ≤ n → X .badAlloc s)
    (hX : n < nb → Thrown E c → ∀ s' k, DSh nb o 0 (List.replicate k v) c s' → X .elemThrow s') :
    wp (assignN E n (.ext v)) Q X s := by
  have ho := h.ho
  unfold assignN
  simp only [wp_bind, wp_gets, wp_ite, wp_throw, h.maxSize]
  refine ⟨fun hh => hfull (by omega), fun hnb => ?_⟩
  refine clear_wp hF h (fun s' h' _ => ?_)
  exact resize_wp (v := v) hF hn h' (stable_ext _ _) (fun h1 s'' h'' => hQ h1 s'' (by simpa using h'')) (fun hh => by omega)
    (fun h1 t s'' k h'' => hX h1 t s'' k (by simpa using h''))

theorem assignRange_wp {src : List V} {Q : Unit → St V → Prop}
    (hF : Fits E.M nb) (hn : src.length < E.M) (h : DSh nb o 0 xs c s)
    (hQ : src.length < nb → ∀ s', DSh nb o 0 src c s' → Q () s')
    (hfull : nb ≤ src.length → X .badAlloc s)
    (hX : src.length < nb → Thrown E c → ∀ s' k, DSh nb o 0 (src.take k) c s' → X .elemThrow s') :
    wp (assignRange E src) Q X s := by
  have ho := h.ho
  unfold assignRange
  rw [wp_bind]
  refine Vec.countRange_wp hn ?_
  simp only [wp_bind, wp_gets, wp_ite, wp_throw, h.maxSize]
  refine ⟨fun hh => hfull (by omega), fun hnb => ?_⟩
  refine clear_wp hF h (fun s' h' _ => ?_)
  refine wp_forIter src.length id (fun k s' => DSh nb o 0 (src.take k) c s') ?_ rfl rfl ?_ (fun _ _ => rfl) ?_ ?_ ?_
  · unfold Env.fuel; omega
  · intro k hk; simp; omega
  · simpa using h'
  · intro k s'' hk hs''
    simp only [wp_bind, wp_srcRead]
    refine ⟨src[k], by simp [hk], ?_⟩
    refine pushBack_wp (v := src[k]) hF hs'' rfl (fun _ s3 h3 => ?_) (fun hf => ?_) (fun _ t s3 h3 => hX (by omega) t s3 k h3)
    · rw [List.take_succ_eq_append_getElem hk]; exact h3
    · simp at hf; omega
  · intro s'' hs''
    exact hQ (by omega) s'' (by simpa using hs'')

end Verif.Deq
