import Verif.Proof.DequeIdx
/- Loop building blocks of the deque model. -/
namespace Verif.Deq
open Verif Cmd
variable {V : Type} {E : Env V} {nb o c : Nat} {s : St V} {L0 L : Nat → Option V} {K : Nat → Prop} {lo hi : Nat}
variable {X : Exn → St V → Prop}

/-- A well-formed intermediate state: live ring positions are exactly `[lo,hi) = [begin,end)`, and the
positions in `K` still are as in `L0`. -/
structure Good (nb o c : Nat) (L0 : Nat → Option V) (K : Nat → Prop) (L : Nat → Option V) (lo hi : Nat) (s : St V) : Prop where
  sh : Sh nb (ring nb o) L (ring nb o lo) (ring nb o hi) c s
  live : LiveIn nb L lo hi
  le : lo ≤ hi
  hi_le : hi ≤ nb
  lt : hi - lo < nb
  keep : ∀ j, j < nb → K j → L j = L0 j

theorem Good.exc (h : Good nb o c L0 K L lo hi s) (ht : Thrown E c) : DExc E nb c o L0 K .elemThrow s :=
  ⟨rfl, ht, L, lo, hi, h.sh, h.live, h.le, h.hi_le, h.lt, h.keep⟩

theorem Good.congr {L' : Nat → Option V} (h : Good nb o c L0 K L lo hi s) (hL : ∀ k, k < nb → L k = L' k) :
    Good nb o c L0 K L' lo hi s :=
  ⟨h.sh.congr hL, fun k hk => by rw [← hL k hk]; exact h.live k hk, h.le, h.hi_le, h.lt,
    fun j hj hk => by rw [← hL j hj]; exact h.keep j hj hk⟩

theorem Good.none_of {k : Nat} (h : Good nb o c L0 K L lo hi s) (hk : k < nb) (hn : ¬ (lo ≤ k ∧ k < hi)) : L k = none := by
  have := h.live k hk
  cases hh : L k with
  | none => rfl
  | some w => rw [hh] at this; simp at this; omega

theorem DSh.good {A : Nat} {xs : List V} (h : DSh nb o A xs c s) (K : Nat → Prop) :
    Good nb o c (fun k => if k < A then none else xs[k - A]?) K (fun k => if k < A then none else xs[k - A]?) A (A + xs.length) s :=
  ⟨h.sh, h.live, by omega, h.hA, by have := h.hl; omega, fun _ _ _ => rfl⟩

/-- Back from an intermediate state to a deque. -/
theorem Good.dsh {A : Nat} {xs : List V} (ho : o < nb) (h : Good nb o c L0 K L lo hi s) (h1 : lo = A) (h2 : hi = A + xs.length)
    (hL : ∀ k, k < nb → L k = if k < A then none else xs[k - A]?) : DSh nb o A xs c s := by
  subst h1 h2
  exact ⟨ho, h.hi_le, by have := h.lt; omega, h.sh.congr hL⟩

theorem ctorEnd_wp {r : Ref V} {v : V} {Q : Unit → St V → Prop} (hF : Fits E.M nb) (ho : o < nb)
    (h : Good nb o c L0 K L lo hi s) (hhi : hi < nb) (hd : hi + 1 - lo < nb) (hK : ¬ K hi)
    (hr : RefIs nb (ring nb o) L r v)
    (hQ : ∀ s', Good nb o c L0 K (upd L hi (some v)) lo (hi+1) s' → Q () s')
    (hX : ∀ ex s', DExc E nb c o L0 K ex s' → X ex s') :
    wp (constructEnd E r) Q X s := by
  unfold constructEnd
  simp only [wp_bind, wp_gets, wp_modify]
  have hle := h.le
  refine wp_construct (ring_bij ho) h.sh (k := hi) (v := v) h.sh.he hhi (h.none_of hhi (by omega)) hr (fun s' h' => hQ _ ⟨?_, ?_, ?_, ?_, ?_, ?_⟩) (fun t s' h' => hX _ _ ?_)
  · exact ⟨h'.nbuf, h'.view, h'.hb, by show nextIdx _ _ _ _ = _; rw [h'.nbuf, h'.he, nextIdx_ring hF ho (by omega)], h'.hc⟩
  · intro k hk
    by_cases hkh : k = hi
    · subst hkh; simp; omega
    · rw [upd_ne _ _ hkh, h.live k hk]; omega
  · omega
  · omega
  · omega
  · intro j hj hkj
    rw [upd_ne _ _ (by rintro rfl; exact hK hkj)]; exact h.keep j hj hkj
  · exact Good.exc ⟨h', h.live, h.le, h.hi_le, h.lt, h.keep⟩ t

theorem ctorBegin_wp {r : Ref V} {v : V} {Q : Unit → St V → Prop} (hF : Fits E.M nb) (ho : o < nb)
    (h : Good nb o c L0 K L lo hi s) (hlo : 0 < lo) (hd : hi + 1 - lo < nb) (hK : ¬ K (lo - 1))
    (hr : RefIs nb (ring nb o) L r v)
    (hQ : ∀ s', Good nb o c L0 K (upd L (lo - 1) (some v)) (lo - 1) hi s' → Q () s')
    (hX : ∀ ex s', DExc E nb c o L0 K ex s' → X ex s') :
    wp (constructBegin E r) Q X s := by
  unfold constructBegin
  simp only [wp_bind, wp_gets, wp_modify]
  have hle := h.le
  have hhi := h.hi_le
  refine wp_construct (ring_bij ho) h.sh (k := lo - 1) (v := v) ?_ (by omega) (h.none_of (by omega) (by omega)) hr (fun s' h' => hQ _ ⟨?_, ?_, ?_, ?_, ?_, ?_⟩) (fun t s' h' => hX _ _ ?_)
  · rw [h.sh.nbuf, h.sh.hb, itSub1_ring hF ho (by omega) (by omega)]
  · exact ⟨h'.nbuf, h'.view, by show prevIdx _ _ _ _ = _; rw [h'.nbuf, h'.hb, prevIdx_ring hF ho (by omega) (by omega)], h'.he, h'.hc⟩
  · intro k hk
    by_cases hkh : k = lo - 1
    · subst hkh; simp; omega
    · rw [upd_ne _ _ hkh, h.live k hk]; omega
  · omega
  · omega
  · omega
  · intro j hj hkj
    rw [upd_ne _ _ (by rintro rfl; exact hK hkj)]; exact h.keep j hj hkj
  · exact Good.exc ⟨h', h.live, h.le, h.hi_le, h.lt, h.keep⟩ t

theorem assign_wp {k i : Nat} {r : Ref V} {v : V} {Q : Unit → St V → Prop} (ho : o < nb)
    (h : Good nb o c L0 K L lo hi s) (hi' : i = ring nb o k) (h1 : lo ≤ k) (h2 : k < hi) (hK : ¬ K k)
    (hr : RefIs nb (ring nb o) L r v)
    (hQ : ∀ s', Good nb o c L0 K (upd L k (some v)) lo hi s' → Q () s')
    (hX : ∀ ex s', DExc E nb c o L0 K ex s' → X ex s') :
    wp (assignSlot E i r) Q X s := by
  have hle := h.hi_le
  have hlive := (h.live k (by omega)).mpr ⟨h1, h2⟩
  have key : ∀ w s', Sh nb (ring nb o) (upd L k (some w)) (ring nb o lo) (ring nb o hi) c s' →
      Good nb o c L0 K (upd L k (some w)) lo hi s' := fun w s' h' =>
    ⟨h', Vec.liveIn_upd h.live (by omega) hlive, h.le, h.hi_le, h.lt, fun j hj hkj => by
      rw [upd_ne _ _ (by rintro rfl; exact hK hkj)]; exact h.keep j hj hkj⟩
  exact wp_assignSlot (ring_bij ho) h.sh hi' (by omega) hlive hr (fun s' h' => hQ _ (key v s' h'))
    (fun t s' w h' => hX _ _ ((key w s' h').exc t))

/-- `L` with positions `[d, d+k)` replaced by those of `f`. -/
def fill (L : Nat → Option V) (d k : Nat) (f : Nat → Option V) : Nat → Option V := fun j =>
  if d ≤ j ∧ j < d + k then f j else L j

theorem fill_zero (d : Nat) (f : Nat → Option V) : fill L d 0 f = L := by
  funext j; unfold fill; rw [if_neg (by omega)]
theorem upd_fill_up {d k : Nat} {f : Nat → Option V} {v : V} (h : f (d + k) = some v) :
    upd (fill L d k f) (d + k) (some v) = fill L d (k+1) f := by
  funext j; unfold upd fill; grind
theorem upd_fill_down {d k : Nat} {f : Nat → Option V} {v : V} (hd : 0 < d) (h : f (d - 1) = some v) :
    upd (fill L d k f) (d - 1) (some v) = fill L (d-1) (k+1) f := by
  funext j; unfold upd fill; grind

/-- `forN` loop of constructions at the end. -/
theorem ctorEnd_forN {m : Nat} {f : Nat → Option V} {body : Nat → Cmd (St V) Unit} {Q : Unit → St V → Prop}
    (hF : Fits E.M nb) (ho : o < nb) (h : Good nb o c L0 K L lo hi s) (hm : hi + m ≤ nb) (hd : hi + m - lo < nb)
    (hK : ∀ j, hi ≤ j → ¬ K j)
    (hb : ∀ k s', k < m → Good nb o c L0 K (fill L hi k f) lo (hi + k) s' → ∃ r v, f (hi + k) = some v ∧
      RefIs nb (ring nb o) (fill L hi k f) r v ∧ ∀ Q, wp (constructEnd E r) Q X s' → wp (body k) Q X s')
    (hQ : ∀ s', Good nb o c L0 K (fill L hi m f) lo (hi + m) s' → Q () s')
    (hX : ∀ ex s', DExc E nb c o L0 K ex s' → X ex s') :
    wp (forN E.fuel m body) Q X s := by
  have hF' := hF; unfold Fits at hF'
  refine wp_forN (fun k s' => Good nb o c L0 K (fill L hi k f) lo (hi + k) s') ?_ ?_ ?_ hQ
  · unfold Env.fuel; omega
  · rw [fill_zero]; exact h
  · intro k s' hk hs'
    obtain ⟨r, v, hf, hr, hbody⟩ := hb k s' hk hs'
    refine hbody _ (ctorEnd_wp hF ho hs' (by omega) (by omega) (hK _ (by omega)) hr (fun s'' h'' => ?_) hX)
    rw [upd_fill_up hf] at h''; exact h''

/-- Iterator loop of constructions at the end. -/
theorem ctorEnd_up {q m start stop : Nat} {f : Nat → Option V} {body : Nat → Cmd (St V) Unit} {Q : Unit → St V → Prop}
    (hF : Fits E.M nb) (ho : o < nb) (h : Good nb o c L0 K L lo hi s) (hm : hi + m ≤ nb) (hd : hi + m - lo < nb)
    (hq : q + m ≤ nb) (h1 : start = ring nb o q) (h2 : stop = ring nb o (q + m))
    (hK : ∀ j, hi ≤ j → ¬ K j)
    (hb : ∀ k s', k < m → Good nb o c L0 K (fill L hi k f) lo (hi + k) s' → ∃ r v, f (hi + k) = some v ∧
      RefIs nb (ring nb o) (fill L hi k f) r v ∧ ∀ Q, wp (constructEnd E r) Q X s' → wp (body (ring nb o (q + k))) Q X s')
    (hQ : ∀ s', Good nb o c L0 K (fill L hi m f) lo (hi + m) s' → Q () s')
    (hX : ∀ ex s', DExc E nb c o L0 K ex s' → X ex s') :
    wp (forIter E.fuel start stop (itInc E.M nb) body) Q X s := by
  have hle := h.le
  refine wp_up hF ho hq (by omega) h1 h2 (fun k s' => Good nb o c L0 K (fill L hi k f) lo (hi + k) s') ?_ ?_ hQ
  · rw [fill_zero]; exact h
  · intro k s' hk hs'
    obtain ⟨r, v, hf, hr, hbody⟩ := hb k s' hk hs'
    refine hbody _ (ctorEnd_wp hF ho hs' (by omega) (by omega) (hK _ (by omega)) hr (fun s'' h'' => ?_) hX)
    rw [upd_fill_up hf] at h''; exact h''

/-- `forN` loop of constructions at the beginning. -/
theorem ctorBegin_forN {m : Nat} {f : Nat → Option V} {body : Nat → Cmd (St V) Unit} {Q : Unit → St V → Prop}
    (hF : Fits E.M nb) (ho : o < nb) (h : Good nb o c L0 K L lo hi s) (hm : m ≤ lo) (hd : hi + m - lo < nb)
    (hK : ∀ j, j < lo → ¬ K j)
    (hb : ∀ k s', k < m → Good nb o c L0 K (fill L (lo - k) k f) (lo - k) hi s' → ∃ r v, f (lo - k - 1) = some v ∧
      RefIs nb (ring nb o) (fill L (lo - k) k f) r v ∧ ∀ Q, wp (constructBegin E r) Q X s' → wp (body k) Q X s')
    (hQ : ∀ s', Good nb o c L0 K (fill L (lo - m) m f) (lo - m) hi s' → Q () s')
    (hX : ∀ ex s', DExc E nb c o L0 K ex s' → X ex s') :
    wp (forN E.fuel m body) Q X s := by
  have hF' := hF; unfold Fits at hF'
  have hle := h.le; have hhi := h.hi_le
  refine wp_forN (fun k s' => Good nb o c L0 K (fill L (lo - k) k f) (lo - k) hi s') ?_ ?_ ?_ hQ
  · unfold Env.fuel; omega
  · rw [fill_zero]; exact h
  · intro k s' hk hs'
    obtain ⟨r, v, hf, hr, hbody⟩ := hb k s' hk hs'
    refine hbody _ (ctorBegin_wp hF ho hs' (by omega) (by omega) (hK _ (by omega)) hr (fun s'' h'' => ?_) hX)
    rw [upd_fill_down (by omega) hf] at h''; exact h''

/-- Backward iterator loop of constructions at the beginning. -/
theorem ctorBegin_down {q m start stop : Nat} {f : Nat → Option V} {body : Nat → Cmd (St V) Unit} {Q : Unit → St V → Prop}
    (hF : Fits E.M nb) (ho : o < nb) (h : Good nb o c L0 K L lo hi s) (hm : m ≤ lo) (hd : hi + m - lo < nb)
    (hq : q + m ≤ nb) (h1 : start = ring nb o (q + m)) (h2 : stop = ring nb o q)
    (hK : ∀ j, j < lo → ¬ K j)
    (hb : ∀ k s', k < m → Good nb o c L0 K (fill L (lo - k) k f) (lo - k) hi s' → ∃ r v, f (lo - k - 1) = some v ∧
      RefIs nb (ring nb o) (fill L (lo - k) k f) r v ∧ ∀ Q, wp (constructBegin E r) Q X s' → wp (body (ring nb o (q + m - k))) Q X s')
    (hQ : ∀ s', Good nb o c L0 K (fill L (lo - m) m f) (lo - m) hi s' → Q () s')
    (hX : ∀ ex s', DExc E nb c o L0 K ex s' → X ex s') :
    wp (forIter E.fuel start stop (itDec E.M nb) body) Q X s := by
  have hle := h.le; have hhi := h.hi_le
  refine wp_down hF ho hq (by omega) h1 h2 (fun k s' => Good nb o c L0 K (fill L (lo - k) k f) (lo - k) hi s') ?_ ?_ hQ
  · rw [fill_zero]; exact h
  · intro k s' hk hs'
    obtain ⟨r, v, hf, hr, hbody⟩ := hb k s' hk hs'
    refine hbody _ (ctorBegin_wp hF ho hs' (by omega) (by omega) (hK _ (by omega)) hr (fun s'' h'' => ?_) hX)
    rw [upd_fill_down (by omega) hf] at h''; exact h''

/-- Forward loop of assignments to the positions `[d, d+m)`. -/
theorem assign_up {q d m start stop : Nat} {f : Nat → Option V} {body : Nat → Cmd (St V) Unit} {Q : Unit → St V → Prop}
    (hF : Fits E.M nb) (ho : o < nb) (h : Good nb o c L0 K L lo hi s) (hdl : lo ≤ d) (hdh : d + m ≤ hi)
    (hq : q + m ≤ nb) (h1 : start = ring nb o q) (h2 : stop = ring nb o (q + m))
    (hK : ∀ j, d ≤ j → j < d + m → ¬ K j)
    (hb : ∀ k s', k < m → Good nb o c L0 K (fill L d k f) lo hi s' → ∃ r v, f (d + k) = some v ∧
      RefIs nb (ring nb o) (fill L d k f) r v ∧ ∀ Q, wp (assignSlot E (ring nb o (d + k)) r) Q X s' → wp (body (ring nb o (q + k))) Q X s')
    (hQ : ∀ s', Good nb o c L0 K (fill L d m f) lo hi s' → Q () s')
    (hX : ∀ ex s', DExc E nb c o L0 K ex s' → X ex s') :
    wp (forIter E.fuel start stop (itInc E.M nb) body) Q X s := by
  have hle := h.le; have hhi := h.hi_le; have hlt := h.lt
  refine wp_up hF ho hq (by omega) h1 h2 (fun k s' => Good nb o c L0 K (fill L d k f) lo hi s') ?_ ?_ hQ
  · rw [fill_zero]; exact h
  · intro k s' hk hs'
    obtain ⟨r, v, hf, hr, hbody⟩ := hb k s' hk hs'
    refine hbody _ (assign_wp ho hs' rfl (by omega) (by omega) (hK _ (by omega) (by omega)) hr (fun s'' h'' => ?_) hX)
    rw [upd_fill_up hf] at h''; exact h''

/-- Backward loop of assignments to the positions `[d+1, d+m+1)`. -/
theorem assign_down {q d m start stop : Nat} {f : Nat → Option V} {body : Nat → Cmd (St V) Unit} {Q : Unit → St V → Prop}
    (hF : Fits E.M nb) (ho : o < nb) (h : Good nb o c L0 K L lo hi s) (hdl : lo ≤ d) (hdh : d + m ≤ hi)
    (hq : q + m ≤ nb) (h1 : start = ring nb o (q + m)) (h2 : stop = ring nb o q)
    (hK : ∀ j, d ≤ j → j < d + m → ¬ K j)
    (hb : ∀ k s', k < m → Good nb o c L0 K (fill L (d + m - k) k f) lo hi s' → ∃ r v, f (d + m - k - 1) = some v ∧
      RefIs nb (ring nb o) (fill L (d + m - k) k f) r v ∧
      ∀ Q, wp (assignSlot E (ring nb o (d + m - k - 1)) r) Q X s' → wp (body (ring nb o (q + m - k))) Q X s')
    (hQ : ∀ s', Good nb o c L0 K (fill L d m f) lo hi s' → Q () s')
    (hX : ∀ ex s', DExc E nb c o L0 K ex s' → X ex s') :
    wp (forIter E.fuel start stop (itDec E.M nb) body) Q X s := by
  have hle := h.le; have hhi := h.hi_le; have hlt := h.lt
  refine wp_down hF ho hq (by omega) h1 h2 (fun k s' => Good nb o c L0 K (fill L (d + m - k) k f) lo hi s') ?_ ?_ ?_
  · rw [fill_zero]; exact h
  · intro k s' hk hs'
    obtain ⟨r, v, hf, hr, hbody⟩ := hb k s' hk hs'
    refine hbody _ (assign_wp ho hs' rfl (by omega) (by omega) (hK _ (by omega) (by omega)) hr (fun s'' h'' => ?_) hX)
    rw [upd_fill_down (by omega) hf] at h''; exact h''
  · intro s' hs'
    have : d + m - m = d := by omega
    rw [this] at hs'; exact hQ s' hs'

/-- `*it++ = *first++` loop over the positions `[d, d+m)` reading `src[j0 ...]`. -/
theorem assign_copy {src : List V} {stp : Nat × Nat → Bool} {d m j0 it : Nat} {f : Nat → Option V} {Q : Unit → St V → Prop}
    (hF : Fits E.M nb) (ho : o < nb) (h : Good nb o c L0 K L lo hi s) (hdl : lo ≤ d) (hdh : d + m ≤ hi)
    (h1 : it = ring nb o d) (hK : ∀ j, d ≤ j → j < d + m → ¬ K j) (hj : j0 + m ≤ src.length)
    (hf : ∀ k, k < m → f (d + k) = src[j0 + k]?)
    (hst : ∀ k, k < m → stp (ring nb o (d + k), j0 + k) = false) (hst' : stp (ring nb o (d + m), j0 + m) = true)
    (hQ : ∀ s', Good nb o c L0 K (fill L d m f) lo hi s' → Q () s')
    (hX : ∀ ex s', DExc E nb c o L0 K ex s' → X ex s') :
    wp (copyAssignLoop E nb src stp it j0) Q X s := by
  have hF' := hF; unfold Fits at hF'
  have hle := h.le; have hhi := h.hi_le; have hlt := h.lt
  unfold copyAssignLoop
  rw [wp_bind]
  refine wp_loop m (fun k p s' => p = (ring nb o (d + k), j0 + k) ∧ Good nb o c L0 K (fill L d k f) lo hi s') ?_ ?_ ?_ ?_
  · unfold Env.fuel; omega
  · exact ⟨by rw [h1]; rfl, by rw [fill_zero]; exact h⟩
  · rintro k p s' hk ⟨rfl, hs'⟩
    refine ⟨by simp [hst k hk], ?_⟩
    have hlt2 : j0 + k < src.length := by omega
    simp only [wp_bind, wp_srcRead, wp_pure]
    refine ⟨src[j0 + k], by simp [hlt2], ?_⟩
    have hfk : f (d + k) = some src[j0 + k] := by rw [hf k hk]; simp [hlt2]
    refine assign_wp (v := src[j0 + k]) ho hs' rfl (by omega) (by omega) (hK _ (by omega) (by omega)) rfl (fun s'' h'' => ⟨?_, ?_⟩) hX
    · rw [itInc_ring hF ho (by omega)]; rfl
    · rw [upd_fill_up hfk] at h''; exact h''
  · rintro p s' ⟨rfl, hs'⟩
    exact ⟨by simp [hst'], hQ s' hs'⟩

end Verif.Deq
