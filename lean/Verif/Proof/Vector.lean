import Verif.Model.Vector
import Verif.Proof.View
import Verif.Spec.BList
/- Hoare-style lemmas for the vector model. -/
namespace Verif.Vec
open Verif Cmd
variable {V : Type} {E : Env V} {nb c : Nat} {xs : List V} {s : St V}

theorem bij_id : Bij nb id := ⟨fun _ h => h, fun _ _ _ _ h => h⟩

/-- The state represents the list `xs` in a buffer of `nb` slots. -/
structure VRep (nb : Nat) (xs : List V) (c : Nat) (s : St V) : Prop where
  sh : Sh nb id (fun k => xs[k]?) 0 xs.length c s
  len : xs.length ≤ nb

/-- Word-size assumption: a buffer of `nb` elements is addressable with `ptrdiff_t`. -/
def Fits (E : Env V) (nb : Nat) : Prop := 2 * nb + 2 ≤ E.M

/-- Shape after an element copy threw: a valid vector whose first `p` elements are those of `L0`. -/
def VExc (E : Env V) (nb c p : Nat) (L0 : Nat → Option V) (ex : Exn) (s' : St V) : Prop :=
  ex = .elemThrow ∧ Thrown E c ∧
    ∃ L' e', Sh nb id L' 0 e' c s' ∧ LiveIn nb L' 0 e' ∧ e' ≤ nb ∧ ∀ j, j < p → L' j = L0 j

theorem VExc.toList {p : Nat} {ex : Exn} {s' : St V} (hp : p ≤ xs.length) (hl : xs.length ≤ nb)
    (h : VExc E nb c p (fun k => xs[k]?) ex s') :
    ex = .elemThrow ∧ Thrown E c ∧ ∃ ys, VRep nb ys c s' ∧ ys.take p = xs.take p := by
  obtain ⟨h1, h2, L', e', hsh, hlive, hle, hpre⟩ := h
  refine ⟨h1, h2, ?_⟩
  obtain ⟨ys, hlen, hys⟩ := hlive.toList (by omega) hle
  have hlen' : ys.length = e' := by omega
  have hys' : ∀ k, k < nb → L' k = ys[k]? := fun k hk => by simpa using hys k hk (by omega)
  refine ⟨ys, ⟨?_, by omega⟩, ?_⟩
  · rw [hlen']; exact hsh.congr hys'
  · apply List.ext_getElem?
    intro k
    simp only [List.getElem?_take]
    split
    · rename_i hk
      rw [← hys' k (by omega), hpre k hk]
    · rfl

@[simp] theorem wp_deref_nat {α : Type} {Q : α → St V → Prop} {X} (k : Nat) (f : Nat → Cmd (St V) α) :
    wp (deref (k : Int) f) Q X s ↔ wp (f k) Q X s := by
  unfold deref
  simp

theorem wp_deref {α : Type} {Q : α → St V → Prop} {X} {z : Int} (k : Nat) (hz : z = k)
    {f : Nat → Cmd (St V) α} (h : wp (f k) Q X s) : wp (deref z f) Q X s := by
  subst hz; simpa using h

theorem constructEnd_wp {L : Nat → Option V} {e : Nat} {r : Ref V} {v : V}
    {Q : Unit → St V → Prop} {X : Exn → St V → Prop}
    (hF : Fits E nb) (h : Sh nb id L 0 e c s) (he : e < nb) (hL : L e = none) (hr : RefIs nb id L r v)
    (hQ : ∀ s', Sh nb id (upd L e (some v)) 0 (e+1) c s' → Q () s')
    (hX : Thrown E c → ∀ s', Sh nb id L 0 e c s' → X .elemThrow s') :
    wp (constructEnd E r) Q X s := by
  unfold constructEnd
  simp only [wp_bind, wp_gets]
  refine wp_deref e (by simp [end_, begin_, h.he]) ?_
  refine wp_construct bij_id h rfl he hL hr (fun s' h' => ?_) hX
  rw [wp_modify]
  apply hQ
  have : uadd E.M s'.e 1 = e + 1 := by
    rw [h'.he]; unfold uadd Fits at *; rw [if_pos (by omega)]
  rw [this]; exact h'.setE _

theorem destroyRange_wp {L : Nat → Option V} {b e : Nat} {lo hi : Nat} {first last : Int}
    {Q : Unit → St V → Prop} {X : Exn → St V → Prop}
    (hF : Fits E nb) (h : Sh nb id L b e c s) (h1 : first = lo) (h2 : last = hi)
    (hle : lo ≤ hi) (hhi : hi ≤ nb) (hL : ∀ k, lo ≤ k → k < hi → (L k).isSome)
    (hQ : ∀ s', Sh nb id (fun k => if lo ≤ k ∧ k < hi then none else L k) b e c s' → s'.cnt = s.cnt → Q () s') :
    wp (destroyRange E first last) Q X s := by
  unfold destroyRange
  unfold Fits at hF
  refine wp_forIter (hi - lo) (fun k => ((lo + k : Nat) : Int))
    (fun k s' => Sh nb id (fun j => if lo ≤ j ∧ j < lo + k then none else L j) b e c s' ∧ s'.cnt = s.cnt)
    ?_ ?_ ?_ ?_ ?_ ?_ ?_ ?_
  · unfold Env.fuel; omega
  · simp [h1]
  · simp only [h2]; omega
  · intro k hk; simp only [h2]; omega
  · intro k _; omega
  · refine ⟨h.congr ?_, rfl⟩
    intro j _; rw [if_neg (by omega)]
  · intro k s' hk hs'
    refine wp_deref (lo + k) rfl ?_
    refine wp_destroySlot bij_id hs'.1 rfl (by omega) ?_ (fun s'' h'' hc => ⟨h''.congr ?_, by rw [hc, hs'.2]⟩)
    · rw [if_neg (by omega)]; exact hL _ (by omega) (by omega)
    · intro j hj
      simp only [upd]
      grind
  · intro s' hs'
    refine hQ s' (hs'.1.congr ?_) hs'.2
    intro j _
    have : lo + (hi - lo) = hi := by omega
    rw [this]

theorem clear_wp {Q : Unit → St V → Prop} {X : Exn → St V → Prop}
    (hF : Fits E nb) (h : VRep nb xs c s) (hQ : ∀ s', VRep nb [] c s' → s'.cnt = s.cnt → Q () s') :
    wp (clear E) Q X s := by
  unfold clear
  simp only [wp_bind, wp_gets]
  refine destroyRange_wp (lo := 0) (hi := xs.length) hF h.sh rfl ?_ (by omega) h.len ?_ (fun s' h' hc => ?_)
  · simp [end_, begin_, h.sh.he]
  · intro k _ hk; simp [hk]
  · rw [wp_modify]
    refine hQ _ ⟨?_, by simp⟩ hc
    refine (h'.setE 0).congr ?_
    intro k hk
    by_cases hk2 : k < xs.length
    · simp [hk2]
    · simp [hk2]

theorem dtor_wp {Q : Unit → St V → Prop} {X : Exn → St V → Prop}
    (hF : Fits E nb) (h : VRep nb xs c s)
    (hQ : ∀ s', (∀ k, k < nb → s'.slot k = none) → Q () s') :
    wp (dtor E) Q X s := by
  unfold dtor
  simp only [wp_bind, wp_gets]
  refine destroyRange_wp (lo := 0) (hi := xs.length) hF h.sh rfl ?_ (by omega) h.len ?_ (fun s' h' hc => ?_)
  · simp [end_, begin_, h.sh.he]
  · intro k _ hk; simp [hk]
  · apply hQ
    intro k hk
    have := h'.view k hk
    simp only [id] at this
    rw [this]
    by_cases hk2 : k < xs.length
    · simp [hk2]
    · simp [hk2]

theorem pushBack_wp {r : Ref V} {v : V} {Q : Unit → St V → Prop} {X : Exn → St V → Prop}
    (hF : Fits E nb) (h : VRep nb xs c s) (hr : RefIs nb id (fun k => xs[k]?) r v)
    (hQ : xs.length < nb → ∀ s', VRep nb (xs ++ [v]) c s' → Q () s')
    (hfull : xs.length = nb → X .badAlloc s)
    (hX : xs.length < nb → Thrown E c → ∀ s', VRep nb xs c s' → X .elemThrow s') :
    wp (pushBack E r) Q X s := by
  unfold pushBack
  simp only [wp_bind, wp_gets, wp_ite, wp_throw]
  have hfl : full s = true ↔ xs.length = nb := by
    simp [full, size, maxSize, h.sh.he, h.sh.nbuf]
  rw [hfl]
  refine ⟨hfull, fun hne => ?_⟩
  have hlt : xs.length < nb := by have := h.len; omega
  refine constructEnd_wp hF h.sh hlt (by simp) hr (fun s' h' => hQ hlt s' ⟨?_, by simp; omega⟩) (fun t s' h' => hX hlt t s' ⟨h', h.len⟩)
  have hl : (xs ++ [v]).length = xs.length + 1 := by simp
  rw [hl]
  refine h'.congr ?_
  intro k hk
  simp only [upd]
  by_cases h1 : k = xs.length
  · simp [h1]
  · simp only [h1, if_false]
    by_cases h2 : k < xs.length
    · simp [List.getElem?_append_left h2]
    · rw [List.getElem?_eq_none (by omega), List.getElem?_eq_none (by simp; omega)]

/-- The reference stays meaningful as long as the first `p` elements are untouched. -/
def StableRef (nb p : Nat) (xs : List V) (r : Ref V) (v : V) : Prop :=
  ∀ L : Nat → Option V, (∀ j, j < p → L j = xs[j]?) → RefIs nb id L r v

theorem stable_ext (p : Nat) (v : V) : StableRef nb p xs (.ext v) v := fun _ _ => rfl
theorem stable_elem {p i : Nat} {v : V} (hi : i < p) (hp : p ≤ nb) (hv : xs[i]? = some v) :
    StableRef nb p xs (.elem i) v := fun L hL => ⟨i, by omega, rfl, by rw [hL i hi, hv]⟩

theorem resize_wp {n : Nat} {r : Ref V} {v : V} {Q : Unit → St V → Prop} {X : Exn → St V → Prop}
    (hF : Fits E nb) (hn : n < E.M) (h : VRep nb xs c s) (hr : StableRef nb xs.length xs r v)
    (hQ : n ≤ nb → ∀ s', VRep nb (xs.take n ++ List.replicate (n - xs.length) v) c s' → Q () s')
    (hfull : nb < n → X .badAlloc s)
    (hX : n ≤ nb → Thrown E c → ∀ s' k, VRep nb (xs ++ List.replicate k v) c s' → X .elemThrow s') :
    wp (resize E n r) Q X s := by
  unfold resize
  simp only [wp_bind, wp_gets, wp_ite, wp_throw]
  have hsz : size s = xs.length := h.sh.he
  have hmx : maxSize s = nb := h.sh.nbuf
  have hlen := h.len
  rw [hsz, hmx]
  refine ⟨fun hge => ?_, fun hlt => ⟨fun hb => hfull hb, fun hnb => ?_⟩⟩
  · refine destroyRange_wp (lo := n) (hi := xs.length) hF h.sh (by simp [begin_]) ?_ hge h.len ?_ (fun s' h' hc => ?_)
    · simp [end_, begin_, h.sh.he]
    · intro k _ hk; simp [hk]
    · rw [wp_modify]
      refine hQ (by omega) _ ⟨?_, ?_⟩
      · have hl : (xs.take n ++ List.replicate (n - xs.length) v).length = n := by simp; omega
        rw [hl]
        refine (h'.setE n).congr ?_
        intro k hk
        have : n - xs.length = 0 := by omega
        simp only [this, List.replicate_zero, List.append_nil, List.getElem?_take]
        by_cases h1 : k < n
        · rw [if_neg (by omega), if_pos h1]
        · rw [if_neg h1]
          by_cases h2 : k < xs.length
          · rw [if_pos (by omega)]
          · rw [if_neg (by omega), List.getElem?_eq_none (by omega)]
      · simp; omega
  · have hsub : usub E.M n xs.length = n - xs.length := by
      unfold usub; rw [if_pos (by omega)]
    rw [hsub]
    refine wp_forN (fun k s' => VRep nb (xs ++ List.replicate k v) c s') ?_ ?_ ?_ ?_
    · unfold Env.fuel; omega
    · simpa using h
    · intro k s' hk hs'
      refine pushBack_wp (v := v) hF hs' ?_ (fun hlt s'' h'' => ?_) (fun hf => ?_) (fun _ t s'' h'' => hX (by omega) t s'' k h'')
      · apply hr
        intro j hj
        rw [List.getElem?_append_left hj]
      · rw [List.replicate_succ']
        rw [← List.append_assoc]; exact h''
      · simp at hf; omega
    · intro s' hs'
      apply hQ (by omega)
      rw [List.take_of_length_le (by omega)]
      exact hs'

theorem popBack_wp {Q : Unit → St V → Prop} {X : Exn → St V → Prop}
    (hF : Fits E nb) (h : VRep nb xs c s) (hne : xs ≠ [])
    (hQ : ∀ s', VRep nb xs.dropLast c s' → s'.cnt = s.cnt → Q () s') :
    wp (popBack E) Q X s := by
  have hpos : 0 < xs.length := List.length_pos_iff.mpr hne
  have hlen := h.len
  unfold popBack
  simp only [wp_bind, wp_gets, wp_dassert]
  have hemp : empty s = false := by simp [empty, size, h.sh.he]; exact hne
  refine ⟨by simp [hemp], fun _ => ?_⟩
  refine wp_deref (xs.length - 1) (by simp [end_, begin_, h.sh.he]; omega) ?_
  refine wp_destroySlot bij_id h.sh rfl (by omega) (by simp; omega) (fun s' h' hc => ?_)
  rw [wp_modify]
  refine hQ _ ⟨?_, by simp; omega⟩ hc
  have hs : usub E.M s'.e 1 = xs.length - 1 := by
    rw [h'.he]; unfold usub; rw [if_pos (by omega)]
  rw [hs, List.length_dropLast]
  refine (h'.setE _).congr ?_
  intro k hk
  simp only [upd, List.dropLast_eq_take, List.getElem?_take]
  by_cases h1 : k = xs.length - 1
  · simp [h1]
  · by_cases h2 : k < xs.length - 1
    · simp [h1, h2]
    · simp [h1, h2]; omega

theorem popBack_empty {X : Exn → St V → Prop} {Q : Unit → St V → Prop}
    (h : VRep nb [] c s) (hd : E.dbg = true) (hX : X .assertFail s) : wp (popBack E) Q X s := by
  unfold popBack
  simp only [wp_bind, wp_dassert]
  have hemp : empty s = true := by simp [empty, size, h.sh.he]
  exact ⟨fun _ => hX, fun hh => by simp [hd, hemp] at hh⟩

theorem assignN_wp {n : Nat} {v : V} {Q : Unit → St V → Prop} {X : Exn → St V → Prop}
    (hF : Fits E nb) (hn : n < E.M) (h : VRep nb xs c s)
    (hQ : n ≤ nb → ∀ s', VRep nb (List.replicate n v) c s' → Q () s')
    (hfull : nb < n → X .badAlloc s)
    (hX : n ≤ nb → Thrown E c → ∀ s' k, VRep nb (List.replicate k v) c s' → X .elemThrow s') :
    wp (assignN E n (.ext v)) Q X s := by
  unfold assignN
  simp only [wp_bind, wp_gets, wp_ite, wp_throw]
  have hmx : maxSize s = nb := h.sh.nbuf
  rw [hmx]
  refine ⟨hfull, fun hnb => ?_⟩
  refine clear_wp hF h (fun s' h' _ => ?_)
  refine resize_wp (v := v) hF hn h' (stable_ext _ _) (fun h1 s'' h'' => hQ h1 s'' (by simpa using h'')) (fun hh => by omega)
    (fun h1 t s'' k h'' => hX h1 t s'' k (by simpa using h''))

theorem countRange_wp {src : List V} {Q : Nat → St V → Prop} {X : Exn → St V → Prop}
    (hn : src.length < E.M) (hQ : Q src.length s) : wp (countRange E src) Q X s := by
  unfold countRange
  rw [wp_bind]
  refine wp_loop src.length (fun k p s' => p = (k, k) ∧ s' = s) ?_ ⟨rfl, rfl⟩ ?_ ?_
  · unfold Env.fuel; omega
  · rintro k p s' hk ⟨rfl, rfl⟩
    refine ⟨by simp; omega, ?_⟩
    simp only [wp_pure, uadd]
    rw [if_pos (by omega)]; exact ⟨rfl, trivial⟩
  · rintro p s' ⟨rfl, rfl⟩
    exact ⟨by simp, by simpa using hQ⟩

theorem assignRange_wp {src : List V} {Q : Unit → St V → Prop} {X : Exn → St V → Prop}
    (hF : Fits E nb) (hn : src.length < E.M) (h : VRep nb xs c s)
    (hQ : src.length ≤ nb → ∀ s', VRep nb src c s' → Q () s')
    (hfull : nb < src.length → X .badAlloc s)
    (hX : src.length ≤ nb → Thrown E c → ∀ s' k, VRep nb (src.take k) c s' → X .elemThrow s') :
    wp (assignRange E src) Q X s := by
  unfold assignRange
  rw [wp_bind]
  refine countRange_wp hn ?_
  simp only [wp_bind, wp_gets, wp_ite, wp_throw]
  have hmx : maxSize s = nb := h.sh.nbuf
  rw [hmx]
  refine ⟨hfull, fun hnb => ?_⟩
  refine clear_wp hF h (fun s' h' _ => ?_)
  refine wp_forIter src.length id (fun k s' => VRep nb (src.take k) c s') ?_ rfl rfl ?_ (fun _ _ => rfl) ?_ ?_ ?_
  · unfold Env.fuel; omega
  · intro k hk; simp; omega
  · simpa using h'
  · intro k s'' hk hs''
    simp only [wp_bind, wp_srcRead]
    refine ⟨src[k], by simp [hk], ?_⟩
    refine pushBack_wp (v := src[k]) hF hs'' rfl (fun _ s3 h3 => ?_) (fun hf => ?_) (fun _ t s3 h3 => hX (by omega) t s3 k h3)
    · rw [List.take_succ_eq_append_getElem hk]; exact h3
    · simp at hf; omega
  · intro s'' hs''
    exact hQ (by omega) s'' (by simpa using hs'')


/-- Assignment loops only overwrite live slots, so liveness is preserved. -/
theorem liveIn_upd {L : Nat → Option V} {lo hi k : Nat} {w : V} (h : LiveIn nb L lo hi) (hk : k < nb)
    (hL : (L k).isSome) : LiveIn nb (upd L k (some w)) lo hi := by
  intro j hj
  by_cases hjk : j = k
  · subst hjk; simp [← h j hk, hL]
  · rw [upd_ne _ _ hjk]; exact h j hj

theorem liveIn_list : LiveIn nb (fun k => xs[k]?) 0 xs.length := by
  intro k hk; simp

section insertion
variable {p n : Nat} {pos : Int} {r : Ref V} {v : V} {Q : Unit → St V → Prop} {X : Exn → St V → Prop}

/-- View after `k` default constructions at the end. -/
def LA (xs : List V) (d : V) (k : Nat) : Nat → Option V := fun j =>
  if xs.length ≤ j ∧ j < xs.length + k then some d else xs[j]?
/-- ... and after moving the last `k` elements up by `n`. -/
def LB (xs : List V) (d : V) (n k : Nat) : Nat → Option V := fun j =>
  if xs.length + n - k ≤ j ∧ j < xs.length + n then xs[j - n]? else LA xs d n j
/-- ... and after overwriting the first `k` positions of the gap by `ys`. -/
def LC (xs : List V) (d : V) (n p : Nat) (ys : List V) (k : Nat) : Nat → Option V := fun j =>
  if p ≤ j ∧ j < p + k then ys[j - p]? else LB xs d n (xs.length - p) j

theorem liveIn_LA (d : V) (k : Nat) : LiveIn nb (LA xs d k) 0 (xs.length + k) := by
  intro j hj; unfold LA; split <;> simp <;> omega

theorem liveIn_LB (d : V) (n k : Nat) (hk : k ≤ xs.length) : LiveIn nb (LB xs d n k) 0 (xs.length + n) := by
  intro j hj
  unfold LB
  split
  · rename_i h; simp; omega
  · exact liveIn_LA d n j hj

theorem liveIn_LC (d : V) (ys : List V) (k : Nat) (hk : k ≤ ys.length) (hp : p + ys.length ≤ xs.length) :
    LiveIn nb (LC xs d ys.length p ys k) 0 (xs.length + ys.length) := by
  intro j hj
  unfold LC
  split
  · rename_i h; simp; omega
  · exact liveIn_LB d _ _ (by omega) j hj

theorem insertSpec_get (xs ys : List V) (p j : Nat) (hp : p ≤ xs.length) :
    (xs.take p ++ ys ++ xs.drop p)[j]? =
      if j < p then xs[j]? else if j < p + ys.length then ys[j - p]? else xs[j - ys.length]? := by
  have hl : (xs.take p).length = p := by simp; omega
  split
  · rename_i h
    rw [List.append_assoc, List.getElem?_append_left (by omega), List.getElem?_take, if_pos h]
  · split
    · rw [List.append_assoc, List.getElem?_append_right (by omega), hl, List.getElem?_append_left (by omega)]
    · rw [List.getElem?_append_right (by simp; omega), List.getElem?_drop]
      congr 1
      simp; omega

theorem LC_final (d : V) (ys : List V) (hp : p + ys.length < xs.length) (j : Nat) :
    LC xs d ys.length p ys ys.length j = (xs.take p ++ ys ++ xs.drop p)[j]? := by
  rw [insertSpec_get xs ys p j (by omega)]
  unfold LC LB LA
  by_cases h1 : j < p
  · rw [if_neg (by omega), if_neg (by omega), if_neg (by omega), if_pos h1]
  · rw [if_neg h1]
    by_cases h2 : j < p + ys.length
    · rw [if_pos (by omega), if_pos h2]
    · rw [if_neg (by omega), if_neg h2]
      by_cases h3 : j < xs.length + ys.length
      · rw [if_pos (by omega)]
      · rw [if_neg (by omega), if_neg (by omega), List.getElem?_eq_none (by omega), List.getElem?_eq_none (by omega)]

/-- Default-constructing `n` elements at the end (FV:355-358 / 394-397). -/
theorem grow_wp (hF : Fits E nb) (h : VRep nb xs c s) (hn : xs.length + n ≤ nb) (hp : p ≤ xs.length)
    (hQ : ∀ s', Sh nb id (LA xs E.dflt n) 0 (xs.length + n) c s' → Q () s')
    (hX : ∀ ex s', VExc E nb c p (fun k => xs[k]?) ex s' → X ex s') :
    wp (forN E.fuel n (fun _ => constructEnd E (.ext E.dflt))) Q X s := by
  unfold Fits at hF
  refine wp_forN (fun k s' => Sh nb id (LA xs E.dflt k) 0 (xs.length + k) c s') ?_ ?_ ?_ ?_
  · unfold Env.fuel; omega
  · refine h.sh.congr ?_
    intro k hk; unfold LA; rw [if_neg (by omega)]
  · intro k s' hk hs'
    refine constructEnd_wp (v := E.dflt) hF hs' (by omega) ?_ rfl (fun s'' h'' => ?_) (fun t s'' h'' => hX _ _ ?_)
    · unfold LA; rw [if_neg (by omega)]; simp
    · refine h''.congr ?_
      intro j hj; unfold LA upd; grind
    · refine ⟨rfl, t, _, _, h'', liveIn_LA _ _, by omega, fun j hj => ?_⟩
      unfold LA; rw [if_neg (by omega)]
  · exact hQ

/-- Moving the tail up by `n` (FV:359-361 / 398-400). -/
theorem moveUp_wp (hF : Fits E nb) (hpos : pos = p) (hl : xs.length + n ≤ nb) (hp : p ≤ xs.length)
    {oldEnd : Int} (hoe : oldEnd = (xs.length : Int))
    (h : Sh nb id (LA xs E.dflt n) 0 (xs.length + n) c s)
    (hQ : ∀ s', Sh nb id (LB xs E.dflt n (xs.length - p)) 0 (xs.length + n) c s' → Q () s')
    (hX : ∀ ex s', VExc E nb c p (fun k => xs[k]?) ex s' → X ex s') :
    wp (forIter E.fuel (oldEnd - 1) (pos - 1) (· - 1) (fun it =>
        deref (it + (n : Int)) fun i => deref it fun j => assignSlot E i (.elem j))) Q X s := by
  unfold Fits at hF
  subst hpos hoe
  refine wp_forIter (xs.length - p) (fun k => (xs.length : Int) - 1 - k)
    (fun k s' => Sh nb id (LB xs E.dflt n k) 0 (xs.length + n) c s') ?_ ?_ ?_ ?_ ?_ ?_ ?_ ?_
  · unfold Env.fuel; omega
  · simp
  · omega
  · intro k hk; omega
  · intro k _; omega
  · refine h.congr ?_
    intro k hk; unfold LB; rw [if_neg (by omega)]
  · intro k s' hk hs'
    refine wp_deref (xs.length - 1 - k + n) (by omega) ?_
    refine wp_deref (xs.length - 1 - k) (by omega) ?_
    have hk' : xs.length - 1 - k < xs.length := by omega
    refine wp_assignSlot (v := xs[xs.length - 1 - k]) bij_id hs' rfl (by omega) ?_ ?_ (fun s'' h'' => ?_) (fun t s'' w h'' => hX _ _ ?_)
    · exact (liveIn_LB (nb := nb) E.dflt n k (by omega) (xs.length - 1 - k + n) (by omega)).mpr ⟨by omega, by omega⟩
    · refine ⟨xs.length - 1 - k, by omega, rfl, ?_⟩
      unfold LB LA; rw [if_neg (by omega), if_neg (by omega)]; simp [hk']
    · refine h''.congr ?_
      intro j hj
      unfold upd
      by_cases hj2 : j = xs.length - 1 - k + n
      · rw [if_pos hj2]; unfold LB; rw [if_pos (by omega), hj2, Nat.add_sub_cancel]; simp [hk']
      · rw [if_neg hj2]; unfold LB; grind
    · refine ⟨rfl, t, _, _, h'', liveIn_upd (liveIn_LB _ _ _ (by omega)) (by omega) ?_, by omega, fun j hj => ?_⟩
      · exact (liveIn_LB (nb := nb) E.dflt n k (by omega) (xs.length - 1 - k + n) (by omega)).mpr ⟨by omega, by omega⟩
      · rw [upd_ne _ _ (by omega)]; unfold LB LA; rw [if_neg (by omega), if_neg (by omega)]
  · exact hQ

theorem ins_inj {xs : List V} {p n : Nat} (hp : p ≤ xs.length) {a b : V} : Spec.ins xs p (List.replicate n a) = Spec.ins xs p (List.replicate n b) ↔ n = 0 ∨ a = b := by
  constructor
  · intro h
    by_cases hn : n = 0
    · exact Or.inl hn
    · right
      have := congrArg (fun l => l[p]?) h
      simp only [Spec.ins, insertSpec_get _ _ _ _ hp, List.length_replicate] at this
      simpa [Nat.pos_of_ne_zero hn, List.getElem?_replicate] using this
  · rintro (rfl | rfl) <;> rfl

/-- The memory at the moments when `insert(pos, n, r)` reads its argument; `v`: what it reads. -/
def InsView (xs : List V) (p n : Nat) (v : V) (L : Nat → Option V) : Prop :=
  (∀ j, j < p → L j = xs[j]?) ∧
  (xs.length - p ≤ n → ∀ j, j < xs.length → L j = xs[j]? ∨ L j = some v) ∧
  (n < xs.length - p → (∀ j, j < p + n → L j = xs[j]? ∨ L j = some v) ∧ ∀ j, p + n ≤ j → j < xs.length → L j = xs[j - n]?)
/-- What the argument of `insert(pos, n, r)` means while it is used. -/
def InsRef (nb p n : Nat) (xs : List V) (r : Ref V) (v : V) : Prop := ∀ L, InsView xs p n v L → RefIs nb id L r v

theorem StableRef.ins (h : StableRef nb p xs r v) : InsRef nb p n xs r v := fun L hL => h L hL.1

/-- A reference to an own element: the element, or the one that has been moved to its place. -/
theorem insRef_elem {i : Nat} (hi : i < xs.length) (hl : xs.length ≤ nb) :
    InsRef nb p n xs (.elem i) (if n < xs.length - p ∧ p + n ≤ i then xs[i - n]'(by omega) else xs[i]) := by
  intro L hL
  refine ⟨i, by omega, rfl, ?_⟩
  obtain ⟨_, h2, h3⟩ := hL
  split
  · next h => rw [(h3 h.1).2 i h.2 hi]; simp
  · next h =>
    rw [if_neg h] at h2 h3
    by_cases hn : n < xs.length - p
    · rcases (h3 hn).1 i (by omega) with e | e
      · rw [e]; simp [hi]
      · exact e
    · rcases h2 (by omega) i hi with e | e
      · rw [e]; simp [hi]
      · exact e

theorem insView_LC {d : V} {k : Nat} (hk : k ≤ n) (hp : p ≤ xs.length) (hn : n < xs.length - p)
    (hpre : ∀ j, j < p → LC xs d n p (List.replicate n v) k j = xs[j]?) : InsView xs p n v (LC xs d n p (List.replicate n v) k) := by
  refine ⟨hpre, fun hh => by omega, fun _ => ⟨fun j hj => ?_, fun j h1 h2 => ?_⟩⟩
  · unfold LC LB LA
    by_cases h1 : p ≤ j ∧ j < p + k
    · right; rw [if_pos h1]; simp [List.getElem?_replicate]; omega
    · left; rw [if_neg h1, if_neg (by omega), if_neg (by omega)]
  · unfold LC LB; rw [if_neg (by omega), if_pos (by omega)]

theorem insertN_wp' (hF : Fits E nb) (hn : n < E.M) (h : VRep nb xs c s) (hpos : pos = p) (hp : p ≤ xs.length)
    (hr : InsRef nb p n xs r v)
    (hQ : xs.length + n ≤ nb → ∀ s', VRep nb (xs.take p ++ List.replicate n v ++ xs.drop p) c s' → Q () s')
    (hfull : nb < xs.length + n → X .badAlloc s)
    (hX : xs.length + n ≤ nb → ∀ ex s', VExc E nb c p (fun k => xs[k]?) ex s' → X ex s') :
    wp (insertN_ E pos n r) Q X s := by
  have hF' := hF
  unfold Fits at hF'
  have hlen := h.len
  unfold insertN_
  simp only [wp_bind, wp_gets, wp_ite, wp_throw]
  have hav : availableSize E s = nb - xs.length := by
    simp only [availableSize, usub, maxSize, size, h.sh.he, h.sh.nbuf]; rw [if_pos hlen]
  have hend : end_ s = (xs.length : Int) := by simp [end_, begin_, h.sh.he]
  have hnum : toSize E.M (end_ s - pos) = xs.length - p := by
    rw [toSize_of_nonneg (by omega) (by omega)]; omega
  rw [hav, hnum]
  refine ⟨fun h1 => hfull (by omega), fun h1 => ?_⟩
  replace hX := hX (by omega)
  refine ⟨fun h2 => ?_, fun h2 => ?_⟩
  · -- end side longer than n
    have h2' : n < xs.length - p := h2
    refine grow_wp hF h (by omega) hp (fun s1 h1 => ?_) hX
    refine moveUp_wp hF hpos (by omega) hp hend h1 (fun s2 h2 => ?_) hX
    have hrep : (List.replicate n v).length = n := by simp
    refine wp_forIter n (fun k => ((p + k : Nat) : Int))
      (fun k s' => Sh nb id (LC xs E.dflt n p (List.replicate n v) k) 0 (xs.length + n) c s') ?_ ?_ ?_ ?_ ?_ ?_ ?_ ?_
    · unfold Env.fuel; omega
    · simp [hpos]
    · simp [hpos]
    · intro k hk; simp only [hpos]; omega
    · intro k _; omega
    · refine h2.congr ?_
      intro k hk; unfold LC; rw [if_neg (by omega)]
    · intro k s' hk hs'
      refine wp_deref (p + k) rfl ?_
      have hlv : ∀ k, k ≤ n → LiveIn nb (LC xs E.dflt n p (List.replicate n v) k) 0 (xs.length + n) := by
        intro k hk
        have := liveIn_LC (nb := nb) (xs := xs) (p := p) E.dflt (List.replicate n v) k (by simp; omega) (by simp; omega)
        simpa using this
      have hpre : ∀ j, j < p → LC xs E.dflt n p (List.replicate n v) k j = xs[j]? := by
        intro j hj
        unfold LC LB LA; rw [if_neg (by omega), if_neg (by omega), if_neg (by omega)]
      refine wp_assignSlot (v := v) bij_id hs' rfl (by omega) ?_ (hr _ (insView_LC (by omega) hp h2' hpre)) (fun s'' h'' => ?_) (fun t s'' w h'' => hX _ _ ?_)
      · exact (hlv k (by omega) _ (by omega)).mpr ⟨by omega, by omega⟩
      · refine h''.congr ?_
        intro j hj
        unfold upd
        by_cases hj2 : j = p + k
        · rw [if_pos hj2, hj2]; unfold LC; rw [if_pos (by omega)]; simp [List.getElem?_replicate]; omega
        · rw [if_neg hj2]; unfold LC; grind
      · refine ⟨rfl, t, _, _, h'', liveIn_upd (hlv k (by omega)) (by omega) ?_, by omega, fun j hj => ?_⟩
        · exact (hlv k (by omega) _ (by omega)).mpr ⟨by omega, by omega⟩
        · rw [upd_ne _ _ (by omega), hpre j hj]
    · intro s3 h3
      refine hQ (by omega) s3 ⟨?_, by simp; omega⟩
      have hl2 : (xs.take p ++ List.replicate n v ++ xs.drop p).length = xs.length + n := by simp; omega
      rw [hl2]
      refine h3.congr ?_
      intro j hj
      have := LC_final (xs := xs) (p := p) E.dflt (List.replicate n v) (by simp; omega) j
      simpa using this
  · -- end side not longer than n
    have hsub : usub E.M n (xs.length - p) = n - (xs.length - p) := by unfold usub; rw [if_pos (by omega)]
    rw [hsub]
    -- views
    let m := n - (xs.length - p)
    let A : Nat → Nat → Option V := fun k j => if xs.length ≤ j ∧ j < xs.length + k then some v else xs[j]?
    let B : Nat → Nat → Option V := fun k j => if xs.length + m ≤ j ∧ j < xs.length + m + k then xs[j - n]? else A m j
    let C : Nat → Nat → Option V := fun k j => if p ≤ j ∧ j < p + k then some v else B (xs.length - p) j
    have hm : m = n - (xs.length - p) := rfl
    have hA : ∀ k, LiveIn nb (A k) 0 (xs.length + k) := by
      intro k j hj; simp only [A]; split <;> simp <;> omega
    have hBl : ∀ k, k ≤ xs.length - p → LiveIn nb (B k) 0 (xs.length + m + k) := by
      intro k hk j hj; simp only [B]; split
      · simp; omega
      · rw [hA m j hj]; omega
    have hC : ∀ k, k ≤ xs.length - p → LiveIn nb (C k) 0 (xs.length + n) := by
      intro k hk j hj; simp only [C]; split
      · simp; omega
      · rw [hBl _ (by omega) j hj]; omega
    have hpA : ∀ k j, j < p → A k j = xs[j]? := by intro k j hj; simp only [A]; rw [if_neg (by omega)]
    have hpB : ∀ k j, j < p → B k j = xs[j]? := by intro k j hj; simp only [B]; rw [if_neg (by omega), hpA _ _ hj]
    have hpC : ∀ k j, j < p → C k j = xs[j]? := by intro k j hj; simp only [C]; rw [if_neg (by omega), hpB _ _ hj]
    refine wp_forN (fun k s' => Sh nb id (A k) 0 (xs.length + k) c s') ?_ ?_ ?_ ?_
    · unfold Env.fuel; omega
    · refine h.sh.congr ?_
      intro k hk; simp only [A]; rw [if_neg (by omega)]
    · intro k s' hk hs'
      refine constructEnd_wp (v := v) hF hs' (by omega) ?_ (hr _ ⟨hpA k, fun _ j hj => by simp only [A]; rw [if_neg (by omega)]; exact Or.inl rfl, fun hh => by omega⟩) (fun s'' h'' => ?_) (fun t s'' h'' => hX _ _ ?_)
      · simp only [A]; rw [if_neg (by omega)]; simp
      · refine h''.congr ?_
        intro j hj; simp only [A, upd]; grind
      · exact ⟨rfl, t, _, _, h'', hA k, by omega, hpA k⟩
    · intro s1 h1
      refine wp_forIter (xs.length - p) (fun k => ((p + k : Nat) : Int))
        (fun k s' => Sh nb id (B k) 0 (xs.length + m + k) c s') ?_ ?_ ?_ ?_ ?_ ?_ ?_ ?_
      · unfold Env.fuel; omega
      · simp [hpos]
      · simp [hpos]
      · intro k hk; simp only [hpos]; omega
      · intro k _; omega
      · refine h1.congr ?_
        intro k hk; simp only [B]; rw [if_neg (by omega)]
      · intro k s' hk hs'
        refine wp_deref (p + k) rfl ?_
        have hpk : p + k < xs.length := by omega
        refine constructEnd_wp (v := xs[p+k]) hF hs' (by omega) ?_ ?_ (fun s'' h'' => ?_) (fun t s'' h'' => hX _ _ ?_)
        · have := hBl k (by omega) (xs.length + m + k) (by omega)
          cases hh : B k (xs.length + m + k) with
          | none => rfl
          | some w => rw [hh] at this; simp at this
        · refine ⟨p + k, by omega, rfl, ?_⟩
          simp only [B, A]; rw [if_neg (by omega), if_neg (by omega)]; simp [hpk]
        · refine h''.congr ?_
          intro j hj
          unfold upd
          by_cases hj2 : j = xs.length + m + k
          · rw [if_pos hj2]; simp only [B]; rw [if_pos (by omega)]
            have : j - n = p + k := by omega
            rw [this]; simp [hpk]
          · rw [if_neg hj2]; simp only [B]; grind
        · exact ⟨rfl, t, _, _, h'', hBl k (by omega), by omega, hpB k⟩
      · intro s2 h2
        refine wp_forIter (xs.length - p) (fun k => ((p + k : Nat) : Int))
          (fun k s' => Sh nb id (C k) 0 (xs.length + n) c s') ?_ ?_ ?_ ?_ ?_ ?_ ?_ ?_
        · unfold Env.fuel; omega
        · simp [hpos]
        · simp only [hend]; omega
        · intro k hk; simp only [hend]; omega
        · intro k _; omega
        · have : xs.length + m + (xs.length - p) = xs.length + n := by omega
          rw [this] at h2
          refine h2.congr ?_
          intro k hk; simp only [C]; rw [if_neg (by omega)]
        · intro k s' hk hs'
          refine wp_deref (p + k) rfl ?_
          refine wp_assignSlot (v := v) bij_id hs' rfl (by omega) ?_ (hr _ ⟨hpC k, fun _ j hj => by simp only [C, B, A]; grind, fun hh => by omega⟩) (fun s'' h'' => ?_) (fun t s'' w h'' => hX _ _ ?_)
          · exact (hC k (by omega) _ (by omega)).mpr ⟨by omega, by omega⟩
          · refine h''.congr ?_
            intro j hj; simp only [C, upd]; grind
          · refine ⟨rfl, t, _, _, h'', liveIn_upd (hC k (by omega)) (by omega) ?_, by omega, fun j hj => ?_⟩
            · exact (hC k (by omega) _ (by omega)).mpr ⟨by omega, by omega⟩
            · rw [upd_ne _ _ (by omega), hpC k j hj]
        · intro s3 h3
          refine hQ (by omega) s3 ⟨?_, by simp; omega⟩
          have hl2 : (xs.take p ++ List.replicate n v ++ xs.drop p).length = xs.length + n := by simp; omega
          rw [hl2]
          refine h3.congr ?_
          intro j hj
          rw [insertSpec_get _ _ _ _ hp]
          simp only [C, B, A, List.length_replicate, List.getElem?_replicate]
          clear hpA hpB hpC hA hBl hC hX hQ hr hfull
          grind

theorem insertN_wp (hF : Fits E nb) (hn : n < E.M) (h : VRep nb xs c s) (hpos : pos = p) (hp : p ≤ xs.length)
    (hr : StableRef nb p xs r v)
    (hQ : xs.length + n ≤ nb → ∀ s', VRep nb (xs.take p ++ List.replicate n v ++ xs.drop p) c s' → Q () s')
    (hfull : nb < xs.length + n → X .badAlloc s)
    (hX : xs.length + n ≤ nb → ∀ ex s', VExc E nb c p (fun k => xs[k]?) ex s' → X ex s') :
    wp (insertN_ E pos n r) Q X s := insertN_wp' hF hn h hpos hp hr.ins hQ hfull hX

/-- The copy loop of `insert_range` overwriting `[p, p+N)` by the first `N` source elements. -/
theorem copyAssign_wp {src : List V} {stop : Int × Nat → Bool} {L : Nat → Option V} {N e : Nat}
    (hF : Fits E nb) (hpos : pos = p) (hN : N ≤ src.length) (hpN : p + N ≤ nb) (he : e ≤ nb)
    (hlive : LiveIn nb L 0 e) (hpe : p + N ≤ e)
    (hpre : ∀ j, j < p → L j = xs[j]?)
    (hgo : ∀ k, k < N → stop (((p + k : Nat) : Int), k) = false)
    (hstop : stop (((p + N : Nat) : Int), N) = true)
    (h : Sh nb id L 0 e c s)
    (hQ : ∀ s', Sh nb id (fun j => if p ≤ j ∧ j < p + N then src[j - p]? else L j) 0 e c s' → Q () s')
    (hX : ∀ ex s', VExc E nb c p (fun k => xs[k]?) ex s' → X ex s') :
    wp (copyAssignLoop E src stop pos 0) Q X s := by
  unfold copyAssignLoop
  unfold Fits at hF
  subst hpos
  rw [wp_bind]
  let C : Nat → Nat → Option V := fun k j => if p ≤ j ∧ j < p + k then src[j - p]? else L j
  have hC : ∀ k, k ≤ N → LiveIn nb (C k) 0 e := by
    intro k hk j hj; simp only [C]; split
    · simp; omega
    · exact hlive j hj
  have hpC : ∀ k j, j < p → C k j = xs[j]? := by
    intro k j hj; simp only [C]; rw [if_neg (by omega), hpre j hj]
  refine wp_loop N (fun k x s' => x = (((p + k : Nat) : Int), k) ∧ Sh nb id (C k) 0 e c s') ?_ ?_ ?_ ?_
  · unfold Env.fuel; omega
  · refine ⟨by simp, h.congr ?_⟩
    intro k hk; simp only [C]; rw [if_neg (by omega)]
  · rintro k x s' hk ⟨rfl, hs'⟩
    refine ⟨by simp only [hgo k hk, Bool.not_false], ?_⟩
    simp only [wp_bind, wp_srcRead]
    have hks : k < src.length := by omega
    refine ⟨src[k], by simp [hks], ?_⟩
    refine wp_deref (p + k) rfl ?_
    refine wp_assignSlot (v := src[k]) bij_id hs' rfl (by omega) ?_ rfl (fun s'' h'' => ?_) (fun t s'' w h'' => hX _ _ ?_)
    · exact (hC k (by omega) _ (by omega)).mpr ⟨by omega, by omega⟩
    · refine ⟨?_, h''.congr ?_⟩
      · simp only [Prod.mk.injEq, and_true]; omega
      · intro j hj
        simp only [C, upd]
        by_cases hj2 : j = p + k
        · rw [if_pos hj2, if_pos (by omega)]
          have : j - p = k := by omega
          rw [this]; simp [hks]
        · rw [if_neg hj2]; grind
    · refine ⟨rfl, t, _, _, h'', liveIn_upd (hC k (by omega)) (by omega) ?_, he, fun j hj => ?_⟩
      · exact (hC k (by omega) _ (by omega)).mpr ⟨by omega, by omega⟩
      · rw [upd_ne _ _ (by omega), hpC k j hj]
  · rintro x s' ⟨rfl, hs'⟩
    exact ⟨by simp only [hstop, Bool.not_true], hQ s' hs'⟩

theorem insertRange_wp {src : List V} (hF : Fits E nb) (hn : src.length < E.M) (h : VRep nb xs c s)
    (hpos : pos = p) (hp : p ≤ xs.length)
    (hQ : xs.length + src.length ≤ nb → ∀ s', VRep nb (xs.take p ++ src ++ xs.drop p) c s' → Q () s')
    (hfull : nb < xs.length + src.length → X .badAlloc s)
    (hX : xs.length + src.length ≤ nb → ∀ ex s', VExc E nb c p (fun k => xs[k]?) ex s' → X ex s') :
    wp (insertRange_ E pos src) Q X s := by
  have hF' := hF
  unfold Fits at hF'
  have hlen := h.len
  unfold insertRange_
  rw [wp_bind]
  refine countRange_wp hn ?_
  simp only [wp_bind, wp_gets, wp_ite, wp_throw]
  have hav : availableSize E s = nb - xs.length := by
    simp only [availableSize, usub, maxSize, size, h.sh.he, h.sh.nbuf]; rw [if_pos hlen]
  have hend : end_ s = (xs.length : Int) := by simp [end_, begin_, h.sh.he]
  have hnum : toSize E.M (end_ s - pos) = xs.length - p := by
    rw [toSize_of_nonneg (by omega) (by omega)]; omega
  rw [hav, hnum]
  have hl2 : (xs.take p ++ src ++ xs.drop p).length = xs.length + src.length := by simp; omega
  refine ⟨fun h1 => hfull (by omega), fun h1 => ?_⟩
  replace hX := hX (by omega)
  refine ⟨fun h2 => ?_, fun h2 => ?_⟩
  · refine grow_wp hF h (by omega) hp (fun s1 h1 => ?_) hX
    refine moveUp_wp hF hpos (by omega) hp hend h1 (fun s2 h2 => ?_) hX
    refine copyAssign_wp (xs := xs) (N := src.length) hF hpos (by omega) (by omega) (by omega)
      (liveIn_LB _ _ _ (by omega)) (by omega) ?_ ?_ (by simp) h2 (fun s3 h3 => ?_) hX
    · intro j hj
      unfold LB LA; rw [if_neg (by omega), if_neg (by omega)]
    · intro k hk; simp; omega
    · refine hQ (by omega) s3 ⟨?_, by rw [hl2]; omega⟩
      rw [hl2]
      refine h3.congr ?_
      intro j hj
      exact LC_final (xs := xs) (p := p) E.dflt src (by omega) j
  · have hsub : usub E.M src.length (xs.length - p) = src.length - (xs.length - p) := by unfold usub; rw [if_pos (by omega)]
    rw [hsub]
    generalize hnn : src.length = n at *
    let m := n - (xs.length - p)
    let A : Nat → Nat → Option V := fun k j => if xs.length ≤ j ∧ j < xs.length + k then src[j - p]? else xs[j]?
    let B : Nat → Nat → Option V := fun k j => if xs.length + m ≤ j ∧ j < xs.length + m + k then xs[j - n]? else A m j
    have hm : m = n - (xs.length - p) := rfl
    have hA : ∀ k, k ≤ m → LiveIn nb (A k) 0 (xs.length + k) := by
      intro k hk j hj; simp only [A]; split <;> simp <;> omega
    have hBl : ∀ k, k ≤ xs.length - p → LiveIn nb (B k) 0 (xs.length + m + k) := by
      intro k hk j hj; simp only [B]; split
      · simp; omega
      · rw [hA m (by omega) j hj]; omega
    have hpA : ∀ k j, j < p → A k j = xs[j]? := by intro k j hj; simp only [A]; rw [if_neg (by omega)]
    have hpB : ∀ k j, j < p → B k j = xs[j]? := by intro k j hj; simp only [B]; rw [if_neg (by omega), hpA _ _ hj]
    refine wp_forN (fun k s' => Sh nb id (A k) 0 (xs.length + k) c s') ?_ ?_ ?_ ?_
    · unfold Env.fuel; omega
    · refine h.sh.congr ?_
      intro k hk; simp only [A]; rw [if_neg (by omega)]
    · intro k s' hk hs'
      simp only [wp_bind, wp_srcRead]
      have hks : xs.length - p + k < src.length := by omega
      refine ⟨src[xs.length - p + k], by simp [hks], ?_⟩
      refine constructEnd_wp (v := src[xs.length - p + k]) hF hs' (by omega) ?_ rfl (fun s'' h'' => ?_) (fun t s'' h'' => hX _ _ ?_)
      · simp only [A]; rw [if_neg (by omega)]; simp
      · refine h''.congr ?_
        intro j hj; simp only [A, upd]
        by_cases hj2 : j = xs.length + k
        · rw [if_pos hj2, if_pos (by omega)]
          have : j - p = xs.length - p + k := by omega
          rw [this]; simp [hks]
        · rw [if_neg hj2]; grind
      · exact ⟨rfl, t, _, _, h'', hA k (by omega), by omega, hpA k⟩
    · intro s1 h1
      refine wp_forIter (xs.length - p) (fun k => ((p + k : Nat) : Int))
        (fun k s' => Sh nb id (B k) 0 (xs.length + m + k) c s') ?_ ?_ ?_ ?_ ?_ ?_ ?_ ?_
      · unfold Env.fuel; omega
      · simp [hpos]
      · simp [hpos]
      · intro k hk; simp only [hpos]; omega
      · intro k _; omega
      · refine h1.congr ?_
        intro k hk; simp only [B]; rw [if_neg (by omega)]
      · intro k s' hk hs'
        refine wp_deref (p + k) rfl ?_
        have hpk : p + k < xs.length := by omega
        refine constructEnd_wp (v := xs[p+k]) hF hs' (by omega) ?_ ?_ (fun s'' h'' => ?_) (fun t s'' h'' => hX _ _ ?_)
        · have := hBl k (by omega) (xs.length + m + k) (by omega)
          cases hh : B k (xs.length + m + k) with
          | none => rfl
          | some w => rw [hh] at this; simp at this
        · refine ⟨p + k, by omega, rfl, ?_⟩
          simp only [B, A]; rw [if_neg (by omega), if_neg (by omega)]; simp [hpk]
        · refine h''.congr ?_
          intro j hj
          unfold upd
          by_cases hj2 : j = xs.length + m + k
          · rw [if_pos hj2]; simp only [B]; rw [if_pos (by omega)]
            have : j - n = p + k := by omega
            rw [this]; simp [hpk]
          · rw [if_neg hj2]; simp only [B]; grind
        · exact ⟨rfl, t, _, _, h'', hBl k (by omega), by omega, hpB k⟩
      · intro s2 h2
        have hen : xs.length + m + (xs.length - p) = xs.length + n := by omega
        rw [hen] at h2
        refine copyAssign_wp (xs := xs) (N := xs.length - p) hF hpos (by omega) (by omega) (by omega)
          (by rw [← hen]; exact hBl _ (by omega)) (by omega) (hpB _) ?_ ?_ h2 (fun s3 h3 => ?_) hX
        · intro k hk; simp [hend]; omega
        · simp [hend]; omega
        · refine hQ (by omega) s3 ⟨?_, by rw [hl2]; omega⟩
          rw [hl2]
          refine h3.congr ?_
          intro j hj
          rw [insertSpec_get _ _ _ _ hp]
          simp only [B, A]
          clear hpA hpB hA hBl hX hQ hfull
          grind

end insertion

/-- Result list of erasing `[a,b)`. -/
theorem eraseSpec_get (xs : List V) (a b j : Nat) (h1 : a ≤ b) (h2 : b ≤ xs.length) :
    (xs.take a ++ xs.drop b)[j]? = if j < a then xs[j]? else xs[j + (b - a)]? := by
  have hl : (xs.take a).length = a := by simp; omega
  split
  · rename_i h
    rw [List.getElem?_append_left (by omega), List.getElem?_take, if_pos h]
  · rw [List.getElem?_append_right (by omega), List.getElem?_drop, hl]
    congr 1; omega

theorem eraseRange_wp {a b : Nat} {first last : Int} {Q : Int → St V → Prop} {X : Exn → St V → Prop}
    (hF : Fits E nb) (h : VRep nb xs c s) (h1 : first = a) (h2 : last = b)
    (hab : a < b) (hb : b ≤ xs.length)
    (hQ : ∀ s', VRep nb (xs.take a ++ xs.drop b) c s' → Q first s')
    (hX : ∀ ex s', VExc E nb c a (fun k => xs[k]?) ex s' → X ex s') :
    wp (eraseRange E first last) Q X s := by
  have hF' := hF
  unfold Fits at hF'
  have hlen := h.len
  unfold eraseRange
  have hend : end_ s = (xs.length : Int) := by simp [end_, begin_, h.sh.he]
  simp only [wp_bind, wp_gets, wp_dassert, wp_pure, wp_modify]
  refine ⟨fun hh => ?_, fun _ => ⟨fun hh => ?_, fun _ => ⟨fun hh => ?_, fun _ => ?_⟩⟩⟩
  · simp at hh; omega
  · exact absurd hh.2 (by have hb : begin_ = 0 := rfl; rw [Bool.not_eq_false]; simp [hend]; omega)
  · exact absurd hh.2 (by have hb : begin_ = 0 := rfl; rw [Bool.not_eq_false]; simp [hend]; omega)
  · let A : Nat → Nat → Option V := fun k j => if a ≤ j ∧ j < a + k then xs[j + (b - a)]? else xs[j]?
    have hA : ∀ k, k ≤ xs.length - b → LiveIn nb (A k) 0 xs.length := by
      intro k hk j hj; simp only [A]; split <;> simp <;> omega
    have hpA : ∀ k j, j < a → A k j = xs[j]? := by intro k j hj; simp only [A]; rw [if_neg (by omega)]
    refine wp_forIter (xs.length - b) (fun k => ((b + k : Nat) : Int))
        (fun k s' => Sh nb id (A k) 0 xs.length c s') ?_ ?_ ?_ ?_ ?_ ?_ ?_ ?_
    · unfold Env.fuel; omega
    · simp [h2]
    · simp only [hend]; omega
    · intro k hk; simp only [hend]; omega
    · intro k _; omega
    · refine h.sh.congr ?_
      intro k hk; simp only [A]; rw [if_neg (by omega)]
    · intro k s' hk hs'
      have hbk : b + k < xs.length := by omega
      refine wp_deref (a + k) (by omega) ?_
      refine wp_deref (b + k) (by omega) ?_
      refine wp_assignSlot (v := xs[b + k]) bij_id hs' rfl (by omega) ?_ ?_ (fun s'' h'' => ?_) (fun t s'' w h'' => hX _ _ ?_)
      · exact (hA k (by omega) _ (by omega)).mpr ⟨by omega, by omega⟩
      · refine ⟨b + k, by omega, rfl, ?_⟩
        simp only [A]; rw [if_neg (by omega)]; simp [hbk]
      · refine h''.congr ?_
        intro j hj; simp only [A, upd]
        by_cases hj2 : j = a + k
        · rw [if_pos hj2, if_pos (by omega)]
          have : j + (b - a) = b + k := by omega
          rw [this]; simp [hbk]
        · rw [if_neg hj2]; grind
      · refine ⟨rfl, t, _, _, h'', liveIn_upd (hA k (by omega)) (by omega) ?_, by omega, fun j hj => ?_⟩
        · exact (hA k (by omega) _ (by omega)).mpr ⟨by omega, by omega⟩
        · rw [upd_ne _ _ (by omega), hpA k j hj]
    · intro s1 h1'
      refine destroyRange_wp (lo := xs.length - (b - a)) (hi := xs.length) hF h1' (by omega) hend (by omega) h.len ?_ (fun s2 h2' _ => ?_)
      · intro k _ hk
        exact (hA _ (by omega) k (by omega)).mpr ⟨by omega, hk⟩
      · have hts : toSize E.M (last - first) = b - a := by
          rw [toSize_of_nonneg (by omega) (by omega)]; omega
        have hl2 : (xs.take a ++ xs.drop b).length = xs.length - (b - a) := by simp; omega
        have hee : usub E.M s2.e (toSize E.M (last - first)) = xs.length - (b - a) := by
          rw [h2'.he, hts]; unfold usub; rw [if_pos (by omega)]
        refine hQ _ ⟨?_, by rw [hl2]; omega⟩
        rw [hl2, hee]
        refine (h2'.setE _).congr ?_
        intro j hj
        rw [eraseSpec_get _ _ _ _ (by omega) hb]
        simp only [A]
        clear hpA hA hX hQ
        grind

theorem erase_wp {a : Nat} {pos : Int} {Q : Int → St V → Prop} {X : Exn → St V → Prop}
    (hF : Fits E nb) (h : VRep nb xs c s) (h1 : pos = a) (ha : a < xs.length)
    (hQ : ∀ s', VRep nb (xs.take a ++ xs.drop (a+1)) c s' → Q pos s')
    (hX : ∀ ex s', VExc E nb c a (fun k => xs[k]?) ex s' → X ex s') :
    wp (erase E pos) Q X s := by
  unfold erase
  have hend : end_ s = (xs.length : Int) := by simp [end_, begin_, h.sh.he]
  simp only [wp_bind, wp_dassert]
  refine ⟨fun hh => ?_, fun _ => eraseRange_wp hF h h1 (by omega) (by omega) (by omega) hQ hX⟩
  exact absurd hh.2 (by have hb : begin_ = 0 := rfl; rw [Bool.not_eq_false]; simp [hend]; omega)

section access
variable {Q : V → St V → Prop} {X : Exn → St V → Prop} {i : Nat}

theorem index_wp (h : VRep nb xs c s) (hi : i < xs.length) (hQ : Q xs[i] s) : wp (index i) Q X s := by
  have := h.len
  unfold index
  exact wp_deref i (by simp [begin_]) (wp_readSlot bij_id h.sh rfl (by omega) (by simp [hi]) hQ)

theorem at_wp (h : VRep nb xs c s) (hQ : ∀ hi : i < xs.length, Q xs[i] s)
    (hX : xs.length ≤ i → X .outOfRange s) : wp (at_ i) Q X s := by
  unfold at_
  simp only [wp_bind, wp_gets, wp_ite, wp_throw]
  have hsz : size s = xs.length := h.sh.he
  rw [hsz]
  exact ⟨fun hh => hX hh, fun hh => index_wp h (by omega) (hQ (by omega))⟩

theorem front_wp (h : VRep nb xs c s) (hne : 0 < xs.length) (hQ : Q xs[0] s) : wp (front E) Q X s := by
  have := h.len
  unfold front
  simp only [wp_bind, wp_dassert]
  have hemp : empty s = false := by
    simp only [empty, size, h.sh.he, beq_eq_false_iff_ne]; omega
  exact ⟨by simp [hemp], fun _ => wp_deref 0 (by simp [begin_]) (wp_readSlot bij_id h.sh rfl (by omega) (by simp [hne]) hQ)⟩

theorem back_wp (h : VRep nb xs c s) (hne : 0 < xs.length) (hQ : Q xs[xs.length - 1] s) : wp (back E) Q X s := by
  have := h.len
  unfold back
  have hend : end_ s = (xs.length : Int) := by simp [end_, begin_, h.sh.he]
  simp only [wp_bind, wp_dassert, wp_gets]
  have hemp : empty s = false := by
    simp only [empty, size, h.sh.he, beq_eq_false_iff_ne]; omega
  exact ⟨by simp [hemp], fun _ => wp_deref (xs.length - 1) (by omega)
    (wp_readSlot bij_id h.sh rfl (by omega) (by simp) hQ)⟩

end access

theorem VRep.live (h : VRep nb xs c s) : ∀ k, k < nb → s.slot k = xs[k]? := h.sh.view

theorem contents_eq (h : VRep nb xs c s) : contents s = some xs := by
  have hlen := h.len
  unfold contents
  rw [h.sh.he]
  have : ∀ n, n ≤ xs.length → (List.range n).mapM (fun i => if i < s.nbuf then s.slot i else none) = some (xs.take n) := by
    intro n
    induction n with
    | zero => intro _; simp
    | succ n ih =>
      intro hn
      have hs : s.slot n = xs[n]? := h.sh.view n (by omega)
      have hn' : n < s.nbuf := by rw [h.sh.nbuf]; omega
      have hnl : n < xs.length := by omega
      rw [List.range_succ, List.mapM_append, ih (by omega), List.take_succ_eq_append_getElem hnl]
      simp [hn', hs, hnl]
  simpa using this xs.length (by omega)

theorem peek_run {i : Nat} (h : VRep nb xs c s) (hi : i < xs.length) : peek s i () = .ok xs[i] () := by
  have hlen := h.len
  have hs : s.slot i = xs[i]? := h.sh.view i (by omega)
  unfold peek
  rw [if_neg (by rw [h.sh.nbuf]; omega), hs]
  simp [hi]

theorem list_beq_cons_iff [BEq V] (a b : V) (as bs : List V) : ((a :: as) == (b :: bs)) = ((a == b) && (as == bs)) := rfl

/-- `List`'s `==` position by position. -/
theorem list_beq_take_succ [BEq V] (xs ys : List V) (k : Nat) (h1 : k < xs.length) (h2 : k < ys.length) :
    (xs.take (k+1) == ys.take (k+1)) = ((xs.take k == ys.take k) && (xs[k] == ys[k])) := by
  induction k generalizing xs ys with
  | zero =>
    cases xs with
    | nil => simp at h1
    | cons a as => cases ys with
      | nil => simp at h2
      | cons b bs => simp
  | succ k ih =>
    cases xs with
    | nil => simp at h1
    | cons a as => cases ys with
      | nil => simp at h2
      | cons b bs =>
        simp only [List.take_succ_cons, list_beq_cons_iff, List.getElem_cons_succ]
        rw [ih as bs (by simpa using h1) (by simpa using h2), Bool.and_assoc]

theorem list_beq_length [BEq V] (xs ys : List V) (h : (xs == ys) = true) : xs.length = ys.length := by
  induction xs generalizing ys with
  | nil => cases ys with
    | nil => rfl
    | cons b bs => exact absurd h (by simp)
  | cons a as ih => cases ys with
    | nil => exact absurd h (by simp)
    | cons b bs =>
      rw [list_beq_cons_iff, Bool.and_eq_true] at h
      simp [ih bs h.2]

theorem list_beq_take_of [BEq V] (xs ys : List V) (k : Nat) (h : (xs == ys) = true) : (xs.take k == ys.take k) = true := by
  induction k generalizing xs ys with
  | zero => simp
  | succ k ih =>
    cases xs with
    | nil => cases ys with
      | nil => rfl
      | cons b bs => exact absurd h (by simp)
    | cons a as => cases ys with
      | nil => exact absurd h (by simp)
      | cons b bs =>
        rw [list_beq_cons_iff, Bool.and_eq_true] at h
        simp only [List.take_succ_cons, list_beq_cons_iff, h.1, ih as bs h.2, Bool.and_self]

theorem eqElems_run [BEq V] {fuel n : Nat} {ys : List V} {px py : Nat → Cmd Unit V}
    (h1 : n = xs.length) (h2 : n = ys.length)
    (hx : ∀ i (hi : i < xs.length), px i () = .ok xs[i] ()) (hy : ∀ i (hi : i < ys.length), py i () = .ok ys[i] ())
    (hf : n < fuel) : eqElems fuel n px py () = .ok (xs == ys) () := by
  have key : ∀ f k, k ≤ n → n - k < f → (xs.take k == ys.take k) = true →
      ∃ j, Cmd.loop (fun (p : Nat × Bool) (_ : Unit) => decide (p.1 < n) && p.2)
        (fun p => do
          let a ← px p.1
          let b ← py p.1
          if (!(a == b)) = true then pure (p.1, false) else pure (p.1 + 1, true)) f (k, true) ()
        = .ok (j, xs == ys) () := by
    intro f
    induction f with
    | zero => intro k _ h; omega
    | succ f ih =>
      intro k hk hkf htk
      by_cases hkn : k < n
      · have hkx : k < xs.length := by omega
        have hky : k < ys.length := by omega
        have hs := list_beq_take_succ xs ys k hkx hky
        rw [htk, Bool.true_and] at hs
        by_cases hab : (xs[k] == ys[k]) = true
        · obtain ⟨j, hj⟩ := ih (k+1) (by omega) (by omega) (by rw [hs, hab])
          refine ⟨j, ?_⟩
          rw [← hj]
          conv => lhs; unfold Cmd.loop
          simp only [hkn, decide_true, Bool.and_self, if_true]
          show Cmd.bind _ _ _ = _
          simp [Cmd.bind, Bind.bind, hx k hkx, hy k hky, hab, Pure.pure, Cmd.pure]
        · refine ⟨k, ?_⟩
          have hne : (xs == ys) = false := by
            cases hb : (xs == ys) with
            | false => rfl
            | true =>
              have := list_beq_take_of xs ys (k+1) hb
              rw [hs] at this; exact absurd this hab
          have hab' : (xs[k] == ys[k]) = false := by simpa using hab
          unfold Cmd.loop
          simp only [hkn, decide_true, Bool.and_self, if_true]
          show Cmd.bind _ _ _ = _
          simp only [Cmd.bind, Bind.bind, hx k hkx, hy k hky, hab', Bool.not_false, if_true, Pure.pure, Cmd.pure, hne]
          cases f with
          | zero => omega
          | succ f => simp [Cmd.loop]
      · refine ⟨k, ?_⟩
        have : k = n := by omega
        subst this
        have ht : (xs == ys) = true := by
          rw [List.take_of_length_le (by omega), List.take_of_length_le (by omega)] at htk; exact htk
        unfold Cmd.loop
        simp [ht]
  obtain ⟨j, hj⟩ := key fuel 0 (by omega) (by omega) (by simp)
  unfold eqElems
  show Cmd.bind _ _ _ = _
  unfold Cmd.bind
  rw [hj]; rfl

theorem eq_run [BEq V] {cmpCap : Bool} {fuel nb' c' : Nat} {ys : List V} {s' : St V}
    (h : VRep nb xs c s) (h' : VRep nb' ys c' s') (hf : xs.length < fuel) :
    eq cmpCap fuel s s' () = .ok ((!cmpCap || nb == nb') && (xs == ys)) () := by
  unfold eq
  simp only [maxSize, size, h.sh.nbuf, h.sh.he, h'.sh.nbuf, h'.sh.he]
  by_cases hc : (cmpCap && nb != nb') = true
  · rw [if_pos hc]
    have hc' : (!cmpCap || nb == nb') = false := by
      cases cmpCap <;> simp_all
    rw [hc']; rfl
  · rw [if_neg hc]
    have hc' : (!cmpCap || nb == nb') = true := by
      cases cmpCap <;> simp_all
    rw [hc', Bool.true_and]
    by_cases hl : xs.length = ys.length
    · rw [if_neg (by simp [hl])]
      exact eqElems_run rfl hl (fun i hi => peek_run h hi) (fun i hi => peek_run h' hi) hf
    · rw [if_pos (by simp [hl])]
      have : (xs == ys) = false := by
        cases hb : (xs == ys) with
        | false => rfl
        | true => exact absurd (list_beq_length _ _ hb) hl
      rw [this]; rfl

end Verif.Vec
