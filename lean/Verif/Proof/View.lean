import Verif.Sem.Mem
/-
Logical views of a buffer: `View nb ix s L` says that logical position `k < nb` lives in physical
slot `ix k` and currently holds `L k`.  For vectors `ix = id`, for deques `ix k = (o + k) % nb`.
-/
namespace Verif
open Cmd

variable {V : Type}

/-- `ix` is an injection of `[0,nb)` into itself. -/
structure Bij (nb : Nat) (ix : Nat → Nat) : Prop where
  lt : ∀ k, k < nb → ix k < nb
  inj : ∀ j k, j < nb → k < nb → ix j = ix k → j = k

/-- Shape of a state: view, index members, lower bound for the copy counter. -/
structure Sh (nb : Nat) (ix : Nat → Nat) (L : Nat → Option V) (b e c : Nat) (s : St V) : Prop where
  nbuf : s.nbuf = nb
  view : ∀ k, k < nb → s.slot (ix k) = L k
  hb : s.b = b
  he : s.e = e
  hc : c ≤ s.cnt

/-- Some element copy with number at least `c` throws. -/
def Thrown (E : Env V) (c : Nat) : Prop := ∃ k, c ≤ k ∧ E.thr k = true

/-- The value a reference denotes in a view. -/
def RefIs (nb : Nat) (ix : Nat → Nat) (L : Nat → Option V) (r : Ref V) (v : V) : Prop :=
  match r with
  | .ext w => w = v
  | .elem i => ∃ j, j < nb ∧ i = ix j ∧ L j = some v

variable {nb : Nat} {ix : Nat → Nat} {L : Nat → Option V} {b e c : Nat} {s : St V}
variable {E : Env V} {X : Exn → St V → Prop}

theorem RefIs.get {r : Ref V} {v : V} (hB : Bij nb ix) (h : Sh nb ix L b e c s) (hr : RefIs nb ix L r v) :
    r.get s = some v := by
  cases r with
  | ext w => simpa [RefIs, Ref.get] using hr
  | elem i =>
    obtain ⟨j, hj, rfl, hL⟩ := hr
    simp [Ref.get, h.nbuf, hB.lt j hj, h.view j hj, hL]

theorem Sh.congr {L' : Nat → Option V} (h : Sh nb ix L b e c s) (hL : ∀ k, k < nb → L k = L' k) :
    Sh nb ix L' b e c s :=
  ⟨h.nbuf, fun k hk => by rw [h.view k hk, hL k hk], h.hb, h.he, h.hc⟩

theorem wp_construct {Q : Unit → St V → Prop} (hB : Bij nb ix) (h : Sh nb ix L b e c s)
    {i k : Nat} {r : Ref V} {v : V} (hi : i = ix k) (hk : k < nb) (hL : L k = none)
    (hr : RefIs nb ix L r v)
    (hQ : ∀ s', Sh nb ix (upd L k (some v)) b e c s' → Q () s')
    (hX : Thrown E c → ∀ s', Sh nb ix L b e c s' → X .elemThrow s') :
    wp (construct E i r) Q X s := by
  subst hi
  have hlt := hB.lt k hk
  unfold wp construct
  rw [if_neg (by rw [h.nbuf]; omega), h.view k hk, hL, hr.get hB h]
  dsimp only
  by_cases ht : E.thr s.cnt = true
  · rw [if_pos ht]
    exact hX ⟨_, h.hc, ht⟩ _ ⟨h.nbuf, h.view, h.hb, h.he, by have := h.hc; show c ≤ s.cnt + 1; omega⟩
  · rw [if_neg ht]
    refine hQ _ ⟨h.nbuf, ?_, h.hb, h.he, by have := h.hc; show c ≤ s.cnt + 1; omega⟩
    intro j hj
    by_cases hjk : j = k
    · subst hjk; simp
    · have : ix j ≠ ix k := fun hh => hjk (hB.inj j k hj hk hh)
      simp [upd_ne _ _ this, upd_ne _ _ hjk, h.view j hj]

theorem wp_assignSlot {Q : Unit → St V → Prop} (hB : Bij nb ix) (h : Sh nb ix L b e c s)
    {i k : Nat} {r : Ref V} {v : V} (hi : i = ix k) (hk : k < nb) (hL : (L k).isSome)
    (hr : RefIs nb ix L r v)
    (hQ : ∀ s', Sh nb ix (upd L k (some v)) b e c s' → Q () s')
    (hX : Thrown E c → ∀ s' w, Sh nb ix (upd L k (some w)) b e c s' → X .elemThrow s') :
    wp (assignSlot E i r) Q X s := by
  subst hi
  have hlt := hB.lt k hk
  obtain ⟨old, hold⟩ := Option.isSome_iff_exists.mp hL
  have hview : ∀ w, ∀ j, j < nb → upd s.slot (ix k) (some w) (ix j) = upd L k (some w) j := by
    intro w j hj
    by_cases hjk : j = k
    · subst hjk; simp
    · have : ix j ≠ ix k := fun hh => hjk (hB.inj j k hj hk hh)
      simp [upd_ne _ _ this, upd_ne _ _ hjk, h.view j hj]
  unfold wp assignSlot
  rw [if_neg (by rw [h.nbuf]; omega), h.view k hk, hold, hr.get hB h]
  dsimp only
  by_cases ht : E.thr s.cnt = true
  · rw [if_pos ht]
    exact hX ⟨_, h.hc, ht⟩ _ (E.junk s.cnt old)
      ⟨h.nbuf, hview _, h.hb, h.he, by have := h.hc; show c ≤ s.cnt + 1; omega⟩
  · rw [if_neg ht]
    exact hQ _ ⟨h.nbuf, hview _, h.hb, h.he, by have := h.hc; show c ≤ s.cnt + 1; omega⟩

theorem wp_destroySlot {Q : Unit → St V → Prop} (hB : Bij nb ix) (h : Sh nb ix L b e c s)
    {i k : Nat} (hi : i = ix k) (hk : k < nb) (hL : (L k).isSome)
    (hQ : ∀ s', Sh nb ix (upd L k none) b e c s' → s'.cnt = s.cnt → Q () s') :
    wp (destroySlot i) Q X s := by
  subst hi
  have hlt := hB.lt k hk
  obtain ⟨old, hold⟩ := Option.isSome_iff_exists.mp hL
  unfold wp destroySlot
  rw [if_neg (by rw [h.nbuf]; omega), h.view k hk, hold]
  dsimp only
  refine hQ _ ⟨h.nbuf, ?_, h.hb, h.he, h.hc⟩ rfl
  intro j hj
  by_cases hjk : j = k
  · subst hjk; simp
  · have : ix j ≠ ix k := fun hh => hjk (hB.inj j k hj hk hh)
    simp [upd_ne _ _ this, upd_ne _ _ hjk, h.view j hj]

theorem wp_readSlot {Q : V → St V → Prop} (hB : Bij nb ix) (h : Sh nb ix L b e c s)
    {i k : Nat} {v : V} (hi : i = ix k) (hk : k < nb) (hL : L k = some v) (hQ : Q v s) :
    wp (readSlot i) Q X s := by
  subst hi
  have hlt := hB.lt k hk
  unfold wp readSlot
  rw [if_neg (by rw [h.nbuf]; omega), h.view k hk, hL]
  exact hQ

@[simp] theorem wp_dassert {Q : Unit → St V → Prop} (cnd : St V → Bool) :
    wp (dassert E cnd) Q X s ↔ (E.dbg = true ∧ cnd s = false → X .assertFail s) ∧
      (E.dbg = false ∨ cnd s = true → Q () s) := by
  unfold wp dassert
  cases E.dbg <;> cases hh : cnd s <;> simp [hh]

@[simp] theorem wp_srcRead {Q : V → St V → Prop} (src : List V) (j : Nat) :
    wp (srcRead src j) Q X s ↔ ∃ v, src[j]? = some v ∧ Q v s := by
  unfold srcRead
  cases h : src[j]? <;> simp

/-- Modifying an index member. -/
theorem Sh.setE (h : Sh nb ix L b e c s) (e' : Nat) : Sh nb ix L b e' c { s with e := e' } :=
  ⟨h.nbuf, h.view, h.hb, rfl, h.hc⟩
theorem Sh.setB (h : Sh nb ix L b e c s) (b' : Nat) : Sh nb ix L b' e c { s with b := b' } :=
  ⟨h.nbuf, h.view, rfl, h.he, h.hc⟩

/-- The live positions are exactly `[lo,hi)`. -/
def LiveIn (nb : Nat) (L : Nat → Option V) (lo hi : Nat) : Prop :=
  ∀ k, k < nb → ((L k).isSome = true ↔ lo ≤ k ∧ k < hi)

/-- A view whose live positions are `[lo,hi)` spells out a list. -/
theorem LiveIn.toList {lo hi : Nat} (h : LiveIn nb L lo hi) (hlo : lo ≤ hi) (hhi : hi ≤ nb) :
    ∃ xs : List V, xs.length = hi - lo ∧ ∀ k, k < nb → lo ≤ k → L k = xs[k - lo]? := by
  induction hi with
  | zero =>
    refine ⟨[], by simp, fun k hk hlok => ?_⟩
    have := (h k hk)
    cases hL : L k <;> simp_all
  | succ hi ih =>
    by_cases hle : lo ≤ hi
    · -- view with the last element hidden
      have hsome : (L hi).isSome := (h hi (by omega)).mpr ⟨hle, by omega⟩
      obtain ⟨v, hv⟩ := Option.isSome_iff_exists.mp hsome
      have key : ∀ (L' : Nat → Option V), LiveIn nb L' lo hi →
          ∃ xs : List V, xs.length = hi - lo ∧ ∀ k, k < nb → lo ≤ k → L' k = xs[k - lo]? := by
        intro L' hL'
        clear ih
        have : ∀ n, lo + n ≤ hi → ∃ xs : List V, xs.length = n ∧ ∀ k, k < lo + n → lo ≤ k → L' k = xs[k - lo]? := by
          intro n
          induction n with
          | zero => exact fun _ => ⟨[], rfl, fun k h1 h2 => by omega⟩
          | succ n ihn =>
            intro hn
            obtain ⟨xs, hl, hx⟩ := ihn (by omega)
            obtain ⟨w, hw⟩ := Option.isSome_iff_exists.mp ((hL' (lo+n) (by omega)).mpr ⟨by omega, by omega⟩)
            refine ⟨xs ++ [w], by simp [hl], fun k h1 h2 => ?_⟩
            by_cases hk : k < lo + n
            · rw [hx k hk h2, List.getElem?_append_left (by omega)]
            · have : k = lo + n := by omega
              subst this
              rw [hw, List.getElem?_append_right (by omega)]
              simp [hl]
        obtain ⟨xs, hl, hx⟩ := this (hi - lo) (by omega)
        refine ⟨xs, hl, fun k hk h2 => ?_⟩
        by_cases hk2 : k < hi
        · exact hx k (by omega) h2
        · have := hL' k hk
          rw [List.getElem?_eq_none (by omega)]
          cases hLk : L' k with
          | none => rfl
          | some w => simp [hLk] at this; omega
      obtain ⟨xs, hl, hx⟩ := key (upd L hi none) (by
        intro k hk
        by_cases hkh : k = hi
        · subst hkh; simp
        · rw [upd_ne _ _ hkh, h k hk]; omega)
      refine ⟨xs ++ [v], by simp [hl]; omega, fun k hk h2 => ?_⟩
      by_cases hkh : k = hi
      · subst hkh
        rw [hv, List.getElem?_append_right (by omega)]; simp [hl]
      · have hk' := hx k hk h2
        rw [upd_ne _ _ hkh] at hk'
        rw [hk']
        by_cases hk3 : k < hi
        · rw [List.getElem?_append_left (by omega)]
        · rw [List.getElem?_eq_none (by omega), List.getElem?_eq_none (by simp; omega)]
    · have : lo = hi + 1 := by omega
      subst this
      refine ⟨[], by simp, fun k hk hlok => ?_⟩
      have := h k hk
      cases hL : L k <;> simp_all
      omega

end Verif
