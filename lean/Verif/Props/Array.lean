import Verif.Model.Array
import Verif.Proof.Vector
/- Property C23: Array<T, Size>. -/
namespace Verif.Props.Array
open Verif Cmd
variable {V : Type}

/-- The array object holds the values `xs` (and therefore has `Size = xs.length`). -/
structure Holds (xs : List V) (s : St V) : Prop where
  buf : s.nbuf = xs.length
  elems : ∀ k, k < xs.length → s.slot k = xs[k]?

theorem read_ok {xs : List V} {s : St V} (h : Holds xs s) {i : Nat} (hi : i < xs.length) : readSlot i s = .ok xs[i] s := by
  unfold readSlot
  rw [if_neg (by rw [h.buf]; omega), h.elems i hi]; simp [hi]

/-- C23, access: `at` throws exactly from `Size` on; `[]`, `front`, `back` read the right element; nothing changes. -/
theorem C23_array_access {xs : List V} {s : St V} (h : Holds xs s) (i : Nat) :
    (∀ hi : i < xs.length, Arr.at_ i s = .ok xs[i] s ∧ Arr.index i s = .ok xs[i] s) ∧
    (xs.length ≤ i → Arr.at_ i s = .exn .outOfRange s) ∧
    (∀ hne : xs ≠ [], Arr.front s = .ok (xs.head hne) s ∧ Arr.back s = .ok (xs.getLast hne) s) ∧
    Arr.size s = xs.length ∧ Arr.maxSize s = xs.length ∧ (Arr.empty s = true ↔ xs = []) := by
  have hat : ∀ c : Bool, decide (i ≥ s.nbuf) = c → Arr.at_ i s = if c then .exn .outOfRange s else readSlot i s := by
    intro c hc
    unfold Arr.at_
    rw [Cmd.bind_ok (rfl : gets Arr.size s = .ok s.nbuf s)]
    cases c with
    | true => rw [if_pos (by simpa [Arr.size] using hc)]; rfl
    | false => rw [if_neg (by simpa [Arr.size] using hc)]; rfl
  refine ⟨fun hi => ⟨?_, read_ok h hi⟩, fun hi => ?_, fun hne => ⟨?_, ?_⟩, h.buf, h.buf, ?_⟩
  · rw [hat false (by rw [h.buf]; simpa using hi)]; exact read_ok h hi
  · rw [hat true (by rw [h.buf]; simpa using hi)]; rfl
  · have := List.length_pos_iff.mpr hne
    show readSlot 0 s = _
    rw [read_ok h this, List.head_eq_getElem]
  · have hp := List.length_pos_iff.mpr hne
    unfold Arr.back
    rw [Cmd.bind_ok (rfl : gets Arr.size s = .ok s.nbuf s), show Arr.size s = xs.length from h.buf, if_neg (by omega), read_ok h (by omega), List.getLast_eq_getElem]
  · simp [Arr.empty, Arr.size, h.buf]

/-- C23, writing through `operator[]`: exactly that element changes. -/
theorem C23_array_assign_element (E : Env V) (hnt : ∀ k, E.thr k = false) {xs : List V} {s : St V} (h : Holds xs s)
    (i : Nat) (hi : i < xs.length) (v : V) :
    ∃ s', Arr.setAt E i (.ext v) s = .ok () s' ∧ Holds (xs.set i v) s' := by
  have hs : s.slot i = some xs[i] := by rw [h.elems i hi]; simp [hi]
  refine ⟨{ s with slot := upd s.slot i (some v), cnt := s.cnt + 1 }, ?_, ?_, ?_⟩
  · unfold Arr.setAt assignSlot
    rw [if_neg (by rw [h.buf]; omega), hs]
    simp [Ref.get, hnt]
  · simpa using h.buf
  · intro k hk
    simp at hk
    by_cases hki : k = i
    · subst hki; simp [hk]
    · show upd _ _ _ _ = _
      rw [upd_ne _ _ hki, h.elems k hk, List.getElem?_set_ne (by omega)]

/-- C23, fill: afterwards every element equals the value, also when the argument is a reference to one of the
array's own elements. -/
theorem C23_array_fill (E : Env V) (hnt : ∀ k, E.thr k = false) {xs : List V} {s : St V} (h : Holds xs s)
    (hF : xs.length < E.fuel) (r : Ref V) (v : V) (hr : r.get s = some v) :
    ∃ s', Arr.fill E r s = .ok () s' ∧ Holds (List.replicate xs.length v) s' := by
  have hw : wp (Arr.fill E r) (fun _ s' => Holds (List.replicate xs.length v) s') (fun _ _ => False) s := by
    unfold Arr.fill
    simp only [wp_bind, wp_gets, Arr.size, h.buf]
    refine wp_loop xs.length (fun k x s' => x = k ∧ s'.nbuf = xs.length ∧
        (∀ j, j < k → j < xs.length → s'.slot j = some v) ∧ (∀ j, k ≤ j → j < xs.length → s'.slot j = s.slot j)) hF
      ⟨rfl, h.buf, fun j hj => by omega, fun j _ _ => rfl⟩ ?_ ?_
    · rintro k x s' hk ⟨rfl, hb, h1, h2⟩
      refine ⟨by simpa using hk, ?_⟩
      rw [wp_bind]
      have hsl : s'.slot x = some xs[x] := by rw [h2 x (Nat.le_refl _) hk, h.elems x hk]; simp [hk]
      have hget : r.get s' = some v := by
        cases r with
        | ext w => exact hr
        | elem j =>
          simp only [Ref.get, h.buf, hb] at hr ⊢
          split at hr
          · rename_i hj
            rw [if_pos hj]
            by_cases hjx : j < x
            · exact h1 j hjx hj
            · rw [h2 j (by omega) hj]; exact hr
          · cases hr
      unfold wp assignSlot
      rw [if_neg (by rw [hb]; omega), hsl]
      simp only [hget, hnt]
      refine ⟨rfl, hb, fun j hj1 hj2 => ?_, fun j hj1 hj2 => ?_⟩
      · by_cases hjx : j = x
        · subst hjx; simp
        · show upd _ _ _ _ = _
          rw [upd_ne _ _ hjx]; exact h1 j (by omega) hj2
      · show upd _ _ _ _ = _
        rw [upd_ne _ _ (by omega)]; exact h2 j (by omega) hj2
    · rintro x s' ⟨rfl, hb, h1, h2⟩
      refine ⟨by simp, by simp [hb], fun k hk => ?_⟩
      simp at hk
      rw [h1 k hk hk]; simp [hk]
  rcases wp_cases hw with ⟨_, s', he, hq⟩ | ⟨_, _, _, hf⟩
  · exact ⟨s', he, hq⟩
  · exact hf.elim

/-- C23, comparison: `==` is element-wise equality (with the element type's `==`), `!=` its negation. -/
theorem C23_array_equality [BEq V] (E : Env V) {xs ys : List V} {s x : St V} (h : Holds xs s) (hx : Holds ys x)
    (hlen : xs.length = ys.length) (hF : xs.length < E.fuel) :
    Arr.eq E s x () = .ok (xs == ys) () ∧ Arr.ne E s x () = .ok (!(xs == ys)) () := by
  have hpk : ∀ {xs : List V} {s : St V}, Holds xs s → ∀ i (hi : i < xs.length), Vec.peek s i () = .ok xs[i] () := by
    intro xs s h i hi
    unfold Vec.peek
    rw [if_neg (by rw [h.buf]; omega), h.elems i hi]; simp [hi]
  have h1 : Arr.eq E s x () = .ok (xs == ys) () := by
    unfold Arr.eq Arr.size
    exact Vec.eqElems_run h.buf (h.buf.trans hlen) (hpk h) (hpk hx) (by rw [h.buf]; exact hF)
  refine ⟨h1, ?_⟩
  show Cmd.bind _ _ () = _
  simp only [Cmd.bind, h1]; rfl

def exE : Env Nat := { M := 2^32, dbg := true, thr := fun _ => false, junk := fun _ v => v, dflt := 0 }
def ex3 : St Nat := { nbuf := 3, slot := fun k => if k < 3 then some (10 * (k + 1)) else none, cnt := 0, b := 0, e := 0 }
example : Holds [10, 20, 30] ex3 := ⟨rfl, fun k hk => by
  match k, hk with
  | 0, _ => rfl
  | 1, _ => rfl
  | 2, _ => rfl⟩
example : (Ref.elem 1).get ex3 = some 20 := rfl
example : ∃ s', Arr.fill exE (.elem 1) ex3 = .ok () s' ∧ s'.slot 0 = some 20 ∧ s'.slot 2 = some 20 := ⟨_, rfl, rfl, rfl⟩
example : Arr.eq exE ex3 ex3 () = .ok true () := rfl

end Verif.Props.Array
