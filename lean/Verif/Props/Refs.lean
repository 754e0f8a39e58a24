import Verif.Model.Refs
import Verif.Props.Vector
import Verif.Props.Deque
/-
C95: every way of naming an element of a vector or deque names the same object; reading yields the list element,
assigning through it changes exactly that element; calls, reads, writes and copies interleave in any history.
-/
namespace Verif.Props.Refs
open Verif Cmd Spec
variable {V : Type}

theorem pos_lt {n i : Nat} {p : Path} (h : p.pos n = some i) : i < n := by
  cases p <;> simp only [Path.pos] at h <;> split at h <;> simp at h <;> omega

/-- Lift of single steps to histories. -/
theorem xhistory_refines {σ : Type} {cap : Nat} {exec : XOp V → Cmd σ (Ret V)} {Rep : List V → σ → Prop} {Good : XOp V → Prop}
    (hstep : ∀ xs s o ys r, Rep xs s → Good o → xapply cap xs o = some (ys, r) →
      (∃ ret s', exec o s = .ok ret s' ∧ r = .ret ret ∧ Rep ys s') ∨
      (∃ e s', exec o s = .exn e s' ∧ r = .threw e ∧ Rep ys s'))
    (os : List (XOp V)) : ∀ xs s zs rs, Rep xs s → (∀ o ∈ os, Good o) → xapplyAll cap xs os = some (zs, rs) →
      ∃ s', xhistory exec s os = some (s', rs) ∧ Rep zs s' := by
  induction os with
  | nil =>
    intro xs s zs rs h _ ha
    simp only [xapplyAll, Option.some.injEq, Prod.mk.injEq] at ha
    obtain ⟨rfl, rfl⟩ := ha
    exact ⟨s, rfl, h⟩
  | cons o os ih =>
    intro xs s zs rs h hg ha
    simp only [xapplyAll] at ha
    cases hap : xapply cap xs o with
    | none => simp [hap] at ha
    | some p =>
      obtain ⟨ys, r⟩ := p
      cases hall : xapplyAll cap ys os with
      | none => simp [hap, hall] at ha
      | some q =>
        obtain ⟨zs', rs'⟩ := q
        simp only [hap, hall, Option.bind_eq_bind, Option.bind_some, Option.pure_def, Option.some.injEq, Prod.mk.injEq] at ha
        obtain ⟨rfl, rfl⟩ := ha
        rcases hstep xs s o ys r h (hg o (by simp)) hap with ⟨ret, s', he, rfl, hr⟩ | ⟨e, s', he, rfl, hr⟩
        · obtain ⟨s'', h1, h2⟩ := ih ys s' zs' rs' hr (fun o ho => hg o (by simp [ho])) hall
          exact ⟨s'', by simp [xhistory, he, h1], h2⟩
        · obtain ⟨s'', h1, h2⟩ := ih ys s' zs' rs' hr (fun o ho => hg o (by simp [ho])) hall
          exact ⟨s'', by simp [xhistory, he, h1], h2⟩

/-- Calls with expressible arguments; reads, writes and copies are always expressible. -/
def Good (C : Op V → Prop) : XOp V → Prop
  | .call o => C o
  | _ => True

/-! ### Vector -/
namespace Vector
open _root_.Verif.Vec hiding Fits
open Props.Vector

/-- C95: every path to position `i` is a pointer to the same object (slot `i`), evaluated without any effect;
a checked path outside the sequence throws `OutOfRange` and changes nothing. -/
theorem C95_vector_path_target (E : Env V) (cap : Nat) {xs : List V} {s : St V} (h : Holds cap xs s) (p : Path) :
    (∀ i, p.pos xs.length = some i → pathPtr E p s = .ok (i : Int) s) ∧
    (p.target xs.length = .outOfRange → pathPtr E p s = .exn .outOfRange s) := by
  have hsz : s.e = xs.length := h.sz
  constructor
  · intro i hi
    cases p <;> simp only [Path.pos] at hi <;> split at hi <;> simp at hi <;> subst hi <;>
      simp [pathPtr, Cmd.gets, bind, Cmd.bind, pure, Cmd.pure, Vec.begin_, Vec.end_, Vec.size, Vec.empty, dassert, hsz] <;> grind [Cmd.pure]
  · intro ht
    cases p <;> simp only [Path.target, Path.pos, Path.checked] at ht <;> split at ht <;> simp at ht
    rename_i i hi
    split at hi
    · cases hi
    · simp [pathPtr, Cmd.gets, bind, Cmd.bind, Vec.size, hsz]
      rw [if_pos (by omega)]; rfl

theorem deref_nat {α : Type} (i : Nat) (f : Nat → Cmd (St V) α) : deref (i : Int) f = f i := by
  unfold deref; rw [if_neg (by omega)]; rfl

/-- The element assignment in slot `i` of a vector holding `xs`. -/
theorem assign_at (E : Env V) (cap : Nat) {xs : List V} {s : St V} (h : Holds cap xs s) {i : Nat} (hi : i < xs.length)
    (r : Ref V) {v : V} (hr : r.get s = some v) :
    ∃ s', (assignSlot E i r s = if E.thr s.cnt then .exn .elemThrow s' else .ok () s') ∧
      Holds cap (xs.set i (if E.thr s.cnt then E.junk s.cnt xs[i] else v)) s' := by
  have hle := h.le
  have hb := h.buf
  have hsl : s.slot i = some xs[i] := by rw [h.elems i (by omega)]; simp [hi]
  refine ⟨{ s with slot := upd s.slot i (some (if E.thr s.cnt then E.junk s.cnt xs[i] else v)), cnt := s.cnt + 1 }, ?_, ?_⟩
  · unfold assignSlot
    rw [if_neg (by omega), hsl]
    simp only [hr]
    split <;> simp
  · refine ⟨h.buf, h.unused, ?_, by simpa using hle, fun k hk => ?_⟩
    · show s.e = _
      rw [List.length_set]; exact h.sz
    · show upd _ _ _ _ = _
      have := h.elems k hk
      unfold upd
      by_cases hki : k = i
      · subst hki; simp [hi]
      · rw [if_neg hki, this, List.getElem?_set_ne (by omega)]

/-- C95: reading through any path yields the list element it designates and changes nothing. -/
theorem C95_vector_read (E : Env V) (cap : Nat) {xs : List V} {s : St V} (h : Holds cap xs s) (p : Path) {i : Nat}
    (hp : p.pos xs.length = some i) : ∃ hi : i < xs.length, xexec E (.read p) s = .ok (.val xs[i]) s := by
  have hi := pos_lt hp
  refine ⟨hi, ?_⟩
  have hle := h.le
  have hb := h.buf
  simp only [xexec]
  rw [Cmd.bind_ok ((C95_vector_path_target E cap h p).1 i hp)]
  rw [Cmd.bind_ok (s' := s) (a := xs[i])]; rfl
  rw [deref_nat]
  unfold readSlot
  rw [if_neg (by omega), h.elems i (by omega)]
  simp [hi]

/-- C95: assigning through any path replaces exactly the element it designates (by what the element type's
assignment leaves there, when that throws) — every other element, the size and the storage outside stay. -/
theorem C95_vector_write (E : Env V) (cap : Nat) {xs : List V} {s : St V} (h : Holds cap xs s) (p : Path) {i : Nat}
    (hp : p.pos xs.length = some i) (v : V) :
    ∃ s', (xexec E (.write p v) s = if E.thr s.cnt then .exn .elemThrow s' else .ok .unit s') ∧
      ∃ hi : i < xs.length, Holds cap (xs.set i (if E.thr s.cnt then E.junk s.cnt xs[i] else v)) s' := by
  have hi := pos_lt hp
  obtain ⟨s', ha, hh⟩ := assign_at E cap h hi (.ext v) (v := v) rfl
  refine ⟨s', ?_, hi, hh⟩
  simp only [xexec]
  rw [Cmd.bind_ok ((C95_vector_path_target E cap h p).1 i hp)]
  have : deref (i : Int) (fun i => assignSlot E i (.ext v)) s = assignSlot E i (.ext v) s := by
    rw [deref_nat]
  split at ha
  · rw [Cmd.bind_exn (this.trans ha)]; simp [*]
  · rw [Cmd.bind_ok (this.trans ha)]; simp [*]; rfl

/-- C95: assignment from one element of the vector to another (or itself). -/
theorem C95_vector_copy (E : Env V) (cap : Nat) {xs : List V} {s : St V} (h : Holds cap xs s) (p q : Path) {i j : Nat}
    (hp : p.pos xs.length = some i) (hq : q.pos xs.length = some j) :
    ∃ s', (xexec E (.copy p q) s = if E.thr s.cnt then .exn .elemThrow s' else .ok .unit s') ∧
      ∃ (hi : i < xs.length) (hj : j < xs.length),
        Holds cap (xs.set i (if E.thr s.cnt then E.junk s.cnt xs[i] else xs[j])) s' := by
  have hi := pos_lt hp
  have hj := pos_lt hq
  have hle := h.le
  have hb := h.buf
  obtain ⟨s', ha, hh⟩ := assign_at E cap h hi (.elem j) (v := xs[j])
    (by simp only [Ref.get]; rw [if_pos (by omega), h.elems j (by omega)]; simp [hj])
  refine ⟨s', ?_, hi, hj, hh⟩
  simp only [xexec]
  rw [Cmd.bind_ok ((C95_vector_path_target E cap h p).1 i hp), Cmd.bind_ok ((C95_vector_path_target E cap h q).1 j hq)]
  have : deref (i : Int) (fun i => deref (j : Int) (fun j => assignSlot E i (.elem j))) s = assignSlot E i (.elem j) s := by
    rw [deref_nat, deref_nat]
  split at ha
  · rw [Cmd.bind_exn (this.trans ha)]; simp [*]
  · rw [Cmd.bind_ok (this.trans ha)]; simp [*]; rfl

/-- A path outside the sequence: only the checked one is in contract. -/
theorem bad_path (E : Env V) (cap : Nat) {xs : List V} {s : St V} (h : Holds cap xs s) {p : Path} (hp : p.target xs.length = .outOfRange) :
    pathPtr E p s = .exn .outOfRange s := (C95_vector_path_target E cap h p).2 hp

theorem elem_path {n i : Nat} {p : Path} (hp : p.target n = .elem i) : p.pos n = some i := by
  unfold Path.target at hp
  split at hp
  · cases hp; assumption
  · split at hp <;> cases hp

/-- One step from any state. -/
theorem C95_vector_step (E : Env V) (cap : Nat) (hF : Fits E cap) (hnt : ∀ k, E.thr k = false)
    {xs ys : List V} {s : St V} {o : XOp V} {r : Res V} (h : Holds cap xs s) (ho : Good (Callable E) o)
    (hap : xapply cap xs o = some (ys, r)) :
    (∃ ret s', xexec E o s = .ok ret s' ∧ r = .ret ret ∧ Holds cap ys s') ∨
    (∃ e, xexec E o s = .exn e s ∧ r = .threw e ∧ ys = xs) := by
  cases o with
  | call o => exact C01_vector_single_call E cap hF hnt h ho hap
  | read p =>
    simp only [xapply] at hap
    split at hap
    · rename_i i ht
      obtain ⟨hi, he⟩ := C95_vector_read E cap h p (elem_path ht)
      simp [hi] at hap
      obtain ⟨rfl, rfl⟩ := hap
      exact Or.inl ⟨_, s, he, rfl, h⟩
    · rename_i ht
      cases hap
      refine Or.inr ⟨.outOfRange, ?_, rfl, rfl⟩
      simp only [xexec]; rw [Cmd.bind_exn (bad_path E cap h ht)]
    · cases hap
  | write p v =>
    simp only [xapply] at hap
    split at hap
    · rename_i i ht
      obtain ⟨s', he, hi, hh⟩ := C95_vector_write E cap h p (elem_path ht) v
      cases hap
      rw [hnt] at he hh
      exact Or.inl ⟨_, s', he, rfl, hh⟩
    · rename_i ht
      cases hap
      refine Or.inr ⟨.outOfRange, ?_, rfl, rfl⟩
      simp only [xexec]; rw [Cmd.bind_exn (bad_path E cap h ht)]
    · cases hap
  | copy p q =>
    simp only [xapply] at hap
    split at hap
    · rename_i i j ht hu
      obtain ⟨s', he, hi, hj, hh⟩ := C95_vector_copy E cap h p q (elem_path ht) (elem_path hu)
      simp [hj] at hap
      obtain ⟨rfl, rfl⟩ := hap
      rw [hnt] at he hh
      exact Or.inl ⟨_, s', he, rfl, hh⟩
    · cases hap
    · cases hap
    · cases hap
      refine Or.inr ⟨.outOfRange, ?_, rfl, rfl⟩
      simp only [xexec]
      cases ht : p.target xs.length with
      | undefined => simp_all
      | outOfRange => rw [Cmd.bind_exn (bad_path E cap h ht)]
      | elem i =>
        rw [Cmd.bind_ok ((C95_vector_path_target E cap h p).1 i (elem_path ht))]
        cases hu : q.target xs.length with
        | undefined => simp_all
        | outOfRange => rw [Cmd.bind_exn (bad_path E cap h hu)]
        | elem j => simp_all

/-- C95: for every history of in-contract calls, reads, writes and copies, every result and the final contents are
those of the bounded list. -/
theorem C95_vector_history (E : Env V) (cap : Nat) (hF : Fits E cap) (hnt : ∀ k, E.thr k = false)
    (os : List (XOp V)) (hos : ∀ o ∈ os, Good (Callable E) o) (zs : List V) (rs : List (Res V))
    (hspec : xapplyAll cap [] os = some (zs, rs)) :
    ∃ s', xhistory (xexec E) (Vec.fresh cap 0) os = some (s', rs) ∧ Holds cap zs s' := by
  refine xhistory_refines (exec := xexec E) (cap := cap) (Rep := fun xs s => Holds cap xs s) (Good := Good (Callable E))
    ?_ os [] (Vec.fresh cap 0) zs rs (Holds.of (fresh_rep cap 0)) hos hspec
  intro xs s o ys r hh hg hap
  rcases C95_vector_step E cap hF hnt hh hg hap with h | ⟨e, he, hr, rfl⟩
  · exact Or.inl h
  · exact Or.inr ⟨e, s, he, hr, hh⟩

example : xapplyAll 4 [] ([.call (.pushBack 1), .call (.pushBack 2), .call (.insert 0 3), .write .back 9, .copy (.fromRBegin 2) (.at_ 1),
    .write (.at_ 3) 7, .read (.fromREnd 1), .read (.fromEnd 1)] : List (XOp Nat))
    = some ([1, 1, 9], [.ret .unit, .ret .unit, .ret (.pos 0), .ret .unit, .ret .unit, .threw .outOfRange, .ret (.val 1), .ret (.val 9)]) := by decide
example : (xhistory (xexec exE) (Vec.fresh 4 0) [.call (.pushBack 1), .call (.pushBack 2), .call (.insert 0 3), .write .back 9,
    .copy (.fromRBegin 2) (.at_ 1), .write (.at_ 3) 7, .read (.fromREnd 1), .read (.fromEnd 1)]).map (·.2)
    = some [.ret .unit, .ret .unit, .ret (.pos 0), .ret .unit, .ret .unit, .threw .outOfRange, .ret (.val 1), .ret (.val 9)] := by rfl


/-- C95: whatever the element type throws, an in-contract call, read, write or copy is never undefined and always
answers; it either does what the list does, or reports the element's exception and leaves a valid vector (with the same
size if it was a read, write or copy). -/
theorem C95_vector_safe (E : Env V) (cap : Nat) (hF : Fits E cap) {xs : List V} {s : St V} {o : XOp V} (h : Holds cap xs s)
    (ho : Good (Callable E) o) (hin : (xapply cap xs o).isSome) :
    (∃ ret s' ys, xexec E o s = .ok ret s' ∧ xapply cap xs o = some (ys, .ret ret) ∧ Holds cap ys s') ∨
    (∃ e, xexec E o s = .exn e s ∧ xapply cap xs o = some (xs, .threw e)) ∨
    (∃ s' ys, xexec E o s = .exn .elemThrow s' ∧ Holds cap ys s' ∧ (∃ k, s.cnt ≤ k ∧ E.thr k = true) ∧
      ((∀ c, o ≠ .call c) → ∃ i v, ys = xs.set i v ∧ i < xs.length)) := by
  cases o with
  | call o =>
    have hw := exec_wp hF h.rep ho.1 ho.2 hin
    rcases wp_cases hw with ⟨ret, s', he, ys', hr, ha⟩ | ⟨e, s', he, hx⟩
    · exact Or.inl ⟨ret, s', ys', he, ha, Holds.of hr⟩
    · rcases hx with ⟨ha, rfl⟩ | ⟨rfl, _, hk, ys, hy, _⟩
      · exact Or.inr (Or.inl ⟨e, he, ha⟩)
      · exact Or.inr (Or.inr ⟨s', ys, he, Holds.of hy, hk, fun hc => absurd rfl (hc o)⟩)
  | read p =>
    simp only [xapply] at hin ⊢
    split at hin
    · rename_i i ht
      obtain ⟨hi, he⟩ := C95_vector_read E cap h p (elem_path ht)
      exact Or.inl ⟨_, s, xs, he, by simp [hi], h⟩
    · rename_i ht
      refine Or.inr (Or.inl ⟨.outOfRange, ?_, rfl⟩)
      simp only [xexec]; rw [Cmd.bind_exn (bad_path E cap h ht)]
    · cases hin
  | write p v =>
    simp only [xapply] at hin ⊢
    split at hin
    · rename_i i ht
      obtain ⟨s', he, hi, hh⟩ := C95_vector_write E cap h p (elem_path ht) v
      by_cases hthr : E.thr s.cnt = true
      · rw [hthr] at he hh
        exact Or.inr (Or.inr ⟨s', _, he, hh, ⟨_, Nat.le_refl _, hthr⟩, fun _ => ⟨i, _, rfl, hi⟩⟩)
      · rw [if_neg hthr] at he hh
        exact Or.inl ⟨_, s', _, he, rfl, hh⟩
    · rename_i ht
      refine Or.inr (Or.inl ⟨.outOfRange, ?_, rfl⟩)
      simp only [xexec]; rw [Cmd.bind_exn (bad_path E cap h ht)]
    · cases hin
  | copy p q =>
    simp only [xapply] at hin ⊢
    cases ht : p.target xs.length with
    | undefined => simp [ht] at hin
    | outOfRange =>
      simp only [ht] at hin ⊢
      cases hu : q.target xs.length with
      | undefined => simp [hu] at hin
      | outOfRange | elem j =>
        refine Or.inr (Or.inl ⟨.outOfRange, ?_, rfl⟩)
        simp only [xexec]; rw [Cmd.bind_exn (bad_path E cap h ht)]
    | elem i =>
      simp only [ht] at hin ⊢
      cases hu : q.target xs.length with
      | undefined => simp [hu] at hin
      | outOfRange =>
        refine Or.inr (Or.inl ⟨.outOfRange, ?_, rfl⟩)
        simp only [xexec]
        rw [Cmd.bind_ok ((C95_vector_path_target E cap h p).1 i (elem_path ht)), Cmd.bind_exn (bad_path E cap h hu)]
      | elem j =>
        obtain ⟨s', he, hi, hj, hh⟩ := C95_vector_copy E cap h p q (elem_path ht) (elem_path hu)
        by_cases hthr : E.thr s.cnt = true
        · rw [hthr] at he hh
          exact Or.inr (Or.inr ⟨s', _, he, hh, ⟨_, Nat.le_refl _, hthr⟩, fun _ => ⟨i, _, rfl, hi⟩⟩)
        · rw [if_neg hthr] at he hh
          exact Or.inl ⟨_, s', _, he, by simp [hj], hh⟩

-- the premises of the throwing case are met
example : (xexec thrE (.write (.fromEnd 1) 7) { nbuf := 2, slot := fun k => [4, 5][k]?, cnt := 2, b := 0, e := 2 }
    = .exn .elemThrow { nbuf := 2, slot := upd (fun k => [4, 5][k]?) 1 (some (thrE.junk 2 5)), cnt := 3, b := 0, e := 2 }) := rfl
end Vector

/-! ### Deque -/
namespace Deque
open _root_.Verif.Deq hiding Fits
open Props.Deque

theorem slotOf_eq {cap : Nat} {xs : List V} {s : St V} (h : Holds cap xs s) {k : Nat} (hk : k ≤ cap + 1) :
    slotOf cap s k = ring (cap + 1) s.b k := by unfold slotOf; rw [ring_eq_mod h.inb hk]

/-- C95: every path to position `i` designates the same object (the `i`-th slot around the ring from `begin()`), evaluated
without any effect; a checked path outside the sequence throws `OutOfRange` and changes nothing. -/
theorem C95_deque_path_target (E : Env V) (cap : Nat) (hF : Fits E cap) {xs : List V} {s : St V} (h : Holds cap xs s) (p : Path) :
    (∀ i, p.pos xs.length = some i → pathSlot E p s = .ok (slotOf cap s i) s) ∧
    (p.target xs.length = .outOfRange → pathSlot E p s = .exn .outOfRange s) := by
  have hle := h.le
  have hb := h.buf
  have ho := h.inb
  have hsz : Deq.size E s = xs.length := h.size hF
  have he : s.e = ring (cap + 1) s.b xs.length := by rw [h.fin, ring_eq_mod ho (by omega)]
  have h0 : s.b = ring (cap + 1) s.b 0 := (ring_zero ho).symm
  have hemp : 0 < xs.length → Deq.empty s = false := by
    intro hl
    simp only [Deq.empty, beq_eq_false_iff_ne, ne_eq]
    intro hbe
    rw [h0, he] at hbe
    have := (ring_bij ho).2 0 xs.length (by omega) (by omega) hbe
    omega
  have hadd : ∀ i, i ≤ xs.length → itAddU E.M s.nbuf s.b i = ring (cap + 1) s.b i := by
    intro i hi
    have := itAddU_ring (j := 0) (n := i) hF ho (by omega)
    rw [← h0, Nat.zero_add] at this
    rw [hb]; exact this
  have hsub : ∀ i, i ≤ xs.length → itSubU E.M s.nbuf s.e i = ring (cap + 1) s.b (xs.length - i) := by
    intro i hi
    rw [hb, he]; exact itSubU_ring hF ho (by omega) hi
  have hdec : ∀ j, 1 ≤ j → j ≤ xs.length → itDec E.M s.nbuf (ring (cap + 1) s.b j) = ring (cap + 1) s.b (j - 1) := by
    intro j h1 hj
    rw [hb]; exact itDec_ring hF ho (by omega) h1
  constructor
  · intro i hi
    have hil := pos_lt hi
    rw [slotOf_eq h (by omega)]
    cases p <;> simp only [Path.pos] at hi <;> split at hi <;> simp at hi <;> subst hi <;> rename_i hl <;>
      simp only [pathSlot]
    · simp only [Cmd.gets]; rw [hadd _ (by omega)]
    · rw [Cmd.bind_ok (s' := s) (a := xs.length) (by simp [Cmd.gets, hsz]), if_neg (by omega)]
      simp only [Cmd.gets]; rw [hadd _ (by omega)]
    · rw [Cmd.bind_ok (dassert_ok (by simp [hemp (by omega)]))]
      simp only [Cmd.gets]; rw [← h0]
    · rw [Cmd.bind_ok (dassert_ok (by simp [hemp (by omega)]))]
      simp only [Cmd.gets]
      have := hdec xs.length (by omega) (by omega)
      unfold itDec at this
      rw [he, this]
    · simp only [Cmd.gets]; rw [hadd _ (by omega)]
    · simp only [Cmd.gets]; rw [hsub _ (by omega)]
    · simp only [Cmd.gets]; rw [hsub _ (by omega), hdec _ (by omega) (by omega)]
      congr 2; omega
    · simp only [Cmd.gets]; rw [hadd _ (by omega), hdec _ (by omega) (by omega)]
  · intro ht
    cases p <;> simp only [Path.target, Path.pos, Path.checked] at ht <;> split at ht <;> simp at ht
    rename_i i hi
    split at hi
    · cases hi
    · simp only [pathSlot]
      rw [Cmd.bind_ok (s' := s) (a := xs.length) (by simp [Cmd.gets, hsz]), if_pos (by omega)]; rfl

/-- C95: different positions are different objects. -/
theorem C95_deque_paths_distinct (cap : Nat) {xs : List V} {s : St V} (h : Holds cap xs s) {i j : Nat}
    (hi : i < xs.length) (hj : j < xs.length) (he : slotOf cap s i = slotOf cap s j) : i = j := by
  have hle := h.le
  rw [slotOf_eq h (by omega), slotOf_eq h (by omega)] at he
  exact (ring_bij h.inb).2 i j (by omega) (by omega) he

/-- The element assignment in the slot of position `i` of a deque holding `xs`. -/
theorem assign_at (E : Env V) (cap : Nat) {xs : List V} {s : St V} (h : Holds cap xs s) {i : Nat} (hi : i < xs.length)
    (r : Ref V) {v : V} (hr : r.get s = some v) :
    ∃ s', (assignSlot E (slotOf cap s i) r s = if E.thr s.cnt then .exn .elemThrow s' else .ok () s') ∧ s'.b = s.b ∧
      Holds cap (xs.set i (if E.thr s.cnt then E.junk s.cnt xs[i] else v)) s' := by
  have hle := h.le
  have hb := h.buf
  have hlt : slotOf cap s i < cap + 1 := Nat.mod_lt _ (by omega)
  have hsl : s.slot (slotOf cap s i) = some xs[i] := by rw [h.elems i (by omega)]; simp [hi]
  refine ⟨{ s with slot := upd s.slot (slotOf cap s i) (some (if E.thr s.cnt then E.junk s.cnt xs[i] else v)), cnt := s.cnt + 1 }, ?_, rfl, ?_⟩
  · unfold assignSlot
    rw [if_neg (by omega), hsl]
    simp only [hr]
    split <;> simp
  · refine ⟨h.buf, h.inb, by simpa using h.fin, by simpa using hle, fun k hk => ?_⟩
    show upd s.slot (slotOf cap s i) _ (slotOf cap s k) = _
    have := h.elems k hk
    unfold upd
    by_cases hki : k = i
    · subst hki; simp [hi]
    · have hne : slotOf cap s k ≠ slotOf cap s i := by
        intro he
        rw [slotOf_eq h (by omega), slotOf_eq h (by omega)] at he
        exact hki ((ring_bij h.inb).2 k i (by omega) (by omega) he)
      rw [if_neg hne, this, List.getElem?_set_ne (by omega)]

/-- C95: reading through any path yields the list element it designates and changes nothing. -/
theorem C95_deque_read (E : Env V) (cap : Nat) (hF : Fits E cap) {xs : List V} {s : St V} (h : Holds cap xs s) (p : Path) {i : Nat}
    (hp : p.pos xs.length = some i) : ∃ hi : i < xs.length, xexec E (.read p) s = .ok (.val xs[i]) s := by
  have hi := pos_lt hp
  refine ⟨hi, ?_⟩
  have hle := h.le
  have hb := h.buf
  simp only [xexec]
  rw [Cmd.bind_ok ((C95_deque_path_target E cap hF h p).1 i hp)]
  rw [Cmd.bind_ok (s' := s) (a := xs[i])]; rfl
  have hlt : slotOf cap s i < cap + 1 := Nat.mod_lt _ (by omega)
  unfold readSlot
  rw [if_neg (by omega), h.elems i (by omega)]
  simp [hi]

/-- C95: assigning through any path replaces exactly the element it designates (by what the element type's
assignment leaves there, when that throws) — every other element, the size and the storage outside stay. -/
theorem C95_deque_write (E : Env V) (cap : Nat) (hF : Fits E cap) {xs : List V} {s : St V} (h : Holds cap xs s) (p : Path) {i : Nat}
    (hp : p.pos xs.length = some i) (v : V) :
    ∃ s', (xexec E (.write p v) s = if E.thr s.cnt then .exn .elemThrow s' else .ok .unit s') ∧
      ∃ hi : i < xs.length, Holds cap (xs.set i (if E.thr s.cnt then E.junk s.cnt xs[i] else v)) s' := by
  have hi := pos_lt hp
  obtain ⟨s', ha, hbb, hh⟩ := assign_at E cap h hi (.ext v) (v := v) rfl
  refine ⟨s', ?_, hi, hh⟩
  simp only [xexec]
  rw [Cmd.bind_ok ((C95_deque_path_target E cap hF h p).1 i hp)]
  split at ha
  · rw [Cmd.bind_exn ha]; simp [*]
  · rw [Cmd.bind_ok ha]; simp [*]; rfl

/-- C95: assignment from one element of the vector to another (or itself). -/
theorem C95_deque_copy (E : Env V) (cap : Nat) (hF : Fits E cap) {xs : List V} {s : St V} (h : Holds cap xs s) (p q : Path) {i j : Nat}
    (hp : p.pos xs.length = some i) (hq : q.pos xs.length = some j) :
    ∃ s', (xexec E (.copy p q) s = if E.thr s.cnt then .exn .elemThrow s' else .ok .unit s') ∧
      ∃ (hi : i < xs.length) (hj : j < xs.length),
        Holds cap (xs.set i (if E.thr s.cnt then E.junk s.cnt xs[i] else xs[j])) s' := by
  have hi := pos_lt hp
  have hj := pos_lt hq
  have hle := h.le
  have hb := h.buf
  obtain ⟨s', ha, hbb, hh⟩ := assign_at E cap h hi (.elem (slotOf cap s j)) (v := xs[j])
    (by
      have hlt : slotOf cap s j < cap + 1 := Nat.mod_lt _ (by omega)
      simp only [Ref.get]; rw [if_pos (by omega), h.elems j (by omega)]; simp [hj])
  refine ⟨s', ?_, hi, hj, hh⟩
  simp only [xexec]
  rw [Cmd.bind_ok ((C95_deque_path_target E cap hF h p).1 i hp), Cmd.bind_ok ((C95_deque_path_target E cap hF h q).1 j hq)]
  split at ha
  · rw [Cmd.bind_exn ha]; simp [*]
  · rw [Cmd.bind_ok ha]; simp [*]; rfl

/-- A path outside the sequence: only the checked one is in contract. -/
theorem bad_path (E : Env V) (cap : Nat) (hF : Fits E cap) {xs : List V} {s : St V} (h : Holds cap xs s) {p : Path} (hp : p.target xs.length = .outOfRange) :
    pathSlot E p s = .exn .outOfRange s := (C95_deque_path_target E cap hF h p).2 hp

theorem elem_path {n i : Nat} {p : Path} (hp : p.target n = .elem i) : p.pos n = some i := by
  unfold Path.target at hp
  split at hp
  · cases hp; assumption
  · split at hp <;> cases hp

/-- One step from any state. -/
theorem C95_deque_step (E : Env V) (cap : Nat) (hF : Fits E cap) (hnt : ∀ k, E.thr k = false)
    {xs ys : List V} {s : St V} {o : XOp V} {r : Res V} (h : Holds cap xs s) (ho : Good (Callable E) o)
    (hap : xapply cap xs o = some (ys, r)) :
    (∃ ret s', xexec E o s = .ok ret s' ∧ r = .ret ret ∧ Holds cap ys s') ∨
    (∃ e, xexec E o s = .exn e s ∧ r = .threw e ∧ ys = xs) := by
  cases o with
  | call o => exact C10_deque_single_call E cap hF hnt h ho hap
  | read p =>
    simp only [xapply] at hap
    split at hap
    · rename_i i ht
      obtain ⟨hi, he⟩ := C95_deque_read E cap hF h p (elem_path ht)
      simp [hi] at hap
      obtain ⟨rfl, rfl⟩ := hap
      exact Or.inl ⟨_, s, he, rfl, h⟩
    · rename_i ht
      cases hap
      refine Or.inr ⟨.outOfRange, ?_, rfl, rfl⟩
      simp only [xexec]; rw [Cmd.bind_exn (bad_path E cap hF h ht)]
    · cases hap
  | write p v =>
    simp only [xapply] at hap
    split at hap
    · rename_i i ht
      obtain ⟨s', he, hi, hh⟩ := C95_deque_write E cap hF h p (elem_path ht) v
      cases hap
      rw [hnt] at he hh
      exact Or.inl ⟨_, s', he, rfl, hh⟩
    · rename_i ht
      cases hap
      refine Or.inr ⟨.outOfRange, ?_, rfl, rfl⟩
      simp only [xexec]; rw [Cmd.bind_exn (bad_path E cap hF h ht)]
    · cases hap
  | copy p q =>
    simp only [xapply] at hap
    split at hap
    · rename_i i j ht hu
      obtain ⟨s', he, hi, hj, hh⟩ := C95_deque_copy E cap hF h p q (elem_path ht) (elem_path hu)
      simp [hj] at hap
      obtain ⟨rfl, rfl⟩ := hap
      rw [hnt] at he hh
      exact Or.inl ⟨_, s', he, rfl, hh⟩
    · cases hap
    · cases hap
    · cases hap
      refine Or.inr ⟨.outOfRange, ?_, rfl, rfl⟩
      simp only [xexec]
      cases ht : p.target xs.length with
      | undefined => simp_all
      | outOfRange => rw [Cmd.bind_exn (bad_path E cap hF h ht)]
      | elem i =>
        rw [Cmd.bind_ok ((C95_deque_path_target E cap hF h p).1 i (elem_path ht))]
        cases hu : q.target xs.length with
        | undefined => simp_all
        | outOfRange => rw [Cmd.bind_exn (bad_path E cap hF h hu)]
        | elem j => simp_all

/-- C95: for every history of in-contract calls, reads, writes and copies, every result and the final contents are
those of the bounded list. -/
theorem C95_deque_history (E : Env V) (cap : Nat) (hF : Fits E cap) (hnt : ∀ k, E.thr k = false)
    (os : List (XOp V)) (hos : ∀ o ∈ os, Good (Callable E) o) (zs : List V) (rs : List (Res V))
    (hspec : xapplyAll cap [] os = some (zs, rs)) :
    ∃ s', xhistory (xexec E) (Deq.fresh (cap + 1) 0) os = some (s', rs) ∧ Holds cap zs s' := by
  refine xhistory_refines (exec := xexec E) (cap := cap) (Rep := fun xs s => Holds cap xs s) (Good := Good (Callable E))
    ?_ os [] (Deq.fresh (cap + 1) 0) zs rs (C10_deque_fresh cap 0) hos hspec
  intro xs s o ys r hh hg hap
  rcases C95_deque_step E cap hF hnt hh hg hap with h | ⟨e, he, hr, rfl⟩
  · exact Or.inl h
  · exact Or.inr ⟨e, s, he, hr, hh⟩

example : xapplyAll 4 [] ([.call (.pushBack 1), .call (.pushBack 2), .call (.insert 0 3), .write .back 9, .copy (.fromRBegin 2) (.at_ 1),
    .write (.at_ 3) 7, .read (.fromREnd 1), .read (.fromEnd 1)] : List (XOp Nat))
    = some ([1, 1, 9], [.ret .unit, .ret .unit, .ret (.pos 0), .ret .unit, .ret .unit, .threw .outOfRange, .ret (.val 1), .ret (.val 9)]) := by decide
example : (xhistory (xexec exE) (Deq.fresh 5 0) [.call (.pushBack 1), .call (.pushBack 2), .call (.insert 0 3), .write .back 9,
    .copy (.fromRBegin 2) (.at_ 1), .write (.at_ 3) 7, .read (.fromREnd 1), .read (.fromEnd 1)]).map (·.2)
    = some [.ret .unit, .ret .unit, .ret (.pos 0), .ret .unit, .ret .unit, .threw .outOfRange, .ret (.val 1), .ret (.val 9)] := by rfl


/-- C95: whatever the element type throws, an in-contract call, read, write or copy is never undefined and always
answers; it either does what the list does, or reports the element's exception and leaves a valid deque (with the same
size if it was a read, write or copy). -/
theorem C95_deque_safe (E : Env V) (cap : Nat) (hF : Fits E cap) {xs : List V} {s : St V} {o : XOp V} (h : Holds cap xs s)
    (ho : Good (Callable E) o) (hin : (xapply cap xs o).isSome) :
    (∃ ret s' ys, xexec E o s = .ok ret s' ∧ xapply cap xs o = some (ys, .ret ret) ∧ Holds cap ys s') ∨
    (∃ e, xexec E o s = .exn e s ∧ xapply cap xs o = some (xs, .threw e)) ∨
    (∃ s' ys, xexec E o s = .exn .elemThrow s' ∧ Holds cap ys s' ∧ (∃ k, s.cnt ≤ k ∧ E.thr k = true) ∧
      ((∀ c, o ≠ .call c) → ∃ i v, ys = xs.set i v ∧ i < xs.length)) := by
  cases o with
  | call o =>
    have hw := exec_wp hF h.rep ho (by rw [Nat.add_sub_cancel]; exact hin)
    rcases wp_cases hw with ⟨ret, s', he, ys', o', hr, ha, _⟩ | ⟨e, s', he, hx⟩
    · exact Or.inl ⟨ret, s', ys', he, by rw [Nat.add_sub_cancel] at ha; exact ha, (Holds.of hr).1⟩
    · rcases hx with ⟨ha, rfl⟩ | ⟨rfl, _, hk, ys, o', hy, _⟩
      · exact Or.inr (Or.inl ⟨e, he, by rw [Nat.add_sub_cancel] at ha; exact ha⟩)
      · exact Or.inr (Or.inr ⟨s', ys, he, (Holds.of hy).1, hk, fun hc => absurd rfl (hc o)⟩)
  | read p =>
    simp only [xapply] at hin ⊢
    split at hin
    · rename_i i ht
      obtain ⟨hi, he⟩ := C95_deque_read E cap hF h p (elem_path ht)
      exact Or.inl ⟨_, s, xs, he, by simp [hi], h⟩
    · rename_i ht
      refine Or.inr (Or.inl ⟨.outOfRange, ?_, rfl⟩)
      simp only [xexec]; rw [Cmd.bind_exn (bad_path E cap hF h ht)]
    · cases hin
  | write p v =>
    simp only [xapply] at hin ⊢
    split at hin
    · rename_i i ht
      obtain ⟨s', he, hi, hh⟩ := C95_deque_write E cap hF h p (elem_path ht) v
      by_cases hthr : E.thr s.cnt = true
      · rw [hthr] at he hh
        exact Or.inr (Or.inr ⟨s', _, he, hh, ⟨_, Nat.le_refl _, hthr⟩, fun _ => ⟨i, _, rfl, hi⟩⟩)
      · rw [if_neg hthr] at he hh
        exact Or.inl ⟨_, s', _, he, rfl, hh⟩
    · rename_i ht
      refine Or.inr (Or.inl ⟨.outOfRange, ?_, rfl⟩)
      simp only [xexec]; rw [Cmd.bind_exn (bad_path E cap hF h ht)]
    · cases hin
  | copy p q =>
    simp only [xapply] at hin ⊢
    cases ht : p.target xs.length with
    | undefined => simp [ht] at hin
    | outOfRange =>
      simp only [ht] at hin ⊢
      cases hu : q.target xs.length with
      | undefined => simp [hu] at hin
      | outOfRange | elem j =>
        refine Or.inr (Or.inl ⟨.outOfRange, ?_, rfl⟩)
        simp only [xexec]; rw [Cmd.bind_exn (bad_path E cap hF h ht)]
    | elem i =>
      simp only [ht] at hin ⊢
      cases hu : q.target xs.length with
      | undefined => simp [hu] at hin
      | outOfRange =>
        refine Or.inr (Or.inl ⟨.outOfRange, ?_, rfl⟩)
        simp only [xexec]
        rw [Cmd.bind_ok ((C95_deque_path_target E cap hF h p).1 i (elem_path ht)), Cmd.bind_exn (bad_path E cap hF h hu)]
      | elem j =>
        obtain ⟨s', he, hi, hj, hh⟩ := C95_deque_copy E cap hF h p q (elem_path ht) (elem_path hu)
        by_cases hthr : E.thr s.cnt = true
        · rw [hthr] at he hh
          exact Or.inr (Or.inr ⟨s', _, he, hh, ⟨_, Nat.le_refl _, hthr⟩, fun _ => ⟨i, _, rfl, hi⟩⟩)
        · rw [if_neg hthr] at he hh
          exact Or.inl ⟨_, s', _, he, by simp [hj], hh⟩

-- a wrapped deque, a write through a reverse iterator
example : xexec exE (.write (.fromRBegin 0) 7) exW = .ok .unit { exW with slot := upd exW.slot 0 (some 7), cnt := 4 } := rfl

end Deque
end Verif.Props.Refs
