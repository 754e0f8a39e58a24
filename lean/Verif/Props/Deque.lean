import Verif.Proof.DequeApi
import Verif.Proof.History
/-
Properties C10-C20: FixedDeque / PreallocatedDeque.  `cap` is `max_size()`; the buffer has `cap + 1`
slots (`BufSize = MaxSize + 1`, respectively `bufferSize / sizeof(T) = cap + 1`).
`E` is any word size, build mode and element behaviour.
-/
namespace Verif.Props.Deque
open Verif Cmd Spec Deq
variable {V : Type}

/-- Physical slot of the `k`-th position counted from `begin()`. -/
def slotOf (cap : Nat) (s : St V) (k : Nat) : Nat := (s.b + k) % (cap + 1)

/-- The deque object `s` holds exactly the elements `xs`: the `k`-th slot from `begin()` (around the ring)
contains a live object equal to `xs[k]` for `k < xs.length`, and every other slot is raw storage. -/
structure Holds (cap : Nat) (xs : List V) (s : St V) : Prop where
  buf : s.nbuf = cap + 1
  inb : s.b < cap + 1
  fin : s.e = (s.b + xs.length) % (cap + 1)
  le : xs.length ≤ cap
  elems : ∀ k, k ≤ cap → s.slot (slotOf cap s k) = xs[k]?

theorem ring_eq_mod {nb o k : Nat} (ho : o < nb) (hk : k ≤ nb) : ring nb o k = (o + k) % nb := by
  unfold ring
  split
  · rename_i h; rw [Nat.mod_eq_of_lt h]
  · rename_i h
    by_cases h2 : k = nb
    · subst h2; rw [Nat.add_mod_right, Nat.mod_eq_of_lt ho]; omega
    · rw [Nat.mod_eq_sub_mod (by omega), Nat.mod_eq_of_lt (by omega)]

theorem Holds.rep {cap : Nat} {xs : List V} {s : St V} (h : Holds cap xs s) : DSh (cap + 1) s.b 0 xs s.cnt s := by
  have hle := h.le
  refine DSh.of_view0 h.inb (by omega) ⟨h.buf, fun k hk => ?_, rfl, ?_, Nat.le_refl _⟩
  · rw [ring_eq_mod h.inb (by omega)]; exact h.elems k (by omega)
  · rw [ring_eq_mod h.inb (by omega)]; exact h.fin

theorem Holds.of {cap c o : Nat} {xs : List V} {s : St V} (h : DSh (cap + 1) o 0 xs c s) : Holds cap xs s ∧ s.b = o := by
  have hl := h.hl; have ho := h.ho
  have hv := h.view0
  have hb : s.b = o := hv.hb
  refine ⟨⟨hv.nbuf, by omega, ?_, by omega, fun k hk => ?_⟩, hb⟩
  · rw [hb, hv.he, ring_eq_mod ho (by omega)]
  · unfold slotOf; rw [hb, ← ring_eq_mod ho (by omega)]; exact hv.view k (by omega)

theorem Holds.size {cap : Nat} {xs : List V} {s : St V} {E : Env V} (hF : Fits E.M (cap + 1)) (h : Holds cap xs s) :
    Deq.size E s = xs.length := h.rep.size hF

/-- `size_t` can count twice the buffer (a `ptrdiff_t` can address it). -/
abbrev Fits (E : Env V) (cap : Nat) : Prop := Deq.Fits E.M (cap + 1)

/-- A call with arguments a caller can express. -/
def Callable (E : Env V) (o : Op V) : Prop := o.representable E.M

/-! ### C10 -/

/-- One call from an arbitrary state, whatever its rotation. -/
theorem C10_deque_single_call (E : Env V) (cap : Nat) (hF : Fits E cap) (hnt : ∀ k, E.thr k = false)
    {xs ys : List V} {s : St V} {o : Op V} {r : Res V} (h : Holds cap xs s) (ho : Callable E o)
    (hap : apply cap xs o = some (ys, r)) :
    (∃ ret s', exec E o s = .ok ret s' ∧ r = .ret ret ∧ Holds cap ys s') ∨
    (∃ e, exec E o s = .exn e s ∧ r = .threw e ∧ ys = xs) := by
  have hw := exec_wp hF h.rep ho (by rw [Nat.add_sub_cancel, hap]; rfl)
  rcases wp_cases hw with ⟨ret, s', he, ys', o', hr, ha, _⟩ | ⟨e, s', he, hx⟩
  · rw [Nat.add_sub_cancel, hap] at ha; cases ha
    exact Or.inl ⟨ret, s', he, rfl, (Holds.of hr).1⟩
  · rcases hx with ⟨ha, rfl⟩ | ⟨_, _, ⟨k, _, hk⟩, _⟩
    · rw [Nat.add_sub_cancel, hap] at ha; cases ha
      exact Or.inr ⟨e, he, rfl, rfl⟩
    · rw [hnt k] at hk; cases hk

/-- C10: for every history of in-contract calls, starting from any deque (any rotation and contents, in
particular a fresh one), every result and the final contents are those of the bounded list. -/
theorem C10_deque_refines_bounded_list (E : Env V) (cap : Nat) (hF : Fits E cap)
    (hnt : ∀ k, E.thr k = false) (os : List (Op V)) (hos : ∀ o ∈ os, Callable E o)
    (xs zs : List V) (rs : List (Res V)) (s : St V) (h : Holds cap xs s) (hspec : applyAll cap xs os = some (zs, rs)) :
    ∃ s', history (exec E) s os = some (s', rs) ∧ Holds cap zs s' := by
  refine history_refines (exec := exec E) (cap := cap) (Rep := fun xs s => Holds cap xs s) (Good := Callable E)
    ?_ os xs s zs rs h hos hspec
  intro xs s o ys r hh hg hap
  rcases C10_deque_single_call E cap hF hnt hh hg hap with h1 | ⟨e, he, hr, rfl⟩
  · exact Or.inl h1
  · exact Or.inr ⟨e, s, he, hr, hh⟩

/-- A freshly constructed deque is empty. -/
theorem C10_deque_fresh (cap c : Nat) : Holds cap ([] : List V) (Deq.fresh (cap + 1) c) :=
  (Holds.of (fresh_rep (cap + 1) c (by omega))).1

/-- Environment used in the examples: 32-bit `size_t`, debug build, nothing throws. -/
def exE : Env Nat := { M := 2^32, dbg := true, thr := fun _ => false, junk := fun _ v => v, dflt := 0 }
example : Fits exE 4 := by unfold Fits Deq.Fits exE; decide
def exOps : List (Op Nat) :=
  [.pushFront 7, .insertN 0 2 5, .insertRange 1 [8, 9], .insertRange 1 [8], .popFront, .eraseRange 0 1, .at_ 9, .insert 2 4,
   .pushFront 1, .pushBack 2, .insertInt 0 (-1) 3, .resize 2 0, .back]
example : applyAll 4 [] exOps = some ([1, 5], [.ret .unit, .ret .unit, .threw .badAlloc, .ret .unit, .ret .unit, .ret (.pos 0),
    .threw .outOfRange, .ret (.pos 2), .ret .unit, .threw .badAlloc, .threw .badAlloc, .ret .unit, .ret (.val 5)]) := by decide
example : ∀ o ∈ exOps, Callable exE o := by
  intro o ho; simp [exOps] at ho
  rcases ho with rfl | rfl | rfl | rfl | rfl | rfl | rfl | rfl | rfl | rfl | rfl | rfl | rfl <;> simp [Callable, Op.representable, exE]

/-- A wrapped deque `[10, 20, 30]` of capacity 7: `begin()` is slot 6, the elements are in slots 6, 7, 0. -/
def exW : St Nat := { nbuf := 8, slot := fun k => if k = 6 then some 10 else if k = 7 then some 20 else if k = 0 then some 30 else none, cnt := 3, b := 6, e := 1 }
theorem exW_holds : Holds 7 [10, 20, 30] exW := by
  refine ⟨rfl, by decide, rfl, by decide, fun k hk => ?_⟩
  match k, hk with
  | 0, _ => rfl
  | 1, _ => rfl
  | 2, _ => rfl
  | 3, _ => rfl
  | 4, _ => rfl
  | 5, _ => rfl
  | 6, _ => rfl
  | 7, _ => rfl

/-! ### C11 -/

/-- C11: `BadAlloc` is thrown exactly when the list specification says the result would not fit, and
then the whole object is untouched.  (`Props.Vector.C02_vector_overflow_condition` and the theorem
below spell the condition out.) -/
theorem C11_deque_overflow_throws_and_changes_nothing (E : Env V) (cap : Nat) (hF : Fits E cap)
    {xs : List V} {s : St V} {o : Op V} (h : Holds cap xs s) (ho : Callable E o) (hin : (apply cap xs o).isSome) :
    ((∃ s', exec E o s = .exn .badAlloc s') ↔ apply cap xs o = some (xs, .threw .badAlloc)) ∧
    (∀ s', exec E o s = .exn .badAlloc s' → s' = s) := by
  have hw := exec_wp hF h.rep ho (by rw [Nat.add_sub_cancel]; exact hin)
  unfold OkPost ExPost at hw
  rw [Nat.add_sub_cancel] at hw
  rcases wp_cases hw with ⟨ret, s', he, ys', o', hr, ha, _⟩ | ⟨e, s', he, hx⟩
  · refine ⟨⟨fun ⟨s'', h2⟩ => by (rw [he] at h2; cases h2), fun h2 => ?_⟩, fun s'' h2 => by (rw [he] at h2; cases h2)⟩
    rw [ha] at h2; cases h2
  · rcases hx with ⟨ha, rfl⟩ | ⟨rfl, ⟨zs, r, ha⟩, _⟩
    · refine ⟨⟨fun ⟨s'', h2⟩ => ?_, fun h2 => ?_⟩, fun s'' h2 => ?_⟩
      · rw [he] at h2; cases h2; exact ha
      · rw [ha] at h2; cases h2; exact ⟨_, he⟩
      · rw [he] at h2; cases h2; rfl
    · refine ⟨⟨fun ⟨s'', h2⟩ => by (rw [he] at h2; cases h2), fun h2 => ?_⟩, fun s'' h2 => by (rw [he] at h2; cases h2)⟩
      rw [ha] at h2; cases h2

/-- The condition for the one call vectors do not have. -/
theorem C11_deque_push_front_condition (cap : Nat) (xs : List V) (v : V) :
    apply cap xs (.pushFront v) = some (xs, .threw .badAlloc) ↔ cap < xs.length + 1 := by
  simp only [apply, grow]
  split
  · rename_i h; simp at h; simp; omega
  · rename_i h; simp at h; simp; omega

example : ∃ s', exec exE (.insertN 1 5 9) exW = .exn .badAlloc s' := ⟨_, rfl⟩
example : apply 7 [10, 20, 30] (.insertN 1 5 9) = some ([10, 20, 30], .threw .badAlloc) := by decide

/-! ### C12 -/

/-- States a caller can produce, including by calls cut short by exceptions. -/
inductive Reach (E : Env V) (cap : Nat) : St V → Prop
  | init (c : Nat) : Reach E cap (Deq.fresh (cap + 1) c)
  | ret {s s' : St V} {xs : List V} {o : Op V} {r : Ret V} : Reach E cap s → Holds cap xs s → Callable E o →
      (apply cap xs o).isSome → exec E o s = .ok r s' → Reach E cap s'
  | threw {s s' : St V} {xs : List V} {o : Op V} {e : Exn} : Reach E cap s → Holds cap xs s → Callable E o →
      (apply cap xs o).isSome → exec E o s = .exn e s' → Reach E cap s'

/-- C12: in every reachable state exactly the `size()` slots from `begin()` on are live, no in-contract
call is undefined or diverges, and the destructor leaves no live object. -/
theorem C12_deque_lifetimes_exact (E : Env V) (cap : Nat) (hF : Fits E cap) {s : St V} (hr : Reach E cap s) :
    (∃ xs, Holds cap xs s) ∧
    (∀ k, k ≤ cap → ((s.slot (slotOf cap s k)).isSome = true ↔ k < Deq.size E s)) ∧
    (∀ xs o, Holds cap xs s → Callable E o → (apply cap xs o).isSome →
      (∀ f, exec E o s ≠ .ub f) ∧ exec E o s ≠ .diverge) ∧
    (∃ s', Deq.dtor E s = .ok () s' ∧ ∀ i, i ≤ cap → s'.slot i = none) := by
  have hrep : ∃ xs, Holds cap xs s := by
    induction hr with
    | init c => exact ⟨[], C10_deque_fresh cap c⟩
    | ret hreach hh hc hin he _ =>
      have hw := exec_wp hF hh.rep hc (by rw [Nat.add_sub_cancel]; exact hin)
      unfold wp at hw; rw [he] at hw
      obtain ⟨ys, o', hy, _⟩ := hw
      exact ⟨ys, (Holds.of hy).1⟩
    | threw hreach hh hc hin he _ =>
      have hw := exec_wp hF hh.rep hc (by rw [Nat.add_sub_cancel]; exact hin)
      unfold wp at hw; rw [he] at hw
      rcases hw with ⟨_, rfl⟩ | ⟨_, _, _, ys, o', hy, _⟩
      · exact ⟨_, hh⟩
      · exact ⟨ys, (Holds.of hy).1⟩
  refine ⟨hrep, ?_, ?_, ?_⟩
  · obtain ⟨xs, hh⟩ := hrep
    intro k hk
    rw [hh.elems k hk, hh.size hF]; simp
  · intro xs o hh hc hin
    have hw := exec_wp hF hh.rep hc (by rw [Nat.add_sub_cancel]; exact hin)
    unfold wp at hw
    constructor
    · intro f hf; rw [hf] at hw; exact hw
    · intro hf; rw [hf] at hw; exact hw
  · obtain ⟨xs, hh⟩ := hrep
    have hb := hh.inb
    have hw := dtor_wp (X := fun _ _ => False) (Q := fun _ s' => ∀ i, i ≤ cap → s'.slot i = none) hF hh.rep
      (fun s' hs' i hi => by
        -- every slot is some position counted from `begin()`
        have : ∃ k, k < cap + 1 ∧ ring (cap + 1) s.b k = i := by
          by_cases hle : s.b ≤ i
          · exact ⟨i - s.b, by omega, by unfold ring; rw [if_pos (by omega)]; omega⟩
          · exact ⟨i + (cap + 1) - s.b, by omega, by unfold ring; rw [if_neg (by omega)]; omega⟩
        obtain ⟨k, hk, rfl⟩ := this
        exact hs' k hk)
    rcases wp_cases hw with ⟨_, s', he, hq⟩ | ⟨_, _, _, hf⟩
    · exact ⟨s', he, hq⟩
    · exact hf.elim

-- a reachable state left by a throwing insertion: the 4th element operation throws
def thrE : Env Nat := { exE with thr := fun k => k == 3 }
example : ∃ s s', Reach thrE 5 s ∧ exec thrE (.insertN 1 2 9) s = .exn .elemThrow s' ∧ Deq.size thrE s' = 3 ∧ s'.b = 3 :=
  ⟨_, _, .ret (o := .pushFront 2) (xs := [1]) (.ret (o := .pushFront 1) (xs := []) (.init 0) (C10_deque_fresh 5 0)
      trivial rfl rfl)
      ⟨rfl, by decide, rfl, by decide, fun k hk => by
        match k, hk with
        | 0, _ => rfl
        | 1, _ => rfl
        | 2, _ => rfl
        | 3, _ => rfl
        | 4, _ => rfl
        | 5, _ => rfl⟩ trivial rfl rfl, rfl, rfl, rfl⟩

/-! ### C13 -/

/-- C13: `at(i)` returns element `i` or throws `OutOfRange`; in both cases nothing changes. -/
theorem C13_deque_at_exact (E : Env V) (cap : Nat) (hF : Fits E cap) {xs : List V} {s : St V} (h : Holds cap xs s) (i : Nat) :
    (∀ hi : i < xs.length, Deq.at_ E i s = .ok xs[i] s) ∧ (xs.length ≤ i → Deq.at_ E i s = .exn .outOfRange s) := by
  have hw : wp (Deq.at_ E i) (fun v s' => s' = s ∧ xs[i]? = some v) (fun e s' => e = .outOfRange ∧ s' = s ∧ xs.length ≤ i) s :=
    at_wp hF h.rep (fun hi => ⟨rfl, by simp [hi]⟩) (fun hi => ⟨rfl, rfl, hi⟩)
  rcases wp_cases hw with ⟨v, s', he, rfl, hv⟩ | ⟨e, s', he, rfl, rfl, hi⟩
  · obtain ⟨hi, rfl⟩ := List.getElem?_eq_some_iff.mp hv
    exact ⟨fun _ => he, fun h2 => by omega⟩
  · exact ⟨fun h2 => by omega, fun _ => he⟩

example : Deq.at_ exE 2 exW = .ok 30 exW ∧ Deq.at_ exE 3 exW = .exn .outOfRange exW := ⟨rfl, rfl⟩

/-! ### C14 -/

/-- C14: whichever element operation throws, the exception is that one, it escapes, and a valid deque
remains; `push_back` / `push_front` leave contents and position unchanged; insert and erase leave the
elements of the side they do not move (`keptIdx`) at their addresses with their values. -/
theorem C14_deque_basic_exception_safety (E : Env V) (cap : Nat) (hF : Fits E cap)
    {xs : List V} {s s' : St V} {o : Op V} {e : Exn} (h : Holds cap xs s) (ho : Callable E o)
    (hin : (apply cap xs o).isSome) (he : exec E o s = .exn e s') :
    (apply cap xs o = some (xs, .threw e) ∧ s' = s) ∨
    (e = .elemThrow ∧ (∃ k, s.cnt ≤ k ∧ E.thr k = true) ∧
      ∃ ys, Holds cap ys s' ∧ (∀ v, o = .pushBack v ∨ o = .pushFront v → ys = xs ∧ s'.b = s.b) ∧
      (∀ k, (keptIdx xs o).1 ≤ k → k < (keptIdx xs o).2 → s'.slot (slotOf cap s k) = s.slot (slotOf cap s k))) := by
  have hw := exec_wp hF h.rep ho (by rw [Nat.add_sub_cancel]; exact hin)
  unfold wp at hw; rw [he] at hw
  unfold ExPost at hw
  rw [Nat.add_sub_cancel] at hw
  rcases hw with h1 | ⟨h1, _, h2, ys, o', h3, h4, h5⟩
  · exact Or.inl h1
  · refine Or.inr ⟨h1, h2, ys, (Holds.of h3).1, fun v hv => ⟨(h5 v hv).1, ?_⟩, fun k hk1 hk2 => ?_⟩
    · rw [(Holds.of h3).2, (h5 v hv).2]
    · have hle := h.le
      have hk : k < xs.length := by
        have : (keptIdx xs o).2 ≤ xs.length := by
          cases o <;> simp only [keptIdx] <;> (try split) <;> simp only [apply] at hin <;> (try split at hin) <;>
            simp_all <;> omega
        omega
      have hs := h4 k hk1 hk2
      rw [ring_eq_mod h.inb (by omega)] at hs
      unfold slotOf
      rw [hs]
      exact (h.elems k (by omega)).symm

/-- C14, propagation: nothing is swallowed and nothing is done after the throw. -/
theorem C14_deque_exceptions_propagate (E : Env V) (o : Op V) (s : St V) :
    (∀ r s', exec E o s = .ok r s' → ∀ k, s.cnt ≤ k → k < s'.cnt → E.thr k = false) ∧
    (∀ s', exec E o s = .exn .elemThrow s' → s.cnt < s'.cnt ∧ E.thr (s'.cnt - 1) = true ∧
      ∀ k, s.cnt ≤ k → k + 1 < s'.cnt → E.thr k = false) := by
  have h := nc_exec (E := E) o s
  constructor
  · intro r s' he; rw [he] at h; exact h.2
  · intro s' he; rw [he] at h; exact h.2.1 rfl

-- a throwing insert in the wrapped deque: the element on the end side stays in slot 0
example : ∃ s', exec { exE with thr := fun k => k == 4 } (.insertN 1 2 9) exW = .exn .elemThrow s' ∧ s'.slot 0 = some 30 ∧
    keptIdx [10, 20, 30] (.insertN 1 2 9) = (1, 3) := ⟨_, rfl, rfl, rfl⟩

/-! ### C15

Full statement: push_back, push_front, resize, insert(pos,v), insert(pos,n,v) and assign(n,v) called with a
reference to an own element behave as with a copy of it.  Proved for push_back, push_front, resize, and
insert when the element is on the side that is not moved; false otherwise (witnesses below).  For insert the
exact value inserted is proved in every case, with the condition under which it is the right one; assign with
an own element is undefined behaviour in every case. -/

theorem get_elem {cap : Nat} {xs : List V} {s : St V} (h : Holds cap xs s) (i : Nat) (hi : i < xs.length) :
    (Ref.elem (slotOf cap s i) : Ref V).get s = some xs[i] := by
  have hle := h.le
  have hlt : slotOf cap s i < s.nbuf := by rw [h.buf]; exact Nat.mod_lt _ (by omega)
  simp only [Ref.get]
  rw [if_pos hlt, h.elems i (by omega)]; simp [hi]

theorem construct_alias (E : Env V) {cap : Nat} {xs : List V} {s : St V} (h : Holds cap xs s) (i : Nat) (hi : i < xs.length) (j : Nat) :
    construct E j (.elem (slotOf cap s i)) s = construct E j (.ext xs[i]) s := by
  unfold construct; rw [get_elem h i hi]; rfl

/-- C15 for `push_back(d[i])` and `push_front(d[i])`: same outcome as with a copy made first. -/
theorem C15_deque_push_alias_partial (E : Env V) (cap : Nat) {xs : List V} {s : St V} (h : Holds cap xs s)
    (i : Nat) (hi : i < xs.length) :
    Deq.pushBack E (.elem (slotOf cap s i)) s = Deq.pushBack E (.ext xs[i]) s ∧
    Deq.pushFront E (.elem (slotOf cap s i)) s = Deq.pushFront E (.ext xs[i]) s := by
  constructor
  · unfold Deq.pushBack
    rw [Cmd.bind_ok (rfl : gets (Deq.full E) s = .ok (Deq.full E s) s), Cmd.bind_ok (rfl : gets (Deq.full E) s = .ok (Deq.full E s) s)]
    split
    · rfl
    · unfold constructEnd
      rw [Cmd.bind_ok (rfl : gets (fun s : St V => s.e) s = .ok s.e s), Cmd.bind_ok (rfl : gets (fun s : St V => s.e) s = .ok s.e s)]
      exact Cmd.bind_left (construct_alias E h i hi _)
  · unfold Deq.pushFront
    rw [Cmd.bind_ok (rfl : gets (Deq.full E) s = .ok (Deq.full E s) s), Cmd.bind_ok (rfl : gets (Deq.full E) s = .ok (Deq.full E s) s)]
    split
    · rfl
    · unfold constructBegin
      rw [Cmd.bind_ok (rfl : gets (fun s : St V => itSub E.M s.nbuf s.b 1) s = .ok _ s),
        Cmd.bind_ok (rfl : gets (fun s : St V => itSub E.M s.nbuf s.b 1) s = .ok _ s)]
      exact Cmd.bind_left (construct_alias E h i hi _)

/-- C15 for `resize(n, d[i])`. -/
theorem C15_deque_resize_alias_partial (E : Env V) (cap : Nat) (hF : Fits E cap) (hnt : ∀ k, E.thr k = false)
    {xs : List V} {s : St V} (h : Holds cap xs s) (i : Nat) (hi : i < xs.length) (n : Nat) (hn : n < E.M) :
    (n ≤ cap → ∃ s', Deq.resize E n (.elem (slotOf cap s i)) s = .ok () s' ∧ Holds cap (xs.take n ++ List.replicate (n - xs.length) xs[i]) s') ∧
    (cap < n → Deq.resize E n (.elem (slotOf cap s i)) s = .exn .badAlloc s) := by
  have hle := h.le
  have hst : StableRef (cap + 1) s.b xs.length xs (.elem (slotOf cap s i)) xs[i] := by
    unfold slotOf
    rw [← ring_eq_mod h.inb (by omega)]
    exact stable_elem hi (by omega) (by simp [hi])
  have hw := Deq.resize_wp (X := fun e s' => e = .badAlloc ∧ s' = s ∧ cap < n)
    (Q := fun _ s' => n ≤ cap ∧ Holds cap (xs.take n ++ List.replicate (n - xs.length) xs[i]) s') (v := xs[i]) hF hn h.rep hst
    (fun hn s' h' => ⟨by omega, (Holds.of h').1⟩) (fun hb => ⟨rfl, rfl, by omega⟩) (fun _ ⟨k, _, hk⟩ => by rw [hnt k] at hk; cases hk)
  rcases wp_cases hw with ⟨_, s', he, hn, hh⟩ | ⟨e, s', he, rfl, rfl, hb⟩
  · exact ⟨fun _ => ⟨s', he, hh⟩, fun hb => by omega⟩
  · exact ⟨fun h2 => by omega, fun _ => he⟩

/-- C15 for `insert(begin()+p, n, d[i])` when element `i` is on the side that is not moved. -/
theorem C15_deque_insert_alias_other_side_partial (E : Env V) (cap : Nat) (hF : Fits E cap) (hnt : ∀ k, E.thr k = false)
    {xs : List V} {s : St V} (h : Holds cap xs s) (i p n : Nat) (hp : p ≤ xs.length) (hi : i < xs.length)
    (hside : (insEnd xs p ∧ i < p) ∨ (¬ insEnd xs p ∧ p ≤ i)) (hfit : xs.length + n ≤ cap) :
    ∃ s', Deq.insertN E (slotOf cap s p) n (.elem (slotOf cap s i)) s = .ok () s' ∧
      Holds cap (ins xs p (List.replicate n xs[i])) s' := by
  have hle := h.le
  have hin := h.inb
  have hsp : slotOf cap s p = ring (cap + 1) s.b p := by unfold slotOf; rw [← ring_eq_mod hin (by omega)]
  have hsi : slotOf cap s i = ring (cap + 1) s.b i := by unfold slotOf; rw [← ring_eq_mod hin (by omega)]
  have hw : wp (Deq.insertN E (slotOf cap s p) n (.elem (slotOf cap s i)))
      (fun _ s' => Holds cap (ins xs p (List.replicate n xs[i])) s') (fun _ _ => False) s := by
    rw [hsp, hsi]
    simp only [Deq.insertN, wp_bind, wp_pure, wp_dassert, posOk_true hF h.rep hp]
    refine ⟨by simp, fun _ => ?_⟩
    rcases hside with ⟨hs, hip⟩ | ⟨hs, hip⟩
    · exact insertN_end_wp (v := xs[i]) hF h.rep hp hs (by omega) (stable_elem hip (by omega) (by simp [hi])).ins
        (fun s' h' => (Holds.of h').1) (fun ex s' ⟨_, ⟨k, _, hk⟩, _⟩ => by rw [hnt k] at hk; cases hk)
    · obtain ⟨oo, hoo, hsh⟩ := h.rep.shift (A' := n + 1) (by omega)
      have hpos : ring (cap + 1) s.b p = ring (cap + 1) oo (n + 1 + p) := by rw [← hoo, ring_ring hsh.ho (by omega)]
      rw [hpos]
      refine insertN_begin_wp (v := xs[i]) hF hsh hp (by unfold insEnd at hs; omega) (fun L hL => ?_) (fun s' h' => (Holds.of h'.canon).1)
        (fun ex s' ⟨_, ⟨k, _, hk⟩, _⟩ => by rw [hnt k] at hk; cases hk)
      refine ⟨n + 1 + i, by omega, by rw [← hoo, ring_ring hsh.ho (by omega)], ?_⟩
      rw [hL.1 (n + 1 + i) (by omega) (by omega)]
      unfold LV
      have : n + 1 + i - (n + 1) = i := by omega
      rw [if_neg (by omega), this]; simp [hi]
  rcases wp_cases hw with ⟨_, s', he, hh⟩ | ⟨_, _, _, hf⟩
  · exact ⟨s', he, hh⟩
  · exact hf.elim

/-- A wrapped deque `[10, 20, 30, 40, 50]` of capacity 7 with `begin()` in slot 6. -/
def exW5 : St Nat := { nbuf := 8, slot := fun k => if k = 6 then some 10 else if k = 7 then some 20 else if k = 0 then some 30 else if k = 1 then some 40 else if k = 2 then some 50 else none, cnt := 5, b := 6, e := 3 }
theorem exW5_holds : Holds 7 [10, 20, 30, 40, 50] exW5 := by
  refine ⟨rfl, by decide, rfl, by decide, fun k hk => ?_⟩
  match k, hk with
  | 0, _ => rfl
  | 1, _ => rfl
  | 2, _ => rfl
  | 3, _ => rfl
  | 4, _ => rfl
  | 5, _ => rfl
  | 6, _ => rfl
  | 7, _ => rfl

/-- C15 for `insert(begin()+p, n, d[i])`, every position, element and `n`: exactly which value is inserted. -/
theorem C15_deque_insert_alias_exact_partial (E : Env V) (cap : Nat) (hF : Fits E cap) (hnt : ∀ k, E.thr k = false)
    {xs : List V} {s : St V} (h : Holds cap xs s) (i p n : Nat) (hp : p ≤ xs.length) (hi : i < xs.length) (hfit : xs.length + n ≤ cap) :
    ∃ s', Deq.insertN E (slotOf cap s p) n (.elem (slotOf cap s i)) s = .ok () s' ∧
      (insEnd xs p → Holds cap (ins xs p (List.replicate n (if n < xs.length - p ∧ p + n ≤ i then xs[i - n] else xs[i]))) s') ∧
      (¬ insEnd xs p → Holds cap (ins xs p (List.replicate n (if h : n < p ∧ i + n < p then xs[i + n] else xs[i]))) s') := by
  have hle := h.le
  have hin := h.inb
  have hsp : slotOf cap s p = ring (cap + 1) s.b p := by unfold slotOf; rw [← ring_eq_mod hin (by omega)]
  have hsi : slotOf cap s i = ring (cap + 1) s.b i := by unfold slotOf; rw [← ring_eq_mod hin (by omega)]
  have hw : wp (Deq.insertN E (slotOf cap s p) n (.elem (slotOf cap s i)))
      (fun _ s' =>
      (insEnd xs p → Holds cap (ins xs p (List.replicate n (if n < xs.length - p ∧ p + n ≤ i then xs[i - n] else xs[i]))) s') ∧
      (¬ insEnd xs p → Holds cap (ins xs p (List.replicate n (if h : n < p ∧ i + n < p then xs[i + n] else xs[i]))) s')) (fun _ _ => False) s := by
    rw [hsp, hsi]
    simp only [Deq.insertN, wp_bind, wp_pure, wp_dassert, posOk_true hF h.rep hp]
    refine ⟨by simp, fun _ => ?_⟩
    by_cases hs : insEnd xs p
    · exact insertN_end_wp hF h.rep hp hs (by omega) (insRef_elem hi (by omega))
        (fun s' h' => ⟨fun _ => (Holds.of h').1, fun hh => absurd hs hh⟩) (fun ex s' ⟨_, ⟨k, _, hk⟩, _⟩ => by rw [hnt k] at hk; cases hk)
    · obtain ⟨oo, hoo, hsh⟩ := h.rep.shift (A' := n + 1) (by omega)
      have hpos : ring (cap + 1) s.b p = ring (cap + 1) oo (n + 1 + p) := by rw [← hoo, ring_ring hsh.ho (by omega)]
      have hposi : ring (cap + 1) s.b i = ring (cap + 1) oo (n + 1 + i) := by rw [← hoo, ring_ring hsh.ho (by omega)]
      rw [hpos, hposi]
      exact insertN_begin_wp hF hsh hp (by unfold insEnd at hs; omega) (insRefB_elem hi hp (by omega))
        (fun s' h' => ⟨fun hh => absurd hh hs, fun _ => (Holds.of h'.canon).1⟩)
        (fun ex s' ⟨_, ⟨k, _, hk⟩, _⟩ => by rw [hnt k] at hk; cases hk)
  rcases wp_cases hw with ⟨_, s', he, hh⟩ | ⟨_, _, _, hf⟩
  · exact ⟨s', he, hh⟩
  · exact hf.elim

theorem Holds.unique {cap : Nat} {xs ys : List V} {s : St V} (h : Holds cap xs s) (h' : Holds cap ys s) : xs = ys := by
  apply List.ext_getElem?
  intro k
  have := h.le; have := h'.le
  by_cases hk : k < cap + 1
  · rw [← h.elems k (by omega), h'.elems k (by omega)]
  · rw [List.getElem?_eq_none (by omega), List.getElem?_eq_none (by omega)]

/-- C15, when it holds: an insert that is given the own element `i` inserts copies of it if and only if `n = 0`, or the element is not on
the side that is moved, or is not moved away before it is read, or the element moved to its place is equal. -/
theorem C15_deque_insert_alias_iff (E : Env V) (cap : Nat) (hF : Fits E cap) (hnt : ∀ k, E.thr k = false)
    {xs : List V} {s : St V} (h : Holds cap xs s) (i p n : Nat) (hp : p ≤ xs.length) (hi : i < xs.length) (hfit : xs.length + n ≤ cap) :
    (∃ s', Deq.insertN E (slotOf cap s p) n (.elem (slotOf cap s i)) s = .ok () s' ∧ Holds cap (ins xs p (List.replicate n xs[i])) s') ↔
      n = 0 ∨ (insEnd xs p ∧ (i < p + n ∨ xs.length ≤ p + n ∨ xs[i - n] = xs[i])) ∨
      (¬ insEnd xs p ∧ (p ≤ i + n ∨ xs[i + n]? = some xs[i])) := by
  have hle := h.le
  obtain ⟨s', he, h1, h2⟩ := C15_deque_insert_alias_exact_partial E cap hF hnt h i p n hp hi hfit
  constructor
  · rintro ⟨s'', he', hh'⟩
    rw [he] at he'
    simp only [Out.ok.injEq, true_and] at he'
    subst he'
    by_cases hs : insEnd xs p
    · have heq := hh'.unique (h1 hs)
      rw [Vec.ins_inj hp] at heq
      rcases heq with e | e
      · exact Or.inl e
      · refine Or.inr (Or.inl ⟨hs, ?_⟩)
        split at e
        · exact Or.inr (Or.inr e.symm)
        · omega
    · have heq := hh'.unique (h2 hs)
      rw [Vec.ins_inj hp] at heq
      rcases heq with e | e
      · exact Or.inl e
      · refine Or.inr (Or.inr ⟨hs, ?_⟩)
        split at e
        · next hc => right; rw [e]; simp
        · omega
  · intro hc
    refine ⟨s', he, ?_⟩
    by_cases hs : insEnd xs p
    · have hh := h1 hs
      split at hh
      · next hm =>
        rcases hc with rfl | ⟨_, hc⟩ | ⟨hc, _⟩
        · simpa using hh
        · rcases hc with hc | hc | hc
          · omega
          · omega
          · rwa [hc] at hh
        · exact absurd hs hc
      · exact hh
    · have hh := h2 hs
      split at hh
      · next hm =>
        rcases hc with rfl | ⟨hc, _⟩ | ⟨_, hc⟩
        · simpa using hh
        · exact absurd hc hs
        · rcases hc with hc | hc
          · omega
          · have : i + n < xs.length := by omega
            rw [List.getElem?_eq_getElem this] at hc
            rwa [Option.some.inj hc] at hh
      · exact hh

/-- C15 for assign: with a reference to an own element it is never right, whatever the element and the count: a destroyed element is read. -/
theorem C15_deque_assign_alias_ub (E : Env V) (cap : Nat) (hF : Fits E cap) {xs : List V} {s : St V} (h : Holds cap xs s)
    (i n : Nat) (hi : i < xs.length) (h0 : 0 < n) (hn : n ≤ cap) : Deq.assignN E n (.elem (slotOf cap s i)) s = .ub .deadRead := by
  have hle := h.le
  have hF' := hF
  unfold Fits Deq.Fits at hF'
  have hw := clear_wp (X := fun _ _ => False) (Q := fun _ s' => DSh (cap+1) s.b 0 [] s.cnt s') hF h.rep (fun s' h' _ => h')
  rcases wp_cases hw with ⟨_, s1, he, h1⟩ | ⟨_, _, _, hf⟩
  case inr => exact hf.elim
  unfold Deq.assignN
  have hmx : Deq.maxSize E s = cap := h.rep.maxSize
  rw [Cmd.bind_ok (rfl : gets (Deq.maxSize E) s = .ok (Deq.maxSize E s) s), hmx, if_neg (by omega), Cmd.bind_ok he]
  have hsz : Deq.size E s1 = 0 := h1.size hF
  have hmx1 : Deq.maxSize E s1 = cap := h1.maxSize
  unfold Deq.resize
  rw [Cmd.bind_ok (rfl : gets (Deq.size E) s1 = .ok (Deq.size E s1) s1), hsz, if_neg (by omega),
    Cmd.bind_ok (rfl : gets (Deq.maxSize E) s1 = .ok (Deq.maxSize E s1) s1), hmx1, if_neg (by omega),
    Cmd.bind_ok (rfl : gets (Deq.size E) s1 = .ok (Deq.size E s1) s1), hsz]
  refine forN_ub (by unfold usub; rw [if_pos (by omega)]; omega) (by unfold Env.fuel; omega) ?_
  unfold Deq.pushBack
  rw [Cmd.bind_ok (rfl : gets (Deq.full E) s1 = .ok (Deq.full E s1) s1)]
  have hfull : Deq.full E s1 = false := by simp [Deq.full, hsz, hmx1]; omega
  rw [hfull]
  simp only [Bool.false_eq_true, if_false]
  unfold Deq.constructEnd
  rw [Cmd.bind_ok (rfl : gets (fun s : St V => s.e) s1 = .ok s1.e s1)]
  apply Cmd.bind_ub
  have hh1 := (Holds.of h1).1
  have hb : s1.b = s.b := by rw [h1.sh.hb, ring_zero h1.ho]
  have hslot : ∀ j, j ≤ cap → s1.slot (slotOf cap s j) = none := fun j hj => by
    have := hh1.elems j hj
    rw [slotOf, hb] at this
    simpa [slotOf] using this
  have he0 : s1.e = slotOf cap s 0 := by rw [hh1.fin, hb]; rfl
  have hsi : ∀ j, slotOf cap s j < cap + 1 := fun j => Nat.mod_lt _ (by omega)
  have hs0 := hsi 0
  simp [construct, h1.sh.nbuf, he0, hslot 0 (by omega), Ref.get, hslot i (by omega), hsi]
-- the condition of `C15_deque_insert_alias_iff` both ways: `insert(begin()+3, 1, d[4])` is wrong, `insert(begin()+3, 2, d[4])` is right
example : ¬ (1 = 0 ∨ (insEnd [10, 20, 30, 40, 50] 3 ∧ (4 < 3 + 1 ∨ [10, 20, 30, 40, 50].length ≤ 3 + 1 ∨ [10, 20, 30, 40, 50][4 - 1] = [10, 20, 30, 40, 50][4])) ∨
    (¬ insEnd [10, 20, 30, 40, 50] 3 ∧ (3 ≤ 4 + 1 ∨ [10, 20, 30, 40, 50][4 + 1]? = some [10, 20, 30, 40, 50][4]))) := by decide
example : insEnd [10, 20, 30, 40, 50] 3 ∧ 4 < 3 + 2 := by decide
example : Deq.assignN exE 3 (.elem (slotOf 7 exW5 4)) exW5 = .ub .deadRead :=
  C15_deque_assign_alias_ub exE 7 (by unfold Fits Deq.Fits; decide) exW5_holds 4 3 (by decide) (by decide) (by decide)

/-- C15 is false: `d.insert(d.begin()+3, d[4])` on `[10,20,30,40,50]` inserts 40, not the 50 the argument
referred to; `d.insert(d.begin()+2, d[0])` inserts 20, not 10. -/
theorem C15_deque_insert_alias_fails :
    (∃ s' it, Deq.insert exE (slotOf 7 exW5 3) (.elem (slotOf 7 exW5 4)) exW5 = .ok it s' ∧ s'.slot it = some 40) ∧
    (∃ s' it, Deq.insert exE (slotOf 7 exW5 3) (.ext 50) exW5 = .ok it s' ∧ s'.slot it = some 50) ∧
    (∃ s' it, Deq.insert exE (slotOf 7 exW5 2) (.elem (slotOf 7 exW5 0)) exW5 = .ok it s' ∧ s'.slot it = some 20) ∧
    (∃ s' it, Deq.insert exE (slotOf 7 exW5 2) (.ext 10) exW5 = .ok it s' ∧ s'.slot it = some 10) :=
  ⟨⟨_, _, rfl, rfl⟩, ⟨_, _, rfl, rfl⟩, ⟨_, _, rfl, rfl⟩, ⟨_, _, rfl, rfl⟩⟩

/-- C15 is false: `d.assign(2, d[1])` reads a destroyed element. -/
theorem C15_deque_assign_alias_fails :
    Deq.assignN exE 2 (.elem (slotOf 7 exW 1)) exW = .ub .deadRead := rfl

example : (insEnd [10, 20, 30] 2 ∧ 0 < 2) ∧ (¬ insEnd [10, 20, 30] 1 ∧ 1 ≤ 2) := by decide

/-! ### C16 -/

/-- The iterator `begin() + i`. -/
def iter (E : Env V) (s : St V) (i : Nat) : Nat := itAddU E.M s.nbuf s.b i

/-- C16: iterators of a deque behave like positions of the list, wherever the ring wraps. -/
theorem C16_deque_iterators_random_access (E : Env V) (cap : Nat) (hF : Fits E cap) {xs : List V} {s : St V}
    (h : Holds cap xs s) (i j : Nat) (hi : i ≤ xs.length) (hj : j ≤ xs.length) :
    -- difference, ordering, equality
    itDiff E.M s.nbuf s.b (iter E s i) (iter E s j) = (i : Int) - j ∧
    itLt E.M s.nbuf s.b (iter E s i) (iter E s j) = decide (i < j) ∧
    itLe E.M s.nbuf s.b (iter E s i) (iter E s j) = decide (i ≤ j) ∧
    itGe E.M s.nbuf s.b (iter E s i) (iter E s j) = decide (j ≤ i) ∧
    (iter E s i = iter E s j ↔ i = j) ∧
    -- begin() and end()
    iter E s 0 = s.b ∧ iter E s xs.length = s.e ∧
    -- moving by a signed distance, both ways; increment and decrement
    (∀ n : Int, (i : Int) + n = j → itAdd E.M s.nbuf (iter E s i) n = iter E s j ∧ itSub E.M s.nbuf (iter E s j) n = iter E s i) ∧
    (j = i + 1 → itInc E.M s.nbuf (iter E s i) = iter E s j ∧ itDec E.M s.nbuf (iter E s j) = iter E s i) ∧
    -- dereferencing
    (∀ hl : i < xs.length, readSlot (iter E s i) s = .ok xs[i] s) := by
  have hle := h.le
  have hin := h.inb
  have hr := h.rep
  have hit : ∀ k, k ≤ xs.length → iter E s k = ring (cap + 1) s.b k := fun k hk => pos_eq hF hr (by omega)
  have hb : s.b = ring (cap + 1) s.b 0 := (ring_zero hin).symm
  rw [hit i hi, hit j hj, hit 0 (by omega), hit xs.length (by omega), h.buf]
  have hlt : ∀ a b, a ≤ xs.length → b ≤ xs.length → itLt E.M (cap + 1) s.b (ring (cap + 1) s.b a) (ring (cap + 1) s.b b) = decide (a < b) := by
    intro a b ha hb'
    conv => lhs; rw [show itLt E.M (cap+1) s.b = itLt E.M (cap+1) (ring (cap+1) s.b 0) by rw [← hb]]
    exact itLt_ring hF hin (by omega) (by omega) (by omega) (by omega) (by omega) (by omega)
  refine ⟨?_, hlt i j hi hj, ?_, ?_, ?_, ring_zero hin, ?_, ?_, ?_, ?_⟩
  · rw [show itDiff E.M (cap+1) s.b = itDiff E.M (cap+1) (ring (cap+1) s.b 0) by rw [← hb]]
    exact itDiff_ring hF hin (by omega) (by omega) (by omega) (by omega) (by omega) (by omega)
  · unfold itLe; rw [hlt j i hj hi, Bool.eq_iff_iff]; simp
  · unfold itGe; rw [hlt i j hi hj, Bool.eq_iff_iff]; simp
  · refine ⟨fun hh => (ring_bij hin).inj i j (by omega) (by omega) hh, fun hh => by rw [hh]⟩
  · exact hr.view0.he.symm
  · intro n hn
    by_cases h0 : 0 ≤ n
    · obtain ⟨m, rfl⟩ := Int.eq_ofNat_of_zero_le h0
      have hij : j = i + m := by omega
      subst hij
      refine ⟨itAdd_ring hF hin (by omega), ?_⟩
      rw [itSub_ring hF hin (by omega) (by omega), Nat.add_sub_cancel]
    · obtain ⟨m, hm⟩ := Int.eq_ofNat_of_zero_le (show 0 ≤ -n by omega)
      have hn' : n = -(m : Int) := by omega
      have hij : i = j + m := by omega
      subst hij
      rw [hn']
      refine ⟨?_, itSub_neg_ring hF hin (by omega)⟩
      rw [itAdd_neg_ring hF hin (by omega) (by omega), Nat.add_sub_cancel]
  · rintro rfl
    exact ⟨itInc_ring hF hin (by omega), itDec_ring hF hin (by omega) (by omega)⟩
  · intro hl
    have hw : wp (readSlot (ring (cap+1) s.b i)) (fun v s' => v = xs[i] ∧ s' = s) (fun _ _ => False) s :=
      readAt_wp hr hl rfl ⟨rfl, rfl⟩
    rcases wp_cases hw with ⟨v, s', he, rfl, rfl⟩ | ⟨_, _, _, hf⟩
    · exact he
    · exact hf.elim

example : iter exE exW 2 = 0 ∧ iter exE exW 3 = exW.e ∧ itDiff exE.M 8 exW.b (iter exE exW 3) (iter exE exW 0) = 3 := ⟨rfl, rfl, rfl⟩

/-! ### C17 -/

/-- C17: after a successful push or pop at either end, every remaining old element is in the slot where
it was (index `k` before is index `k`, `k+1` or `k-1` after) with its value. -/
theorem C17_deque_end_ops_keep_addresses (E : Env V) (cap : Nat) (hF : Fits E cap) {xs : List V} {s s' : St V} {r : Ret V}
    (h : Holds cap xs s) (v : V) :
    (exec E (.pushBack v) s = .ok r s' → ∀ k, k < xs.length → s'.slot (slotOf cap s k) = s.slot (slotOf cap s k) ∧ slotOf cap s' k = slotOf cap s k) ∧
    (exec E (.pushFront v) s = .ok r s' → ∀ k, k < xs.length → s'.slot (slotOf cap s k) = s.slot (slotOf cap s k) ∧ slotOf cap s' (k+1) = slotOf cap s k) ∧
    (xs ≠ [] → exec E .popBack s = .ok r s' → ∀ k, k + 1 < xs.length → s'.slot (slotOf cap s k) = s.slot (slotOf cap s k) ∧ slotOf cap s' k = slotOf cap s k) ∧
    (xs ≠ [] → exec E .popFront s = .ok r s' → ∀ k, k + 1 < xs.length → s'.slot (slotOf cap s (k+1)) = s.slot (slotOf cap s (k+1)) ∧
      slotOf cap s' k = slotOf cap s (k+1)) := by
  have hle := h.le
  have hin := h.inb
  have hso : ∀ (t : St V) k, t.b < cap + 1 → k ≤ cap + 1 → slotOf cap t k = ring (cap + 1) t.b k := fun t k ht hk => by
    unfold slotOf; rw [← ring_eq_mod ht hk]
  have main : ∀ (o : Op V), (apply cap xs o).isSome → Callable E o → exec E o s = .ok r s' →
      ∃ ys, Holds cap ys s' ∧ apply cap xs o = some (ys, .ret r) ∧ Base (cap + 1) xs s.b s'.b o := by
    intro o hi hc he
    have hw := exec_wp hF h.rep hc (by rw [Nat.add_sub_cancel]; exact hi)
    unfold wp at hw; rw [he] at hw
    obtain ⟨ys, o', hy, ha, hbase⟩ := hw
    obtain ⟨h1, h2⟩ := Holds.of hy
    rw [Nat.add_sub_cancel] at ha
    exact ⟨ys, h1, ha, by rw [h2]; exact hbase⟩
  refine ⟨fun he k hk => ?_, fun he k hk => ?_, fun hne he k hk => ?_, fun hne he k hk => ?_⟩
  · obtain ⟨ys, hy, ha, hbase⟩ := main (.pushBack v) rfl trivial he
    simp only [Base] at hbase
    have hsl : slotOf cap s' k = slotOf cap s k := by unfold slotOf; rw [hbase]
    refine ⟨?_, hsl⟩
    rw [← hsl, hy.elems k (by omega), hsl, h.elems k (by omega)]
    simp only [apply, grow] at ha
    split at ha
    · cases ha; rw [List.getElem?_append_left hk]
    · cases ha
  · obtain ⟨ys, hy, ha, hbase⟩ := main (.pushFront v) rfl trivial he
    simp only [Base] at hbase
    have hsl : slotOf cap s' (k+1) = slotOf cap s k := by
      rw [hso s' _ hy.inb (by omega), hso s _ hin (by omega), ← hbase, ring_ring hy.inb (by omega)]; congr 1; omega
    simp only [apply, grow] at ha
    split at ha
    · rename_i hfit
      cases ha
      refine ⟨?_, hsl⟩
      have := hy.le
      rw [← hsl, hy.elems (k+1) (by simp at this; omega), hsl, h.elems k (by omega)]; simp
    · cases ha
  · obtain ⟨ys, hy, ha, hbase⟩ := main .popBack (by simp [apply, hne]) trivial he
    simp only [Base] at hbase
    have hsl : slotOf cap s' k = slotOf cap s k := by unfold slotOf; rw [hbase]
    simp only [apply, if_neg hne] at ha
    cases ha
    refine ⟨?_, hsl⟩
    rw [← hsl, hy.elems k (by omega), hsl, h.elems k (by omega), List.dropLast_eq_take, List.getElem?_take, if_pos (by omega)]
  · obtain ⟨ys, hy, ha, hbase⟩ := main .popFront (by simp [apply, hne]) trivial he
    simp only [Base] at hbase
    have hsl : slotOf cap s' k = slotOf cap s (k+1) := by
      rw [hso s' _ hy.inb (by omega), hso s _ hin (by omega), hbase, ring_ring hin (by omega)]; congr 1; omega
    simp only [apply, if_neg hne] at ha
    cases ha
    refine ⟨?_, hsl⟩
    rw [← hsl, hy.elems k (by omega), hsl, h.elems (k+1) (by omega)]
    cases xs <;> simp

example : ∃ s', exec exE (.pushFront 5) exW = .ok .unit s' ∧ s'.slot 6 = some 10 ∧ s'.b = 5 := ⟨_, rfl, rfl, rfl⟩

/-! ### C18 -/

/-- C18, insert: for all four forms of insert, elements before the position keep slot and value when
`size()/2 < p`, and elements from the position on keep slot and value otherwise; the single-element
form returns the position of the new element. -/
theorem C18_deque_insert_moves_one_side (E : Env V) (cap : Nat) (hF : Fits E cap) {xs ys : List V} {s s' : St V} {r : Ret V}
    (h : Holds cap xs s) (p : Nat) (hp : p ≤ xs.length) (o : Op V) (ho : Callable E o)
    (hform : (∃ v, o = .insert p v ∧ ys = [v]) ∨ (∃ n v, o = .insertN p n v ∧ ys = List.replicate n v) ∨
      (∃ n : Nat, ∃ v, o = .insertInt p n v ∧ ys = List.replicate n v) ∨ (o = .insertRange p ys))
    (he : exec E o s = .ok r s') :
    (xs.length / 2 < p → ∀ k, k < p → s'.slot (slotOf cap s k) = s.slot (slotOf cap s k) ∧ slotOf cap s' k = slotOf cap s k) ∧
    (¬ xs.length / 2 < p → ∀ k, p ≤ k → k < xs.length →
      s'.slot (slotOf cap s k) = s.slot (slotOf cap s k) ∧ slotOf cap s' (k + ys.length) = slotOf cap s k) ∧
    (∀ v, o = .insert p v → r = .pos p) ∧ (∀ k, k < ys.length → s'.slot (slotOf cap s' (p + k)) = ys[k]?) ∧
    Holds cap (ins xs p ys) s' := by
  have hle := h.le
  have hin := h.inb
  have hso : ∀ (t : St V) k, t.b < cap + 1 → k ≤ cap + 1 → slotOf cap t k = ring (cap + 1) t.b k := fun t k ht hk => by
    unfold slotOf; rw [← ring_eq_mod ht hk]
  have hap : apply cap xs o = some (grow cap xs (ins xs p ys) (match o with | .insert p _ => .pos p | _ => .unit)) := by
    rcases hform with ⟨v, rfl, rfl⟩ | ⟨n, v, rfl, rfl⟩ | ⟨n, v, rfl, rfl⟩ | rfl
    · simp [apply, hp]
    · simp [apply, hp]
    · simp only [apply, if_pos hp, if_neg (show ¬ ((n : Int) < 0) by omega), Int.toNat_natCast]
    · simp [apply, hp]
  have hw := exec_wp hF h.rep ho (by rw [Nat.add_sub_cancel, hap]; rfl)
  unfold wp at hw; rw [he] at hw
  obtain ⟨zs, o', hy, ha, hbase⟩ := hw
  obtain ⟨h1, h2⟩ := Holds.of hy
  rw [Nat.add_sub_cancel, hap] at ha
  have hbase' : if insEnd xs p then s'.b = s.b else ring (cap + 1) s'.b ys.length = s.b := by
    rw [h2]
    rcases hform with ⟨v, rfl, rfl⟩ | ⟨n, v, rfl, rfl⟩ | ⟨n, v, rfl, rfl⟩ | rfl
    · simpa [Base] using hbase
    · simpa [Base] using hbase
    · simpa [Base] using hbase
    · simpa [Base] using hbase
  simp only [grow] at ha
  split at ha
  · rename_i hfit
    simp only [Option.some.injEq, Prod.mk.injEq, Res.ret.injEq] at ha
    obtain ⟨hz, hr⟩ := ha
    subst hz
    have hl : (ins xs p ys).length = xs.length + ys.length := by simp [ins]; omega
    have hget := fun j => Vec.insertSpec_get xs ys p j hp
    refine ⟨fun hside k hk => ?_, fun hside k hk1 hk2 => ?_, ?_, ?_, h1⟩
    · rw [if_pos (show insEnd xs p from hside)] at hbase'
      have hsl : slotOf cap s' k = slotOf cap s k := by unfold slotOf; rw [hbase']
      refine ⟨?_, hsl⟩
      rw [← hsl, h1.elems k (by omega), hsl, h.elems k (by omega)]
      unfold ins; rw [hget, if_pos hk]
    · rw [if_neg (show ¬ insEnd xs p from hside)] at hbase'
      have hsl : slotOf cap s' (k + ys.length) = slotOf cap s k := by
        rw [hso s' _ h1.inb (by omega), hso s _ hin (by omega), ← hbase', ring_ring h1.inb (by omega)]; congr 1; omega
      refine ⟨?_, hsl⟩
      rw [← hsl, h1.elems (k + ys.length) (by omega), hsl, h.elems k (by omega)]
      unfold ins; rw [hget, if_neg (by omega), if_neg (by omega), Nat.add_sub_cancel]
    · rintro v rfl
      simpa using hr.symm
    · intro k hk
      rw [h1.elems (p + k) (by omega)]
      unfold ins; rw [hget, if_neg (by omega), if_pos (by omega)]; congr 1; omega
  · cases ha

/-- C18, erase: elements before the range keep slot and value when `first-begin >= end-last`, elements
behind the range keep slot and value otherwise; the returned iterator designates the element that
followed the erased ones. -/
theorem C18_deque_erase_moves_one_side (E : Env V) (cap : Nat) (hF : Fits E cap) {xs : List V} {s s' : St V} {r : Ret V}
    (h : Holds cap xs s) (a b : Nat) (hab : a < b) (hb : b ≤ xs.length) (o : Op V)
    (hform : o = .eraseRange a b ∨ (o = .erase a ∧ b = a + 1)) (he : exec E o s = .ok r s') :
    (xs.length - b ≤ a → ∀ k, k < a → s'.slot (slotOf cap s k) = s.slot (slotOf cap s k) ∧ slotOf cap s' k = slotOf cap s k) ∧
    (¬ xs.length - b ≤ a → ∀ k, b ≤ k → k < xs.length →
      s'.slot (slotOf cap s k) = s.slot (slotOf cap s k) ∧ slotOf cap s' (k - (b - a)) = slotOf cap s k) ∧
    r = .pos a ∧ Holds cap (xs.take a ++ xs.drop b) s' := by
  have hle := h.le
  have hin := h.inb
  have hso : ∀ (t : St V) k, t.b < cap + 1 → k ≤ cap + 1 → slotOf cap t k = ring (cap + 1) t.b k := fun t k ht hk => by
    unfold slotOf; rw [← ring_eq_mod ht hk]
  have hap : apply cap xs o = some (xs.take a ++ xs.drop b, .ret (.pos a)) := by
    rcases hform with rfl | ⟨rfl, rfl⟩
    · simp [apply, hab, hb]
    · simp [apply]; omega
  have hca : Callable E o := by
    rcases hform with rfl | ⟨rfl, rfl⟩ <;> trivial
  have hw := exec_wp hF h.rep hca (by rw [Nat.add_sub_cancel, hap]; rfl)
  unfold wp at hw; rw [he] at hw
  obtain ⟨zs, o', hy, ha, hbase⟩ := hw
  obtain ⟨h1, h2⟩ := Holds.of hy
  rw [Nat.add_sub_cancel, hap] at ha
  simp only [Option.some.injEq, Prod.mk.injEq, Res.ret.injEq] at ha
  obtain ⟨rfl, rfl⟩ := ha
  have hbase' : if eraEnd xs a b then s'.b = s.b else s'.b = ring (cap + 1) s.b (b - a) := by
    rw [h2]
    rcases hform with rfl | ⟨rfl, rfl⟩
    · simpa [Base] using hbase
    · have : a + 1 - a = 1 := by omega
      rw [this]; exact hbase
  have hget := fun j => Vec.eraseSpec_get xs a b j (by omega) hb
  refine ⟨fun hside k hk => ?_, fun hside k hk1 hk2 => ?_, rfl, h1⟩
  · rw [if_pos (show eraEnd xs a b from hside)] at hbase'
    have hsl : slotOf cap s' k = slotOf cap s k := by unfold slotOf; rw [hbase']
    refine ⟨?_, hsl⟩
    rw [← hsl, h1.elems k (by omega), hsl, h.elems k (by omega), hget, if_pos hk]
  · rw [if_neg (show ¬ eraEnd xs a b from hside)] at hbase'
    have hsl : slotOf cap s' (k - (b - a)) = slotOf cap s k := by
      rw [hso s' _ h1.inb (by omega), hso s _ hin (by omega), hbase', ring_ring hin (by omega)]; congr 1; omega
    refine ⟨?_, hsl⟩
    rw [← hsl, h1.elems (k - (b - a)) (by omega), hsl, h.elems k (by omega), hget, if_neg (by omega)]; congr 1; omega

example : ∃ s', exec exE (.insert 2 5) exW = .ok (.pos 2) s' ∧ s'.slot 6 = some 10 ∧ s'.slot 7 = some 20 ∧ s'.slot 0 = some 5 ∧ s'.slot 1 = some 30 :=
  ⟨_, rfl, rfl, rfl, rfl, rfl⟩
example : ∃ s', exec exE (.erase 0) exW = .ok (.pos 0) s' ∧ s'.b = 7 ∧ s'.slot 0 = some 30 := ⟨_, rfl, rfl, rfl⟩

/-! ### C19 -/

/-- C19, debug build: accessing or popping an empty deque raises an assertion failure and changes nothing. -/
theorem C19_deque_debug_empty (E : Env V) (cap : Nat) (hd : E.dbg = true) {s : St V} (h : Holds cap [] s) :
    exec E .front s = .exn .assertFail s ∧ exec E .back s = .exn .assertFail s ∧
    exec E .popBack s = .exn .assertFail s ∧ exec E .popFront s = .exn .assertFail s := by
  have hemp : Deq.empty s = true := by rw [h.rep.empty]; simp
  have hda : dassert E (fun s => !Deq.empty s) s = .exn .assertFail s := by simp [dassert, hd, hemp]
  refine ⟨?_, ?_, ?_, ?_⟩ <;>
  · show Cmd.bind (Cmd.bind _ _) _ s = _
    simp only [Cmd.bind, hda]

/-- C19, debug build: an iterator is a ring index, i.e. `begin() + i` for some `i ≤ cap`.  `insert` at
`i > size()`, `erase` at `i ≥ size()` and `erase` of `[i,j)` with `j ≤ i` or `j > size()` raise an
assertion failure and change nothing. -/
theorem C19_deque_debug_positions (E : Env V) (cap : Nat) (hF : Fits E cap) (hd : E.dbg = true) {xs : List V} {s : St V}
    (h : Holds cap xs s) (i j : Nat) (hi : i ≤ cap) (hj : j ≤ cap) (n : Nat) (m : Int) (r : Ref V) (v : V) (src : List V) :
    (xs.length < i →
      Deq.insert E (slotOf cap s i) r s = .exn .assertFail s ∧ Deq.insertN E (slotOf cap s i) n r s = .exn .assertFail s ∧
      Deq.insertRange E (slotOf cap s i) src s = .exn .assertFail s ∧ Deq.insertInteger E (slotOf cap s i) m v s = .exn .assertFail s) ∧
    (xs.length ≤ i → Deq.erase E (slotOf cap s i) s = .exn .assertFail s) ∧
    ((j ≤ i ∨ xs.length < j) → Deq.eraseRange E (slotOf cap s i) (slotOf cap s j) s = .exn .assertFail s) := by
  have hle := h.le
  have hin := h.inb
  have hso : ∀ k, k ≤ cap → slotOf cap s k = ring (cap + 1) s.b k := fun k hk => by
    unfold slotOf; rw [← ring_eq_mod hin (by omega)]
  rw [hso i hi, hso j hj]
  have hbe : ring (cap+1) s.b 0 = s.b := ring_zero hin
  have hlt : ∀ a b, a ≤ cap → b ≤ cap → itLt E.M s.nbuf s.b (ring (cap + 1) s.b a) (ring (cap + 1) s.b b) = decide (a < b) := by
    intro a b ha hb
    rw [h.buf]
    conv => lhs; rw [show itLt E.M (cap+1) s.b = itLt E.M (cap+1) (ring (cap+1) s.b 0) by rw [hbe]]
    exact itLt_ring hF hin (by omega) (by omega) (by omega) (by omega) (by omega) (by omega)
  have hb0 : ∀ a, a ≤ cap → itLe E.M s.nbuf s.b s.b (ring (cap + 1) s.b a) = true := by
    intro a ha
    unfold itLe
    rw [show itLt E.M s.nbuf s.b (ring (cap + 1) s.b a) s.b = itLt E.M s.nbuf s.b (ring (cap + 1) s.b a) (ring (cap + 1) s.b 0) by rw [hbe],
      hlt a 0 ha (by omega)]; simp
  have he : s.e = ring (cap + 1) s.b xs.length := h.rep.view0.he
  refine ⟨fun hz => ?_, fun hz => ?_, fun hz => ?_⟩
  · have hda : dassert E (posOk E (ring (cap + 1) s.b i)) s = .exn .assertFail s := by
      refine dassert_fail hd ?_
      unfold posOk
      rw [hb0 i hi, he]
      unfold itLe
      rw [hlt _ _ (by omega) hi]; simp [hz]
    refine ⟨?_, ?_, ?_, ?_⟩ <;>
    · show Cmd.bind _ _ s = _
      simp only [Cmd.bind, hda]
  · refine Cmd.bind_exn (dassert_fail hd ?_)
    (try dsimp only)
    rw [hb0 i hi, he, hlt _ _ hi (by omega)]; simp [hz]
  · unfold Deq.eraseRange
    by_cases h1 : i < j
    · rw [Cmd.bind_ok (dassert_ok (c := fun s' => itLt E.M s'.nbuf s'.b (ring (cap + 1) s.b i) (ring (cap + 1) s.b j)) (by
        (try dsimp only); rw [hlt _ _ hi hj]; simp [h1]))]
      by_cases h2 : i < xs.length
      · rw [Cmd.bind_ok (dassert_ok (c := fun s' => itLe E.M s'.nbuf s'.b s'.b (ring (cap + 1) s.b i) && itLt E.M s'.nbuf s'.b (ring (cap + 1) s.b i) s'.e) (by
          (try dsimp only); rw [hb0 i hi, he, hlt _ _ hi (by omega)]; simp [h2]))]
        refine Cmd.bind_exn (dassert_fail hd ?_)
        (try dsimp only)
        rw [hb0 j hj, he]
        unfold itLe
        rw [hlt _ _ (by omega) hj]; simp; omega
      · refine Cmd.bind_exn (dassert_fail hd ?_)
        (try dsimp only)
        rw [hb0 i hi, he, hlt _ _ hi (by omega)]; simp; omega
    · refine Cmd.bind_exn (dassert_fail hd ?_)
      (try dsimp only)
      rw [hlt _ _ hi hj]; simp; omega

/-- C19: for in-contract calls debug and release builds behave identically (same result, same state,
also when elements throw). -/
theorem C19_deque_debug_equals_release (E : Env V) (cap : Nat) (hF : Fits E cap) {xs : List V} {s : St V}
    (h : Holds cap xs s) {o : Op V} (hin : (apply cap xs o).isSome) :
    exec { E with dbg := true } o s = exec { E with dbg := false } o s := by
  have hle := h.le
  have hr := h.rep
  have hpos : ∀ p, p ≤ xs.length → itAddU E.M s.nbuf s.b p = ring (cap + 1) s.b p := fun p hp => pos_eq hF hr (by omega)
  have hposok : ∀ (d : Bool) (p : Nat), p ≤ xs.length → posOk { E with dbg := d } (ring (cap + 1) s.b p) s = true :=
    fun d p hp => posOk_true (E := { E with dbg := d }) hF hr hp
  have hg : ∀ {β : Type} (f : St V → β), gets f s = Out.ok (f s) s := fun _ => rfl
  have hemp : xs ≠ [] → (!Deq.empty s) = true := fun hne => by rw [hr.empty]; simp [hne]
  cases o with
  | pushBack v => rfl
  | pushFront v => rfl
  | popFront =>
    have hne := hemp (by simp only [apply] at hin; split at hin; cases hin; assumption)
    refine Cmd.bind_left ?_
    unfold Deq.popFront
    rw [Cmd.bind_ok (dassert_ok hne), Cmd.bind_ok (dassert_ok hne)]
  | popBack =>
    have hne := hemp (by simp only [apply] at hin; split at hin; cases hin; assumption)
    refine Cmd.bind_left ?_
    unfold Deq.popBack
    rw [Cmd.bind_ok (dassert_ok hne), Cmd.bind_ok (dassert_ok hne)]
  | front =>
    have hne := hemp (by rintro rfl; simp [apply] at hin)
    refine Cmd.bind_left ?_
    unfold Deq.front
    rw [Cmd.bind_ok (dassert_ok hne), Cmd.bind_ok (dassert_ok hne)]
  | back =>
    have hne := hemp (by rintro rfl; simp [apply] at hin)
    refine Cmd.bind_left ?_
    unfold Deq.back
    rw [Cmd.bind_ok (dassert_ok hne), Cmd.bind_ok (dassert_ok hne)]
  | insert p v =>
    have hp : p ≤ xs.length := by simp only [apply] at hin; split at hin; assumption; cases hin
    simp only [exec]
    rw [Cmd.bind_ok (hg _), Cmd.bind_ok (hg _), hpos p hp]
    refine Cmd.bind_left ?_
    unfold Deq.insert
    rw [Cmd.bind_ok (dassert_ok (hposok _ p hp)), Cmd.bind_ok (dassert_ok (hposok _ p hp))]; rfl
  | insertN p n v =>
    have hp : p ≤ xs.length := by simp only [apply] at hin; split at hin; assumption; cases hin
    simp only [exec]
    rw [Cmd.bind_ok (hg _), Cmd.bind_ok (hg _), hpos p hp]
    refine Cmd.bind_left ?_
    unfold Deq.insertN
    rw [Cmd.bind_ok (dassert_ok (hposok _ p hp)), Cmd.bind_ok (dassert_ok (hposok _ p hp))]; rfl
  | insertInt p n v =>
    have hp : p ≤ xs.length := by simp only [apply] at hin; split at hin; assumption; cases hin
    simp only [exec]
    rw [Cmd.bind_ok (hg _), Cmd.bind_ok (hg _), hpos p hp]
    refine Cmd.bind_left ?_
    unfold Deq.insertInteger
    rw [Cmd.bind_ok (dassert_ok (hposok _ p hp)), Cmd.bind_ok (dassert_ok (hposok _ p hp))]; rfl
  | insertRange p src =>
    have hp : p ≤ xs.length := by simp only [apply] at hin; split at hin; assumption; cases hin
    simp only [exec]
    rw [Cmd.bind_ok (hg _), Cmd.bind_ok (hg _), hpos p hp]
    refine Cmd.bind_left ?_
    unfold Deq.insertRange
    rw [Cmd.bind_ok (dassert_ok (hposok _ p hp)), Cmd.bind_ok (dassert_ok (hposok _ p hp))]; rfl
  | erase p =>
    have hp : p < xs.length := by simp only [apply] at hin; split at hin; assumption; cases hin
    obtain ⟨h1, h2, h3⟩ := erase_asserts hF hr (show p < p + 1 by omega) (show p + 1 ≤ xs.length by omega)
    simp only [Nat.zero_add] at h1 h2 h3
    have hnx : itAdd E.M s.nbuf (ring (cap + 1) s.b p) 1 = ring (cap + 1) s.b (p + 1) := by
      rw [h.buf]; exact itAdd_ring (n := 1) hF h.inb (by omega)
    simp only [exec]
    rw [Cmd.bind_ok (hg _), Cmd.bind_ok (hg _), hpos p (by omega)]
    refine Cmd.bind_left ?_
    unfold Deq.erase
    rw [Cmd.bind_ok (dassert_ok (c := fun s' => itLe E.M s'.nbuf s'.b s'.b (ring (cap + 1) s.b p) && itLt E.M s'.nbuf s'.b (ring (cap + 1) s.b p) s'.e) h2),
      Cmd.bind_ok (dassert_ok (c := fun s' => itLe E.M s'.nbuf s'.b s'.b (ring (cap + 1) s.b p) && itLt E.M s'.nbuf s'.b (ring (cap + 1) s.b p) s'.e) h2),
      Cmd.bind_ok (hg _), Cmd.bind_ok (hg _), hnx]
    unfold Deq.eraseRange
    rw [Cmd.bind_ok (dassert_ok (c := fun s' => itLt E.M s'.nbuf s'.b (ring (cap + 1) s.b p) (ring (cap + 1) s.b (p+1))) h1),
      Cmd.bind_ok (dassert_ok (c := fun s' => itLt E.M s'.nbuf s'.b (ring (cap + 1) s.b p) (ring (cap + 1) s.b (p+1))) h1),
      Cmd.bind_ok (dassert_ok (c := fun s' => itLe E.M s'.nbuf s'.b s'.b (ring (cap + 1) s.b p) && itLt E.M s'.nbuf s'.b (ring (cap + 1) s.b p) s'.e) h2),
      Cmd.bind_ok (dassert_ok (c := fun s' => itLe E.M s'.nbuf s'.b s'.b (ring (cap + 1) s.b p) && itLt E.M s'.nbuf s'.b (ring (cap + 1) s.b p) s'.e) h2),
      Cmd.bind_ok (dassert_ok (c := fun s' => itLe E.M s'.nbuf s'.b s'.b (ring (cap + 1) s.b (p+1)) && itLe E.M s'.nbuf s'.b (ring (cap + 1) s.b (p+1)) s'.e) h3),
      Cmd.bind_ok (dassert_ok (c := fun s' => itLe E.M s'.nbuf s'.b s'.b (ring (cap + 1) s.b (p+1)) && itLe E.M s'.nbuf s'.b (ring (cap + 1) s.b (p+1)) s'.e) h3)]; rfl
  | eraseRange a b =>
    have hp : a < b ∧ b ≤ xs.length := by simp only [apply] at hin; split at hin; assumption; cases hin
    obtain ⟨h1, h2, h3⟩ := erase_asserts hF hr hp.1 hp.2
    simp only [Nat.zero_add] at h1 h2 h3
    simp only [exec]
    rw [Cmd.bind_ok (hg _), Cmd.bind_ok (hg _), Cmd.bind_ok (hg _), Cmd.bind_ok (hg _), hpos a (by omega), hpos b (by omega)]
    refine Cmd.bind_left ?_
    unfold Deq.eraseRange
    rw [Cmd.bind_ok (dassert_ok (c := fun s' => itLt E.M s'.nbuf s'.b (ring (cap + 1) s.b a) (ring (cap + 1) s.b b)) h1),
      Cmd.bind_ok (dassert_ok (c := fun s' => itLt E.M s'.nbuf s'.b (ring (cap + 1) s.b a) (ring (cap + 1) s.b b)) h1),
      Cmd.bind_ok (dassert_ok (c := fun s' => itLe E.M s'.nbuf s'.b s'.b (ring (cap + 1) s.b a) && itLt E.M s'.nbuf s'.b (ring (cap + 1) s.b a) s'.e) h2),
      Cmd.bind_ok (dassert_ok (c := fun s' => itLe E.M s'.nbuf s'.b s'.b (ring (cap + 1) s.b a) && itLt E.M s'.nbuf s'.b (ring (cap + 1) s.b a) s'.e) h2),
      Cmd.bind_ok (dassert_ok (c := fun s' => itLe E.M s'.nbuf s'.b s'.b (ring (cap + 1) s.b b) && itLe E.M s'.nbuf s'.b (ring (cap + 1) s.b b) s'.e) h3),
      Cmd.bind_ok (dassert_ok (c := fun s' => itLe E.M s'.nbuf s'.b s'.b (ring (cap + 1) s.b b) && itLe E.M s'.nbuf s'.b (ring (cap + 1) s.b b) s'.e) h3)]; rfl
  | resize n v => rfl
  | assignN n v => rfl
  | assignRange src => rfl
  | clear => rfl
  | at_ i => rfl
  | index i => rfl
  | size => rfl
  | empty => rfl
  | full => rfl
  | availableSize => rfl
  | maxSize => rfl

example : exec exE (.insert 7 1) exW = .exn .assertFail exW := rfl
example : Deq.eraseRange exE (slotOf 7 exW 2) (slotOf 7 exW 2) exW = .exn .assertFail exW := rfl

/-! ### C20 -/

/-- C20, copy construction and assignment: the target becomes equal to the source (whatever the rotations);
assignment from itself changes nothing; a source that does not fit (PreallocatedDeque of smaller capacity)
throws and changes nothing. -/
theorem C20_deque_copy_assign (E : Env V) (cap cap' : Nat) (hF : Fits E cap) (hF' : Fits E cap') (hnt : ∀ k, E.thr k = false)
    {xs ys : List V} {s x : St V} (h : Holds cap xs s) (hx : Holds cap' ys x) :
    (ys.length ≤ cap → ∃ s', Deq.assignOp E false x s = .ok () s' ∧ Holds cap ys s') ∧
    (cap < ys.length → Deq.assignOp E false x s = .exn .badAlloc s) ∧
    Deq.assignOp E true s s = .ok () s ∧
    (ys.length ≤ cap → ∀ c, ∃ s', Deq.ctorCopy E x (Deq.fresh (cap + 1) c) = .ok () s' ∧ Holds cap ys s') := by
  have hl : ys.length < E.M := by
    have h1 := hx.le; have h2 : Deq.Fits E.M (cap' + 1) := hF'
    unfold Deq.Fits at h2; omega
  have key : ∀ {xs : List V} {s : St V}, Holds cap xs s →
      (ys.length ≤ cap → ∃ s', Deq.assignRange E ys s = .ok () s' ∧ Holds cap ys s') ∧
      (cap < ys.length → Deq.assignRange E ys s = .exn .badAlloc s) := by
    intro xs s h
    have hw := Deq.assignRange_wp (X := fun e s' => e = .badAlloc ∧ s' = s ∧ cap < ys.length)
      (Q := fun _ s' => ys.length ≤ cap ∧ Holds cap ys s') hF hl h.rep
      (fun hn s' h' => ⟨by omega, (Holds.of h').1⟩) (fun hb => ⟨rfl, rfl, by omega⟩) (fun _ ⟨k, _, hk⟩ => by rw [hnt k] at hk; cases hk)
    rcases wp_cases hw with ⟨_, s', he, hn, hh⟩ | ⟨e, s', he, rfl, rfl, hb⟩
    · exact ⟨fun _ => ⟨s', he, hh⟩, fun hb => by omega⟩
    · exact ⟨fun h2 => by omega, fun _ => he⟩
  have hcon := contents_eq hF' hx.rep
  refine ⟨?_, ?_, rfl, ?_⟩
  · intro hfit
    have : Deq.assignOp E false x s = Deq.assignRange E ys s := by simp [Deq.assignOp, hcon]
    rw [this]; exact (key h).1 hfit
  · intro hfit
    have : Deq.assignOp E false x s = Deq.assignRange E ys s := by simp [Deq.assignOp, hcon]
    rw [this]; exact (key h).2 hfit
  · intro hfit c
    have : Deq.ctorCopy E x (Deq.fresh (cap + 1) c) = Deq.assignRange E ys (Deq.fresh (cap + 1) c) := by simp [Deq.ctorCopy, hcon]
    rw [this]; exact (key (C10_deque_fresh cap c)).1 hfit

/-- C20, comparison: `==` is true exactly when the element sequences are equal element by element and, for
PreallocatedDeque (`cmpCap = true`), the capacities agree; `!=` is its negation. -/
theorem C20_deque_equality [BEq V] (cmpCap : Bool) (E : Env V) (cap cap' : Nat) (hF : Fits E cap) (hF' : Fits E cap')
    {xs ys : List V} {s x : St V} (h : Holds cap xs s) (hx : Holds cap' ys x) :
    Deq.eq E cmpCap s x () = .ok ((!cmpCap || cap == cap') && (xs == ys)) () ∧
    Deq.ne E cmpCap s x () = .ok (!((!cmpCap || cap == cap') && (xs == ys))) () := by
  have h1 := Deq.eq_run (cmpCap := cmpCap) hF hF' h.rep hx.rep
  have hcc : (cap + 1 == cap' + 1) = (cap == cap') := by rw [Bool.eq_iff_iff]; simp
  rw [hcc] at h1
  refine ⟨h1, ?_⟩
  show Cmd.bind _ _ () = _
  simp only [Cmd.bind, h1]; rfl

example : Deq.eq exE true exW exW () = .ok true () := rfl
example : Deq.eq exE false exW exW5 () = .ok false () := rfl
example : ∃ s', Deq.assignOp exE false exW5 exW = .ok () s' ∧ s'.slot 0 = some 30 ∧ s'.b = 6 := ⟨_, rfl, rfl, rfl⟩

end Verif.Props.Deque
