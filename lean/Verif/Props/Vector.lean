import Verif.Proof.VectorApi
import Verif.Proof.History
/-
Properties C01-C09: FixedVector / PreallocatedVector.  `cap` is `MaxSize`, respectively
`bufferSize / sizeof(T)`; `E` is any word size, build mode and element behaviour.
-/
namespace Verif.Props.Vector
open Verif Cmd Spec Vec
variable {V : Type}

/-- The vector object `s` holds exactly the elements `xs`: slot `k` contains a live object equal to
`xs[k]` for `k < size()`, and every other slot is raw storage. (`b` is a field vectors do not use.) -/
structure Holds (cap : Nat) (xs : List V) (s : St V) : Prop where
  buf : s.nbuf = cap
  unused : s.b = 0
  sz : Vec.size s = xs.length
  le : xs.length ≤ cap
  elems : ∀ k, k < cap → s.slot k = xs[k]?

theorem Holds.rep {cap : Nat} {xs : List V} {s : St V} (h : Holds cap xs s) : VRep cap xs s.cnt s :=
  ⟨⟨h.buf, h.elems, h.unused, h.sz, Nat.le_refl _⟩, h.le⟩

theorem Holds.of {cap c : Nat} {xs : List V} {s : St V} (h : VRep cap xs c s) : Holds cap xs s :=
  ⟨h.sh.nbuf, h.sh.hb, h.sh.he, h.len, h.sh.view⟩

/-- `size_t` can count twice the buffer (a `ptrdiff_t` can address it). -/
abbrev Fits (E : Env V) (cap : Nat) : Prop := Vec.Fits E cap

/-- A vector call with arguments a caller can express. -/
def Callable (E : Env V) (o : Op V) : Prop := o.onVector = true ∧ o.representable E.M

/-! ### C01 -/

/-- C01: for every history of in-contract calls starting from an empty vector, every result and the
final contents are those of the bounded list. -/
theorem C01_vector_refines_bounded_list (E : Env V) (cap : Nat) (hF : Fits E cap)
    (hnt : ∀ k, E.thr k = false) (os : List (Op V)) (hos : ∀ o ∈ os, Callable E o)
    (zs : List V) (rs : List (Res V)) (hspec : applyAll cap [] os = some (zs, rs)) :
    ∃ s', history (exec E) (Vec.fresh cap 0) os = some (s', rs) ∧ Holds cap zs s' := by
  have := history_refines (exec := exec E) (cap := cap) (Rep := fun xs s => Holds cap xs s) (Good := Callable E)
    ?_ os [] (Vec.fresh cap 0) zs rs (Holds.of (fresh_rep cap 0)) hos hspec
  · exact this
  · intro xs s o ys r hh hg hap
    have hw := exec_wp hF hh.rep hg.1 hg.2 (by rw [hap]; rfl)
    rcases wp_cases hw with ⟨ret, s', he, ys', hr, ha⟩ | ⟨e, s', he, hx⟩
    · rw [hap] at ha; cases ha
      exact Or.inl ⟨ret, s', he, rfl, Holds.of hr⟩
    · rcases hx with ⟨ha, rfl⟩ | ⟨_, _, ⟨k, _, hk⟩, _⟩
      · rw [hap] at ha; cases ha
        exact Or.inr ⟨e, s', he, rfl, hh⟩
      · rw [hnt k] at hk; cases hk

/-- One call from an arbitrary state: normal return means exactly the list operation happened, and
exceptions are the specified ones when no element operation throws. -/
theorem C01_vector_single_call (E : Env V) (cap : Nat) (hF : Fits E cap) (hnt : ∀ k, E.thr k = false)
    {xs ys : List V} {s : St V} {o : Op V} {r : Res V} (h : Holds cap xs s) (ho : Callable E o)
    (hap : apply cap xs o = some (ys, r)) :
    (∃ ret s', exec E o s = .ok ret s' ∧ r = .ret ret ∧ Holds cap ys s') ∨
    (∃ e, exec E o s = .exn e s ∧ r = .threw e ∧ ys = xs) := by
  have hw := exec_wp hF h.rep ho.1 ho.2 (by rw [hap]; rfl)
  rcases wp_cases hw with ⟨ret, s', he, ys', hr, ha⟩ | ⟨e, s', he, hx⟩
  · rw [hap] at ha; cases ha
    exact Or.inl ⟨ret, s', he, rfl, Holds.of hr⟩
  · rcases hx with ⟨ha, rfl⟩ | ⟨_, _, ⟨k, _, hk⟩, _⟩
    · rw [hap] at ha; cases ha
      exact Or.inr ⟨e, he, rfl, rfl⟩
    · rw [hnt k] at hk; cases hk

/-- Environment used in the examples: 32-bit `size_t`, debug build, nothing throws. -/
def exE : Env Nat := { M := 2^32, dbg := true, thr := fun _ => false, junk := fun _ v => v, dflt := 0 }

def exOps : List (Op Nat) :=
  [.pushBack 7, .insertN 0 2 5, .insertRange 1 [8, 9], .eraseRange 0 2, .at_ 9, .insert 3 4, .pushBack 1, .resize 2 0, .back]

example : Fits exE 4 := by unfold Fits Vec.Fits exE; decide
example : ∀ o ∈ exOps, Callable exE o := by
  intro o ho; simp [exOps] at ho
  rcases ho with rfl | rfl | rfl | rfl | rfl | rfl | rfl | rfl | rfl <;> simp [Callable, Op.onVector, Op.representable, exE]
-- [7] → [5,5,7] → over capacity → [7] → OutOfRange → position 3 is outside [7]: out of contract
example : applyAll 4 [] exOps = none := by decide
def exOps2 : List (Op Nat) :=
  [.pushBack 7, .insertN 0 2 5, .insertRange 1 [8, 9], .insertRange 1 [8], .eraseRange 0 2, .at_ 9, .insert 2 4, .pushBack 1,
   .insertInt 0 (-1) 3, .resize 2 0, .back]
example : applyAll 4 [] exOps2 = some ([5, 7], [.ret .unit, .ret .unit, .threw .badAlloc, .ret .unit, .ret (.pos 0),
    .threw .outOfRange, .ret (.pos 2), .ret .unit, .threw .badAlloc, .ret .unit, .ret (.val 7)]) := by decide

/-! ### C02 -/

/-- C02: `BadAlloc` is thrown exactly when the list specification says the result would not fit
(`Spec.grow`), and then the whole object (slots, size, copy counter) is untouched. -/
theorem C02_vector_overflow_throws_and_changes_nothing (E : Env V) (cap : Nat) (hF : Fits E cap)
    {xs : List V} {s : St V} {o : Op V} (h : Holds cap xs s) (ho : Callable E o) (hin : (apply cap xs o).isSome) :
    ((∃ s', exec E o s = .exn .badAlloc s') ↔ apply cap xs o = some (xs, .threw .badAlloc)) ∧
    (∀ s', exec E o s = .exn .badAlloc s' → s' = s) := by
  have hw := exec_wp hF h.rep ho.1 ho.2 hin
  rcases wp_cases hw with ⟨ret, s', he, ys', hr, ha⟩ | ⟨e, s', he, hx⟩
  · refine ⟨⟨fun ⟨s'', h2⟩ => by (rw [he] at h2; cases h2), fun h2 => ?_⟩, fun s'' h2 => by (rw [he] at h2; cases h2)⟩
    rw [ha] at h2; cases h2
  · rcases hx with ⟨ha, rfl⟩ | ⟨rfl, ⟨zs, r, ha⟩, _⟩
    · refine ⟨⟨fun ⟨s'', h2⟩ => ?_, fun h2 => ?_⟩, fun s'' h2 => ?_⟩
      · rw [he] at h2; cases h2; exact ha
      · rw [ha] at h2; cases h2; exact ⟨_, he⟩
      · rw [he] at h2; cases h2; rfl
    · refine ⟨⟨fun ⟨s'', h2⟩ => by (rw [he] at h2; cases h2), fun h2 => ?_⟩, fun s'' h2 => by (rw [he] at h2; cases h2)⟩
      rw [ha] at h2; cases h2

/-- What "would not fit" means, call by call. -/
theorem C02_vector_overflow_condition (cap : Nat) (xs : List V) (v : V) (p n : Nat) (src : List V) :
    (apply cap xs (.pushBack v) = some (xs, .threw .badAlloc) ↔ cap < xs.length + 1) ∧
    (apply cap xs (.resize n v) = some (xs, .threw .badAlloc) ↔ cap < n) ∧
    (apply cap xs (.assignN n v) = some (xs, .threw .badAlloc) ↔ cap < n) ∧
    (apply cap xs (.assignRange src) = some (xs, .threw .badAlloc) ↔ cap < src.length) ∧
    (p ≤ xs.length → (apply cap xs (.insert p v) = some (xs, .threw .badAlloc) ↔ cap < xs.length + 1)) ∧
    (p ≤ xs.length → (apply cap xs (.insertN p n v) = some (xs, .threw .badAlloc) ↔ cap < xs.length + n)) ∧
    (p ≤ xs.length → (apply cap xs (.insertRange p src) = some (xs, .threw .badAlloc) ↔ cap < xs.length + src.length)) := by
  have key : ∀ (ys : List V) (r : Ret V), (some (grow cap xs ys r) = some (xs, .threw .badAlloc)) ↔ cap < ys.length := by
    intro ys r
    unfold grow
    split
    · rename_i hh; simp; omega
    · rename_i hh; simp; omega
  have hl2 : (xs.take n ++ List.replicate (n - xs.length) v).length = n := by simp; omega
  refine ⟨?_, ?_, ?_, ?_, fun hp => ?_, fun hp => ?_, fun hp => ?_⟩
  · simp only [apply]; rw [key]; simp
  · simp only [apply]; rw [key, hl2]
  · simp only [apply]; rw [key]; simp
  · simp only [apply]; rw [key]
  · simp only [apply, if_pos hp]; rw [key]; simp [ins]; omega
  · simp only [apply, if_pos hp]; rw [key]; simp [ins]; omega
  · simp only [apply, if_pos hp]; rw [key]; simp [ins]; omega

-- hypotheses are met: a full vector of capacity 2 and a push_back
example : ∃ s : St Nat, Holds 2 [4, 5] s ∧ Callable exE (.pushBack 6) ∧ apply 2 [4, 5] (.pushBack 6) = some ([4, 5], .threw .badAlloc) :=
  ⟨{ nbuf := 2, slot := fun k => [4, 5][k]?, cnt := 0, b := 0, e := 2 },
    ⟨rfl, rfl, rfl, by decide, fun _ _ => rfl⟩, by simp [Callable, Op.onVector, Op.representable], by decide⟩

/-! ### C03 -/

/-- States a caller can produce: an empty vector, then any in-contract calls, any of which may have
thrown (over capacity, `at`, or the element type throwing at an arbitrary copy). -/
inductive Reach (E : Env V) (cap : Nat) : St V → Prop
  | init (c : Nat) : Reach E cap (Vec.fresh cap c)
  | ret {s s' : St V} {xs : List V} {o : Op V} {r : Ret V} : Reach E cap s → Holds cap xs s → Callable E o →
      (apply cap xs o).isSome → exec E o s = .ok r s' → Reach E cap s'
  | threw {s s' : St V} {xs : List V} {o : Op V} {e : Exn} : Reach E cap s → Holds cap xs s → Callable E o →
      (apply cap xs o).isSome → exec E o s = .exn e s' → Reach E cap s'

/-- C03: in every reachable state exactly the first `size()` slots are live, no in-contract call is
undefined or diverges (so it never constructs over a live object, touches a dead one or leaves the
buffer), and the destructor leaves no live object. -/
theorem C03_vector_lifetimes_exact (E : Env V) (cap : Nat) (hF : Fits E cap) {s : St V} (hr : Reach E cap s) :
    (∃ xs, Holds cap xs s) ∧
    (∀ k, k < cap → ((s.slot k).isSome = true ↔ k < Vec.size s)) ∧
    (∀ xs o, Holds cap xs s → Callable E o → (apply cap xs o).isSome →
      (∀ f, exec E o s ≠ .ub f) ∧ exec E o s ≠ .diverge) ∧
    (∃ s', Vec.dtor E s = .ok () s' ∧ ∀ k, k < cap → s'.slot k = none) := by
  have hrep : ∃ xs, Holds cap xs s := by
    induction hr with
    | init c => exact ⟨[], Holds.of (fresh_rep cap c)⟩
    | ret hreach hh hc hin he _ =>
      have hw := exec_wp hF hh.rep hc.1 hc.2 hin
      unfold wp at hw; rw [he] at hw
      obtain ⟨ys, hy, _⟩ := hw
      exact ⟨ys, Holds.of hy⟩
    | threw hreach hh hc hin he _ =>
      have hw := exec_wp hF hh.rep hc.1 hc.2 hin
      unfold wp at hw; rw [he] at hw
      rcases hw with ⟨_, rfl⟩ | ⟨_, _, _, ys, hy, _⟩
      · exact ⟨_, hh⟩
      · exact ⟨ys, Holds.of hy⟩
  refine ⟨hrep, ?_, ?_, ?_⟩
  · obtain ⟨xs, hh⟩ := hrep
    intro k hk
    rw [hh.elems k hk, hh.sz]; simp
  · intro xs o hh hc hin
    have hw := exec_wp hF hh.rep hc.1 hc.2 hin
    unfold wp at hw
    constructor
    · intro f hf; rw [hf] at hw; exact hw
    · intro hf; rw [hf] at hw; exact hw
  · obtain ⟨xs, hh⟩ := hrep
    have hw := dtor_wp (X := fun _ _ => False) (Q := fun _ s' => ∀ k, k < cap → s'.slot k = none) hF hh.rep (fun _ h => h)
    rcases wp_cases hw with ⟨_, s', he, hq⟩ | ⟨_, _, _, hf⟩
    · exact ⟨s', he, hq⟩
    · exact hf.elim

-- a reachable state after a throw: element copy number 2 throws while inserting into [1, 2]
def thrE : Env Nat := { exE with thr := fun k => k == 2 }
example : ∃ s s', Reach thrE 5 s ∧ exec thrE (.insertN 0 2 9) s = .exn .elemThrow s' ∧ s'.slot 0 = some 1 ∧ Vec.size s' = 2 :=
  ⟨_, _, .ret (o := .pushBack 2) (xs := [1]) (.ret (o := .pushBack 1) (xs := []) (.init 0) (Holds.of (fresh_rep 5 0))
      (by simp [Callable, Op.onVector, Op.representable]) rfl rfl)
      ⟨rfl, rfl, rfl, by decide, fun k hk => by
        match k, hk with
        | 0, _ => rfl
        | 1, _ => rfl
        | 2, _ => rfl
        | 3, _ => rfl
        | 4, _ => rfl⟩ (by simp [Callable, Op.onVector, Op.representable]) rfl rfl, rfl, rfl, rfl⟩

/-! ### C04 -/

/-- C04: `at(i)` returns element `i` or throws `OutOfRange`; in both cases nothing changes. -/
theorem C04_vector_at_exact (cap : Nat) {xs : List V} {s : St V} (h : Holds cap xs s) (i : Nat) :
    (∀ hi : i < xs.length, Vec.at_ i s = .ok xs[i] s) ∧ (xs.length ≤ i → Vec.at_ i s = .exn .outOfRange s) := by
  have hw : wp (Vec.at_ i) (fun v s' => s' = s ∧ xs[i]? = some v) (fun e s' => e = .outOfRange ∧ s' = s ∧ xs.length ≤ i) s :=
    at_wp h.rep (fun hi => ⟨rfl, by simp [hi]⟩) (fun hi => ⟨rfl, rfl, hi⟩)
  rcases wp_cases hw with ⟨v, s', he, rfl, hv⟩ | ⟨e, s', he, rfl, rfl, hi⟩
  · obtain ⟨hi, rfl⟩ := List.getElem?_eq_some_iff.mp hv
    exact ⟨fun _ => he, fun h2 => by omega⟩
  · exact ⟨fun h2 => by omega, fun _ => he⟩

/-! ### C05 -/

/-- C05: whichever element operation throws, the exception is that one, it escapes, and a valid vector
remains; `push_back` leaves the contents unchanged, `insert`/`erase`/`resize` leave everything before the
position (the old elements) unchanged. -/
theorem C05_vector_basic_exception_safety (E : Env V) (cap : Nat) (hF : Fits E cap)
    {xs : List V} {s s' : St V} {o : Op V} {e : Exn} (h : Holds cap xs s) (ho : Callable E o)
    (hin : (apply cap xs o).isSome) (he : exec E o s = .exn e s') :
    (apply cap xs o = some (xs, .threw e) ∧ s' = s) ∨
    (e = .elemThrow ∧ (∃ k, s.cnt ≤ k ∧ E.thr k = true) ∧
      ∃ ys, Holds cap ys s' ∧ ys.take (o.kept xs) = xs.take (o.kept xs) ∧ (∀ v, o = .pushBack v → ys = xs)) := by
  have hw := exec_wp hF h.rep ho.1 ho.2 hin
  unfold wp at hw; rw [he] at hw
  rcases hw with h1 | ⟨h1, _, h2, ys, h3, h4, h5⟩
  · exact Or.inl h1
  · exact Or.inr ⟨h1, h2, ys, Holds.of h3, h4, h5⟩

/-- C05, propagation: a call that returns normally performed no throwing element operation, and an
element exception that escapes was thrown by the last element operation performed: nothing is swallowed
and nothing is done after the throw. -/
theorem C05_vector_exceptions_propagate (E : Env V) (o : Op V) (s : St V) :
    (∀ r s', exec E o s = .ok r s' → ∀ k, s.cnt ≤ k → k < s'.cnt → E.thr k = false) ∧
    (∀ s', exec E o s = .exn .elemThrow s' → s.cnt < s'.cnt ∧ E.thr (s'.cnt - 1) = true ∧
      ∀ k, s.cnt ≤ k → k + 1 < s'.cnt → E.thr k = false) := by
  have h := nc_exec (E := E) o s
  constructor
  · intro r s' he; rw [he] at h; exact h.2
  · intro s' he; rw [he] at h; exact h.2.1 rfl

-- a throwing insert: [1,2,3], the 5th element operation throws in the middle of the shuffle
example : ∃ s', exec { exE with thr := fun k => k == 5 } (.insertN 1 2 9)
    { nbuf := 6, slot := fun k => [1, 2, 3][k]?, cnt := 3, b := 0, e := 3 } = .exn .elemThrow s' ∧ s'.e = 5 ∧ s'.slot 0 = some 1 :=
  ⟨_, rfl, rfl, rfl⟩

/-! ### C06

Full statement: push_back, resize, insert(pos,v), insert(pos,n,v) and assign(n,v) called with a reference
to an own element behave as with a copy of it.  This is false for insert at or before the element and
for assign; it is proved for push_back, resize and insert behind the element.  For insert the exact value
inserted is proved in every case, with the condition under which it is the right one; assign with an own
element is shown to be undefined behaviour in every case. -/

/-- C06 for `push_back(v[i])`: same outcome as with a copy made first. -/
theorem C06_vector_push_back_alias_partial (E : Env V) (cap : Nat) {xs : List V} {s : St V} (h : Holds cap xs s)
    (i : Nat) (hi : i < xs.length) : Vec.pushBack E (.elem i) s = Vec.pushBack E (.ext xs[i]) s := by
  have hle := h.le
  have hget : (Ref.elem i : Ref V).get s = some xs[i] := by
    simp [Ref.get, h.buf, h.elems i (by omega), hi]; omega
  have hc : ∀ j, construct E j (.elem i) s = construct E j (.ext xs[i]) s := by
    intro j; unfold construct; rw [hget]; rfl
  have hd : ∀ z, deref z (fun j => construct E j (.elem i)) s = deref z (fun j => construct E j (.ext xs[i])) s := by
    intro z; unfold deref; split
    · rfl
    · exact hc _
  have hce : constructEnd E (.elem i) s = constructEnd E (.ext xs[i]) s := by
    unfold constructEnd
    rw [Cmd.bind_ok (rfl : gets end_ s = .ok (end_ s) s), Cmd.bind_ok (rfl : gets end_ s = .ok (end_ s) s)]
    exact Cmd.bind_left (hd _)
  unfold Vec.pushBack
  rw [Cmd.bind_ok (rfl : gets Vec.full s = .ok (Vec.full s) s), Cmd.bind_ok (rfl : gets Vec.full s = .ok (Vec.full s) s)]
  split
  · rfl
  · exact hce

/-- C06 for `resize(n, v[i])` (the element survives the call): the result list is as if copied first. -/
theorem C06_vector_resize_alias_partial (E : Env V) (cap : Nat) (hF : Fits E cap) (hnt : ∀ k, E.thr k = false)
    {xs : List V} {s : St V} (h : Holds cap xs s) (i : Nat) (hi : i < xs.length) (n : Nat) (hn : n < E.M) :
    (n ≤ cap → ∃ s', Vec.resize E n (.elem i) s = .ok () s' ∧ Holds cap (xs.take n ++ List.replicate (n - xs.length) xs[i]) s') ∧
    (cap < n → Vec.resize E n (.elem i) s = .exn .badAlloc s) := by
  have hw := resize_wp (X := fun e s' => e = .badAlloc ∧ s' = s ∧ cap < n)
    (Q := fun _ s' => n ≤ cap ∧ Holds cap (xs.take n ++ List.replicate (n - xs.length) xs[i]) s') (v := xs[i]) hF hn h.rep
    (stable_elem hi h.le (by simp [hi]))
    (fun hn s' h' => ⟨hn, Holds.of h'⟩) (fun hb => ⟨rfl, rfl, hb⟩) (fun _ ⟨k, _, hk⟩ => by rw [hnt k] at hk; cases hk)
  rcases wp_cases hw with ⟨_, s', he, hn, hh⟩ | ⟨e, s', he, rfl, rfl, hb⟩
  · exact ⟨fun _ => ⟨s', he, hh⟩, fun hb => by omega⟩
  · exact ⟨fun h2 => by omega, fun _ => he⟩

/-- C06 for `insert(pos, n, v[i])` with `i` before `pos`. -/
theorem C06_vector_insert_alias_before_partial (E : Env V) (cap : Nat) (hF : Fits E cap) (hnt : ∀ k, E.thr k = false)
    {xs : List V} {s : St V} (h : Holds cap xs s) (i p n : Nat) (hi : i < p) (hp : p ≤ xs.length) (hn : n < E.M) :
    (xs.length + n ≤ cap → ∃ s', Vec.insertN E (p : Int) n (.elem i) s = .ok () s' ∧
        Holds cap (ins xs p (List.replicate n (xs[i]'(by omega)))) s') ∧
    (cap < xs.length + n → Vec.insertN E (p : Int) n (.elem i) s = .exn .badAlloc s) := by
  have hi2 : i < xs.length := by omega
  have hle := h.le
  have hw : wp (Vec.insertN E (p : Int) n (.elem i))
      (fun _ s' => xs.length + n ≤ cap ∧ Holds cap (ins xs p (List.replicate n xs[i])) s')
      (fun e s' => e = .badAlloc ∧ s' = s ∧ cap < xs.length + n) s := by
    simp only [Vec.insertN, wp_bind, wp_dassert, posOk_true h.rep hp]
    refine ⟨by simp, fun _ => ?_⟩
    exact insertN_wp (v := xs[i]) hF hn h.rep rfl hp (stable_elem hi (by omega) (by simp [hi2]))
      (fun hl s' h' => ⟨hl, Holds.of h'⟩) (fun hb => ⟨rfl, rfl, hb⟩)
      (fun _ ex s' ⟨_, ⟨k, _, hk⟩, _⟩ => by rw [hnt k] at hk; cases hk)
  rcases wp_cases hw with ⟨_, s', he, hn, hh⟩ | ⟨e, s', he, rfl, rfl, hb⟩
  · exact ⟨fun _ => ⟨s', he, hh⟩, fun hb => by omega⟩
  · exact ⟨fun h2 => by omega, fun _ => he⟩

/-- A vector `[10, 20, 30]` of capacity 8. -/
def ex3 : St Nat := { nbuf := 8, slot := fun k => [10, 20, 30][k]?, cnt := 3, b := 0, e := 3 }
theorem ex3_holds : Holds 8 [10, 20, 30] ex3 := ⟨rfl, rfl, rfl, by decide, fun _ _ => rfl⟩

/-- C06 for `insert(pos, n, v[i])`, every position, element and `n`: exactly which value is inserted. -/
theorem C06_vector_insert_alias_exact_partial (E : Env V) (cap : Nat) (hF : Fits E cap) (hnt : ∀ k, E.thr k = false)
    {xs : List V} {s : St V} (h : Holds cap xs s) (i p n : Nat) (hi : i < xs.length) (hp : p ≤ xs.length) (hn : n < E.M) :
    (xs.length + n ≤ cap → ∃ s', Vec.insertN E (p : Int) n (.elem i) s = .ok () s' ∧
        Holds cap (ins xs p (List.replicate n (if n < xs.length - p ∧ p + n ≤ i then xs[i - n] else xs[i]))) s') ∧
    (cap < xs.length + n → Vec.insertN E (p : Int) n (.elem i) s = .exn .badAlloc s) := by
  have hle := h.le
  generalize hv : (if n < xs.length - p ∧ p + n ≤ i then xs[i - n] else xs[i]) = v
  have hw : wp (Vec.insertN E (p : Int) n (.elem i))
      (fun _ s' => xs.length + n ≤ cap ∧ Holds cap (ins xs p (List.replicate n v)) s')
      (fun e s' => e = .badAlloc ∧ s' = s ∧ cap < xs.length + n) s := by
    simp only [Vec.insertN, wp_bind, wp_dassert, posOk_true h.rep hp]
    refine ⟨by simp, fun _ => ?_⟩
    exact insertN_wp' (v := v) hF hn h.rep rfl hp (hv ▸ insRef_elem hi h.le)
      (fun hl s' h' => ⟨hl, Holds.of h'⟩) (fun hb => ⟨rfl, rfl, hb⟩)
      (fun _ ex s' ⟨_, ⟨k, _, hk⟩, _⟩ => by rw [hnt k] at hk; cases hk)
  rcases wp_cases hw with ⟨_, s', he, hn, hh⟩ | ⟨e, s', he, rfl, rfl, hb⟩
  · exact ⟨fun _ => ⟨s', he, hh⟩, fun hb => by omega⟩
  · exact ⟨fun h2 => by omega, fun _ => he⟩

theorem Holds.unique {cap : Nat} {xs ys : List V} {s : St V} (h : Holds cap xs s) (h' : Holds cap ys s) : xs = ys := by
  apply List.ext_getElem?
  intro k
  by_cases hk : k < cap
  · rw [← h.elems k hk, h'.elems k hk]
  · have := h.le; have := h'.le
    rw [List.getElem?_eq_none (by omega), List.getElem?_eq_none (by omega)]

/-- C06, when it holds: an insert that is given the own element `i` inserts copies of it if and only if `n = 0`, or the element is not moved away
before it is read (it is before `pos + n`, or at most `n` elements follow `pos`), or the element moved to its place is equal. -/
theorem C06_vector_insert_alias_iff (E : Env V) (cap : Nat) (hF : Fits E cap) (hnt : ∀ k, E.thr k = false)
    {xs : List V} {s : St V} (h : Holds cap xs s) (i p n : Nat) (hi : i < xs.length) (hp : p ≤ xs.length) (hfit : xs.length + n ≤ cap) :
    (∃ s', Vec.insertN E (p : Int) n (.elem i) s = .ok () s' ∧ Holds cap (ins xs p (List.replicate n xs[i])) s') ↔
      n = 0 ∨ i < p + n ∨ xs.length ≤ p + n ∨ xs[i - n] = xs[i] := by
  have hle := h.le
  have hF' := hF
  unfold Fits Vec.Fits at hF'
  obtain ⟨s', he, hh⟩ := (C06_vector_insert_alias_exact_partial E cap hF hnt h i p n hi hp (by omega)).1 hfit
  constructor
  · rintro ⟨s'', he', hh'⟩
    rw [he] at he'
    simp only [Out.ok.injEq, true_and] at he'
    subst he'
    have heq := hh'.unique hh
    rw [Vec.ins_inj hp] at heq
    rcases heq with e | e
    · exact Or.inl e
    · split at e
      · exact Or.inr (Or.inr (Or.inr e.symm))
      · omega
  · intro hc
    refine ⟨s', he, ?_⟩
    split at hh
    · next hm =>
      rcases hc with rfl | hc | hc | hc
      · simpa using hh
      · omega
      · omega
      · rwa [hc] at hh
    · exact hh

/-- C06 for assign: with a reference to an own element it is never right, whatever the element and the count: a destroyed element is read. -/
theorem C06_vector_assign_alias_ub (E : Env V) (cap : Nat) (hF : Fits E cap) {xs : List V} {s : St V} (h : Holds cap xs s)
    (i n : Nat) (hi : i < xs.length) (h0 : 0 < n) (hn : n ≤ cap) : Vec.assignN E n (.elem i) s = .ub .deadRead := by
  have hle := h.le
  have hF' := hF
  unfold Fits Vec.Fits at hF'
  have hw := clear_wp (X := fun _ _ => False) (Q := fun _ s' => VRep cap [] s.cnt s') hF h.rep (fun s' h' _ => h')
  rcases wp_cases hw with ⟨_, s1, he, h1⟩ | ⟨_, _, _, hf⟩
  case inr => exact hf.elim
  unfold Vec.assignN
  have hmx : Vec.maxSize s = cap := h.rep.sh.nbuf
  rw [Cmd.bind_ok (rfl : gets Vec.maxSize s = .ok (Vec.maxSize s) s), hmx, if_neg (by omega), Cmd.bind_ok he]
  have hsz : Vec.size s1 = 0 := h1.sh.he
  have hmx1 : Vec.maxSize s1 = cap := h1.sh.nbuf
  unfold Vec.resize
  rw [Cmd.bind_ok (rfl : gets Vec.size s1 = .ok (Vec.size s1) s1), hsz, if_neg (by omega),
    Cmd.bind_ok (rfl : gets Vec.maxSize s1 = .ok (Vec.maxSize s1) s1), hmx1, if_neg (by omega),
    Cmd.bind_ok (rfl : gets Vec.size s1 = .ok (Vec.size s1) s1), hsz]
  refine forN_ub (by unfold usub; rw [if_pos (by omega)]; omega) (by unfold Env.fuel; omega) ?_
  unfold Vec.pushBack
  rw [Cmd.bind_ok (rfl : gets Vec.full s1 = .ok (Vec.full s1) s1)]
  have hfull : Vec.full s1 = false := by simp [Vec.full, hsz, hmx1]; omega
  rw [hfull]
  simp only [Bool.false_eq_true, if_false]
  unfold Vec.constructEnd
  rw [Cmd.bind_ok (rfl : gets end_ s1 = .ok (end_ s1) s1)]
  apply Cmd.bind_ub
  have hend : end_ s1 = 0 := by simp [end_, begin_, h1.sh.he]
  have hslot : ∀ k, k < cap → s1.slot k = none := fun k hk => by rw [h1.live k hk]; simp
  simp [deref, hend, construct, h1.sh.nbuf, hslot 0 (by omega), Ref.get, hslot i (by omega)]
  omega
-- a case of each kind: element 2 at insert position 0 with n = 1 (moved), and element 1 at position 1 (not moved away)
example : ¬ (1 = 0 ∨ 2 < 0 + 1 ∨ [10, 20, 30].length ≤ 0 + 1 ∨ [10, 20, 30][2 - 1] = [10, 20, 30][2]) ∧
    (1 = 0 ∨ 1 < 1 + 1 ∨ [10, 20, 30].length ≤ 1 + 1 ∨ [10, 20, 30][1 - 1] = [10, 20, 30][1]) := by decide
example : ¬ ∃ s', Vec.insertN exE (0 : Nat) 1 (.elem 2) ex3 = .ok () s' ∧ Holds 8 (ins [10, 20, 30] 0 (List.replicate 1 30)) s' := by
  intro h
  exact absurd ((C06_vector_insert_alias_iff exE 8 (by unfold Fits Vec.Fits; decide) (fun _ => rfl) ex3_holds 2 0 1 (by decide) (by decide) (by decide)).1 h) (by decide)

/-- C06 is false: `v.insert(v.begin(), v[1])` on `[10,20,30]` inserts 10 (the element shifted into the
argument's place), not the 20 the argument referred to. -/
theorem C06_vector_insert_alias_fails :
    (∃ s', Vec.insert exE 0 (.elem 1) ex3 = .ok 0 s' ∧ s'.slot 0 = some 10) ∧
    (∃ s', Vec.insert exE 0 (.ext 20) ex3 = .ok 0 s' ∧ s'.slot 0 = some 20) :=
  ⟨⟨_, rfl, rfl⟩, ⟨_, rfl, rfl⟩⟩

/-- C06 is false: `v.assign(2, v[1])` reads a destroyed element. -/
theorem C06_vector_assign_alias_fails :
    Vec.assignN exE 2 (.elem 1) ex3 = .ub .deadRead ∧ (∃ s', Vec.assignN exE 2 (.ext 20) ex3 = .ok () s' ∧ s'.slot 0 = some 20) :=
  ⟨rfl, ⟨_, rfl, rfl⟩⟩

/-! ### C07 -/

/-- C07, insert: the returned iterator designates the inserted element, everything before it is where
it was, everything after it moved by one. -/
theorem C07_vector_insert_position (E : Env V) (cap : Nat) (hF : Fits E cap) {xs : List V} {s s' : St V} {r : Ret V}
    (h : Holds cap xs s) (p : Nat) (v : V) (hp : p ≤ xs.length) (he : exec E (.insert p v) s = .ok r s') :
    r = .pos p ∧ s'.slot p = some v ∧ Vec.size s' = xs.length + 1 ∧ (∀ k, k < p → s'.slot k = s.slot k) ∧
    (∀ k, p ≤ k → k < xs.length → s'.slot (k+1) = s.slot k) := by
  have hin : (apply cap xs (.insert p v)).isSome := by simp [apply, hp]
  have hw := exec_wp hF h.rep (o := .insert p v) rfl trivial hin
  unfold wp at hw; rw [he] at hw
  obtain ⟨ys, hy, ha⟩ := hw
  have hle := h.le
  simp only [apply, if_pos hp, grow] at ha
  split at ha
  · rename_i hfit
    simp only [Option.some.injEq, Prod.mk.injEq, Res.ret.injEq] at ha
    obtain ⟨rfl, rfl⟩ := ha
    have hl : (ins xs p [v]).length = xs.length + 1 := by simp [ins]; omega
    have hl' : xs.length + 1 ≤ cap := by omega
    have hget := fun j => insertSpec_get xs [v] p j hp
    refine ⟨rfl, ?_, ?_, ?_, ?_⟩
    · rw [hy.live p (by omega)]; unfold ins; rw [hget]; simp
    · have : Vec.size s' = _ := hy.sh.he
      rw [this, hl]
    · intro k hk
      rw [hy.live k (by omega), h.elems k (by omega)]; unfold ins; rw [hget, if_pos hk]
    · intro k h1 h2
      rw [hy.live (k+1) (by omega), h.elems k (by omega)]; unfold ins
      rw [hget, if_neg (by omega), if_neg (by simp; omega)]; simp
  · cases ha

/-- C07, erase: the returned iterator designates the element after the erased ones, which have gone. -/
theorem C07_vector_erase_position (E : Env V) (cap : Nat) (hF : Fits E cap) {xs : List V} {s s' : St V} {r : Ret V}
    (h : Holds cap xs s) (a b : Nat) (hab : a < b) (hb : b ≤ xs.length) (he : exec E (.eraseRange a b) s = .ok r s') :
    r = .pos a ∧ Vec.size s' = xs.length - (b - a) ∧ (∀ k, k < a → s'.slot k = s.slot k) ∧
    (∀ k, b ≤ k → k < xs.length → s'.slot (a + (k - b)) = s.slot k) := by
  have hin : (apply cap xs (.eraseRange a b)).isSome := by simp [apply, hab, hb]
  have hw := exec_wp hF h.rep (o := .eraseRange a b) rfl trivial hin
  unfold wp at hw; rw [he] at hw
  obtain ⟨ys, hy, ha⟩ := hw
  have hle := h.le
  simp only [apply, if_pos (And.intro hab hb), Option.some.injEq, Prod.mk.injEq, Res.ret.injEq] at ha
  obtain ⟨rfl, rfl⟩ := ha
  have hl : (xs.take a ++ xs.drop b).length = xs.length - (b - a) := by simp; omega
  have hget := fun j => eraseSpec_get xs a b j (by omega) hb
  refine ⟨rfl, ?_, ?_, ?_⟩
  · have : Vec.size s' = _ := hy.sh.he
    rw [this, hl]
  · intro k hk
    rw [hy.live k (by omega), h.elems k (by omega), hget, if_pos hk]
  · intro k h1 h2
    rw [hy.live _ (by omega), h.elems k (by omega), hget, if_neg (by omega)]
    congr 1; omega

example : ∃ s', exec exE (.insert 1 99) ex3 = .ok (.pos 1) s' ∧ s'.slot 1 = some 99 := ⟨_, rfl, rfl⟩
example : ∃ s', exec exE (.eraseRange 0 2) ex3 = .ok (.pos 0) s' ∧ s'.slot 0 = some 30 := ⟨_, rfl, rfl⟩

/-! ### C08 -/

/-- C08, copy construction and assignment: the target becomes equal to the source; assignment from
itself changes nothing; a source that does not fit (PreallocatedVector of smaller capacity) throws and
changes nothing.  The source is a separate object that the call does not modify (it is not part of the state). -/
theorem C08_vector_copy_assign (E : Env V) (cap cap' : Nat) (hF : Fits E cap) (hnt : ∀ k, E.thr k = false)
    {xs ys : List V} {s x : St V} (h : Holds cap xs s) (hx : Holds cap' ys x) (hl : ys.length < E.M) :
    (ys.length ≤ cap → ∃ s', Vec.assignOp E false x s = .ok () s' ∧ Holds cap ys s') ∧
    (cap < ys.length → Vec.assignOp E false x s = .exn .badAlloc s) ∧
    Vec.assignOp E true s s = .ok () s ∧
    (ys.length ≤ cap → ∀ c, ∃ s', Vec.ctorCopy E x (Vec.fresh cap c) = .ok () s' ∧ Holds cap ys s') := by
  have key : ∀ {xs : List V} {s : St V}, Holds cap xs s →
      (ys.length ≤ cap → ∃ s', Vec.assignRange E ys s = .ok () s' ∧ Holds cap ys s') ∧
      (cap < ys.length → Vec.assignRange E ys s = .exn .badAlloc s) := by
    intro xs s h
    have hw := assignRange_wp (X := fun e s' => e = .badAlloc ∧ s' = s ∧ cap < ys.length)
      (Q := fun _ s' => ys.length ≤ cap ∧ Holds cap ys s') hF hl h.rep
      (fun hn s' h' => ⟨hn, Holds.of h'⟩) (fun hb => ⟨rfl, rfl, hb⟩) (fun _ ⟨k, _, hk⟩ => by rw [hnt k] at hk; cases hk)
    rcases wp_cases hw with ⟨_, s', he, hn, hh⟩ | ⟨e, s', he, rfl, rfl, hb⟩
    · exact ⟨fun _ => ⟨s', he, hh⟩, fun hb => by omega⟩
    · exact ⟨fun h2 => by omega, fun _ => he⟩
  have hcon := contents_eq hx.rep
  refine ⟨?_, ?_, rfl, ?_⟩
  · intro hfit
    have : Vec.assignOp E false x s = Vec.assignRange E ys s := by simp [Vec.assignOp, hcon]
    rw [this]; exact (key h).1 hfit
  · intro hfit
    have : Vec.assignOp E false x s = Vec.assignRange E ys s := by simp [Vec.assignOp, hcon]
    rw [this]; exact (key h).2 hfit
  · intro hfit c
    have : Vec.ctorCopy E x (Vec.fresh cap c) = Vec.assignRange E ys (Vec.fresh cap c) := by simp [Vec.ctorCopy, hcon]
    rw [this]; exact (key (Holds.of (fresh_rep cap c))).1 hfit

/-- C08, comparison: `==` is true exactly when the element sequences are equal element by element (the
list `==` built from the element type's `==`, whatever that is) and, for PreallocatedVector
(`cmpCap = true`), the capacities agree; `!=` is its negation. -/
theorem C08_vector_equality [BEq V] (cmpCap : Bool) (E : Env V) (cap cap' : Nat) {xs ys : List V} {s x : St V}
    (h : Holds cap xs s) (hx : Holds cap' ys x) (hl : xs.length < E.fuel) :
    Vec.eq cmpCap E.fuel s x () = .ok ((!cmpCap || cap == cap') && (xs == ys)) () ∧
    Vec.ne cmpCap E.fuel s x () = .ok (!((!cmpCap || cap == cap') && (xs == ys))) () := by
  have h1 := eq_run (cmpCap := cmpCap) (fuel := E.fuel) h.rep hx.rep hl
  refine ⟨h1, ?_⟩
  show Cmd.bind _ _ () = _
  simp only [Cmd.bind, h1]; rfl

example : Vec.eq true exE.fuel ex3 ex3 () = .ok true () := rfl

/-! ### C09 -/

/-- C09, debug build: accessing or popping an empty vector raises an assertion failure and changes nothing. -/
theorem C09_vector_debug_empty (E : Env V) (cap : Nat) (hd : E.dbg = true) {s : St V} (h : Holds cap [] s) :
    exec E .front s = .exn .assertFail s ∧ exec E .back s = .exn .assertFail s ∧ exec E .popBack s = .exn .assertFail s := by
  have hemp : Vec.empty s = true := by simp [Vec.empty, h.sz]
  have hda : dassert E (fun s => !Vec.empty s) s = .exn .assertFail s := by simp [dassert, hd, hemp]
  refine ⟨?_, ?_, ?_⟩ <;>
  · show Cmd.bind (Cmd.bind _ _) _ s = _
    simp only [Cmd.bind, hda]

/-- C09, debug build: `insert` at any position outside `[begin(), end()]` and `erase` outside the valid
range raise an assertion failure and change nothing (positions are arbitrary pointers `begin() + z`). -/
theorem C09_vector_debug_positions (E : Env V) (cap : Nat) (hd : E.dbg = true) {xs : List V} {s : St V} (h : Holds cap xs s)
    (z z' : Int) (n : Nat) (m : Int) (r : Ref V) (v : V) (src : List V) :
    ((z < 0 ∨ (xs.length : Int) < z) →
      Vec.insert E z r s = .exn .assertFail s ∧ Vec.insertN E z n r s = .exn .assertFail s ∧
      Vec.insertRange E z src s = .exn .assertFail s ∧ Vec.insertInteger E z m v s = .exn .assertFail s) ∧
    ((z < 0 ∨ (xs.length : Int) ≤ z) → Vec.erase E z s = .exn .assertFail s) ∧
    ((z' ≤ z ∨ z < 0 ∨ (xs.length : Int) < z') → Vec.eraseRange E z z' s = .exn .assertFail s) := by
  have hend : end_ s = (xs.length : Int) := by
    have : s.e = xs.length := h.sz
    simp [end_, begin_, this]
  have hb : begin_ = 0 := rfl
  refine ⟨fun hz => ?_, fun hz => ?_, fun hz => ?_⟩
  · have hda : dassert E (posOk z) s = .exn .assertFail s := by
      have : posOk z s = false := by
        rw [Bool.eq_false_iff]; intro hh; simp [posOk, hend] at hh; omega
      simp [dassert, hd, this]
    refine ⟨?_, ?_, ?_, ?_⟩ <;>
    · show Cmd.bind _ _ s = _
      simp only [Cmd.bind, hda]
  · have hda : dassert E (fun s => decide (begin_ ≤ z) && decide (z < end_ s)) s = .exn .assertFail s := by
      have : (decide (begin_ ≤ z) && decide (z < end_ s)) = false := by
        rw [Bool.eq_false_iff]; intro hh; simp [hend] at hh; omega
      simp [dassert, hd, this]
    show Cmd.bind _ _ s = _
    simp only [Cmd.bind, hda]
  · have hall : ∀ b : Bool, dassert E (fun _ => b) s = if b then .ok () s else .exn .assertFail s := by
      intro b; cases b <;> simp [dassert, hd]
    show Cmd.bind (dassert E (fun _ => decide (z < z'))) _ s = _
    simp only [Cmd.bind, hall]
    by_cases h1 : z < z'
    · simp only [h1, decide_true, if_true]
      show Cmd.bind (dassert E (fun s => decide (begin_ ≤ z) && decide (z < end_ s))) _ s = _
      by_cases h2 : 0 ≤ z ∧ z < xs.length
      · have hda : dassert E (fun s => decide (begin_ ≤ z) && decide (z < end_ s)) s = .ok () s := by
          have : (decide (begin_ ≤ z) && decide (z < end_ s)) = true := by simp [hend]; omega
          simp [dassert, this]
        simp only [Cmd.bind, hda]
        show Cmd.bind (dassert E (fun s => decide (begin_ ≤ z') && decide (z' ≤ end_ s))) _ s = _
        have hda2 : dassert E (fun s => decide (begin_ ≤ z') && decide (z' ≤ end_ s)) s = .exn .assertFail s := by
          have : (decide (begin_ ≤ z') && decide (z' ≤ end_ s)) = false := by
            rw [Bool.eq_false_iff]; intro hh; simp [hend] at hh; omega
          simp [dassert, hd, this]
        simp only [Cmd.bind, hda2]
      · have hda : dassert E (fun s => decide (begin_ ≤ z) && decide (z < end_ s)) s = .exn .assertFail s := by
          have : (decide (begin_ ≤ z) && decide (z < end_ s)) = false := by
            rw [Bool.eq_false_iff]; intro hh; simp [hend] at hh; omega
          simp [dassert, hd, this]
        simp only [Cmd.bind, hda]
    · simp [h1]

/-- C09: for in-contract calls debug and release builds behave identically (same result, same state,
also when elements throw). -/
theorem C09_vector_debug_equals_release (E : Env V) (cap : Nat) {xs : List V} {s : St V}
    (h : Holds cap xs s) {o : Op V} (hin : (apply cap xs o).isSome) :
    exec { E with dbg := true } o s = exec { E with dbg := false } o s := by
  have hend : end_ s = (xs.length : Int) := by
    have : s.e = xs.length := h.sz
    simp [end_, begin_, this]
  have hb : begin_ = 0 := rfl
  have hposok : ∀ p : Nat, p ≤ xs.length → posOk (p : Int) s = true := by
    intro p hp; simp [posOk, hend]; omega
  cases o with
  | pushBack v => rfl
  | pushFront v => rfl
  | popFront => rfl
  | popBack =>
    have hne : (!Vec.empty s) = true := by
      simp only [apply] at hin
      split at hin
      · cases hin
      · rename_i hne; simp [Vec.empty, h.sz, hne]
    refine Cmd.bind_left ?_
    unfold Vec.popBack
    rw [Cmd.bind_ok (dassert_ok hne), Cmd.bind_ok (dassert_ok hne)]
  | front =>
    have hne : (!Vec.empty s) = true := by
      cases xs with
      | nil => simp [apply] at hin
      | cons a as => simp [Vec.empty, h.sz]
    refine Cmd.bind_left ?_
    unfold Vec.front
    rw [Cmd.bind_ok (dassert_ok hne), Cmd.bind_ok (dassert_ok hne)]
  | back =>
    have hne : (!Vec.empty s) = true := by
      cases xs with
      | nil => simp [apply] at hin
      | cons a as => simp [Vec.empty, h.sz]
    refine Cmd.bind_left ?_
    unfold Vec.back
    rw [Cmd.bind_ok (dassert_ok hne), Cmd.bind_ok (dassert_ok hne)]
  | insert p v =>
    have hp := hposok p (by simp only [apply] at hin; split at hin; assumption; cases hin)
    refine Cmd.bind_left ?_
    unfold Vec.insert
    rw [Cmd.bind_ok (dassert_ok hp), Cmd.bind_ok (dassert_ok hp)]; rfl
  | insertN p n v =>
    have hp := hposok p (by simp only [apply] at hin; split at hin; assumption; cases hin)
    refine Cmd.bind_left ?_
    unfold Vec.insertN
    rw [Cmd.bind_ok (dassert_ok hp), Cmd.bind_ok (dassert_ok hp)]; rfl
  | insertInt p n v =>
    have hp := hposok p (by simp only [apply] at hin; split at hin; assumption; cases hin)
    refine Cmd.bind_left ?_
    unfold Vec.insertInteger
    rw [Cmd.bind_ok (dassert_ok hp), Cmd.bind_ok (dassert_ok hp)]; rfl
  | insertRange p src =>
    have hp := hposok p (by simp only [apply] at hin; split at hin; assumption; cases hin)
    refine Cmd.bind_left ?_
    unfold Vec.insertRange
    rw [Cmd.bind_ok (dassert_ok hp), Cmd.bind_ok (dassert_ok hp)]; rfl
  | erase p =>
    have hp : p < xs.length := by simp only [apply] at hin; split at hin; assumption; cases hin
    have h1 : (decide (begin_ ≤ (p : Int)) && decide ((p : Int) < end_ s)) = true := by simp [hend]; omega
    have h2 : decide ((p : Int) < (p : Int) + 1) = true := by simp; omega
    have h3 : (decide (begin_ ≤ (p : Int) + 1) && decide ((p : Int) + 1 ≤ end_ s)) = true := by simp [hend]; omega
    refine Cmd.bind_left ?_
    unfold Vec.erase
    rw [Cmd.bind_ok (dassert_ok (c := fun s => decide (begin_ ≤ (p : Int)) && decide ((p : Int) < end_ s)) h1), Cmd.bind_ok (dassert_ok (c := fun s => decide (begin_ ≤ (p : Int)) && decide ((p : Int) < end_ s)) h1)]
    unfold Vec.eraseRange
    rw [Cmd.bind_ok (dassert_ok (c := fun _ => decide ((p : Int) < (p : Int) + 1)) h2), Cmd.bind_ok (dassert_ok (c := fun _ => decide ((p : Int) < (p : Int) + 1)) h2), Cmd.bind_ok (dassert_ok (c := fun s => decide (begin_ ≤ (p : Int)) && decide ((p : Int) < end_ s)) h1), Cmd.bind_ok (dassert_ok (c := fun s => decide (begin_ ≤ (p : Int)) && decide ((p : Int) < end_ s)) h1),
      Cmd.bind_ok (dassert_ok (c := fun s => decide (begin_ ≤ (p : Int) + 1) && decide ((p : Int) + 1 ≤ end_ s)) h3), Cmd.bind_ok (dassert_ok (c := fun s => decide (begin_ ≤ (p : Int) + 1) && decide ((p : Int) + 1 ≤ end_ s)) h3)]; rfl
  | eraseRange a b =>
    have hp : a < b ∧ b ≤ xs.length := by simp only [apply] at hin; split at hin; assumption; cases hin
    have h1 : (decide (begin_ ≤ (a : Int)) && decide ((a : Int) < end_ s)) = true := by simp [hend]; omega
    have h2 : decide ((a : Int) < (b : Int)) = true := by simp; omega
    have h3 : (decide (begin_ ≤ (b : Int)) && decide ((b : Int) ≤ end_ s)) = true := by simp [hend]; omega
    refine Cmd.bind_left ?_
    unfold Vec.eraseRange
    rw [Cmd.bind_ok (dassert_ok (c := fun _ => decide ((a : Int) < (b : Int))) h2), Cmd.bind_ok (dassert_ok (c := fun _ => decide ((a : Int) < (b : Int))) h2), Cmd.bind_ok (dassert_ok (c := fun s => decide (begin_ ≤ (a : Int)) && decide ((a : Int) < end_ s)) h1), Cmd.bind_ok (dassert_ok (c := fun s => decide (begin_ ≤ (a : Int)) && decide ((a : Int) < end_ s)) h1),
      Cmd.bind_ok (dassert_ok (c := fun s => decide (begin_ ≤ (b : Int)) && decide ((b : Int) ≤ end_ s)) h3), Cmd.bind_ok (dassert_ok (c := fun s => decide (begin_ ≤ (b : Int)) && decide ((b : Int) ≤ end_ s)) h3)]; rfl
  | resize n v => rfl
  | assignN n v => rfl
  | assignRange src => rfl
  | clear => rfl
  | at_ i => rfl
  | index i => rfl
  | size => rfl
  | empty => rfl
  | full => rfl
  | availableSize => rfl
  | maxSize => rfl

example : exec exE (.insert 7 1) ex3 = .exn .assertFail ex3 := rfl

end Verif.Props.Vector
