import Verif.Model.Prealloc
import Verif.Props.Vector
import Verif.Props.Deque
/- Properties C21, C22: buffer binding of PreallocatedVector / PreallocatedDeque. -/
namespace Verif.Props.Prealloc
open Verif Cmd Spec
variable {V : Type}

/-! ### C21 -/

/-- C21: default construction followed by `init` is the same object as construction with the buffer;
`init` on a bound object changes nothing at all. -/
theorem C21_init_binds_once (sz a n cnt : Nat) (ha : a ≠ 0) (p : Pre.Obj V) (hp : p.buf ≠ 0) (a' n' : Nat) :
    Pre.init sz a n (Pre.ctor0 cnt : Pre.Obj V) = Pre.ctor sz a n cnt ∧
    Pre.init sz a' n' p = p ∧ (Pre.ctor sz a n cnt : Pre.Obj V).buf = a ∧
    Pre.init sz a' n' (Pre.init sz a n (Pre.ctor0 cnt : Pre.Obj V)) = Pre.init sz a n (Pre.ctor0 cnt) := by
  refine ⟨rfl, by simp [Pre.init, hp], rfl, ?_⟩
  simp [Pre.init, Pre.ctor0, ha]

/-- C21: in every history on a bound object all `init` calls, wherever they occur, are without effect: the
buffer stays, and results and contents are those of the history with the `init`s removed. -/
theorem C21_later_inits_have_no_effect (k : Pre.Kind) (sz : Nat) (E : Env V) (es : List (Pre.Ev V)) (p : Pre.Obj V)
    (hp : p.buf ≠ 0) :
    Pre.run k sz E p es = (history (Pre.exec k E) p.st (Pre.calls es)).map (fun q => (⟨p.buf, p.bytes, q.1⟩, q.2)) := by
  induction es generalizing p with
  | nil => rfl
  | cons ev es ih =>
    cases ev with
    | init a n =>
      simp only [Pre.run, Pre.calls]
      rw [show Pre.init sz a n p = p by simp [Pre.init, hp]]
      exact ih p hp
    | call o =>
      simp only [Pre.run, Pre.calls, history]
      cases Pre.exec k E o p.st with
      | ok r s' => simp only; rw [ih { p with st := s' } hp, Option.map_map, Option.map_map]; rfl
      | exn e s' => simp only; rw [ih { p with st := s' } hp, Option.map_map, Option.map_map]; rfl
      | ub f => rfl
      | diverge => rfl

/-- C21, vector capacity: with a buffer of `n` bytes and any in-contract history (including further `init`
calls) the object behaves as a bounded list of at most `n / sizeof(T)` elements, and `max_size()` is that
number at any time. -/
theorem C21_vector_capacity (E : Env V) (sz a n : Nat) (ha : a ≠ 0) (hF : Vec.Fits E (n / sz))
    (hnt : ∀ k, E.thr k = false) (es : List (Pre.Ev V)) (hes : ∀ o ∈ Pre.calls es, Vector.Callable E o)
    (zs : List V) (rs : List (Res V)) (hspec : applyAll (n / sz) [] (Pre.calls es) = some (zs, rs)) :
    ∃ p, Pre.run .vec sz E (Pre.init sz a n (Pre.ctor0 0)) es = some (p, rs) ∧ p.buf = a ∧
      Vector.Holds (n / sz) zs p.st ∧ Vec.maxSize p.st = n / sz := by
  have h1 : (Pre.init sz a n (Pre.ctor0 0) : Pre.Obj V) = Pre.ctor sz a n 0 := rfl
  rw [h1, C21_later_inits_have_no_effect _ _ _ _ _ ha]
  obtain ⟨s', h2, h3⟩ := Vector.C01_vector_refines_bounded_list E (n / sz) hF hnt _ hes zs rs hspec
  exact ⟨⟨a, n, s'⟩, by show Option.map _ (history (Vec.exec E) (Vec.fresh (n / sz) 0) _) = _; rw [h2]; rfl, rfl, h3, h3.buf⟩

/-- C21, deque capacity: with a buffer of `n ≥ sizeof(T)` bytes, at most `n / sizeof(T) - 1` elements. -/
theorem C21_deque_capacity (E : Env V) (sz a n : Nat) (hsz : 0 < sz) (hn : sz ≤ n) (ha : a ≠ 0) (hF : Deque.Fits E (n / sz - 1))
    (hnt : ∀ k, E.thr k = false) (es : List (Pre.Ev V)) (hes : ∀ o ∈ Pre.calls es, Deque.Callable E o)
    (zs : List V) (rs : List (Res V)) (hspec : applyAll (n / sz - 1) [] (Pre.calls es) = some (zs, rs)) :
    ∃ p, Pre.run .deq sz E (Pre.init sz a n (Pre.ctor0 0)) es = some (p, rs) ∧ p.buf = a ∧
      Deque.Holds (n / sz - 1) zs p.st ∧ Deq.maxSize E p.st = n / sz - 1 := by
  have h1 : (Pre.init sz a n (Pre.ctor0 0) : Pre.Obj V) = Pre.ctor sz a n 0 := rfl
  have h0 : 0 < n / sz := Nat.div_pos hn hsz
  have hnb : n / sz - 1 + 1 = n / sz := by omega
  rw [h1, C21_later_inits_have_no_effect _ _ _ _ _ ha]
  obtain ⟨s', h2, h3⟩ := Deque.C10_deque_refines_bounded_list E (n / sz - 1) hF hnt _ hes [] zs rs _
    (Deque.C10_deque_fresh (n / sz - 1) 0) hspec
  rw [hnb] at h2
  refine ⟨⟨a, n, s'⟩, by show Option.map _ (history (Deq.exec E) (Deq.fresh (n / sz) 0) _) = _; rw [h2]; rfl, rfl, h3, ?_⟩
  simp only [Deq.maxSize, h3.buf, usub]; rw [if_pos (by omega)]; omega

-- 30 bytes of 4-byte elements: 7 for the vector, 6 for the deque; a second init is ignored
example : ∃ p, Pre.run .vec 4 Vector.exE (Pre.init 4 0x1000 30 (Pre.ctor0 0))
    [.call (.pushBack 1), .init 0x2000 400, .call .maxSize, .call .size] = some (p, [.ret .unit, .ret (.num 7), .ret (.num 1)]) ∧ p.buf = 0x1000 :=
  ⟨_, rfl, rfl⟩
example : ∃ p, Pre.run .deq 4 Deque.exE (Pre.init 4 0x1000 30 (Pre.ctor0 0))
    [.call (.pushFront 1), .init 0x2000 400, .call .maxSize, .call .front] = some (p, [.ret .unit, .ret (.num 6), .ret (.val 1)]) :=
  ⟨_, rfl⟩

/-! ### C22

Full statement: for every buffer size, `push_back` / `push_front` store the element inside the buffer or throw
`BadAlloc`.  True when the buffer has room for at least one element; false for smaller buffers and for a
default-constructed deque (`max_size()` wraps to `SIZE_MAX`). -/

/-- C22 for every buffer of at least `sizeof(T)` bytes and every reachable state. -/
theorem C22_deque_push_stays_in_buffer_partial (E : Env V) (sz n : Nat) (hsz : 0 < sz) (hn : sz ≤ n) (hF : Deque.Fits E (n / sz - 1))
    {xs : List V} {s : St V} (h : Deque.Holds (n / sz - 1) xs s) (v : V) (front : Bool) :
    let o : Op V := if front then .pushFront v else .pushBack v
    (∃ s', Deq.exec E o s = .ok .unit s' ∧ xs.length < n / sz - 1 ∧ s'.nbuf = n / sz ∧
        ∃ i, i < n / sz ∧ s.slot i = none ∧ s'.slot i = some v) ∨
    (Deq.exec E o s = .exn .badAlloc s ∧ xs.length = n / sz - 1) ∨
    (∃ s', Deq.exec E o s = .exn .elemThrow s' ∧ Deque.Holds (n / sz - 1) xs s' ∧ ∃ k, E.thr k = true) := by
  have h0 : 0 < n / sz := Nat.div_pos hn hsz
  have hnb : n / sz - 1 + 1 = n / sz := by omega
  have hle := h.le
  have hinb := h.inb
  intro o
  have hca : Deque.Callable E o := by cases front <;> trivial
  have hin : ∃ ys, ys = (if front then v :: xs else xs ++ [v]) ∧ apply (n / sz - 1) xs o = some (grow (n / sz - 1) xs ys .unit) := by
    cases front <;> exact ⟨_, rfl, rfl⟩
  obtain ⟨ys, hys, hap⟩ := hin
  have hyl : ys.length = xs.length + 1 := by cases front <;> simp [hys]
  have hw := Deq.exec_wp hF h.rep hca (by rw [Nat.add_sub_cancel, hap]; rfl)
  rcases wp_cases hw with ⟨ret, s', he, zs, o', hr, ha, hbase⟩ | ⟨e, s', he, hx⟩
  · rw [Nat.add_sub_cancel, hap, grow] at ha
    split at ha
    · rename_i hfit
      simp only [Option.some.injEq, Prod.mk.injEq, Res.ret.injEq] at ha
      obtain ⟨rfl, rfl⟩ := ha
      obtain ⟨h1, h2⟩ := Deque.Holds.of hr
      left
      refine ⟨s', he, by omega, by rw [h1.buf, hnb], ?_⟩
      cases front with
      | true =>
        have hb : Deq.ring (n / sz - 1 + 1) o' 1 = s.b := hbase
        have ho' : o' < n / sz - 1 + 1 := by rw [← h2]; exact h1.inb
        refine ⟨o', by omega, ?_, ?_⟩
        · have := h.elems (n / sz - 1) (by omega)
          rw [List.getElem?_eq_none (by omega)] at this
          rw [← this]; congr 1
          unfold Deque.slotOf
          rw [← Deque.ring_eq_mod h.inb (by omega)]
          unfold Deq.ring at *
          split at hb <;> split <;> omega
        · have := h1.elems 0 (by omega)
          unfold Deque.slotOf at this
          rw [h2, Nat.add_zero, Nat.mod_eq_of_lt ho'] at this
          rw [this, hys]; rfl
      | false =>
        have hb : o' = s.b := hbase
        refine ⟨Deque.slotOf (n / sz - 1) s xs.length, ?_, ?_, ?_⟩
        · unfold Deque.slotOf; rw [hnb]; exact Nat.mod_lt _ h0
        · rw [h.elems _ hle]; simp
        · have := h1.elems xs.length (by omega)
          unfold Deque.slotOf at this ⊢
          rw [h2, hb] at this
          rw [this, hys]; simp
    · simp at ha
  · rcases hx with ⟨ha, rfl⟩ | ⟨rfl, _, ⟨k, _, hk⟩, zs, o', hr, _, hpush⟩
    · rw [Nat.add_sub_cancel, hap, grow] at ha
      split at ha
      · simp at ha
      · simp only [Option.some.injEq, Prod.mk.injEq, Res.threw.injEq] at ha
        obtain ⟨_, rfl⟩ := ha
        exact Or.inr (Or.inl ⟨he, by omega⟩)
    · refine Or.inr (Or.inr ⟨s', he, ?_, k, hk⟩)
      have hz : zs = xs := (hpush v (by cases front <;> simp [o])).1
      rw [← hz]; exact (Deque.Holds.of hr).1

/-- C22 is false for a buffer too small for one element (and for a deque never given a buffer): the very
first `push_back` or `push_front` writes outside the buffer instead of throwing. -/
theorem C22_deque_small_buffer_overflows (E : Env V) (hM : 2 ≤ E.M) (sz a n : Nat) (hn : n < sz) (v : V) :
    Deq.exec E (.pushBack v) (Pre.ctor sz a n 0 : Pre.Obj V).st = .ub .outOfBounds ∧
    Deq.exec E (.pushFront v) (Pre.ctor sz a n 0 : Pre.Obj V).st = .ub .outOfBounds ∧
    Deq.exec E (.pushBack v) (Pre.ctor0 0 : Pre.Obj V).st = .ub .outOfBounds ∧
    Deq.maxSize E (Pre.ctor sz a n 0 : Pre.Obj V).st = E.M - 1 := by
  have h0 : n / sz = 0 := Nat.div_eq_of_lt hn
  have hc : (Pre.ctor sz a n 0 : Pre.Obj V).st = (Pre.ctor0 0 : Pre.Obj V).st := by simp [Pre.ctor, Pre.ctor0, h0]
  have hm : usub E.M 0 1 = E.M - 1 := by unfold usub; rw [if_neg (by omega)]; omega
  have hfull : Deq.full E (Pre.ctor0 0 : Pre.Obj V).st = false := by
    simp only [Deq.full, Deq.size, Deq.maxSize, Pre.ctor0, Deq.distIdx, hm]
    simp [usub]; omega
  have hb : Deq.exec E (.pushBack v) (Pre.ctor0 0 : Pre.Obj V).st = .ub .outOfBounds := by
    show Cmd.bind (Deq.pushBack E (.ext v)) _ _ = _
    unfold Cmd.bind Deq.pushBack
    rw [Cmd.bind_ok (rfl : gets (Deq.full E) _ = .ok (Deq.full E _) _), hfull]; rfl
  rw [hc]
  refine ⟨hb, ?_, hb, ?_⟩
  · show Cmd.bind (Deq.pushFront E (.ext v)) _ _ = _
    unfold Cmd.bind Deq.pushFront
    rw [Cmd.bind_ok (rfl : gets (Deq.full E) _ = .ok (Deq.full E _) _), hfull]
    have hix : (Pre.ctor0 0 : Pre.Obj V).st.nbuf ≤ Deq.itSub E.M (Pre.ctor0 0 : Pre.Obj V).st.nbuf (Pre.ctor0 0 : Pre.Obj V).st.b 1 := Nat.zero_le _
    have hc : construct E (Deq.itSub E.M (Pre.ctor0 0 : Pre.Obj V).st.nbuf (Pre.ctor0 0 : Pre.Obj V).st.b 1) (.ext v) (Pre.ctor0 0 : Pre.Obj V).st
        = .ub .outOfBounds := by unfold construct; rw [if_pos hix]
    rw [if_neg (by simp)]
    unfold Deq.constructBegin
    rw [Cmd.bind_ok (rfl : gets (fun s : St V => Deq.itSub E.M s.nbuf s.b 1) _ = .ok _ _)]
    simp only [Bind.bind, Cmd.bind, hc]
  · simp only [Deq.maxSize, Pre.ctor0, hm]

example : Deq.exec Deque.exE (.pushBack 5) (Pre.ctor 8 0x1000 7 0 : Pre.Obj Nat).st = .ub .outOfBounds := rfl
-- a buffer of exactly one slot: capacity 0, the push throws
example : ∃ s, Deq.exec Deque.exE (.pushBack 5) (Pre.ctor 8 0x1000 8 0 : Pre.Obj Nat).st = .exn .badAlloc s := ⟨_, rfl⟩

end Verif.Props.Prealloc
