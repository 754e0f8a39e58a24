import Verif.Proof.NoExceptionsVec
import Verif.Props.Deque
import Verif.Props.Array
/-
C106: the containers in a CPPELIB_NO_EXCEPTIONS build ("aborted instead of the exception").
`OnFail.stop` is that build with an assertion handler that does not return, as AssertHandler::handle requires;
`OnFail.cont` is that build with no handler, or one that returns; `OnFail.raise` is the default build.
-/
namespace Verif.Props.NoExceptions
open Verif Cmd Spec
variable {V : Type}

/-! ### A handler that does not return -/

/-- C106, vectors: every in-contract call either fits and does what the bounded list does without entering the handler, or does not
fit (index out of range) and enters the handler for that failure with the vector exactly as it was before the call. -/
theorem C106_vector_handler_that_stops (E : Env V) (cap : Nat) (hF : Vector.Fits E cap) (hnt : ∀ k, E.thr k = false)
    {xs ys : List V} {s : St V} {o : Op V} {r : Res V} (h : Vector.Holds cap xs s) (ho : Vector.Callable E o)
    (hap : apply cap xs o = some (ys, r)) :
    (∃ ret s', VecM.exec .stop E o s = .ok ret s' ∧ r = .ret ret ∧ Vector.Holds cap ys s') ∨
    (∃ e, VecM.exec .stop E o s = .exn e s ∧ r = .threw e ∧ ys = xs) := by
  rw [VecM.exec_leaves (by decide)]
  exact Vector.C01_vector_single_call E cap hF hnt h ho hap

/-- C106, deques. -/
theorem C106_deque_handler_that_stops (E : Env V) (cap : Nat) (hF : Deque.Fits E cap) (hnt : ∀ k, E.thr k = false)
    {xs ys : List V} {s : St V} {o : Op V} {r : Res V} (h : Deque.Holds cap xs s) (ho : Deque.Callable E o)
    (hap : apply cap xs o = some (ys, r)) :
    (∃ ret s', DeqM.exec .stop E o s = .ok ret s' ∧ r = .ret ret ∧ Deque.Holds cap ys s') ∨
    (∃ e, DeqM.exec .stop E o s = .exn e s ∧ r = .threw e ∧ ys = xs) := by
  rw [DeqM.exec_leaves (by decide)]
  exact Deque.C10_deque_single_call E cap hF hnt h ho hap

/-- C106: the two builds agree call by call, from every state and for every call, in contract or not: where the default build
throws, the other one enters the handler, at the same moment. -/
theorem C106_builds_agree (E : Env V) (o : Op V) (s : St V) :
    VecM.exec .stop E o s = VecM.exec .raise E o s ∧ VecM.exec .raise E o s = Vec.exec E o s ∧
    DeqM.exec .stop E o s = DeqM.exec .raise E o s ∧ DeqM.exec .raise E o s = Deq.exec E o s := by
  rw [VecM.exec_leaves (by decide), VecM.exec_leaves (by decide), DeqM.exec_leaves (by decide), DeqM.exec_leaves (by decide)]
  exact ⟨rfl, rfl, rfl, rfl⟩

/-- C106, arrays. -/
theorem C106_array_handler_that_stops {xs : List V} {s : St V} (h : Array.Holds xs s) (i : Nat) :
    (∀ hi : i < xs.length, ArrM.at_ .stop i s = .ok xs[i] s) ∧ (xs.length ≤ i → ArrM.at_ .stop i s = .exn .outOfRange s) := by
  have := Array.C23_array_access h i
  have he : ArrM.at_ .stop i s = Arr.at_ i s := by unfold ArrM.at_ Arr.at_; simp only [check_leaves (h := .stop) (by decide)]
  rw [he]
  constructor
  · intro hi
    unfold Arr.at_
    have h1 : gets Arr.size s = .ok xs.length s := by simp [gets, Arr.size, h.buf]
    rw [Cmd.bind_ok h1, if_neg (by omega)]
    exact Array.read_ok h hi
  · intro hi
    unfold Arr.at_
    have h1 : gets Arr.size s = .ok xs.length s := by simp [gets, Arr.size, h.buf]
    rw [Cmd.bind_ok h1, if_pos (by omega)]
    rfl

/-! ### No handler, or a handler that returns: what setting one that does not return protects from -/

/-- Calls that fit do the same in every build (debug assertions included). -/
theorem C106_vector_fitting_calls_need_no_handler (E : Env V) (cap : Nat) (hF : Vector.Fits E cap) (hnt : ∀ k, E.thr k = false)
    {xs ys : List V} {s : St V} {o : Op V} {ret : Ret V} (h : Vector.Holds cap xs s) (ho : Vector.Callable E o)
    (hap : apply cap xs o = some (ys, .ret ret)) :
    ∃ s', VecM.exec .cont E o s = .ok ret s' ∧ Vector.Holds cap ys s' := by
  rcases Vector.C01_vector_single_call E cap hF hnt h ho hap with ⟨ret', s', h1, h2, h3⟩ | ⟨e, _, h2, _⟩
  · cases h2
    rcases VecM.exec_sim E o s with ⟨e, s'', h4, _⟩ | h4
    · rw [h1] at h4; cases h4
    · exact ⟨s', h4.trans h1, h3⟩
  · cases h2

theorem C106_deque_fitting_calls_need_no_handler (E : Env V) (cap : Nat) (hF : Deque.Fits E cap) (hnt : ∀ k, E.thr k = false)
    {xs ys : List V} {s : St V} {o : Op V} {ret : Ret V} (h : Deque.Holds cap xs s) (ho : Deque.Callable E o)
    (hap : apply cap xs o = some (ys, .ret ret)) :
    ∃ s', DeqM.exec .cont E o s = .ok ret s' ∧ Deque.Holds cap ys s' := by
  rcases Deque.C10_deque_single_call E cap hF hnt h ho hap with ⟨ret', s', h1, h2, h3⟩ | ⟨e, _, h2, _⟩
  · cases h2
    rcases DeqM.exec_sim E o s with ⟨e, s'', h4, _⟩ | h4
    · rw [h1] at h4; cases h4
    · exact ⟨s', h4.trans h1, h3⟩
  · cases h2

/-- Every vector call that does not fit, and every out-of-range `at`, is undefined behaviour when the handler returns. -/
theorem C106_vector_returning_handler_is_undefined (E : Env V) (cap : Nat) (hF : Vector.Fits E cap) (hnt : ∀ k, E.thr k = false)
    {xs : List V} {s : St V} {o : Op V} {e : Exn} (h : Vector.Holds cap xs s) (ho : Vector.Callable E o)
    (hap : apply cap xs o = some (xs, .threw e)) : ∃ f, VecM.exec .cont E o s = .ub f :=
  VecM.exec_cont_ub hF hnt h ho hap

/-- `Array::at` beyond the end likewise. -/
theorem C106_array_returning_handler_is_undefined {xs : List V} {s : St V} (h : Array.Holds xs s) (i : Nat) (hi : xs.length ≤ i) :
    ArrM.at_ .cont i s = .ub .outOfBounds := by
  unfold ArrM.at_
  have h1 : gets Arr.size s = .ok xs.length s := by simp [gets, Arr.size, h.buf]
  rw [Cmd.bind_ok h1, Cmd.bind_ok (VecM.check_cont _ _ _)]
  simp only [readSlot, h.buf]
  rw [if_pos hi]

/-- A full deque is worse: with a handler that returns, `push_back` succeeds, and the deque is then empty: all its elements and the
new one are still constructed in the buffer but no longer belong to it (they will never be destroyed). -/
theorem C106_deque_push_back_returning_handler_empties (E : Env V) (cap : Nat) (hF : Deque.Fits E cap) (hnt : ∀ k, E.thr k = false)
    {xs : List V} {s : St V} (h : Deque.Holds cap xs s) (hfull : xs.length = cap) (v : V) :
    ∃ s', DeqM.exec .cont E (.pushBack v) s = .ok .unit s' ∧ s'.nbuf = cap + 1 ∧ Deq.empty s' = true ∧ Deq.size E s' = 0 ∧
      ∀ k, k ≤ cap → s'.slot (Deque.slotOf cap s' k) = (xs ++ [v])[k]? := by
  have hF' : Deq.Fits E.M (cap + 1) := hF
  unfold Deq.Fits at hF'
  have hb := h.inb
  have hfin := h.fin
  rw [hfull] at hfin
  have hraw := h.elems cap (Nat.le_refl _)
  rw [List.getElem?_eq_none (by omega)] at hraw
  have hsl : Deque.slotOf cap s cap = s.e := by rw [hfin]; rfl
  rw [hsl] at hraw
  have hlt : s.e < cap + 1 := by rw [hfin]; exact Nat.mod_lt _ (by omega)
  have hnx : Deq.nextIdx E.M (cap + 1) s.e 1 = s.b := by
    have hm : (s.b + cap) % (cap + 1) = if s.b = 0 then cap else s.b - 1 := by
      split
      · rename_i hb0; rw [hb0, Nat.zero_add, Nat.mod_eq_of_lt (by omega)]
      · rw [Nat.mod_eq_sub_mod (by omega), Nat.mod_eq_of_lt (by omega)]; omega
    rw [hfin, hm]
    unfold Deq.nextIdx uadd usub
    repeat' split
    all_goals omega
  refine ⟨{ s with slot := upd s.slot s.e (some v), cnt := s.cnt + 1, e := s.b }, ?_, h.buf, ?_, ?_, fun k hk => ?_⟩
  · show (DeqM.pushBack .cont E (.ext v) >>= fun _ => pure Ret.unit) s = _
    have : DeqM.pushBack .cont E (.ext v) s = .ok () { s with slot := upd s.slot s.e (some v), cnt := s.cnt + 1, e := s.b } := by
      unfold DeqM.pushBack
      rw [Cmd.bind_ok (show gets (Deq.full E) s = .ok (Deq.full E s) s from rfl), Cmd.bind_ok (VecM.check_cont _ _ _)]
      unfold Deq.constructEnd
      rw [Cmd.bind_ok (show gets (·.e) s = .ok s.e s from rfl)]
      have hc : construct E s.e (.ext v) s = .ok () { s with slot := upd s.slot s.e (some v), cnt := s.cnt + 1 } := by
        simp only [construct, h.buf, if_neg (show ¬ cap + 1 ≤ s.e by omega), hraw, Ref.get, hnt]; rfl
      rw [Cmd.bind_ok hc]
      simp [Cmd.modify, h.buf, hnx]
    rw [Cmd.bind_ok this]; rfl
  · simp [Deq.empty]
  · simp [Deq.size, Deq.distIdx, usub]
  · show upd s.slot s.e (some v) (Deque.slotOf cap s k) = _
    by_cases hkc : k = cap
    · subst hkc; rw [hsl]; simp [← hfull]
    · have hne : Deque.slotOf cap s k ≠ s.e := by
        rw [← hsl]
        intro hh
        have := Deque.ring_eq_mod (nb := cap + 1) (o := s.b) (k := k) hb (by omega)
        have h2 := Deque.ring_eq_mod (nb := cap + 1) (o := s.b) (k := cap) hb (by omega)
        unfold Deque.slotOf at hh
        rw [← this, ← h2] at hh
        exact hkc (Deq.ring_inj hb hk (by omega) (by omega) hh)
      rw [upd_ne _ _ hne, h.elems k hk, List.getElem?_append_left (by omega)]

/-- `push_front` on a full deque likewise. -/
theorem C106_deque_push_front_returning_handler_empties (E : Env V) (cap : Nat) (hF : Deque.Fits E cap) (hnt : ∀ k, E.thr k = false)
    {xs : List V} {s : St V} (h : Deque.Holds cap xs s) (hfull : xs.length = cap) (v : V) :
    ∃ s', DeqM.exec .cont E (.pushFront v) s = .ok .unit s' ∧ s'.nbuf = cap + 1 ∧ Deq.empty s' = true ∧ Deq.size E s' = 0 ∧
      ∀ k, k ≤ cap → s'.slot (Deque.slotOf cap s' k) = (v :: xs)[k]? := by
  have hF' : Deq.Fits E.M (cap + 1) := hF
  have hF'' := hF'
  unfold Deq.Fits at hF'
  have hb := h.inb
  have hfin := h.fin
  rw [hfull] at hfin
  have hraw := h.elems cap (Nat.le_refl _)
  rw [List.getElem?_eq_none (by omega)] at hraw
  have hsl : Deque.slotOf cap s cap = s.e := by rw [hfin]; rfl
  rw [hsl] at hraw
  have hlt : s.e < cap + 1 := by rw [hfin]; exact Nat.mod_lt _ (by omega)
  have hpv : Deq.prevIdx E.M (cap + 1) s.b 1 = s.e := by
    have hm : (s.b + cap) % (cap + 1) = if s.b = 0 then cap else s.b - 1 := by
      split
      · rename_i hb0; rw [hb0, Nat.zero_add, Nat.mod_eq_of_lt (by omega)]
      · rw [Nat.mod_eq_sub_mod (by omega), Nat.mod_eq_of_lt (by omega)]; omega
    rw [hfin, hm]
    unfold Deq.prevIdx uadd usub
    repeat' split
    all_goals omega
  have hit : Deq.itSub E.M (cap + 1) s.b 1 = s.e := by
    have h1 : toSize E.M 1 = 1 := by rw [toSize_of_nonneg (by omega) (by omega)]; rfl
    simp [Deq.itSub, h1, hpv]
  refine ⟨{ s with slot := upd s.slot s.e (some v), cnt := s.cnt + 1, b := s.e }, ?_, h.buf, ?_, ?_, fun k hk => ?_⟩
  · show (DeqM.pushFront .cont E (.ext v) >>= fun _ => pure Ret.unit) s = _
    have : DeqM.pushFront .cont E (.ext v) s = .ok () { s with slot := upd s.slot s.e (some v), cnt := s.cnt + 1, b := s.e } := by
      unfold DeqM.pushFront
      rw [Cmd.bind_ok (show gets (Deq.full E) s = .ok (Deq.full E s) s from rfl), Cmd.bind_ok (VecM.check_cont _ _ _)]
      unfold Deq.constructBegin
      rw [Cmd.bind_ok (show gets (fun s => Deq.itSub E.M s.nbuf s.b 1) s = .ok s.e s by simp [gets, h.buf, hit])]
      have hc : construct E s.e (.ext v) s = .ok () { s with slot := upd s.slot s.e (some v), cnt := s.cnt + 1 } := by
        simp only [construct, h.buf, if_neg (show ¬ cap + 1 ≤ s.e by omega), hraw, Ref.get, hnt]; rfl
      rw [Cmd.bind_ok hc]
      simp [Cmd.modify, h.buf, hpv]
    rw [Cmd.bind_ok this]; rfl
  · simp [Deq.empty]
  · simp [Deq.size, Deq.distIdx, usub]
  · show upd s.slot s.e (some v) ((s.e + k) % (cap + 1)) = _
    cases k with
    | zero => rw [Nat.add_zero, Nat.mod_eq_of_lt hlt]; simp
    | succ k =>
      have he : (s.e + (k + 1)) % (cap + 1) = Deque.slotOf cap s k := by
        rw [hfin]; unfold Deque.slotOf
        rw [Nat.mod_add_mod, show s.b + cap + (k + 1) = s.b + k + (cap + 1) by omega, Nat.add_mod_right]
      have hne : Deque.slotOf cap s k ≠ s.e := by
        rw [← hsl]
        intro hh
        have := Deque.ring_eq_mod (nb := cap + 1) (o := s.b) (k := k) hb (by omega)
        have h2 := Deque.ring_eq_mod (nb := cap + 1) (o := s.b) (k := cap) hb (by omega)
        unfold Deque.slotOf at hh
        rw [← this, ← h2] at hh
        have := Deq.ring_inj hb (by omega) (by omega) (by omega) hh
        omega
      rw [he, upd_ne _ _ hne, h.elems k (by omega)]
      simp

/-- `at` on a deque with a handler that returns: indices up to `max_size()` read raw storage, index `max_size() + 1` silently yields
the first element. -/
theorem C106_deque_at_returning_handler (E : Env V) (cap : Nat) (hF : Deque.Fits E cap)
    {xs : List V} {s : St V} (h : Deque.Holds cap xs s) :
    (∀ i, xs.length ≤ i → i ≤ cap → DeqM.exec .cont E (.at_ i) s = .ub .deadRead) ∧
    (∀ hne : 0 < xs.length, DeqM.exec .cont E (.at_ (cap + 1)) s = .ok (.val xs[0]) s) := by
  have hF' : Deq.Fits E.M (cap + 1) := hF
  have hF'' := hF'
  unfold Deq.Fits at hF'
  have hb := h.inb
  have hrun : ∀ i, DeqM.exec .cont E (.at_ i) s = (Deq.index E i >>= fun v => pure (Ret.val v)) s := by
    intro i
    show (DeqM.at_ .cont E i >>= fun v => pure (Ret.val v)) s = _
    refine Cmd.bind_left ?_
    unfold DeqM.at_
    rw [Cmd.bind_ok (show gets (Deq.size E) s = .ok (Deq.size E s) s from rfl), Cmd.bind_ok (VecM.check_cont _ _ _)]
  constructor
  · intro i h1 h2
    rw [hrun]
    apply Cmd.bind_ub
    have hi : Deq.itAddU E.M s.nbuf s.b i = Deque.slotOf cap s i := by
      have h3 := Deq.itAddU_ring (j := 0) (n := i) hF'' hb (by omega)
      rw [Deq.ring_zero hb, Nat.zero_add, Deque.ring_eq_mod hb (by omega)] at h3
      rw [h.buf]; exact h3
    unfold Deq.index
    rw [Cmd.bind_ok (show gets (fun s => Deq.itAddU E.M s.nbuf s.b i) s = .ok (Deque.slotOf cap s i) s by simp [gets, hi])]
    have h4 := h.elems i h2
    rw [List.getElem?_eq_none h1] at h4
    have h5 : Deque.slotOf cap s i < cap + 1 := Nat.mod_lt _ (by omega)
    simp only [readSlot, h.buf, if_neg (show ¬ cap + 1 ≤ Deque.slotOf cap s i by omega), h4]
  · intro hne
    rw [hrun]
    have hi : Deq.itAddU E.M s.nbuf s.b (cap + 1) = s.b := by
      have h3 := Deq.itAddU_ring (j := 0) (n := cap + 1) hF'' hb (by omega)
      rw [Deq.ring_zero hb, Nat.zero_add, Deque.ring_eq_mod hb (by omega), Nat.add_mod_right, Nat.mod_eq_of_lt hb] at h3
      rw [h.buf]; exact h3
    have hx : Deq.index E (cap + 1) s = .ok xs[0] s := by
      unfold Deq.index
      rw [Cmd.bind_ok (show gets (fun s => Deq.itAddU E.M s.nbuf s.b (cap + 1)) s = .ok s.b s by simp [gets, hi])]
      have h4 := h.elems 0 (by omega)
      unfold Deque.slotOf at h4
      rw [Nat.add_zero, Nat.mod_eq_of_lt hb, List.getElem?_eq_getElem hne] at h4
      simp only [readSlot, h.buf, if_neg (show ¬ cap + 1 ≤ s.b by omega), h4]
    rw [Cmd.bind_ok hx]; rfl

/-- Debug assertions with a handler that returns check nothing: the debug build is then the release build. -/
theorem C106_returning_handler_disables_debug_checks (E : Env V) (o : Op V) (s : St V) :
    VecM.exec .cont { E with dbg := true } o s = VecM.exec .cont { E with dbg := false } o s ∧
    DeqM.exec .cont { E with dbg := true } o s = DeqM.exec .cont { E with dbg := false } o s := by
  constructor
  · cases o <;> simp only [VecM.exec, VecM.popBack, VecM.insert, VecM.insertN, VecM.insertInteger, VecM.insertRange,
      VecM.erase, VecM.eraseRange, VecM.front, VecM.back, VecM.dassert_cont] <;> rfl
  · cases o <;> simp only [DeqM.exec, DeqM.popBack, DeqM.popFront, DeqM.insert, DeqM.insertN, DeqM.insertInteger, DeqM.insertRange,
      DeqM.erase, DeqM.eraseRange, DeqM.front, DeqM.back, VecM.dassert_cont] <;> rfl

-- a vector of capacity 2 holding two elements, a full deque of capacity 2 rotated in its ring, and an array
def exV : St Nat := { nbuf := 2, slot := fun k => [4, 5][k]?, cnt := 2, b := 0, e := 2 }
example : Vector.Holds 2 [4, 5] exV := ⟨rfl, rfl, rfl, by decide, fun _ _ => rfl⟩
example : VecM.exec .stop Vector.exE (.pushBack 6) exV = .exn .badAlloc exV := rfl
example : VecM.exec .cont Vector.exE (.pushBack 6) exV = .ub .outOfBounds := rfl
example : VecM.exec .cont Vector.exE (.at_ 2) exV = .ub .outOfBounds := rfl
def exD : St Nat := { nbuf := 3, slot := fun k => if k = 2 then some 4 else if k = 0 then some 5 else none, cnt := 2, b := 2, e := 1 }
theorem exD_holds : Deque.Holds 2 [4, 5] exD := ⟨rfl, by decide, by decide, by decide, fun k hk => by
  match k, hk with
  | 0, _ => rfl
  | 1, _ => rfl
  | 2, _ => rfl⟩
example : DeqM.exec .stop Vector.exE (.pushFront 6) exD = .exn .badAlloc exD := rfl
example : ∃ s', DeqM.exec .cont Vector.exE (.pushBack 6) exD = .ok .unit s' ∧ Deq.size Vector.exE s' = 0 ∧ s'.slot 1 = some 6 := ⟨_, rfl, rfl, rfl⟩
example : DeqM.exec .cont Vector.exE (.at_ 3) exD = .ok (.val 4) exD := rfl

end Verif.Props.NoExceptions
