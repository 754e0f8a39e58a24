import Verif.Model.DequeIter
import Verif.Props.Deque
/-
C96: deque iterators carry their owner.  Iterators of the deque behave as the positions of C10-C20 do; in a debug build
every use of a null iterator, of iterators of two deques together, or of another deque's iterator as a position
is reported by the assertion error before anything changes.
-/
namespace Verif.Props.DequeIter
open Verif Cmd Deq
variable {V : Type}

theorem wassert_pure_true (E : Env V) {b : Bool} (h : b = true) (w : World V) : wassert E (pure b) w = .ok () w := by
  subst h; unfold wassert; split <;> rfl
theorem wassert_pure_false (E : Env V) (hd : E.dbg = true) {b : Bool} (h : b = false) (w : World V) :
    wassert E (pure b) w = .exn .assertFail w := by
  subst h; unfold wassert; rw [if_pos hd]; rfl
theorem wassert_ok (E : Env V) {c : Cmd (World V) Bool} {b : Bool} {w : World V} (hc : c w = .ok b w) :
    wassert E c w = if E.dbg && !b then .exn .assertFail w else .ok () w := by
  unfold wassert
  cases hd : E.dbg
  · rfl
  · show Cmd.bind c _ w = _
    unfold Cmd.bind; rw [hc]
    cases b <;> rfl
theorem wassert_exn (E : Env V) (hd : E.dbg = true) {c : Cmd (World V) Bool} {e : Exn} {w : World V} (hc : c w = .exn e w) :
    wassert E c w = .exn e w := by
  unfold wassert; rw [if_pos hd]
  exact Cmd.bind_exn hc

theorem on_same {α : Type} (d : Nat) {m : Cmd (St V) α} {w : World V} :
    on d m w = match m (w d) with
      | .ok a s => .ok a (fun k => if k = d then s else w k)
      | .exn e s => .exn e (fun k => if k = d then s else w k)
      | .ub f => .ub f
      | .diverge => .diverge := rfl

theorem upd_self (d : Nat) (w : World V) : (fun k => if k = d then w d else w k) = w := by
  funext k; split
  · subst_vars; rfl
  · rfl

theorem xLt_own (E : Env V) (d i j : Nat) (w : World V) :
    xLt E ⟨some d, i⟩ ⟨some d, j⟩ w = .ok (itLt E.M (w d).nbuf (w d).b i j) w := by
  unfold xLt
  rw [Cmd.bind_ok (wassert_pure_true E (by simp) w), Cmd.bind_ok (wassert_pure_true E (by simp) w)]
  rfl

/-- C96, agreement of the iterator class with the positions: comparison, difference, movement and access of iterators
of the deque `d` are those of the bare indices, in every build, and change nothing. -/
theorem C96_own_iterators (E : Env V) (d i j : Nat) (n : Int) (w : World V) :
    xAdd E ⟨some d, i⟩ n w = .ok ⟨some d, itAdd E.M (w d).nbuf i n⟩ w ∧
    xSub E ⟨some d, i⟩ n w = .ok ⟨some d, itSub E.M (w d).nbuf i n⟩ w ∧
    xLt E ⟨some d, i⟩ ⟨some d, j⟩ w = .ok (itLt E.M (w d).nbuf (w d).b i j) w ∧
    xGt E ⟨some d, i⟩ ⟨some d, j⟩ w = .ok (itLt E.M (w d).nbuf (w d).b j i) w ∧
    xLe E ⟨some d, i⟩ ⟨some d, j⟩ w = .ok (itLe E.M (w d).nbuf (w d).b i j) w ∧
    xGe E ⟨some d, i⟩ ⟨some d, j⟩ w = .ok (itGe E.M (w d).nbuf (w d).b i j) w ∧
    xDiff E ⟨some d, i⟩ ⟨some d, j⟩ w = .ok (itDiff E.M (w d).nbuf (w d).b i j) w ∧
    (∀ v, readSlot i (w d) = .ok v (w d) → xRead E ⟨some d, i⟩ w = .ok v w) ∧
    (∀ v, readSlot (itAdd E.M (w d).nbuf i n) (w d) = .ok v (w d) → xIndex E ⟨some d, i⟩ n w = .ok v w) := by
  have hlt := xLt_own E d i j w
  have hgt := xLt_own E d j i w
  have hadd : xAdd E ⟨some d, i⟩ n w = .ok ⟨some d, itAdd E.M (w d).nbuf i n⟩ w := by
    unfold xAdd; rw [Cmd.bind_ok (wassert_pure_true E (by simp) w)]; rfl
  have hge : xGe E ⟨some d, i⟩ ⟨some d, j⟩ w = .ok (itGe E.M (w d).nbuf (w d).b i j) w := by
    unfold xGe; rw [Cmd.bind_ok hlt]; rfl
  have hread : ∀ i v, readSlot i (w d) = .ok v (w d) → xRead E ⟨some d, i⟩ w = .ok v w := by
    intro i v hv
    unfold xRead; rw [Cmd.bind_ok (wassert_pure_true E (by simp) w)]
    show on d (readSlot i) w = _
    unfold on; rw [hv]; simp only [upd_self]
  refine ⟨hadd, ?_, hlt, hgt, ?_, hge, ?_, hread i, ?_⟩
  · unfold xSub; rw [Cmd.bind_ok (wassert_pure_true E (by simp) w)]; rfl
  · unfold xLe; rw [Cmd.bind_ok hgt]; rfl
  · unfold xDiff
    rw [Cmd.bind_ok (wassert_pure_true E (by simp) w), Cmd.bind_ok (wassert_pure_true E (by simp) w), Cmd.bind_ok hge]
    unfold itDiff
    show (if itGe E.M (w d).nbuf (w d).b i j = true then gets _ else gets _ : Cmd (World V) Int) w = _
    split <;> rfl
  · intro v hv
    unfold xIndex; rw [Cmd.bind_ok hadd]; exact hread _ v hv

/-- Equality of iterators never asserts: same deque and same position. -/
theorem C96_equality (x y : It) : xEq x y = true ↔ x.deq = y.deq ∧ x.idx = y.idx := by
  simp [xEq]

/-- A default-constructed iterator equals another one and no iterator that belongs to a deque; it has no owner, so the statements about
`x.deq = none` below apply to it. -/
theorem C96_default_iterator (x : It) : (itNull.deq = none ∧ xEq itNull itNull = true) ∧ (x.deq ≠ none → xEq itNull x = false) := by
  refine ⟨⟨rfl, rfl⟩, fun h => ?_⟩
  cases hx : x.deq with
  | none => exact absurd hx h
  | some d => simp [xEq, itNull, hx]

theorem within_own (E : Env V) (d i : Nat) (w : World V) (strict : Bool) :
    within E d ⟨some d, i⟩ (if strict then xLt E else xLe E) w =
      .ok (itLe E.M (w d).nbuf (w d).b (w d).b i &&
        (if strict then itLt E.M (w d).nbuf (w d).b i (w d).e else itLe E.M (w d).nbuf (w d).b i (w d).e)) w := by
  unfold within
  show Cmd.bind (itBegin d) _ w = _
  unfold Cmd.bind itBegin gets
  simp only
  rw [Cmd.bind_ok (C96_own_iterators E d (w d).b i 0 w).2.2.2.2.1]
  cases hl : itLe E.M (w d).nbuf (w d).b (w d).b i
  · rfl
  · simp only [if_true]
    show Cmd.bind (itEnd d) _ w = _
    unfold Cmd.bind itEnd gets
    simp only
    have hh := C96_own_iterators E d i (w d).e 0 w
    cases strict
    · simp only [Bool.false_eq_true, if_false, Bool.true_and]; exact hh.2.2.2.2.1
    · simp only [if_true, Bool.true_and]; exact hh.2.2.1

theorem on_bind {α β : Type} (d : Nat) (m : Cmd (St V) α) (f : α → Cmd (St V) β) :
    on d (m >>= f) = (on d m >>= fun a => on d (f a)) := by
  funext w
  show on d (Cmd.bind m f) w = Cmd.bind (on d m) _ w
  simp only [on, Cmd.bind]
  cases hm : m (w d) with
  | ok a s =>
    simp only [if_true]
    cases hf : f a s <;> simp only [Out.ok.injEq, Out.exn.injEq, true_and] <;>
      (funext k; by_cases hk : k = d <;> simp [hk])
  | exn e s => rfl
  | ub f => rfl
  | diverge => rfl

theorem on_dassert (E : Env V) (d : Nat) (c : St V → Bool) (w : World V) :
    on d (dassert E c) w = if E.dbg && !c (w d) then .exn .assertFail w else .ok () w := by
  unfold on dassert
  cases h : (E.dbg && !c (w d)) <;> simp [upd_self]

theorem bind_congr_left {σ α β : Type} {m m' : Cmd σ α} {f : α → Cmd σ β} {s : σ} (h : m s = m' s) :
    (m >>= f) s = (m' >>= f) s := Cmd.bind_left h

theorem cmd_assoc {σ α β γ : Type} (m : Cmd σ α) (f : α → Cmd σ β) (g : β → Cmd σ γ) :
    ((m >>= f) >>= g) = (m >>= fun a => f a >>= g) := by
  funext s
  show Cmd.bind (Cmd.bind m f) g s = Cmd.bind m (fun a => Cmd.bind (f a) g) s
  unfold Cmd.bind
  cases m s <;> rfl
theorem cmd_bind_pure {σ α : Type} (m : Cmd σ α) : (m >>= fun a => pure a) = m := by
  funext s
  show Cmd.bind m _ s = _
  unfold Cmd.bind
  cases m s <;> rfl
theorem on_pure {α : Type} (d : Nat) (a : α) : on d (pure a : Cmd (St V) α) = pure a := by
  funext w
  show (Out.ok a (fun k => if k = d then w d else w k) : Out (World V) α) = .ok a w
  rw [upd_self]
theorem on_gets {α : Type} (d : Nat) (f : St V → α) : on d (gets f) = gets (fun w => f (w d)) := by
  funext w
  show (Out.ok (f (w d)) (fun k => if k = d then w d else w k) : Out (World V) α) = .ok _ w
  rw [upd_self]

theorem wassert_within (E : Env V) (d i : Nat) :
    wassert E (within E d ⟨some d, i⟩ (xLe E)) = on d (dassert E (posOk E i)) := by
  funext w
  have := wassert_ok E (within_own E d i w false)
  rw [on_dassert]; exact this
theorem wassert_within_lt (E : Env V) (d i : Nat) :
    wassert E (within E d ⟨some d, i⟩ (xLt E)) =
      on d (dassert E (fun s => itLe E.M s.nbuf s.b s.b i && itLt E.M s.nbuf s.b i s.e)) := by
  funext w
  have := wassert_ok E (within_own E d i w true)
  rw [on_dassert]; exact this
theorem wassert_lt (E : Env V) (d i j : Nat) :
    wassert E (xLt E ⟨some d, i⟩ ⟨some d, j⟩) = on d (dassert E (fun s => itLt E.M s.nbuf s.b i j)) := by
  funext w
  rw [wassert_ok E (xLt_own E d i j w), on_dassert]

theorem eraseRange_split (E : Env V) (i j : Nat) :
    Deq.eraseRange E i j = (do
      dassert E (fun s => itLt E.M s.nbuf s.b i j)
      dassert E (fun s => itLe E.M s.nbuf s.b s.b i && itLt E.M s.nbuf s.b i s.e)
      dassert E (fun s => itLe E.M s.nbuf s.b s.b j && itLe E.M s.nbuf s.b j s.e)
      eraseBody E i j) := by
  unfold eraseBody
  funext s
  rfl

/-- C96, agreement of the member functions: with an iterator of the deque itself they do what C10-C20 say. -/
theorem C96_own_positions (E : Env V) (d i j n : Nat) (r : Ref V) (src : List V) :
    xInsert E d ⟨some d, i⟩ r = (do let k ← on d (Deq.insert E i r); pure ⟨some d, k⟩) ∧
    xInsertN E d ⟨some d, i⟩ n r = on d (Deq.insertN E i n r) ∧
    xInsertRange E d ⟨some d, i⟩ src = on d (Deq.insertRange E i src) ∧
    xEraseRange E d ⟨some d, i⟩ ⟨some d, j⟩ = (do let k ← on d (Deq.eraseRange E i j); pure ⟨some d, k⟩) ∧
    xErase E d ⟨some d, i⟩ = (do let k ← on d (Deq.erase E i); pure ⟨some d, k⟩) := by
  have her : ∀ i j, xEraseRange E d ⟨some d, i⟩ ⟨some d, j⟩ = (do let k ← on d (Deq.eraseRange E i j); pure ⟨some d, k⟩) := by
    intro i j
    unfold xEraseRange
    rw [eraseRange_split, wassert_lt, wassert_within_lt, wassert_within]
    simp only [on_bind, cmd_assoc]
    rfl
  refine ⟨?_, ?_, ?_, her i j, ?_⟩
  · unfold xInsert Deq.insert
    rw [wassert_within, on_bind, cmd_assoc]
  · unfold xInsertN Deq.insertN
    rw [wassert_within, on_bind]; congr 1; funext _
    rw [on_bind]; congr 1; funext _; rw [on_pure]
  · unfold xInsertRange Deq.insertRange
    rw [wassert_within, on_bind]
  · unfold xErase Deq.erase
    rw [wassert_within_lt, on_bind, cmd_assoc]; congr 1; funext _
    rw [on_bind, cmd_assoc]; funext w
    rw [Cmd.bind_ok (C96_own_iterators E d i 0 1 w).1, on_gets, her]
    rfl

/-- C96, detection of null iterators: in a debug build, moving, dereferencing or indexing a default-constructed
iterator is reported and nothing changes. -/
theorem C96_debug_null (E : Env V) (hd : E.dbg = true) (x : It) (hx : x.deq = none) (n : Int) (w : World V) :
    xAdd E x n w = .exn .assertFail w ∧ xSub E x n w = .exn .assertFail w ∧ xRead E x w = .exn .assertFail w ∧
    xIndex E x n w = .exn .assertFail w := by
  have ha : xAdd E x n w = .exn .assertFail w := by
    unfold xAdd; exact Cmd.bind_exn (wassert_pure_false E hd (by simp [hx]) w)
  refine ⟨ha, ?_, ?_, ?_⟩
  · unfold xSub; exact Cmd.bind_exn (wassert_pure_false E hd (by simp [hx]) w)
  · unfold xRead; exact Cmd.bind_exn (wassert_pure_false E hd (by simp [hx]) w)
  · unfold xIndex; exact Cmd.bind_exn ha

theorem xLt_bad (E : Env V) (hd : E.dbg = true) (x y : It) (h : x.deq = none ∨ x.deq ≠ y.deq) (w : World V) :
    xLt E x y w = .exn .assertFail w := by
  unfold xLt
  by_cases hx : x.deq = none
  · exact Cmd.bind_exn (wassert_pure_false E hd (by simp [hx]) w)
  · rw [Cmd.bind_ok (wassert_pure_true E (by simp [hx]) w)]
    exact Cmd.bind_exn (wassert_pure_false E hd (by simp; exact h.resolve_left hx) w)

/-- C96, detection of mixed iterators: in a debug build, ordering or subtracting iterators of two different deques (or null
ones) is reported and nothing changes. -/
theorem C96_debug_mixed (E : Env V) (hd : E.dbg = true) (x y : It) (h : x.deq = none ∨ x.deq ≠ y.deq) (w : World V) :
    xLt E x y w = .exn .assertFail w ∧ xGt E x y w = .exn .assertFail w ∧ xLe E x y w = .exn .assertFail w ∧
    xGe E x y w = .exn .assertFail w ∧ xDiff E x y w = .exn .assertFail w := by
  have h' : y.deq = none ∨ y.deq ≠ x.deq := by
    rcases h with h | h
    · by_cases hy : y.deq = none
      · exact Or.inl hy
      · exact Or.inr (by rw [h]; exact hy)
    · exact Or.inr (Ne.symm h)
  have h1 := xLt_bad E hd x y h w
  have h2 := xLt_bad E hd y x h' w
  refine ⟨h1, h2, ?_, ?_, ?_⟩
  · unfold xLe; exact Cmd.bind_exn h2
  · unfold xGe; exact Cmd.bind_exn h1
  · unfold xDiff
    by_cases hx : x.deq = none
    · exact Cmd.bind_exn (wassert_pure_false E hd (by simp [hx]) w)
    · rw [Cmd.bind_ok (wassert_pure_true E (by simp [hx]) w)]
      exact Cmd.bind_exn (wassert_pure_false E hd (by simp; exact h.resolve_left hx) w)

theorem within_bad (E : Env V) (hd : E.dbg = true) (d : Nat) (a : It) (ha : a.deq ≠ some d) (cmp : It → It → Cmd (World V) Bool)
    (w : World V) : within E d a cmp w = .exn .assertFail w := by
  unfold within
  show Cmd.bind (itBegin d) _ w = _
  unfold Cmd.bind itBegin gets
  simp only
  exact Cmd.bind_exn (C96_debug_mixed E hd ⟨some d, (w d).b⟩ a (Or.inr (Ne.symm ha)) w).2.2.1

/-- C96, detection of foreign positions: in a debug build, `insert` and `erase` with an iterator that is null or belongs to
another deque are reported and no deque changes. -/
theorem C96_debug_foreign_position (E : Env V) (hd : E.dbg = true) (d : Nat) (pos : It) (hp : pos.deq ≠ some d) (n : Nat) (r : Ref V)
    (src : List V) (w : World V) :
    xInsert E d pos r w = .exn .assertFail w ∧ xInsertN E d pos n r w = .exn .assertFail w ∧
    xInsertRange E d pos src w = .exn .assertFail w ∧ xErase E d pos w = .exn .assertFail w ∧
    (∀ q, xEraseRange E d pos q w = .exn .assertFail w) ∧ (∀ q, xEraseRange E d q pos w = .exn .assertFail w) := by
  have hw := fun cmp => wassert_exn E hd (within_bad E hd d pos hp cmp w)
  refine ⟨Cmd.bind_exn (hw _), Cmd.bind_exn (hw _), Cmd.bind_exn (hw _), Cmd.bind_exn (hw _), fun q => ?_, fun q => ?_⟩
  · unfold xEraseRange
    by_cases hq : pos.deq = none ∨ pos.deq ≠ q.deq
    · exact Cmd.bind_exn (wassert_exn E hd (xLt_bad E hd pos q hq w))
    · obtain ⟨e, i⟩ := pos
      obtain ⟨e', j⟩ := q
      cases e with
      | none => simp at hq
      | some e =>
        simp at hq; subst hq
        have h1 := wassert_ok E (xLt_own E e i j w)
        split at h1
        · exact Cmd.bind_exn h1
        · rw [Cmd.bind_ok h1]; exact Cmd.bind_exn (hw _)
  · unfold xEraseRange
    by_cases hq : q.deq = none ∨ q.deq ≠ pos.deq
    · exact Cmd.bind_exn (wassert_exn E hd (xLt_bad E hd q pos hq w))
    · obtain ⟨e, i⟩ := pos
      obtain ⟨e', j⟩ := q
      cases e' with
      | none => simp at hq
      | some e' =>
        simp at hq; subst hq
        have h1 := wassert_ok E (xLt_own E e' j i w)
        split at h1
        · exact Cmd.bind_exn h1
        · rw [Cmd.bind_ok h1]
          exact Cmd.bind_exn (wassert_exn E hd (within_bad E hd d ⟨some e', j⟩ (by simpa using hp) _ w))

/-- The detection is the debug build's: with `NDEBUG` a null iterator is dereferenced. -/
theorem C96_release_null_undefined (E : Env V) (hd : E.dbg = false) (x : It) (hx : x.deq = none) (n : Int) (w : World V) :
    xAdd E x n w = .ub .nullDeref ∧ xRead E x w = .ub .nullDeref := by
  have h0 : wassert E (pure (decide (x.deq ≠ none))) w = .ok () w := by unfold wassert; rw [if_neg (by simp [hd])]; rfl
  constructor
  · unfold xAdd; rw [Cmd.bind_ok h0]; exact Cmd.bind_ub (by unfold owner; rw [hx]; rfl)
  · unfold xRead; rw [Cmd.bind_ok h0]; exact Cmd.bind_ub (by unfold owner; rw [hx]; rfl)

-- two deques in a debug build: erasing from deque 0 with iterators of deque 1 is reported
example : xEraseRange Deque.exE 0 ⟨some 1, 6⟩ ⟨some 1, 7⟩ (fun _ => Deque.exW) = .exn .assertFail (fun _ => Deque.exW) :=
  (C96_debug_foreign_position Deque.exE rfl 0 ⟨some 1, 6⟩ (by simp) 0 (.ext 0) [] _).2.2.2.2.1 _
-- and with its own iterators it is the erase of C10-C20
example : ∃ w, xErase Deque.exE 0 ⟨some 0, 6⟩ (fun _ => Deque.exW) = .ok ⟨some 0, 7⟩ w ∧ (w 0).b = 7 ∧ (w 1).b = 6 := by
  exact ⟨_, rfl, rfl, rfl⟩

end Verif.Props.DequeIter
