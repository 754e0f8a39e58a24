import Verif.Spec.TestDouble
import Verif.Props.Deque
namespace Verif.TD
open Verif Cmd
open _root_.Verif.Mtx (Err)
open _root_.Verif.Props.Deque (Holds slotOf ring_eq_mod)
variable {V α β : Type} {P : Plat} {E : Env V} {cap : Nat} {q : List V} {s : St V} {t : QSt V} {v : V}

theorem gets_bind {σ : Type} {f : σ → α} {k : α → Cmd σ β} {s : σ} : (gets f >>= k) s = k (f s) s := rfl
theorem pure_bind' {σ : Type} {a : α} {k : α → Cmd σ β} {s : σ} : ((pure a : Cmd σ α) >>= k) s = k a s := rfl
/-! ### The ring buffer -/
theorem nextIdx_mod {nb i : Nat} (h : i < nb) : MQ.nextIdx nb i = (i + 1) % nb := by
  unfold MQ.nextIdx
  split
  · rename_i h'; rw [Nat.mod_eq_of_lt h']
  · have : i + 1 = nb := by omega
    rw [this]; simp
theorem slot_inj {j k : Nat} (h : s.b < cap + 1) (hj : j ≤ cap) (hk : k ≤ cap) (he : slotOf cap s j = slotOf cap s k) : j = k := by
  unfold slotOf at he
  rw [← ring_eq_mod h (by omega), ← ring_eq_mod h (by omega)] at he
  exact (Deq.ring_bij h).inj j k (by omega) (by omega) he
theorem slot_lt {k : Nat} : slotOf cap s k < cap + 1 := Nat.mod_lt _ (by omega)

theorem Holds.fin' (h : Holds cap q s) : s.e = slotOf cap s q.length := h.fin
theorem Holds.beg' (h : Holds cap q s) : s.b = slotOf cap s 0 := by unfold slotOf; rw [Nat.add_zero, Nat.mod_eq_of_lt h.inb]
theorem Holds.size' (h : Holds cap q s) : rbSize s = q.length := by
  have h1 := h.inb; have h2 := h.le; have h3 := h.fin; have h4 := h.buf
  rw [← ring_eq_mod h1 (by omega)] at h3
  unfold Deq.ring at h3
  unfold rbSize; rw [h3, h4]
  split <;> split <;> omega
theorem Holds.full' (h : Holds cap q s) : rbFull s = decide (q.length = cap) := by
  unfold rbFull; rw [Holds.size' h, h.buf]; simp; rfl
theorem Holds.empty' (h : Holds cap q s) : rbEmpty s = decide (q = []) := by
  unfold rbEmpty
  have hle := h.le
  by_cases hq : q = []
  · subst hq
    have := Holds.fin' h; have h2 := Holds.beg' h
    simp at this; rw [this, ← h2]; simp
  · have hl : q.length ≠ 0 := by simpa using hq
    have : s.b ≠ s.e := by
      intro hh; rw [Holds.fin' h] at hh; rw [Holds.beg' h] at hh
      exact hl (slot_inj h.inb (by omega) hle (by simpa [slotOf] using hh)).symm
    simp [hq, this]

/-- `RingBuf::push` with the slot behind the last message raw. -/
theorem rbPush_run (h : Holds cap q s) :
    rbPush E v s = if E.thr s.cnt then .exn .elemThrow { s with cnt := s.cnt + 1 }
      else .ok () { s with slot := upd s.slot s.e (some v), cnt := s.cnt + 1, e := (s.e + 1) % (cap + 1) } := by
  have hlt : s.e < cap + 1 := by rw [Holds.fin' h]; exact slot_lt
  have hnone : s.slot s.e = none := by rw [Holds.fin' h, h.elems _ h.le]; simp
  have hb := h.buf
  unfold rbPush
  rw [gets_bind]
  have hc : construct E s.e (.ext v) s = if E.thr s.cnt then .exn .elemThrow { s with cnt := s.cnt + 1 }
      else .ok () { s with slot := upd s.slot s.e (some v), cnt := s.cnt + 1 } := by
    unfold construct; rw [if_neg (by omega), hnone]; rfl
  by_cases ht : E.thr s.cnt = true
  · rw [if_pos ht] at hc ⊢; exact Cmd.bind_exn hc
  · rw [if_neg ht] at hc ⊢; rw [Cmd.bind_ok hc]
    show Out.ok () _ = _
    dsimp only
    rw [hb, nextIdx_mod hlt]
theorem Holds.pushed {c : Nat} (h : Holds cap q s) (hl : q.length < cap) :
    Holds cap (q ++ [v]) { s with slot := upd s.slot s.e (some v), cnt := c, e := (s.e + 1) % (cap + 1) } := by
  refine ⟨h.buf, h.inb, ?_, by simp; omega, fun k hk => ?_⟩
  · dsimp only; rw [h.fin, Nat.mod_add_mod]; congr 1; simp; omega
  · show upd s.slot s.e (some v) (slotOf cap s k) = _
    by_cases hkl : k = q.length
    · subst hkl; rw [← Holds.fin' h]; simp
    · have : slotOf cap s k ≠ s.e := by
        rw [Holds.fin' h]; exact fun hh => hkl (slot_inj h.inb hk (by omega) hh)
      rw [upd_ne _ _ this, h.elems k hk, List.getElem?_append]
      split
      · rfl
      · rw [List.getElem?_eq_none (by omega), List.getElem?_eq_none (by simp; omega)]
theorem Holds.cnt {c : Nat} (h : Holds cap q s) : Holds cap q { s with cnt := c } := ⟨h.buf, h.inb, h.fin, h.le, h.elems⟩

theorem rbPop_run {x : V} {q' : List V} {want : Bool} (h : Holds cap (x :: q') s) :
    rbPop E want s = if want && E.thr s.cnt then .exn .elemThrow { s with cnt := s.cnt + 1 }
      else .ok (if want then some x else none)
        { s with slot := upd s.slot s.b none, cnt := s.cnt + (if want then 1 else 0), b := (s.b + 1) % (cap + 1) } := by
  have hx : s.slot s.b = some x := by
    have := h.elems 0 (by omega); rw [← Holds.beg' h] at this; simpa using this
  have hb := h.buf; have hi := h.inb
  unfold rbPop
  rw [gets_bind]
  have hd : ∀ c, destroySlot s.b { s with cnt := c } = .ok () { s with slot := upd s.slot s.b none, cnt := c } := by
    intro c; unfold destroySlot; dsimp only; rw [if_neg (by omega), hx]
  cases want with
  | false =>
    simp only [Bool.false_and, Bool.false_eq_true, if_false]
    rw [pure_bind', Cmd.bind_ok (hd s.cnt)]
    show Out.ok _ _ = _
    dsimp only; rw [hb, nextIdx_mod hi]; rfl
  | true =>
    simp only [Bool.true_and, if_true]
    have hr : readSlot s.b s = .ok x s := by unfold readSlot; rw [if_neg (by omega), hx]
    by_cases ht : E.thr s.cnt = true
    · rw [if_pos ht]
      exact Cmd.bind_exn (by rw [Cmd.bind_ok hr]; exact Cmd.bind_exn (by unfold copyOut; rw [if_pos ht]))
    · rw [if_neg ht]
      have : (do let x ← readSlot s.b; let y ← copyOut E x; pure (some y) : Cmd (St V) (Option V)) s = .ok (some x) { s with cnt := s.cnt + 1 } := by
        rw [Cmd.bind_ok hr, Cmd.bind_ok (by unfold copyOut; rw [if_neg ht])]; rfl
      rw [Cmd.bind_ok this, Cmd.bind_ok (hd _)]
      show Out.ok _ _ = _
      dsimp only; rw [hb, nextIdx_mod hi]
theorem Holds.popped {c : Nat} {x : V} {q' : List V} (h : Holds cap (x :: q') s) :
    Holds cap q' { s with slot := upd s.slot s.b none, cnt := c, b := (s.b + 1) % (cap + 1) } := by
  have hle := h.le; simp at hle
  refine ⟨h.buf, Nat.mod_lt _ (by omega), ?_, by omega, fun k hk => ?_⟩
  · dsimp only; rw [h.fin, Nat.mod_add_mod]; congr 1; simp; omega
  · show upd s.slot s.b none (((s.b + 1) % (cap + 1) + k) % (cap + 1)) = _
    have hs : ((s.b + 1) % (cap + 1) + k) % (cap + 1) = (s.b + (k + 1)) % (cap + 1) := by
      rw [Nat.mod_add_mod]; congr 1; omega
    rw [hs]
    by_cases hk' : k = cap
    · subst hk'
      rw [Nat.add_mod_right, Nat.mod_eq_of_lt h.inb, upd_same, List.getElem?_eq_none (by omega)]
    · have : slotOf cap s (k + 1) ≠ s.b := by
        rw [Holds.beg' h]
        exact fun hh => absurd (slot_inj (j := k + 1) (k := 0) h.inb (by omega) (by omega) (by simpa [slotOf] using hh)) (by omega)
      have h3 := h.elems (k + 1) (by omega)
      unfold slotOf at this h3
      rw [upd_ne _ _ this, h3]; simp
theorem rbPop_dead {want : Bool} (h : Holds cap ([] : List V) s) : rbPop E want s = .ub (if want then .deadRead else .deadDestroy) := by
  have hx : s.slot s.b = none := by
    have := h.elems 0 (by omega); rw [← Holds.beg' h] at this; simpa using this
  have hb := h.buf; have hi := h.inb
  unfold rbPop
  rw [gets_bind]
  cases want with
  | false =>
    rw [if_neg (by simp), pure_bind']
    exact Cmd.bind_ub (by unfold destroySlot; rw [if_neg (by omega), hx]; rfl)
  | true =>
    exact Cmd.bind_ub (Cmd.bind_ub (by unfold readSlot; rw [if_neg (by omega), hx]; rfl))

/-! ### The calls -/
/-- `t'` has done `l` more calls than `t`. -/
def more (t : QSt V) (m : St V) (l : List Os) : QSt V := ⟨m, t.log ++ l⟩

theorem lock_bind {m : Mx} {k : Err → Cmd (QSt V) β} :
    (lock P m >>= k) t = k (P t.log (.lock m)) (more t t.mem [.lock m (P t.log (.lock m))]) := rfl
theorem wait_run {b : Bit} : wait P b t = .ok (P t.log (.wait b)) (more t t.mem [.wait b (P t.log (.wait b))]) := rfl
theorem guarded_ok {m : Mx} {r : Err} {body : Cmd (QSt V) α} {a : α} {mm : St V} {l : List Os} (h : body t = .ok a (more t mm l)) :
    ∃ l', guarded m r body t = .ok a (more t mm (l ++ l')) := by
  unfold guarded; rw [h]
  by_cases hr : r = .OK
  · exact ⟨[.unlock m], by simp [hr, more]⟩
  · exact ⟨[], by simp [hr, more]⟩
theorem guarded_exn {m : Mx} {r : Err} {body : Cmd (QSt V) α} {e : Exn} {mm : St V} {l : List Os} (h : body t = .exn e (more t mm l)) :
    ∃ l', guarded m r body t = .exn e (more t mm (l ++ l')) := by
  unfold guarded; rw [h]
  by_cases hr : r = .OK
  · exact ⟨[.unlock m], by simp [hr, more]⟩
  · exact ⟨[], by simp [hr, more]⟩
theorem guarded_ub {m : Mx} {r : Err} {body : Cmd (QSt V) α} {f : Fault} (h : body t = .ub f) : guarded m r body t = .ub f := by
  unfold guarded; rw [h]
theorem more_mem {m : St V} {l : List Os} : (more t m l).mem = m := rfl
theorem more_more {m m' : St V} {l l' : List Os} : more (more t m l) m' l' = more t m' (l ++ l') := by simp [more]

theorem isFull_any : ∃ l, isFull P t = .ok (rbFull t.mem) (more t t.mem l) := by
  unfold isFull locking
  rw [lock_bind]
  have hb : ∀ t' : QSt V, t'.mem = t.mem → ∃ l, (do let b ← gets (fun q => rbFull q.mem); (if b then emit (.reset .notFull) else pure () : Cmd (QSt V) Unit); pure b : Cmd (QSt V) Bool) t'
      = .ok (rbFull t.mem) (more t' t'.mem l) := by
    intro t' ht
    rw [gets_bind, ht]
    cases rbFull t.mem
    · exact ⟨[], by simp [more, ← ht]; rfl⟩
    · exact ⟨[.reset .notFull], by rw [← ht]; rfl⟩
  obtain ⟨l, hl⟩ := hb (more t t.mem [.lock .rb (P t.log (.lock .rb))]) rfl
  obtain ⟨l', hl'⟩ := guarded_ok (m := .rb) (r := P t.log (.lock .rb)) hl
  exact ⟨_, by rw [hl', more_more]; rfl⟩
theorem isFull_run (h : Holds cap q t.mem) : ∃ l, isFull P t = .ok (decide (q.length = cap)) (more t t.mem l) := by
  rw [← Holds.full' h]; exact isFull_any
theorem isEmpty_run (h : Holds cap q t.mem) : ∃ l, isEmpty P t = .ok (decide (q = [])) (more t t.mem l) := by
  unfold isEmpty locking
  rw [lock_bind]
  have hb : ∀ t' : QSt V, t'.mem = t.mem → ∃ l, (do let b ← gets (fun q => rbEmpty q.mem); (if b then emit (.reset .notEmpty) else pure () : Cmd (QSt V) Unit); pure b : Cmd (QSt V) Bool) t'
      = .ok (decide (q = [])) (more t' t'.mem l) := by
    intro t' ht
    rw [gets_bind, ht, Holds.empty' h]
    cases decide (q = [])
    · exact ⟨[], by simp [more, ← ht]; rfl⟩
    · exact ⟨[.reset .notEmpty], by rw [← ht]; rfl⟩
  obtain ⟨l, hl⟩ := hb (more t t.mem [.lock .rb (P t.log (.lock .rb))]) rfl
  obtain ⟨l', hl'⟩ := guarded_ok (m := .rb) (r := P t.log (.lock .rb)) hl
  exact ⟨_, by rw [hl', more_more]; rfl⟩

theorem push_run {m : St V} (h : rbPush E v t.mem = .ok () m) : ∃ l, push P E v t = .ok () (more t m l) := by
  unfold push locking
  rw [lock_bind]
  have hb : (do onMem (rbPush E v); emit (.set .notEmpty) : Cmd (QSt V) Unit) (more t t.mem [.lock .rb (P t.log (.lock .rb))])
      = .ok () (more t m ([.lock .rb (P t.log (.lock .rb))] ++ [.set .notEmpty])) := by
    rw [Cmd.bind_ok (a := ()) (s' := more t m [.lock .rb (P t.log (.lock .rb))]) (by unfold onMem; dsimp only [more]; rw [h])]
    simp [emit, more]
  rw [← more_more (m := t.mem)] at hb
  obtain ⟨l', hl'⟩ := guarded_ok (m := .rb) (r := P t.log (.lock .rb)) hb
  exact ⟨_, by rw [hl', more_more]⟩
theorem push_exn {m : St V} {e : Exn} (h : rbPush E v t.mem = .exn e m) : ∃ l, push P E v t = .exn e (more t m l) := by
  unfold push locking
  rw [lock_bind]
  have hb : (do onMem (rbPush E v); emit (.set .notEmpty) : Cmd (QSt V) Unit) (more t t.mem [.lock .rb (P t.log (.lock .rb))])
      = .exn e (more t m ([.lock .rb (P t.log (.lock .rb))] ++ [])) := by
    rw [Cmd.bind_exn (e := e) (s' := more t m [.lock .rb (P t.log (.lock .rb))]) (by unfold onMem; dsimp only [more]; rw [h])]
    simp
  rw [← more_more (m := t.mem)] at hb
  obtain ⟨l', hl'⟩ := guarded_exn (m := .rb) (r := P t.log (.lock .rb)) hb
  exact ⟨_, by rw [hl', more_more]⟩
theorem push_ub {f : Fault} (h : rbPush E v t.mem = .ub f) : push P E v t = .ub f := by
  unfold push locking
  rw [lock_bind]
  exact guarded_ub (Cmd.bind_ub (by unfold onMem; dsimp only [more]; rw [h]))
theorem pop_run {m : St V} {want : Bool} {r : Option V} (h : rbPop E want t.mem = .ok r m) : ∃ l, pop P E want t = .ok r (more t m l) := by
  unfold pop locking
  rw [lock_bind]
  have hb : (do let r ← onMem (rbPop E want); emit (.set .notFull); pure r : Cmd (QSt V) (Option V)) (more t t.mem [.lock .rb (P t.log (.lock .rb))])
      = .ok r (more t m ([.lock .rb (P t.log (.lock .rb))] ++ [.set .notFull])) := by
    rw [Cmd.bind_ok (a := r) (s' := more t m [.lock .rb (P t.log (.lock .rb))]) (by unfold onMem; dsimp only [more]; rw [h])]
    rw [Cmd.bind_ok (m := emit (.set .notFull)) rfl]
    simp [more, pure, Cmd.pure]
  rw [← more_more (m := t.mem)] at hb
  obtain ⟨l', hl'⟩ := guarded_ok (m := .rb) (r := P t.log (.lock .rb)) hb
  exact ⟨_, by rw [hl', more_more]⟩
theorem pop_exn {m : St V} {want : Bool} {e : Exn} (h : rbPop E want t.mem = .exn e m) : ∃ l, pop P E want t = .exn e (more t m l) := by
  unfold pop locking
  rw [lock_bind]
  have hb : (do let r ← onMem (rbPop E want); emit (.set .notFull); pure r : Cmd (QSt V) (Option V)) (more t t.mem [.lock .rb (P t.log (.lock .rb))])
      = .exn e (more t m ([.lock .rb (P t.log (.lock .rb))] ++ [])) := by
    rw [Cmd.bind_exn (e := e) (s' := more t m [.lock .rb (P t.log (.lock .rb))]) (by unfold onMem; dsimp only [more]; rw [h])]
    simp
  rw [← more_more (m := t.mem)] at hb
  obtain ⟨l', hl'⟩ := guarded_exn (m := .rb) (r := P t.log (.lock .rb)) hb
  exact ⟨_, by rw [hl', more_more]⟩
theorem pop_ub {want : Bool} {f : Fault} (h : rbPop E want t.mem = .ub f) : pop P E want t = .ub f := by
  unfold pop locking
  rw [lock_bind]
  exact guarded_ub (Cmd.bind_ub (by unfold onMem; dsimp only [more]; rw [h]))

/-- The part of `send` after the queue was found to have room, or the wait to have succeeded. -/
theorem sendPush_run {m : St V} (h : rbPush E v t.mem = if E.thr t.mem.cnt then .exn .elemThrow { t.mem with cnt := t.mem.cnt + 1 } else .ok () m) :
    ∃ l, (do let r ← catching (push P E v); pure r.1 : Cmd (QSt V) Err) t
      = .ok (if E.thr t.mem.cnt then .OtherError else .OK) (more t (if E.thr t.mem.cnt then { t.mem with cnt := t.mem.cnt + 1 } else m) l) := by
  by_cases ht : E.thr t.mem.cnt = true
  · rw [if_pos ht] at h; simp only [ht, if_true]
    obtain ⟨l, hl⟩ := push_exn (P := P) h
    exact ⟨l, by rw [Cmd.bind_ok (a := (.OtherError, none)) (by unfold catching; rw [hl])]; rfl⟩
  · rw [if_neg ht] at h; simp only [ht]
    obtain ⟨l, hl⟩ := push_run (P := P) h
    exact ⟨l, by rw [Cmd.bind_ok (a := (.OK, some ())) (by unfold catching; rw [hl])]; rfl⟩
theorem recvPop_run {m : St V} {want : Bool} {r : Option V}
    (h : rbPop E want t.mem = if want && E.thr t.mem.cnt then .exn .elemThrow { t.mem with cnt := t.mem.cnt + 1 } else .ok r m) :
    ∃ l, (do let r ← catching (pop P E want); pure (r.1, r.2.join) : Cmd (QSt V) (Err × Option V)) t
      = .ok (if want && E.thr t.mem.cnt then (.OtherError, none) else (.OK, r))
        (more t (if want && E.thr t.mem.cnt then { t.mem with cnt := t.mem.cnt + 1 } else m) l) := by
  by_cases ht : (want && E.thr t.mem.cnt) = true
  · rw [if_pos ht] at h; simp only [ht, if_true]
    obtain ⟨l, hl⟩ := pop_exn (P := P) h
    exact ⟨l, by rw [Cmd.bind_ok (a := (.OtherError, none)) (by unfold catching; rw [hl])]; rfl⟩
  · rw [if_neg ht] at h; simp only [ht]
    obtain ⟨l, hl⟩ := pop_run (P := P) h
    exact ⟨l, by rw [Cmd.bind_ok (a := (.OK, some r)) (by unfold catching; rw [hl])]; rfl⟩

theorem sendBody_cases (h : Holds cap q t.mem) :
    (q.length = cap ∧ ∃ l1 l2, P (t.log ++ l1) (.wait .notFull) ≠ .OK ∧ sendBody P E v t = .ok (P (t.log ++ l1) (.wait .notFull)) (more t t.mem l2)) ∨
    ((q.length = cap → ∃ l1, P (t.log ++ l1) (.wait .notFull) = .OK) ∧
      ∃ l, sendBody P E v t = .ok (if E.thr t.mem.cnt then .OtherError else .OK) (more t (if E.thr t.mem.cnt then { t.mem with cnt := t.mem.cnt + 1 }
        else { t.mem with slot := upd t.mem.slot t.mem.e (some v), cnt := t.mem.cnt + 1, e := (t.mem.e + 1) % (cap + 1) }) l)) := by
  unfold sendBody
  obtain ⟨lf, hf⟩ := isFull_run (P := P) (t := t) h
  rw [Cmd.bind_ok hf]
  by_cases hfull : q.length = cap
  · simp only [hfull, decide_true, if_true]
    rw [Cmd.bind_ok wait_run, show (more t t.mem lf).log = t.log ++ lf from rfl]
    generalize hw : P (t.log ++ lf) (.wait .notFull) = w
    by_cases hwo : w = .OK
    · subst hwo
      right
      refine ⟨fun _ => ⟨_, hw⟩, ?_⟩
      obtain ⟨lp, hp⟩ := sendPush_run (P := P) (t := more t t.mem (lf ++ [.wait .notFull .OK])) (rbPush_run (E := E) (v := v) (cap := cap) h)
      simp only [more_more, more_mem, ne_eq, not_true_eq_false, if_false]
      exact ⟨_, by rw [hp, more_more]; rfl⟩
    · left
      refine ⟨trivial, lf, lf ++ [.wait .notFull w], by rw [hw]; exact hwo, ?_⟩
      simp only [more_more, more_mem, ne_eq, hwo, not_false_eq_true, if_true, hw]; rfl
  · right
    refine ⟨fun hh => absurd hh hfull, ?_⟩
    simp only [hfull, decide_false, Bool.false_eq_true, if_false]
    rw [pure_bind']
    obtain ⟨lp, hp⟩ := sendPush_run (P := P) (t := more t t.mem lf) (rbPush_run (E := E) (v := v) (cap := cap) h)
    simp only [ne_eq, not_true_eq_false, if_false]
    exact ⟨_, by rw [hp, more_more]; rfl⟩

theorem receiveBody_cases {want : Bool} (h : Holds cap q t.mem) :
    (q = [] ∧ ∃ l1 l2, P (t.log ++ l1) (.wait .notEmpty) ≠ .OK ∧
      receiveBody P E want t = .ok (P (t.log ++ l1) (.wait .notEmpty), none) (more t t.mem l2)) ∨
    (q = [] ∧ (∃ l1, P (t.log ++ l1) (.wait .notEmpty) = .OK) ∧ receiveBody P E want t = .ub (if want then .deadRead else .deadDestroy)) ∨
    (∃ x q', q = x :: q' ∧
      ∃ l, receiveBody P E want t = .ok (if want && E.thr t.mem.cnt then (.OtherError, none) else (.OK, if want then some x else none))
        (more t (if want && E.thr t.mem.cnt then { t.mem with cnt := t.mem.cnt + 1 }
          else { t.mem with slot := upd t.mem.slot t.mem.b none, cnt := t.mem.cnt + (if want then 1 else 0), b := (t.mem.b + 1) % (cap + 1) }) l)) := by
  unfold receiveBody
  obtain ⟨lf, hf⟩ := isEmpty_run (P := P) (t := t) h
  rw [Cmd.bind_ok hf]
  cases q with
  | nil =>
    simp only [decide_true, if_true]
    rw [Cmd.bind_ok wait_run, show (more t t.mem lf).log = t.log ++ lf from rfl]
    generalize hw : P (t.log ++ lf) (.wait .notEmpty) = w
    by_cases hwo : w = .OK
    · subst hwo
      right; left
      refine ⟨trivial, ⟨_, hw⟩, ?_⟩
      simp only [more_more, more_mem, ne_eq, not_true_eq_false, if_false]
      exact Cmd.bind_ub (by unfold catching; rw [pop_ub (P := P) (t := more t t.mem (lf ++ [Os.wait .notEmpty .OK])) (rbPop_dead (E := E) (want := want) (cap := cap) h)])
    · left
      refine ⟨trivial, lf, lf ++ [.wait .notEmpty w], by rw [hw]; exact hwo, ?_⟩
      simp only [more_more, more_mem, ne_eq, hwo, not_false_eq_true, if_true, hw]; rfl
  | cons x q' =>
    right; right
    refine ⟨x, q', rfl, ?_⟩
    simp only [reduceCtorEq, decide_false, Bool.false_eq_true, if_false]
    rw [pure_bind']
    obtain ⟨lp, hp⟩ := recvPop_run (P := P) (t := more t t.mem lf) (rbPop_run (E := E) (want := want) (cap := cap) h)
    simp only [ne_eq, not_true_eq_false, if_false]
    exact ⟨_, by rw [hp, more_more]; rfl⟩

theorem send_locked (h : P t.log (.lock .send) = .OK) : send P E v t = guarded .send .OK (sendBody P E v) (more t t.mem [.lock .send .OK]) := by
  unfold send; rw [lock_bind, h]; rfl
theorem send_unlocked (h : P t.log (.lock .send) ≠ .OK) :
    send P E v t = .ok (P t.log (.lock .send)) (more t t.mem [.lock .send (P t.log (.lock .send))]) := by
  unfold send; rw [lock_bind, if_pos h]; rfl
theorem receive_locked {want : Bool} (h : P t.log (.lock .recv) = .OK) :
    receive P E want t = guarded .recv .OK (receiveBody P E want) (more t t.mem [.lock .recv .OK]) := by
  unfold receive; rw [lock_bind, h]; rfl
theorem receive_unlocked {want : Bool} (h : P t.log (.lock .recv) ≠ .OK) :
    receive P E want t = .ok (P t.log (.lock .recv), none) (more t t.mem [.lock .recv (P t.log (.lock .recv))]) := by
  unfold receive; rw [lock_bind, if_pos h]; rfl

/-- The outcomes of `send` once it has the sender mutex. -/
theorem send_cases (h : Holds cap q t.mem) (hl : P t.log (.lock .send) = .OK) :
    (q.length = cap ∧ ∃ l1 l2, P (t.log ++ l1) (.wait .notFull) ≠ .OK ∧ send P E v t = .ok (P (t.log ++ l1) (.wait .notFull)) (more t t.mem l2)) ∨
    ((q.length = cap → ∃ l1, P (t.log ++ l1) (.wait .notFull) = .OK) ∧
      ∃ l, send P E v t = .ok (if E.thr t.mem.cnt then .OtherError else .OK) (more t (if E.thr t.mem.cnt then { t.mem with cnt := t.mem.cnt + 1 }
        else { t.mem with slot := upd t.mem.slot t.mem.e (some v), cnt := t.mem.cnt + 1, e := (t.mem.e + 1) % (cap + 1) }) l)) := by
  rw [send_locked hl]
  have hlog : ∀ l1, (more t t.mem [.lock .send .OK]).log ++ l1 = t.log ++ ([.lock .send .OK] ++ l1) := by simp [more]
  rcases sendBody_cases (P := P) (E := E) (v := v) (t := more t t.mem [.lock .send .OK]) h with ⟨hf, l1, l2, hw, hx⟩ | ⟨hf, l, hx⟩
  · obtain ⟨l', hl'⟩ := guarded_ok (m := .send) (r := .OK) hx
    rw [hlog] at hw hl'
    exact Or.inl ⟨hf, _, _, hw, by rw [hl', more_more]; rfl⟩
  · obtain ⟨l', hl'⟩ := guarded_ok (m := .send) (r := .OK) hx
    refine Or.inr ⟨fun hh => ?_, _, by rw [hl', more_more]; rfl⟩
    obtain ⟨l1, h1⟩ := hf hh
    rw [hlog] at h1; exact ⟨_, h1⟩
theorem receive_cases {want : Bool} (h : Holds cap q t.mem) (hl : P t.log (.lock .recv) = .OK) :
    (q = [] ∧ ∃ l1 l2, P (t.log ++ l1) (.wait .notEmpty) ≠ .OK ∧
      receive P E want t = .ok (P (t.log ++ l1) (.wait .notEmpty), none) (more t t.mem l2)) ∨
    (q = [] ∧ (∃ l1, P (t.log ++ l1) (.wait .notEmpty) = .OK) ∧ receive P E want t = .ub (if want then .deadRead else .deadDestroy)) ∨
    (∃ x q', q = x :: q' ∧
      ∃ l, receive P E want t = .ok (if want && E.thr t.mem.cnt then (.OtherError, none) else (.OK, if want then some x else none))
        (more t (if want && E.thr t.mem.cnt then { t.mem with cnt := t.mem.cnt + 1 }
          else { t.mem with slot := upd t.mem.slot t.mem.b none, cnt := t.mem.cnt + (if want then 1 else 0), b := (t.mem.b + 1) % (cap + 1) }) l)) := by
  rw [receive_locked hl]
  have hlog : ∀ l1, (more t t.mem [.lock .recv .OK]).log ++ l1 = t.log ++ ([.lock .recv .OK] ++ l1) := by simp [more]
  rcases receiveBody_cases (P := P) (E := E) (want := want) (t := more t t.mem [.lock .recv .OK]) h with ⟨hf, l1, l2, hw, hx⟩ | ⟨hf, ⟨l1, h1⟩, hx⟩ | ⟨x, q', hf, l, hx⟩
  · obtain ⟨l', hl'⟩ := guarded_ok (m := .recv) (r := .OK) hx
    rw [hlog] at hw hl'
    exact Or.inl ⟨hf, _, _, hw, by rw [hl', more_more]; rfl⟩
  · rw [hlog] at h1
    exact Or.inr (Or.inl ⟨hf, ⟨_, h1⟩, guarded_ub hx⟩)
  · obtain ⟨l', hl'⟩ := guarded_ok (m := .recv) (r := .OK) hx
    exact Or.inr (Or.inr ⟨x, q', hf, _, by rw [hl', more_more]; rfl⟩)
theorem getSize_run {n : Nat} (h : rbSize t.mem = n) : ∃ l, getSize P t = .ok n (more t t.mem l) := by
  unfold getSize locking
  rw [lock_bind]
  obtain ⟨l', hl'⟩ := guarded_ok (m := .rb) (r := P t.log (.lock .rb)) (t := more t t.mem [.lock .rb (P t.log (.lock .rb))])
    (body := gets (fun q : QSt V => rbSize q.mem)) (a := n) (mm := t.mem) (l := []) (by rw [← h]; simp [more, gets])
  exact ⟨_, by rw [hl', more_more]⟩

/-! ### Lock discipline -/
theorem held_append {st : List Mx} {a b : List Os} : held st (a ++ b) = (held st a).bind (fun st' => held st' b) := by
  fun_induction held st a <;> simp_all [held]

/-- A command that, started with the mutexes `st` held, makes legal calls and ends with the same mutexes held. -/
def Bal (st : List Mx) (m : Cmd (QSt V) α) : Prop :=
  ∀ t, match m t with
    | .ok _ t' => ∃ l, t'.log = t.log ++ l ∧ held st l = some st
    | .exn _ t' => ∃ l, t'.log = t.log ++ l ∧ held st l = some st
    | _ => True
variable {st : List Mx}
theorem Bal.pure {a : α} : Bal st (pure a : Cmd (QSt V) α) := fun t => ⟨[], by simp [held]⟩
theorem Bal.gets {f : QSt V → α} : Bal st (gets f) := fun t => ⟨[], by simp [held]⟩
theorem Bal.bind {m : Cmd (QSt V) α} {k : α → Cmd (QSt V) β} (h : Bal st m) (hk : ∀ a, Bal st (k a)) : Bal st (m >>= k) := by
  intro t
  have h1 := h t
  show match (Cmd.bind m k) t with | .ok _ t' => _ | .exn _ t' => _ | _ => True
  unfold Cmd.bind
  cases hm : m t with
  | ok a t1 =>
    rw [hm] at h1; obtain ⟨l1, e1, b1⟩ := h1
    dsimp only
    have h2 := hk a t1
    cases hk2 : k a t1 <;> simp only [hk2] at h2 ⊢
    all_goals obtain ⟨l2, e2, b2⟩ := h2
    all_goals exact ⟨l1 ++ l2, by rw [e2, e1, List.append_assoc], by rw [held_append, b1]; exact b2⟩
  | exn e t1 => rw [hm] at h1; exact h1
  | ub f => trivial
  | diverge => trivial
theorem Bal.ite {c : Prop} [Decidable c] {m m' : Cmd (QSt V) α} (h : c → Bal st m) (h' : ¬ c → Bal st m') : Bal st (if c then m else m') := by
  split
  · exact h ‹_›
  · exact h' ‹_›
theorem Bal.onMem {m : Cmd (St V) α} : Bal st (onMem m) := by
  intro t; unfold TD.onMem
  cases m t.mem <;> first | trivial | exact ⟨[], by simp [held]⟩
theorem Bal.emit {o : Os} (h : (∃ b, o = .set b) ∨ ∃ b, o = .reset b) : Bal st (emit o : Cmd (QSt V) Unit) := by
  intro t; refine ⟨[o], rfl, ?_⟩
  rcases h with ⟨b, rfl⟩ | ⟨b, rfl⟩ <;> simp [held]
theorem Bal.wait {b : Bit} (h : Mx.rb ∉ st) : Bal st (wait P b : Cmd (QSt V) Err) := by
  intro t; exact ⟨_, rfl, by simp [held, h]⟩
theorem Bal.catching {m : Cmd (QSt V) α} (h : Bal st m) : Bal st (catching m) := by
  intro t; have h1 := h t
  unfold TD.catching
  cases hm : m t with
  | ok a t1 => rw [hm] at h1; exact h1
  | exn e t1 => rw [hm] at h1; cases e <;> exact h1
  | ub f => trivial
  | diverge => trivial
/-- Lock, and run a scope with a guard if that succeeded. -/
theorem Bal.locked {m : Mx} {k : Err → Cmd (QSt V) α} {body : Cmd (QSt V) α} (hm : m ∉ st) (hb : Bal (m :: st) body) (hok : k .OK = guarded m .OK body)
    (hk : ∀ r, r ≠ .OK → Bal st (k r)) : Bal st (lock P m >>= k) := by
  intro t
  rw [lock_bind]
  generalize P t.log (.lock m) = r
  by_cases hr : r = .OK
  · subst hr
    rw [hok]; unfold guarded
    have h1 := hb (more t t.mem [.lock m .OK])
    cases hx : body (more t t.mem [.lock m .OK]) with
    | ok a t1 =>
      rw [hx] at h1; obtain ⟨l, e1, b1⟩ := h1
      exact ⟨[.lock m .OK] ++ l ++ [.unlock m], by simp [e1, more], by simp [held_append, held, hm, b1]⟩
    | exn e t1 =>
      rw [hx] at h1; obtain ⟨l, e1, b1⟩ := h1
      exact ⟨[.lock m .OK] ++ l ++ [.unlock m], by simp [e1, more], by simp [held_append, held, hm, b1]⟩
    | ub f => trivial
    | diverge => trivial
  · have h1 := hk r hr (more t t.mem [.lock m r])
    have hl : held st [.lock m r] = some st := by cases r <;> first | exact absurd rfl hr | simp [held, hm]
    cases hx : k r (more t t.mem [.lock m r]) with
    | ok a t1 =>
      rw [hx] at h1; obtain ⟨l, e1, b1⟩ := h1
      exact ⟨[.lock m r] ++ l, by simp [e1, more], by rw [held_append, hl]; exact b1⟩
    | exn e t1 =>
      rw [hx] at h1; obtain ⟨l, e1, b1⟩ := h1
      exact ⟨[.lock m r] ++ l, by simp [e1, more], by rw [held_append, hl]; exact b1⟩
    | ub f => trivial
    | diverge => trivial
theorem guarded_no {m : Mx} {r : Err} {body : Cmd (QSt V) α} (h : r ≠ .OK) : guarded m r body = body := by
  funext t; unfold guarded; cases body t <;> simp [h]
theorem Bal.locking {m : Mx} {body : Cmd (QSt V) α} (hm : m ∉ st) (hb : Bal (m :: st) body) (hb' : Bal st body) : Bal st (locking P m body) :=
  Bal.locked hm hb rfl (fun r hr => by rw [guarded_no hr]; exact hb')

theorem Bal.isFull (h : Mx.rb ∉ st) : Bal st (isFull P : Cmd (QSt V) Bool) := by
  have : ∀ st', Bal st' (do let b ← Cmd.gets (fun q => rbFull q.mem); (if b then TD.emit (.reset .notFull) else Pure.pure () : Cmd (QSt V) Unit); Pure.pure b : Cmd (QSt V) Bool) :=
    fun st' => Bal.bind Bal.gets fun b => Bal.bind (Bal.ite (fun _ => Bal.emit (Or.inr ⟨_, rfl⟩)) fun _ => Bal.pure) fun _ => Bal.pure
  exact Bal.locking h (this _) (this _)
theorem Bal.isEmpty (h : Mx.rb ∉ st) : Bal st (isEmpty P : Cmd (QSt V) Bool) := by
  have : ∀ st', Bal st' (do let b ← Cmd.gets (fun q => rbEmpty q.mem); (if b then TD.emit (.reset .notEmpty) else Pure.pure () : Cmd (QSt V) Unit); Pure.pure b : Cmd (QSt V) Bool) :=
    fun st' => Bal.bind Bal.gets fun b => Bal.bind (Bal.ite (fun _ => Bal.emit (Or.inr ⟨_, rfl⟩)) fun _ => Bal.pure) fun _ => Bal.pure
  exact Bal.locking h (this _) (this _)
theorem Bal.push (h : Mx.rb ∉ st) : Bal st (push P E v) := by
  have : ∀ st', Bal st' (do TD.onMem (rbPush E v); TD.emit (.set .notEmpty) : Cmd (QSt V) Unit) :=
    fun st' => Bal.bind Bal.onMem fun b => Bal.emit (Or.inl ⟨_, rfl⟩)
  exact Bal.locking h (this _) (this _)
theorem Bal.pop {want : Bool} (h : Mx.rb ∉ st) : Bal st (pop P E want) := by
  have : ∀ st', Bal st' (do let r ← TD.onMem (rbPop E want); TD.emit (.set .notFull); Pure.pure r : Cmd (QSt V) (Option V)) :=
    fun st' => Bal.bind Bal.onMem fun b => Bal.bind (Bal.emit (Or.inl ⟨_, rfl⟩)) fun _ => Bal.pure
  exact Bal.locking h (this _) (this _)
theorem Bal.send : Bal [] (send P E v) := by
  have hb : Bal [.send] (sendBody P E v) :=
    Bal.bind (Bal.isFull (by simp)) fun _ => Bal.bind (Bal.ite (fun _ => Bal.wait (by simp)) fun _ => Bal.pure) fun _ =>
      Bal.ite (fun _ => Bal.pure) fun _ => Bal.bind (Bal.catching (Bal.push (by simp))) fun _ => Bal.pure
  exact Bal.locked (by simp) hb rfl fun r hr => by rw [if_pos hr]; exact Bal.pure
theorem Bal.receive {want : Bool} : Bal [] (receive P E want) := by
  have hb : Bal [.recv] (receiveBody P E want) :=
    Bal.bind (Bal.isEmpty (by simp)) fun _ => Bal.bind (Bal.ite (fun _ => Bal.wait (by simp)) fun _ => Bal.pure) fun _ =>
      Bal.ite (fun _ => Bal.pure) fun _ => Bal.bind (Bal.catching (Bal.pop (by simp))) fun _ => Bal.pure
  exact Bal.locked (by simp) hb rfl fun r hr => by rw [if_pos hr]; exact Bal.pure
theorem Bal.getSize : Bal [] (getSize P : Cmd (QSt V) Nat) := Bal.locking (by simp) Bal.gets Bal.gets
theorem Bal.exec {o : Op V} : Bal [] (exec P E o) := by
  cases o with
  | send v => exact Bal.bind Bal.send fun _ => Bal.pure
  | receive w => exact Bal.bind Bal.receive fun _ => Bal.pure
  | getSize => exact Bal.bind Bal.getSize fun _ => Bal.pure

/-! ### Signals -/
/-- If `m` returns normally with a value satisfying `R`, the calls it made include `o`. -/
def Says (R : α → Prop) (o : Os) (m : Cmd (QSt V) α) : Prop := ∀ t a t', m t = .ok a t' → ∃ l, t'.log = t.log ++ l ∧ (R a → o ∈ l)
variable {R : α → Prop} {R' : β → Prop} {o : Os}
theorem Bal.says {m : Cmd (QSt V) α} (h : Bal st m) (hR : ∀ a, ¬ R a) : Says R o m := by
  intro t a t' hx
  have := h t; rw [hx] at this; obtain ⟨l, e, _⟩ := this
  exact ⟨l, e, fun hr => absurd hr (hR _)⟩
theorem Says.bindR {m : Cmd (QSt V) α} {k : α → Cmd (QSt V) β} (h : Bal st m) (hk : ∀ a, Says R' o (k a)) : Says R' o (m >>= k) := by
  intro t b t' hx
  cases hm : m t with
  | ok a t1 =>
    rw [Cmd.bind_ok hm] at hx
    have h1 := h t; rw [hm] at h1; obtain ⟨l1, e1, _⟩ := h1
    obtain ⟨l2, e2, r2⟩ := hk a t1 b t' hx
    exact ⟨l1 ++ l2, by rw [e2, e1, List.append_assoc], fun hr => List.mem_append.mpr (Or.inr (r2 hr))⟩
  | exn e t1 => rw [Cmd.bind_exn hm] at hx; cases hx
  | ub f => rw [Cmd.bind_ub hm] at hx; cases hx
  | diverge =>
    have : (m >>= k) t = .diverge := by show Cmd.bind m k t = _; unfold Cmd.bind; rw [hm]
    rw [this] at hx; cases hx
/-- A first part that makes the call whenever the whole succeeds. -/
theorem Says.map {m : Cmd (QSt V) α} {f : α → β} (h : Says R o m) (hR : ∀ a, R' (f a) → R a) : Says R' o (m >>= fun a => pure (f a)) := by
  intro t b t' hx
  cases hm : m t with
  | ok a t1 =>
    rw [Cmd.bind_ok hm] at hx; cases hx
    obtain ⟨l, e, r⟩ := h t a _ hm
    exact ⟨l, e, fun hr => r (hR _ hr)⟩
  | exn e t1 => rw [Cmd.bind_exn hm] at hx; cases hx
  | ub f => rw [Cmd.bind_ub hm] at hx; cases hx
  | diverge =>
    have : (m >>= fun a => (Pure.pure (f a) : Cmd (QSt V) β)) t = .diverge := by show Cmd.bind m _ t = _; unfold Cmd.bind; rw [hm]
    rw [this] at hx; cases hx
theorem Says.ite {c : Prop} [Decidable c] {m m' : Cmd (QSt V) α} (h : c → Says R o m) (h' : ¬ c → Says R o m') : Says R o (if c then m else m') := by
  split
  · exact h ‹_›
  · exact h' ‹_›
theorem Says.emit {R : Unit → Prop} : Says R o (emit o : Cmd (QSt V) Unit) := by
  intro t a t' hx; cases hx; exact ⟨[o], rfl, fun _ => by simp⟩
theorem Says.guarded {m : Mx} {r : Err} {body : Cmd (QSt V) α} (h : Says R o body) : Says R o (guarded m r body) := by
  intro t a t' hx
  unfold TD.guarded at hx
  cases hb : body t with
  | ok a1 t1 =>
    rw [hb] at hx; cases hx
    obtain ⟨l, e, hr⟩ := h t _ _ hb
    by_cases ho : r = .OK
    · exact ⟨l ++ [.unlock m], by simp [ho, e], fun hh => List.mem_append.mpr (Or.inl (hr hh))⟩
    · exact ⟨l, by simp [ho, e], hr⟩
  | exn e t1 => rw [hb] at hx; cases hx
  | ub f => rw [hb] at hx; cases hx
  | diverge => rw [hb] at hx; cases hx
theorem Says.lock {m : Mx} {k : Err → Cmd (QSt V) β} (hk : ∀ a, Says R' o (k a)) : Says R' o (lock P m >>= k) := by
  intro t b t' hx
  rw [lock_bind] at hx
  obtain ⟨l, e, r⟩ := hk _ _ _ _ hx
  exact ⟨.lock m (P t.log (.lock m)) :: l, by rw [e]; simp [more], fun hr => List.mem_cons_of_mem _ (r hr)⟩
theorem Says.catching {m : Cmd (QSt V) α} (hB : Bal st m) (h : Says (fun _ => True) o m) : Says (fun r => r.1 = .OK) o (catching m) := by
  intro t a t' hx
  unfold TD.catching at hx
  cases hm : m t with
  | ok a1 t1 =>
    rw [hm] at hx; cases hx
    obtain ⟨l, e, r⟩ := h _ _ _ hm
    exact ⟨l, e, fun _ => r trivial⟩
  | exn e t1 =>
    have hb := hB t
    rw [hm] at hx hb
    obtain ⟨l, e1, _⟩ := hb
    cases e <;> simp at hx
    all_goals obtain ⟨rfl, rfl⟩ := hx
    all_goals exact ⟨l, e1, fun hc => by cases hc⟩
  | ub f => rw [hm] at hx; cases hx
  | diverge => rw [hm] at hx; cases hx
theorem Says.push : Says (fun _ => True) (.set .notEmpty) (push P E v) :=
  Says.lock fun _ => Says.guarded (Says.bindR (st := []) Bal.onMem fun _ => Says.emit)
theorem Says.pop {want : Bool} : Says (fun _ => True) (.set .notFull) (pop P E want) :=
  Says.lock fun _ => Says.guarded (Says.bindR (st := []) Bal.onMem fun _ => Says.map (R := fun _ => True) Says.emit fun _ h => h)
theorem Says.send : Says (fun e => e = .OK) (.set .notEmpty) (send P E v) := by
  refine Says.lock fun e => Says.ite (fun he => ?_) fun _ => Says.guarded ?_
  · intro t a t' hx; cases hx; exact ⟨[], by simp, fun h => absurd h he⟩
  · refine Says.bindR (st := []) (Bal.isFull (by simp)) fun b => Says.bindR (st := []) (Bal.ite (fun _ => Bal.wait (by simp)) fun _ => Bal.pure) fun e => ?_
    refine Says.ite (fun he => ?_) fun _ => Says.map (Says.catching (st := []) (Bal.push (by simp)) Says.push) fun _ h => h
    intro t a t' hx; cases hx; exact ⟨[], by simp, fun h => absurd h he⟩
theorem Says.receive {want : Bool} : Says (fun r => r.1 = .OK) (.set .notFull) (receive P E want) := by
  refine Says.lock fun e => Says.ite (fun he => ?_) fun _ => Says.guarded ?_
  · intro t a t' hx; cases hx; exact ⟨[], by simp, fun h => absurd h he⟩
  · refine Says.bindR (st := []) (Bal.isEmpty (by simp)) fun b => Says.bindR (st := []) (Bal.ite (fun _ => Bal.wait (by simp)) fun _ => Bal.pure) fun e => ?_
    refine Says.ite (fun he => ?_) fun _ => Says.map (Says.catching (st := []) (Bal.pop (by simp)) Says.pop) fun _ h => h
    intro t a t' hx; cases hx; exact ⟨[], by simp, fun h => absurd h he⟩
end Verif.TD
