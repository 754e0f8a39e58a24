import Verif.Model.Mutex
/-
Properties C37–C40: mutexes, for every schedule of any number of threads.

Specification: the ledger of a thread is read off the observable calls and returns only.
-/
namespace Verif.Props.Mutex
open Verif Mtx Lts

/-! #### Specification -/

/-- A lock, tryLock or timedLock of `t` returned OK. -/
def gotLock (t : Tid) : Ev → Bool
  | .ret u c e => u == t && c != .unlock && e == .OK
  | _ => false
/-- `t` called unlock. -/
def calledUnlock (t : Tid) : Ev → Bool
  | .call u c => u == t && c == .unlock
  | _ => false
/-- An unlock of `t` was refused. -/
def refused (t : Tid) : Ev → Bool
  | .ret u c e => u == t && c == .unlock && e != .OK
  | _ => false

/-- How many times `t` surely holds the mutex: locks that returned OK, minus unlocks called (and not refused). -/
def owns (tr : List Ev) (t : Tid) : Int := (tr.countP (gotLock t) : Int) - tr.countP (calledUnlock t) + tr.countP (refused t)

/-- Every unlock is called by a thread that holds the mutex at that moment. -/
def Disciplined (tr : List Ev) : Prop := ∀ pre t post, tr = pre ++ .call t .unlock :: post → 0 < owns pre t

/-- Mutual exclusion. -/
def Exclusive (tr : List Ev) : Prop := ∀ t u, 0 < owns tr t → 0 < owns tr u → t = u

/-- The thread is not inside any method call: as many returns as calls. -/
def outside (tr : List Ev) (t : Tid) : Prop :=
  tr.countP (fun | .call u _ => u == t | _ => false) = tr.countP (fun | .ret u _ _ => u == t | _ => false)

/-- The results each call may give: only a bounded attempt can time out, only an unlock can find the mutex not locked. -/
def Sensible : Call → Err → Prop
  | .lock, e => e = .OK ∨ e = .OtherError
  | .timedLock none, e => e = .OK ∨ e = .OtherError
  | .tryLock, e => e = .OK ∨ e = .TimedOut ∨ e = .OtherError
  | .timedLock (some _), e => e = .OK ∨ e = .TimedOut ∨ e = .OtherError
  | .unlock, e => e = .OK ∨ e = .NotLocked

/-- Follow the events of thread `t`: `some none` outside any call, `some (some c)` inside a call of `c`, `none` once a call or return was
out of place. -/
def follow (t : Tid) : Option (Option Call) → Ev → Option (Option Call)
  | cur, .call u c => if u = t then (if cur = some none then some (some c) else none) else cur
  | cur, .ret u c _ => if u = t then (if cur = some (some c) then some none else none) else cur

/-- The calls and returns of every thread alternate, each return belongs to the call before it and has a possible result. -/
def WellFormed (tr : List Ev) : Prop :=
  (∀ t, tr.foldl (follow t) (some none) ≠ none) ∧ ∀ t c e, Ev.ret t c e ∈ tr → Sensible c e

theorem owns_app (tr ev : List Ev) (t : Tid) : owns (tr ++ ev) t = owns tr t + owns ev t := by
  unfold owns; simp only [List.countP_append]; omega
@[simp] theorem owns_nil (t : Tid) : owns [] t = 0 := rfl

theorem Disciplined.left {tr ev : List Ev} (h : Disciplined (tr ++ ev)) : Disciplined tr := by
  intro pre t post e
  exact h pre t (post ++ ev) (by rw [e]; simp)
theorem Disciplined.last {tr : List Ev} {t : Tid} (h : Disciplined (tr ++ [.call t .unlock])) : 0 < owns tr t := h tr t [] rfl

/-! #### StdCpp -/
section Std
open Std

theorem owns_call (t u : Tid) (c : Call) : owns [.call u c] t = if u = t ∧ c = .unlock then -1 else 0 := by
  unfold owns; simp [List.countP_cons, gotLock, calledUnlock, refused]; grind
theorem owns_ret (t u : Tid) (c : Call) (e : Err) :
    owns [.ret u c e] t = if u = t then (if c = .unlock then (if e = .OK then 0 else 1) else if e = .OK then 1 else 0) else 0 := by
  unfold owns; simp [List.countP_cons, gotLock, calledUnlock, refused]; grind

/-- The thread is in no critical step: its ledger `w` agrees with the native mutex and the counter. -/
def quiet (s : Std.St) (w : Int) (t : Tid) : Prop :=
  (s.owner = some t → w = s.depth ∧ s.cnt = s.depth) ∧ (s.owner ≠ some t → w = 0)
/-- The thread owns the native mutex once more than its ledger says; the counter is `b` behind. -/
def holding (s : Std.St) (w : Int) (t : Tid) (b : Nat) : Prop := s.owner = some t ∧ (s.depth : Int) = w + 1 ∧ s.cnt + b = s.depth

def Loc (s : Std.St) (w : Int) (t : Tid) : PC → Prop
  | .idle => quiet s w t
  | .acq c => quiet s w t ∧ c ≠ .unlock
  | .inc c => holding s w t 1 ∧ c ≠ .unlock
  | .incW c n => holding s w t 1 ∧ n = s.cnt ∧ c ≠ .unlock
  | .chk | .dec => holding s w t 0
  | .decW n => holding s w t 0 ∧ n = s.cnt
  | .rel => holding s w t 1
  | .ret c e => if c = .unlock then e = .OK ∧ quiet s w t else if e = .OK then holding s w t 0 else quiet s w t

structure Inv (s : Std.St) (tr : List Ev) : Prop where
  noub : s.ub = false
  pos : s.owner ≠ none → 0 < s.depth
  free : s.owner = none → s.depth = 0 ∧ s.cnt = 0
  loc : ∀ t, 0 ≤ owns tr t ∧ Loc s (owns tr t) t (s.pc t)

theorem Inv.init : Inv Std.init [] := by
  refine ⟨rfl, ?_, ?_, ?_⟩ <;> simp [Std.init, Loc, quiet]

/-- A change of the shared part made while `t` may or does own the mutex does not disturb the others. -/
theorem Loc.frame {s s' : Std.St} {w : Int} {t u : Tid} {p : PC} (hne : u ≠ t) (h : Loc s w u p)
    (h1 : s.owner = none ∨ s.owner = some t ∨ (s'.owner = s.owner ∧ s'.depth = s.depth ∧ s'.cnt = s.cnt))
    (h2 : s'.owner = none ∨ s'.owner = some t ∨ (s'.owner = s.owner ∧ s'.depth = s.depth ∧ s'.cnt = s.cnt)) : Loc s' w u p := by
  cases p <;> simp only [Loc, quiet, holding] at * <;> grind

theorem Inv.step {M : Nat} {s s' : Std.St} {tr ev : List Ev} {a : Act} (h : Inv s tr) (hd : Disciplined (tr ++ ev))
    (hs : Std.step M s a = some (s', ev)) : Inv s' (tr ++ ev) := by
  obtain ⟨hub, hp, hf, hl⟩ := h
  -- it suffices to look at the acting thread
  have main : ∀ t p', s'.pc = upd s.pc t p' → s'.ub = false → (s'.owner ≠ none → 0 < s'.depth) →
      (s'.owner = none → s'.depth = 0 ∧ s'.cnt = 0) → (∀ u, u ≠ t → owns ev u = 0) →
      (s.owner = none ∨ s.owner = some t ∨ (s'.owner = s.owner ∧ s'.depth = s.depth ∧ s'.cnt = s.cnt)) →
      (s'.owner = none ∨ s'.owner = some t ∨ (s'.owner = s.owner ∧ s'.depth = s.depth ∧ s'.cnt = s.cnt)) →
      0 ≤ owns tr t + owns ev t → Loc s' (owns tr t + owns ev t) t p' → Inv s' (tr ++ ev) := by
    intro t p' hpc g1 g2 g3 g4 g5 g6 g7 g8
    refine ⟨g1, g2, g3, fun u => ?_⟩
    rw [owns_app, hpc]
    by_cases e : u = t
    · subst e; rw [upd_same]; exact ⟨g7, g8⟩
    · rw [upd_ne _ _ e, g4 u e, Int.add_zero]
      exact ⟨(hl u).1, (hl u).2.frame e g5 g6⟩
  cases a with
  | call t c =>
    simp only [Std.step, hub, Bool.false_eq_true, if_false] at hs
    split at hs <;> try simp at hs
    next hpc =>
    have key : s' = s.at t (if c = .unlock then .chk else .acq c) ∧ ev = [.call t c] := by
      cases c <;> simp at hs <;> simp [hs]
    obtain ⟨rfl, rfl⟩ := key
    have hpos : c = .unlock → 0 < owns tr t := fun e => by subst e; exact hd.last
    have ht := hl t
    rw [hpc] at ht
    simp only [Loc, quiet] at ht
    refine main t _ rfl hub hp hf ?_ ?_ ?_ ?_ ?_
    · intro u hu; rw [owns_call, if_neg (by grind)]
    · exact Or.inr (Or.inr ⟨rfl, rfl, rfl⟩)
    · exact Or.inr (Or.inr ⟨rfl, rfl, rfl⟩)
    · rw [owns_call]; grind
    · rw [owns_call]
      by_cases e : c = .unlock
      · have hw := hpos e
        have ho : s.owner = some t := Classical.byContradiction fun hn => by have := ht.2.2 hn; omega
        have := ht.2.1 ho
        simp only [e, and_self, if_true, Loc, holding, St.at, ho, true_and]; omega
      · simp only [e, and_false, if_false, Loc, quiet, St.at]; grind
  | go t =>
    simp only [Std.step, hub, Bool.false_eq_true, if_false] at hs
    have ht := hl t
    cases hpc : s.pc t <;> rw [hpc] at ht <;> simp only [hpc] at hs <;> simp only [Loc, quiet, holding] at ht
    case idle => simp at hs
    case acq c =>
      simp only [Option.ite_none_right_eq_some, Option.some.injEq, Prod.mk.injEq] at hs
      obtain ⟨hav, rfl, rfl⟩ := hs
      simp only [St.avail, Bool.or_eq_true, decide_eq_true_eq] at hav
      refine main t _ rfl hub ?_ ?_ ?_ ?_ ?_ ?_ ?_ <;> simp [Loc, holding, St.at] <;> grind
    case inc c =>
      simp only [Option.some.injEq, Prod.mk.injEq] at hs
      obtain ⟨rfl, rfl⟩ := hs
      refine main t _ rfl hub ?_ ?_ ?_ ?_ ?_ ?_ ?_ <;> simp [Loc, holding, St.at] <;> grind
    case incW c n =>
      simp only [Option.some.injEq, Prod.mk.injEq] at hs
      obtain ⟨rfl, rfl⟩ := hs
      refine main t _ rfl hub ?_ ?_ ?_ ?_ ?_ ?_ ?_ <;> simp [Loc, holding, St.at] <;> grind
    case chk =>
      simp only [if_neg (show s.cnt ≠ 0 by have := hp (by simp [ht.2.1]); omega), Option.some.injEq, Prod.mk.injEq] at hs
      obtain ⟨rfl, rfl⟩ := hs
      refine main t _ rfl hub ?_ ?_ ?_ ?_ ?_ ?_ ?_ <;> simp [Loc, holding, St.at] <;> grind
    case dec =>
      simp only [Option.some.injEq, Prod.mk.injEq] at hs
      obtain ⟨rfl, rfl⟩ := hs
      refine main t _ rfl hub ?_ ?_ ?_ ?_ ?_ ?_ ?_ <;> simp [Loc, holding, St.at] <;> grind
    case decW n =>
      simp only [Option.some.injEq, Prod.mk.injEq] at hs
      obtain ⟨rfl, rfl⟩ := hs
      refine main t _ rfl hub ?_ ?_ ?_ ?_ ?_ ?_ ?_ <;> simp [Loc, holding, St.at, pred] <;> grind
    case rel =>
      simp only [if_pos ht.2.1, Option.some.injEq, Prod.mk.injEq] at hs
      obtain ⟨rfl, rfl⟩ := hs
      refine main t _ rfl hub ?_ ?_ ?_ ?_ ?_ ?_ ?_ <;> simp [Loc, quiet, St.at] <;> grind
    case ret c e =>
      simp only [Option.some.injEq, Prod.mk.injEq] at hs
      obtain ⟨rfl, rfl⟩ := hs
      refine main t _ rfl hub hp hf ?_ ?_ ?_ ?_ ?_
      · intro u hu; rw [owns_ret, if_neg (by grind)]
      · exact Or.inr (Or.inr ⟨rfl, rfl, rfl⟩)
      · exact Or.inr (Or.inr ⟨rfl, rfl, rfl⟩)
      · rw [owns_ret]; grind
      · rw [owns_ret]; simp only [Loc, quiet, St.at, if_true]; grind
  | expire t =>
    simp only [Std.step, hub, Bool.false_eq_true, if_false] at hs
    have ht := hl t
    split at hs <;> try simp at hs
    next c hpc =>
    rw [hpc] at ht
    simp only [Loc, quiet] at ht
    obtain ⟨hb, rfl, rfl⟩ := hs
    refine main t _ rfl hub ?_ ?_ ?_ ?_ ?_ ?_ ?_ <;> simp [Loc, quiet, St.at] <;> grind
  | raise t =>
    simp only [Std.step, hub, Bool.false_eq_true, if_false] at hs
    have ht := hl t
    split at hs <;> try simp at hs
    next c hpc =>
    rw [hpc] at ht
    simp only [Loc, quiet] at ht
    obtain ⟨rfl, rfl⟩ := hs
    refine main t _ rfl hub ?_ ?_ ?_ ?_ ?_ ?_ ?_ <;> simp [Loc, quiet, St.at] <;> grind

theorem inv_reach {M : Nat} {s : Std.St} {tr : List Ev} (h : Reach (Std.step M) Std.init s tr) (hd : Disciplined tr) : Inv s tr := by
  refine Lts.Reach.inv (I := fun s tr => Disciplined tr → Inv s tr) (fun _ => Inv.init) ?_ h hd
  intro s tr a s' ev ih hs hd
  exact Inv.step (ih hd.left) hd hs

/-- Ownership ledger and native mutex: whoever surely holds the mutex owns the native one. -/
theorem owner_of_owns {s : Std.St} {tr : List Ev} (h : Inv s tr) {t : Tid} (ht : 0 < owns tr t) : s.owner = some t := by
  have := (h.loc t).2
  cases hpc : s.pc t <;> rw [hpc] at this <;> simp only [Loc, quiet, holding] at this <;> grind

/-- C37: mutual exclusion, for every schedule of any number of threads that unlock only what they hold; undefined behaviour
never happens and no unlock is refused. -/
theorem C37_exclusion (M : Nat) (s : Std.St) (tr : List Ev) (h : Reach (Std.step M) Std.init s tr) (hd : Disciplined tr) :
    Exclusive tr ∧ s.ub = false ∧ ∀ t e, s.pc t = .ret .unlock e → e = .OK := by
  have hi := inv_reach h hd
  refine ⟨fun t u ht hu => ?_, hi.noub, fun t e hpc => ?_⟩
  · have h1 := owner_of_owns hi ht
    have h2 := owner_of_owns hi hu
    rw [h1] at h2; simpa using h2
  · have := (hi.loc t).2
    rw [hpc] at this
    simp only [Loc, if_true] at this
    exact this.1

/-- C37: no lock/tryLock/timedLock is granted while another thread holds the mutex (it cannot proceed), and a bounded attempt
then fails with TimedOut. -/
theorem C37_busy (M : Nat) (s : Std.St) (tr : List Ev) (h : Reach (Std.step M) Std.init s tr) (hd : Disciplined tr)
    (t u : Tid) (c : Call) (hpc : s.pc t = .acq c) (hu : 0 < owns tr u) (hne : u ≠ t) :
    Std.step M s (.go t) = none ∧
    ((c = .tryLock ∨ ∃ n, c = .timedLock (some n)) → ∃ s', Std.step M s (.expire t) = some (s', []) ∧ s'.pc t = .ret c .TimedOut ∧
      s'.owner = s.owner ∧ s'.depth = s.depth ∧ s'.cnt = s.cnt) := by
  have hi := inv_reach h hd
  have ho := owner_of_owns hi hu
  have hav : s.avail t = false := by simp [St.avail, ho, hne]
  refine ⟨by simp [Std.step, hi.noub, hpc, hav], fun hc => ?_⟩
  have hb : c.bounded = true := by rcases hc with rfl | ⟨n, rfl⟩ <;> rfl
  refine ⟨s.at t (.ret c .TimedOut), by simp [Std.step, hi.noub, hpc, hav, hb], ?_, rfl, rfl, rfl⟩
  simp [St.at]

/-- C37: tryLock/timedLock time out only when another thread has the mutex: it holds it, or is inside a lock call that has
got it or inside an unlock call that has not yet given it up. -/
theorem C37_timedOut_only_if_busy (M : Nat) (s s' : Std.St) (tr ev : List Ev) (h : Reach (Std.step M) Std.init s tr)
    (hd : Disciplined tr) (t : Tid) (hx : Std.step M s (.expire t) = some (s', ev)) :
    ∃ u, u ≠ t ∧ s.owner = some u ∧ (0 < owns tr u ∨ (s.pc u ≠ .idle ∧ ∀ c, s.pc u ≠ .acq c)) := by
  have hi := inv_reach h hd
  simp only [Std.step, hi.noub, Bool.false_eq_true, if_false] at hx
  split at hx <;> try simp at hx
  next c hpc =>
  obtain ⟨⟨_, hav⟩, _⟩ := hx
  simp only [St.avail, Bool.or_eq_false_iff, decide_eq_false_iff_not] at hav
  cases ho : s.owner with
  | none => exact absurd ho hav.1
  | some u =>
    refine ⟨u, fun e => hav.2 (by rw [ho, e]), rfl, ?_⟩
    have h1 := (hi.loc u).2
    have hpos := hi.pos (by simp [ho])
    cases hpu : s.pc u <;> rw [hpu] at h1 <;> simp only [Loc, quiet, holding] at h1 <;> simp <;> grind

/-- C37: recursion: when no call is in progress, the native mutex is owned by `t` exactly if `t` has locked more often than
unlocked, and to exactly that depth; so n locks need n unlocks. -/
theorem C37_recursion (M : Nat) (s : Std.St) (tr : List Ev) (h : Reach (Std.step M) Std.init s tr) (hd : Disciplined tr)
    (hq : ∀ t, s.pc t = .idle) (t : Tid) :
    (s.owner = some t ↔ 0 < owns tr t) ∧ (s.owner = some t → (s.depth : Int) = owns tr t ∧ s.cnt = s.depth) := by
  have hi := inv_reach h hd
  have h1 := hi.loc t
  rw [hq t] at h1
  simp only [Loc, quiet] at h1
  refine ⟨⟨fun ho => ?_, owner_of_owns hi⟩, fun ho => ?_⟩
  · have := hi.pos (by simp [ho]); have := h1.2.1 ho; omega
  · have := h1.2.1 ho; exact ⟨by omega, this.2⟩

/-- C37: after every lock has been matched by an unlock the mutex is free: any thread's tryLock succeeds at once. -/
theorem C37_released (M : Nat) (s : Std.St) (tr : List Ev) (h : Reach (Std.step M) Std.init s tr) (hd : Disciplined tr)
    (hq : ∀ t, s.pc t = .idle) (hf : ∀ t, owns tr t = 0) (t : Tid) (c : Call) (hc : c ≠ .unlock) :
    ∃ s', Lts.run (Std.step M) [.call t c, .go t, .go t, .go t, .go t] s = some (s', [.call t c, .ret t c .OK]) ∧ s'.owner = some t := by
  have hi := inv_reach h hd
  have hn : s.owner = none := by
    cases ho : s.owner with
    | none => rfl
    | some u => have := (C37_recursion M s tr h hd hq u).1.1 ho; rw [hf u] at this; omega
  have hub := hi.noub
  cases c <;> simp at hc <;> simp [Lts.run, Std.step, hub, hq t, St.at, St.avail, hn]

/-- C37: the owner can lock again (recursively) without waiting. -/
theorem C37_relock (M : Nat) (s : Std.St) (tr : List Ev) (h : Reach (Std.step M) Std.init s tr) (hd : Disciplined tr)
    (t : Tid) (ht : s.pc t = .idle) (hw : 0 < owns tr t) (c : Call) (hc : c ≠ .unlock) :
    ∃ s', Lts.run (Std.step M) [.call t c, .go t, .go t, .go t, .go t] s = some (s', [.call t c, .ret t c .OK]) := by
  have hi := inv_reach h hd
  have ho := owner_of_owns hi hw
  have hub := hi.noub
  cases c <;> simp at hc <;> simp [Lts.run, Std.step, hub, ht, St.at, St.avail, ho]

/-- non-vacuity: thread 1 locks twice, thread 2's tryLock times out, two unlocks, then thread 2 gets it. -/
def demo : List Act :=
  [.call 1 .lock, .go 1, .go 1, .go 1, .go 1, .call 1 .lock, .go 1, .go 1, .go 1, .go 1,
   .call 2 .tryLock, .expire 2, .go 2,
   .call 1 .unlock, .go 1, .go 1, .go 1, .go 1, .go 1, .call 1 .unlock, .go 1, .go 1, .go 1, .go 1, .go 1,
   .call 2 (.timedLock (some 5)), .go 2, .go 2, .go 2, .go 2]
example : (Lts.run (Std.step 4) demo Std.init).map (fun p => (p.2, p.1.owner, owns p.2 1, owns p.2 2)) =
    some ([.call 1 .lock, .ret 1 .lock .OK, .call 1 .lock, .ret 1 .lock .OK, .call 2 .tryLock, .ret 2 .tryLock .TimedOut,
      .call 1 .unlock, .ret 1 .unlock .OK, .call 1 .unlock, .ret 1 .unlock .OK,
      .call 2 (.timedLock (some 5)), .ret 2 (.timedLock (some 5)) .OK], some 2, 0, 1) := by decide

/-- The call a thread is in. -/
def curCall : Std.PC → Option Call
  | .idle => none
  | .acq c | .inc c | .incW c _ | .ret c _ => some c
  | .chk | .dec | .decW _ | .rel => some .unlock

theorem wf_step {M : Nat} {s s' : Std.St} {tr ev : List Ev} {a : Act} (hs : Std.step M s a = some (s', ev))
    (h : (∀ t, tr.foldl (follow t) (some none) = some (curCall (s.pc t))) ∧ (∀ t c e, Ev.ret t c e ∈ tr → Sensible c e) ∧
      (∀ t c e, s.pc t = .ret c e → Sensible c e) ∧ (∀ t c, s.pc t = .acq c ∨ s.pc t = .inc c ∨ (∃ n, s.pc t = .incW c n) → c ≠ .unlock)) :
    (∀ t, (tr ++ ev).foldl (follow t) (some none) = some (curCall (s'.pc t))) ∧ (∀ t c e, Ev.ret t c e ∈ tr ++ ev → Sensible c e) ∧
      (∀ t c e, s'.pc t = .ret c e → Sensible c e) ∧ (∀ t c, s'.pc t = .acq c ∨ s'.pc t = .inc c ∨ (∃ n, s'.pc t = .incW c n) → c ≠ .unlock) := by
  obtain ⟨h1, h2, h3, h4⟩ := h
  have hok : ∀ c, Sensible c .OK := by intro c; rcases c with _ | _ | (_ | _) | _ <;> simp [Sensible]
  have hoth : ∀ c, c ≠ .unlock → Sensible c .OtherError := by intro c; rcases c with _ | _ | (_ | _) | _ <;> simp [Sensible]
  have hto : ∀ c, c.bounded = true → Sensible c .TimedOut := by intro c; rcases c with _ | _ | (_ | _) | _ <;> simp [Sensible, Call.bounded]
  have hnl : Sensible .unlock .NotLocked := by simp [Sensible]
  cases a <;> simp only [Std.step] at hs <;> (repeat' split at hs) <;> simp only [Option.some.injEq, Prod.mk.injEq, reduceCtorEq] at hs <;>
    obtain ⟨rfl, rfl⟩ := hs <;>
    refine ⟨fun u => ?_, fun u c e hm => ?_, fun u c e hm => ?_, fun u c hm => ?_⟩ <;>
    (first
      | (rw [List.append_nil, h1]; simp only [St.at]; grind [upd, curCall])
      | (rw [List.foldl_append, h1]; simp only [List.foldl_cons, List.foldl_nil, follow, St.at]; clear h1 h2 h3 h4; grind [upd, curCall])
      | (simp only [List.append_nil, List.mem_append, List.mem_singleton, reduceCtorEq, or_false] at hm; exact h2 _ _ _ hm)
      | (simp only [List.mem_append, List.mem_singleton] at hm; grind)
      | (simp only [St.at] at hm; grind [upd])
      | (have := hnl; grind [St.at, upd]))

/-- C37: every thread's calls and returns alternate, and only tryLock and timedLock with a finite timeout can time out, only unlock can
answer NotLocked; for every schedule, well used or not. -/
theorem C37_results (M : Nat) (s : Std.St) (tr : List Ev) (h : Reach (Std.step M) Std.init s tr) : WellFormed tr := by
  have := Reach.inv (I := fun s tr => (∀ t, tr.foldl (follow t) (some none) = some (curCall (s.pc t))) ∧ (∀ t c e, Ev.ret t c e ∈ tr → Sensible c e) ∧
      (∀ t c e, s.pc t = .ret c e → Sensible c e) ∧ (∀ t c, s.pc t = .acq c ∨ s.pc t = .inc c ∨ (∃ n, s.pc t = .incW c n) → c ≠ .unlock))
    (by simp [Std.init, curCall]) (fun _ _ _ _ _ hi hs => wf_step hs hi) h
  exact ⟨fun t => by rw [this.1 t]; simp, this.2.1⟩
example : Sensible .tryLock .TimedOut ∧ ¬ Sensible .lock .TimedOut ∧ ¬ WellFormed [.call 1 .lock, .ret 1 .unlock .OK] :=
  ⟨Or.inr (Or.inl rfl), by simp [Sensible], fun h => h.1 1 (by decide)⟩

/-! #### C38 -/

/-- The full property: an unlock by a thread whose ledger is zero returns NotLocked and never corrupts the mutex. -/
def C38_full : Prop := ∀ (M : Nat) (s : Std.St) (tr : List Ev), Reach (Std.step M) Std.init s tr → s.ub = false

/-- C38 is false: thread 2 calls unlock while thread 1 holds the mutex: the counter is decremented and the native mutex is
unlocked by a non-owner, which is undefined. -/
theorem C38_full_false : ¬ C38_full := by
  intro h
  have hr : (Lts.run (Std.step 4) [.call 1 .lock, .go 1, .go 1, .go 1, .go 1, .call 2 .unlock, .go 2, .go 2, .go 2, .go 2] Std.init).map
      (fun p => p.1.ub) = some true := by decide
  cases hrun : Lts.run (Std.step 4) [.call 1 .lock, .go 1, .go 1, .go 1, .go 1, .call 2 .unlock, .go 2, .go 2, .go 2, .go 2] Std.init with
  | none => rw [hrun] at hr; simp at hr
  | some p =>
    rw [hrun] at hr
    simp only [Option.map_some, Option.some.injEq] at hr
    have := h 4 p.1 p.2 (by have := Lts.run_reach (step := Std.step 4) (init := Std.init) _ Reach.init hrun; simpa using this)
    rw [hr] at this; simp at this

/-- C38, worse: it is so for every well-used mutex held by somebody else: an unlock by a non-holder, run undisturbed, always
ends in undefined behaviour and never in NotLocked. -/
theorem C38_always_ub (M : Nat) (s : Std.St) (tr : List Ev) (h : Reach (Std.step M) Std.init s tr) (hd : Disciplined tr)
    (hq : ∀ t, s.pc t = .idle) (t u : Tid) (hne : t ≠ u) (hu : 0 < owns tr u) :
    ∃ s', Lts.run (Std.step M) [.call t .unlock, .go t, .go t, .go t, .go t] s = some (s', [.call t .unlock]) ∧ s'.ub = true := by
  have hi := inv_reach h hd
  have ho := owner_of_owns hi hu
  have hub := hi.noub
  have hrec := (C37_recursion M s tr h hd hq u).2 ho
  have hc : s.cnt ≠ 0 := by have := hi.pos (by simp [ho]); omega
  simp [Lts.run, Std.step, hub, hq t, St.at, ho, hc, show u ≠ t from fun e => hne e.symm]

/-- C38, the part that holds: when nobody holds the mutex, unlock returns NotLocked and changes nothing. -/
theorem C38_free_partial (M : Nat) (s : Std.St) (tr : List Ev) (h : Reach (Std.step M) Std.init s tr) (hd : Disciplined tr)
    (hq : ∀ t, s.pc t = .idle) (hf : ∀ t, owns tr t = 0) (t : Tid) :
    Lts.run (Std.step M) [.call t .unlock, .go t, .go t] s = some (s, [.call t .unlock, .ret t .unlock .NotLocked]) := by
  have hi := inv_reach h hd
  have hn : s.owner = none := by
    cases ho : s.owner with
    | none => rfl
    | some u => have := (C37_recursion M s tr h hd hq u).1.1 ho; rw [hf u] at this; omega
  have hc := (hi.free hn).2
  have hub := hi.noub
  have hpc : upd (upd (upd s.pc t .chk) t (.ret .unlock .NotLocked)) t .idle = s.pc := by
    funext j; by_cases e : j = t
    · subst e; simp [hq]
    · simp [upd, e]
  have hub := hi.noub
  cases s with
  | mk owner depth cnt ub pc => simp_all [Lts.run, Std.step, St.at]

end Std

/-! #### C39: ItronMutex -/
section Itron
open Itron

def iquiet (s : Itron.St) (w : Int) (t : Tid) : Prop := (s.owner = some t → w = s.rc + 1) ∧ (s.owner ≠ some t → w = 0)

def ILoc (s : Itron.St) (w : Int) (t : Tid) : Itron.PC → Prop
  | .idle => iquiet s w t
  | .tloc c | .ilLck c => iquiet s w t ∧ c ≠ .unlock
  | .inc c => s.owner = some t ∧ w = s.rc + 1 ∧ c ≠ .unlock
  | .incW c n => s.owner = some t ∧ w = s.rc + 1 ∧ n = s.rc ∧ c ≠ .unlock
  | .ulLck => (s.owner = some t → w = s.rc) ∧ (s.owner ≠ some t → w = -1)
  | .ulTst => s.owner = some t ∧ w = s.rc
  | .dec => s.owner = some t ∧ w = s.rc ∧ 0 < s.rc
  | .decW n => s.owner = some t ∧ w = s.rc ∧ 0 < s.rc ∧ n = s.rc
  | .unl => (s.owner = some t → w = 0 ∧ s.rc = 0) ∧ (s.owner ≠ some t → w = -1)
  | .ret c e => if c = .unlock then (e = .OK ∧ iquiet s w t) ∨ (e = .NotLocked ∧ s.owner ≠ some t ∧ w = -1)
      else if e = .OK then s.owner = some t ∧ w = s.rc else iquiet s w t

structure IInv (s : Itron.St) (tr : List Ev) : Prop where
  free : s.owner = none → s.rc = 0
  loc : ∀ t, ILoc s (owns tr t) t (s.pc t)

theorem IInv.init : IInv Itron.init [] := by
  refine ⟨?_, ?_⟩ <;> simp [Itron.init, ILoc, iquiet]

theorem ILoc.frame {s s' : Itron.St} {w : Int} {t u : Tid} {p : Itron.PC} (hne : u ≠ t) (h : ILoc s w u p)
    (h1 : s.owner = none ∨ s.owner = some t ∨ (s'.owner = s.owner ∧ s'.rc = s.rc))
    (h2 : s'.owner = none ∨ s'.owner = some t ∨ (s'.owner = s.owner ∧ s'.rc = s.rc)) : ILoc s' w u p := by
  cases p <;> simp only [ILoc, iquiet] at * <;> grind

theorem IInv.step {ceil : Tid → Bool} {s s' : Itron.St} {tr ev : List Ev} {a : Act} (h : IInv s tr)
    (hs : Itron.step ceil s a = some (s', ev)) : IInv s' (tr ++ ev) := by
  obtain ⟨hf, hl⟩ := h
  have main : ∀ t p', s'.pc = upd s.pc t p' → (s'.owner = none → s'.rc = 0) → (∀ u, u ≠ t → owns ev u = 0) →
      (s.owner = none ∨ s.owner = some t ∨ (s'.owner = s.owner ∧ s'.rc = s.rc)) →
      (s'.owner = none ∨ s'.owner = some t ∨ (s'.owner = s.owner ∧ s'.rc = s.rc)) →
      ILoc s' (owns tr t + owns ev t) t p' → IInv s' (tr ++ ev) := by
    intro t p' hpc g2 g4 g5 g6 g8
    refine ⟨g2, fun u => ?_⟩
    rw [owns_app, hpc]
    by_cases e : u = t
    · subst e; rw [upd_same]; exact g8
    · rw [upd_ne _ _ e, g4 u e, Int.add_zero]
      exact (hl u).frame e g5 g6
  cases a with
  | call t c =>
    simp only [Itron.step] at hs
    split at hs <;> try simp at hs
    next hpc =>
    have key : s' = s.at t (if c = .unlock then .ulLck else .tloc c) ∧ ev = [.call t c] := by
      cases c <;> simp at hs <;> simp [hs]
    obtain ⟨rfl, rfl⟩ := key
    have ht := hl t
    rw [hpc] at ht
    simp only [ILoc, iquiet] at ht
    refine main t _ rfl hf ?_ ?_ ?_ ?_
    · intro u hu; rw [owns_call, if_neg (by grind)]
    · exact Or.inr (Or.inr ⟨rfl, rfl⟩)
    · exact Or.inr (Or.inr ⟨rfl, rfl⟩)
    · rw [owns_call]
      by_cases e : c = .unlock
      · simp only [e, and_self, if_true, ILoc, St.at]; exact ⟨fun ho => by have := ht.1 ho; omega, fun ho => by have := ht.2 ho; omega⟩
      · simp only [e, and_false, if_false, ILoc, iquiet, St.at]; exact ⟨⟨fun ho => by have := ht.1 ho; omega, fun ho => by have := ht.2 ho; omega⟩, e⟩
  | go t =>
    simp only [Itron.step] at hs
    have ht := hl t
    cases hpc : s.pc t <;> rw [hpc] at ht <;> simp only [hpc] at hs <;> simp only [ILoc, iquiet] at ht
    case idle => simp at hs
    case ret c e =>
      simp only [Option.some.injEq, Prod.mk.injEq] at hs
      obtain ⟨rfl, rfl⟩ := hs
      refine main t _ rfl hf ?_ ?_ ?_ ?_
      · intro u hu; rw [owns_ret, if_neg (by grind)]
      · exact Or.inr (Or.inr ⟨rfl, rfl⟩)
      · exact Or.inr (Or.inr ⟨rfl, rfl⟩)
      · rw [owns_ret]; simp only [ILoc, iquiet, St.at, if_true]; grind
    all_goals
      repeat' split at hs
      all_goals first
        | (simp at hs; done)
        | (simp only [Option.some.injEq, Prod.mk.injEq] at hs
           obtain ⟨rfl, rfl⟩ := hs
           refine main t _ rfl ?_ ?_ ?_ ?_ ?_ <;> simp [ILoc, iquiet, St.at] <;> grind)
  | expire t =>
    simp only [Itron.step] at hs
    have ht := hl t
    split at hs <;> try simp at hs
    next c hpc =>
    rw [hpc] at ht
    simp only [ILoc, iquiet] at ht
    obtain ⟨hb, rfl, rfl⟩ := hs
    refine main t _ rfl ?_ ?_ ?_ ?_ ?_ <;> simp [ILoc, iquiet, St.at] <;> grind
  | raise t =>
    simp only [Itron.step] at hs
    have ht := hl t
    split at hs <;> try simp at hs
    next c hpc =>
    rw [hpc] at ht
    simp only [ILoc, iquiet] at ht
    obtain ⟨rfl, rfl⟩ := hs
    refine main t _ rfl ?_ ?_ ?_ ?_ ?_ <;> simp [ILoc, iquiet, St.at] <;> grind

theorem iinv_reach {ceil : Tid → Bool} {s : Itron.St} {tr : List Ev} (h : Reach (Itron.step ceil) Itron.init s tr) : IInv s tr :=
  Lts.Reach.inv IInv.init (fun _ _ _ _ _ ih hs => ih.step hs) h

theorem iowner_of_owns {s : Itron.St} {tr : List Ev} (h : IInv s tr) {t : Tid} (ht : 0 < owns tr t) : s.owner = some t := by
  have := h.loc t
  cases hpc : s.pc t <;> rw [hpc] at this <;> simp only [ILoc, iquiet] at this <;> grind

/-- C39: mutual exclusion, for every schedule, whoever calls unlock. -/
theorem C39_exclusion (ceil : Tid → Bool) (s : Itron.St) (tr : List Ev) (h : Reach (Itron.step ceil) Itron.init s tr) : Exclusive tr := by
  intro t u ht hu
  have h1 := iowner_of_owns (iinv_reach h) ht
  have h2 := iowner_of_owns (iinv_reach h) hu
  rw [h1] at h2; simpa using h2

/-- C39: the ledger never goes below zero between calls. -/
theorem C39_recursion (ceil : Tid → Bool) (s : Itron.St) (tr : List Ev) (h : Reach (Itron.step ceil) Itron.init s tr)
    (t : Tid) (hq : s.pc t = .idle) :
    0 ≤ owns tr t ∧ (s.owner = some t ↔ 0 < owns tr t) ∧ (s.owner = some t → (s.rc : Int) + 1 = owns tr t) := by
  have hi := (iinv_reach h).loc t
  rw [hq] at hi
  simp only [ILoc, iquiet] at hi
  by_cases ho : s.owner = some t
  · have := hi.1 ho; simp only [ho, true_iff, forall_const]; omega
  · have := hi.2 ho; simp only [ho, false_iff, false_implies, and_true]; omega

/-- C39: an unlock by a task that holds the mutex returns OK and lowers its ledger by one: run alone, from any reachable state. -/
theorem C39_unlock_holder (ceil : Tid → Bool) (s : Itron.St) (tr : List Ev) (h : Reach (Itron.step ceil) Itron.init s tr)
    (t : Tid) (hq : s.pc t = .idle) (hw : 0 < owns tr t) :
    ∃ n s', Lts.run (Itron.step ceil) (.call t .unlock :: List.replicate n (.go t)) s = some (s', [.call t .unlock, .ret t .unlock .OK]) ∧
      (owns tr t = 1 → s'.owner = none) ∧ (1 < owns tr t → s'.owner = some t) := by
  have ho := iowner_of_owns (iinv_reach h) hw
  have hr := (C39_recursion ceil s tr h t hq).2.2 ho
  by_cases hz : s.rc = 0
  · refine ⟨4, ?_⟩
    simp [Lts.run, Itron.step, hq, St.at, ho, hz, List.replicate]; omega
  · refine ⟨5, ?_⟩
    simp [Lts.run, Itron.step, hq, St.at, ho, hz, List.replicate, show 0 < s.rc by omega]; omega

/-- C39: an unlock by a task that does not hold the mutex returns NotLocked and changes nothing, whoever else holds it. -/
theorem C39_unlock_nonholder (ceil : Tid → Bool) (s : Itron.St) (tr : List Ev) (h : Reach (Itron.step ceil) Itron.init s tr)
    (t : Tid) (hq : s.pc t = .idle) (hw : owns tr t = 0) :
    Lts.run (Itron.step ceil) [.call t .unlock, .go t, .go t, .go t] s = some (s, [.call t .unlock, .ret t .unlock .NotLocked]) := by
  have ho : s.owner ≠ some t := fun ho => by have := (C39_recursion ceil s tr h t hq).2.2 ho; omega
  have hpc : upd (upd (upd (upd s.pc t .ulLck) t .unl) t (.ret .unlock .NotLocked)) t .idle = s.pc := by
    funext j; by_cases e : j = t
    · subst e; simp [hq]
    · simp [upd, e]
  cases s with
  | mk owner rc pc => simp_all [Lts.run, Itron.step, St.at]

/-- C39, under any interleaving: an unlock returns NotLocked only to a task that does not hold the mutex, and OK only to one
that held it when it called (no other result is possible). -/
theorem C39_unlock_result (ceil : Tid → Bool) (s : Itron.St) (tr : List Ev) (h : Reach (Itron.step ceil) Itron.init s tr)
    (t : Tid) (e : Err) (hpc : s.pc t = .ret .unlock e) :
    (e = .OK ∧ 0 ≤ owns tr t) ∨ (e = .NotLocked ∧ owns tr t = -1 ∧ s.owner ≠ some t) := by
  have hi := (iinv_reach h).loc t
  rw [hpc] at hi
  simp only [ILoc, iquiet, if_true] at hi
  rcases hi with ⟨h1, h2⟩ | ⟨h1, h2, h3⟩
  · left; refine ⟨h1, ?_⟩
    by_cases ho : s.owner = some t
    · have := h2.1 ho; omega
    · have := h2.2 ho; omega
  · exact Or.inr ⟨h1, h3, h2⟩

/-- C39: while another task holds the mutex nobody else can get it: the attempt blocks, or ends in TimedOut or an error. -/
theorem C39_busy (ceil : Tid → Bool) (s : Itron.St) (tr : List Ev) (h : Reach (Itron.step ceil) Itron.init s tr)
    (t u : Tid) (c : Call) (hpc : s.pc t = .tloc c) (hu : 0 < owns tr u) (hne : u ≠ t) (a : Act) (s' : Itron.St) (ev : List Ev)
    (ha : a = .go t ∨ a = .expire t ∨ a = .raise t) (hs : Itron.step ceil s a = some (s', ev)) :
    s'.owner = some u ∧ (s'.pc t = .ret c .TimedOut ∨ s'.pc t = .ret c .OtherError ∨ (ceil t = false ∧ s'.pc t = .ilLck c)) := by
  have ho := iowner_of_owns (iinv_reach h) hu
  rcases ha with rfl | rfl | rfl <;> simp only [Itron.step, hpc] at hs
  · simp only [ho, Option.some.injEq, hne, decide_false, Bool.or_false, reduceCtorEq, if_false] at hs
    split at hs
    · next hc =>
      simp only [Option.some.injEq, Prod.mk.injEq] at hs
      obtain ⟨rfl, _⟩ := hs
      simp [St.at, ho]; simpa using hc
    · simp at hs
  · split at hs
    · simp only [Option.some.injEq, Prod.mk.injEq] at hs
      obtain ⟨rfl, _⟩ := hs
      simp [St.at, ho]
    · simp at hs
  · simp only [Option.some.injEq, Prod.mk.injEq] at hs
    obtain ⟨rfl, _⟩ := hs
    simp [St.at, ho]

/-- C39: a free mutex is granted at once, and the holder is granted it again without waiting. -/
theorem C39_granted (ceil : Tid → Bool) (s : Itron.St) (tr : List Ev) (h : Reach (Itron.step ceil) Itron.init s tr)
    (t : Tid) (hq : s.pc t = .idle) (hc : ceil t = true) (c : Call) (hcu : c ≠ .unlock)
    (hfree : s.owner = none ∨ 0 < owns tr t) :
    ∃ n s', Lts.run (Itron.step ceil) (.call t c :: List.replicate n (.go t)) s = some (s', [.call t c, .ret t c .OK]) ∧ s'.owner = some t := by
  by_cases ho : s.owner = some t
  · refine ⟨5, ?_⟩
    cases c <;> simp at hcu <;> simp [Lts.run, Itron.step, hq, St.at, ho, List.replicate]
  · have hn : s.owner = none := by
      rcases hfree with h1 | h1
      · exact h1
      · exact absurd (iowner_of_owns (iinv_reach h) h1) ho
    refine ⟨2, ?_⟩
    cases c <;> simp at hcu <;> simp [Lts.run, Itron.step, hq, St.at, hn, hc, List.replicate]

example : (Lts.run (Itron.step (fun _ => true)) [.call 1 .lock, .go 1, .go 1, .call 1 .lock, .go 1, .go 1, .go 1, .go 1, .go 1,
    .call 2 .unlock, .go 2, .go 2, .go 2, .call 1 .unlock, .go 1, .go 1, .go 1, .go 1, .go 1] Itron.init).map
      (fun p => (p.2, p.1.owner, owns p.2 1, owns p.2 2)) =
    some ([.call 1 .lock, .ret 1 .lock .OK, .call 1 .lock, .ret 1 .lock .OK, .call 2 .unlock, .ret 2 .unlock .NotLocked,
      .call 1 .unlock, .ret 1 .unlock .OK], some 1, 1, 0) := by decide

/-- The call a task is in. -/
def icurCall : Itron.PC → Option Call
  | .idle => none
  | .tloc c | .ilLck c | .inc c | .incW c _ | .ret c _ => some c
  | .ulLck | .ulTst | .dec | .decW _ | .unl => some .unlock
/-- It is a lock call. -/
def locking : Itron.PC → Bool
  | .tloc c | .ilLck c | .inc c | .incW c _ => c != .unlock
  | _ => true

theorem iwf_step {ceil : Tid → Bool} {s s' : Itron.St} {tr ev : List Ev} {a : Act} (hs : Itron.step ceil s a = some (s', ev))
    (h : (∀ t, tr.foldl (follow t) (some none) = some (icurCall (s.pc t))) ∧ (∀ t c e, Ev.ret t c e ∈ tr → Sensible c e) ∧
      (∀ t c e, s.pc t = .ret c e → Sensible c e) ∧ (∀ t, locking (s.pc t) = true)) :
    (∀ t, (tr ++ ev).foldl (follow t) (some none) = some (icurCall (s'.pc t))) ∧ (∀ t c e, Ev.ret t c e ∈ tr ++ ev → Sensible c e) ∧
      (∀ t c e, s'.pc t = .ret c e → Sensible c e) ∧ (∀ t, locking (s'.pc t) = true) := by
  obtain ⟨h1, h2, h3, h4⟩ := h
  have hok : ∀ c, Sensible c .OK := by intro c; rcases c with _ | _ | (_ | _) | _ <;> simp [Sensible]
  have hoth : ∀ c, c ≠ .unlock → Sensible c .OtherError := by intro c; rcases c with _ | _ | (_ | _) | _ <;> simp [Sensible]
  have hto : ∀ c, c.bounded = true → Sensible c .TimedOut := by intro c; rcases c with _ | _ | (_ | _) | _ <;> simp [Sensible, Call.bounded]
  have hnl : Sensible .unlock .NotLocked := by simp [Sensible]
  cases a <;> simp only [Itron.step] at hs <;> (repeat' split at hs) <;> simp only [Option.some.injEq, Prod.mk.injEq, reduceCtorEq] at hs <;>
    obtain ⟨rfl, rfl⟩ := hs <;>
    refine ⟨fun u => ?_, fun u c e hm => ?_, fun u c e hm => ?_, fun u => ?_⟩ <;>
    (first
      | (rw [List.append_nil, h1]; simp only [St.at]; grind [upd, icurCall])
      | (rw [List.foldl_append, h1]; simp only [List.foldl_cons, List.foldl_nil, follow, St.at]; clear h1 h2 h3 h4; grind [upd, icurCall])
      | (simp only [List.append_nil, List.mem_append, List.mem_singleton, reduceCtorEq, or_false] at hm; exact h2 _ _ _ hm)
      | (simp only [List.mem_append, List.mem_singleton] at hm; grind)
      | (simp only [St.at] at hm; grind [upd])
      | (simp only [St.at] at hm; grind [upd, locking]) | (simp only [St.at, upd]; split <;> simp_all [locking] <;> grind [locking]))

/-- C39: every task's calls and returns alternate, and only tryLock and timedLock with a finite timeout can time out, only unlock can
answer NotLocked. -/
theorem C39_results (ceil : Tid → Bool) (s : Itron.St) (tr : List Ev) (h : Reach (Itron.step ceil) Itron.init s tr) : WellFormed tr := by
  have := Reach.inv (I := fun s tr => (∀ t, tr.foldl (follow t) (some none) = some (icurCall (s.pc t))) ∧ (∀ t c e, Ev.ret t c e ∈ tr → Sensible c e) ∧
      (∀ t c e, s.pc t = .ret c e → Sensible c e) ∧ (∀ t, locking (s.pc t) = true))
    (by simp [Itron.init, icurCall, locking]) (fun _ _ _ _ _ hi hs => iwf_step hs hi) h
  exact ⟨fun t => by rw [this.1 t]; simp, this.2.1⟩
end Itron

/-! #### C40: LockGuard -/
section Guard
open Guard

/-- Number of successful locks of `m` minus number of unlocks of `m`. -/
def net (ops : List Op) (m : Nat) : Int :=
  (ops.countP (fun | .lock x r => x == m && r == .OK | _ => false) : Int) - ops.countP (fun | .unlock x => x == m | _ => false)

theorem net_app (a b : List Op) (m : Nat) : net (a ++ b) m = net a m + net b m := by
  unfold net; simp only [List.countP_append]; omega

/-- C40: exactly which mutex calls a guarded scope makes, whatever the body does and however it is left. -/
theorem C40_calls (k : Ctor) (m : Option Nat) (r : Err) (body : List Op) (x : Exit) :
    scope k m r (body, x) =
      (match k, m with
       | _, none => body
       | .locking, some y => .lock y r :: body ++ (if r = .OK then [.unlock y] else [])
       | .adopting, some y => body ++ [.unlock y], x) := by
  cases k <;> cases m <;> simp [scope, Guard.construct, Guard.destruct]
  rfl

/-- C40: a locking guard leaves every mutex as it was, for every result of lock() and every way to leave the block. -/
theorem C40_balanced (m : Option Nat) (r : Err) (body : List Op) (x : Exit) (y : Nat) :
    net (scope .locking m r (body, x)).1 y = net body y := by
  rw [C40_calls]
  cases m with
  | none => rfl
  | some z =>
    simp only [List.cons_append, net, List.countP_cons, List.countP_append]
    by_cases hr : r = .OK
    · simp [hr]; omega
    · simp [hr]

/-- C40: an adopting guard gives up exactly the adopted lock. -/
theorem C40_adopt (m : Nat) (r : Err) (body : List Op) (x : Exit) (y : Nat) :
    net (scope .adopting (some m) r (body, x)).1 y = net body y - (if y = m then 1 else 0) := by
  rw [C40_calls]
  simp only [net, List.countP_append]
  by_cases h : y = m
  · subst h; simp; omega
  · simp [h, show m ≠ y from fun e => h e.symm]

/-- C40: while the body runs under a locking guard whose lock succeeded, the mutex is held once more; if lock() failed, nothing is unlocked. -/
theorem C40_failed_lock (m : Nat) (r : Err) (hr : r ≠ .OK) (body : List Op) (x : Exit) :
    scope .locking (some m) r (body, x) = (.lock m r :: body, x) := by
  rw [C40_calls]; simp [hr]

/-- Two guards nested on the same (recursive) mutex, left by an exception. -/
example : scope .locking (some 3) .OK (scope .locking (some 3) .OK ([], .exception)) =
    ([.lock 3 .OK, .lock 3 .OK, .unlock 3, .unlock 3], .exception) := by decide

end Guard
end Verif.Props.Mutex
