import Verif.Model.ThreadPoolTime
import Verif.Sem.Lts
/-
Property C102: how long ThreadPool's timed calls block, and when they may give up.
-/
namespace Verif.Props.ThreadPoolTime
open Verif
open _root_.Verif.Mtx (Tid)
open _root_.Verif.EvF (Tmo)
open _root_.Verif.Lts (Reach)
open TP TP.Time
set_option linter.unusedSimpArgs false

/-- The timeout of a call (`start` is a timedStart with FOREVER, `tryStart` one with 0 ms; the same for the guard's waits). -/
def tmo : Call → Option Nat
  | .start _ (.ms n) _ _ => some n
  | .wait _ (.ms n) => some n
  | _ => none

/-- How often the timeout may pass until the call is over. -/
def factor (k : Nat) : Call → Nat
  | .start .. => k + 1
  | _ => 1

theorem treach_reach {k n : Nat} {d : Int} {x : TSt} {tr : List Ev} (h : TReach k n d x tr) : Reach TP.step (TP.init n d) x.s tr := by
  induction h with
  | init => exact Reach.init
  | step _ hs ih =>
    cases hs with
    | act h1 _ => exact Reach.step ih h1
    | tick _ _ => simpa using ih

/-- How far a call of timeout `n` may be, by position. -/
def TLoc (k : Nat) (x : TSt) (t : Tid) (n : Nat) : Call → Pos → Prop
  | .start .., .sEnter => x.now = x.start t
  | .start (some _) .., .sRecv => x.since t = x.start t ∧ x.start t ≤ x.now ∧ x.now ≤ x.start t + k * n
  | .start (some _) .., .sWait _ => x.start t ≤ x.since t ∧ x.since t ≤ x.start t + k * n ∧ x.now ≤ x.since t + n
  | .start (some _) .., .sSet _ | .start (some _) .., .sPrio _ | .start (some _) .., .sGo _ | .start (some _) .., .sGuard _
  | .start .., .ret _ => x.now ≤ x.start t + k * n + n
  | .wait .., .wEnter => x.now = x.start t
  | .wait .., .wWait _ => x.since t = x.start t ∧ x.now ≤ x.start t + n
  | .wait .., .ret _ => x.now ≤ x.start t + n
  | _, _ => False

/-- A client that cannot go on is in a timed operation. -/
theorem quiet {k n : Nat} {x : TSt} {t : Tid} {c : Call} {p : Pos} (hp : x.s.pc t = .on c p) (hl : TLoc k x t n c p) (hn : tmo c = some n)
    (hg : TP.step x.s (.go t) = none) (hd : ∀ d, deadline k x t = some d → x.now < d) : TLoc k { x with now := x.now + 1 } t n c p := by
  simp only [TP.step, hp] at hg
  simp only [deadline, hp] at hd
  cases c with
  | start task tm g prio =>
    cases tm <;> simp [tmo] at hn
    subst hn
    cases task <;> cases p <;> simp only [TLoc] at hl <;> simp [timed] at hg hd <;> simp only [TLoc] <;> (first | omega | (split at hg <;> simp at hg))
  | wait g tm =>
    cases tm <;> simp [tmo] at hn
    subst hn
    cases p <;> simp only [TLoc] at hl <;> simp [timed] at hg hd <;> simp only [TLoc] <;> try omega
    split at hg <;> simp at hg
  | _ => simp [tmo] at hn

/-- What a step of a client does with its position. -/
theorem act_loc {k m : Nat} {x : TSt} {a : Act} {s' : TP.St} {ev : List Ev} {t : Tid} {c : Call} {p : Pos} (h1 : TP.step x.s a = some (s', ev))
    (ha : Time.actor a = some t) (ih : ∀ c p m, x.s.pc t = .on c p → tmo c = some m → TLoc k x t m c p) (hp : s'.pc t = .on c p) (hn : tmo c = some m) :
    TLoc k ⟨s', x.now, sinceAfter k x s' a, startAfter x a⟩ t m c p := by
  cases a with
  | pgo _ => simp [Time.actor] at ha
  | throw _ => simp [Time.actor] at ha
  | call u c' =>
    simp [Time.actor] at ha; subst ha
    simp only [TP.step] at h1
    split at h1 <;> simp at h1
    obtain ⟨rfl, _⟩ := h1
    simp [St.at] at hp
    obtain ⟨rfl, rfl⟩ := hp
    cases c' <;> simp [tmo] at hn <;> simp [TLoc, entry, startAfter]
  | expire u =>
    simp [Time.actor] at ha; subst ha
    simp only [TP.step] at h1
    cases hq : x.s.pc u with
    | idle => simp [hq] at h1
    | on c0 p0 =>
      have hi := fun m => ih c0 p0 m hq
      simp only [hq] at h1
      split at h1 <;> simp at h1 <;> obtain ⟨hh, rfl, _⟩ := h1 <;> simp [St.at, St.ownAt] at hp <;> obtain ⟨rfl, rfl⟩ := hp <;>
        (have hi := hi m hn; simp only [TLoc] at hi; simp [TLoc, startAfter, sinceAfter]; omega)
  | go u =>
    simp [Time.actor] at ha; subst ha
    simp only [TP.step] at h1
    cases hq : x.s.pc u with
    | idle => simp [hq] at h1
    | on c0 p0 =>
      have hi := fun m => ih c0 p0 m hq
      simp only [hq] at h1
      cases c0 with
      | start task tm g prio =>
        cases task <;> cases p0 <;> simp only at h1 <;> (repeat' split at h1) <;> simp only [Option.some.injEq, Prod.mk.injEq, reduceCtorEq] at h1 <;>
          obtain ⟨rfl, _⟩ := h1 <;> simp [St.at, St.ownAt, St.wAt] at hp <;> obtain ⟨rfl, rfl⟩ := hp <;>
          (have hi := hi m hn; simp only [TLoc] at hi; simp [TLoc, startAfter, sinceAfter, timed, St.at, St.ownAt, St.wAt]; try omega)
      | wait g tm =>
        cases p0 <;> simp only at h1 <;> (repeat' split at h1) <;> simp only [Option.some.injEq, Prod.mk.injEq, reduceCtorEq] at h1 <;>
          obtain ⟨rfl, _⟩ := h1 <;> simp [St.at, St.ownAt, St.wAt] at hp <;> obtain ⟨rfl, rfl⟩ := hp <;>
          (have hi := hi m hn; simp only [TLoc] at hi; simp [TLoc, startAfter, sinceAfter, timed, St.at, St.ownAt, St.wAt]; try omega)
      | _ =>
        exfalso
        cases p0 <;> simp only at h1 <;> (repeat' split at h1) <;> simp only [Option.some.injEq, Prod.mk.injEq, reduceCtorEq] at h1 <;>
          obtain ⟨rfl, _⟩ := h1 <;> simp [St.at, St.ownAt, St.wAt, St.evAt, hq] at hp <;> obtain ⟨rfl, rfl⟩ := hp <;> simp [tmo] at hn

/-- Other clients do not move. -/
theorem act_other {x : TSt} {a : Act} {s' : TP.St} {ev : List Ev} {t : Tid} (h1 : TP.step x.s a = some (s', ev)) (ha : Time.actor a ≠ some t) :
    s'.pc t = x.s.pc t := by
  cases a <;> simp only [TP.step] at h1 <;> simp [Time.actor] at ha <;> (repeat' split at h1) <;>
    simp only [Option.some.injEq, Prod.mk.injEq, reduceCtorEq] at h1 <;> obtain ⟨rfl, _⟩ := h1 <;>
    simp [St.at, St.ownAt, St.wAt, St.evAt] <;> grind [upd]

theorem tinv {k n : Nat} {d : Int} {x : TSt} {tr : List Ev} (h : TReach k n d x tr) :
    ∀ t c p m, x.s.pc t = .on c p → tmo c = some m → TLoc k x t m c p := by
  induction h with
  | init => intro t c p m hp; simp [tinit, TP.init] at hp
  | @step x tr x' ev hr hs ih =>
    intro t c p m hp hn
    cases hs with
    | tick h hd => exact quiet hp (ih t c p m hp hn) hn (h t) (hd t)
    | @act a s' ev h1 hd =>
      by_cases ha : Time.actor a = some t
      · exact act_loc h1 ha (ih t) hp hn
      · have e := act_other h1 ha
        simp only [e] at hp
        have hi := ih t c p m hp hn
        have e1 : sinceAfter k x s' a t = x.since t := by
          cases a <;> simp [Time.actor] at ha <;> simp [sinceAfter] <;> split <;> grind [upd]
        have e2 : startAfter x a t = x.start t := by
          cases a <;> simp [Time.actor] at ha <;> simp [startAfter] ; grind [upd]
        cases c <;> simp [tmo] at hn
        · rename_i task tm g prio
          cases task <;> cases p <;> simp only [TLoc, e1, e2] at hi ⊢ <;> exact hi
        · cases p <;> simp only [TLoc, e1, e2] at hi ⊢ <;> exact hi

/-- What is guaranteed instead of the timeout itself: a timedStart of timeout `m` is over at the latest `(k + 1) * m` after the call,
where `k` is the factor of the queue (2 for `MessageQueue`, C54; 1 for an ideal queue), a WaitGuard::timedWait at the latest `m` after
the call.  A polling call takes no time. -/
theorem C102_bound_partial {k n : Nat} {d : Int} {x : TSt} {tr : List Ev} (h : TReach k n d x tr) {t : Tid} {c : Call} {m : Nat}
    (hc : callOf (x.s.pc t) = some c) (hm : tmo c = some m) : x.now ≤ x.start t + factor k c * m := by
  cases hp : x.s.pc t with
  | idle => simp [hp, callOf] at hc
  | on c' p =>
    simp [hp, callOf] at hc; subst hc
    have := tinv h t c' p m hp hm
    cases c' <;> simp [tmo] at hm
    · rename_i task tm g prio
      simp only [factor, Nat.add_mul]
      rcases Nat.eq_zero_or_pos k with rfl | hk
      · cases task <;> cases p <;> simp only [TLoc] at this <;> omega
      · have := Nat.le_mul_of_pos_left m hk
        cases task <;> cases p <;> simp only [TLoc] at this <;> omega
    · simp only [factor]
      cases p <;> simp only [TLoc] at this <;> omega

/-- The guard's timedWait keeps its timeout. -/
theorem C102_wait {k n : Nat} {d : Int} {x : TSt} {tr : List Ev} (h : TReach k n d x tr) {t : Tid} {g : Gid} {m : Nat}
    (hc : callOf (x.s.pc t) = some (.wait g (.ms m))) : x.now ≤ x.start t + m := by
  simpa [factor] using C102_bound_partial h hc rfl

/-- Polling calls (tryStart, tryWait) take no time. -/
theorem C102_polling {k n : Nat} {d : Int} {x : TSt} {tr : List Ev} (h : TReach k n d x tr) {t : Tid} {c : Call}
    (hc : callOf (x.s.pc t) = some c) (hm : tmo c = some 0) : x.now ≤ x.start t := by
  simpa using C102_bound_partial h hc hm

/-- No call gives up early: TimedOut is decided only after the call has lasted for its timeout. -/
theorem C102_notEarly {k n : Nat} {d : Int} {x x' : TSt} {tr ev : List Ev} (h : TReach k n d x tr) (hs : TStep k x x' ev) {t : Tid} {c : Call}
    (he : .lin t c .timedOut ∈ ev) : ∃ m, tmo c = some m ∧ x.start t + m ≤ x.now := by
  cases hs with
  | tick _ _ => simp at he
  | @act a s' ev h1 hd =>
    cases a with
    | expire u =>
      have hdu := hd u rfl
      simp only [TP.step] at h1
      cases hq : x.s.pc u with
      | idle => simp [hq] at h1
      | on c0 p0 =>
        have hi := fun m => tinv h u c0 p0 m hq
        simp only [hq] at h1
        simp only [due, hq] at hdu
        split at h1 <;> simp at h1 <;> obtain ⟨hh, rfl, rfl⟩ := h1 <;> simp at he <;> obtain ⟨rfl, rfl⟩ := he <;>
          (simp only [timed] at hdu; split at hdu <;> simp at hdu; rename_i e; simp at e; obtain ⟨rfl, _⟩ := e; refine ⟨_, rfl, ?_⟩; have hi := hi _ rfl; simp only [TLoc] at hi; omega)
    | _ =>
      exfalso
      simp only [TP.step] at h1
      (repeat' split at h1) <;> simp only [Option.some.injEq, Prod.mk.injEq, reduceCtorEq] at h1 <;> obtain ⟨_, rfl⟩ := h1 <;> simp at he

/-! #### The timeout itself is not kept -/

/-- The one thread of the pool is about to make itself available, client 2 waits for it since time 0 in a timedStart of timeout `m`. -/
def Waiting (m : Nat) (x : TSt) : Prop :=
  x.s.pc 2 = .on (.start (some 9) (.ms m) none 3) .sRecv ∧ (∀ t, t ≠ 2 → x.s.pc t = .idle) ∧ x.s.free = [] ∧ x.s.n = 1 ∧
  x.s.w 0 = .send false ∧ x.since 2 = 0 ∧ x.start 2 = 0

theorem waiting0 (k m : Nat) : ∃ x tr, TReach k 1 5 x tr ∧ Waiting m x ∧ x.now = 0 := by
  refine ⟨_, _, TReach.step (TReach.step (TReach.step (TReach.step (TReach.step (TReach.step (TReach.step (TReach.step (TReach.step
    (TReach.step (TReach.step (TReach.step (TReach.step (TReach.step (TReach.step (TReach.step
    TReach.init (TStep.act (a := .call 1 (.start (some 8) .forever none 3)) rfl (by simp)))
    (TStep.act (a := .go 1) rfl (by simp))) (TStep.act (a := .go 1) rfl (by simp))) (TStep.act (a := .go 1) rfl (by simp)))
    (TStep.act (a := .go 1) rfl (by simp))) (TStep.act (a := .go 1) rfl (by simp))) (TStep.act (a := .go 1) rfl (by simp)))
    (TStep.act (a := .go 1) rfl (by simp))) (TStep.act (a := .go 1) rfl (by simp)))
    (TStep.act (a := .pgo 0) rfl (by simp))) (TStep.act (a := .pgo 0) rfl (by simp))) (TStep.act (a := .pgo 0) rfl (by simp)))
    (TStep.act (a := .pgo 0) rfl (by simp))) (TStep.act (a := .pgo 0) rfl (by simp)))
    (TStep.act (a := .call 2 (.start (some 9) (.ms m) none 3)) rfl (by simp)))
    (TStep.act (a := .go 2) rfl (by simp)), ?_, rfl⟩
  refine ⟨rfl, ?_, rfl, rfl, rfl, rfl, rfl⟩
  intro t h
  by_cases e : t = 1
  · subst e; rfl
  · simp [upd, St.at, St.ownAt, St.wAt, St.evAt, h, e, tinit, TP.init]

theorem waiting_tick {k m j : Nat} (hj : j ≤ k * m) : ∃ x tr, TReach k 1 5 x tr ∧ Waiting m x ∧ x.now = j := by
  induction j with
  | zero => exact waiting0 k m
  | succ j ih =>
    obtain ⟨x, tr, hr, hb, hnow⟩ := ih (by omega)
    have hb' := hb
    obtain ⟨p2, hid, hf, hn, hw, s2, _⟩ := hb
    refine ⟨_, _, TReach.step hr (TStep.tick (fun t => ?_) (fun t d hd => ?_)), hb', by simp [hnow]⟩
    · by_cases e : t = 2
      · subst e; simp [TP.step, p2, hf]
      · simp [TP.step, hid t e]
    · by_cases e : t = 2
      · subst e; simp [deadline, p2, timed, s2] at hd; omega
      · simp [deadline, hid t e, timed] at hd

/-- Client 2 got the thread from the queue at time `a`; the thread has not finished yet. -/
def Taken (m a : Nat) (x : TSt) : Prop :=
  x.s.pc 2 = .on (.start (some 9) (.ms m) none 3) (.sWait 0) ∧ (∀ t, t ≠ 2 → x.s.pc t = .idle) ∧ x.s.w 0 = .leave false ∧ x.since 2 = a ∧ x.start 2 = 0

theorem taken0 {k m a : Nat} (ha : a ≤ k * m) : ∃ x tr, TReach k 1 5 x tr ∧ Taken m a x ∧ x.now = a := by
  obtain ⟨x, tr, hr, ⟨p2, hid, hf, hn, hw, s2, st2⟩, hnow⟩ := waiting_tick ha
  have h1 := TReach.step hr (TStep.act (a := .pgo 0) (by simp [TP.step, hw, hf, hn]; exact ⟨rfl, rfl⟩) (by simp))
  have h2 := TReach.step h1 (TStep.act (a := .go 2) (by simp [TP.step, St.wAt, St.ownAt, p2]; exact ⟨rfl, rfl⟩) (by simp))
  refine ⟨_, _, h2, ⟨?_, fun t ht => ?_, ?_, ?_, ?_⟩, ?_⟩
  · simp [upd, St.at, St.ownAt]
  · simp [upd, St.at, St.ownAt, ht, hid t ht]
  · simp [St.at, St.ownAt]
  · simp [sinceAfter, timed, St.at, St.ownAt, hnow]
  · simp [startAfter, st2]
  · exact hnow

theorem taken_tick {k m a j : Nat} (ha : a ≤ k * m) (hj : j ≤ m) : ∃ x tr, TReach k 1 5 x tr ∧ Taken m a x ∧ x.now = a + j := by
  induction j with
  | zero => exact taken0 ha
  | succ j ih =>
    obtain ⟨x, tr, hr, hb, hnow⟩ := ih (by omega)
    have hb' := hb
    obtain ⟨p2, hid, hw, s2, _⟩ := hb
    refine ⟨_, _, TReach.step hr (TStep.tick (fun t => ?_) (fun t d hd => ?_)), hb', by simp [hnow]; omega⟩
    · by_cases e : t = 2
      · subst e; simp [TP.step, p2, hw]
      · simp [TP.step, hid t e]
    · by_cases e : t = 2
      · subst e; simp [deadline, p2, timed, s2] at hd; omega
      · simp [deadline, hid t e, timed] at hd

/-- The property itself is false, and the bound of `C102_bound_partial` is attained: whatever the factor `k` of the queue, a timedStart
of timeout `m` made at time 0 can still be blocked at time `(k + 1) * m` — twice the timeout even on an ideal queue, three times on
`MessageQueue`. -/
theorem C102_counterexample (k m : Nat) : ∃ (x : TSt) (tr : List Ev), TReach k 1 5 x tr ∧
    x.s.pc 2 = .on (.start (some 9) (.ms m) none 3) (.sWait 0) ∧ x.start 2 = 0 ∧ x.now = (k + 1) * m := by
  obtain ⟨x, tr, h, hb, hn⟩ := taken_tick (k := k) (m := m) (Nat.le_refl _) (Nat.le_refl m)
  exact ⟨x, tr, h, hb.1, hb.2.2.2.2, by rw [hn, Nat.add_mul]; omega⟩

/-- ... and when it then gives up, the thread it had taken is lost to the pool (C67), after that long wait. -/
theorem C102_gives_up (k m : Nat) : ∃ (x x' : TSt) (tr ev : List Ev), TReach k 1 5 x tr ∧ TStep k x x' ev ∧ x.start 2 = 0 ∧ x.now = (k + 1) * m ∧
    ev = [.drop 2 0, .lin 2 (.start (some 9) (.ms m) none 3) .timedOut] := by
  obtain ⟨x, tr, h, ⟨p2, hid, hw, s2, st2⟩, hn⟩ := taken_tick (k := k) (m := m) (Nat.le_refl _) (Nat.le_refl m)
  have hs : TStep k x _ _ := TStep.act (a := .expire 2) (s' := (x.s.at 2 (.start (some 9) (.ms m) none 3) (.ret .timedOut)).ownAt 0 .lost)
    (ev := [.drop 2 0, .lin 2 (.start (some 9) (.ms m) none 3) .timedOut]) (by simp [TP.step, p2, hw])
    (fun t ht => by cases ht; simp [due, p2, timed, s2, hn])
  exact ⟨x, _, tr, _, h, hs, st2, by rw [hn, Nat.add_mul]; omega, rfl⟩

/-- A polling call inside the pool. -/
example (k : Nat) : ∃ (x : TSt) (tr : List Ev) (c : Call), TReach k 1 5 x tr ∧ callOf (x.s.pc 2) = some c ∧ tmo c = some 0 := by
  obtain ⟨x, tr, h, hp, _⟩ := C102_counterexample k 0
  exact ⟨x, tr, _, h, by rw [hp]; rfl, rfl⟩

/-- Client 1 waits with timeout `m` for the task it started with guard 4. -/
def Guarding (m : Nat) (x : TSt) : Prop :=
  x.s.pc 1 = .on (.wait 4 (.ms m)) (.wWait 0) ∧ (∀ t, t ≠ 1 → x.s.pc t = .idle) ∧ x.s.ev 0 = false ∧ x.since 1 = 0 ∧ x.start 1 = 0

theorem guarding {k m j : Nat} (hj : j ≤ m) : ∃ x tr, TReach k 1 5 x tr ∧ Guarding m x ∧ x.now = j := by
  induction j with
  | zero =>
    refine ⟨_, _, TReach.step (TReach.step (TReach.step (TReach.step (TReach.step (TReach.step (TReach.step (TReach.step (TReach.step
      (TReach.step (TReach.step
      TReach.init (TStep.act (a := .call 1 (.start (some 8) .forever (some 4) 3)) rfl (by simp)))
      (TStep.act (a := .go 1) rfl (by simp))) (TStep.act (a := .go 1) rfl (by simp))) (TStep.act (a := .go 1) rfl (by simp)))
      (TStep.act (a := .go 1) rfl (by simp))) (TStep.act (a := .go 1) rfl (by simp))) (TStep.act (a := .go 1) rfl (by simp)))
      (TStep.act (a := .go 1) rfl (by simp))) (TStep.act (a := .go 1) rfl (by simp)))
      (TStep.act (a := .call 1 (.wait 4 (.ms m))) rfl (by simp)))
      (TStep.act (a := .go 1) rfl (by simp)), ⟨rfl, ?_, rfl, rfl, rfl⟩, rfl⟩
    intro t h
    simp [upd, St.at, St.ownAt, St.wAt, St.evAt, h, tinit, TP.init]
  | succ j ih =>
    obtain ⟨x, tr, hr, hb, hnow⟩ := ih (by omega)
    have hb' := hb
    obtain ⟨p1, hid, he, s1, _⟩ := hb
    refine ⟨_, _, TReach.step hr (TStep.tick (fun t => ?_) (fun t d hd => ?_)), hb', by simp [hnow]⟩
    · by_cases e : t = 1
      · subst e; simp [TP.step, p1, he]
      · simp [TP.step, hid t e]
    · by_cases e : t = 1
      · subst e; simp [deadline, p1, timed, s1] at hd; omega
      · simp [deadline, hid t e, timed] at hd

/-- The bound of the guard's timedWait is attained. -/
theorem C102_wait_tight (k m : Nat) : ∃ (x : TSt) (tr : List Ev), TReach k 1 5 x tr ∧ callOf (x.s.pc 1) = some (.wait 4 (.ms m)) ∧
    x.now = x.start 1 + m := by
  obtain ⟨x, tr, h, hb, hn⟩ := guarding (k := k) (Nat.le_refl m)
  exact ⟨x, tr, h, by rw [hb.1]; rfl, by rw [hn, hb.2.2.2.2]; omega⟩

end Verif.Props.ThreadPoolTime
