import Verif.Model.MessageQueueTime
import Verif.Props.MessageQueue
/-
Property C54: how long timedSend / timedReceive block.
-/
namespace Verif.Props.MessageQueueTime
open Verif
open _root_.Verif.Mtx (Tid Err)
open _root_.Verif.EvF (Tmo)
open MQ Time Lts Props.MessageQueue
variable {V : Type}
set_option linter.unusedSectionVars false

/-- The call a thread is in. -/
def callOf : PC V → Option (Call V)
  | .idle => none
  | .entry c | .sLock c _ _ | .sChkLock c _ _ | .sChk c _ _ | .sReset c _ _ | .sChkUnl c _ _ _ | .sWait c _ _ | .sPushLock c _
  | .sCons c _ | .sAdv c _ | .sSet c | .sPushUnl c _ | .sUnl c _
  | .rLock c _ _ | .rChkLock c _ _ | .rChk c _ _ | .rReset c _ _ | .rChkUnl c _ _ _ | .rWait c _ _
  | .rPopLock c _ | .rCopy c _ | .rDes c _ | .rAdv c _ _ | .rSet c _ | .rPopUnl c _ | .rUnl c _
  | .zLock c | .zRead c | .zUnl c _ | .ret c _ => some c

theorem treach_reach {cap : Nat} {x : TSt V} {tr : List (Ev V)} (h : TReach cap x tr) : Reach MQ.step (MQ.init V cap) x.s tr := by
  induction h with
  | init => exact Reach.init
  | step _ hs ih =>
    cases hs with
    | act h1 _ => exact Reach.step ih h1
    | tick _ _ => simpa using ih

/-- How far a call of timeout `n` may be, by program counter. -/
def TLoc (x : TSt V) (t : Tid) (n : Nat) : PC V → Prop
  | .entry _ => x.now = x.start t
  | .sLock .. | .rLock .. => x.since t = x.start t ∧ x.now ≤ x.start t + n
  | .sChkLock .. | .sChk .. | .sReset .. | .sChkUnl .. | .rChkLock .. | .rChk .. | .rReset .. | .rChkUnl .. => x.now ≤ x.start t + n
  | .sWait .. | .rWait .. => x.since t ≤ x.start t + n ∧ x.now ≤ x.since t + n
  | _ => x.now ≤ x.start t + 2 * n

variable [DecidableEq V]

/-- If no thread can take a step, every thread inside a call is in one of its two timed operations. -/
theorem quiet_timed {cap : Nat} {s : MQ.St V} {tr : List (Ev V)} (h : Reach MQ.step (MQ.init V cap) s tr)
    (hst : ∀ t, MQ.step s (.go t) = none) (t : Tid) : s.pc t = .idle ∨ (timed (s.pc t)).isSome = true := by
  obtain ⟨l, I⟩ := MQ.Inv.reach h
  have hub := I.ub
  have hB : s.mb = none := by
    apply Classical.byContradiction
    intro hm
    obtain ⟨u, hu⟩ := Option.ne_none_iff_exists'.1 hm
    have hb := (I.hb u).1 hu
    have := hst u
    simp only [MQ.step, hub] at this
    cases hp : s.pc u <;> rw [hp] at hb <;> simp [bHolds] at hb <;> simp [hp] at this <;> grind
  have hg := hst t
  simp only [MQ.step, hub] at hg
  cases hp : s.pc t <;> simp [hp, hB] at hg <;> simp [timed]
  all_goals grind

/-- The timeout in a timed operation is the call's. -/
theorem timed_tmo {cap : Nat} {s : MQ.St V} {tr : List (Ev V)} (h : Reach MQ.step (MQ.init V cap) s tr) {t : Tid} {c : Call V}
    (hc : callOf (s.pc t) = some c) {tm : Tmo} (ht : timed (s.pc t) = some tm) : tm = tmoOf c := by
  obtain ⟨l, I⟩ := MQ.Inv.reach h
  have hl := I.loc t
  cases hp : s.pc t <;> rw [hp] at hc ht hl <;> simp [timed] at ht <;> simp [callOf] at hc <;> subst hc <;> subst ht <;> simp only [Loc] at hl
  · rw [tmo_snd hl.2]
  · rw [tmo_snd hl.2.1]
  · rw [tmo_rcv hl.2]
  · rw [tmo_rcv hl.2.1]

theorem tinv {cap : Nat} {x : TSt V} {tr : List (Ev V)} (h : TReach cap x tr) :
    ∀ t c n, callOf (x.s.pc t) = some c → tmoOf c = .ms n → TLoc x t n (x.s.pc t) := by
  induction h with
  | init => intro t c n hc; simp [tinit, MQ.init, callOf] at hc
  | @step x tr x' ev hr hs ih =>
    have hre := treach_reach hr
    have hub := (C48_ring hre).1
    cases hs with
    | tick hst hd =>
      intro t c n hc hn
      have hi := ih t c n hc hn
      rcases quiet_timed hre hst t with hp | hp
      · simp only at hc; rw [hp] at hc; simp [callOf] at hc
      · obtain ⟨tm, htm⟩ := Option.isSome_iff_exists.1 hp
        have e := timed_tmo hre hc htm
        have hdl := hd t (x.since t + n) (by simp [deadline, htm, e, hn])
        simp only at hc ⊢
        cases hq : x.s.pc t <;> rw [hq] at hi htm <;> simp [timed] at htm <;> simp only [TLoc] at hi ⊢ <;> omega
    | @act a s' ev h1 hd =>
      intro t c n hc hn
      have hub' := (C48_ring (Reach.step hre h1)).1
      -- other threads do not move
      by_cases e : t = Time.actor a
      case neg =>
        have hpc : s'.pc t = x.s.pc t := by
          cases hcall : isCall a
          · exact (rank_step h1 hcall hub').2 t (by cases a <;> exact e)
          · cases a <;> simp [isCall] at hcall
            next u c' =>
            simp only [MQ.step, hub] at h1
            cases hp : x.s.pc u <;> simp [hp] at h1
            obtain ⟨rfl, _⟩ := h1
            exact upd_ne _ _ e
        simp only at hc ⊢
        rw [hpc] at hc ⊢
        have hi := ih t c n hc hn
        have hsince : (if (timed (s'.pc (Time.actor a))).isSome then upd x.since (Time.actor a) x.now else x.since) t = x.since t := by
          split
          · exact upd_ne _ _ e
          · rfl
        have hstart : startAfter x a t = x.start t := by
          cases a <;> simp only [startAfter]
          exact upd_ne _ _ e
        cases hq : x.s.pc t <;> rw [hq] at hi <;> simp only [TLoc, hsince, hstart] at hi ⊢ <;> exact hi
      case pos =>
      subst e
      cases a with
      | call u c' =>
        simp only [MQ.step, hub] at h1
        cases hp : x.s.pc u <;> simp [hp] at h1
        obtain ⟨rfl, _⟩ := h1
        simp [Time.actor, St.at, TLoc, startAfter]
      | go u =>
        simp only [MQ.step, hub] at h1
        simp only [Time.actor] at hc ⊢
        cases hp : x.s.pc u <;> simp only [hp] at h1 <;> (repeat' split at h1) <;> simp [Prod.ext_iff] at h1 <;>
          (try (obtain ⟨rfl, -⟩ := h1)) <;> (try (obtain ⟨_, rfl, -⟩ := h1)) <;> simp [St.at, upd_same, callOf] at hc hub' <;>
          (have hi := ih u c n (by rw [hp]; simp [callOf, hc]) hn; rw [hp] at hi; simp only [TLoc] at hi;
           simp [St.at, upd_same, TLoc, timed, startAfter]; try omega)
      | expire u =>
        simp only [MQ.step, hub] at h1
        simp only [Time.actor] at hc ⊢
        cases hp : x.s.pc u <;> simp [hp] at h1 <;> obtain ⟨_, rfl, -⟩ := h1 <;> simp [St.at, upd_same, callOf] at hc <;>
          (have hi := ih u c n (by rw [hp]; simp [callOf, hc]) hn; rw [hp] at hi; simp only [TLoc] at hi;
           simp [St.at, upd_same, TLoc, timed, startAfter]; omega)
      | raise u e =>
        simp only [MQ.step, hub] at h1
        simp only [Time.actor] at hc ⊢
        cases hp : x.s.pc u <;> simp [hp] at h1 <;> obtain ⟨_, rfl, -⟩ := h1 <;> simp [St.at, upd_same, callOf] at hc <;>
          (have hi := ih u c n (by rw [hp]; simp [callOf, hc]) hn; rw [hp] at hi; simp only [TLoc] at hi;
           simp [St.at, upd_same, TLoc, timed, startAfter]; omega)
      | throw u f =>
        simp only [MQ.step, hub] at h1
        simp only [Time.actor] at hc ⊢
        cases hp : x.s.pc u <;> simp [hp] at h1
        · obtain ⟨rfl, -⟩ := h1
          simp [St.at, upd_same, callOf] at hc
          have hi := ih u c n (by rw [hp]; simp [callOf, hc]) hn; rw [hp] at hi; simp only [TLoc] at hi
          simp [St.at, upd_same, TLoc, timed, startAfter]; omega
        · obtain ⟨rfl, rfl, -⟩ := h1
          simp [St.at, upd_same, callOf] at hc
          have hi := ih u c n (by rw [hp]; simp [callOf, hc]) hn; rw [hp] at hi; simp only [TLoc] at hi
          simp [St.at, upd_same, TLoc, timed, startAfter]; omega

/-- Even if executing code takes no time, what is guaranteed is twice the timeout: a call with timeout `n` made at time `start t` is
over by `start t + 2 n` (polling calls end at once). -/
theorem C54_twice_partial {cap : Nat} {x : TSt V} {tr : List (Ev V)} (h : TReach cap x tr) {t c n}
    (hc : callOf (x.s.pc t) = some c) (hn : tmoOf c = .ms n) : x.now ≤ x.start t + 2 * n := by
  have := tinv h t c n hc hn
  cases hp : x.s.pc t <;> rw [hp] at this <;> simp only [TLoc] at this <;> omega

/-! #### The bound `n` itself does not hold -/

/-- Thread 1 waits for room with timeout `a`, thread 2 is queued behind it with timeout `n`, since time 0. -/
def Blocked (a n : Nat) (x : TSt Nat) : Prop :=
  x.s.pc 1 = .sWait (.timedSend 6 (.ms a)) 6 (.ms a) ∧ x.s.pc 2 = .sLock (.timedSend 7 (.ms n)) 7 (.ms n) ∧ x.s.ms = some 1 ∧
  (∀ t, t ≠ 1 → t ≠ 2 → x.s.pc t = .idle) ∧ x.s.mb = none ∧ x.s.nf = false ∧ x.s.ub = false ∧ x.s.nb = 1 ∧ x.s.b = 0 ∧ x.s.e = 0 ∧
  x.since 1 = 0 ∧ x.since 2 = 0 ∧ x.start 2 = 0

theorem blocked0 (a n : Nat) : ∃ x tr, TReach 0 x tr ∧ Blocked a n x ∧ x.now = 0 := by
  refine ⟨_, _, TReach.step (TReach.step (TReach.step (TReach.step (TReach.step (TReach.step (TReach.step (TReach.step (TReach.step
    TReach.init (TStep.act (a := .call 1 (.timedSend 6 (.ms a))) rfl (by simp)))
    (TStep.act (a := .go 1) rfl (by simp))) (TStep.act (a := .go 1) rfl (by simp))) (TStep.act (a := .go 1) rfl (by simp)))
    (TStep.act (a := .go 1) rfl (by simp))) (TStep.act (a := .go 1) rfl (by simp))) (TStep.act (a := .go 1) rfl (by simp)))
    (TStep.act (a := .call 2 (.timedSend 7 (.ms n))) rfl (by simp))) (TStep.act (a := .go 2) rfl (by simp)), ?_, rfl⟩
  refine ⟨rfl, rfl, rfl, ?_, rfl, rfl, rfl, rfl, rfl, rfl, rfl, rfl, rfl⟩
  intro t h1 h2
  simp [upd, St.at, h1, h2, tinit, MQ.init]

theorem blocked_tick {a n k : Nat} (hk : k ≤ a) (ha : a ≤ n) : ∃ x tr, TReach 0 x tr ∧ Blocked a n x ∧ x.now = k := by
  induction k with
  | zero => exact blocked0 a n
  | succ k ih =>
    obtain ⟨x, tr, hr, hb, hnow⟩ := ih (by omega)
    have hb' := hb
    obtain ⟨p1, p2, hms, hid, hmb, hnf, hub, _, _, _, s1, s2, _⟩ := hb
    refine ⟨_, _, TReach.step hr (TStep.tick (fun t => ?_) (fun t d hd => ?_)), hb', by simp [hnow]⟩
    · by_cases e1 : t = 1
      · subst e1; simp [MQ.step, hub, p1, hnf]
      · by_cases e2 : t = 2
        · subst e2; simp [MQ.step, hub, p2, hms]
        · simp [MQ.step, hub, hid t e1 e2]
    · by_cases e1 : t = 1
      · subst e1; simp [deadline, p1, timed, s1] at hd; omega
      · by_cases e2 : t = 2
        · subst e2; simp [deadline, p2, timed, s2] at hd; omega
        · simp [deadline, hid t e1 e2, timed] at hd

/-- Thread 2 got the lock at time `a` and waits for room. -/
def Blocked2 (a n : Nat) (x : TSt Nat) : Prop :=
  x.s.pc 2 = .sWait (.timedSend 7 (.ms n)) 7 (.ms n) ∧ (∀ t, t ≠ 2 → x.s.pc t = .idle) ∧ x.s.nf = false ∧ x.s.ub = false ∧
  x.since 2 = a ∧ x.start 2 = 0

theorem blocked2 {a n : Nat} (ha : a ≤ n) : ∃ x tr, TReach 0 x tr ∧ Blocked2 a n x ∧ x.now = a := by
  obtain ⟨x, tr, hr, ⟨p1, p2, hms, hid, hmb, hnf, hub, hnb, hb, he, s1, s2, st2⟩, hnow⟩ := blocked_tick (Nat.le_refl a) ha
  have hfull : size x.s = maxSize x.s := by simp [size, maxSize, hnb, hb, he]
  -- thread 1 gives up, releases the lock and returns
  have h1 := TReach.step hr (TStep.act (a := .expire 1) (by simp only [MQ.step, hub, p1, hnf]; rfl)
    (by rintro t h; cases h; simp [deadline, p1, timed, s1, hnow]))
  have h2 := TReach.step h1 (TStep.act (a := .go 1) (by simp [MQ.step, St.at, hub, upd]; exact ⟨rfl, rfl⟩) (by simp))
  have h3 := TReach.step h2 (TStep.act (a := .go 1) (by simp [MQ.step, St.at, hub, upd]; exact ⟨rfl, rfl⟩) (by simp))
  -- thread 2 takes the lock and finds the queue full
  have h4 := TReach.step h3 (TStep.act (a := .go 2) (by simp [MQ.step, St.at, hub, upd, p2]; exact ⟨rfl, rfl⟩) (by simp))
  have h5 := TReach.step h4 (TStep.act (a := .go 2) (by simp [MQ.step, St.at, hub, upd, hmb]; exact ⟨rfl, rfl⟩) (by simp))
  have h6 := TReach.step h5 (TStep.act (a := .go 2) (by simp [MQ.step, St.at, hub, upd, isFull, size, maxSize, hnb, hb, he]; exact ⟨rfl, rfl⟩) (by simp))
  have h7 := TReach.step h6 (TStep.act (a := .go 2) (by simp [MQ.step, St.at, hub, upd]; exact ⟨rfl, rfl⟩) (by simp))
  have h8 := TReach.step h7 (TStep.act (a := .go 2) (by simp [MQ.step, St.at, hub, upd]; exact ⟨rfl, rfl⟩) (by simp))
  refine ⟨_, _, h8, ⟨?_, fun t ht => ?_, ?_, ?_, ?_, ?_⟩, ?_⟩
  · simp [upd, St.at]
  · by_cases e : t = 1
    · subst e; simp [upd, St.at]
    · simp [upd, St.at, ht, e, hid t e ht]
  · simp [St.at]
  · simp [St.at, hub]
  · simp [Time.actor, St.at, timed, upd, hnow]
  · simp [st2, startAfter]
  · simp [hnow]

theorem blocked2_tick {a n k : Nat} (ha : a ≤ n) (hk : k ≤ n) : ∃ x tr, TReach 0 x tr ∧ Blocked2 a n x ∧ x.now = a + k := by
  induction k with
  | zero => exact blocked2 ha
  | succ k ih =>
    obtain ⟨x, tr, hr, hb, hnow⟩ := ih (by omega)
    have hb' := hb
    obtain ⟨p2, hid, hnf, hub, s2, _⟩ := hb
    refine ⟨_, _, TReach.step hr (TStep.tick (fun t => ?_) (fun t d hd => ?_)), hb', by simp [hnow]; omega⟩
    · by_cases e2 : t = 2
      · subst e2; simp [MQ.step, hub, p2, hnf]
      · simp [MQ.step, hub, hid t e2]
    · by_cases e2 : t = 2
      · subst e2; simp [deadline, p2, timed, s2] at hd; omega
      · simp [deadline, hid t e2, timed] at hd

/-- The property itself is false, and the factor 2 is attained: for every `n` and `a ≤ n` there is an execution in which a
timedSend of timeout `n` made at time 0 is still blocked at time `a + n`. -/
theorem C54_counterexample {a n : Nat} (ha : a ≤ n) : ∃ (x : TSt Nat) (tr : List (Ev Nat)), TReach 0 x tr ∧
    x.s.pc 2 = .sWait (.timedSend 7 (.ms n)) 7 (.ms n) ∧ x.start 2 = 0 ∧ x.now = a + n := by
  obtain ⟨x, tr, h, hb, hn⟩ := blocked2_tick ha (Nat.le_refl n)
  exact ⟨x, tr, h, hb.1, hb.2.2.2.2.2, hn⟩

end Verif.Props.MessageQueueTime
