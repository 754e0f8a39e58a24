import Verif.Proof.WinTimer
/-
C82-C84: the timers of the Windows platform (WindowsOneShotTimerFactory.cpp, WindowsPeriodicTimerFactory.cpp).
`Good k c` is the assumption on the timer service: for a one-shot timer, that timeKillEvent does not succeed any more once the event has been
dispatched; for a periodic timer, that its callbacks do not overlap.  Theorems that do not mention it hold without it.
-/
namespace Verif.Props.WinTimer
open Verif Verif.WT
open _root_.Verif.Lts (Reach)

variable {k : Kind} {c : Cfg} {s : WSt} {tr a b : List Ev}

def good : Cfg := ⟨true, true⟩
theorem good_good : Good k good := by cases k <;> rfl

/-! #### C82: how often the Runnable is called -/

/-- A one-shot timer calls its Runnable at most once per effective start, whatever the service does. -/
theorem C82_at_most_once (h : Exec .oneShot c s tr) : begun tr ≤ starts tr := by
  have g := Gen.reach h
  have := g.c0; have := g.once rfl
  omega

/-- No start, no callback. -/
theorem C82_no_start (h : Exec k c s tr) (h0 : starts tr = 0) : begun tr = 0 ∧ disps tr = 0 := by
  have g := Gen.reach h
  have := g.c0; have := (g.none h0).2
  omega

/-- One-shot: between an effective start and the next there is at most one callback, and the callbacks of earlier starts are over. -/
theorem C82_one_per_start (hg : Good .oneShot c) (h : Exec .oneShot c s (a ++ .op .start .started :: b)) (hb : starts b = 0) :
    begun b ≤ 1 ∧ begun a = ended a ∧ begun a = disps a := by
  obtain ⟨s0, s1, h1, h2, h3, h4⟩ := split2 (by simp) (by simp) h
  have i := Inv.reach hg h1
  have g := Gen.reach h1
  obtain ⟨id, hs0, hal, hr⟩ : ∃ id, s0.started = false ∧ s0.ph = .alive ∧ s0.lock = false ∧ s1.regs = id :: s0.regs := by
    generalize he : [Ev.op .start .started] = ev at h2
    cases h2 with
    | start id x1 x2 x3 x4 => exact ⟨id, x3, x1, x2, rfl⟩
    | dstop x1 x2 x3 x4 => obtain ⟨o, rfl⟩ := x4; simp at he
    | _ => simp at he
  have hr0 : s0.regs = [] := List.eq_nil_iff_forall_not_mem.mpr fun j hj => by have := (i.reg j hj).1; rw [hs0] at this; simp at this
  have hin : s0.inst = [] := List.eq_nil_iff_forall_not_mem.mpr fun x hx => by
    rcases Classical.em (x.pc = .unlock) with hp | hp
    · have := (i.lk (by rw [hal]; simp)).mpr ⟨x, hx, hp⟩; rw [hr.1] at this; simp at this
    · have := (i.one rfl x hx).2 hp; rw [hs0] at this; simp at this
  have ng : s0.ph ≠ .gone := by rw [hal]; simp
  have e1 := g.c1 ng; have e2 := g.c2 ng; have e3 := g.c3 ng
  simp only [hin, num, List.countP_nil] at e1 e2 e3
  have hlen : s1.regs.length = 1 := by rw [hr.2, hr0]; rfl
  have key : starts b = 0 → s.regs.length + disps b ≤ 1 ∧ s.kind = .oneShot ∧ s.regs.Nodup := by
    have hk1 : s1.kind = .oneShot := (Gen.reach h3).kind
    have hn1 := (Gen.reach h3).rnd
    clear h hb
    revert hlen
    have : ∀ {s0 s : WSt} {b : List Ev}, Reach (step c) s0 s b → s0.kind = .oneShot → s0.regs.length = 1 → s0.regs.Nodup → starts b = 0 →
        s.regs.length + disps b ≤ 1 ∧ s.kind = .oneShot ∧ s.regs.Nodup := by
      intro s0 s b h hk hl hn
      induction h with
      | init => intro _; exact ⟨by simp [hl, disps], hk, hn⟩
      | @step s tr x s' ev hr hs ih =>
        intro he
        have hsp : starts tr = 0 ∧ starts ev = 0 := by
          have : starts (tr ++ ev) = starts tr + starts ev := by simp [starts, List.count_append]
          omega
        obtain ⟨i1, i2, i3⟩ := ih hsp.1
        have hd : disps (tr ++ ev) = disps tr + disps ev := by simp [disps, List.count_append]
        rw [hd]
        have hx := next_of hs
        clear hs hr ih hd he
        have hs2 := hsp.2
        clear hsp
        induction hx with
        | dstop h1 _ h2 h3 ih => exact ih hs2
        | start id => simp [starts] at hs2
        | fire id n h1 =>
          have := filter_len i3 h1
          rw [i2]
          refine ⟨?_, rfl, i3.sublist List.filter_sublist⟩
          simp only [disps, List.count_singleton, beq_self_eq_true, if_true] at *
          omega
        | stopped h1 h2 h3 h4 =>
          have := filter_len i3 h4
          refine ⟨?_, i2, i3.sublist List.filter_sublist⟩
          simp only [disps, List.count_singleton] at *
          simp at *
          omega
        | _ => exact ⟨by simpa [disps] using i1, i2, i3⟩
    intro hlen hb
    exact this h4 hk1 hlen hn1 hb
  have k1 := (key hb).1
  have c0 := (Gen.reach h).c0
  have eb : begun (a ++ .op .start .started :: b) = begun a + begun b := by simp [begun, List.count_append]
  have ed : disps (a ++ .op .start .started :: b) = disps a + disps b := by simp [disps, List.count_append]
  omega

/-- An active timer is not forgotten: the service can call back now, or a callback of it is under way and can go on. -/
theorem C82_not_forgotten (hg : Good k c) (h : Exec k c s tr) (ha : activeAfter k tr = true) (hp : s.ph ≠ .gone) :
    (∃ id n s', step c s (.fire id n) = some (s', [.disp])) ∨ (∃ n s' ev, step c s (.cb n) = some (s', ev)) := by
  have i := Inv.reach hg h
  have g := Gen.reach h
  rcases i.le with e | ⟨x, e⟩
  · left
    rcases i.live hp (by rw [g.act, ha]) with hr | ⟨x, hx, _⟩
    · exact ⟨s.timer, 0, by simp [step, hr, e]⟩
    · rw [e] at hx; simp at hx
  · right
    refine ⟨x.n, ?_⟩
    simp only [step, e, List.find?_cons, beq_self_eq_true]
    cases hx : x.pc <;> simp [cbStep, hp, hx]
    cases hk : s.kind <;> simp
    have := mt (i.lk hp).mp (by simp [e, hx])
    simpa using this

/-- The assumption is needed: if timeKillEvent can succeed for a dispatched event, one start is followed by two callbacks. -/
theorem C82_not_strict_two_callbacks : ∃ (s : WSt) (a b : List Ev), Exec .oneShot ⟨false, true⟩ s (a ++ .op .start .started :: b) ∧ starts b = 0 ∧ begun b = 2 := by
  have h : ∃ s tr, Exec .oneShot ⟨false, true⟩ s tr ∧
      decide (tr = [.op .start .started, .disp, .op .stop .stopped] ++ .op .start .started ::
        [.enter, .cbBegin, .cbEnd, .fin, .back, .disp, .enter, .cbBegin]) = true :=
    Lts.runSat_ex (step := step ⟨false, true⟩) (init := WSt.init .oneShot)
      (as := [.start (some 1), .fire 1 0, .stop true, .start (some 2), .cb 0, .cb 0, .cb 0, .cb 0, .cb 0, .fire 2 1, .cb 1, .cb 1])
      (P := fun (_ : WSt) tr => decide (tr = [.op .start .started, .disp, .op .stop .stopped] ++ .op .start .started ::
        [.enter, .cbBegin, .cbEnd, .fin, .back, .disp, .enter, .cbBegin])) (by decide)
  obtain ⟨s, tr, h, hp⟩ := h
  have hp := of_decide_eq_true hp
  subst hp
  exact ⟨s, _, _, h, by decide, by decide⟩

-- Non-vacuity: with a good service, start - callback - start - callback.
example : ∃ (s : WSt) (tr : List Ev), Exec .oneShot good s tr ∧ starts tr = 2 ∧ begun tr = 2 ∧ s.ph = .alive := by
  obtain ⟨s, tr, h, hp⟩ := Lts.runSat_ex (step := step good) (init := WSt.init .oneShot)
      (as := [.start (some 1), .fire 1 0, .cb 0, .cb 0, .cb 0, .cb 0, .cb 0, .start (some 1), .fire 1 0, .cb 0, .cb 0])
      (P := fun (s : WSt) tr => decide (starts tr = 2 ∧ begun tr = 2 ∧ s.ph = .alive)) (by decide)
  exact ⟨s, tr, h, of_decide_eq_true hp⟩

/-! #### C83: start, stop, isStarted -/

/-- isStarted tells whether the timer is active. -/
theorem C83_isStarted {v : Bool} (h : Exec k c s (a ++ .op .isStarted (.active v) :: b)) : v = activeAfter k a := by
  obtain ⟨s0, s1, h1, h2, h3, h4⟩ := split2 (by simp) (by simp) h
  rw [← (Gen.reach h1).act]
  generalize he : [Ev.op .isStarted (.active v)] = ev at h2
  cases h2 with
  | isStarted => simpa using he
  | dstop x1 x2 x3 x4 => obtain ⟨o, rfl⟩ := x4; simp at he
  | _ => simp at he

/-- start does nothing if the timer is active; otherwise it takes effect, or fails with the service. -/
theorem C83_start {o : WT.Out} (h : Exec k c s (a ++ .op .start o :: b)) :
    (activeAfter k a = true ∧ o = .ignored) ∨ (activeAfter k a = false ∧ (o = .started ∨ o = .refused)) := by
  obtain ⟨s0, s1, h1, h2, h3, h4⟩ := split2 (by simp) (by simp) h
  rw [← (Gen.reach h1).act]
  generalize he : [Ev.op .start o] = ev at h2
  cases h2 with
  | startIgn x1 x2 x3 => left; simpa [x3] using he
  | startRef x1 x2 x3 => right; simp at he; simp [x3, he]
  | start id x1 x2 x3 => right; simp at he; simp [x3, he]
  | dstop x1 x2 x3 x4 => obtain ⟨o, rfl⟩ := x4; simp at he
  | _ => simp at he

/-- stop does nothing if the timer is not active. -/
theorem C83_stop {o : WT.Out} (h : Exec k c s (a ++ .op .stop o :: b)) :
    (activeAfter k a = false ∧ o = .ignored) ∨ (activeAfter k a = true ∧ (o = .stopped ∨ o = .tooLate)) := by
  obtain ⟨s0, s1, h1, h2, h3, h4⟩ := split2 (by simp) (by simp) h
  rw [← (Gen.reach h1).act]
  rcases stop_cases h2 with ⟨rfl, e, _⟩ | ⟨rfl, e, _⟩ | ⟨rfl, e, _⟩ | ⟨rfl, e, _⟩ <;> simp [e]

/-- stop of an active timer is too late only for a one-shot timer whose callback has been dispatched and has not come to its end. -/
theorem C83_too_late (hg : Good k c) (h : Exec k c s (a ++ .op .stop .tooLate :: b)) : k = .oneShot ∧ fins a < disps a := by
  obtain ⟨s0, s1, h1, h2, h3, h4⟩ := split2 (by simp) (by simp) h
  have i := Inv.reach hg h1
  have g := Gen.reach h1
  have ng := (next_lock h2).2.1
  rcases stop_cases h2 with ⟨e, _⟩ | ⟨e, _⟩ | ⟨e, _⟩ | ⟨_, hst, hr, _⟩
  · simp at e
  · simp at e
  · simp at e
  · rcases i.live ng hst with h' | ⟨x, hx, hp, hk⟩
    · exact absurd h' hr
    · refine ⟨hk, ?_⟩
      have e1 := g.c1 ng; have e2 := g.c2 ng; have e3 := g.c3 ng; have e4 := g.c4 ng
      have : 1 ≤ num .pending s0.inst + num .ready s0.inst + num .running s0.inst + num .toFin s0.inst := by
        rcases i.le with e | ⟨y, e⟩
        · rw [e] at hx; simp at hx
        · rw [e] at hx ⊢; simp at hx; subst hx
          cases hxp : x.pc <;> simp [num, hxp]
          exact hp hxp
      omega

/-- After stop has taken effect and until the next effective start: no new callback is dispatched, only callbacks that had been dispatched
before can begin; for a one-shot timer there are none of these, and no callback is in progress. -/
theorem C83_stopped_partial (hg : Good k c) (h : Exec k c s (a ++ .op .stop .stopped :: b)) (hb : starts b = 0) :
    disps b = 0 ∧ begun b ≤ disps a - begun a ∧ (k = .oneShot → begun b = 0 ∧ begun a = ended a) := by
  obtain ⟨s0, s1, h1, h2, h3, h4⟩ := split2 (by simp) (by simp) h
  have i := Inv.reach hg h1
  have g := Gen.reach h1
  obtain ⟨hl, ng, hin, _⟩ := next_lock h2
  have hr1 : s1.regs = [] := by
    have i1 := Inv.reach hg h3
    rcases stop_cases h2 with ⟨e, _⟩ | ⟨_, hst, hr, hf⟩ | ⟨_, hst, hr, hf, _⟩ | ⟨e, _⟩
    · simp at e
    · rw [hf, List.filter_eq_nil_iff]; intro j hj; simp [(i.reg j hj).2]
    · rw [hf]; exact List.eq_nil_iff_forall_not_mem.mpr fun j hj => hr ((i.reg j hj).2 ▸ hj)
    · simp at e
  have hd := (quiet h4 hr1 hb).2
  have c0 := (Gen.reach h).c0
  have eb : begun (a ++ .op .stop .stopped :: b) = begun a + begun b := by simp [begun, List.count_append]
  have ed : disps (a ++ .op .stop .stopped :: b) = disps a + disps b := by simp [disps, List.count_append]
  refine ⟨hd, by omega, ?_⟩
  intro hk
  have hin0 : s0.inst = [] := by
    rcases stop_cases h2 with ⟨e, _⟩ | ⟨_, hst, hr, hf⟩ | ⟨_, hst, hr, hf, hc⟩ | ⟨e, _⟩
    · simp at e
    · exact List.eq_nil_iff_forall_not_mem.mpr fun x hx => by have := (i.one hk x hx).1; rw [this] at hr; simp at hr
    · subst hk; simp only [Good] at hg; rw [hg] at hc; simp at hc
    · simp at e
  have e1 := g.c1 ng; have e2 := g.c2 ng; have e3 := g.c3 ng
  simp only [hin0, num, List.countP_nil] at e1 e2 e3
  omega

/-- The full claim - after stop has returned, no callback begins - is false: periodic, the callback had been dispatched before. -/
theorem C83_callback_after_stop : ∃ (s : WSt) (a b : List Ev), Exec .periodic good s (a ++ .op .stop .stopped :: b) ∧ starts b = 0 ∧ begun b = 1 := by
  have h : ∃ s tr, Exec .periodic good s tr ∧
      decide (tr = [.op .start .started, .disp] ++ .op .stop .stopped :: [.enter, .cbBegin]) = true :=
    Lts.runSat_ex (step := step good) (init := WSt.init .periodic) (as := [.start (some 1), .fire 1 0, .stop true, .cb 0, .cb 0])
      (P := fun (_ : WSt) tr => decide (tr = [.op .start .started, .disp] ++ .op .stop .stopped :: [.enter, .cbBegin])) (by decide)
  obtain ⟨s, tr, h, hp⟩ := h
  have hp := of_decide_eq_true hp
  subst hp
  exact ⟨s, _, _, h, by decide, by decide⟩

/-- One-shot: stop returns without effect, isStarted is still true, and the callback begins afterwards. -/
theorem C83_stop_without_effect : ∃ (s : WSt) (a b : List Ev), Exec .oneShot good s (a ++ .op .stop .tooLate :: b) ∧
    .op .isStarted (.active true) ∈ b ∧ starts b = 0 ∧ begun a = 0 ∧ begun b = 1 := by
  have h : ∃ s tr, Exec .oneShot good s tr ∧
      decide (tr = [.op .start .started, .disp] ++ .op .stop .tooLate :: [.op .isStarted (.active true), .enter, .cbBegin]) = true :=
    Lts.runSat_ex (step := step good) (init := WSt.init .oneShot) (as := [.start (some 1), .fire 1 0, .stop true, .isStarted, .cb 0, .cb 0])
      (P := fun (_ : WSt) tr => decide (tr = [.op .start .started, .disp] ++ .op .stop .tooLate :: [.op .isStarted (.active true), .enter, .cbBegin])) (by decide)
  obtain ⟨s, tr, h, hp⟩ := h
  have hp := of_decide_eq_true hp
  subst hp
  exact ⟨s, _, _, h, by decide, by decide, by decide, by decide⟩

/-- If timeKillEvent can succeed for a dispatched one-shot event, the old callback makes a restarted timer look inactive: stop is ignored, and
the callback comes all the same. -/
theorem C83_not_strict_unstoppable : ∃ (s : WSt) (a b : List Ev), Exec .oneShot ⟨false, true⟩ s (a ++ .op .stop .ignored :: b) ∧
    starts b = 0 ∧ begun b = 1 ∧ disps b = 1 := by
  have h : ∃ s tr, Exec .oneShot ⟨false, true⟩ s tr ∧
      decide (tr = [.op .start .started, .disp, .op .stop .stopped, .op .start .started, .enter, .cbBegin, .cbEnd, .fin, .back] ++ .op .stop .ignored ::
        [.disp, .enter, .cbBegin]) = true :=
    Lts.runSat_ex (step := step ⟨false, true⟩) (init := WSt.init .oneShot)
      (as := [.start (some 1), .fire 1 0, .stop true, .start (some 2), .cb 0, .cb 0, .cb 0, .cb 0, .cb 0, .stop true, .fire 2 1, .cb 1, .cb 1])
      (P := fun (_ : WSt) tr => decide (tr = [.op .start .started, .disp, .op .stop .stopped, .op .start .started, .enter, .cbBegin, .cbEnd, .fin, .back] ++
        .op .stop .ignored :: [.disp, .enter, .cbBegin])) (by decide)
  obtain ⟨s, tr, h, hp⟩ := h
  have hp := of_decide_eq_true hp
  subst hp
  exact ⟨s, _, _, h, by decide, by decide, by decide⟩

-- Non-vacuity: a one-shot timer stopped in time, and a start that fails.
example : ∃ (s : WSt) (a b : List Ev), Exec .oneShot good s (a ++ .op .stop .stopped :: b) ∧ starts b = 0 ∧ .op .start .refused ∈ b := by
  have h : ∃ s tr, Exec .oneShot good s tr ∧
      decide (tr = [.op .start .started] ++ .op .stop .stopped :: [.op .start .refused]) = true :=
    Lts.runSat_ex (step := step good) (init := WSt.init .oneShot) (as := [.start (some 1), .stop true, .start none])
      (P := fun (_ : WSt) tr => decide (tr = [.op .start .started] ++ .op .stop .stopped :: [.op .start .refused])) (by decide)
  obtain ⟨s, tr, h, hp⟩ := h
  have hp := of_decide_eq_true hp
  subst hp
  exact ⟨s, _, _, h, by decide, by decide⟩

/-! #### C84: destroy -/

theorem no_uaf_before (h : Exec k c s tr) : s.ph ≠ .gone → .uaf ∉ tr ∧ .waited ∉ tr ∨ (s.ph = .deleting ∧ .uaf ∉ tr) := by
  have : (s.ph ≠ .gone → .uaf ∉ tr) ∧ (s.ph = .alive ∨ s.ph = .stopping ∨ s.ph = .waiting → .waited ∉ tr) := by
    induction h with
    | init => simp
    | @step s tr x s' ev hr hs ih =>
      have hn := next_of hs
      clear hs hr
      obtain ⟨i1, i2⟩ := ih
      induction hn with
      | dstop h1 hn h2 h3 ih => obtain ⟨o, rfl⟩ := h3; simp_all
      | _ => simp_all
  intro h
  cases e : s.ph <;> simp_all

/-- A timer that is being destroyed and has no callback left stays that way. -/
theorem rest_quiet {s0 : WSt} (h : Reach (step c) s0 s b) (h0 : s0.regs = [] ∧ s0.inst = [] ∧ (s0.ph = .deleting ∨ s0.ph = .gone)) :
    (s.regs = [] ∧ s.inst = [] ∧ (s.ph = .deleting ∨ s.ph = .gone)) ∧ .uaf ∉ b ∧ .cbBegin ∉ b ∧ .cbEnd ∉ b ∧ .disp ∉ b := by
  induction h with
  | init => exact ⟨h0, by simp⟩
  | @step s tr x s' ev hr hs ih =>
    have hn := next_of hs
    clear hs hr h0
    obtain ⟨⟨i1, i2, i3⟩, i4⟩ := ih
    induction hn with
    | dstop h1 => rw [h1] at i3; simp at i3
    | _ => simp_all

/-- When destroy has finished waiting, no callback is in progress; and if no callback was on its way to its first or from its last
access to the timer, the deleted timer is never accessed, and no callback begins any more. -/
theorem C84_destroy_partial (hg : Good k c) (h : Exec k c s (a ++ .waited :: b)) :
    begun a = ended a ∧ (enters a = disps a → backs a = fins a → .uaf ∉ a ++ .waited :: b ∧ begun b = 0 ∧ disps b = 0) := by
  obtain ⟨s0, s1, h1, h2, h3, h4⟩ := split2 (by simp) (by simp) h
  have i := Inv.reach hg h1
  have g := Gen.reach h1
  obtain ⟨hw, hev, rfl⟩ : s0.ph = .waiting ∧ s0.ev = true ∧ s1 = { s0 with ph := .deleting } := by
    generalize he : [Ev.waited] = ev at h2
    cases h2 with
    | dwait x1 x2 => exact ⟨x1, x2, rfl⟩
    | dstop x1 x2 x3 x4 => obtain ⟨o, rfl⟩ := x4; simp at he
    | _ => simp at he
  have ng : s0.ph ≠ .gone := by rw [hw]; simp
  have e1 := g.c1 ng; have e2 := g.c2 ng; have e3 := g.c3 ng; have e4 := g.c4 ng; have e5 := g.c5 ng
  have hpu := (i.evv ng).mp hev
  refine ⟨?_, ?_⟩
  · have : num .running s0.inst = 0 := by
      unfold num; rw [List.countP_eq_zero]; intro x hx
      rcases hpu x hx with e | e <;> simp [e]
    omega
  · intro x1 x2
    have hin : s0.inst = [] := by
      rcases i.le with e | ⟨y, e⟩
      · exact e
      · exfalso
        rw [e] at hpu e1 e5
        rcases hpu y (by simp) with hy | hy <;> simp [num, hy] at e1 e5 <;> omega
    have hr : s0.regs = [] := i.dead (.inl hw)
    obtain ⟨_, r1, r2, r3, r4⟩ := rest_quiet h4 ⟨hr, hin, .inl rfl⟩
    refine ⟨?_, List.count_eq_zero.mpr r2, List.count_eq_zero.mpr r4⟩
    have ha : .uaf ∉ a := by
      rcases no_uaf_before h1 ng with h | h
      · exact h.1
      · exact h.2
    simp [ha, r1]

/-- destroy blocks only while a callback is in progress, and this callback can go on. -/
theorem C84_wait_partial (hg : Good k c) (h : Exec k c s tr) (hp : s.ph = .waiting) (hb : step c s .dwait = none) :
    fins tr < enters tr ∧ ∃ n s' ev, step c s (.cb n) = some (s', ev) := by
  have i := Inv.reach hg h
  have g := Gen.reach h
  have ng : s.ph ≠ .gone := by rw [hp]; simp
  have hev : s.ev = false := by simpa [step, hp] using hb
  have e2 := g.c2 ng; have e3 := g.c3 ng; have e4 := g.c4 ng
  have hne := mt (i.evv ng).mpr (by rw [hev]; simp)
  rcases i.le with e | ⟨x, e⟩
  · rw [e] at hne; simp at hne
  · simp only [e, List.mem_singleton, forall_eq, not_or] at hne
    refine ⟨?_, x.n, ?_⟩
    · have : 1 ≤ num .ready s.inst + num .running s.inst + num .toFin s.inst := by
        rw [e]; cases hx : x.pc <;> simp [num, hx] <;> simp [hx] at hne
      omega
    · simp only [step, e, List.find?_cons, beq_self_eq_true]
      cases hx : x.pc <;> simp [cbStep, ng, hx]
      cases hk : s.kind <;> simp
      have := mt (i.lk ng).mp (by simp [e, hx])
      simpa using this

/-- The full claim - a deleted timer is not accessed - is false, for both kinds: a dispatched callback that has not reset the event flag yet. -/
theorem C84_pending_callback (k : Kind) : ∃ (s : WSt) (tr : List Ev), Exec k good s tr ∧ .uaf ∈ tr := by
  have h : ∃ s tr, Exec k good s tr ∧ decide (.uaf ∈ tr) = true :=
    Lts.runSat_ex (step := step good) (init := WSt.init k) (as := [.start (some 1), .fire 1 0, .destroy, .dstop true, .dwait, .delete, .cb 0])
      (P := fun (_ : WSt) tr => decide (.uaf ∈ tr)) (by cases k <;> decide)
  obtain ⟨s, tr, h, hp⟩ := h
  exact ⟨s, tr, h, of_decide_eq_true hp⟩

/-- One-shot: destroy is released by the callback's setAll and deletes the mutex that the callback has still to unlock. -/
theorem C84_unlock_after_delete : ∃ (s : WSt) (a b : List Ev), Exec .oneShot good s (a ++ .waited :: b) ∧ enters a = disps a ∧ .uaf ∈ b := by
  have h : ∃ s tr, Exec .oneShot good s tr ∧
      decide (tr = [.op .start .started, .disp, .enter, .cbBegin, .destroy, .op .stop .tooLate, .cbEnd, .fin] ++ .waited :: [.gone, .uaf]) = true :=
    Lts.runSat_ex (step := step good) (init := WSt.init .oneShot)
      (as := [.start (some 1), .fire 1 0, .cb 0, .cb 0, .destroy, .dstop true, .cb 0, .cb 0, .dwait, .delete, .cb 0])
      (P := fun (_ : WSt) tr => decide (tr = [.op .start .started, .disp, .enter, .cbBegin, .destroy, .op .stop .tooLate, .cbEnd, .fin] ++ .waited :: [.gone, .uaf]))
      (by decide)
  obtain ⟨s, tr, h, hp⟩ := h
  have hp := of_decide_eq_true hp
  subst hp
  exact ⟨s, _, _, h, by decide, by decide⟩

/-- Periodic, if callbacks can overlap: the end of one releases destroy while another is in progress. -/
theorem C84_overlap : ∃ (s : WSt) (a b : List Ev), Exec .periodic ⟨true, false⟩ s (a ++ .waited :: b) ∧ enters a = disps a ∧ begun a = ended a + 1 ∧ .uaf ∈ b := by
  have h : ∃ s tr, Exec .periodic ⟨true, false⟩ s tr ∧
      decide (tr = [.op .start .started, .disp, .disp, .enter, .enter, .cbBegin, .cbEnd, .cbBegin, .fin, .back, .destroy, .op .stop .stopped] ++ .waited :: [.gone, .cbEnd, .uaf]) = true :=
    Lts.runSat_ex (step := step ⟨true, false⟩) (init := WSt.init .periodic)
      (as := [.start (some 1), .fire 1 0, .fire 1 1, .cb 0, .cb 1, .cb 0, .cb 0, .cb 1, .cb 0, .destroy, .dstop true, .dwait, .delete, .cb 1, .cb 1])
      (P := fun (_ : WSt) tr => decide (tr = [.op .start .started, .disp, .disp, .enter, .enter, .cbBegin, .cbEnd, .cbBegin, .fin, .back, .destroy, .op .stop .stopped] ++ .waited :: [.gone, .cbEnd, .uaf]))
      (by decide)
  obtain ⟨s, tr, h, hp⟩ := h
  have hp := of_decide_eq_true hp
  subst hp
  exact ⟨s, _, _, h, by decide, by decide, by decide⟩

-- Non-vacuity: destroy during a callback waits for it.
example : ∃ (s : WSt) (a b : List Ev), Exec .periodic good s (a ++ .waited :: b) ∧ enters a = disps a ∧ backs a = fins a ∧ begun a = 1 := by
  have h : ∃ s tr, Exec .periodic good s tr ∧
      decide (tr = [.op .start .started, .disp, .enter, .cbBegin, .destroy, .op .stop .stopped, .cbEnd, .fin, .back] ++ .waited :: [.gone]) = true :=
    Lts.runSat_ex (step := step good) (init := WSt.init .periodic)
      (as := [.start (some 1), .fire 1 0, .cb 0, .cb 0, .destroy, .dstop true, .cb 0, .cb 0, .dwait, .delete])
      (P := fun (_ : WSt) tr => decide (tr = [.op .start .started, .disp, .enter, .cbBegin, .destroy, .op .stop .stopped, .cbEnd, .fin, .back] ++ .waited :: [.gone])) (by decide)
  obtain ⟨s, tr, h, hp⟩ := h
  have hp := of_decide_eq_true hp
  subst hp
  exact ⟨s, _, _, h, by decide, by decide, by decide⟩
example : ∃ (s : WSt) (tr : List Ev), Exec .oneShot good s tr ∧ s.ph = .waiting ∧ step good s .dwait = none := by
  obtain ⟨s, tr, h, hp⟩ := Lts.runSat_ex (step := step good) (init := WSt.init .oneShot)
      (as := [.start (some 1), .fire 1 0, .cb 0, .cb 0, .destroy, .dstop true])
      (P := fun (s : WSt) tr => decide (s.ph = .waiting ∧ step good s .dwait = none)) (by decide)
  exact ⟨s, tr, h, of_decide_eq_true hp⟩

end Verif.Props.WinTimer
