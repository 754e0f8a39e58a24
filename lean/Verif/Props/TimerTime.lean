import Verif.Props.Timer
import Verif.Model.TimerTime
/-
Property C63: when callbacks begin, and that a periodic timer goes on.
-/
namespace Verif.Props.TimerTime
open Verif
open _root_.Verif.Mtx (Tid)
open Tm Spec Lts Proto Verif.Props.Timer
set_option linter.unusedSimpArgs false
set_option linter.unusedVariables false

/-! #### Specification -/

/-- Executions with a clock; the trace's events carry the time. -/
abbrev TExec (k : Kind) (period : Nat) (d : Disc) (x : TSt) (tr : List (Nat × Ev)) : Prop := Reach (tstep d) (tinit k period) x tr

/-- The time a callback has to wait: the period, or (one-shot) the argument of the last effective start. -/
def durAfter (k : Kind) (period : Nat) (tr : List Ev) : Nat := tr.foldl (fun n e => match e with
  | .lin _ (.start tm) .started => (match k with | .oneShot => tm | .periodic => n)
  | _ => n) period

abbrev evs (tr : List (Nat × Ev)) : List Ev := tr.map Prod.snd

/-- Neither an effective start or stop, nor anything concerning callbacks. -/
def calm : Ev → Bool
  | .lin _ (.start _) .started | .lin _ .stop .stopped | .arm | .due | .cbBegin | .cbEnd | .fin => false
  | _ => true
/-- Nothing concerning callbacks. -/
def noCb : Ev → Bool
  | .arm | .due | .cbBegin | .cbEnd | .fin => false
  | _ => true

/-! #### Proof -/

theorem untimed {k : Kind} {p : Nat} {d : Disc} {x : TSt} {tr : List (Nat × Ev)} (h : TExec k p d x tr) : Exec k p d x.s (evs tr) := by
  refine Reach.inv (I := fun x tr => Exec k p d x.s (evs tr)) Reach.init ?_ h
  intro x tr a x' ev ih hs
  cases a with
  | tick => simp only [tstep, Option.some.injEq, Prod.mk.injEq] at hs; obtain ⟨rfl, rfl⟩ := hs; simpa [evs] using ih
  | act a =>
    simp only [tstep] at hs
    split at hs
    · simp at hs
    · split at hs
      · simp at hs
      · next s' ev' e =>
        simp only [Option.some.injEq, Prod.mk.injEq] at hs; obtain ⟨rfl, rfl⟩ := hs
        have : evs (tr ++ ev'.map (fun e => (x.now, e))) = evs tr ++ ev' := by simp [evs, Function.comp_def]
        rw [this]; exact Reach.step ih e

def Waiting (k : Kind) (p : Nat) (x : TSt) (tr : List (Nat × Ev)) : Prop :=
  ∃ a1 τ a2, tr = a1 ++ (τ, Ev.arm) :: a2 ∧ x.till = τ + durAfter k p (evs a1) ∧ activeAfter (evs a1) = true ∧ τ ≤ x.now ∧
    (∀ e, e ∈ evs a2 → noCb e = true) ∧ (x.s.active = true → ∀ e, e ∈ evs a2 → calm e = true)

def IsDue (k : Kind) (p : Nat) (x : TSt) (tr : List (Nat × Ev)) : Prop :=
  ∃ a1 τ a2 τ' a3, tr = a1 ++ (τ, Ev.arm) :: a2 ++ (τ', Ev.due) :: a3 ∧ τ + durAfter k p (evs a1) ≤ τ' ∧ activeAfter (evs a1) = true ∧ τ' ≤ x.now ∧
    (∀ e, e ∈ evs a2 → calm e = true) ∧ (∀ e, e ∈ evs a3 → noCb e = true)

structure TInv (k : Kind) (p : Nat) (x : TSt) (tr : List (Nat × Ev)) : Prop where
  time : x.s.time = durAfter k p (evs tr)
  act : x.s.active = activeAfter (evs tr)
  mono : ∀ e, e ∈ tr → e.1 ≤ x.now
  wait : x.s.w = .armed ∨ x.s.w = .chk ∨ x.s.w = .late → Waiting k p x tr
  late : x.s.w = .late → x.till ≤ x.now
  due : x.s.w = .due → IsDue k p x tr


theorem dur_app (k : Kind) (p : Nat) (a b : List Ev) : durAfter k p (a ++ b) = b.foldl (fun n e => match e with
  | .lin _ (.start tm) .started => (match k with | .oneShot => tm | .periodic => n)
  | _ => n) (durAfter k p a) := by simp [durAfter]
theorem act_app (a b : List Ev) : activeAfter (a ++ b) = b.foldl (fun b e => match e with
  | .lin _ (.start _) .started => true
  | .lin _ .stop .stopped => false
  | .fin => false
  | _ => b) (activeAfter a) := by unfold activeAfter; rw [List.foldl_append]; rfl

theorem dur_calm {k : Kind} {p : Nat} {a b : List Ev} (h : ∀ e, e ∈ b → calm e = true) : durAfter k p (a ++ b) = durAfter k p a := by
  rw [dur_app]
  generalize durAfter k p a = n
  induction b with
  | nil => rfl
  | cons e b ih =>
    rw [List.foldl_cons]
    have h1 := h e (by simp)
    have ih := ih (fun x hx => h x (by simp [hx]))
    cases e with
    | lin t c o => cases c <;> cases o <;> first | exact ih | simp [calm] at h1
    | _ => first | exact ih | simp [calm] at h1
theorem act_calm {a b : List Ev} (h : ∀ e, e ∈ b → calm e = true) : activeAfter (a ++ b) = activeAfter a := by
  rw [act_app]
  generalize activeAfter a = n
  induction b with
  | nil => rfl
  | cons e b ih =>
    rw [List.foldl_cons]
    have h1 := h e (by simp)
    have ih := ih (fun x hx => h x (by simp [hx]))
    cases e with
    | lin t c o => cases c <;> cases o <;> first | exact ih | simp [calm] at h1
    | _ => first | exact ih | simp [calm] at h1
theorem calm_noCb {e : Ev} (h : calm e = true) : noCb e = true := by
  cases e with
  | lin t c o => cases c <;> cases o <;> simp_all [calm, noCb]
  | _ => simp_all [calm, noCb]

abbrev stamp (n : Nat) (ev : List Ev) : List (Nat × Ev) := ev.map (fun e => (n, e))
theorem evs_stamp (n : Nat) (ev : List Ev) : evs (stamp n ev) = ev := by simp [evs, stamp, Function.comp_def]
theorem evs_app (a b : List (Nat × Ev)) : evs (a ++ b) = evs a ++ evs b := by simp [evs]

abbrev waits (w : WPC) : Prop := w = .armed ∨ w = .chk ∨ w = .late

/-- A step with no events about callbacks. -/
theorem TInv.quiet {k : Kind} {p : Nat} {x : TSt} {tr : List (Nat × Ev)} {s' : Tm.St} {n' : Nat} {ev : List Ev} (T : TInv k p x tr)
    (hn : x.now ≤ n') (hno : ∀ e, e ∈ ev → noCb e = true)
    (htime : s'.time = durAfter k p (evs tr ++ ev)) (hact : s'.active = activeAfter (evs tr ++ ev))
    (hca : s'.active = true → waits s'.w → x.s.active = true ∧ ∀ e, e ∈ ev → calm e = true)
    (hw : waits s'.w → waits x.s.w) (hl : s'.w = .late → x.s.w = .late ∨ x.till ≤ x.now) (hd : s'.w = .due → x.s.w = .due) :
    TInv k p ⟨s', n', x.till⟩ (tr ++ stamp x.now ev) := by
  refine ⟨by rw [evs_app, evs_stamp]; exact htime, by rw [evs_app, evs_stamp]; exact hact, ?_, ?_, ?_, ?_⟩
  · intro e he
    rcases List.mem_append.1 he with h | h
    · exact Nat.le_trans (T.mono e h) hn
    · obtain ⟨e', _, rfl⟩ := List.mem_map.1 h; exact hn
  · intro h
    obtain ⟨a1, τ, a2, h1, h2, h3, h4, h5, h6⟩ := T.wait (hw h)
    refine ⟨a1, τ, a2 ++ stamp x.now ev, by rw [h1]; simp, h2, h3, Nat.le_trans h4 hn, ?_, ?_⟩
    · intro e he
      rw [evs_app, evs_stamp] at he
      rcases List.mem_append.1 he with g | g
      · exact h5 e g
      · exact hno e g
    · intro ha e he
      obtain ⟨ha', hc⟩ := hca ha h
      rw [evs_app, evs_stamp] at he
      rcases List.mem_append.1 he with g | g
      · exact h6 ha' e g
      · exact hc e g
  · intro h
    rcases hl h with g | g
    · exact Nat.le_trans (T.late g) hn
    · exact Nat.le_trans g hn
  · intro h
    obtain ⟨a1, τ, a2, τ', a3, h1, h2, h3, h4, h5, h6⟩ := T.due (hd h)
    refine ⟨a1, τ, a2, τ', a3 ++ stamp x.now ev, by rw [h1]; simp, h2, h3, Nat.le_trans h4 hn, h5, ?_⟩
    intro e he
    rw [evs_app, evs_stamp] at he
    rcases List.mem_append.1 he with g | g
    · exact h6 e g
    · exact hno e g

/-- A step after which no callback is being waited for. -/
theorem TInv.plain {k : Kind} {p : Nat} {x : TSt} {tr : List (Nat × Ev)} {s' : Tm.St} {ev : List Ev} {u : Nat} (T : TInv k p x tr)
    (htime : s'.time = durAfter k p (evs tr ++ ev)) (hact : s'.active = activeAfter (evs tr ++ ev))
    (hw : ¬ waits s'.w) (hd : s'.w ≠ .due) :
    TInv k p ⟨s', x.now, u⟩ (tr ++ stamp x.now ev) := by
  refine ⟨by rw [evs_app, evs_stamp]; exact htime, by rw [evs_app, evs_stamp]; exact hact, ?_, fun h => absurd h hw, fun h => absurd (Or.inr (Or.inr h)) hw,
    fun h => absurd h hd⟩
  intro e he
  rcases List.mem_append.1 he with h | h
  · exact T.mono e h
  · obtain ⟨e', _, rfl⟩ := List.mem_map.1 h; exact Nat.le_refl _

/-- A step with only calm events, without influence on the flags. -/
theorem TInv.calm {k : Kind} {p : Nat} {x : TSt} {tr : List (Nat × Ev)} {s' : Tm.St} {n' : Nat} {ev : List Ev} (T : TInv k p x tr)
    (hn : x.now ≤ n') (hc : ∀ e, e ∈ ev → calm e = true) (htime : s'.time = x.s.time) (hact : s'.active = x.s.active)
    (hw : waits s'.w → waits x.s.w) (hl : s'.w = .late → x.s.w = .late ∨ x.till ≤ x.now) (hd : s'.w = .due → x.s.w = .due) :
    TInv k p ⟨s', n', x.till⟩ (tr ++ stamp x.now ev) :=
  T.quiet hn (fun e he => calm_noCb (hc e he)) (by rw [dur_calm hc, htime, T.time]) (by rw [act_calm hc, hact, T.act])
    (fun h _ => ⟨by rw [← hact]; exact h, hc⟩) hw hl hd

/-- wait_for begins. -/
theorem TInv.arm {k : Kind} {p : Nat} {x : TSt} {tr : List (Nat × Ev)} {s' : Tm.St} (T : TInv k p x tr)
    (htime : s'.time = x.s.time) (hact : s'.active = x.s.active) (ha : x.s.active = true) (hw : s'.w = .armed) :
    TInv k p ⟨s', x.now, x.now + s'.time⟩ (tr ++ stamp x.now [.arm]) := by
  refine ⟨?_, ?_, ?_, fun _ => ⟨tr, x.now, [], rfl, ?_, ?_, Nat.le_refl _, by simp, by simp⟩, ?_, ?_⟩
  · rw [evs_app, evs_stamp, dur_app]; simp [htime, T.time]
  · rw [evs_app, evs_stamp, act_app]; simp [hact, T.act]
  · intro e he
    rcases List.mem_append.1 he with h | h
    · exact T.mono e h
    · obtain ⟨e', _, rfl⟩ := List.mem_map.1 h; exact Nat.le_refl _
  · simp [htime, T.time]
  · rw [← T.act]; exact ha
  · simp [hw]
  · simp [hw]

theorem wakeW_waits {w : WPC} (h : waits (wakeW w)) : waits w := by cases w <;> simp_all [wakeW, waits]
theorem wakeW_late {w : WPC} (h : wakeW w = .late) : w = .late := by cases w <;> simp_all [wakeW, waits]
theorem wakeW_due {w : WPC} (h : wakeW w = .due) : w = .due := by cases w <;> simp_all [wakeW, waits]
theorem waits_G {w : WPC} (h : waits w) : inG w = true := by rcases h with h | h | h <;> rw [h] <;> rfl

theorem TInv.doStart {k : Kind} {p : Nat} {x : TSt} {tr : List (Nat × Ev)} {t : Tid} {tm : Nat} {tr0 : List Ev} (T : TInv k p x tr) (I : Tm.Inv k x.s tr0)
    (hst : x.s.stopped = true) : TInv k p ⟨(doStart x.s t tm).1, x.now, x.till⟩ (tr ++ stamp x.now (doStart x.s t tm).2) := by
  have hg : inG x.s.w = false := by
    cases h : inG x.s.w with
    | false => rfl
    | true => rw [(I.sc.g h).1] at hst; simp at hst
  refine T.plain ?_ ?_ ?_ ?_
  · have := T.time; have hk := I.knd
    rw [dur_app]; simp only [Tm.doStart, List.foldl_cons, List.foldl_nil, hk]; cases k <;> simp [this]
  · rw [act_app]; simp [Tm.doStart]
  · intro h; have := waits_G (wakeW_waits h); rw [hg] at this; simp at this
  · intro h; have := wakeW_due h; rw [this] at hg; simp [inG] at hg

theorem TInv.doStop {k : Kind} {p : Nat} {x : TSt} {tr : List (Nat × Ev)} {t : Tid} (T : TInv k p x tr) :
    TInv k p ⟨(doStop x.s t).1, x.now, x.till⟩ (tr ++ stamp x.now (doStop x.s t).2) := by
  refine T.quiet (Nat.le_refl _) ?_ ?_ ?_ ?_ (fun h => wakeW_waits h) (fun h => Or.inl (wakeW_late h)) (fun h => wakeW_due h)
  · simp [Tm.doStop, noCb]
  · rw [dur_app]; simp [Tm.doStop, T.time, St.at]
  · rw [act_app]; simp [Tm.doStop]
  · simp [Tm.doStop]

theorem TInv.ack {k : Kind} {p : Nat} {x : TSt} {tr : List (Nat × Ev)} (T : TInv k p x tr) :
    TInv k p ⟨(ackStep x.s).1, x.now, x.till⟩ (tr ++ stamp x.now (ackStep x.s).2) := by
  refine T.calm (Nat.le_refl _) ?_ rfl rfl ?_ ?_ ?_ <;> (cases h : x.s.endReq <;> simp [ackStep, Props.TimerTime.calm, h, waits])

theorem TInv.step {k : Kind} {p : Nat} {d : Disc} {x x' : TSt} {tr ev : List (Nat × Ev)} {a : TAct} {tr0 : List Ev} (T : TInv k p x tr) (I : Tm.Inv k x.s tr0)
    (hs : tstep d x a = some (x', ev)) : TInv k p x' (tr ++ ev) := by
  cases a with
  | tick =>
    simp only [tstep, Option.some.injEq, Prod.mk.injEq] at hs; obtain ⟨rfl, rfl⟩ := hs
    exact T.calm (ev := []) (Nat.le_succ _) (by simp) rfl rfl id (fun h => Or.inl h) id
  | act a =>
    simp only [tstep] at hs
    split at hs
    · simp at hs
    next hexp =>
    split at hs
    · simp at hs
    next s1 ev1 e =>
    simp only [Option.some.injEq, Prod.mk.injEq] at hs; obtain ⟨rfl, rfl⟩ := hs
    cases a with
    | call t c =>
      simp only [Tm.step] at e
      split at e
      · simp only [Option.some.injEq, Prod.mk.injEq] at e; obtain ⟨rfl, rfl⟩ := e
        exact T.calm (Nat.le_refl _) (by simp [Props.TimerTime.calm]) rfl rfl id (fun h => Or.inl h) id
      · simp at e
    | go t =>
      cases hpc : x.s.pc t <;> simp only [Tm.step, hpc] at e
      case idle => simp at e
      case sWait => simp at e
      case pWait => simp at e
      case sEnter tm =>
        split at e
        · simp only [Option.some.injEq, Prod.mk.injEq] at e; obtain ⟨rfl, rfl⟩ := e
          exact T.calm (Nat.le_refl _) (by simp [Props.TimerTime.calm]) rfl rfl id (fun h => Or.inl h) id
        · split at e
          · next h => simp only [Option.some.injEq] at e
                      have := T.doStart (t := t) (tm := tm) I h
                      rw [e] at this
                      have h2 : Ev.arm ∉ ev1 := by have := congrArg Prod.snd e; simp [Tm.doStart] at this; simp [← this]
                      simpa [h2] using this
          · simp only [Option.some.injEq, Prod.mk.injEq] at e; obtain ⟨rfl, rfl⟩ := e
            exact T.calm (Nat.le_refl _) (by simp [Props.TimerTime.calm]) rfl rfl id (fun h => Or.inl h) id
      case sRetest tm =>
        split at e
        · next h => simp only [Option.some.injEq] at e
                    have := T.doStart (t := t) (tm := tm) I h
                    rw [e] at this
                    have h2 : Ev.arm ∉ ev1 := by have := congrArg Prod.snd e; simp [Tm.doStart] at this; simp [← this]
                    simpa [h2] using this
        · simp only [Option.some.injEq, Prod.mk.injEq] at e; obtain ⟨rfl, rfl⟩ := e
          exact T.calm (Nat.le_refl _) (by simp [Props.TimerTime.calm]) rfl rfl id (fun h => Or.inl h) id
      case pEnter =>
        split at e
        · simp only [Option.some.injEq, Prod.mk.injEq] at e; obtain ⟨rfl, rfl⟩ := e
          exact T.calm (Nat.le_refl _) (by simp [Props.TimerTime.calm]) rfl rfl id (fun h => Or.inl h) id
        · split at e
          · next h => simp only [Option.some.injEq] at e
                      have := T.doStop (t := t)
                      rw [e] at this
                      have h2 : Ev.arm ∉ ev1 := by have := congrArg Prod.snd e; simp [Tm.doStop] at this; simp [← this]
                      simpa [h2] using this
          · simp only [Option.some.injEq, Prod.mk.injEq] at e; obtain ⟨rfl, rfl⟩ := e
            exact T.calm (Nat.le_refl _) (by simp [Props.TimerTime.calm]) rfl rfl id (fun h => Or.inl h) id
      case pRetest =>
        split at e
        · next h => simp only [Option.some.injEq] at e
                    have := T.doStop (t := t)
                    rw [e] at this
                    have h2 : Ev.arm ∉ ev1 := by have := congrArg Prod.snd e; simp [Tm.doStop] at this; simp [← this]
                    simpa [h2] using this
        · simp only [Option.some.injEq, Prod.mk.injEq] at e; obtain ⟨rfl, rfl⟩ := e
          exact T.calm (Nat.le_refl _) (by simp [Props.TimerTime.calm]) rfl rfl id (fun h => Or.inl h) id
      case iEnter =>
        simp only [Option.some.injEq, Prod.mk.injEq] at e; obtain ⟨rfl, rfl⟩ := e
        exact T.calm (Nat.le_refl _) (by simp [Props.TimerTime.calm]) rfl rfl id (fun h => Or.inl h) id
      case dEnter =>
        simp only [Option.some.injEq, Prod.mk.injEq] at e; obtain ⟨rfl, rfl⟩ := e
        exact T.calm (Nat.le_refl _) (by simp [Props.TimerTime.calm]) rfl rfl (fun h => wakeW_waits h) (fun h => Or.inl (wakeW_late h)) (fun h => wakeW_due h)
      case dJoin =>
        split at e
        · simp only [Option.some.injEq, Prod.mk.injEq] at e; obtain ⟨rfl, rfl⟩ := e
          exact T.calm (Nat.le_refl _) (by simp [Props.TimerTime.calm]) rfl rfl id (fun h => Or.inl h) id
        · simp at e
      case ret c o =>
        simp only [Option.some.injEq, Prod.mk.injEq] at e; obtain ⟨rfl, rfl⟩ := e
        exact T.calm (Nat.le_refl _) (by simp [Props.TimerTime.calm]) rfl rfl id (fun h => Or.inl h) id
    | spur t =>
      cases hpc : x.s.pc t <;> simp only [Tm.step, hpc, Option.some.injEq, Prod.mk.injEq, reduceCtorEq] at e
      all_goals
        obtain ⟨rfl, rfl⟩ := e
        exact T.calm (Nat.le_refl _) (by simp [Props.TimerTime.calm]) rfl rfl id (fun h => Or.inl h) id
    | expire =>
      cases hw : x.s.w <;> simp only [Tm.step, hw, Option.some.injEq, Prod.mk.injEq, reduceCtorEq] at e
      obtain ⟨rfl, rfl⟩ := e
      have : x.till ≤ x.now := by simpa using hexp
      exact T.calm (Nat.le_refl _) (by simp [Props.TimerTime.calm]) rfl rfl (fun _ => Or.inl hw) (fun h => Or.inr this) (by simp)
    | wspur =>
      cases hw : x.s.w <;> simp only [Tm.step, hw, Option.some.injEq, Prod.mk.injEq, reduceCtorEq] at e
      all_goals obtain ⟨rfl, rfl⟩ := e
      · exact T.calm (Nat.le_refl _) (by simp [Props.TimerTime.calm]) rfl rfl (by simp [waits]) (by simp [waits]) (by simp)
      · exact T.calm (Nat.le_refl _) (by simp [Props.TimerTime.calm]) rfl rfl (fun _ => Or.inl hw) (by simp [waits]) (by simp)
    | wgo =>
      have hack : (ackStep x.s) = (s1, ev1) → TInv k p ⟨s1, x.now, if Ev.arm ∈ ev1 then x.now + s1.time else x.till⟩ (tr ++ stamp x.now ev1) := by
        intro e
        have := T.ack
        rw [e] at this
        have h2 : Ev.arm ∉ ev1 := by
          have := congrArg Prod.snd e; simp only [ackStep] at this; rw [← this]; cases x.s.endReq <;> simp
        simpa [h2] using this
      cases hw : x.s.w <;> simp only [Tm.step, hw] at e
      case w0s => simp at e
      case armed => simp at e
      case dead => simp at e
      case w0 =>
        split at e
        · next hae =>
          split at e
          · simp only [Option.some.injEq, Prod.mk.injEq] at e; obtain ⟨rfl, rfl⟩ := e
            exact T.calm (Nat.le_refl _) (by simp [Props.TimerTime.calm]) rfl rfl (by simp [waits]) (by simp [waits]) (by simp)
          · next he =>
            have ha : x.s.active = true := by simpa [he] using hae
            split at e <;> simp only [Option.some.injEq, Prod.mk.injEq] at e <;> obtain ⟨rfl, rfl⟩ := e
            · exact T.arm rfl rfl ha rfl
            · exact T.calm (Nat.le_refl _) (by simp [Props.TimerTime.calm]) rfl rfl (by simp [waits]) (by simp [waits]) (by simp)
        · simp only [Option.some.injEq, Prod.mk.injEq] at e; obtain ⟨rfl, rfl⟩ := e
          exact T.calm (Nat.le_refl _) (by simp [Props.TimerTime.calm]) rfl rfl (by simp [waits]) (by simp [waits]) (by simp)
      case toArm =>
        split at e
        · simp only [Option.some.injEq] at e; exact hack e
        · next hc =>
          simp only [Option.some.injEq, Prod.mk.injEq] at e; obtain ⟨rfl, rfl⟩ := e
          exact T.arm rfl rfl (by simpa using (not_or.1 hc).1) rfl
      case chk =>
        split at e
        · simp only [Option.some.injEq] at e; exact hack e
        · simp only [Option.some.injEq, Prod.mk.injEq] at e; obtain ⟨rfl, rfl⟩ := e
          exact T.calm (Nat.le_refl _) (by simp [Props.TimerTime.calm]) rfl rfl (fun _ => Or.inr (Or.inl hw)) (by simp [waits]) (by simp)
      case late =>
        split at e
        · simp only [Option.some.injEq] at e; exact hack e
        · next hc =>
          simp only [Option.some.injEq, Prod.mk.injEq] at e; obtain ⟨rfl, rfl⟩ := e
          have ha : x.s.active = true := by simpa using (not_or.1 hc).1
          refine ⟨?_, ?_, ?_, by simp [waits], by simp, ?_⟩
          · rw [evs_app, evs_stamp, dur_app]; simp [T.time]
          · rw [evs_app, evs_stamp, act_app]; simp [T.act]
          · intro e he
            rcases List.mem_append.1 he with h | h
            · exact T.mono e h
            · obtain ⟨e', _, rfl⟩ := List.mem_map.1 h; exact Nat.le_refl _
          · intro _
            obtain ⟨a1, τ, a2, h1, h2, h3, h4, h5, h6⟩ := T.wait (Or.inr (Or.inr hw))
            have := T.late hw
            exact ⟨a1, τ, a2, x.now, [], by rw [h1]; simp, by omega, h3, Nat.le_refl _, h6 ha, by simp⟩
      case due =>
        simp only [Option.some.injEq, Prod.mk.injEq] at e; obtain ⟨rfl, rfl⟩ := e
        exact T.plain (by rw [dur_app]; simp [T.time]) (by rw [act_app]; simp [T.act]) (by simp [waits]) (by simp)
      case running =>
        split at e
        · simp only [Option.some.injEq, Prod.mk.injEq] at e; obtain ⟨rfl, rfl⟩ := e
          exact T.plain (by rw [dur_app]; simp [T.time]) (by rw [act_app]; simp [T.act]) (by dsimp; split <;> simp [waits]) (by dsimp; split <;> simp)
        · simp at e
      case post =>
        simp only [Option.some.injEq, Prod.mk.injEq] at e; obtain ⟨rfl, rfl⟩ := e
        exact T.plain (by rw [dur_app]; simp [T.time]) (by rw [act_app]; simp [T.act]) (by simp [waits]) (by simp)

theorem TInv.reach {k : Kind} {p : Nat} {d : Disc} {x : TSt} {tr : List (Nat × Ev)} (h : TExec k p d x tr) : TInv k p x tr := by
  have := Reach.inv (I := fun x tr => TExec k p d x tr ∧ TInv k p x tr)
    ⟨Reach.init, by constructor <;> simp [tinit, Tm.init, durAfter, activeAfter, evs]⟩ (fun x tr a x' ev ih hs =>
      ⟨Reach.step ih.1 hs, ih.2.step (Tm.Inv.reach (untimed ih.1)) hs⟩) h
  exact this.2

/-! #### C63 -/

theorem split_app {α : Type} {tr ev pre post : List α} {y : α} (e : tr ++ ev = pre ++ y :: post) :
    (∃ post', tr = pre ++ y :: post') ∨ ∃ pre', pre = tr ++ pre' ∧ ev = pre' ++ y :: post := by
  rcases List.append_eq_append_iff.1 e with ⟨c, h1, h2⟩ | ⟨c, h1, h2⟩
  · exact Or.inr ⟨c, h1, h2⟩
  · cases c with
    | nil => simp at h1 h2; exact Or.inr ⟨[], by simp [h1], by simp [h2]⟩
    | cons z c => simp at h2; obtain ⟨rfl, rfl⟩ := h2; exact Or.inl ⟨c, h1⟩

theorem cb_step {d : Disc} {s s' : Tm.St} {a : Act} {ev : List Ev} (hs : Tm.step d s a = some (s', ev)) (h : Ev.cbBegin ∈ ev) :
    ev = [.cbBegin] ∧ s.w = .due := by
  cases a with
  | call u c => simp only [Tm.step] at hs; split at hs <;> simp at hs; obtain ⟨_, rfl⟩ := hs; simp at h
  | go u =>
    exfalso
    cases hp : s.pc u <;> simp only [Tm.step, hp] at hs <;> (try split at hs) <;> (try split at hs) <;> simp [doStart, doStop] at hs <;>
      (obtain ⟨_, rfl⟩ := hs) <;> simp at h
  | spur u => cases hp : s.pc u <;> simp [Tm.step, hp] at hs <;> (obtain ⟨_, rfl⟩ := hs; simp at h)
  | wgo =>
    simp only [Tm.step] at hs
    cases hw : s.w <;> simp only [hw] at hs <;> (try split at hs) <;> (try split at hs) <;> (try split at hs) <;>
      simp [ackStep] at hs <;> (obtain ⟨rfl, rfl⟩ := hs; (try split at h) <;> simp at h ⊢)
  | expire | wspur => all_goals (simp only [Tm.step] at hs; split at hs <;> simp at hs <;> (obtain ⟨_, rfl⟩ := hs; simp at h))

/-- Whenever a callback begins, the timer thread had begun to measure the time when the timer was active, a whole period (one-shot:
the time given to the start in force) has elapsed since then, and in that time there was no effective start or stop and no other
callback; after that moment it just took its time to make the callback. -/
theorem C63_callback {k : Kind} {p : Nat} {d : Disc} {x : TSt} {tr : List (Nat × Ev)} (h : TExec k p d x tr) {a b : List (Nat × Ev)} {τ : Nat}
    (e : tr = a ++ (τ, Ev.cbBegin) :: b) :
    ∃ a1 τ0 a2 τ1 a3, a = a1 ++ (τ0, Ev.arm) :: a2 ++ (τ1, Ev.due) :: a3 ∧ activeAfter (evs a1) = true ∧
      τ0 + durAfter k p (evs a1) ≤ τ1 ∧ τ1 ≤ τ ∧ (∀ e, e ∈ evs a2 → calm e = true) ∧ (∀ e, e ∈ evs a3 → noCb e = true) := by
  induction h generalizing a b with
  | init => simp at e
  | @step x tr act x' ev hr hs ih =>
    rcases split_app e with ⟨b', h1⟩ | ⟨a', h1, h2⟩
    · exact ih h1
    · cases act with
      | tick => simp only [tstep, Option.some.injEq, Prod.mk.injEq] at hs; obtain ⟨rfl, rfl⟩ := hs; simp at h2
      | act y =>
        simp only [tstep] at hs
        split at hs
        · simp at hs
        split at hs
        · simp at hs
        next s1 ev1 e1 =>
        simp only [Option.some.injEq, Prod.mk.injEq] at hs; obtain ⟨rfl, rfl⟩ := hs
        have hm : (τ, Ev.cbBegin) ∈ ev1.map (fun e => (x.now, e)) := by rw [h2]; simp
        obtain ⟨e', he', e2⟩ := List.mem_map.1 hm
        simp at e2; obtain ⟨rfl, rfl⟩ := e2
        obtain ⟨rfl, hw⟩ := cb_step e1 he'
        have : a' = [] := by
          rcases a' with _ | ⟨z, a'⟩
          · rfl
          · simp at h2
        subst this
        simp at h1; subst h1
        obtain ⟨a1, τ0, a2, τ1, a3, g1, g2, g3, g4, g5, g6⟩ := (TInv.reach hr).due hw
        exact ⟨a1, τ0, a2, τ1, a3, g1, g3, g2, g4, g5, g6⟩

theorem hist_never {k : Kind} {h : List Eff} {a : A} (hh : Hist k h a) : nStarts h = 0 → nBegun h = 0 ∧ a.active = false ∧ a.ph ≠ .due := by
  induction hh with
  | nil => simp [nStarts, nBegun]
  | snoc _ hl ih =>
    intro h0
    rw [nStarts_snoc] at h0
    obtain ⟨i1, i2, i3⟩ := ih (by omega)
    rw [nBegun_snoc]
    cases hl <;> simp_all [sN, bN] <;> (cases k <;> simp [afterCb])

/-- No callback begins before a start took effect. -/
theorem C63_never {k : Kind} {p : Nat} {d : Disc} {x : TSt} {tr : List (Nat × Ev)} (h : TExec k p d x tr) {a b : List (Nat × Ev)} {τ : Nat}
    (e : tr = a ++ (τ, Ev.cbBegin) :: b) : 0 < starts (evs a) := by
  have I := Tm.Inv.reach (untimed h)
  have hh := I.hist
  rw [e, evs_app] at hh
  simp only [evs, List.map_append, List.map_cons, effects_app] at hh
  rw [show effects (Ev.cbBegin :: b.map Prod.snd) = Eff.cbBegin :: effects (b.map Prod.snd) from rfl] at hh
  obtain ⟨c, c', h1, h2, h3⟩ := hist_at hh
  have := hist_never h1
  obtain ⟨n1, _⟩ := n_eff (evs a)
  cases h2 with
  | cbBegin hd =>
    apply Nat.pos_of_ne_zero
    intro h0
    exact (this (by rw [← h0]; exact n1)).2.2 hd

/-! It goes on. -/

/-- The steps of an active periodic timer that is neither stopped nor destroyed nor making a callback. -/
theorem live_step {d : Disc} {s s' : Tm.St} {a : Act} {ev : List Ev} {tr : List Ev} (I : Tm.Inv .periodic s tr) (hs : Tm.step d s a = some (s', ev))
    (ha : s.active = true) (hd : s.dying = none) (hst : ∀ t, Ev.lin t .stop .stopped ∉ ev) (hno : ∀ t, a ≠ .call t .destroy) (hcb : Ev.cbBegin ∉ ev) :
    s'.active = true ∧ s'.dying = none ∧ s'.time = s.time ∧
    ((s'.w = s.w ∧ a ≠ .wgo ∧ a ≠ .expire ∧ Ev.arm ∉ ev) ∨ (a = .expire ∧ s.w = .armed ∧ s'.w = .late ∧ Ev.arm ∉ ev) ∨ a = .wspur ∨
      (a = .wgo ∧ ((s.w = .w0 ∧ s'.w = .toArm ∧ Ev.arm ∉ ev) ∨ (s.w = .toArm ∧ s'.w = .armed ∧ ev = [.arm]) ∨ (s.w = .chk ∧ s'.w = .armed ∧ Ev.arm ∉ ev) ∨
        (s.w = .late ∧ s'.w = .due ∧ Ev.arm ∉ ev) ∨ (s.w = .running ∧ s'.w = .toArm ∧ Ev.arm ∉ ev)))) := by
  have he : s.endReq = false := by
    cases h : s.endReq with
    | false => rfl
    | true => obtain ⟨x, h1, _⟩ := I.er h; rw [hd] at h1; simp at h1
  have hk := I.knd
  have hnd : s.w ≠ .dead := fun h => by have := I.sc.de h; rw [he] at this; simp at this
  have hnp : s.w ≠ .post := fun h => by have := I.sc.po h; rw [hk] at this; simp at this
  have hns : s.stopped = false := by
    cases hw : s.w <;> first
      | exact (I.sc.g (by rw [hw]; rfl)).1
      | (have := (I.sc.z (by rw [hw]; rfl)).2; rw [ha] at this; exact this)
      | exact absurd hw hnd
  have hns0 : s.w ≠ .w0s := fun h => by have := (I.sc.sl h).1; rw [ha] at this; simp at this
  cases a with
  | call u c =>
    simp only [Tm.step] at hs; split at hs <;> simp at hs; obtain ⟨rfl, rfl⟩ := hs
    have : c ≠ .destroy := fun h => hno u (by rw [h])
    simp [St.at, ha, hd, this]
  | go u =>
    cases hp : s.pc u <;> simp only [Tm.step, hp, ha, hns] at hs
    case dEnter => have := I.dy u (by rw [hp]; rfl); rw [hd] at this; simp at this
    case dJoin => have := I.dy u (by rw [hp]; rfl); rw [hd] at this; simp at this
    case pEnter =>
      split at hs
      · simp at *
      split at hs
      · simp [doStop] at hs; obtain ⟨_, rfl⟩ := hs; exact absurd (by simp) (hst u)
      · simp at hs; obtain ⟨rfl, rfl⟩ := hs; simp [St.at, ha, hd]
    case pRetest =>
      split at hs
      · simp [doStop] at hs; obtain ⟨_, rfl⟩ := hs; exact absurd (by simp) (hst u)
      · simp at hs; obtain ⟨rfl, rfl⟩ := hs; simp [St.at, ha, hd]
    all_goals (simp at hs <;> (obtain ⟨rfl, rfl⟩ := hs; simp [St.at, ha, hd]))
  | spur u =>
    cases hp : s.pc u <;> simp [Tm.step, hp] at hs <;> (obtain ⟨rfl, rfl⟩ := hs; simp [St.at, ha, hd])
  | wgo =>
    cases hw : s.w <;> simp_all [Tm.step]
    case running => obtain ⟨_, rfl, rfl⟩ := hs; simp [ha, hd]
    case due => obtain ⟨_, rfl⟩ := hs; simp at hcb
    all_goals (obtain ⟨rfl, rfl⟩ := hs; simp [ha, hd])
  | expire =>
    cases hw : s.w <;> simp [Tm.step, hw] at hs
    obtain ⟨rfl, rfl⟩ := hs; simp [ha, hd]
  | wspur =>
    cases hw : s.w <;> simp [Tm.step, hw] at hs <;> (obtain ⟨rfl, rfl⟩ := hs; simp [ha, hd])

theorem dying_call {k : Kind} {p : Nat} {d : Disc} {s : Tm.St} {tr : List Ev} (h : Exec k p d s tr) : ∀ t, s.dying = some t → Ev.call t .destroy ∈ tr := by
  refine Reach.inv (I := fun (s : Tm.St) tr => ∀ t, s.dying = some t → Ev.call t .destroy ∈ tr) (by simp [Tm.init]) ?_ h
  intro s tr a s' ev ih hs
  have key : s'.dying = s.dying → ∀ t, s'.dying = some t → Ev.call t .destroy ∈ tr ++ ev := fun e t ht => by
    rw [e] at ht; exact List.mem_append_left _ (ih t ht)
  cases a with
  | call u c =>
    simp only [Tm.step] at hs; split at hs <;> simp at hs; obtain ⟨rfl, rfl⟩ := hs
    by_cases hc : c = .destroy
    · subst hc; intro t ht; simp [St.at] at ht; subst ht; simp
    · exact key (by simp [St.at, hc])
  | go u =>
    cases hp : s.pc u <;> simp only [Tm.step, hp] at hs <;> (try split at hs) <;> (try split at hs) <;> simp [doStart, doStop] at hs <;>
      (obtain ⟨rfl, rfl⟩ := hs) <;> exact key rfl
  | spur u => cases hp : s.pc u <;> simp [Tm.step, hp] at hs <;> (obtain ⟨rfl, rfl⟩ := hs; exact key rfl)
  | wgo =>
    simp only [Tm.step] at hs
    cases hw : s.w <;> simp only [hw] at hs <;> (try split at hs) <;> (try split at hs) <;> (try split at hs) <;>
      simp [ackStep] at hs <;> (obtain ⟨rfl, rfl⟩ := hs; exact key rfl)
  | expire | wspur => all_goals (simp only [Tm.step] at hs; split at hs <;> simp at hs <;> (obtain ⟨rfl, rfl⟩ := hs; exact key rfl))

theorem no_fin {p : Nat} {d : Disc} {s : Tm.St} {tr : List Ev} (h : Exec .periodic p d s tr) : Ev.fin ∉ tr := by
  intro hm
  have key : ∀ l a, Hist .periodic l a → Eff.fin ∉ l := by
    intro l a hh
    induction hh with
    | nil => simp
    | snoc _ hl ih => cases hl <;> simp_all
  exact key _ _ (Tm.Inv.reach h).hist (List.mem_filterMap.2 ⟨_, hm, rfl⟩)

theorem stays {a b : List Ev} (ha : activeAfter a = true) (h1 : ∀ t, Ev.lin t .stop .stopped ∉ b) (h2 : Ev.fin ∉ b) : activeAfter (a ++ b) = true := by
  rw [act_app, ha]
  induction b with
  | nil => rfl
  | cons e b ih =>
    rw [List.foldl_cons]
    have ih := ih (fun t h => h1 t (by simp [h])) (fun h => h2 (by simp [h]))
    cases e with
    | lin t c o => cases c <;> cases o <;> first | exact ih | exact absurd (by simp) (h1 t)
    | _ => first | exact ih | exact absurd (by simp) h2

/-- A bound for the steps to the next callback. -/
def dist (x : TSt) : Nat := match x.s.w with
  | .due => 1
  | .late => 2
  | .armed => 3 + (x.till - x.now)
  | .chk => 4 + (x.till - x.now)
  | .toArm => 5 + x.s.time
  | _ => 6 + x.s.time
def next (x : TSt) : TAct := match x.s.w with
  | .armed => if x.now < x.till then .tick else .act .expire
  | _ => .act .wgo

/-- An active periodic timer that is neither stopped nor destroyed makes callbacks again and again, in every execution that is fair to the clock and
the timer thread and in which that thread's wait_for wakes up spuriously only finitely often (whatever the clients do otherwise). -/
theorem C63_repeats {p : Nat} {d : Disc} {st : Nat → TSt} {act : Nat → TAct} {ev : Nat → List (Nat × Ev)} {tr : List (Nat × Ev)}
    (hself : d.selfCalls = false)
    (hx : InfExec (tstep d) st act ev) (h0 : TExec .periodic p d (st 0) tr)
    (hact : activeAfter (evs tr) = true) (hnd0 : ∀ t, Ev.call t .destroy ∉ evs tr) (hnd : ∀ n t, Ev.call t .destroy ∉ evs (ev n))
    (hstop : ∀ n t, Ev.lin t .stop .stopped ∉ evs (ev n))
    (hspur : ∃ N, ∀ n, N ≤ n → act n ≠ .act .wspur)
    (hft : WeakFair (tstep d) st act .tick) (hfw : WeakFair (tstep d) st act (.act .wgo)) (hfe : WeakFair (tstep d) st act (.act .expire)) :
    ∀ N, ∃ n, N ≤ n ∧ Ev.cbBegin ∈ evs (ev n) := by
  intro N
  apply Classical.byContradiction
  intro hcon
  have hcb : ∀ n, N ≤ n → Ev.cbBegin ∉ evs (ev n) := fun n hn h => hcon ⟨n, hn, h⟩
  have hr : ∀ n, TExec .periodic p d (st n) (tr ++ upto ev n) := hx.reach_upto h0
  have hmem : ∀ n e, e ∈ evs (tr ++ upto ev n) → e ∈ evs tr ∨ ∃ m, e ∈ evs (ev m) := by
    intro n e he
    obtain ⟨y, hy, rfl⟩ := List.mem_map.1 he
    rcases List.mem_append.1 hy with h | h
    · exact Or.inl (List.mem_map_of_mem h)
    · obtain ⟨m, _, hm⟩ := mem_upto.1 h; exact Or.inr ⟨m, List.mem_map_of_mem hm⟩
  have hI : ∀ n, Tm.Inv .periodic (st n).s (evs (tr ++ upto ev n)) := fun n => Tm.Inv.reach (untimed (hr n))
  have hA : ∀ n, (st n).s.active = true := by
    intro n
    rw [(TInv.reach (hr n)).act, evs_app]
    refine stays hact (fun t h => ?_) (fun h => ?_)
    · obtain ⟨y, hy, e⟩ := List.mem_map.1 h
      obtain ⟨m, _, hm⟩ := mem_upto.1 hy
      exact hstop m t (by rw [← e]; exact List.mem_map_of_mem hm)
    · exact no_fin (untimed (hr n)) (by rw [evs_app]; exact List.mem_append_right _ h)
  have hD : ∀ n, (st n).s.dying = none := by
    intro n
    cases h : (st n).s.dying with
    | none => rfl
    | some t =>
      rcases hmem n _ (dying_call (untimed (hr n)) t h) with g | ⟨m, g⟩
      · exact absurd g (hnd0 t)
      · exact absurd g (hnd m t)
  have hE : ∀ n, (st n).s.endReq = false := by
    intro n
    cases h : (st n).s.endReq with
    | false => rfl
    | true => obtain ⟨x, h1, _⟩ := (hI n).er h; rw [hD n] at h1; simp at h1
  obtain ⟨N1, hsp⟩ := hspur
  have hstep : ∀ n, N ≤ n → N1 ≤ n →
      (act n = .tick ∧ (st (n + 1)).s = (st n).s ∧ (st (n + 1)).now = (st n).now + 1 ∧ (st (n + 1)).till = (st n).till) ∨
      ∃ a ev1, act n = .act a ∧ a ≠ .wspur ∧ (a = .expire → (st n).till ≤ (st n).now) ∧ (st (n + 1)).now = (st n).now ∧
        (st (n + 1)).till = (if Ev.arm ∈ ev1 then (st n).now + (st (n + 1)).s.time else (st n).till) ∧ (st (n + 1)).s.time = (st n).s.time ∧
        (((st (n + 1)).s.w = (st n).s.w ∧ a ≠ .wgo ∧ a ≠ .expire ∧ Ev.arm ∉ ev1) ∨
          (a = .expire ∧ (st n).s.w = .armed ∧ (st (n + 1)).s.w = .late ∧ Ev.arm ∉ ev1) ∨
          (a = .wgo ∧ (((st n).s.w = .w0 ∧ (st (n + 1)).s.w = .toArm ∧ Ev.arm ∉ ev1) ∨ ((st n).s.w = .toArm ∧ (st (n + 1)).s.w = .armed ∧ ev1 = [.arm]) ∨
            ((st n).s.w = .chk ∧ (st (n + 1)).s.w = .armed ∧ Ev.arm ∉ ev1) ∨ ((st n).s.w = .late ∧ (st (n + 1)).s.w = .due ∧ Ev.arm ∉ ev1) ∨
            ((st n).s.w = .running ∧ (st (n + 1)).s.w = .toArm ∧ Ev.arm ∉ ev1)))) := by
    intro n hn hn1
    have hs := hx n
    cases ha : act n with
    | tick =>
      rw [ha] at hs
      simp only [tstep, Option.some.injEq, Prod.mk.injEq] at hs
      left; rw [← hs.1]; exact ⟨rfl, rfl, rfl, rfl⟩
    | act a =>
      right
      rw [ha] at hs
      simp only [tstep] at hs
      split at hs
      · simp at hs
      next hexp =>
      split at hs
      · simp at hs
      next s1 ev1 e1 =>
      simp only [Option.some.injEq, Prod.mk.injEq] at hs
      have hev : evs (ev n) = ev1 := by rw [← hs.2]; exact evs_stamp _ _
      have e2 : (st (n + 1)).s = s1 := by rw [← hs.1]
      have hws : a ≠ .wspur := fun h => hsp n hn1 (by rw [ha, h])
      obtain ⟨h1, h2, h3, h4⟩ := live_step (hI n) e1 (hA n) (hD n) (fun t => by rw [← hev]; exact hstop n t)
        (fun t h => by
          subst h
          have hc := e1
          simp only [Tm.step] at hc
          split at hc
          · simp at hc; exact hnd n t (by rw [hev, ← hc.2]; simp)
          · simp at hc) (by rw [← hev]; exact hcb n hn)
      refine ⟨a, ev1, rfl, hws, ?_, by rw [← hs.1], by rw [← hs.1], by rw [e2]; exact h3, ?_⟩
      · intro h; subst h; simpa using hexp
      · rw [e2]
        rcases h4 with h | h | h | h
        · exact Or.inl h
        · exact Or.inr (Or.inl h)
        · exact absurd h hws
        · exact Or.inr (Or.inr h)
  have hne : ∀ n, (st n).s.w ≠ .w0s ∧ (st n).s.w ≠ .dead ∧ (st n).s.w ≠ .post := by
    intro n
    refine ⟨fun h => ?_, fun h => ?_, fun h => ?_⟩
    · have := ((hI n).sc.sl h).1; rw [hA n] at this; simp at this
    · have := (hI n).sc.de h; rw [hE n] at this; simp at this
    · have := (hI n).sc.po h; rw [(hI n).knd] at this; simp at this
  have hpos : ∀ n, dist (st n) ≠ 0 := by intro n; unfold dist; split <;> omega
  obtain ⟨n, _, h⟩ := fair_zero (step := tstep d) (st := st) (act := act) dist next (max N N1)
    (by
      intro n hn _
      have hN : N ≤ n ∧ N1 ≤ n := by omega
      rcases hstep n hN.1 hN.2 with ⟨h1, h2, h3, h4⟩ | ⟨a, ev1, h1, h2, h3, h4, h5, h6, h7⟩
      · refine ⟨?_, ?_, ?_⟩
        · unfold dist; rw [h2, h3, h4]; cases (st n).s.w <;> simp <;> omega
        · intro ha
          rw [h1] at ha
          unfold next at ha
          cases hw : (st n).s.w <;> simp [hw] at ha
          unfold dist; rw [h2, h3, h4, hw]; simp; omega
        · unfold dist next; rw [h2, h3, h4]
          cases hw : (st n).s.w <;> simp
          intro h
          have : (st n).now + 1 < (st n).till ↔ (st n).now < (st n).till := by omega
          simp [this]
      · rcases h7 with ⟨g1, g2, g3, g4⟩ | ⟨rfl, g1, g2, g3⟩ | ⟨rfl, g⟩
        · rw [if_neg g4] at h5
          have e1 : dist (st (n + 1)) = dist (st n) := by unfold dist; rw [g1, h4, h5, h6]
          have e2 : next (st (n + 1)) = next (st n) := by unfold next; rw [g1, h4, h5]
          refine ⟨by omega, ?_, fun _ => e2⟩
          intro ha
          rw [h1] at ha
          unfold next at ha
          split at ha
          · split at ha <;> simp at ha; exact absurd ha g3
          · simp at ha; exact absurd ha g2
        · rw [if_neg g3] at h5
          have h3 := h3 rfl
          have : dist (st (n + 1)) < dist (st n) := by unfold dist; rw [g1, g2]; simp; omega
          exact ⟨by omega, fun _ => this, fun h => by omega⟩
        · have : dist (st (n + 1)) < dist (st n) := by
            rcases g with ⟨g1, g2, g3⟩ | ⟨g1, g2, g3⟩ | ⟨g1, g2, g3⟩ | ⟨g1, g2, g3⟩ | ⟨g1, g2, g3⟩
            · unfold dist; rw [g1, g2]; simp; omega
            · rw [g3] at h5; simp at h5
              unfold dist; rw [g1, g2]; simp; omega
            · rw [if_neg g3] at h5; unfold dist; rw [g1, g2]; simp; omega
            · unfold dist; rw [g1, g2]; simp
            · unfold dist; rw [g1, g2]; simp; omega
          exact ⟨by omega, fun _ => this, fun h => by omega⟩)
    (by
      intro n _ _
      have hse := self_idle_of hself (untimed (hr n))
      have := hne n
      unfold next
      cases hw : (st n).s.w
      case armed =>
        by_cases h : (st n).now < (st n).till
        · simp [h, tstep]
        · simp [h, tstep, Tm.step, hw]
      all_goals simp [hw] at this
      all_goals simp [tstep, Tm.step, hw, hA n, hE n, (hI n).knd, hse])
    (by
      intro n _ _
      unfold next
      split
      · split
        · exact hft
        · exact hfe
      · exact hfw)
  exact hpos n h

/-! #### The hypotheses are met -/

/-- One-shot with 3 units: start, three ticks, the callback. -/
def demoT : List TAct :=
  [.act .wgo, .act (.call 1 (.start 3)), .act (.go 1), .act (.go 1), .tick, .act .wgo, .tick, .act .wspur, .act .wgo, .tick, .tick, .tick, .act .expire,
   .act .wgo, .tick, .act .wgo]
example : ∃ (x : TSt) (tr : List (Nat × Ev)), TExec .oneShot 0 serial x tr ∧ ((6, Ev.cbBegin) ∈ tr) := by
  obtain ⟨s, tr, h, hp⟩ := Lts.runSat_ex (step := tstep serial) (init := tinit .oneShot 0) (as := demoT)
    (P := fun (_ : TSt) tr => decide ((6, Ev.cbBegin) ∈ tr)) (by decide)
  exact ⟨s, tr, h, by simpa using hp⟩
/-- It cannot be earlier: with two ticks only, `expire` is not enabled. -/
example : run (tstep serial) [.act .wgo, .act (.call 1 (.start 3)), .act (.go 1), .act (.go 1), .act .wgo, .tick, .tick, .act .expire] (tinit .oneShot 0) = none := by
  decide

/-- Periodic with 2 units, forever. -/
def wOf : Nat → WPC
  | 0 | 1 | 2 => .armed
  | 3 => .late
  | 4 => .due
  | 5 => .running
  | _ => .toArm
def actOf : Nat → TAct
  | 0 | 1 => .tick
  | 2 => .act .expire
  | _ => .act .wgo
def evOf : Nat → List Ev
  | 3 => [.due]
  | 4 => [.cbBegin]
  | 5 => [.cbEnd]
  | 6 => [.arm]
  | _ => []
def bOf (x : TSt) (w : WPC) : Tm.St := { x.s with w := w }

def stT (x : TSt) (q r : Nat) : TSt := ⟨bOf x (wOf r), 2 * q + min r 2, 2 * q + 2⟩

def startP : List TAct := [.act (.call 1 (.start 0)), .act (.go 1), .act (.go 1), .act .wgo, .act .wgo]
example : ∃ st act ev tr, InfExec (tstep serial) st act ev ∧ TExec .periodic 2 serial (st 0) tr ∧ activeAfter (evs tr) = true ∧
    (∀ t, Ev.call t .destroy ∉ evs tr) ∧ (∀ n t, Ev.call t .destroy ∉ evs (ev n)) ∧ (∀ n t, Ev.lin t .stop .stopped ∉ evs (ev n)) ∧
    (∀ n, act n ≠ .act .wspur) ∧
    WeakFair (tstep serial) st act .tick ∧ WeakFair (tstep serial) st act (.act .wgo) ∧ WeakFair (tstep serial) st act (.act .expire) := by
  obtain ⟨x, tr, h, hp⟩ := Lts.runSat_ex (step := tstep serial) (init := tinit .periodic 2) (as := startP)
    (P := fun (x : TSt) tr => decide (x.s.w = .armed ∧ x.s.active = true ∧ x.s.endReq = false ∧ x.s.kind = .periodic ∧ x.s.time = 2 ∧ x.s.pc self = .idle ∧
      x.now = 0 ∧ x.till = 2 ∧ activeAfter (evs tr) = true ∧
      evs tr = [.call 1 (.start 0), .lin 1 (.start 0) .started, .ret 1 (.start 0) .started, .arm])) (by decide)
  simp only [decide_eq_true_eq] at hp
  obtain ⟨p1, p2, p3, p4, p5, p6, p7, p8, p9, p10⟩ := hp
  have h7 : ∀ n, n % 7 = 0 ∨ n % 7 = 1 ∨ n % 7 = 2 ∨ n % 7 = 3 ∨ n % 7 = 4 ∨ n % 7 = 5 ∨ n % 7 = 6 := by omega
  have hev : ∀ n m, evs (stamp m (evOf (n % 7))) = evOf (n % 7) := fun n m => evs_stamp _ _
  refine ⟨fun n => stT x (n / 7) (n % 7), fun n => actOf (n % 7),
    fun n => stamp (2 * (n / 7) + min (n % 7) 2) (evOf (n % 7)), tr, ?_, ?_, p9, by rw [p10]; simp, ?_, ?_, ?_, ?_, ?_, ?_⟩
  · intro n
    have hs : ∀ q, tstep serial (stT x q 0) (actOf 0) = some (stT x q 1, stamp (2 * q + min 0 2) (evOf 0)) ∧
        tstep serial (stT x q 1) (actOf 1) = some (stT x q 2, stamp (2 * q + min 1 2) (evOf 1)) ∧
        tstep serial (stT x q 2) (actOf 2) = some (stT x q 3, stamp (2 * q + min 2 2) (evOf 2)) ∧
        tstep serial (stT x q 3) (actOf 3) = some (stT x q 4, stamp (2 * q + min 3 2) (evOf 3)) ∧
        tstep serial (stT x q 4) (actOf 4) = some (stT x q 5, stamp (2 * q + min 4 2) (evOf 4)) ∧
        tstep serial (stT x q 5) (actOf 5) = some (stT x q 6, stamp (2 * q + min 5 2) (evOf 5)) ∧
        tstep serial (stT x q 6) (actOf 6) = some (stT x (q + 1) 0, stamp (2 * q + min 6 2) (evOf 6)) := by
      intro q
      refine ⟨?_, ?_, ?_, ?_, ?_, ?_, ?_⟩ <;> simp [stT, actOf, evOf, wOf, tstep, Tm.step, bOf, p2, p3, p4, p5, p6] <;> omega
    obtain ⟨s0, s1, s2, s3, s4, s5, s6⟩ := hs (n / 7)
    rcases h7 n with e | e | e | e | e | e | e <;> simp only [e]
    · rw [show (n + 1) / 7 = n / 7 by omega, show (n + 1) % 7 = 1 by omega]; exact s0
    · rw [show (n + 1) / 7 = n / 7 by omega, show (n + 1) % 7 = 2 by omega]; exact s1
    · rw [show (n + 1) / 7 = n / 7 by omega, show (n + 1) % 7 = 3 by omega]; exact s2
    · rw [show (n + 1) / 7 = n / 7 by omega, show (n + 1) % 7 = 4 by omega]; exact s3
    · rw [show (n + 1) / 7 = n / 7 by omega, show (n + 1) % 7 = 5 by omega]; exact s4
    · rw [show (n + 1) / 7 = n / 7 by omega, show (n + 1) % 7 = 6 by omega]; exact s5
    · rw [show (n + 1) / 7 = n / 7 + 1 by omega, show (n + 1) % 7 = 0 by omega]; exact s6
  · have : stT x (0 / 7) (0 % 7) = x := by
      obtain ⟨s, n, t⟩ := x
      obtain ⟨⟩ := s
      simp_all [stT, bOf, wOf]
    show TExec .periodic 2 serial (stT x (0 / 7) (0 % 7)) tr
    rw [this]; exact h
  · intro n t; rw [hev]; rcases h7 n with e | e | e | e | e | e | e <;> simp [e, evOf]
  · intro n t; rw [hev]; rcases h7 n with e | e | e | e | e | e | e <;> simp [e, evOf]
  · intro n; rcases h7 n with e | e | e | e | e | e | e <;> simp [e, actOf]
  · intro N _; exact ⟨7 * N, by omega, by dsimp only; rw [show 7 * N % 7 = 0 by omega]; rfl⟩
  · intro N _; exact ⟨7 * N + 3, by omega, by dsimp only; rw [show (7 * N + 3) % 7 = 3 by omega]; rfl⟩
  · intro N _; exact ⟨7 * N + 2, by omega, by dsimp only; rw [show (7 * N + 2) % 7 = 2 by omega]; rfl⟩

end Verif.Props.TimerTime
