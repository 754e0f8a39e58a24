import Verif.Spec.Thread
namespace Verif.Thr
open Verif
open _root_.Verif.Mtx (Tid Err)
open _root_.Verif.EvF (Tmo)
open Thr Spec Lts Proto
set_option linter.unusedSectionVars false
set_option linter.unusedSimpArgs false
set_option linter.unusedVariables false

theorem effects_app (tr ev : List Ev) : effects (tr ++ ev) = effects tr ++ effects ev := by simp [effects]
theorem phase_app (t : Tid) (tr ev : List Ev) : phase t (tr ++ ev) = ev.foldl (Phase.next view t) (phase t tr) := Proto.phase_app t tr ev
abbrev mine (t : Tid) (e : Ev) : Prop := Proto.mine view t e

/-- Clients that hold the mutex. -/
def cHolds : PC → Bool
  | .sTest | .sSet | .sNotify | .sUnl _ | .tTest .. | .tUnl .. | .fRead | .fUnl _ | .dReq | .dAct | .dNotify | .dUnl => true
  | _ => false
def wHolds : WPC → Bool
  | .test | .check | .unl1 | .clear | .notify | .unl2 | .unlEnd => true
  | _ => false
/-- About to notify the worker. -/
def notif : PC → Bool
  | .sNotify | .dNotify => true
  | _ => false
/-- The call a client is in. -/
def callOf : PC → Option Call
  | .idle => none
  | .sLock | .sTest | .sSet | .sNotify | .sUnl _ => some .start
  | .tLock c _ | .tTest c _ _ | .tSleep c _ | .tWoken c _ _ | .tUnl c _ => some c
  | .fLock | .fRead | .fUnl _ => some .isFinished
  | .dLock | .dReq | .dAct | .dNotify | .dUnl | .dJoin => some .destroy
  | .ret c _ => some c

/-- The abstract state. -/
def abs (s : St) : A :=
  if s.gone then .dead
  else match s.w with
    | .unl1 | .run => .pending
    | .running => .running
    | .lock2 | .clear => .over
    | _ => if s.active && !s.endReq then .pending else .finished

/-- The timeout that goes with a wait, also the one inside destroy. -/
def tmo' : Call → Option Tmo
  | .destroy => some .forever
  | c => tmo c

def Loc (s : St) (ph : Phase Call Out) : PC → Prop
  | .idle => ph = .out
  | .sLock | .sTest => ph = .called .start
  | .sSet => ph = .called .start ∧ s.active = false
  | .sNotify => ph = .done .start .started ∧ s.active = true
  | .sUnl o => ph = .done .start o
  | .tLock c tm => ph = .called c ∧ tmo' c = some tm
  | .tTest c tm last | .tWoken c tm last => ph = .called c ∧ tmo' c = some tm ∧ (last = true → tm ≠ .forever)
  | .tSleep c tm => ph = .called c ∧ tmo' c = some tm ∧ (s.active = true ∨ s.w = .notify)
  | .tUnl c o => if c = .destroy then ph = .called .destroy ∧ s.active = false ∧ s.endReq = false else ph = .done c o
  | .fLock | .fRead => ph = .called .isFinished
  | .fUnl o => ph = .done .isFinished o
  | .dLock | .dReq => ph = .called .destroy ∧ s.active = false ∧ s.endReq = false
  | .dAct => ph = .called .destroy ∧ s.endReq = true ∧ s.active = false
  | .dNotify | .dUnl | .dJoin => ph = .called .destroy ∧ s.endReq = true ∧ s.active = true
  | .ret c o => ph = .done c o ∧ (c = .destroy → s.gone = true ∧ o = .destroyed)

/-- Not in the last part of destroy: the worker has not been asked to end. -/
def dEnd : PC → Bool
  | .dAct | .dNotify | .dUnl | .dJoin | .ret .destroy _ => true
  | _ => false

structure Inv (s : St) (tr : List Ev) : Prop where
  hist : Hist (effects tr) (abs s)
  loc : ∀ t, Loc s (phase t tr) (s.pc t)
  hc : ∀ t, s.holder = some (.client t) ↔ cHolds (s.pc t) = true
  hw : s.holder = some .worker ↔ wHolds s.w = true
  ins : ∀ t, t ∈ s.inside ↔ s.pc t ≠ .idle
  nodup : s.inside.Nodup
  dy : ∀ t, callOf (s.pc t) = some .destroy → s.dying = some t
  alone : ∀ d, s.dying = some d → ∀ u, u ≠ d → s.pc u = .idle
  dyin : ∀ d, s.dying = some d → s.gone = false → callOf (s.pc d) = some .destroy
  gone : s.gone = true → s.w = .dead ∧ s.endReq = true ∧ ∃ d, s.dying = some d ∧ (s.pc d = .idle ∨ s.pc d = .ret .destroy .destroyed)
  fresh : s.endReq = true → ∃ d, s.dying = some d ∧ (dEnd (s.pc d) = true ∨ s.gone = true)
  act : s.w = .check ∨ s.w = .unl1 ∨ s.w = .run ∨ s.w = .running ∨ s.w = .lock2 ∨ s.w = .clear ∨ s.w = .unlEnd ∨ s.w = .dead → s.active = true
  noend : s.w = .unl1 ∨ s.w = .run ∨ s.w = .running ∨ s.w = .lock2 ∨ s.w = .clear ∨ s.w = .notify ∨ s.w = .unl2 → s.endReq = false
  isend : s.w = .unlEnd ∨ s.w = .dead → s.endReq = true
  off : s.w = .notify ∨ s.w = .unl2 → s.active = false
  awake : s.w = .sleep → s.active = true → ∃ u, notif (s.pc u) = true

theorem Inv.init : Inv init [] := by
  constructor <;> simp [Thr.init, abs, Loc, Proto.phase, cHolds, wHolds, callOf, effects, Hist.nil]

theorem hist0 {h : List Eff} {a : A} (hh : Hist h a) : Hist (h ++ []) a := by rwa [List.append_nil]

theorem Loc.frame {s s' : St} {ph : Phase Call Out} {p : PC} (h : Loc s ph p) (h1 : s'.active = s.active) (h2 : s'.endReq = s.endReq)
    (h3 : s.w = .notify → s'.w = .notify) (h4 : s.gone = true → s'.gone = true) : Loc s' ph p := by
  cases p <;> simp only [Loc] at * <;> grind

theorem holder_upd {m m' : Option Who} {pc : Tid → PC} {t : Tid} {p' : PC} (h : ∀ u, m = some (.client u) ↔ cHolds (pc u) = true)
    (hc : (m' = m ∧ cHolds p' = cHolds (pc t)) ∨ (m = none ∧ m' = some (.client t) ∧ cHolds p' = true) ∨
      (cHolds (pc t) = true ∧ m' = none ∧ cHolds p' = false)) :
    ∀ u, m' = some (.client u) ↔ cHolds (upd pc t p' u) = true := by
  intro u
  have h0 := h u
  have h1 := h t
  by_cases e : u = t
  · subst e; rw [upd_same]; grind
  · rw [upd_ne _ _ e]; grind

theorem abs_eq {s s' : St} (h1 : s'.active = s.active) (h2 : s'.endReq = s.endReq) (h3 : s'.w = s.w) (h4 : s'.gone = s.gone) : abs s' = abs s := by
  simp [abs, h1, h2, h3, h4]

/-- A step of client `t` that changes no field but the mutex. -/
theorem Inv.quiet {s s' : St} {tr ev : List Ev} (I : Inv s tr) (t : Tid) (p' : PC)
    (hpc : s'.pc = upd s.pc t p') (hmine : ∀ e, e ∈ ev → mine t e)
    (hsame : s'.active = s.active ∧ s'.endReq = s.endReq ∧ s'.w = s.w ∧ s'.gone = s.gone ∧ s'.dying = s.dying ∧ s'.inside = s.inside)
    (hh : Hist (effects tr ++ effects ev) (abs s))
    (hloc : Loc s' (ev.foldl (Phase.next view t) (phase t tr)) p')
    (hm : (s'.holder = s.holder ∧ cHolds p' = cHolds (s.pc t)) ∨ (s.holder = none ∧ s'.holder = some (.client t) ∧ cHolds p' = true) ∨
      (cHolds (s.pc t) = true ∧ s'.holder = none ∧ cHolds p' = false))
    (hcall : callOf p' = callOf (s.pc t)) (hi : s.pc t ≠ .idle) (hi' : p' ≠ .idle)
    (hn : notif (s.pc t) = false) (hd : dEnd (s.pc t) = true → dEnd p' = true) (hg : s.pc t ≠ .ret .destroy .destroyed) : Inv s' (tr ++ ev) := by
  obtain ⟨e1, e2, e3, e4, e5, e6⟩ := hsame
  have hupd : ∀ u, u ≠ t → s'.pc u = s.pc u := fun u hu => by rw [hpc, upd_ne _ _ hu]
  have hsame : s'.pc t = p' := by rw [hpc, upd_same]
  constructor
  · rw [effects_app, abs_eq e1 e2 e3 e4]; exact hh
  · intro u
    rw [phase_app, hpc]
    by_cases e : u = t
    · subst e; rw [upd_same]; exact hloc
    · rw [upd_ne _ _ e, phase_other e hmine]; exact (I.loc u).frame e1 e2 (fun h => e3 ▸ h) (fun h => e4 ▸ h)
  · rw [hpc]; exact holder_upd I.hc hm
  · have h1 := I.hw; have h2 := I.hc t; rw [e3]; grind
  · intro u; rw [e6, I.ins u]; grind
  · rw [e6]; exact I.nodup
  · intro u hu; rw [e5]; apply I.dy; grind
  · intro d hd u hu; have := I.alone d (e5 ▸ hd) u hu; grind
  · intro d hd hg; have := I.dyin d (e5 ▸ hd) (e4 ▸ hg); grind
  · intro hg
    obtain ⟨a, b, d, h1, h2⟩ := I.gone (e4 ▸ hg)
    have := I.alone d h1 t
    grind
  · intro he
    obtain ⟨d, h1, h2⟩ := I.fresh (e2 ▸ he)
    refine ⟨d, by rw [e5, h1], ?_⟩
    by_cases e : d = t
    · subst e; grind
    · rw [hupd d e, e4]; exact h2
  · rw [e3, e1]; exact I.act
  · rw [e3, e2]; exact I.noend
  · rw [e3, e2]; exact I.isend
  · rw [e3, e1]; exact I.off
  · rw [e3, e1]
    intro h1 h2
    obtain ⟨u, hu⟩ := I.awake h1 h2
    refine ⟨u, ?_⟩
    rw [hupd u]; exact hu
    rintro rfl; rw [hu] at hn; simp at hn

theorem Inv.c_alone {s : St} {tr : List Ev} (I : Inv s tr) {t u : Tid} (ht : cHolds (s.pc t) = true) (hu : cHolds (s.pc u) = true) : u = t := by
  have a := (I.hc u).2 hu; have b := (I.hc t).2 ht; rw [a] at b; simpa using b
theorem Inv.w_alone {s : St} {tr : List Ev} (I : Inv s tr) {t : Tid} (ht : cHolds (s.pc t) = true) : wHolds s.w = false := by
  have b := (I.hc t).2 ht
  cases h : wHolds s.w
  · rfl
  · have := I.hw.2 h; rw [b] at this; simp at this

/-- Before destroy has got far: active means not finished. -/
theorem Inv.abs_iff {s : St} {tr : List Ev} (I : Inv s tr) (he : s.endReq = false) : abs s ≠ .dead ∧ (abs s = .finished ↔ s.active = false) := by
  have hg : s.gone = false := by
    cases h : s.gone
    · rfl
    · have := I.gone h; simp [he] at this
  have := I.act
  have := I.off
  unfold abs
  cases hw : s.w <;> simp_all <;> cases ha : s.active <;> simp_all

theorem Inv.endReq_of {s : St} {tr : List Ev} (I : Inv s tr) {t : Tid} (hi : s.pc t ≠ .idle) (hc : dEnd (s.pc t) = false) : s.endReq = false := by
  cases h : s.endReq
  · rfl
  · obtain ⟨d, h1, h2⟩ := I.fresh h
    have h3 : d = t := Classical.byContradiction fun hn => hi (I.alone d h1 t (fun e => hn e.symm))
    subst h3
    rcases h2 with h2 | h2
    · rw [hc] at h2; simp at h2
    · obtain ⟨_, _, d', h4, h5⟩ := I.gone h2
      rw [h1] at h4; simp at h4; subst h4
      rcases h5 with h5 | h5
      · exact absurd h5 hi
      · rw [h5] at hc; simp [dEnd] at hc

/-- A step of client `t`: the scalars' clauses are left to show. -/
theorem Inv.client {s s' : St} {tr ev : List Ev} (I : Inv s tr) (t : Tid) (p' : PC)
    (hpc : s'.pc = upd s.pc t p') (hmine : ∀ e, e ∈ ev → mine t e)
    (hh : Hist (effects tr ++ effects ev) (abs s'))
    (hloc : Loc s' (ev.foldl (Phase.next view t) (phase t tr)) p')
    (hfr : ∀ u, u ≠ t → ∀ ph, Loc s ph (s.pc u) → Loc s' ph (s.pc u))
    (hm : (s'.holder = s.holder ∧ cHolds p' = cHolds (s.pc t)))
    (hw : wHolds s'.w = wHolds s.w)
    (hin : s'.inside = s.inside ∧ s.pc t ≠ .idle ∧ p' ≠ .idle)
    (hdy : s'.dying = s.dying ∧ callOf p' = callOf (s.pc t))
    (hgone : s'.gone = true → s'.w = .dead ∧ s'.endReq = true ∧ ∃ d, s'.dying = some d ∧ (s'.pc d = .idle ∨ s'.pc d = .ret .destroy .destroyed))
    (hsg : s.gone = true → s'.gone = true)
    (fresh : s'.endReq = true → ∃ d, s'.dying = some d ∧ (dEnd (s'.pc d) = true ∨ s'.gone = true))
    (act : s'.w = .check ∨ s'.w = .unl1 ∨ s'.w = .run ∨ s'.w = .running ∨ s'.w = .lock2 ∨ s'.w = .clear ∨ s'.w = .unlEnd ∨ s'.w = .dead → s'.active = true)
    (noend : s'.w = .unl1 ∨ s'.w = .run ∨ s'.w = .running ∨ s'.w = .lock2 ∨ s'.w = .clear ∨ s'.w = .notify ∨ s'.w = .unl2 → s'.endReq = false)
    (isend : s'.w = .unlEnd ∨ s'.w = .dead → s'.endReq = true)
    (off : s'.w = .notify ∨ s'.w = .unl2 → s'.active = false)
    (awake : s'.w = .sleep → s'.active = true → ∃ u, notif (s'.pc u) = true) : Inv s' (tr ++ ev) := by
  have hupd : ∀ u, u ≠ t → s'.pc u = s.pc u := fun u hu => by rw [hpc, upd_ne _ _ hu]
  have hsame : s'.pc t = p' := by rw [hpc, upd_same]
  obtain ⟨i1, i2, i3⟩ := hin
  obtain ⟨d1, d2⟩ := hdy
  refine ⟨by rw [effects_app]; exact hh, fun u => ?_, ?_, ?_, ?_, ?_, ?_, ?_, ?_, hgone, fresh, act, noend, isend, off, awake⟩
  · rw [phase_app, hpc]
    by_cases e : u = t
    · subst e; rw [upd_same]; exact hloc
    · rw [upd_ne _ _ e, phase_other e hmine]; exact hfr u e _ (I.loc u)
  · rw [hpc]; exact holder_upd I.hc (Or.inl hm)
  · rw [hm.1, hw]; exact I.hw
  · intro u; rw [i1, I.ins u]; grind
  · rw [i1]; exact I.nodup
  · intro u hu; rw [d1]; apply I.dy; grind
  · intro d hd u hu; have := I.alone d (d1 ▸ hd) u hu; grind
  · intro d hd hg
    have h2 : s.gone = false := by
      cases h : s.gone
      · rfl
      · rw [hsg h] at hg; simp at hg
    have := I.dyin d (d1 ▸ hd) h2; grind

theorem Inv.frame_holds {s s' : St} {tr : List Ev} (I : Inv s tr) {t : Tid} (ht : cHolds (s.pc t) = true)
    (h1 : s'.active = s.active ∨ s'.active = true) (h2 : s'.active = s.active ∧ s'.endReq = s.endReq ∨ s.endReq = false)
    (h3 : s.w = .notify → s'.w = .notify) :
    ∀ u, u ≠ t → ∀ ph, Loc s ph (s.pc u) → Loc s' ph (s.pc u) := by
  intro u hu ph hl
  have hc : cHolds (s.pc u) = false := by
    cases h : cHolds (s.pc u)
    · rfl
    · exact absurd (I.c_alone ht h) hu
  have hd : callOf (s.pc u) ≠ some .destroy := by
    intro h
    have := I.alone u (I.dy u h) t (fun e => hu e.symm)
    rw [this] at ht; simp [cHolds] at ht
  cases hp : s.pc u <;> rw [hp] at hl hc hd <;> simp only [Loc, cHolds, callOf] at * <;> grind

theorem Inv.step_call {s s' : St} {tr ev : List Ev} {t : Tid} {c : Call} (I : Inv s tr) (hstep : Thr.step false s (.call t c) = some (s', ev)) : Inv s' (tr ++ ev) := by
  simp only [Thr.step] at hstep
  split at hstep
  case isFalse => simp at hstep
  case isTrue hcond =>
  obtain ⟨h1, h2, h3, h4⟩ := hcond
  simp at h3 h4
  simp at hstep; obtain ⟨rfl, rfl⟩ := hstep
  have ht := I.loc t
  rw [h1] at ht; simp only [Loc] at ht
  have hend : s.endReq = false := by
    cases h : s.endReq
    · rfl
    · obtain ⟨d, hd, _⟩ := I.fresh h; rw [h4] at hd; simp at hd
  have hcall : callOf (entry c) = some c := by cases c <;> rfl
  have hent : cHolds (entry c) = false := by cases c <;> rfl
  have hne : entry c ≠ .idle := by cases c <;> simp [entry]
  constructor
  · rw [effects_app]; exact hist0 I.hist
  · intro u
    rw [phase_app]
    by_cases e : u = t
    · subst e
      simp only [St.at, upd_same]
      cases c <;> simp [entry, Loc, Phase.next, Phase.pnext, view, ht, tmo', tmo]
    · simp only [St.at, upd_ne _ _ e]
      rw [phase_other e (by simp [mine, Proto.mine, view])]; exact (I.loc u).frame rfl rfl id id
  · exact holder_upd I.hc (Or.inl ⟨rfl, by rw [h1, hent]; rfl⟩)
  · exact I.hw
  · intro u
    by_cases e : u = t
    · subst e; simp [St.at, upd_same, hne]
    · simp [St.at, upd_ne _ _ e, e, I.ins u]
  · have := I.ins t; rw [h1] at this; simp at this; simp [this, I.nodup]
  · intro u hu
    by_cases e : u = t
    · subst e; simp only [St.at, upd_same, hcall] at hu; simp at hu; simp [hu]
    · simp only [St.at, upd_ne _ _ e] at hu; have := I.dy u hu; rw [h4] at this; simp at this
  · intro d hd u hu
    simp only at hd
    split at hd
    · next hc =>
      simp at hd; subst hd
      have := (I.ins u); rw [(h3 hc).2] at this; simp at this
      simp [St.at, upd_ne _ _ hu, this]
    · rw [h4] at hd; simp at hd
  · intro d hd _
    simp only at hd
    split at hd
    · next hc => simp at hd; subst hd; simp only [St.at, upd_same, hcall]; rw [hc]
    · rw [h4] at hd; simp at hd
  · intro h; simp [St.at] at h; simp [h2] at h
  · intro h; simp [St.at] at h; simp [hend] at h
  · exact I.act
  · exact I.noend
  · exact I.isend
  · exact I.off
  · intro e1 e2
    obtain ⟨u, hu⟩ := I.awake e1 e2
    refine ⟨u, ?_⟩
    simp only [St.at]
    rw [upd_ne]; exact hu
    rintro rfl; rw [h1] at hu; simp [notif] at hu

theorem Inv.step_ret {s s' : St} {tr ev : List Ev} {t : Tid} {c : Call} {o : Out} (I : Inv s tr) (hstep : Thr.step false s (.go t) = some (s', ev)) (hpc : s.pc t = .ret c o) : Inv s' (tr ++ ev) := by
  simp only [Thr.step] at hstep
  have ht := I.loc t
  rw [hpc] at ht; simp only [Loc] at ht
  simp only [hpc] at hstep
  simp at hstep; obtain ⟨rfl, rfl⟩ := hstep
  have hmem : t ∈ s.inside := (I.ins t).2 (by rw [hpc]; simp)
  constructor
  · rw [effects_app]; exact hist0 I.hist
  · intro u
    rw [phase_app]
    by_cases e : u = t
    · subst e
      simp [St.at, upd_same, Loc, Phase.next, Phase.pnext, view, ht]
    · simp only [St.at, upd_ne _ _ e]
      rw [phase_other e (by simp [mine, Proto.mine, view])]; exact (I.loc u).frame rfl rfl id id
  · exact holder_upd I.hc (Or.inl ⟨rfl, by rw [hpc]; simp [cHolds]⟩)
  · exact I.hw
  · intro u
    rw [I.nodup.mem_erase_iff]
    by_cases e : u = t
    · subst e; simp [St.at, upd_same]
    · simp [St.at, upd_ne _ _ e, e, I.ins u]
  · exact I.nodup.erase t
  · intro u hu
    by_cases e : u = t
    · subst e; simp only [St.at, upd_same] at hu; simp [callOf] at hu
    · simp only [St.at, upd_ne _ _ e] at hu; exact I.dy u hu
  · intro d hd u hu
    have := I.alone d hd u hu
    by_cases e : u = t
    · subst e; simp [St.at, upd_same]
    · simp [St.at, upd_ne _ _ e, this]
  · intro d hd hg
    simp only [St.at] at hg hd
    have h1 := I.dyin d hd hg
    by_cases e : d = t
    · subst e
      rw [hpc] at h1; simp [callOf] at h1; subst h1
      rw [(ht.2 rfl).1] at hg; simp at hg
    · simp [St.at, upd_ne _ _ e, h1]
  · intro hg
    obtain ⟨h1, h2, d, h3, h4⟩ := I.gone hg
    refine ⟨h1, h2, d, h3, ?_⟩
    by_cases e : d = t
    · subst e; left; simp [St.at, upd_same]
    · simp only [St.at, upd_ne _ _ e]; exact h4
  · intro he
    obtain ⟨d, h1, h2⟩ := I.fresh he
    refine ⟨d, h1, ?_⟩
    by_cases e : d = t
    · subst e
      right
      rcases h2 with h2 | h2
      · rw [hpc] at h2
        cases c <;> simp [dEnd] at h2
        exact (ht.2 rfl).1
      · exact h2
    · simp only [St.at, upd_ne _ _ e]; exact h2
  · exact I.act
  · exact I.noend
  · exact I.isend
  · exact I.off
  · intro e1 e2
    obtain ⟨u, hu⟩ := I.awake e1 e2
    refine ⟨u, ?_⟩
    simp only [St.at]
    rw [upd_ne]; exact hu
    rintro rfl; rw [hpc] at hu; simp [notif] at hu

theorem Inv.step_dReq {s s' : St} {tr ev : List Ev} {t : Tid} (I : Inv s tr) (hstep : Thr.step false s (.go t) = some (s', ev)) (hpc : s.pc t = .dReq) : Inv s' (tr ++ ev) := by
  simp only [Thr.step] at hstep
  have ht := I.loc t
  rw [hpc] at ht; simp only [Loc] at ht
  simp only [hpc] at hstep
  have al := I.w_alone (t := t)
  rw [hpc] at al; simp [cHolds] at al
  simp at hstep; obtain ⟨rfl, rfl⟩ := hstep
  have ha := I.abs_iff ht.2.2
  have hf := ha.2.2 ht.2.1
  have hg : s.gone = false := by
    cases h : s.gone
    · rfl
    · simp [abs, h] at hf
  have hab : abs { s.at t .dAct with endReq := true } = abs s := by
    rw [hf]; simp only [abs, St.at]; have := I.act; cases hw : s.w <;> simp_all
  have b1 := I.gone; have b2 := I.act; have b3 := I.noend; have b4 := I.isend; have b5 := I.off
  have hdy := I.dy t (by rw [hpc]; rfl)
  refine I.client t _ rfl (by simp) (by rw [hab]; exact hist0 I.hist) ?_ (I.frame_holds (t := t) ?_ ?_ ?_ ?_) ?_ ?_ ?_ ?_ ?_ ?_ ?_ ?_ ?_ ?_ ?_ ?_
  all_goals try simp only [St.at]
  all_goals cases hwx : s.w <;> simp_all [hpc, cHolds, callOf, Loc, wHolds, upd_same, dEnd]

theorem Inv.step_dAct {s s' : St} {tr ev : List Ev} {t : Tid} (I : Inv s tr) (hstep : Thr.step false s (.go t) = some (s', ev)) (hpc : s.pc t = .dAct) : Inv s' (tr ++ ev) := by
  simp only [Thr.step] at hstep
  have ht := I.loc t
  rw [hpc] at ht; simp only [Loc] at ht
  simp only [hpc] at hstep
  have al := I.w_alone (t := t)
  rw [hpc] at al; simp [cHolds] at al
  simp at hstep; obtain ⟨rfl, rfl⟩ := hstep
  have b1 := I.gone; have b2 := I.act; have b3 := I.noend; have b4 := I.isend; have b5 := I.off
  have hdy := I.dy t (by rw [hpc]; rfl)
  have hfrd : ∀ {s' : St}, ∀ u, u ≠ t → ∀ ph, Loc s ph (s.pc u) → Loc s' ph (s.pc u) := by
    intro s' u hu ph hl
    rw [I.alone t hdy u hu] at hl ⊢; exact hl
  have hab : abs { s.at t .dNotify with active := true } = abs s := by
    simp only [abs, St.at]; cases hw : s.w <;> simp_all
  refine I.client t _ rfl (by simp) (by rw [hab]; exact hist0 I.hist) ?_ hfrd ?_ ?_ ?_ ?_ ?_ ?_ ?_ ?_ ?_ ?_ ?_ (fun _ _ => ⟨t, by simp [St.at, upd_same, notif]⟩)
  all_goals try simp only [St.at]
  all_goals cases hwx : s.w <;> simp_all [hpc, cHolds, callOf, Loc, wHolds, upd_same, dEnd]

set_option maxHeartbeats 800000 in
theorem Inv.step_dNotify {s s' : St} {tr ev : List Ev} {t : Tid} (I : Inv s tr) (hstep : Thr.step false s (.go t) = some (s', ev)) (hpc : s.pc t = .dNotify) : Inv s' (tr ++ ev) := by
  simp only [Thr.step] at hstep
  have ht := I.loc t
  rw [hpc] at ht; simp only [Loc] at ht
  simp only [hpc] at hstep
  have al := I.w_alone (t := t)
  rw [hpc] at al; simp [cHolds] at al
  simp at hstep; obtain ⟨rfl, rfl⟩ := hstep
  have b1 := I.gone; have b2 := I.act; have b3 := I.noend; have b4 := I.isend; have b5 := I.off
  have hdy := I.dy t (by rw [hpc]; rfl)
  have hfrd : ∀ {s' : St}, ∀ u, u ≠ t → ∀ ph, Loc s ph (s.pc u) → Loc s' ph (s.pc u) := by
    intro s' u hu ph hl
    rw [I.alone t hdy u hu] at hl ⊢; exact hl
  have hab : abs { s.at t .dUnl with w := wakeWorker s.w } = abs s := by
    simp only [abs, St.at]; cases hw : s.w <;> rfl
  refine I.client t _ rfl (by simp) (by rw [hab]; exact hist0 I.hist) ?_ hfrd ?_ ?_ ?_ ?_ ?_ ?_ ?_ ?_ ?_ ?_ ?_ ?_
  all_goals try simp only [St.at]
  all_goals cases hwx : s.w <;> simp_all [hpc, cHolds, callOf, Loc, wHolds, upd_same, dEnd, wakeWorker]

theorem Inv.step_dJoin {s s' : St} {tr ev : List Ev} {t : Tid} (I : Inv s tr) (hstep : Thr.step false s (.go t) = some (s', ev)) (hpc : s.pc t = .dJoin) : Inv s' (tr ++ ev) := by
  simp only [Thr.step] at hstep
  have ht := I.loc t
  rw [hpc] at ht; simp only [Loc] at ht
  simp only [hpc] at hstep
  simp at hstep; obtain ⟨hw, rfl, rfl⟩ := hstep
  have b1 := I.gone; have b2 := I.act; have b3 := I.noend; have b4 := I.isend; have b5 := I.off
  have hdy := I.dy t (by rw [hpc]; rfl)
  have hfrd : ∀ {s' : St}, ∀ u, u ≠ t → ∀ ph, Loc s ph (s.pc u) → Loc s' ph (s.pc u) := by
    intro s' u hu ph hl
    rw [I.alone t hdy u hu] at hl ⊢; exact hl
  have hab : abs { s.at t (.ret .destroy .destroyed) with gone := true } = .dead := by simp [abs]
  have hg : s.gone = false := by
    cases h : s.gone
    · rfl
    · obtain ⟨_, _, d, h1, h2⟩ := b1 h; rw [hdy] at h1; simp at h1; subst h1; rw [hpc] at h2; simp at h2
  have hf : abs s = .finished := by simp [abs, hw, hg, ht]
  refine I.client t _ rfl (by simp [mine, Proto.mine, view]) (I.hist.snoc (x := .op .destroy .destroyed) (by rw [hab, hf]; exact Legal.destroyed)) ?_ hfrd ?_ ?_ ?_ ?_ ?_ ?_ ?_ ?_ ?_ ?_ ?_ ?_
  all_goals try simp only [St.at]
  all_goals simp_all [hpc, cHolds, callOf, Loc, wHolds, upd_same, dEnd, Phase.next, Phase.pnext, view]

theorem Inv.step_go {s s' : St} {tr ev : List Ev} {t : Tid} (I : Inv s tr) (hstep : Thr.step false s (.go t) = some (s', ev)) : Inv s' (tr ++ ev) := by
  simp only [Thr.step] at hstep
  have ht := I.loc t
  have er := fun h1 h2 => I.endReq_of (t := t) h1 h2
  have al := I.w_alone (t := t)
  cases hpc : s.pc t <;> rw [hpc] at ht er al <;> simp only [hpc] at hstep <;> simp only [Loc] at ht <;> simp [dEnd] at er <;> simp [cHolds] at al
  case idle => simp at hstep
  case sLock | tLock c tm | tWoken c tm last | fLock | dLock =>
    simp at hstep; obtain ⟨hn, rfl, rfl⟩ := hstep
    refine I.quiet t _ rfl (by simp) (by simp [St.at]) (hist0 I.hist) ?_ ?_ ?_ ?_ ?_ ?_ ?_ ?_ <;>
    simp [hpc, Loc, ht, cHolds, hn, callOf, notif, dEnd, St.at]
    try exact ht.2.2
  case sTest =>
    have ha := I.abs_iff er
    by_cases h : s.active = true
    · simp [h] at hstep; obtain ⟨rfl, rfl⟩ := hstep
      refine I.quiet t _ rfl (by simp [mine, Proto.mine, view]) (by simp [St.at]) (I.hist.snoc (x := .op .start .ignored) (Legal.ignored ?_ ?_)) ?_ ?_ ?_ ?_ ?_ ?_ ?_ ?_ <;>
      simp_all [hpc, Loc, ht, cHolds, callOf, notif, dEnd, St.at, Phase.next, Phase.pnext, view]
    · simp [h] at hstep; obtain ⟨rfl, rfl⟩ := hstep
      refine I.quiet t _ rfl (by simp) (by simp [St.at]) (hist0 I.hist) ?_ ?_ ?_ ?_ ?_ ?_ ?_ ?_ <;>
      simp_all [hpc, Loc, ht, cHolds, callOf, notif, dEnd, St.at]
  case fRead =>
    have ha := I.abs_iff er
    simp at hstep; obtain ⟨rfl, rfl⟩ := hstep
    refine I.quiet t _ rfl (by simp [mine, Proto.mine, view]) (by simp [St.at]) (I.hist.snoc (x := .op .isFinished (.finished (!s.active))) ?_) ?_ ?_ ?_ ?_ ?_ ?_ ?_ ?_
    · have := Legal.isFinished ha.1
      cases h : s.active <;> simp_all
    all_goals simp_all [hpc, Loc, ht, cHolds, callOf, notif, dEnd, St.at, Phase.next, Phase.pnext, view]
  case tTest c tm last =>
    have ha := I.abs_iff er
    by_cases h : s.active = true
    · by_cases hl : last = true
      · simp [h, hl] at hstep; obtain ⟨rfl, rfl⟩ := hstep
        have hcd : c ≠ .destroy := by rintro rfl; simp [tmo'] at ht; exact ht.2.2 hl ht.2.1.symm
        have htm : tmo c = some tm := by cases c <;> simp_all [tmo', tmo]
        refine I.quiet t _ rfl (by simp [mine, Proto.mine, view]) (by simp [St.at]) (I.hist.snoc (x := .op c .timedOut) (Legal.timedOut htm (ht.2.2 hl) ?_ ?_)) ?_ ?_ ?_ ?_ ?_ ?_ ?_ ?_ <;>
        simp_all [hpc, Loc, ht, cHolds, callOf, notif, dEnd, St.at, Phase.next, Phase.pnext, view]
      · simp [h, hl] at hstep; obtain ⟨rfl, rfl⟩ := hstep
        refine I.quiet t _ rfl (by simp [mine, Proto.mine, view]) (by simp [St.at]) (hist0 I.hist) ?_ ?_ ?_ ?_ ?_ ?_ ?_ ?_ <;>
        simp_all [hpc, Loc, ht, cHolds, callOf, notif, dEnd, St.at]
    · simp [h] at hstep; obtain ⟨rfl, rfl⟩ := hstep
      by_cases hcd : c = .destroy
      · subst hcd
        refine I.quiet t _ rfl (by simp) (by simp [St.at]) (hist0 I.hist) ?_ ?_ ?_ ?_ ?_ ?_ ?_ ?_ <;>
        simp_all [hpc, Loc, ht, cHolds, callOf, notif, dEnd, St.at]
      · have htm : tmo c = some tm := by cases c <;> simp_all [tmo', tmo]
        have hf := ha.2.2 (by simpa using h)
        refine I.quiet t _ rfl (by simp [mine, Proto.mine, view, hcd]) (by simp [St.at]) ?_ ?_ ?_ ?_ ?_ ?_ ?_ ?_ ?_
        · simp only [hcd, if_false]
          exact I.hist.snoc (x := .op c .ok) (by rw [hf]; exact Legal.ok htm)
        all_goals simp_all [hpc, Loc, ht, cHolds, callOf, notif, dEnd, St.at, Phase.next, Phase.pnext, view]
  case tSleep => simp at hstep
  case sUnl o | fUnl o | dUnl =>
    simp at hstep; obtain ⟨rfl, rfl⟩ := hstep
    refine I.quiet t _ rfl (by simp) (by simp [St.at]) (hist0 I.hist) ?_ ?_ ?_ ?_ ?_ ?_ ?_ ?_ <;>
    simp [hpc, Loc, ht, cHolds, callOf, notif, dEnd, St.at]
  case tUnl c o =>
    simp at hstep; obtain ⟨rfl, rfl⟩ := hstep
    by_cases hcd : c = .destroy
    · refine I.quiet t _ rfl (by simp) (by simp [St.at]) (hist0 I.hist) ?_ ?_ ?_ ?_ ?_ ?_ ?_ ?_ <;>
      simp_all [hpc, Loc, ht, cHolds, callOf, notif, dEnd, St.at]
    · refine I.quiet t _ rfl (by simp) (by simp [St.at]) (hist0 I.hist) ?_ ?_ ?_ ?_ ?_ ?_ ?_ ?_ <;>
      simp_all [hpc, Loc, ht, cHolds, callOf, notif, dEnd, St.at]
  case sSet =>
    have ha := I.abs_iff er
    have hact := I.act
    have hf := ha.2.2 ht.2
    have hg : s.gone = false := by
      cases h : s.gone
      · rfl
      · simp [abs, h] at hf
    simp at hstep; obtain ⟨rfl, rfl⟩ := hstep
    refine I.client t _ rfl (by simp [mine, Proto.mine, view]) (I.hist.snoc (x := .op .start .started) ?_) ?_ (I.frame_holds (t := t) ?_ ?_ ?_ ?_) ?_ ?_ ?_ ?_ ?_ ?_ ?_
      (by simp) I.noend I.isend ?_ (fun _ _ => ⟨t, by simp [St.at, upd_same, notif]⟩)
    · have : abs { s.at t .sNotify with active := true } = .pending := by
        simp only [abs, St.at, hg, er]
        cases hw : s.w <;> simp_all
      rw [hf, this]; exact Legal.started
    rotate_right 1
    · intro h; simp [St.at] at h; have := al; rcases h with h | h <;> simp [h, wHolds] at this
    all_goals simp [St.at, hpc, cHolds, callOf, Loc, Phase.next, Phase.pnext, view, ht, er, hg]
  case sNotify =>
    simp at hstep; obtain ⟨rfl, rfl⟩ := hstep
    have hw : s.w ≠ .notify := by intro h; rw [h] at al; simp [wHolds] at al
    have hww : wHolds (wakeWorker s.w) = wHolds s.w := by cases s.w <;> rfl
    have hab : abs { s.at t (.sUnl .started) with w := wakeWorker s.w } = abs s := by
      simp only [abs, St.at]; cases s.w <;> rfl
    have b1 := I.gone; have b2 := I.act; have b3 := I.noend; have b4 := I.isend; have b5 := I.off
    refine I.client t _ rfl (by simp) (by rw [hab]; exact hist0 I.hist) ?_ (I.frame_holds (t := t) ?_ ?_ ?_ ?_) ?_ ?_ ?_ ?_ 
      (by intro h; simp [St.at] at h; simp [h, er] at b1) ?_ (by intro h; simp [St.at, er] at h) ?_ ?_ ?_ ?_ ?_
    all_goals try simp only [St.at]
    all_goals cases hwx : s.w <;> simp_all [wakeWorker, hpc, cHolds, callOf, Loc, wHolds]
  case dReq => exact I.step_dReq (by simp only [Thr.step, hpc]; exact hstep) hpc
  case dAct => exact I.step_dAct (by simp only [Thr.step, hpc]; exact hstep) hpc
  case dNotify => exact I.step_dNotify (by simp only [Thr.step, hpc]; exact hstep) hpc
  case dJoin => exact I.step_dJoin (by simp only [Thr.step, hpc]; exact hstep) hpc
  case ret => exact I.step_ret (by simp only [Thr.step, hpc]; exact hstep) hpc

theorem Inv.step_expire {s s' : St} {tr ev : List Ev} {t : Tid} (I : Inv s tr) (hstep : Thr.step false s (.expire t) = some (s', ev)) : Inv s' (tr ++ ev) := by
  simp only [Thr.step] at hstep
  have ht := I.loc t
  cases hpc : s.pc t <;> rw [hpc] at ht <;> simp [hpc] at hstep <;> simp only [Loc] at ht
  obtain ⟨hn, rfl, rfl⟩ := hstep
  refine I.quiet t _ rfl (by simp) (by simp [St.at]) (hist0 I.hist) ?_ ?_ ?_ ?_ ?_ ?_ ?_ ?_ <;>
    simp [hpc, Loc, ht, cHolds, hn, callOf, notif, dEnd, St.at]

theorem Inv.step_spur {s s' : St} {tr ev : List Ev} {t : Tid} (I : Inv s tr) (hstep : Thr.step false s (.spur t) = some (s', ev)) : Inv s' (tr ++ ev) := by
  simp only [Thr.step] at hstep
  have ht := I.loc t
  cases hpc : s.pc t <;> rw [hpc] at ht <;> simp [hpc] at hstep <;> simp only [Loc] at ht
  obtain ⟨rfl, rfl⟩ := hstep
  refine I.quiet t _ rfl (by simp) (by simp [St.at]) (hist0 I.hist) ?_ ?_ ?_ ?_ ?_ ?_ ?_ ?_ <;>
    simp [hpc, Loc, ht, cHolds, callOf, notif, dEnd, St.at]

/-- A step of the worker that does not touch the clients. -/
theorem Inv.worker {s s' : St} {tr ev : List Ev} (I : Inv s tr) (hpc : s'.pc = s.pc) (hmine : ∀ t e, e ∈ ev → mine t e)
    (hnm : ∀ e, e ∈ ev → e = .runBegin ∨ e = .runEnd ∨ e = .fin)
    (hsame : s'.endReq = s.endReq ∧ s'.gone = s.gone ∧ s'.dying = s.dying ∧ s'.inside = s.inside)
    (hh : Hist (effects tr ++ effects ev) (abs s'))
    (hfr : ∀ u ph, Loc s ph (s.pc u) → Loc s' ph (s.pc u))
    (hc : ∀ t, s'.holder = some (.client t) ↔ s.holder = some (.client t))
    (hw : s'.holder = some .worker ↔ wHolds s'.w = true)
    (hd : s.w ≠ .dead)
    (act : s'.w = .check ∨ s'.w = .unl1 ∨ s'.w = .run ∨ s'.w = .running ∨ s'.w = .lock2 ∨ s'.w = .clear ∨ s'.w = .unlEnd ∨ s'.w = .dead → s'.active = true)
    (noend : s'.w = .unl1 ∨ s'.w = .run ∨ s'.w = .running ∨ s'.w = .lock2 ∨ s'.w = .clear ∨ s'.w = .notify ∨ s'.w = .unl2 → s'.endReq = false)
    (isend : s'.w = .unlEnd ∨ s'.w = .dead → s'.endReq = true)
    (off : s'.w = .notify ∨ s'.w = .unl2 → s'.active = false)
    (awake : s'.w = .sleep → s'.active = true → ∃ u, notif (s'.pc u) = true) : Inv s' (tr ++ ev) := by
  obtain ⟨e1, e2, e3, e4⟩ := hsame
  have hph : ∀ t, phase t (tr ++ ev) = phase t tr := by
    intro t
    rw [phase_app]
    clear hh hmine
    generalize phase t tr = ph
    induction ev generalizing ph with
    | nil => rfl
    | cons e ev ih =>
      rw [List.foldl_cons, ih (fun e he => hnm e (by simp [he]))]
      rcases hnm e (by simp) with rfl | rfl | rfl <;> rfl
  refine ⟨by rw [effects_app]; exact hh, fun u => ?_, ?_, hw, ?_, ?_, ?_, ?_, ?_, ?_, ?_, act, noend, isend, off, awake⟩
  · rw [hpc, hph]; exact hfr u _ (I.loc u)
  · intro t; rw [hc, hpc]; exact I.hc t
  · rw [e4, hpc]; exact I.ins
  · rw [e4]; exact I.nodup
  · rw [e3, hpc]; exact I.dy
  · rw [e3, hpc]; exact I.alone
  · rw [e3, e2, hpc]; exact I.dyin
  · rw [e2]; intro h; exact absurd (I.gone h).1 hd
  · rw [e1, e2, e3, hpc]; exact I.fresh

theorem Inv.frame_w {s s' : St} (h1 : s'.active = s.active) (h2 : s'.endReq = s.endReq) (h3 : s.w ≠ .notify) (h4 : s'.gone = s.gone) :
    ∀ ph p, Loc s ph p → Loc s' ph p := fun _ _ h => h.frame h1 h2 (fun e => absurd e h3) (fun e => h4 ▸ e)

theorem Inv.step_w {s s' : St} {tr ev : List Ev} (I : Inv s tr) (hstep : Thr.step false s .wgo = some (s', ev)) : Inv s' (tr ++ ev) := by
  simp only [Thr.step] at hstep
  have b0 := I.hw; have b1 := I.gone; have b2 := I.act; have b3 := I.noend; have b4 := I.isend; have b5 := I.off; have b6 := I.awake; have b7 := I.hist
  have bh := I.hc
  have hng : s.w ≠ .dead → s.gone = false := by
    intro h
    cases hg : s.gone
    · rfl
    · exact absurd (I.gone hg).1 h
  cases hw : s.w <;> simp only [hw] at hstep
  case sleep | dead => simp at hstep
  case lock1 | woken | lock2 =>
    simp at hstep; obtain ⟨hn, rfl, rfl⟩ := hstep
    refine I.worker rfl (by simp) (by simp) (by simp) ?_ (fun u ph => Inv.frame_w (by rfl) (by rfl) (by simp [hw]) (by rfl) ph _) ?_ ?_ ?_ ?_ ?_ ?_ ?_ ?_
    · have : ∀ a b, a = b → Hist (effects tr ++ effects []) a → Hist (effects tr ++ effects []) b := by rintro a b rfl h; exact h
      refine this _ _ ?_ (hist0 b7)
      simp [abs, hw]
    all_goals simp_all [wHolds]
  case unl1 | unl2 | unlEnd =>
    simp at hstep; obtain ⟨rfl, rfl⟩ := hstep
    refine I.worker rfl (by simp) (by simp) (by simp) ?_ (fun u ph => Inv.frame_w (by rfl) (by rfl) (by simp [hw]) (by rfl) ph _) ?_ ?_ ?_ ?_ ?_ ?_ ?_ ?_
    · have : ∀ a b, a = b → Hist (effects tr ++ effects []) a → Hist (effects tr ++ effects []) b := by rintro a b rfl h; exact h
      refine this _ _ ?_ (hist0 b7)
      simp [abs, hw]
    all_goals simp_all [wHolds]
    all_goals (intro t ht; rw [← bh t] at ht; simp [b0] at ht)
  case check =>
    by_cases he : s.endReq = true
    · simp only [if_pos he, Option.some.injEq, Prod.mk.injEq] at hstep; obtain ⟨rfl, rfl⟩ := hstep
      refine I.worker rfl (by simp) (by simp) (by simp) ?_ (fun u ph => Inv.frame_w (by rfl) (by rfl) (by simp [hw]) (by rfl) ph _) ?_ ?_ ?_ ?_ ?_ ?_ ?_ ?_
      · have : ∀ a b, a = b → Hist (effects tr ++ effects []) a → Hist (effects tr ++ effects []) b := by rintro a b rfl h; exact h
        refine this _ _ ?_ (hist0 b7)
        simp [abs, hw, he]
      all_goals simp_all [wHolds]
    · simp only [if_neg he, Option.some.injEq, Prod.mk.injEq] at hstep; obtain ⟨rfl, rfl⟩ := hstep
      refine I.worker rfl (by simp) (by simp) (by simp) ?_ (fun u ph => Inv.frame_w (by rfl) (by rfl) (by simp [hw]) (by rfl) ph _) ?_ ?_ ?_ ?_ ?_ ?_ ?_ ?_
      · have : ∀ a b, a = b → Hist (effects tr ++ effects []) a → Hist (effects tr ++ effects []) b := by rintro a b rfl h; exact h
        refine this _ _ ?_ (hist0 b7)
        simp [abs, hw, b2, he]
      all_goals simp_all [wHolds]
  case test =>
    by_cases he : s.active = true
    · simp only [if_pos he, Option.some.injEq, Prod.mk.injEq] at hstep; obtain ⟨rfl, rfl⟩ := hstep
      refine I.worker rfl (by simp) (by simp) (by simp) ?_ (fun u ph => Inv.frame_w (by rfl) (by rfl) (by simp [hw]) (by rfl) ph _) ?_ ?_ ?_ ?_ ?_ ?_ ?_ ?_
      · have : ∀ a b, a = b → Hist (effects tr ++ effects []) a → Hist (effects tr ++ effects []) b := by rintro a b rfl h; exact h
        refine this _ _ ?_ (hist0 b7)
        simp [abs, hw, he]
      all_goals simp_all [wHolds]
    · simp only [if_neg he, Option.some.injEq, Prod.mk.injEq] at hstep; obtain ⟨rfl, rfl⟩ := hstep
      refine I.worker rfl (by simp) (by simp) (by simp) ?_ (fun u ph => Inv.frame_w (by rfl) (by rfl) (by simp [hw]) (by rfl) ph _) ?_ ?_ ?_ ?_ ?_ ?_ ?_ ?_
      · have : ∀ a b, a = b → Hist (effects tr ++ effects []) a → Hist (effects tr ++ effects []) b := by rintro a b rfl h; exact h
        refine this _ _ ?_ (hist0 b7)
        simp [abs, hw, he]
      all_goals simp_all [wHolds]
      all_goals (intro t ht; rw [← bh t] at ht; simp [b0] at ht)
  case run =>
    simp at hstep; obtain ⟨rfl, rfl⟩ := hstep
    have ha : abs s = .pending := by simp [abs, hw, hng]
    refine I.worker rfl (by simp [mine, Proto.mine, view]) (by simp) (by simp) ?_ (fun u ph => Inv.frame_w (by rfl) (by rfl) (by simp [hw]) (by rfl) ph _) ?_ ?_ ?_ ?_ ?_ ?_ ?_ ?_
    · have : abs { s with w := .running } = .running := by simp [abs, hng, hw]
      rw [this]; exact b7.snoc (x := .runBegin) (by rw [ha]; exact Legal.runBegin)
    all_goals simp_all [wHolds]
  case running =>
    simp at hstep; obtain ⟨rfl, rfl⟩ := hstep
    have ha : abs s = .running := by simp [abs, hw, hng]
    refine I.worker rfl (by simp [mine, Proto.mine, view]) (by simp) (by simp) ?_ (fun u ph => Inv.frame_w (by rfl) (by rfl) (by simp [hw]) (by rfl) ph _) ?_ ?_ ?_ ?_ ?_ ?_ ?_ ?_
    · have : abs { s with w := .lock2 } = .over := by simp [abs, hng, hw]
      rw [this]; exact b7.snoc (x := .runEnd) (by rw [ha]; exact Legal.runEnd)
    all_goals simp_all [wHolds]
  case clear =>
    simp at hstep; obtain ⟨rfl, rfl⟩ := hstep
    have ha : abs s = .over := by simp [abs, hw, hng]
    refine I.worker rfl (by simp [mine, Proto.mine, view]) (by simp) (by simp) ?_ ?_ ?_ ?_ ?_ ?_ ?_ ?_ ?_ ?_
    · have : abs { s with w := .notify, active := false } = .finished := by simp [abs, hng, hw]
      rw [this]; exact b7.snoc (x := .fin) (by rw [ha]; exact Legal.fin)
    · intro u ph hl
      have hh : s.holder = some .worker := b0.2 (by rw [hw]; rfl)
      have hcu : cHolds (s.pc u) = false := by
        cases h : cHolds (s.pc u)
        · rfl
        · have := (I.hc u).2 h; rw [hh] at this; simp at this
      have he := b3 (by simp [hw])
      cases hp : s.pc u <;> rw [hp] at hl hcu <;> simp_all [Loc, cHolds]
    all_goals simp_all [wHolds]
  case notify =>
    simp at hstep; obtain ⟨rfl, rfl⟩ := hstep
    have hwk : ∀ u, (∃ c tm, s.pc u = .tSleep c tm ∧ wakeAll s.pc u = .tWoken c tm false) ∨ (wakeAll s.pc u = s.pc u ∧ ∀ c tm, s.pc u ≠ .tSleep c tm) := by
      intro u; unfold wakeAll; cases s.pc u <;> simp
    have hab : abs { s with w := .unl2, pc := wakeAll s.pc } = abs s := by simp [abs, hw]
    have hg := hng (by simp [hw])
    have he := b3 (by simp [hw])
    have ha := b5 (by simp [hw])
    constructor
    · rw [effects_app, hab]; exact hist0 I.hist
    · intro u
      rw [List.append_nil]
      have hl := I.loc u
      rcases hwk u with ⟨c, tm, h1, h2⟩ | ⟨h1, h2⟩
      · simp only [h2]; rw [h1] at hl; simp only [Loc] at *; simp [hl]
      · simp only [h1]
        cases hp : s.pc u <;> rw [hp] at hl h2 <;> simp_all [Loc]
    · intro u
      have := I.hc u
      rcases hwk u with ⟨c, tm, h1, h2⟩ | ⟨h1, h2⟩
      · simp only [h2]; rw [h1] at this; exact this
      · simp only [h1]; exact this
    · rw [hw] at b0; exact b0
    · intro u
      have := I.ins u
      rcases hwk u with ⟨c, tm, h1, h2⟩ | ⟨h1, h2⟩
      · simp only [h2]; rw [h1] at this; rw [this]; simp
      · simp only [h1]; exact this
    · exact I.nodup
    · intro u
      have := I.dy u
      rcases hwk u with ⟨c, tm, h1, h2⟩ | ⟨h1, h2⟩
      · simp only [h2]; rw [h1] at this; exact this
      · simp only [h1]; exact this
    · intro d hd u hu
      have := I.alone d hd u hu
      simp [wakeAll, this]
    · intro d hd hg
      have := I.dyin d hd hg
      rcases hwk d with ⟨c, tm, h1, h2⟩ | ⟨h1, h2⟩
      · simp only [h2]; rw [h1] at this; exact this
      · simp only [h1]; exact this
    · intro h; simp [hg] at h
    · intro h; simp [he] at h
    all_goals simp_all

theorem Inv.step_wspur {s s' : St} {tr ev : List Ev} (I : Inv s tr) (hstep : Thr.step false s .wspur = some (s', ev)) : Inv s' (tr ++ ev) := by
  simp only [Thr.step] at hstep
  have b0 := I.hw; have b1 := I.gone; have b2 := I.act; have b3 := I.noend; have b4 := I.isend; have b5 := I.off; have b6 := I.awake; have b7 := I.hist
  have bh := I.hc
  cases hw : s.w <;> simp [hw] at hstep
  obtain ⟨rfl, rfl⟩ := hstep
  refine I.worker rfl (by simp) (by simp) (by simp) ?_ (fun u ph => Inv.frame_w (by rfl) (by rfl) (by simp [hw]) (by rfl) ph _) ?_ ?_ ?_ ?_ ?_ ?_ ?_ ?_
  · have : ∀ a b, a = b → Hist (effects tr ++ effects []) a → Hist (effects tr ++ effects []) b := by rintro a b rfl h; exact h
    refine this _ _ ?_ (hist0 b7)
    simp [abs, hw]
  all_goals simp_all [wHolds]

theorem Inv.step {s s' : St} {tr ev : List Ev} {a : Act} (I : Inv s tr) (hstep : Thr.step false s a = some (s', ev)) : Inv s' (tr ++ ev) := by
  cases a with
  | call t c => exact I.step_call hstep
  | go t => exact I.step_go hstep
  | expire t => exact I.step_expire hstep
  | spur t => exact I.step_spur hstep
  | wgo => exact I.step_w hstep
  | wspur => exact I.step_wspur hstep

theorem Inv.reach {s : St} {tr : List Ev} (h : Reach (Thr.step false) Thr.init s tr) : Inv s tr :=
  h.inv Inv.init fun _ _ _ _ _ I hs => I.step hs

end Verif.Thr
