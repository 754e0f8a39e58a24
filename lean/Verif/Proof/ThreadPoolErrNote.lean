import Verif.Proof.ThreadPoolErrOwn
import Verif.Proof.ThreadPoolErrTrace
/-
What the waits of a thread pool whose operating system calls may fail say.
-/
namespace Verif.TPE
open Verif
open _root_.Verif.Mtx (Tid Err)
open _root_.Verif.EvF (Tmo)
open _root_.Verif.Lts (Reach)
open _root_.Verif.TP (Gid Rid Task Call PC Pos W Own Ev hold rhold conflict uses)
open Spec
set_option linter.unusedSimpArgs false

def isNotify : W → Bool
  | .notify _ => true
  | _ => false
/-- The task is over and the guard, if any, notified. -/
def settled : W → Bool
  | .leave _ | .over | .finished => true
  | _ => false
def isGuard : Own → Bool
  | .guard _ => true
  | _ => false
def isRel : Own → Bool
  | .rel _ => true
  | _ => false
def rS : PC → Option Rid
  | .on _ (.rSend i) => some i
  | _ => none
def wW : PC → Option (Gid × Rid)
  | .on (.wait g _) (.wWait i) => some (g, i)
  | _ => none

/-- As long as nothing fails silently: an event flag is set only for a guard whose task is over. -/
structure Note (s : TP.St) : Prop where
  a1 : ∀ i, act (s.w i) = true → s.needs i = true → isGuard (s.own i) = true
  a1' : ∀ i, isNotify (s.w i) = true → isGuard (s.own i) = true
  a2 : ∀ i, s.ev i = true → settled (s.w i) = true ∧ (isGuard (s.own i) = true ∨ isRel (s.own i) = true)
  a3 : ∀ t i, rS (s.pc t) = some i → s.ev i = false

theorem Note.init (n : Nat) (d : Int) : Note (TP.init n d) := by
  refine ⟨?_, ?_, ?_, ?_⟩
  · intro i _ h; simp [TP.init] at h
  · intro i h; simp only [TP.init] at h; split at h <;> simp [isNotify] at h
  · intro i h; simp [TP.init] at h
  · intro t i _; rfl

theorem rS_rhold {p : PC} {i : Rid} (h : rS p = some i) : rhold p = some i := by unfold rS at h; split at h <;> simp_all [rhold]

theorem Note.pgo {n : Nat} {s s' : TP.St} {l : List Ev} {i : Rid} (I : Own1 n s) (N : Note s) (h : TP.step s (.pgo i) = some (s', l)) : Note s' := by
  obtain ⟨a1, a1', a2, a3⟩ := N
  have hr := I.hr
  have e1 := I.e1 i; have e2 := I.e2 i
  simp only [TP.step] at h
  (repeat' split at h) <;> simp only [Option.some.injEq, Prod.mk.injEq, reduceCtorEq] at h <;> obtain ⟨rfl, _⟩ := h <;>
    refine ⟨?_, ?_, ?_, ?_⟩ <;> simp only [TP.St.wAt, TP.St.ownAt, TP.St.evAt] <;> grind [upd, act, selfRel, isNotify, settled, isGuard, isRel, rS_rhold]

theorem Note.throw {s s' : TP.St} {l : List Ev} {i : Rid} (N : Note s) (h : TP.step s (.throw i) = some (s', l)) : Note s' := by
  obtain ⟨a1, a1', a2, a3⟩ := N
  simp only [TP.step] at h
  (repeat' split at h) <;> simp only [Option.some.injEq, Prod.mk.injEq, reduceCtorEq] at h <;> obtain ⟨rfl, _⟩ := h <;>
    refine ⟨?_, ?_, ?_, ?_⟩ <;> simp only [TP.St.wAt, TP.St.ownAt, TP.St.evAt] <;> grind [upd, act, isNotify, settled]

/-- A client moves on, and thread `i`, whose owner was `o` and which is not in use, gets another owner. -/
theorem Note.move {s s' : TP.St} {t : Tid} {p' : PC} (N : Note s) (hpc : s'.pc = upd s.pc t p') (hev : s'.ev = s.ev) (hw : s'.w = s.w)
    (h : ∀ i, (s'.own i = s.own i ∧ s'.needs i = s.needs i) ∨ (s.w i = .finished ∧ s'.own i = s.own i) ∨ (settled (s.w i) = true ∧ isRel (s'.own i) = true) ∨ (isGuard (s.own i) = false ∧ s.ev i = false ∧ s'.needs i = s.needs i))
    (hr : ∀ i, rS p' = some i → s.ev i = false) : Note s' := by
  obtain ⟨a1, a1', a2, a3⟩ := N
  refine ⟨?_, ?_, ?_, ?_⟩
  · rw [hw]; intro i ha hn
    have := h i; have := a1 i
    cases hwi : s.w i <;> simp_all [act, settled]
    all_goals grind
  · rw [hw]; intro i ha
    have := h i; have := a1' i
    cases hwi : s.w i <;> simp_all [isNotify, settled]
    all_goals grind
  · rw [hw, hev]; intro i ha
    have := h i; have := a2 i ha
    grind
  · rw [hpc, hev]; intro u i hu
    by_cases e : u = t
    · subst e; rw [upd_same] at hu; exact hr i hu
    · rw [upd_ne _ _ e] at hu; exact a3 u i hu

theorem Note.quiet {s : TP.St} (N : Note s) {i : Rid} (h1 : isGuard (s.own i) = false) (h2 : isRel (s.own i) = false) : s.ev i = false := by
  cases he : s.ev i with
  | false => rfl
  | true => have := (N.a2 i he).2; rw [h1, h2] at this; simp at this

theorem Note.go {n : Nat} {s s' : TP.St} {l : List Ev} {t : Tid} (I : Own1 n s) (N : Note s) (h : TP.step s (.go t) = some (s', l)) : Note s' := by
  have hf := I.hf t; have ho := I.ho t; have hr := I.hr t; have a3 := N.a3 t; have a2 := N.a2; have fo := I.fo; have cd := I.cd t
  simp only [TP.step] at h
  split at h
  · simp at h
  next c p hp =>
  rw [hp] at hf ho hr a3 cd
  (repeat' split at h) <;> simp only [Option.some.injEq, Prod.mk.injEq, reduceCtorEq] at h <;> obtain ⟨rfl, _⟩ := h
  case h_7.isTrue g p i hw _ =>
    -- the task is handed over
    have hc := ho i rfl
    have hev : s.ev i = false := by
      cases he : s.ev i with
      | false => rfl
      | true => have := (a2 i he).2; rw [hc] at this; simp [isGuard, isRel] at this
    obtain ⟨b1, b1', b2, b3⟩ := N
    refine ⟨?_, ?_, ?_, ?_⟩ <;> simp only [TP.St.at, TP.St.wAt, TP.St.ownAt]
    · intro j; by_cases e : j = i
      · subst e; rw [upd_same, upd_same, cd.2.1]; intro _ h; cases g <;> simp at h; rfl
      · rw [upd_ne _ _ e, upd_ne _ _ e]; exact b1 j
    · intro j; by_cases e : j = i
      · subst e; rw [upd_same]; intro h; simp [isNotify] at h
      · rw [upd_ne _ _ e, upd_ne _ _ e]; exact b1' j
    · intro j; by_cases e : j = i
      · subst e; rw [hev]; intro h; simp at h
      · rw [upd_ne _ _ e, upd_ne _ _ e]; exact b2 j
    · intro u j hu; by_cases e : u = t
      · subst e; rw [upd_same] at hu; simp [rS] at hu
      · rw [upd_ne _ _ e] at hu; exact b3 u j hu
  case h_13 i _ =>
    have hc := hr i rfl
    obtain ⟨b1, b1', b2, b3⟩ := N
    refine ⟨b1, b1', ?_, ?_⟩ <;> simp only [TP.St.at, TP.St.evAt]
    · intro j hj; by_cases e : j = i
      · subst e; simp at hj
      · rw [upd_ne _ _ e] at hj; exact b2 j hj
    · intro u j hu; by_cases e' : j = i
      · subst e'; simp
      · rw [upd_ne _ _ e']; by_cases e : u = t
        · subst e; rw [upd_same] at hu; simp [rS] at hu; exact absurd hu.symm e'
        · rw [upd_ne _ _ e] at hu; exact b3 u j hu
  case h_1.isTrue i rest hfr hw _ =>
    have hc := (fo i).1 (by rw [hfr]; simp)
    obtain ⟨b1, b1', b2, b3⟩ := N
    refine ⟨?_, ?_, ?_, b3⟩ <;> simp only [TP.St.at, TP.St.wAt, TP.St.ownAt] <;> intro j <;> by_cases e : j = i
    · subst e; rw [upd_same]; intro h; simp [act] at h
    · rw [upd_ne _ _ e, upd_ne _ _ e]; exact b1 j
    · subst e; rw [upd_same]; intro h; simp [isNotify] at h
    · rw [upd_ne _ _ e, upd_ne _ _ e]; exact b1' j
    · subst e; intro h; have := (b2 j h).2; rw [hc] at this; simp [isGuard, isRel] at this
    · rw [upd_ne _ _ e, upd_ne _ _ e]; exact b2 j
  all_goals
    first
      | exact N.move (t := t) rfl rfl rfl (fun j => Or.inl ⟨rfl, rfl⟩) (by simp [rS])
      | skip
  case h_2 i rest hfr _ =>
    have hc := (fo i).1 (by rw [hfr]; simp)
    refine N.move (t := t) rfl rfl rfl (fun j => ?_) (by simp [rS])
    by_cases e : j = i
    · subst e; exact Or.inr (Or.inr (Or.inr ⟨by rw [hc]; rfl, N.quiet (by rw [hc]; rfl) (by rw [hc]; rfl), rfl⟩))
    · exact Or.inl ⟨upd_ne _ _ e, rfl⟩
  case h_5 i _ =>
    refine N.move (t := t) rfl rfl rfl (fun j => ?_) (by simp [rS])
    by_cases e : j = i
    · subst e; exact Or.inr (Or.inl ⟨hf j rfl, rfl⟩)
    · exact Or.inl ⟨rfl, upd_ne _ _ e⟩
  case h_12.isTrue i he _ =>
    refine N.move (t := t) rfl rfl rfl (fun j => ?_) (by simp [rS])
    by_cases e : j = i
    · subst e; exact Or.inr (Or.inr (Or.inl ⟨(a2 j he).1, by simp [TP.St.ownAt, isRel]⟩))
    · exact Or.inl ⟨upd_ne _ _ e, rfl⟩
  case h_14.isTrue i hl _ =>
    refine N.move (t := t) rfl rfl rfl (fun j => ?_) (by simp [rS])
    by_cases e : j = i
    · subst e; exact Or.inr (Or.inr (Or.inr ⟨by rw [hr j rfl]; rfl, a3 j rfl, rfl⟩))
    · exact Or.inl ⟨upd_ne _ _ e, rfl⟩

/-- A start drops the thread it has. -/
theorem Note.drop {n : Nat} {s : TP.St} {t : Tid} {c : Call} {i : Rid} {o : TP.Out} (hp : s.pc t = .on c (.sWait i)) (I : Own1 n s) (N : Note s) :
    Note ((s.at t c (.ret o)).ownAt i .lost) := by
  have hc := I.ho t i (by rw [hp]; rfl)
  refine N.move (t := t) rfl rfl rfl (fun j => ?_) (by simp [rS])
  by_cases e : j = i
  · subst e; exact Or.inr (Or.inr (Or.inr ⟨by rw [hc]; rfl, N.quiet (by rw [hc]; rfl) (by rw [hc]; rfl), rfl⟩))
  · exact Or.inl ⟨upd_ne _ _ e, rfl⟩

theorem Note.expire {n : Nat} {s s' : TP.St} {l : List Ev} {t : Tid} (I : Own1 n s) (N : Note s) (h : TP.step s (.expire t) = some (s', l)) : Note s' := by
  simp only [TP.step] at h
  split at h
  case h_2 => simp at h
  next c p hp =>
  (repeat' split at h) <;> simp only [Option.some.injEq, Prod.mk.injEq, reduceCtorEq] at h <;> obtain ⟨rfl, rfl⟩ := h
  all_goals first
    | exact N.drop hp I
    | exact N.move (t := t) rfl rfl rfl (fun j => Or.inl ⟨rfl, rfl⟩) (by simp [rS])

theorem Note.fail {n : Nat} {s s' : XSt} {ev : List XEv} {t : Tid} {e : Err} (I : Own1 n s.b) (N : Note s.b) (h : TPE.step s (.fail t e) = some (s', ev))
    (hq : ∀ x, x ∈ ev → isSilent x = false) : Note s'.b := by
  simp only [step] at h
  split at h
  · simp at h
  split at h
  · simp at h
  next c p hp =>
  (repeat' split at h) <;> simp only [Option.some.injEq, Prod.mk.injEq, reduceCtorEq] at h <;> obtain ⟨rfl, rfl⟩ := h
  all_goals first
    | (simp [isSilent] at hq; done)
    | exact N.drop hp I
    | exact N.move (t := t) rfl rfl rfl (fun j => Or.inl ⟨rfl, rfl⟩) (by simp [rS])

theorem Note.step {n : Nat} {s s' : XSt} {ev : List XEv} {a : XAct} (I : Own1 n s.b) (N : Note s.b) (h : TPE.step s a = some (s', ev))
    (hq : ∀ x, x ∈ ev → isSilent x = false) : Note s'.b := by
  cases a with
  | fail t e => exact Note.fail I N h hq
  | pfail t e =>
    simp only [TPE.step] at h
    (repeat' split at h) <;> simp only [Option.some.injEq, Prod.mk.injEq, reduceCtorEq] at h <;> obtain ⟨rfl, rfl⟩ := h <;> simp [isSilent] at hq
  | base a =>
    simp only [TPE.step] at h
    split at h <;> simp only [Option.some.injEq, Prod.mk.injEq, reduceCtorEq] at h
    next h1 =>
    obtain ⟨rfl, rfl⟩ := h
    cases a with
    | call t c =>
      simp only [TP.step] at h1
      split at h1 <;> simp only [Option.some.injEq, Prod.mk.injEq, reduceCtorEq] at h1
      obtain ⟨rfl, rfl⟩ := h1
      exact N.move (t := t) rfl rfl rfl (fun j => Or.inl ⟨rfl, rfl⟩) (by cases c <;> simp [rS, TP.entry])
    | go t => exact Note.go I N h1
    | expire t => exact Note.expire I N h1
    | pgo i => exact Note.pgo I N h1
    | throw i => exact N.throw h1

/-- A wait waits for the thread of its guard. -/
def WLink (s : TP.St) : Prop := ∀ t g i, wW (s.pc t) = some (g, i) → s.guard g = some i

theorem wait_clash {g : Gid} {i : Rid} {p q : PC} (h : wW p = some (g, i)) (hc : clashes p q = false) : (∀ k tm pr x, q ≠ .on (.start k tm (some g) pr) x) ∧ ∀ x, q ≠ .on (.release g) x := by
  unfold wW at h; split at h <;> simp at h
  obtain ⟨rfl, rfl⟩ := h
  constructor
  · rintro k tm pr x rfl; simp [clashes, conflict, uses] at hc
  · rintro x rfl; simp [clashes, conflict, uses] at hc

theorem WLink.move {s s' : TP.St} {t : Tid} {p' : PC} (L : WLink s) (hpc : s'.pc = upd s.pc t p') (hg : s'.guard = s.guard) (h : ∀ g i, wW p' = some (g, i) → s.guard g = some i) : WLink s' := by
  intro u g i hu
  rw [hg]; rw [hpc] at hu
  by_cases e : u = t
  · subst e; rw [upd_same] at hu; exact h g i hu
  · rw [upd_ne _ _ e] at hu; exact L u g i hu

theorem WLink.same {s s' : TP.St} (L : WLink s) (hpc : s'.pc = s.pc) (hg : s'.guard = s.guard) : WLink s' := by
  intro u g i hu; rw [hg]; rw [hpc] at hu; exact L u g i hu

theorem WLink.go {n : Nat} {s s' : TP.St} {l : List Ev} {t : Tid} (I : Own1 n s) (L : WLink s) (h : TP.step s (.go t) = some (s', l)) : WLink s' := by
  simp only [TP.step] at h
  split at h
  · simp at h
  next c p hp =>
  (repeat' split at h) <;> simp only [Option.some.injEq, Prod.mk.injEq, reduceCtorEq] at h <;> obtain ⟨rfl, _⟩ := h
  case h_8 g _ i _ =>
    cases g with
    | none => exact L.move (t := t) rfl rfl (by simp [wW])
    | some g =>
      intro u g' j hu
      simp only [TP.St.at] at hu
      by_cases e : u = t
      · subst e; rw [upd_same] at hu; simp [wW] at hu
      · rw [upd_ne _ _ e] at hu
        have := (wait_clash hu (I.ex u t e)).1
        have eg : g' ≠ g := by rintro rfl; exact this _ _ _ _ hp
        simp only [TP.setGuard]; rw [upd_ne _ _ eg]; exact L u g' j hu
  case h_15 g _ =>
    intro u g' j hu
    simp only [TP.St.at] at hu
    by_cases e : u = t
    · subst e; rw [upd_same] at hu; simp [wW] at hu
    · rw [upd_ne _ _ e] at hu
      have := (wait_clash hu (I.ex u t e)).2
      have eg : g' ≠ g := by rintro rfl; exact this _ hp
      simp only []; rw [upd_ne _ _ eg]; exact L u g' j hu
  all_goals first
    | exact L.same rfl rfl
    | (refine L.move (t := t) rfl rfl ?_; simp [wW]; done)
    | (refine L.move (t := t) rfl rfl ?_; simp [wW]; assumption)

theorem WLink.step {n : Nat} {s s' : XSt} {ev : List XEv} {a : XAct} (I : Own1 n s.b) (L : WLink s.b) (h : TPE.step s a = some (s', ev)) : WLink s'.b := by
  cases a with
  | fail t e =>
    simp only [TPE.step] at h
    (repeat' split at h) <;> simp only [Option.some.injEq, Prod.mk.injEq, reduceCtorEq] at h <;> obtain ⟨rfl, rfl⟩ := h <;>
      exact L.move (t := t) rfl rfl (by simp [wW])
  | pfail t e =>
    simp only [TPE.step] at h
    (repeat' split at h) <;> simp only [Option.some.injEq, Prod.mk.injEq, reduceCtorEq] at h <;> obtain ⟨rfl, rfl⟩ := h <;> exact L.same rfl rfl
  | base a =>
    simp only [TPE.step] at h
    split at h <;> simp only [Option.some.injEq, Prod.mk.injEq, reduceCtorEq] at h
    next h1 =>
    obtain ⟨rfl, rfl⟩ := h
    cases a with
    | go t => exact WLink.go I L h1
    | call t c =>
      simp only [TP.step] at h1
      split at h1 <;> simp only [Option.some.injEq, Prod.mk.injEq, reduceCtorEq] at h1
      obtain ⟨rfl, rfl⟩ := h1
      exact L.move (t := t) rfl rfl (by cases c <;> simp [wW, TP.entry])
    | expire t =>
      simp only [TP.step] at h1
      (repeat' split at h1) <;> simp only [Option.some.injEq, Prod.mk.injEq, reduceCtorEq] at h1 <;> obtain ⟨rfl, rfl⟩ := h1 <;>
        exact L.move (t := t) rfl rfl (by simp [wW])
    | pgo t =>
      simp only [TP.step] at h1
      (repeat' split at h1) <;> simp only [Option.some.injEq, Prod.mk.injEq, reduceCtorEq] at h1 <;> obtain ⟨rfl, rfl⟩ := h1 <;> exact L.same rfl rfl
    | throw t =>
      simp only [TP.step] at h1
      (repeat' split at h1) <;> simp only [Option.some.injEq, Prod.mk.injEq, reduceCtorEq] at h1 <;> obtain ⟨rfl, rfl⟩ := h1 <;> exact L.same rfl rfl

/-- Task `k` of guard `g` is still to be done by thread `i`. -/
def Doing (s : TP.St) (i : Rid) (k : Task) (g : Gid) : Prop := s.own i = .guard g ∧ s.task i = some k ∧ (s.w i = .pending ∨ s.w i = .inTask k)

theorem Doing.keep {s s' : TP.St} {i : Rid} {k : Task} {g : Gid} (D : Doing s i k g) (ho : s'.own i = s.own i) (ht : s'.task i = s.task i) (hw : s'.w i = s.w i) : Doing s' i k g := by
  unfold Doing; rw [ho, ht, hw]; exact D

theorem Doing.step {n : Nat} {s s' : XSt} {ev : List XEv} {a : XAct} {i : Rid} {k : Task} {g : Gid} (I : Own1 n s.b) (N : Note s.b) (D : Doing s.b i k g) (h : TPE.step s a = some (s', ev))
    (hq : ∀ x, x ∈ ev → isSilent x = false) : Doing s'.b i k g ∨ ∃ x, .ended i k x ∈ plain ev := by
  obtain ⟨d1, d2, d3⟩ := id D
  have hnf : s.b.w i ≠ .finished := by rcases d3 with h | h <;> rw [h] <;> simp
  have hns : settled (s.b.w i) = false := by rcases d3 with h | h <;> rw [h] <;> rfl
  cases a with
  | fail t e =>
    have hot := I.ho t
    simp only [TPE.step] at h
    (repeat' split at h) <;> simp only [Option.some.injEq, Prod.mk.injEq, reduceCtorEq] at h <;> obtain ⟨rfl, rfl⟩ := h
    case h_2 j hp =>
      have : i ≠ j := by rintro rfl; have := hot i (by rw [hp]; rfl); rw [d1] at this; simp at this
      exact Or.inl (D.keep (upd_ne _ _ this) rfl rfl)
    all_goals first
      | (simp [isSilent] at hq; done)
      | exact Or.inl (D.keep rfl rfl rfl)
  | pfail t e =>
    simp only [TPE.step] at h
    (repeat' split at h) <;> simp only [Option.some.injEq, Prod.mk.injEq, reduceCtorEq] at h <;> obtain ⟨rfl, rfl⟩ := h <;> simp [isSilent] at hq
  | base a =>
    simp only [TPE.step] at h
    split at h <;> simp only [Option.some.injEq, Prod.mk.injEq, reduceCtorEq] at h
    next b' l h1 =>
    obtain ⟨rfl, rfl⟩ := h
    cases a with
    | call t c =>
      simp only [TP.step] at h1
      split at h1 <;> simp only [Option.some.injEq, Prod.mk.injEq, reduceCtorEq] at h1
      obtain ⟨rfl, rfl⟩ := h1
      exact Or.inl (D.keep rfl rfl rfl)
    | expire t =>
      have hot := I.ho t
      simp only [TP.step] at h1
      (repeat' split at h1) <;> simp only [Option.some.injEq, Prod.mk.injEq, reduceCtorEq] at h1 <;> obtain ⟨rfl, rfl⟩ := h1
      case h_2.isTrue j hp _ =>
        have : i ≠ j := by rintro rfl; have := hot i (by rw [hp]; rfl); rw [d1] at this; simp at this
        exact Or.inl (D.keep (upd_ne _ _ this) rfl rfl)
      all_goals exact Or.inl (D.keep rfl rfl rfl)
    | pgo j =>
      by_cases e : i = j
      · subst e
        simp only [TP.step] at h1
        rcases d3 with hw | hw <;> rw [hw] at h1 <;> simp only [d2] at h1 <;> simp only [Option.some.injEq, Prod.mk.injEq] at h1 <;> obtain ⟨rfl, rfl⟩ := h1
        · exact Or.inl ⟨d1, d2, Or.inr (by simp [TP.St.wAt])⟩
        · exact Or.inr ⟨false, by simp [plain, events]⟩
      · simp only [TP.step] at h1
        (repeat' split at h1) <;> simp only [Option.some.injEq, Prod.mk.injEq, reduceCtorEq] at h1 <;> obtain ⟨rfl, rfl⟩ := h1 <;>
          refine Or.inl (D.keep ?_ rfl ?_) <;> simp [TP.St.wAt, TP.St.ownAt, TP.St.evAt, upd_ne _ _ e]
    | throw j =>
      by_cases e : i = j
      · subst e
        simp only [TP.step] at h1
        rcases d3 with hw | hw <;> rw [hw] at h1 <;> simp only [reduceCtorEq] at h1 <;> simp only [Option.some.injEq, Prod.mk.injEq] at h1 <;> obtain ⟨rfl, rfl⟩ := h1
        exact Or.inr ⟨true, by simp [plain, events]⟩
      · simp only [TP.step] at h1
        (repeat' split at h1) <;> simp only [Option.some.injEq, Prod.mk.injEq, reduceCtorEq] at h1 <;> obtain ⟨rfl, rfl⟩ := h1 <;>
          refine Or.inl (D.keep ?_ rfl ?_) <;> simp [TP.St.wAt, TP.St.ownAt, TP.St.evAt, upd_ne _ _ e]
    | go t =>
      have hot := I.ho t; have hrt := I.hr t; have hft := I.hf t; have fo := I.fo
      simp only [TP.step] at h1
      (repeat' split at h1) <;> simp only [Option.some.injEq, Prod.mk.injEq, reduceCtorEq] at h1 <;> obtain ⟨rfl, rfl⟩ := h1
      all_goals try (exact Or.inl (D.keep rfl rfl rfl))
      case h_2 j rest hfr =>
        have : i ≠ j := by rintro rfl; have := (fo i).1 (by rw [hfr]; simp); rw [d1] at this; simp at this
        exact Or.inl (D.keep (upd_ne _ _ this) rfl rfl)
      case h_5 j hp =>
        have : i ≠ j := by rintro rfl; exact hnf (hft i (by rw [hp]; rfl))
        exact Or.inl (D.keep rfl (upd_ne _ _ this) rfl)
      case h_7.isTrue j hp hw =>
        have : i ≠ j := by rintro rfl; exact hnf hw
        exact Or.inl (D.keep (upd_ne _ _ this) rfl (upd_ne _ _ this))
      case h_12.isTrue j hp hev =>
        have : i ≠ j := by rintro rfl; have := (N.a2 i hev).1; rw [hns] at this; simp at this
        exact Or.inl (D.keep (upd_ne _ _ this) rfl rfl)
      case h_14.isTrue j hp _ =>
        have : i ≠ j := by rintro rfl; have := hrt i (by rw [hp]; rfl); rw [d1] at this; simp at this
        exact Or.inl (D.keep (upd_ne _ _ this) rfl rfl)
      case h_1.isTrue j rest hfr hw =>
        have : i ≠ j := by rintro rfl; exact hnf hw
        exact Or.inl (D.keep (upd_ne _ _ this) rfl (upd_ne _ _ this))

/-- A task just handed over. -/
theorem Doing.fresh {n : Nat} {s s' : XSt} {ev : List XEv} {a : XAct} {a1 a2 : List Ev} {u : Tid} {i : Rid} {k : Task} {g : Gid} {p : Int} (I : Own1 n s.b) (h : TPE.step s a = some (s', ev))
    (he : plain ev = a1 ++ .acc u i k (some g) p :: a2) : Doing s'.b i k g := by
  have hm : .acc u i k (some g) p ∈ plain ev := by rw [he]; simp
  cases a with
  | fail t e =>
    simp only [TPE.step] at h
    (repeat' split at h) <;> simp only [Option.some.injEq, Prod.mk.injEq, reduceCtorEq] at h <;> obtain ⟨rfl, rfl⟩ := h <;> simp [plain] at hm
  | pfail t e =>
    simp only [TPE.step] at h
    (repeat' split at h) <;> simp only [Option.some.injEq, Prod.mk.injEq, reduceCtorEq] at h <;> obtain ⟨rfl, rfl⟩ := h <;> simp [plain] at hm
  | base a =>
    simp only [TPE.step] at h
    split at h <;> simp only [Option.some.injEq, Prod.mk.injEq, reduceCtorEq] at h
    next b' l h1 =>
    obtain ⟨rfl, rfl⟩ := h
    rw [plain_events] at hm
    replace hm := (List.mem_filter.1 hm).1
    cases a with
    | go t =>
      have hct := I.cd t
      simp only [TP.step] at h1
      (repeat' split at h1) <;> simp only [Option.some.injEq, Prod.mk.injEq, reduceCtorEq] at h1 <;> obtain ⟨rfl, rfl⟩ := h1 <;> simp at hm
      next hp hw =>
      obtain ⟨rfl, rfl, rfl, rfl, rfl⟩ := hm
      rw [hp] at hct
      exact ⟨by simp [TP.St.ownAt, TP.toOwn], hct.1, Or.inl (by simp [TP.St.ownAt, TP.St.wAt])⟩
    | call t c =>
      simp only [TP.step] at h1
      split at h1 <;> simp only [Option.some.injEq, Prod.mk.injEq, reduceCtorEq] at h1; obtain ⟨rfl, rfl⟩ := h1; simp at hm
    | expire t =>
      simp only [TP.step] at h1
      (repeat' split at h1) <;> simp only [Option.some.injEq, Prod.mk.injEq, reduceCtorEq] at h1 <;> obtain ⟨rfl, rfl⟩ := h1 <;> simp at hm
    | pgo t =>
      simp only [TP.step] at h1
      (repeat' split at h1) <;> simp only [Option.some.injEq, Prod.mk.injEq, reduceCtorEq] at h1 <;> obtain ⟨rfl, rfl⟩ := h1 <;> (try split at hm) <;> simp at hm
    | throw t =>
      simp only [TP.step] at h1
      (repeat' split at h1) <;> simp only [Option.some.injEq, Prod.mk.injEq, reduceCtorEq] at h1 <;> obtain ⟨rfl, rfl⟩ := h1 <;> simp at hm

/-- Every task handed over with a guard has ended, or is still to be done for the guard. -/
def Owed (s : TP.St) (l : List Ev) : Prop := ∀ a1 a2 u i k g p, l = a1 ++ .acc u i k (some g) p :: a2 → (∃ x, .ended i k x ∈ a2) ∨ Doing s i k g

structure Quiet (n : Nat) (s : TP.St) (tr : List XEv) : Prop where
  o1 : Own1 n s
  o2 : Own2 s tr
  lk : WLink s
  nt : (∀ x, x ∈ tr → isSilent x = false) → Note s ∧ Owed s (plain tr)

theorem Quiet.reach {n : Nat} {d : Int} {s : XSt} {tr : List XEv} (h : Reach TPE.step (TPE.init n d) s tr) : Quiet n s.b tr := by
  refine ⟨Own1.reach h, Own2.reach h, ?_, ?_⟩
  · exact (Reach.inv (I := fun s _ => Own1 n s.b ∧ WLink s.b) ⟨Own1.init n d, by intro t g i h; simp [TPE.init, TP.init, wW] at h⟩
      (fun _ _ _ _ _ hi hs => ⟨hi.1.step hs, WLink.step hi.1 hi.2 hs⟩) h).2
  · refine (Reach.inv (I := fun s tr => Own1 n s.b ∧ ((∀ x, x ∈ tr → isSilent x = false) → Note s.b ∧ Owed s.b (plain tr))) ⟨Own1.init n d, fun _ => ⟨Note.init n d, ?_⟩⟩
      (fun s tr a s' ev hi hs => ⟨hi.1.step hs, fun hq => ?_⟩) h).2
    · intro a1 a2 u i k g p h; simp [plain] at h
    · obtain ⟨N, O⟩ := hi.2 (fun x hx => hq x (by simp [hx]))
      have hq' : ∀ x, x ∈ ev → isSilent x = false := fun x hx => hq x (by simp [hx])
      refine ⟨N.step hi.1 hs hq', ?_⟩
      intro a1 a2 u i k g p he
      rw [plain_app] at he
      rcases List.append_eq_append_iff.1 he with ⟨l, h1, h2⟩ | ⟨l, h1, h2⟩
      · exact Or.inr (Doing.fresh hi.1 hs h2)
      · cases l with
        | nil => simp at h1 h2; exact Or.inr (Doing.fresh hi.1 hs (a1 := []) (by simpa using h2.symm))
        | cons y l =>
          simp at h2; obtain ⟨rfl, rfl⟩ := h2
          rcases O a1 l u i k g p h1 with ⟨x, hx⟩ | D
          · exact Or.inl ⟨x, by simp [hx]⟩
          · rcases D.step hi.1 N hs hq' with D' | ⟨x, hx⟩
            · exact Or.inr D'
            · exact Or.inl ⟨x, by simp [hx]⟩

end Verif.TPE
