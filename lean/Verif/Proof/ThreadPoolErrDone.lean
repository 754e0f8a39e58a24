import Verif.Proof.ThreadPoolErrNote
/-
The returns of wait, release and destroy of a thread pool whose operating system calls may fail.
-/
namespace Verif.TPE
open Verif
open _root_.Verif.Mtx (Tid Err)
open _root_.Verif.EvF (Tmo)
open _root_.Verif.Lts (Reach)
open _root_.Verif.TP (Gid Rid Task Call PC Pos W Own Ev hold rhold conflict uses)
open Spec
set_option linter.unusedSimpArgs false

def startGo : PC → Option (Gid × Rid)
  | .on (.start _ _ (some g) _) (.sGo i) => some (g, i)
  | _ => none
def waitOk : PC → Option Gid
  | .on (.wait g _) (.ret .ok) => some g
  | _ => none
def relRet : PC → Option Gid
  | .on (.release g) (.ret _) => some g
  | _ => none

/-- Where the thread of a guard comes from. -/
theorem guardFrom {s s' : XSt} {ev : List XEv} {a : XAct} {i : Rid} {g : Gid} (h : TPE.step s a = some (s', ev)) (ho : s'.b.own i = .guard g) :
    (s.b.own i = .guard g ∧ (settled (s.b.w i) = true → settled (s'.b.w i) = true)) ∨ ∃ t, client a = some t ∧ startGo (s.b.pc t) = some (g, i) := by
  cases a with
  | fail t e =>
    simp only [TPE.step] at h
    (repeat' split at h) <;> simp only [Option.some.injEq, Prod.mk.injEq, reduceCtorEq] at h <;> obtain ⟨rfl, rfl⟩ := h <;>
      simp only [giveUp, TP.St.at, TP.St.ownAt] at ho ⊢ <;> grind [upd]
  | pfail t e =>
    simp only [TPE.step] at h
    (repeat' split at h) <;> simp only [Option.some.injEq, Prod.mk.injEq, reduceCtorEq] at h <;> obtain ⟨rfl, rfl⟩ := h <;>
      simp only [TP.St.wAt, TP.St.ownAt] at ho ⊢ <;> grind [upd, settled]
  | base a =>
    simp only [TPE.step] at h
    split at h <;> simp only [Option.some.injEq, Prod.mk.injEq, reduceCtorEq] at h
    next b' l h1 =>
    obtain ⟨rfl, rfl⟩ := h
    cases a with
    | call t c =>
      simp only [TP.step] at h1
      split at h1 <;> simp only [Option.some.injEq, Prod.mk.injEq, reduceCtorEq] at h1; obtain ⟨rfl, rfl⟩ := h1
      exact Or.inl ⟨ho, id⟩
    | expire t =>
      simp only [TP.step] at h1
      (repeat' split at h1) <;> simp only [Option.some.injEq, Prod.mk.injEq, reduceCtorEq] at h1 <;> obtain ⟨rfl, rfl⟩ := h1 <;>
        simp only [TP.St.at, TP.St.ownAt] at ho ⊢ <;> grind [upd]
    | pgo j =>
      simp only [TP.step] at h1
      (repeat' split at h1) <;> simp only [Option.some.injEq, Prod.mk.injEq, reduceCtorEq] at h1 <;> obtain ⟨rfl, rfl⟩ := h1 <;>
        simp only [TP.St.wAt, TP.St.ownAt, TP.St.evAt] at ho ⊢ <;> grind [upd, settled]
    | throw j =>
      simp only [TP.step] at h1
      (repeat' split at h1) <;> simp only [Option.some.injEq, Prod.mk.injEq, reduceCtorEq] at h1 <;> obtain ⟨rfl, rfl⟩ := h1 <;>
        simp only [TP.St.wAt, TP.St.ownAt, TP.St.evAt] at ho ⊢ <;> grind [upd, settled]
    | go t =>
      simp only [TP.step] at h1
      (repeat' split at h1) <;> simp only [Option.some.injEq, Prod.mk.injEq, reduceCtorEq] at h1 <;> obtain ⟨rfl, rfl⟩ := h1
      case h_7.isTrue k _ g' p j hp hw =>
        simp only [TP.St.at, TP.St.wAt, TP.St.ownAt] at ho ⊢
        by_cases e : i = j
        · subst e
          rw [upd_same] at ho
          cases g' <;> simp [TP.toOwn] at ho
          subst ho
          exact Or.inr ⟨t, rfl, by rw [hp]; rfl⟩
        · rw [upd_ne _ _ e] at ho; rw [upd_ne _ _ e]; exact Or.inl ⟨ho, id⟩
      all_goals
        simp only [TP.St.at, TP.St.wAt, TP.St.ownAt, TP.St.evAt] at ho ⊢
        grind [upd, settled]

/-- How a wait gets to return OK. -/
theorem waitFrom {s s' : XSt} {ev : List XEv} {a : XAct} {t : Tid} {g : Gid} (h : TPE.step s a = some (s', ev)) (hw : waitOk (s'.b.pc t) = some g) :
    waitOk (s.b.pc t) = some g ∨ (s'.b.own = s.b.own ∧ s'.b.w = s.b.w ∧ ∃ tm, (s.b.pc t = .on (.wait g tm) .wEnter ∧ s.b.guard g = none) ∨ ∃ i, s.b.pc t = .on (.wait g tm) (.wWait i) ∧ s.b.ev i = true) := by
  by_cases ht : client a = some t
  · cases a with
    | fail u e =>
      simp only [client, Option.some.injEq] at ht; subst ht
      simp only [TPE.step] at h
      (repeat' split at h) <;> simp only [Option.some.injEq, Prod.mk.injEq, reduceCtorEq] at h <;> obtain ⟨rfl, rfl⟩ := h <;>
        simp [giveUp, TP.St.at, TP.St.ownAt, waitOk] at hw
    | pfail u e => simp [client] at ht
    | base a =>
      simp only [TPE.step] at h
      split at h <;> simp only [Option.some.injEq, Prod.mk.injEq, reduceCtorEq] at h
      next b' l h1 =>
      obtain ⟨rfl, rfl⟩ := h
      cases a with
      | pgo j => simp [client] at ht
      | throw j => simp [client] at ht
      | call u c =>
        simp only [client, Option.some.injEq] at ht; subst ht
        simp only [TP.step] at h1
        split at h1 <;> simp only [Option.some.injEq, Prod.mk.injEq, reduceCtorEq] at h1; obtain ⟨rfl, rfl⟩ := h1
        cases c <;> simp [TP.St.at, TP.entry, waitOk] at hw
      | expire u =>
        simp only [client, Option.some.injEq] at ht; subst ht
        simp only [TP.step] at h1
        (repeat' split at h1) <;> simp only [Option.some.injEq, Prod.mk.injEq, reduceCtorEq] at h1 <;> obtain ⟨rfl, rfl⟩ := h1 <;>
          simp [TP.St.at, TP.St.ownAt, waitOk] at hw
      | go u =>
        simp only [client, Option.some.injEq] at ht; subst ht
        simp only [TP.step] at h1
        (repeat' split at h1) <;> simp only [Option.some.injEq, Prod.mk.injEq, reduceCtorEq] at h1 <;> obtain ⟨rfl, rfl⟩ := h1 <;>
          simp [TP.St.at, TP.St.ownAt, TP.St.wAt, TP.St.evAt, waitOk, *] at hw
        · subst hw; exact Or.inr ⟨rfl, rfl, _, Or.inl ⟨by assumption, by assumption⟩⟩
        · subst hw; exact Or.inr ⟨rfl, rfl, _, Or.inr ⟨_, by assumption, by assumption⟩⟩
  · left; rw [(step_other h ht).1] at hw; exact hw

/-- When a wait returns OK, the task is over (if nothing fails silently). -/
def WDone (s : TP.St) : Prop := ∀ t g i, waitOk (s.pc t) = some g → s.own i = .guard g → settled (s.w i) = true

theorem waitOk_clash {g : Gid} {p q : PC} (h : (∃ tm x, p = .on (.wait g tm) x) ) (hc : clashes p q = false) : (∀ i, startGo q ≠ some (g, i)) ∧ (∀ i, sG q ≠ some (g, i)) := by
  obtain ⟨tm, x, rfl⟩ := h
  constructor
  · intro i e; unfold startGo at e; split at e <;> simp at e; obtain ⟨rfl, rfl⟩ := e; simp [clashes, conflict, uses] at hc
  · intro i e; unfold sG at e; split at e <;> simp at e; obtain ⟨rfl, rfl⟩ := e; simp [clashes, conflict, uses] at hc

theorem waitOk_wait {p : PC} {g : Gid} (h : waitOk p = some g) : ∃ tm x, p = .on (.wait g tm) x := by
  unfold waitOk at h; split at h <;> simp at h; subst h; exact ⟨_, _, rfl⟩

theorem WDone.step {n : Nat} {s s' : XSt} {tr ev : List XEv} {a : XAct} (I : Own1 n s.b) (J : Own2 s.b tr) (L : WLink s.b) (N : Note s.b) (D : WDone s.b) (h : TPE.step s a = some (s', ev)) : WDone s'.b := by
  intro t g i hw ho
  rcases waitFrom h hw with hw' | ⟨e1, e2, tm, hh⟩
  · have hwt := waitOk_wait hw'
    rcases guardFrom h ho with ⟨h1, h2⟩ | ⟨u, hc, hu⟩
    · exact h2 (D t g i hw' h1)
    · have e : t ≠ u := by rintro rfl; obtain ⟨tm, x, hx⟩ := hwt; rw [hx] at hu; simp [startGo] at hu
      exact absurd hu ((waitOk_clash hwt (I.ex t u e)).1 i)
  · rw [e1] at ho; rw [e2]
    have hx : ∃ tm x, s.b.pc t = .on (.wait g tm) x := by rcases hh with h | ⟨_, h⟩ <;> exact ⟨_, _, h.1⟩
    have hg : s.b.guard g = some i := by
      rcases J.go i g ho with ⟨u, hu⟩ | h
      · have e : t ≠ u := by rintro rfl; obtain ⟨tm, x, hx⟩ := hx; rw [hx] at hu; simp [sG] at hu
        exact absurd hu ((waitOk_clash hx (I.ex t u e)).2 i)
      · exact h.1
    rcases hh with ⟨_, h⟩ | ⟨j, h1, h2⟩
    · rw [hg] at h; simp at h
    · have := L t g j (by rw [h1]; rfl)
      rw [hg] at this; injection this with this; subst this
      exact (N.a2 i h2).1

theorem wdone {n : Nat} {d : Int} {s : XSt} {tr : List XEv} (h : Reach TPE.step (TPE.init n d) s tr) (hq : ∀ x, x ∈ tr → isSilent x = false) : WDone s.b := by
  induction h with
  | init => intro t g i h; simp [TPE.init, TP.init, waitOk] at h
  | @step s tr a s' ev h1 hs ih =>
    have Q := Quiet.reach h1
    have hq' := fun x hx => hq x (List.mem_append_left ev hx)
    exact WDone.step Q.o1 Q.o2 Q.lk (Q.nt hq').1 (ih hq') hs

/-- When a release returns, its guard is not valid. -/
def RDone (s : TP.St) : Prop := ∀ t g, relRet (s.pc t) = some g → s.guard g = none

theorem relRet_rel {p : PC} {g : Gid} (h : relRet p = some g) : ∃ o, p = .on (.release g) (.ret o) := by
  unfold relRet at h; split at h <;> simp at h; subst h; exact ⟨_, rfl⟩

theorem RDone.move {s s' : TP.St} {t : Tid} {p' : PC} (L : RDone s) (hpc : s'.pc = upd s.pc t p') (hg : s'.guard = s.guard) (h : ∀ g, relRet p' = some g → s.guard g = none) : RDone s' := by
  intro u g hu
  rw [hg]; rw [hpc] at hu
  by_cases e : u = t
  · subst e; rw [upd_same] at hu; exact h g hu
  · rw [upd_ne _ _ e] at hu; exact L u g hu

theorem RDone.same {s s' : TP.St} (L : RDone s) (hpc : s'.pc = s.pc) (hg : s'.guard = s.guard) : RDone s' := by
  intro u g hu; rw [hg]; rw [hpc] at hu; exact L u g hu

theorem RDone.step {n : Nat} {s s' : XSt} {ev : List XEv} {a : XAct} (I : Own1 n s.b) (L : RDone s.b) (h : TPE.step s a = some (s', ev)) : RDone s'.b := by
  cases a with
  | fail t e =>
    simp only [TPE.step] at h
    (repeat' split at h) <;> simp only [Option.some.injEq, Prod.mk.injEq, reduceCtorEq] at h <;> obtain ⟨rfl, rfl⟩ := h <;>
      exact L.move (t := t) rfl rfl (by simp [relRet])
  | pfail t e =>
    simp only [TPE.step] at h
    (repeat' split at h) <;> simp only [Option.some.injEq, Prod.mk.injEq, reduceCtorEq] at h <;> obtain ⟨rfl, rfl⟩ := h <;> exact L.same rfl rfl
  | base a =>
    simp only [TPE.step] at h
    split at h <;> simp only [Option.some.injEq, Prod.mk.injEq, reduceCtorEq] at h
    next h1 =>
    obtain ⟨rfl, rfl⟩ := h
    cases a with
    | go t =>
      simp only [TP.step] at h1
      split at h1
      · simp at h1
      next c p hp =>
      (repeat' split at h1) <;> simp only [Option.some.injEq, Prod.mk.injEq, reduceCtorEq] at h1 <;> obtain ⟨rfl, _⟩ := h1
      case h_8 g _ i _ =>
        cases g with
        | none => exact L.move (t := t) rfl rfl (by simp [relRet])
        | some g =>
          intro u g' hu
          simp only [TP.St.at] at hu
          by_cases e : u = t
          · subst e; rw [upd_same] at hu; simp [relRet] at hu
          · rw [upd_ne _ _ e] at hu
            obtain ⟨o, hx⟩ := relRet_rel hu
            have := I.ex u t e
            rw [hx, hp] at this
            have eg : g' ≠ g := by rintro rfl; simp [clashes, conflict, uses] at this
            simp only [TP.setGuard]; rw [upd_ne _ _ eg]; exact L u g' hu
      case h_15 g _ =>
        intro u g' hu
        simp only [TP.St.at] at hu ⊢
        by_cases eg : g' = g
        · subst eg; simp
        · by_cases e : u = t
          · subst e; rw [upd_same] at hu; simp [relRet] at hu; exact absurd hu.symm eg
          · rw [upd_ne _ _ e] at hu; rw [upd_ne _ _ eg]; exact L u g' hu
      all_goals first
        | exact L.same rfl rfl
        | (refine L.move (t := t) rfl rfl ?_; simp [relRet]; done)
        | (refine L.move (t := t) rfl rfl ?_; simp [relRet]; assumption)
    | call t c =>
      simp only [TP.step] at h1
      split at h1 <;> simp only [Option.some.injEq, Prod.mk.injEq, reduceCtorEq] at h1
      obtain ⟨rfl, rfl⟩ := h1
      exact L.move (t := t) rfl rfl (by cases c <;> simp [relRet, TP.entry])
    | expire t =>
      simp only [TP.step] at h1
      (repeat' split at h1) <;> simp only [Option.some.injEq, Prod.mk.injEq, reduceCtorEq] at h1 <;> obtain ⟨rfl, rfl⟩ := h1 <;>
        exact L.move (t := t) rfl rfl (by simp [relRet])
    | pgo t =>
      simp only [TP.step] at h1
      (repeat' split at h1) <;> simp only [Option.some.injEq, Prod.mk.injEq, reduceCtorEq] at h1 <;> obtain ⟨rfl, rfl⟩ := h1 <;> exact L.same rfl rfl
    | throw t =>
      simp only [TP.step] at h1
      (repeat' split at h1) <;> simp only [Option.some.injEq, Prod.mk.injEq, reduceCtorEq] at h1 <;> obtain ⟨rfl, rfl⟩ := h1 <;> exact L.same rfl rfl

theorem rdone {n : Nat} {d : Int} {s : XSt} {tr : List XEv} (h : Reach TPE.step (TPE.init n d) s tr) : RDone s.b :=
  (Reach.inv (I := fun s _ => Own1 n s.b ∧ RDone s.b) ⟨Own1.init n d, by intro t g h; simp [TPE.init, TP.init, relRet] at h⟩
    (fun _ _ _ _ _ hi hs => ⟨hi.1.step hs, RDone.step hi.1 hi.2 hs⟩) h).2

/-- release, isValid and destroy return what they always return. -/
def relPos : PC → Bool
  | .on (.release _) (.ret o) => o == .done
  | _ => true

theorem relPos_reach {n : Nat} {d : Int} {s : XSt} {tr : List XEv} (h : Reach TPE.step (TPE.init n d) s tr) (t : Tid) : relPos (s.b.pc t) = true := by
  refine Reach.inv (I := fun s _ => relPos (s.b.pc t) = true) rfl (fun s tr a s' ev hi hs => ?_) h
  by_cases ht : client a = some t
  · cases a with
    | fail u e =>
      simp only [client, Option.some.injEq] at ht; subst ht
      simp only [TPE.step] at hs
      (repeat' split at hs) <;> simp only [Option.some.injEq, Prod.mk.injEq, reduceCtorEq] at hs <;> obtain ⟨rfl, rfl⟩ := hs <;>
        simp [giveUp, TP.St.at, TP.St.ownAt, relPos]
    | pfail u e => simp [client] at ht
    | base a =>
      simp only [TPE.step] at hs
      split at hs <;> simp only [Option.some.injEq, Prod.mk.injEq, reduceCtorEq] at hs
      next b' l h1 =>
      obtain ⟨rfl, rfl⟩ := hs
      cases a with
      | pgo j => simp [client] at ht
      | throw j => simp [client] at ht
      | call u c =>
        simp only [client, Option.some.injEq] at ht; subst ht
        simp only [TP.step] at h1
        split at h1 <;> simp only [Option.some.injEq, Prod.mk.injEq, reduceCtorEq] at h1; obtain ⟨rfl, rfl⟩ := h1
        cases c <;> simp [TP.St.at, TP.entry, relPos]
      | expire u =>
        simp only [client, Option.some.injEq] at ht; subst ht
        simp only [TP.step] at h1
        (repeat' split at h1) <;> simp only [Option.some.injEq, Prod.mk.injEq, reduceCtorEq] at h1 <;> obtain ⟨rfl, rfl⟩ := h1 <;>
          simp [TP.St.at, TP.St.ownAt, relPos]
      | go u =>
        simp only [client, Option.some.injEq] at ht; subst ht
        simp only [TP.step] at h1
        (repeat' split at h1) <;> simp only [Option.some.injEq, Prod.mk.injEq, reduceCtorEq] at h1 <;> obtain ⟨rfl, rfl⟩ := h1 <;>
          simp [TP.St.at, TP.St.ownAt, TP.St.wAt, TP.St.evAt, relPos, *]
  · rw [(step_other hs ht).1]; exact hi

theorem relDone {n : Nat} {d : Int} {s : XSt} {tr : List XEv} (h : Reach TPE.step (TPE.init n d) s tr) {t : Tid} {g : Gid} {o : TP.Out} (hp : s.b.pc t = .on (.release g) (.ret o)) :
    o = .done := by
  have := relPos_reach h t
  rw [hp] at this; simpa [relPos] using this

/-! destroy -/

def resting : W → Bool
  | .finished | .dead => true
  | _ => false
def bnd (n : Nat) : Pos → Nat
  | .dWait j => j
  | _ => n
def inDestroy : PC → Option Pos
  | .on .destroy p => some p
  | _ => none

/-- While destroy is in progress, nothing else is, and the threads it has waited for are finished (if its waits do not fail). -/
def DInv (n : Nat) (s : TP.St) : Prop := ∀ t p, inDestroy (s.pc t) = some p → s.dying = some t ∧ (∀ u, u ≠ t → s.pc u = .idle) ∧ ∀ i, i < bnd n p → resting (s.w i) = true

theorem inDestroy_eq {q : PC} {p : Pos} (h : inDestroy q = some p) : q = .on .destroy p := by
  unfold inDestroy at h; split at h <;> simp at h; subst h; rfl

theorem DInv.pool {n : Nat} {s s' : TP.St} (D : DInv n s) (hpc : s'.pc = s.pc) (hd : s'.dying = s.dying) (h : ∀ i, resting (s.w i) = true → resting (s'.w i) = true) : DInv n s' := by
  intro t p ht; rw [hpc] at ht; obtain ⟨h1, h2, h3⟩ := D t p ht
  exact ⟨hd.trans h1, fun u hu => by rw [hpc]; exact h2 u hu, fun i hi => h i (h3 i hi)⟩

theorem DInv.go {n : Nat} {s s' : TP.St} {l : List Ev} {t : Tid} (I : Own1 n s) (D : DInv n s) (h : TP.step s (.go t) = some (s', l)) : DInv n s' := by
  have hn := I.cn
  intro u p hu
  by_cases e : u = t
  · subst e
    have hd : ∃ q, s.pc u = .on .destroy q := by
      have hu := inDestroy_eq hu
      simp only [TP.step] at h
      (repeat' split at h) <;> simp only [Option.some.injEq, Prod.mk.injEq, reduceCtorEq] at h <;> obtain ⟨rfl, _⟩ := h <;>
        simp [TP.St.at, TP.St.wAt, TP.St.ownAt, TP.St.evAt, *] at hu
      all_goals exact ⟨_, by assumption⟩
    obtain ⟨q, hq⟩ := hd
    obtain ⟨d1, d2, d3⟩ := D u q (by rw [hq]; rfl)
    simp only [TP.step, hq] at h
    cases q <;> simp only [reduceCtorEq] at h <;> (repeat' split at h) <;> simp only [Option.some.injEq, Prod.mk.injEq, reduceCtorEq] at h <;> obtain ⟨rfl, _⟩ := h
    · next j hj hw _ =>
      simp [TP.St.at, inDestroy] at hu; subst hu
      refine ⟨d1, fun v hv => by simp [TP.St.at, upd_ne _ _ hv, d2 v hv], fun i hi => ?_⟩
      rcases Nat.lt_or_eq_of_le (Nat.lt_succ_iff.1 hi) with h | h
      · exact d3 i h
      · subst h; show resting (s.w i) = true; rw [hw]; rfl
    · next j hj _ =>
      simp [TP.St.at, inDestroy] at hu; subst hu
      refine ⟨d1, fun v hv => by simp [TP.St.at, upd_ne _ _ hv, d2 v hv], fun i hi => d3 i ?_⟩
      have : n ≤ j := by rw [← hn]; exact Nat.le_of_not_lt hj
      exact Nat.lt_of_lt_of_le hi this
    · next j rest hfr hw _ =>
      simp [TP.St.wAt, TP.St.ownAt, hq, inDestroy] at hu; subst hu
      refine ⟨d1, fun v hv => d2 v hv, fun i hi => ?_⟩
      simp only [TP.St.wAt, TP.St.ownAt]
      by_cases e : i = j
      · subst e; simp [resting]
      · rw [upd_ne _ _ e]; exact d3 i hi
    · simp [TP.St.at, inDestroy] at hu; subst hu
      exact ⟨d1, fun v hv => by simp [TP.St.at, upd_ne _ _ hv, d2 v hv], d3⟩
    · simp [inDestroy] at hu
  · have hpu : s'.pc u = s.pc u := by
      simp only [TP.step] at h
      (repeat' split at h) <;> simp only [Option.some.injEq, Prod.mk.injEq, reduceCtorEq] at h <;> obtain ⟨rfl, _⟩ := h <;>
        simp [TP.St.at, TP.St.wAt, TP.St.ownAt, TP.St.evAt, upd_ne _ _ e]
    rw [hpu] at hu
    have := (D u p hu).2.1 t (Ne.symm e)
    simp [TP.step, this] at h

theorem DInv.step {n : Nat} {s s' : XSt} {ev : List XEv} {a : XAct} (I : Own1 n s.b) (D : DInv n s.b) (h : TPE.step s a = some (s', ev)) (hq : ∀ t e, .failed t .destroy e ∉ ev) : DInv n s'.b := by
  cases a with
  | fail t e =>
    intro u p hu
    by_cases e : u = t
    · subst e
      have hu := inDestroy_eq hu
      simp only [TPE.step] at h
      (repeat' split at h) <;> simp only [Option.some.injEq, Prod.mk.injEq, reduceCtorEq] at h <;> obtain ⟨rfl, rfl⟩ := h <;>
        simp [giveUp, TP.St.at, TP.St.ownAt] at hu hq
    · rw [(step_other h (by simp [client, Ne.symm e])).1] at hu
      have := (D u p hu).2.1 t (Ne.symm e)
      simp [TPE.step, this] at h
  | pfail t e =>
    simp only [TPE.step] at h
    (repeat' split at h) <;> simp only [Option.some.injEq, Prod.mk.injEq, reduceCtorEq] at h <;> obtain ⟨rfl, rfl⟩ := h <;>
      refine D.pool rfl rfl ?_ <;> simp only [TP.St.wAt, TP.St.ownAt] <;> grind [upd, resting]
  | base a =>
    simp only [TPE.step] at h
    split at h <;> simp only [Option.some.injEq, Prod.mk.injEq, reduceCtorEq] at h
    next h1 =>
    obtain ⟨rfl, rfl⟩ := h
    cases a with
    | go t => exact DInv.go I D h1
    | call t c =>
      simp only [TP.step] at h1
      split at h1 <;> simp only [Option.some.injEq, Prod.mk.injEq, reduceCtorEq] at h1
      next hc =>
      obtain ⟨_, _, hdy, hin, _, _⟩ := hc
      obtain ⟨rfl, rfl⟩ := h1
      intro u p hu
      by_cases e : u = t
      · subst e
        simp [TP.St.at] at hu
        have := inDestroy_eq hu
        simp at this
        obtain ⟨rfl, rfl⟩ := this
        refine ⟨by simp, fun v hv => ?_, fun i hi => absurd hi (Nat.not_lt_zero _)⟩
        simp [TP.St.at, upd_ne _ _ hv]
        have := I.ins v; rw [hin rfl] at this; simpa using this
      · simp [TP.St.at, upd_ne _ _ e] at hu
        have := (D u p hu).1; rw [hdy] at this; simp at this
    | expire t =>
      intro u p hu
      by_cases e : u = t
      · subst e
        have hu := inDestroy_eq hu
        simp only [TP.step] at h1
        (repeat' split at h1) <;> simp only [Option.some.injEq, Prod.mk.injEq, reduceCtorEq] at h1 <;> obtain ⟨rfl, rfl⟩ := h1 <;>
          simp [TP.St.at, TP.St.ownAt] at hu
      · have hpu : _ = s.b.pc u := (step_other (s := s) (a := .base (.expire t)) (u := u) (by simp only [TPE.step, h1]; rfl) (by simp [client, Ne.symm e])).1
        rw [hpu] at hu
        have := (D u p hu).2.1 t (Ne.symm e)
        simp [TP.step, this] at h1
    | pgo t =>
      simp only [TP.step] at h1
      (repeat' split at h1) <;> simp only [Option.some.injEq, Prod.mk.injEq, reduceCtorEq] at h1 <;> obtain ⟨rfl, rfl⟩ := h1 <;>
        refine D.pool rfl rfl ?_ <;> simp only [TP.St.wAt, TP.St.ownAt, TP.St.evAt] <;> grind [upd, resting]
    | throw t =>
      simp only [TP.step] at h1
      (repeat' split at h1) <;> simp only [Option.some.injEq, Prod.mk.injEq, reduceCtorEq] at h1 <;> obtain ⟨rfl, rfl⟩ := h1 <;>
        refine D.pool rfl rfl ?_ <;> simp only [TP.St.wAt, TP.St.ownAt, TP.St.evAt] <;> grind [upd, resting]

theorem ddone {n : Nat} {d : Int} {s : XSt} {tr : List XEv} (h : Reach TPE.step (TPE.init n d) s tr) (hq : ∀ t e, .failed t .destroy e ∉ tr) : DInv n s.b := by
  induction h with
  | init => intro t p h; simp [TPE.init, TP.init, inDestroy] at h
  | @step s tr a s' ev h1 hs ih =>
    exact DInv.step (Own1.reach h1) (ih fun t e hm => hq t e (List.mem_append_left ev hm)) hs (fun t e hm => hq t e (List.mem_append_right tr hm))

/-! destroy, some of whose waits fail -/

/-- How many of the pool threads below `k` are not at rest. -/
def busy (w : Rid → W) (k : Nat) : Nat := (List.range k).countP fun i => !resting (w i)
def isFD : XEv → Bool
  | .failed _ .destroy _ => true
  | _ => false

theorem busy_mono {w w' : Rid → W} {k : Nat} (h : ∀ i, resting (w i) = true → resting (w' i) = true) : busy w' k ≤ busy w k := by
  refine List.countP_mono_left fun i _ hi => ?_
  have := h i; cases h1 : resting (w i) <;> cases h2 : resting (w' i) <;> simp_all
theorem busy_succ (w : Rid → W) (k : Nat) : busy w (k + 1) = busy w k + if resting (w k) then 0 else 1 := by
  unfold busy; rw [List.range_succ, List.countP_append]; cases h : resting (w k) <;> simp [h]
theorem busy_le {w : Rid → W} {j k : Nat} (h : j ≤ k) : busy w j ≤ busy w k := by
  induction h with
  | refl => exact Nat.le_refl _
  | step _ ih => rw [busy_succ]; omega

def CInv (n : Nat) (s : TP.St) (k : Nat) : Prop := ∀ t p, inDestroy (s.pc t) = some p → s.dying = some t ∧ (∀ u, u ≠ t → s.pc u = .idle) ∧ busy s.w (bnd n p) ≤ k

theorem CInv.pool {n k : Nat} {s s' : TP.St} (D : CInv n s k) (hpc : s'.pc = s.pc) (hd : s'.dying = s.dying) (h : ∀ i, resting (s.w i) = true → resting (s'.w i) = true) : CInv n s' k := by
  intro t p ht; rw [hpc] at ht; obtain ⟨h1, h2, h3⟩ := D t p ht
  exact ⟨hd.trans h1, fun u hu => by rw [hpc]; exact h2 u hu, Nat.le_trans (busy_mono h) h3⟩

theorem CInv.go {n k : Nat} {s s' : TP.St} {l : List Ev} {t : Tid} (I : Own1 n s) (D : CInv n s k) (h : TP.step s (.go t) = some (s', l)) : CInv n s' k := by
  have hn := I.cn
  intro u p hu
  by_cases e : u = t
  · subst e
    have hd : ∃ q, s.pc u = .on .destroy q := by
      have hu := inDestroy_eq hu
      simp only [TP.step] at h
      (repeat' split at h) <;> simp only [Option.some.injEq, Prod.mk.injEq, reduceCtorEq] at h <;> obtain ⟨rfl, _⟩ := h <;>
        simp [TP.St.at, TP.St.wAt, TP.St.ownAt, TP.St.evAt, *] at hu
      all_goals exact ⟨_, by assumption⟩
    obtain ⟨q, hq⟩ := hd
    obtain ⟨d1, d2, d3⟩ := D u q (by rw [hq]; rfl)
    simp only [TP.step, hq] at h
    cases q <;> simp only [reduceCtorEq] at h <;> (repeat' split at h) <;> simp only [Option.some.injEq, Prod.mk.injEq, reduceCtorEq] at h <;> obtain ⟨rfl, _⟩ := h
    · next j hj hw _ =>
      simp [TP.St.at, inDestroy] at hu; subst hu
      refine ⟨d1, fun v hv => by simp [TP.St.at, upd_ne _ _ hv, d2 v hv], ?_⟩
      show busy s.w (j + 1) ≤ k
      rw [busy_succ, hw]; exact d3
    · next j hj _ =>
      simp [TP.St.at, inDestroy] at hu; subst hu
      refine ⟨d1, fun v hv => by simp [TP.St.at, upd_ne _ _ hv, d2 v hv], Nat.le_trans (busy_le ?_) d3⟩
      show n ≤ j
      rw [← hn]; exact Nat.le_of_not_lt hj
    · next j rest hfr hw _ =>
      simp [TP.St.wAt, TP.St.ownAt, hq, inDestroy] at hu; subst hu
      refine ⟨d1, fun v hv => d2 v hv, Nat.le_trans (busy_mono fun i hi => ?_) d3⟩
      simp only [TP.St.wAt, TP.St.ownAt]
      by_cases e : i = j
      · subst e; simp [resting]
      · rw [upd_ne _ _ e]; exact hi
    · simp [TP.St.at, inDestroy] at hu; subst hu
      exact ⟨d1, fun v hv => by simp [TP.St.at, upd_ne _ _ hv, d2 v hv], d3⟩
    · simp [inDestroy] at hu
  · have hpu : s'.pc u = s.pc u := by
      simp only [TP.step] at h
      (repeat' split at h) <;> simp only [Option.some.injEq, Prod.mk.injEq, reduceCtorEq] at h <;> obtain ⟨rfl, _⟩ := h <;>
        simp [TP.St.at, TP.St.wAt, TP.St.ownAt, TP.St.evAt, upd_ne _ _ e]
    rw [hpu] at hu
    have := (D u p hu).2.1 t (Ne.symm e)
    simp [TP.step, this] at h

theorem CInv.le {n k k' : Nat} {s : TP.St} (D : CInv n s k) (h : k ≤ k') : CInv n s k' := fun t p hp =>
  ⟨(D t p hp).1, (D t p hp).2.1, Nat.le_trans (D t p hp).2.2 h⟩

theorem CInv.step {n k : Nat} {s s' : XSt} {ev : List XEv} {a : XAct} (I : Own1 n s.b) (D : CInv n s.b k) (h : TPE.step s a = some (s', ev)) : CInv n s'.b (k + ev.countP isFD) := by
  cases a with
  | fail t e =>
    intro u p hu
    by_cases e : u = t
    · subst e
      have hd : ∃ q, s.b.pc u = .on .destroy q := by
        have hu := inDestroy_eq hu
        simp only [TPE.step] at h
        (repeat' split at h) <;> simp only [Option.some.injEq, Prod.mk.injEq, reduceCtorEq] at h <;> obtain ⟨rfl, _⟩ := h <;>
          simp [giveUp, TP.St.at, TP.St.ownAt] at hu
        all_goals exact ⟨_, by assumption⟩
      obtain ⟨q, hq⟩ := hd
      obtain ⟨d1, d2, d3⟩ := D u q (by rw [hq]; rfl)
      simp only [TPE.step, hq] at h
      (repeat' split at h) <;> simp only [Option.some.injEq, Prod.mk.injEq, reduceCtorEq] at h <;> obtain ⟨rfl, rfl⟩ := h <;>
        (try contradiction) <;> simp [TP.St.at, inDestroy] at hu <;> subst hu
      · rename_i j _ _
        refine ⟨d1, fun v hv => by simp [TP.St.at, upd_ne _ _ hv, d2 v hv], ?_⟩
        show busy s.b.w (j + 1) ≤ _
        rw [busy_succ]
        have : busy s.b.w j ≤ k := d3
        simp [isFD]; split <;> omega
      · exact ⟨d1, fun v hv => by simp [TP.St.at, upd_ne _ _ hv, d2 v hv], Nat.le_trans d3 (Nat.le_add_right _ _)⟩
    · rw [(step_other h (by simp [client, Ne.symm e])).1] at hu
      have := (D u p hu).2.1 t (Ne.symm e)
      simp [TPE.step, this] at h
  | pfail t e =>
    refine CInv.le (k := k) ?_ (Nat.le_add_right _ _)
    simp only [TPE.step] at h
    (repeat' split at h) <;> simp only [Option.some.injEq, Prod.mk.injEq, reduceCtorEq] at h <;> obtain ⟨rfl, rfl⟩ := h <;>
      refine D.pool rfl rfl ?_ <;> simp only [TP.St.wAt, TP.St.ownAt] <;> grind [upd, resting]
  | base a =>
    refine CInv.le (k := k) ?_ (Nat.le_add_right _ _)
    simp only [TPE.step] at h
    split at h <;> simp only [Option.some.injEq, Prod.mk.injEq, reduceCtorEq] at h
    next h1 =>
    obtain ⟨rfl, rfl⟩ := h
    cases a with
    | go t => exact CInv.go I D h1
    | call t c =>
      simp only [TP.step] at h1
      split at h1 <;> simp only [Option.some.injEq, Prod.mk.injEq, reduceCtorEq] at h1
      next hc =>
      obtain ⟨_, _, hdy, hin, _, _⟩ := hc
      obtain ⟨rfl, rfl⟩ := h1
      intro u p hu
      by_cases e : u = t
      · subst e
        simp [TP.St.at] at hu
        have := inDestroy_eq hu
        simp at this
        obtain ⟨rfl, rfl⟩ := this
        refine ⟨by simp, fun v hv => ?_, Nat.zero_le _⟩
        simp [TP.St.at, upd_ne _ _ hv]
        have := I.ins v; rw [hin rfl] at this; simpa using this
      · simp [TP.St.at, upd_ne _ _ e] at hu
        have := (D u p hu).1; rw [hdy] at this; simp at this
    | expire t =>
      intro u p hu
      by_cases e : u = t
      · subst e
        have hu := inDestroy_eq hu
        simp only [TP.step] at h1
        (repeat' split at h1) <;> simp only [Option.some.injEq, Prod.mk.injEq, reduceCtorEq] at h1 <;> obtain ⟨rfl, rfl⟩ := h1 <;>
          simp [TP.St.at, TP.St.ownAt] at hu
      · have hpu : _ = s.b.pc u := (step_other (s := s) (a := .base (.expire t)) (u := u) (by simp only [TPE.step, h1]; rfl) (by simp [client, Ne.symm e])).1
        rw [hpu] at hu
        have := (D u p hu).2.1 t (Ne.symm e)
        simp [TP.step, this] at h1
    | pgo t =>
      simp only [TP.step] at h1
      (repeat' split at h1) <;> simp only [Option.some.injEq, Prod.mk.injEq, reduceCtorEq] at h1 <;> obtain ⟨rfl, rfl⟩ := h1 <;>
        refine D.pool rfl rfl ?_ <;> simp only [TP.St.wAt, TP.St.ownAt, TP.St.evAt] <;> grind [upd, resting]
    | throw t =>
      simp only [TP.step] at h1
      (repeat' split at h1) <;> simp only [Option.some.injEq, Prod.mk.injEq, reduceCtorEq] at h1 <;> obtain ⟨rfl, rfl⟩ := h1 <;>
        refine D.pool rfl rfl ?_ <;> simp only [TP.St.wAt, TP.St.ownAt, TP.St.evAt] <;> grind [upd, resting]

theorem cdone {n : Nat} {d : Int} {s : XSt} {tr : List XEv} (h : Reach TPE.step (TPE.init n d) s tr) : CInv n s.b (tr.countP isFD) := by
  induction h with
  | init => intro t p h; simp [TPE.init, TP.init, inDestroy] at h
  | @step s tr a s' ev h1 hs ih =>
    rw [List.countP_append]; exact CInv.step (Own1.reach h1) ih hs
end Verif.TPE
