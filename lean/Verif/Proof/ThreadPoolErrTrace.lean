import Verif.Proof.ThreadPoolErr
import Verif.Proof.ThreadPoolTrace
/-
What the trace of a thread pool whose operating system calls may fail says.
-/
namespace Verif.TPE
open Verif
open _root_.Verif.Mtx (Tid Err)
open _root_.Verif.EvF (Tmo)
open _root_.Verif.Lts (Reach)
open _root_.Verif.TP (Gid Rid Task Call PC Pos W Own Ev hold rhold conflict uses)
open Spec
set_option linter.unusedSimpArgs false

theorem plain_app (a b : List XEv) : plain (a ++ b) = plain a ++ plain b := by simp [plain]
theorem xphase_app (n : Nat) (d : Int) (i : Rid) (a b : List Ev) : xphase n d i (a ++ b) = b.foldl (XP.next d i) (xphase n d i a) := by simp [xphase]

def absX (s : TP.St) (i : Rid) : XP := match s.w i with
  | .finished => .rest
  | .pending => (match s.task i with | some k => .accepted k (s.prio i) | none => .bad)
  | .inTask k => .running k
  | .prio x => .ended x
  | .branch x | .notify x | .reset x | .send x | .leave x => .reset x
  | .over => .reset false
  | .dead => .dead

/-- The invariant: what the trace says about the threads, and that a started thread has a task. -/
structure Tr1 (n : Nat) (d : Int) (s : TP.St) (tr : List XEv) : Prop where
  df : s.dflt = d
  ph : ∀ i, xphase n d i (plain tr) = absX s i
  ne : ∀ i, absX s i ≠ .bad

theorem Tr1.init (n : Nat) (d : Int) : Tr1 n d (TP.init n d) [] := by
  refine ⟨rfl, ?_, ?_⟩ <;> intro i <;> by_cases h : i < n <;> simp [TP.init, xphase, absX, plain, h]

/-- Steps on which no event about threads happens. -/
theorem Tr1.same {n : Nat} {d : Int} {s s' : TP.St} {tr ev : List XEv} (T : Tr1 n d s tr) (hd : s'.dflt = s.dflt) (h : ∀ i, absX s' i = absX s i)
    (he : ∀ e, e ∈ plain ev → ∀ i r, XP.next d i r e = r) : Tr1 n d s' (tr ++ ev) := by
  refine ⟨hd.trans T.df, fun i => ?_, fun i => by rw [h]; exact T.ne i⟩
  rw [plain_app, xphase_app, h, T.ph i]
  exact TP.fold_same fun e hm r => he e hm i r

theorem plain_events (s : XSt) (l : List Ev) : plain (events s l) = l.filter fun e => match e with | .ret t _ _ => (s.err t).isNone | _ => true := by
  induction l with
  | nil => rfl
  | cons e l ih =>
    cases e <;> simp [plain, events, List.filterMap_cons, List.filter_cons] at ih ⊢ <;> (try rw [ih])
    rename_i t c o
    cases h : s.err t <;> simp [ih]

/-- A step without errors; returns are as they are. -/
theorem Tr1.base {n : Nat} {d : Int} {s : XSt} {b' : TP.St} {tr : List XEv} {l : List Ev} {a : TP.Act} (T : Tr1 n d s.b tr) (I : Own1 n s.b)
    (h : TP.step s.b a = some (b', l)) : Tr1 n d b' (tr ++ events s l) := by
  obtain ⟨df, ph, ne⟩ := T
  have hf : ∀ t i, holdF (s.b.pc t) = some i → s.b.w i = .finished := I.hf
  have hcd : ∀ t, CData s.b (s.b.pc t) := I.cd
  suffices h : b'.dflt = s.b.dflt ∧ ∀ j, (plain (events s l)).foldl (XP.next d j) (absX s.b j) = absX b' j ∧ absX b' j ≠ .bad from
    ⟨h.1.trans df, fun j => by rw [plain_app, xphase_app, ph j]; exact (h.2 j).1, fun j => (h.2 j).2⟩
  rw [plain_events]
  cases a with
  | call t c =>
    simp only [TP.step] at h
    split at h <;> simp only [Option.some.injEq, Prod.mk.injEq, reduceCtorEq] at h; obtain ⟨rfl, rfl⟩ := h
    exact ⟨rfl, fun j => ⟨by simp [XP.next]; rfl, ne j⟩⟩
  | expire t =>
    simp only [TP.step] at h
    (repeat' split at h) <;> simp only [Option.some.injEq, Prod.mk.injEq, reduceCtorEq] at h <;> obtain ⟨rfl, rfl⟩ := h <;>
    exact ⟨rfl, fun j => ⟨by simp [XP.next]; rfl, ne j⟩⟩
  | pgo i =>
    simp only [TP.step] at h
    (repeat' split at h) <;> simp only [Option.some.injEq, Prod.mk.injEq, reduceCtorEq] at h <;> obtain ⟨rfl, rfl⟩ := h <;>
      refine ⟨rfl, fun j => ?_⟩ <;> have nj := ne j <;> clear ne ph hf hcd I <;> by_cases e : j = i <;>
      first
        | (subst e; simp_all [XP.next, absX, TP.St.wAt, TP.St.ownAt, TP.St.evAt]; done)
        | (simp_all [XP.next, absX, TP.St.wAt, TP.St.ownAt, TP.St.evAt, upd_ne _ _ e, Ne.symm e, Ne.symm (Ne.symm e)]; done)
        | skip
  | throw i =>
    simp only [TP.step] at h
    (repeat' split at h) <;> simp only [Option.some.injEq, Prod.mk.injEq, reduceCtorEq] at h <;> obtain ⟨rfl, rfl⟩ := h <;>
      refine ⟨rfl, fun j => ?_⟩ <;> have nj := ne j <;> clear ne ph hf hcd I <;> by_cases e : j = i <;>
      first
        | (subst e; simp_all [XP.next, absX, TP.St.wAt, TP.St.ownAt, TP.St.evAt]; done)
        | (simp_all [XP.next, absX, TP.St.wAt, TP.St.ownAt, TP.St.evAt, upd_ne _ _ e, Ne.symm e, Ne.symm (Ne.symm e)]; done)
        | skip
  | go t =>
    have hft := hf t
    have hct := hcd t
    simp only [TP.step] at h
    (repeat' split at h) <;> simp only [Option.some.injEq, Prod.mk.injEq, reduceCtorEq] at h <;> obtain ⟨rfl, rfl⟩ := h <;>
      refine ⟨rfl, fun j => ?_⟩ <;> have nj := ne j <;>
      (try (exact ⟨by simp [XP.next]; rfl, ne j⟩))
    case h_5 k _ _ _ i hp =>
      have hw := hft i (by rw [hp]; rfl)
      by_cases e : j = i
      · subst e; simp [absX, TP.St.at, hw]
      · simpa [absX, TP.St.at, upd_ne _ _ e] using nj
    case h_6 i hp =>
      have hw := hft i (by rw [hp]; rfl)
      by_cases e : j = i
      · subst e; simp [absX, TP.St.at, hw]
      · simpa [absX, TP.St.at, upd_ne _ _ e] using nj
    case h_7.isTrue k _ g p i hp hw =>
      rw [hp] at hct
      obtain ⟨c1, c2, c3⟩ := hct
      by_cases e : j = i
      · subst e; simp [absX, TP.St.at, TP.St.wAt, TP.St.ownAt, hw, c1, c3, XP.next]
      · simpa [absX, TP.St.at, TP.St.wAt, TP.St.ownAt, upd_ne _ _ e, XP.next, Ne.symm e] using nj
    case h_1.isTrue i rest hfr hw =>
      by_cases e : j = i
      · subst e; simp [absX, TP.St.at, TP.St.wAt, TP.St.ownAt, hw, XP.next]
      · simpa [absX, TP.St.at, TP.St.wAt, TP.St.ownAt, upd_ne _ _ e, XP.next, Ne.symm e] using nj
    case h_19 t2 c2 o2 hp2 =>
      refine ⟨?_, nj⟩
      simp only [List.filter_cons, List.filter_nil]
      split <;> rfl

theorem Tr1.fail {n : Nat} {d : Int} {s s' : XSt} {ev : List XEv} {tr : List XEv} {t : Tid} {e : Err} (T : Tr1 n d s.b tr)
    (h : TPE.step s (.fail t e) = some (s', ev)) : Tr1 n d s'.b (tr ++ ev) := by
  simp only [step] at h
  (repeat' split at h) <;> simp only [Option.some.injEq, Prod.mk.injEq, reduceCtorEq] at h <;> obtain ⟨rfl, rfl⟩ := h <;>
    exact T.same rfl (fun _ => rfl) (by simp [plain, XP.next])

theorem Tr1.pfail {n : Nat} {d : Int} {s s' : XSt} {ev : List XEv} {tr : List XEv} {i : Rid} {e : Err} (T : Tr1 n d s.b tr)
    (h : TPE.step s (.pfail i e) = some (s', ev)) : Tr1 n d s'.b (tr ++ ev) := by
  simp only [step] at h
  (repeat' split at h) <;> simp only [Option.some.injEq, Prod.mk.injEq, reduceCtorEq] at h <;> obtain ⟨rfl, rfl⟩ := h <;>
    (refine T.same rfl (fun j => ?_) (by simp [plain])
     by_cases e : j = i
     · subst e; simp_all [absX, TP.St.wAt, TP.St.ownAt]
     · simp [absX, TP.St.wAt, TP.St.ownAt, upd_ne _ _ e])

theorem Tr1.reach {n : Nat} {d : Int} {s : XSt} {tr : List XEv} (h : Reach TPE.step (TPE.init n d) s tr) : Tr1 n d s.b tr := by
  refine (Reach.inv (I := fun s tr => Own1 n s.b ∧ Tr1 n d s.b tr) ⟨Own1.init n d, Tr1.init n d⟩ (fun s tr a s' ev hi hs => ⟨hi.1.step hs, ?_⟩) h).2
  cases a with
  | fail t e => exact hi.2.fail hs
  | pfail t e => exact hi.2.pfail hs
  | base a =>
    simp only [TPE.step] at hs
    split at hs <;> simp only [Option.some.injEq, Prod.mk.injEq, reduceCtorEq] at hs
    obtain ⟨rfl, rfl⟩ := hs
    exact hi.2.base hi.1 (by assumption)

theorem Spec.Called.app {t : Tid} {c : Call} {tr ev : List XEv} (h : Called t c tr) (he : ∀ x, x ∈ ev → ofT t x = false) : Called t c (tr ++ ev) := by
  obtain ⟨a, b, rfl, hb⟩ := h
  refine ⟨a, b ++ ev, by simp, ?_⟩
  intro x hx; rcases List.mem_append.1 hx with h | h
  · exact hb x h
  · exact he x h

theorem Spec.Handed.app {t : Tid} {c : Call} {i : Rid} {tr ev : List XEv} (h : Handed t c i tr) (he : ∀ x, x ∈ ev → ofT t x = false) : Handed t c i (tr ++ ev) := by
  obtain ⟨a, b, b', k, tm, g, p, hc, rfl, hb, hb'⟩ := h
  refine ⟨a, b, b' ++ ev, k, tm, g, p, hc, by simp, hb, ?_⟩
  intro x hx; rcases List.mem_append.1 hx with h | h
  · exact hb' x h
  · exact he x h

/-- The start has handed over its task. -/
def handedPos : PC → Bool
  | .on (.start _ _ _ _) (.sGuard _) => true
  | .on (.start _ _ _ _) (.ret .ok) => true
  | _ => false
def isTimedOut : PC → Bool
  | .on _ (.ret .timedOut) => true
  | .idle => true
  | _ => false

structure Cl (s : XSt) (tr : List XEv) : Prop where
  er : ∀ t, s.err t ≠ none → isTimedOut (s.b.pc t) = true
  hd : ∀ t c p, s.b.pc t = .on c p → handedPos (s.b.pc t) = true → ∃ i, Handed t c i tr
  ca : ∀ t c p, s.b.pc t = .on c p → handedPos (s.b.pc t) = false → Called t c tr

def client : XAct → Option Tid
  | .base (.call t _) | .base (.go t) | .base (.expire t) | .fail t _ => some t
  | _ => none

theorem step_other {s s' : XSt} {ev : List XEv} {a : XAct} {u : Tid} (h : TPE.step s a = some (s', ev)) (hu : client a ≠ some u) :
    s'.b.pc u = s.b.pc u ∧ s'.err u = s.err u ∧ ∀ x, x ∈ ev → ofT u x = false := by
  cases a with
  | fail t e =>
    have e' : u ≠ t := fun h => hu (by simp [client, h])
    simp only [step] at h
    (repeat' split at h) <;> simp only [Option.some.injEq, Prod.mk.injEq, reduceCtorEq] at h <;> obtain ⟨rfl, rfl⟩ := h <;>
      simp [giveUp, TP.St.at, TP.St.ownAt, upd_ne _ _ e', ofT]
  | pfail t e =>
    simp only [step] at h
    (repeat' split at h) <;> simp only [Option.some.injEq, Prod.mk.injEq, reduceCtorEq] at h <;> obtain ⟨rfl, rfl⟩ := h <;>
      simp [TP.St.wAt, TP.St.ownAt, ofT]
  | base a =>
    simp only [TPE.step] at h
    split at h <;> simp only [Option.some.injEq, Prod.mk.injEq, reduceCtorEq] at h
    next b' l hb =>
    obtain ⟨rfl, rfl⟩ := h
    cases a with
    | call t c =>
      have e' : u ≠ t := fun h => hu (by simp [client, h])
      simp only [TP.step] at hb
      split at hb <;> simp only [Option.some.injEq, Prod.mk.injEq, reduceCtorEq] at hb; obtain ⟨rfl, rfl⟩ := hb
      simp [cleared, TP.St.at, upd_ne _ _ e', events, ofT, Ne.symm e']
    | go t =>
      have e' : u ≠ t := fun h => hu (by simp [client, h])
      simp only [TP.step] at hb
      (repeat' split at hb) <;> simp only [Option.some.injEq, Prod.mk.injEq, reduceCtorEq] at hb <;> obtain ⟨rfl, rfl⟩ := hb <;>
        simp [cleared, TP.St.at, TP.St.wAt, TP.St.ownAt, TP.St.evAt, upd_ne _ _ e', events, ofT, Ne.symm e']
      cases he : s.err t <;> simp [ofT, Ne.symm e']
    | expire t =>
      have e' : u ≠ t := fun h => hu (by simp [client, h])
      simp only [TP.step] at hb
      (repeat' split at hb) <;> simp only [Option.some.injEq, Prod.mk.injEq, reduceCtorEq] at hb <;> obtain ⟨rfl, rfl⟩ := hb <;>
        simp [cleared, TP.St.at, TP.St.wAt, TP.St.ownAt, TP.St.evAt, upd_ne _ _ e', events, ofT, Ne.symm e']
    | pgo i =>
      simp only [TP.step] at hb
      (repeat' split at hb) <;> simp only [Option.some.injEq, Prod.mk.injEq, reduceCtorEq] at hb <;> obtain ⟨rfl, rfl⟩ := hb <;>
        simp [cleared, TP.St.at, TP.St.wAt, TP.St.ownAt, TP.St.evAt, events, ofT]
    | throw i =>
      simp only [TP.step] at hb
      (repeat' split at hb) <;> simp only [Option.some.injEq, Prod.mk.injEq, reduceCtorEq] at hb <;> obtain ⟨rfl, rfl⟩ := hb <;>
        simp [cleared, TP.St.at, TP.St.wAt, TP.St.ownAt, TP.St.evAt, events, ofT]

/-- What a step of client `t` makes of what is known about `t`. -/
theorem step_own {n : Nat} {s s' : XSt} {tr ev : List XEv} {a : XAct} {t : Tid} (I : Own1 n s.b) (C : Cl s tr) (h : TPE.step s a = some (s', ev)) (ht : client a = some t) :
    (s'.err t ≠ none → isTimedOut (s'.b.pc t) = true) ∧
    (∀ c p, s'.b.pc t = .on c p → handedPos (s'.b.pc t) = true → ∃ i, Handed t c i (tr ++ ev)) ∧
    (∀ c p, s'.b.pc t = .on c p → handedPos (s'.b.pc t) = false → Called t c (tr ++ ev)) := by
  obtain ⟨er, hd, ca⟩ := C
  replace er := er t; replace hd := hd t; replace ca := ca t
  have hft := I.hf t
  cases a with
  | fail u e =>
    simp only [client, Option.some.injEq] at ht; subst ht
    simp only [step] at h
    (repeat' split at h) <;> simp only [Option.some.injEq, Prod.mk.injEq, reduceCtorEq] at h <;> obtain ⟨rfl, rfl⟩ := h
    all_goals
      rename_i hp
      have hca := ca _ _ (by assumption) (by simp [*, handedPos])
      simp_all [giveUp, TP.St.at, TP.St.ownAt, isTimedOut, handedPos]
      try (refine Called.app hca ?_; simp [ofT])
  | pfail u e => simp [client] at ht
  | base a =>
    simp only [TPE.step] at h
    split at h <;> simp only [Option.some.injEq, Prod.mk.injEq, reduceCtorEq] at h
    next b' l hb =>
    obtain ⟨rfl, rfl⟩ := h
    cases a with
    | call u c =>
      simp only [client, Option.some.injEq] at ht; subst ht
      simp only [TP.step] at hb
      split at hb <;> simp only [Option.some.injEq, Prod.mk.injEq, reduceCtorEq] at hb; obtain ⟨rfl, rfl⟩ := hb
      have : handedPos (.on c (TP.entry c)) = false := by cases c <;> simp [handedPos, TP.entry]
      simp [cleared, TP.St.at, events, this]
      exact ⟨tr, [], rfl, by simp⟩
    | pgo u => simp [client] at ht
    | throw u => simp [client] at ht
    | expire u =>
      simp only [client, Option.some.injEq] at ht; subst ht
      simp only [TP.step] at hb
      (repeat' split at hb) <;> simp only [Option.some.injEq, Prod.mk.injEq, reduceCtorEq] at hb <;> obtain ⟨rfl, rfl⟩ := hb
      all_goals
        have hca := ca _ _ (by assumption) (by simp [*, handedPos])
        simp_all [cleared, TP.St.at, TP.St.ownAt, isTimedOut, handedPos]
        try (refine Called.app hca ?_; simp [events, ofT])
    | go u =>
      simp only [client, Option.some.injEq] at ht; subst ht
      have er' : isTimedOut (s.b.pc u) = false → s.err u = none := by
        intro h; rcases he : s.err u with _ | e
        · rfl
        · have := er (by simp [he]); simp [h] at this
      simp only [TP.step] at hb
      (repeat' split at hb) <;> simp only [Option.some.injEq, Prod.mk.injEq, reduceCtorEq] at hb <;> obtain ⟨rfl, rfl⟩ := hb
      case h_7.isTrue k tm g p i hp hw =>
        have hca := ca _ _ hp (by simp [hp, handedPos])
        have hen := er' (by simp [hp, isTimedOut])
        refine ⟨by simp [cleared, hen], ?_, by simp [TP.St.at, TP.St.wAt, TP.St.ownAt, handedPos]⟩
        intro c q hc _
        simp [TP.St.at, TP.St.wAt, TP.St.ownAt] at hc
        obtain ⟨rfl, rfl⟩ := hc
        obtain ⟨a, b, rfl, hb⟩ := hca
        exact ⟨i, a, b, [.ev (.lin u (.start (some k) tm g p) .ok)], k, tm, g, p, rfl, by simp [events], hb, by simp [ofT]⟩
      case h_7.isFalse k tm g p i hp hw => exact absurd (hft i (by rw [hp]; rfl)) hw
      case h_8 i hp =>
        obtain ⟨i, hh⟩ := hd _ _ hp (by simp [hp, handedPos])
        have hen := er' (by simp [hp, isTimedOut])
        refine ⟨by simp [cleared, hen], ?_, by simp [TP.St.at, handedPos]⟩
        intro c q hc _
        simp [TP.St.at] at hc
        obtain ⟨rfl, rfl⟩ := hc
        exact ⟨i, hh.app (by simp [events])⟩
      case h_19 => simp [isTimedOut]
      all_goals
        have hca := ca _ _ (by assumption) (by simp [*, handedPos])
        have hen := er' (by simp [*, isTimedOut])
        refine ⟨by simp [cleared, hen], ?_, ?_⟩
        · simp [TP.St.at, TP.St.wAt, TP.St.ownAt, TP.St.evAt, handedPos, *]
        · intro c q hc _
          simp [TP.St.at, TP.St.wAt, TP.St.ownAt, TP.St.evAt, *] at hc
          obtain ⟨rfl, rfl⟩ := hc
          exact hca.app (by simp [events, ofT])

theorem Cl.step {n : Nat} {s s' : XSt} {tr ev : List XEv} {a : XAct} (I : Own1 n s.b) (C : Cl s tr) (h : TPE.step s a = some (s', ev)) : Cl s' (tr ++ ev) := by
  have key : ∀ t, (s'.err t ≠ none → isTimedOut (s'.b.pc t) = true) ∧
    (∀ c p, s'.b.pc t = .on c p → handedPos (s'.b.pc t) = true → ∃ i, Handed t c i (tr ++ ev)) ∧
    (∀ c p, s'.b.pc t = .on c p → handedPos (s'.b.pc t) = false → Called t c (tr ++ ev)) := by
    intro t
    by_cases ht : client a = some t
    · exact step_own I C h ht
    · obtain ⟨h1, h2, h3⟩ := step_other h ht
      rw [h1, h2]
      exact ⟨C.er t, fun c p hc hh => (C.hd t c p hc hh).imp fun i hi => hi.app h3, fun c p hc hh => (C.ca t c p hc hh).app h3⟩
  exact ⟨fun t => (key t).1, fun t => (key t).2.1, fun t => (key t).2.2⟩

theorem Cl.reach {n : Nat} {d : Int} {s : XSt} {tr : List XEv} (h : Reach TPE.step (TPE.init n d) s tr) : Cl s tr :=
  (Reach.inv (I := fun s tr => Own1 n s.b ∧ Cl s tr) ⟨Own1.init n d, ⟨by simp [TPE.init], by simp [TPE.init, TP.init], by simp [TPE.init, TP.init]⟩⟩
    (fun _ _ _ _ _ hi hs => ⟨hi.1.step hs, hi.2.step hi.1 hs⟩) h).2

/-- start and timedWait, which return errors. -/
def reports : PC → Bool
  | .on (.start _ _ _ _) _ | .on (.wait _ _) _ => true
  | _ => false

/-- What is known about the error of `t`. -/
structure Fl (s : XSt) (t : Tid) (tr : List XEv) : Prop where
  fl : reports (s.b.pc t) = true → failing t tr = s.err t
  nr : s.b.pc t ≠ .idle → reports (s.b.pc t) = false → s.err t = none
  ie : ∀ e, s.err t = some e → isErr e = true

def failStep (t : Tid) (r : Option Err) : XEv → Option Err
  | .ev (.call u _) => if u = t then none else r
  | .failed u _ e => if u = t then some e else r
  | _ => r
theorem failing_app (t : Tid) (a b : List XEv) : failing t (a ++ b) = b.foldl (failStep t) (failing t a) := by
  rw [failing, List.foldl_append]
  show _ = List.foldl _ (List.foldl _ _ a) b
  congr 1

theorem Fl.step {s s' : XSt} {tr ev : List XEv} {a : XAct} {t : Tid} (C : Cl s tr) (F : Fl s t tr) (h : TPE.step s a = some (s', ev)) : Fl s' t (tr ++ ev) := by
  have er := C.er t
  obtain ⟨fl, nr, ie⟩ := F
  suffices hh : (reports (s'.b.pc t) = true → ev.foldl (failStep t) (failing t tr) = s'.err t) ∧ (s'.b.pc t ≠ .idle → reports (s'.b.pc t) = false → s'.err t = none) ∧
      (∀ e, s'.err t = some e → isErr e = true) from ⟨fun hr => by rw [failing_app]; exact hh.1 hr, hh.2.1, hh.2.2⟩
  cases a with
  | fail u e =>
    simp only [TPE.step] at h
    split at h
    · simp at h
    next hie =>
    by_cases e' : t = u
    · subst e'
      (repeat' split at h) <;> simp only [Option.some.injEq, Prod.mk.injEq, reduceCtorEq] at h <;> obtain ⟨rfl, rfl⟩ := h <;>
        simp_all [giveUp, TP.St.at, TP.St.ownAt, failStep, reports, isTimedOut]
    · (repeat' split at h) <;> simp only [Option.some.injEq, Prod.mk.injEq, reduceCtorEq] at h <;> obtain ⟨rfl, rfl⟩ := h <;>
        simp_all [giveUp, TP.St.at, TP.St.ownAt, failStep, upd_ne _ _ e', Ne.symm e']
  | pfail u e =>
    simp only [TPE.step] at h
    (repeat' split at h) <;> simp only [Option.some.injEq, Prod.mk.injEq, reduceCtorEq] at h <;> obtain ⟨rfl, rfl⟩ := h <;>
      simp_all [TP.St.wAt, TP.St.ownAt, failStep]
  | base a =>
    simp only [TPE.step] at h
    split at h <;> simp only [Option.some.injEq, Prod.mk.injEq, reduceCtorEq] at h
    next b' l hb =>
    obtain ⟨rfl, rfl⟩ := h
    cases a with
    | call u c =>
      simp only [TP.step] at hb
      split at hb <;> simp only [Option.some.injEq, Prod.mk.injEq, reduceCtorEq] at hb; obtain ⟨rfl, rfl⟩ := hb
      by_cases e' : t = u
      · subst e'; simp [cleared, events, failStep]
      · simp [cleared, TP.St.at, upd_ne _ _ e', events, failStep, Ne.symm e']; exact ⟨fl, nr, ie⟩
    | go u =>
      simp only [TP.step] at hb
      by_cases e' : t = u
      · subst e'
        (repeat' split at hb) <;> simp only [Option.some.injEq, Prod.mk.injEq, reduceCtorEq] at hb <;> obtain ⟨rfl, rfl⟩ := hb
        all_goals
          first
            | (simp_all [cleared, TP.St.at, TP.St.wAt, TP.St.ownAt, TP.St.evAt, events, failStep, reports]; done)
            | skip
      · (repeat' split at hb) <;> simp only [Option.some.injEq, Prod.mk.injEq, reduceCtorEq] at hb <;> obtain ⟨rfl, rfl⟩ := hb <;>
          simp [cleared, TP.St.at, TP.St.wAt, TP.St.ownAt, TP.St.evAt, upd_ne _ _ e', events, failStep] <;> (try exact ⟨fl, nr, ie⟩)
        cases he : s.err u <;> simp [failStep] <;> exact ⟨fl, nr, ie⟩
    | expire u =>
      simp only [TP.step] at hb
      by_cases e' : t = u
      · subst e'
        (repeat' split at hb) <;> simp only [Option.some.injEq, Prod.mk.injEq, reduceCtorEq] at hb <;> obtain ⟨rfl, rfl⟩ := hb <;>
          simp_all [cleared, TP.St.at, TP.St.wAt, TP.St.ownAt, TP.St.evAt, events, failStep, reports]
      · (repeat' split at hb) <;> simp only [Option.some.injEq, Prod.mk.injEq, reduceCtorEq] at hb <;> obtain ⟨rfl, rfl⟩ := hb <;>
          simp [cleared, TP.St.at, TP.St.wAt, TP.St.ownAt, TP.St.evAt, upd_ne _ _ e', events, failStep] <;> exact ⟨fl, nr, ie⟩
    | pgo i =>
      simp only [TP.step] at hb
      (repeat' split at hb) <;> simp only [Option.some.injEq, Prod.mk.injEq, reduceCtorEq] at hb <;> obtain ⟨rfl, rfl⟩ := hb <;>
        simp [cleared, TP.St.at, TP.St.wAt, TP.St.ownAt, TP.St.evAt, events, failStep] <;> exact ⟨fl, nr, ie⟩
    | throw i =>
      simp only [TP.step] at hb
      (repeat' split at hb) <;> simp only [Option.some.injEq, Prod.mk.injEq, reduceCtorEq] at hb <;> obtain ⟨rfl, rfl⟩ := hb <;>
        simp [cleared, TP.St.at, TP.St.wAt, TP.St.ownAt, TP.St.evAt, events, failStep] <;> exact ⟨fl, nr, ie⟩

theorem Fl.reach {n : Nat} {d : Int} {s : XSt} {tr : List XEv} (h : Reach TPE.step (TPE.init n d) s tr) (t : Tid) : Fl s t tr :=
  (Reach.inv (I := fun s tr => Own1 n s.b ∧ Cl s tr ∧ Fl s t tr) ⟨Own1.init n d, ⟨by simp [TPE.init], by simp [TPE.init, TP.init], by simp [TPE.init, TP.init]⟩,
      ⟨by simp [TPE.init, TP.init, reports], by simp [TPE.init], by simp [TPE.init]⟩⟩
    (fun _ _ _ _ _ hi hs => ⟨hi.1.step hs, hi.2.1.step hi.1 hs, hi.2.2.step hi.2.1 hs⟩) h).2.2

/-- The step an event comes from. -/
theorem at_step {n : Nat} {d : Int} {s : XSt} {tr : List XEv} (h : Reach TPE.step (TPE.init n d) s tr) : ∀ {a b : List XEv} {e : XEv}, tr = a ++ e :: b →
    ∃ s0 tr0 act s1 e1 e2, Reach TPE.step (TPE.init n d) s0 tr0 ∧ TPE.step s0 act = some (s1, e1 ++ e :: e2) ∧ a = tr0 ++ e1 := by
  induction h with
  | init => intro a b e h; simp at h
  | step hr hs ih =>
    rename_i s0 tr0 act s1 ev
    intro a b e h
    rcases List.append_eq_append_iff.1 h with ⟨l, h1, h2⟩ | ⟨l, h1, h2⟩
    · exact ⟨s0, tr0, act, s1, l, b, hr, by rw [← h2]; exact hs, h1⟩
    · cases l with
      | nil => simp at h1 h2; subst h1; exact ⟨s0, tr0, act, s1, [], b, hr, by rw [List.nil_append, h2]; exact hs, by simp⟩
      | cons x l => simp at h2; obtain ⟨rfl, rfl⟩ := h2; exact ih h1

end Verif.TPE
