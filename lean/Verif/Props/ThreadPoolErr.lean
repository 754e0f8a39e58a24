import Verif.Proof.ThreadPoolErrDone
import Verif.Props.ThreadPool
/-
Property C103: the thread pool when what it calls of the operating system fails.  The specification is `Verif/Spec/ThreadPoolErr.lean`.
-/
namespace Verif.Props.ThreadPoolErr
open Verif
open _root_.Verif.Mtx (Tid Err)
open _root_.Verif.EvF (Tmo)
open _root_.Verif.Lts (Reach)
open _root_.Verif.TP (Gid Rid Task Call PC Pos W Own Ev snocInd)
open TPE TPE.Spec
open Verif.Props.ThreadPool (accepted begun ended allBegun allEnded count_split ixOf len_begun len_ended sum_mono sum_add)
set_option linter.unusedSimpArgs false

/-- The executions of a pool of `n` threads with default priority `d`, in which calls of the operating system may fail. -/
abbrev Exec (n : Nat) (d : Int) (s : XSt) (tr : List XEv) : Prop := Reach TPE.step (TPE.init n d) s tr

/-! Lists of tasks -/

def accR : XP → List (Task × Int)
  | .accepted k p => [(k, p)]
  | _ => []
def runR : XP → List Task
  | .running k => [k]
  | _ => []

theorem bad_X (d : Int) (i : Rid) (e : Ev) : XP.next d i .bad e = .bad := by
  cases e <;> simp [XP.next]

theorem xlists {n : Nat} {d : Int} {i : Rid} (tr : List Ev) (h : xphase n d i tr ≠ .bad) :
    accepted i tr = begun i tr ++ accR (xphase n d i tr) ∧ (begun i tr).map Prod.fst = ended i tr ++ runR (xphase n d i tr) := by
  induction tr using snocInd with
  | nil => by_cases hi : i < n <;> simp [xphase, hi, accepted, begun, ended, accR, runR]
  | snoc tr e ih =>
    rw [xphase_app] at h ⊢
    have hb : xphase n d i tr ≠ .bad := by intro hb; rw [hb] at h; exact h (bad_X d i _)
    obtain ⟨h1, h2⟩ := ih hb
    simp only [List.foldl_cons, List.foldl_nil] at h ⊢
    cases e <;> simp only [XP.next] at h ⊢
    case acc t j k g p =>
      by_cases e : j = i
      · subst e; cases hr : xphase n d j tr <;> simp_all [accepted, begun, ended, accR, runR]
      · simp_all [accepted, begun, ended, accR, runR]
    case begin j k p =>
      by_cases e : j = i
      · subst e; cases hr : xphase n d j tr <;> simp_all [accepted, begun, ended, accR, runR]
      · simp_all [accepted, begun, ended, accR, runR]
    case ended j k x =>
      by_cases e : j = i
      · subst e; cases hr : xphase n d j tr <;> simp_all [accepted, begun, ended, accR, runR]
      · simp_all [accepted, begun, ended, accR, runR]
    case reprio j p =>
      by_cases e : j = i
      · subst e; cases hr : xphase n d j tr <;> simp_all [accepted, begun, ended, accR, runR]
      · simp_all [accepted, begun, ended, accR, runR]
    case uncaught j =>
      by_cases e : j = i
      · subst e; cases hr : xphase n d j tr <;> simp_all [accepted, begun, ended, accR, runR]
      · simp_all [accepted, begun, ended, accR, runR]
    case fin j =>
      by_cases e : j = i
      · subst e; cases hr : xphase n d j tr <;> simp_all [accepted, begun, ended, accR, runR]
      · simp_all [accepted, begun, ended, accR, runR]
    case kill j =>
      by_cases e : j = i
      · subst e; cases hr : xphase n d j tr <;> simp_all [accepted, begun, ended, accR, runR]
      · simp_all [accepted, begun, ended, accR, runR]
    all_goals simp_all [accepted, begun, ended]

theorem phase_ok {n : Nat} {d : Int} {s : XSt} {tr : List XEv} (h : Exec n d s tr) (i : Rid) : xphase n d i (plain tr) ≠ .bad := by
  have T := Tr1.reach h
  rw [T.ph i]; exact T.ne i

/-! #### C103 -/

/-- Whatever fails: every pool thread goes through rounds, each of them: a task is accepted, begins with the priority given to start, ends, the
priority is set to the default, an exception of the task is dealt with, the thread is finished. -/
theorem C103_rounds {n : Nat} {d : Int} {s : XSt} {tr : List XEv} (h : Exec n d s tr) (i : Rid) : xphase n d i (plain tr) ≠ .bad := phase_ok h i

/-- Whatever fails: on every pool thread the tasks begun are the tasks accepted for it, each once, in order and with the priority given to start, but for
at most the last one; the tasks ended are the tasks begun, but for at most the last one. -/
theorem C103_once {n : Nat} {d : Int} {s : XSt} {tr : List XEv} (h : Exec n d s tr) (i : Rid) :
    (accepted i (plain tr) = begun i (plain tr) ∨ ∃ k p, accepted i (plain tr) = begun i (plain tr) ++ [(k, p)]) ∧
    ((begun i (plain tr)).map Prod.fst = ended i (plain tr) ∨ ∃ k, (begun i (plain tr)).map Prod.fst = ended i (plain tr) ++ [k]) := by
  obtain ⟨h1, h2⟩ := xlists (plain tr) (phase_ok h i)
  rw [h1, h2]
  cases xphase n d i (plain tr) <;> simp [accR, runR]

theorem dead_fold {d : Int} {i : Rid} : ∀ (l : List Ev) (r : XP), (r = .dead ∨ r = .bad) → l.foldl (XP.next d i) r ≠ .bad → ∀ e, e ∈ l → XP.next d i .dead e = .dead
  | [], _, _, _ => by simp
  | x :: l, r, hr, h => by
    rw [List.foldl_cons] at h
    have hb : ∀ l : List Ev, l.foldl (XP.next d i) .bad = .bad := by
      intro l; induction l with
      | nil => rfl
      | cons y l ih => rw [List.foldl_cons, bad_X]; exact ih
    rcases hr with rfl | rfl
    · have hx : XP.next d i .dead x = .dead ∨ XP.next d i .dead x = .bad := by cases x <;> simp [XP.next] <;> grind
      intro e he
      rcases List.mem_cons.1 he with rfl | he
      · rcases hx with hx | hx
        · exact hx
        · rw [hx, hb] at h; exact absurd rfl h
      · exact dead_fold l _ hx h e he
    · rw [bad_X, hb] at h; exact absurd rfl h

theorem ix_lt {n : Nat} {d : Int} {s : XSt} {tr : List XEv} (h : Exec n d s tr) {e : Ev} (he : e ∈ plain tr) (ha : XP.next d (ixOf e) .dead e ≠ .dead) : ixOf e < n := by
  apply Classical.byContradiction
  intro hi
  have hp := phase_ok h (ixOf e)
  rw [xphase, if_neg hi] at hp
  exact ha (dead_fold _ _ (Or.inl rfl) hp e he)

/-- Whatever fails: at most `n` tasks are in progress at the same time. -/
theorem C103_max {n : Nat} {d : Int} {s : XSt} {tr : List XEv} (h : Exec n d s tr) :
    allEnded (plain tr) ≤ allBegun (plain tr) ∧ allBegun (plain tr) ≤ allEnded (plain tr) + n := by
  have h1 : allBegun (plain tr) = ((List.range n).map fun i => (begun i (plain tr)).length).sum := by
    rw [allBegun, count_split (ix := ixOf) (n := n)]
    · simp only [len_begun]
    · intro e he hq; refine ix_lt h he ?_; cases e <;> simp_all [XP.next, ixOf]
  have h2 : allEnded (plain tr) = ((List.range n).map fun i => (ended i (plain tr)).length).sum := by
    rw [allEnded, count_split (ix := ixOf) (n := n)]
    · simp only [len_ended]
    · intro e he hq; refine ix_lt h he ?_; cases e <;> simp_all [XP.next, ixOf]
  have one : ∀ i, (ended i (plain tr)).length ≤ (begun i (plain tr)).length ∧ (begun i (plain tr)).length ≤ (ended i (plain tr)).length + 1 := by
    intro i
    rcases (C103_once h i).2 with e | ⟨k, e⟩ <;> have := congrArg List.length e <;> simp at this <;> omega
  rw [h1, h2]
  constructor
  · exact sum_mono fun i _ => (one i).1
  · refine Nat.le_trans (sum_mono fun i _ => (one i).2) ?_
    rw [sum_add, show ((List.range n).map fun _ => 1).sum = n by
      clear h h1 h2 one
      induction n with
      | zero => rfl
      | succ n ih => rw [List.range_succ, List.map_append, List.sum_append, ih]; rfl]
    exact Nat.le_refl _

/-! The state at a return -/

theorem ret_step {s s' : XSt} {ev e1 e2 : List XEv} {x : XEv} {a : XAct} (h : TPE.step s a = some (s', ev)) (he : ev = e1 ++ x :: e2) :
    (∀ t c o, x = .ev (.ret t c o) → e1 = [] ∧ s.b.pc t = .on c (.ret o) ∧ s.err t = none) ∧
    (∀ t c e, x = .err t c e → e1 = [] ∧ (∃ o, s.b.pc t = .on c (.ret o)) ∧ s.err t = some e) := by
  have hm : x ∈ ev := by rw [he]; simp
  cases a with
  | fail t e =>
    simp only [TPE.step] at h
    (repeat' split at h) <;> simp only [Option.some.injEq, Prod.mk.injEq, reduceCtorEq] at h <;> obtain ⟨rfl, rfl⟩ := h <;> clear he <;> simp at hm <;>
      grind
  | pfail t e =>
    simp only [TPE.step] at h
    (repeat' split at h) <;> simp only [Option.some.injEq, Prod.mk.injEq, reduceCtorEq] at h <;> obtain ⟨rfl, rfl⟩ := h <;> clear he <;> simp at hm <;>
      grind
  | base a =>
    simp only [TPE.step] at h
    split at h <;> simp only [Option.some.injEq, Prod.mk.injEq, reduceCtorEq] at h
    next b' l h1 =>
    obtain ⟨rfl, rfl⟩ := h
    cases a with
    | call t c =>
      simp only [TP.step] at h1
      split at h1 <;> simp only [Option.some.injEq, Prod.mk.injEq, reduceCtorEq] at h1; obtain ⟨rfl, rfl⟩ := h1
      clear he; simp [events] at hm; grind
    | expire t =>
      simp only [TP.step] at h1
      (repeat' split at h1) <;> simp only [Option.some.injEq, Prod.mk.injEq, reduceCtorEq] at h1 <;> obtain ⟨rfl, rfl⟩ := h1 <;> clear he <;> simp [events] at hm <;> grind
    | pgo t =>
      simp only [TP.step] at h1
      (repeat' split at h1) <;> simp only [Option.some.injEq, Prod.mk.injEq, reduceCtorEq] at h1 <;> obtain ⟨rfl, rfl⟩ := h1 <;> clear he <;> (try split at hm) <;> simp [events] at hm <;> grind
    | throw t =>
      simp only [TP.step] at h1
      (repeat' split at h1) <;> simp only [Option.some.injEq, Prod.mk.injEq, reduceCtorEq] at h1 <;> obtain ⟨rfl, rfl⟩ := h1 <;> clear he <;> simp [events] at hm <;> grind
    | go t =>
      simp only [TP.step] at h1
      (repeat' split at h1) <;> simp only [Option.some.injEq, Prod.mk.injEq, reduceCtorEq] at h1 <;> obtain ⟨rfl, rfl⟩ := h1
      case h_19 c o hp =>
        have : e1 = [] := by
          cases e1 with
          | nil => rfl
          | cons y e1 => have := congrArg List.length he; simp [events] at this
        subst this
        simp only [events, List.map_cons, List.map_nil] at hm
        cases her : s.err t <;> simp [her] at hm <;> subst hm <;> simp [hp, her]
      all_goals (clear he; simp [events] at hm; try grind)

theorem ret_at {n : Nat} {d : Int} {s : XSt} {tr a b : List XEv} {t : Tid} {c : Call} {o : TP.Out} (h : Exec n d s tr) (e : tr = a ++ .ev (.ret t c o) :: b) :
    ∃ s0, Exec n d s0 a ∧ s0.b.pc t = .on c (.ret o) ∧ s0.err t = none := by
  obtain ⟨s0, tr0, act, s1, e1, e2, h1, h2, h3⟩ := at_step h e
  obtain ⟨g1, g2, g3⟩ := (ret_step h2 rfl).1 _ _ _ rfl
  subst g1; rw [List.append_nil] at h3; subst h3
  exact ⟨s0, h1, g2, g3⟩

theorem err_at {n : Nat} {d : Int} {s : XSt} {tr a b : List XEv} {t : Tid} {c : Call} {e : Err} (h : Exec n d s tr) (he : tr = a ++ .err t c e :: b) :
    ∃ s0 o, Exec n d s0 a ∧ s0.b.pc t = .on c (.ret o) ∧ s0.err t = some e := by
  obtain ⟨s0, tr0, act, s1, e1, e2, h1, h2, h3⟩ := at_step h he
  obtain ⟨g1, ⟨o, g2⟩, g3⟩ := (ret_step h2 rfl).2 _ _ _ rfl
  subst g1; rw [List.append_nil] at h3; subst h3
  exact ⟨s0, o, h1, g2, g3⟩

/-- If a start returns OK, it has handed its task, with its guard and priority, to one pool thread, once, between its call and its return, and nothing it
called has failed. -/
theorem C103_ok {n : Nat} {d : Int} {s : XSt} {tr a b : List XEv} {t : Tid} {k tm g p} (h : Exec n d s tr)
    (e : tr = a ++ .ev (.ret t (.start k tm g p) .ok) :: b) : failing t a = none ∧ ∃ i, i < n ∧ Handed t (.start k tm g p) i a := by
  obtain ⟨s0, h0, hp, he⟩ := ret_at h e
  refine ⟨by rw [(Fl.reach h0 t).fl (by rw [hp]; rfl)]; exact he, ?_⟩
  obtain ⟨i, hi⟩ := (Cl.reach h0).hd t _ _ hp (by rw [hp]; rfl)
  refine ⟨i, ?_, hi⟩
  obtain ⟨a1, a2, a3, k', tm', g', p', hc, rfl, _, _⟩ := hi
  exact ix_lt h0 (e := .acc t i k' g' p') (by simp [plain, List.filterMap_append, List.filterMap_cons]) (by simp [XP.next, ixOf])

/-- If it returns anything else, it has handed over nothing. -/
theorem C103_notOk {n : Nat} {d : Int} {s : XSt} {tr a b : List XEv} {t : Tid} {k tm g p o} (h : Exec n d s tr)
    (e : tr = a ++ .ev (.ret t (.start k tm g p) o) :: b) (ho : o ≠ .ok) : Called t (.start k tm g p) a := by
  obtain ⟨s0, h0, hp, he⟩ := ret_at h e
  exact (Cl.reach h0).ca t _ _ hp (by rw [hp]; cases o <;> simp_all [handedPos])

/-- Only start and timedWait (and the calls that are the same as these) return errors other than those of C64 and C66; the error is one with which
something failed that was called in this call, and a start that returns it has handed over nothing. -/
theorem C103_error {n : Nat} {d : Int} {s : XSt} {tr a b : List XEv} {t : Tid} {c e} (h : Exec n d s tr) (he : tr = a ++ .err t c e :: b) :
    ((∃ k tm g p, c = .start k tm g p) ∨ ∃ g tm, c = .wait g tm) ∧ e ≠ .OK ∧ e ≠ .TimedOut ∧ failing t a = some e ∧ Called t c a := by
  obtain ⟨s0, o, h0, hp, her⟩ := err_at h he
  have F := Fl.reach h0 t
  have hrep : reports (s0.b.pc t) = true := by
    cases hr : reports (s0.b.pc t) with
    | true => rfl
    | false => have := F.nr (by rw [hp]; simp) hr; rw [her] at this; simp at this
  have hto : o = .timedOut := by have := (Cl.reach h0).er t (by rw [her]; simp); rw [hp] at this; cases o <;> simp_all [isTimedOut]
  subst hto
  refine ⟨?_, ?_, ?_, by rw [F.fl hrep, her], (Cl.reach h0).ca t _ _ hp (by rw [hp]; cases c <;> simp [handedPos])⟩
  · rw [hp] at hrep; cases c <;> simp [reports] at hrep
    · exact Or.inl ⟨_, _, _, _, rfl⟩
    · exact Or.inr ⟨_, _, rfl⟩
  · have := F.ie e her; rintro rfl; simp [isErr] at this
  · have := F.ie e her; rintro rfl; simp [isErr] at this

/-- start and timedWait do not swallow errors: if they do not return one, nothing has failed. -/
theorem C103_reported {n : Nat} {d : Int} {s : XSt} {tr a b : List XEv} {t : Tid} {c o} (h : Exec n d s tr) (e : tr = a ++ .ev (.ret t c o) :: b)
    (hc : (∃ k tm g p, c = .start k tm g p) ∨ ∃ g tm, c = .wait g tm) : failing t a = none := by
  obtain ⟨s0, h0, hp, he⟩ := ret_at h e
  rw [(Fl.reach h0 t).fl (by rw [hp]; rcases hc with ⟨_, _, _, _, rfl⟩ | ⟨_, _, rfl⟩ <;> rfl)]; exact he

theorem not_settled {s : TP.St} {i : Rid} {k : Task} {g : Gid} (D : Doing s i k g) : settled (s.w i) = false := by
  rcases D.2.2 with h | h <;> rw [h] <;> rfl

/-- As long as nothing fails whose result is ignored: wait, tryWait and timedWait return OK only if the task of the guard has ended, if there is one. -/
theorem C103_wait_partial {n : Nat} {d : Int} {s : XSt} {tr a b : List XEv} {t : Tid} {g tm} (h : Exec n d s tr) (e : tr = a ++ .ev (.ret t (.wait g tm) .ok) :: b)
    (hq : ∀ x, x ∈ a → isSilent x = false) {a1 a2 : List Ev} {u i k p} (ha : plain a = a1 ++ .acc u i k (some g) p :: a2) : ∃ x, .ended i k x ∈ a2 := by
  obtain ⟨s0, h0, hp, he⟩ := ret_at h e
  rcases ((Quiet.reach h0).nt hq).2 _ _ _ _ _ _ _ ha with h1 | D
  · exact h1
  · have := wdone h0 hq t g i (by rw [hp]; rfl) D.1
    rw [not_settled D] at this; simp at this

/-- As long as nothing fails whose result is ignored: when a release returns, the task of the guard has ended. -/
theorem C103_release_partial {n : Nat} {d : Int} {s : XSt} {tr a b : List XEv} {t : Tid} {g o} (h : Exec n d s tr) (e : tr = a ++ .ev (.ret t (.release g) o) :: b)
    (hq : ∀ x, x ∈ a → isSilent x = false) {a1 a2 : List Ev} {u i k p} (ha : plain a = a1 ++ .acc u i k (some g) p :: a2) : ∃ x, .ended i k x ∈ a2 := by
  obtain ⟨s0, h0, hp, he⟩ := ret_at h e
  rcases ((Quiet.reach h0).nt hq).2 _ _ _ _ _ _ _ ha with h1 | D
  · exact h1
  · exfalso
    rcases (Own2.reach h0).go i g D.1 with ⟨v, hv⟩ | ⟨h1, _⟩
    · by_cases ev : t = v
      · subst ev; rw [hp] at hv; simp [sG] at hv
      · have := (Own1.reach h0).ex v t (Ne.symm ev)
        rw [hp] at this
        exact (rel_clash this).2.2.1 i hv
    · rw [rdone h0 t g (by rw [hp]; rfl)] at h1; simp at h1

/-- Whatever fails: when a release returns, its guard is not valid. -/
theorem C103_invalid {n : Nat} {d : Int} {s : XSt} {tr a b : List XEv} {t : Tid} {g o} (h : Exec n d s tr) (e : tr = a ++ .ev (.ret t (.release g) o) :: b) :
    o = .done ∧ ∃ s0, Exec n d s0 a ∧ s0.b.guard g = none := by
  obtain ⟨s0, h0, hp, he⟩ := ret_at h e
  exact ⟨relDone h0 hp, s0, h0, rdone h0 t g (by rw [hp]; rfl)⟩

/-- If no wait of destroy fails: when destroy returns, all tasks have ended. -/
theorem C103_destroy_partial {n : Nat} {d : Int} {s : XSt} {tr a b : List XEv} {t : Tid} {o} (h : Exec n d s tr) (e : tr = a ++ .ev (.ret t .destroy o) :: b)
    (hq : ∀ u e, .failed u .destroy e ∉ a) (i : Rid) : accepted i (plain a) = begun i (plain a) ∧ (begun i (plain a)).map Prod.fst = ended i (plain a) := by
  obtain ⟨s0, h0, hp, he⟩ := ret_at h e
  have D := (ddone h0 hq t _ (by rw [hp]; rfl)).2.2
  obtain ⟨h1, h2⟩ := xlists (plain a) (phase_ok h0 i)
  have hx : xphase n d i (plain a) = .rest ∨ xphase n d i (plain a) = .dead := by
    rw [(Tr1.reach h0).ph i]
    by_cases hi : i < n
    · have := D i hi
      unfold absX; cases hw : s0.b.w i <;> simp_all [resting]
    · have := ((Own1.reach h0).dw i).1 ((Own1.reach h0).od i (Nat.le_of_not_lt hi))
      unfold absX; rw [this]; exact Or.inr rfl
  rcases hx with hx | hx <;> rw [hx] at h1 h2 <;> simp [accR, runR] at h1 h2 <;> exact ⟨h1, h2⟩

/-- Whatever fails: when destroy returns, the pool threads whose tasks are not over are at most as many as the waits of destroy that have failed. -/
theorem C103_destroy_count {n : Nat} {d : Int} {s : XSt} {tr a b : List XEv} {t : Tid} {o} (h : Exec n d s tr) (e : tr = a ++ .ev (.ret t .destroy o) :: b) :
    (List.range n).countP (fun i => !(xphase n d i (plain a) == .rest || xphase n d i (plain a) == .dead)) ≤ a.countP (fun x => match x with | .failed _ .destroy _ => true | _ => false) := by
  obtain ⟨s0, h0, hp, he⟩ := ret_at h e
  have D := (cdone h0 t _ (by rw [hp]; rfl)).2.2
  refine Nat.le_trans (List.countP_mono_left fun i _ hi => ?_) (Nat.le_trans D (List.countP_mono_left fun x _ hx => ?_))
  · rw [(Tr1.reach h0).ph i] at hi
    cases hw : s0.b.w i <;> simp_all [resting, absX]
  · unfold isFD at hx; split at hx <;> simp_all

/-- When no call is in progress, all tasks are over and no guard is valid, every pool thread is in the queue of available threads, but for those given up
by a start that got an error or timed out, by a release whose send failed, or by the thread itself because something failed on it. -/
theorem C103_available_partial {n : Nat} {d : Int} {s : XSt} {tr : List XEv} (h : Exec n d s tr) (hi : ∀ t, s.b.pc t = .idle)
    (hr : ∀ i, i < n → xphase n d i (plain tr) = .rest) (hg : ∀ g, s.b.guard g = none) {i : Rid} (hlt : i < n) (hl : ∀ e, e ∈ tr → loses i e = false) : i ∈ s.b.free := by
  have I := Own1.reach h
  have J := Own2.reach h
  have hw := hr i hlt
  rw [(Tr1.reach h).ph i] at hw
  rw [I.fo i]
  cases ho : s.b.own i with
  | free => rfl
  | lost => obtain ⟨e, h1, h2⟩ := J.lo i ho; rw [hl e h1] at h2; simp at h2
  | client t => have := J.co i t ho; rw [hi t] at this; simp [TP.hold] at this
  | rel t => have := J.ro i t ho; rw [hi t] at this; simp [TP.rhold] at this
  | guard g =>
    rcases J.go i g ho with ⟨t, ht⟩ | ⟨h1, _⟩
    · rw [hi t] at ht; simp [sG] at ht
    · rw [hg g] at h1; simp at h1
  | pool =>
    unfold absX at hw
    rcases I.e3 i ho with ⟨h1, _⟩ | h1 <;> cases hww : s.b.w i <;> simp [hww, act, selfRel] at h1 hw
    split at hw <;> simp at hw
  | dead =>
    have := (I.dw i).1 ho
    unfold absX at hw; rw [this] at hw; simp at hw

/-- If nothing fails, the pool behaves as in C64–C71 and C77. -/
theorem C103_noError {n : Nat} {d : Int} {s : XSt} {tr : List XEv} (h : Exec n d s tr) (hq : ∀ x, x ∈ tr → isFail x = false) :
    Reach TP.step (TP.init n d) s.b (plain tr) ∧ (∀ t, s.err t = none) ∧ tr = (plain tr).map .ev := by
  induction h with
  | init => exact ⟨Reach.init, fun _ => rfl, rfl⟩
  | @step s tr a s' ev h1 hs ih =>
    obtain ⟨i1, i2, i3⟩ := ih fun x hx => hq x (List.mem_append_left ev hx)
    have hq' : ∀ x, x ∈ ev → isFail x = false := fun x hx => hq x (List.mem_append_right tr hx)
    cases a with
    | fail t e =>
      simp only [TPE.step] at hs
      (repeat' split at hs) <;> simp only [Option.some.injEq, Prod.mk.injEq, reduceCtorEq] at hs <;> obtain ⟨rfl, rfl⟩ := hs <;> simp [isFail] at hq'
    | pfail t e =>
      simp only [TPE.step] at hs
      (repeat' split at hs) <;> simp only [Option.some.injEq, Prod.mk.injEq, reduceCtorEq] at hs <;> obtain ⟨rfl, rfl⟩ := hs <;> simp [isFail] at hq'
    | base a =>
      simp only [TPE.step] at hs
      split at hs <;> simp only [Option.some.injEq, Prod.mk.injEq, reduceCtorEq] at hs
      next b' l hb =>
      obtain ⟨rfl, rfl⟩ := hs
      have he : events s l = l.map .ev := by
        apply List.map_congr_left
        intro x _
        cases x <;> simp [i2]
      have hpl : plain (events s l) = l := by rw [he]; clear he hq hq' hb; induction l with | nil => rfl | cons x l ih => simpa [plain] using ih
      refine ⟨?_, ?_, ?_⟩
      · rw [plain_app, hpl]; exact Reach.step i1 hb
      · intro t; cases a <;> simp [cleared, i2]
        rename_i u c
        by_cases e : t = u
        · subst e; simp
        · rw [upd_ne _ _ e]; exact i2 t
      · rw [plain_app, hpl, List.map_append, ← he, ← i3]

/-! Examples -/

instance {n : Nat} {d : Int} {i : Rid} {tr : List Ev} {r : XP} : Decidable (xphase n d i tr = r) := inferInstance

/-- A start gets an error from the queue, the next one is accepted; a wait gets an error, the next one returns OK; then the guard is released.
Nothing fails whose result is ignored. -/
def demo : List XAct :=
  [.base (.call 1 (.start (some 9) .forever (some 0) 3)), .base (.go 1), .fail 1 .CalledByNonThread, .base (.go 1),
   .base (.call 1 (.start (some 10) .forever (some 0) 3))] ++ List.replicate 8 (.base (.go 1)) ++
  [.base (.call 1 (.wait 0 .forever)), .base (.go 1), .fail 1 .OtherError, .base (.go 1)] ++ List.replicate 6 (.base (.pgo 0)) ++
  [.base (.call 1 (.wait 0 .forever)), .base (.go 1), .base (.go 1), .base (.go 1), .base (.call 1 (.release 0))] ++ List.replicate 6 (.base (.go 1)) ++ [.base (.pgo 0)]
/-- For C103_rounds, _once, _max, _ok, _error, _reported, _wait_partial, _release_partial, _invalid and _available_partial. -/
example : ∃ (s : XSt) (tr : List XEv), Exec 1 5 s tr ∧ XEv.err 1 (.start (some 9) .forever (some 0) 3) .CalledByNonThread ∈ tr ∧
    XEv.ev (.ret 1 (.start (some 10) .forever (some 0) 3) .ok) ∈ tr ∧ XEv.err 1 (.wait 0 .forever) .OtherError ∈ tr ∧ XEv.ev (.acc 1 0 10 (some 0) 3) ∈ tr ∧
    XEv.ev (.ret 1 (.wait 0 .forever) .ok) ∈ tr ∧ XEv.ev (.ret 1 (.release 0) .done) ∈ tr ∧ (∀ x, x ∈ tr → isSilent x = false ∧ loses 0 x = false) ∧
    xphase 1 5 0 (plain tr) = .rest ∧ s.b.free = [0] ∧ s.b.inside = [] ∧ s.b.guard 0 = none := by
  obtain ⟨s, tr, h, hp⟩ := Lts.runSat_ex (step := TPE.step) (init := TPE.init 1 5) (as := demo)
    (P := fun (s : XSt) tr => decide (XEv.err 1 (.start (some 9) .forever (some 0) 3) .CalledByNonThread ∈ tr ∧
    XEv.ev (.ret 1 (.start (some 10) .forever (some 0) 3) .ok) ∈ tr ∧ XEv.err 1 (.wait 0 .forever) .OtherError ∈ tr ∧ XEv.ev (.acc 1 0 10 (some 0) 3) ∈ tr ∧
    XEv.ev (.ret 1 (.wait 0 .forever) .ok) ∈ tr ∧ XEv.ev (.ret 1 (.release 0) .done) ∈ tr ∧ (∀ x, x ∈ tr → isSilent x = false ∧ loses 0 x = false) ∧
    xphase 1 5 0 (plain tr) = .rest ∧ s.b.free = [0] ∧ s.b.inside = [] ∧ s.b.guard 0 = none)) (by decide)
  exact ⟨s, tr, h, by simpa using hp⟩

/-- Nothing fails, and the pool is destroyed (C103_noError, C103_destroy_partial). -/
def good : List XAct :=
  [.base (.call 1 (.start (some 10) .forever none 3))] ++ List.replicate 8 (.base (.go 1)) ++ List.replicate 8 (.base (.pgo 0)) ++
  [.base (.call 1 .destroy)] ++ List.replicate 5 (.base (.go 1))
example : ∃ (s : XSt) (tr : List XEv), Exec 1 5 s tr ∧ XEv.ev (.ret 1 .destroy .done) ∈ tr ∧ XEv.ev (.ended 0 10 false) ∈ tr ∧ ∀ x, x ∈ tr → isFail x = false := by
  obtain ⟨s, tr, h, hp⟩ := Lts.runSat_ex (step := TPE.step) (init := TPE.init 1 5) (as := good)
    (P := fun (s : XSt) tr => decide (XEv.ev (.ret 1 .destroy .done) ∈ tr ∧ XEv.ev (.ended 0 10 false) ∈ tr ∧ ∀ x, x ∈ tr → isFail x = false)) (by decide)
  exact ⟨s, tr, h, by simpa using hp⟩

/-- The wait inside a release fails, the release returns nevertheless, and puts a thread into the queue whose task is running. -/
def early : List XAct :=
  [.base (.call 1 (.start (some 10) .forever (some 0) 3))] ++ List.replicate 8 (.base (.go 1)) ++
  [.base (.pgo 0), .base (.call 1 (.release 0)), .base (.go 1), .fail 1 .CalledByNonThread] ++ List.replicate 4 (.base (.go 1))
theorem C103_release_counterexample : ∃ (s : XSt) (tr : List XEv), Exec 1 5 s tr ∧ XEv.ev (.ret 1 (.release 0) .done) ∈ tr ∧ xphase 1 5 0 (plain tr) = .running 10 ∧ s.b.free = [0] := by
  obtain ⟨s, tr, h, hp⟩ := Lts.runSat_ex (step := TPE.step) (init := TPE.init 1 5) (as := early)
    (P := fun (s : XSt) tr => decide (XEv.ev (.ret 1 (.release 0) .done) ∈ tr ∧ xphase 1 5 0 (plain tr) = .running 10 ∧ s.b.free = [0])) (by decide)
  exact ⟨s, tr, h, by simpa using hp⟩

/-- After that, the notification for the task of the released guard is still there for the next one: a wait for the new guard returns OK although its task is
running (and nothing has failed in the calls for the new guard). -/
def stale : List XAct := early ++
  [.base (.call 1 (.start (some 11) .forever (some 1) 3)), .base (.go 1), .base (.go 1)] ++ List.replicate 6 (.base (.pgo 0)) ++ List.replicate 6 (.base (.go 1)) ++
  [.base (.pgo 0), .base (.call 2 (.wait 1 .forever)), .base (.go 2), .base (.go 2), .base (.go 2)]
set_option maxRecDepth 20000 in
theorem C103_wait_counterexample : ∃ (s : XSt) (tr : List XEv), Exec 1 5 s tr ∧ XEv.ev (.acc 1 0 11 (some 1) 3) ∈ tr ∧ XEv.ev (.ret 2 (.wait 1 .forever) .ok) ∈ tr ∧
    xphase 1 5 0 (plain tr) = .running 11 := by
  obtain ⟨s, tr, h, hp⟩ := Lts.runSat_ex (step := TPE.step) (init := TPE.init 1 5) (as := stale)
    (P := fun (s : XSt) tr => decide (XEv.ev (.acc 1 0 11 (some 1) 3) ∈ tr ∧ XEv.ev (.ret 2 (.wait 1 .forever) .ok) ∈ tr ∧ xphase 1 5 0 (plain tr) = .running 11)) (by decide)
  exact ⟨s, tr, h, by simpa using hp⟩

/-- The send inside a release fails, the release returns nevertheless; at the end no call is in progress, all tasks are over, no guard is valid, and no thread is
available: no start will ever be accepted by the pool. -/
def unsent : List XAct :=
  [.base (.call 1 (.start (some 10) .forever (some 0) 3))] ++ List.replicate 8 (.base (.go 1)) ++ List.replicate 7 (.base (.pgo 0)) ++
  [.base (.call 1 (.release 0)), .base (.go 1), .base (.go 1), .base (.go 1), .fail 1 .OtherError, .base (.go 1), .base (.go 1)]
theorem C103_available_counterexample : ∃ (s : XSt) (tr : List XEv), Exec 1 5 s tr ∧ XEv.ev (.ret 1 (.release 0) .done) ∈ tr ∧ xphase 1 5 0 (plain tr) = .rest ∧
    s.b.inside = [] ∧ s.b.guard 0 = none ∧ s.b.free = [] := by
  obtain ⟨s, tr, h, hp⟩ := Lts.runSat_ex (step := TPE.step) (init := TPE.init 1 5) (as := unsent)
    (P := fun (s : XSt) tr => decide (XEv.ev (.ret 1 (.release 0) .done) ∈ tr ∧ xphase 1 5 0 (plain tr) = .rest ∧ s.b.inside = [] ∧ s.b.guard 0 = none ∧ s.b.free = [])) (by decide)
  exact ⟨s, tr, h, by simpa using hp⟩

/-- A wait inside destroy fails: destroy returns while a task is running. -/
def hasty : List XAct :=
  [.base (.call 1 (.start (some 10) .forever none 3))] ++ List.replicate 8 (.base (.go 1)) ++
  [.base (.pgo 0), .base (.call 1 .destroy), .fail 1 .CalledByNonThread, .base (.go 1), .base (.go 1), .base (.go 1)]
theorem C103_destroy_counterexample : ∃ (s : XSt) (tr : List XEv), Exec 1 5 s tr ∧ XEv.ev (.ret 1 .destroy .done) ∈ tr ∧ xphase 1 5 0 (plain tr) = .running 10 := by
  obtain ⟨s, tr, h, hp⟩ := Lts.runSat_ex (step := TPE.step) (init := TPE.init 1 5) (as := hasty)
    (P := fun (s : XSt) tr => decide (XEv.ev (.ret 1 .destroy .done) ∈ tr ∧ xphase 1 5 0 (plain tr) = .running 10)) (by decide)
  exact ⟨s, tr, h, by simpa using hp⟩

/-- A pool thread cannot notify that its task is over: the task is over, the thread finished, and a wait for the guard, without timeout, can do nothing but fail. -/
def mute : List XAct :=
  [.base (.call 1 (.start (some 10) .forever (some 0) 3))] ++ List.replicate 8 (.base (.go 1)) ++ [.base (.pgo 0), .base (.pgo 0), .base (.pgo 0), .base (.pgo 0), .pfail 0 .OtherError, .base (.pgo 0), .base (.pgo 0),
   .base (.call 2 (.wait 0 .forever)), .base (.go 2)]
theorem C103_notify_counterexample : ∃ (s : XSt) (tr : List XEv), Exec 1 5 s tr ∧ XEv.ev (.ended 0 10 false) ∈ tr ∧ xphase 1 5 0 (plain tr) = .rest ∧
    XEv.ev (.call 2 (.wait 0 .forever)) ∈ tr ∧ s.b.inside = [2] ∧
    ∀ a, (∀ t c, a ≠ .base (.call t c)) → (∀ e, a ≠ .fail 2 e) → TPE.step s a = none := by
  obtain ⟨s, tr, h, hp⟩ := Lts.runSat_ex (step := TPE.step) (init := TPE.init 1 5) (as := mute)
    (P := fun (s : XSt) tr => decide (XEv.ev (.ended 0 10 false) ∈ tr ∧ xphase 1 5 0 (plain tr) = .rest ∧ XEv.ev (.call 2 (.wait 0 .forever)) ∈ tr ∧ s.b.inside = [2] ∧
      s.b.pc 2 = .on (.wait 0 .forever) (.wWait 0) ∧ s.b.w 0 = .finished ∧ s.b.ev 0 = false)) (by decide)
  simp only [decide_eq_true_eq] at hp
  obtain ⟨h1, h2, h3, h4, h5, h6, h7⟩ := hp
  refine ⟨s, tr, h, h1, h2, h3, h4, ?_⟩
  have I := Own1.reach h
  have hw : ∀ i, s.b.w i = .finished ∨ s.b.w i = .dead := by
    intro i
    match i with
    | 0 => exact Or.inl h6
    | i + 1 => exact Or.inr ((I.dw (i + 1)).1 (I.od (i + 1) (by omega)))
  have hi : ∀ t, t ≠ 2 → s.b.pc t = .idle := by
    intro t ht
    apply Classical.byContradiction
    intro hp; have := (I.ins t).2 hp; rw [h4] at this; simp at this; exact ht this
  intro a h8 h9
  cases a with
  | fail t e =>
    by_cases e2 : t = 2
    · subst e2; exact absurd rfl (h9 e)
    · simp [TPE.step, hi t e2]
  | pfail i e => simp only [TPE.step]; rcases hw i with e | e <;> simp [e]
  | base a =>
    cases a with
    | call t c => exact absurd rfl (h8 t c)
    | go t =>
      by_cases e2 : t = 2
      · subst e2; simp [TPE.step, TP.step, h5, h7]
      · simp [TPE.step, TP.step, hi t e2]
    | expire t =>
      by_cases e2 : t = 2
      · subst e2; simp [TPE.step, TP.step, h5, h7]
      · simp [TPE.step, TP.step, hi t e2]
    | pgo i => simp only [TPE.step, TP.step]; rcases hw i with e | e <;> simp [e]
    | throw i => simp only [TPE.step, TP.step]; rcases hw i with e | e <;> simp [e]

end Verif.Props.ThreadPoolErr
