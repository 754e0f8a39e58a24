import Verif.Proof.ThreadPoolThread
import Verif.Props.ThreadPoolQueue
import Verif.Props.Thread
import Verif.Props.ThreadPoolMore
/-
C111: the thread pool running on the thread implementation of the StdCpp, Posix and Windows platforms.
-/
set_option linter.unusedSimpArgs false
set_option linter.unusedVariables false
namespace Verif.Props.ThreadPoolThread
open Verif TP TP.OnThreads
open _root_.Verif.Lts (Reach run runSat_ex run_reach)
open _root_.Verif.Mtx (Tid)
open _root_.Verif.EvF (Tmo)
open _root_.Verif.TP.Spec (rphase gphase about)
open _root_.Verif.Props.ThreadPool (Exec)
open _root_.Verif.Props.ThreadPoolQueue (Correct correct OnlyStarts)
open _root_.Verif.TP.OnQueue (merge merge_self merge_upd upd_view destroyer)

/-! #### The refinement -/

/-- The pool on the thread programs and the pool on atomic threads agree on everything but where exactly a client is inside a call of a thread. -/
def SamePool (p a : TP.St) : Prop :=
  p.n = a.n ∧ p.dflt = a.dflt ∧ p.task = a.task ∧ p.needs = a.needs ∧ p.prio = a.prio ∧ p.ev = a.ev ∧ p.guard = a.guard ∧ p.inside = a.inside ∧
  p.dying = a.dying ∧ p.gone = a.gone ∧ ∀ t, callOf (p.pc t) = callOf (a.pc t)

/-- Whatever the thread program is, if its calls are linearizable then every execution of the pool on it has the events of an execution of the pool on
atomic threads.  The history of every thread object (`ttr i`) ends in the state the atomic thread is in; a task runs only while the thread
object is inside Runnable::run. -/
theorem C111_refines {F A : Type} {n : Nat} {d : Int} {T : F → A → Option (F × List Thr.Ev)} {f0 : F}
    (hT : ∀ f ftr, Reach T f0 f ftr → ∃ q, Thr.Spec.Linearizable ftr q)
    {s : CSt F} {tr : List Ev} (h : Reach (OnThreads.step T) (OnThreads.init n d f0) s tr) :
    ∃ (a : TP.St) (ttr : Rid → List Thr.Ev), Exec n d a tr ∧ SamePool s.p a ∧ ∀ i, Reach T f0 (s.f i) (ttr i) ∧ (i < n → ∃ q, Thr.Spec.Linearizable (ttr i) q ∧
      (q = .finished ↔ a.w i = .finished) ∧ (q = .dead → a.w i = .dead) ∧ ∀ k, a.w i = .inTask k → q = .running) := by
  obtain ⟨a, ttr, α, hf, hr, rel⟩ := OnThreads.simulation hT h
  have e := rel.eq
  refine ⟨a, ttr, hr, ⟨?_, ?_, ?_, ?_, ?_, ?_, ?_, ?_, ?_, ?_, fun t => (rel.call t).symm⟩, fun i => ⟨hf i, fun hi => ⟨α i, rel.hi i, ?_⟩⟩⟩
  any_goals (rw [e]; rfl)
  have hn : ¬ s.p.n ≤ i := by
    have h1 : @Eq Nat a.n n := (TP.Inv.reach hr).st.cn
    have h2 : @Eq Nat a.n s.p.n := rel.num
    have : ¬ n ≤ i := Nat.not_le.2 hi
    rwa [← h2, h1]
  have hw := rel.wk i
  simp only [vW, if_neg hn] at hw
  have hrn := rel.rn i
  clear e
  cases hα : α i <;> rw [hα] at hw hrn <;> simp_all

theorem std_lin {f : Thr.St} {ftr : List Thr.Ev} (h : Reach (Thr.step false) Thr.init f ftr) : ∃ q, Thr.Spec.Linearizable ftr q :=
  Props.Thread.C55_linearizable h

/-- The pool on StdCppThread / PosixThread / WindowsThread has the properties C64 - C71 of the pool on atomic threads. -/
theorem C111_std {n : Nat} {d : Int} {s : CSt Thr.St} {tr : List Ev} (h : Reach (OnThreads.step (Thr.step false)) (OnThreads.init n d Thr.init) s tr) :
    Correct n d tr := by
  obtain ⟨a, _, ha, _⟩ := C111_refines (fun f ftr h => std_lin h) h
  exact correct ha

/-! #### The pool keeps the rules of the threads -/

/-- No thread is dead before destroy has waited for all of them. -/
theorem dwait_alive {n : Nat} {d : Int} {a : TP.St} {tr : List Ev} (h : Exec n d a tr) :
    ∀ t j, a.pc t = .on .destroy (.dWait j) → ∀ i, i < n → a.own i ≠ .dead := by
  suffices Exec n d a tr ∧ ∀ t j, a.pc t = .on .destroy (.dWait j) → ∀ i, i < n → a.own i ≠ .dead from this.2
  refine Lts.Reach.inv (I := fun a tr => Exec n d a tr ∧ ∀ t j, a.pc t = .on .destroy (.dWait j) → ∀ i, i < n → a.own i ≠ .dead)
    ⟨Reach.init, by intro t j h; simp [TP.init] at h⟩ ?_ h
  rintro s tr act s' ev ⟨hr, ih⟩ hs
  refine ⟨Reach.step hr hs, ?_⟩
  have S := (TP.Inv.reach hr).st
  obtain ⟨dy, al, dd⟩ := And.intro S.dy (And.intro S.al S.dd)
  clear h hr S
  cases act <;> simp only [TP.step] at hs <;> (repeat' split at hs) <;> simp only [Option.some.injEq, Prod.mk.injEq, reduceCtorEq] at hs <;>
    obtain ⟨rfl, rfl⟩ := hs <;>
    (try simp only [St.at, St.wAt, St.ownAt, St.evAt]) <;> grind [upd, entry, toOwn]

section
variable {n : Nat} {d : Int} {p a : TP.St} {ttr : Rid → List Thr.Ev} {α : Rid → Thr.Spec.A} {tr : List Ev}

theorem idle_iff {f : Thr.St} {ftr : List Thr.Ev} (I : Thr.Inv f ftr) (t : Tid) : f.pc t = .idle ↔ Thr.Spec.phase t ftr = .out := by
  have := I.loc t
  cases hp : f.pc t <;> rw [hp] at this <;> simp only [Thr.Loc] at this <;> simp_all
  split at this <;> simp_all

theorem call_lt (hr : Exec n d a tr) (rel : Rel p ttr α a) {t : Tid} {i : Rid} {c : Thr.Call} (h : tCall p t = some (i, c))
    (ho : Thr.Spec.phase t (ttr i) = .out) : i < p.n := by
  refine rel.lt hr h ?_
  rw [rel.pc]
  apply vPC_out
  intro j c' o'
  by_cases e : j = i
  · subst e; rw [ho]; simp
  · rw [rel.other h e]; simp

/-- The thread a client is about to use is not destroyed. -/
theorem alive (hr : Exec n d a tr) (rel : Rel p ttr α a) {t : Tid} {i : Rid} {c : Thr.Call} (h : tCall p t = some (i, c))
    (ho : Thr.Spec.phase t (ttr i) = .out) : α i ≠ .dead := by
  intro hd
  obtain ⟨h1, h2⟩ := rel.dead hr hd
  have S := (TP.Inv.reach hr).st
  have hpc : a.pc t = p.pc t := by
    rw [rel.pc]
    apply vPC_out
    intro j c' o'
    by_cases e : j = i
    · subst e; rw [ho]; simp
    · rw [rel.other h e]; simp
  have hlt : i < n := by
    have := rel.lt hr h hpc
    have h3 : @Eq Nat a.n n := S.cn
    have h4 : @Eq Nat a.n p.n := rel.num
    rw [← h3, h4]; exact this
  unfold tCall at h
  split at h
  · rename_i hq; exact h2 (rel.not_dying hr hq (by simp))
  · rename_i hq; exact h2 (rel.not_dying hr hq (by simp))
  · rename_i j hq
    rw [hq] at hpc
    exact dwait_alive hr t j hpc i hlt h1
  · rename_i hq
    split at h <;> simp only [Option.some.injEq, Prod.mk.injEq, reduceCtorEq] at h
    rename_i j r hf
    obtain ⟨rfl, rfl⟩ := h
    rcases rel.fr with ⟨_, h3, _⟩ | ⟨u, k, h3, h4, h5, h6⟩
    · exact h3 j (by rw [hf]; simp) hd
    · rw [hf] at h3
      simp only [List.cons.injEq] at h3
      obtain ⟨rfl, _⟩ := h3
      obtain ⟨c', _, h7⟩ := rel.ph j u (by rw [h5]; simp)
      by_cases e : u = t
      · subst e; rw [ho] at h5; simp at h5
      · unfold tCall at h7
        rw [(rel.alone hr hq).2 u e] at h7; simp at h7
  · simp at h

theorem can_call {f : Thr.St} (hr : Exec n d a tr) (rel : Rel p ttr α a) {t : Tid} {i : Rid} {c : Thr.Call} (h : tCall p t = some (i, c))
    (I : Thr.Inv f (ttr i)) (hid : f.pc t = .idle) : ∃ f', Thr.step false f (.call t c) = some (f', [.call t c]) := by
  have ho := (idle_iff I t).1 hid
  have hal := alive hr rel h ho
  have habs : Thr.abs f = α i := hist_det I.hist (rel.hi i).1
  have hg : f.gone = false := by
    cases hx : f.gone with
    | false => rfl
    | true => exfalso; apply hal; rw [← habs]; simp [Thr.abs, hx]
  have hd : f.dying = none := by
    cases hx : f.dying with
    | none => rfl
    | some u =>
      exfalso
      have h1 := I.dyin u hx hg
      have h2 : f.pc u ≠ .idle := by intro h; rw [h] at h1; simp [Thr.callOf] at h1
      have h3 : Thr.Spec.phase u (ttr i) ≠ .out := fun h => h2 ((idle_iff I u).2 h)
      obtain ⟨c', h4, h5⟩ := rel.ph i u h3
      have h6 : c' = .destroy := by
        have hl := I.loc u
        cases hp : f.pc u <;> rw [hp] at hl h1 <;> simp only [Thr.Loc] at hl <;> simp_all [Thr.callOf, calledBy]
      subst h6
      obtain ⟨h7, r, h8⟩ := tCall_destroy h5
      by_cases e : t = u
      · subst e; exact h2 hid
      · unfold tCall at h
        rw [(rel.alone hr h7).2 t e] at h; simp at h
  have hins : c = .destroy → f.inside = [] := by
    rintro rfl
    obtain ⟨h7, r, h8⟩ := tCall_destroy h
    rcases hx : f.inside with - | ⟨u, l⟩
    · rfl
    · exfalso
      have h2 := (I.ins u).1 (by rw [hx]; simp)
      have h3 : Thr.Spec.phase u (ttr i) ≠ .out := fun h => h2 ((idle_iff I u).2 h)
      obtain ⟨c', h4, h5⟩ := rel.ph i u h3
      by_cases e : u = t
      · subst e; exact h2 hid
      · unfold tCall at h5
        rw [(rel.alone hr h7).2 u e] at h5; simp at h5
  simp only [Thr.step]
  rw [if_pos ⟨hid, hg, fun hc => ⟨hd, Or.inr (hins hc)⟩, Or.inr hd⟩]
  exact ⟨_, rfl⟩
end

/-- The rules for the use of a thread are kept: where the pool's code calls a method of a thread the call is accepted (the thread is not destroyed, and
Thread::destroy does not overlap with any other call of that thread). -/
theorem C111_std_calls {n : Nat} {d : Int} {s : CSt Thr.St} {tr : List Ev} (h : Reach (OnThreads.step (Thr.step false)) (OnThreads.init n d Thr.init) s tr)
    {t : Tid} {i : Rid} {c : Thr.Call} (hc : tCall s.p t = some (i, c)) (hid : (s.f i).pc t = .idle) :
    ∃ s', OnThreads.step (Thr.step false) s (.thr i (.call t c)) = some (s', []) ∧ (s'.f i).pc t ≠ .idle := by
  obtain ⟨a, ttr, α, hf, hr, rel⟩ := OnThreads.simulation (fun f ftr h => std_lin h) h
  obtain ⟨f', hf'⟩ := can_call hr rel hc (Thr.Inv.reach (hf i)) hid
  refine ⟨⟨s.p, upd s.f i f'⟩, by simp [OnThreads.step, call_lt hr rel hc ((idle_iff (Thr.Inv.reach (hf i)) t).1 hid), hf', onEvs, onEv, hc], ?_⟩
  simp only [upd_same]
  have := (Thr.Inv.reach (Reach.step (hf i) hf')).loc t
  intro hx
  have h1 := (idle_iff (Thr.Inv.reach (Reach.step (hf i) hf')) t).1 hx
  rw [tphase_snoc, (idle_iff (Thr.Inv.reach (hf i)) t).1 hid] at h1
  simp [Proto.Phase.next, Thr.Spec.view, Proto.Phase.pnext] at h1

theorem onEvs_dead {i : Rid} : ∀ {xs : List Thr.Ev} {p p' : TP.St} {ev : List Ev}, (∀ j, p.w j ≠ .dead) → onEvs i p xs = some (p', ev) → ∀ j, p'.w j ≠ .dead
  | [], p, p', ev, hp, he => by
    simp only [onEvs, Option.some.injEq, Prod.mk.injEq] at he
    obtain ⟨rfl, rfl⟩ := he; exact hp
  | x :: xs, p, p', ev, hp, he => by
    simp only [onEvs] at he
    split at he
    · simp at he
    · rename_i p1 e1 h1
      split at he
      · simp at he
      · rename_i p2 e2 h2
        simp only [Option.some.injEq, Prod.mk.injEq] at he
        obtain ⟨rfl, rfl⟩ := he
        refine onEvs_dead ?_ h2
        intro j
        have := hp j
        cases x <;> simp only [onEv] at h1 <;> (repeat' split at h1) <;> simp only [Option.some.injEq, Prod.mk.injEq, reduceCtorEq] at h1 <;>
          obtain ⟨rfl, rfl⟩ := h1 <;> (try simp only [resume, St.wAt]) <;> grind [upd]

theorem no_dead {F A : Type} {T : F → A → Option (F × List Thr.Ev)} {f0 : F} {n : Nat} {d : Int} {s : CSt F} {tr : List Ev}
    (h : Reach (OnThreads.step T) (OnThreads.init n d f0) s tr) :
    ∀ i, s.p.w i ≠ .dead := by
  refine Lts.Reach.inv (I := fun s _ => ∀ i, s.p.w i ≠ .dead) (by intro i; simp [OnThreads.init]) ?_ h
  intro s tr act s' ev ih hs
  cases act with
  | tp act =>
    simp only [OnThreads.step] at hs
    split at hs
    · rename_i hc
      split at hs
      · rename_i p' ev' hm
        simp only [Option.some.injEq, Prod.mk.injEq] at hs
        obtain ⟨rfl, rfl⟩ := hs
        obtain ⟨_, c2, _⟩ := moved hc hm
        intro i
        by_cases e : p'.w i = s.p.w i
        · show p'.w i ≠ _; rw [e]; exact ih i
        · show p'.w i ≠ _
          rcases c2 i e with rfl | rfl <;> simp only [TP.step] at hm <;> (repeat' split at hm) <;>
            simp only [Option.some.injEq, Prod.mk.injEq, reduceCtorEq] at hm <;> obtain ⟨rfl, rfl⟩ := hm <;>
            simp only [St.wAt, St.evAt, St.ownAt, upd_same, ne_eq, reduceCtorEq, not_false_eq_true] <;> (try split) <;> simp
      · simp at hs
    · simp at hs
  | thr i act =>
    simp only [OnThreads.step] at hs
    split at hs
    case isFalse => simp at hs
    split at hs
    · simp at hs
    · split at hs
      · simp at hs
      · rename_i hm
        simp only [Option.some.injEq, Prod.mk.injEq] at hs
        obtain ⟨rfl, rfl⟩ := hs
        exact onEvs_dead ih hm

/-- There are only the threads `0 .. n - 1`. -/
theorem untouched {F A : Type} {T : F → A → Option (F × List Thr.Ev)} {f0 : F} (hT : ∀ f ftr, Reach T f0 f ftr → ∃ q, Thr.Spec.Linearizable ftr q)
    {n : Nat} {d : Int} {s : CSt F} {tr : List Ev} (h : Reach (OnThreads.step T) (OnThreads.init n d f0) s tr)
    {i : Rid} (hi : ¬ i < n) : s.f i = f0 := by
  suffices Reach (OnThreads.step T) (OnThreads.init n d f0) s tr ∧ s.f i = f0 from this.2
  refine Lts.Reach.inv (I := fun s tr => Reach (OnThreads.step T) (OnThreads.init n d f0) s tr ∧ s.f i = f0) ⟨Reach.init, rfl⟩ ?_ h
  rintro s tr act s' ev ⟨hr, ih⟩ hs
  refine ⟨Reach.step hr hs, ?_⟩
  have hn : s.p.n = n := by
    obtain ⟨a, ttr, α, hf, hr, rel⟩ := OnThreads.simulation hT hr
    have h1 : a.n = n := (TP.Inv.reach hr).st.cn
    have h2 : a.n = s.p.n := rel.num
    rw [← h2, h1]
  cases act with
  | tp act =>
    simp only [OnThreads.step] at hs
    (repeat' split at hs) <;> simp only [Option.some.injEq, Prod.mk.injEq, reduceCtorEq] at hs
    obtain ⟨rfl, rfl⟩ := hs; exact ih
  | thr j act =>
    simp only [OnThreads.step] at hs
    (repeat' split at hs) <;> simp only [Option.some.injEq, Prod.mk.injEq, reduceCtorEq] at hs
    obtain ⟨rfl, rfl⟩ := hs
    rename_i hlt _ _ _ _ _ _ _ _
    have : i ≠ j := by intro e; subst e; exact hi (by rw [← hn]; assumption)
    show upd s.f j _ i = f0
    rw [upd_ne _ _ this]; exact ih

/-- The thread object of a killed pool thread is dead. -/
theorem killed {F A : Type} {T : F → A → Option (F × List Thr.Ev)} {f0 : F} {n : Nat} {d : Int} {s : CSt F} {tr : List Ev}
    (h : Reach (OnThreads.step T) (OnThreads.init n d f0) s tr) {a : TP.St} {ttr : Rid → List Thr.Ev} {α : Rid → Thr.Spec.A}
    (hr : Exec n d a tr) (rel : Rel s.p ttr α a) {i : Rid} (hk : .kill i ∈ tr) : α i = .dead ∧ s.p.w i = .finished := by
  have hkd : .kill i ∈ tr → a.w i = .dead ∧ i < n := by
    suffices ∀ {a tr}, Exec n d a tr → Exec n d a tr ∧ (.kill i ∈ tr → a.w i = .dead ∧ i < n) from (this hr).2
    intro a tr h
    refine Lts.Reach.inv (I := fun a tr => Exec n d a tr ∧ (.kill i ∈ tr → a.w i = .dead ∧ i < n)) ⟨Reach.init, by simp⟩ ?_ h
    rintro s tr act s' ev ⟨hr, ih⟩ hs
    refine ⟨Reach.step hr hs, ?_⟩
    have S := (TP.Inv.reach hr).st
    have hlt : ∀ j, j ∈ s.free → j < n := by
      intro j hj
      apply Classical.byContradiction
      intro hn
      have := S.od j (Nat.le_of_not_lt hn)
      rw [(S.fo j).1 hj] at this; simp at this
    clear h hr S
    cases act <;> simp only [TP.step] at hs <;> (repeat' split at hs) <;> simp only [Option.some.injEq, Prod.mk.injEq, reduceCtorEq] at hs <;>
      obtain ⟨rfl, rfl⟩ := hs <;> simp only [List.mem_append, List.mem_cons, List.not_mem_nil, or_false, reduceCtorEq, Ev.kill.injEq] <;>
      (try simp only [St.at, St.wAt, St.ownAt, St.evAt]) <;> grind [upd]
  obtain ⟨hw, hi⟩ := hkd hk
  have hn : ¬ s.p.n ≤ i := by
    have h1 : @Eq Nat a.n n := (TP.Inv.reach hr).st.cn
    have h2 : @Eq Nat a.n s.p.n := rel.num
    have : ¬ n ≤ i := Nat.not_le.2 hi
    rwa [← h2, h1]
  have hown : a.own i = .dead := by
    have := (TP.Inv.reach hr).st.rs i
    unfold RShape at this
    split at this <;> simp [hw, late, busyP, busyG] at this
    assumption
  have hα : α i = .dead := by
    have := rel.wk i
    rw [hw] at this
    simp only [vW, if_neg hn] at this
    cases hx : α i <;> rw [hx] at this <;> simp at this
    exact absurd this.symm (no_dead h i)
  refine ⟨hα, ?_⟩
  apply Classical.byContradiction
  intro hne
  have := (rel.rn i).2 hne
  rw [hα] at this; simp at this

/-- When a thread of the pool has been destroyed its native thread has ended and nobody is inside the thread object but destroy on its way out. -/
theorem C111_std_free {n : Nat} {d : Int} {s : CSt Thr.St} {tr : List Ev} (h : Reach (OnThreads.step (Thr.step false)) (OnThreads.init n d Thr.init) s tr)
    {i : Rid} (hk : .kill i ∈ tr) : (s.f i).w = .dead ∧ (s.f i).gone = true ∧ s.p.w i = .finished ∧
      ∀ u, (s.f i).pc u = .idle ∨ (s.f i).pc u = .ret .destroy .destroyed := by
  obtain ⟨a, ttr, α, hf, hr, rel⟩ := OnThreads.simulation (fun f ftr h => std_lin h) h
  have I := Thr.Inv.reach (hf i)
  have habs : Thr.abs (s.f i) = α i := hist_det I.hist (rel.hi i).1
  obtain ⟨hα, hpw⟩ := killed h hr rel hk
  have hg : (s.f i).gone = true := by
    cases hx : (s.f i).gone with
    | true => rfl
    | false =>
      exfalso
      rw [hα] at habs
      unfold Thr.abs at habs
      rw [hx] at habs
      simp only [Bool.false_eq_true, if_false] at habs
      split at habs <;> simp at habs
      split at habs <;> simp at habs
  obtain ⟨h1, _, e, h3, h4⟩ := I.gone hg
  refine ⟨h1, hg, hpw, fun u => ?_⟩
  by_cases hu : u = e
  · subst hu; exact h4
  · exact Or.inl (I.alone e h3 u hu)

/-! #### Deadlock -/

/-- Nothing but new calls of the pool can happen (and wake-ups without notification). -/
def Stuck (s : CSt Thr.St) : Prop :=
  (∀ a, (∀ t c, a ≠ .call t c) → OnThreads.step (Thr.step false) s (.tp a) = none) ∧
  ∀ i a, (∀ t, a ≠ .spur t) → a ≠ .wspur → OnThreads.step (Thr.step false) s (.thr i a) = none

/-- What a thread object looks like in which only the Runnable could do something. -/
theorem stuck_thr {f : Thr.St} {ftr : List Thr.Ev} (I : Thr.Inv f ftr) (hgo : ∀ t, Thr.step false f (.go t) = none) (hex : ∀ t, Thr.step false f (.expire t) = none)
    (hw : Thr.step false f .wgo = none ∨ f.w = .running) :
    (f.w = .running ∨ (f.w = .sleep ∧ f.active = false) ∨ f.w = .dead) ∧ ∀ t, f.pc t = .idle ∨ (f.w = .running ∧ ∃ c, f.pc t = .tSleep c .forever) := by
  have hm : f.holder = none := by
    apply Classical.byContradiction
    intro hm
    obtain ⟨w, hw'⟩ := Option.ne_none_iff_exists'.1 hm
    cases w with
    | worker =>
      have := I.hw.1 hw'
      rcases hw with hw | hw
      · cases hp : f.w <;> rw [hp] at this <;> simp [Thr.wHolds] at this <;> simp [Thr.step, hp] at hw <;> split at hw <;> simp at hw
      · rw [hw] at this; simp [Thr.wHolds] at this
    | client u =>
      have := (I.hc u).1 hw'
      have hg := hgo u
      cases hp : f.pc u <;> rw [hp] at this <;> simp [Thr.cHolds] at this <;> simp [Thr.step, hp] at hg <;> grind
  have hnn : ∀ u, Thr.notif (f.pc u) = false := by
    intro u
    cases hn : Thr.notif (f.pc u)
    · rfl
    · have := (I.hc u).2 (by cases hp : f.pc u <;> rw [hp] at hn <;> simp_all [Thr.notif, Thr.cHolds])
      rw [hm] at this; simp at this
  have hww : f.w = .running ∨ (f.w = .sleep ∧ f.active = false) ∨ f.w = .dead := by
    rcases hw with hw | hw
    · right
      cases hp : f.w <;> simp [Thr.step, hp, hm] at hw <;> simp
      case sleep =>
        cases ha : f.active
        · rfl
        · obtain ⟨u, hu⟩ := I.awake hp ha
          rw [hnn u] at hu; simp at hu
      all_goals (split at hw <;> simp at hw)
    · exact Or.inl hw
  refine ⟨hww, fun t => ?_⟩
  have hg := hgo t
  have he := hex t
  have hl := I.loc t
  cases hp : f.pc t <;> rw [hp] at hl <;> simp [Thr.step, hp, hm] at hg <;> (try (left; rfl))
  case sTest | tTest => exfalso; grind
  case tSleep c tm =>
    simp only [Thr.Loc] at hl
    simp [Thr.step, hp] at he
    subst he
    right
    rcases hww with h1 | ⟨h1, h2⟩ | h1
    · exact ⟨h1, c, rfl⟩
    · simp [h1, h2] at hl
    · exfalso
      have he := I.isend (Or.inr h1)
      obtain ⟨d, hd, h2⟩ := I.fresh he
      have hdt : d = t := by
        apply Classical.byContradiction; intro hn
        have := I.alone d hd t (fun e => hn e.symm); rw [hp] at this; simp at this
      subst hdt
      rw [hp] at h2
      simp [Thr.dEnd] at h2
      obtain ⟨_, _, d', h3, h4⟩ := I.gone h2
      rw [hd] at h3; simp at h3; subst h3; rw [hp] at h4; simp at h4
  case dJoin =>
    simp only [Thr.Loc] at hl
    exfalso
    rcases hww with h1 | ⟨h1, h2⟩ | h1
    · have := I.noend (by simp [h1]); simp [this] at hl
    · simp [h2] at hl
    · exact hg h1

theorem go_events {f f' : Thr.St} {act : Thr.Act} {evs : List Thr.Ev} (h : Thr.step false f act = some (f', evs)) (ha : (∃ t, act = .go t) ∨ ∃ t, act = .expire t)
    (i : Rid) (p : TP.St) : ∃ y, onEvs i p evs = some y := by
  rcases ha with ⟨t, rfl⟩ | ⟨t, rfl⟩ <;> simp only [Thr.step] at h <;> (repeat' split at h) <;> simp only [Option.some.injEq, Prod.mk.injEq, reduceCtorEq] at h <;>
    obtain ⟨rfl, rfl⟩ := h <;> exact ⟨_, rfl⟩

/-- A stuck pool on thread programs is a stuck pool on atomic threads, if inside the threads nobody waits for anything but a Runnable that is running. -/
theorem stuck_gen {F A : Type} {T : F → A → Option (F × List Thr.Ev)} {f0 : F} {n : Nat} {d : Int} {s : CSt F} {tr : List Ev}
    (h : Reach (OnThreads.step T) (OnThreads.init n d f0) s tr) {a : TP.St} {ttr : Rid → List Thr.Ev} {α : Rid → Thr.Spec.A}
    (hr : Exec n d a tr) (rel : Rel s.p ttr α a)
    (s1 : ∀ a, (∀ t c, a ≠ .call t c) → OnThreads.step T s (.tp a) = none)
    (q2 : ∀ t i c, tCall s.p t = some (i, c) → Thr.Spec.phase t (ttr i) ≠ .out)
    (hnd : ∀ i t c o, Thr.Spec.phase t (ttr i) ≠ .done c o)
    (q4 : ∀ i t c, Thr.Spec.phase t (ttr i) = .called c → α i = .running ∧ Thr.tmo' c = some .forever)
    (q5 : ∀ i, i < s.p.n → α i ≠ .pending ∧ α i ≠ .over) (q6 : ∀ i, α i = .running → s.p.w i ≠ .over) :
    ∀ act, (∀ t c, act ≠ .call t c) → TP.step a act = none := by
  have hpc : ∀ t, a.pc t = s.p.pc t := fun t => by rw [rel.pc]; exact vPC_out (fun i c o => hnd i t c o)
  have hfree : a.free = s.p.free := by
    rcases rel.fr with h1 | ⟨t, i, _, _, h3, _⟩
    · exact h1.1
    · exact absurd h3 (hnd _ _ _ _)
  -- whoever calls a thread waits for it
  have hwait : ∀ t i c, tCall s.p t = some (i, c) → a.w i ≠ .finished ∧ Thr.tmo' c = some .forever := by
    intro t i c hc
    have h1 := q2 t i c hc
    obtain ⟨c2, h3, h4⟩ := rel.ph i t h1
    cases hp : Thr.Spec.phase t (ttr i) with
    | out => exact absurd hp h1
    | bad => exact absurd hp ((rel.hi i).2 t)
    | done c' o => exact absurd hp (hnd i t c' o)
    | called c' =>
      rw [hp] at h3
      simp only [calledBy, Option.some.injEq] at h3
      subst h3
      rw [hc] at h4
      simp only [Option.some.injEq, Prod.mk.injEq, true_and] at h4
      subst h4
      obtain ⟨hα, h5⟩ := q4 i t _ hp
      refine ⟨?_, h5⟩
      have := (rel.rn i).1 hα
      rw [(rel.w_run this).2]; exact this
  have hback : mk a s.p.own a.free s.p.pc s.p.w = s.p := by
    rw [hfree]; rw [rel.eq]; rfl
  have htc : ∀ t, tCall a t = tCall s.p t := by
    intro t; unfold tCall; rw [hpc, hfree, rel.num]
  have rev : ∀ act, (∀ t c, act ≠ .call t c) → own a act = true → own s.p act = true → (∀ i, act = .pgo i ∨ act = .throw i → s.p.w i = a.w i) → TP.step a act = none := by
    intro act hnc ho ho' hwk
    cases hx : TP.step a act with
    | none => rfl
    | some y =>
      exfalso
      obtain ⟨a1, h1, _⟩ := step_frame (ev := y.2) (p' := y.1) ho hx s.p.own s.p.pc s.p.w (fun t _ => (hpc t).symm) hwk (fun u => by rw [hpc])
      rw [hback] at h1
      have := s1 act hnc
      simp [OnThreads.step, ho', h1] at this
  intro act hnc
  have client : ∀ t, (act = .go t ∨ act = .expire t) → TP.step a act = none := by
    intro t ht
    cases hc : tCall s.p t with
    | none =>
      apply rev act hnc
      · rcases ht with rfl | rfl <;> simp [own, htc, hc]
      · rcases ht with rfl | rfl <;> simp [own, hc]
      · rcases ht with rfl | rfl <;> simp
    | some x =>
      obtain ⟨i, c⟩ := x
      obtain ⟨h1, h2⟩ := hwait t i c hc
      have h3 := hpc t
      unfold tCall at hc
      split at hc
      · rename_i hq
        simp only [Option.some.injEq, Prod.mk.injEq] at hc
        obtain ⟨rfl, rfl⟩ := hc
        simp only [Thr.tmo', Thr.Spec.tmo, Option.some.injEq] at h2
        rcases ht with rfl | rfl <;> simp [TP.step, h3, hq, h1, h2]
      · rename_i hq
        simp only [Option.some.injEq, Prod.mk.injEq] at hc
        obtain ⟨rfl, rfl⟩ := hc
        simp [Thr.tmo', Thr.Spec.tmo] at h2
      · rename_i hq
        split at hc <;> simp only [Option.some.injEq, Prod.mk.injEq, reduceCtorEq] at hc
        rename_i hlt
        obtain ⟨rfl, rfl⟩ := hc
        have hn := rel.num
        rcases ht with rfl | rfl <;> simp [TP.step, h3, hq, h1, hn, hlt]
      · rename_i hq
        split at hc <;> simp only [Option.some.injEq, Prod.mk.injEq, reduceCtorEq] at hc
        rename_i hfr
        obtain ⟨rfl, rfl⟩ := hc
        rcases ht with rfl | rfl <;> simp [TP.step, h3, hq, h1, hfree, hfr]
      · simp at hc
  have worker : ∀ j, (act = .pgo j ∨ act = .throw j) → TP.step a act = none := by
    intro j hj
    by_cases hfin : s.p.w j = .finished
    · have : a.w j = .finished ∨ a.w j = .dead := by
        rw [rel.wk]
        unfold vW
        split
        · exact Or.inr rfl
        · rename_i hge
          have hlt : j < s.p.n := Nat.not_le.1 hge
          have hnr : α j ≠ .running := fun h => (rel.rn j).1 h hfin
          obtain ⟨h1, h2⟩ := q5 j hlt
          cases hα : α j <;> simp_all
      rcases this with h1 | h1 <;> rcases hj with rfl | rfl <;> simp [TP.step, h1]
    · obtain ⟨h1, h2⟩ := rel.w_run hfin
      have hov := q6 j h1
      have hde := no_dead h j
      have ho : ∀ p : TP.St, p.w j = s.p.w j → own p act = true := by
        intro p hp
        rcases hj with rfl | rfl <;> simp only [own, hp] <;> (cases hx : s.p.w j <;> first | rfl | exact absurd hx hfin | exact absurd hx hov | exact absurd hx hde)
      refine rev act hnc (ho a h2) (ho s.p rfl) ?_
      intro k hk
      have : k = j := by rcases hj with rfl | rfl <;> simp at hk <;> exact hk.symm
      subst this; exact h2.symm
  cases act with
  | call t c => exact absurd rfl (hnc t c)
  | go t => exact client t (Or.inl rfl)
  | expire t => exact client t (Or.inr rfl)
  | pgo j => exact worker j (Or.inl rfl)
  | throw j => exact worker j (Or.inr rfl)

/-- A stuck pool on the threads is a stuck pool on atomic threads. -/
theorem stuck_threads {n : Nat} {d : Int} {s : CSt Thr.St} {tr : List Ev} (h : Reach (OnThreads.step (Thr.step false)) (OnThreads.init n d Thr.init) s tr)
    (hst : Stuck s) : ∃ a, Exec n d a tr ∧ ∀ act, (∀ t c, act ≠ .call t c) → TP.step a act = none := by
  obtain ⟨a, ttr, α, hf, hr, rel⟩ := OnThreads.simulation (fun f ftr h => std_lin h) h
  obtain ⟨s1, s2⟩ := hst
  have I := fun i => Thr.Inv.reach (hf i)
  have habs : ∀ i, Thr.abs (s.f i) = α i := fun i => hist_det (I i).hist (rel.hi i).1
  have hn : s.p.n = n := by
    have h1 : a.n = n := (TP.Inv.reach hr).st.cn
    have h2 : a.n = s.p.n := rel.num
    rw [← h2, h1]
  have hgo : ∀ i, i < s.p.n → ∀ t, Thr.step false (s.f i) (.go t) = none := by
    intro i hlt t
    cases hx : Thr.step false (s.f i) (.go t) with
    | none => rfl
    | some y =>
      obtain ⟨⟨p', ev⟩, hy⟩ := go_events hx (Or.inl ⟨t, rfl⟩) i s.p
      have := s2 i (.go t) (by simp) (by simp)
      simp [OnThreads.step, hlt, hx, hy] at this
  have hex : ∀ i, i < s.p.n → ∀ t, Thr.step false (s.f i) (.expire t) = none := by
    intro i hlt t
    cases hx : Thr.step false (s.f i) (.expire t) with
    | none => rfl
    | some y =>
      obtain ⟨⟨p', ev⟩, hy⟩ := go_events hx (Or.inr ⟨t, rfl⟩) i s.p
      have := s2 i (.expire t) (by simp) (by simp)
      simp [OnThreads.step, hlt, hx, hy] at this
  have hwgo : ∀ i, i < s.p.n → (Thr.step false (s.f i) .wgo = none ∨ (s.f i).w = .running) ∧ ((s.f i).w = .running → s.p.w i ≠ .over) := by
    intro i hlt
    have h1 := s2 i .wgo (by simp) (by simp)
    refine ⟨?_, ?_⟩
    · by_cases hrun : (s.f i).w = .running
      · exact Or.inr hrun
      · left
        cases hx : Thr.step false (s.f i) .wgo with
        | none => rfl
        | some y =>
          exfalso
          simp only [OnThreads.step, if_pos hlt, hx] at h1
          have : ∃ y', onEvs i s.p y.2 = some y' := by
            clear h1
            simp only [Thr.step] at hx
            (repeat' split at hx) <;> simp only [Option.some.injEq, reduceCtorEq] at hx <;> subst hx <;>
              first | exact ⟨_, rfl⟩ | (exfalso; simp_all; done)
          obtain ⟨y', hy⟩ := this
          rw [hy] at h1; simp at h1
    · intro hrun hov
      simp [OnThreads.step, hlt, Thr.step, hrun, onEvs, onEv, hov] at h1
  have key := fun i hlt => stuck_thr (I i) (hgo i hlt) (hex i hlt) (hwgo i hlt).1
  have key2 : ∀ i t, (s.f i).pc t = .idle ∨ ((s.f i).w = .running ∧ ∃ c, (s.f i).pc t = .tSleep c .forever) := by
    intro i t
    by_cases hlt : i < s.p.n
    · exact (key i hlt).2 t
    · left; rw [untouched (fun f ftr h => std_lin h) h (by rw [← hn]; exact hlt)]; rfl
  -- no call is between its effect and its return
  have hnd : ∀ i t c o, Thr.Spec.phase t (ttr i) ≠ .done c o := by
    intro i t c o hp
    have hl := (I i).loc t
    rcases key2 i t with h1 | ⟨_, c', h1⟩ <;> rw [h1] at hl <;> simp only [Thr.Loc] at hl
    · rw [hl] at hp; simp at hp
    · rw [hl.1] at hp; simp at hp
  have q4 : ∀ i t c, Thr.Spec.phase t (ttr i) = .called c → α i = .running ∧ Thr.tmo' c = some .forever := by
    intro i t c hp
    have hl := (I i).loc t
    rcases key2 i t with h1 | ⟨h1, c', h2⟩
    · rw [h1] at hl; simp only [Thr.Loc] at hl
      rw [hl] at hp; simp at hp
    · rw [h2] at hl
      simp only [Thr.Loc] at hl
      rw [hl.1] at hp
      simp only [Proto.Phase.called.injEq] at hp
      subst hp
      refine ⟨?_, hl.2.1⟩
      rw [← habs]; unfold Thr.abs; rw [h1]
      cases hg : (s.f i).gone with
      | false => simp
      | true => have := ((I i).gone hg).1; rw [h1] at this; simp at this
  refine ⟨a, hr, stuck_gen h hr rel s1 ?_ hnd q4 ?_ ?_⟩
  · intro t i c hc hp
    have h1 := (idle_iff (I i) t).2 hp
    obtain ⟨s', h3, _⟩ := C111_std_calls h hc h1
    have := s2 i (.call t c) (by simp) (by simp)
    rw [h3] at this; simp at this
  · intro i hlt
    have hα := habs i
    unfold Thr.abs at hα
    rcases (key i hlt).1 with h1 | ⟨h1, h2⟩ | h1
    · rw [h1] at hα
      cases hg : (s.f i).gone <;> rw [hg] at hα <;> simp at hα <;> rw [← hα] <;> simp
    · rw [h1, h2] at hα
      cases hg : (s.f i).gone <;> rw [hg] at hα <;> simp at hα <;> rw [← hα] <;> simp
    · have he := (I i).isend (Or.inr h1)
      rw [h1, he] at hα
      cases hg : (s.f i).gone <;> rw [hg] at hα <;> simp at hα <;> rw [← hα] <;> simp
  · intro i hα
    have hlt : i < s.p.n := by
      apply Classical.byContradiction
      intro hge
      have := habs i
      rw [untouched (fun f ftr h => std_lin h) h (by rw [← hn]; exact hge), hα] at this
      simp [Thr.abs, Thr.init] at this
    refine (hwgo i hlt).2 ?_
    have h1 := habs i
    rw [hα] at h1
    unfold Thr.abs at h1
    rcases (key i hlt).1 with h3 | ⟨h3, h4⟩ | h3
    · exact h3
    · rw [h3, h4] at h1; split at h1 <;> simp at h1
    · have he := (I i).isend (Or.inr h3)
      rw [h3, he] at h1; split at h1 <;> simp at h1

/-- The locks and condition variables of the threads never make pool calls wait for each other: what can be left over are starts without timeout that wait
for the release of a guard. -/
theorem C111_std_stuck {n : Nat} {d : Int} {s : CSt Thr.St} {tr : List Ev} (h : Reach (OnThreads.step (Thr.step false)) (OnThreads.init n d Thr.init) s tr)
    (hst : Stuck s) : OnlyStarts n tr := by
  obtain ⟨a, ha, hs⟩ := stuck_threads h hst
  exact Props.ThreadPoolMore.C77_stuck ha hs

/-! #### A schedule -/

abbrev tstep : CSt Thr.St → CAct Thr.Act → Option (CSt Thr.St × List Ev) := OnThreads.step (Thr.step false)
def tp (a : Act) : CAct Thr.Act := .tp a
def th (a : Thr.Act) : CAct Thr.Act := .thr 0 a

/-- A pool with one thread.  Client 1 starts task 7 with guard 5, client 2 wants to start task 8 and finds no thread; task 7 throws and is over; the guard is not released. -/
def waiting : List (CAct Thr.Act) :=
  [tp (.call 1 (.start (some 7) .forever (some 5) 3)), tp (.go 1), tp (.go 1), th (.call 1 (.timedWait .forever))] ++ List.replicate 4 (th (.go 1)) ++
  [tp (.go 1), tp (.go 1), th (.call 1 .start)] ++ List.replicate 6 (th (.go 1)) ++ [tp (.go 1), tp (.go 1), tp (.call 2 (.start (some 8) .forever none 4)), tp (.go 2)] ++
  List.replicate 5 (th .wgo) ++ [tp (.pgo 0), tp (.throw 0)] ++ List.replicate 4 (tp (.pgo 0)) ++ List.replicate 7 (th .wgo)
/-- The guard is released, task 8 runs; meanwhile client 3 destroys the pool, which waits for the task and joins the native thread. -/
def ending : List (CAct Thr.Act) :=
  [tp (.call 1 (.release 5))] ++ List.replicate 6 (tp (.go 1)) ++ [tp (.go 2), th (.call 2 (.timedWait .forever))] ++ List.replicate 4 (th (.go 2)) ++
  [tp (.go 2), tp (.go 2), th (.call 2 .start)] ++ List.replicate 6 (th (.go 2)) ++ [tp (.go 2), tp (.go 2), tp (.call 3 .destroy), th (.call 3 .wait), th (.go 3), th (.go 3)] ++
  List.replicate 5 (th .wgo) ++ List.replicate 7 (tp (.pgo 0)) ++ List.replicate 7 (th .wgo) ++ List.replicate 4 (th (.go 3)) ++ [tp (.go 3), th (.call 3 .destroy)] ++
  List.replicate 8 (th (.go 3)) ++ List.replicate 4 (th .wgo) ++ [th (.go 3), th (.go 3), tp (.go 3), tp (.go 3)]

set_option maxRecDepth 40000 in
/-- Both tasks run on the one thread, then it is destroyed: the hypotheses of C111_std and C111_std_free. -/
example : ∃ s tr, Reach tstep (OnThreads.init 1 5 Thr.init) s tr ∧
    decide (Ev.ret 1 (.release 5) .done ∈ tr ∧ Ev.ret 2 (.start (some 8) .forever none 4) .ok ∈ tr ∧ Ev.ret 3 .destroy .done ∈ tr ∧ Ev.kill 0 ∈ tr ∧
    Props.ThreadPool.begun 0 tr = [(7, 3), (8, 4)] ∧ s.p.gone = true) = true :=
  runSat_ex (step := tstep) (init := OnThreads.init 1 5 Thr.init) (as := waiting ++ ending) (P := fun s tr => decide (Ev.ret 1 (.release 5) .done ∈ tr ∧ Ev.ret 2 (.start (some 8) .forever none 4) .ok ∈ tr ∧ Ev.ret 3 .destroy .done ∈ tr ∧ Ev.kill 0 ∈ tr ∧
    Props.ThreadPool.begun 0 tr = [(7, 3), (8, 4)] ∧ s.p.gone = true)) (by decide)

set_option maxRecDepth 40000 in
/-- The hypotheses of C111_std_calls: the destroyer is about to wait for thread 0. -/
example : ∃ s tr, Reach tstep (OnThreads.init 1 5 Thr.init) s tr ∧ decide (tCall s.p 3 = some (0, .wait) ∧ (s.f 0).pc 3 = .idle) = true :=
  runSat_ex (step := tstep) (init := OnThreads.init 1 5 Thr.init) (as := [tp (.call 3 .destroy)]) (P := fun s tr => decide (tCall s.p 3 = some (0, .wait) ∧ (s.f 0).pc 3 = .idle)) (by decide)

set_option maxRecDepth 40000 in
/-- The hypothesis of the stuck theorem: after `waiting` only client 2 is inside a call, and the native thread sleeps. -/
example : ∃ s tr, Reach tstep (OnThreads.init 1 5 Thr.init) s tr ∧ Stuck s ∧ TP.Spec.phase 2 tr = .called (.start (some 8) .forever none 4) := by
  obtain ⟨s, tr, h, hp⟩ := runSat_ex (step := tstep) (init := OnThreads.init 1 5 Thr.init) (as := waiting)
    (P := fun s tr => decide (s.p.inside = [2] ∧ s.p.pc 2 = .on (.start (some 8) .forever none 4) .sRecv ∧ s.p.free = [] ∧ s.p.n = 1 ∧
      (s.f 0).inside = [] ∧ (s.f 0).w = .sleep ∧ s.p.w 0 = .finished ∧ TP.Spec.phase 2 tr = .called (.start (some 8) .forever none 4))) (by decide)
  simp only [decide_eq_true_eq] at hp
  obtain ⟨h1, h2, h3, h4, h5, h6, h7, h8⟩ := hp
  refine ⟨s, tr, h, ?_, h8⟩
  obtain ⟨a, ttr, α, hf, hr, rel⟩ := OnThreads.simulation (fun f ftr h => std_lin h) h
  have S := (TP.Inv.reach hr).st
  have hpc : ∀ t, t ≠ 2 → s.p.pc t = .idle := by
    intro t ht
    apply Classical.byContradiction
    intro hne
    have e : callOf (a.pc t) = callOf (s.p.pc t) := rel.call t
    have h9 : t ∈ a.inside := by
      rw [S.ins]
      intro h0; rw [h0] at e
      cases hq : s.p.pc t <;> rw [hq] at e hne <;> simp [callOf] at e hne
    have : a.inside = s.p.inside := by rw [rel.eq]; rfl
    rw [this, h1] at h9; simp at h9; exact ht h9
  have hw : ∀ i, s.p.w i = .finished := by
    intro i
    apply Classical.byContradiction
    intro hne
    have hα := (rel.w_run hne).1
    by_cases hlt : i < 1
    · have : i = 0 := Nat.lt_one_iff.1 hlt
      subst this; exact hne h7
    · have hα' := hist_det (Thr.Inv.reach (hf i)).hist (rel.hi i).1
      rw [untouched (fun f ftr h => std_lin h) h hlt, hα] at hα'
      simp [Thr.abs, Thr.init] at hα'
  have hti : ∀ t, (s.f 0).pc t = .idle := by
    intro t
    apply Classical.byContradiction
    intro hne
    have := ((Thr.Inv.reach (hf 0)).ins t).2 hne
    rw [h5] at this; simp at this
  refine ⟨?_, ?_⟩
  · intro act hact
    cases act with
    | call t c => exact absurd rfl (hact t c)
    | go t =>
      by_cases e : t = 2
      · subst e; simp [OnThreads.step, TP.step, h2, h3]
      · simp [OnThreads.step, hpc t e, TP.step]
    | expire t =>
      by_cases e : t = 2
      · subst e; simp [OnThreads.step, TP.step, h2, h3]
      · simp [OnThreads.step, hpc t e, TP.step]
    | pgo i => simp [OnThreads.step, own, hw i]
    | throw i => simp [OnThreads.step, own, hw i]
  · intro i act hsp hws
    simp only [OnThreads.step, h4]
    split
    · rename_i hlt
      have : i = 0 := by have : (i : Nat) < 1 := hlt; exact Nat.lt_one_iff.1 this
      subst this
      cases act with
      | call t c =>
        simp only [Thr.step, hti]
        split
        · rfl
        · rename_i heq
          split at heq <;> simp only [Option.some.injEq, Prod.mk.injEq, reduceCtorEq] at heq
          obtain ⟨rfl, rfl⟩ := heq
          have : tCall s.p t = none := by
            by_cases e : t = 2
            · subst e; simp [tCall, h2]
            · simp [tCall, hpc t e]
          simp [onEvs, onEv, this]
      | go t => simp [Thr.step, hti]
      | expire t => simp [Thr.step, hti]
      | spur t => exact absurd rfl (hsp t)
      | wgo => simp [Thr.step, h6]
      | wspur => exact absurd rfl hws
    · rfl
end Verif.Props.ThreadPoolThread
