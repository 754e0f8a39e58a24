import Verif.Proof.ThreadPoolNote
import Verif.Props.ThreadPool
/-
Properties C66–C68, C70, C71: WaitGuards, accounting of the pool threads, throwing tasks, destroy, null tasks.  The specification is
`Verif/Spec/ThreadPool.lean`.
-/
namespace Verif.Props.ThreadPoolGuard
open Verif
open _root_.Verif.Mtx (Tid)
open _root_.Verif.EvF (Tmo)
open TP Spec Lts Proto
open Verif.Props.ThreadPool
set_option linter.unusedSimpArgs false
set_option linter.unusedVariables false

/-! #### C66 -/

/-- Each use of a guard goes: a start with the guard hands over a task; the task ends; the guard is notified; a release of the guard makes the thread
available again. -/
theorem C66_life {n : Nat} {d : Int} {s : TP.St} {tr : List Ev} (h : Exec n d s tr) (g : Gid) : gnote g tr ≠ .bad := gnote_bad h g

/-- wait, tryWait, timedWait return OK only if the task of the guard has ended (by return or exception), if there is one. -/
theorem C66_ok {n : Nat} {d : Int} {s : TP.St} {tr : List Ev} (h : Exec n d s tr) {a b : List Ev} {t g tm} (e : tr = a ++ .ret t (.wait g tm) .ok :: b)
    {a1 a2 : List Ev} {u i k p} (ha : a = a1 ++ .acc u i k (some g) p :: a2) : ∃ x, .ended i k x ∈ a2 := by
  obtain ⟨s1, s2, h1, h2, _⟩ := ret_at h e
  have := retOk h1 t
  rw [h2] at this
  rcases guarded h1 ha with ⟨h3, _⟩ | ⟨c, x, e', h3, _⟩
  · exact absurd h3 (this i)
  · exact ⟨x, by rw [h3]; simp⟩

/-- They return OK or TimedOut, TimedOut only if a timeout was given and the guard is valid. -/
theorem C66_results {n : Nat} {d : Int} {s : TP.St} {tr : List Ev} (h : Exec n d s tr) {a b : List Ev} {t g tm o} (e : tr = a ++ .ret t (.wait g tm) o :: b) :
    o = .ok ∨ o = .timedOut ∧ tm ≠ .forever ∧ ∃ i, gphase g a = .busy i ∨ gphase g a = .over i := by
  rcases ret_results h e with rfl | ⟨rfl, h1⟩
  · exact Or.inl rfl
  · right
    obtain ⟨s1, s2, h2, h3, _⟩ := ret_at h e
    have h4 := retOk h2 t
    rw [h3] at h4
    have h5 := (Inv.reach h2).gp_bad g
    simp only [RetOk] at h4
    refine ⟨rfl, h1, ?_⟩
    cases hg : gphase g a with
    | free => exact absurd hg h4
    | bad => exact absurd hg h5
    | busy i => exact ⟨i, Or.inl rfl⟩
    | over i => exact ⟨i, Or.inr rfl⟩

/-- If the guard has been notified before the call (and not been released), they return OK, even without waiting. -/
theorem C66_prompt {n : Nat} {d : Int} {s : TP.St} {tr : List Ev} (h : Exec n d s tr) {a1 a2 b c : List Ev} {t u g tm o i k p}
    (e : tr = a1 ++ .acc u i k (some g) p :: (a2 ++ .call t (.wait g tm) :: (b ++ .ret t (.wait g tm) o :: c)))
    (hn : .note i ∈ a2) (hb : .back i (some g) ∉ a2) (hr : ∀ o, .ret t (.wait g tm) o ∉ b) : o = .ok := by
  have e1 : tr = ((a1 ++ .acc u i k (some g) p :: a2) ++ .call t (.wait g tm) :: b) ++ .ret t (.wait g tm) o :: c := by rw [e]; simp
  obtain ⟨s1, s2, h1, h2, _⟩ := ret_at h e1
  have hg : gnote g (a1 ++ .acc u i k (some g) p :: a2) = .told i := by
    have hbad : gnote g (a1 ++ .acc u i k (some g) p :: a2) ≠ .bad := by
      have := gnote_bad h1 g
      intro hb; rw [gnote_app, hb, bad_N] at this; exact this rfl
    rw [gnote_app, List.foldl_cons] at hbad ⊢
    have hx : GN.next g (gnote g a1) (.acc u i k (some g) p) = .busy i := by
      simp only [GN.next, if_true]
      split
      · rfl
      · next hf => exfalso; apply hbad; simp only [GN.next, if_true, if_neg hf]; exact bad_N a2
    rw [hx] at hbad ⊢
    exact told_fold a2 _ (Or.inl rfl) hbad hb (Or.inl hn)
  obtain ⟨_, q, h3, h4⟩ := prompt h1 rfl hg hr
  rw [h2] at h3; simp at h3
  rcases ret_results h e1 with rfl | ⟨rfl, _⟩
  · rfl
  · exact absurd h3.symm h4

/-- When release (the destructor) returns, the task has ended, the guard is not valid and its thread is available again. -/
theorem C66_release {n : Nat} {d : Int} {s : TP.St} {tr : List Ev} (h : Exec n d s tr) {a b : List Ev} {t g o} (e : tr = a ++ .ret t (.release g) o :: b) :
    o = .done ∧ gphase g a = .free ∧
    ∀ {a1 a2 : List Ev} {u i k p}, a = a1 ++ .acc u i k (some g) p :: a2 → ∃ c1 x c2, a2 = c1 ++ .ended i k x :: c2 ∧ .back i (some g) ∈ c2 := by
  obtain ⟨s1, s2, h1, h2, _⟩ := ret_at h e
  have := retOk h1 t
  rw [h2] at this
  simp only [RetOk] at this
  refine ⟨ret_results h e, this, fun {a1 a2 u i k p} ha => ?_⟩
  rcases guarded h1 ha with ⟨h3, _⟩ | ⟨c, x, e', h3, h4⟩
  · rw [this] at h3; simp at h3
  · exact ⟨c, x, e', h3, over_fold e' (by rw [← h4, this])⟩

/-- A guard makes a thread available only as part of a release, once its task has ended; a guard is released once per task. -/
theorem C66_once {n : Nat} {d : Int} {s : TP.St} {tr : List Ev} (h : Exec n d s tr) {a b : List Ev} {g i} (e : tr = a ++ .back i (some g) :: b) :
    gphase g a = .over i ∧ gphase g (a ++ [.back i (some g)]) = .free := by
  have hb := (Inv.reach h).gp_bad g
  have : gphase g a = .over i := by
    apply Classical.byContradiction
    intro hn
    apply hb
    rw [e, gphase_app, List.foldl_cons, show GP.next g (gphase g a) (.back i (some g)) = .bad by simp [GP.next, hn]]
    clear hb e
    induction b with
    | nil => rfl
    | cons y l ih => rw [List.foldl_cons, show GP.next g .bad y = .bad by unfold GP.next; split <;> simp]; exact ih
  exact ⟨this, by rw [gphase_app, this]; simp [GP.next]⟩

/-- isValid tells whether the guard has a task that it has not been released from. -/
theorem C66_valid {n : Nat} {d : Int} {s : TP.St} {tr : List Ev} (h : Exec n d s tr) {a b : List Ev} {t g o} (e : tr = a ++ .ret t (.isValid g) o :: b) :
    ∃ v, o = .valid v ∧ (v = true ↔ ∃ i, gphase g a = .busy i ∨ gphase g a = .over i) := by
  obtain ⟨v, rfl⟩ := ret_results h e
  refine ⟨v, rfl, ?_⟩
  obtain ⟨s1, s2, h2, h3, _⟩ := ret_at h e
  have h4 := retOk h2 t
  rw [h3] at h4
  simp only [RetOk] at h4
  rw [h4]
  have h5 := (Inv.reach h2).gp_bad g
  cases hg : gphase g a <;> simp [hg] at h5 ⊢

/-- Two guards never stand for the same thread. -/
theorem C66_exclusive {n : Nat} {d : Int} {s : TP.St} {tr : List Ev} (h : Exec n d s tr) {g g' i} (h1 : gphase g tr = .busy i ∨ gphase g tr = .over i)
    (h2 : gphase g' tr = .busy i ∨ gphase g' tr = .over i) : g = g' := by
  have I := Inv.reach h
  have key : ∀ g, gphase g tr = .busy i ∨ gphase g tr = .over i → s.own i = .guard g ∨ ∃ t q, s.own i = .rel t ∧ s.pc t = .on (.release g) q := by
    intro g hg
    rcases hg with hg | hg
    · exact Or.inl (I.gp_busy hg).1
    · rcases I.gp_over hg with h | h
      · exact Or.inl h.1
      · exact Or.inr h
  rcases key g h1 with k1 | ⟨t, q, k1, k2⟩ <;> rcases key g' h2 with k3 | ⟨t', q', k3, k4⟩
  · rw [k1] at k3; simpa using k3
  · rw [k1] at k3; simp at k3
  · rw [k1] at k3; simp at k3
  · rw [k1] at k3; simp at k3; subst k3; rw [k2] at k4; simp at k4; exact k4.1

/-! Liveness of all calls -/

/-- Every call but a start without timeout returns, if the client and the pool threads are scheduled fairly, tasks end, and timeouts pass. -/
theorem returns {st : Nat → TP.St} {act : Nat → Option Act} {ev : Nat → List Ev} {n : Nat} {d : Int} (hx : InfExec (stut TP.step) st act ev) (h0 : st 0 = TP.init n d)
    {t : Tid} {c : Call} (hc : forever c = false) (hft : WeakFair (stut TP.step) st act (some (.go t))) (hfe : WeakFair (stut TP.step) st act (some (.expire t)))
    (hfp : ∀ i, WeakFair (stut TP.step) st act (some (.pgo i))) {m : Nat} (hm : .call t c ∈ ev m) : ∃ m' o, m < m' ∧ .ret t c o ∈ ev m' := by
  apply Classical.byContradiction
  intro hno
  have I := fun m => Inv.reach (prefix_at hx h0 m)
  have inside : ∀ k, ∃ q, (st (m + 1 + k)).pc t = .on c q := by
    intro k
    induction k with
    | zero =>
      rcases stut_cases (hx m) with ⟨_, _, h⟩ | ⟨a, _, h⟩
      · rw [h] at hm; simp at hm
      · exact ⟨_, (call_ev h hm).2.2⟩
    | succ k ih =>
      obtain ⟨q, hq⟩ := ih
      rcases stut_cases (hx (m + 1 + k)) with ⟨_, h, _⟩ | ⟨a, _, h⟩
      · exact ⟨q, by rw [show m + 1 + (k + 1) = m + 1 + k + 1 from rfl, h]; exact hq⟩
      rcases (I _).stay h hq with h | ⟨o, _, h⟩
      · exact h
      · exact absurd ⟨m + 1 + k, o, by omega, by rw [h]; simp⟩ hno
  have inside' : ∀ k, m + 1 ≤ k → ∃ q, (st k).pc t = .on c q := by
    intro k hk; obtain ⟨j, rfl⟩ := Nat.exists_eq_add_of_le hk; exact inside j
  obtain ⟨k, hk, hz⟩ := fair_zero (step := stut TP.step) (st := st) (act := act) (TP.M t) (fun s => some (TP.help t s)) (m + 1)
    (by
      intro k hk _
      obtain ⟨q, hq⟩ := inside' k hk
      rcases stut_cases (hx k) with ⟨h1, h, _⟩ | ⟨a, h1, h⟩
      · rw [h, h1]; exact ⟨Nat.le_refl _, by simp, fun _ => rfl⟩
      · obtain ⟨g1, g2, g3⟩ := (I k).M_step h hq
        refine ⟨g1, fun ha => g2 (by rw [h1] at ha; simpa using ha), fun ha => by rw [g3 ha]⟩)
    (by
      intro k hk _
      obtain ⟨q, hq⟩ := inside' k hk
      exact (I k).M_en hq hc (fun j hj => nodead (prefix_at hx h0 k) hj))
    (by
      intro k hk _
      unfold TP.help
      split
      · split
        · exact hft
        · exact hfp _
      · exact hfe
      · split
        · exact hft
        · exact hfp _
      · split
        · exact hft
        · exact hfp _
      · split
        · exact hfp _
        · exact hft
      · exact hft)
  obtain ⟨q, hq⟩ := inside' k hk
  exact Inv.M_pos (n := n) hq hz

/-- release returns. -/
theorem C66_releases {st : Nat → TP.St} {act : Nat → Option Act} {ev : Nat → List Ev} {n : Nat} {d : Int} (hx : InfExec (stut TP.step) st act ev) (h0 : st 0 = TP.init n d)
    {t : Tid} {g : Gid} (hft : WeakFair (stut TP.step) st act (some (.go t))) (hfe : WeakFair (stut TP.step) st act (some (.expire t)))
    (hfp : ∀ i, WeakFair (stut TP.step) st act (some (.pgo i))) {m : Nat} (hm : .call t (.release g) ∈ ev m) : ∃ m', m < m' ∧ .ret t (.release g) .done ∈ ev m' := by
  obtain ⟨m', o, h1, h2⟩ := returns hx h0 (by rfl) hft hfe hfp hm
  obtain ⟨l1, l2, hl⟩ := List.append_of_mem h2
  have := (C66_release (prefix_at hx h0 (m' + 1)) (a := upto ev m' ++ l1) (b := l2) (t := t) (g := g) (o := o) (by rw [upto, hl]; simp)).1
  exact ⟨m', h1, by rw [← this]; exact h2⟩

/-- wait, tryWait, timedWait return. -/
theorem C66_waits {st : Nat → TP.St} {act : Nat → Option Act} {ev : Nat → List Ev} {n : Nat} {d : Int} (hx : InfExec (stut TP.step) st act ev) (h0 : st 0 = TP.init n d)
    {t : Tid} {g : Gid} {tm : Tmo} (hft : WeakFair (stut TP.step) st act (some (.go t))) (hfe : WeakFair (stut TP.step) st act (some (.expire t)))
    (hfp : ∀ i, WeakFair (stut TP.step) st act (some (.pgo i))) {m : Nat} (hm : .call t (.wait g tm) ∈ ev m) : ∃ m' o, m < m' ∧ .ret t (.wait g tm) o ∈ ev m' :=
  returns hx h0 (by rfl) hft hfe hfp hm

/-! #### C67 -/

theorem lost_drop {n : Nat} {d : Int} {s : TP.St} {tr : List Ev} (h : Exec n d s tr) (i : Rid) : s.own i = .lost ↔ ∃ t, .drop t i ∈ tr := by
  induction h with
  | init => by_cases hi : i < n <;> simp [TP.init, hi]
  | @step s tr a s' ev h1 hs ih =>
    have I := Inv.reach h1
    have hr : rank (s.w i) = rank (s.w i) := rfl
    -- what a step does
    have key : (s'.own i = s.own i ∧ ∀ t, .drop t i ∉ ev) ∨ (s.own i ≠ .lost ∧ s'.own i ≠ .lost ∧ ∀ t, .drop t i ∉ ev) ∨ (s'.own i = .lost ∧ ∃ t, .drop t i ∈ ev) := by
      have put : ∀ j o, s.own j ≠ .lost → o ≠ Own.lost → (∀ t, .drop t i ∉ ev) → s'.own = upd s.own j o →
          (s'.own i = s.own i ∧ ∀ t, .drop t i ∉ ev) ∨ (s.own i ≠ .lost ∧ s'.own i ≠ .lost ∧ ∀ t, .drop t i ∉ ev) ∨ (s'.own i = .lost ∧ ∃ t, .drop t i ∈ ev) := by
        intro j o h1 h2 h3 h4
        rw [h4]
        by_cases e : i = j
        · subst e; exact Or.inr (Or.inl ⟨h1, by rw [upd_same]; exact h2, h3⟩)
        · exact Or.inl ⟨by rw [upd_ne _ _ e], h3⟩
      have none' : (∀ t, .drop t i ∉ ev) → s'.own = s.own →
          (s'.own i = s.own i ∧ ∀ t, .drop t i ∉ ev) ∨ (s.own i ≠ .lost ∧ s'.own i ≠ .lost ∧ ∀ t, .drop t i ∉ ev) ∨ (s'.own i = .lost ∧ ∃ t, .drop t i ∈ ev) :=
        fun h1 h2 => Or.inl ⟨by rw [h2], h1⟩
      cases a with
      | call u c =>
        simp only [TP.step] at hs
        split at hs
        · simp only [Option.some.injEq, Prod.mk.injEq] at hs; obtain ⟨rfl, rfl⟩ := hs; exact none' (by simp) rfl
        · simp at hs
      | expire u =>
        cases hp : s.pc u with
        | idle => simp [TP.step, hp] at hs
        | on c q =>
          simp only [TP.step, hp] at hs
          split at hs
          all_goals (try split at hs) <;> simp only [Option.some.injEq, Prod.mk.injEq, reduceCtorEq] at hs
          · obtain ⟨rfl, rfl⟩ := hs; exact none' (by simp) rfl
          · next j _ =>
            obtain ⟨rfl, rfl⟩ := hs
            by_cases e : i = j
            · subst e; exact Or.inr (Or.inr ⟨by simp [St.ownAt, St.at, upd_same], u, by simp⟩)
            · exact Or.inl ⟨by simp only [St.ownAt, St.at]; rw [upd_ne _ _ e], by simp [e]⟩
          · obtain ⟨rfl, rfl⟩ := hs; exact none' (by simp) rfl
      | throw j =>
        simp only [TP.step] at hs
        split at hs <;> simp only [Option.some.injEq, Prod.mk.injEq, reduceCtorEq] at hs
        obtain ⟨rfl, rfl⟩ := hs; exact none' (by simp) rfl
      | pgo j =>
        cases hw : s.w j <;> simp only [TP.step, hw] at hs
        case send x =>
          split at hs <;> simp only [Option.some.injEq, Prod.mk.injEq, reduceCtorEq] at hs
          obtain ⟨rfl, rfl⟩ := hs
          refine put j .free ?_ (by simp) (by simp) rfl
          intro hl
          have R := I.st.rs j; unfold RShape at R; rw [hl, hw] at R; simp [late] at R
        all_goals (try split at hs) <;> simp only [Option.some.injEq, Prod.mk.injEq, reduceCtorEq] at hs <;>
          (obtain ⟨rfl, rfl⟩ := hs; refine none' ?_ rfl; (try split) <;> simp)
      | go u =>
        cases hp : s.pc u with
        | idle => simp [TP.step, hp] at hs
        | on c q =>
          have hcs := I.st.cs u; rw [hp] at hcs
          simp only [TP.step, hp] at hs
          split at hs
          case h_3 =>
            split at hs <;> simp only [Option.some.injEq, Prod.mk.injEq, reduceCtorEq] at hs
            next j rest hf =>
              obtain ⟨rfl, rfl⟩ := hs
              refine put j (.client u) ?_ (by simp) (by simp) rfl
              rw [(I.st.fo j).1 (by rw [hf]; simp)]; simp
          case h_7 k tm g p j =>
            split at hs <;> simp only [Option.some.injEq, Prod.mk.injEq, reduceCtorEq] at hs <;> obtain ⟨rfl, rfl⟩ := hs
            · refine put j (toOwn g) ?_ (by cases g <;> simp [toOwn]) (by simp) rfl
              simp only [CShape] at hcs; rw [hcs.2.1]; simp
            · exact none' (by simp) rfl
          all_goals (repeat' split at hs) <;> simp only [Option.some.injEq, Prod.mk.injEq, reduceCtorEq] at hs
          all_goals (obtain ⟨rfl, rfl⟩ := hs)
          all_goals first
            | exact none' (by simp) rfl
            | (simp only [CShape] at hcs
               refine put _ _ ?_ ?_ ?_ rfl
               · first
                 | (rw [hcs.2]; simp; done)
                 | (rw [hcs.2.1]; simp; done)
                 | (rename_i hf _; rw [(I.st.fo _).1 (by rw [hf]; exact List.mem_cons_self ..)]; simp; done)
               · simp
               · simp)
    simp only [List.mem_append, exists_or]
    rcases key with ⟨h2, h3⟩ | ⟨h2, h3, h4⟩ | ⟨h2, h3⟩
    · rw [h2, ih]
      constructor
      · exact Or.inl
      · rintro (h | ⟨t, h⟩)
        · exact h
        · exact absurd h (h3 t)
    · constructor
      · intro h; exact absurd h h3
      · rintro (h | ⟨t, h⟩)
        · exact absurd (ih.2 h) h2
        · exact absurd h (h4 t)
    · exact ⟨fun _ => Or.inr h3, fun _ => h2⟩

/-- When no call is in progress, all tasks are over and all guards released, every pool thread that has not been dropped by a start
is in the queue of available threads. -/
theorem C67_available_partial {n : Nat} {d : Int} {s : TP.St} {tr : List Ev} (h : Exec n d s tr) (hi : ∀ t, s.pc t = .idle) (hr : ∀ i, i < n → rphase n d i tr = .rest)
    (hg : ∀ g, gphase g tr = .free) {i : Rid} (hlt : i < n) : i ∈ s.free ↔ ¬ ∃ t, .drop t i ∈ tr := by
  have I := Inv.reach h
  rw [← lost_drop h i, I.st.fo i]
  have R := I.st.rs i
  have hw := hr i hlt
  rw [I.tc.rp i] at hw
  unfold RShape at R
  cases ho : s.own i with
  | free => simp
  | lost => simp
  | client t => have := I.st.ho i t ho; rw [hi t] at this; simp [hold] at this
  | rel t => have := I.st.hr i t ho; rw [hi t] at this; simp [rhold] at this
  | guard g => exact absurd (hg g) (I.gp_own ho)
  | pool =>
    rw [ho] at R; simp only [] at R
    unfold absR at hw
    cases hww : s.w i <;> simp [hww, busyP] at hw R
    split at hw <;> simp at hw
  | dead =>
    rw [ho] at R; simp only [] at R
    unfold absR at hw; rw [R] at hw; simp at hw

/-- A thread is dropped only by a start with a timeout, which returns TimedOut, in the short time in which the thread is available again but not
yet finished. -/
theorem C67_drop {n : Nat} {d : Int} {s : TP.St} {tr : List Ev} (h : Exec n d s tr) {a b : List Ev} {t i} (e : tr = a ++ .drop t i :: b) :
    ∃ k tm g p a1 a2, tm ≠ .forever ∧ a = a1 ++ .call t (.start (some k) tm g p) :: a2 ∧ quietFor t a2 ∧ (∃ b', b = .lin t (.start (some k) tm g p) .timedOut :: b') ∧
      ∃ x, rphase n d i a = .told x := by
  obtain ⟨s1, tr1, act, s2, ev, e1, e2, rest, h1, hs, hev, rfl, hb⟩ := split_step' h e
  have I := Inv.reach h1
  obtain ⟨rfl, k, tm, g, p, hp, htm, hw, hev'⟩ : act = .expire t ∧ ∃ k tm g p, s1.pc t = .on (.start (some k) tm g p) (.sWait i) ∧ tm ≠ .forever ∧ s1.w i ≠ .finished ∧
      ev = [.drop t i, .lin t (.start (some k) tm g p) .timedOut] := by
    have hm : Ev.drop t i ∈ ev := by rw [hev]; simp
    clear hev e
    cases act with
    | call u c =>
      simp only [TP.step] at hs
      split at hs
      · simp only [Option.some.injEq, Prod.mk.injEq] at hs; obtain ⟨_, rfl⟩ := hs; simp at hm
      · simp at hs
    | expire u =>
      cases hp : s1.pc u with
      | idle => simp [TP.step, hp] at hs
      | on c q =>
        simp only [TP.step, hp] at hs
        split at hs
        all_goals (try split at hs) <;> simp only [Option.some.injEq, Prod.mk.injEq, reduceCtorEq] at hs
        all_goals (obtain ⟨_, rfl⟩ := hs; simp at hm)
        next hc _ => obtain ⟨rfl, rfl⟩ := hm; exact ⟨rfl, _, _, _, _, hp, hc.1, hc.2, rfl⟩
    | throw j =>
      simp only [TP.step] at hs
      split at hs <;> simp only [Option.some.injEq, Prod.mk.injEq, reduceCtorEq] at hs
      obtain ⟨_, rfl⟩ := hs; simp at hm
    | pgo j =>
      simp only [TP.step] at hs
      split at hs <;> (try split at hs) <;> simp only [Option.some.injEq, Prod.mk.injEq, reduceCtorEq] at hs <;>
        (obtain ⟨_, rfl⟩ := hs; (try split at hm) <;> simp at hm)
    | go u =>
      simp only [TP.step] at hs
      split at hs
      · simp at hs
      · split at hs
        all_goals (repeat' split at hs) <;> simp only [Option.some.injEq, Prod.mk.injEq, reduceCtorEq] at hs
        all_goals (obtain ⟨_, rfl⟩ := hs; simp at hm)
  rw [hev'] at hev
  cases e1 with
  | cons x e1 =>
    exfalso
    simp at hev
    obtain ⟨_, hev⟩ := hev
    cases e1 with
    | nil => simp at hev
    | cons y e1 => simp at hev
  | nil =>
  rw [List.append_nil] at e ⊢
  have hcs := I.st.cs t; rw [hp] at hcs; simp only [CShape] at hcs
  refine ⟨k, tm, g, p, ?_⟩
  have hph := I.tc.loc t
  rw [hp] at hph
  obtain ⟨hc, _⟩ := cphase_conv h1 t
  rw [hph] at hc; simp only [shape, conv] at hc
  have hsay := csays tr1 (by rw [hc]; simp)
  rw [hc] at hsay
  obtain ⟨a1, a2, h4, h5⟩ := hsay
  refine ⟨a1, a2, htm, h4, quietFor_of h5, ?_, ?_⟩
  · simp at hev; exact ⟨rest, by rw [hb, ← hev]; rfl⟩
  · rw [I.tc.rp i]
    have R := I.st.rs i; unfold RShape at R; rw [hcs.2] at R
    unfold absR
    cases hww : s1.w i <;> simp [hww, late] at hw R ⊢

theorem covers : ∀ (n : Nat) (l : List Nat), (∀ i, i < n → i ∈ l) → n ≤ l.length
  | 0, _, _ => Nat.zero_le _
  | n + 1, l, h => by
    have h1 := h n (by omega)
    have := covers n (l.erase n) (fun i hi => (List.mem_erase_of_ne (by omega)).2 (h i (by omega)))
    rw [List.length_erase_of_mem h1] at this
    have := List.length_pos_of_mem h1
    omega

/-- If all starts are made without timeout, no thread is ever lost. -/
theorem C67_forever_partial {n : Nat} {d : Int} {s : TP.St} {tr : List Ev} (h : Exec n d s tr) (hf : ∀ t k tm g p, .call t (.start k tm g p) ∈ tr → tm = .forever)
    (hi : ∀ t, s.pc t = .idle) (hr : ∀ i, i < n → rphase n d i tr = .rest) (hg : ∀ g, gphase g tr = .free) : s.free.length = n ∧ ∀ i, i < n → i ∈ s.free := by
  have I := Inv.reach h
  have all : ∀ i, i < n → i ∈ s.free := by
    intro i hlt
    rw [C67_available_partial h hi hr hg hlt]
    rintro ⟨t, hm⟩
    obtain ⟨a, b, e⟩ := List.append_of_mem hm
    obtain ⟨k, tm, g, p, a1, a2, h1, h2, _⟩ := C67_drop h e
    exact h1 (hf t (some k) tm g p (by rw [e, h2]; simp))
  refine ⟨?_, all⟩
  have h1 : s.free.length ≤ n := nodup_len _ _ I.st.fr (fun x hx => I.st.lt (by rw [(I.st.fo x).1 hx]; simp))
  have h2 := covers n s.free all
  omega


/-- A pool of one thread: the task is over and the thread available again, but not yet finished, when tryStart is called: it takes the thread and drops it. -/
def dropped : List Act :=
  [.call 1 (.start (some 7) .forever none 3), .go 1, .go 1, .go 1, .go 1, .go 1, .go 1, .go 1, .go 1,
   .pgo 0, .pgo 0, .pgo 0, .pgo 0, .pgo 0, .pgo 0,                                     -- back
   .call 1 (.start (some 8) (.ms 0) none 3), .go 1, .go 1, .expire 1, .go 1,           -- TimedOut
   .pgo 0, .pgo 0]                                                                     -- fin
theorem C67_counterexample : ∃ (s : TP.St) (tr : List Ev), Exec 1 5 s tr ∧ s.inside = [] ∧ rphase 1 5 0 tr = .rest ∧ s.free = [] ∧ Ev.drop 1 0 ∈ tr ∧
    Ev.ret 1 (.start (some 7) .forever none 3) .ok ∈ tr ∧ Ev.ret 1 (.start (some 8) (.ms 0) none 3) .timedOut ∈ tr ∧ (∀ t g p k tm, .acc t 0 k (some g) p ∉ tr ∧ .call t (.wait g tm) ∉ tr) := by
  obtain ⟨s, tr, h, hp⟩ := Lts.runSat_ex (step := TP.step) (init := TP.init 1 5) (as := dropped)
    (P := fun (s : TP.St) tr => decide (s.inside = [] ∧ rphase 1 5 0 tr = .rest ∧ s.free = [] ∧ Ev.drop 1 0 ∈ tr ∧
      Ev.ret 1 (.start (some 7) .forever none 3) .ok ∈ tr ∧ Ev.ret 1 (.start (some 8) (.ms 0) none 3) .timedOut ∈ tr ∧
      (∀ e, e ∈ tr → (match e with | .acc _ _ _ (some _) _ | .call _ (.wait _ _) => false | _ => true) = true))) (by decide)
  simp only [decide_eq_true_eq] at hp
  obtain ⟨h1, h2, h3, h4, h5, h6, h7⟩ := hp
  refine ⟨s, tr, h, h1, h2, h3, h4, h5, h6, fun t g p k tm => ⟨fun hm => ?_, fun hm => ?_⟩⟩ <;> (have := h7 _ hm; simp at this)

/-! #### C68 -/

/-- What remains to be done on pool thread `i` when its task is over. -/
def rest (d : Int) (i : Rid) (g : Option Gid) (x : Bool) : List Ev :=
  [.reprio i d, if g.isSome then .note i else .back i none] ++ (if x then [.uncaught i] else []) ++ [.fin i]

theorem fold_filter {d : Int} {i : Rid} : ∀ (l : List Ev) (r : RP), l.foldl (RP.next d i) r = (l.filter (about i)).foldl (RP.next d i) r
  | [], _ => rfl
  | e :: l, r => by
    rw [List.foldl_cons]
    by_cases ha : about i e = true
    · rw [List.filter_cons_of_pos ha, List.foldl_cons]; exact fold_filter l _
    · rw [List.filter_cons_of_neg ha, other_R (by simpa using ha)]; exact fold_filter l _

theorem about_filter {i : Rid} {l : List Ev} {e : Ev} {l' : List Ev} (h : l.filter (about i) = e :: l') : about i e = true := by
  have : e ∈ l.filter (about i) := by rw [h]; simp
  exact (List.mem_filter.1 this).2

/-- However a task ends, by return or by an exception: the next thing on its thread is that the priority is reset to the default, then its guard is
notified or (without guard) the thread made available, then an exception is handed on to the thread's handler, exactly if there was one, then the thread is
finished. -/
theorem C68_after {n : Nat} {d : Int} {s : TP.St} {tr : List Ev} (h : Exec n d s tr) {a b : List Ev} {i k x} (e : tr = a ++ .ended i k x :: b) :
    ∃ g, rphase n d i a = .running k g ∧ (b.filter (about i) <+: rest d i g x ∨ rest d i g x <+: b.filter (about i)) := by
  have I := Inv.reach h
  have hb : rphase n d i tr ≠ .bad := by rw [I.tc.rp i]; exact absR_ne_bad (I.st.rs i)
  rw [e, rphase_app, List.foldl_cons, fold_filter] at hb
  have hne : RP.next d i (rphase n d i a) (.ended i k x) ≠ .bad := by intro h; rw [h] at hb; exact hb (bad_R d i _)
  obtain ⟨g, hg⟩ : ∃ g, rphase n d i a = .running k g := by
    simp only [RP.next, if_true] at hne
    split at hne
    · next k' g hr => split at hne
                      · next hk => exact ⟨g, by rw [hr, hk]⟩
                      · simp at hne
    · simp at hne
  refine ⟨g, hg, ?_⟩
  rw [show RP.next d i (rphase n d i a) (.ended i k x) = .ended g x by rw [hg]; simp [RP.next]] at hb
  have hall : ∀ e, e ∈ b.filter (about i) → about i e = true := fun e he => (List.mem_filter.1 he).2
  generalize b.filter (about i) = l at hb hall
  -- reprio
  cases l with
  | nil => left; simp
  | cons e1 l =>
  rw [List.foldl_cons] at hb
  have h1 : RP.next d i (.ended g x) e1 ≠ .bad := by intro h; rw [h] at hb; exact hb (bad_R d i _)
  have ha1 := hall e1 (by simp)
  have e1' : e1 = .reprio i d := by
    cases e1 <;> simp [about] at ha1 <;> (try (simp [RP.next, ha1] at h1; done))
    · simp [RP.next, ha1] at h1; rw [ha1, h1]
    · rename_i j g'; cases g' <;> simp at ha1; simp [RP.next, ha1] at h1
  subst e1'
  rw [show RP.next d i (.ended g x) (.reprio i d) = .reset g x by simp [RP.next]] at hb
  -- note / back
  cases l with
  | nil => left; simp [rest]
  | cons e2 l =>
  rw [List.foldl_cons] at hb
  have h2 : RP.next d i (.reset g x) e2 ≠ .bad := by intro h; rw [h] at hb; exact hb (bad_R d i _)
  have ha2 := hall e2 (by simp)
  have e2' : e2 = (if g.isSome then .note i else .back i none) ∧ RP.next d i (.reset g x) e2 = .told x := by
    cases e2 <;> simp [about] at ha2 <;> (try (simp [RP.next, ha2] at h2; done))
    · cases g <;> simp [RP.next, ha2] at h2 ⊢
    · rename_i j g'; cases g' <;> simp at ha2; cases g <;> simp [RP.next, ha2] at h2 ⊢
  obtain ⟨e2', e2''⟩ := e2'
  rw [e2''] at hb
  subst e2'
  cases x with
  | false =>
    cases l with
    | nil => left; simp [rest]
    | cons e3 l =>
    rw [List.foldl_cons] at hb
    have h3 : RP.next d i (.told false) e3 ≠ .bad := by intro h; rw [h] at hb; exact hb (bad_R d i _)
    have ha3 := hall e3 (by simp)
    have e3' : e3 = .fin i := by
      cases e3 <;> simp [about] at ha3 <;> (try (simp [RP.next, ha3] at h3; done))
      · rename_i j g'; cases g' <;> simp at ha3; simp [RP.next, ha3] at h3
      · rw [ha3]
    subst e3'
    right; simp [rest]
  | true =>
    cases l with
    | nil => left; simp [rest]
    | cons e3 l =>
    rw [List.foldl_cons] at hb
    have h3 : RP.next d i (.told true) e3 ≠ .bad := by intro h; rw [h] at hb; exact hb (bad_R d i _)
    have ha3 := hall e3 (by simp)
    have e3' : e3 = .uncaught i := by
      cases e3 <;> simp [about] at ha3 <;> (try (simp [RP.next, ha3] at h3; done))
      · rename_i j g'; cases g' <;> simp at ha3; simp [RP.next, ha3] at h3
      · rw [ha3]
    subst e3'
    rw [show RP.next d i (.told true) (.uncaught i) = .told false by simp [RP.next]] at hb
    cases l with
    | nil => left; simp [rest]
    | cons e4 l =>
    rw [List.foldl_cons] at hb
    have h4 : RP.next d i (.told false) e4 ≠ .bad := by intro h; rw [h] at hb; exact hb (bad_R d i _)
    have ha4 := hall e4 (by simp)
    have e4' : e4 = .fin i := by
      cases e4 <;> simp [about] at ha4 <;> (try (simp [RP.next, ha4] at h4; done))
      · rename_i j g'; cases g' <;> simp at ha4; simp [RP.next, ha4] at h4
      · rw [ha4]
    subst e4'
    right; simp [rest]

/-- A handler is only called for an exception of a task. -/
theorem C68_handler {n : Nat} {d : Int} {s : TP.St} {tr : List Ev} (h : Exec n d s tr) {a b : List Ev} {i} (e : tr = a ++ .uncaught i :: b) : rphase n d i a = .told true := by
  have I := Inv.reach h
  have hb : rphase n d i tr ≠ .bad := by rw [I.tc.rp i]; exact absR_ne_bad (I.st.rs i)
  rw [e, rphase_app, List.foldl_cons] at hb
  apply Classical.byContradiction
  intro hn
  apply hb
  rw [show RP.next d i (rphase n d i a) (.uncaught i) = .bad by simp [RP.next, hn]]; exact bad_R d i _

/-! #### C70 -/

theorem after_destroy {n : Nat} {d : Int} {s : TP.St} {tr : List Ev} (h : Exec n d s tr) {t o} (hm : .ret t .destroy o ∈ tr) :
    s.gone = true ∧ s.free = [] ∧ s.dying = some t ∧ (∀ u, s.pc u = .idle) ∧ (∀ i, s.w i = .finished ∨ s.w i = .dead) ∧ ∃ a, tr = a ++ [.ret t .destroy o] ∧ .ret t .destroy o ∉ a := by
  -- what is known once destroy is about to return
  have pre : ∀ {s : TP.St} {tr : List Ev}, Exec n d s tr → ∀ {t o}, s.pc t = .on .destroy (.ret o) → s.gone = true ∧ s.free = [] := by
    intro s tr h
    induction h with
    | init => intro t o hp; simp [TP.init] at hp
    | @step s tr a s' ev h1 hs ih =>
      intro t o hp
      have I := Inv.reach h1
      cases hq : s.pc t with
      | idle =>
        exfalso
        by_cases hc : ∃ c, a = .call t c
        · obtain ⟨c, rfl⟩ := hc
          simp only [TP.step] at hs
          split at hs
          · simp only [Option.some.injEq, Prod.mk.injEq] at hs; obtain ⟨rfl, _⟩ := hs; simp [St.at, upd_same] at hp; cases c <;> simp [entry] at hp
          · simp at hs
        · rw [pc_other hs (by rintro rfl; simp [TP.step, hq] at hs) (by rintro rfl; simp [TP.step, hq] at hs) (fun c h => hc ⟨c, h⟩), hq] at hp; simp at hp
      | on c q =>
        have hst := I.stay hs hq
        rw [hp] at hst
        have hc : c = .destroy := by
          rcases hst with ⟨q', e⟩ | ⟨o', rfl, rfl⟩
          · simp at e; exact e.1.symm
          · exfalso
            obtain ⟨rfl, _, _, rfl⟩ := ret_ev hs (t := t) (c := c) (o := o') (by simp)
            simp [upd_same] at hp
        subst hc
        have hcs := I.st.cs t; rw [hq] at hcs
        have hd := I.st.dy t _ hq
        by_cases hg : a = .go t
        · subst hg
          cases q <;> simp only [CShape] at hcs <;> simp only [TP.step, hq] at hs
          all_goals (repeat' split at hs) <;> simp only [Option.some.injEq, Prod.mk.injEq, reduceCtorEq] at hs
          all_goals (obtain ⟨rfl, _⟩ := hs)
          · simp [St.at, upd_same] at hp
          · simp [St.at, upd_same] at hp
          · simp only [St.wAt, St.ownAt] at hp; rw [hq] at hp; simp at hp
          · next hf _ => exact ⟨rfl, hf⟩
          · simp [upd_same] at hp
        · have hpc := pc_other hs hg (by rintro rfl; cases q <;> simp only [CShape] at hcs <;> simp [TP.step, hq] at hs) (by rintro c rfl; simp [TP.step, hq] at hs)
          rw [hpc, hq] at hp; simp at hp; subst hp
          obtain ⟨e1, e2⟩ := ih hq
          -- nothing else can happen
          exfalso
          simp only [CShape] at hcs
          have hw : ∀ i, s.w i = .finished ∨ s.w i = .dead := by
            intro i
            by_cases hi : i < s.n
            · exact hcs i hi
            · right; have R := I.st.rs i; unfold RShape at R; rw [I.st.od i (by rw [← I.st.cn]; exact Nat.le_of_not_lt hi)] at R; exact R
          cases a with
          | call u c => simp [TP.step, e1] at hs
          | go u => have hu : u ≠ t := by rintro rfl; exact hg rfl
                    simp [TP.step, I.st.al t hd u hu] at hs
          | expire u =>
            by_cases hu : u = t
            · subst hu; simp [TP.step, hq] at hs
            · simp [TP.step, I.st.al t hd u hu] at hs
          | pgo i => rcases hw i with h | h <;> simp [TP.step, h] at hs
          | throw i => rcases hw i with h | h <;> simp [TP.step, h] at hs
  induction h with
  | init => simp at hm
  | @step s tr a s' ev h1 hs ih =>
    have I := Inv.reach h1
    by_cases hin : Ev.ret t .destroy o ∈ tr
    · exfalso
      obtain ⟨g1, g2, g3, g4, g5, _⟩ := ih hin
      cases a with
      | call u c => simp [TP.step, g1] at hs
      | go u => simp [TP.step, g4] at hs
      | expire u => simp [TP.step, g4] at hs
      | pgo i => rcases g5 i with h | h <;> simp [TP.step, h] at hs
      | throw i => rcases g5 i with h | h <;> simp [TP.step, h] at hs
    · have hev : Ev.ret t .destroy o ∈ ev := by simpa [hin] using hm
      obtain ⟨rfl, hp, rfl, rfl⟩ := ret_ev hs hev
      obtain ⟨g1, g2⟩ := pre h1 hp
      have hd := I.st.dy t _ hp
      have hcs := I.st.cs t; rw [hp] at hcs; simp only [CShape] at hcs
      refine ⟨g1, g2, hd, ?_, ?_, tr, rfl, hin⟩
      · intro u
        by_cases e : u = t
        · subst e; simp [upd_same]
        · simp only []; rw [upd_ne _ _ e]; exact I.st.al t hd u e
      · intro i
        by_cases hi : i < s.n
        · exact hcs i hi
        · right; have R := I.st.rs i; unfold RShape at R; rw [I.st.od i (by rw [← I.st.cn]; exact Nat.le_of_not_lt hi)] at R; exact R

/-- When destroy has returned: every task that has been accepted has begun and ended, on every thread, its thread has been finished after it, and nothing happens
any more. -/
theorem C70_tasks {n : Nat} {d : Int} {s : TP.St} {tr : List Ev} (h : Exec n d s tr) {a b : List Ev} {t o} (e : tr = a ++ .ret t .destroy o :: b) :
    b = [] ∧ ∀ i, (rphase n d i a = .rest ∨ rphase n d i a = .dead) ∧ accepted i a = begun i a ∧ (begun i a).map Prod.fst = ended i a := by
  obtain ⟨g1, g2, g3, g4, g5, a', e1, e2⟩ := after_destroy h (t := t) (o := o) (by rw [e]; simp)
  have hb : b = [] := by
    rcases List.eq_nil_or_concat b with rfl | ⟨b', z, rfl⟩
    · rfl
    · exfalso
      rw [List.concat_eq_append] at e
      have h1 : a' ++ [Ev.ret t .destroy o] = (a ++ Ev.ret t .destroy o :: b') ++ [z] := by rw [← e1, e]; simp
      have := (List.append_inj' h1 rfl).1
      apply e2; rw [this]; simp
  refine ⟨hb, fun i => ?_⟩
  have I := Inv.reach h
  have hr : rphase n d i a = .rest ∨ rphase n d i a = .dead := by
    have h1 : rphase n d i tr = rphase n d i a := by rw [e, hb, rphase_app]; rfl
    rw [← h1, I.tc.rp i]
    unfold absR; rcases g5 i with h | h <;> simp [h]
  obtain ⟨s1, s2, h1, _⟩ := ret_at h e
  obtain ⟨l1, l2⟩ := lists a (n := n) (d := d) (i := i) (by rcases hr with h | h <;> rw [h] <;> simp)
  refine ⟨hr, ?_, ?_⟩
  · rw [l1]; rcases hr with h | h <;> rw [h] <;> simp [accR]
  · rw [l2]; rcases hr with h | h <;> rw [h] <;> simp [runR]

/-- Every thread has been destroyed (once), unless a start had dropped it or a guard that has not been released still has it. -/
theorem C70_threads_partial {n : Nat} {d : Int} {s : TP.St} {tr : List Ev} (h : Exec n d s tr) {a b : List Ev} {t o} (e : tr = a ++ .ret t .destroy o :: b) {i : Rid} (hi : i < n) :
    .kill i ∈ a ∨ (∃ u, .drop u i ∈ a) ∨ ∃ g, gphase g a = .over i := by
  obtain ⟨g1, g2, g3, g4, g5, _⟩ := after_destroy h (t := t) (o := o) (by rw [e]; simp)
  obtain ⟨hb, _⟩ := C70_tasks h e
  have I := Inv.reach h
  have hmem : ∀ x : Ev, (∀ c o, x ≠ .ret t c o) → x ∈ tr → x ∈ a := by
    intro x hx hm; rw [e, hb] at hm; simp at hm
    rcases hm with hm | hm
    · exact hm
    · exact absurd hm (hx _ _)
  have R := I.st.rs i; unfold RShape at R
  cases ho : s.own i with
  | free => have := (I.st.fo i).2 ho; rw [g2] at this; simp at this
  | client u => have := I.st.ho i u ho; rw [g4 u] at this; simp [hold] at this
  | rel u => have := I.st.hr i u ho; rw [g4 u] at this; simp [rhold] at this
  | pool => rw [ho] at R; rcases g5 i with h | h <;> simp [h, busyP] at R
  | lost =>
    obtain ⟨u, hu⟩ := (lost_drop h i).1 ho
    exact Or.inr (Or.inl ⟨u, hmem _ (by simp) hu⟩)
  | guard g =>
    right; right
    refine ⟨g, ?_⟩
    have := I.tc.g1 g i ho
    rw [e, hb, gphase_app] at this
    rw [show gphase g a = List.foldl (GP.next g) (gphase g a) [Ev.ret t Call.destroy o] from rfl, this]
    rcases g5 i with h | h <;> simp [h, early]
  | dead =>
    left
    rw [ho] at R; simp only [] at R
    have hd : rphase n d i tr = .dead := by rw [I.tc.rp i]; unfold absR; rw [R]
    obtain ⟨rs, pre, hpre, hpart⟩ := parsed hi tr (by rw [hd]; simp)
    rw [hd] at hpart; simp only [Part] at hpart
    refine hmem _ (by simp) ?_
    have : Ev.kill i ∈ tr.filter (about i) := by rw [hpre, hpart]; simp
    exact (List.mem_filter.1 this).1

/-- destroy returns. -/
theorem C70_returns {st : Nat → TP.St} {act : Nat → Option Act} {ev : Nat → List Ev} {n : Nat} {d : Int} (hx : InfExec (stut TP.step) st act ev) (h0 : st 0 = TP.init n d)
    {t : Tid} (hft : WeakFair (stut TP.step) st act (some (.go t))) (hfe : WeakFair (stut TP.step) st act (some (.expire t)))
    (hfp : ∀ i, WeakFair (stut TP.step) st act (some (.pgo i))) {m : Nat} (hm : .call t .destroy ∈ ev m) : ∃ m' o, m < m' ∧ .ret t .destroy o ∈ ev m' :=
  returns hx h0 (by rfl) hft hfe hfp hm

/-! #### C71 -/

/-- start, tryStart, timedStart with a null task return InvalidParameter; with a task they return something else. -/
theorem C71_null {n : Nat} {d : Int} {s : TP.St} {tr : List Ev} (h : Exec n d s tr) {a b : List Ev} {t k tm g p o} (e : tr = a ++ .ret t (.start k tm g p) o :: b) :
    o = .invalidParameter ↔ k = none := by
  have := ret_results h e
  cases k with
  | none => simpa [Results] using this
  | some k => simp only [Results] at this; rcases this with rfl | ⟨rfl, _⟩ <;> simp

/-- A call with a null task does not wait and does not touch the pool or the guard: nothing but the caller's position changes. -/
theorem C71_untouched {n : Nat} {d : Int} {s : TP.St} {tr : List Ev} (h : Exec n d s tr) {t tm g p q} (hp : s.pc t = .on (.start none tm g p) q) :
    ∃ s' ev, TP.step s (.go t) = some (s', ev) ∧ s'.free = s.free ∧ s'.w = s.w ∧ s'.task = s.task ∧ s'.needs = s.needs ∧ s'.prio = s.prio ∧ s'.ev = s.ev ∧ s'.guard = s.guard ∧
      (∀ u, u ≠ t → s'.pc u = s.pc u) ∧ (q = .sEnter ∨ ev = [.ret t (.start none tm g p) .invalidParameter]) := by
  have I := Inv.reach h
  have hcs := I.st.cs t; rw [hp] at hcs
  cases q <;> simp only [CShape] at hcs
  case sEnter =>
    have hs : TP.step s (.go t) = some (s.at t (.start none tm g p) (.ret .invalidParameter), [.lin t (.start none tm g p) .invalidParameter]) := by simp only [TP.step, hp]
    refine ⟨_, _, hs, rfl, rfl, rfl, rfl, rfl, rfl, rfl, fun u hu => ?_, Or.inl rfl⟩
    simp only [St.at]; rw [upd_ne _ _ hu]
  case ret o =>
    have hs : TP.step s (.go t) = some ({ s with pc := upd s.pc t .idle, inside := s.inside.erase t }, [.ret t (.start none tm g p) o]) := by simp only [TP.step, hp]
    refine ⟨_, _, hs, rfl, rfl, rfl, rfl, rfl, rfl, rfl, fun u hu => ?_, Or.inr ?_⟩
    · simp only []; rw [upd_ne _ _ hu]
    · have h1 := I.tc.loc t
      rw [hp] at h1; simp only [shape] at h1
      have := says (view := view) t tr
      rw [show Proto.phase view t tr = .done (.start none tm g p) o from h1] at this
      obtain ⟨a, e1, b, f, c, htr, _, hf, _⟩ := this
      have hf' : f = .lin t (.start none tm g p) o := by
        cases f <;> simp [view] at hf
        obtain ⟨rfl, rfl, rfl⟩ := hf; rfl
      have := results h (t := t) (c := .start none tm g p) (o := o) (by rw [htr, hf']; simp)
      simp only [Results] at this; rw [this]

end Verif.Props.ThreadPoolGuard
