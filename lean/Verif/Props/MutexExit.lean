import Verif.Model.MutexExit
import Verif.Props.Mutex
/-
C88: an ITRON mutex whose holder ends.
-/
namespace Verif.Props.MutexExit
open Verif Mtx Verif.Mtx.Itron
open _root_.Verif.Lts (Reach)
open Verif.Props.Mutex (owns owns_app gotLock calledUnlock refused)

/-- What happened since the last exit of `t`. -/
def since (t : Tid) (tr : List EvX) : List Ev := tr.foldl (fun acc e => match e with
  | .exit u => if u = t then [] else acc
  | .ev x => acc ++ [x]) []

/-- How many times the task `t` holds the mutex: its locks that returned OK minus its unlocks, since it was last started. -/
def holds (tr : List EvX) (t : Tid) : Int := owns (since t tr) t

/-- No task exits while it holds the mutex more than once. -/
def Clean (tr : List EvX) : Prop := ∀ a b t, tr = a ++ .exit t :: b → holds a t ≤ 1

theorem since_ev (t : Tid) (tr : List EvX) (ev : List Ev) : since t (tr ++ ev.map .ev) = since t tr ++ ev := by
  unfold since
  rw [List.foldl_append]
  generalize List.foldl _ _ tr = l
  induction ev generalizing l with
  | nil => simp
  | cons e ev ih => simp only [List.map_cons, List.foldl_cons, ih]; simp
theorem since_exit (t u : Tid) (tr : List EvX) : since t (tr ++ [.exit u]) = if u = t then [] else since t tr := by
  unfold since; rw [List.foldl_append]; rfl

theorem Clean.left {tr ev : List EvX} (h : Clean (tr ++ ev)) : Clean tr := fun a b t e => h a (b ++ ev) t (by rw [e]; simp)

/-- A clean exit looks to everybody else like an unlock. -/
theorem simulate {ceil : Tid → Bool} {s : Itron.St} {tr : List EvX} (h : Reach (stepX ceil) init s tr) : Clean tr →
    ∃ tr0, Reach (step ceil) init s tr0 ∧ ∀ t, owns tr0 t = holds tr t := by
  induction h with
  | init => intro _; exact ⟨[], .init, fun t => rfl⟩
  | @step s tr a s' ev hr hs ih =>
    intro hc
    obtain ⟨tr0, h0, h1⟩ := ih hc.left
    cases a with
    | op a =>
      simp only [stepX] at hs
      split at hs
      · next s2 ev2 h2 =>
        simp only [Option.some.injEq, Prod.mk.injEq] at hs
        obtain ⟨rfl, rfl⟩ := hs
        refine ⟨tr0 ++ ev2, h0.step h2, fun t => ?_⟩
        rw [holds, since_ev, owns_app, owns_app, h1 t]; rfl
      · simp at hs
    | exit t =>
      simp only [stepX] at hs
      split at hs
      · next hi =>
        simp only [Option.some.injEq, Prod.mk.injEq] at hs
        obtain ⟨rfl, rfl⟩ := hs
        have hle := hc tr [] t rfl
        have hrec := Verif.Props.Mutex.C39_recursion ceil s tr0 h0 t hi
        by_cases ho : s.owner = some t
        · have hw := hrec.2.2 ho
          rw [h1 t] at hw
          have hz : s.rc = 0 := by omega
          have hrun : Lts.run (step ceil) [.call t .unlock, .go t, .go t, .go t, .go t] s =
              some ({ s with owner := none }, [.call t .unlock, .ret t .unlock .OK]) := by
            have hpc : upd (upd (upd (upd (upd s.pc t .ulLck) t .ulTst) t .unl) t (.ret .unlock .OK)) t .idle = s.pc := by
              funext j; by_cases e : j = t
              · subst e; simp [hi]
              · simp [upd, e]
            cases s with
            | mk owner rc pc => simp_all [Lts.run, step, St.at]
          refine ⟨tr0 ++ [.call t .unlock, .ret t .unlock .OK], ?_, fun u => ?_⟩
          · rw [if_pos ho]; exact Lts.run_reach _ h0 hrun
          · rw [holds, since_exit, owns_app]
            by_cases e : t = u
            · subst e; rw [if_pos rfl, h1 t, ← hw, hz]; simp [owns, gotLock, calledUnlock, refused]
            · rw [if_neg e, h1 u]; simp [owns, gotLock, calledUnlock, refused, e]; rfl
        · refine ⟨tr0, ?_, fun u => ?_⟩
          · rw [if_neg ho]; exact h0
          · rw [holds, since_exit]
            by_cases e : t = u
            · subst e
              have : owns tr0 t = 0 := by
                have := hrec.1; have := mt hrec.2.1.mpr ho; omega
              rw [if_pos rfl, this]; rfl
            · rw [if_neg e, h1 u]; rfl
      · simp at hs

/-- **C88, partial: tasks that exit hold the mutex at most once.**  Then exclusion and recursion are as if the task had unlocked it: at most one
task holds the mutex, and between its calls a task is the kernel's owner exactly if it holds the mutex, with as many unlocks to go as `holds`. -/
theorem C88_exclusion_partial (ceil : Tid → Bool) (s : Itron.St) (tr : List EvX) (h : Reach (stepX ceil) init s tr) (hc : Clean tr) :
    ∀ t u, 0 < holds tr t → 0 < holds tr u → t = u := by
  obtain ⟨tr0, h0, h1⟩ := simulate h hc
  intro t u ht hu
  exact Verif.Props.Mutex.C39_exclusion ceil s tr0 h0 t u (by rw [h1]; exact ht) (by rw [h1]; exact hu)

theorem C88_recursion_partial (ceil : Tid → Bool) (s : Itron.St) (tr : List EvX) (h : Reach (stepX ceil) init s tr) (hc : Clean tr)
    (t : Tid) (hq : s.pc t = .idle) :
    0 ≤ holds tr t ∧ (s.owner = some t ↔ 0 < holds tr t) ∧ (s.owner = some t → (s.rc : Int) + 1 = holds tr t) := by
  obtain ⟨tr0, h0, h1⟩ := simulate h hc
  have := Verif.Props.Mutex.C39_recursion ceil s tr0 h0 t hq
  rwa [h1] at this

/-- **C88, partial.** A task that holds the mutex `n` times frees it by `n` unlocks, and not before, also after other tasks have exited. -/
theorem C88_unlock_partial (ceil : Tid → Bool) (s : Itron.St) (tr : List EvX) (h : Reach (stepX ceil) init s tr) (hc : Clean tr)
    (t : Tid) (hq : s.pc t = .idle) (hw : 0 < holds tr t) :
    ∃ n s', Lts.run (stepX ceil) (.op (.call t .unlock) :: List.replicate n (.op (.go t))) s = some (s', [.ev (.call t .unlock), .ev (.ret t .unlock .OK)]) ∧
      (holds tr t = 1 → s'.owner = none) ∧ (1 < holds tr t → s'.owner = some t) := by
  obtain ⟨tr0, h0, h1⟩ := simulate h hc
  obtain ⟨n, s', h2, h3⟩ := Verif.Props.Mutex.C39_unlock_holder ceil s tr0 h0 t hq (by rw [h1]; exact hw)
  rw [h1] at h3
  have lift : ∀ (as : List Act) (s s' : Itron.St) (ev : List Ev), Lts.run (step ceil) as s = some (s', ev) →
      Lts.run (stepX ceil) (as.map .op) s = some (s', ev.map .ev) := by
    intro as
    induction as with
    | nil => intro s s' ev h; simp only [Lts.run, Option.some.injEq, Prod.mk.injEq] at h; obtain ⟨rfl, rfl⟩ := h; rfl
    | cons a as ih =>
      intro s s' ev h
      simp only [Lts.run] at h
      split at h
      · simp at h
      · next s1 e1 h1 =>
        split at h
        · simp at h
        · next s2 e2 h2 =>
          simp only [Option.some.injEq, Prod.mk.injEq] at h
          obtain ⟨rfl, rfl⟩ := h
          simp only [List.map_cons, Lts.run, stepX, h1, ih _ _ _ h2, List.map_append]
  have := lift _ _ _ _ h2
  simp only [List.map_cons, List.map_replicate, List.map_nil] at this
  exact ⟨n, s', this, h3⟩

/-- **C88.** In every execution (clean or not) the mutex is free for the next task after its holder has exited. -/
theorem C88_free (ceil : Tid → Bool) (s s' : Itron.St) (ev : List EvX) (t u : Tid) (ho : s.owner = some t)
    (hs : stepX ceil s (.exit t) = some (s', ev)) (hu : s'.pc u = .idle) (hc : ceil u = true) :
    ∃ s2, Lts.run (stepX ceil) [.op (.call u .tryLock), .op (.go u), .op (.go u)] s' = some (s2, [.ev (.call u .tryLock), .ev (.ret u .tryLock .OK)]) ∧ s2.owner = some u := by
  simp only [stepX, Option.ite_none_right_eq_some, Option.some.injEq, Prod.mk.injEq] at hs
  obtain ⟨_, rfl, rfl⟩ := hs
  simp only [ho, if_true] at hu ⊢
  simp [Lts.run, stepX, step, St.at, hu, hc]

/-- **C88 is false in full**: task 0 locks twice and exits; task 1 locks once and unlocks once, with OK, and still the mutex is locked: task 2
does not get it. -/
theorem C88_counterexample : ∃ s tr, Reach (stepX fun _ => true) init s tr ∧ s.pc 1 = .idle ∧ s.owner = some 1 ∧
    tr = [.ev (.call 0 .lock), .ev (.ret 0 .lock .OK), .ev (.call 0 .lock), .ev (.ret 0 .lock .OK), .exit 0,
      .ev (.call 1 .lock), .ev (.ret 1 .lock .OK), .ev (.call 1 .unlock), .ev (.ret 1 .unlock .OK), .ev (.call 2 .tryLock), .ev (.ret 2 .tryLock .TimedOut)] ∧
    holds tr 1 = 0 := by
  have h : ∃ s tr, Reach (stepX fun _ => true) init s tr ∧ _ = true :=
    Lts.runSat_ex (step := stepX fun _ => true) (init := init)
      (as := [.op (.call 0 .lock), .op (.go 0), .op (.go 0), .op (.call 0 .lock), .op (.go 0), .op (.go 0), .op (.go 0), .op (.go 0), .op (.go 0), .exit 0,
        .op (.call 1 .lock), .op (.go 1), .op (.go 1), .op (.call 1 .unlock), .op (.go 1), .op (.go 1), .op (.go 1), .op (.go 1), .op (.go 1),
        .op (.call 2 .tryLock), .op (.expire 2), .op (.go 2)])
      (P := fun (s : Itron.St) tr => decide (s.pc 0 = .idle ∧ s.pc 1 = .idle ∧ s.pc 2 = .idle ∧ s.owner = some 1 ∧
        tr = [.ev (.call 0 .lock), .ev (.ret 0 .lock .OK), .ev (.call 0 .lock), .ev (.ret 0 .lock .OK), .exit 0,
      .ev (.call 1 .lock), .ev (.ret 1 .lock .OK), .ev (.call 1 .unlock), .ev (.ret 1 .unlock .OK), .ev (.call 2 .tryLock), .ev (.ret 2 .tryLock .TimedOut)])) (by decide)
  obtain ⟨s, tr, h, hp⟩ := h
  have hp := of_decide_eq_true hp
  obtain ⟨_, h1, _, h2, rfl⟩ := hp
  exact ⟨s, _, h, h1, h2, rfl, by decide⟩

/-- A clean execution with an exit of the holder. -/
def demo : List ActX := [.op (.call 0 .lock), .op (.go 0), .op (.go 0), .exit 0, .op (.call 1 .lock), .op (.go 1), .op (.go 1), .op (.call 1 .lock),
  .op (.go 1), .op (.go 1), .op (.go 1), .op (.go 1), .op (.go 1)]

-- Non-vacuity: task 0 exits holding the mutex once; task 1 then locks it twice.
example : ∃ s tr, Reach (stepX fun _ => true) init s tr ∧ Clean tr ∧ s.pc 1 = .idle ∧ s.owner = some 1 ∧ holds tr 0 = 0 ∧ holds tr 1 = 2 := by
  obtain ⟨s, tr, h, hp⟩ := Lts.runSat_ex (step := stepX fun _ => true) (init := init) (as := demo)
    (P := fun (s : Itron.St) tr => decide (s.pc 1 = .idle ∧ s.owner = some 1 ∧
      tr = [.ev (.call 0 .lock), .ev (.ret 0 .lock .OK), .exit 0, .ev (.call 1 .lock), .ev (.ret 1 .lock .OK), .ev (.call 1 .lock), .ev (.ret 1 .lock .OK)])) (by decide)
  obtain ⟨h1, h2, rfl⟩ := of_decide_eq_true hp
  refine ⟨s, _, h, ?_, h1, h2, by decide, by decide⟩
  intro a b t e
  match a, e with
  | [x, y], e => simp at e; obtain ⟨rfl, rfl, rfl, _⟩ := e; decide
  | [], e => simp at e
  | [_], e => simp at e
  | [_, _, _], e => simp at e
  | [_, _, _, _], e => simp at e
  | [_, _, _, _, _], e => simp at e
  | [_, _, _, _, _, _], e => simp at e
  | [_, _, _, _, _, _, _], e => simp at e
  | _ :: _ :: _ :: _ :: _ :: _ :: _ :: _ :: _, e => simp at e

end Verif.Props.MutexExit
