import Verif.Sem.Mem
/-
Labelled transition systems: concurrent code as a set of atomic steps, one action per step; the schedule is the list of
actions.  Nothing in this file is about cppelib.
-/
namespace Verif.Lts
variable {σ α ε : Type}

/-- Reachable states with the trace of observable events (oldest first), for every schedule. -/
inductive Reach (step : σ → α → Option (σ × List ε)) (init : σ) : σ → List ε → Prop where
  | init : Reach step init init []
  | step {s tr a s' ev} : Reach step init s tr → step s a = some (s', ev) → Reach step init s' (tr ++ ev)

/-- Run a concrete schedule; `none` if an action is not enabled. -/
def run (step : σ → α → Option (σ × List ε)) : List α → σ → Option (σ × List ε)
  | [], s => some (s, [])
  | a :: as, s => match step s a with
    | none => none
    | some (s', ev) => match run step as s' with
      | none => none
      | some (s'', ev') => some (s'', ev ++ ev')

theorem run_reach {step : σ → α → Option (σ × List ε)} {init : σ} : ∀ (as : List α) {s tr s' ev}, Reach step init s tr →
    run step as s = some (s', ev) → Reach step init s' (tr ++ ev)
  | [], s, tr, s', ev, h, e => by
    simp only [run, Option.some.injEq, Prod.mk.injEq] at e
    obtain ⟨rfl, rfl⟩ := e; simpa using h
  | a :: as, s, tr, s', ev, h, e => by
    simp only [run] at e
    split at e
    · simp at e
    · next s1 ev1 h1 =>
      split at e
      · simp at e
      · next s2 ev2 h2 =>
        simp only [Option.some.injEq, Prod.mk.injEq] at e
        obtain ⟨rfl, rfl⟩ := e
        rw [← List.append_assoc]
        exact run_reach as (Reach.step h h1) h2

theorem run_append {step : σ → α → Option (σ × List ε)} {a : α} : ∀ (as : List α) {s s1 s2 ev1 ev2},
    run step as s = some (s1, ev1) → step s1 a = some (s2, ev2) → run step (as ++ [a]) s = some (s2, ev1 ++ ev2)
  | [], s, s1, s2, ev1, ev2, h, hs => by
    simp only [run, Option.some.injEq, Prod.mk.injEq] at h
    obtain ⟨rfl, rfl⟩ := h
    simp [run, hs]
  | b :: as, s, s1, s2, ev1, ev2, h, hs => by
    simp only [run] at h
    split at h
    · simp at h
    · next s3 ev3 h1 =>
      split at h
      · simp at h
      · next s4 ev4 h2 =>
        simp only [Option.some.injEq, Prod.mk.injEq] at h
        obtain ⟨rfl, rfl⟩ := h
        simp only [List.cons_append, run, h1, run_append as h2 hs, List.append_assoc]

theorem reach_run {step : σ → α → Option (σ × List ε)} {init : σ} {s tr} (h : Reach step init s tr) :
    ∃ as, run step as init = some (s, tr) := by
  induction h with
  | init => exact ⟨[], rfl⟩
  | step _ hs ih =>
    obtain ⟨as, h⟩ := ih
    exact ⟨_, run_append as h hs⟩

/-- Induction principle: an invariant of state and trace. -/
theorem Reach.inv {step : σ → α → Option (σ × List ε)} {init : σ} {I : σ → List ε → Prop} (h0 : I init [])
    (hs : ∀ s tr a s' ev, I s tr → step s a = some (s', ev) → I s' (tr ++ ev)) {s tr} (h : Reach step init s tr) : I s tr := by
  induction h with
  | init => exact h0
  | step _ e ih => exact hs _ _ _ _ _ ih e

/-- A concrete schedule as a witness: run it and test the final state and trace. -/
def runSat (step : σ → α → Option (σ × List ε)) (init : σ) (as : List α) (P : σ → List ε → Bool) : Bool :=
  match run step as init with
  | some (s, tr) => P s tr
  | none => false

theorem runSat_ex {step : σ → α → Option (σ × List ε)} {init : σ} {as : List α} {P : σ → List ε → Bool}
    (h : runSat step init as P = true) : ∃ s tr, Reach step init s tr ∧ P s tr = true := by
  unfold runSat at h
  split at h
  · next s tr e => exact ⟨s, tr, by simpa using run_reach as Reach.init e, h⟩
  · simp at h

theorem sum_mem_le {β : Type} {f : β → Nat} {x : β} : ∀ {ts : List β}, x ∈ ts → f x ≤ (ts.map f).sum
  | a :: ts, h => by
    simp only [List.map_cons, List.sum_cons]
    rcases List.mem_cons.1 h with rfl | h
    · omega
    · have := sum_mem_le (f := f) h; omega

theorem sum_le {β : Type} {f g : β → Nat} (h : ∀ t, f t ≤ g t) : ∀ ts : List β, (ts.map f).sum ≤ (ts.map g).sum
  | [] => by simp
  | a :: ts => by simp only [List.map_cons, List.sum_cons]; have := h a; have := sum_le h ts; omega

theorem sum_lt {β : Type} {f g : β → Nat} (h : ∀ t, f t ≤ g t) {x : β} (hx : f x < g x) : ∀ {ts : List β}, x ∈ ts →
    (ts.map f).sum < (ts.map g).sum
  | a :: ts, hm => by
    simp only [List.map_cons, List.sum_cons]
    rcases List.mem_cons.1 hm with rfl | hm
    · have := sum_le h ts; omega
    · have := h a; have := sum_lt h hx hm; omega

end Verif.Lts
