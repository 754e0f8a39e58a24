import Verif.Sem.Lts
/-
Labelled transition systems with a clock.  What the program does takes no time; the clock advances only when nothing urgent is left to
do and no deadline has been reached.  A wait ends by timeout only when its deadline has been reached.
-/
namespace Verif.Timed
open Verif

/-- How a transition system uses the clock. -/
structure Clock (σ α : Type) where
  /-- the action is the end, by timeout, of the wait of that thread -/
  expires : α → Option Nat
  /-- the action begins a wait of that thread that ends after so many milliseconds -/
  arms : σ → α → Option (Nat × Nat)
  /-- that thread is in such a wait -/
  waits : σ → Nat → Bool
  /-- something can be done, and doing it takes no time -/
  urgent : σ → Prop

variable {σ α ε : Type}

def armed (d : Nat → Nat) (now : Nat) : Option (Nat × Nat) → Nat → Nat
  | none => d
  | some (t, n) => upd d t (now + n)

/-- `TReach … s now d tr`: state `s` is reached at time `now`; `d t` is the deadline of the last wait of `t`; `tr` is what has happened, and when. -/
inductive TReach (k : Clock σ α) (step : σ → α → Option (σ × List ε)) (init : σ) : σ → Nat → (Nat → Nat) → List (Nat × ε) → Prop where
  | init : TReach k step init init 0 (fun _ => 0) []
  | act {s now d tr a s' ev} : TReach k step init s now d tr → step s a = some (s', ev) → (∀ t, k.expires a = some t → d t ≤ now) →
      TReach k step init s' now (armed d now (k.arms s a)) (tr ++ ev.map fun e => (now, e))
  | tick {s now d tr} : TReach k step init s now d tr → ¬ k.urgent s → (∀ t, k.waits s t = true → now < d t) → TReach k step init s (now + 1) d tr

/-- What has happened, without the times. -/
def untimed (tr : List (Nat × ε)) : List ε := tr.map Prod.snd

theorem untimed_app (a b : List (Nat × ε)) : untimed (a ++ b) = untimed a ++ untimed b := by simp [untimed]
theorem untimed_ev (now : Nat) (ev : List ε) : untimed (ev.map fun e => (now, e)) = ev := by simp [untimed, Function.comp_def]

/-- Without the clock it is an execution of the transition system. -/
theorem TReach.reach {k : Clock σ α} {step : σ → α → Option (σ × List ε)} {init s : σ} {now : Nat} {d : Nat → Nat} {tr : List (Nat × ε)}
    (h : TReach k step init s now d tr) : Lts.Reach step init s (untimed tr) := by
  induction h with
  | init => exact Lts.Reach.init
  | act _ hs _ ih => rw [untimed_app, untimed_ev]; exact Lts.Reach.step ih hs
  | tick _ _ _ ih => exact ih

/-- Where an event of the trace comes from. -/
theorem TReach.at {k : Clock σ α} {step : σ → α → Option (σ × List ε)} {init s : σ} {now : Nat} {d : Nat → Nat} {tr a b : List (Nat × ε)} {r : Nat} {e : ε}
    (h : TReach k step init s now d tr) (he : tr = a ++ (r, e) :: b) :
    ∃ s0 d0 tr0 act s1 e1 e2, TReach k step init s0 r d0 tr0 ∧ step s0 act = some (s1, e1 ++ e :: e2) ∧ (∀ t, k.expires act = some t → d0 t ≤ r) ∧
      a = tr0 ++ e1.map fun e => (r, e) := by
  induction h generalizing b with
  | init => simp at he
  | tick _ _ _ ih => exact ih he
  | @act s now d tr act s' ev h1 hs hx ih =>
    rcases List.append_eq_append_iff.1 he with ⟨c, h2, h3⟩ | ⟨c, h2, h3⟩
    · obtain ⟨e1, l2, h4, h5, h6⟩ := List.map_eq_append_iff.1 h3
      obtain ⟨x, e2, h7, h8, h9⟩ := List.map_eq_cons_iff.1 h6
      simp only [Prod.mk.injEq] at h8
      obtain ⟨rfl, rfl⟩ := h8
      subst h7 h4
      exact ⟨s, d, tr, act, s', e1, e2, h1, hs, hx, by rw [h2, ← h5]⟩
    · cases c with
      | nil =>
        simp only [List.append_nil, List.nil_append] at h2 h3
        obtain ⟨x, e2, h7, h8, h9⟩ := List.map_eq_cons_iff.1 h3.symm
        simp only [Prod.mk.injEq] at h8
        obtain ⟨rfl, rfl⟩ := h8
        subst h7
        exact ⟨s, d, tr, act, s', [], e2, h1, hs, hx, by simp [h2]⟩
      | cons y c =>
        simp only [List.cons_append, List.cons.injEq] at h3
        obtain ⟨rfl, h3⟩ := h3
        exact ih h2

theorem TReach.times {k : Clock σ α} {step : σ → α → Option (σ × List ε)} {init s : σ} {now : Nat} {d : Nat → Nat} {tr : List (Nat × ε)}
    (h : TReach k step init s now d tr) : ∀ x, x ∈ tr → x.1 ≤ now := by
  induction h with
  | init => simp
  | tick _ _ _ ih => intro x hx; exact Nat.le_succ_of_le (ih x hx)
  | act _ _ _ ih =>
    intro x hx
    rcases List.mem_append.1 hx with hx | hx
    · exact ih x hx
    · obtain ⟨e, _, rfl⟩ := List.mem_map.1 hx; exact Nat.le_refl _

/-- If everything in `p` has happened before time `y` and everything after it at `y` or later, then in the state that `p` leads to the clock advanced. -/
theorem TReach.pause {k : Clock σ α} {step : σ → α → Option (σ × List ε)} {init s : σ} {now : Nat} {d : Nat → Nat} {tr : List (Nat × ε)}
    (h : TReach k step init s now d tr) {y : Nat} (hy : 0 < y) (hn : y ≤ now) {p q : List (Nat × ε)} (e : tr = p ++ q) (hp : ∀ x, x ∈ p → x.1 < y) (hq : ∀ x, x ∈ q → y ≤ x.1) :
    ∃ s0 n0 d0, TReach k step init s0 n0 d0 p ∧ ¬ k.urgent s0 ∧ ∀ t, k.waits s0 t = true → n0 < d0 t := by
  induction h generalizing p q with
  | init => omega
  | @tick s now d tr h1 hu hd ih =>
    by_cases hc : y ≤ now
    · exact ih hc e hp hq
    · have : q = [] := by
        cases q with
        | nil => rfl
        | cons x q =>
          have h2 := h1.times x (by rw [e]; simp)
          have h3 := hq x (by simp)
          omega
      subst this
      rw [List.append_nil] at e
      subst e
      exact ⟨s, now, d, h1, hu, hd⟩
  | @act s now d tr a s' ev h1 _ _ ih =>
    rcases List.append_eq_append_iff.1 e with ⟨c, h2, h3⟩ | ⟨c, h2, h3⟩
    · have : c = [] := by
        cases c with
        | nil => rfl
        | cons x c =>
          exfalso
          have h4 := hp x (by rw [h2]; simp)
          have h5 : x ∈ ev.map fun e => (now, e) := by rw [h3]; simp
          obtain ⟨e, _, rfl⟩ := List.mem_map.1 h5
          simp at h4; omega
      subst this
      rw [List.append_nil] at h2
      subst h2
      exact ih hn (q := []) (by simp) hp (by simp)
    · subst h3
      exact ih hn h2 hp fun x hx => hq x (by simp [hx])

end Verif.Timed
