import Verif.Sem.Lts
/-
Infinite executions and weak fairness.  Nothing in this file is about cppelib.
-/
namespace Verif.Lts
variable {σ α ε : Type}

/-- An infinite execution: states, actions and events. -/
def InfExec (step : σ → α → Option (σ × List ε)) (st : Nat → σ) (act : Nat → α) (ev : Nat → List ε) : Prop :=
  ∀ n, step (st n) (act n) = some (st (n + 1), ev n)

/-- Weak fairness for one action: if from some moment on it is always enabled, it happens after that. -/
def WeakFair (step : σ → α → Option (σ × List ε)) (st : Nat → σ) (act : Nat → α) (a : α) : Prop :=
  ∀ N, (∀ n, N ≤ n → step (st n) a ≠ none) → ∃ n, N ≤ n ∧ act n = a

theorem InfExec.reach {step : σ → α → Option (σ × List ε)} {init : σ} {st : Nat → σ} {act : Nat → α} {ev : Nat → List ε} {tr : List ε}
    (hx : InfExec step st act ev) (h0 : Reach step init (st 0) tr) : ∀ n, ∃ tr', Reach step init (st n) (tr ++ tr')
  | 0 => ⟨[], by simpa using h0⟩
  | n + 1 => by
    obtain ⟨tr', h⟩ := hx.reach h0 n
    exact ⟨tr' ++ ev n, by rw [← List.append_assoc]; exact Reach.step h (hx n)⟩

/-- The trace up to step `n`. -/
def upto (ev : Nat → List ε) : Nat → List ε
  | 0 => []
  | n + 1 => upto ev n ++ ev n

theorem InfExec.reach_upto {step : σ → α → Option (σ × List ε)} {init : σ} {st : Nat → σ} {act : Nat → α} {ev : Nat → List ε} {tr : List ε}
    (hx : InfExec step st act ev) (h0 : Reach step init (st 0) tr) : ∀ n, Reach step init (st n) (tr ++ upto ev n)
  | 0 => by simpa [upto] using h0
  | n + 1 => by
    rw [upto, ← List.append_assoc]; exact Reach.step (hx.reach_upto h0 n) (hx n)

theorem mem_upto {ev : Nat → List ε} {x : ε} : ∀ {n}, x ∈ upto ev n ↔ ∃ m, m < n ∧ x ∈ ev m
  | 0 => by simp [upto]
  | n + 1 => by
    rw [upto, List.mem_append, mem_upto]
    constructor
    · rintro (⟨m, h1, h2⟩ | h)
      · exact ⟨m, by omega, h2⟩
      · exact ⟨n, by omega, h⟩
    · rintro ⟨m, h1, h2⟩
      by_cases e : m = n
      · subst e; exact Or.inr h2
      · exact Or.inl ⟨m, by omega, h2⟩

/-- A nonincreasing measure with, in each state, a helpful action that is enabled, stays the helpful one while the measure does not
change, and makes it smaller: under weak fairness the measure becomes 0. -/
theorem fair_zero {step : σ → α → Option (σ × List ε)} {st : Nat → σ} {act : Nat → α}
    (M : σ → Nat) (help : σ → α) (N : Nat)
    (dec : ∀ n, N ≤ n → M (st n) ≠ 0 → M (st (n + 1)) ≤ M (st n) ∧ (act n = help (st n) → M (st (n + 1)) < M (st n)) ∧
      (M (st (n + 1)) = M (st n) → help (st (n + 1)) = help (st n)))
    (en : ∀ n, N ≤ n → M (st n) ≠ 0 → step (st n) (help (st n)) ≠ none)
    (fair : ∀ n, N ≤ n → M (st n) ≠ 0 → WeakFair step st act (help (st n))) : ∃ n, N ≤ n ∧ M (st n) = 0 := by
  have key : ∀ b N0, N ≤ N0 → M (st N0) ≤ b → ∃ n, N ≤ n ∧ M (st n) = 0 := by
    intro b
    induction b with
    | zero => intro N0 h1 h2; exact ⟨N0, h1, by omega⟩
    | succ b ih =>
      intro N0 h1 h2
      apply Classical.byContradiction
      intro hno
      -- the measure is never 0 and never below b+1 from N0 on
      have hge : ∀ n, N0 ≤ n → M (st n) = b + 1 ∧ help (st n) = help (st N0) := by
        have hlow : ∀ n, N0 ≤ n → b + 1 ≤ M (st n) := by
          intro n hn
          apply Classical.byContradiction
          intro hlt
          exact hno (ih n (by omega) (by omega))
        have : ∀ k, M (st (N0 + k)) = b + 1 ∧ help (st (N0 + k)) = help (st N0) := by
          intro k
          induction k with
          | zero => exact ⟨by have := hlow N0 (by omega); simp; omega, rfl⟩
          | succ k ihk =>
            have hd := dec (N0 + k) (by omega) (by omega)
            have hl := hlow (N0 + (k + 1)) (by omega)
            have e : N0 + (k + 1) = N0 + k + 1 := by omega
            rw [e] at hl ⊢
            refine ⟨by omega, ?_⟩
            rw [hd.2.2 (by omega), ihk.2]
        intro n hn
        obtain ⟨k, rfl⟩ := Nat.exists_eq_add_of_le hn
        exact this k
      have hf := fair N0 h1 (by have := (hge N0 (by omega)).1; omega)
      obtain ⟨n, hn, ha⟩ := hf N0 (by
        intro n hn
        have := hge n hn
        rw [← this.2]; exact en n (by omega) (by omega))
      have h3 := hge n hn
      have h4 := hge (n + 1) (by omega)
      have := (dec n (by omega) (by omega)).2.1 (by rw [ha, h3.2])
      omega
  exact key (M (st N)) N (Nat.le_refl _) (Nat.le_refl _)

/-! A cycle gives an infinite execution. -/

/-- The state after the first `n` actions of the list (the state itself if that is not possible). -/
def after (step : σ → α → Option (σ × List ε)) (cyc : List α) (s : σ) (n : Nat) : σ := match run step (cyc.take n) s with
  | some (s', _) => s'
  | none => s

theorem run_take {step : σ → α → Option (σ × List ε)} : ∀ (cyc : List α) (s : σ) {s' tr}, run step cyc s = some (s', tr) → ∀ n (hn : n < cyc.length),
    ∃ tr0 s1 ev, run step (cyc.take n) s = some (after step cyc s n, tr0) ∧ step (after step cyc s n) cyc[n] = some (s1, ev) ∧
      ∃ tr1, run step (cyc.take (n + 1)) s = some (s1, tr1)
  | [], s, s', tr, h, n, hn => by simp at hn
  | a :: cyc, s, s', tr, h, n, hn => by
    simp only [run] at h
    split at h
    · simp at h
    · next s1 ev1 h1 =>
      split at h
      · simp at h
      · next s2 ev2 h2 =>
        cases n with
        | zero => exact ⟨[], s1, ev1, by simp [run, after], by simpa [after, run] using h1, ev1, by simp [run, h1]⟩
        | succ n =>
          obtain ⟨tr0, s3, ev, g1, g2, tr1, g3⟩ := run_take cyc s1 h2 n (by simpa using hn)
          have e : after step (a :: cyc) s (n + 1) = after step cyc s1 n := by
            have : run step ((a :: cyc).take (n + 1)) s = some (after step cyc s1 n, ev1 ++ tr0) := by
              simp [run, h1, g1]
            simp only [after, this]
          refine ⟨ev1 ++ tr0, s3, ev, ?_, ?_, ev1 ++ tr1, ?_⟩
          · rw [e]; simp [run, h1, g1]
          · rw [e]; simpa using g2
          · simp [run, h1, g3]

def evOf (step : σ → α → Option (σ × List ε)) (s : σ) (a : α) : List ε := match step s a with
  | some (_, ev) => ev
  | none => []

theorem lasso {step : σ → α → Option (σ × List ε)} {cyc : List α} {s : σ} {tr : List ε} (hne : 0 < cyc.length)
    (h : run step cyc s = some (s, tr)) :
    InfExec step (fun n => after step cyc s (n % cyc.length)) (fun n => cyc[n % cyc.length]'(Nat.mod_lt _ hne))
      (fun n => evOf step (after step cyc s (n % cyc.length)) (cyc[n % cyc.length]'(Nat.mod_lt _ hne))) := by
  intro n
  obtain ⟨tr0, s1, ev, g1, g2, tr1, g3⟩ := run_take cyc s h (n % cyc.length) (Nat.mod_lt _ hne)
  have e : s1 = after step cyc s ((n + 1) % cyc.length) := by
    by_cases hl : n % cyc.length + 1 = cyc.length
    · have h1 : (n + 1) % cyc.length = 0 := by
        rw [Nat.add_mod]
        by_cases h2 : cyc.length = 1
        · simp [h2, Nat.mod_one]
        · rw [Nat.mod_eq_of_lt (show 1 < cyc.length by omega), hl]; simp
      rw [hl, List.take_length] at g3
      rw [h] at g3; simp at g3
      rw [h1]; simp [after, run, g3.1]
    · have h1 : (n + 1) % cyc.length = n % cyc.length + 1 := by
        have := Nat.mod_lt n hne
        rw [Nat.add_mod, Nat.mod_eq_of_lt (show 1 < cyc.length by omega), Nat.mod_eq_of_lt (by omega)]
      rw [h1]; simp [after, g3]
  dsimp only
  rw [← e]
  simp [evOf, g2]

theorem lasso_fair {step : σ → α → Option (σ × List ε)} {cyc : List α} {st : Nat → σ} (hne : 0 < cyc.length) {a : α} (ha : a ∈ cyc) :
    WeakFair step st (fun n => cyc[n % cyc.length]'(Nat.mod_lt _ hne)) a := by
  intro N _
  obtain ⟨i, hi, e⟩ := List.mem_iff_getElem.1 ha
  refine ⟨N * cyc.length + i, ?_, ?_⟩
  · have : N * 1 ≤ N * cyc.length := Nat.mul_le_mul_left N hne
    omega
  · have : (N * cyc.length + i) % cyc.length = i := by
      rw [Nat.mul_comm, Nat.mul_add_mod, Nat.mod_eq_of_lt hi]
    simp only [this]; exact e

/-! Executions that may come to rest: in an infinite execution of `stut step`, every step is one of `step` or nothing at all.  So a finite
execution is one too, followed by nothing for ever; weak fairness then says that it does not end while a fairly scheduled action is possible. -/

def stut (step : σ → α → Option (σ × List ε)) (s : σ) : Option α → Option (σ × List ε)
  | none => some (s, [])
  | some a => step s a

theorem stut_cases {step : σ → α → Option (σ × List ε)} {s s' : σ} {a : Option α} {ev : List ε} (h : stut step s a = some (s', ev)) :
    (a = none ∧ s' = s ∧ ev = []) ∨ ∃ b, a = some b ∧ step s b = some (s', ev) := by
  cases a with
  | none => simp [stut] at h; exact Or.inl ⟨rfl, h.1.symm, h.2⟩
  | some b => exact Or.inr ⟨b, rfl, h⟩

theorem stut_reach {step : σ → α → Option (σ × List ε)} {init s : σ} {tr : List ε} (h : Reach (stut step) init s tr) : Reach step init s tr := by
  induction h with
  | init => exact Reach.init
  | step _ hs ih =>
    rcases stut_cases hs with ⟨_, rfl, rfl⟩ | ⟨b, _, hb⟩
    · simpa using ih
    · exact Reach.step ih hb

theorem reach_stut {step : σ → α → Option (σ × List ε)} {init s : σ} {tr : List ε} (h : Reach step init s tr) : Reach (stut step) init s tr := by
  induction h with
  | init => exact Reach.init
  | @step _ _ a _ _ _ hs ih => exact Reach.step (a := some a) ih hs

theorem InfExec.stut {step : σ → α → Option (σ × List ε)} {st : Nat → σ} {act : Nat → α} {ev : Nat → List ε} (hx : InfExec step st act ev) :
    InfExec (Lts.stut step) st (fun n => some (act n)) ev := hx

theorem WeakFair.stut {step : σ → α → Option (σ × List ε)} {st : Nat → σ} {act : Nat → α} {a : α} (h : WeakFair step st act a) :
    WeakFair (Lts.stut step) st (fun n => some (act n)) (some a) := by
  intro N hN
  obtain ⟨n, h1, h2⟩ := h N hN
  exact ⟨n, h1, by simp [h2]⟩

/-- A finite execution, followed by nothing. -/
theorem rests {step : σ → α → Option (σ × List ε)} : ∀ (as : List α) {s s' : σ} {tr : List ε}, run step as s = some (s', tr) →
    ∃ st act ev, InfExec (stut step) st act ev ∧ st 0 = s ∧ (∀ n (h : n < as.length), act n = some as[n]) ∧ (∀ n, as.length ≤ n → st n = s' ∧ act n = none) ∧
      upto ev as.length = tr
  | [], s, s', tr, h => by
    simp [run] at h
    exact ⟨fun _ => s, fun _ => none, fun _ => [], fun n => by simp [stut], rfl, fun n h => absurd h (by simp), fun n _ => ⟨h.1, rfl⟩, by simp [upto, h.2]⟩
  | a :: as, s, s', tr, h => by
    simp only [run] at h
    split at h
    · simp at h
    · next s1 ev1 h1 =>
      split at h
      · simp at h
      · next s2 ev2 h2 =>
        simp at h; obtain ⟨rfl, rfl⟩ := h
        obtain ⟨st, act, ev, g1, g2, g3, g4, g5⟩ := rests as h2
        refine ⟨fun n => match n with | 0 => s | n + 1 => st n, fun n => match n with | 0 => some a | n + 1 => act n,
          fun n => match n with | 0 => ev1 | n + 1 => ev n, ?_, rfl, ?_, ?_, ?_⟩
        · intro n
          cases n with
          | zero => simp only [stut]; rw [g2]; exact h1
          | succ n => exact g1 n
        · intro n hn
          cases n with
          | zero => rfl
          | succ n => simpa using g3 n (by simpa using hn)
        · intro n hn
          cases n with
          | zero => simp at hn
          | succ n => exact g4 n (by simpa using hn)
        · have key : ∀ m, upto (fun n => match n with | 0 => ev1 | n + 1 => ev n) (m + 1) = ev1 ++ upto ev m := by
            intro m
            induction m with
            | zero => simp [upto]
            | succ m ih => rw [upto, ih, upto]; simp
          rw [← g5]; exact key _

/-- It is fair to the actions that are not possible in the end. -/
theorem rests_fair {step : σ → α → Option (σ × List ε)} {st : Nat → σ} {act : Nat → Option α} {s' : σ} {m : Nat} (h : ∀ n, m ≤ n → st n = s' ∧ act n = none) {a : α}
    (ha : step s' a = none) : WeakFair (stut step) st act (some a) := by
  intro N hN
  exfalso
  exact hN (max N m) (by omega) (by rw [(h (max N m) (by omega)).1]; exact ha)

end Verif.Lts
