import Verif.Props.MessageQueueEvent
/-
C97, progress: without new calls of the queue and without spurious wake-ups, the queue on the event flag implementations comes to rest.
-/
namespace Verif.Props.MessageQueueEvent
open Verif MQ MQ.OnFlag
open _root_.Verif.Lts (Reach run sum_mem_le sum_le sum_lt)
open _root_.Verif.Mtx (Tid Err)
open _root_.Verif.Props.MessageQueue (rank rank_step isCall actor)
set_option linter.unusedSectionVars false
set_option linter.unusedSimpArgs false
variable {V F : Type} [DecidableEq V] {w : Nat}

/-- Not a new call of the queue, not a spurious wake-up. -/
def Inner : CAct V w → Bool
  | .mq a => !isCall a
  | .ev (.wake _) => false
  | .ev _ => true

/-- A measure of the flag: steps the calls in progress can still take when at most the threads `ts` are inside. -/
structure Measure (O : F → EvF.Act w → Option (F × List (EvF.Ev w))) (f0 : F) (ts : List Tid) (K : Nat) (μ : F → Tid → Nat) : Prop where
  out : ∀ f ftr, Reach O f0 f ftr → ∀ t, (μ f t = 0 ↔ EvF.Spec.phase t ftr = .out)
  call : ∀ f t c f' evs, O f (.call t c) = some (f', evs) → evs = [.call t c] ∧ μ f t = 0 ∧ 0 < μ f' t ∧ μ f' t < K ∧ ∀ u, u ≠ t → μ f' u = μ f u
  pos : 0 < K
  inner : ∀ f ftr, Reach O f0 f ftr → ∀ a f' evs, O f a = some (f', evs) → (∀ t c, a ≠ .call t c) → (∀ t, a ≠ .wake t) →
    (∀ u, μ f u ≠ 0 → u ∈ ts) →
    (∃ t c r, evs = [.ret t c r] ∧ μ f t ≠ 0 ∧ μ f' t = 0 ∧ ∀ u, u ≠ t → μ f' u = μ f u) ∨
    ((∀ e, e ∈ evs → ∃ t c r, e = .lin t c r) ∧ (∀ u, μ f' u = 0 ↔ μ f u = 0) ∧ (ts.map (μ f')).sum < (ts.map (μ f)).sum)

/-- What a thread can still do, in the queue and in the flag. -/
def pot (K : Nat) (μ : F → Tid → Nat) (s : CSt V F) (t : Tid) : Nat :=
  if μ s.f t = 0 then K * rank (s.m.pc t) else K * (rank (s.m.pc t) - 1) + μ s.f t

theorem onEvs_lin {m : MQ.St V} : ∀ {evs : List (EvF.Ev w)}, (∀ e, e ∈ evs → ∃ t c r, e = .lin t c r) → ∀ {m' ev}, onEvs m evs = some (m', ev) → m' = m
  | [], _, m', ev, he => by simp only [onEvs, Option.some.injEq, Prod.mk.injEq] at he; exact he.1.symm
  | x :: xs, h, m', ev, he => by
    obtain ⟨t, c, r, rfl⟩ := h x (by simp)
    simp only [onEvs, onEv] at he
    split at he
    · simp at he
    · rename_i m2 e2 h2
      simp only [Option.some.injEq, Prod.mk.injEq] at he
      rw [← he.1]
      exact onEvs_lin (fun e hm => h e (by simp [hm])) h2

theorem rank_evCall {p : PC V} {c : EvF.Call w} (h : evCall p = some c) (r : EvF.Res w) : rank (after p r) < rank p := by
  cases p <;> simp [evCall] at h <;> simp [after, rank] <;> (by_cases e : r.err = .OK <;> simp [e])

theorem sum_eq {β : Type} {f g : β → Nat} (h : ∀ t, f t = g t) (ts : List β) : (ts.map f).sum = (ts.map g).sum := by
  rw [funext h]

theorem sum_add {β : Type} {f g : β → Nat} : ∀ ts : List β, (ts.map (fun t => f t + g t)).sum = (ts.map f).sum + (ts.map g).sum
  | [] => rfl
  | a :: ts => by simp only [List.map_cons, List.sum_cons, sum_add ts]; omega

/-- Threads outside `ts` are outside the queue. -/
def Inside (ts : List Tid) (s : CSt V F) : Prop := ∀ t, s.m.pc t ≠ .idle → t ∈ ts

theorem pot_step {cap : Nat} {os : Bool} (hw : 2 ≤ w) {O : F → EvF.Act w → Option (F × List (EvF.Ev w))} {f0 : F} {ts : List Tid} {K : Nat}
    {μ : F → Tid → Nat} (hO : ∀ f ftr, Reach O f0 f ftr → ∃ σ, EvF.Spec.Linearizable false os ftr σ) (M : Measure O f0 ts K μ)
    {s s' : CSt V F} {tr ev : List (Ev V)} {a : CAct V w} (h : Reach (OnFlag.step O) (OnFlag.init V cap f0) s tr) (hi : Inside ts s)
    (ha : Inner a = true) (hs : OnFlag.step O s a = some (s', ev)) :
    Inside ts s' ∧ (ts.map (pot K μ s')).sum < (ts.map (pot K μ s)).sum := by
  obtain ⟨ab, ftr, hf, hr, rel⟩ := simulation hw hO h
  have hin : ∀ u, μ s.f u ≠ 0 → ∃ c : EvF.Call w, evCall (s.m.pc u) = some c := by
    intro u hu
    have hp : EvF.Spec.phase u ftr ≠ .out := fun e => hu ((M.out _ _ hf u).2 e)
    have := rel.ph u
    cases hq : EvF.Spec.phase u ftr with
    | out => exact absurd hq hp
    | called c => rw [hq] at this; exact ⟨c, this⟩
    | done c r => rw [hq] at this; exact ⟨c, this⟩
    | bad => rw [hq] at this; exact absurd this (by simp [okPhase])
  have hints : ∀ u, μ s.f u ≠ 0 → u ∈ ts := by
    intro u hu
    obtain ⟨c, hc⟩ := hin u hu
    refine hi u (fun e => ?_)
    rw [e] at hc; simp [evCall] at hc
  cases a with
  | mq act =>
    have hub' : s'.m.ub = false := by
      obtain ⟨a2, _, _, hr2, rel2⟩ := simulation hw hO (Reach.step h hs)
      have := (Props.MessageQueue.C48_ring hr2).1
      rw [rel2.eq] at this; exact this
    simp only [OnFlag.step] at hs
    split at hs
    · rename_i hc
      split at hs
      · rename_i m' ev' hm
        simp only [Option.some.injEq, Prod.mk.injEq] at hs
        obtain ⟨rfl, rfl⟩ := hs
        have hnc : isCall act = false := by simpa [Inner] using ha
        obtain ⟨h1, h2⟩ := rank_step hm hnc hub'
        have hta : actor act = tid act := by cases act <;> rfl
        rw [hta] at h1 h2
        have hmem : tid act ∈ ts := by
          apply hi; intro e; rw [e] at h1; simp [rank] at h1
        have h0 : μ s.f (tid act) = 0 := by
          apply Classical.byContradiction
          intro hne
          obtain ⟨c, hc'⟩ := hin _ hne
          rw [hc] at hc'; simp at hc'
        refine ⟨fun u hu => ?_, ?_⟩
        · by_cases e : u = tid act
          · rw [e]; exact hmem
          · have hu' : s.m.pc u ≠ .idle := by rw [← h2 u e]; exact hu
            exact hi u hu'
        · have hlt : pot K μ (⟨m', s.f⟩ : CSt V F) (tid act) < pot K μ s (tid act) := by
            simp only [pot, h0, if_true]
            apply Nat.mul_lt_mul_of_pos_left h1
            exact M.pos
          refine sum_lt ?_ hlt hmem
          intro t
          by_cases e : t = tid act
          · rw [e]; omega
          · simp only [pot, h2 t e]; exact Nat.le_refl _
      · simp at hs
    · simp at hs
  | ev act =>
    simp only [OnFlag.step] at hs
    split at hs
    · simp at hs
    · rename_i f' evs hO'
      split at hs
      · simp at hs
      · rename_i m' ev' hm
        simp only [Option.some.injEq, Prod.mk.injEq] at hs
        obtain ⟨rfl, rfl⟩ := hs
        by_cases hcall : ∃ t c, act = .call t c
        · obtain ⟨t, c, rfl⟩ := hcall
          obtain ⟨rfl, h0, h1, h2, h3⟩ := M.call _ _ _ _ _ hO'
          simp only [onEvs, onEv] at hm
          split at hm
          · simp at hm
          · rename_i m1 e1 hc1
            split at hc1
            · rename_i hc2
              simp only [Option.some.injEq, Prod.mk.injEq] at hc1 hm
              obtain ⟨rfl, rfl⟩ := hc1
              obtain ⟨rfl, rfl⟩ := hm
              have hmem : t ∈ ts := by apply hi; intro e; rw [e] at hc2; simp [evCall] at hc2
              have hr1 := rank_evCall hc2 ⟨.OK, none⟩
              refine ⟨hi, ?_⟩
              have hlt : pot K μ (⟨s.m, f'⟩ : CSt V F) t < pot K μ s t := by
                simp only [pot, h0, if_true, if_neg (Nat.ne_of_gt h1)]
                obtain ⟨n, hn⟩ : ∃ n, rank (s.m.pc t) = n + 1 := ⟨rank (s.m.pc t) - 1, by omega⟩
                rw [hn]
                simp only [Nat.add_sub_cancel, Nat.mul_add, Nat.mul_one]
                omega
              refine sum_lt ?_ hlt hmem
              intro u
              by_cases e : u = t
              · rw [e]; omega
              · simp only [pot, h3 u e]; exact Nat.le_refl _
            · simp at hc1
        · have hnw : ∀ t, act ≠ .wake t := by rintro t rfl; simp [Inner] at ha
          rcases M.inner _ _ hf act f' evs hO' (fun t c e => hcall ⟨t, c, e⟩) hnw hints with ⟨t, c, r, rfl, h0, h1, h2⟩ | ⟨hlin, h0, hlt⟩
          · simp only [onEvs, onEv, Option.some.injEq, Prod.mk.injEq] at hm
            obtain ⟨rfl, rfl⟩ := hm
            obtain ⟨c', hc'⟩ := hin t h0
            have hr1 := rank_evCall hc' r
            have hmem := hints t h0
            refine ⟨fun u hu => ?_, ?_⟩
            · by_cases e : u = t
              · rw [e]; exact hmem
              · have hu' : s.m.pc u ≠ .idle := by simpa [St.at, upd, e] using hu
                exact hi u hu'
            · have hlt : pot K μ (⟨s.m.at t (after (s.m.pc t) r), f'⟩ : CSt V F) t < pot K μ s t := by
                simp only [pot, h1, if_true, if_neg h0]
                have e : (s.m.at t (after (s.m.pc t) r)).pc t = after (s.m.pc t) r := by simp [St.at, upd]
                rw [e]
                have : K * rank (after (s.m.pc t) r) ≤ K * (rank (s.m.pc t) - 1) := Nat.mul_le_mul_left _ (by omega)
                omega
              refine sum_lt ?_ hlt hmem
              intro u
              by_cases e : u = t
              · rw [e]; omega
              · simp only [pot, h2 u e]
                have : (s.m.at t (after (s.m.pc t) r)).pc u = s.m.pc u := by simp [St.at, upd, e]
                rw [this]; exact Nat.le_refl _
          · have := onEvs_lin hlin hm
            subst this
            refine ⟨hi, ?_⟩
            have key : ∀ u, pot K μ (⟨s.m, f'⟩ : CSt V F) u + μ s.f u = pot K μ s u + μ f' u := by
              intro u
              simp only [pot]
              by_cases e : μ s.f u = 0
              · have e' := (h0 u).2 e
                simp [e, e']
              · have e' : μ f' u ≠ 0 := fun x => e ((h0 u).1 x)
                simp only [if_neg e, if_neg e']
                omega
            have := sum_eq key ts
            rw [sum_add, sum_add] at this
            omega

theorem not_stuck {O : F → EvF.Act w → Option (F × List (EvF.Ev w))} {s : CSt V F} (h : ¬ Stuck O s) :
    ∃ a : CAct V w, Inner a = true ∧ ∃ s1 ev1, OnFlag.step O s a = some (s1, ev1) := by
  apply Classical.byContradiction
  intro hn
  have no : ∀ a : CAct V w, Inner a = true → OnFlag.step O s a = none := by
    intro a ha
    cases hx : OnFlag.step O s a with
    | none => rfl
    | some p => exact absurd ⟨a, ha, p.1, p.2, hx⟩ hn
  exact h fun t => ⟨no _ rfl, no _ rfl, fun c => no _ rfl, no _ rfl, no _ rfl⟩

/-- Without new calls and spurious wake-ups, the number of further steps is bounded. -/
theorem terminates {cap : Nat} {os : Bool} (hw : 2 ≤ w) {O : F → EvF.Act w → Option (F × List (EvF.Ev w))} {f0 : F} {ts : List Tid} {K : Nat}
    {μ : F → Tid → Nat} (hO : ∀ f ftr, Reach O f0 f ftr → ∃ σ, EvF.Spec.Linearizable false os ftr σ) (M : Measure O f0 ts K μ) :
    ∀ (as : List (CAct V w)) {s s' : CSt V F} {tr ev : List (Ev V)}, Reach (OnFlag.step O) (OnFlag.init V cap f0) s tr → Inside ts s →
      (∀ a, a ∈ as → Inner a = true) → run (OnFlag.step O) as s = some (s', ev) → as.length ≤ (ts.map (pot K μ s)).sum
  | [], _, _, _, _, _, _, _, _ => Nat.zero_le _
  | a :: as, s, s', tr, ev, h, hi, ha, hr => by
    simp only [run] at hr
    split at hr
    · simp at hr
    · next s1 ev1 h1 =>
      split at hr
      · simp at hr
      · next s2 ev2 h2 =>
        obtain ⟨g1, g2⟩ := pot_step hw hO M h hi (ha a (by simp)) h1
        have := terminates hw hO M as (Reach.step h h1) g1 (fun x hx => ha x (by simp [hx])) h2
        simp only [List.length_cons]
        omega

theorem reaches {cap : Nat} {os : Bool} (hw : 2 ≤ w) {O : F → EvF.Act w → Option (F × List (EvF.Ev w))} {f0 : F} {ts : List Tid} {K : Nat}
    {μ : F → Tid → Nat} (hO : ∀ f ftr, Reach O f0 f ftr → ∃ σ, EvF.Spec.Linearizable false os ftr σ) (M : Measure O f0 ts K μ) :
    ∀ (n : Nat) {s : CSt V F} {tr : List (Ev V)}, Reach (OnFlag.step O) (OnFlag.init V cap f0) s tr → Inside ts s → (ts.map (pot K μ s)).sum ≤ n →
      ∃ as s' ev, (∀ a, a ∈ as → Inner a = true) ∧ run (OnFlag.step O) as s = some (s', ev) ∧ Stuck O s' := by
  intro n
  induction n with
  | zero =>
    intro s tr h hi hn
    refine ⟨[], s, [], by simp, rfl, ?_⟩
    apply Classical.byContradiction
    intro hst
    obtain ⟨a, ha, s1, ev1, h1⟩ := not_stuck hst
    have := (pot_step hw hO M h hi ha h1).2
    omega
  | succ n ih =>
    intro s tr h hi hn
    by_cases hst : Stuck O s
    · exact ⟨[], s, [], by simp, rfl, hst⟩
    · obtain ⟨a, ha, s1, ev1, h1⟩ := not_stuck hst
      obtain ⟨g1, g2⟩ := pot_step hw hO M h hi ha h1
      obtain ⟨as, s', ev, k1, k2, k3⟩ := ih (Reach.step h h1) g1 (by omega)
      refine ⟨a :: as, s', ev1 ++ ev, ?_, by simp [run, h1, k2], k3⟩
      intro x hx
      rcases List.mem_cons.1 hx with rfl | hx
      · exact ha
      · exact k1 x hx

theorem pot_le {ts : List Tid} {K : Nat} {μ : F → Tid → Nat} {s : CSt V F} (hμ : ∀ t, μ s.f t ≤ K)
    (h0 : ∀ t, μ s.f t ≠ 0 → rank (s.m.pc t) ≠ 0) : (ts.map (pot K μ s)).sum ≤ 15 * K * ts.length := by
  have hr : ∀ p : PC V, rank p ≤ 15 := by intro p; cases p <;> simp [rank]
  have : ∀ t, pot K μ s t ≤ 15 * K := by
    intro t
    have h1 := hr (s.m.pc t)
    have hm := Nat.mul_le_mul_left K h1
    unfold pot
    split
    · rw [Nat.mul_comm 15 K]; exact hm
    · rename_i hne
      obtain ⟨n, hn⟩ : ∃ n, rank (s.m.pc t) = n + 1 := ⟨rank (s.m.pc t) - 1, by have := h0 t hne; omega⟩
      have := hμ t
      rw [hn] at hm ⊢
      simp only [Nat.add_sub_cancel, Nat.mul_add, Nat.mul_one] at hm ⊢
      rw [Nat.mul_comm 15 K]; omega
  induction ts with
  | nil => simp
  | cons a ts ih => simp only [List.map_cons, List.sum_cons, List.length_cons, Nat.mul_add, Nat.mul_one]; have := this a; omega

/-! #### The two event flags -/

/-- Steps a thread at this point of `StdCppEventFlag` can still take; `n` threads may have to be woken by a `set`, each of which then
tests its condition again. -/
def stdRank (n : Nat) : EvF.Std.PC w → Nat
  | .idle => 0
  | .ret .. => 1
  | .unlock .. => 2
  | .clear .. | .writeR .. | .readG .. => 3
  | .out .. | .lockR .. | .lockG .. => 4
  | .test _ _ true => 5
  | .woken _ _ true => 6
  | .sleep .. => 7
  | .test _ _ false => 8
  | .woken _ _ false | .lockW .. => 9
  | .notify .. => 2 * n + 10
  | .writeS .. => 2 * n + 11
  | .lockS .. => 2 * n + 12
  | .entry .. => 2 * n + 13

theorem sum_wake {g g' : Tid → Nat} {t : Tid} {d : Nat} (h : ∀ u, g' u ≤ g u + 2) (ht : g' t + d ≤ g t) : ∀ {ts : List Tid}, t ∈ ts →
    (ts.map g').sum + d ≤ (ts.map g).sum + 2 * ts.length
  | a :: ts, hm => by
    have hle : ∀ ts : List Tid, (ts.map g').sum ≤ (ts.map g).sum + 2 * ts.length := by
      intro ts
      induction ts with
      | nil => simp
      | cons a ts ih => simp only [List.map_cons, List.sum_cons, List.length_cons]; have := h a; omega
    simp only [List.map_cons, List.sum_cons, List.length_cons]
    rcases List.mem_cons.1 hm with rfl | hm
    · have := hle ts; omega
    · have := sum_wake h ht hm; have := h a; omega

theorem std_measure (ts : List Tid) : Measure (EvF.Std.step (w := w) false) (EvF.Std.init w) ts (2 * ts.length + 14)
    (fun f t => stdRank ts.length (f.pc t)) := by
  refine ⟨?_, ?_, by omega, ?_⟩
  · intro f ftr h t
    have hl := (EvF.inv_reach h).loc t
    cases hp : f.pc t <;> rw [hp] at hl <;> simp only [EvF.Loc] at hl <;> simp [stdRank, hl]
    all_goals (rename_i l; cases l <;> simp [stdRank])
  · intro f t c f' evs hs
    simp only [EvF.Std.step] at hs
    split at hs
    · rename_i hidle
      simp only [Option.some.injEq, Prod.mk.injEq] at hs
      obtain ⟨rfl, rfl⟩ := hs
      refine ⟨rfl, by simp [hidle, stdRank], by simp [EvF.Std.St.at, upd, stdRank], by simp [EvF.Std.St.at, upd, stdRank], fun u hu => by simp [EvF.Std.St.at, upd, hu]⟩
    · simp at hs
  · intro f ftr h a f' evs hs hc hw hts
    have lt : ∀ t p, f.pc t ≠ .idle → f'.pc = upd f.pc t p → stdRank ts.length p < stdRank ts.length (f.pc t) →
        stdRank ts.length p ≠ 0 → (∀ u, stdRank ts.length (f'.pc u) = 0 ↔ stdRank ts.length (f.pc u) = 0) ∧
        (ts.map (fun u => stdRank ts.length (f'.pc u))).sum < (ts.map (fun u => stdRank ts.length (f.pc u))).sum := by
      intro t p hni hpc hlt hne
      have hm : t ∈ ts := hts t (by omega)
      refine ⟨fun u => ?_, ?_⟩
      · rw [hpc]
        by_cases e : u = t
        · subst e; simp only [upd_same]; omega
        · rw [upd_ne _ _ e]
      · refine sum_lt (x := t) ?_ ?_ hm
        · intro u
          rw [hpc]
          by_cases e : u = t
          · subst e; simp only [upd_same]; omega
          · rw [upd_ne _ _ e]; exact Nat.le_refl _
        · rw [hpc, upd_same]; exact hlt
    cases a with
    | call t c => exact absurd rfl (hc t c)
    | wake t => exact absurd rfl (hw t)
    | raise t e => simp [EvF.Std.step] at hs
    | timeout t =>
      right
      simp only [EvF.Std.step] at hs
      split at hs
      · rename_i c a hp
        split at hs
        · simp at hs
        · simp only [Option.some.injEq, Prod.mk.injEq] at hs
          obtain ⟨rfl, rfl⟩ := hs
          exact ⟨by simp, lt t _ (by simp [hp]) rfl (by simp [hp, stdRank]) (by simp [stdRank])⟩
      · simp at hs
    | go t =>
      simp only [EvF.Std.step] at hs
      cases hp : f.pc t
      case notify c =>
        right
        simp only [hp, Option.some.injEq, Prod.mk.injEq] at hs
        obtain ⟨rfl, rfl⟩ := hs
        have hm : t ∈ ts := hts t (by simp [hp, stdRank])
        have hwake : ∀ u, u ≠ t → (upd (EvF.Std.wakeAll f.pc) t (.unlock c ⟨.OK, none⟩) u) = EvF.Std.wakeAll f.pc u := fun u hu => upd_ne _ _ hu
        refine ⟨by simp, fun u => ?_, ?_⟩
        · by_cases e : u = t
          · subst e; simp [upd_same, hp, stdRank]
          · simp only [hwake u e, EvF.Std.wakeAll]
            cases hu : f.pc u <;> simp [stdRank]
        · have := sum_wake (g := fun u => stdRank ts.length (f.pc u)) (g' := fun u => stdRank ts.length (upd (EvF.Std.wakeAll f.pc) t (.unlock c ⟨.OK, none⟩) u))
            (t := t) (d := 2 * ts.length + 8) ?_ ?_ hm
          · exact Nat.lt_of_add_lt_add_right (Nat.lt_of_le_of_lt this (by omega))
          · intro u
            by_cases e : u = t
            · subst e; simp [upd_same, hp, stdRank]
            · simp only [hwake u e, EvF.Std.wakeAll]
              cases hu : f.pc u <;> simp [stdRank]
          · simp [upd_same, hp, stdRank]; omega
      case ret c r =>
        left
        simp only [hp, Option.some.injEq, Prod.mk.injEq] at hs
        obtain ⟨rfl, rfl⟩ := hs
        exact ⟨t, c, r, rfl, by simp [hp, stdRank], by simp [EvF.Std.St.at, upd, stdRank], fun u hu => by simp [EvF.Std.St.at, upd, hu]⟩
      all_goals simp only [hp] at hs
      case test c a l =>
        right
        (repeat' split at hs) <;> simp only [Option.some.injEq, Prod.mk.injEq, reduceCtorEq] at hs <;> obtain ⟨rfl, rfl⟩ := hs <;>
          refine ⟨by simp, lt t _ (by simp [hp]) rfl ?_ ?_⟩ <;> cases l <;> simp_all [stdRank]
      case woken c a l =>
        right
        (repeat' split at hs) <;> simp only [Option.some.injEq, Prod.mk.injEq, reduceCtorEq] at hs <;> obtain ⟨rfl, rfl⟩ := hs <;>
          refine ⟨by simp, lt t _ (by simp [hp]) rfl ?_ ?_⟩ <;> cases l <;> simp_all [stdRank]
      all_goals
        right
        (repeat' split at hs) <;> simp only [Option.some.injEq, Prod.mk.injEq, reduceCtorEq] at hs <;> obtain ⟨rfl, rfl⟩ := hs <;>
          refine ⟨by simp, lt t _ (by simp [hp]) rfl ?_ ?_⟩ <;> simp [hp, stdRank] <;> (try omega)

/-- The same for `ItronEventFlag`. -/
def itronRank : EvF.Itron.PC w → Nat
  | .idle => 0
  | .ret .. => 1
  | .waiting .. => 2
  | .entry .. => 3

/-- Where `set_flg` leaves the tasks: those it releases are about to return. -/
theorem fold_ret {rel : List (EvF.Itron.Waiter w × BitVec w)} : ∀ {pc : Tid → EvF.Itron.PC w} (u : Tid),
    (rel.foldl (fun pc x => upd pc x.1.t (.ret x.1.c (EvF.Itron.okRes x.1.out x.2))) pc u = pc u ∧ u ∉ rel.map (·.1.t)) ∨
    (u ∈ rel.map (·.1.t) ∧ ∃ c r, rel.foldl (fun pc x => upd pc x.1.t (.ret x.1.c (EvF.Itron.okRes x.1.out x.2))) pc u = .ret c r) := by
  induction rel with
  | nil => intro pc u; left; simp
  | cons x rel ih =>
    intro pc u
    simp only [List.foldl_cons, List.map_cons, List.mem_cons]
    rcases ih (pc := upd pc x.1.t (.ret x.1.c (EvF.Itron.okRes x.1.out x.2))) u with ⟨h1, h2⟩ | ⟨h1, h2⟩
    · by_cases e : u = x.1.t
      · right
        refine ⟨Or.inl e, ?_⟩
        rw [h1, e, upd_same]; exact ⟨_, _, rfl⟩
      · left
        rw [h1, upd_ne _ _ e]
        exact ⟨rfl, by rintro (x | x) <;> contradiction⟩
    · exact Or.inr ⟨Or.inr h1, h2⟩

theorem release_sub {q : List (EvF.Itron.Waiter w)} : ∀ {p : BitVec w} {x : EvF.Itron.Waiter w × BitVec w}, x ∈ (EvF.Itron.release false q p).2.2 → x.1 ∈ q := by
  induction q with
  | nil => intro p x h; simp [EvF.Itron.release] at h
  | cons y q ih =>
    intro p x h
    simp only [EvF.Itron.release] at h
    split at h
    · rcases List.mem_cons.1 h with rfl | h
      · simp
      · exact List.mem_cons_of_mem _ (ih h)
    · exact List.mem_cons_of_mem _ (ih h)

theorem itron_measure (ins : List (EvF.Itron.Waiter w) → EvF.Itron.Waiter w → Nat) (ts : List Tid) :
    Measure (EvF.Itron.step (w := w) false ins) (EvF.Itron.init w) ts 4 (fun f t => itronRank (f.pc t)) := by
  refine ⟨?_, ?_, by omega, ?_⟩
  · intro f ftr h t
    have hl := (EvF.iinv_reach h).loc t
    cases hp : f.pc t <;> rw [hp] at hl <;> simp only [EvF.ILoc] at hl <;> simp [itronRank, hl]
  · intro f t c f' evs hs
    simp only [EvF.Itron.step] at hs
    split at hs
    · rename_i hidle
      simp only [Option.some.injEq, Prod.mk.injEq] at hs
      obtain ⟨rfl, rfl⟩ := hs
      refine ⟨rfl, by simp [hidle, itronRank], by simp [EvF.Itron.St.at, upd, itronRank], by simp [EvF.Itron.St.at, upd, itronRank], fun u hu => by simp [EvF.Itron.St.at, upd, hu]⟩
    · simp at hs
  · intro f ftr h a f' evs hs hc hw hts
    have lt : ∀ t p, f.pc t ≠ .idle → f'.pc = upd f.pc t p → itronRank p < itronRank (f.pc t) →
        itronRank p ≠ 0 → (∀ u, itronRank (f'.pc u) = 0 ↔ itronRank (f.pc u) = 0) ∧
        (ts.map (fun u => itronRank (f'.pc u))).sum < (ts.map (fun u => itronRank (f.pc u))).sum := by
      intro t p hni hpc hlt hne
      have hm : t ∈ ts := hts t (by omega)
      refine ⟨fun u => ?_, ?_⟩
      · rw [hpc]
        by_cases e : u = t
        · subst e; simp only [upd_same]; omega
        · rw [upd_ne _ _ e]
      · refine sum_lt (x := t) ?_ ?_ hm
        · intro u
          rw [hpc]
          by_cases e : u = t
          · subst e; simp only [upd_same]; omega
          · rw [upd_ne _ _ e]; exact Nat.le_refl _
        · rw [hpc, upd_same]; exact hlt
    cases a with
    | call t c => exact absurd rfl (hc t c)
    | wake t => exact absurd rfl (hw t)
    | raise t e =>
      right
      simp only [EvF.Itron.step] at hs
      (repeat' split at hs) <;> simp only [Option.some.injEq, Prod.mk.injEq, reduceCtorEq] at hs <;> obtain ⟨rfl, rfl⟩ := hs <;>
        refine ⟨by simp, lt t _ (by simp [*]) rfl ?_ ?_⟩ <;> simp_all [itronRank]
    | timeout t =>
      right
      simp only [EvF.Itron.step] at hs
      (repeat' split at hs) <;> simp only [Option.some.injEq, Prod.mk.injEq, reduceCtorEq] at hs <;> obtain ⟨rfl, rfl⟩ := hs <;>
        refine ⟨by simp, lt t _ (by simp [*]) rfl ?_ ?_⟩ <;> simp_all [itronRank]
    | go t =>
      simp only [EvF.Itron.step] at hs
      cases hp : f.pc t <;> simp only [hp] at hs
      case idle => simp at hs
      case waiting => simp at hs
      case ret c r =>
        left
        simp only [Option.some.injEq, Prod.mk.injEq] at hs
        obtain ⟨rfl, rfl⟩ := hs
        exact ⟨t, c, r, rfl, by simp [hp, itronRank], by simp [EvF.Itron.St.at, upd, itronRank], fun u hu => by simp [EvF.Itron.St.at, upd, hu]⟩
      case entry c =>
        right
        cases hd : EvF.dispatch c <;> simp only [hd] at hs
        case set p =>
          simp only [Option.some.injEq, Prod.mk.injEq] at hs
          obtain ⟨rfl, rfl⟩ := hs
          have hq := (EvF.iinv_reach h).queue
          clear lt
          have hpcs : ∀ u, (u = t ∧ ∃ c' r', (EvF.Itron.release false f.queue (f.pat ||| p)).2.2.foldl (fun pc x => upd pc x.1.t (.ret x.1.c (EvF.Itron.okRes x.1.out x.2))) (upd f.pc t (.ret c ⟨.OK, none⟩)) u = .ret c' r') ∨
              (u ≠ t ∧ (EvF.Itron.release false f.queue (f.pat ||| p)).2.2.foldl (fun pc x => upd pc x.1.t (.ret x.1.c (EvF.Itron.okRes x.1.out x.2))) (upd f.pc t (.ret c ⟨.OK, none⟩)) u = f.pc u) ∨
              (u ≠ t ∧ itronRank (f.pc u) = 2 ∧ itronRank ((EvF.Itron.release false f.queue (f.pat ||| p)).2.2.foldl (fun pc x => upd pc x.1.t (.ret x.1.c (EvF.Itron.okRes x.1.out x.2))) (upd f.pc t (.ret c ⟨.OK, none⟩)) u) = 1) := by
            intro u
            rcases fold_ret (rel := (EvF.Itron.release false f.queue (f.pat ||| p)).2.2) (pc := upd f.pc t (.ret c ⟨.OK, none⟩)) u with ⟨h1, _⟩ | ⟨h1, c', r', h2⟩
            · by_cases e : u = t
              · left; rw [h1, e, upd_same]; exact ⟨rfl, _, _, rfl⟩
              · right; left; rw [h1, upd_ne _ _ e]; exact ⟨e, rfl⟩
            · obtain ⟨x, hx, rfl⟩ := List.mem_map.1 h1
              have hw' := (hq x.1 (release_sub hx)).1
              have hne : x.1.t ≠ t := by intro e; rw [e, hp] at hw'; simp at hw'
              right; right
              refine ⟨hne, by rw [hw']; rfl, by rw [h2]; rfl⟩
          have hm : t ∈ ts := hts t (by simp [hp, itronRank])
          refine ⟨?_, fun u => ?_, ?_⟩
          · intro e he
            rcases List.mem_cons.1 he with rfl | he
            · exact ⟨_, _, _, rfl⟩
            · obtain ⟨x, _, rfl⟩ := List.mem_map.1 he
              exact ⟨_, _, _, rfl⟩
          · rcases hpcs u with ⟨rfl, c', r', e⟩ | ⟨_, e⟩ | ⟨_, e1, e2⟩
            · simp only [e, hp, itronRank]; omega
            · simp only [e]
            · simp only [e1, e2]; omega
          · refine sum_lt (x := t) ?_ ?_ hm
            · intro u
              rcases hpcs u with ⟨rfl, c', r', e⟩ | ⟨_, e⟩ | ⟨_, e1, e2⟩
              · simp only [e, hp, itronRank]; omega
              · simp only [e]; exact Nat.le_refl _
              · simp only [e1, e2]; omega
            · rcases hpcs t with ⟨_, c', r', e⟩ | ⟨e, _⟩ | ⟨e, _⟩
              · simp only [e, hp, itronRank]; omega
              · exact absurd rfl e
              · exact absurd rfl e
        all_goals
          (repeat' split at hs) <;> simp only [Option.some.injEq, Prod.mk.injEq, reduceCtorEq] at hs <;> obtain ⟨rfl, rfl⟩ := hs <;>
            refine ⟨by simp, lt t _ (by simp [hp]) rfl ?_ ?_⟩ <;> simp [hp, itronRank]

/-! #### Progress -/

/-- Without new calls and spurious wake-ups, the threads `ts` inside the queue take at most 15 (2 n + 14) n more steps altogether, in the
queue's code and in `StdCppEventFlag` (n: how many they are). -/
theorem C97_std_terminates {cap : Nat} (hw : 2 ≤ w) {s s' : CSt V (EvF.Std.St w)} {tr ev : List (Ev V)} (ts : List Tid)
    (h : Reach (OnFlag.step (EvF.Std.step false)) (OnFlag.init V cap (EvF.Std.init w)) s tr) (hi : Inside ts s)
    (as : List (CAct V w)) (ha : ∀ a, a ∈ as → Inner a = true) (hr : run (OnFlag.step (EvF.Std.step false)) as s = some (s', ev)) :
    as.length ≤ 15 * (2 * ts.length + 14) * ts.length := by
  refine Nat.le_trans (terminates hw (stdO w) (std_measure ts) as h hi ha hr) (pot_le ?_ ?_)
  · intro t
    cases s.f.pc t <;> (try (rename_i l; cases l)) <;> simp [stdRank] <;> omega
  · intro t ht
    obtain ⟨a, ftr, hf, _, rel⟩ := simulation hw (stdO w) h
    have hp := rel.ph t
    have := (std_measure ts).out _ _ hf t
    cases hq : EvF.Spec.phase t ftr <;> rw [hq] at hp this
    · exact absurd (this.2 rfl) ht
    · have := rank_evCall hp ⟨.OK, none⟩; omega
    · have := rank_evCall hp ⟨.OK, none⟩; omega
    · exact absurd hp (by simp [okPhase])

/-- From every state, if only the threads `ts` are inside and no new calls come, the queue on `StdCppEventFlag` reaches a state where
nothing moves; `C97_std_stuck` says what that state looks like. -/
theorem C97_std_reaches {cap : Nat} (hw : 2 ≤ w) {s : CSt V (EvF.Std.St w)} {tr : List (Ev V)} (ts : List Tid)
    (h : Reach (OnFlag.step (EvF.Std.step false)) (OnFlag.init V cap (EvF.Std.init w)) s tr) (hi : Inside ts s) :
    ∃ as s' ev, (∀ a, a ∈ as → Inner a = true) ∧ run (OnFlag.step (EvF.Std.step false)) as s = some (s', ev) ∧
      Stuck (EvF.Std.step false) s' ∧ AllServed cap s' := by
  obtain ⟨as, s', ev, h1, h2, h3⟩ := reaches hw (stdO w) (std_measure ts) _ h hi (Nat.le_refl _)
  exact ⟨as, s', ev, h1, h2, h3, C97_std_stuck hw (Lts.run_reach as h h2) h3⟩

/-- On `ItronEventFlag` at most 60 steps for each thread. -/
theorem C97_itron_terminates {cap : Nat} (hw : 2 ≤ w) {ins : List (EvF.Itron.Waiter w) → EvF.Itron.Waiter w → Nat}
    {s s' : CSt V (EvF.Itron.St w)} {tr ev : List (Ev V)} (ts : List Tid)
    (h : Reach (OnFlag.step (EvF.Itron.step false ins)) (OnFlag.init V cap (EvF.Itron.init w)) s tr) (hi : Inside ts s)
    (as : List (CAct V w)) (ha : ∀ a, a ∈ as → Inner a = true) (hr : run (OnFlag.step (EvF.Itron.step false ins)) as s = some (s', ev)) :
    as.length ≤ 60 * ts.length := by
  refine Nat.le_trans (terminates hw (itronO w ins) (itron_measure ins ts) as h hi ha hr) (pot_le ?_ ?_)
  · intro t
    cases s.f.pc t <;> simp [itronRank]
  · intro t ht
    obtain ⟨a, ftr, hf, _, rel⟩ := simulation hw (itronO w ins) h
    have hp := rel.ph t
    have := (itron_measure ins ts).out _ _ hf t
    cases hq : EvF.Spec.phase t ftr <;> rw [hq] at hp this
    · exact absurd (this.2 rfl) ht
    · have := rank_evCall hp ⟨.OK, none⟩; omega
    · have := rank_evCall hp ⟨.OK, none⟩; omega
    · exact absurd hp (by simp [okPhase])

theorem C97_itron_reaches {cap : Nat} (hw : 2 ≤ w) {ins : List (EvF.Itron.Waiter w) → EvF.Itron.Waiter w → Nat}
    {s : CSt V (EvF.Itron.St w)} {tr : List (Ev V)} (ts : List Tid)
    (h : Reach (OnFlag.step (EvF.Itron.step false ins)) (OnFlag.init V cap (EvF.Itron.init w)) s tr) (hi : Inside ts s) :
    ∃ as s' ev, (∀ a, a ∈ as → Inner a = true) ∧ run (OnFlag.step (EvF.Itron.step false ins)) as s = some (s', ev) ∧
      Stuck (EvF.Itron.step false ins) s' ∧ AllServed cap s' := by
  obtain ⟨as, s', ev, h1, h2, h3⟩ := reaches hw (itronO w ins) (itron_measure ins ts) _ h hi (Nat.le_refl _)
  exact ⟨as, s', ev, h1, h2, h3, C97_itron_stuck hw (Lts.run_reach as h h2) h3⟩

/-- The hypotheses are met by the state of the schedule `demo` above in which thread 1 sleeps and thread 2 is about to receive: two
threads inside. -/
example : ∃ (s : CSt Nat (EvF.Std.St 16)) (tr : List (Ev Nat)), Reach (OnFlag.step (EvF.Std.step false)) (OnFlag.init Nat 1 (EvF.Std.init 16)) s tr ∧
    s.m.pc 1 = .rWait (.receive true) true .forever ∧ s.m.pc 2 = .entry (.send 7) ∧ Inside [1, 2] s := by
  refine ⟨_, _, Lts.run_reach (demo2 ++ [.mq (.call 2 (.send 7))]) Reach.init rfl, rfl, rfl, fun t ht => ?_⟩
  by_cases e : t = 2
  · simp [e]
  · by_cases e1 : t = 1
    · simp [e1]
    · exact absurd (by simp [St.at, MQ.init, OnFlag.init, upd, e, e1]) ht

end Verif.Props.MessageQueueEvent
