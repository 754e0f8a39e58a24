import Verif.Props.ThreadPoolGuard
/-
Properties C67 (capacity) and C77 (progress of all calls), and concrete executions that meet the hypotheses of the theorems about thread pools
(C64–C68, C70, C71, C77).
-/
namespace Verif.Props.ThreadPoolMore
open Verif
open _root_.Verif.Mtx (Tid)
open _root_.Verif.EvF (Tmo)
open TP Spec Lts Proto
open Verif.Props.ThreadPool Verif.Props.ThreadPoolGuard
set_option linter.unusedSimpArgs false
set_option linter.unusedVariables false

/-! #### C77 -/

/-- Every call but a start without timeout returns, if the client and the pool threads are scheduled fairly, tasks end, and timeouts pass. -/
theorem C77_returns {st : Nat → TP.St} {act : Nat → Option Act} {ev : Nat → List Ev} {n : Nat} {d : Int} (hx : InfExec (stut TP.step) st act ev) (h0 : st 0 = TP.init n d)
    {t : Tid} {c : Call} (hc : ∀ k g p, c ≠ .start (some k) .forever g p) (hft : WeakFair (stut TP.step) st act (some (.go t)))
    (hfe : WeakFair (stut TP.step) st act (some (.expire t)))
    (hfp : ∀ i, WeakFair (stut TP.step) st act (some (.pgo i))) {m : Nat} (hm : .call t c ∈ ev m) : ∃ m' o, m < m' ∧ .ret t c o ∈ ev m' := by
  refine returns hx h0 ?_ hft hfe hfp hm
  unfold TP.forever
  split
  · next k g p => exact absurd rfl (hc k g p)
  · rfl

/-- If nothing can happen any more although calls are in progress, these calls are starts without timeout that have not taken effect, and every pool thread
has been dropped (see C67) or belongs to a guard whose task is over: releasing the guard is what they wait for. -/
theorem C77_stuck {n : Nat} {d : Int} {s : TP.St} {tr : List Ev} (h : Exec n d s tr) (hst : ∀ a, (∀ t c, a ≠ .call t c) → TP.step s a = none) :
    (∀ t, phase t tr = .out ∨ ∃ k g p, phase t tr = .called (.start (some k) .forever g p)) ∧
    ((∃ t, phase t tr ≠ .out) → ∀ i, i < n → (∃ t, .drop t i ∈ tr) ∨ ∃ g, gphase g tr = .over i) := by
  have I := Inv.reach h
  have hrank : ∀ i, rank (s.w i) = 0 := by
    intro i
    apply Classical.byContradiction
    intro hr
    exact I.st.pgo hr (hst _ (by simp))
  have key : ∀ t c q, s.pc t = .on c q → ∃ k g p, c = .start (some k) .forever g p ∧ q = .sRecv ∧ s.free = [] := by
    intro t c q hp
    have hcs := I.st.cs t; rw [hp] at hcs
    cases hf : TP.forever c with
    | false =>
      exfalso
      refine I.M_en hp hf (fun j hj => nodead h hj) (hst _ ?_)
      intro u c'
      unfold TP.help
      split <;> (try split) <;> simp
    | true =>
      have hgo := hst (.go t) (by simp)
      unfold TP.forever at hf
      split at hf
      · next k g p =>
        refine ⟨k, g, p, rfl, ?_⟩
        cases q <;> simp only [CShape] at hcs <;> simp only [TP.step, hp, reduceCtorEq] at hgo
        case sRecv => split at hgo <;> simp at hgo; exact ⟨rfl, ‹_›⟩
        case sWait i =>
          rcases rank_zero (hrank i) with hw | hw
          · simp [hw] at hgo
          · have R := I.st.rs i; unfold RShape at R; rw [hcs.2, hw] at R; simp [late] at R
        case sGo i => split at hgo <;> simp at hgo
      · simp at hf
  have loc := I.tc.loc
  constructor
  · intro t
    rw [loc t]
    cases hp : s.pc t with
    | idle => exact Or.inl rfl
    | on c q =>
      obtain ⟨k, g, p, rfl, rfl, _⟩ := key t c q hp
      exact Or.inr ⟨k, g, p, rfl⟩
  · rintro ⟨t, ht⟩ i hi
    rw [loc t] at ht
    cases hp : s.pc t with
    | idle => rw [hp] at ht; exact absurd rfl ht
    | on c q =>
      obtain ⟨k, g, p, rfl, rfl, hfree⟩ := key t c q hp
      have R := I.st.rs i; unfold RShape at R
      have hw := rank_zero (hrank i)
      cases ho : s.own i with
      | free => have := (I.st.fo i).2 ho; rw [hfree] at this; simp at this
      | client u =>
        have := I.st.ho i u ho
        cases hu : s.pc u with
        | idle => rw [hu] at this; simp [hold] at this
        | on c' q' => obtain ⟨_, _, _, _, rfl, _⟩ := key u c' q' hu; rw [hu] at this; simp [hold] at this
      | rel u =>
        have := I.st.hr i u ho
        cases hu : s.pc u with
        | idle => rw [hu] at this; simp [rhold] at this
        | on c' q' => obtain ⟨_, _, _, _, rfl, _⟩ := key u c' q' hu; rw [hu] at this; simp [rhold] at this
      | pool => rw [ho] at R; rcases hw with h | h <;> simp [h, busyP] at R
      | lost => exact Or.inl ((lost_drop h i).1 ho)
      | guard g =>
        right
        refine ⟨g, ?_⟩
        rw [I.tc.g1 g i ho]
        rcases hw with h | h <;> simp [h, early]
      | dead =>
        exfalso
        cases hd : s.dying with
        | none => exact I.st.dd hd i hi ho
        | some x =>
          by_cases e : t = x
          · subst e
            -- the client that called destroy is not in a start
            have dyc : ∀ {s : TP.St} {tr : List Ev}, Exec n d s tr → ∀ {t c q}, s.dying = some t → s.pc t = .on c q → c = .destroy := by
              intro s tr h
              induction h with
              | init => intro t c q h1; simp [TP.init] at h1
              | @step s tr a s' ev h1 hs ih =>
                intro t c q hd hp
                by_cases hca : ∃ c, a = .call t c
                · obtain ⟨c', rfl⟩ := hca
                  simp only [TP.step] at hs
                  split at hs
                  · next hc =>
                    simp only [Option.some.injEq, Prod.mk.injEq] at hs; obtain ⟨rfl, _⟩ := hs
                    simp only [St.at, upd_same] at hp
                    simp only [PC.on.injEq] at hp
                    obtain ⟨rfl, _⟩ := hp
                    simp only [hc.2.2.1] at hd
                    split at hd
                    · assumption
                    · simp at hd
                  · simp at hs
                · have hd' : s.dying = some t := by
                    cases a with
                    | call u c' =>
                      simp only [TP.step] at hs
                      split at hs
                      · next hc =>
                        simp only [Option.some.injEq, Prod.mk.injEq] at hs; obtain ⟨rfl, _⟩ := hs
                        simp only [hc.2.2.1] at hd
                        split at hd
                        · next he => simp at hd; subst hd; exact absurd ⟨c', rfl⟩ hca
                        · simp at hd
                      · simp at hs
                    | expire u =>
                      simp only [TP.step] at hs
                      split at hs
                      · split at hs
                        all_goals (try split at hs) <;> simp only [Option.some.injEq, Prod.mk.injEq, reduceCtorEq] at hs
                        all_goals (obtain ⟨rfl, _⟩ := hs; exact hd)
                      · simp at hs
                    | throw j =>
                      simp only [TP.step] at hs
                      split at hs <;> simp only [Option.some.injEq, Prod.mk.injEq, reduceCtorEq] at hs
                      obtain ⟨rfl, _⟩ := hs; exact hd
                    | pgo j =>
                      simp only [TP.step] at hs
                      split at hs <;> (try split at hs) <;> simp only [Option.some.injEq, Prod.mk.injEq, reduceCtorEq] at hs <;>
                        (obtain ⟨rfl, _⟩ := hs; exact hd)
                    | go u =>
                      simp only [TP.step] at hs
                      split at hs
                      · simp at hs
                      · split at hs
                        all_goals (repeat' split at hs) <;> simp only [Option.some.injEq, Prod.mk.injEq, reduceCtorEq] at hs
                        all_goals (obtain ⟨rfl, _⟩ := hs; exact hd)
                  cases hq : s.pc t with
                  | idle =>
                    rw [pc_other hs (by rintro rfl; simp [TP.step, hq] at hs) (by rintro rfl; simp [TP.step, hq] at hs) (fun c h => hca ⟨c, h⟩), hq] at hp
                    simp at hp
                  | on c' q' =>
                    have := ih hd' hq
                    subst this
                    rcases (Inv.reach h1).stay hs hq with ⟨q2, h2⟩ | ⟨o, rfl, rfl⟩
                    · rw [hp] at h2; simp at h2; exact h2.1
                    · obtain ⟨rfl, _, _, rfl⟩ := ret_ev hs (t := t) (c := .destroy) (o := o) (by simp)
                      simp [upd_same] at hp
            have := dyc h hd hp
            simp at this
          · have := I.st.al x hd t e; rw [hp] at this; simp at this

def isCall : Act → Bool
  | .call .. => true
  | _ => false

/-! A bound on what can happen without new calls. -/

def cw (n : Nat) : PC → Nat
  | .idle => 0
  | .on _ p => match p with
    | .ret _ => 1
    | .sGuard _ | .rClear | .vEnter | .dDrain | .wWait _ => 2
    | .sGo _ => 12 | .sPrio _ => 13 | .sSet _ => 14 | .sWait _ => 15 | .sRecv => 16 | .sEnter => 17
    | .wEnter => 3
    | .rSend _ => 3 | .rReset _ => 4 | .rWait _ => 5 | .rEnter => 6
    | .dWait j => 3 + (n - j)
def ww (w : W) : Nat := rank w + if w = .dead then 0 else 1
def measure (ts : List Tid) (n : Nat) (s : TP.St) : Nat := (ts.map fun t => cw n (s.pc t)).sum + ((List.range n).map fun i => ww (s.w i)).sum

theorem sum_upd {α : Type} {f : α → Nat} {pc : Nat → α} {t : Nat} {p : α} : ∀ {ts : List Nat}, ts.Nodup → t ∈ ts →
    (ts.map (fun u => f (upd pc t p u))).sum + f (pc t) = (ts.map (fun u => f (pc u))).sum + f p
  | a :: ts, hn, hm => by
    obtain ⟨h1, h2⟩ := List.nodup_cons.1 hn
    simp only [List.map_cons, List.sum_cons]
    rcases List.mem_cons.1 hm with rfl | hm
    · have : ts.map (fun u => f (upd pc t p u)) = ts.map (fun u => f (pc u)) := by
        apply List.map_congr_left; intro u hu; rw [upd_ne]; rintro rfl; exact h1 hu
      rw [this, upd_same]; omega
    · have := sum_upd (f := f) (pc := pc) (p := p) h2 hm
      rw [upd_ne pc p (show a ≠ t by rintro rfl; exact h1 hm)]; omega

theorem m_client {n : Nat} {s s' : TP.St} {ts : List Tid} (hnd : ts.Nodup) {t : Tid} (ht : t ∈ ts) {p' : PC} (hpc : s'.pc = upd s.pc t p') (hw : s'.w = s.w)
    (h : cw n p' < cw n (s.pc t)) : measure ts n s' < measure ts n s := by
  have e : (ts.map (fun u => cw n (s'.pc u))).sum + cw n (s.pc t) = (ts.map (fun u => cw n (s.pc u))).sum + cw n p' := by rw [hpc]; exact sum_upd hnd ht
  unfold measure; rw [hw]; omega

theorem m_pool {n : Nat} {s s' : TP.St} {ts : List Tid} {i : Rid} (hi : i < n) {w' : W} (hpc : s'.pc = s.pc) (hw : s'.w = upd s.w i w') (h : ww w' < ww (s.w i)) :
    measure ts n s' < measure ts n s := by
  have e : ((List.range n).map (fun u => ww (s'.w u))).sum + ww (s.w i) = ((List.range n).map (fun u => ww (s.w u))).sum + ww w' := by
    rw [hw]; exact sum_upd List.nodup_range (by simpa using hi)
  unfold measure; rw [hpc]; omega

theorem m_both {n : Nat} {s s' : TP.St} {ts : List Tid} (hnd : ts.Nodup) {t : Tid} (ht : t ∈ ts) {i : Rid} (hi : i < n) {p' : PC} {w' : W}
    (hpc : s'.pc = upd s.pc t p') (hw : s'.w = upd s.w i w') (h : cw n p' + ww w' < cw n (s.pc t) + ww (s.w i)) : measure ts n s' < measure ts n s := by
  have e : (ts.map (fun u => cw n (s'.pc u))).sum + cw n (s.pc t) = (ts.map (fun u => cw n (s.pc u))).sum + cw n p' := by rw [hpc]; exact sum_upd hnd ht
  have e' : ((List.range n).map (fun u => ww (s'.w u))).sum + ww (s.w i) = ((List.range n).map (fun u => ww (s.w u))).sum + ww w' := by
    rw [hw]; exact sum_upd List.nodup_range (by simpa using hi)
  unfold measure; omega

theorem m_step {n : Nat} {d : Int} {s s' : TP.St} {tr ev : List Ev} {a : Act} (I : Inv n d s tr) {ts : List Tid} (hnd : ts.Nodup)
    (hts : ∀ t, s.pc t ≠ .idle → t ∈ ts) (hc : isCall a = false) (hs : TP.step s a = some (s', ev)) : measure ts n s' < measure ts n s := by
  have hlt : ∀ i, s.w i ≠ .dead → i < n := by
    intro i hw
    apply Classical.byContradiction
    intro hn
    have R := I.st.rs i; unfold RShape at R; rw [I.st.od i (Nat.le_of_not_lt hn)] at R; exact hw R
  cases a with
  | call t c => simp [isCall] at hc
  | expire t =>
    cases hp : s.pc t with
    | idle => simp [TP.step, hp] at hs
    | on c q =>
      have ht := hts t (by rw [hp]; simp)
      simp only [TP.step, hp] at hs
      split at hs
      all_goals (try split at hs) <;> simp only [Option.some.injEq, Prod.mk.injEq, reduceCtorEq] at hs
      all_goals (obtain ⟨rfl, _⟩ := hs; exact m_client hnd ht rfl rfl (by rw [hp]; simp [cw]))
  | throw i =>
    cases hw : s.w i <;> simp only [TP.step, hw, Option.some.injEq, Prod.mk.injEq, reduceCtorEq] at hs
    obtain ⟨rfl, _⟩ := hs
    exact m_pool (hlt i (by rw [hw]; simp)) rfl rfl (by rw [hw]; simp [ww, rank])
  | pgo i =>
    cases hw : s.w i <;> simp only [TP.step, hw] at hs <;> (try split at hs) <;> simp only [Option.some.injEq, Prod.mk.injEq, reduceCtorEq] at hs <;>
      (obtain ⟨rfl, _⟩ := hs; refine m_pool (hlt i (by rw [hw]; simp)) rfl rfl ?_; rw [hw]; simp [ww, rank]) <;> split <;> simp [rank]
  | go t =>
    cases hp : s.pc t with
    | idle => simp [TP.step, hp] at hs
    | on c q =>
      have ht := hts t (by rw [hp]; simp)
      have hcs := I.st.cs t; rw [hp] at hcs
      cases c with
      | start k tm g p =>
        cases k <;> cases q <;> simp only [CShape] at hcs <;> simp only [TP.step, hp] at hs
        all_goals (repeat' split at hs) <;> simp only [Option.some.injEq, Prod.mk.injEq, reduceCtorEq] at hs
        all_goals (obtain ⟨rfl, _⟩ := hs)
        all_goals first
          | (refine m_client hnd ht rfl rfl ?_; rw [hp]; simp [cw]; done)
          | (refine m_both hnd ht (hlt _ (by rw [hcs.2.2.1]; simp)) rfl rfl ?_; rw [hp, hcs.2.2.1]; simp [cw, ww, rank]; done)
      | wait g tm =>
        cases q <;> simp only [CShape] at hcs <;> simp only [TP.step, hp] at hs
        all_goals (repeat' split at hs) <;> simp only [Option.some.injEq, Prod.mk.injEq, reduceCtorEq] at hs
        all_goals (obtain ⟨rfl, _⟩ := hs; refine m_client hnd ht rfl rfl ?_; rw [hp]; simp [cw])
      | release g =>
        cases q <;> simp only [CShape] at hcs <;> simp only [TP.step, hp] at hs
        all_goals (repeat' split at hs) <;> simp only [Option.some.injEq, Prod.mk.injEq, reduceCtorEq] at hs
        all_goals (obtain ⟨rfl, _⟩ := hs; refine m_client hnd ht rfl rfl ?_; rw [hp]; simp [cw])
      | isValid g =>
        cases q <;> simp only [CShape] at hcs <;> simp only [TP.step, hp] at hs
        all_goals (repeat' split at hs) <;> simp only [Option.some.injEq, Prod.mk.injEq, reduceCtorEq] at hs
        all_goals (obtain ⟨rfl, _⟩ := hs; refine m_client hnd ht rfl rfl ?_; rw [hp]; simp [cw])
      | destroy =>
        cases q <;> simp only [CShape] at hcs <;> simp only [TP.step, hp] at hs
        case dWait j =>
          split at hs
          · next hj =>
            split at hs <;> simp only [Option.some.injEq, Prod.mk.injEq, reduceCtorEq] at hs
            obtain ⟨rfl, _⟩ := hs
            refine m_client hnd ht rfl rfl ?_
            rw [hp]; simp only [cw]
            have : j < n := by rw [← I.st.cn]; exact hj
            show 3 + (n - (j + 1)) < 3 + (n - j)
            have h2 : n - j = n - (j + 1) + 1 := Nat.sub_eq_of_eq_add (by have := Nat.sub_add_cancel this; rw [Nat.add_assoc, Nat.add_comm 1 j]; exact this.symm)
            rw [h2]; omega
          · simp only [Option.some.injEq, Prod.mk.injEq] at hs
            obtain ⟨rfl, _⟩ := hs
            refine m_client hnd ht rfl rfl ?_
            rw [hp]; simp only [cw]; omega
        case dDrain =>
          split at hs
          · split at hs <;> simp only [Option.some.injEq, Prod.mk.injEq, reduceCtorEq] at hs
            next hw =>
            obtain ⟨rfl, _⟩ := hs
            refine m_pool (hlt _ (by rw [hw]; simp)) rfl rfl ?_
            rw [hw]; simp [ww, rank]
          · simp only [Option.some.injEq, Prod.mk.injEq] at hs
            obtain ⟨rfl, _⟩ := hs
            refine m_client hnd ht rfl rfl ?_
            rw [hp]; simp [cw]
        case ret o =>
          simp only [Option.some.injEq, Prod.mk.injEq] at hs
          obtain ⟨rfl, _⟩ := hs
          refine m_client hnd ht rfl rfl ?_
          rw [hp]; simp [cw]

theorem cw_le {n : Nat} (p : PC) : cw n p ≤ 17 + n := by cases p <;> simp [cw]; split <;> omega
theorem ww_le (w : W) : ww w ≤ 9 := by cases w <;> simp [ww, rank]
theorem sum_bound {f : Nat → Nat} {b : Nat} (h : ∀ t, f t ≤ b) : ∀ l : List Nat, (l.map f).sum ≤ b * l.length
  | [] => by simp
  | a :: l => by have := sum_bound h l; have := h a; simp [Nat.mul_add]; omega

/-- Without new calls the pool comes to rest: from a state with `m` calls in progress at most `(17 + n) * m + 9 * n` steps follow, whatever the schedule, the
timeouts and the tasks (each of which takes one step) do. -/
theorem C77_terminates {n : Nat} {d : Int} {s : TP.St} {tr : List Ev} (h : Exec n d s tr) {as : List Act} (hc : ∀ a, a ∈ as → isCall a = false) {s' : TP.St} {ev : List Ev}
    (hr : run TP.step as s = some (s', ev)) : as.length ≤ (17 + n) * s.inside.length + 9 * n := by
  have key : ∀ (as : List Act) {s0 : TP.St} {tr0 ev : List Ev}, Exec n d s0 tr0 → (∀ t, s0.pc t ≠ .idle → t ∈ s.inside) → (∀ a, a ∈ as → isCall a = false) →
      run TP.step as s0 = some (s', ev) → as.length ≤ measure s.inside n s0 := by
    intro as
    induction as with
    | nil => intro s0 tr0 ev h0 h1 h2 h3; simp
    | cons a as ih =>
      intro s0 tr0 ev h0 h1 h2 h3
      simp only [run] at h3
      split at h3
      · simp at h3
      · next s1 ev1 hs =>
        split at h3
        · simp at h3
        · next s2 ev2 h4 =>
          simp at h3; obtain ⟨rfl, _⟩ := h3
          have I := Inv.reach h0
          have hca := h2 a (by simp)
          have h5 := m_step I (Inv.reach h).st.nodup h1 hca hs
          have := ih (Reach.step h0 hs) (by
            intro t ht
            apply h1 t
            intro hi
            apply ht
            rw [pc_other hs (by rintro rfl; simp [TP.step, hi] at hs) (by rintro rfl; simp [TP.step, hi] at hs) (by rintro c rfl; simp [isCall] at hca), hi]) (fun b hb => h2 b (by simp [hb])) h4
          simp only [List.length_cons]; omega
  have h1 := key as h (fun t ht => ((Inv.reach h).st.ins t).2 ht) hc hr
  have h2 : measure s.inside n s ≤ (17 + n) * s.inside.length + 9 * n := by
    have e1 := sum_bound (f := fun t => cw n (s.pc t)) (b := 17 + n) (fun t => cw_le _) s.inside
    have e2 := sum_bound (f := fun i => ww (s.w i)) (b := 9) (fun i => ww_le _) (List.range n)
    rw [List.length_range] at e2
    unfold measure
    exact Nat.add_le_add e1 e2
  exact Nat.le_trans h1 h2

/-! #### C67: the capacity -/

/-- A client that starts tasks one after the other, with tryStart. -/
def startsOf (t : Tid) (ks : List (Task × Int)) : List Act :=
  ks.flatMap fun k => .call t (.start (some k.1) (.ms 0) none k.2) :: List.replicate 8 (.go t)

theorem lone_start {s : TP.St} {t : Tid} {k : Task} {p : Int} {i : Rid} {rest : List Rid} (h1 : s.pc t = .idle) (h2 : s.gone = false) (h3 : s.dying = none)
    (h4 : s.inside = []) (h5 : s.free = i :: rest) (h6 : s.w i = .finished) :
    ∃ s', run TP.step (.call t (.start (some k) (.ms 0) none p) :: List.replicate 8 (.go t)) s =
        some (s', [.call t (.start (some k) (.ms 0) none p), .acc t i k none p, .lin t (.start (some k) (.ms 0) none p) .ok, .ret t (.start (some k) (.ms 0) none p) .ok]) ∧
      s'.pc t = .idle ∧ s'.gone = false ∧ s'.dying = none ∧ s'.inside = [] ∧ s'.free = rest ∧ ∀ j, j ≠ i → s'.w j = s.w j := by
  simp [List.replicate, run, TP.step, St.at, St.ownAt, St.wAt, h1, h2, h3, h4, h5, h6, upd_same, freshGuard, entry, setGuard]
  intro j hj
  rw [upd_ne _ _ hj]

theorem runs_app {σ α ε : Type} {step : σ → α → Option (σ × List ε)} : ∀ (as bs : List α) {s s1 s2 : σ} {tr1 tr2 : List ε}, run step as s = some (s1, tr1) →
    run step bs s1 = some (s2, tr2) → run step (as ++ bs) s = some (s2, tr1 ++ tr2)
  | [], bs, s, s1, s2, tr1, tr2, h1, h2 => by simp [run] at h1; obtain ⟨rfl, rfl⟩ := h1; simpa using h2
  | a :: as, bs, s, s1, s2, tr1, tr2, h1, h2 => by
    simp only [run] at h1
    split at h1
    · simp at h1
    · next s' ev hs =>
      split at h1
      · simp at h1
      · next s'' ev' hr =>
        simp at h1; obtain ⟨rfl, rfl⟩ := h1
        simp [run, hs, runs_app as bs hr h2]

theorem lone_starts {t : Tid} : ∀ (ks : List (Task × Int)) {s : TP.St}, s.pc t = .idle → s.gone = false → s.dying = none → s.inside = [] → s.free.Nodup →
    (∀ i, i ∈ s.free → s.w i = .finished) → ks.length ≤ s.free.length →
    ∃ s' ev, run TP.step (startsOf t ks) s = some (s', ev) ∧ (∀ k p, (k, p) ∈ ks → .ret t (.start (some k) (.ms 0) none p) .ok ∈ ev) ∧
      (ev.filterMap fun e => match e with | .acc _ _ k _ p => some (k, p) | _ => none) = ks ∧ (∀ c o, .ret t c o ∈ ev → o = .ok)
  | [], s, _, _, _, _, _, _, _ => ⟨s, [], rfl, by simp, rfl, by simp⟩
  | k :: ks, s, h1, h2, h3, h4, h5, h6, h7 => by
    cases hf : s.free with
    | nil => rw [hf] at h7; simp at h7
    | cons i rest =>
      rw [hf] at h5 h6 h7
      obtain ⟨s1, r1, g1, g2, g3, g4, g5, g6⟩ := lone_start (t := t) (k := k.1) (p := k.2) h1 h2 h3 h4 hf (h6 i (by simp))
      obtain ⟨hni, hnd⟩ := List.nodup_cons.1 h5
      obtain ⟨s', ev, r2, e1, e2, e3⟩ := lone_starts ks g1 g2 g3 g4 (by rw [g5]; exact hnd) (by
        intro j hj; rw [g5] at hj
        rw [g6 j (by rintro rfl; exact hni hj)]; exact h6 j (by simp [hj])) (by rw [g5]; simpa using h7)
      refine ⟨s', _, runs_app _ _ r1 r2, ?_, ?_, ?_⟩
      · intro k' p' hm
        rcases List.mem_cons.1 hm with h | h
        · subst h; simp
        · simp [e1 k' p' h]
      · simp only [List.filterMap_append, e2]; simp
      · intro c o hm
        simp only [List.mem_append] at hm
        rcases hm with hm | hm
        · simp at hm; exact hm.2
        · exact e3 c o hm

/-- When no call is in progress, all tasks are over and all guards are released, and no thread has been dropped: any client can start `n` tasks at once,
by tryStart, while no pool thread does anything; all these calls return OK and hand over the tasks. -/
theorem C67_capacity_partial {n : Nat} {d : Int} {s : TP.St} {tr : List Ev} (h : Exec n d s tr) (hi : ∀ t, s.pc t = .idle) (hr : ∀ i, i < n → rphase n d i tr = .rest)
    (hg : ∀ g, gphase g tr = .free) (hd : ∀ t i, .drop t i ∉ tr) (hk : ∀ t, .call t .destroy ∉ tr) (t : Tid) {ks : List (Task × Int)} (hl : ks.length ≤ n) :
    ∃ s' ev, run TP.step (startsOf t ks) s = some (s', ev) ∧ Exec n d s' (tr ++ ev) ∧ (∀ k p, (k, p) ∈ ks → .ret t (.start (some k) (.ms 0) none p) .ok ∈ ev) ∧
      (ev.filterMap fun e => match e with | .acc _ _ k _ p => some (k, p) | _ => none) = ks ∧ ∀ c o, .ret t c o ∈ ev → o = .ok := by
  have I := Inv.reach h
  have all : ∀ i, i < n → i ∈ s.free := fun i hlt => (C67_available_partial h hi hr hg hlt).2 (by rintro ⟨t, hm⟩; exact hd t i hm)
  have hdy : s.dying = none ∧ s.gone = false := by
    have key : ∀ {s : TP.St} {tr : List Ev}, Exec n d s tr → (∀ t, .call t .destroy ∉ tr) → s.dying = none ∧ s.gone = false := by
      intro s tr h
      induction h with
      | init => intro _; exact ⟨rfl, rfl⟩
      | @step s tr a s' ev h1 hs ih =>
        intro hn
        obtain ⟨e1, e2⟩ := ih (fun t hm => hn t (by simp [hm]))
        have hn' : ∀ t, .call t .destroy ∉ ev := fun t hm => hn t (by simp [hm])
        have hnd : ∀ u q, s.pc u ≠ .on .destroy q := by
          intro u q hp
          have := (Inv.reach h1).st.dy u q hp
          rw [e1] at this; simp at this
        cases a with
        | call u c =>
          simp only [TP.step] at hs
          split at hs
          · next hc =>
            simp only [Option.some.injEq, Prod.mk.injEq] at hs; obtain ⟨rfl, rfl⟩ := hs
            have : c ≠ .destroy := by rintro rfl; exact hn' u (by simp)
            simp [St.at, this, e1, e2]
          · simp at hs
        | expire u =>
          simp only [TP.step] at hs
          split at hs
          · split at hs
            all_goals (try split at hs) <;> simp only [Option.some.injEq, Prod.mk.injEq, reduceCtorEq] at hs
            all_goals (obtain ⟨rfl, _⟩ := hs; exact ⟨e1, e2⟩)
          · simp at hs
        | throw j =>
          simp only [TP.step] at hs
          split at hs <;> simp only [Option.some.injEq, Prod.mk.injEq, reduceCtorEq] at hs
          obtain ⟨rfl, _⟩ := hs; exact ⟨e1, e2⟩
        | pgo j =>
          simp only [TP.step] at hs
          split at hs <;> (try split at hs) <;> simp only [Option.some.injEq, Prod.mk.injEq, reduceCtorEq] at hs <;>
            (obtain ⟨rfl, _⟩ := hs; exact ⟨e1, e2⟩)
        | go u =>
          cases hp : s.pc u with
          | idle => simp [TP.step, hp] at hs
          | on c q =>
            simp only [TP.step, hp] at hs
            split at hs
            all_goals first
              | exact absurd hp (hnd u _)
              | ((repeat' split at hs) <;> simp only [Option.some.injEq, Prod.mk.injEq, reduceCtorEq] at hs <;> (obtain ⟨rfl, _⟩ := hs; exact ⟨e1, e2⟩))
    exact key h hk
  have hins : s.inside = [] := by
    cases hq : s.inside with
    | nil => rfl
    | cons u l => exact absurd (hi u) ((I.st.ins u).1 (by rw [hq]; simp))
  have hw : ∀ i, i ∈ s.free → s.w i = .finished := by
    intro i hm
    have hlt : i < n := I.st.lt (by rw [(I.st.fo i).1 hm]; simp)
    have := hr i hlt
    rw [I.tc.rp i] at this
    unfold absR at this
    cases hww : s.w i <;> simp [hww] at this
    · rfl
    · split at this <;> simp at this
  obtain ⟨s', ev, r1, r2, r3, r4⟩ := lone_starts (t := t) ks (hi t) hdy.2 hdy.1 hins I.st.fr hw (Nat.le_trans hl (covers n s.free all))
  exact ⟨s', ev, r1, by simpa using run_reach _ h r1, r2, r3, r4⟩

/-! #### The hypotheses are met -/

/-- Two threads: a task with guard 0 and priority 5, one with neither; a null task; a wait that times out; the second task throws; then waits, isValid,
release, destroy. -/
def busy : List Act :=
  [.call 1 (.start (some 10) .forever (some 0) 5)] ++ List.replicate 8 (.go 1) ++
  [.call 1 (.start (some 11) (.ms 0) none 3)] ++ List.replicate 8 (.go 1) ++
  [.call 1 (.start none .forever none 3), .go 1, .go 1] ++
  [.call 2 (.wait 0 (.ms 4)), .go 2, .expire 2, .go 2] ++
  [.pgo 0, .pgo 1, .throw 1] ++ List.replicate 6 (.pgo 1) ++ List.replicate 4 (.pgo 0) ++ List.replicate 2 (.pgo 0) ++
  [.call 2 (.wait 0 .forever), .go 2, .go 2, .go 2, .call 1 (.isValid 0), .go 1, .go 1, .call 1 (.release 0)] ++ List.replicate 6 (.go 1)
def full : List Act := busy ++ [.call 1 .destroy] ++ List.replicate 7 (.go 1)

def reached (tr : List Ev) : Prop :=
  Ev.acc 1 0 10 (some 0) 5 ∈ tr ∧ Ev.ret 1 (.start (some 10) .forever (some 0) 5) .ok ∈ tr ∧ Ev.acc 1 1 11 none 3 ∈ tr ∧ Ev.ended 1 11 true ∈ tr ∧ Ev.uncaught 1 ∈ tr ∧
  Ev.ended 0 10 false ∈ tr ∧ Ev.note 0 ∈ tr ∧ Ev.ret 2 (.wait 0 (.ms 4)) .timedOut ∈ tr ∧ Ev.ret 2 (.wait 0 .forever) .ok ∈ tr ∧
  Ev.ret 1 (.start none .forever none 3) .invalidParameter ∈ tr ∧ Ev.ret 1 (.isValid 0) (.valid true) ∈ tr ∧ Ev.back 0 (some 0) ∈ tr ∧ Ev.ret 1 (.release 0) .done ∈ tr
instance (tr : List Ev) : Decidable (reached tr) := by unfold reached; infer_instance

/-- Safety, including destroy (C64, C65, C66, C68, C70, C71). -/
example : ∃ (s : TP.St) (tr : List Ev), Exec 2 7 s tr ∧ reached tr ∧ Ev.ret 1 .destroy .done ∈ tr ∧ Ev.kill 0 ∈ tr ∧ Ev.kill 1 ∈ tr := by
  obtain ⟨s, tr, h, hp⟩ := Lts.runSat_ex (step := TP.step) (init := TP.init 2 7) (as := full)
    (P := fun (_ : TP.St) tr => decide (reached tr ∧ Ev.ret 1 .destroy .done ∈ tr ∧ Ev.kill 0 ∈ tr ∧ Ev.kill 1 ∈ tr)) (by decide)
  exact ⟨s, tr, h, by simpa using hp⟩

theorem free_fold {g : Gid} : ∀ tr : List Ev, (∀ e, e ∈ tr → match e with | .acc _ _ _ (some g') _ | .back _ (some g') => g' ≠ g | _ => True) → tr.foldl (GP.next g) .free = .free
  | [], _ => rfl
  | e :: tr, h => by
    have h1 := h e (by simp)
    rw [List.foldl_cons, show GP.next g .free e = .free by
      cases e with
      | acc _ _ _ g' _ => cases g' with
        | none => rfl
        | some g' => simp only [GP.next]; exact if_neg h1
      | back _ g' => cases g' with
        | none => rfl
        | some g' => simp only [GP.next]; exact if_neg h1
      | _ => simp [GP.next]]
    exact free_fold tr fun e he => h e (by simp [he])

/-- C67: quiet, with nothing dropped. -/
example : ∃ (s : TP.St) (tr : List Ev), Exec 2 7 s tr ∧ reached tr ∧ (∀ t, s.pc t = .idle) ∧ (∀ i, i < 2 → rphase 2 7 i tr = .rest) ∧ (∀ g, gphase g tr = .free) ∧
    (∀ t i, .drop t i ∉ tr) ∧ ∀ t, .call t .destroy ∉ tr := by
  obtain ⟨s, tr, h, hp⟩ := Lts.runSat_ex (step := TP.step) (init := TP.init 2 7) (as := busy)
    (P := fun (s : TP.St) tr => decide (reached tr ∧ s.inside = [] ∧ rphase 2 7 0 tr = .rest ∧ rphase 2 7 1 tr = .rest ∧ gphase 0 tr = .free ∧
      (∀ e, e ∈ tr → (match e with | .acc _ _ _ (some g) _ | .back _ (some g) => g == 0 | .drop _ _ | .call _ .destroy => false | _ => true) = true))) (by decide)
  simp only [decide_eq_true_eq] at hp
  obtain ⟨h1, h2, h3, h4, h5, h6⟩ := hp
  have I := Inv.reach h
  refine ⟨s, tr, h, h1, ?_, ?_, ?_, ?_, ?_⟩
  · intro t
    apply Classical.byContradiction
    intro hp; have := (I.st.ins t).2 hp; rw [h2] at this; simp at this
  · intro i hi
    match i, hi with
    | 0, _ => exact h3
    | 1, _ => exact h4
  · intro g
    by_cases e : g = 0
    · subst e; exact h5
    · refine free_fold tr fun x hx => ?_
      have := h6 x hx
      cases x with
      | acc _ _ _ g' _ => cases g' with
        | none => trivial
        | some g' => simp at this; subst this; exact fun h => e h.symm
      | back _ g' => cases g' with
        | none => trivial
        | some g' => simp at this; subst this; exact fun h => e h.symm
      | _ => trivial
  · intro t i hm; have := h6 _ hm; simp at this
  · intro t hm; have := h6 _ hm; simp at this

/-- C70: a guard that is never released keeps its thread: destroy returns without having destroyed it. -/
def unreleased : List Act :=
  [.call 1 (.start (some 10) .forever (some 0) 5)] ++ List.replicate 8 (.go 1) ++ List.replicate 7 (.pgo 0) ++ [.call 1 .destroy] ++ List.replicate 6 (.go 1)
theorem C70_counterexample : ∃ (s : TP.St) (tr : List Ev), Exec 2 7 s tr ∧ Ev.ret 1 .destroy .done ∈ tr ∧ Ev.kill 1 ∈ tr ∧ Ev.kill 0 ∉ tr ∧ (∀ t i, .drop t i ∉ tr) := by
  obtain ⟨s, tr, h, hp⟩ := Lts.runSat_ex (step := TP.step) (init := TP.init 2 7) (as := unreleased)
    (P := fun (_ : TP.St) tr => decide (Ev.ret 1 .destroy .done ∈ tr ∧ Ev.kill 1 ∈ tr ∧ Ev.kill 0 ∉ tr ∧
      (∀ e, e ∈ tr → (match e with | .drop _ _ => false | _ => true) = true))) (by decide)
  simp only [decide_eq_true_eq] at hp
  obtain ⟨h1, h2, h3, h4⟩ := hp
  exact ⟨s, tr, h, h1, h2, h3, fun t i hm => by have := h4 _ hm; simp at this⟩

/-- Two clients wait for one guard at the same time, a third asks whether it is valid; both waits are over when the task is. -/
def shared : List Act :=
  [.call 1 (.start (some 10) .forever (some 0) 5)] ++ List.replicate 8 (.go 1) ++
  [.call 2 (.wait 0 .forever), .call 3 (.wait 0 (.ms 4)), .call 1 (.isValid 0), .go 2, .go 3, .go 1, .go 1] ++ List.replicate 7 (.pgo 0) ++ [.go 3, .go 2, .go 2, .go 3]
example : ∃ (s : TP.St) (tr : List Ev), Exec 1 7 s tr ∧ Ev.ret 2 (.wait 0 .forever) .ok ∈ tr ∧ Ev.ret 3 (.wait 0 (.ms 4)) .ok ∈ tr ∧ Ev.ret 1 (.isValid 0) (.valid true) ∈ tr ∧ s.inside = [] := by
  obtain ⟨s, tr, h, hp⟩ := Lts.runSat_ex (step := TP.step) (init := TP.init 1 7) (as := shared)
    (P := fun (s : TP.St) tr => decide (Ev.ret 2 (.wait 0 .forever) .ok ∈ tr ∧ Ev.ret 3 (.wait 0 (.ms 4)) .ok ∈ tr ∧ Ev.ret 1 (.isValid 0) (.valid true) ∈ tr ∧ s.inside = [])) (by decide)
  simp only [decide_eq_true_eq] at hp
  exact ⟨s, tr, h, hp⟩

/-- C77_stuck: a start without timeout waits for the release of a guard. -/
def waiting : List Act :=
  [.call 1 (.start (some 10) .forever (some 0) 5)] ++ List.replicate 8 (.go 1) ++ List.replicate 7 (.pgo 0) ++ [.call 2 (.start (some 11) .forever none 5), .go 2]
example : ∃ (s : TP.St) (tr : List Ev), Exec 1 7 s tr ∧ (∀ a, (∀ t c, a ≠ .call t c) → TP.step s a = none) ∧ phase 2 tr ≠ .out := by
  obtain ⟨s, tr, h, hp⟩ := Lts.runSat_ex (step := TP.step) (init := TP.init 1 7) (as := waiting)
    (P := fun (s : TP.St) tr => decide (s.inside = [2] ∧ s.pc 2 = .on (.start (some 11) .forever none 5) .sRecv ∧ s.free = [] ∧ s.w 0 = .finished)) (by decide)
  simp only [decide_eq_true_eq] at hp
  obtain ⟨h1, h2, h3, h4⟩ := hp
  have I := Inv.reach h
  have hw : ∀ i, s.w i = .finished ∨ s.w i = .dead := by
    intro i
    match i with
    | 0 => exact Or.inl h4
    | i + 1 => right; have R := I.st.rs (i + 1); unfold RShape at R; rw [I.st.od (i + 1) (by omega)] at R; exact R
  have hi : ∀ t, t ≠ 2 → s.pc t = .idle := by
    intro t ht
    apply Classical.byContradiction
    intro hp; have := (I.st.ins t).2 hp; rw [h1] at this; simp at this; exact ht this
  refine ⟨s, tr, h, ?_, ?_⟩
  · intro a ha
    cases a with
    | call t c => exact absurd rfl (ha t c)
    | go t => by_cases e : t = 2
              · subst e; simp [TP.step, h2, h3]
              · simp [TP.step, hi t e]
    | expire t => by_cases e : t = 2
                  · subst e; simp [TP.step, h2]
                  · simp [TP.step, hi t e]
    | pgo i => rcases hw i with h | h <;> simp [TP.step, h]
    | throw i => rcases hw i with h | h <;> simp [TP.step, h]
  · rw [I.tc.loc 2, h2]; simp [shape]

/-- Liveness (C64_runs, C66_releases, C66_waits, C70_returns, C77_returns): an infinite execution that starts with `full`, fair to everything. -/
example : ∃ (st : Nat → TP.St) (act : Nat → Option Act) (ev : Nat → List Ev), InfExec (stut TP.step) st act ev ∧ st 0 = TP.init 2 7 ∧
    (∀ a, WeakFair (stut TP.step) st act (some a)) ∧
    (∃ m, Ev.acc 1 0 10 (some 0) 5 ∈ ev m) ∧ (∃ m, Ev.call 1 (.release 0) ∈ ev m) ∧ (∃ m, Ev.call 2 (.wait 0 .forever) ∈ ev m) ∧ ∃ m, Ev.call 1 .destroy ∈ ev m := by
  have hs : (run TP.step full (TP.init 2 7)).isSome = true := by decide
  obtain ⟨⟨s', tr⟩, hr⟩ := Option.isSome_iff_exists.1 hs
  have hm : (run TP.step full (TP.init 2 7)).map (fun x => decide (Ev.acc 1 0 10 (some 0) 5 ∈ x.2 ∧ Ev.call 1 (.release 0) ∈ x.2 ∧ Ev.call 2 (.wait 0 .forever) ∈ x.2 ∧
    Ev.call 1 .destroy ∈ x.2 ∧ Ev.ret 1 .destroy .done ∈ x.2)) = some true := by decide
  rw [hr] at hm
  simp only [Option.map_some, Option.some.injEq, decide_eq_true_eq] at hm
  obtain ⟨m1, m2, m3, m4, m5⟩ := hm
  have hreach : Exec 2 7 s' tr := by simpa using run_reach full Reach.init hr
  obtain ⟨g1, g2, g3, g4, g5, _⟩ := after_destroy hreach m5
  obtain ⟨st, act, ev, hx, h0, h1, h2, h3⟩ := rests full hr
  have get : ∀ e, e ∈ tr → ∃ m, e ∈ ev m := by
    intro e he
    rw [← h3, mem_upto] at he
    obtain ⟨m, _, h⟩ := he; exact ⟨m, h⟩
  refine ⟨st, act, ev, hx, h0, fun a => rests_fair h2 ?_, get _ m1, get _ m2, get _ m3, get _ m4⟩
  cases a with
  | call u c => simp [TP.step, g1]
  | go u => simp [TP.step, g4]
  | expire u => simp [TP.step, g4]
  | pgo i => rcases g5 i with h | h <;> simp [TP.step, h]
  | throw i => rcases g5 i with h | h <;> simp [TP.step, h]

end Verif.Props.ThreadPoolMore
