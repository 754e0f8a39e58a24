import Verif.Props.MessageQueue
import Verif.Model.MessageQueueErr
/-
Property C113: what `MessageQueue<T>` guarantees to any number of threads when its event flag fails to set or reset its bits.
-/
namespace Verif.Props.MessageQueueErr
open Verif
open _root_.Verif.Mtx (Tid Err)
open _root_.Verif.EvF (Tmo)
open MQ Spec Lts
open _root_.Verif.Props.MessageQueue (sent received Got stored Settled Pending tmoOf Stuck)
variable {V : Type} [DecidableEq V]
set_option linter.unusedSectionVars false

/-! #### Specification -/

/-- What happened at the queue. -/
def queueTrace (tr : List (Bad.Ev V)) : List (MQ.Ev V) := tr.filterMap (fun | .q e => some e | _ => none)
/-- Whether the latest attempt to set bit `b` succeeded; none if there was no attempt. -/
def lastSignal (b : Bad.Bit) (tr : List (Bad.Ev V)) : Option Bool :=
  (tr.filterMap (fun | .signal _ b' ok => if b' = b then some ok else none | _ => none)).getLast?
/-- No reset has failed. -/
def ResetsOk (tr : List (Bad.Ev V)) : Prop := ∀ t b, Bad.Ev.resetFailed t b ∉ tr

/-! #### Proof -/

theorem queueTrace_app (a b : List (Bad.Ev V)) : queueTrace (a ++ b) = queueTrace a ++ queueTrace b := by simp [queueTrace]
theorem queueTrace_map (l : List (MQ.Ev V)) : queueTrace (l.map Bad.Ev.q) = l := by
  induction l with
  | nil => rfl
  | cons x l ih => simp only [queueTrace, List.map_cons, List.filterMap_cons] at ih ⊢; rw [ih]
theorem queueTrace_signals (s : MQ.St V) (a : MQ.Act V) : queueTrace (Bad.signals s a) = [] := by
  unfold Bad.signals; split
  · split <;> rfl
  · rfl
theorem last_map (b : Bad.Bit) (tr : List (Bad.Ev V)) (l : List (MQ.Ev V)) : lastSignal b (tr ++ l.map Bad.Ev.q) = lastSignal b tr := by
  unfold lastSignal
  have : (l.map (Bad.Ev.q (V := V))).filterMap (fun | .signal _ b' ok => if b' = b then some ok else none | _ => none) = [] := by
    induction l with
    | nil => rfl
    | cons x l ih => rw [List.map_cons, List.filterMap_cons]; exact ih
  rw [List.filterMap_append, this, List.append_nil]
theorem last_sig (b b' : Bad.Bit) (t : Tid) (ok : Bool) (tr : List (Bad.Ev V)) :
    lastSignal b (tr ++ [.signal t b' ok]) = if b' = b then some ok else lastSignal b tr := by
  unfold lastSignal
  rw [List.filterMap_append]
  by_cases h : b' = b <;> simp [h]

/-- The invariant only matters while the bit is off. -/
theorem weaken {Ps Pr Qs Qr : Prop} {cap : Nat} {s : MQ.St V} {tr : List (MQ.Ev V)} {l : List V} (I : MQ.InvG Ps Pr cap s tr l)
    (hs : Qs → Ps ∨ s.nf = true) (hr : Qr → Pr ∨ s.ne = true) : MQ.InvG Qs Qr cap s tr l := by
  refine ⟨I.nb, I.ub, I.hist, I.ring, I.loc, I.hs, I.hr, I.hb, fun hq t c v tm hp hn => ?_, fun hq t c v tm hp hn => ?_⟩
  · rcases hs hq with h | h
    · exact I.ws h t c v tm hp hn
    · rw [hn] at h; simp at h
  · rcases hr hq with h | h
    · exact I.wr h t c v tm hp hn
    · rw [hn] at h; simp at h

/-- The invariant, as long as resets do not fail. -/
def BInv (cap : Nat) (s : MQ.St V) (tr : List (Bad.Ev V)) : Prop :=
  ∃ l, MQ.InvG (lastSignal .notFull tr ≠ some false) (lastSignal .notEmpty tr ≠ some false) cap s (queueTrace tr) l

theorem BInv.step {cap : Nat} {s s' : MQ.St V} {tr ev : List (Bad.Ev V)} {a : Bad.Act V} (h : BInv cap s tr)
    (hs : Bad.step s a = some (s', ev)) (hok : ResetsOk ev) : BInv cap s' (tr ++ ev) := by
  obtain ⟨l, I⟩ := h
  cases a with
  | q a =>
    simp only [Bad.step, Option.map_eq_some_iff] at hs
    obtain ⟨⟨s1, ev1⟩, h1, h2⟩ := hs
    simp only [Prod.mk.injEq] at h2
    obtain ⟨rfl, rfl⟩ := h2
    obtain ⟨l', I'⟩ := I.step h1
    refine ⟨l', ?_⟩
    rw [queueTrace_app, queueTrace_app, queueTrace_map, queueTrace_signals, List.append_nil]
    refine weaken I' ?_ ?_ <;> rw [← List.append_assoc]
    all_goals
      unfold Bad.signals
      split
      · next t =>
        have hub := I.ub
        cases hp : s.pc t <;> simp only [List.append_nil, last_sig, last_map] <;> intro hq <;>
          first
          | (simp [MQ.step, hub, hp] at h1; obtain ⟨rfl, rfl⟩ := h1; simp_all; done)
          | exact Or.inl (by simpa using hq)
      · rw [List.append_nil, last_map]; exact Or.inl
  | setFails t =>
    have hub := I.ub
    simp only [Bad.step, hub] at hs
    have hl := I.loc t
    cases hp : s.pc t <;> simp [hp] at hs <;> obtain ⟨rfl, rfl⟩ := hs <;> rw [hp] at hl <;> simp only [Loc] at hl
    · have hR := I.ring_of (t := t) (by simp [hp, bHolds]) (by simp [hp, mid])
      refine ⟨l, ?_⟩
      rw [queueTrace_app, last_sig, last_sig]
      refine I.act t (.sPushUnl _ _) rfl (by simp [queueTrace]) rfl I.ub (by simpa [queueTrace, effects] using I.hist) (fun _ _ => hR) ?_ ?_ ?_ ?_ ?_ ?_ ?_ ?_ ?_
      · exact ⟨hl.1, hl.2.1⟩
      · intro u _ _; exact ⟨Nat.le_refl _, Or.inl⟩
      · intro u _ _; exact ⟨Nat.le_refl _, Or.inl⟩
      · intro u _ _; exact ⟨rfl, rfl, rfl, rfl, rfl, rfl, rfl⟩
      · exact holder_upd I.hs (Or.inl ⟨rfl, by simp [hp, sHolds]⟩)
      · exact holder_upd I.hr (Or.inl ⟨rfl, by simp [hp, rHolds]⟩)
      · exact holder_upd I.hb (Or.inl ⟨rfl, by simp [hp, bHolds]⟩)
      · intro hq
        exact I.ws_upd (s' := s.at t _) rfl (by simp) (Or.inr (Or.inr (Or.inr ⟨rfl, rfl, by simp [hp]⟩))) (by simpa using hq)
      · intro hq; simp at hq
    · have hR := I.ring_of (t := t) (by simp [hp, bHolds]) (by simp [hp, mid])
      refine ⟨l, ?_⟩
      rw [queueTrace_app, last_sig, last_sig]
      refine I.act t (.rPopUnl _ _) rfl (by simp [queueTrace]) rfl I.ub (by simpa [queueTrace, effects] using I.hist) (fun _ _ => hR) ?_ ?_ ?_ ?_ ?_ ?_ ?_ ?_ ?_
      · exact ⟨hl.1, hl.2.1⟩
      · intro u _ _; exact ⟨Nat.le_refl _, Or.inl⟩
      · intro u _ _; exact ⟨Nat.le_refl _, Or.inl⟩
      · intro u _ _; exact ⟨rfl, rfl, rfl, rfl, rfl, rfl, rfl⟩
      · exact holder_upd I.hs (Or.inl ⟨rfl, by simp [hp, sHolds]⟩)
      · exact holder_upd I.hr (Or.inl ⟨rfl, by simp [hp, rHolds]⟩)
      · exact holder_upd I.hb (Or.inl ⟨rfl, by simp [hp, bHolds]⟩)
      · intro hq; simp at hq
      · intro hq
        exact I.wr_upd (s' := s.at t _) rfl (by simp) (Or.inr (Or.inr (Or.inr ⟨rfl, rfl, by simp [hp]⟩))) (by simpa using hq)
  | resetFails t =>
    have hub := I.ub
    simp only [Bad.step, hub] at hs
    cases hp : s.pc t <;> simp [hp] at hs <;> obtain ⟨rfl, rfl⟩ := hs
    · exact absurd (List.mem_singleton.2 rfl) (hok t .notFull)
    · exact absurd (List.mem_singleton.2 rfl) (hok t .notEmpty)

theorem BInv.reach {cap : Nat} {s : MQ.St V} {tr : List (Bad.Ev V)} (h : Reach Bad.step (MQ.init V cap) s tr) (hok : ResetsOk tr) :
    BInv cap s tr := by
  refine Reach.inv (I := fun s tr => ResetsOk tr → BInv cap s tr) (fun _ => ⟨[], MQ.InvG.init _ _ cap⟩) ?_ h hok
  intro s tr a s' ev ih hs hok
  exact (ih (fun t b hm => hok t b (List.mem_append_left _ hm))).step hs (fun t b hm => hok t b (List.mem_append_right _ hm))

/-! #### C113 -/

/-- Whatever locks, waits and signals answer, as long as no reset fails: the queue is a linearizable bounded FIFO whose ring holds
exactly the messages, a failed call has no effect, and a call whose signal failed has taken effect and returns OK. -/
theorem C113_queue_partial {cap : Nat} {s : MQ.St V} {tr : List (Bad.Ev V)} (h : Reach Bad.step (MQ.init V cap) s tr) (hok : ResetsOk tr) :
    ∃ taken q, Linearizable cap (queueTrace tr) q ∧ sent (queueTrace tr) = taken ++ q ∧ Got (received (queueTrace tr)) taken ∧
      q.length ≤ cap ∧ (Settled s → stored s = q.map some) := by
  obtain ⟨l, I⟩ := BInv.reach h hok
  obtain ⟨q, hl, hs⟩ := Props.MessageQueue.inv_lin I
  obtain ⟨taken, h1, h2⟩ := Props.MessageQueue.hist_lists hl.1
  exact ⟨taken, q, hl, by rw [Props.MessageQueue.sent_eff, h1], by rw [Props.MessageQueue.received_eff]; exact h2,
    Props.MessageQueue.hist_cap hl.1, hs⟩

/-- The ring is never misused and never over-full. -/
theorem C113_ring_partial {cap : Nat} {s : MQ.St V} {tr : List (Bad.Ev V)} (h : Reach Bad.step (MQ.init V cap) s tr) (hok : ResetsOk tr) :
    s.ub = false ∧ size s ≤ cap ∧ maxSize s = cap ∧ s.b < s.nb ∧ s.e < s.nb ∧
    (Settled s → ∀ i, i < s.nb → (s.buf ((s.b + i) % s.nb)).isSome = decide (i < size s)) := by
  obtain ⟨l, I⟩ := BInv.reach h hok
  have h1 := Props.MessageQueue.inv_cap I
  have h2 := Props.MessageQueue.inv_ring I
  exact ⟨h2.1, h1.1, h1.2.1, h2.2.1, h2.2.2.1, h2.2.2.2.2⟩

/-- When nothing moves any more, a call that has not returned is a FOREVER send and the queue is full or the latest attempt to signal
room failed, or a FOREVER receive and the queue is empty or the latest attempt to signal a message failed: one signal that gets
through repairs every one lost before. -/
theorem C113_stuck_partial {cap : Nat} {s : MQ.St V} {tr : List (Bad.Ev V)} (h : Reach Bad.step (MQ.init V cap) s tr) (hok : ResetsOk tr)
    (hst : Stuck s) (t : Tid) :
    s.pc t = .idle ∨ ∃ c, Pending s t c ∧ tmoOf c = .forever ∧
      ((isSend c = true ∧ (size s = cap ∨ lastSignal .notFull tr = some false)) ∨
       (isRecv c = true ∧ (size s = 0 ∨ lastSignal .notEmpty tr = some false))) := by
  obtain ⟨l, I⟩ := BInv.reach h hok
  rcases Props.MessageQueue.inv_stuck I hst t with h1 | ⟨c, h1, h2, h3⟩
  · exact Or.inl h1
  · refine Or.inr ⟨c, h1, h2, ?_⟩
    rcases h3 with ⟨h3, h4⟩ | ⟨h3, h4⟩
    · refine Or.inl ⟨h3, ?_⟩
      by_cases hq : lastSignal .notFull tr = some false
      · exact Or.inr hq
      · exact Or.inl (h4 hq)
    · refine Or.inr ⟨h3, ?_⟩
      by_cases hq : lastSignal .notEmpty tr = some false
      · exact Or.inr hq
      · exact Or.inl (h4 hq)

/-! #### The hypotheses are needed, and concrete executions -/

theorem idle_of_no_call {cap : Nat} {s : MQ.St V} {tr : List (Bad.Ev V)} (h : Reach Bad.step (MQ.init V cap) s tr) (t : Tid)
    (hn : ∀ c, Bad.Ev.q (.call t c) ∉ tr) : s.pc t = .idle := by
  refine Reach.inv (I := fun s tr => (∀ c, Bad.Ev.q (.call t c) ∉ tr) → s.pc t = .idle) (fun _ => rfl) ?_ h hn
  intro s tr a s' ev ih hs hn
  have h0 := ih (fun c hm => hn c (List.mem_append_left _ hm))
  have h1 : ∀ c, Bad.Ev.q (.call t c) ∉ ev := fun c hm => hn c (List.mem_append_right _ hm)
  clear ih hn h
  cases a with
  | q a =>
    simp only [Bad.step, Option.map_eq_some_iff] at hs
    obtain ⟨⟨s1, ev1⟩, h2, h3⟩ := hs
    simp only [Prod.mk.injEq] at h3
    obtain ⟨rfl, rfl⟩ := h3
    have h1' : ∀ c, MQ.Ev.call t c ∉ ev1 := fun c hm => h1 c (List.mem_append_left _ (List.mem_map.2 ⟨_, hm, rfl⟩))
    clear h1
    cases a <;> simp only [MQ.step] at h2 <;> (repeat' split at h2) <;>
      simp only [Option.some.injEq, Prod.mk.injEq, reduceCtorEq] at h2 <;> obtain ⟨rfl, rfl⟩ := h2 <;>
      (try simp only [St.at]) <;> grind [upd]
  | setFails u =>
    simp only [Bad.step] at hs
    (repeat' split at hs) <;> simp only [Option.some.injEq, Prod.mk.injEq, reduceCtorEq] at hs <;> obtain ⟨rfl, rfl⟩ := hs <;>
      (try simp only [St.at]) <;> grind [upd]
  | resetFails u =>
    simp only [Bad.step] at hs
    (repeat' split at hs) <;> simp only [Option.some.injEq, Prod.mk.injEq, reduceCtorEq] at hs <;> obtain ⟨rfl, rfl⟩ := hs <;>
      (try simp only [St.at]) <;> grind [upd]

private def gos (t : Tid) (n : Nat) : List (Bad.Act Nat) := List.replicate n (.q (.go t))

/-- Thread 0 sends 5 and receives it again; its next receive finds the queue empty, but the reset fails. -/
def badReset : List (Bad.Act Nat) :=
  .q (.call 0 (.send 5)) :: gos 0 12 ++ .q (.call 0 (.receive true)) :: gos 0 13 ++ .q (.call 0 (.receive true)) :: gos 0 4 ++
  .resetFails 0 :: gos 0 4

/-- A failed reset that is ignored lets a receive read a message that does not exist (MQ:370). -/
theorem C113_reset_undefined : ∃ (s : MQ.St Nat) (tr : List (Bad.Ev Nat)), Reach Bad.step (MQ.init Nat 3) s tr ∧ s.ub = true := by
  obtain ⟨s, tr, h, hp⟩ := runSat_ex (step := Bad.step) (init := MQ.init Nat 3) (as := badReset) (P := fun s _ => s.ub) (by decide)
  exact ⟨s, tr, h, hp⟩

/-- Thread 1 waits for a message; thread 0 sends one, but the signal fails. -/
def badSet : List (Bad.Act Nat) :=
  .q (.call 1 (.receive true)) :: gos 1 6 ++ .q (.call 0 (.send 5)) :: gos 0 8 ++ .setFails 0 :: gos 0 3

/-- A failed signal that is ignored (MQ:389) leaves a receive waiting forever although send returned OK and the message is there. -/
theorem C113_signal_hangs : ∃ (s : MQ.St Nat) (tr : List (Bad.Ev Nat)), Reach Bad.step (MQ.init Nat 3) s tr ∧ ResetsOk tr ∧ Stuck s ∧
    Pending s 1 (.receive true) ∧ stored s = [some 5] ∧ Bad.Ev.q (.ret 0 (.send 5) (.done .OK none)) ∈ tr := by
  obtain ⟨s, tr, h, hp⟩ := runSat_ex (step := Bad.step) (init := MQ.init Nat 3) (as := badSet)
    (P := fun s tr => decide (s.pc 1 = .rWait (.receive true) true .forever ∧ s.ne = false ∧ s.pc 0 = .idle ∧ s.ub = false ∧ stored s = [some 5] ∧
      Bad.Ev.q (.ret 0 (.send 5) (.done .OK none)) ∈ tr) && tr.all (fun | .q (.call t _) => t ≤ 1 | .resetFailed _ _ => false | _ => true)) (by decide)
  simp only [Bool.and_eq_true, decide_eq_true_eq, List.all_eq_true] at hp
  obtain ⟨⟨h1, h2, h3, h4, h5, h6⟩, h7⟩ := hp
  refine ⟨s, tr, h, fun t b hm => by simpa using h7 _ hm, fun t => ?_, by simp [Pending, h1], h5, h6⟩
  by_cases e1 : t = 1
  · subst e1; simp [MQ.step, h4, h1, h2]
  · have : s.pc t = .idle := by
      by_cases e0 : t = 0
      · rw [e0]; exact h3
      · apply idle_of_no_call h
        intro c hm
        have := h7 _ hm
        simp only [decide_eq_true_eq] at this
        exact absurd this (by simp only [Tid] at *; omega)
    simp [MQ.step, h4, this]

/-- A lost signal repaired by the next one: the receive of thread 1 returns 5 after the second send. -/
def repaired : List (Bad.Act Nat) := badSet ++ .q (.call 0 (.send 6)) :: gos 0 12 ++ gos 1 9

example : ∃ (s : MQ.St Nat) (tr : List (Bad.Ev Nat)), Reach Bad.step (MQ.init Nat 3) s tr ∧
    decide (Bad.Ev.signal 0 .notEmpty false ∈ tr ∧ lastSignal .notEmpty tr = some true ∧ sent (queueTrace tr) = [5, 6] ∧
      received (queueTrace tr) = [(true, some 5)] ∧ stored s = [some 6] ∧ s.pc 0 = .idle ∧ s.pc 1 = .idle) = true :=
  runSat_ex (step := Bad.step) (init := MQ.init Nat 3) (as := repaired)
    (P := fun s tr => decide (Bad.Ev.signal 0 .notEmpty false ∈ tr ∧ lastSignal .notEmpty tr = some true ∧ sent (queueTrace tr) = [5, 6] ∧
      received (queueTrace tr) = [(true, some 5)] ∧ stored s = [some 6] ∧ s.pc 0 = .idle ∧ s.pc 1 = .idle)) (by decide)

end Verif.Props.MessageQueueErr
