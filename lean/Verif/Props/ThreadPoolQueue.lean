import Verif.Proof.ThreadPoolQueue
import Verif.Props.ThreadPoolMore
import Verif.Props.MessageQueueEventLive
/-
C100: the thread pool running on the message queue implementation behaves as on the atomic FIFO queue.
-/
set_option linter.unusedSimpArgs false
set_option linter.unusedVariables false
namespace Verif.Props.ThreadPoolQueue
open Verif TP TP.OnQueue
open _root_.Verif.Lts (Reach run runSat_ex run_reach)
open _root_.Verif.Mtx (Tid Err)
open _root_.Verif.EvF (Tmo)
open _root_.Verif.MQ.Spec (Linearizable isSend isRecv)
open _root_.Verif.TP.Spec (rphase gphase about)
open _root_.Verif.Props.ThreadPool (Exec)

/-! #### The queue programs -/

/-- What the pool needs of its queue program: linearizable as a FIFO queue of capacity `n`, and a call gives its lock up as busy only
while another call is in progress. -/
def GoodQueue {Q A : Type} (O : Q → A → Option (Q × List (MQ.Ev Rid))) (e : Q) (n : Nat) : Prop :=
  ∀ s qtr, Reach O e s qtr → (∃ q, Linearizable n qtr q) ∧ Honest qtr

theorem busy_first {s s' : MQ.St Rid} {a : MQ.Act Rid} {ev l r : List (MQ.Ev Rid)} {t : Tid} (hs : MQ.step s a = some (s', ev))
    (e : ev = l ++ .busy t :: r) : l = [] := by
  have key : ∀ x y : MQ.Ev Rid, ev = [x] ∨ ev = [] ∨ (ev = [x, y] ∧ ∀ t, y ≠ .busy t) → l = [] := by
    rintro x y (h | h | ⟨h, hy⟩) <;> rw [h] at e
    · cases l with
      | nil => rfl
      | cons => simp at e
    · simp at e
    · cases l with
      | nil => rfl
      | cons a l => cases l with
        | nil => simp at e; exact absurd e.2.1 (hy t)
        | cons b l => simp at e
  cases a <;> simp only [MQ.step] at hs <;> (repeat' split at hs) <;> simp only [Option.some.injEq, Prod.mk.injEq, reduceCtorEq] at hs <;>
    obtain ⟨_, rfl⟩ := hs <;>
    first
    | exact key (.busy 0) (.sawFull 0) (Or.inr (Or.inl rfl))
    | exact key _ (.sawFull 0) (Or.inl rfl)
    | exact key _ _ (Or.inr (Or.inr ⟨rfl, by simp⟩))

theorem mq_good (n : Nat) : GoodQueue MQ.step (MQ.init Rid n) n := by
  intro s qtr h
  refine ⟨?_, ?_⟩
  · obtain ⟨q, hq, _⟩ := Props.MessageQueue.C46_linearizable h
    exact ⟨q, hq⟩
  · induction h with
    | init => intro l t r e; simp at e
    | @step s tr a s' ev h hs ih =>
      intro l t r e
      rcases List.append_eq_append_iff.1 e with ⟨l', h1, h2⟩ | ⟨l', h1, h2⟩
      · have h0 := busy_first hs h2
        subst h0
        simp only [List.append_nil] at h1
        subst h1
        obtain ⟨u, hu, _, hi⟩ := (Props.MessageQueue.C49_markers h hs t).1 (by rw [h2]; simp)
        refine ⟨u, hu, fun ho => hi ?_⟩
        obtain ⟨q, I⟩ := MQ.Inv.reach h
        have hl := I.loc u
        unfold qphase at ho
        rw [ho] at hl
        cases hp : s.pc u <;> rw [hp] at hl <;> simp [MQ.Loc, MQ.Called] at hl ⊢
      · cases l' with
        | nil =>
          have h3 : ev = [] ++ .busy t :: r := by simpa using h2.symm
          simp only [List.append_nil] at h1
          subst h1
          obtain ⟨u, hu, _, hi⟩ := (Props.MessageQueue.C49_markers h hs t).1 (by rw [h3]; simp)
          refine ⟨u, hu, fun ho => hi ?_⟩
          obtain ⟨q, I⟩ := MQ.Inv.reach h
          have hl := I.loc u
          unfold qphase at ho
          rw [ho] at hl
          cases hp : s.pc u <;> rw [hp] at hl <;> simp [MQ.Loc, MQ.Called] at hl ⊢
        | cons x l' =>
          simp only [List.cons_append, List.cons.injEq] at h2
          obtain ⟨rfl, h2⟩ := h2
          exact ih l t l' h1

variable {w : Nat}

theorem flag_good {F : Type} {os : Bool} (hw : 2 ≤ w) {O : F → EvF.Act w → Option (F × List (EvF.Ev w))} {f0 : F}
    (hO : ∀ f ftr, Reach O f0 f ftr → ∃ σ, EvF.Spec.Linearizable false os ftr σ) (n : Nat) :
    GoodQueue (MQ.OnFlag.step O) (MQ.OnFlag.init Rid n f0) n := by
  intro s qtr h
  obtain ⟨a, ha, _⟩ := Props.MessageQueueEvent.C97_refines hw hO h
  exact mq_good n a qtr ha

/-- A queue that has been filled by sends of 0, ..., n - 1 and that nobody is using. -/
theorem filled_of {Q A : Type} {O : Q → A → Option (Q × List (MQ.Ev Rid))} {e q0 : Q} {n : Nat} {tr0 : List (MQ.Ev Rid)} (hg : GoodQueue O e n)
    (h : Reach O e q0 tr0) (hs : Props.MessageQueue.sent tr0 = List.range n) (hr : Props.MessageQueue.received tr0 = [])
    (hp : ∀ u, qphase u tr0 = .out) : Filled O e n q0 tr0 := by
  obtain ⟨⟨q, hq⟩, _⟩ := hg _ _ h
  obtain ⟨taken, h1, h2⟩ := Props.MessageQueue.hist_lists hq.1
  rw [← Props.MessageQueue.received_eff, hr] at h2
  rw [← Props.MessageQueue.sent_eff, hs] at h1
  have : taken = [] := by cases taken <;> simp [Props.MessageQueue.Got] at h2 ⊢
  subst this
  simp only [List.nil_append] at h1
  subst h1
  exact ⟨h, hq, hp⟩

/-- One send on a queue nobody is using. -/
theorem send_one {n : Nat} {s : MQ.St Rid} {tr : List (MQ.Ev Rid)} {q : List Rid} (I : MQ.Inv n s tr q) (hi : ∀ t, s.pc t = .idle) (hl : q.length < n) (i : Rid) :
    ∃ s', run MQ.step (.call 0 (.send i) :: List.replicate 12 (.go 0)) s = some (s', [.call 0 (.send i), .lin 0 (.send i) (.done .OK none), .ret 0 (.send i) (.done .OK none)]) ∧
      ∀ t, s'.pc t = .idle := by
  have hR := I.ring (fun t => by rw [hi]; rfl)
  have hms : s.ms = none := by
    cases h : s.ms with
    | none => rfl
    | some u => have := (I.hs u).1 h; rw [hi] at this; simp [MQ.sHolds] at this
  have hmb : s.mb = none := by
    cases h : s.mb with
    | none => rfl
    | some u => have := (I.hb u).1 h; rw [hi] at this; simp [MQ.bHolds] at this
  have hub := I.ub
  have hfull : MQ.isFull s = false := by
    cases h : MQ.isFull s with
    | false => rfl
    | true => have := (hR.isFull_iff I.nb).1 h; omega
  have he := hR.he_lt
  have hbe := hR.none_at_e
  have h0 := hi 0
  obtain ⟨nb, b, e, buf, ms, mr, mb, ne, nf, ub, pc⟩ := s
  simp only at hms hmb hub he hbe h0
  subst hms hmb hub
  simp only [MQ.isFull, MQ.size, MQ.maxSize] at hfull
  refine ⟨⟨nb, b, MQ.nextIdx nb e, upd buf e (some i), none, mr, none, true, nf, false, upd pc 0 .idle⟩, ?_, ?_⟩
  · have uu : ∀ (f : Tid → MQ.PC Rid) x y, upd (upd f 0 x) 0 y = upd f 0 y := by
      intro f x y; funext u; by_cases h : u = 0 <;> simp [upd, h]
    have u0 : ∀ (f : Tid → MQ.PC Rid) x, upd f 0 x 0 = x := by intro f x; simp [upd]
    simp [run, MQ.step, MQ.St.at, MQ.dispatch, MQ.isFull, MQ.size, MQ.maxSize, List.replicate, h0, hfull, he, hbe, uu, u0]
  · intro t
    by_cases h : t = 0
    · simp [upd, h]
    · simp only [upd, if_neg h]; exact hi t

/-- The queue can be filled as create does, whatever the number of threads. -/
theorem mq_filled (n : Nat) : ∃ q0 tr0, Filled MQ.step (MQ.init Rid n) n q0 tr0 := by
  have key : ∀ k, k ≤ n → ∃ q0 tr0, Reach MQ.step (MQ.init Rid n) q0 tr0 ∧ (∀ t, q0.pc t = .idle) ∧
      Props.MessageQueue.sent tr0 = List.range k ∧ Props.MessageQueue.received tr0 = [] := by
    intro k
    induction k with
    | zero => intro _; exact ⟨_, [], Reach.init, fun _ => rfl, rfl, rfl⟩
    | succ k ih =>
      intro hk
      obtain ⟨q0, tr0, h, hi, hs, hr⟩ := ih (by omega)
      obtain ⟨q, I⟩ := MQ.Inv.reach h
      have hl : q.length < n := by
        obtain ⟨taken, h1, h2⟩ := Props.MessageQueue.hist_lists I.hist
        rw [← Props.MessageQueue.sent_eff, hs] at h1
        have := congrArg List.length h1
        simp at this; omega
      obtain ⟨s', hrun, hi'⟩ := send_one I hi hl k
      refine ⟨s', _, run_reach _ h hrun, hi', ?_, ?_⟩
      · simp [Props.MessageQueue.sent, List.filterMap_append] at hs ⊢; rw [hs]; simp [Props.MessageQueue.msgOf, List.range_succ]
      · simp [Props.MessageQueue.received, List.filterMap_append] at hr ⊢; refine ⟨hr, by simp [MQ.Spec.isRecv]⟩
  obtain ⟨q0, tr0, h, hi, hs, hr⟩ := key n (Nat.le_refl _)
  refine ⟨q0, tr0, filled_of (mq_good n) h hs hr ?_⟩
  intro u
  obtain ⟨q, I⟩ := MQ.Inv.reach h
  have := I.loc u
  rw [hi] at this
  exact this

/-- A queue into which 0, ..., k - 1 have been sent, nobody inside. -/
structure Sent (n k : Nat) (m : MQ.St Rid) : Prop where
  nb : m.nb = n + 1
  b : m.b = 0
  e : m.e = k
  buf : ∀ j, k ≤ j → m.buf j = none
  ms : m.ms = none
  mb : m.mb = none
  ub : m.ub = false
  pc : ∀ t, m.pc t = .idle

/-- The steps of a send in the queue's code around `set`, whose steps are `evs`. -/
def sendAs (i : Rid) (evs : List (EvF.Act w)) : List (MQ.OnFlag.CAct Rid w) :=
  .mq (.call 0 (.send i)) :: List.replicate 8 (.mq (.go 0)) ++ (evs.map .ev) ++ List.replicate 3 (.mq (.go 0))

abbrev sentEvs (i : Rid) : List (MQ.Ev Rid) := [.call 0 (.send i), .lin 0 (.send i) (.done .OK none), .ret 0 (.send i) (.done .OK none)]

theorem std_send {n k : Nat} (hk : k < n) {s : MQ.OnFlag.CSt Rid (EvF.Std.St w)} (hm : Sent n k s.m) (hh : s.f.holder = none) (hf : ∀ t, s.f.pc t = .idle) :
    ∃ s', run (MQ.OnFlag.step (EvF.Std.step false)) (sendAs k (.call 0 (.set (MQ.OnFlag.evNotEmpty w)) :: List.replicate 6 (.go 0))) s = some (s', sentEvs k) ∧
      Sent n (k + 1) s'.m ∧ s'.f.holder = none ∧ ∀ t, s'.f.pc t = .idle := by
  obtain ⟨⟨nb, b, e, buf, ms, mr, mb, ne, nf, ub, pc⟩, ⟨holder, pat, fpc⟩⟩ := s
  obtain ⟨h1, h2, h3, h4, h5, h6, h7, h8⟩ := hm
  simp only at h1 h2 h3 h4 h5 h6 h7 h8 hh hf
  subst h1 h2 h3 h5 h6 h7 hh
  have h0 := h8 0
  have f0 := hf 0
  have hb := h4 e (Nat.le_refl _)
  have hne : ¬ e = n := by omega
  have he : e < n + 1 := by omega
  have uu : ∀ (f : Tid → MQ.PC Rid) x y, upd (upd f 0 x) 0 y = upd f 0 y := by
    intro f x y; funext u; by_cases h : u = 0 <;> simp [upd, h]
  have u0 : ∀ (f : Tid → MQ.PC Rid) x, upd f 0 x 0 = x := by intro f x; simp [upd]
  have vv : ∀ (f : Tid → EvF.Std.PC w) x y, upd (upd f 0 x) 0 y = upd f 0 y := by
    intro f x y; funext u; by_cases h : u = 0 <;> simp [upd, h]
  have v0 : ∀ (f : Tid → EvF.Std.PC w) x, upd f 0 x 0 = x := by intro f x; simp [upd]
  have hwk : ∀ x, upd (EvF.Std.wakeAll (upd fpc 0 (.notify x))) 0 (.unlock x ⟨.OK, none⟩) = upd fpc 0 (.unlock x ⟨.OK, none⟩) := by
    intro x; funext u
    by_cases h : u = 0
    · simp [upd, h]
    · simp [upd, h, EvF.Std.wakeAll, hf]
  refine ⟨⟨⟨n + 1, 0, e + 1, upd buf e (some e), none, mr, none, ne, nf, false, upd pc 0 .idle⟩, ⟨none, pat ||| MQ.OnFlag.evNotEmpty w, upd fpc 0 .idle⟩⟩, ?_, ?_, rfl, ?_⟩
  · simp [sendAs, run, MQ.OnFlag.step, MQ.OnFlag.tid, MQ.OnFlag.evCall, MQ.OnFlag.onEvs, MQ.OnFlag.onEv, MQ.OnFlag.after, MQ.OnFlag.linEv, MQ.step, MQ.St.at, MQ.dispatch, MQ.isFull, MQ.size, MQ.maxSize, MQ.nextIdx, List.replicate, h0, he, hb, hne, uu, u0, vv, v0,
      EvF.Std.step, EvF.Std.St.at, EvF.dispatch, f0, hwk, hk]
  · refine ⟨rfl, rfl, rfl, ?_, rfl, rfl, rfl, ?_⟩
    · intro j hj
      have : j ≠ e := by omega
      simp only [upd, if_neg this]; exact h4 j (by omega)
    · intro t
      by_cases h : t = 0
      · simp [upd, h]
      · simp only [upd, if_neg h]; exact h8 t
  · intro t
    by_cases h : t = 0
    · simp [upd, h]
    · simp only [upd, if_neg h]; exact hf t

theorem itron_send {n k : Nat} (hk : k < n) {ins : List (EvF.Itron.Waiter w) → EvF.Itron.Waiter w → Nat} {s : MQ.OnFlag.CSt Rid (EvF.Itron.St w)} (hm : Sent n k s.m)
    (hq : s.f.queue = []) (hf : ∀ t, s.f.pc t = .idle) :
    ∃ s', run (MQ.OnFlag.step (EvF.Itron.step false ins)) (sendAs k (.call 0 (.set (MQ.OnFlag.evNotEmpty w)) :: List.replicate 2 (.go 0))) s = some (s', sentEvs k) ∧
      Sent n (k + 1) s'.m ∧ s'.f.queue = [] ∧ ∀ t, s'.f.pc t = .idle := by
  obtain ⟨⟨nb, b, e, buf, ms, mr, mb, ne, nf, ub, pc⟩, ⟨pat, queue, fpc⟩⟩ := s
  obtain ⟨h1, h2, h3, h4, h5, h6, h7, h8⟩ := hm
  simp only at h1 h2 h3 h4 h5 h6 h7 h8 hq hf
  subst h1 h2 h3 h5 h6 h7 hq
  have h0 := h8 0
  have f0 := hf 0
  have hb := h4 e (Nat.le_refl _)
  have hne : ¬ e = n := by omega
  have he : e < n + 1 := by omega
  have uu : ∀ (f : Tid → MQ.PC Rid) x y, upd (upd f 0 x) 0 y = upd f 0 y := by
    intro f x y; funext u; by_cases h : u = 0 <;> simp [upd, h]
  have u0 : ∀ (f : Tid → MQ.PC Rid) x, upd f 0 x 0 = x := by intro f x; simp [upd]
  have vv : ∀ (f : Tid → EvF.Itron.PC w) x y, upd (upd f 0 x) 0 y = upd f 0 y := by
    intro f x y; funext u; by_cases h : u = 0 <;> simp [upd, h]
  have v0 : ∀ (f : Tid → EvF.Itron.PC w) x, upd f 0 x 0 = x := by intro f x; simp [upd]
  refine ⟨⟨⟨n + 1, 0, e + 1, upd buf e (some e), none, mr, none, ne, nf, false, upd pc 0 .idle⟩, ⟨pat ||| MQ.OnFlag.evNotEmpty w, [], upd fpc 0 .idle⟩⟩, ?_, ?_, rfl, ?_⟩
  · simp [sendAs, run, MQ.OnFlag.step, MQ.OnFlag.tid, MQ.OnFlag.evCall, MQ.OnFlag.onEvs, MQ.OnFlag.onEv, MQ.OnFlag.after, MQ.OnFlag.linEv, MQ.step, MQ.St.at, MQ.dispatch, MQ.isFull, MQ.size, MQ.maxSize, MQ.nextIdx, List.replicate, h0, he, hb, hne, uu, u0, vv, v0,
      EvF.Itron.step, EvF.Itron.St.at, EvF.dispatch, EvF.Itron.release, f0, hk]
  · refine ⟨rfl, rfl, rfl, ?_, rfl, rfl, rfl, ?_⟩
    · intro j hj
      have : j ≠ e := by omega
      simp only [upd, if_neg this]; exact h4 j (by omega)
    · intro t
      by_cases h : t = 0
      · simp [upd, h]
      · simp only [upd, if_neg h]; exact h8 t
  · intro t
    by_cases h : t = 0
    · simp [upd, h]
    · simp only [upd, if_neg h]; exact hf t

theorem flag_filled {F : Type} {os : Bool} (hw : 2 ≤ w) {O : F → EvF.Act w → Option (F × List (EvF.Ev w))} {f0 : F}
    (hO : ∀ f ftr, Reach O f0 f ftr → ∃ σ, EvF.Spec.Linearizable false os ftr σ) {as : List (EvF.Act w)} {J : F → Prop} (h0 : J f0) (n : Nat)
    (hs : ∀ k s, k < n → Sent n k s.m → J s.f → ∃ s', run (MQ.OnFlag.step O) (sendAs k as) s = some (s', sentEvs k) ∧ Sent n (k + 1) s'.m ∧ J s'.f) :
    ∃ q0 tr0, Filled (MQ.OnFlag.step O) (MQ.OnFlag.init Rid n f0) n q0 tr0 := by
  have key : ∀ k, k ≤ n → ∃ q0 tr0, Reach (MQ.OnFlag.step O) (MQ.OnFlag.init Rid n f0) q0 tr0 ∧ Sent n k q0.m ∧ J q0.f ∧
      Props.MessageQueue.sent tr0 = List.range k ∧ Props.MessageQueue.received tr0 = [] ∧ ∀ u, qphase u tr0 = .out := by
    intro k
    induction k with
    | zero => intro _; exact ⟨_, [], Reach.init, ⟨rfl, rfl, rfl, fun _ _ => rfl, rfl, rfl, rfl, fun _ => rfl⟩, h0, rfl, rfl, fun _ => rfl⟩
    | succ k ih =>
      intro hk
      obtain ⟨q0, tr0, h, hm, hj, hse, hr, hp⟩ := ih (by omega)
      obtain ⟨s', hrun, hm', hj'⟩ := hs k q0 (by omega) hm hj
      refine ⟨s', _, run_reach _ h hrun, hm', hj', ?_, ?_, ?_⟩
      · simp [Props.MessageQueue.sent, List.filterMap_append] at hse ⊢; rw [hse]; simp [Props.MessageQueue.msgOf, List.range_succ]
      · simp [Props.MessageQueue.received, List.filterMap_append] at hr ⊢; refine ⟨hr, by simp [MQ.Spec.isRecv]⟩
      · intro u
        have := hp u
        simp only [qphase] at this ⊢
        rw [MQ.phase_app, this]
        by_cases h : 0 = u
        · simp [MQ.Spec.Phase.next, h]
        · simp [MQ.Spec.Phase.next, h]
  obtain ⟨q0, tr0, h, hm, _, hse, hr, hp⟩ := key n (Nat.le_refl _)
  exact ⟨q0, tr0, filled_of (flag_good hw hO n) h hse hr hp⟩

theorem std_filled (hw : 2 ≤ w) (n : Nat) : ∃ q0 tr0, Filled (MQ.OnFlag.step (EvF.Std.step (w := w) false)) (MQ.OnFlag.init Rid n (EvF.Std.init w)) n q0 tr0 :=
  flag_filled hw (Props.MessageQueueEvent.stdO w) (J := fun f => f.holder = none ∧ ∀ t, f.pc t = .idle) ⟨rfl, fun _ => rfl⟩ n
    (fun _ _ hk hm hj => by obtain ⟨s', h1, h2, h3⟩ := std_send hk hm hj.1 hj.2; exact ⟨s', h1, h2, h3⟩)

theorem itron_filled (hw : 2 ≤ w) (ins : List (EvF.Itron.Waiter w) → EvF.Itron.Waiter w → Nat) (n : Nat) :
    ∃ q0 tr0, Filled (MQ.OnFlag.step (EvF.Itron.step (w := w) false ins)) (MQ.OnFlag.init Rid n (EvF.Itron.init w)) n q0 tr0 :=
  flag_filled hw (Props.MessageQueueEvent.itronO w ins) (J := fun f => f.queue = [] ∧ ∀ t, f.pc t = .idle) ⟨rfl, fun _ => rfl⟩ n
    (fun _ _ hk hm hj => by obtain ⟨s', h1, h2, h3⟩ := itron_send hk hm hj.1 hj.2; exact ⟨s', h1, h2, h3⟩)

/-! #### The pool never holds its queue up -/

theorem onEv_some {n : Nat} {d : Int} {p a : TP.St} {qtr : List (MQ.Ev Rid)} {q q' : List Rid} {tr : List Ev} {x : MQ.Ev Rid}
    (hr : Exec n d a tr) (hq : Linearizable n qtr q) (rel : Rel n p qtr q a) (hl : Linearizable n (qtr ++ [x]) q')
    (hc : ∀ u c, x ≠ .call u c) (hf : ∀ u c r, x = .lin u c r → ¬ MQ.Spec.Failed r) : ∃ y, onEv p x = some y := by
  cases x with
  | call u c => exact absurd rfl (hc u c)
  | busy u => exact ⟨_, rfl⟩
  | sawFull u => exact ⟨_, rfl⟩
  | sawEmpty u => exact ⟨_, rfl⟩
  | lin u c r =>
    have hb := hl.2 u
    have e := qphase_snoc u qtr (.lin u c r)
    unfold qphase at e
    rw [e] at hb
    have hg : good r = true := by
      cases hp : MQ.Spec.phase u qtr with
      | out => rw [hp] at hb; simp [MQ.Spec.Phase.next] at hb
      | bad => rw [hp] at hb; simp [MQ.Spec.Phase.next] at hb
      | done => rw [hp] at hb; simp [MQ.Spec.Phase.next] at hb
      | called c' why =>
        rw [hp] at hb
        have hcc : c' = c := by
          apply Classical.byContradiction; intro h; simp [MQ.Spec.Phase.next, h] at hb
        subst hcc
        obtain ⟨h1, h2⟩ := rel.ph u (by unfold qphase; rw [hp]; simp)
        unfold qphase at h1
        rw [hp] at h1
        simp only [calledBy] at h1
        have hF := hf u c' r rfl
        obtain ⟨q0, h3, h4, _⟩ := lin_prefix hl
        have hleg := h4 _ rfl
        have key : (∃ v tm, MQ.dispatch c' = .snd v tm) ∨ ∃ o tm, MQ.dispatch c' = .rcv o tm := by
          unfold qCall at h1
          split at h1
          · unfold qPos at h1
            split at h1 <;> simp at h1 <;> subst h1
            · exact Or.inr ⟨_, _, rfl⟩
            · exact Or.inl ⟨_, _, rfl⟩
            · exact Or.inr ⟨_, _, rfl⟩
          · unfold qW at h1
            split at h1 <;> simp at h1 <;> subst h1
            exact Or.inl ⟨_, _, rfl⟩
        rw [MQ.legal_iff] at hleg
        rcases key with ⟨v, tm, hk⟩ | ⟨o, tm, hk⟩ <;> rw [hk] at hleg <;> simp only [MQ.PLegal, MQ.Spec.Snd, MQ.Spec.Rcv] at hleg
        · rcases hleg with ⟨rfl, _⟩ | ⟨rfl, _⟩ | ⟨h, _⟩
          · rfl
          · rfl
          · exact absurd h hF
        · rcases hleg with ⟨_, _, rfl⟩ | ⟨rfl, _⟩ | ⟨h, _⟩
          · rfl
          · rfl
          · exact absurd h hF
    exact ⟨(p, marks p u r), by simp only [onEv, hg, if_true]⟩
  | ret u c r =>
    have hb := hl.2 u
    have e := qphase_snoc u qtr (.ret u c r)
    unfold qphase at e
    rw [e] at hb
    have hp : qphase u qtr = .done c r := by
      apply Classical.byContradiction
      intro h
      unfold qphase at h
      simp [MQ.Spec.Phase.next, h] at hb
    simp only [onEv]
    cases hw : who u with
    | worker i => exact ⟨(p.wAt i (afterW (p.w i)), []), by simp only [resume, hw]⟩
    | client t =>
      have hu := who_client hw
      subst hu
      by_cases hd : p.pc t = .on .destroy .dDrain
      · by_cases hx : ∃ i, r = .done .OK (some i)
        · obtain ⟨i, rfl⟩ := hx
          have S := (TP.Inv.reach hr).st
          have hv : a.pc t = .on .destroy .dDrain := by rw [rel.pc]; unfold vPC; split <;> simp [hd, afterPC]
          have hcs := S.cs t
          rw [hv] at hcs
          simp only [CShape, S.cn] at hcs
          have hdy := S.dy t _ hv
          rw [rel.dying] at hdy
          have hpe : OnQueue.pend p qtr = [i] := by simp only [OnQueue.pend, hdy, hp, taken]
          have hfree : i ∈ a.free := by rw [rel.eq]; simp [mk, hpe]
          have hown := (S.fo i).1 hfree
          have hlt : i < n := by
            apply Nat.lt_of_not_le
            intro h
            rw [S.od i h] at hown; simp at hown
          have R := S.rs i
          unfold RShape at R
          rw [hown] at R
          have hfin : a.w i = .finished := by
            rcases hcs i hlt with h | h
            · exact h
            · rw [h] at R; simp [late] at R
          rw [rel.w, vW_fin] at hfin
          exact ⟨(p.wAt i .dead, [.kill i]), by simp only [resume, hw, hd, hfin, if_true]⟩
        · unfold resume
          rw [hw]
          simp only [hd]
          split
          · rename_i i; exact absurd ⟨i, rfl⟩ hx
          · exact ⟨_, rfl⟩
      · unfold resume
        rw [hw]
        simp only
        exact ⟨_, rfl⟩

theorem onEvs_some {n : Nat} {d : Int} : ∀ {xs : List (MQ.Ev Rid)} {p a : TP.St} {qtr : List (MQ.Ev Rid)} {q q' : List Rid} {tr : List Ev}
    (_ : Exec n d a tr) (_ : Linearizable n qtr q) (_ : Rel n p qtr q a) (_ : Linearizable n (qtr ++ xs) q') (_ : Honest (qtr ++ xs))
    (_ : ∀ u c, MQ.Ev.call u c ∉ xs) (_ : ∀ u c r, MQ.Ev.lin u c r ∈ xs → ¬ MQ.Spec.Failed r), ∃ y, onEvs p xs = some y
  | [], p, a, qtr, q, q', tr, hr, hq, rel, hl, hh, hc, hf => ⟨_, rfl⟩
  | x :: xs, p, a, qtr, q, q', tr, hr, hq, rel, hl, hh, hc, hf => by
    have hl' : Linearizable n ((qtr ++ [x]) ++ xs) q' := by simpa using hl
    have hh' : Honest ((qtr ++ [x]) ++ xs) := by simpa using hh
    obtain ⟨q1, hl1⟩ := lin_prefixes hl'
    obtain ⟨⟨p1, e1⟩, h1⟩ := onEv_some hr hq rel hl1 (fun u c h => hc u c (by rw [h]; simp)) (fun u c r h => hf u c r (by rw [h]; simp))
    obtain ⟨a1, hr1, rel1⟩ := sim_event hr hq rel hl1 (honest_prefix hh') h1
    obtain ⟨⟨p2, e2⟩, h2⟩ := onEvs_some hr1 hl1 rel1 hl' hh' (fun u c h => hc u c (by simp [h])) (fun u c r h => hf u c r (by simp [h]))
    exact ⟨(p2, e1 ++ e2), by simp only [onEvs, h1, h2]⟩

/-! #### Deadlock -/

/-- What a queue program has to provide so that the pool on it cannot deadlock.  `prog`: the steps of the queue's code (and of what it is built on) that
scheduling and the passing of time bring about; `call u c`: thread `u` calls `c`. -/
structure Live {Q A : Type} (O : Q → A → Option (Q × List (MQ.Ev Rid))) (e : Q) (n : Nat) (prog : A → Prop) (call : Tid → MQ.Call Rid → A) : Prop where
  fine : ∀ s qtr, Reach O e s qtr → ∀ a s' evs, prog a → O s a = some (s', evs) →
    (∀ u c, MQ.Ev.call u c ∉ evs) ∧ ∀ u c r, MQ.Ev.lin u c r ∈ evs → ¬ MQ.Spec.Failed r
  quiet : ∀ s qtr, Reach O e s qtr → (∀ a, prog a → O s a = none) → ∃ q, Linearizable n qtr q ∧ ∀ u,
    (qphase u qtr = .out ∧ ∀ c, ∃ s', O s (call u c) = some (s', [.call u c])) ∨
    ∃ c why, qphase u qtr = .called c why ∧ Props.MessageQueue.tmoOf c = .forever ∧ (isSend c = true ∧ q.length = n ∨ isRecv c = true ∧ q = [])

/-- Nothing but new calls of the pool can happen. -/
def Stuck {Q A : Type} (O : Q → A → Option (Q × List (MQ.Ev Rid))) (prog : A → Prop) (call : Tid → MQ.Call Rid → A) (s : CSt Q) : Prop :=
  (∀ a, (∀ t c, a ≠ .call t c) → OnQueue.step O s (.tp a) = none) ∧ (∀ a, prog a → OnQueue.step O s (.mq a) = none) ∧
  ∀ u c, OnQueue.step O s (.mq (call u c)) = none

/-- A stuck pool on the queue program is a stuck pool on the atomic queue. -/
theorem stuck_abs {Q A : Type} {n : Nat} {d : Int} {O : Q → A → Option (Q × List (MQ.Ev Rid))} {e q0 : Q} {tr0 : List (MQ.Ev Rid)} {prog : A → Prop}
    {call : Tid → MQ.Call Rid → A} (hO : GoodQueue O e n) (hL : Live O e n prog call) (h0 : Filled O e n q0 tr0)
    {s : CSt Q} {tr : List Ev} (h : Reach (OnQueue.step O) (OnQueue.init n d q0) s tr) (hst : Stuck O prog call s) :
    ∃ a, Exec n d a tr ∧ ∀ act, (∀ t c, act ≠ .call t c) → TP.step a act = none := by
  obtain ⟨a, qtr, q, hf, hq, hr, rel⟩ := simulation hO h0 h
  obtain ⟨s1, s2, s3⟩ := hst
  have hprog : ∀ act, prog act → O s.q act = none := by
    intro act ha
    cases hx : O s.q act with
    | none => rfl
    | some y =>
      obtain ⟨q', evs⟩ := y
      obtain ⟨f1, f2⟩ := hL.fine _ _ hf act q' evs ha hx
      obtain ⟨⟨ql, hl⟩, hh⟩ := hO _ _ (Reach.step hf hx)
      obtain ⟨⟨p', ev⟩, hy⟩ := onEvs_some hr hq rel hl hh f1 f2
      have := s2 act ha
      simp [OnQueue.step, hx, hy] at this
  obtain ⟨q1, hq1, hquiet⟩ := hL.quiet _ _ hf hprog
  have := hist_det hq1.1 hq.1
  subst this
  have hnd : ∀ u c r, qphase u qtr ≠ .done c r := by
    intro u c r h
    rcases hquiet u with ⟨ho, _⟩ | ⟨c', why, hc, _⟩
    · rw [ho] at h; simp at h
    · rw [hc] at h; simp at h
  have hout : ∀ u, qphase u qtr = .out → qCall s.p u = none := by
    intro u hu
    cases hc : qCall s.p u with
    | none => rfl
    | some c =>
      exfalso
      rcases hquiet u with ⟨_, ho⟩ | ⟨c', why, hc, _⟩
      · obtain ⟨q', hq'⟩ := ho c
        have := s3 u c
        simp [OnQueue.step, hq', onEvs, onEv, hc] at this
      · rw [hu] at hc; simp at hc
  have hbl : ∀ u c, qCall s.p u = some c → Props.MessageQueue.tmoOf c = .forever ∧ (isSend c = true ∧ q1.length = n ∨ isRecv c = true ∧ q1 = []) := by
    intro u c hc
    rcases hquiet u with ⟨ho, _⟩ | ⟨c', why, hp, h1, h2⟩
    · rw [hout u ho] at hc; simp at hc
    · have := (rel.ph u (by rw [hp]; simp)).1
      rw [hp, hc] at this
      simp only [calledBy, Option.some.injEq] at this
      subst this
      exact ⟨h1, h2⟩
  have e1 : vPC s.p qtr = s.p.pc := by funext t; exact vPC_eq (hnd _)
  have e2 : vW s.p qtr = s.p.w := by funext t; exact vW_eq (hnd _)
  have e3 : OnQueue.pend s.p qtr = [] := by
    unfold OnQueue.pend
    split
    · rename_i t _
      cases hp : qphase (cli t) qtr with
      | done c r => exact absurd hp (hnd _ _ _)
      | _ => rfl
    · rfl
  have ha := rel.eq
  rw [e1, e2, e3, List.nil_append] at ha
  have hn : s.p.n = n := by
    have := (TP.Inv.reach hr).st.cn
    rw [ha] at this; exact this
  refine ⟨a, hr, ?_⟩
  intro act hact
  cases hx : TP.step a act with
  | none => rfl
  | some y =>
    exfalso
    obtain ⟨a', ev⟩ := y
    have hpc : a.pc = s.p.pc := by rw [ha]; rfl
    have hww : a.w = s.p.w := by rw [ha]; rfl
    have hfr : a.free = q1 := by rw [ha]; rfl
    have han : a.n = n := by rw [ha]; exact hn
    cases hat : atQueue s.p act with
    | false =>
      have hat' : atQueue a act = false := by
        cases act <;> simp only [atQueue, hpc, hww] at hat ⊢ <;> exact hat
      obtain ⟨p', h1, _⟩ := step_frame hat' hx s.p.free s.p.own s.p.pc s.p.w (fun _ _ => by rw [hpc]) (fun _ _ => by rw [hww])
        (fun _ => by rw [hpc]) (fun _ => by rw [hww]) (fun _ _ => by rw [hww])
      have e : mk a s.p.free s.p.own s.p.pc s.p.w = s.p := by rw [ha]; rfl
      rw [e] at h1
      have := s1 act hact
      simp [OnQueue.step, hat, h1] at this
    | true =>
      have hcl : ∀ t c, qPos (s.p.pc t) = some c → Props.MessageQueue.tmoOf c = .forever ∧ (isSend c = true ∧ q1.length = n ∨ isRecv c = true ∧ q1 = []) :=
        fun t c h => hbl (cli t) c (by simp only [qCall, who_cli]; exact h)
      have hwk : ∀ i c, qW i (s.p.w i) = some c → Props.MessageQueue.tmoOf c = .forever ∧ (isSend c = true ∧ q1.length = n ∨ isRecv c = true ∧ q1 = []) :=
        fun t c h => hbl (wrk t) c (by simp only [qCall, who_wrk]; exact h)
      cases act with
      | call t c => exact hact t c rfl
      | go t =>
        simp only [atQueue] at hat
        obtain ⟨c, hc⟩ := Option.isSome_iff_exists.1 hat
        have hb := hcl t c hc
        unfold qPos at hc
        split at hc <;> simp at hc <;> subst hc <;> rename_i hp <;> simp only [TP.step, hpc, hp, hfr, han] at hx
        · rcases hb with ⟨_, ⟨h, _⟩ | ⟨_, h⟩⟩
          · simp [isSend] at h
          · rw [h] at hx; simp at hx
        · rcases hb with ⟨_, ⟨_, h⟩ | ⟨h, _⟩⟩
          · rw [h] at hx; simp at hx
          · simp [isRecv] at h
        · simp [Props.MessageQueue.tmoOf] at hb
      | expire t =>
        simp only [atQueue] at hat
        obtain ⟨c, hc⟩ := Option.isSome_iff_exists.1 hat
        have hb := hcl t c hc
        unfold qPos at hc
        split at hc <;> simp at hc <;> subst hc <;> rename_i hp <;> simp only [TP.step, hpc, hp, hfr, han] at hx
        · have h := hb.1
          simp only [Props.MessageQueue.tmoOf] at h
          subst h
          simp at hx
        · simp at hx
        · simp at hx
      | pgo i =>
        simp only [atQueue] at hat
        obtain ⟨c, hc⟩ := Option.isSome_iff_exists.1 hat
        have hb := hwk i c hc
        unfold qW at hc
        split at hc <;> simp at hc <;> subst hc
        rename_i hp
        simp only [TP.step, hww, hp, hfr, han] at hx
        rcases hb with ⟨_, ⟨_, h⟩ | ⟨h, _⟩⟩
        · rw [h] at hx; simp at hx
        · simp [isRecv] at h
      | throw i =>
        simp only [atQueue] at hat
        obtain ⟨c, hc⟩ := Option.isSome_iff_exists.1 hat
        unfold qW at hc
        split at hc <;> simp at hc
        rename_i hp
        simp [TP.step, hww, hp] at hx

/-! #### The queue programs are live -/

/-- The steps of `MessageQueue<T>` itself: the next step of a thread, or a timeout. -/
def mqProg : MQ.Act Rid → Prop
  | .go _ | .expire _ => True
  | _ => False

theorem mq_fine {s s' : MQ.St Rid} {a : MQ.Act Rid} {evs : List (MQ.Ev Rid)} (ha : mqProg a) (hs : MQ.step s a = some (s', evs)) :
    (∀ u c, MQ.Ev.call u c ∉ evs) ∧ ∀ u c r, MQ.Ev.lin u c r ∈ evs → ¬ MQ.Spec.Failed r := by
  cases a <;> simp only [mqProg] at ha <;> simp only [MQ.step] at hs <;> (repeat' split at hs) <;> simp only [Option.some.injEq, Prod.mk.injEq, reduceCtorEq] at hs <;>
    obtain ⟨_, rfl⟩ := hs <;> refine ⟨by simp, ?_⟩ <;> intro u c r h <;> simp at h <;> (try (obtain ⟨_, _, rfl⟩ := h)) <;> simp [MQ.Spec.Failed]

theorem served {n : Nat} {a : MQ.St Rid} {qtr : List (MQ.Ev Rid)} (h : Reach MQ.step (MQ.init Rid n) a qtr) (hst : Props.MessageQueue.Stuck a) :
    ∃ q, Linearizable n qtr q ∧ ∀ u, (a.pc u = .idle ∧ qphase u qtr = .out) ∨
      ∃ c why, qphase u qtr = .called c why ∧ Props.MessageQueue.tmoOf c = .forever ∧ (isSend c = true ∧ q.length = n ∨ isRecv c = true ∧ q = []) := by
  obtain ⟨q, I⟩ := MQ.Inv.reach h
  have hmid : ∀ t, MQ.mid (a.pc t) = false := by
    intro t
    cases hm : MQ.mid (a.pc t) with
    | false => rfl
    | true =>
      exfalso
      have := (hst t).1
      cases hp : a.pc t <;> rw [hp] at hm <;> simp [MQ.mid] at hm <;> simp [MQ.step, hp, I.ub] at this
  have hsz := (I.ring hmid).size_eq
  refine ⟨q, Props.MessageQueue.lin_reach I, fun u => ?_⟩
  have hl := I.loc u
  rcases Props.MessageQueue.C50_stuck h hst u with hi | ⟨c, hp, h1, h2⟩
  · left; rw [hi] at hl; exact ⟨hi, hl⟩
  · right
    have hc : ∃ why, qphase u qtr = .called c why := by
      unfold Props.MessageQueue.Pending at hp
      unfold qphase
      cases hq : a.pc u <;> rw [hq] at hl hp <;> simp only [MQ.Loc, MQ.Called] at hl hp
      all_goals first | (subst hp; first | exact hl | exact hl.1 | exact ⟨_, hl.1⟩ | exact ⟨_, hl⟩) | exact hp.elim
    obtain ⟨why, hc⟩ := hc
    refine ⟨c, why, hc, h1, ?_⟩
    rcases h2 with ⟨h2, h3⟩ | ⟨h2, h3⟩
    · left; exact ⟨h2, by rw [← hsz]; exact h3⟩
    · right; exact ⟨h2, List.length_eq_zero_iff.1 (by rw [← hsz]; exact h3)⟩

theorem mq_live (n : Nat) : Live MQ.step (MQ.init Rid n) n mqProg .call where
  fine := fun s qtr h a s' evs ha hs => mq_fine ha hs
  quiet := by
    intro s qtr h hp
    obtain ⟨q, hq, hu⟩ := served h (fun t => ⟨hp _ trivial, hp _ trivial⟩)
    refine ⟨q, hq, fun u => ?_⟩
    rcases hu u with ⟨hi, ho⟩ | h2
    · left
      refine ⟨ho, fun c => ⟨s.at u (.entry c), ?_⟩⟩
      obtain ⟨_, I⟩ := MQ.Inv.reach h
      simp [MQ.step, hi, I.ub]
    · exact Or.inr h2

/-- The steps of the queue and of the event flag it uses. -/
def flagProg : MQ.OnFlag.CAct Rid w → Prop
  | .mq a => mqProg a
  | .ev (.call _ _) | .ev (.go _) | .ev (.timeout _) => True
  | _ => False

/-- No platform error of the event flag. -/
def EvFine {F : Type} (O : F → EvF.Act w → Option (F × List (EvF.Ev w))) : Prop :=
  ∀ f a f' evs, O f a = some (f', evs) → (∃ t c, a = .call t c) ∨ (∃ t, a = .go t) ∨ (∃ t, a = .timeout t) →
    ∀ t c r, EvF.Ev.lin t c r ∈ evs → r.err ≠ .OtherError ∧ r.err ≠ .CalledByNonThread

theorem onEvs_fine : ∀ {evs : List (EvF.Ev w)} {m m' : MQ.St Rid} {ev : List (MQ.Ev Rid)}
    (_ : ∀ t c r, EvF.Ev.lin t c r ∈ evs → r.err ≠ .OtherError ∧ r.err ≠ .CalledByNonThread) (_ : MQ.OnFlag.onEvs m evs = some (m', ev)),
    (∀ u c, MQ.Ev.call u c ∉ ev) ∧ ∀ u c r, MQ.Ev.lin u c r ∈ ev → ¬ MQ.Spec.Failed r
  | [], m, m', ev, h, he => by
    simp only [MQ.OnFlag.onEvs, Option.some.injEq, Prod.mk.injEq] at he
    obtain ⟨_, rfl⟩ := he; simp
  | x :: xs, m, m', ev, h, he => by
    simp only [MQ.OnFlag.onEvs] at he
    split at he
    · simp at he
    · rename_i m1 e1 h1
      split at he
      · simp at he
      · rename_i m2 e2 h2
        simp only [Option.some.injEq, Prod.mk.injEq] at he
        obtain ⟨_, rfl⟩ := he
        obtain ⟨i1, i2⟩ := onEvs_fine (fun t c r hm => h t c r (by simp [hm])) h2
        have : (∀ u c, MQ.Ev.call u c ∉ e1) ∧ ∀ u c r, MQ.Ev.lin u c r ∈ e1 → ¬ MQ.Spec.Failed r := by
          cases x with
          | call t c => simp only [MQ.OnFlag.onEv] at h1; split at h1 <;> simp at h1; obtain ⟨_, rfl⟩ := h1; simp
          | ret t c r => simp only [MQ.OnFlag.onEv] at h1; simp at h1; obtain ⟨_, rfl⟩ := h1; simp
          | lin t c r =>
            obtain ⟨g1, g2⟩ := h t c r (by simp)
            simp only [MQ.OnFlag.onEv, Option.some.injEq, Prod.mk.injEq] at h1
            obtain ⟨_, rfl⟩ := h1
            unfold MQ.OnFlag.linEv
            repeat' split
            all_goals first | (simp; done) | (refine ⟨by simp, ?_⟩; intro u c r h; simp at h; obtain ⟨_, _, rfl⟩ := h; simp [MQ.Spec.Failed, g1, g2])
        refine ⟨?_, ?_⟩
        · intro u c hm
          rcases List.mem_append.1 hm with hm | hm
          · exact this.1 u c hm
          · exact i1 u c hm
        · intro u c r hm
          rcases List.mem_append.1 hm with hm | hm
          · exact this.2 u c r hm
          · exact i2 u c r hm

theorem flag_live {F : Type} {os : Bool} (hw : 2 ≤ w) {O : F → EvF.Act w → Option (F × List (EvF.Ev w))} {f0 : F} {pat : F → BitVec w}
    (hO : ∀ f ftr, Reach O f0 f ftr → EvF.Spec.Linearizable false os ftr (pat f))
    (hev : ∀ f a f' evs, O f a = some (f', evs) → (∀ t c, a ≠ .call t c) → ∀ t c, EvF.Ev.call t c ∉ evs)
    (hq : ∀ f ftr, Reach O f0 f ftr → (∀ t, O f (.go t) = none) → (∀ t, O f (.timeout t) = none) → ∀ t, Props.MessageQueueEvent.Quiet O f ftr (pat f) t)
    (hfine : EvFine O) (n : Nat) :
    Live (MQ.OnFlag.step O) (MQ.OnFlag.init Rid n f0) n flagProg (fun u c => .mq (.call u c)) where
  fine := by
    intro s qtr h a s' evs ha hs
    cases a with
    | mq a =>
      simp only [MQ.OnFlag.step] at hs
      split at hs
      · split at hs
        · rename_i h1
          simp only [Option.some.injEq, Prod.mk.injEq] at hs
          obtain ⟨_, rfl⟩ := hs
          exact mq_fine ha h1
        · simp at hs
      · simp at hs
    | ev a =>
      simp only [MQ.OnFlag.step] at hs
      split at hs
      · simp at hs
      · rename_i h1
        split at hs
        · simp at hs
        · rename_i h2
          simp only [Option.some.injEq, Prod.mk.injEq] at hs
          obtain ⟨_, rfl⟩ := hs
          refine onEvs_fine (hfine _ _ _ _ h1 ?_) h2
          cases a <;> simp [flagProg] at ha <;> simp
  quiet := by
    intro s qtr h hp
    obtain ⟨a, hr, hsa, hpc, hsz⟩ := Props.MessageQueueEvent.stuck_abs hw hO hev hq h
      (fun t => ⟨hp _ trivial, hp _ trivial, fun c => hp _ trivial, hp _ trivial, hp _ trivial⟩)
    obtain ⟨q, hl, hu⟩ := served hr hsa
    refine ⟨q, hl, fun u => ?_⟩
    rcases hu u with ⟨hi, ho⟩ | h2
    · left
      refine ⟨ho, fun c => ⟨⟨s.m.at u (.entry c), s.f⟩, ?_⟩⟩
      obtain ⟨a', hr', hsr⟩ := Props.MessageQueueEvent.C97_refines hw (fun f ftr h => ⟨_, hO f ftr h⟩) h
      have hub : s.m.ub = false := by rw [hsr.2.2.2.2.2.2.2.1]; exact (Props.MessageQueue.C48_ring hr').1
      rw [hpc] at hi
      simp [MQ.OnFlag.step, MQ.OnFlag.tid, hi, MQ.OnFlag.evCall, MQ.step, hub]
    · exact Or.inr h2

theorem std_fine : EvFine (EvF.Std.step (w := w) false) := by
  intro f a f' evs hs ha t c r hm
  rcases ha with ⟨u, d, rfl⟩ | ⟨u, rfl⟩ | ⟨u, rfl⟩ <;> simp only [EvF.Std.step] at hs <;> (repeat' split at hs) <;>
    simp only [Option.some.injEq, Prod.mk.injEq, reduceCtorEq] at hs <;> obtain ⟨_, rfl⟩ := hs <;> simp at hm <;> (try (obtain ⟨_, _, rfl⟩ := hm)) <;> simp

theorem itron_fine {ins : List (EvF.Itron.Waiter w) → EvF.Itron.Waiter w → Nat} : EvFine (EvF.Itron.step (w := w) false ins) := by
  intro f a f' evs hs ha t c r hm
  rcases ha with ⟨u, d, rfl⟩ | ⟨u, rfl⟩ | ⟨u, rfl⟩ <;> simp only [EvF.Itron.step] at hs <;> (repeat' split at hs) <;>
    simp only [Option.some.injEq, Prod.mk.injEq, reduceCtorEq] at hs <;> obtain ⟨_, rfl⟩ := hs <;> simp [EvF.Itron.okRes] at hm <;>
    first
    | (obtain ⟨_, _, rfl⟩ := hm; simp; done)
    | (rcases hm with ⟨_, _, rfl⟩ | ⟨_, _, _, _, _, rfl⟩ <;> simp; done)
    | skip

/-! #### C100 -/

/-- The pool on the queue program and the pool on the atomic queue agree on everything but the queue and where exactly a thread is inside it. -/
def SamePool (p a : TP.St) : Prop :=
  p.n = a.n ∧ p.dflt = a.dflt ∧ p.task = a.task ∧ p.needs = a.needs ∧ p.prio = a.prio ∧ p.ev = a.ev ∧ p.guard = a.guard ∧ p.inside = a.inside ∧
  p.dying = a.dying ∧ p.gone = a.gone ∧ (∀ t, callOf (p.pc t) = callOf (a.pc t)) ∧ ∀ i, p.w i = .finished ↔ a.w i = .finished

/-- Whatever program the queue is, if its own calls are linearizable and it was filled with the `n` runners, then every execution of the pool on it has the
events of an execution of the pool on the atomic queue, and the same runners, guards, priorities and clients. -/
theorem C100_refines {Q A : Type} {n : Nat} {d : Int} {O : Q → A → Option (Q × List (MQ.Ev Rid))} {e q0 : Q} {tr0 : List (MQ.Ev Rid)}
    (hO : GoodQueue O e n) (h0 : Filled O e n q0 tr0) {s : CSt Q} {tr : List Ev} (h : Reach (OnQueue.step O) (OnQueue.init n d q0) s tr) :
    ∃ a, Exec n d a tr ∧ SamePool s.p a := by
  obtain ⟨a, qtr, q, _, _, hr, rel⟩ := simulation hO h0 h
  refine ⟨a, hr, ?_⟩
  have e := rel.eq
  refine ⟨?_, ?_, ?_, ?_, ?_, ?_, ?_, ?_, ?_, ?_, ?_, ?_⟩
  all_goals first | (rw [e]; rfl) | skip
  · intro t; rw [rel.pc, vPC_call]
  · intro i; rw [rel.w, vW_fin]

/-- What C64-C66, C68, C70 say about the events of a pool. -/
structure Correct (n : Nat) (d : Int) (tr : List Ev) : Prop where
  /-- Every task handed to pool thread `i` is begun once and with its priority, in the order of acceptance, each one ended before the next. -/
  once : ∀ i, (Props.ThreadPool.accepted i tr = Props.ThreadPool.begun i tr ∨ ∃ k p, Props.ThreadPool.accepted i tr = Props.ThreadPool.begun i tr ++ [(k, p)]) ∧
    ((Props.ThreadPool.begun i tr).map Prod.fst = Props.ThreadPool.ended i tr ∨ ∃ k, (Props.ThreadPool.begun i tr).map Prod.fst = Props.ThreadPool.ended i tr ++ [k])
  /-- A task is not run more often than starts of it were accepted. -/
  atMost : ∀ k, Props.ThreadPool.nBegun k tr ≤ Props.ThreadPool.nAcc k tr
  /-- A start that returned OK handed its task, once, to one pool thread. -/
  ok : ∀ {a b : List Ev} {t k tm g p}, tr = a ++ .ret t (.start k tm g p) .ok :: b → ∃ a1 a2 a3 k' i, k = some k' ∧ i < n ∧
    a = a1 ++ .call t (.start k tm g p) :: (a2 ++ .acc t i k' g p :: a3) ∧ Props.ThreadPool.quietFor t a2 ∧ Props.ThreadPool.quietFor t a3
  /-- A start that returned something else handed over nothing. -/
  error : ∀ {a b : List Ev} {t k tm g p o}, tr = a ++ .ret t (.start k tm g p) o :: b → o ≠ .ok →
    ∃ a1 a2, a = a1 ++ .call t (.start k tm g p) :: a2 ∧ Props.ThreadPool.quietFor t a2
  /-- At most `n` tasks at a time. -/
  max : Props.ThreadPool.allEnded tr ≤ Props.ThreadPool.allBegun tr ∧ Props.ThreadPool.allBegun tr ≤ Props.ThreadPool.allEnded tr + n
  /-- A wait that returned OK: the guard's task has ended. -/
  wait : ∀ {a b : List Ev} {t g tm}, tr = a ++ .ret t (.wait g tm) .ok :: b → ∀ {a1 a2 : List Ev} {u i k p}, a = a1 ++ .acc u i k (some g) p :: a2 →
    ∃ x, .ended i k x ∈ a2
  /-- A release that returned: the guard's task has ended and its thread is available again. -/
  release : ∀ {a b : List Ev} {t g o}, tr = a ++ .ret t (.release g) o :: b → o = .done ∧ gphase g a = .free ∧
    ∀ {a1 a2 : List Ev} {u i k p}, a = a1 ++ .acc u i k (some g) p :: a2 → ∃ c1 x c2, a2 = c1 ++ .ended i k x :: c2 ∧ .back i (some g) ∈ c2
  /-- A destroy that returned: every task accepted before has been run to its end, and nothing happens any more. -/
  destroy : ∀ {a b : List Ev} {t o}, tr = a ++ .ret t .destroy o :: b → b = [] ∧
    ∀ i, (rphase n d i a = .rest ∨ rphase n d i a = .dead) ∧ Props.ThreadPool.accepted i a = Props.ThreadPool.begun i a ∧
      (Props.ThreadPool.begun i a).map Prod.fst = Props.ThreadPool.ended i a

theorem correct {n : Nat} {d : Int} {a : TP.St} {tr : List Ev} (h : Exec n d a tr) : Correct n d tr where
  once := Props.ThreadPool.C64_once h
  atMost := Props.ThreadPool.C64_atMost h
  ok := Props.ThreadPool.C64_ok h
  error := Props.ThreadPool.C64_error h
  max := Props.ThreadPool.C65_max h
  wait := Props.ThreadPoolGuard.C66_ok h
  release := Props.ThreadPoolGuard.C66_release h
  destroy := Props.ThreadPoolGuard.C70_tasks h

/-- What C77 says about a pool in which nothing can happen any more: the calls in progress are starts without timeout, and every pool thread was dropped
(C67) or belongs to a guard whose task is over. -/
def OnlyStarts (n : Nat) (tr : List Ev) : Prop :=
  (∀ t, TP.Spec.phase t tr = .out ∨ ∃ k g p, TP.Spec.phase t tr = .called (.start (some k) .forever g p)) ∧
  ((∃ t, TP.Spec.phase t tr ≠ .out) → ∀ i, i < n → (∃ t, .drop t i ∈ tr) ∨ ∃ g, gphase g tr = .over i)

/-- Such a queue exists for every number of threads: the hypothesis `Filled` of the following theorems is what the sends of create leave behind. -/
theorem C100_filled (hw : 2 ≤ w) (ins : List (EvF.Itron.Waiter w) → EvF.Itron.Waiter w → Nat) (n : Nat) :
    (∃ q0 tr0, Filled MQ.step (MQ.init Rid n) n q0 tr0) ∧
    (∃ q0 tr0, Filled (MQ.OnFlag.step (EvF.Std.step (w := w) false)) (MQ.OnFlag.init Rid n (EvF.Std.init w)) n q0 tr0) ∧
    ∃ q0 tr0, Filled (MQ.OnFlag.step (EvF.Itron.step (w := w) false ins)) (MQ.OnFlag.init Rid n (EvF.Itron.init w)) n q0 tr0 :=
  ⟨mq_filled n, std_filled hw n, itron_filled hw ins n⟩

/-- On `MessageQueue<T>` (over an atomic event flag). -/
theorem C100_mq {n : Nat} {d : Int} {q0 : MQ.St Rid} {tr0 : List (MQ.Ev Rid)} (h0 : Filled MQ.step (MQ.init Rid n) n q0 tr0)
    {s : CSt (MQ.St Rid)} {tr : List Ev} (h : Reach (OnQueue.step MQ.step) (OnQueue.init n d q0) s tr) : Correct n d tr := by
  obtain ⟨a, hr, _⟩ := C100_refines (mq_good n) h0 h
  exact correct hr

/-- On `MessageQueue<T>` over `StdCppEventFlag`. -/
theorem C100_std {n : Nat} {d : Int} (hw : 2 ≤ w) {q0 : MQ.OnFlag.CSt Rid (EvF.Std.St w)} {tr0 : List (MQ.Ev Rid)}
    (h0 : Filled (MQ.OnFlag.step (EvF.Std.step false)) (MQ.OnFlag.init Rid n (EvF.Std.init w)) n q0 tr0)
    {s : CSt (MQ.OnFlag.CSt Rid (EvF.Std.St w))} {tr : List Ev}
    (h : Reach (OnQueue.step (MQ.OnFlag.step (EvF.Std.step false))) (OnQueue.init n d q0) s tr) : Correct n d tr := by
  obtain ⟨a, hr, _⟩ := C100_refines (flag_good hw (Props.MessageQueueEvent.stdO w) n) h0 h
  exact correct hr

/-- On `MessageQueue<T>` over `ItronEventFlag`. -/
theorem C100_itron {n : Nat} {d : Int} (hw : 2 ≤ w) {ins : List (EvF.Itron.Waiter w) → EvF.Itron.Waiter w → Nat} {q0 : MQ.OnFlag.CSt Rid (EvF.Itron.St w)}
    {tr0 : List (MQ.Ev Rid)} (h0 : Filled (MQ.OnFlag.step (EvF.Itron.step false ins)) (MQ.OnFlag.init Rid n (EvF.Itron.init w)) n q0 tr0)
    {s : CSt (MQ.OnFlag.CSt Rid (EvF.Itron.St w))} {tr : List Ev}
    (h : Reach (OnQueue.step (MQ.OnFlag.step (EvF.Itron.step false ins))) (OnQueue.init n d q0) s tr) : Correct n d tr := by
  obtain ⟨a, hr, _⟩ := C100_refines (flag_good hw (Props.MessageQueueEvent.itronO w ins) n) h0 h
  exact correct hr

/-- The queue's locks and event flag never make pool calls wait for each other. -/
theorem C100_mq_stuck {n : Nat} {d : Int} {q0 : MQ.St Rid} {tr0 : List (MQ.Ev Rid)} (h0 : Filled MQ.step (MQ.init Rid n) n q0 tr0)
    {s : CSt (MQ.St Rid)} {tr : List Ev} (h : Reach (OnQueue.step MQ.step) (OnQueue.init n d q0) s tr) (hst : Stuck MQ.step mqProg .call s) :
    OnlyStarts n tr := by
  obtain ⟨a, hr, ha⟩ := stuck_abs (mq_good n) (mq_live n) h0 h hst
  exact Props.ThreadPoolMore.C77_stuck hr ha

theorem C100_std_stuck {n : Nat} {d : Int} (hw : 2 ≤ w) {q0 : MQ.OnFlag.CSt Rid (EvF.Std.St w)} {tr0 : List (MQ.Ev Rid)}
    (h0 : Filled (MQ.OnFlag.step (EvF.Std.step false)) (MQ.OnFlag.init Rid n (EvF.Std.init w)) n q0 tr0)
    {s : CSt (MQ.OnFlag.CSt Rid (EvF.Std.St w))} {tr : List Ev}
    (h : Reach (OnQueue.step (MQ.OnFlag.step (EvF.Std.step false))) (OnQueue.init n d q0) s tr)
    (hst : Stuck (MQ.OnFlag.step (EvF.Std.step false)) flagProg (fun u c => .mq (.call u c)) s) : OnlyStarts n tr := by
  obtain ⟨a, hr, ha⟩ := stuck_abs (flag_good hw (Props.MessageQueueEvent.stdO w) n)
    (flag_live hw (pat := EvF.Std.St.pat) (fun f ftr h => Props.EventFlag.std_lin h) Props.MessageQueueEvent.std_calls
      (fun f ftr h hg ht t => Props.MessageQueueEvent.std_quiet h hg ht t) std_fine n) h0 h hst
  exact Props.ThreadPoolMore.C77_stuck hr ha

theorem C100_itron_stuck {n : Nat} {d : Int} (hw : 2 ≤ w) {ins : List (EvF.Itron.Waiter w) → EvF.Itron.Waiter w → Nat} {q0 : MQ.OnFlag.CSt Rid (EvF.Itron.St w)}
    {tr0 : List (MQ.Ev Rid)} (h0 : Filled (MQ.OnFlag.step (EvF.Itron.step false ins)) (MQ.OnFlag.init Rid n (EvF.Itron.init w)) n q0 tr0)
    {s : CSt (MQ.OnFlag.CSt Rid (EvF.Itron.St w))} {tr : List Ev}
    (h : Reach (OnQueue.step (MQ.OnFlag.step (EvF.Itron.step false ins))) (OnQueue.init n d q0) s tr)
    (hst : Stuck (MQ.OnFlag.step (EvF.Itron.step false ins)) flagProg (fun u c => .mq (.call u c)) s) : OnlyStarts n tr := by
  obtain ⟨a, hr, ha⟩ := stuck_abs (flag_good hw (Props.MessageQueueEvent.itronO w ins) n)
    (flag_live hw (pat := EvF.Itron.St.pat) (fun f ftr h => Props.EventFlag.itron_lin h) Props.MessageQueueEvent.itron_calls
      (fun f ftr h hg ht t => Props.MessageQueueEvent.itron_quiet h hg ht t) itron_fine n) h0 h hst
  exact Props.ThreadPoolMore.C77_stuck hr ha

/-! #### A concrete execution -/

/-- create(1): the runner 0 is put into the queue. -/
def fill : List (MQ.Act Rid) := .call 0 (.send 0) :: List.replicate 12 (.go 0)

def tp (a : Act) : CAct (MQ.Act Rid) := .tp a
/-- A call of the queue by `u`, with its `m` steps. -/
def qu (u : Tid) (c : MQ.Call Rid) (m : Nat) : List (CAct (MQ.Act Rid)) := .mq (.call u c) :: List.replicate m (.mq (.go u))

/-- Client 1 starts task 7 with guard 5 and priority 3; client 2 wants to start task 8 and finds the queue empty: it sleeps inside the queue; the task runs
and throws; client 1 releases the guard, which puts the thread back into the queue and wakes client 2; task 8 runs, the thread puts itself back; client 3
destroys the pool. -/
def demo : List (CAct (MQ.Act Rid)) :=
  [tp (.call 1 (.start (some 7) .forever (some 5) 3)), tp (.go 1)] ++ qu (cli 1) (.timedReceive true .forever) 13 ++ List.replicate 6 (tp (.go 1)) ++
  [tp (.call 2 (.start (some 8) .forever none 4)), tp (.go 2)] ++ qu (cli 2) (.timedReceive true .forever) 6 ++
  [tp (.pgo 0), tp (.throw 0)] ++ List.replicate 5 (tp (.pgo 0)) ++
  tp (.call 1 (.release 5)) :: List.replicate 3 (tp (.go 1)) ++ qu (cli 1) (.send 0) 12 ++ List.replicate 2 (tp (.go 1)) ++
  List.replicate 9 (.mq (.go (cli 2))) ++ List.replicate 6 (tp (.go 2)) ++
  List.replicate 5 (tp (.pgo 0)) ++ qu (wrk 0) (.send 0) 12 ++ List.replicate 2 (tp (.pgo 0)) ++
  tp (.call 3 .destroy) :: List.replicate 2 (tp (.go 3)) ++ qu (cli 3) (.tryReceive true) 13 ++
  qu (cli 3) (.tryReceive true) 6 ++ .mq (.expire (cli 3)) :: List.replicate 2 (.mq (.go (cli 3))) ++ [tp (.go 3)]

/-- The queue after `fill`. -/
def full1 : MQ.St Rid × List (MQ.Ev Rid) := (run MQ.step fill (MQ.init Rid 1)).get (by decide)

theorem fill_filled : Filled MQ.step (MQ.init Rid 1) 1 full1.1 full1.2 := by
  have h : Reach MQ.step (MQ.init Rid 1) full1.1 full1.2 := by
    have : run MQ.step fill (MQ.init Rid 1) = some (full1.1, full1.2) := (Option.some_get (by decide)).symm
    simpa using run_reach fill Reach.init this
  refine filled_of (mq_good 1) h (by decide) (by decide) ?_
  intro u
  have e : full1.2 = [.call 0 (.send 0), .lin 0 (.send 0) (.done .OK none), .ret 0 (.send 0) (.done .OK none)] := by decide
  rw [e]
  by_cases h : 0 = u <;> simp [qphase, MQ.Spec.phase, MQ.Spec.Phase.next, h]

set_option maxRecDepth 20000 in
example : ∃ s tr, Reach (OnQueue.step MQ.step) (OnQueue.init 1 5 full1.1) s tr ∧
    decide (Ev.ret 1 (.start (some 7) .forever (some 5) 3) .ok ∈ tr ∧ Ev.ret 1 (.release 5) .done ∈ tr ∧ Ev.ret 2 (.start (some 8) .forever none 4) .ok ∈ tr ∧
    Ev.ret 3 .destroy .done ∈ tr ∧ Props.ThreadPool.begun 0 tr = [(7, 3), (8, 4)] ∧ s.p.gone = true) = true :=
  runSat_ex (as := demo) (P := fun (s : CSt (MQ.St Rid)) tr => decide (Ev.ret 1 (.start (some 7) .forever (some 5) 3) .ok ∈ tr ∧ Ev.ret 1 (.release 5) .done ∈ tr ∧ Ev.ret 2 (.start (some 8) .forever none 4) .ok ∈ tr ∧
    Ev.ret 3 .destroy .done ∈ tr ∧ Props.ThreadPool.begun 0 tr = [(7, 3), (8, 4)] ∧ s.p.gone = true)) (by decide)

/-- The hypothesis of the stuck theorem: the part of `demo` before the release.  Task 7 is over, its guard not released; client 2 sleeps inside the queue. -/
def waiting : List (CAct (MQ.Act Rid)) := demo.take 38

set_option maxRecDepth 20000 in
example : ∃ s tr, Reach (OnQueue.step MQ.step) (OnQueue.init 1 5 full1.1) s tr ∧ Stuck MQ.step mqProg .call s ∧
    TP.Spec.phase 2 tr = .called (.start (some 8) .forever none 4) := by
  obtain ⟨s, tr, h, hp⟩ := runSat_ex (step := OnQueue.step MQ.step) (init := OnQueue.init 1 5 full1.1) (as := waiting)
    (P := fun (s : CSt (MQ.St Rid)) tr => decide (s.p.inside = [2] ∧ s.p.pc 2 = .on (.start (some 8) .forever none 4) .sRecv ∧
      s.q.pc (cli 2) = .rWait (.timedReceive true .forever) true .forever ∧ s.q.ne = false ∧ s.p.w 0 = .finished ∧
      TP.Spec.phase 2 tr = .called (.start (some 8) .forever none 4))) (by decide)
  simp only [decide_eq_true_eq] at hp
  obtain ⟨h1, h2, h3, h4, h5, h6⟩ := hp
  refine ⟨s, tr, h, ?_, h6⟩
  obtain ⟨a, qtr, q, hf, hq, hr, rel⟩ := simulation (mq_good 1) fill_filled h
  have S := (TP.Inv.reach hr).st
  have hin : a.inside = [2] := by rw [rel.eq]; exact h1
  have hpc : ∀ t, t ≠ 2 → s.p.pc t = .idle := by
    intro t ht
    apply Classical.byContradiction
    intro hne
    have := (S.ins t).2 (by rw [rel.pc]; exact fun e => hne (vPC_idle.1 e))
    rw [hin] at this; simp at this; exact ht this
  have hw : ∀ i, s.p.w i = .finished ∨ s.p.w i = .dead := by
    intro i
    cases i with
    | zero => exact Or.inl h5
    | succ i =>
      right
      have R := S.rs (i + 1)
      unfold RShape at R
      rw [S.od (i + 1) (by omega)] at R
      simp only [rel.w] at R
      unfold vW at R
      split at R
      · cases hx : s.p.w (i + 1) <;> rw [hx] at R <;> simp [afterW] at R ⊢
      · exact R
  have hqc : ∀ u, u ≠ cli 2 → qCall s.p u = none := by
    intro u hu
    unfold qCall
    cases hwu : who u with
    | client t =>
      have : t ≠ 2 := fun e => hu (by rw [who_client hwu, e])
      simp [hpc t this, qPos]
    | worker i => rcases hw i with e | e <;> simp [e, qW]
  obtain ⟨l, I⟩ := MQ.Inv.reach hf
  have hidle : ∀ u, u ≠ cli 2 → s.q.pc u = .idle := by
    intro u hu
    have ho : qphase u qtr = .out := by
      apply Classical.byContradiction
      intro hne
      exact (rel.ph u hne).2 (hqc u hu)
    have hl := I.loc u
    unfold qphase at ho
    rw [ho] at hl
    cases hpu : s.q.pc u <;> rw [hpu] at hl <;> simp [MQ.Loc, MQ.Called] at hl ⊢
  refine ⟨?_, ?_, ?_⟩
  · intro act hact
    cases act with
    | call t c => exact absurd rfl (hact t c)
    | go t =>
      by_cases e : t = 2
      · subst e; simp [OnQueue.step, atQueue, h2, qPos]
      · simp [OnQueue.step, atQueue, hpc t e, qPos, TP.step]
    | expire t =>
      by_cases e : t = 2
      · subst e; simp [OnQueue.step, atQueue, h2, qPos]
      · simp [OnQueue.step, atQueue, hpc t e, qPos, TP.step]
    | pgo i => rcases hw i with e | e <;> simp [OnQueue.step, atQueue, e, qW, TP.step]
    | throw i => rcases hw i with e | e <;> simp [OnQueue.step, atQueue, e, qW, TP.step]
  · intro act hact
    cases act with
    | go u =>
      by_cases e : u = cli 2
      · subst e; simp [OnQueue.step, MQ.step, I.ub, h3, h4]
      · simp [OnQueue.step, MQ.step, I.ub, hidle u e]
    | expire u =>
      by_cases e : u = cli 2
      · subst e; simp [OnQueue.step, MQ.step, I.ub, h3, h4]
      · simp [OnQueue.step, MQ.step, I.ub, hidle u e]
    | _ => exact hact.elim
  · intro u c
    by_cases e : u = cli 2
    · subst e; simp [OnQueue.step, MQ.step, I.ub, h3]
    · simp [OnQueue.step, MQ.step, I.ub, hidle u e, onEvs, onEv, hqc u e]

end Verif.Props.ThreadPoolQueue
