import Verif.Proof.MessageQueueEvent
/-
C97: the message queue running on the event flag implementations behaves as on the atomic event flag.
-/
namespace Verif.Props.MessageQueueEvent
open Verif MQ MQ.OnFlag
open _root_.Verif.MQ.Spec (isSend isRecv Linearizable)
open _root_.Verif.Lts (Reach runSat_ex run_reach)
open _root_.Verif.Mtx (Tid Err)
open _root_.Verif.EvF (Tmo)
open _root_.Verif.Props.MessageQueue (Settled stored Pending tmoOf sent received Got returned)
set_option linter.unusedSectionVars false
variable {V F : Type} [DecidableEq V] {w : Nat}

/-! #### Refinement -/

/-- The two queues agree on everything but the threads inside the event flag. -/
def SameRing (m a : MQ.St V) : Prop :=
  m.nb = a.nb ∧ m.b = a.b ∧ m.e = a.e ∧ m.buf = a.buf ∧ m.ms = a.ms ∧ m.mr = a.mr ∧ m.mb = a.mb ∧ m.ub = a.ub ∧ (Settled m ↔ Settled a)

theorem after_settled {p : PC V} {r : EvF.Res w} {c : EvF.Call w} (h : evCall p = some c) :
    ((∀ c v, p ≠ .sAdv c v) ∧ ∀ c g x, p ≠ .rAdv c g x) ∧ (∀ c v, after p r ≠ .sAdv c v) ∧ ∀ c g x, after p r ≠ .rAdv c g x := by
  cases p <;> simp [evCall] at h <;> simp [after] <;> (by_cases e : r.err = .OK <;> simp [e])

theorem rel_ring {m a : MQ.St V} {ftr : List (EvF.Ev w)} (rel : Rel m ftr a) : SameRing m a := by
  have hs : Settled m ↔ Settled a := by
    rw [rel.eq]
    unfold Settled
    simp only [mk_pc]
    refine forall_congr' fun t => ?_
    have hp := rel.ph t
    unfold view
    cases h : EvF.Spec.phase t ftr with
    | out => simp
    | called c => simp
    | bad => simp
    | done c r =>
      rw [h] at hp
      simp only [okPhase] at hp
      have := after_settled (r := r) hp
      exact ⟨fun _ => this.2, fun _ => this.1⟩
  have e := rel.eq
  refine ⟨?_, ?_, ?_, ?_, ?_, ?_, ?_, ?_, hs⟩ <;> rw [e] <;> rfl

/-- Whatever program the event flag is, if its own calls are linearizable then every execution of the queue on it has the events
(calls, results, moments of effect) of an execution of the queue on the atomic flag, and the same ring buffer. -/
theorem C97_refines {cap : Nat} {os : Bool} (hw : 2 ≤ w) {O : F → EvF.Act w → Option (F × List (EvF.Ev w))} {f0 : F}
    (hO : ∀ f ftr, Reach O f0 f ftr → ∃ σ, EvF.Spec.Linearizable false os ftr σ)
    {s : CSt V F} {tr : List (Ev V)} (h : Reach (OnFlag.step O) (OnFlag.init V cap f0) s tr) :
    ∃ a, Reach MQ.step (MQ.init V cap) a tr ∧ SameRing s.m a := by
  obtain ⟨a, ftr, _, hr, rel⟩ := simulation hw hO h
  exact ⟨a, hr, rel_ring rel⟩

theorem stdO (w : Nat) : ∀ (f : EvF.Std.St w) ftr, Reach (EvF.Std.step false) (EvF.Std.init w) f ftr → ∃ σ, EvF.Spec.Linearizable false false ftr σ :=
  fun _ _ h => ⟨_, Props.EventFlag.std_lin h⟩
theorem itronO (w : Nat) (ins : List (EvF.Itron.Waiter w) → EvF.Itron.Waiter w → Nat) : ∀ (f : EvF.Itron.St w) ftr,
    Reach (EvF.Itron.step false ins) (EvF.Itron.init w) f ftr → ∃ σ, EvF.Spec.Linearizable false true ftr σ :=
  fun _ _ h => ⟨_, Props.EventFlag.itron_lin h⟩

/-- What C46-C48 say, about the queue on the event flag `O`. -/
def Correct (cap : Nat) (s : CSt V F) (tr : List (Ev V)) : Prop :=
  (∃ q, Linearizable cap tr q ∧ (Settled s.m → stored s.m = q.map some)) ∧
  (∃ taken q, sent tr = taken ++ q ∧ Got (received tr) taken ∧ q.length ≤ cap) ∧
  s.m.ub = false ∧ size s.m ≤ cap ∧ s.m.b < s.m.nb ∧ s.m.e < s.m.nb ∧ s.m.nb = cap + 1

theorem correct {cap : Nat} {s : CSt V F} {tr : List (Ev V)} {a : MQ.St V} (hr : Reach MQ.step (MQ.init V cap) a tr) (hs : SameRing s.m a) :
    Correct cap s tr := by
  obtain ⟨h1, h2, h3, h4, _, _, _, h8, h9⟩ := hs
  have hsz : size s.m = size a := by simp [size, h1, h2, h3]
  have hst : stored s.m = stored a := by simp [stored, hsz, h1, h2, h4]
  have hc := Props.MessageQueue.C48_ring hr
  refine ⟨?_, ?_, by rw [h8]; exact hc.1, by rw [hsz]; exact (Props.MessageQueue.C47_capacity hr).1, ?_, ?_, ?_⟩
  · obtain ⟨q, hq, hx⟩ := Props.MessageQueue.C46_linearizable hr
    exact ⟨q, hq, fun h => by rw [hst]; exact hx (h9.1 h)⟩
  · obtain ⟨taken, q, x1, x2, x3, _⟩ := Props.MessageQueue.C46_fifo hr
    exact ⟨taken, q, x1, x2, x3⟩
  · rw [h1, h2]; exact hc.2.1
  · rw [h1, h3]; exact hc.2.2.1
  · rw [h1]; exact hc.2.2.2.1

/-- On `StdCppEventFlag`. -/
theorem C97_std {cap : Nat} (hw : 2 ≤ w) {s : CSt V (EvF.Std.St w)} {tr : List (Ev V)}
    (h : Reach (OnFlag.step (EvF.Std.step false)) (OnFlag.init V cap (EvF.Std.init w)) s tr) : Correct cap s tr := by
  obtain ⟨a, hr, hs⟩ := C97_refines hw (stdO w) h
  exact correct hr hs

/-- On `ItronEventFlag`, for every order of the kernel's wait queue. -/
theorem C97_itron {cap : Nat} (hw : 2 ≤ w) {ins : List (EvF.Itron.Waiter w) → EvF.Itron.Waiter w → Nat} {s : CSt V (EvF.Itron.St w)} {tr : List (Ev V)}
    (h : Reach (OnFlag.step (EvF.Itron.step false ins)) (OnFlag.init V cap (EvF.Itron.init w)) s tr) : Correct cap s tr := by
  obtain ⟨a, hr, hs⟩ := C97_refines hw (itronO w ins) h
  exact correct hr hs

/-! #### No deadlock between the queue's locks and the event flag's -/

/-- Nobody can take a step, in the queue's code or in the event flag's, no call of the event flag can be made, and no timeout can expire.
(Spurious wake-ups and platform errors are not counted on.) -/
def Stuck (O : F → EvF.Act w → Option (F × List (EvF.Ev w))) (s : CSt V F) : Prop :=
  ∀ t, OnFlag.step O s (.mq (.go t)) = none ∧ OnFlag.step O s (.mq (.expire t)) = none ∧
    (∀ c, OnFlag.step O s (.ev (.call t c)) = none) ∧ OnFlag.step O s (.ev (.go t)) = none ∧ OnFlag.step O s (.ev (.timeout t)) = none

/-- What the stuck theorem needs of the event flag: when it is quiet, a thread outside can call, and a thread inside waits, without
a timeout, for a pattern that is not there (`σ`: the bits that are set). -/
def Quiet (O : F → EvF.Act w → Option (F × List (EvF.Ev w))) (f : F) (ftr : List (EvF.Ev w)) (σ : BitVec w) (t : Tid) : Prop :=
  (EvF.Spec.phase t ftr = .out ∧ ∀ c, ∃ f', O f (.call t c) = some (f', [.call t c])) ∨
  ∃ c, EvF.Spec.phase t ftr = .called c ∧ (∀ q m out tm, EvF.dispatch c = .twait q m out tm → tm = .forever) ∧
    (Props.EventFlag.waitParams c).isSome ∧ ¬ Props.EventFlag.CanSucceed false σ c

theorem std_quiet {f : EvF.Std.St w} {ftr : List (EvF.Ev w)} (h : Reach (EvF.Std.step false) (EvF.Std.init w) f ftr)
    (hgo : ∀ t, EvF.Std.step false f (.go t) = none) (ht : ∀ t, EvF.Std.step false f (.timeout t) = none) (t : Tid) :
    Quiet (EvF.Std.step false) f ftr f.pat t := by
  have inv := EvF.inv_reach h
  have hl := inv.loc t
  rcases Props.EventFlag.C43_stuck h hgo t with ho | ⟨c, hc, hw, hn⟩
  · left
    have hidle : f.pc t = .idle := by
      cases hp : f.pc t <;> rw [hp] at hl <;> simp only [EvF.Loc] at hl <;> simp_all
    exact ⟨ho, fun c => ⟨_, by simp only [EvF.Std.step, hidle]; rfl⟩⟩
  · right
    refine ⟨c, hc, ?_, hw, hn⟩
    intro q m out tm hd
    have hg := hgo t
    have ht := ht t
    have hfree : f.holder = none := by
      cases hh : f.holder with
      | none => rfl
      | some u =>
        have hu := hgo u
        rcases inv.crit u hh with ⟨c, a, l, e⟩ | ⟨c, a, e⟩ | ⟨c, a, e⟩ | ⟨c, a, e⟩ | ⟨c, e⟩ | ⟨c, a, e⟩ | ⟨c, e⟩ | ⟨c, a, e⟩ <;>
          simp only [EvF.Std.step, e] at hu
        · split at hu
          · simp at hu
          · split at hu <;> simp at hu
        all_goals simp at hu
    cases hp : f.pc t <;> rw [hp] at hl <;> simp only [EvF.Loc] at hl
    case sleep c a =>
      simp only [EvF.Std.step, hp] at ht
      have ha := hl.2.1
      rw [hc] at hl
      have e := hl.1
      cases e
      rw [hd, EvF.Prim.twait.injEq] at ha
      rw [ha.2.2.2]
      apply Classical.byContradiction
      intro hne
      rw [if_neg hne] at ht
      simp at ht
    case idle => rw [hl] at hc; simp at hc
    all_goals (exfalso; simp only [EvF.Std.step, hp, hfree, if_true] at hg)
    case entry c =>
      rw [hc] at hl
      cases hl
      rw [hd] at hg
      simp only at hg
      split at hg
      · simp at hg
      · split at hg <;> simp at hg
    case test c a l =>
      split at hg
      · simp at hg
      · split at hg <;> simp at hg
    all_goals simp at hg

theorem itron_quiet {ins : List (EvF.Itron.Waiter w) → EvF.Itron.Waiter w → Nat} {f : EvF.Itron.St w} {ftr : List (EvF.Ev w)}
    (h : Reach (EvF.Itron.step false ins) (EvF.Itron.init w) f ftr)
    (hgo : ∀ t, EvF.Itron.step false ins f (.go t) = none) (ht : ∀ t, EvF.Itron.step false ins f (.timeout t) = none) (t : Tid) :
    Quiet (EvF.Itron.step false ins) f ftr f.pat t := by
  have inv := EvF.iinv_reach h
  have hl := inv.loc t
  rcases Props.EventFlag.C45_stuck h t (hgo t) with ho | ⟨c, hc, hw, hn⟩
  · left
    have hidle : f.pc t = .idle := by
      cases hp : f.pc t <;> rw [hp] at hl <;> simp only [EvF.ILoc] at hl <;> simp_all
    exact ⟨ho, fun c => ⟨_, by simp only [EvF.Itron.step, hidle]; rfl⟩⟩
  · right
    refine ⟨c, hc, ?_, hw, hn⟩
    intro q m out tm hd
    have hg := hgo t
    have ht := ht t
    cases hp : f.pc t <;> rw [hp] at hl <;> simp only [EvF.ILoc] at hl
    case idle => rw [hl] at hc; simp at hc
    case ret => rw [hl] at hc; simp at hc
    case entry c =>
      exfalso
      rw [hc] at hl
      cases hl
      simp only [EvF.Itron.step, hp, hd] at hg
      repeat' split at hg
      all_goals simp at hg
    case waiting c =>
      obtain ⟨x, hx, hxt⟩ := inv.wait t c hp
      have hex : ∃ y ∈ f.queue, (y.t == t) = true := ⟨x, hx, by simp [hxt]⟩
      obtain ⟨y, hy⟩ := Option.isSome_iff_exists.1 (List.find?_isSome.2 hex)
      have hym := List.mem_of_find?_eq_some hy
      have hyt : y.t = t := by simpa using List.find?_some hy
      simp only [EvF.Itron.step, hp, hy] at ht
      have htm : y.tm = .forever := by
        apply Classical.byContradiction
        intro hne
        rw [if_neg hne] at ht
        simp at ht
      obtain ⟨e, hv, _⟩ := inv.queue y hym
      rw [hyt, hp] at e
      cases e
      have hcy : c = y.c := by rw [hc] at hl; exact EvF.Spec.Phase.called.inj hl
      have hv1 := hv.1
      rw [← hcy, hd, EvF.Prim.twait.injEq] at hv1
      rw [hv1.2.2.2, htm]

/-- The flag's own steps are not blocked by the queue's side, except calls. -/
theorem onEvs_some {m : MQ.St V} : ∀ {evs : List (EvF.Ev w)}, (∀ t c, EvF.Ev.call t c ∉ evs) → (onEvs m evs).isSome
  | [], _ => rfl
  | x :: xs, h => by
    have hx : ∃ y, onEv m x = some y := by
      cases x with
      | call t c => exact absurd (by simp) (h t c)
      | lin t c r => exact ⟨_, rfl⟩
      | ret t c r => exact ⟨_, rfl⟩
    obtain ⟨⟨m', a⟩, hx⟩ := hx
    simp only [onEvs, hx]
    obtain ⟨⟨m'', b⟩, hy⟩ := Option.isSome_iff_exists.1 (onEvs_some (m := m') (evs := xs) (fun t c hm => h t c (by simp [hm])))
    rw [hy]; rfl

/-- When nothing moves any more, every thread is outside, or in a FOREVER send with the queue full, or in a FOREVER receive with the
queue empty. -/
def AllServed (cap : Nat) (s : CSt V F) : Prop := ∀ t,
  s.m.pc t = .idle ∨
  ∃ c, Pending s.m t c ∧ tmoOf c = .forever ∧ ((isSend c = true ∧ size s.m = cap) ∨ (isRecv c = true ∧ size s.m = 0))

/-- A stuck queue on the event flag `O` is a stuck queue on the atomic flag. -/
theorem stuck_abs {cap : Nat} {os : Bool} (hw : 2 ≤ w) {O : F → EvF.Act w → Option (F × List (EvF.Ev w))} {f0 : F} {pat : F → BitVec w}
    (hO : ∀ f ftr, Reach O f0 f ftr → EvF.Spec.Linearizable false os ftr (pat f))
    (hev : ∀ f a f' evs, O f a = some (f', evs) → (∀ t c, a ≠ .call t c) → ∀ t c, EvF.Ev.call t c ∉ evs)
    (hq : ∀ f ftr, Reach O f0 f ftr → (∀ t, O f (.go t) = none) → (∀ t, O f (.timeout t) = none) → ∀ t, Quiet O f ftr (pat f) t)
    {s : CSt V F} {tr : List (Ev V)} (h : Reach (OnFlag.step O) (OnFlag.init V cap f0) s tr) (hst : Stuck O s) :
    ∃ a, Reach MQ.step (MQ.init V cap) a tr ∧ Props.MessageQueue.Stuck a ∧ (∀ t, a.pc t = s.m.pc t) ∧ size s.m = size a := by
  obtain ⟨a, ftr, hf, hr, rel⟩ := simulation hw (fun f ftr h => ⟨_, hO f ftr h⟩) h
  have none_of : ∀ act, (∀ t c, act ≠ .call t c) → OnFlag.step O s (.ev act) = none → O s.f act = none := by
    intro act hc hn
    cases hx : O s.f act with
    | none => rfl
    | some y =>
      obtain ⟨f', evs⟩ := y
      obtain ⟨⟨m', b⟩, hy⟩ := Option.isSome_iff_exists.1 (onEvs_some (m := s.m) (hev _ _ _ _ hx hc))
      simp [OnFlag.step, hx, hy] at hn
  have hquiet := hq _ _ hf (fun t => none_of _ (by simp) (hst t).2.2.2.1) (fun t => none_of _ (by simp) (hst t).2.2.2.2)
  have hub := (Props.MessageQueue.C48_ring hr).1
  have hne : a.ne = (pat s.f).getLsbD 0 := by rw [rel.eq]; exact (Props.EventFlag.bit_hist (hO _ _ hf).1 (by omega)).symm
  have hnf : a.nf = (pat s.f).getLsbD 1 := by rw [rel.eq]; exact (Props.EventFlag.bit_hist (hO _ _ hf).1 (by omega)).symm
  have hcan : ∀ i (p : BitVec w) tm, i < w → (∀ j, p.getLsbD j = (decide (j < w) && decide (j = i))) →
      ¬ Props.EventFlag.CanSucceed false (pat s.f) (.timedWait p .OR false tm) → (pat s.f).getLsbD i = false := by
    intro i p tm hi hp hn
    cases hb : (pat s.f).getLsbD i
    · rfl
    · exfalso
      apply hn
      refine ⟨⟨.OK, none⟩, pat s.f, rfl, ?_⟩
      simp only [EvF.Spec.Legal, EvF.Spec.Wait]
      rw [if_neg]
      · left; exact ⟨⟨i, hi, by rw [hp]; simp [hi], hb⟩, by simp, by simp⟩
      · rintro (hx | hx)
        · simp at hx
        · have := hx i hi; rw [hp] at this; simp [hi] at this
  -- every thread is seen at the same place by the two queues
  have hpc : ∀ t, a.pc t = s.m.pc t := by
    intro t
    rw [rel.eq]
    refine view_eq ?_
    intro c r hd
    rcases hquiet t with ⟨ho, _⟩ | ⟨c', hc, _⟩
    · rw [ho] at hd; simp at hd
    · rw [hc] at hd; simp at hd
  have hsa : Props.MessageQueue.Stuck a := by
    intro t
    have back : ∀ act, tid act = t → (evCall (s.m.pc t) : Option (EvF.Call w)) = none → OnFlag.step O s (.mq act) = none → MQ.step a act = none := by
      intro act hat hc hn
      subst hat
      cases hx : MQ.step a act with
      | none => rfl
      | some y =>
        obtain ⟨a', ev'⟩ := y
        have hc' : (evCall (a.pc (tid act)) : Option (EvF.Call w)) = none := by rw [hpc]; exact hc
        obtain ⟨h1, _⟩ := step_frame hc' hx s.m.pc s.m.ne s.m.nf (hpc _).symm
        have e : mk a s.m.pc s.m.ne s.m.nf = s.m := by rw [rel.eq]; rfl
        rw [e] at h1
        simp [OnFlag.step, hc, h1] at hn
    obtain ⟨g1, g2, g3, g4, g5⟩ := hst t
    rcases hquiet t with ⟨ho, hcall⟩ | ⟨c, hc, hfor, hwp, hn⟩
    · cases hec : (evCall (s.m.pc t) : Option (EvF.Call w)) with
      | none => exact ⟨back _ rfl hec g1, back _ rfl hec g2⟩
      | some c =>
        obtain ⟨f', hf'⟩ := hcall c
        have := g3 c
        simp [OnFlag.step, hf', onEvs, onEv, hec] at this
    · have hph := rel.ph t
      rw [hc] at hph
      simp only [okPhase] at hph
      have hp := hpc t
      cases hm : s.m.pc t <;> rw [hm] at hph hp <;> simp only [evCall, reduceCtorEq, Option.some.injEq] at hph <;> subst hph <;>
        simp [Props.EventFlag.waitParams] at hwp
      · have htm := hfor _ _ _ _ rfl
        have hb := hcan 1 _ _ (by omega) (fun j => nf_bit) hn
        constructor <;> simp [MQ.step, hp, hub, hnf, hb, htm]
      · have htm := hfor _ _ _ _ rfl
        have hb := hcan 0 _ _ (by omega) (fun j => ne_bit) hn
        constructor <;> simp [MQ.step, hp, hub, hne, hb, htm]
  exact ⟨a, hr, hsa, hpc, by rw [rel.eq]; rfl⟩

theorem stuck_core {cap : Nat} {os : Bool} (hw : 2 ≤ w) {O : F → EvF.Act w → Option (F × List (EvF.Ev w))} {f0 : F} {pat : F → BitVec w}
    (hO : ∀ f ftr, Reach O f0 f ftr → EvF.Spec.Linearizable false os ftr (pat f))
    (hev : ∀ f a f' evs, O f a = some (f', evs) → (∀ t c, a ≠ .call t c) → ∀ t c, EvF.Ev.call t c ∉ evs)
    (hq : ∀ f ftr, Reach O f0 f ftr → (∀ t, O f (.go t) = none) → (∀ t, O f (.timeout t) = none) → ∀ t, Quiet O f ftr (pat f) t)
    {s : CSt V F} {tr : List (Ev V)} (h : Reach (OnFlag.step O) (OnFlag.init V cap f0) s tr) (hst : Stuck O s) : AllServed cap s := by
  obtain ⟨a, hr, hsa, hpc, hsz⟩ := stuck_abs hw hO hev hq h hst
  intro t
  have hpend : ∀ c, Pending a t c → Pending s.m t c := by intro c; unfold Pending; rw [hpc]; exact id
  rcases Props.MessageQueue.C50_stuck hr hsa t with hi | ⟨c, h1, h2, h3⟩
  · left; rw [← hpc]; exact hi
  · right; exact ⟨c, hpend c h1, h2, by rw [hsz]; exact h3⟩

theorem std_calls : ∀ (f : EvF.Std.St w) a f' evs, EvF.Std.step false f a = some (f', evs) → (∀ t c, a ≠ .call t c) → ∀ t c, EvF.Ev.call t c ∉ evs := by
  intro f a f' evs hs hc t c
  cases a with
  | call u d => exact absurd rfl (hc u d)
  | raise u e => simp [EvF.Std.step] at hs
  | wake u => simp only [EvF.Std.step] at hs; repeat' split at hs
              all_goals first | (simp at hs; done) | (simp at hs; obtain ⟨_, rfl⟩ := hs; simp)
  | timeout u => simp only [EvF.Std.step] at hs; repeat' split at hs
                 all_goals first | (simp at hs; done) | (simp at hs; obtain ⟨_, rfl⟩ := hs; simp)
  | go u => simp only [EvF.Std.step] at hs; repeat' split at hs
            all_goals first | (simp at hs; done) | (simp at hs; obtain ⟨_, rfl⟩ := hs; simp)

theorem itron_calls {ins : List (EvF.Itron.Waiter w) → EvF.Itron.Waiter w → Nat} : ∀ (f : EvF.Itron.St w) a f' evs,
    EvF.Itron.step false ins f a = some (f', evs) → (∀ t c, a ≠ .call t c) → ∀ t c, EvF.Ev.call t c ∉ evs := by
  intro f a f' evs hs hc t c
  cases a with
  | call u d => exact absurd rfl (hc u d)
  | wake u => simp [EvF.Itron.step] at hs
  | raise u e => simp only [EvF.Itron.step] at hs; repeat' split at hs
                 all_goals first | (simp at hs; done) | (simp at hs; obtain ⟨_, rfl⟩ := hs; simp)
  | timeout u => simp only [EvF.Itron.step] at hs; repeat' split at hs
                 all_goals first | (simp at hs; done) | (simp at hs; obtain ⟨_, rfl⟩ := hs; simp)
  | go u => simp only [EvF.Itron.step] at hs; repeat' split at hs
            all_goals first | (simp at hs; done) | (simp at hs; obtain ⟨_, rfl⟩ := hs; simp)

/-- On `StdCppEventFlag`: its mutex and condition variable, taken while the queue's mutexes are held, never make calls wait for each
other. -/
theorem C97_std_stuck {cap : Nat} (hw : 2 ≤ w) {s : CSt V (EvF.Std.St w)} {tr : List (Ev V)}
    (h : Reach (OnFlag.step (EvF.Std.step false)) (OnFlag.init V cap (EvF.Std.init w)) s tr) (hst : Stuck (EvF.Std.step false) s) :
    AllServed cap s := by
  exact stuck_core hw (pat := EvF.Std.St.pat) (fun f ftr h => Props.EventFlag.std_lin h) std_calls (fun f ftr h hg ht t => std_quiet h hg ht t) h hst
/-- On `ItronEventFlag`. -/
theorem C97_itron_stuck {cap : Nat} (hw : 2 ≤ w) {ins : List (EvF.Itron.Waiter w) → EvF.Itron.Waiter w → Nat} {s : CSt V (EvF.Itron.St w)} {tr : List (Ev V)}
    (h : Reach (OnFlag.step (EvF.Itron.step false ins)) (OnFlag.init V cap (EvF.Itron.init w)) s tr) (hst : Stuck (EvF.Itron.step false ins) s) :
    AllServed cap s := by
  exact stuck_core hw (pat := EvF.Itron.St.pat) (fun f ftr h => Props.EventFlag.itron_lin h) itron_calls (fun f ftr h hg ht t => itron_quiet h hg ht t) h hst
/-! #### A concrete execution -/

/-- Steps of thread `t` in the queue's code, then a call of the event flag and its `n` steps. -/
def mqs (t n : Nat) : List (CAct Nat 16) := List.replicate n (.mq (.go t))
def evs (t : Nat) (c : EvF.Call 16) (n : Nat) : List (CAct Nat 16) := .ev (.call t c) :: List.replicate n (.ev (.go t))

/-- Capacity 1, StdCppEventFlag: thread 0 sends 5; thread 1 finds the queue full and sleeps on the condition variable; thread 2
receives and its `set` wakes thread 1, which sends 6. -/
def demo : List (CAct Nat 16) :=
  .mq (.call 0 (.send 5)) :: mqs 0 8 ++ evs 0 (.set (evNotEmpty 16)) 6 ++ mqs 0 3 ++
  .mq (.call 1 (.send 6)) :: mqs 1 4 ++ evs 1 (.reset (evNotFull 16)) 5 ++ mqs 1 1 ++ evs 1 (.timedWait (evNotFull 16) .OR false .forever) 3 ++
  .mq (.call 2 (.receive true)) :: mqs 2 9 ++ evs 2 (.set (evNotFull 16)) 6 ++ mqs 2 3 ++
  List.replicate 6 (.ev (.go 1)) ++ mqs 1 3 ++ evs 1 (.set (evNotEmpty 16)) 6 ++ mqs 1 3

example : ∃ (s : CSt Nat (EvF.Std.St 16)) (tr : List (Ev Nat)), Reach (OnFlag.step (EvF.Std.step false)) (OnFlag.init Nat 1 (EvF.Std.init 16)) s tr ∧
    decide (sent tr = [5, 6] ∧ received tr = [(true, some 5)] ∧ returned 1 tr = [(.send 6, .done .OK none)] ∧ stored s.m = [some 6] ∧
      Ev.sawFull 1 ∈ tr ∧ s.m.pc 0 = .idle ∧ s.m.pc 1 = .idle ∧ s.m.pc 2 = .idle) = true :=
  runSat_ex (as := demo) (P := fun (s : CSt Nat (EvF.Std.St 16)) tr => decide (sent tr = [5, 6] ∧ received tr = [(true, some 5)] ∧
      returned 1 tr = [(.send 6, .done .OK none)] ∧ stored s.m = [some 6] ∧
      Ev.sawFull 1 ∈ tr ∧ s.m.pc 0 = .idle ∧ s.m.pc 1 = .idle ∧ s.m.pc 2 = .idle)) (by decide)

/-- The hypothesis of the stuck theorems: a FOREVER receive on an empty queue, asleep in the event flag; nobody else is inside. -/
def demo2 : List (CAct Nat 16) :=
  .mq (.call 1 (.receive true)) :: mqs 1 4 ++ evs 1 (.reset (evNotEmpty 16)) 5 ++ mqs 1 1 ++ evs 1 (.timedWait (evNotEmpty 16) .OR false .forever) 3

example : ∃ (s : CSt Nat (EvF.Std.St 16)) (tr : List (Ev Nat)), Reach (OnFlag.step (EvF.Std.step false)) (OnFlag.init Nat 1 (EvF.Std.init 16)) s tr ∧
    Stuck (EvF.Std.step false) s ∧ s.m.pc 1 = .rWait (.receive true) true .forever := by
  refine ⟨_, _, run_reach demo2 Reach.init rfl, fun u => ?_, rfl⟩
  by_cases e : u = 1
  · subst e; exact ⟨rfl, rfl, fun _ => rfl, rfl, rfl⟩
  · refine ⟨?_, ?_, fun c => ?_, ?_, ?_⟩ <;>
      simp [OnFlag.step, tid, evCall, MQ.step, OnFlag.init, MQ.init, EvF.Std.step, EvF.Std.init, EvF.Std.St.at, MQ.St.at, upd, e, onEvs, onEv]

end Verif.Props.MessageQueueEvent
