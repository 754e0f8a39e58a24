import Verif.Proof.ThreadPoolFlag
import Verif.Props.ThreadPoolQueue
/-
C109: the thread pool running on the message queue implementation and on the event flag implementation.
-/
set_option linter.unusedSimpArgs false
set_option linter.unusedVariables false
namespace Verif.Props.ThreadPoolFlag
open Verif TP TP.OnFlags
open _root_.Verif.Lts (Reach run runSat_ex run_reach)
open _root_.Verif.Mtx (Tid Err)
open _root_.Verif.EvF (Tmo)
open _root_.Verif.TP.Spec (rphase gphase about)
open _root_.Verif.TP.OnQueue (cli wrk who who_cli who_wrk who_client who_worker qPos qW qCall atQueue qphase Filled merge)
open _root_.Verif.Props.ThreadPool (Exec)
open _root_.Verif.Props.ThreadPoolQueue (GoodQueue Live Correct correct OnlyStarts EvFine flag_good flag_live mqProg flagProg std_fine itron_fine)
open _root_.Verif.Props.EventFlag (bit_hist)
variable {w : Nat}

/-! #### Both refinements together -/

/-- Nothing but new calls of the pool can happen. -/
def Stuck {Q A F : Type} (O : Q → A → Option (Q × List (MQ.Ev Rid))) (P : F → EvF.Act w → Option (F × List (EvF.Ev w))) (prog : A → Prop)
    (call : Tid → MQ.Call Rid → A) (s : CSt Q F) : Prop :=
  (∀ a, (∀ t c, a ≠ .call t c) → OnFlags.step O P s (.tp a) = none) ∧ (∀ a, prog a → OnFlags.step O P s (.mq a) = none) ∧
  (∀ u c, OnFlags.step O P s (.mq (call u c)) = none) ∧
  ∀ i u, OnFlags.step O P s (.ev i (.go u)) = none ∧ OnFlags.step O P s (.ev i (.timeout u)) = none ∧ ∀ c, OnFlags.step O P s (.ev i (.call u c)) = none

/-- The pool on the programs and the pool on the atomic queue and flags agree on everything but where exactly a thread is inside a call of those. -/
def SamePool (p a : TP.St) : Prop :=
  p.n = a.n ∧ p.dflt = a.dflt ∧ p.task = a.task ∧ p.needs = a.needs ∧ p.prio = a.prio ∧ p.guard = a.guard ∧ p.inside = a.inside ∧
  p.dying = a.dying ∧ p.gone = a.gone ∧ (∀ t, callOf (p.pc t) = callOf (a.pc t)) ∧ ∀ i, p.w i = .finished ↔ a.w i = .finished

theorem not_bad {Q A : Type} {n : Nat} {O : Q → A → Option (Q × List (MQ.Ev Rid))} {e : Q} (hO : GoodQueue O e n) :
    ∀ s qtr, Reach O e s qtr → ∀ u, MQ.Spec.phase u qtr ≠ .bad := by
  intro s qtr h u
  obtain ⟨⟨q, hq⟩, _⟩ := hO s qtr h
  exact hq.2 u

/-- Whatever the queue and event flag programs are, if their own calls are linearizable then every execution of the pool on them has the events of an
execution of the pool on the atomic ones, the same runners, guards, priorities and clients, and the event flags have the values of the atomic ones. -/
theorem C109_refines {Q A F : Type} {n : Nat} {d : Int} {os : Bool} (hw : 1 ≤ w) {O : Q → A → Option (Q × List (MQ.Ev Rid))} {e q0 : Q} {tr0 : List (MQ.Ev Rid)}
    {P : F → EvF.Act w → Option (F × List (EvF.Ev w))} {f0 : F} {pat : F → BitVec w} (hO : GoodQueue O e n) (h0 : Filled O e n q0 tr0)
    (hP : ∀ f ftr, Reach P f0 f ftr → EvF.Spec.Linearizable false os ftr (pat f))
    {s : CSt Q F} {tr : List Ev} (h : Reach (OnFlags.step O P) (OnFlags.init n d q0 f0) s tr) :
    ∃ a, Exec n d a tr ∧ SamePool s.c.p a ∧ ∀ i k, k < w → (pat (s.f i)).getLsbD k = a.ev i := by
  obtain ⟨a1, ftr, qtr, hf, hq, hr, rel⟩ := OnFlags.simulation hw (not_bad hO) h0.1 h0.2.2 (fun f ftr h => ⟨_, hP f ftr h⟩) h
  obtain ⟨a, ha, hs⟩ := Props.ThreadPoolQueue.C100_refines hO h0 hr
  obtain ⟨s1, s2, s3, s4, s5, s6, s7, s8, s9, s10, s11, s12⟩ := hs
  have e := rel.eq
  simp only at s1 s2 s3 s4 s5 s6 s7 s8 s9 s10 s11 s12
  refine ⟨a, ha, ⟨?_, ?_, ?_, ?_, ?_, ?_, ?_, ?_, ?_, ?_, ?_⟩, ?_⟩
  · rw [← s1, e]; rfl
  · rw [← s2, e]; rfl
  · rw [← s3, e]; rfl
  · rw [← s4, e]; rfl
  · rw [← s5, e]; rfl
  · rw [← s7, e]; rfl
  · rw [← s8, e]; rfl
  · rw [← s9, e]; rfl
  · rw [← s10, e]; rfl
  · intro t; rw [← s11, rel.pc, vPC_call]
  · intro i; rw [← s12, rel.wk, vW_fin]
  · intro i k hk
    rw [bit_hist (hP _ _ (hf i)).1 hk, rel.bits i k hk, ← s6, e]; rfl

/-! #### Destruction -/

theorem killed {n : Nat} {d : Int} {a : TP.St} {tr : List Ev} (h : Exec n d a tr) (i : Rid) (hk : .kill i ∈ tr) : a.w i = .dead ∧ ∃ t, a.dying = some t := by
  refine (?_ : .kill i ∈ tr → a.w i = .dead ∧ ∃ t, a.dying = some t) hk
  suffices ∀ {a tr}, Exec n d a tr → Exec n d a tr ∧ (.kill i ∈ tr → a.w i = .dead ∧ ∃ t, a.dying = some t) from (this h).2
  intro a tr h
  refine Lts.Reach.inv (I := fun a tr => Exec n d a tr ∧ (.kill i ∈ tr → a.w i = .dead ∧ ∃ t, a.dying = some t)) ⟨Reach.init, by simp⟩ ?_ h
  rintro s tr act s' ev ⟨hr, ih⟩ hs
  refine ⟨Reach.step hr hs, ?_⟩
  have dy := (TP.Inv.reach hr).st.dy
  clear h hr
  cases act <;> simp only [TP.step] at hs <;> (repeat' split at hs) <;> simp only [Option.some.injEq, Prod.mk.injEq, reduceCtorEq] at hs <;>
    obtain ⟨rfl, rfl⟩ := hs <;> simp only [List.mem_append, List.mem_cons, List.not_mem_nil, or_false, reduceCtorEq, Ev.kill.injEq] <;>
    (try simp only [St.at, St.wAt, St.ownAt, St.evAt]) <;> grind [upd]

theorem destroyer {n : Nat} {d : Int} {a : TP.St} {tr : List Ev} (h : Exec n d a tr) : ∀ t c q, a.dying = some t → a.pc t = .on c q → c = .destroy := by
  refine Lts.Reach.inv (I := fun a tr => ∀ t c q, a.dying = some t → a.pc t = .on c q → c = .destroy) (by intro t c q h; simp [TP.init] at h) ?_ h
  clear h
  rintro s tr act s' ev ih hs t c q
  cases act <;> simp only [TP.step] at hs <;> (repeat' split at hs) <;> simp only [Option.some.injEq, Prod.mk.injEq, reduceCtorEq] at hs <;>
    obtain ⟨rfl, rfl⟩ := hs <;>
    (try simp only [St.at, St.wAt, St.ownAt, St.evAt]) <;> grind [upd]

/-- Nobody is inside an event flag that has been destroyed. -/
theorem free_of {Q A F : Type} {n : Nat} {d : Int} {os : Bool} (hw : 1 ≤ w) {O : Q → A → Option (Q × List (MQ.Ev Rid))} {e q0 : Q} {tr0 : List (MQ.Ev Rid)}
    {P : F → EvF.Act w → Option (F × List (EvF.Ev w))} {f0 : F} (hO : GoodQueue O e n) (h0 : Filled O e n q0 tr0)
    (hP : ∀ f ftr, Reach P f0 f ftr → ∃ σ, EvF.Spec.Linearizable false os ftr σ)
    {s : CSt Q F} {tr : List Ev} (h : Reach (OnFlags.step O P) (OnFlags.init n d q0 f0) s tr) {i : Rid} (hk : .kill i ∈ tr) :
    (∃ ftr, Reach P f0 (s.f i) ftr ∧ ∀ u, EvF.Spec.phase u ftr = .out) ∧ ∀ u c, fCall w s.c.p u ≠ some (i, c) := by
  obtain ⟨a1, ftr, qtr, hf, hq, hr, rel⟩ := OnFlags.simulation hw (not_bad hO) h0.1 h0.2.2 hP h
  obtain ⟨a, qtr', q, _, _, ha, relq⟩ := OnQueue.simulation hO h0 hr
  obtain ⟨hd, t, ht⟩ := killed ha i hk
  have hdead : s.c.p.w i = .dead := by
    have h1 : OnQueue.vW a1 qtr' i = .dead := by rw [← relq.w]; exact hd
    have h2 : a1.w i = .dead := by
      unfold OnQueue.vW at h1
      split at h1
      · cases hx : a1.w i <;> rw [hx] at h1 <;> simp [OnQueue.afterW] at h1 ⊢
      · exact h1
    rw [rel.wk] at h2
    unfold vW at h2
    split at h2
    · cases hx : s.c.p.w i <;> rw [hx] at h2 <;> simp [afterW] at h2 ⊢
    · exact h2
  have hcl : ∀ v, callOf (s.c.p.pc v) = callOf (a.pc v) := by
    intro v; rw [relq.pc, OnQueue.vPC_call]; show _ = callOf (a1.pc v); rw [rel.pc, vPC_call]
  have S := (TP.Inv.reach ha).st
  have hno : ∀ u c, fCall w s.c.p u ≠ some (i, c) := by
    intro u c hc
    unfold fCall at hc
    cases hwu : who u with
    | worker j =>
      rw [hwu] at hc; simp only at hc
      have : j = i := by cases hx : s.c.p.w j <;> simp [hx, fW] at hc <;> exact hc.1
      subst this
      rw [hdead] at hc; simp [fW] at hc
    | client v =>
      rw [hwu] at hc; simp only at hc
      by_cases e : v = t
      · subst e
        cases hx : a.pc v with
        | idle =>
          have := hcl v
          rw [hx] at this
          cases hy : s.c.p.pc v with
          | idle => rw [hy] at hc; simp [fPos] at hc
          | on c' q => rw [hy] at this; simp [callOf] at this
        | on c' q =>
          have := destroyer ha v c' q ht hx
          subst this
          have := hcl v
          rw [hx] at this
          cases hy : s.c.p.pc v with
          | idle => rw [hy] at this; simp [callOf] at this
          | on c2 q2 =>
            rw [hy] at this hc
            simp only [callOf, Option.some.injEq] at this
            subst this
            cases q2 <;> simp [fPos] at hc
      · have hi := S.al t ht v e
        have := hcl v
        rw [hi] at this
        cases hy : s.c.p.pc v with
        | idle => rw [hy] at hc; simp [fPos] at hc
        | on c' q => rw [hy] at this; simp [callOf] at this
  refine ⟨⟨ftr i, hf i, ?_⟩, hno⟩
  intro u
  apply Classical.byContradiction
  intro hne
  obtain ⟨c, _, hc⟩ := rel.ph i u hne
  exact hno u c hc

/-! #### Deadlock -/

theorem onEv_some {os : Bool} (hw : 1 ≤ w) {p a : TP.St} {ftr : Rid → List (EvF.Ev w)} {qtr : List (MQ.Ev Rid)} {i : Rid} {x : EvF.Ev w} {σ : BitVec w}
    (rel : Rel p ftr qtr a) (hl : EvF.Spec.Linearizable false os (ftr i ++ [x]) σ) (hc : ∀ u c, x ≠ .call u c)
    (hf : ∀ u c r, x = .lin u c r → r.err ≠ .OtherError ∧ r.err ≠ .CalledByNonThread) : ∃ y, onEv i p x = some y := by
  cases x with
  | call u c => exact absurd rfl (hc u c)
  | ret u c r => exact ⟨_, rfl⟩
  | lin u c r =>
    obtain ⟨f1, f2⟩ := hf u c r rfl
    obtain ⟨σ0, hl0, hleg⟩ := MQ.OnFlag.lin_prefix hl
    have hbits := fun k (hk : k < w) => (bit_hist hl0.1 hk).trans (rel.bits i k hk)
    have hb := hl.2 u
    rw [fphase_snoc] at hb
    have hg : good r = true := by
      cases hp : EvF.Spec.phase u (ftr i) with
      | out => rw [hp] at hb; simp [EvF.Spec.Phase.next] at hb
      | bad => rw [hp] at hb; simp [EvF.Spec.Phase.next] at hb
      | done => rw [hp] at hb; simp [EvF.Spec.Phase.next] at hb
      | called c' =>
        rw [hp] at hb
        have hcc : c' = c := by
          apply Classical.byContradiction; intro h; simp [EvF.Spec.Phase.next, h] at hb
        subst hcc
        obtain ⟨c2, h1, h2⟩ := rel.ph i u (by rw [hp]; simp)
        rw [hp] at h1
        simp only [calledBy, Option.some.injEq] at h1
        subst h1
        have hle := hleg _ _ _ rfl
        have key : (∃ tm, c' = .timedWaitAny tm) ∨ c' = .setAll ∨ c' = .resetAll := by
          unfold fCall at h2
          split at h2
          · unfold fPos at h2
            split at h2 <;> simp at h2 <;> obtain ⟨_, rfl⟩ := h2 <;> simp
          · unfold fW at h2
            split at h2 <;> simp at h2 <;> obtain ⟨_, rfl⟩ := h2 <;> simp
        rcases key with ⟨tm, rfl⟩ | rfl | rfl
        · rcases wait_any hw hbits hle with ⟨rfl, _⟩ | ⟨rfl, _⟩ | rfl | rfl
          · rfl
          · rfl
          · exact absurd rfl f1
          · exact absurd rfl f2
        · simp only [EvF.Spec.Legal] at hle; rw [hle.1]; rfl
        · simp only [EvF.Spec.Legal] at hle; rw [hle.1]; rfl
    exact ⟨(p, marks p u r), by simp only [onEv, hg, if_true]⟩

theorem onEvs_some {os : Bool} (hw : 1 ≤ w) {qtr : List (MQ.Ev Rid)} {i : Rid} : ∀ {xs : List (EvF.Ev w)} {p a : TP.St} {ftr : Rid → List (EvF.Ev w)} {σ : BitVec w}
    (_ : Rel p ftr qtr a) (_ : EvF.Spec.Linearizable false os (ftr i ++ xs) σ) (_ : ∀ u c, EvF.Ev.call u c ∉ xs)
    (_ : ∀ u c r, EvF.Ev.lin u c r ∈ xs → r.err ≠ .OtherError ∧ r.err ≠ .CalledByNonThread), ∃ y, onEvs i p xs = some y
  | [], p, a, ftr, σ, rel, hl, hc, hf => ⟨_, rfl⟩
  | x :: xs, p, a, ftr, σ, rel, hl, hc, hf => by
    have hl' : EvF.Spec.Linearizable false os ((ftr i ++ [x]) ++ xs) σ := by simpa using hl
    obtain ⟨σ1, hl1⟩ := MQ.OnFlag.lin_prefixes hl'
    obtain ⟨⟨p1, e1⟩, h1⟩ := onEv_some hw rel hl1 (fun u c h => hc u c (by rw [h]; simp)) (fun u c r h => hf u c r (by rw [h]; simp))
    obtain ⟨a1, _, rel1⟩ := sim_f hw rel hl1 h1
    obtain ⟨⟨p2, e2⟩, h2⟩ := onEvs_some hw (i := i) (xs := xs) rel1 (by simpa using hl) (fun u c h => hc u c (by simp [h])) (fun u c r h => hf u c r (by simp [h]))
    exact ⟨(p2, e1 ++ e2), by simp only [onEvs, h1, h2]⟩

/-- The queue does not look at the event flags. -/
theorem qev_frame (p : TP.St) (o : Rid → Own) (e : Rid → Bool) (x : MQ.Ev Rid) :
    OnQueue.onEv (mk p o p.pc p.w e) x = (OnQueue.onEv p x).map (fun y => (mk y.1 o y.1.pc y.1.w e, y.2)) := by
  cases x with
  | call u c =>
    simp only [OnQueue.onEv]
    show (if qCall p u = some c then _ else _) = _
    split <;> rfl
  | busy u => rfl
  | sawFull u => rfl
  | sawEmpty u => rfl
  | lin u c r => simp only [OnQueue.onEv]; split <;> rfl
  | ret u c r =>
    simp only [OnQueue.onEv, OnQueue.resume]
    have hpc : (mk p o p.pc p.w e).pc = p.pc := rfl
    have hw : (mk p o p.pc p.w e).w = p.w := rfl
    simp only [hpc, hw]
    split
    · rfl
    · split
      · split
        · split <;> rfl
        · rfl
      · rfl

theorem qevs_frame (o : Rid → Own) (e : Rid → Bool) : ∀ (xs : List (MQ.Ev Rid)) (p : TP.St),
    OnQueue.onEvs (mk p o p.pc p.w e) xs = (OnQueue.onEvs p xs).map (fun y => (mk y.1 o y.1.pc y.1.w e, y.2))
  | [], p => rfl
  | x :: xs, p => by
    simp only [OnQueue.onEvs, qev_frame p o e x]
    cases h : OnQueue.onEv p x with
    | none => rfl
    | some y =>
      obtain ⟨p1, e1⟩ := y
      simp only [Option.map_some, qevs_frame o e xs p1]
      cases h2 : OnQueue.onEvs p1 xs with
      | none => rfl
      | some y => rfl

/-- A stuck pool on the programs is a stuck pool on the same queue program and on atomic event flags. -/
theorem stuck_flags {Q A F : Type} {n : Nat} {d : Int} {os : Bool} (hw : 1 ≤ w) {O : Q → A → Option (Q × List (MQ.Ev Rid))} {e q0 : Q} {tr0 : List (MQ.Ev Rid)}
    {P : F → EvF.Act w → Option (F × List (EvF.Ev w))} {f0 : F} {pat : F → BitVec w} {prog : A → Prop} {call : Tid → MQ.Call Rid → A}
    (hO : GoodQueue O e n) (h0 : Filled O e n q0 tr0) (hP : ∀ f ftr, Reach P f0 f ftr → EvF.Spec.Linearizable false os ftr (pat f))
    (hev : ∀ f a f' evs, P f a = some (f', evs) → (∀ t c, a ≠ .call t c) → ∀ t c, EvF.Ev.call t c ∉ evs)
    (hq : ∀ f ftr, Reach P f0 f ftr → (∀ t, P f (.go t) = none) → (∀ t, P f (.timeout t) = none) → ∀ t, Props.MessageQueueEvent.Quiet P f ftr (pat f) t)
    (hfine : EvFine P) {s : CSt Q F} {tr : List Ev} (h : Reach (OnFlags.step O P) (OnFlags.init n d q0 f0) s tr) (hst : Stuck O P prog call s) :
    ∃ c, Reach (OnQueue.step O) (OnQueue.init n d q0) c tr ∧ Props.ThreadPoolQueue.Stuck O prog call c := by
  obtain ⟨a, ftr, qtr, hf, hqr, hr, rel⟩ := OnFlags.simulation hw (not_bad hO) h0.1 h0.2.2 (fun f ftr h => ⟨_, hP f ftr h⟩) h
  obtain ⟨s1, s2, s3, s4⟩ := hst
  have none_of : ∀ i act, (∃ t, act = .go t) ∨ (∃ t, act = .timeout t) → OnFlags.step O P s (.ev i act) = none → P (s.f i) act = none := by
    intro i act ha hn
    cases hx : P (s.f i) act with
    | none => rfl
    | some y =>
      obtain ⟨f', evs⟩ := y
      obtain ⟨y, hy⟩ := onEvs_some hw (i := i) (xs := evs) rel (hP _ _ (Reach.step (hf i) hx)) (hev _ _ _ _ hx (by rintro t c rfl; simp at ha))
        (hfine _ _ _ _ hx (Or.inr ha))
      simp [OnFlags.step, hx, hy] at hn
  have quiet : ∀ i t, Props.MessageQueueEvent.Quiet P (s.f i) (ftr i) (pat (s.f i)) t := fun i =>
    hq _ _ (hf i) (fun t => none_of i _ (Or.inl ⟨t, rfl⟩) (s4 i t).1) (fun t => none_of i _ (Or.inr ⟨t, rfl⟩) (s4 i t).2.1)
  have hnd : ∀ i u c r, EvF.Spec.phase u (ftr i) ≠ .done c r := by
    intro i u c r hp
    rcases quiet i u with ⟨ho, _⟩ | ⟨c', hc, _⟩
    · rw [ho] at hp; simp at hp
    · rw [hc] at hp; simp at hp
  -- a thread at a flag waits in it, without timeout, and the flag is not set
  have hbl : ∀ u i c, fCall w s.c.p u = some (i, c) → c = .timedWaitAny .forever ∧ a.ev i = false := by
    intro u i c hc
    rcases quiet i u with ⟨_, ho⟩ | ⟨c', hp, h1, h2, h3⟩
    · exfalso
      obtain ⟨f', hf'⟩ := ho c
      have := (s4 i u).2.2 c
      simp [OnFlags.step, hf', onEvs, onEv, hc] at this
    · obtain ⟨c2, h4, h5⟩ := rel.ph i u (by rw [hp]; simp)
      rw [hp] at h4
      simp only [calledBy, Option.some.injEq] at h4
      subst h4
      rw [hc] at h5
      simp only [Option.some.injEq, Prod.mk.injEq, true_and] at h5
      subst h5
      have key : (∃ tm, c = .timedWaitAny tm) ∨ c = .setAll ∨ c = .resetAll := by
        unfold fCall at hc
        split at hc
        · unfold fPos at hc
          split at hc <;> simp at hc <;> obtain ⟨_, rfl⟩ := hc <;> simp
        · unfold fW at hc
          split at hc <;> simp at hc <;> obtain ⟨_, rfl⟩ := hc <;> simp
      rcases key with ⟨tm, rfl⟩ | rfl | rfl
      · have htm := h1 _ _ _ tm rfl
        subst htm
        refine ⟨rfl, ?_⟩
        have hb : a.ev i = (pat (s.f i)).getLsbD 0 := by
          rw [bit_hist (hP _ _ (hf i)).1 (by omega), rel.eq]; rfl
        rw [hb]
        cases hx : (pat (s.f i)).getLsbD 0 with
        | false => rfl
        | true =>
          exfalso
          apply h3
          refine ⟨⟨.OK, none⟩, pat (s.f i), rfl, ?_⟩
          simp only [EvF.Spec.Legal, EvF.Spec.Wait]
          rw [if_neg]
          · left
            exact ⟨⟨0, by omega, rfl, hx⟩, by simp, by simp⟩
          · rintro (hx | hx)
            · simp at hx
            · have := hx 0 (by omega); simp at this
      · simp [Props.EventFlag.waitParams] at h2
      · simp [Props.EventFlag.waitParams] at h2
  have e1 : vPC s.c.p ftr = s.c.p.pc := by
    funext t
    cases hx : fPos w (s.c.p.pc t) with
    | none => exact vPC_none hx
    | some y => obtain ⟨i, c⟩ := y; exact vPC_out hx (hnd i _)
  have e2 : vW s.c.p ftr = s.c.p.w := by funext i; exact vW_eq (hnd i _)
  have ha := rel.eq
  rw [e1, e2] at ha
  have hpc : a.pc = s.c.p.pc := by rw [ha]; rfl
  have hww : a.w = s.c.p.w := by rw [ha]; rfl
  have hmq : ∀ act, OnFlags.step O P s (.mq act) = none → OnQueue.step O ⟨a, s.c.q⟩ (.mq act) = none := by
    intro act hn
    simp only [OnFlags.step, OnQueue.step] at hn ⊢
    cases hx : O s.c.q act with
    | none => rfl
    | some y =>
      obtain ⟨q', evs⟩ := y
      rw [hx] at hn
      simp only at hn ⊢
      rw [ha, qevs_frame]
      cases hy : OnQueue.onEvs s.c.p evs with
      | none => rfl
      | some y => rw [hy] at hn; simp at hn
  refine ⟨⟨a, s.c.q⟩, hr, ?_, fun act hact => hmq act (s2 act hact), fun u c => hmq _ (s3 u c)⟩
  intro act hact
  simp only [OnQueue.step]
  split
  · rfl
  · rename_i hat
    have hat : atQueue a act = false := by simpa using hat
    cases hx : TP.step a act with
    | none => rfl
    | some y =>
      exfalso
      obtain ⟨a', ev⟩ := y
      cases hfl : atFlag w s.c.p act with
      | false =>
        have hfl' : atFlag w a act = false := by
          cases act <;> simp only [atFlag, hpc, hww] at hfl ⊢ <;> exact hfl
        have hat' : atQueue s.c.p act = false := by
          cases act <;> simp only [atQueue, hpc, hww] at hat ⊢ <;> exact hat
        obtain ⟨p', h1, _⟩ := step_frame hat hfl' hx s.c.p.own s.c.p.pc s.c.p.w s.c.p.ev (fun _ _ => by rw [hpc]) (fun _ _ => by rw [hww])
          (fun _ => by rw [hpc]) (fun _ => by rw [hww]) (fun _ _ => by rw [hww])
        have e : mk a s.c.p.own s.c.p.pc s.c.p.w s.c.p.ev = s.c.p := by rw [ha]; rfl
        rw [e] at h1
        have := s1 act hact
        simp [OnFlags.step, OnQueue.step, hfl, hat', h1] at this
      | true =>
        have hcl : ∀ t y, fPos w (s.c.p.pc t) = some y → y.2 = .timedWaitAny .forever ∧ a.ev y.1 = false :=
          fun t y h => hbl (cli t) y.1 y.2 (by simp only [fCall, who_cli]; exact h)
        have hwk : ∀ i y, fW w i (s.c.p.w i) = some y → y.2 = .timedWaitAny .forever ∧ a.ev y.1 = false :=
          fun t y h => hbl (wrk t) y.1 y.2 (by simp only [fCall, who_wrk]; exact h)
        cases act with
        | call t c => exact hact t c rfl
        | go t =>
          simp only [atFlag] at hfl
          obtain ⟨y, hy⟩ := Option.isSome_iff_exists.1 hfl
          have hb := hcl t y hy
          unfold fPos at hy
          split at hy <;> simp at hy <;> subst hy <;> rename_i hp <;> simp only [TP.step, hpc, hp] at hx <;> simp at hb
          · rw [hb.2] at hx; simp at hx
          · rw [hb] at hx; simp at hx
        | expire t =>
          simp only [atFlag] at hfl
          obtain ⟨y, hy⟩ := Option.isSome_iff_exists.1 hfl
          have hb := hcl t y hy
          unfold fPos at hy
          split at hy <;> simp at hy <;> subst hy <;> rename_i hp <;> simp only [TP.step, hpc, hp] at hx <;> simp at hb
          · rw [hb.1] at hx; simp at hx
          · simp at hx
        | pgo i =>
          simp only [atFlag] at hfl
          obtain ⟨y, hy⟩ := Option.isSome_iff_exists.1 hfl
          have hb := hwk i y hy
          unfold fW at hy
          split at hy <;> simp at hy <;> subst hy <;> simp at hb
        | throw i =>
          simp only [atFlag] at hfl
          obtain ⟨y, hy⟩ := Option.isSome_iff_exists.1 hfl
          have hb := hwk i y hy
          unfold fW at hy
          split at hy <;> simp at hy <;> subst hy <;> simp at hb

/-! #### C109 -/

/-- On `MessageQueue<T>` and `StdCppEventFlag`s. -/
theorem C109_std {n : Nat} {d : Int} (hw : 2 ≤ w) {q0 : MQ.OnFlag.CSt Rid (EvF.Std.St w)} {tr0 : List (MQ.Ev Rid)}
    (h0 : Filled (MQ.OnFlag.step (EvF.Std.step false)) (MQ.OnFlag.init Rid n (EvF.Std.init w)) n q0 tr0)
    {s : CSt (MQ.OnFlag.CSt Rid (EvF.Std.St w)) (EvF.Std.St w)} {tr : List Ev}
    (h : Reach (OnFlags.step (MQ.OnFlag.step (EvF.Std.step false)) (EvF.Std.step false)) (OnFlags.init n d q0 (EvF.Std.init w)) s tr) : Correct n d tr := by
  obtain ⟨a, hr, _⟩ := C109_refines (Nat.le_of_succ_le hw) (pat := EvF.Std.St.pat) (flag_good hw (Props.MessageQueueEvent.stdO w) n) h0 (fun f ftr h => Props.EventFlag.std_lin h) h
  exact correct hr

/-- On `MessageQueue<T>` and `ItronEventFlag`s. -/
theorem C109_itron {n : Nat} {d : Int} (hw : 2 ≤ w) {ins : List (EvF.Itron.Waiter w) → EvF.Itron.Waiter w → Nat} {q0 : MQ.OnFlag.CSt Rid (EvF.Itron.St w)}
    {tr0 : List (MQ.Ev Rid)} (h0 : Filled (MQ.OnFlag.step (EvF.Itron.step false ins)) (MQ.OnFlag.init Rid n (EvF.Itron.init w)) n q0 tr0)
    {s : CSt (MQ.OnFlag.CSt Rid (EvF.Itron.St w)) (EvF.Itron.St w)} {tr : List Ev}
    (h : Reach (OnFlags.step (MQ.OnFlag.step (EvF.Itron.step false ins)) (EvF.Itron.step false ins)) (OnFlags.init n d q0 (EvF.Itron.init w)) s tr) : Correct n d tr := by
  obtain ⟨a, hr, _⟩ := C109_refines (Nat.le_of_succ_le hw) (pat := EvF.Itron.St.pat) (flag_good hw (Props.MessageQueueEvent.itronO w ins) n) h0 (fun f ftr h => Props.EventFlag.itron_lin h) h
  exact correct hr

/-- An event flag that destroy has destroyed is not in use, and no thread is at a call of it. -/
theorem C109_std_free {n : Nat} {d : Int} (hw : 2 ≤ w) {q0 : MQ.OnFlag.CSt Rid (EvF.Std.St w)} {tr0 : List (MQ.Ev Rid)}
    (h0 : Filled (MQ.OnFlag.step (EvF.Std.step false)) (MQ.OnFlag.init Rid n (EvF.Std.init w)) n q0 tr0)
    {s : CSt (MQ.OnFlag.CSt Rid (EvF.Std.St w)) (EvF.Std.St w)} {tr : List Ev}
    (h : Reach (OnFlags.step (MQ.OnFlag.step (EvF.Std.step false)) (EvF.Std.step false)) (OnFlags.init n d q0 (EvF.Std.init w)) s tr)
    {i : Rid} (hk : .kill i ∈ tr) : (s.f i).holder = none ∧ (∀ u, (s.f i).pc u = .idle) ∧ ∀ u c, fCall w s.c.p u ≠ some (i, c) := by
  obtain ⟨⟨ftr, hf, ho⟩, hno⟩ := free_of (Nat.le_of_succ_le hw) (flag_good hw (Props.MessageQueueEvent.stdO w) n) h0 (Props.MessageQueueEvent.stdO w) h hk
  have inv := EvF.inv_reach hf
  have hid : ∀ u, (s.f i).pc u = .idle := by
    intro u
    have hl := inv.loc u
    have := ho u
    cases hp : (s.f i).pc u <;> rw [hp] at hl <;> simp only [EvF.Loc] at hl <;> simp_all
  refine ⟨?_, hid, hno⟩
  cases hh : (s.f i).holder with
  | none => rfl
  | some t => have := inv.crit t hh; simp [hid] at this

theorem C109_itron_free {n : Nat} {d : Int} (hw : 2 ≤ w) {ins : List (EvF.Itron.Waiter w) → EvF.Itron.Waiter w → Nat} {q0 : MQ.OnFlag.CSt Rid (EvF.Itron.St w)}
    {tr0 : List (MQ.Ev Rid)} (h0 : Filled (MQ.OnFlag.step (EvF.Itron.step false ins)) (MQ.OnFlag.init Rid n (EvF.Itron.init w)) n q0 tr0)
    {s : CSt (MQ.OnFlag.CSt Rid (EvF.Itron.St w)) (EvF.Itron.St w)} {tr : List Ev}
    (h : Reach (OnFlags.step (MQ.OnFlag.step (EvF.Itron.step false ins)) (EvF.Itron.step false ins)) (OnFlags.init n d q0 (EvF.Itron.init w)) s tr)
    {i : Rid} (hk : .kill i ∈ tr) : (s.f i).queue = [] ∧ (∀ u, (s.f i).pc u = .idle) ∧ ∀ u c, fCall w s.c.p u ≠ some (i, c) := by
  obtain ⟨⟨ftr, hf, ho⟩, hno⟩ := free_of (Nat.le_of_succ_le hw) (flag_good hw (Props.MessageQueueEvent.itronO w ins) n) h0 (Props.MessageQueueEvent.itronO w ins) h hk
  have inv := EvF.iinv_reach hf
  have hid : ∀ u, (s.f i).pc u = .idle := by
    intro u
    have hl := inv.loc u
    have := ho u
    cases hp : (s.f i).pc u <;> rw [hp] at hl <;> simp only [EvF.ILoc] at hl <;> simp_all
  refine ⟨?_, hid, hno⟩
  cases hh : (s.f i).queue with
  | nil => rfl
  | cons x l => have := (inv.queue x (by rw [hh]; simp)).1; simp [hid] at this

/-- The locks of the queue and of the event flags never make pool calls wait for each other. -/
theorem C109_std_stuck {n : Nat} {d : Int} (hw : 2 ≤ w) {q0 : MQ.OnFlag.CSt Rid (EvF.Std.St w)} {tr0 : List (MQ.Ev Rid)}
    (h0 : Filled (MQ.OnFlag.step (EvF.Std.step false)) (MQ.OnFlag.init Rid n (EvF.Std.init w)) n q0 tr0)
    {s : CSt (MQ.OnFlag.CSt Rid (EvF.Std.St w)) (EvF.Std.St w)} {tr : List Ev}
    (h : Reach (OnFlags.step (MQ.OnFlag.step (EvF.Std.step false)) (EvF.Std.step false)) (OnFlags.init n d q0 (EvF.Std.init w)) s tr)
    (hst : Stuck (MQ.OnFlag.step (EvF.Std.step false)) (EvF.Std.step false) flagProg (fun u c => .mq (.call u c)) s) : OnlyStarts n tr := by
  obtain ⟨c, hc, hs⟩ := stuck_flags (Nat.le_of_succ_le hw) (pat := EvF.Std.St.pat) (flag_good hw (Props.MessageQueueEvent.stdO w) n) h0
    (fun f ftr h => Props.EventFlag.std_lin h) Props.MessageQueueEvent.std_calls (fun f ftr h hg ht t => Props.MessageQueueEvent.std_quiet h hg ht t) std_fine h hst
  exact Props.ThreadPoolQueue.C100_std_stuck hw h0 hc hs

theorem C109_itron_stuck {n : Nat} {d : Int} (hw : 2 ≤ w) {ins : List (EvF.Itron.Waiter w) → EvF.Itron.Waiter w → Nat} {q0 : MQ.OnFlag.CSt Rid (EvF.Itron.St w)}
    {tr0 : List (MQ.Ev Rid)} (h0 : Filled (MQ.OnFlag.step (EvF.Itron.step false ins)) (MQ.OnFlag.init Rid n (EvF.Itron.init w)) n q0 tr0)
    {s : CSt (MQ.OnFlag.CSt Rid (EvF.Itron.St w)) (EvF.Itron.St w)} {tr : List Ev}
    (h : Reach (OnFlags.step (MQ.OnFlag.step (EvF.Itron.step false ins)) (EvF.Itron.step false ins)) (OnFlags.init n d q0 (EvF.Itron.init w)) s tr)
    (hst : Stuck (MQ.OnFlag.step (EvF.Itron.step false ins)) (EvF.Itron.step false ins) flagProg (fun u c => .mq (.call u c)) s) : OnlyStarts n tr := by
  obtain ⟨c, hc, hs⟩ := stuck_flags (Nat.le_of_succ_le hw) (pat := EvF.Itron.St.pat) (flag_good hw (Props.MessageQueueEvent.itronO w ins) n) h0
    (fun f ftr h => Props.EventFlag.itron_lin h) Props.MessageQueueEvent.itron_calls (fun f ftr h hg ht t => Props.MessageQueueEvent.itron_quiet h hg ht t) itron_fine h hst
  exact Props.ThreadPoolQueue.C100_itron_stuck hw h0 hc hs

/-! #### A concrete execution -/

abbrev FAct := EvF.Act 2
abbrev QAct := MQ.OnFlag.CAct Rid 2
/-- A step of the pool, of the queue, of the queue's event flag, of the event flag of pool thread 0. -/
def tp (a : Act) : CAct QAct 2 := .tp a
def qm (a : MQ.Act Rid) : CAct QAct 2 := .mq (.mq a)
def qe (a : FAct) : CAct QAct 2 := .mq (.ev a)
def fe (a : FAct) : CAct QAct 2 := .ev 0 a

/-- A call of a flag by `u` and its `m` steps; the same for the queue's flag. -/
def feCall (u : Tid) (c : EvF.Call 2) (m : Nat) : List (CAct QAct 2) := fe (.call u c) :: List.replicate m (fe (.go u))
def qeCall (u : Tid) (c : EvF.Call 2) (m : Nat) : List (CAct QAct 2) := qe (.call u c) :: List.replicate m (qe (.go u))
/-- A send of runner 0 by `u`; a receive by `u` that finds a runner; one that does not, up to the wait for the queue's flag. -/
def sends (u : Tid) : List (CAct QAct 2) := qm (.call u (.send 0)) :: List.replicate 8 (qm (.go u)) ++ qeCall u (.set 1) 6 ++ List.replicate 3 (qm (.go u))
def takes (u : Tid) (c : MQ.Call Rid) : List (CAct QAct 2) := qm (.call u c) :: List.replicate 9 (qm (.go u)) ++ qeCall u (.set 2) 6 ++ List.replicate 3 (qm (.go u))
def waits (u : Tid) (c : MQ.Call Rid) (tm : Tmo) : List (CAct QAct 2) :=
  qm (.call u c) :: List.replicate 4 (qm (.go u)) ++ qeCall u (.reset 1) 5 ++ [qm (.go u)] ++ qeCall u (.timedWait 1 .OR false tm) 3

/-- Client 1 starts task 7 with guard 5 and priority 3; client 2 wants to start task 8 and finds the queue empty: it sleeps in the queue's event flag; client 1
waits on the guard and sleeps in the event flag of the thread; the task runs and throws, the thread wakes client 1. -/
def waiting : List (CAct QAct 2) :=
  [tp (.call 1 (.start (some 7) .forever (some 5) 3)), tp (.go 1)] ++ takes 2 (.timedReceive true .forever) ++ List.replicate 6 (tp (.go 1)) ++
  [tp (.call 2 (.start (some 8) .forever none 4)), tp (.go 2)] ++ waits 4 (.timedReceive true .forever) .forever ++
  [tp (.call 1 (.wait 5 .forever)), tp (.go 1)] ++ feCall 2 (.timedWaitAny .forever) 3 ++
  [tp (.pgo 0), tp (.throw 0), tp (.pgo 0), tp (.pgo 0)] ++ feCall 1 .setAll 6 ++ [tp (.pgo 0), tp (.pgo 0)] ++
  List.replicate 6 (fe (.go 2)) ++ [tp (.go 1)]

/-- Client 1 releases the guard, which puts the thread back into the queue and wakes client 2; task 8 runs, the thread puts itself back; client 3 destroys
the pool. -/
def ending : List (CAct QAct 2) :=
  [tp (.call 1 (.release 5)), tp (.go 1)] ++ feCall 2 (.timedWaitAny .forever) 7 ++ feCall 2 .resetAll 5 ++ sends 2 ++ List.replicate 2 (tp (.go 1)) ++
  List.replicate 6 (qe (.go 4)) ++ List.replicate 4 (qm (.go 4)) ++ qeCall 4 (.set 2) 6 ++ List.replicate 3 (qm (.go 4)) ++ List.replicate 6 (tp (.go 2)) ++
  List.replicate 4 (tp (.pgo 0)) ++ feCall 1 .resetAll 5 ++ sends 1 ++ List.replicate 2 (tp (.pgo 0)) ++
  [tp (.call 3 .destroy), tp (.go 3), tp (.go 3)] ++ takes 6 (.tryReceive true) ++ waits 6 (.tryReceive true) (.ms 0) ++
  qe (.timeout 6) :: List.replicate 4 (qe (.go 6)) ++ List.replicate 2 (qm (.go 6)) ++ [tp (.go 3)]

/-- create(1): the runner 0 is put into the queue. -/
def fill : List QAct := Props.ThreadPoolQueue.sendAs 0 (.call 0 (.set 1) :: List.replicate 6 (.go 0))

def full1 : MQ.OnFlag.CSt Rid (EvF.Std.St 2) × List (MQ.Ev Rid) :=
  (run (MQ.OnFlag.step (EvF.Std.step false)) fill (MQ.OnFlag.init Rid 1 (EvF.Std.init 2))).get (by decide)

theorem fill_filled : Filled (MQ.OnFlag.step (EvF.Std.step false)) (MQ.OnFlag.init Rid 1 (EvF.Std.init 2)) 1 full1.1 full1.2 := by
  have h : Reach (MQ.OnFlag.step (EvF.Std.step false)) (MQ.OnFlag.init Rid 1 (EvF.Std.init 2)) full1.1 full1.2 := by
    have : run (MQ.OnFlag.step (EvF.Std.step false)) fill (MQ.OnFlag.init Rid 1 (EvF.Std.init 2)) = some (full1.1, full1.2) := (Option.some_get (by decide)).symm
    simpa using run_reach fill Reach.init this
  refine Props.ThreadPoolQueue.filled_of (flag_good (by decide) (Props.MessageQueueEvent.stdO 2) 1) h (by decide) (by decide) ?_
  intro u
  have e : full1.2 = [.call 0 (.send 0), .lin 0 (.send 0) (.done .OK none), .ret 0 (.send 0) (.done .OK none)] := by decide
  rw [e]
  by_cases h : 0 = u <;> simp [qphase, MQ.Spec.phase, MQ.Spec.Phase.next, h]

abbrev Pool := CSt (MQ.OnFlag.CSt Rid (EvF.Std.St 2)) (EvF.Std.St 2)
abbrev pstep : Pool → CAct QAct 2 → Option (Pool × List Ev) := OnFlags.step (MQ.OnFlag.step (EvF.Std.step false)) (EvF.Std.step false)
abbrev pool1 : Pool := OnFlags.init 1 5 full1.1 (EvF.Std.init 2)

set_option maxRecDepth 40000 in
/-- All of it: the hypotheses of C109_std and C109_std_free. -/
example : ∃ s tr, Reach pstep pool1 s tr ∧
    decide (Ev.ret 1 (.wait 5 .forever) .ok ∈ tr ∧ Ev.ret 1 (.release 5) .done ∈ tr ∧ Ev.ret 2 (.start (some 8) .forever none 4) .ok ∈ tr ∧
    Ev.ret 3 .destroy .done ∈ tr ∧ Ev.kill 0 ∈ tr ∧ Props.ThreadPool.begun 0 tr = [(7, 3), (8, 4)] ∧ s.c.p.gone = true) = true :=
  runSat_ex (step := pstep) (init := pool1) (as := waiting ++ ending) (P := fun s tr => decide (Ev.ret 1 (.wait 5 .forever) .ok ∈ tr ∧ Ev.ret 1 (.release 5) .done ∈ tr ∧ Ev.ret 2 (.start (some 8) .forever none 4) .ok ∈ tr ∧
    Ev.ret 3 .destroy .done ∈ tr ∧ Ev.kill 0 ∈ tr ∧ Props.ThreadPool.begun 0 tr = [(7, 3), (8, 4)] ∧ s.c.p.gone = true)) (by decide)

set_option maxRecDepth 40000 in
/-- The hypothesis of the stuck theorem: after `waiting`, task 7 is over, its guard not released; client 2 sleeps inside the event flag of the queue. -/
example : ∃ s tr, Reach pstep pool1 s tr ∧ Stuck (MQ.OnFlag.step (EvF.Std.step false)) (EvF.Std.step false) flagProg (fun u c => .mq (.call u c)) s ∧
    TP.Spec.phase 2 tr = .called (.start (some 8) .forever none 4) := by
  obtain ⟨s, tr, h, hp⟩ := runSat_ex (step := pstep) (init := pool1) (as := waiting)
    (P := fun s tr => decide (s.c.p.inside = [2] ∧ s.c.p.pc 2 = .on (.start (some 8) .forever none 4) .sRecv ∧
      s.c.q.m.pc 4 = .rWait (.timedReceive true .forever) true .forever ∧ s.c.q.f.pc 4 = .sleep (.timedWait 1 .OR false .forever) ⟨1, .OR, false, .forever⟩ ∧
      s.c.p.w 0 = .finished ∧ TP.Spec.phase 2 tr = .called (.start (some 8) .forever none 4))) (by decide)
  simp only [decide_eq_true_eq] at hp
  obtain ⟨h1, h2, h3, h4, h5, h6⟩ := hp
  refine ⟨s, tr, h, ?_, h6⟩
  have hg := flag_good (by decide) (Props.MessageQueueEvent.stdO 2) 1
  obtain ⟨a1, ftr, qtr1, hf, hq1, hr1, rel⟩ := OnFlags.simulation (by decide) (not_bad hg) fill_filled.1 fill_filled.2.2 (Props.MessageQueueEvent.stdO 2) h
  obtain ⟨a, qtr, q, hq, _, hr, relq⟩ := OnQueue.simulation hg fill_filled hr1
  obtain ⟨m, etr, he, hm, relm⟩ := MQ.OnFlag.simulation (by decide) (Props.MessageQueueEvent.stdO 2) hq
  simp only at he relm
  have S := (TP.Inv.reach hr).st
  have hcl : ∀ v, callOf (s.c.p.pc v) = callOf (a.pc v) := by
    intro v; rw [relq.pc, OnQueue.vPC_call]; show _ = callOf (a1.pc v); rw [rel.pc, vPC_call]
  have hin : a.inside = [2] := by rw [relq.eq]; show a1.inside = [2]; rw [rel.eq]; exact h1
  have hpc : ∀ t, t ≠ 2 → s.c.p.pc t = .idle := by
    intro t ht
    have hi : a.pc t = .idle := by
      apply Classical.byContradiction
      intro hne
      have := (S.ins t).2 hne
      rw [hin] at this; simp at this; exact ht this
    have := hcl t
    rw [hi] at this
    cases hx : s.c.p.pc t with
    | idle => rfl
    | on c q => rw [hx] at this; simp [callOf] at this
  have hw : ∀ i, s.c.p.w i = .finished ∨ s.c.p.w i = .dead := by
    intro i
    cases i with
    | zero => exact Or.inl h5
    | succ i =>
      right
      have R := S.rs (i + 1)
      unfold RShape at R
      rw [S.od (i + 1) (by omega)] at R
      simp only [relq.w] at R
      have h2 : a1.w (i + 1) = .dead := by
        unfold OnQueue.vW at R
        split at R
        · cases hx : a1.w (i + 1) <;> rw [hx] at R <;> simp [OnQueue.afterW] at R ⊢
        · exact R
      rw [rel.wk] at h2
      unfold vW at h2
      split at h2
      · cases hx : s.c.p.w (i + 1) <;> rw [hx] at h2 <;> simp [afterW] at h2 ⊢
      · exact h2
  have hfc : ∀ u, fCall 2 s.c.p u = none := by
    intro u
    unfold fCall
    cases hwu : who u with
    | client t =>
      by_cases e : t = 2
      · subst e; simp [h2, fPos]
      · simp [hpc t e, fPos]
    | worker i => rcases hw i with e | e <;> simp [e, fW]
  have hfl : ∀ i u, (s.f i).pc u = .idle := by
    intro i u
    have hl := (EvF.inv_reach (hf i)).loc u
    rw [rel.out (hfc u) i] at hl
    cases hp : (s.f i).pc u <;> rw [hp] at hl <;> simp [EvF.Loc] at hl ⊢
  have hqc : ∀ u, u ≠ 4 → qCall s.c.p u = none := by
    intro u hu
    unfold qCall
    cases hwu : who u with
    | client t =>
      have : t ≠ 2 := fun e => hu (by rw [who_client hwu, e]; rfl)
      simp [hpc t this, qPos]
    | worker i => rcases hw i with e | e <;> simp [e, qW]
  have hqc1 : ∀ u, u ≠ 4 → qCall a1 u = none := by
    intro u hu
    have e := hqc u hu
    have e' := hfc u
    unfold qCall at e ⊢
    unfold fCall at e'
    cases hwu : who u with
    | client t => rw [hwu] at e e'; simp only at e e' ⊢; rw [rel.pc, vPC_none e']; exact e
    | worker i => rw [hwu] at e e'; simp only at e e' ⊢; rw [rel.wk, rel.vW_none e']; exact e
  obtain ⟨l, I⟩ := MQ.Inv.reach hm
  have hidle : ∀ u, u ≠ 4 → m.pc u = .idle := by
    intro u hu
    have ho : qphase u qtr = .out := by
      apply Classical.byContradiction
      intro hne
      exact (relq.ph u hne).2 (hqc1 u hu)
    have hl := I.loc u
    unfold qphase at ho
    rw [ho] at hl
    cases hpu : m.pc u <;> rw [hpu] at hl <;> simp [MQ.Loc, MQ.Called] at hl ⊢
  have hmi : ∀ u, u ≠ 4 → s.c.q.m.pc u = .idle := by
    intro u hu
    have := hidle u hu
    have e : m.pc u = MQ.OnFlag.view s.c.q.m etr u := by rw [relm.eq]; rfl
    rw [e] at this
    unfold MQ.OnFlag.view at this
    split at this
    · cases hx : s.c.q.m.pc u <;> rw [hx] at this <;> simp [MQ.OnFlag.after] at this ⊢
      all_goals (split at this <;> simp at this)
    · exact this
  have hei : ∀ u, u ≠ 4 → s.c.q.f.pc u = .idle := by
    intro u hu
    have hl := (EvF.inv_reach he).loc u
    have hk := relm.ph u
    rw [hmi u hu] at hk
    cases hp : s.c.q.f.pc u <;> rw [hp] at hl <;> simp only [EvF.Loc] at hl
    all_goals first
      | rfl
      | (rw [hl] at hk; simp [MQ.OnFlag.okPhase, MQ.OnFlag.evCall] at hk)
      | (rw [hl.1] at hk; simp [MQ.OnFlag.okPhase, MQ.OnFlag.evCall] at hk)
  have hub : s.c.q.m.ub = false := by have := I.ub; rw [relm.eq] at this; exact this
  refine ⟨?_, ?_, ?_, ?_⟩
  · intro act hact
    cases act with
    | call t c => exact absurd rfl (hact t c)
    | go t =>
      by_cases e : t = 2
      · subst e; simp [OnFlags.step, OnQueue.step, atQueue, h2, qPos]
      · simp [OnFlags.step, OnQueue.step, atQueue, hpc t e, qPos, TP.step]
    | expire t =>
      by_cases e : t = 2
      · subst e; simp [OnFlags.step, OnQueue.step, atQueue, h2, qPos]
      · simp [OnFlags.step, OnQueue.step, atQueue, hpc t e, qPos, TP.step]
    | pgo i => rcases hw i with e | e <;> simp [OnFlags.step, OnQueue.step, atQueue, e, qW, TP.step]
    | throw i => rcases hw i with e | e <;> simp [OnFlags.step, OnQueue.step, atQueue, e, qW, TP.step]
  · intro act hact
    cases act with
    | mq act =>
      cases act with
      | go u =>
        by_cases e : u = 4
        · subst e; simp [OnFlags.step, OnQueue.step, MQ.OnFlag.step, MQ.OnFlag.tid, h3, MQ.OnFlag.evCall]
        · simp [OnFlags.step, OnQueue.step, MQ.OnFlag.step, MQ.OnFlag.tid, MQ.step, hub, hmi u e]
      | expire u =>
        by_cases e : u = 4
        · subst e; simp [OnFlags.step, OnQueue.step, MQ.OnFlag.step, MQ.OnFlag.tid, h3, MQ.OnFlag.evCall]
        · simp [OnFlags.step, OnQueue.step, MQ.OnFlag.step, MQ.OnFlag.tid, MQ.step, hub, hmi u e]
      | _ => exact hact.elim
    | ev act =>
      cases act with
      | go u =>
        by_cases e : u = 4
        · subst e; simp [OnFlags.step, OnQueue.step, MQ.OnFlag.step, EvF.Std.step, h4]
        · simp [OnFlags.step, OnQueue.step, MQ.OnFlag.step, EvF.Std.step, hei u e]
      | timeout u =>
        by_cases e : u = 4
        · subst e; simp [OnFlags.step, OnQueue.step, MQ.OnFlag.step, EvF.Std.step, h4]
        · simp [OnFlags.step, OnQueue.step, MQ.OnFlag.step, EvF.Std.step, hei u e]
      | call u c =>
        by_cases e : u = 4
        · subst e; simp [OnFlags.step, OnQueue.step, MQ.OnFlag.step, EvF.Std.step, h4]
        · simp [OnFlags.step, OnQueue.step, MQ.OnFlag.step, EvF.Std.step, hei u e, MQ.OnFlag.onEvs, MQ.OnFlag.onEv, hmi u e, MQ.OnFlag.evCall]
      | _ => exact hact.elim
  · intro u c
    by_cases e : u = 4
    · subst e; simp [OnFlags.step, OnQueue.step, MQ.OnFlag.step, MQ.OnFlag.tid, h3, MQ.OnFlag.evCall]
    · simp [OnFlags.step, OnQueue.step, MQ.OnFlag.step, MQ.OnFlag.tid, MQ.OnFlag.evCall, MQ.step, hub, hmi u e, OnQueue.onEvs, OnQueue.onEv, hqc u e]
  · intro i u
    refine ⟨?_, ?_, fun c => ?_⟩ <;> simp [OnFlags.step, EvF.Std.step, hfl, OnFlags.onEvs, OnFlags.onEv, hfc]

end Verif.Props.ThreadPoolFlag
