import Verif.Model.ThreadPoolFlag
import Verif.Proof.ThreadPoolQueue
import Verif.Proof.MessageQueueEvent
/-
Refinement of the pool on linearizable event flag programs to the pool on atomic event flags (and the same queue program).
-/
set_option linter.unusedSimpArgs false
set_option linter.unusedVariables false
namespace Verif.TP.OnFlags
open Verif TP
open _root_.Verif.Lts (Reach run)
open _root_.Verif.Mtx (Tid Err)
open _root_.Verif.EvF (Tmo)
open _root_.Verif.Props.EventFlag (bitOf bit_hist bitAfter)
open _root_.Verif.TP.OnQueue (cli wrk who who_cli who_wrk who_client who_worker cli_inj wrk_inj cli_wrk qPos qW qCall atQueue merge merge_self merge_upd clash_eq qphase qphase_snoc upd_view)
variable {w : Nat}

/-- The state of the pool on atomic flags. -/
def mk (p : St) (own : Rid → Own) (pc : Tid → PC) (wk : Rid → W) (e : Rid → Bool) : St := { p with own := own, pc := pc, w := wk, ev := e }

/-- A step of the pool's own code is a step of the abstract pool. -/
theorem step_frame {p p' : St} {act : Act} {ev : List Ev} (hc : atQueue p act = false) (hf : atFlag w p act = false) (hs : TP.step p act = some (p', ev))
    (O : Rid → Own) (pc : Tid → PC) (wk : Rid → W) (e : Rid → Bool)
    (hpc : ∀ t, (∃ c, act = .call t c) ∨ act = .go t ∨ act = .expire t → pc t = p.pc t)
    (hw : ∀ i, act = .pgo i ∨ act = .throw i → wk i = p.w i)
    (hcall : ∀ u, callOf (pc u) = callOf (p.pc u)) (hfin : ∀ i, wk i = .finished ↔ p.w i = .finished)
    (hfr : ∀ i, p.w i = .finished → wk i = p.w i) :
    ∃ a', TP.step (mk p O pc wk e) act = some (a', ev) ∧ a' = mk p' a'.own (merge p.pc p'.pc pc) (merge p.w p'.w wk) e := by
  cases act with
  | call t c =>
    have hp := hpc t (Or.inl ⟨c, rfl⟩)
    simp only [TP.step] at hs ⊢
    split at hs
    · rename_i h
      simp only [Option.some.injEq, Prod.mk.injEq] at hs
      obtain ⟨rfl, rfl⟩ := hs
      have h' : (mk p O pc wk e).pc t = .idle ∧ (mk p O pc wk e).gone = false ∧ (mk p O pc wk e).dying = none ∧ (c = .destroy → (mk p O pc wk e).inside = []) ∧
          (∀ u, u ∈ (mk p O pc wk e).inside → clash c ((mk p O pc wk e).pc u) = false) ∧ freshGuard (mk p O pc wk e) c = true := by
        refine ⟨hp.trans h.1, h.2.1, h.2.2.1, h.2.2.2.1, ?_, h.2.2.2.2.2⟩
        intro u hu
        have := h.2.2.2.2.1 u hu
        rw [clash_eq] at this ⊢
        show (match callOf (pc u) with | some c' => conflict c c' | none => false) = false
        rw [hcall]; exact this
      rw [if_pos h']
      refine ⟨_, rfl, ?_⟩
      simp only [mk, St.at]
      rw [merge_upd hp, merge_self]
    · cases hs
  | go t =>
    have hp := hpc t (Or.inr (Or.inl rfl))
    simp only [atQueue] at hc
    simp only [atFlag] at hf
    simp only [TP.step] at hs ⊢
    have hp' : (mk p O pc wk e).pc t = p.pc t := hp
    rw [hp']
    have hu : ∀ x, merge p.pc (upd p.pc t x) pc = upd pc t x := fun x => merge_upd hp
    have hm : ∀ i, p.w i = .finished → ∀ x, merge p.w (upd p.w i x) wk = upd wk i x := fun i hi x => merge_upd (hfr i hi)
    have hwm : (mk p O pc wk e).w = wk := rfl
    have hnm : (mk p O pc wk e).n = p.n := rfl
    have hgm : (mk p O pc wk e).guard = p.guard := rfl
    cases hq : p.pc t with
    | idle => rw [hq] at hs; simp at hs
    | on c q =>
      rw [hq] at hs hc hf
      rcases c with ⟨_ | k, tm, g, pr⟩ | ⟨g, tm⟩ | g | g | _ <;> cases q <;>
        simp only [qPos, Option.isSome_some, Option.isSome_none, reduceCtorEq, Bool.true_eq_false] at hc <;>
        simp only [fPos, Option.isSome_some, Option.isSome_none, reduceCtorEq, Bool.true_eq_false] at hf <;>
        simp only [hwm, hnm, hgm, hfin] at hs ⊢ <;> (repeat' split at hs) <;>
        simp only [Option.some.injEq, Prod.mk.injEq, reduceCtorEq] at hs <;> obtain ⟨rfl, rfl⟩ := hs <;>
        ((try simp only [*, if_true, if_false]); exact ⟨_, rfl, by simp_all [mk, St.at, St.wAt, St.ownAt, St.evAt, merge_self]⟩)
  | expire t => 
    have hp := hpc t (Or.inr (Or.inr rfl))
    simp only [atQueue] at hc
    simp only [atFlag] at hf
    simp only [TP.step] at hs ⊢
    have hp' : (mk p O pc wk e).pc t = p.pc t := hp
    rw [hp']
    have hu : ∀ x, merge p.pc (upd p.pc t x) pc = upd pc t x := fun x => merge_upd hp
    have hwm : (mk p O pc wk e).w = wk := rfl
    cases hq : p.pc t with
    | idle => rw [hq] at hs; simp at hs
    | on c q =>
      rw [hq] at hs hc hf
      rcases c with ⟨_ | k, tm, g, pr⟩ | ⟨g, tm⟩ | g | g | _ <;> cases q <;>
        simp only [qPos, Option.isSome_some, Option.isSome_none, reduceCtorEq, Bool.true_eq_false] at hc <;>
        simp only [fPos, Option.isSome_some, Option.isSome_none, reduceCtorEq, Bool.true_eq_false] at hf <;>
        simp only [hwm, hfin, ne_eq] at hs ⊢ <;> (repeat' split at hs) <;>
        simp only [Option.some.injEq, Prod.mk.injEq, reduceCtorEq] at hs <;> obtain ⟨rfl, rfl⟩ := hs <;>
        (simp only [*, if_true, if_false, not_false_eq_true, and_self]; exact ⟨_, rfl, by simp_all [mk, St.at, St.wAt, St.ownAt, St.evAt, merge_self]⟩)
  | pgo i =>
    have hp := hw i (Or.inl rfl)
    simp only [atQueue] at hc
    simp only [atFlag] at hf
    simp only [TP.step] at hs ⊢
    have hp' : (mk p O pc wk e).w i = p.w i := hp
    rw [hp']
    have hu : ∀ x, merge p.w (upd p.w i x) wk = upd wk i x := fun x => merge_upd hp
    have htm : (mk p O pc wk e).task = p.task := rfl
    have hnm : (mk p O pc wk e).needs = p.needs := rfl
    have hdm : (mk p O pc wk e).dflt = p.dflt := rfl
    have hpm : (mk p O pc wk e).prio = p.prio := rfl
    cases h : p.w i <;> rw [h] at hs hc hp hf <;> simp only [qW, Option.isSome_some, Option.isSome_none, reduceCtorEq, Bool.true_eq_false] at hc hs <;>
      simp only [fW, Option.isSome_some, Option.isSome_none, reduceCtorEq, Bool.true_eq_false] at hf <;>
      simp only [htm, hnm, hdm, hpm] at hs ⊢ <;> (try (cases ht : p.task i <;> rw [ht] at hs)) <;>
      simp only [Option.some.injEq, Prod.mk.injEq, reduceCtorEq] at hs <;> obtain ⟨rfl, rfl⟩ := hs <;>
      exact ⟨_, rfl, by simp_all [mk, St.at, St.wAt, St.ownAt, St.evAt, merge_self]⟩
  | throw i => 
    have hp := hw i (Or.inr rfl)
    simp only [TP.step] at hs ⊢
    have hp' : (mk p O pc wk e).w i = p.w i := hp
    rw [hp']
    cases h : p.w i <;> rw [h] at hs hp <;> simp only [reduceCtorEq] at hs ⊢ 
    simp only [Option.some.injEq, Prod.mk.injEq] at hs
    obtain ⟨rfl, rfl⟩ := hs
    refine ⟨_, rfl, ?_⟩
    simp only [mk, St.wAt, Option.some.injEq, Prod.mk.injEq, and_true]
    rw [merge_upd (hp.trans h.symm), merge_self]

/-- What a step of the pool's own code can change. -/
theorem moved {p p' : St} {act : Act} {ev : List Ev} (hc : atQueue p act = false) (hs : TP.step p act = some (p', ev)) :
    (∀ t, p'.pc t ≠ p.pc t → (∃ c, act = .call t c) ∨ act = .go t ∨ act = .expire t) ∧
    (∀ i, p'.w i ≠ p.w i → p.w i = .finished ∨ act = .pgo i ∨ act = .throw i) := by
  have hpc : ∀ (t : Tid) (x : PC) u, upd p.pc t x u ≠ p.pc u → u = t := by
    intro t x u hu
    by_cases e : u = t
    · exact e
    · simp [upd, e] at hu
  have hw : ∀ (t : Rid) (x : W) u, upd p.w t x u ≠ p.w u → u = t := by
    intro t x u hu
    by_cases e : u = t
    · exact e
    · simp [upd, e] at hu
  cases act with
  | call t c =>
    simp only [TP.step] at hs
    split at hs
    · simp only [Option.some.injEq, Prod.mk.injEq] at hs
      obtain ⟨rfl, rfl⟩ := hs
      exact ⟨fun u hu => by rw [hpc _ _ _ hu]; exact Or.inl ⟨c, rfl⟩, fun i hi => absurd rfl hi⟩
    · simp at hs
  | go t =>
    simp only [atQueue] at hc
    simp only [TP.step] at hs
    cases hq : p.pc t with
    | idle => rw [hq] at hs; simp at hs
    | on c q =>
      rw [hq] at hs hc
      rcases c with ⟨_ | k, tm, g, pr⟩ | ⟨g, tm⟩ | g | g | _ <;> cases q <;>
        simp only [qPos, Option.isSome_some, Option.isSome_none, reduceCtorEq, Bool.true_eq_false] at hc <;>
        simp only at hs <;> (repeat' split at hs) <;>
        simp only [Option.some.injEq, Prod.mk.injEq, reduceCtorEq] at hs <;> obtain ⟨rfl, rfl⟩ := hs <;>
        first
        | exact ⟨fun u hu => by rw [hpc _ _ _ hu]; exact Or.inr (Or.inl rfl), fun i hi => absurd rfl hi⟩
        | exact ⟨fun u hu => by rw [hpc _ _ _ hu]; exact Or.inr (Or.inl rfl), fun i hi => by rw [hw _ _ _ hi]; left; assumption⟩
  | expire t =>
    simp only [TP.step] at hs
    (repeat' split at hs) <;>
        simp only [Option.some.injEq, Prod.mk.injEq, reduceCtorEq] at hs <;> obtain ⟨rfl, rfl⟩ := hs <;>
        exact ⟨fun u hu => by rw [hpc _ _ _ hu]; exact Or.inr (Or.inr rfl), fun i hi => absurd rfl hi⟩
  | pgo i =>
    simp only [TP.step] at hs
    (repeat' split at hs) <;>
        simp only [Option.some.injEq, Prod.mk.injEq, reduceCtorEq] at hs <;> obtain ⟨rfl, rfl⟩ := hs <;>
        exact ⟨fun u hu => absurd rfl hu, fun j hj => by rw [hw _ _ _ hj]; exact Or.inr (Or.inl rfl)⟩
  | throw i =>
    simp only [TP.step] at hs
    (repeat' split at hs) <;>
        simp only [Option.some.injEq, Prod.mk.injEq, reduceCtorEq] at hs <;> obtain ⟨rfl, rfl⟩ := hs <;>
        exact ⟨fun u hu => absurd rfl hu, fun j hj => by rw [hw _ _ _ hj]; exact Or.inr (Or.inr rfl)⟩

/-! #### The program points as the pool on atomic flags sees them -/

def vPC (p : St) (ftr : Rid → List (EvF.Ev w)) (t : Tid) : PC :=
  match fPos w (p.pc t) with
  | none => p.pc t
  | some (i, _) => match EvF.Spec.phase (cli t) (ftr i) with
    | .done _ r => afterPC (p.pc t) r
    | _ => p.pc t
def vW (p : St) (ftr : Rid → List (EvF.Ev w)) (i : Rid) : W :=
  match EvF.Spec.phase (wrk i) (ftr i) with
  | .done _ _ => afterW (p.w i)
  | _ => p.w i

def calledBy : EvF.Spec.Phase w → Option (EvF.Call w)
  | .called c => some c
  | .done c _ => some c
  | _ => none

structure Rel (p : St) (ftr : Rid → List (EvF.Ev w)) (qtr : List (MQ.Ev Rid)) (a : St) : Prop where
  eq : a = mk p a.own (vPC p ftr) (vW p ftr) (fun i => bitOf false 0 (EvF.Spec.effects (ftr i)))
  ph : ∀ i u, EvF.Spec.phase u (ftr i) ≠ .out → ∃ c, calledBy (EvF.Spec.phase u (ftr i)) = some c ∧ fCall w p u = some (i, c)
  bits : ∀ i k, k < w → bitOf false k (EvF.Spec.effects (ftr i)) = bitOf false 0 (EvF.Spec.effects (ftr i))
  qph : ∀ u, qphase u qtr ≠ .out → qCall p u ≠ none

theorem fPos_qPos {p : PC} (h : qPos p ≠ none) : fPos w p = none := by
  cases p with
  | idle => rfl
  | on c q => rcases c with ⟨_ | k, tm, g, pr⟩ | ⟨g, tm⟩ | g | g | _ <;> cases q <;> simp_all [qPos, fPos]
theorem fW_qW {i : Rid} {p : W} (h : qW i p ≠ none) : fW w i p = none := by
  cases p <;> simp_all [qW, fW]

section
variable {p : St} {ftr : Rid → List (EvF.Ev w)}
theorem vPC_none {t : Tid} (h : fPos w (p.pc t) = none) : vPC p ftr t = p.pc t := by unfold vPC; rw [h]
theorem vPC_out {t : Tid} {i : Rid} {c} (h : fPos w (p.pc t) = some (i, c)) (h' : ∀ c r, EvF.Spec.phase (cli t) (ftr i) ≠ .done c r) : vPC p ftr t = p.pc t := by
  unfold vPC; rw [h]
  cases h2 : EvF.Spec.phase (cli t) (ftr i) with
  | done c r => exact absurd h2 (h' _ _)
  | _ => simp [h2]
theorem vPC_done {t : Tid} {i : Rid} {c c' r} (h : fPos w (p.pc t) = some (i, c)) (h' : EvF.Spec.phase (cli t) (ftr i) = .done c' r) :
    vPC p ftr t = afterPC (p.pc t) r := by
  unfold vPC; rw [h]; simp only; rw [h']
theorem vPC_congr {p' : St} {ftr' : Rid → List (EvF.Ev w)} {t : Tid} (h : p'.pc t = p.pc t)
    (h' : ∀ i, EvF.Spec.phase (cli t) (ftr' i) = EvF.Spec.phase (cli t) (ftr i)) : vPC p' ftr' t = vPC p ftr t := by
  unfold vPC; rw [h]; cases hf : fPos w (p.pc t) with
  | none => rfl
  | some x => simp only; rw [h']
theorem vW_eq {i : Rid} (h : ∀ c r, EvF.Spec.phase (wrk i) (ftr i) ≠ .done c r) : vW p ftr i = p.w i := by
  unfold vW; split
  · rename_i h'; exact absurd h' (h _ _)
  · rfl
theorem vW_done {i : Rid} {c r} (h : EvF.Spec.phase (wrk i) (ftr i) = .done c r) : vW p ftr i = afterW (p.w i) := by unfold vW; rw [h]
theorem vW_congr {p' : St} {ftr' : Rid → List (EvF.Ev w)} {i : Rid} (h : p'.w i = p.w i)
    (h' : EvF.Spec.phase (wrk i) (ftr' i) = EvF.Spec.phase (wrk i) (ftr i)) : vW p' ftr' i = vW p ftr i := by
  unfold vW; rw [h, h']
theorem vW_fin {i : Rid} : vW p ftr i = .finished ↔ p.w i = .finished := by
  unfold vW; split
  · cases h : p.w i <;> simp [afterW]
  · rfl
theorem after_call (q : PC) (r : EvF.Res w) : callOf (afterPC q r) = callOf q := by
  unfold afterPC; split <;> rfl
theorem vPC_call {t : Tid} : callOf (vPC p ftr t) = callOf (p.pc t) := by
  unfold vPC; split
  · rfl
  · split
    · exact after_call _ _
    · rfl
end

section
variable {p a : St} {ftr : Rid → List (EvF.Ev w)} {qtr : List (MQ.Ev Rid)}
theorem Rel.out (rel : Rel p ftr qtr a) {u : Tid} (h : fCall w p u = none) (i : Rid) : EvF.Spec.phase u (ftr i) = .out := by
  apply Classical.byContradiction
  intro hne
  obtain ⟨c, _, h2⟩ := rel.ph i u hne
  rw [h] at h2; simp at h2
theorem Rel.vW_none (rel : Rel p ftr qtr a) {i : Rid} (h : fW w i (p.w i) = none) : vW p ftr i = p.w i :=
  vW_eq (by intro c r; rw [rel.out (by simp [fCall, who_wrk, h]) i]; simp)
theorem Rel.pc (rel : Rel p ftr qtr a) (t : Tid) : a.pc t = vPC p ftr t := by rw [rel.eq]; rfl
theorem Rel.wk (rel : Rel p ftr qtr a) (i : Rid) : a.w i = vW p ftr i := by rw [rel.eq]; rfl
end

/-- A step of the pool's own code. -/
theorem sim_own {p p' a : St} {ftr : Rid → List (EvF.Ev w)} {qtr : List (MQ.Ev Rid)} {act : Act} {ev : List Ev}
    (rel : Rel p ftr qtr a) (hc : atQueue p act = false) (hf : atFlag w p act = false) (hs : TP.step p act = some (p', ev)) :
    ∃ a', TP.step a act = some (a', ev) ∧ Rel p' ftr qtr a' ∧ atQueue a act = false := by
  obtain ⟨c1, c2⟩ := moved hc hs
  have f1 : ∀ t, (∃ c, act = .call t c) ∨ act = .go t ∨ act = .expire t → fPos w (p.pc t) = none ∧ qPos (p.pc t) = none := by
    rintro t (⟨c, rfl⟩ | rfl | rfl) <;> simpa [atFlag, atQueue] using And.intro hf hc
  have f2 : ∀ i, act = .pgo i ∨ act = .throw i → fW w i (p.w i) = none ∧ qW i (p.w i) = none := by
    rintro t (rfl | rfl) <;> simpa [atFlag, atQueue] using And.intro hf hc
  obtain ⟨a', h1, h2⟩ := step_frame hc hf hs a.own (vPC p ftr) (vW p ftr) (fun i => bitOf false 0 (EvF.Spec.effects (ftr i)))
    (fun t ht => vPC_none (f1 t ht).1) (fun i hi => rel.vW_none (f2 i hi).1) (fun u => vPC_call) (fun i => vW_fin)
    (by intro i hi; rw [hi]; exact vW_fin.2 hi)
  rw [← rel.eq] at h1
  have g2 : ∀ i, p'.w i ≠ p.w i → fW w i (p.w i) = none ∧ qW i (p.w i) = none := by
    intro i hi
    rcases c2 i hi with h | h
    · rw [h]; exact ⟨rfl, rfl⟩
    · exact f2 i h
  have hfc : ∀ u, fCall w p u ≠ none → fCall w p' u = fCall w p u := by
    intro u hu
    unfold fCall at hu ⊢
    cases hw : who u with
    | client t =>
      rw [hw] at hu; simp only at hu ⊢
      by_cases e : p'.pc t = p.pc t
      · rw [e]
      · exact absurd (f1 t (c1 t e)).1 hu
    | worker t =>
      rw [hw] at hu; simp only at hu ⊢
      by_cases e : p'.w t = p.w t
      · rw [e]
      · exact absurd (g2 t e).1 hu
  refine ⟨a', h1, ⟨?_, ?_, rel.bits, ?_⟩, ?_⟩
  · have e1 : vPC p' ftr = merge p.pc p'.pc (vPC p ftr) := by
      funext t
      unfold merge
      split
      · rename_i e; exact vPC_congr e (fun _ => rfl)
      · rename_i e
        have ho : ∀ i, EvF.Spec.phase (cli t) (ftr i) = .out := rel.out (by simp [fCall, who_cli, (f1 t (c1 t e)).1])
        cases hq : fPos w (p'.pc t) with
        | none => exact vPC_none hq
        | some x => obtain ⟨i, c⟩ := x; exact vPC_out hq (by intro c r; rw [ho]; simp)
    have e2 : vW p' ftr = merge p.w p'.w (vW p ftr) := by
      funext t
      unfold merge
      split
      · rename_i e; exact vW_congr e rfl
      · rename_i e; exact vW_eq (by intro c r; rw [rel.out (by simp [fCall, who_wrk, (g2 t e).1]) t]; simp)
    rw [e1, e2]; exact h2
  · intro i u hu
    obtain ⟨c, h3, h4⟩ := rel.ph i u hu
    exact ⟨c, h3, by rw [hfc u (by rw [h4]; simp), h4]⟩
  · intro u hu
    have h5 := rel.qph u hu
    unfold qCall at h5 ⊢
    cases hw : who u with
    | client t =>
      rw [hw] at h5; simp only at h5 ⊢
      by_cases e : p'.pc t = p.pc t
      · rw [e]; exact h5
      · exact absurd (f1 t (c1 t e)).2 h5
    | worker t =>
      rw [hw] at h5; simp only at h5 ⊢
      by_cases e : p'.w t = p.w t
      · rw [e]; exact h5
      · exact absurd (g2 t e).2 h5
  · have hP : ∀ t, (∃ c, act = .call t c) ∨ act = .go t ∨ act = .expire t → qPos (a.pc t) = none := by
      intro t ht; rw [rel.pc, vPC_none (f1 t ht).1]; exact (f1 t ht).2
    have hW : ∀ i, act = .pgo i ∨ act = .throw i → qW i (a.w i) = none := by
      intro i hi; rw [rel.wk, rel.vW_none (f2 i hi).1]; exact (f2 i hi).2
    cases act with
    | call t c => simp [atQueue, hP t (Or.inl ⟨c, rfl⟩)]
    | go t => simp [atQueue, hP t (Or.inr (Or.inl rfl))]
    | expire t => simp [atQueue, hP t (Or.inr (Or.inr rfl))]
    | pgo t => simp [atQueue, hW t (Or.inl rfl)]
    | throw t => simp [atQueue, hW t (Or.inr rfl)]

/-! #### Events of the queue -/
section
variable {p a : St} {ftr : Rid → List (EvF.Ev w)} {qtr qtr' : List (MQ.Ev Rid)}

theorem Rel.setW (rel : Rel p ftr qtr a) {i : Rid} (h : fW w i (p.w i) = none) (x : W)
    (hq : ∀ u, qphase u qtr' ≠ .out → u ≠ wrk i ∧ qphase u qtr ≠ .out) : Rel (p.wAt i x) ftr qtr' (a.wAt i x) := by
  have ho : ∀ j, EvF.Spec.phase (wrk i) (ftr j) = .out := rel.out (by simp [fCall, who_wrk, h])
  refine ⟨?_, ?_, rel.bits, ?_⟩
  · have e2 : vW (p.wAt i x) ftr = upd (vW p ftr) i x := by
      apply upd_view
      · rw [vW_eq (by intro c r; rw [ho]; simp)]; simp [St.wAt, upd]
      · intro j hj; exact vW_congr (by simp [St.wAt, upd, hj]) rfl
    have e1 : vPC (p.wAt i x) ftr = vPC p ftr := rfl
    rw [e1, e2]
    conv => lhs; rw [rel.eq]
    rfl
  · intro j u hu
    obtain ⟨c, h1, h2⟩ := rel.ph j u hu
    refine ⟨c, h1, ?_⟩
    rw [← h2]
    unfold fCall
    cases hw : who u with
    | client t => rfl
    | worker k =>
      have : k ≠ i := by
        rintro rfl
        rw [who_worker hw, ho] at hu; exact hu rfl
      simp [St.wAt, upd, this]
  · intro u hu
    obtain ⟨h1, h2⟩ := hq u hu
    have h3 := rel.qph u h2
    unfold qCall at h3 ⊢
    cases hw : who u with
    | client t => rw [hw] at h3; exact h3
    | worker k =>
      have : k ≠ i := by
        rintro rfl
        exact h1 (who_worker hw)
      rw [hw] at h3; simpa [St.wAt, upd, this] using h3

theorem Rel.setPC (rel : Rel p ftr qtr a) {t : Tid} (h : fPos w (p.pc t) = none) (x : PC)
    (hq : ∀ u, qphase u qtr' ≠ .out → u ≠ cli t ∧ qphase u qtr ≠ .out) :
    Rel { p with pc := upd p.pc t x } ftr qtr' { a with pc := upd a.pc t x } := by
  have ho : ∀ j, EvF.Spec.phase (cli t) (ftr j) = .out := rel.out (by simp [fCall, who_cli, h])
  refine ⟨?_, ?_, rel.bits, ?_⟩
  · have e1 : vPC { p with pc := upd p.pc t x } ftr = upd (vPC p ftr) t x := by
      apply upd_view
      · cases hf : fPos w (upd p.pc t x t) with
        | none => rw [vPC_none hf]; simp [upd]
        | some y => obtain ⟨j, c⟩ := y; rw [vPC_out hf (by intro c r; rw [ho]; simp)]; simp [upd]
      · intro j hj; exact vPC_congr (by simp [upd, hj]) (fun _ => rfl)
    have e2 : vW { p with pc := upd p.pc t x } ftr = vW p ftr := rfl
    rw [e1, e2]
    conv => lhs; rw [rel.eq]
    rfl
  · intro j u hu
    obtain ⟨c, h1, h2⟩ := rel.ph j u hu
    refine ⟨c, h1, ?_⟩
    rw [← h2]
    unfold fCall
    cases hw : who u with
    | worker t => rfl
    | client k =>
      have : k ≠ t := by
        rintro rfl
        rw [who_client hw, ho] at hu; exact hu rfl
      simp [upd, this]
  · intro u hu
    obtain ⟨h1, h2⟩ := hq u hu
    have h3 := rel.qph u h2
    unfold qCall at h3 ⊢
    cases hw : who u with
    | worker t => rw [hw] at h3; exact h3
    | client k =>
      have : k ≠ t := by
        rintro rfl
        exact h1 (who_client hw)
      rw [hw] at h3; simpa [upd, this] using h3

theorem Rel.setGone (rel : Rel p ftr qtr a) : Rel { p with gone := true } ftr qtr { a with gone := true } := by
  refine ⟨?_, rel.ph, rel.bits, rel.qph⟩
  conv => lhs; rw [rel.eq]
  rfl

theorem Rel.setQ (rel : Rel p ftr qtr a) (h : ∀ u, qphase u qtr' ≠ .out → qphase u qtr = .out → qCall p u ≠ none) : Rel p ftr qtr' a := by
  refine ⟨rel.eq, rel.ph, rel.bits, fun u hu => ?_⟩
  by_cases e : qphase u qtr = .out
  · exact h u hu e
  · exact rel.qph u e

/-- Every event of the queue but a call concerns a thread inside the queue. -/
theorem q_inside {x : MQ.Ev Rid} (hnb : ∀ u, MQ.Spec.phase u (qtr ++ [x]) ≠ .bad) (hx : ∀ u c, x ≠ .call u c) :
    qphase (OnQueue.subj x) qtr ≠ .out ∧ ∀ u, qphase u (qtr ++ [x]) ≠ .out → qphase u qtr ≠ .out := by
  have h1 : qphase (OnQueue.subj x) qtr ≠ .out := by
    intro h
    have hb : qphase (OnQueue.subj x) (qtr ++ [x]) ≠ .bad := hnb _
    rw [qphase_snoc, h] at hb
    cases x <;> simp [OnQueue.subj, MQ.Spec.Phase.next] at hb hx
  refine ⟨h1, fun u hu he => ?_⟩
  by_cases e : u = OnQueue.subj x
  · exact h1 (e ▸ he)
  · rw [OnQueue.qphase_other e] at hu; exact hu he

theorem Rel.qview (rel : Rel p ftr qtr a) {u : Tid} (h : qCall p u ≠ none) :
    (∀ t, who u = .client t → a.pc t = p.pc t ∧ fPos w (p.pc t) = none) ∧ ∀ i, who u = .worker i → a.w i = p.w i ∧ fW w i (p.w i) = none := by
  refine ⟨fun t ht => ?_, fun i hi => ?_⟩
  · have hf : fPos w (p.pc t) = none := fPos_qPos (by simpa [qCall, ht] using h)
    exact ⟨by rw [rel.pc, vPC_none hf], hf⟩
  · have hf : fW w i (p.w i) = none := fW_qW (by simpa [qCall, hi] using h)
    exact ⟨by rw [rel.wk, rel.vW_none hf], hf⟩

theorem Rel.qCall_eq (rel : Rel p ftr qtr a) {u : Tid} (h : qCall p u ≠ none) : qCall a u = qCall p u := by
  obtain ⟨h1, h2⟩ := rel.qview h
  unfold qCall
  cases hw : who u with
  | client t => simp only; rw [(h1 t hw).1]
  | worker i => simp only; rw [(h2 i hw).1]

theorem Rel.marks_eq (rel : Rel p ftr qtr a) {u : Tid} (h : qCall p u ≠ none) (r : MQ.Res Rid) : OnQueue.marks a u r = OnQueue.marks p u r := by
  obtain ⟨h1, h2⟩ := rel.qview h
  unfold OnQueue.marks
  cases hw : who u with
  | client t => simp only; rw [(h1 t hw).1]
  | worker i => rfl

theorem sim_q {x : MQ.Ev Rid} {p' : St} {ev : List Ev} (rel : Rel p ftr qtr a) (hnb : ∀ u, MQ.Spec.phase u (qtr ++ [x]) ≠ .bad)
    (he : OnQueue.onEv p x = some (p', ev)) : ∃ a', OnQueue.onEv a x = some (a', ev) ∧ Rel p' ftr (qtr ++ [x]) a' := by
  by_cases hx : ∃ u c, x = .call u c
  · obtain ⟨u, c, rfl⟩ := hx
    simp only [OnQueue.onEv] at he ⊢
    split at he
    · rename_i hc
      simp only [Option.some.injEq, Prod.mk.injEq] at he
      obtain ⟨rfl, rfl⟩ := he
      refine ⟨a, by rw [rel.qCall_eq (by rw [hc]; simp), if_pos hc], rel.setQ ?_⟩
      intro v hv ho
      by_cases e : v = u
      · rw [e, hc]; simp
      · rw [OnQueue.qphase_other (by simpa [OnQueue.subj] using e)] at hv; exact absurd ho hv
    · simp at he
  · have hx' : ∀ u c, x ≠ .call u c := fun u c e => hx ⟨u, c, e⟩
    obtain ⟨hin, hall⟩ := q_inside hnb hx'
    have hqc := rel.qph _ hin
    have hsame : Rel p ftr (qtr ++ [x]) a := rel.setQ (fun u hu ho => absurd ho (hall u hu))
    cases x with
    | call u c => exact absurd rfl (hx' u c)
    | busy u | sawFull u | sawEmpty u =>
      simp only [OnQueue.onEv, Option.some.injEq, Prod.mk.injEq] at he ⊢
      obtain ⟨rfl, rfl⟩ := he
      exact ⟨a, ⟨rfl, rfl⟩, hsame⟩
    | lin u c r =>
      simp only [OnQueue.onEv] at he ⊢
      split at he
      · rename_i hg
        simp only [Option.some.injEq, Prod.mk.injEq] at he
        obtain ⟨rfl, rfl⟩ := he
        rw [if_pos hg]
        exact ⟨a, by rw [rel.marks_eq (u := u) hqc], hsame⟩
      · simp at he
    | ret u c r =>
      simp only [OnQueue.subj] at hin hqc
      have hout : qphase u (qtr ++ [.ret u c r]) = .out := by
        have hb : qphase u (qtr ++ [.ret u c r]) ≠ .bad := hnb _
        rw [qphase_snoc] at hb ⊢
        simp only [MQ.Spec.Phase.next, if_true] at hb ⊢
        split
        · rfl
        · rename_i h; rw [if_neg h] at hb; exact absurd rfl hb
      have hq' : ∀ v, qphase v (qtr ++ [.ret u c r]) ≠ .out → v ≠ u ∧ qphase v qtr ≠ .out := by
        intro v hv
        exact ⟨by rintro rfl; exact hv hout, hall v hv⟩
      obtain ⟨v1, v2⟩ := rel.qview hqc
      simp only [OnQueue.onEv, OnQueue.resume] at he ⊢
      cases hw : who u with
      | worker i =>
        rw [hw] at he; simp only [Option.some.injEq, Prod.mk.injEq] at he ⊢
        obtain ⟨rfl, rfl⟩ := he
        obtain ⟨e1, e2⟩ := v2 i hw
        refine ⟨_, ⟨rfl, rfl⟩, ?_⟩
        rw [e1]
        exact rel.setW e2 _ (by rw [← who_worker hw]; exact hq')
      | client t =>
        rw [hw] at he; simp only at he ⊢
        obtain ⟨e1, e2⟩ := v1 t hw
        rw [e1]
        have hq2 : ∀ v, qphase v (qtr ++ [.ret u c r]) ≠ .out → v ≠ cli t ∧ qphase v qtr ≠ .out := by rw [← who_client hw]; exact hq'
        have hset := fun x => rel.setPC (qtr' := qtr ++ [.ret u c r]) e2 x hq2
        have hkill : ∀ i, p.w i = .finished → Rel (p.wAt i .dead) ftr (qtr ++ [.ret u c r]) (a.wAt i .dead) := by
          intro i hi
          refine rel.setW (by rw [hi]; rfl) _ (fun v hv => ⟨?_, hall v hv⟩)
          rintro rfl
          have := rel.qph _ (hall _ hv)
          simp [qCall, who_wrk, hi, qW] at this
        have hfin : ∀ i, a.w i = .finished ↔ p.w i = .finished := by intro i; rw [rel.wk]; exact vW_fin
        split at he
        · rename_i hpc
          split at he
          · split at he
            · rename_i i hi
              simp only [Option.some.injEq, Prod.mk.injEq] at he
              obtain ⟨rfl, rfl⟩ := he
              exact ⟨_, by rw [if_pos ((hfin i).2 hi)], hkill i hi⟩
            · simp at he
          · rename_i hr
            simp only [Option.some.injEq, Prod.mk.injEq] at he
            obtain ⟨rfl, rfl⟩ := he
            refine ⟨{ a.at t .destroy (.ret .done) with gone := true }, ?_, (hset _).setGone⟩
            simp only [hpc]
        · rename_i hpc
          simp only [Option.some.injEq, Prod.mk.injEq] at he
          obtain ⟨rfl, rfl⟩ := he
          refine ⟨_, ?_, hset _⟩
          simp only
end

theorem sim_qs {ftr : Rid → List (EvF.Ev w)} : ∀ {xs : List (MQ.Ev Rid)} {p p' a : St} {qtr : List (MQ.Ev Rid)} {ev : List Ev}
    (_ : Rel p ftr qtr a) (_ : ∀ u, MQ.Spec.phase u (qtr ++ xs) ≠ .bad) (_ : OnQueue.onEvs p xs = some (p', ev)),
    ∃ a', OnQueue.onEvs a xs = some (a', ev) ∧ Rel p' ftr (qtr ++ xs) a'
  | [], p, p', a, qtr, ev, rel, _, he => by
    simp only [OnQueue.onEvs, Option.some.injEq, Prod.mk.injEq] at he
    obtain ⟨rfl, rfl⟩ := he
    exact ⟨a, rfl, by simpa using rel⟩
  | x :: xs, p, p', a, qtr, ev, rel, hnb, he => by
    simp only [OnQueue.onEvs] at he ⊢
    split at he
    · simp at he
    · rename_i p1 e1 h1
      split at he
      · simp at he
      · rename_i p2 e2 h2
        simp only [Option.some.injEq, Prod.mk.injEq] at he
        obtain ⟨rfl, rfl⟩ := he
        have hnb' : ∀ u, MQ.Spec.phase u ((qtr ++ [x]) ++ xs) ≠ .bad := by simpa using hnb
        have hb1 : ∀ u, MQ.Spec.phase u (qtr ++ [x]) ≠ .bad := by
          intro u hu
          apply hnb' u
          unfold MQ.Spec.phase at hu ⊢
          rw [List.foldl_append, hu]
          clear hnb hnb' h2 h1
          induction xs with
          | nil => rfl
          | cons y ys ih => rw [List.foldl_cons, OnQueue.qbad_next]; exact ih
        obtain ⟨a1, g1, rel1⟩ := sim_q rel hb1 h1
        obtain ⟨a2, g2, rel2⟩ := sim_qs rel1 hnb' h2
        exact ⟨a2, by rw [g1]; simp only; rw [g2], by simpa using rel2⟩

/-! #### Events of an event flag -/

open _root_.Verif.MQ.OnFlag (lin_prefix lin_prefixes eff_snoc bit_snoc)

theorem fphase_snoc (t : Tid) (tr : List (EvF.Ev w)) (e : EvF.Ev w) :
    EvF.Spec.phase t (tr ++ [e]) = EvF.Spec.Phase.next t (EvF.Spec.phase t tr) e := MQ.OnFlag.phase_snoc t tr e

def fsubj : EvF.Ev w → Tid
  | .call u _ | .lin u _ _ | .ret u _ _ => u

theorem fphase_other {u : Tid} {x : EvF.Ev w} (h : u ≠ fsubj x) (tr : List (EvF.Ev w)) : EvF.Spec.phase u (tr ++ [x]) = EvF.Spec.phase u tr := by
  rw [fphase_snoc]
  cases x <;> simp only [fsubj] at h <;> simp [EvF.Spec.Phase.next, Ne.symm h]

/-- A legal wait for any bit, when all bits are equal. -/
theorem wait_any {os b : Bool} {tm : Tmo} {σ σ' : BitVec w} {r : EvF.Res w} (hw : 1 ≤ w) (hb : ∀ k, k < w → σ.getLsbD k = b)
    (h : EvF.Spec.Legal false os σ (.timedWaitAny tm) r σ') :
    (r = ⟨.OK, none⟩ ∧ b = true) ∨ (r = ⟨.TimedOut, none⟩ ∧ tm ≠ .forever ∧ b = false) ∨
    (r = ⟨.OtherError, none⟩ ∨ r = ⟨.CalledByNonThread, none⟩) := by
  simp only [EvF.Spec.Legal, EvF.Spec.Wait] at h
  split at h
  · rename_i hx
    rcases hx with hx | hx
    · simp at hx
    · have := hx 0 (by omega); simp at this
  · have hc : EvF.Spec.Cond .OR (fun _ => true) σ ↔ b = true := by
      simp only [EvF.Spec.Cond]
      constructor
      · rintro ⟨j, hj, _, h2⟩; rw [hb j hj] at h2; exact h2
      · intro h; exact ⟨0, by omega, trivial, by rw [hb 0 (by omega)]; exact h⟩
    rw [hc] at h
    rcases h with ⟨h1, h2, _⟩ | ⟨h1, h2, _, h3⟩ | ⟨_, h1, _⟩
    · left; exact ⟨by simpa using h2, h1⟩
    · right; left; exact ⟨h1, h2, by simpa using h3⟩
    · right; right; exact h1.symm

section
variable {p a : St} {ftr : Rid → List (EvF.Ev w)} {qtr : List (MQ.Ev Rid)}

/-- The phases after one more event of flag `i`. -/
theorem phase_upd {u : Tid} {i : Rid} {x : EvF.Ev w} (h : u ≠ fsubj x) (j : Rid) :
    EvF.Spec.phase u (upd ftr i (ftr i ++ [x]) j) = EvF.Spec.phase u (ftr j) := by
  by_cases e : j = i
  · subst e; simp only [upd_same]; exact fphase_other h _
  · rw [upd_ne _ _ e]

theorem eff_upd {i : Rid} {x : EvF.Ev w} (h : ∀ t c r, x ≠ .lin t c r) (j : Rid) :
    EvF.Spec.effects (upd ftr i (ftr i ++ [x]) j) = EvF.Spec.effects (ftr j) := by
  by_cases e : j = i
  · subst e; simp only [upd_same]
    cases x with
    | lin t c r => exact absurd rfl (h t c r)
    | _ => simp [EvF.Spec.effects]
  · rw [upd_ne _ _ e]

/-- One event of a flag: nothing, or a step of the pool on atomic flags, outside its queue. -/
theorem sim_f {os : Bool} (hw : 1 ≤ w) {i : Rid} {x : EvF.Ev w} {σ : BitVec w} {p' : St} {ev : List Ev} (rel : Rel p ftr qtr a)
    (hl : EvF.Spec.Linearizable false os (ftr i ++ [x]) σ) (he : onEv i p x = some (p', ev)) :
    ∃ a', ((ev = [] ∧ a' = a) ∨ ∃ act, atQueue a act = false ∧ TP.step a act = some (a', ev)) ∧ Rel p' (upd ftr i (ftr i ++ [x])) qtr a' := by
  obtain ⟨σ0, hl0, hleg⟩ := lin_prefix hl
  have hbits := fun k (hk : k < w) => (bit_hist hl0.1 hk).trans (rel.bits i k hk)
  cases x with
  | call u c =>
    simp only [onEv] at he
    split at he
    · rename_i hc
      simp only [Option.some.injEq, Prod.mk.injEq] at he
      obtain ⟨rfl, rfl⟩ := he
      have hbad := hl.2 u
      rw [fphase_snoc] at hbad
      simp only [EvF.Spec.Phase.next, if_true] at hbad
      have hout : EvF.Spec.phase u (ftr i) = .out := by
        by_cases h : EvF.Spec.phase u (ftr i) = .out
        · exact h
        · rw [if_neg h] at hbad; simp at hbad
      have hnew : EvF.Spec.phase u (ftr i ++ [.call u c]) = .called c := by rw [fphase_snoc, hout]; simp [EvF.Spec.Phase.next]
      refine ⟨a, Or.inl ⟨rfl, rfl⟩, ?_, ?_, ?_, rel.qph⟩
      · have e1 : vPC p (upd ftr i (ftr i ++ [.call u c])) = vPC p ftr := by
          funext t
          by_cases e : cli t = u
          · have hf : fPos w (p.pc t) = some (i, c) := by rw [← hc, ← e]; simp [fCall, who_cli]
            rw [vPC_out hf (by intro c' r; simp only [upd_same]; rw [e, hnew]; simp), vPC_out hf (by intro c' r; rw [e, hout]; simp)]
          · exact vPC_congr rfl (phase_upd (by simpa [fsubj] using e))
        have e2 : vW p (upd ftr i (ftr i ++ [.call u c])) = vW p ftr := by
          funext j
          by_cases e : wrk j = u
          · have hf : fW w j (p.w j) = some (i, c) := by rw [← hc, ← e]; simp [fCall, who_wrk]
            have hij : j = i := by cases h : p.w j <;> simp [h, fW] at hf <;> exact hf.1
            subst hij
            rw [vW_eq (by intro c' r; simp only [upd_same]; rw [e, hnew]; simp), vW_eq (by intro c' r; rw [e, hout]; simp)]
          · exact vW_congr rfl (phase_upd (by simpa [fsubj] using e) j)
        rw [e1, e2]
        simp only [eff_upd (i := i) (x := .call u c) (by simp)]
        exact rel.eq
      · intro j v hv
        by_cases e : v = u
        · subst e
          by_cases ej : j = i
          · subst ej; exact ⟨c, by simp only [upd_same]; rw [hnew]; rfl, hc⟩
          · rw [upd_ne _ _ ej] at hv ⊢; exact rel.ph j v hv
        · rw [phase_upd (by simpa [fsubj] using e)] at hv ⊢; exact rel.ph j v hv
      · intro j k hk
        rw [eff_upd (by simp)]; exact rel.bits j k hk
    · simp at he
  | ret u c r =>
    simp only [onEv, Option.some.injEq, Prod.mk.injEq] at he
    obtain ⟨rfl, rfl⟩ := he
    have hbad := hl.2 u
    rw [fphase_snoc] at hbad
    simp only [EvF.Spec.Phase.next, if_true] at hbad
    have hdone : EvF.Spec.phase u (ftr i) = .done c r := by
      by_cases h : EvF.Spec.phase u (ftr i) = .done c r
      · exact h
      · rw [if_neg h] at hbad; simp at hbad
    have hnew : EvF.Spec.phase u (ftr i ++ [.ret u c r]) = .out := by rw [fphase_snoc, hdone]; simp [EvF.Spec.Phase.next]
    obtain ⟨c', hc1, hc⟩ := rel.ph i u (by rw [hdone]; simp)
    rw [hdone] at hc1; simp only [calledBy, Option.some.injEq] at hc1; subst hc1
    have hother : ∀ j, j ≠ i → EvF.Spec.phase u (ftr j) = .out := by
      intro j hj
      apply Classical.byContradiction
      intro hne
      obtain ⟨c2, _, h2⟩ := rel.ph j u hne
      rw [hc] at h2; simp at h2; exact hj h2.1.symm
    have hall : ∀ j, EvF.Spec.phase u (upd ftr i (ftr i ++ [.ret u c r]) j) = .out := by
      intro j
      by_cases ej : j = i
      · subst ej; simp only [upd_same]; exact hnew
      · rw [upd_ne _ _ ej]; exact hother j ej
    refine ⟨a, Or.inl ⟨rfl, rfl⟩, ?_, ?_, ?_, ?_⟩
    · have e1 : vPC (resume p u r) (upd ftr i (ftr i ++ [.ret u c r])) = vPC p ftr := by
        funext t
        by_cases e : cli t = u
        · subst e
          have hf : fPos w (p.pc t) = some (i, c) := by rw [← hc]; simp [fCall, who_cli]
          rw [vPC_done hf hdone]
          have hpc : (resume p (cli t) r).pc t = afterPC (p.pc t) r := by simp [resume, who_cli, upd]
          rw [← hpc]
          cases hq : fPos w ((resume p (cli t) r).pc t) with
          | none => exact vPC_none hq
          | some y => obtain ⟨j, c'⟩ := y; exact vPC_out hq (by intro c' r'; rw [hall]; simp)
        · refine vPC_congr ?_ (phase_upd (by simpa [fsubj] using e))
          unfold resume
          cases hwu : who u with
          | worker j => rfl
          | client t' =>
            have : t ≠ t' := by rintro rfl; exact e (who_client hwu).symm
            simp [upd, this]
      have e2 : vW (resume p u r) (upd ftr i (ftr i ++ [.ret u c r])) = vW p ftr := by
        funext j
        by_cases e : wrk j = u
        · subst e
          have hf : fW w j (p.w j) = some (i, c) := by rw [← hc]; simp [fCall, who_wrk]
          have hij : j = i := by cases h : p.w j <;> simp [h, fW] at hf <;> exact hf.1
          subst hij
          rw [vW_eq (by intro c' r'; rw [hall]; simp), vW_done hdone]; simp [resume, who_wrk, St.wAt, upd]
        · refine vW_congr ?_ (phase_upd (by simpa [fsubj] using e) j)
          unfold resume
          cases hwu : who u with
          | client t => rfl
          | worker j' =>
            have : j ≠ j' := by rintro rfl; exact e (who_worker hwu).symm
            simp [St.wAt, upd, this]
      rw [e1, e2]
      simp only [eff_upd (i := i) (x := .ret u c r) (by simp)]
      conv => lhs; rw [rel.eq]
      unfold resume; split <;> rfl
    · intro j v hv
      by_cases e : v = u
      · subst e; exact absurd (hall j) hv
      · rw [phase_upd (by simpa [fsubj] using e)] at hv ⊢
        obtain ⟨c2, h1, h2⟩ := rel.ph j v hv
        refine ⟨c2, h1, ?_⟩
        rw [← h2]
        unfold fCall resume
        cases hwv : who v with
        | client t =>
          cases hwu : who u with
          | worker j' => rfl
          | client t' =>
            have : t ≠ t' := by rintro rfl; exact e ((who_client hwv).trans (who_client hwu).symm)
            simp [upd, this]
        | worker t =>
          cases hwu : who u with
          | client j' => rfl
          | worker t' =>
            have : t ≠ t' := by rintro rfl; exact e ((who_worker hwv).trans (who_worker hwu).symm)
            simp [St.wAt, upd, this]
    · intro j k hk
      rw [eff_upd (by simp)]; exact rel.bits j k hk
    · intro v hv
      have h3 := rel.qph v hv
      have hne : v ≠ u := by
        rintro rfl
        obtain ⟨v1, v2⟩ := rel.qview h3
        unfold fCall at hc
        cases hwu : who v with
        | client t => rw [hwu] at hc; simp only at hc; rw [(v1 t hwu).2] at hc; simp at hc
        | worker t => rw [hwu] at hc; simp only at hc; rw [(v2 t hwu).2] at hc; simp at hc
      unfold qCall at h3 ⊢
      unfold resume
      cases hwv : who v with
      | client t =>
        rw [hwv] at h3
        cases hwu : who u with
        | worker j' => exact h3
        | client t' =>
          have : t ≠ t' := by rintro rfl; exact hne ((who_client hwv).trans (who_client hwu).symm)
          simpa [upd, this] using h3
      | worker t =>
        rw [hwv] at h3
        cases hwu : who u with
        | client j' => exact h3
        | worker t' =>
          have : t ≠ t' := by rintro rfl; exact hne ((who_worker hwv).trans (who_worker hwu).symm)
          simpa [St.wAt, upd, this] using h3
  | lin u c r =>
    simp only [onEv] at he
    split at he
    · rename_i hg
      simp only [Option.some.injEq, Prod.mk.injEq] at he
      obtain ⟨rfl, rfl⟩ := he
      have hlg := hleg u c r rfl
      have hbad := hl.2 u
      rw [fphase_snoc] at hbad
      simp only [EvF.Spec.Phase.next, if_true] at hbad
      have hcalled : EvF.Spec.phase u (ftr i) = .called c := by
        by_cases h : EvF.Spec.phase u (ftr i) = .called c
        · exact h
        · rw [if_neg h] at hbad; simp at hbad
      have hnew : EvF.Spec.phase u (ftr i ++ [.lin u c r]) = .done c r := by rw [fphase_snoc, hcalled]; simp [EvF.Spec.Phase.next]
      obtain ⟨c', hc1, hc⟩ := rel.ph i u (by rw [hcalled]; simp)
      rw [hcalled] at hc1; simp only [calledBy, Option.some.injEq] at hc1; subst hc1
      have hph : ∀ j v, EvF.Spec.phase v (upd ftr i (ftr i ++ [.lin u c r]) j) ≠ .out →
          ∃ c', calledBy (EvF.Spec.phase v (upd ftr i (ftr i ++ [.lin u c r]) j)) = some c' ∧ fCall w p v = some (j, c') := by
        intro j v hv
        by_cases e : v = u
        · subst e
          by_cases ej : j = i
          · subst ej; exact ⟨c, by simp only [upd_same]; rw [hnew]; rfl, hc⟩
          · rw [upd_ne _ _ ej] at hv ⊢; exact rel.ph j v hv
        · rw [phase_upd (by simpa [fsubj] using e)] at hv ⊢; exact rel.ph j v hv
      have hbit : ∀ j k, k < w → bitOf false k (EvF.Spec.effects (upd ftr i (ftr i ++ [.lin u c r]) j)) =
          if j = i then bitAfter false k (bitOf false k (EvF.Spec.effects (ftr i))) (c, r) else bitOf false k (EvF.Spec.effects (ftr j)) := by
        intro j k hk
        by_cases ej : j = i
        · subst ej; simp only [upd_same, if_true]; rw [bit_snoc]
        · rw [upd_ne _ _ ej, if_neg ej]
      have key : ∀ (act : Act) (a' : St) (b' : Bool), atQueue a act = false → TP.step a act = some (a', marks p u r) →
          (∀ k b, bitAfter false k b (c, r) = (if b' = true then true else if c = .resetAll then false else b)) →
          a' = mk p a'.own (vPC p (upd ftr i (ftr i ++ [.lin u c r]))) (vW p (upd ftr i (ftr i ++ [.lin u c r])))
            (upd a.ev i (bitAfter false 0 (a.ev i) (c, r))) →
          ∃ a', ((marks p u r = [] ∧ a' = a) ∨ ∃ act, atQueue a act = false ∧ TP.step a act = some (a', marks p u r)) ∧
            Rel p (upd ftr i (ftr i ++ [.lin u c r])) qtr a' := by
        intro act a' b' h1 h2 h3 h4
        refine ⟨a', Or.inr ⟨act, h1, h2⟩, ?_, hph, ?_, rel.qph⟩
        · rw [h4]
          congr 1
          funext j
          rw [hbit j 0 (by omega)]
          by_cases ej : j = i
          · subst ej; simp only [upd_same, if_true]; rw [rel.eq]; rfl
          · rw [upd_ne _ _ ej, if_neg ej, rel.eq]; rfl
        · intro j k hk
          rw [hbit j k hk, hbit j 0 (by omega), rel.bits i k hk, rel.bits j k hk]
          simp only [h3]
      have hev : a.ev i = bitOf false 0 (EvF.Spec.effects (ftr i)) := by rw [rel.eq]; rfl
      cases hwu : who u with
      | client t =>
        have hu : u = cli t := who_client hwu
        subst hu
        have hf : fPos w (p.pc t) = some (i, c) := by rw [← hc]; simp [fCall, who_cli]
        have hpa : a.pc t = p.pc t := by rw [rel.pc, vPC_out hf (by intro c' r'; rw [hcalled]; simp)]
        have e1 : vPC p (upd ftr i (ftr i ++ [.lin (cli t) c r])) = upd (vPC p ftr) t (afterPC (p.pc t) r) := by
          apply upd_view
          · exact vPC_done hf (by simp only [upd_same]; exact hnew)
          · intro v hv; exact vPC_congr rfl (phase_upd (by simp only [fsubj]; exact fun e => hv (cli_inj e)))
        have e2 : vW p (upd ftr i (ftr i ++ [.lin (cli t) c r])) = vW p ftr := by
          funext j; exact vW_congr rfl (phase_upd (by simp only [fsubj]; exact fun e => cli_wrk e.symm) j)
        rw [e1, e2] at key
        have hae : ∀ b, b = a.ev i → upd a.ev i b = a.ev := by
          intro b hb; funext j; by_cases e : j = i
          · subst e; simp [upd, hb]
          · simp [upd, e]
        have haw : vW p ftr = a.w := by rw [rel.eq]; rfl
        have hapc : vPC p ftr = a.pc := by rw [rel.eq]; rfl
        rw [haw, hapc] at key
        have hak : ∀ o pc e, mk p o pc a.w e = { a with own := o, pc := pc, ev := e } := by
          intro o pc e; rw [rel.eq]; rfl
        simp only [hak] at key
        cases hq : p.pc t with
        | idle => rw [hq] at hf; simp [fPos] at hf
        | on cc q =>
          rw [hq] at hf hpa key
          rcases cc with ⟨_ | k, tm, g, pr⟩ | ⟨g, tm⟩ | g | g | _ <;> cases q <;> simp only [fPos, reduceCtorEq, Option.some.injEq, Prod.mk.injEq] at hf
          all_goals obtain ⟨rfl, rfl⟩ := hf
          · have hm : marks p (cli t) r = [.lin t (.wait g tm) (outOf r)] := by simp [marks, who_cli, hq]
            rw [hm] at key ⊢
            rcases wait_any hw hbits hlg with ⟨rfl, h1⟩ | ⟨rfl, h2, h1⟩ | rfl | rfl
            · rw [← hev] at h1
              refine key (.go t) (a.at t (.wait g tm) (.ret .ok)) false (by simp [atQueue, hpa, qPos]) (by simp [TP.step, hpa, h1, outOf]) (by simp [bitAfter]) ?_
              rw [hae _ (by simp [bitAfter])]; rfl
            · rw [← hev] at h1
              refine key (.expire t) (a.at t (.wait g tm) (.ret .timedOut)) false (by simp [atQueue, hpa, qPos]) (by simp [TP.step, hpa, h1, h2, outOf]) (by simp [bitAfter]) ?_
              rw [hae _ (by simp [bitAfter])]; rfl
            · simp [good] at hg
            · simp [good] at hg
          · have hm : marks p (cli t) r = [] := by simp [marks, who_cli, hq]
            rw [hm] at key ⊢
            rcases wait_any hw hbits hlg with ⟨rfl, h1⟩ | ⟨rfl, h2, h1⟩ | rfl | rfl
            · rw [← hev] at h1
              refine key (.go t) _ false (by simp [atQueue, hpa, qPos]) (by simp [TP.step, hpa, h1]; rfl) (by simp [bitAfter]) ?_
              rw [hae _ (by simp [bitAfter])]; rfl
            · simp at h2
            · simp [good] at hg
            · simp [good] at hg
          · have hm : marks p (cli t) r = [] := by simp [marks, who_cli, hq]
            rw [hm] at key ⊢
            refine key (.go t) _ false (by simp [atQueue, hpa, qPos]) (by simp [TP.step, hpa]; rfl) (by simp [bitAfter]) ?_
            simp [bitAfter]; rfl
      | worker j =>
        have hu : u = wrk j := who_worker hwu
        subst hu
        have hf : fW w j (p.w j) = some (i, c) := by rw [← hc]; simp [fCall, who_wrk]
        have hij : j = i := by cases h : p.w j <;> simp [h, fW] at hf <;> exact hf.1
        subst hij
        have hpa : a.w j = p.w j := by rw [rel.wk, vW_eq (by intro c' r'; rw [hcalled]; simp)]
        have e2 : vW p (upd ftr j (ftr j ++ [.lin (wrk j) c r])) = upd (vW p ftr) j (afterW (p.w j)) := by
          apply upd_view
          · exact vW_done (c := c) (r := r) (by simp only [upd_same]; exact hnew)
          · intro v hv; exact vW_congr rfl (phase_upd (by simp only [fsubj]; exact fun e => hv (wrk_inj e)) v)
        have e1 : vPC p (upd ftr j (ftr j ++ [.lin (wrk j) c r])) = vPC p ftr := by
          funext t; exact vPC_congr rfl (phase_upd (by simp only [fsubj]; exact fun e => cli_wrk e))
        rw [e1, e2] at key
        have haw : vW p ftr = a.w := by rw [rel.eq]; rfl
        have hapc : vPC p ftr = a.pc := by rw [rel.eq]; rfl
        rw [haw, hapc] at key
        have hak : ∀ o wk e, mk p o a.pc wk e = { a with own := o, w := wk, ev := e } := by
          intro o pc e; rw [rel.eq]; rfl
        simp only [hak] at key
        cases hq : p.w j <;> rw [hq] at hf <;> simp only [fW, reduceCtorEq, Option.some.injEq, Prod.mk.injEq, true_and] at hf <;> subst hf <;> rw [hq] at hpa key
        case notify y =>
          have hm : marks p (wrk j) r = [.note j] := by simp [marks, who_wrk, hq]
          rw [hm] at key ⊢
          refine key (.pgo j) _ true (by simp [atQueue, hpa, qW]) (by simp [TP.step, hpa]; rfl) (by simp [bitAfter]) ?_
          simp [bitAfter]; rfl
        case reset y =>
          have hm : marks p (wrk j) r = [] := by simp [marks, who_wrk, hq]
          rw [hm] at key ⊢
          refine key (.pgo j) _ false (by simp [atQueue, hpa, qW]) (by simp [TP.step, hpa]; rfl) (by simp [bitAfter]) ?_
          simp [bitAfter]; rfl
    · simp at he
end

/-- Steps of the pool's own code (or none), outside its queue. -/
inductive Owns : St → List Ev → St → Prop where
  | nil {a} : Owns a [] a
  | step {a b c act e1 e2} : atQueue a act = false → TP.step a act = some (b, e1) → Owns b e2 c → Owns a (e1 ++ e2) c

theorem sim_fs {os : Bool} (hw : 1 ≤ w) {i : Rid} {qtr : List (MQ.Ev Rid)} : ∀ {xs : List (EvF.Ev w)} {p p' a : St} {ftr : Rid → List (EvF.Ev w)} {σ : BitVec w} {ev : List Ev}
    (_ : Rel p ftr qtr a) (_ : EvF.Spec.Linearizable false os (ftr i ++ xs) σ) (_ : onEvs i p xs = some (p', ev)),
    ∃ a', Owns a ev a' ∧ Rel p' (upd ftr i (ftr i ++ xs)) qtr a'
  | [], p, p', a, ftr, σ, ev, rel, _, he => by
    simp only [onEvs, Option.some.injEq, Prod.mk.injEq] at he
    obtain ⟨rfl, rfl⟩ := he
    have e : upd ftr i (ftr i ++ []) = ftr := by funext j; unfold upd; split <;> simp_all
    exact ⟨a, .nil, by rw [e]; exact rel⟩
  | x :: xs, p, p', a, ftr, σ, ev, rel, hl, he => by
    simp only [onEvs] at he
    split at he
    · simp at he
    · rename_i p1 e1 h1
      split at he
      · simp at he
      · rename_i p2 e2 h2
        simp only [Option.some.injEq, Prod.mk.injEq] at he
        obtain ⟨rfl, rfl⟩ := he
        have hl' : EvF.Spec.Linearizable false os ((ftr i ++ [x]) ++ xs) σ := by simpa using hl
        obtain ⟨σ0, hl0⟩ := lin_prefixes hl'
        obtain ⟨a1, ha1, rel1⟩ := sim_f hw rel hl0 h1
        have hl2 : EvF.Spec.Linearizable false os (upd ftr i (ftr i ++ [x]) i ++ xs) σ := by simpa using hl
        obtain ⟨a2, ha2, rel2⟩ := sim_fs hw rel1 hl2 h2
        have e : upd (upd ftr i (ftr i ++ [x])) i (upd ftr i (ftr i ++ [x]) i ++ xs) = upd ftr i (ftr i ++ x :: xs) := by
          funext j; unfold upd; split <;> simp
        rw [e] at rel2
        rcases ha1 with ⟨rfl, rfl⟩ | ⟨act, h3, h4⟩
        · exact ⟨a2, by simpa using ha2, rel2⟩
        · exact ⟨a2, .step h3 h4 ha2, rel2⟩

theorem Owns.reach {Q A : Type} {O : Q → A → Option (Q × List (MQ.Ev Rid))} {s0 : OnQueue.CSt Q} {a a' : St} {q : Q} {tr ev : List Ev} (h : Owns a ev a')
    (hr : Reach (OnQueue.step O) s0 ⟨a, q⟩ tr) : Reach (OnQueue.step O) s0 ⟨a', q⟩ (tr ++ ev) := by
  induction h generalizing tr with
  | nil => simpa using hr
  | @step a b c act e1 e2 h1 h2 _ ih =>
    rw [← List.append_assoc]
    apply ih
    refine Reach.step (a := .tp act) hr ?_
    simp only [OnQueue.step]
    rw [h1]; simp only [Bool.false_eq_true, if_false]; rw [h2]

/-- Every execution of the pool on a queue program and on linearizable event flag programs is, event for event, an execution of the pool on the same queue
program and on atomic event flags. -/
theorem simulation {Q A F : Type} {n : Nat} {d : Int} {os : Bool} (hw : 1 ≤ w) {O : Q → A → Option (Q × List (MQ.Ev Rid))} {e q0 : Q} {tr0 : List (MQ.Ev Rid)}
    {P : F → EvF.Act w → Option (F × List (EvF.Ev w))} {f0 : F}
    (hO : ∀ s qtr, Reach O e s qtr → ∀ u, MQ.Spec.phase u qtr ≠ .bad) (h0 : Reach O e q0 tr0) (h0' : ∀ u, qphase u tr0 = .out)
    (hP : ∀ f ftr, Reach P f0 f ftr → ∃ σ, EvF.Spec.Linearizable false os ftr σ)
    {s : CSt Q F} {tr : List Ev} (h : Reach (step O P) (init n d q0 f0) s tr) :
    ∃ a ftr qtr, (∀ i, Reach P f0 (s.f i) (ftr i)) ∧ Reach O e s.c.q qtr ∧ Reach (OnQueue.step O) (OnQueue.init n d q0) ⟨a, s.c.q⟩ tr ∧ Rel s.c.p ftr qtr a := by
  refine Lts.Reach.inv (I := fun s tr => ∃ a ftr qtr, (∀ i, Reach P f0 (s.f i) (ftr i)) ∧ Reach O e s.c.q qtr ∧
    Reach (OnQueue.step O) (OnQueue.init n d q0) ⟨a, s.c.q⟩ tr ∧ Rel s.c.p ftr qtr a) ?_ ?_ h
  · refine ⟨TP.init n d, fun _ => [], tr0, fun _ => Reach.init, h0, Reach.init, ?_, ?_, ?_, ?_⟩
    · rfl
    · intro i u hu; exact absurd rfl hu
    · intro i k hk; rfl
    · intro u hu; exact absurd (h0' u) hu
  · rintro s tr act s' ev ⟨a, ftr, qtr, hf, hq, hr, rel⟩ hs
    cases act with
    | tp act =>
      simp only [step] at hs
      split at hs
      · simp at hs
      · rename_i hat
        split at hs
        · rename_i c ev' hm
          simp only [Option.some.injEq, Prod.mk.injEq] at hs
          obtain ⟨rfl, rfl⟩ := hs
          simp only [OnQueue.step] at hm
          split at hm
          · simp at hm
          · rename_i haq
            split at hm
            · rename_i p' ev'' hm'
              simp only [Option.some.injEq, Prod.mk.injEq] at hm
              obtain ⟨rfl, rfl⟩ := hm
              obtain ⟨a', h1, h2, h3⟩ := sim_own rel (by simpa using haq) (by simpa using hat) hm'
              refine ⟨a', ftr, qtr, hf, hq, ?_, h2⟩
              refine Reach.step (a := .tp act) hr ?_
              simp only [OnQueue.step]
              rw [h3]; simp only [Bool.false_eq_true, if_false]; rw [h1]
            · simp at hm
        · simp at hs
    | mq act =>
      simp only [step] at hs
      split at hs
      · rename_i c ev' hm
        simp only [Option.some.injEq, Prod.mk.injEq] at hs
        obtain ⟨rfl, rfl⟩ := hs
        simp only [OnQueue.step] at hm
        split at hm
        · simp at hm
        · rename_i q' evs hO'
          split at hm
          · simp at hm
          · rename_i p' ev'' hm'
            simp only [Option.some.injEq, Prod.mk.injEq] at hm
            obtain ⟨rfl, rfl⟩ := hm
            have hq' := Reach.step hq hO'
            obtain ⟨a', h1, h2⟩ := sim_qs rel (hO _ _ hq') hm'
            refine ⟨a', ftr, _, hf, hq', ?_, h2⟩
            refine Reach.step (a := .mq act) hr ?_
            simp only [OnQueue.step]
            rw [hO']; simp only; rw [h1]
      · simp at hs
    | ev i act =>
      simp only [step] at hs
      split at hs
      · simp at hs
      · rename_i f' evs hP'
        split at hs
        · simp at hs
        · rename_i p' ev' hm
          simp only [Option.some.injEq, Prod.mk.injEq] at hs
          obtain ⟨rfl, rfl⟩ := hs
          have hf' := Reach.step (hf i) hP'
          obtain ⟨σ, hl⟩ := hP _ _ hf'
          obtain ⟨a', h1, h2⟩ := sim_fs hw rel hl hm
          refine ⟨a', _, qtr, ?_, hq, h1.reach hr, h2⟩
          intro j
          by_cases ej : j = i
          · subst ej; simp only [upd_same]; exact hf'
          · rw [upd_ne _ _ ej]; show Reach P f0 (upd s.f i f' j) _; rw [upd_ne _ _ ej]; exact hf j
end Verif.TP.OnFlags
