import Verif.Props.ThreadPoolQueue
import Verif.Props.MessageQueueEventLive
/-
C100, progress: without new calls of the pool, the pool and its queue program come to rest.
-/
set_option linter.unusedSimpArgs false
set_option linter.unusedVariables false
namespace Verif.Props.ThreadPoolQueue
open Verif TP TP.OnQueue
open _root_.Verif.Lts (Reach run runSat_ex run_reach)
open _root_.Verif.Mtx (Tid Err)
open _root_.Verif.EvF (Tmo)
open _root_.Verif.MQ.Spec (Linearizable isSend isRecv)
open _root_.Verif.Props.ThreadPool (Exec)
open _root_.Verif.Props.ThreadPoolMore (cw ww m_step)

/-- What the pool's own code can still do (the measure of C77). -/
def cload (ts : List Tid) (n : Nat) (pc : Tid → PC) : Nat := (ts.map fun t => cw n (pc t)).sum
def wload (n : Nat) (w : Rid → W) : Nat := ((List.range n).map fun i => ww (w i)).sum
def load (ts : List Tid) (n : Nat) (s : TP.St) : Nat := cload ts n s.pc + wload n s.w

/-! #### Sums -/

theorem sum_change {f g : Nat → Nat} {t : Nat} (h : ∀ u, u ≠ t → f u = g u) : ∀ {ts : List Nat}, ts.Nodup → t ∈ ts →
    (ts.map f).sum + g t = (ts.map g).sum + f t
  | a :: ts, hn, hm => by
    obtain ⟨h1, h2⟩ := List.nodup_cons.1 hn
    simp only [List.map_cons, List.sum_cons]
    rcases List.mem_cons.1 hm with rfl | hm
    · have : ts.map f = ts.map g := by
        apply List.map_congr_left; intro u hu; apply h; rintro rfl; exact h1 hu
      rw [this]; omega
    · have := sum_change (f := f) (g := g) h h2 hm
      rw [h a (by rintro rfl; exact h1 hm)]; omega

theorem sum_congr {f g : Nat → Nat} (h : ∀ u, f u = g u) (ts : List Nat) : (ts.map f).sum = (ts.map g).sum := by
  rw [show f = g from funext h]

theorem sum_four {f g f' g' : Nat → Nat} (h : ∀ u, f' u + g u = g' u + f u) : ∀ ts : List Nat,
    (ts.map f').sum + (ts.map g).sum = (ts.map g').sum + (ts.map f).sum
  | [] => rfl
  | a :: ts => by
    have := sum_four h ts
    have := h a
    simp only [List.map_cons, List.sum_cons]; omega

/-! #### Who uses the queue -/

/-- The threads that can be inside the queue: the clients inside the pool, the pool's threads. -/
def users (ts : List Tid) (n : Nat) : List Tid := ts.map cli ++ (List.range n).map wrk

theorem users_nodup {ts : List Tid} (h : ts.Nodup) (n : Nat) : (users ts n).Nodup := by
  unfold users
  refine List.nodup_append.2 ⟨?_, ?_, ?_⟩
  · exact List.Pairwise.map _ (fun a b hab e => hab (cli_inj e)) h
  · exact List.Pairwise.map _ (fun a b hab e => hab (wrk_inj e)) List.nodup_range
  · intro a ha b hb e
    obtain ⟨t, _, rfl⟩ := List.mem_map.1 ha
    obtain ⟨i, _, rfl⟩ := List.mem_map.1 hb
    exact cli_wrk e

/-- How many of them are outside the queue. -/
def outs (us : List Tid) (qtr : List (MQ.Ev Rid)) : Nat := (us.map fun u => if qphase u qtr = .out then 1 else 0).sum

def isCallEv : MQ.Ev Rid → Bool
  | .call .. => true
  | _ => false
def isRetEv : MQ.Ev Rid → Bool
  | .ret .. => true
  | _ => false
def calls (evs : List (MQ.Ev Rid)) : Nat := evs.countP isCallEv
def rets (evs : List (MQ.Ev Rid)) : Nat := evs.countP isRetEv

/-- The state of the composition: concrete pool `p`, history `qtr` and contents `q` of the queue, abstract pool `a`; only the clients `ts` are inside. -/
structure Ctx (n : Nat) (d : Int) (ts : List Tid) (p : TP.St) (qtr : List (MQ.Ev Rid)) (q : List Rid) (a : TP.St) (tr : List Ev) : Prop where
  hr : Reach TP.step (TP.init n d) a tr
  hq : Linearizable n qtr q
  rel : Rel n p qtr q a
  nd : ts.Nodup
  ins : ∀ t, p.pc t ≠ .idle → t ∈ ts

variable {n : Nat} {d : Int} {ts : List Tid} {p p' a : TP.St} {qtr : List (MQ.Ev Rid)} {q q' : List Rid} {tr ev : List Ev}

theorem Ctx.lt (C : Ctx n d ts p qtr q a tr) {i : Rid} (h : p.w i ≠ .dead) : i < n := by
  apply Classical.byContradiction
  intro hn
  have S := (TP.Inv.reach C.hr).st
  have R : a.w i = .dead := by
    have R := S.rs i; unfold RShape at R; rw [S.od i (Nat.le_of_not_lt hn)] at R; exact R
  rw [C.rel.w] at R
  unfold vW at R
  split at R
  · unfold afterW at R; split at R <;> simp_all
  · exact h R

theorem Ctx.user (C : Ctx n d ts p qtr q a tr) {u : Tid} (h : qCall p u ≠ none) : u ∈ users ts n := by
  unfold qCall at h
  unfold users
  split at h
  · next t hw =>
    rw [who_client hw]
    refine List.mem_append_left _ (List.mem_map.2 ⟨t, C.ins t ?_, rfl⟩)
    intro e; rw [e] at h; simp [qPos] at h
  · next i hw =>
    rw [who_worker hw]
    refine List.mem_append_right _ (List.mem_map.2 ⟨i, List.mem_range.2 (C.lt ?_), rfl⟩)
    intro e; rw [e] at h; simp [qW] at h

theorem Ctx.inside (C : Ctx n d ts p qtr q a tr) {u : Tid} (h : qphase u qtr ≠ .out) : u ∈ users ts n := C.user (C.rel.ph u h).2

/-! #### What each step does to the measures -/

theorem own_dec (C : Ctx n d ts p qtr q a tr) {act : Act} (hc : atQueue p act = false) (hs : TP.step p act = some (p', ev)) (hn : ∀ t c, act ≠ .call t c) :
    load ts n p' < load ts n p ∧ ∃ a', Ctx n d ts p' qtr q a' (tr ++ ev) := by
  obtain ⟨a', h1, rel'⟩ := sim_own C.hr C.rel hc hs
  obtain ⟨c1, c2, _⟩ := step_changes hc hs
  have hcli : ∀ t, qPos (p.pc t) = none → qphase (cli t) qtr = .out := by
    intro t h
    apply Classical.byContradiction
    intro hne
    have := (C.rel.ph _ hne).2
    simp [qCall, who_cli, h] at this
  have hwrk : ∀ i, qW i (p.w i) = none → qphase (wrk i) qtr = .out := by
    intro t h
    apply Classical.byContradiction
    intro hne
    have := (C.rel.ph _ hne).2
    simp [qCall, who_wrk, h] at this
  have e1 : cload ts n p'.pc + cload ts n a.pc = cload ts n a'.pc + cload ts n p.pc := sum_four (f := fun t => cw n (p.pc t)) (g := fun t => cw n (a.pc t)) (f' := fun t => cw n (p'.pc t)) (g' := fun t => cw n (a'.pc t)) (by
    intro t
    simp only [C.rel.pc, rel'.pc]
    by_cases e : p'.pc t = p.pc t
    · simp only [vPC, e]; omega
    · have := hcli t (c1 t e)
      simp only [vPC, this]) ts
  have e2 : wload n p'.w + wload n a.w = wload n a'.w + wload n p.w := sum_four (f := fun t => ww (p.w t)) (g := fun t => ww (a.w t)) (f' := fun t => ww (p'.w t)) (g' := fun t => ww (a'.w t)) (by
    intro t
    simp only [C.rel.w, rel'.w]
    by_cases e : p'.w t = p.w t
    · simp only [vW, e]; omega
    · have := hwrk t (c2 t e)
      simp only [vW, this]) (List.range n)
  have hca : Props.ThreadPoolMore.isCall act = false := by
    cases act <;> first | rfl | exact absurd rfl (hn _ _)
  have h3 : load ts n a' < load ts n a := m_step (TP.Inv.reach C.hr) C.nd (fun t ht => C.ins t (by rw [C.rel.pc] at ht; exact fun e => ht (vPC_idle.2 e))) hca h1
  refine ⟨by unfold load at h3 ⊢; omega, a', Reach.step C.hr h1, C.hq, rel', C.nd, ?_⟩
  intro t ht
  apply C.ins
  intro hi
  apply ht
  rw [pc_other hs (by rintro rfl; simp [TP.step, hi] at hs) (by rintro rfl; simp [TP.step, hi] at hs) (fun c => hn t c), hi]

/-- A return of the queue moves the pool on. -/
theorem resume_dec (C : Ctx n d ts p qtr q a tr) {u : Tid} {r : MQ.Res Rid} (hu : qCall p u ≠ none) (hs : resume p u r = some (p', ev)) :
    load ts n p' < load ts n p ∧ ∀ t, p'.pc t ≠ .idle → p.pc t ≠ .idle := by
  unfold resume at hs
  cases hw : who u with
  | worker i =>
    simp only [hw, Option.some.injEq, Prod.mk.injEq] at hs
    obtain ⟨rfl, rfl⟩ := hs
    simp only [qCall, hw] at hu
    refine ⟨?_, fun t h => h⟩
    have hi : p.w i ≠ .dead := by intro e; rw [e] at hu; simp [qW] at hu
    have e : wload n (upd p.w i (afterW (p.w i))) + ww (p.w i) = wload n p.w + ww (upd p.w i (afterW (p.w i)) i) := sum_change (f := fun j => ww (upd p.w i (afterW (p.w i)) j)) (g := fun j => ww (p.w j)) (t := i)
      (fun j hj => by simp only [upd_ne _ _ hj]) List.nodup_range (List.mem_range.2 (C.lt hi))
    have : ww (afterW (p.w i)) < ww (p.w i) := by
      cases hp : p.w i <;> rw [hp] at hu <;> simp [qW] at hu
      simp [afterW, ww, rank]
    simp only [upd_same] at e
    simp only [load, St.wAt]; omega
  | client t =>
    simp only [hw] at hs
    simp only [qCall, hw] at hu
    have hne : p.pc t ≠ .idle := by intro e; rw [e] at hu; simp [qPos] at hu
    have ht := C.ins t hne
    have cl : ∀ {p' : TP.St} {x : PC}, p'.pc = upd p.pc t x → p'.w = p.w → cw n x < cw n (p.pc t) →
        load ts n p' < load ts n p ∧ ∀ v, p'.pc v ≠ .idle → p.pc v ≠ .idle := by
      intro p' x h1 h2 h3
      have e : cload ts n (upd p.pc t x) + cw n (p.pc t) = cload ts n p.pc + cw n (upd p.pc t x t) := sum_change (f := fun j => cw n (upd p.pc t x j)) (g := fun j => cw n (p.pc j)) (t := t)
        (fun j hj => by simp only [upd_ne _ _ hj]) C.nd ht
      simp only [upd_same] at e
      refine ⟨by simp only [load, h1, h2]; omega, fun v hv => ?_⟩
      by_cases ev : v = t
      · rw [ev]; exact hne
      · rw [h1, upd_ne _ _ ev] at hv; exact hv
    split at hs
    · next hp =>
      split at hs
      · next i =>
        split at hs
        · next hf =>
          simp only [Option.some.injEq, Prod.mk.injEq] at hs
          obtain ⟨rfl, rfl⟩ := hs
          refine ⟨?_, fun t h => h⟩
          have e : wload n (upd p.w i .dead) + ww (p.w i) = wload n p.w + ww (upd p.w i .dead i) := sum_change (f := fun j => ww (upd p.w i .dead j)) (g := fun j => ww (p.w j)) (t := i)
            (fun j hj => by simp only [upd_ne _ _ hj]) List.nodup_range (List.mem_range.2 (C.lt (by rw [hf]; simp)))
          have w0 : ww .dead = 0 := rfl
          have w1 : ww .finished = 1 := rfl
          simp only [upd_same, hf, w0, w1] at e
          simp only [load, St.wAt]
          omega
        · simp at hs
      · simp only [Option.some.injEq, Prod.mk.injEq] at hs
        obtain ⟨rfl, rfl⟩ := hs
        exact cl rfl rfl (by rw [hp]; simp [cw])
    · next hp =>
      simp only [Option.some.injEq, Prod.mk.injEq] at hs
      obtain ⟨rfl, rfl⟩ := hs
      refine cl rfl rfl ?_
      unfold qPos at hu
      split at hu
      · next h => rw [h]; simp only [afterPC]; split <;> simp [cw]
      · next h => rw [h]; simp [afterPC, cw]
      · next h => exact absurd h hp
      · simp at hu

theorem outs_step {us : List Tid} (hnd : us.Nodup) {x : MQ.Ev Rid} (hm : subj x ∈ us) :
    outs us (qtr ++ [x]) + (if qphase (subj x) qtr = .out then 1 else 0) = outs us qtr + (if qphase (subj x) (qtr ++ [x]) = .out then 1 else 0) :=
  sum_change (f := fun u => if qphase u (qtr ++ [x]) = .out then 1 else 0) (g := fun u => if qphase u qtr = .out then 1 else 0) (t := subj x)
    (fun u hu => by simp only [qphase_other hu]) hnd hm

/-- One event of the queue: a return moves the pool on, a call uses up a thread that was outside. -/
theorem ev_dec (C : Ctx n d ts p qtr q a tr) {x : MQ.Ev Rid} (hl : Linearizable n (qtr ++ [x]) q') (hh : Honest (qtr ++ [x])) (he : onEv p x = some (p', ev)) :
    load ts n p' + rets [x] ≤ load ts n p ∧ outs (users ts n) (qtr ++ [x]) + calls [x] = outs (users ts n) qtr + rets [x] ∧
    subj x ∈ users ts n ∧ ∃ a', Ctx n d ts p' (qtr ++ [x]) q' a' (tr ++ ev) := by
  obtain ⟨a', hr', rel'⟩ := sim_event C.hr C.hq C.rel hl hh he
  have hbad : qphase (subj x) (qtr ++ [x]) ≠ .bad := hl.2 _
  have hb2 := hbad
  rw [qphase_snoc] at hb2
  have hu : subj x ∈ users ts n := by
    by_cases hc : qphase (subj x) qtr = .out
    · rw [hc] at hb2
      cases x <;> simp [subj, MQ.Spec.Phase.next] at hb2
      simp only [onEv] at he
      split at he
      · next h => exact C.user (by simp only [subj]; rw [h]; simp)
      · simp at he
    · exact C.inside hc
  have ho := outs_step (qtr := qtr) (users_nodup C.nd n) hu
  rw [qphase_snoc] at ho
  have key : load ts n p' + rets [x] ≤ load ts n p ∧ ∀ t, p'.pc t ≠ .idle → p.pc t ≠ .idle := by
    cases x with
    | ret u c r =>
      have hc : qphase u qtr ≠ .out := by
        intro hc; simp [subj, MQ.Spec.Phase.next, hc] at hb2
      have := resume_dec C (C.rel.ph u hc).2 (by simpa [onEv] using he)
      exact ⟨by simp [rets, isRetEv]; omega, this.2⟩
    | _ =>
      have : p' = p := by
        simp only [onEv] at he
        (try split at he) <;> simp at he <;> exact he.1.symm
      subst this
      exact ⟨by simp [rets, isRetEv], fun t h => h⟩
  refine ⟨key.1, ?_, hu, a', hr', hl, rel', C.nd, fun t ht => C.ins t (key.2 t ht)⟩
  clear key he hl hh rel' hr' hbad C
  generalize hph : qphase (subj x) qtr = ph at ho hb2
  clear hph
  generalize outs (users ts n) (qtr ++ [x]) = o1 at ho ⊢
  generalize outs (users ts n) qtr = o2 at ho ⊢
  cases x with
  | call u c => cases ph <;> simp [subj, MQ.Spec.Phase.next] at hb2 ho <;> simp [calls, rets, isCallEv, isRetEv] <;> omega
  | busy u => cases ph <;> simp [subj, MQ.Spec.Phase.next] at hb2 ho <;> simp [calls, rets, isCallEv, isRetEv] <;> omega
  | sawFull u =>
    cases ph <;> simp only [subj, MQ.Spec.Phase.next, if_true, if_false, ne_eq, not_true_eq_false, reduceCtorEq] at hb2 ho
    rw [if_neg (by intro h; split at h <;> cases h)] at ho
    simp [calls, rets, isCallEv, isRetEv] <;> omega
  | sawEmpty u =>
    cases ph <;> simp only [subj, MQ.Spec.Phase.next, if_true, if_false, ne_eq, not_true_eq_false, reduceCtorEq] at hb2 ho
    rw [if_neg (by intro h; split at h <;> cases h)] at ho
    simp [calls, rets, isCallEv, isRetEv] <;> omega
  | lin u c r =>
    cases ph <;> simp only [subj, MQ.Spec.Phase.next, if_true, if_false, ne_eq, not_true_eq_false, reduceCtorEq] at hb2 ho
    rw [if_neg (by intro h; split at h <;> cases h)] at ho
    simp [calls, rets, isCallEv, isRetEv] <;> omega
  | ret u c r =>
    have hd : ph = .done c r := by
      apply Classical.byContradiction
      intro h
      simp only [subj, MQ.Spec.Phase.next, if_true, if_neg h] at hb2
      exact hb2 rfl
    rw [hd] at ho
    simp [subj, MQ.Spec.Phase.next] at ho
    simp [calls, rets, isCallEv, isRetEv]; omega

theorem evs_dec : ∀ {xs : List (MQ.Ev Rid)} {p p' a : TP.St} {qtr : List (MQ.Ev Rid)} {q q' : List Rid} {tr ev : List Ev}
    (_ : Ctx n d ts p qtr q a tr) (_ : Linearizable n (qtr ++ xs) q') (_ : Honest (qtr ++ xs)) (_ : onEvs p xs = some (p', ev)),
    load ts n p' + rets xs ≤ load ts n p ∧ outs (users ts n) (qtr ++ xs) + calls xs = outs (users ts n) qtr + rets xs ∧
    (∀ x, x ∈ xs → subj x ∈ users ts n) ∧ ∃ a', Ctx n d ts p' (qtr ++ xs) q' a' (tr ++ ev)
  | [], p, p', a, qtr, q, q', tr, ev, C, hl, hh, he => by
    simp only [onEvs, Option.some.injEq, Prod.mk.injEq] at he
    obtain ⟨rfl, rfl⟩ := he
    rw [List.append_nil] at hl
    have := hist_det hl.1 C.hq.1
    subst this
    exact ⟨by simp [rets], by simp [calls, rets], by simp, a, by simpa using C⟩
  | x :: xs, p, p', a, qtr, q, q', tr, ev, C, hl, hh, he => by
    simp only [onEvs] at he
    split at he
    · simp at he
    · rename_i m1 e1 h1
      split at he
      · simp at he
      · rename_i m2 e2 h2
        simp only [Option.some.injEq, Prod.mk.injEq] at he
        obtain ⟨rfl, rfl⟩ := he
        have hl' : Linearizable n ((qtr ++ [x]) ++ xs) q' := by simpa using hl
        have hh' : Honest ((qtr ++ [x]) ++ xs) := by simpa using hh
        obtain ⟨q1, hl1⟩ := lin_prefixes hl'
        obtain ⟨f1, f2, f3, a1, C1⟩ := ev_dec C hl1 (honest_prefix hh') h1
        obtain ⟨g1, g2, g3, a2, C2⟩ := evs_dec C1 hl' hh' h2
        have r1 : rets (x :: xs) = rets [x] + rets xs := by simp only [rets]; rw [show x :: xs = [x] ++ xs from rfl, List.countP_append]
        have r2 : calls (x :: xs) = calls [x] + calls xs := by simp only [calls]; rw [show x :: xs = [x] ++ xs from rfl, List.countP_append]
        have e0 : qtr ++ x :: xs = (qtr ++ [x]) ++ xs := by simp
        rw [r1, r2, e0]
        refine ⟨by omega, by omega, ?_, a2, by simpa using C2⟩
        intro y hy
        rcases List.mem_cons.1 hy with rfl | hy
        · exact f3
        · exact g3 y hy

/-! #### Queue programs that come to rest -/

/-- A queue program in which, with the threads `us` inside and no new calls, only so much can happen: `mu` decreases with every step; a call
adds at most `B`. -/
structure Bounded {Q A : Type} (O : Q → A → Option (Q × List (MQ.Ev Rid))) (e : Q) (ok : A → Prop) (us : List Tid) (mu : Q → Nat) (B : Nat) : Prop where
  dec : ∀ s qtr, Reach O e s qtr → (∀ u, qphase u qtr ≠ .out → u ∈ us) → ∀ act s' evs, ok act → O s act = some (s', evs) →
    (∀ x, x ∈ evs → subj x ∈ us) → mu s' + 1 ≤ mu s + (B + 1) * calls evs

/-- Not a new call of the pool; and, of the queue program, an action it allows. -/
def Inner {A : Type} (ok : A → Prop) : CAct A → Prop
  | .tp a => ∀ t c, a ≠ .call t c
  | .mq a => ok a

section
variable {Q A : Type} {O : Q → A → Option (Q × List (MQ.Ev Rid))} {e q0 : Q} {ok : A → Prop} {mu : Q → Nat} {B : Nat}

/-- What the composition keeps while it comes to rest. -/
def CCtx (O : Q → A → Option (Q × List (MQ.Ev Rid))) (e : Q) (n : Nat) (d : Int) (ts : List Tid) (s : CSt Q) (qtr : List (MQ.Ev Rid)) : Prop :=
  Reach O e s.q qtr ∧ ∃ q a tr, Ctx n d ts s.p qtr q a tr

def total (ts : List Tid) (n B : Nat) (mu : Q → Nat) (s : CSt Q) (qtr : List (MQ.Ev Rid)) : Nat :=
  (B + 1) * (load ts n s.p + outs (users ts n) qtr) + mu s.q

theorem total_dec (hO : GoodQueue O e n) (hB : Bounded O e ok (users ts n) mu B) {s s' : CSt Q} {act : CAct A} (C : CCtx O e n d ts s qtr)
    (ha : Inner ok act) (hs : OnQueue.step O s act = some (s', ev)) : ∃ qtr', CCtx O e n d ts s' qtr' ∧ total ts n B mu s' qtr' < total ts n B mu s qtr := by
  obtain ⟨hq, q, a, tr, C⟩ := C
  cases act with
  | tp act =>
    simp only [OnQueue.step] at hs
    split at hs
    · simp at hs
    · rename_i hc
      split at hs
      · rename_i p' ev' hm
        simp only [Option.some.injEq, Prod.mk.injEq] at hs
        obtain ⟨rfl, rfl⟩ := hs
        obtain ⟨h1, a', C'⟩ := own_dec C (by simpa using hc) hm ha
        refine ⟨qtr, ⟨hq, q, a', _, C'⟩, ?_⟩
        unfold total
        have := Nat.mul_lt_mul_of_pos_left (Nat.add_lt_add_right h1 (outs (users ts n) qtr)) (show 0 < B + 1 by omega)
        simp only at this ⊢
        omega
      · simp at hs
  | mq act =>
    simp only [OnQueue.step] at hs
    split at hs
    · simp at hs
    · rename_i f' evs hO'
      split at hs
      · simp at hs
      · rename_i m' ev' hm
        simp only [Option.some.injEq, Prod.mk.injEq] at hs
        obtain ⟨rfl, rfl⟩ := hs
        have hf' := Reach.step hq hO'
        obtain ⟨⟨q', hl⟩, hh⟩ := hO _ _ hf'
        obtain ⟨h1, h2, h3, a', C'⟩ := evs_dec C hl hh hm
        have h4 := hB.dec _ _ hq (fun u hu => C.inside hu) act f' evs ha hO' h3
        refine ⟨_, ⟨hf', q', a', _, C'⟩, ?_⟩
        unfold total
        have h5 : load ts n m' + outs (users ts n) (qtr ++ evs) + calls evs ≤ load ts n s.p + outs (users ts n) qtr := by omega
        have h6 := Nat.mul_le_mul_left (B + 1) h5
        rw [Nat.mul_add (B + 1) _ (calls evs)] at h6
        simp only at h6 ⊢
        omega

theorem outs_le (us : List Tid) : outs us qtr ≤ us.length := by
  unfold outs
  induction us with
  | nil => simp
  | cons x us ih => simp only [List.map_cons, List.sum_cons, List.length_cons]; split <;> omega

theorem ctx_of (hO : GoodQueue O e n) {tr0 : List (MQ.Ev Rid)} (h0 : Filled O e n q0 tr0) {s : CSt Q} (h : Reach (OnQueue.step O) (OnQueue.init n d q0) s tr) :
    ∃ qtr, CCtx O e n d s.p.inside s qtr := by
  obtain ⟨a, qtr, q, hf, hq, hr, rel⟩ := simulation hO h0 h
  have S := (TP.Inv.reach hr).st
  have hi : a.inside = s.p.inside := by rw [rel.eq]; rfl
  refine ⟨qtr, hf, q, a, tr, hr, hq, rel, hi ▸ S.nodup, fun t ht => ?_⟩
  rw [← hi, S.ins, rel.pc]
  exact fun e => ht (vPC_idle.1 e)

theorem terminates (hO : GoodQueue O e n) (hB : Bounded O e ok (users ts n) mu B) : ∀ (as : List (CAct A)) {s s' : CSt Q} {qtr : List (MQ.Ev Rid)} {ev : List Ev},
    CCtx O e n d ts s qtr → (∀ x, x ∈ as → Inner ok x) → run (OnQueue.step O) as s = some (s', ev) → as.length ≤ total ts n B mu s qtr
  | [], s, s', qtr, ev, C, ha, hr => by simp
  | x :: as, s, s', qtr, ev, C, ha, hr => by
    simp only [run] at hr
    split at hr
    · simp at hr
    · next s1 ev1 h1 =>
      split at hr
      · simp at hr
      · next s2 ev2 h2 =>
        obtain ⟨qtr1, C1, hd⟩ := total_dec hO hB C (ha x (by simp)) h1
        have := terminates hO hB as C1 (fun y hy => ha y (by simp [hy])) h2
        simp only [List.length_cons]; omega

theorem reaches (hO : GoodQueue O e n) {prog : A → Prop} {call : Tid → MQ.Call Rid → A} (hB : Bounded O e ok (users ts n) mu B)
    (hp : ∀ a, prog a → ok a) (hcl : ∀ u c, ok (call u c)) : ∀ (k : Nat) {s : CSt Q} {qtr : List (MQ.Ev Rid)}, CCtx O e n d ts s qtr → total ts n B mu s qtr ≤ k →
    ∃ as s' ev, (∀ x, x ∈ as → Inner ok x) ∧ run (OnQueue.step O) as s = some (s', ev) ∧ Stuck O prog call s' := by
  intro k
  induction k with
  | zero =>
    intro s qtr C hk
    refine ⟨[], s, [], by simp, rfl, ?_⟩
    have no : ∀ x, Inner ok x → OnQueue.step O s x = none := by
      intro x hx
      cases hs : OnQueue.step O s x with
      | none => rfl
      | some y => obtain ⟨_, _, h⟩ := total_dec hO hB C hx hs; omega
    exact ⟨fun a ha => no _ ha, fun a ha => no _ (hp a ha), fun u c => no _ (hcl u c)⟩
  | succ k ih =>
    intro s qtr C hk
    by_cases hst : Stuck O prog call s
    · exact ⟨[], s, [], by simp, rfl, hst⟩
    · have ⟨x, hx, s1, ev1, h1⟩ : ∃ x, Inner ok x ∧ ∃ s1 ev1, OnQueue.step O s x = some (s1, ev1) := by
        apply Classical.byContradiction
        intro hn
        have no : ∀ x, Inner ok x → OnQueue.step O s x = none := by
          intro x hx
          cases hs : OnQueue.step O s x with
          | none => rfl
          | some y => exact absurd ⟨x, hx, y.1, y.2, hs⟩ hn
        exact hst ⟨fun a ha => no _ ha, fun a ha => no _ (hp a ha), fun u c => no _ (hcl u c)⟩
      obtain ⟨qtr1, C1, hd⟩ := total_dec hO hB C hx h1
      obtain ⟨as, s', ev, g1, g2, g3⟩ := ih C1 (by omega)
      refine ⟨x :: as, s', ev1 ++ ev, ?_, ?_, g3⟩
      · intro y hy; rcases List.mem_cons.1 hy with rfl | hy
        · exact hx
        · exact g1 y hy
      · simp [run, h1, g2]
end

/-! #### The message queue -/

/-- The steps the calls inside the queue can still take. -/
def mqMu (us : List Tid) (q : MQ.St Rid) : Nat := (us.map fun u => Props.MessageQueue.rank (q.pc u)).sum

/-- Whoever is inside the queue's code is inside according to the history. -/
theorem mq_inside {q : MQ.St Rid} (h : Reach MQ.step (MQ.init Rid n) q qtr) {u : Tid} (hu : q.pc u ≠ .idle) : qphase u qtr ≠ .out := by
  obtain ⟨l, I⟩ := MQ.Inv.reach h
  have hl := I.loc u
  intro ho
  unfold qphase at ho
  rw [ho] at hl
  cases hp : q.pc u <;> rw [hp] at hl hu <;> simp [MQ.Loc, MQ.Called] at hl hu

theorem mq_bounded (n : Nat) (us : List Tid) (hnd : us.Nodup) : Bounded MQ.step (MQ.init Rid n) (fun _ => True) us (mqMu us) 15 := by
  refine ⟨fun s qtr h hin act s' evs _ hs hsub => ?_⟩
  have hub := (Props.MessageQueue.C48_ring (Reach.step h hs)).1
  by_cases hc : Props.MessageQueue.isCall act = true
  · cases act <;> simp [Props.MessageQueue.isCall] at hc
    rename_i u c
    simp only [MQ.step] at hs
    repeat' split at hs
    all_goals simp only [Option.some.injEq, Prod.mk.injEq, reduceCtorEq] at hs
    obtain ⟨rfl, rfl⟩ := hs
    have hu : u ∈ us := hsub (.call u c) (by simp)
    have e : mqMu us (s.at u (.entry c)) + Props.MessageQueue.rank (s.pc u) = mqMu us s + Props.MessageQueue.rank ((s.at u (.entry c)).pc u) :=
      sum_change (f := fun v => Props.MessageQueue.rank ((s.at u (.entry c)).pc v)) (g := fun v => Props.MessageQueue.rank (s.pc v)) (t := u)
        (fun v hv => by simp only [MQ.St.at, upd_ne _ _ hv]) hnd hu
    have e2 : Props.MessageQueue.rank ((s.at u (.entry c)).pc u) = 15 := by simp [MQ.St.at, upd_same, Props.MessageQueue.rank]
    have e3 : calls [MQ.Ev.call u c] = 1 := rfl
    rw [e3]
    omega
  · obtain ⟨r1, r2⟩ := Props.MessageQueue.rank_step hs (by simpa using hc) hub
    have hu : Props.MessageQueue.actor act ∈ us := hin _ (mq_inside h (by intro e; rw [e] at r1; simp [Props.MessageQueue.rank] at r1))
    have e : mqMu us s' + Props.MessageQueue.rank (s.pc (Props.MessageQueue.actor act)) = mqMu us s + Props.MessageQueue.rank (s'.pc (Props.MessageQueue.actor act)) :=
      sum_change (f := fun v => Props.MessageQueue.rank (s'.pc v)) (g := fun v => Props.MessageQueue.rank (s.pc v)) (fun v hv => by simp only [r2 v hv]) hnd hu
    omega

/-! #### The queue on an event flag -/

section
open _root_.Verif.Props.MessageQueueEvent (pot Measure pot_step pot_le)
variable {w : Nat} {F : Type} {os : Bool} {O : F → EvF.Act w → Option (F × List (EvF.Ev w))} {f0 : F} {us : List Tid} {K : Nat} {μ : F → Tid → Nat}

/-- Everything but a spurious wake-up inside the event flag. -/
def NoWake : MQ.OnFlag.CAct Rid w → Prop
  | .ev (.wake _) => False
  | _ => True

theorem flag_mu0 (hw : 2 ≤ w) (hO : ∀ f ftr, Reach O f0 f ftr → ∃ σ, EvF.Spec.Linearizable false os ftr σ) (M : Measure O f0 us K μ)
    {s : MQ.OnFlag.CSt Rid F} (h : Reach (MQ.OnFlag.step O) (MQ.OnFlag.init Rid n f0) s qtr) {u : Tid} (hu : μ s.f u ≠ 0) :
    Props.MessageQueue.rank (s.m.pc u) ≠ 0 := by
  obtain ⟨a, ftr, hf, _, rel⟩ := MQ.OnFlag.simulation hw hO h
  have hp := rel.ph u
  have := M.out _ _ hf u
  cases hq : EvF.Spec.phase u ftr <;> rw [hq] at hp this
  · exact absurd (this.2 rfl) hu
  · have := Props.MessageQueueEvent.rank_evCall hp ⟨.OK, none⟩; omega
  · have := Props.MessageQueueEvent.rank_evCall hp ⟨.OK, none⟩; omega
  · exact absurd hp (by simp [MQ.OnFlag.okPhase])

theorem flag_bounded (hw : 2 ≤ w) (hO : ∀ f ftr, Reach O f0 f ftr → ∃ σ, EvF.Spec.Linearizable false os ftr σ) (M : Measure O f0 us K μ)
    (hnd : us.Nodup) : Bounded (MQ.OnFlag.step O) (MQ.OnFlag.init Rid n f0) NoWake us (fun s => (us.map (pot K μ s)).sum) (15 * K) := by
  refine ⟨fun s qtr h hin act s' evs ha hs hsub => ?_⟩
  have hi : Props.MessageQueueEvent.Inside us s := by
    intro u hu
    obtain ⟨a, ftr, hf, hr, rel⟩ := MQ.OnFlag.simulation hw hO h
    apply hin
    apply mq_inside hr
    rw [rel.eq]
    show MQ.OnFlag.view s.m ftr u ≠ .idle
    have hp := rel.ph u
    unfold MQ.OnFlag.view
    split
    · next r hd =>
      rw [hd] at hp
      cases hq : s.m.pc u <;> rw [hq] at hp <;> simp [MQ.OnFlag.okPhase, MQ.OnFlag.evCall] at hp <;> simp [MQ.OnFlag.after] <;> (try split) <;> simp
    · exact hu
  by_cases hc : Props.MessageQueueEvent.Inner act = true
  · have := (pot_step hw hO M h hi hc hs).2
    exact Nat.le_trans this (Nat.le_add_right _ _)
  · cases act with
    | ev a => cases a <;> simp [Props.MessageQueueEvent.Inner, NoWake] at hc ha
    | mq a =>
      cases a <;> simp [Props.MessageQueueEvent.Inner, Props.MessageQueue.isCall] at hc
      rename_i u c
      simp only [MQ.OnFlag.step] at hs
      split at hs
      · split at hs
        · rename_i m' ev' hm
          simp only [Option.some.injEq, Prod.mk.injEq] at hs
          obtain ⟨rfl, rfl⟩ := hs
          simp only [MQ.step] at hm
          repeat' split at hm
          all_goals simp only [Option.some.injEq, Prod.mk.injEq, reduceCtorEq] at hm
          rename_i hp
          obtain ⟨rfl, rfl⟩ := hm
          have hu : u ∈ us := hsub (.call u c) (by simp)
          have e := sum_change (f := pot K μ (⟨s.m.at u (.entry c), s.f⟩ : MQ.OnFlag.CSt Rid F)) (g := pot K μ s) (t := u)
            (fun v hv => by simp only [pot, MQ.St.at, upd_ne _ _ hv]) hnd hu
          have m0 : μ s.f u = 0 := by
            apply Classical.byContradiction
            intro hne
            exact flag_mu0 hw hO M h hne (by rw [hp]; rfl)
          have e2 : pot K μ (⟨s.m.at u (.entry c), s.f⟩ : MQ.OnFlag.CSt Rid F) u = K * 15 := by simp [pot, m0, MQ.St.at, upd_same, Props.MessageQueue.rank]
          have e3 : calls [MQ.Ev.call u c] = 1 := rfl
          rw [e3]
          rw [e2] at e
          have hp := M.pos
          show (us.map (pot K μ (⟨s.m.at u (.entry c), s.f⟩ : MQ.OnFlag.CSt Rid F))).sum + 1 ≤ (us.map (pot K μ s)).sum + (15 * K + 1) * 1
          simp only [Tid] at *
          omega
        · simp at hs
      · simp at hs

theorem flag_mu_le (hw : 2 ≤ w) (hO : ∀ f ftr, Reach O f0 f ftr → ∃ σ, EvF.Spec.Linearizable false os ftr σ) (M : Measure O f0 us K μ)
    (hμ : ∀ f t, μ f t ≤ K) {s : MQ.OnFlag.CSt Rid F} (h : Reach (MQ.OnFlag.step O) (MQ.OnFlag.init Rid n f0) s qtr) :
    (us.map (pot K μ s)).sum ≤ 15 * K * us.length := pot_le (hμ s.f) (fun t ht => flag_mu0 hw hO M h ht)
end

/-! #### The pool comes to rest -/

theorem load_le {s : TP.St} (ts : List Tid) : load ts n s ≤ (17 + n) * ts.length + 9 * n := by
  have e1 : cload ts n s.pc ≤ _ := Props.ThreadPoolMore.sum_bound (f := fun t => cw n (s.pc t)) (b := 17 + n) (fun t => Props.ThreadPoolMore.cw_le _) ts
  have e2 : wload n s.w ≤ _ := Props.ThreadPoolMore.sum_bound (f := fun i => ww (s.w i)) (b := 9) (fun i => Props.ThreadPoolMore.ww_le _) (List.range n)
  rw [List.length_range] at e2
  unfold load
  exact Nat.add_le_add e1 e2

theorem users_length (ts : List Tid) (n : Nat) : (users ts n).length = ts.length + n := by simp [users]

theorem total_le {Q : Type} {B M : Nat} {mu : Q → Nat} {s : CSt Q} (h : mu s.q ≤ M) :
    total ts n B mu s qtr ≤ (B + 1) * ((17 + n) * ts.length + 9 * n + (ts.length + n)) + M := by
  have h1 := load_le (n := n) (s := s.p) ts
  have h2 := outs_le (qtr := qtr) (users ts n)
  rw [users_length] at h2
  unfold total
  exact Nat.add_le_add (Nat.mul_le_mul_left _ (Nat.add_le_add h1 h2)) h

/-- How long a pool of `n` threads with `m` calls in progress can go on without new calls, if a queue operation takes at most `k` steps. -/
def bound (n m k : Nat) : Nat := (k + 1) * ((17 + n) * m + 9 * n + (m + n)) + k * (m + n)

/-- Without new pool calls the pool on `MessageQueue<T>` comes to rest, whatever the schedule and the timeouts do. -/
theorem C100_mq_terminates {n : Nat} {d : Int} {q0 : MQ.St Rid} {tr0 : List (MQ.Ev Rid)} (h0 : Filled MQ.step (MQ.init Rid n) n q0 tr0)
    {s s' : CSt (MQ.St Rid)} {tr ev : List Ev} (h : Reach (OnQueue.step MQ.step) (OnQueue.init n d q0) s tr) {as : List (CAct (MQ.Act Rid))}
    (ha : ∀ t c, .tp (.call t c) ∉ as) (hr : run (OnQueue.step MQ.step) as s = some (s', ev)) : as.length ≤ bound n s.p.inside.length 15 := by
  obtain ⟨qtr, C⟩ := ctx_of (mq_good n) h0 h
  obtain ⟨_, _, _, C0⟩ := C.2
  have h1 := terminates (mq_good n) (mq_bounded n _ (users_nodup C0.nd n)) as C (by
    intro x hx
    cases x with
    | tp a => intro t c e; exact ha t c (e ▸ hx)
    | mq a => trivial) hr
  refine Nat.le_trans h1 (total_le ?_)
  have h2 : mqMu (users s.p.inside n) s.q ≤ _ := Props.ThreadPoolMore.sum_bound (f := fun u => Props.MessageQueue.rank (s.q.pc u)) (b := 15)
    (fun u => by cases s.q.pc u <;> simp [Props.MessageQueue.rank]) (users s.p.inside n)
  rw [users_length] at h2
  exact h2

theorem Bounded.weaken {Q A : Type} {O : Q → A → Option (Q × List (MQ.Ev Rid))} {e : Q} {ok ok' : A → Prop} {us : List Tid} {mu : Q → Nat} {B : Nat}
    (h : Bounded O e ok us mu B) (hk : ∀ a, ok' a → ok a) : Bounded O e ok' us mu B :=
  ⟨fun s qtr hr hin act s' evs ha => h.dec s qtr hr hin act s' evs (hk act ha)⟩

/-- The steps of the pool's own threads and of the queue's code on their behalf: no new call of the pool, no platform error, no exception. -/
def Normal {A : Type} (prog : A → Prop) (call : Tid → MQ.Call Rid → A) : CAct A → Prop
  | .tp a => ∀ t c, a ≠ .call t c
  | .mq a => prog a ∨ ∃ u c, a = call u c

/-- From every state a pool on `MessageQueue<T>` gets, by such steps, to a state where nothing but a new call can happen; there only starts without timeout
are still waiting, and they wait for pool threads whose guards are not released. -/
theorem C100_mq_reaches {n : Nat} {d : Int} {q0 : MQ.St Rid} {tr0 : List (MQ.Ev Rid)} (h0 : Filled MQ.step (MQ.init Rid n) n q0 tr0)
    {s : CSt (MQ.St Rid)} {tr : List Ev} (h : Reach (OnQueue.step MQ.step) (OnQueue.init n d q0) s tr) :
    ∃ as s' ev, (∀ x, x ∈ as → Normal mqProg .call x) ∧ run (OnQueue.step MQ.step) as s = some (s', ev) ∧ Stuck MQ.step mqProg .call s' ∧ OnlyStarts n (tr ++ ev) := by
  obtain ⟨qtr, C⟩ := ctx_of (mq_good n) h0 h
  obtain ⟨_, _, _, C0⟩ := C.2
  obtain ⟨as, s', ev, h1, h2, h3⟩ := reaches (mq_good n) (prog := mqProg) (call := .call) (ok := fun a => mqProg a ∨ ∃ u c, a = .call u c)
    ((mq_bounded n _ (users_nodup C0.nd n)).weaken (fun _ _ => trivial)) (fun _ ha => .inl ha) (fun u c => .inr ⟨u, c, rfl⟩) _ C (Nat.le_refl _)
  exact ⟨as, s', ev, fun x hx => by have := h1 x hx; cases x <;> exact this, h2, h3, C100_mq_stuck h0 (run_reach as h h2) h3⟩

section
variable {w : Nat}
open _root_.Verif.Props.MessageQueueEvent (std_measure itron_measure stdRank itronRank stdO itronO)

theorem std_mu_le (us : List Tid) (f : EvF.Std.St w) (t : Tid) : stdRank us.length (f.pc t) ≤ 2 * us.length + 14 := by
  cases f.pc t <;> (try (rename_i l; cases l)) <;> simp [stdRank] <;> omega
theorem itron_mu_le (f : EvF.Itron.St w) (t : Tid) : itronRank (f.pc t) ≤ 4 := by
  cases f.pc t <;> simp [itronRank]

/-- On the queue on `StdCppEventFlag`: at most so many steps, if there are no spurious wake-ups. -/
theorem C100_std_terminates {n : Nat} {d : Int} (hw : 2 ≤ w) {q0 : MQ.OnFlag.CSt Rid (EvF.Std.St w)} {tr0 : List (MQ.Ev Rid)}
    (h0 : Filled (MQ.OnFlag.step (EvF.Std.step false)) (MQ.OnFlag.init Rid n (EvF.Std.init w)) n q0 tr0)
    {s s' : CSt (MQ.OnFlag.CSt Rid (EvF.Std.St w))} {tr ev : List Ev}
    (h : Reach (OnQueue.step (MQ.OnFlag.step (EvF.Std.step false))) (OnQueue.init n d q0) s tr) {as : List (CAct (MQ.OnFlag.CAct Rid w))}
    (ha : ∀ t c, .tp (.call t c) ∉ as) (hk : ∀ t, .mq (.ev (.wake t)) ∉ as)
    (hr : run (OnQueue.step (MQ.OnFlag.step (EvF.Std.step false))) as s = some (s', ev)) :
    as.length ≤ bound n s.p.inside.length (15 * (2 * (s.p.inside.length + n) + 14)) := by
  obtain ⟨qtr, C⟩ := ctx_of (flag_good hw (stdO w) n) h0 h
  obtain ⟨_, _, _, C0⟩ := C.2
  have h1 := terminates (flag_good hw (stdO w) n) (flag_bounded hw (stdO w) (std_measure (users s.p.inside n)) (users_nodup C0.nd n)) as C (by
    intro x hx
    cases x with
    | tp a => intro t c e; exact ha t c (e ▸ hx)
    | mq a =>
      cases a with
      | mq => trivial
      | ev a => cases a <;> first | trivial | exact absurd hx (hk _)) hr
  refine Nat.le_trans h1 ?_
  rw [users_length]
  refine total_le ?_
  have := flag_mu_le hw (stdO w) (std_measure (users s.p.inside n)) (std_mu_le _) C.1
  rw [users_length] at this
  exact this

theorem C100_std_reaches {n : Nat} {d : Int} (hw : 2 ≤ w) {q0 : MQ.OnFlag.CSt Rid (EvF.Std.St w)} {tr0 : List (MQ.Ev Rid)}
    (h0 : Filled (MQ.OnFlag.step (EvF.Std.step false)) (MQ.OnFlag.init Rid n (EvF.Std.init w)) n q0 tr0)
    {s : CSt (MQ.OnFlag.CSt Rid (EvF.Std.St w))} {tr : List Ev}
    (h : Reach (OnQueue.step (MQ.OnFlag.step (EvF.Std.step false))) (OnQueue.init n d q0) s tr) :
    ∃ as s' ev, (∀ x, x ∈ as → Normal flagProg (fun u c => .mq (.call u c)) x) ∧ run (OnQueue.step (MQ.OnFlag.step (EvF.Std.step false))) as s = some (s', ev) ∧
      Stuck (MQ.OnFlag.step (EvF.Std.step false)) flagProg (fun u c => .mq (.call u c)) s' ∧ OnlyStarts n (tr ++ ev) := by
  obtain ⟨qtr, C⟩ := ctx_of (flag_good hw (stdO w) n) h0 h
  obtain ⟨_, _, _, C0⟩ := C.2
  obtain ⟨as, s', ev, h1, h2, h3⟩ := reaches (flag_good hw (stdO w) n) (prog := flagProg) (call := fun u c => .mq (.call u c))
    (ok := fun a => flagProg a ∨ ∃ u c, a = .mq (.call u c))
    ((flag_bounded hw (stdO w) (std_measure (users s.p.inside n)) (users_nodup C0.nd n)).weaken (by
      intro a ha
      rcases ha with ha | ⟨u, c, rfl⟩
      · unfold NoWake; split
        · exact ha
        · trivial
      · trivial)) (fun _ ha => .inl ha) (fun u c => .inr ⟨u, c, rfl⟩) _ C (Nat.le_refl _)
  exact ⟨as, s', ev, fun x hx => by have := h1 x hx; cases x <;> exact this, h2, h3, C100_std_stuck hw h0 (run_reach as h h2) h3⟩

theorem C100_itron_terminates {n : Nat} {d : Int} (hw : 2 ≤ w) {ins : List (EvF.Itron.Waiter w) → EvF.Itron.Waiter w → Nat} {q0 : MQ.OnFlag.CSt Rid (EvF.Itron.St w)}
    {tr0 : List (MQ.Ev Rid)} (h0 : Filled (MQ.OnFlag.step (EvF.Itron.step false ins)) (MQ.OnFlag.init Rid n (EvF.Itron.init w)) n q0 tr0)
    {s s' : CSt (MQ.OnFlag.CSt Rid (EvF.Itron.St w))} {tr ev : List Ev}
    (h : Reach (OnQueue.step (MQ.OnFlag.step (EvF.Itron.step false ins))) (OnQueue.init n d q0) s tr) {as : List (CAct (MQ.OnFlag.CAct Rid w))}
    (ha : ∀ t c, .tp (.call t c) ∉ as) (hk : ∀ t, .mq (.ev (.wake t)) ∉ as)
    (hr : run (OnQueue.step (MQ.OnFlag.step (EvF.Itron.step false ins))) as s = some (s', ev)) :
    as.length ≤ bound n s.p.inside.length 60 := by
  obtain ⟨qtr, C⟩ := ctx_of (flag_good hw (itronO w ins) n) h0 h
  obtain ⟨_, _, _, C0⟩ := C.2
  have h1 := terminates (flag_good hw (itronO w ins) n) (flag_bounded hw (itronO w ins) (itron_measure ins (users s.p.inside n)) (users_nodup C0.nd n)) as C (by
    intro x hx
    cases x with
    | tp a => intro t c e; exact ha t c (e ▸ hx)
    | mq a =>
      cases a with
      | mq => trivial
      | ev a => cases a <;> first | trivial | exact absurd hx (hk _)) hr
  refine Nat.le_trans h1 (total_le ?_)
  have := flag_mu_le hw (itronO w ins) (itron_measure ins (users s.p.inside n)) itron_mu_le C.1
  rw [users_length] at this
  exact this

theorem C100_itron_reaches {n : Nat} {d : Int} (hw : 2 ≤ w) {ins : List (EvF.Itron.Waiter w) → EvF.Itron.Waiter w → Nat} {q0 : MQ.OnFlag.CSt Rid (EvF.Itron.St w)}
    {tr0 : List (MQ.Ev Rid)} (h0 : Filled (MQ.OnFlag.step (EvF.Itron.step false ins)) (MQ.OnFlag.init Rid n (EvF.Itron.init w)) n q0 tr0)
    {s : CSt (MQ.OnFlag.CSt Rid (EvF.Itron.St w))} {tr : List Ev}
    (h : Reach (OnQueue.step (MQ.OnFlag.step (EvF.Itron.step false ins))) (OnQueue.init n d q0) s tr) :
    ∃ as s' ev, (∀ x, x ∈ as → Normal flagProg (fun u c => .mq (.call u c)) x) ∧ run (OnQueue.step (MQ.OnFlag.step (EvF.Itron.step false ins))) as s = some (s', ev) ∧
      Stuck (MQ.OnFlag.step (EvF.Itron.step false ins)) flagProg (fun u c => .mq (.call u c)) s' ∧ OnlyStarts n (tr ++ ev) := by
  obtain ⟨qtr, C⟩ := ctx_of (flag_good hw (itronO w ins) n) h0 h
  obtain ⟨_, _, _, C0⟩ := C.2
  obtain ⟨as, s', ev, h1, h2, h3⟩ := reaches (flag_good hw (itronO w ins) n) (prog := flagProg) (call := fun u c => .mq (.call u c))
    (ok := fun a => flagProg a ∨ ∃ u c, a = .mq (.call u c))
    ((flag_bounded hw (itronO w ins) (itron_measure ins (users s.p.inside n)) (users_nodup C0.nd n)).weaken (by
      intro a ha
      rcases ha with ha | ⟨u, c, rfl⟩
      · unfold NoWake; split
        · exact ha
        · trivial
      · trivial)) (fun _ ha => .inl ha) (fun u c => .inr ⟨u, c, rfl⟩) _ C (Nat.le_refl _)
  exact ⟨as, s', ev, fun x hx => by have := h1 x hx; cases x <;> exact this, h2, h3, C100_itron_stuck hw h0 (run_reach as h h2) h3⟩
end

/-- The hypotheses are met: in the middle of `demo` (client 1's start has returned, client 2 sleeps in the queue, the pool thread is about to run task 7), seven
more steps of the composition without a new call. -/
example : ∃ s tr s' ev, Reach (OnQueue.step MQ.step) (OnQueue.init 1 5 full1.1) s tr ∧ s.p.inside = [2] ∧
    run (OnQueue.step MQ.step) (tp (.pgo 0) :: tp (.throw 0) :: List.replicate 5 (tp (.pgo 0))) s = some (s', ev) := by
  obtain ⟨s, tr, h, hp⟩ := runSat_ex (step := OnQueue.step MQ.step) (init := OnQueue.init 1 5 full1.1) (as := demo.take 31)
    (P := fun (s : CSt (MQ.St Rid)) tr => decide (s.p.inside = [2]) && (run (OnQueue.step MQ.step) (tp (.pgo 0) :: tp (.throw 0) :: List.replicate 5 (tp (.pgo 0))) s).isSome) (by decide)
  simp only [Bool.and_eq_true, decide_eq_true_eq, Option.isSome_iff_exists] at hp
  obtain ⟨h1, ⟨s', ev⟩, h2⟩ := hp
  exact ⟨s, tr, s', ev, h, h1, h2⟩

end Verif.Props.ThreadPoolQueue
