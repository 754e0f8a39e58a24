import Verif.Props.ThreadPoolFlag
import Verif.Props.ThreadPoolQueueLive
/-
C109, progress: without new calls of the pool, the pool, its queue program and its event flag programs come to rest.
-/
set_option linter.unusedSimpArgs false
set_option linter.unusedVariables false
namespace Verif.Props.ThreadPoolFlag
open Verif TP TP.OnFlags
open _root_.Verif.Lts (Reach run runSat_ex run_reach)
open _root_.Verif.Mtx (Tid Err)
open _root_.Verif.EvF (Tmo)
open _root_.Verif.TP.OnQueue (cli wrk who who_cli who_wrk who_client who_worker cli_inj wrk_inj cli_wrk qPos qW qCall atQueue qphase qphase_snoc Filled merge)
open _root_.Verif.Props.ThreadPool (Exec)
open _root_.Verif.Props.ThreadPoolMore (cw ww)
open _root_.Verif.Props.ThreadPoolQueue (GoodQueue OnlyStarts flag_good flag_live mqProg flagProg Ctx load cload wload sum_change sum_four users users_nodup outs calls rets own_dec evs_dec Bounded
  total bound NoWake)
open _root_.Verif.Props.MessageQueueEvent (Measure)
variable {w n : Nat} {d : Int} {ts : List Tid} {p p' a a' b : TP.St} {ftr : Rid → List (EvF.Ev w)} {qtr qtr' : List (MQ.Ev Rid)} {q q' : List Rid} {tr ev : List Ev}

/-! #### The pool's own measure -/

/-- Steps of threads that are not inside a flag change the measure as they change that of the pool on atomic flags. -/
theorem load_eq (rel : Rel p ftr qtr a) (rel' : Rel p' ftr qtr' a') (h1 : ∀ t, p'.pc t ≠ p.pc t → fPos w (p.pc t) = none)
    (h2 : ∀ i, p'.w i ≠ p.w i → fW w i (p.w i) = none) : load ts n p' + load ts n a = load ts n a' + load ts n p := by
  have e1 : cload ts n p'.pc + cload ts n a.pc = cload ts n a'.pc + cload ts n p.pc := sum_four (f := fun t => cw n (p.pc t)) (g := fun t => cw n (a.pc t)) (f' := fun t => cw n (p'.pc t)) (g' := fun t => cw n (a'.pc t)) (by
    intro t
    simp only [rel.pc, rel'.pc]
    by_cases e : p'.pc t = p.pc t
    · rw [vPC_congr e (fun i => rfl), e]; omega
    · have h := h1 t e
      have ho := rel.out (u := cli t) (by simp [fCall, who_cli, h])
      rw [vPC_none h]
      have : OnFlags.vPC p' ftr t = p'.pc t := by
        unfold OnFlags.vPC
        split
        · rfl
        · rw [ho]
      rw [this]) ts
  have e2 : wload n p'.w + wload n a.w = wload n a'.w + wload n p.w := sum_four (f := fun t => ww (p.w t)) (g := fun t => ww (a.w t)) (f' := fun t => ww (p'.w t)) (g' := fun t => ww (a'.w t)) (by
    intro t
    simp only [rel.wk, rel'.wk]
    by_cases e : p'.w t = p.w t
    · rw [vW_congr e rfl, e]; omega
    · have h := h2 t e
      have ho := rel.out (u := wrk t) (by simp [fCall, who_wrk, h]) t
      rw [vW_eq (p := p) (ftr := ftr) (by intro c r; rw [ho]; simp), vW_eq (p := p') (ftr := ftr) (by intro c r; rw [ho]; simp)]) (List.range n)
  unfold load; omega

theorem own_moved {act : Act} (hc : atQueue p act = false) (hf : atFlag w p act = false) (hs : TP.step p act = some (p', ev)) :
    (∀ t, p'.pc t ≠ p.pc t → fPos w (p.pc t) = none) ∧ ∀ i, p'.w i ≠ p.w i → fW w i (p.w i) = none := by
  obtain ⟨h1, h2⟩ := moved hc hs
  refine ⟨fun t ht => ?_, fun i hi => ?_⟩
  · rcases h1 t ht with ⟨c, rfl⟩ | rfl | rfl <;> simpa [atFlag] using hf
  · rcases h2 i hi with h | rfl | rfl
    · rw [h]; rfl
    · simpa [atFlag] using hf
    · simpa [atFlag] using hf

theorem q_moved {x : MQ.Ev Rid} (rel : Rel p ftr qtr a) (hnb : ∀ u, MQ.Spec.phase u (qtr ++ [x]) ≠ .bad) (he : OnQueue.onEv p x = some (p', ev)) :
    (∀ t, p'.pc t ≠ p.pc t → fPos w (p.pc t) = none) ∧ ∀ i, p'.w i ≠ p.w i → fW w i (p.w i) = none := by
  cases x with
  | ret u c r =>
    have hu : qCall p u ≠ none := by
      apply rel.qph
      intro ho
      apply hnb u
      show qphase u _ = _
      rw [qphase_snoc, ho]
      simp [MQ.Spec.Phase.next]
    simp only [OnQueue.onEv, OnQueue.resume] at he
    cases hw : who u with
    | worker i =>
      simp only [hw, Option.some.injEq, Prod.mk.injEq] at he
      obtain ⟨rfl, rfl⟩ := he
      simp only [qCall, hw] at hu
      refine ⟨fun t ht => absurd rfl ht, fun j hj => ?_⟩
      by_cases e : j = i
      · subst e; exact fW_qW hu
      · exact absurd (upd_ne _ _ e) hj
    | client t =>
      simp only [qCall, hw] at hu
      simp only [hw] at he
      have cl : ∀ {x : PC} {p1 : TP.St}, p1.pc = upd p.pc t x → p1.w = p.w →
          (∀ t, p1.pc t ≠ p.pc t → fPos w (p.pc t) = none) ∧ ∀ i, p1.w i ≠ p.w i → fW w i (p.w i) = none := by
        intro x p1 e1 e2
        refine ⟨fun v hv => ?_, fun i hi => absurd (by rw [e2]) hi⟩
        by_cases e : v = t
        · subst e; exact fPos_qPos hu
        · rw [e1] at hv; exact absurd (upd_ne _ _ e) hv
      split at he
      · split at he
        · next i =>
          split at he
          · next hf =>
            simp only [Option.some.injEq, Prod.mk.injEq] at he
            obtain ⟨rfl, rfl⟩ := he
            refine ⟨fun t ht => absurd rfl ht, fun j hj => ?_⟩
            by_cases e : j = i
            · subst e; rw [hf]; rfl
            · exact absurd (upd_ne _ _ e) hj
          · simp at he
        · simp only [Option.some.injEq, Prod.mk.injEq] at he
          obtain ⟨rfl, rfl⟩ := he
          exact cl rfl rfl
      · simp only [Option.some.injEq, Prod.mk.injEq] at he
        obtain ⟨rfl, rfl⟩ := he
        exact cl rfl rfl
  | _ =>
    have : p' = p := by
      simp only [OnQueue.onEv] at he
      (try split at he) <;> simp at he <;> exact he.1.symm
    subst this
    exact ⟨fun t ht => absurd rfl ht, fun j hj => absurd rfl hj⟩

theorem qs_loads : ∀ {xs : List (MQ.Ev Rid)} {p p' a a' : TP.St} {qtr : List (MQ.Ev Rid)} {ev ev' : List Ev}
    (_ : Rel p ftr qtr a) (_ : ∀ u, MQ.Spec.phase u (qtr ++ xs) ≠ .bad) (_ : OnQueue.onEvs p xs = some (p', ev)) (_ : OnQueue.onEvs a xs = some (a', ev')),
    load ts n p' + load ts n a = load ts n a' + load ts n p
  | [], p, p', a, a', qtr, ev, ev', rel, _, he, he' => by
    simp only [OnQueue.onEvs, Option.some.injEq, Prod.mk.injEq] at he he'
    obtain ⟨rfl, rfl⟩ := he
    obtain ⟨rfl, rfl⟩ := he'
    omega
  | x :: xs, p, p', a, a', qtr, ev, ev', rel, hnb, he, he' => by
    simp only [OnQueue.onEvs] at he he'
    split at he
    · simp at he
    · rename_i p1 e1 h1
      split at he
      · simp at he
      · rename_i p2 e2 h2
        simp only [Option.some.injEq, Prod.mk.injEq] at he
        obtain ⟨rfl, rfl⟩ := he
        have hnb' : ∀ u, MQ.Spec.phase u ((qtr ++ [x]) ++ xs) ≠ .bad := by simpa using hnb
        have hb1 : ∀ u, MQ.Spec.phase u (qtr ++ [x]) ≠ .bad := by
          intro u hu
          apply hnb' u
          unfold MQ.Spec.phase at hu ⊢
          rw [List.foldl_append, hu]
          clear hnb hnb' h2 h1 he'
          induction xs with
          | nil => rfl
          | cons y ys ih => rw [List.foldl_cons, OnQueue.qbad_next]; exact ih
        obtain ⟨a1, g1, rel1⟩ := sim_q rel hb1 h1
        rw [g1] at he'
        simp only at he'
        split at he'
        · simp at he'
        · rename_i a2 e3 h3
          simp only [Option.some.injEq, Prod.mk.injEq] at he'
          obtain ⟨rfl, rfl⟩ := he'
          obtain ⟨m1, m2⟩ := q_moved rel hb1 h1
          have := load_eq (ts := ts) (n := n) rel rel1 m1 m2
          have := qs_loads rel1 hnb' h2 h3
          omega

/-! #### The flags -/

theorem Ctx.owns (h : Owns a ev a') : ∀ {b : TP.St} {tr : List Ev}, (∀ t c, .call t c ∉ ev) → Ctx n d ts a qtr q b tr → ∃ b' tr', Ctx n d ts a' qtr q b' tr' := by
  induction h with
  | nil => intro b tr _ C; exact ⟨b, tr, C⟩
  | @step a1 a2 a3 act e1 e2 h1 h2 h3 ih =>
    intro b tr hn C
    have hc : ∀ t c, act ≠ .call t c := by
      rintro t c rfl
      have : e1 = [.call t c] := by
        simp only [TP.step] at h2
        (repeat' split at h2) <;> simp only [Option.some.injEq, Prod.mk.injEq, reduceCtorEq] at h2 <;> exact h2.2.symm
      exact hn t c (by simp [this])
    obtain ⟨_, b1, C1⟩ := own_dec C h1 h2 hc
    exact ih (fun t c hm => hn t c (by simp [hm])) C1

theorem no_calls {i : Rid} : ∀ {xs : List (EvF.Ev w)} {p p' : TP.St} {ev : List Ev} (_ : onEvs i p xs = some (p', ev)), ∀ t c, Ev.call t c ∉ ev
  | [], p, p', ev, he => by
    simp only [onEvs, Option.some.injEq, Prod.mk.injEq] at he
    obtain ⟨rfl, rfl⟩ := he; simp
  | x :: xs, p, p', ev, he => by
    simp only [onEvs] at he
    split at he
    · simp at he
    · rename_i p1 e1 h1
      split at he
      · simp at he
      · rename_i p2 e2 h2
        simp only [Option.some.injEq, Prod.mk.injEq] at he
        obtain ⟨rfl, rfl⟩ := he
        intro t c hm
        rcases List.mem_append.1 hm with hm | hm
        · cases x <;> simp only [onEv] at h1 <;> (try split at h1) <;> simp only [Option.some.injEq, Prod.mk.injEq, reduceCtorEq] at h1 <;> obtain ⟨_, rfl⟩ := h1
          · simp at hm
          · unfold marks at hm; (repeat' split at hm) <;> simp at hm
          · simp at hm
        · exact no_calls h2 t c hm

theorem lins_keep {i : Rid} : ∀ {xs : List (EvF.Ev w)} {p p' : TP.St} {ev : List Ev} (_ : ∀ x, x ∈ xs → ∃ t c r, x = .lin t c r) (_ : onEvs i p xs = some (p', ev)), p' = p
  | [], p, p', ev, _, he => by simp only [onEvs, Option.some.injEq, Prod.mk.injEq] at he; exact he.1.symm
  | x :: xs, p, p', ev, h, he => by
    obtain ⟨t, c, r, rfl⟩ := h x (by simp)
    simp only [onEvs, onEv] at he
    split at he
    · simp at he
    · rename_i p1 e1 h3
      split at h3
      · simp only [Option.some.injEq, Prod.mk.injEq] at h3
        obtain ⟨rfl, rfl⟩ := h3
        split at he
        · simp at he
        · rename_i p2 e2 h4
          simp only [Option.some.injEq, Prod.mk.injEq] at he
          obtain ⟨rfl, rfl⟩ := he
          exact lins_keep (fun x hx => h x (by simp [hx])) h4
      · simp at h3

/-- A call of a flag that returns moves its caller on. -/
theorem resume_dec (rel : Rel p ftr qtr a) (C : Ctx n d ts a qtr q b tr) {i : Rid} {u : Tid} {c : EvF.Call w} {r : EvF.Res w} (hu : fCall w p u = some (i, c)) :
    load ts n (resume p u r) < load ts n p := by
  unfold fCall at hu
  unfold resume
  cases hw : who u with
  | worker j =>
    simp only [hw] at hu
    simp only
    have hd : a.w j ≠ .dead := by
      rw [rel.wk]; unfold OnFlags.vW
      split <;> cases hp : p.w j <;> rw [hp] at hu <;> simp [fW] at hu <;> simp [OnFlags.afterW]
    have e : wload n (upd p.w j (OnFlags.afterW (p.w j))) + ww (p.w j) = wload n p.w + ww (upd p.w j (OnFlags.afterW (p.w j)) j) :=
      sum_change (f := fun v => ww (upd p.w j (OnFlags.afterW (p.w j)) v)) (g := fun v => ww (p.w v)) (t := j)
        (fun v hv => by simp only [upd_ne _ _ hv]) List.nodup_range (List.mem_range.2 (C.lt hd))
    have : ww (OnFlags.afterW (p.w j)) < ww (p.w j) := by
      cases hp : p.w j <;> rw [hp] at hu <;> simp [fW] at hu <;> simp [OnFlags.afterW, ww, rank]
    simp only [upd_same] at e
    simp only [load, St.wAt]; omega
  | client t =>
    simp only [hw] at hu
    simp only
    have hi : a.pc t ≠ .idle := by
      intro e
      have h1 := vPC_call (p := p) (ftr := ftr) (t := t)
      rw [← rel.pc, e] at h1
      unfold fPos at hu
      split at hu <;> (first | (rename_i h; rw [h] at h1; simp [callOf] at h1) | simp at hu)
    have e : cload ts n (upd p.pc t (OnFlags.afterPC (p.pc t) r)) + cw n (p.pc t) = cload ts n p.pc + cw n (upd p.pc t (OnFlags.afterPC (p.pc t) r) t) :=
      sum_change (f := fun v => cw n (upd p.pc t (OnFlags.afterPC (p.pc t) r) v)) (g := fun v => cw n (p.pc v)) (t := t)
        (fun v hv => by simp only [upd_ne _ _ hv]) C.nd (C.ins t hi)
    have : cw n (OnFlags.afterPC (p.pc t) r) < cw n (p.pc t) := by
      unfold fPos at hu
      split at hu <;> (first | (rename_i h; rw [h]; simp [OnFlags.afterPC, cw]) | simp at hu)
    simp only [upd_same] at e
    simp only [load]; omega

/-- Who uses a flag. -/
theorem flag_user (rel : Rel p ftr qtr a) (C : Ctx n d ts a qtr q b tr) {i : Rid} {u : Tid} {c : EvF.Call w} (hu : fCall w p u = some (i, c)) : u ∈ users ts n := by
  unfold fCall at hu
  unfold users
  cases hw : who u with
  | worker j =>
    simp only [hw] at hu
    have hd : a.w j ≠ .dead := by
      rw [rel.wk]; unfold OnFlags.vW
      split <;> cases hp : p.w j <;> rw [hp] at hu <;> simp [fW] at hu <;> simp [OnFlags.afterW]
    rw [who_worker hw]
    exact List.mem_append_right _ (List.mem_map.2 ⟨j, List.mem_range.2 (C.lt hd), rfl⟩)
  | client t =>
    simp only [hw] at hu
    have hi : a.pc t ≠ .idle := by
      intro e
      have h1 := vPC_call (p := p) (ftr := ftr) (t := t)
      rw [← rel.pc, e] at h1
      unfold fPos at hu
      split at hu <;> (first | (rename_i h; rw [h] at h1; simp [callOf] at h1) | simp at hu)
    rw [who_client hw]
    exact List.mem_append_left _ (List.mem_map.2 ⟨t, C.ins t hi, rfl⟩)

/-- Only the flags of the pool's threads are used. -/
theorem flag_lt (rel : Rel p ftr qtr a) (C : Ctx n d ts a qtr q b tr) {i : Rid} {u : Tid} {c : EvF.Call w} (hu : fCall w p u = some (i, c))
    (ho : EvF.Spec.phase u (ftr i) = .out) : i < n := by
  unfold fCall at hu
  cases hw : who u with
  | worker j =>
    simp only [hw] at hu
    have : j = i := by cases hp : p.w j <;> rw [hp] at hu <;> simp [fW] at hu <;> exact hu.1
    subst this
    have hd : a.w j ≠ .dead := by
      rw [rel.wk]; unfold OnFlags.vW
      split <;> cases hp : p.w j <;> rw [hp] at hu <;> simp [fW] at hu <;> simp [OnFlags.afterW]
    exact C.lt hd
  | client t =>
    simp only [hw] at hu
    rw [who_client hw] at ho
    have h1 : a.pc t = p.pc t := by rw [rel.pc]; exact vPC_out hu (by rw [ho]; simp)
    have S := (TP.Inv.reach C.hr).st
    have cs := S.cs t
    have h2 : b.pc t = p.pc t := by
      rw [C.rel.pc]; unfold OnQueue.vPC
      have hq : qPos (a.pc t) = none := by
        apply Classical.byContradiction
        intro hne
        have := fPos_qPos (w := w) hne
        rw [h1, hu] at this; simp at this
      have ho : qphase (cli t) qtr = .out := by
        apply Classical.byContradiction
        intro hne
        have := (C.rel.ph _ hne).2
        simp [qCall, who_cli, hq] at this
      rw [ho, h1]
    rw [h2] at cs
    apply Classical.byContradiction
    intro hn
    have hod := S.od i (Nat.le_of_not_lt hn)
    unfold fPos at hu
    split at hu
    · next h => rw [h] at cs; simp only [Option.some.injEq, Prod.mk.injEq] at hu; obtain ⟨rfl, _⟩ := hu; have := cs.2; rw [hod] at this; simp at this
    · next h => rw [h] at cs; simp only [Option.some.injEq, Prod.mk.injEq] at hu; obtain ⟨rfl, _⟩ := hu; have := cs.2; rw [hod] at this; simp at this
    · next h => rw [h] at cs; simp only [Option.some.injEq, Prod.mk.injEq] at hu; obtain ⟨rfl, _⟩ := hu; have := cs.2.1; rw [hod] at this; simp at this
    · simp at hu

/-! #### Everything together -/

section
variable {Q A F : Type} {O : Q → A → Option (Q × List (MQ.Ev Rid))} {P : F → EvF.Act w → Option (F × List (EvF.Ev w))} {e q0 : Q} {f0 : F} {ok : A → Prop}
  {mu : Q → Nat} {B K : Nat} {μ : F → Tid → Nat} {os : Bool}

structure FCtx (O : Q → A → Option (Q × List (MQ.Ev Rid))) (P : F → EvF.Act w → Option (F × List (EvF.Ev w))) (e : Q) (f0 : F) (n : Nat) (d : Int) (ts : List Tid)
    (s : CSt Q F) (ftr : Rid → List (EvF.Ev w)) (qtr : List (MQ.Ev Rid)) : Prop where
  hf : ∀ i, Reach P f0 (s.f i) (ftr i)
  hq : Reach O e s.c.q qtr
  ctx : ∃ a q b tr, Ctx n d ts a qtr q b tr ∧ Rel s.c.p ftr qtr a
  lt : ∀ i u, EvF.Spec.phase u (ftr i) ≠ .out → i < n

/-- A thread outside a flag can still call it; a thread inside can still take so many steps. -/
def psi (K x : Nat) : Nat := (if x = 0 then K else 0) + x
def flagSum (K : Nat) (μ : F → Tid → Nat) (us : List Tid) (f : F) : Nat := (us.map fun u => psi K (μ f u)).sum
def flagsSum (K : Nat) (μ : F → Tid → Nat) (us : List Tid) (n : Nat) (f : Rid → F) : Nat := ((List.range n).map fun i => flagSum K μ us (f i)).sum

def ftotal (ts : List Tid) (n B K : Nat) (mu : Q → Nat) (μ : F → Tid → Nat) (s : CSt Q F) (qtr : List (MQ.Ev Rid)) : Nat :=
  K * total ts n B mu s.c qtr + flagsSum K μ (users ts n) n s.f

/-- Not a new call of the pool, not a spurious wake-up. -/
def FInner (ok : A → Prop) : CAct A w → Prop
  | .tp a => ∀ t c, a ≠ .call t c
  | .mq a => ok a
  | .ev _ (.wake _) => False
  | .ev _ _ => True

theorem mul_lt {K x y z : Nat} (hK : 0 < K) (h : x < y) : K * x + z < K * y + z := by
  have := Nat.mul_lt_mul_of_pos_left h hK
  omega

theorem flags_change {us : List Tid} {f : Rid → F} {i : Rid} {f' : F} (hi : i < n) :
    flagsSum K μ us n (upd f i f') + flagSum K μ us (f i) = flagsSum K μ us n f + flagSum K μ us f' := by
  have := sum_change (f := fun j => flagSum K μ us (upd f i f' j)) (g := fun j => flagSum K μ us (f j)) (t := i)
    (fun j hj => by simp only [upd_ne _ _ hj]) List.nodup_range (List.mem_range.2 hi)
  simp only [upd_same] at this
  exact this

theorem psi_sum {f : F} {us : List Tid} : flagSum K μ us f = (us.map fun u => if μ f u = 0 then K else 0).sum + (us.map (μ f)).sum := by
  unfold flagSum psi
  induction us with
  | nil => rfl
  | cons x us ih => simp only [List.map_cons, List.sum_cons]; omega

theorem ftotal_dec (hw : 1 ≤ w) (hO : GoodQueue O e n) (hB : Bounded O e ok (users ts n) mu B) (hP : ∀ f ftr, Reach P f0 f ftr → ∃ σ, EvF.Spec.Linearizable false os ftr σ)
    (M : Measure P f0 (users ts n) K μ) {s s' : CSt Q F} {act : CAct A w} (J : FCtx O P e f0 n d ts s ftr qtr) (ha : FInner ok act)
    (hs : OnFlags.step O P s act = some (s', ev)) :
    ∃ ftr' qtr', FCtx O P e f0 n d ts s' ftr' qtr' ∧ ftotal ts n B K mu μ s' qtr' < ftotal ts n B K mu μ s qtr := by
  obtain ⟨a, q, b, tr, C, rel⟩ := J.ctx
  cases act with
  | tp act =>
    simp only [OnFlags.step] at hs
    split at hs
    · simp at hs
    · rename_i hat
      split at hs
      · rename_i c ev' hm
        simp only [Option.some.injEq, Prod.mk.injEq] at hs
        obtain ⟨rfl, rfl⟩ := hs
        simp only [OnQueue.step] at hm
        split at hm
        · simp at hm
        · rename_i haq
          split at hm
          · rename_i p' ev'' hm'
            simp only [Option.some.injEq, Prod.mk.injEq] at hm
            obtain ⟨rfl, rfl⟩ := hm
            obtain ⟨a', h1, h2, h3⟩ := sim_own rel (by simpa using haq) (by simpa using hat) hm'
            obtain ⟨g1, b', C'⟩ := own_dec C h3 h1 ha
            obtain ⟨m1, m2⟩ := own_moved (w := w) (by simpa using haq) (by simpa using hat) hm'
            have le := load_eq (ts := ts) (n := n) rel h2 m1 m2
            refine ⟨ftr, qtr, ⟨J.hf, J.hq, ⟨a', q, b', _, C', h2⟩, J.lt⟩, ?_⟩
            refine mul_lt M.pos ?_
            unfold total
            have := Nat.mul_lt_mul_of_pos_left (Nat.add_lt_add_right (show load ts n p' < load ts n s.c.p by omega) (outs (users ts n) qtr)) (show 0 < B + 1 by omega)
            simp only at this ⊢
            omega
          · simp at hm
      · simp at hs
  | mq act =>
    simp only [OnFlags.step] at hs
    split at hs
    · rename_i c ev' hm
      simp only [Option.some.injEq, Prod.mk.injEq] at hs
      obtain ⟨rfl, rfl⟩ := hs
      simp only [OnQueue.step] at hm
      split at hm
      · simp at hm
      · rename_i q1 evs hO'
        split at hm
        · simp at hm
        · rename_i p' ev'' hm'
          simp only [Option.some.injEq, Prod.mk.injEq] at hm
          obtain ⟨rfl, rfl⟩ := hm
          have hq' := Reach.step J.hq hO'
          obtain ⟨⟨ql, hl⟩, hh⟩ := hO _ _ hq'
          obtain ⟨a', h1, h2⟩ := sim_qs rel hl.2 hm'
          obtain ⟨g1, g2, g3, b', C'⟩ := evs_dec C hl hh h1
          have le := qs_loads (ts := ts) (n := n) rel hl.2 hm' h1
          have h4 := hB.dec _ _ J.hq (fun u hu => C.inside hu) act q1 evs ha hO' g3
          refine ⟨ftr, _, ⟨J.hf, hq', ⟨a', ql, b', _, C', h2⟩, J.lt⟩, ?_⟩
          refine mul_lt M.pos ?_
          unfold total
          have h5 : load ts n p' + outs (users ts n) (qtr ++ evs) + calls evs ≤ load ts n s.c.p + outs (users ts n) qtr := by omega
          have h6 := Nat.mul_le_mul_left (B + 1) h5
          rw [Nat.mul_add (B + 1) _ (calls evs)] at h6
          simp only at h6 ⊢
          omega
    · simp at hs
  | ev i act =>
    simp only [OnFlags.step] at hs
    split at hs
    · simp at hs
    · rename_i f' evs hP'
      split at hs
      · simp at hs
      · rename_i p' ev' hm
        simp only [Option.some.injEq, Prod.mk.injEq] at hs
        obtain ⟨rfl, rfl⟩ := hs
        have hf' := Reach.step (J.hf i) hP'
        obtain ⟨σ, hl⟩ := hP _ _ hf'
        obtain ⟨a', h1, h2⟩ := sim_fs hw rel hl hm
        obtain ⟨b', tr', C'⟩ := Ctx.owns h1 (no_calls hm) C
        have hf2 : ∀ j, Reach P f0 (upd s.f i f' j) (upd ftr i (ftr i ++ evs) j) := by
          intro j
          by_cases ej : j = i
          · subst ej; simp only [upd_same]; exact hf'
          · rw [upd_ne _ _ ej, upd_ne _ _ ej]; exact J.hf j
        have nz : ∀ j u, μ (s.f j) u ≠ 0 → ∃ c, fCall w s.c.p u = some (j, c) := by
          intro j u hu
          obtain ⟨c, _, hc⟩ := rel.ph j u (fun h => hu ((M.out _ _ (J.hf j) u).2 h))
          exact ⟨c, hc⟩
        have nzlt : ∀ j u, μ (s.f j) u ≠ 0 → j < n := fun j u hu => J.lt j u (fun h => hu ((M.out _ _ (J.hf j) u).2 h))
        have nzu : ∀ u, μ (s.f i) u ≠ 0 → u ∈ users ts n := by
          intro u hu
          obtain ⟨c, hc⟩ := nz i u hu
          exact flag_user rel C hc
        -- the invariant, once the flag is known to be one of the pool's
        have fin : i < n → FCtx O P e f0 n d ts ⟨⟨p', s.c.q⟩, upd s.f i f'⟩ (upd ftr i (ftr i ++ evs)) qtr := by
          intro hi
          refine ⟨hf2, J.hq, ⟨a', q, b', tr', C', h2⟩, ?_⟩
          intro j u hu
          by_cases ej : j = i
          · rw [ej]; exact hi
          · rw [upd_ne _ _ ej] at hu; exact J.lt j u hu
        by_cases hcall : ∃ u c, act = .call u c
        · obtain ⟨u, c, rfl⟩ := hcall
          obtain ⟨rfl, z1, z2, z3, z4⟩ := M.call _ _ _ _ _ hP'
          simp only [onEvs, onEv] at hm
          split at hm
          · simp at hm
          · rename_i p1 e1 h3
            split at h3
            · rename_i hcl
              simp only [Option.some.injEq, Prod.mk.injEq] at h3 hm
              obtain ⟨rfl, rfl⟩ := h3
              obtain ⟨rfl, rfl⟩ := hm
              have hi := flag_lt rel C hcl ((M.out _ _ (J.hf i) u).1 z1)
              have hu := flag_user rel C hcl
              refine ⟨_, qtr, fin hi, ?_⟩
              have e1 := flags_change (K := K) (μ := μ) (us := users ts n) (f := s.f) (f' := f') hi
              have e2 := sum_change (f := fun v => psi K (μ f' v)) (g := fun v => psi K (μ (s.f i) v)) (t := u)
                (fun v hv => by simp only [z4 v hv]) (users_nodup C.nd n) hu
              have e3 : psi K (μ f' u) < K := by unfold psi; rw [if_neg (by omega)]; omega
              have e4 : psi K (μ (s.f i) u) = K := by unfold psi; rw [z1]; simp
              have e5 : flagSum K μ (users ts n) f' + psi K (μ (s.f i) u) = flagSum K μ (users ts n) (s.f i) + psi K (μ f' u) := e2
              unfold ftotal
              simp only [total] at *
              omega
            · simp at h3
        · have hw' : ∀ t, act ≠ .wake t := by rintro t rfl; exact ha
          rcases M.inner _ _ (J.hf i) _ _ _ hP' (fun t c h => hcall ⟨t, c, h⟩) hw' nzu with ⟨u, c, r, rfl, z1, z2, z3⟩ | ⟨z1, z2, z3⟩
          · -- a return
            have hi := nzlt i u z1
            obtain ⟨c', hcl⟩ := nz i u z1
            have hu := nzu u z1
            simp only [onEvs, onEv, Option.some.injEq, Prod.mk.injEq] at hm
            obtain ⟨rfl, rfl⟩ := hm
            refine ⟨_, qtr, fin hi, ?_⟩
            have e1 := flags_change (K := K) (μ := μ) (us := users ts n) (f := s.f) (f' := f') hi
            have e2 := sum_change (f := fun v => psi K (μ f' v)) (g := fun v => psi K (μ (s.f i) v)) (t := u)
              (fun v hv => by simp only [z3 v hv]) (users_nodup C.nd n) hu
            have e3 : psi K (μ f' u) = K := by unfold psi; rw [z2]; simp
            have e4 : 0 < psi K (μ (s.f i) u) := by unfold psi; omega
            have e5 : flagSum K μ (users ts n) f' + psi K (μ (s.f i) u) = flagSum K μ (users ts n) (s.f i) + psi K (μ f' u) := e2
            have e6 := resume_dec (r := r) rel C hcl
            have e7 : total ts n B mu (⟨resume s.c.p u r, s.c.q⟩ : OnQueue.CSt Q) qtr + 1 ≤ total ts n B mu s.c qtr := by
              unfold total
              have := Nat.mul_lt_mul_of_pos_left (Nat.add_lt_add_right e6 (outs (users ts n) qtr)) (show 0 < B + 1 by omega)
              simp only at this ⊢
              omega
            have e8 := Nat.mul_le_mul_left K e7
            rw [Nat.mul_add] at e8
            unfold ftotal
            simp only at *
            omega
          · -- steps inside the flag
            have hp : p' = s.c.p := lins_keep z1 hm
            subst hp
            have hi : i < n := by
              apply Classical.byContradiction
              intro hn
              have : ∀ us : List Tid, (us.map (μ (s.f i))).sum = 0 := by
                intro us
                induction us with
                | nil => rfl
                | cons x us ih =>
                  have : μ (s.f i) x = 0 := by
                    apply Classical.byContradiction
                    intro h; exact hn (nzlt i x h)
                  simp [this, ih]
              rw [this] at z3
              omega
            refine ⟨_, qtr, fin hi, ?_⟩
            have e1 := flags_change (K := K) (μ := μ) (us := users ts n) (f := s.f) (f' := f') hi
            have e2 : ((users ts n).map fun u => if μ f' u = 0 then K else 0) = (users ts n).map fun u => if μ (s.f i) u = 0 then K else 0 := by
              apply List.map_congr_left
              intro u _
              simp only [z2 u]
            rw [psi_sum, psi_sum, e2] at e1
            unfold ftotal
            simp only [total] at *
            omega

theorem mkCtx (hr : Reach TP.step (TP.init n d) b tr) (hq : MQ.Spec.Linearizable n qtr q) (rel : OnQueue.Rel n a qtr q b) : Ctx n d a.inside a qtr q b tr := by
  have S := (TP.Inv.reach hr).st
  have hi : b.inside = a.inside := by rw [rel.eq]; rfl
  refine ⟨hr, hq, rel, hi ▸ S.nodup, fun t ht => ?_⟩
  rw [← hi, S.ins, rel.pc]
  exact fun e => ht (OnQueue.vPC_idle.1 e)

/-- The pool `p` on programs, the pool `a` on the queue program and atomic flags, the pool `b` on an atomic queue and atomic flags. -/
structure Joint (n : Nat) (d : Int) (p : TP.St) (ftr : Rid → List (EvF.Ev w)) (qtr : List (MQ.Ev Rid)) (a : TP.St) (q : List Rid) (b : TP.St) (tr : List Ev) : Prop where
  hr : Reach TP.step (TP.init n d) b tr
  hq : MQ.Spec.Linearizable n qtr q
  qrel : OnQueue.Rel n a qtr q b
  rel : Rel p ftr qtr a
  lt : ∀ i u, EvF.Spec.phase u (ftr i) ≠ .out → i < n

theorem joint_f (hw : 1 ≤ w) {i : Rid} {x : EvF.Ev w} {σ : BitVec w} (J : Joint n d p ftr qtr a q b tr) (hl : EvF.Spec.Linearizable false os (ftr i ++ [x]) σ)
    (he : onEv i p x = some (p', ev)) : ∃ a' b', Joint n d p' (upd ftr i (ftr i ++ [x])) qtr a' q b' (tr ++ ev) := by
  have hlt : ∀ j u, EvF.Spec.phase u (upd ftr i (ftr i ++ [x]) j) ≠ .out → j < n := by
    intro j u hu
    by_cases ej : j = i
    · subst ej
      rw [upd_same] at hu
      by_cases ho : EvF.Spec.phase u (ftr j) = .out
      · by_cases eu : u = fsubj x
        · subst eu
          rw [fphase_snoc, ho] at hu
          have hb := hl.2 (fsubj x)
          rw [fphase_snoc, ho] at hb
          cases x <;> simp [fsubj, EvF.Spec.Phase.next] at hu hb
          rename_i v c
          simp only [onEv] at he
          split at he
          · next h => exact flag_lt J.rel (mkCtx J.hr J.hq J.qrel) h ho
          · simp at he
        · rw [fphase_other eu] at hu; exact J.lt j u hu
      · exact J.lt j u ho
    · rw [upd_ne _ _ ej] at hu; exact J.lt j u hu
  obtain ⟨a', h1, h2⟩ := sim_f hw J.rel hl he
  rcases h1 with ⟨rfl, rfl⟩ | ⟨act, h3, h4⟩
  · exact ⟨a', b, by simpa using J.hr, J.hq, J.qrel, h2, hlt⟩
  · obtain ⟨b', h5, h6⟩ := OnQueue.sim_own J.hr J.qrel h3 h4
    exact ⟨a', b', Reach.step J.hr h5, J.hq, h6, h2, hlt⟩

theorem joint_fs (hw : 1 ≤ w) {i : Rid} : ∀ {xs : List (EvF.Ev w)} {p p' a b : TP.St} {ftr : Rid → List (EvF.Ev w)} {σ : BitVec w} {tr ev : List Ev}
    (_ : Joint n d p ftr qtr a q b tr) (_ : EvF.Spec.Linearizable false os (ftr i ++ xs) σ) (_ : onEvs i p xs = some (p', ev)),
    ∃ a' b', Joint n d p' (upd ftr i (ftr i ++ xs)) qtr a' q b' (tr ++ ev)
  | [], p, p', a, b, ftr, σ, tr, ev, J, _, he => by
    simp only [onEvs, Option.some.injEq, Prod.mk.injEq] at he
    obtain ⟨rfl, rfl⟩ := he
    have e : upd ftr i (ftr i ++ []) = ftr := by funext j; unfold upd; split <;> simp_all
    exact ⟨a, b, by rw [e]; simpa using J⟩
  | x :: xs, p, p', a, b, ftr, σ, tr, ev, J, hl, he => by
    simp only [onEvs] at he
    split at he
    · simp at he
    · rename_i p1 e1 h1
      split at he
      · simp at he
      · rename_i p2 e2 h2
        simp only [Option.some.injEq, Prod.mk.injEq] at he
        obtain ⟨rfl, rfl⟩ := he
        have hl' : EvF.Spec.Linearizable false os ((ftr i ++ [x]) ++ xs) σ := by simpa using hl
        obtain ⟨σ0, hl0⟩ := MQ.OnFlag.lin_prefixes hl'
        obtain ⟨a1, b1, J1⟩ := joint_f hw J hl0 h1
        have hl2 : EvF.Spec.Linearizable false os (upd ftr i (ftr i ++ [x]) i ++ xs) σ := by simpa using hl
        obtain ⟨a2, b2, J2⟩ := joint_fs hw J1 hl2 h2
        have e : upd (upd ftr i (ftr i ++ [x])) i (upd ftr i (ftr i ++ [x]) i ++ xs) = upd ftr i (ftr i ++ x :: xs) := by
          funext j; unfold upd; split <;> simp
        rw [e] at J2
        exact ⟨a2, b2, by simpa using J2⟩

theorem joint (hw : 1 ≤ w) (hO : GoodQueue O e n) {tr0 : List (MQ.Ev Rid)} (h0 : Filled O e n q0 tr0) (hP : ∀ f ftr, Reach P f0 f ftr → ∃ σ, EvF.Spec.Linearizable false os ftr σ)
    {s : CSt Q F} (h : Reach (OnFlags.step O P) (OnFlags.init n d q0 f0) s tr) :
    ∃ ftr qtr a q b, (∀ i, Reach P f0 (s.f i) (ftr i)) ∧ Reach O e s.c.q qtr ∧ Joint n d s.c.p ftr qtr a q b tr := by
  refine Lts.Reach.inv (I := fun s tr => ∃ ftr qtr a q b, (∀ i, Reach P f0 (s.f i) (ftr i)) ∧ Reach O e s.c.q qtr ∧ Joint n d s.c.p ftr qtr a q b tr) ?_ ?_ h
  · obtain ⟨h1, h2, h3⟩ := h0
    refine ⟨fun _ => [], tr0, TP.init n d, List.range n, TP.init n d, fun _ => Reach.init, h1, Reach.init, h2, ⟨?_, ?_, ?_⟩, ⟨rfl, ?_, ?_, ?_⟩, ?_⟩
    · have e1 : OnQueue.vPC (TP.init n d) tr0 = (TP.init n d).pc := by funext t; exact OnQueue.vPC_eq (by intro c r; rw [h3]; simp)
      have e2 : OnQueue.vW (TP.init n d) tr0 = (TP.init n d).w := by funext t; exact OnQueue.vW_eq (by intro c r; rw [h3]; simp)
      show TP.init n d = OnQueue.mk (TP.init n d) (OnQueue.pend (TP.init n d) tr0 ++ List.range n) _ (OnQueue.vPC (TP.init n d) tr0) (OnQueue.vW (TP.init n d) tr0)
      rw [e1, e2]; rfl
    · intro u hu; exact absurd (h3 u) hu
    · intro t ht; rw [h3]; trivial
    · intro i u hu; exact absurd rfl hu
    · intro i k hk; rfl
    · intro u hu; exact absurd (h3 u) hu
    · intro i u hu; exact absurd rfl hu
  · rintro s tr act s' ev ⟨ftr, qtr, a, q, b, hf, hq, J⟩ hs
    cases act with
    | tp act =>
      simp only [OnFlags.step] at hs
      split at hs
      · simp at hs
      · rename_i hat
        split at hs
        · rename_i c ev' hm
          simp only [Option.some.injEq, Prod.mk.injEq] at hs
          obtain ⟨rfl, rfl⟩ := hs
          simp only [OnQueue.step] at hm
          split at hm
          · simp at hm
          · rename_i haq
            split at hm
            · rename_i p' ev'' hm'
              simp only [Option.some.injEq, Prod.mk.injEq] at hm
              obtain ⟨rfl, rfl⟩ := hm
              obtain ⟨a', h1, h2, h3⟩ := OnFlags.sim_own J.rel (by simpa using haq) (by simpa using hat) hm'
              obtain ⟨b', h5, h6⟩ := OnQueue.sim_own J.hr J.qrel h3 h1
              exact ⟨ftr, qtr, a', q, b', hf, hq, Reach.step J.hr h5, J.hq, h6, h2, J.lt⟩
            · simp at hm
        · simp at hs
    | mq act =>
      simp only [OnFlags.step] at hs
      split at hs
      · rename_i c ev' hm
        simp only [Option.some.injEq, Prod.mk.injEq] at hs
        obtain ⟨rfl, rfl⟩ := hs
        simp only [OnQueue.step] at hm
        split at hm
        · simp at hm
        · rename_i q1 evs hO'
          split at hm
          · simp at hm
          · rename_i p' ev'' hm'
            simp only [Option.some.injEq, Prod.mk.injEq] at hm
            obtain ⟨rfl, rfl⟩ := hm
            have hq' := Reach.step hq hO'
            obtain ⟨⟨ql, hl⟩, hh⟩ := hO _ _ hq'
            obtain ⟨a', h1, h2⟩ := sim_qs J.rel hl.2 hm'
            obtain ⟨b', h5, h6⟩ := OnQueue.sim_events J.hr J.hq J.qrel hl hh h1
            exact ⟨ftr, _, a', ql, b', hf, hq', h5, hl, h6, h2, J.lt⟩
      · simp at hs
    | ev i act =>
      simp only [OnFlags.step] at hs
      split at hs
      · simp at hs
      · rename_i f' evs hP'
        split at hs
        · simp at hs
        · rename_i p' ev' hm
          simp only [Option.some.injEq, Prod.mk.injEq] at hs
          obtain ⟨rfl, rfl⟩ := hs
          have hf' := Reach.step (hf i) hP'
          obtain ⟨σ, hl⟩ := hP _ _ hf'
          obtain ⟨a', b', J'⟩ := joint_fs hw J hl hm
          refine ⟨_, qtr, a', q, b', ?_, hq, J'⟩
          intro j
          by_cases ej : j = i
          · subst ej; simp only [upd_same]; exact hf'
          · rw [upd_ne _ _ ej]; show Reach P f0 (upd s.f i f' j) _; rw [upd_ne _ _ ej]; exact hf j

theorem fctx_of (hw : 1 ≤ w) (hO : GoodQueue O e n) {tr0 : List (MQ.Ev Rid)} (h0 : Filled O e n q0 tr0) (hP : ∀ f ftr, Reach P f0 f ftr → ∃ σ, EvF.Spec.Linearizable false os ftr σ)
    {s : CSt Q F} (h : Reach (OnFlags.step O P) (OnFlags.init n d q0 f0) s tr) : s.c.p.inside.Nodup ∧ ∃ ftr qtr, FCtx O P e f0 n d s.c.p.inside s ftr qtr := by
  obtain ⟨ftr, qtr, a, q, b, hf, hq, J⟩ := joint hw hO h0 hP h
  have C := mkCtx J.hr J.hq J.qrel
  have hi : a.inside = s.c.p.inside := by rw [J.rel.eq]; rfl
  rw [hi] at C
  exact ⟨C.nd, ftr, qtr, hf, hq, ⟨a, q, b, tr, C, J.rel⟩, J.lt⟩

theorem terminates (hw : 1 ≤ w) (hO : GoodQueue O e n) (hB : Bounded O e ok (users ts n) mu B) (hP : ∀ f ftr, Reach P f0 f ftr → ∃ σ, EvF.Spec.Linearizable false os ftr σ)
    (M : Measure P f0 (users ts n) K μ) : ∀ (as : List (CAct A w)) {s s' : CSt Q F} {ftr : Rid → List (EvF.Ev w)} {qtr : List (MQ.Ev Rid)} {ev : List Ev},
    FCtx O P e f0 n d ts s ftr qtr → (∀ x, x ∈ as → FInner ok x) → run (OnFlags.step O P) as s = some (s', ev) → as.length ≤ ftotal ts n B K mu μ s qtr
  | [], s, s', ftr, qtr, ev, C, ha, hr => by simp
  | x :: as, s, s', ftr, qtr, ev, C, ha, hr => by
    simp only [run] at hr
    split at hr
    · simp at hr
    · next s1 ev1 h1 =>
      split at hr
      · simp at hr
      · next s2 ev2 h2 =>
        obtain ⟨ftr1, qtr1, C1, hd⟩ := ftotal_dec hw hO hB hP M C (ha x (by simp)) h1
        have := terminates hw hO hB hP M as C1 (fun y hy => ha y (by simp [hy])) h2
        simp only [List.length_cons]; omega

theorem reaches (hw : 1 ≤ w) (hO : GoodQueue O e n) {prog : A → Prop} {call : Tid → MQ.Call Rid → A} (hB : Bounded O e ok (users ts n) mu B)
    (hP : ∀ f ftr, Reach P f0 f ftr → ∃ σ, EvF.Spec.Linearizable false os ftr σ) (M : Measure P f0 (users ts n) K μ)
    (hp : ∀ a, prog a → ok a) (hcl : ∀ u c, ok (call u c)) : ∀ (k : Nat) {s : CSt Q F} {ftr : Rid → List (EvF.Ev w)} {qtr : List (MQ.Ev Rid)},
    FCtx O P e f0 n d ts s ftr qtr → ftotal ts n B K mu μ s qtr ≤ k →
    ∃ as s' ev, (∀ x, x ∈ as → FInner ok x) ∧ run (OnFlags.step O P) as s = some (s', ev) ∧ Stuck O P prog call s' := by
  intro k
  have stk : ∀ {s : CSt Q F}, (∀ x, FInner ok x → OnFlags.step O P s x = none) → Stuck O P prog call s := fun no =>
    ⟨fun a ha => no _ ha, fun a ha => no _ (hp a ha), fun u c => no _ (hcl u c), fun i u => ⟨no _ trivial, no _ trivial, fun c => no _ trivial⟩⟩
  induction k with
  | zero =>
    intro s ftr qtr C hk
    refine ⟨[], s, [], by simp, rfl, stk ?_⟩
    intro x hx
    cases hs : OnFlags.step O P s x with
    | none => rfl
    | some y => obtain ⟨_, _, _, h⟩ := ftotal_dec hw hO hB hP M C hx hs; omega
  | succ k ih =>
    intro s ftr qtr C hk
    by_cases hst : Stuck O P prog call s
    · exact ⟨[], s, [], by simp, rfl, hst⟩
    · have ⟨x, hx, s1, ev1, h1⟩ : ∃ x, FInner ok x ∧ ∃ s1 ev1, OnFlags.step O P s x = some (s1, ev1) := by
        apply Classical.byContradiction
        intro hn
        refine hst (stk ?_)
        intro x hx
        cases hs : OnFlags.step O P s x with
        | none => rfl
        | some y => exact absurd ⟨x, hx, y.1, y.2, hs⟩ hn
      obtain ⟨ftr1, qtr1, C1, hd⟩ := ftotal_dec hw hO hB hP M C hx h1
      obtain ⟨as, s', ev, g1, g2, g3⟩ := ih C1 (by omega)
      refine ⟨x :: as, s', ev1 ++ ev, ?_, ?_, g3⟩
      · intro y hy; rcases List.mem_cons.1 hy with rfl | hy
        · exact hx
        · exact g1 y hy
      · simp [run, h1, g2]
end


/-! #### The implementations -/

theorem flags_le {F : Type} {K : Nat} {μ : F → Tid → Nat} {us : List Tid} {f : Rid → F} (hμ : ∀ f u, μ f u ≤ K) : flagsSum K μ us n f ≤ K * us.length * n := by
  have h1 : ∀ f, flagSum K μ us f ≤ K * us.length := fun f =>
    Props.ThreadPoolMore.sum_bound (f := fun u => psi K (μ f u)) (b := K) (fun u => by have := hμ f u; unfold psi; split <;> omega) us
  have h2 := Props.ThreadPoolMore.sum_bound (f := fun i => flagSum K μ us (f i)) (b := K * us.length) (fun i => h1 _) (List.range n)
  rw [List.length_range] at h2
  exact h2

/-- How long a pool of `n` threads with `m` calls in progress can go on without new calls, if a call of an event flag takes at most `k` steps. -/
def fbound (n m k : Nat) : Nat := k * bound n m (15 * k) + k * (m + n) * n

theorem ftotal_le {Q F : Type} {K : Nat} {mu : Q → Nat} {μ : F → Tid → Nat} {s : CSt Q F} (hm : mu s.c.q ≤ 15 * K * (ts.length + n)) (hμ : ∀ f u, μ f u ≤ K) :
    ftotal ts n (15 * K) K mu μ s qtr ≤ fbound n ts.length K := by
  have h1 := Props.ThreadPoolQueue.total_le (ts := ts) (n := n) (qtr := qtr) (B := 15 * K) (s := s.c) hm
  have h2 := flags_le (n := n) (us := users ts n) (f := s.f) hμ
  rw [Props.ThreadPoolQueue.users_length] at h2
  exact Nat.add_le_add (Nat.mul_le_mul_left K h1) h2

/-- The steps of the pool's own threads and of the queue's and flags' code on their behalf: no new call of the pool, no platform error, no spurious wake-up. -/
def Normal : CAct (MQ.OnFlag.CAct Rid w) w → Prop
  | .tp a => ∀ t c, a ≠ .call t c
  | .mq a => flagProg a ∨ ∃ u c, a = .mq (.call u c)
  | .ev _ (.wake _) => False
  | .ev _ _ => True

open _root_.Verif.Props.MessageQueueEvent (std_measure itron_measure stdO itronO)
open _root_.Verif.Props.ThreadPoolQueue (flag_bounded flag_mu_le std_mu_le itron_mu_le users_length)

theorem inner_of {as : List (CAct (MQ.OnFlag.CAct Rid w) w)} (ha : ∀ t c, .tp (.call t c) ∉ as) (hk : ∀ t, .mq (.ev (.wake t)) ∉ as) (hk' : ∀ i t, .ev i (.wake t) ∉ as) :
    ∀ x, x ∈ as → FInner NoWake x := by
  intro x hx
  cases x with
  | tp a => intro t c e; exact ha t c (e ▸ hx)
  | mq a =>
    cases a with
    | mq => trivial
    | ev a => cases a <;> first | trivial | exact absurd hx (hk _)
  | ev i a => cases a <;> first | trivial | exact absurd hx (hk' _ _)

theorem prog_wake (a : MQ.OnFlag.CAct Rid w) (h : flagProg a ∨ ∃ u c, a = .mq (.call u c)) : NoWake a := by
  rcases h with ha | ⟨u, c, rfl⟩
  · unfold NoWake; split
    · exact ha
    · trivial
  · trivial

/-- Without new pool calls and spurious wake-ups the pool on `MessageQueue<T>` and `StdCppEventFlag` comes to rest, whatever the schedule and the timeouts do. -/
theorem C109_std_terminates {n : Nat} {d : Int} (hw : 2 ≤ w) {q0 : MQ.OnFlag.CSt Rid (EvF.Std.St w)} {tr0 : List (MQ.Ev Rid)}
    (h0 : Filled (MQ.OnFlag.step (EvF.Std.step false)) (MQ.OnFlag.init Rid n (EvF.Std.init w)) n q0 tr0)
    {s s' : CSt (MQ.OnFlag.CSt Rid (EvF.Std.St w)) (EvF.Std.St w)} {tr ev : List Ev}
    (h : Reach (OnFlags.step (MQ.OnFlag.step (EvF.Std.step false)) (EvF.Std.step false)) (OnFlags.init n d q0 (EvF.Std.init w)) s tr)
    {as : List (CAct (MQ.OnFlag.CAct Rid w) w)} (ha : ∀ t c, .tp (.call t c) ∉ as) (hk : ∀ t, .mq (.ev (.wake t)) ∉ as) (hk' : ∀ i t, .ev i (.wake t) ∉ as)
    (hr : run (OnFlags.step (MQ.OnFlag.step (EvF.Std.step false)) (EvF.Std.step false)) as s = some (s', ev)) :
    as.length ≤ fbound n s.c.p.inside.length (2 * (s.c.p.inside.length + n) + 14) := by
  obtain ⟨nd, ftr, qtr, C⟩ := fctx_of (by omega) (flag_good hw (stdO w) n) h0 (stdO w) h
  have M := std_measure (w := w) (users s.c.p.inside n)
  have h1 := terminates (by omega) (flag_good hw (stdO w) n) (flag_bounded hw (stdO w) M (users_nodup nd n)) (stdO w) M as C (inner_of ha hk hk') hr
  refine Nat.le_trans h1 ?_
  rw [← users_length]
  refine ftotal_le ?_ (std_mu_le _)
  have := flag_mu_le hw (stdO w) M (std_mu_le _) C.hq
  rw [users_length] at this ⊢
  exact this

/-- From every state the pool gets to a state where nothing but a new call can happen. -/
theorem C109_std_reaches {n : Nat} {d : Int} (hw : 2 ≤ w) {q0 : MQ.OnFlag.CSt Rid (EvF.Std.St w)} {tr0 : List (MQ.Ev Rid)}
    (h0 : Filled (MQ.OnFlag.step (EvF.Std.step false)) (MQ.OnFlag.init Rid n (EvF.Std.init w)) n q0 tr0)
    {s : CSt (MQ.OnFlag.CSt Rid (EvF.Std.St w)) (EvF.Std.St w)} {tr : List Ev}
    (h : Reach (OnFlags.step (MQ.OnFlag.step (EvF.Std.step false)) (EvF.Std.step false)) (OnFlags.init n d q0 (EvF.Std.init w)) s tr) :
    ∃ as s' ev, (∀ x, x ∈ as → Normal x) ∧ run (OnFlags.step (MQ.OnFlag.step (EvF.Std.step false)) (EvF.Std.step false)) as s = some (s', ev) ∧
      Stuck (MQ.OnFlag.step (EvF.Std.step false)) (EvF.Std.step false) flagProg (fun u c => .mq (.call u c)) s' ∧ OnlyStarts n (tr ++ ev) := by
  obtain ⟨nd, ftr, qtr, C⟩ := fctx_of (by omega) (flag_good hw (stdO w) n) h0 (stdO w) h
  have M := std_measure (w := w) (users s.c.p.inside n)
  obtain ⟨as, s', ev, h1, h2, h3⟩ := reaches (by omega) (flag_good hw (stdO w) n) (prog := flagProg) (call := fun u c => .mq (.call u c))
    (ok := fun a => flagProg a ∨ ∃ u c, a = .mq (.call u c)) ((flag_bounded hw (stdO w) M (users_nodup nd n)).weaken prog_wake) (stdO w) M
    (fun _ ha => .inl ha) (fun u c => .inr ⟨u, c, rfl⟩) _ C (Nat.le_refl _)
  refine ⟨as, s', ev, fun x hx => ?_, h2, h3, C109_std_stuck hw h0 (run_reach as h h2) h3⟩
  have := h1 x hx
  cases x with
  | ev i a => cases a <;> exact this
  | _ => exact this

theorem C109_itron_terminates {n : Nat} {d : Int} (hw : 2 ≤ w) {ins : List (EvF.Itron.Waiter w) → EvF.Itron.Waiter w → Nat} {q0 : MQ.OnFlag.CSt Rid (EvF.Itron.St w)}
    {tr0 : List (MQ.Ev Rid)} (h0 : Filled (MQ.OnFlag.step (EvF.Itron.step false ins)) (MQ.OnFlag.init Rid n (EvF.Itron.init w)) n q0 tr0)
    {s s' : CSt (MQ.OnFlag.CSt Rid (EvF.Itron.St w)) (EvF.Itron.St w)} {tr ev : List Ev}
    (h : Reach (OnFlags.step (MQ.OnFlag.step (EvF.Itron.step false ins)) (EvF.Itron.step false ins)) (OnFlags.init n d q0 (EvF.Itron.init w)) s tr)
    {as : List (CAct (MQ.OnFlag.CAct Rid w) w)} (ha : ∀ t c, .tp (.call t c) ∉ as) (hk : ∀ t, .mq (.ev (.wake t)) ∉ as) (hk' : ∀ i t, .ev i (.wake t) ∉ as)
    (hr : run (OnFlags.step (MQ.OnFlag.step (EvF.Itron.step false ins)) (EvF.Itron.step false ins)) as s = some (s', ev)) :
    as.length ≤ fbound n s.c.p.inside.length 4 := by
  obtain ⟨nd, ftr, qtr, C⟩ := fctx_of (by omega) (flag_good hw (itronO w ins) n) h0 (itronO w ins) h
  have M := itron_measure (w := w) ins (users s.c.p.inside n)
  have h1 := terminates (by omega) (flag_good hw (itronO w ins) n) (flag_bounded hw (itronO w ins) M (users_nodup nd n)) (itronO w ins) M as C (inner_of ha hk hk') hr
  refine Nat.le_trans h1 (ftotal_le ?_ itron_mu_le)
  have := flag_mu_le hw (itronO w ins) M itron_mu_le C.hq
  rw [users_length] at this
  exact this

theorem C109_itron_reaches {n : Nat} {d : Int} (hw : 2 ≤ w) {ins : List (EvF.Itron.Waiter w) → EvF.Itron.Waiter w → Nat} {q0 : MQ.OnFlag.CSt Rid (EvF.Itron.St w)}
    {tr0 : List (MQ.Ev Rid)} (h0 : Filled (MQ.OnFlag.step (EvF.Itron.step false ins)) (MQ.OnFlag.init Rid n (EvF.Itron.init w)) n q0 tr0)
    {s : CSt (MQ.OnFlag.CSt Rid (EvF.Itron.St w)) (EvF.Itron.St w)} {tr : List Ev}
    (h : Reach (OnFlags.step (MQ.OnFlag.step (EvF.Itron.step false ins)) (EvF.Itron.step false ins)) (OnFlags.init n d q0 (EvF.Itron.init w)) s tr) :
    ∃ as s' ev, (∀ x, x ∈ as → Normal x) ∧ run (OnFlags.step (MQ.OnFlag.step (EvF.Itron.step false ins)) (EvF.Itron.step false ins)) as s = some (s', ev) ∧
      Stuck (MQ.OnFlag.step (EvF.Itron.step false ins)) (EvF.Itron.step false ins) flagProg (fun u c => .mq (.call u c)) s' ∧ OnlyStarts n (tr ++ ev) := by
  obtain ⟨nd, ftr, qtr, C⟩ := fctx_of (by omega) (flag_good hw (itronO w ins) n) h0 (itronO w ins) h
  have M := itron_measure (w := w) ins (users s.c.p.inside n)
  obtain ⟨as, s', ev, h1, h2, h3⟩ := reaches (by omega) (flag_good hw (itronO w ins) n) (prog := flagProg) (call := fun u c => .mq (.call u c))
    (ok := fun a => flagProg a ∨ ∃ u c, a = .mq (.call u c)) ((flag_bounded hw (itronO w ins) M (users_nodup nd n)).weaken prog_wake) (itronO w ins) M
    (fun _ ha => .inl ha) (fun u c => .inr ⟨u, c, rfl⟩) _ C (Nat.le_refl _)
  refine ⟨as, s', ev, fun x hx => ?_, h2, h3, C109_itron_stuck hw h0 (run_reach as h h2) h3⟩
  have := h1 x hx
  cases x with
  | ev i a => cases a <;> exact this
  | _ => exact this

/-- The last 20 steps of `waiting`: no new call and no spurious wake-up among them. -/
def quietEnd : List (CAct QAct 2) :=
  [tp (.pgo 0), tp (.throw 0), tp (.pgo 0), tp (.pgo 0)] ++ feCall 1 .setAll 6 ++ [tp (.pgo 0), tp (.pgo 0)] ++ List.replicate 6 (fe (.go 2)) ++ [tp (.go 1)]

set_option maxRecDepth 40000 in
/-- The hypotheses are met by the state of `waiting` in which client 2 sleeps in the queue's flag, client 1 in the flag of the pool thread, and task 7 is about to
run. -/
example : ∃ s tr s' ev, Reach pstep pool1 s tr ∧ s.c.p.inside.length = 2 ∧ run pstep quietEnd s = some (s', ev) ∧ (∀ x, x ∈ quietEnd → FInner NoWake x) := by
  obtain ⟨s, tr, h, hp⟩ := runSat_ex (step := pstep) (init := pool1) (as := waiting.take (waiting.length - 20))
    (P := fun s tr => decide (s.c.p.inside.length = 2) && (run pstep quietEnd s).isSome) (by decide)
  simp only [Bool.and_eq_true, decide_eq_true_eq, Option.isSome_iff_exists] at hp
  obtain ⟨h1, ⟨s', ev⟩, h2⟩ := hp
  refine ⟨s, tr, s', ev, h, h1, h2, ?_⟩
  intro x hx
  simp [quietEnd, feCall] at hx
  rcases hx with rfl | rfl | rfl | rfl | rfl | rfl | rfl | rfl | rfl | rfl <;> first | trivial | (intro t c e; cases e)

end Verif.Props.ThreadPoolFlag
