import Verif.Spec.WinTimer
/-
Invariants of the Windows timers.
-/
namespace Verif.WT
open Verif
open _root_.Verif.Lts (Reach)

set_option linter.unusedSimpArgs false
set_option linter.unusedVariables false

variable {k : Kind} {c : Cfg} {s s' : WSt} {tr : List Ev}

def num (p : IPC) (l : List Inst) : Nat := l.countP (fun x => x.pc == p)

theorem find_inst {l : List Inst} {n : Nat} {x : Inst} (h : l.find? (fun x => x.n == n) = some x) : x ∈ l ∧ x.n = n :=
  ⟨List.mem_of_find?_eq_some h, by simpa using List.find?_some h⟩

theorem num_cons (p : IPC) (x : Inst) (l : List Inst) : num p (x :: l) = num p l + (if x.pc = p then 1 else 0) := by
  simp [num, List.countP_cons]

theorem setPc_id {l : List Inst} {n : Nat} {p : IPC} (h : n ∉ l.map (·.n)) : setPc l n p = l := by
  unfold setPc
  conv => rhs; rw [← List.map_id l]
  apply List.map_congr_left
  intro y hy
  have : y.n ≠ n := fun e => h (e ▸ List.mem_map_of_mem hy)
  simp [this]
theorem drop_id {l : List Inst} {n : Nat} (h : n ∉ l.map (·.n)) : drop l n = l := by
  unfold drop
  rw [List.filter_eq_self]
  intro y hy
  have : y.n ≠ n := fun e => h (e ▸ List.mem_map_of_mem hy)
  simp [this]

theorem num_set {l : List Inst} (hn : (l.map (·.n)).Nodup) {x : Inst} (hx : x ∈ l) (p q : IPC) :
    num q (setPc l x.n p) + (if x.pc = q then 1 else 0) = num q l + (if p = q then 1 else 0) := by
  induction l with
  | nil => simp at hx
  | cons y l ih =>
    simp only [List.map_cons, List.nodup_cons] at hn
    by_cases e : x = y
    · subst e
      have : setPc (x :: l) x.n p = { x with pc := p } :: l := by
        have := setPc_id (p := p) hn.1
        simp only [setPc] at this ⊢
        simp [this]
      rw [this, num_cons, num_cons]; simp only []; omega
    · have hx : x ∈ l := by simpa [e] using hx
      have hne : y.n ≠ x.n := fun h => hn.1 (h ▸ List.mem_map_of_mem hx)
      have : setPc (y :: l) x.n p = y :: setPc l x.n p := by simp [setPc, hne]
      rw [this, num_cons, num_cons]
      have := ih hn.2 hx
      omega

theorem num_drop {l : List Inst} (hn : (l.map (·.n)).Nodup) {x : Inst} (hx : x ∈ l) (q : IPC) :
    num q (drop l x.n) + (if x.pc = q then 1 else 0) = num q l := by
  induction l with
  | nil => simp at hx
  | cons y l ih =>
    simp only [List.map_cons, List.nodup_cons] at hn
    by_cases e : x = y
    · subst e
      have : drop (x :: l) x.n = l := by
        have := drop_id hn.1
        simp only [drop] at this ⊢
        rw [List.filter_cons_of_neg (by simp), this]
      rw [this, num_cons]
    · have hx : x ∈ l := by simpa [e] using hx
      have hne : y.n ≠ x.n := fun h => hn.1 (h ▸ List.mem_map_of_mem hx)
      have : drop (y :: l) x.n = y :: drop l x.n := by simp [drop, hne]
      rw [this, num_cons, num_cons]
      have := ih hn.2 hx
      omega

theorem nodup_set {l : List Inst} {n : Nat} {p : IPC} (h : (l.map (·.n)).Nodup) : ((setPc l n p).map (·.n)).Nodup := by
  have : (setPc l n p).map (·.n) = l.map (·.n) := by
    unfold setPc; rw [List.map_map]; apply List.map_congr_left; intro x _; simp only [Function.comp]; split <;> rfl
  rw [this]; exact h
theorem nodup_drop {l : List Inst} {n : Nat} (h : (l.map (·.n)).Nodup) : ((drop l n).map (·.n)).Nodup :=
  h.sublist (List.Sublist.map _ List.filter_sublist)

/-- How the steps change the state: the cases in a form that is easy to use. -/
inductive Next (c : Cfg) (s : WSt) : WSt → List Ev → Prop where
  | startIgn : s.ph = .alive → s.lock = false → s.started = true → Next c s s [.op .start .ignored]
  | startRef : s.ph = .alive → s.lock = false → s.started = false → Next c s s [.op .start .refused]
  | start (id : Nat) : s.ph = .alive → s.lock = false → s.started = false → id ∉ s.regs →
      Next c s { s with timer := id, started := true, regs := id :: s.regs } [.op .start .started]
  | stopIgn : s.ph ≠ .gone → s.lock = false → s.started = false → Next c s s [.op .stop .ignored]
  | stopped : s.ph ≠ .gone → s.lock = false → s.started = true → s.timer ∈ s.regs →
      Next c s { s with started := false, regs := s.regs.filter (· ≠ s.timer) } [.op .stop .stopped]
  | stoppedLate : s.ph ≠ .gone → s.lock = false → s.started = true → s.timer ∉ s.regs → c.strict = false → (∃ x ∈ s.inst, x.id = s.timer) →
      Next c s { s with started := false } [.op .stop .stopped]
  | tooLate : s.ph ≠ .gone → s.lock = false → s.started = true → s.timer ∉ s.regs → Next c s s [.op .stop .tooLate]
  | isStarted : s.ph ≠ .gone → Next c s s [.op .isStarted (.active s.started)]
  | destroy : s.ph = .alive → Next c s { s with ph := .stopping } [.destroy]
  | dstop {s1 : WSt} {ev : List Ev} : s.ph = .stopping → Next c s s1 ev → s1.ph = .stopping → (∃ o, ev = [.op .stop o]) → Next c s { s1 with ph := .waiting } ev
  | dwait : s.ph = .waiting → s.ev = true → Next c s { s with ph := .deleting } [.waited]
  | delete : s.ph = .deleting → Next c s { s with ph := .gone } [.gone]
  | fire (id n : Nat) : id ∈ s.regs → n ∉ s.inst.map (·.n) → (c.serial = true → s.inst = []) →
      Next c s { s with inst := ⟨n, id, .pending⟩ :: s.inst, regs := match s.kind with | .oneShot => s.regs.filter (· ≠ id) | .periodic => s.regs } [.disp]
  | uaf (x : Inst) : s.ph = .gone → x ∈ s.inst → Next c s { s with inst := drop s.inst x.n } [.uaf]
  | enter (x : Inst) : s.ph ≠ .gone → x ∈ s.inst → x.pc = .pending → Next c s { s with ev := false, inst := setPc s.inst x.n .ready } [.enter]
  | begins (x : Inst) : s.ph ≠ .gone → x ∈ s.inst → x.pc = .ready → Next c s { s with inst := setPc s.inst x.n .running } [.cbBegin]
  | ends (x : Inst) : x ∈ s.inst → x.pc = .running → Next c s { s with inst := setPc s.inst x.n .toFin } [.cbEnd]
  | fin1 (x : Inst) : s.ph ≠ .gone → x ∈ s.inst → x.pc = .toFin → s.kind = .oneShot → s.lock = false →
      Next c s { s with started := false, ev := true, lock := true, inst := setPc s.inst x.n .unlock } [.fin]
  | finP (x : Inst) : s.ph ≠ .gone → x ∈ s.inst → x.pc = .toFin → s.kind = .periodic → Next c s { s with ev := true, inst := drop s.inst x.n } [.fin, .back]
  | unlock (x : Inst) : s.ph ≠ .gone → x ∈ s.inst → x.pc = .unlock → Next c s { s with lock := false, inst := drop s.inst x.n } [.back]

theorem next_stop (r : Bool) (h1 : s.ph ≠ .gone) (h2 : s.lock = false) : Next c s (doStop c s r).1 [.op .stop (doStop c s r).2] := by
  unfold doStop
  split
  · next h => exact .stopIgn h1 h2 h
  · next h =>
    have h : s.started = true := by simpa using h
    simp only [kill]
    split
    · next h3 => exact .stopped h1 h2 h h3
    · next h3 =>
      split
      · next h4 =>
        simp only [List.any_eq_true, beq_iff_eq] at h4
        cases r with
        | true => exact .stoppedLate h1 h2 h h3 h4.1 h4.2
        | false => exact .tooLate h1 h2 h h3
      · exact .tooLate h1 h2 h h3

theorem doStop_ph (c : Cfg) (s : WSt) (r : Bool) : (doStop c s r).1.ph = s.ph := by
  unfold doStop
  split
  · rfl
  · simp only []; split <;> rfl

theorem next_of {a : Act} {ev : List Ev} (h : step c s a = some (s', ev)) : Next c s s' ev := by
  cases a with
  | start ans =>
    simp only [step, Option.ite_none_right_eq_some] at h
    obtain ⟨⟨h1, h2⟩, h⟩ := h
    split at h
    · next h3 => simp only [Option.some.injEq, Prod.mk.injEq] at h; obtain ⟨rfl, rfl⟩ := h; exact .startIgn h1 h2 h3
    · next h3 =>
      have h3 : s.started = false := by simpa using h3
      cases ans with
      | none => simp only [Option.some.injEq, Prod.mk.injEq] at h; obtain ⟨rfl, rfl⟩ := h; exact .startRef h1 h2 h3
      | some id =>
        simp only [Option.ite_none_right_eq_some, Option.some.injEq, Prod.mk.injEq] at h
        obtain ⟨h4, rfl, rfl⟩ := h; exact .start id h1 h2 h3 h4.1
  | stop r =>
    simp only [step, Option.ite_none_right_eq_some, Option.some.injEq, Prod.mk.injEq] at h
    obtain ⟨⟨h1, h2⟩, rfl, rfl⟩ := h
    exact next_stop r h1 h2
  | isStarted =>
    simp only [step, Option.ite_none_right_eq_some, Option.some.injEq, Prod.mk.injEq] at h
    obtain ⟨⟨h1, h2⟩, rfl, rfl⟩ := h
    exact .isStarted h1
  | destroy =>
    simp only [step, Option.ite_none_right_eq_some, Option.some.injEq, Prod.mk.injEq] at h
    obtain ⟨h1, rfl, rfl⟩ := h
    exact .destroy h1
  | dstop r =>
    simp only [step, Option.ite_none_right_eq_some, Option.some.injEq, Prod.mk.injEq] at h
    obtain ⟨⟨h1, h2⟩, rfl, rfl⟩ := h
    exact .dstop h1 (next_stop r (by rw [h1]; simp) h2) (by rw [doStop_ph, h1]) ⟨_, rfl⟩
  | dwait =>
    simp only [step, Option.ite_none_right_eq_some, Option.some.injEq, Prod.mk.injEq] at h
    obtain ⟨⟨h1, h2⟩, rfl, rfl⟩ := h
    exact .dwait h1 h2
  | delete =>
    simp only [step, Option.ite_none_right_eq_some, Option.some.injEq, Prod.mk.injEq] at h
    obtain ⟨h1, rfl, rfl⟩ := h
    exact .delete h1
  | fire id n =>
    simp only [step, Option.ite_none_right_eq_some, Option.some.injEq, Prod.mk.injEq] at h
    obtain ⟨⟨h1, h2, h3⟩, rfl, rfl⟩ := h
    refine .fire id n h1 ?_ h3
    simpa using h2
  | cb n =>
    simp only [step] at h
    split at h
    · simp at h
    · next x hf =>
      obtain ⟨hx, rfl⟩ := find_inst hf
      simp only [cbStep] at h
      split at h
      · next hg =>
        split at h
        · next hp => simp only [Option.some.injEq, Prod.mk.injEq] at h; obtain ⟨rfl, rfl⟩ := h; exact .ends x hx hp
        · simp only [Option.some.injEq, Prod.mk.injEq] at h; obtain ⟨rfl, rfl⟩ := h; exact .uaf x hg hx
      · next hg =>
        split at h
        · next hp => simp only [Option.some.injEq, Prod.mk.injEq] at h; obtain ⟨rfl, rfl⟩ := h; exact .enter x hg hx hp
        · next hp => simp only [Option.some.injEq, Prod.mk.injEq] at h; obtain ⟨rfl, rfl⟩ := h; exact .begins x hg hx hp
        · next hp => simp only [Option.some.injEq, Prod.mk.injEq] at h; obtain ⟨rfl, rfl⟩ := h; exact .ends x hx hp
        · next hp =>
          split at h
          · next hk =>
            split at h
            · simp at h
            · next hl => simp only [Option.some.injEq, Prod.mk.injEq] at h; obtain ⟨rfl, rfl⟩ := h; exact .fin1 x hg hx hp hk (by simpa using hl)
          · next hk => simp only [Option.some.injEq, Prod.mk.injEq] at h; obtain ⟨rfl, rfl⟩ := h; exact .finP x hg hx hp hk
        · next hp => simp only [Option.some.injEq, Prod.mk.injEq] at h; obtain ⟨rfl, rfl⟩ := h; exact .unlock x hg hx hp

/-- What holds whatever the service does. -/
structure Gen (k : Kind) (s : WSt) (tr : List Ev) : Prop where
  kind : s.kind = k
  nd : (s.inst.map (·.n)).Nodup
  rnd : s.regs.Nodup
  c0 : begun tr + num .ready s.inst + num .pending s.inst ≤ disps tr
  c1 : s.ph ≠ .gone → disps tr = enters tr + num .pending s.inst
  c2 : s.ph ≠ .gone → enters tr = begun tr + num .ready s.inst
  c3 : s.ph ≠ .gone → begun tr = ended tr + num .running s.inst
  c4 : s.ph ≠ .gone → ended tr = fins tr + num .toFin s.inst
  c5 : s.ph ≠ .gone → fins tr = backs tr + num .unlock s.inst
  once : k = .oneShot → disps tr + s.regs.length ≤ starts tr
  none : starts tr = 0 → s.regs = [] ∧ disps tr = 0
  act : s.started = activeAfter k tr

theorem active_append (k : Kind) (a : List Ev) (e : Ev) : activeAfter k (a ++ [e]) = activeStep k (activeAfter k a) e := by
  simp [activeAfter, List.foldl_append]

theorem filter_len {l : List Nat} (hn : l.Nodup) {i : Nat} (hi : i ∈ l) : (l.filter (· ≠ i)).length + 1 = l.length := by
  induction l with
  | nil => simp at hi
  | cons a l ih =>
    rw [List.nodup_cons] at hn
    by_cases e : a = i
    · subst e
      have : l.filter (· ≠ a) = l := by
        rw [List.filter_eq_self]; intro b hb
        have : b ≠ a := fun e => hn.1 (e ▸ hb)
        simp [this]
      rw [List.filter_cons_of_neg (by simp), this]; simp
    · have hi : i ∈ l := by simpa [Ne.symm e] using hi
      rw [List.filter_cons_of_pos (by simpa using e)]
      rw [List.length_cons, ih hn.2 hi]; simp

theorem starts_app (a : List Ev) (e : Ev) : starts (a ++ [e]) = starts a + if e = .op .start .started then 1 else 0 := by
  simp only [starts, List.count_append, List.count_singleton, beq_iff_eq]
theorem disps_app (a : List Ev) (e : Ev) : disps (a ++ [e]) = disps a + if e = .disp then 1 else 0 := by
  simp only [disps, List.count_append, List.count_singleton, beq_iff_eq]
theorem enters_app (a : List Ev) (e : Ev) : enters (a ++ [e]) = enters a + if e = .enter then 1 else 0 := by
  simp only [enters, List.count_append, List.count_singleton, beq_iff_eq]
theorem begun_app (a : List Ev) (e : Ev) : begun (a ++ [e]) = begun a + if e = .cbBegin then 1 else 0 := by
  simp only [begun, List.count_append, List.count_singleton, beq_iff_eq]
theorem ended_app (a : List Ev) (e : Ev) : ended (a ++ [e]) = ended a + if e = .cbEnd then 1 else 0 := by
  simp only [ended, List.count_append, List.count_singleton, beq_iff_eq]
theorem fins_app (a : List Ev) (e : Ev) : fins (a ++ [e]) = fins a + if e = .fin then 1 else 0 := by
  simp only [fins, List.count_append, List.count_singleton, beq_iff_eq]
theorem backs_app (a : List Ev) (e : Ev) : backs (a ++ [e]) = backs a + if e = .back then 1 else 0 := by
  simp only [backs, List.count_append, List.count_singleton, beq_iff_eq]

theorem Gen.next {ev : List Ev} (h : Gen k s tr) (hn : Next c s s' ev) : Gen k s' (tr ++ ev) := by
  obtain ⟨hk, hnd, hrnd, c0, c1, c2, c3, c4, c5, once, hnone, act⟩ := h
  induction hn with
  | dstop h1 _ h2 h3 ih =>
    have h2' := h2
    obtain ⟨hk, hnd, hrnd, c0, c1, c2, c3, c4, c5, once, hnone, act⟩ := ih
    have g : _ ≠ DPh.gone := fun e => absurd (h2.symm.trans e) (by simp)
    exact ⟨hk, hnd, hrnd, c0, fun _ => c1 g, fun _ => c2 g, fun _ => c3 g, fun _ => c4 g, fun _ => c5 g, once, hnone, act⟩
  | startIgn | startRef | stopIgn | isStarted | tooLate | stoppedLate =>
    constructor <;> simp_all [starts_app, disps_app, enters_app, begun_app, ended_app, fins_app, backs_app, active_append, activeStep]
  | destroy | dwait | delete =>
    constructor <;> simp_all [starts_app, disps_app, enters_app, begun_app, ended_app, fins_app, backs_app, active_append, activeStep]
  | start id h1 h2 h3 h4 =>
    constructor
    case once => intro e; have := once e; simp [starts_app, disps_app]; omega
    all_goals simp_all [starts_app, disps_app, enters_app, begun_app, ended_app, fins_app, backs_app, active_append, activeStep] <;> (try intro) <;> (try omega)
  | stopped h1 h2 h3 h4 =>
    have hl := filter_len hrnd h4
    constructor
    case rnd => exact hrnd.sublist List.filter_sublist
    case once => intro e; have := once e; simp only [starts_app, disps_app]; simp at hl ⊢; omega
    case none => intro e; simp [starts_app, disps_app] at e ⊢; obtain ⟨e1, e2⟩ := hnone e; rw [e1] at h4; simp at h4
    all_goals simp_all [starts_app, disps_app, enters_app, begun_app, ended_app, fins_app, backs_app, active_append, activeStep]
  | fire id n h1 h2 h3 =>
    have hl := filter_len hrnd h1
    constructor
    case nd => simpa using ⟨by simpa using h2, hnd⟩
    case rnd => cases e : s.kind <;> simp only [] <;> first | exact hrnd | exact hrnd.sublist List.filter_sublist
    case once =>
      intro e; have := once e; subst e; simp only [starts_app, disps_app, hk] at *; simp at hl ⊢; omega
    case none => intro e; simp [starts_app] at e ⊢; obtain ⟨e1, e2⟩ := hnone e; rw [e1] at h1; simp at h1
    all_goals simp_all [starts_app, disps_app, enters_app, begun_app, ended_app, fins_app, backs_app, active_append, activeStep, num_cons] <;> (try intro) <;> (try omega)
  | uaf x h1 h2 =>
    have e1 := num_drop hnd h2 .ready
    have e2 := num_drop hnd h2 .pending
    constructor
    case nd => exact nodup_drop hnd
    case c0 => simp [disps_app, begun_app]; omega
    all_goals simp_all [starts_app, disps_app, enters_app, begun_app, ended_app, fins_app, backs_app, active_append, activeStep, num_cons] <;> (try intro) <;> (try omega)
  | enter x h1 h2 h3 => 
    have e1 := num_set hnd h2 .ready .pending
    have e2 := num_set hnd h2 .ready .ready
    have e3 := num_set hnd h2 .ready .running
    have e4 := num_set hnd h2 .ready .toFin
    have e5 := num_set hnd h2 .ready .unlock
    simp [h3] at e1 e2 e3 e4 e5
    constructor
    case nd => exact nodup_set hnd
    case none => simpa [starts_app, disps_app] using hnone
    case once => intro e; have := once e; simpa [starts_app, disps_app] using this
    case act => simpa [active_append, activeStep] using act
    all_goals simp [*, starts_app, disps_app, enters_app, begun_app, ended_app, fins_app, backs_app, active_append, activeStep, num_cons] at * <;> (try intro) <;> (try omega)
  | begins x h1 h2 h3 => 
    have e1 := num_set hnd h2 .running .pending
    have e2 := num_set hnd h2 .running .ready
    have e3 := num_set hnd h2 .running .running
    have e4 := num_set hnd h2 .running .toFin
    have e5 := num_set hnd h2 .running .unlock
    simp [h3] at e1 e2 e3 e4 e5
    constructor
    case nd => exact nodup_set hnd
    case none => simpa [starts_app, disps_app] using hnone
    case once => intro e; have := once e; simpa [starts_app, disps_app] using this
    case act => simpa [active_append, activeStep] using act
    all_goals simp [*, starts_app, disps_app, enters_app, begun_app, ended_app, fins_app, backs_app, active_append, activeStep, num_cons] at * <;> (try intro) <;> (try omega)
  | ends x h2 h3 => 
    have e1 := num_set hnd h2 .toFin .pending
    have e2 := num_set hnd h2 .toFin .ready
    have e3 := num_set hnd h2 .toFin .running
    have e4 := num_set hnd h2 .toFin .toFin
    have e5 := num_set hnd h2 .toFin .unlock
    simp [h3] at e1 e2 e3 e4 e5
    constructor
    case nd => exact nodup_set hnd
    case none => simpa [starts_app, disps_app] using hnone
    case once => intro e; have := once e; simpa [starts_app, disps_app] using this
    case act => simpa [active_append, activeStep] using act
    case c0 => simp [begun_app, disps_app]; omega
    case c1 => intro g; have := c1 g; simp [enters_app, disps_app]; omega
    case c2 => intro g; have := c2 g; simp [enters_app, begun_app]; omega
    case c3 => intro g; have := c3 g; simp [ended_app, begun_app]; omega
    case c4 => intro g; have := c4 g; simp [ended_app, fins_app]; omega
    case c5 => intro g; have := c5 g; simp [backs_app, fins_app]; omega
    all_goals assumption
  | fin1 x h1 h2 h3 h4 h5 => 
    have e1 := num_set hnd h2 .unlock .pending
    have e2 := num_set hnd h2 .unlock .ready
    have e3 := num_set hnd h2 .unlock .running
    have e4 := num_set hnd h2 .unlock .toFin
    have e5 := num_set hnd h2 .unlock .unlock
    simp [h3] at e1 e2 e3 e4 e5
    constructor
    case nd => exact nodup_set hnd
    case none => simpa [starts_app, disps_app] using hnone
    case once => intro e; have := once e; simpa [starts_app, disps_app] using this
    case act => simp [active_append, activeStep, ← hk, h4]
    all_goals simp [*, starts_app, disps_app, enters_app, begun_app, ended_app, fins_app, backs_app, active_append, activeStep, num_cons] at * <;> (try intro) <;> (try omega)
  | finP x h1 h2 h3 h4 => 
    have e1 := num_drop hnd h2 .pending
    have e2 := num_drop hnd h2 .ready
    have e3 := num_drop hnd h2 .running
    have e4 := num_drop hnd h2 .toFin
    have e5 := num_drop hnd h2 .unlock
    simp [h3] at e1 e2 e3 e4 e5
    rw [show tr ++ [Ev.fin, .back] = (tr ++ [.fin]) ++ [.back] by simp]
    constructor
    case nd => exact nodup_drop hnd
    case none => simpa [-List.append_assoc, starts_app, disps_app] using hnone
    case once => intro e; have := once e; simpa [-List.append_assoc, starts_app, disps_app] using this
    case act => rw [active_append, active_append]; have hk' := hk; rw [h4] at hk'; subst hk'; simpa [activeStep] using act
    all_goals simp [-List.append_assoc, *, starts_app, disps_app, enters_app, begun_app, ended_app, fins_app, backs_app, active_append, activeStep, num_cons] at * <;> (try intro) <;> (try omega)
  | unlock x h1 h2 h3 => 
    have e1 := num_drop hnd h2 .pending
    have e2 := num_drop hnd h2 .ready
    have e3 := num_drop hnd h2 .running
    have e4 := num_drop hnd h2 .toFin
    have e5 := num_drop hnd h2 .unlock
    simp [h3] at e1 e2 e3 e4 e5
    constructor
    case nd => exact nodup_drop hnd
    case none => simpa [starts_app, disps_app] using hnone
    case once => intro e; have := once e; simpa [starts_app, disps_app] using this
    case act => simpa [active_append, activeStep] using act
    all_goals simp [*, starts_app, disps_app, enters_app, begun_app, ended_app, fins_app, backs_app, active_append, activeStep, num_cons] at * <;> (try intro) <;> (try omega)

theorem Gen.reach (h : Exec k c s tr) : Gen k s tr := by
  induction h with
  | init => constructor <;> simp [WSt.init, num, begun, disps, enters, ended, fins, backs, starts, activeAfter]
  | step _ e ih => exact ih.next (next_of e)

/-- What holds if the service is as `Good` says. -/
structure Inv (k : Kind) (s : WSt) : Prop where
  kind : s.kind = k
  reg : ∀ id ∈ s.regs, s.started = true ∧ id = s.timer
  le : s.inst = [] ∨ ∃ x, s.inst = [x]
  one : k = .oneShot → ∀ x ∈ s.inst, s.regs = [] ∧ (x.pc ≠ .unlock → s.started = true)
  unl : ∀ x ∈ s.inst, x.pc = .unlock → k = .oneShot
  lk : s.ph ≠ .gone → (s.lock = true ↔ ∃ x ∈ s.inst, x.pc = .unlock)
  evv : s.ph ≠ .gone → (s.ev = true ↔ ∀ x ∈ s.inst, x.pc = .pending ∨ x.pc = .unlock)
  live : s.ph ≠ .gone → s.started = true → s.timer ∈ s.regs ∨ ∃ x ∈ s.inst, x.pc ≠ .unlock ∧ k = .oneShot
  dead : s.ph = .waiting ∨ s.ph = .deleting ∨ s.ph = .gone → s.regs = []

theorem Inv.next {ev : List Ev} (hg : Good k c) (h : Inv k s) (hn : Next c s s' ev) : Inv k s' := by
  obtain ⟨hk, reg, le, one, unl, lk, evv, live, dead⟩ := h
  have upd : ∀ x ∈ s.inst, ∀ p, setPc s.inst x.n p = [{ x with pc := p }] := by
    intro x hx p
    rcases le with e | ⟨y, e⟩
    · rw [e] at hx; simp at hx
    · rw [e] at hx ⊢; simp at hx; subst hx; simp [setPc]
  have del : ∀ x ∈ s.inst, drop s.inst x.n = [] := by
    intro x hx
    rcases le with e | ⟨y, e⟩
    · rw [e] at hx; simp at hx
    · rw [e] at hx ⊢; simp at hx; subst hx; simp [drop]
  have only : ∀ x ∈ s.inst, s.inst = [x] := by
    intro x hx
    rcases le with e | ⟨y, e⟩
    · rw [e] at hx; simp at hx
    · rw [e] at hx ⊢; simp at hx; subst hx; rfl
  have reg0 : s.started = false → s.regs = [] := fun e =>
    List.eq_nil_iff_forall_not_mem.mpr fun i hi => by have := (reg i hi).1; rw [e] at this; simp at this
  have reg1 : s.timer ∉ s.regs → s.regs = [] := fun e =>
    List.eq_nil_iff_forall_not_mem.mpr fun i hi => e ((reg i hi).2 ▸ hi)
  have reg2 : s.regs.filter (· ≠ s.timer) = [] := by
    rw [List.filter_eq_nil_iff]; intro i hi; simp [(reg i hi).2]
  induction hn with
  | startIgn | startRef | stopIgn | isStarted | tooLate => exact ⟨hk, reg, le, one, unl, lk, evv, live, dead⟩
  | start id h1 h2 h3 h4 =>
    have hr := reg0 h3
    constructor
    case reg => simp [hr]
    case live => intro _ _; left; simp
    case one =>
      intro e x hx
      have hu : x.pc = .unlock := by
        rcases Classical.em (x.pc = .unlock) with hp | hp
        · exact hp
        · have := (one e x hx).2 hp; rw [h3] at this; simp at this
      have := (lk (by rw [h1]; simp)).mpr ⟨x, hx, hu⟩
      rw [h2] at this; simp at this
    case dead => intro h; simp [h1] at h
    all_goals assumption
  | stopped h1 h2 h3 h4 =>
    rw [reg2]
    constructor
    case reg => simp
    case live => intro _ h; simp at h
    case one =>
      intro e x hx; have := (one e x hx).1; rw [this] at h4; simp at h4
    case dead => intro _; rfl
    all_goals assumption
  | stoppedLate h1 h2 h3 h4 h5 h6 =>
    have hr := reg1 h4
    cases hkk : k with
    | oneShot => subst hkk; simp only [Good] at hg; rw [hg] at h5; simp at h5
    | periodic =>
      constructor
      case reg => simp [hr]
      case live => intro _ h; simp at h
      case one => intro e; simp at e
      case unl => intro x hx hp; have := unl x hx hp; rw [hkk] at this; simp at this
      case kind => rw [hk, hkk]
      all_goals assumption
  | destroy h1 =>
    have g : s.ph ≠ .gone := by rw [h1]; simp
    exact ⟨hk, reg, le, one, unl, fun _ => lk g, fun _ => evv g, fun _ => live g, fun h => by simp at h⟩
  | dwait h1 h2 =>
    have g : s.ph ≠ .gone := by rw [h1]; simp
    exact ⟨hk, reg, le, one, unl, fun _ => lk g, fun _ => evv g, fun _ => live g, fun h => dead (.inl h1)⟩
  | delete h1 =>
    have g : s.ph ≠ .gone := by rw [h1]; simp
    exact ⟨hk, reg, le, one, unl, fun _ => lk g, fun _ => evv g, fun _ => live g, fun h => dead (.inr (.inl h1))⟩
  | @dstop s1 ev h1 hn h2 h3 ih =>
    obtain ⟨hk', reg', le', one', unl', lk', evv', live', dead'⟩ := ih
    have g : s1.ph ≠ .gone := by rw [h2]; simp
    refine ⟨hk', reg', le', one', unl', fun _ => lk' g, fun _ => evv' g, fun _ => live' g, fun _ => ?_⟩
    obtain ⟨o, rfl⟩ := h3
    cases hn with
    | stopIgn a1 a2 a3 => exact reg0 a3
    | stopped a1 a2 a3 a4 => exact reg2
    | stoppedLate a1 a2 a3 a4 => exact reg1 a4
    | tooLate a1 a2 a3 a4 => exact reg1 a4
    | dstop a1 _ => simp at h2
  | fire id n h1 h2 h3 =>
    have he : s.inst = [] := by
      cases hkk : k with
      | periodic => subst hkk; exact h3 hg
      | oneShot =>
        rw [List.eq_nil_iff_forall_not_mem]
        intro x hx
        have := (one hkk x hx).1
        rw [this] at h1; simp at h1
    have hst := reg id h1
    constructor
    case reg =>
      intro i hi
      have hi : i ∈ s.regs := by
        revert hi
        cases s.kind <;> simp only []
        · intro hi; exact (List.mem_filter.mp hi).1
        · exact fun h => h
      exact reg i hi
    case le => exact .inr ⟨_, by simp [he]; rfl⟩
    case live =>
      intro g h
      cases hkk : k with
      | periodic => left; simp only [hk, hkk]; rw [← hst.2]; exact h1
      | oneShot => right; exact ⟨_, List.mem_cons_self, by simp, rfl⟩
    case one =>
      intro e x hx
      rw [hk, e]
      refine ⟨?_, fun _ => hst.1⟩
      rw [hst.2]; exact reg2
    case unl => intro x hx hp; simp [he] at hx; subst hx; simp at hp
    case lk => intro g; simp [he, lk g]
    case evv => intro g; simp [he, evv g]
    case dead => intro h; have := dead h; rw [this] at h1; simp at h1
    all_goals assumption
  | uaf x h1 h2 =>
    simp only [del x h2]
    exact ⟨hk, reg, .inl rfl, fun _ x hx => by simp at hx, fun x hx => by simp at hx, fun g => absurd h1 g, fun g => absurd h1 g, fun g => absurd h1 g, dead⟩
  | enter x h1 h2 h3 =>
    rw [upd x h2]; rw [only x h2] at lk evv one unl live
    refine ⟨hk, reg, .inr ⟨_, rfl⟩, ?_, ?_, ?_, ?_, ?_, dead⟩ <;> simp_all
  | begins x h1 h2 h3 =>
    rw [upd x h2]; rw [only x h2] at lk evv one unl live
    refine ⟨hk, reg, .inr ⟨_, rfl⟩, ?_, ?_, ?_, ?_, ?_, dead⟩ <;> simp_all
  | ends x h2 h3 =>
    rw [upd x h2]; rw [only x h2] at lk evv one unl live
    refine ⟨hk, reg, .inr ⟨_, rfl⟩, ?_, ?_, ?_, ?_, ?_, dead⟩ <;> simp_all
  | fin1 x h1 h2 h3 h4 h5 =>
    rw [upd x h2]; rw [only x h2] at lk evv one unl live
    have := (one (hk ▸ h4) x (by simp)).1
    refine ⟨hk, ?_, .inr ⟨_, rfl⟩, ?_, ?_, ?_, ?_, ?_, dead⟩ <;> simp_all
  | finP x h1 h2 h3 h4 =>
    rw [del x h2]; rw [only x h2] at lk evv one unl live
    have hkp := hk.symm.trans h4
    subst hkp
    refine ⟨hk, reg, .inl rfl, ?_, ?_, ?_, ?_, ?_, dead⟩ <;> simp_all
  | unlock x h1 h2 h3 =>
    rw [del x h2]; rw [only x h2] at lk evv one unl live
    refine ⟨hk, reg, .inl rfl, ?_, ?_, ?_, ?_, ?_, dead⟩ <;> simp_all

theorem Inv.reach (hg : Good k c) (h : Exec k c s tr) : Inv k s := by
  induction h with
  | init => constructor <;> simp [WSt.init]
  | step _ e ih => exact ih.next hg (next_of e)

theorem split_app {tr ev a b : List Ev} {e : Ev} (h : tr ++ ev = a ++ e :: b) :
    (∃ b', tr = a ++ e :: b' ∧ b = b' ++ ev) ∨ (∃ a', a = tr ++ a' ∧ ev = a' ++ e :: b) := by
  rcases List.append_eq_append_iff.mp h with ⟨c', h1, h2⟩ | ⟨c', h1, h2⟩
  · exact .inr ⟨c', h1, h2⟩
  · cases c' with
    | nil => simp at h1 h2; exact .inr ⟨[], by simp [h1], by simp [h2]⟩
    | cons x c' =>
      simp only [List.cons_append, List.cons.injEq] at h2
      obtain ⟨rfl, rfl⟩ := h2
      exact .inl ⟨c', h1, rfl⟩

theorem one_event {ev : List Ev} (h : Next c s s' ev) : ev = [.fin, .back] ∨ ∃ e, ev = [e] := by
  induction h with
  | dstop _ _ _ _ ih => exact ih
  | finP => exact .inl rfl
  | _ => exact .inr ⟨_, rfl⟩

/-- The step that produced an event, and what followed. -/
theorem at_event {init : WSt} {a b : List Ev} {e : Ev} (hf : e ≠ .fin) (hb : e ≠ .back) {tr : List Ev} (h : Reach (step c) init s tr) :
    tr = a ++ e :: b → ∃ s0 s1, Reach (step c) init s0 a ∧ (∃ x, step c s0 x = some (s1, [e])) ∧ Reach (step c) s1 s b := by
  induction h generalizing b with
  | init => intro h; simp at h
  | @step s tr x s' ev hr hs ih =>
    intro h
    rcases split_app h with ⟨b', h1, rfl⟩ | ⟨a', rfl, h2⟩
    · obtain ⟨s0, s1, r1, r2, r3⟩ := ih h1
      exact ⟨s0, s1, r1, r2, r3.step hs⟩
    · have hn := next_of hs
      rcases one_event hn with rfl | ⟨e', rfl⟩
      · exfalso
        have : e ∈ [Ev.fin, .back] := by rw [h2]; simp
        simp [hf, hb] at this
      · have : a' = [] ∧ b = [] ∧ e' = e := by
          cases a' with
          | nil => simpa [eq_comm, and_comm] using h2
          | cons y a' => simp at h2
        obtain ⟨rfl, rfl, rfl⟩ := this
        exact ⟨s, s', by simpa using hr, ⟨x, hs⟩, .init⟩

theorem split2 {a b : List Ev} {e : Ev} (hf : e ≠ .fin) (hb : e ≠ .back) (h : Exec k c s (a ++ e :: b)) :
    ∃ s0 s1, Exec k c s0 a ∧ Next c s0 s1 [e] ∧ Exec k c s1 (a ++ [e]) ∧ Reach (step c) s1 s b := by
  obtain ⟨s0, s1, h1, ⟨x, h2⟩, h3⟩ := at_event hf hb h rfl
  exact ⟨s0, s1, h1, next_of h2, h1.step h2, h3⟩

/-- The state after a step that is a call of stop, of a client or of destroy. -/
theorem stop_cases {o : WT.Out} (h : Next c s s' [.op .stop o]) :
    (o = .ignored ∧ s.started = false ∧ s'.regs = s.regs) ∨
    (o = .stopped ∧ s.started = true ∧ s.timer ∈ s.regs ∧ s'.regs = s.regs.filter (· ≠ s.timer)) ∨
    (o = .stopped ∧ s.started = true ∧ s.timer ∉ s.regs ∧ s'.regs = s.regs ∧ c.strict = false) ∨
    (o = .tooLate ∧ s.started = true ∧ s.timer ∉ s.regs ∧ s'.regs = s.regs) := by
  generalize he : [Ev.op .stop o] = ev at h
  induction h with
  | dstop _ _ _ _ ih => exact ih he
  | stopIgn h1 h2 h3 => simp at he; simp [he, h3]
  | stopped h1 h2 h3 h4 => simp at he; simp [he, h3, h4]
  | stoppedLate h1 h2 h3 h4 h5 => simp at he; simp [he, h3, h4, h5]
  | tooLate h1 h2 h3 h4 => simp at he; simp [he, h3, h4]
  | _ => simp at he

theorem next_lock {o : WT.Out} (h : Next c s s' [.op .stop o]) : s.lock = false ∧ s.ph ≠ .gone ∧ s'.inst = s.inst ∧ s'.ph ≠ .gone := by
  generalize he : [Ev.op .stop o] = ev at h
  induction h with
  | dstop h1 _ h2 _ ih =>
    obtain ⟨a1, a2, a3, a4⟩ := ih he
    exact ⟨a1, a2, a3, by simp⟩
  | stopIgn h1 h2 h3 | stopped h1 h2 h3 h4 | stoppedLate h1 h2 h3 h4 h5 | tooLate h1 h2 h3 h4 => exact ⟨h2, h1, rfl, h1⟩
  | _ => simp at he

/-- Once no event is registered, none is until the next effective start. -/
theorem quiet {s0 : WSt} {b : List Ev} (h : Reach (step c) s0 s b) (h0 : s0.regs = []) : starts b = 0 → s.regs = [] ∧ disps b = 0 := by
  induction h with
  | init => intro _; exact ⟨h0, rfl⟩
  | @step s tr x s' ev hr hs ih =>
    intro he
    have hsp : starts tr = 0 ∧ starts ev = 0 := by
      have : starts (tr ++ ev) = starts tr + starts ev := by simp [starts, List.count_append]
      omega
    obtain ⟨i1, i2⟩ := ih hsp.1
    have hd : disps (tr ++ ev) = disps ev := by
      have : disps (tr ++ ev) = disps tr + disps ev := by simp [disps, List.count_append]
      omega
    rw [hd]
    have hn := next_of hs
    clear hs hr ih hd he
    have hs2 := hsp.2
    clear hsp
    induction hn with
    | dstop h1 _ h2 h3 ih => exact ih hs2
    | start id => simp [starts] at hs2
    | fire id n h1 => rw [i1] at h1; simp at h1
    | stopped h1 h2 h3 h4 => rw [i1] at h4; simp at h4
    | _ => exact ⟨i1, rfl⟩

end Verif.WT
