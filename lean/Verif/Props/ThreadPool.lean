import Verif.Proof.ThreadPoolTrace
import Verif.Sem.Fair
/-
Properties C64–C68, C70, C71, C77, C78: the thread pool.  The specification is `Verif/Spec/ThreadPool.lean`.
-/
namespace Verif.Props.ThreadPool
open Verif
open _root_.Verif.Mtx (Tid)
open _root_.Verif.EvF (Tmo)
open TP Spec Lts Proto
set_option linter.unusedSimpArgs false
set_option linter.unusedVariables false

/-! #### Specification -/

/-- The executions of a pool of `n` threads with default priority `d`. -/
abbrev Exec (n : Nat) (d : Int) (s : TP.St) (tr : List Ev) : Prop := Reach TP.step (TP.init n d) s tr

/-- Neither a call nor a return of `t`, nor the acceptance of a task of `t`. -/
def quietFor (t : Tid) (b : List Ev) : Prop := ∀ e, e ∈ b → match e with
  | .call u _ | .ret u _ _ | .acc u _ _ _ _ => u ≠ t
  | _ => True

/-- The tasks (with their priorities) accepted for thread `i` / begun / the tasks ended, in order. -/
def accepted (i : Rid) (tr : List Ev) : List (Task × Int) := tr.filterMap fun e => match e with | .acc _ j k _ p => if j = i then some (k, p) else none | _ => none
def begun (i : Rid) (tr : List Ev) : List (Task × Int) := tr.filterMap fun e => match e with | .begin j k p => if j = i then some (k, p) else none | _ => none
def ended (i : Rid) (tr : List Ev) : List Task := tr.filterMap fun e => match e with | .ended j k _ => if j = i then some k else none | _ => none

/-- How often task `k` has been accepted / begun. -/
def nAcc (k : Task) (tr : List Ev) : Nat := tr.countP fun e => match e with | .acc _ _ k' _ _ => k' == k | _ => false
def nBegun (k : Task) (tr : List Ev) : Nat := tr.countP fun e => match e with | .begin _ k' _ => k' == k | _ => false
/-- How many tasks have begun / ended. -/
def allBegun (tr : List Ev) : Nat := tr.countP fun e => match e with | .begin .. => true | _ => false
def allEnded (tr : List Ev) : Nat := tr.countP fun e => match e with | .ended .. => true | _ => false

theorem quietFor_of {t : Tid} {b : List Ev} (h : ∀ x, x ∈ b → ofT t x = false) : quietFor t b := by
  intro e he
  have := h e he
  cases e <;> simp_all [ofT]

/-! #### C64 -/

/-- What happens on pool thread `i` is a sequence of complete rounds, then a proper part of one more, or the end of the thread; nothing happens on
other threads. -/
theorem C64_rounds {n : Nat} {d : Int} {s : TP.St} {tr : List Ev} (h : Exec n d s tr) (i : Rid) :
    (i < n → ∃ (rs : List Round) (pre : List Ev), tr.filter (about i) = (rs.map (Round.events d i)).flatten ++ pre ∧
      (pre = [.kill i] ∨ ∃ r : Round, pre <+: r.events d i ∧ pre ≠ r.events d i)) ∧
    (n ≤ i → tr.filter (about i) = []) := by
  have I := Inv.reach h
  have hb : rphase n d i tr ≠ .bad := by rw [I.tc.rp i]; exact absR_ne_bad (I.st.rs i)
  constructor
  · intro hi
    obtain ⟨rs, pre, h1, h2⟩ := parsed hi tr hb
    refine ⟨rs, pre, h1, ?_⟩
    cases hr : rphase n d i tr <;> rw [hr] at h2 <;> simp only [Part] at h2
    case rest => subst h2; exact Or.inr ⟨⟨0, 0, none, 0, false⟩, by simp [Round.events], by simp [Round.events]⟩
    case accepted => obtain ⟨r, _, _, _, rfl⟩ := h2; exact Or.inr ⟨r, by simp [Round.events, first5], by simp [Round.events, first5]⟩
    case running => obtain ⟨r, _, _, rfl⟩ := h2; exact Or.inr ⟨r, by simp [Round.events, first5], by simp [Round.events, first5]⟩
    case ended => obtain ⟨r, _, _, rfl⟩ := h2; exact Or.inr ⟨r, by simp [Round.events, first5], by simp [Round.events, first5]⟩
    case reset => obtain ⟨r, _, _, rfl⟩ := h2; exact Or.inr ⟨r, by simp [Round.events, first5], by simp [Round.events, first5]⟩
    case told x =>
      obtain ⟨r, h2⟩ := h2
      refine Or.inr ⟨r, ?_⟩
      cases x <;> simp at h2
      · subst h2; cases hx : r.x <;> simp [Round.events, first5, hx]
      · obtain ⟨hx, rfl⟩ := h2; simp [Round.events, first5, hx]
    case dead => exact Or.inl h2
    case bad => exact absurd hr hb
  · intro hi; exact (idle_dead hi tr hb).1

/-- If a start returns OK, it has handed its task, with its guard and priority, to one pool thread, once, between its call and its return. -/
theorem C64_ok {n : Nat} {d : Int} {s : TP.St} {tr : List Ev} (h : Exec n d s tr) {a b : List Ev} {t : Tid} {k tm g p}
    (e : tr = a ++ .ret t (.start k tm g p) .ok :: b) : ∃ a1 a2 a3 k' i, k = some k' ∧ i < n ∧
      a = a1 ++ .call t (.start k tm g p) :: (a2 ++ .acc t i k' g p :: a3) ∧ quietFor t a2 ∧ quietFor t a3 := by
  have := at_ret h e
  simp only [CSays, isStart, and_self, if_true] at this
  obtain ⟨a1, a2, a3, k', tm', g', p', i, hc, h1, h2, h3⟩ := this
  injection hc with e1 e2 e3 e4; subst e1 e2 e3 e4
  refine ⟨a1, a2, a3, k', i, rfl, ?_, h1, quietFor_of h2, quietFor_of h3⟩
  apply Classical.byContradiction
  intro hi
  have := (C64_rounds h i).2 (Nat.le_of_not_lt hi)
  have hm : Ev.acc t i k' g p ∈ tr.filter (about i) := by rw [e, h1]; simp [about]
  rw [this] at hm; simp at hm

/-- If it returns an error, it has handed over nothing. -/
theorem C64_error {n : Nat} {d : Int} {s : TP.St} {tr : List Ev} (h : Exec n d s tr) {a b : List Ev} {t : Tid} {k tm g p o}
    (e : tr = a ++ .ret t (.start k tm g p) o :: b) (ho : o ≠ .ok) : ∃ a1 a2, a = a1 ++ .call t (.start k tm g p) :: a2 ∧ quietFor t a2 := by
  have := at_ret h e
  simp only [CSays, isStart, ho, and_false, if_false] at this
  obtain ⟨a1, a2, h1, h2⟩ := this
  exact ⟨a1, a2, h1, quietFor_of h2⟩

/-- Nothing is handed over but by a start in progress, which has not handed over anything yet. -/
theorem C64_source {n : Nat} {d : Int} {s : TP.St} {tr : List Ev} (h : Exec n d s tr) {a b : List Ev} {t : Tid} {i k g p}
    (e : tr = a ++ .acc t i k g p :: b) : ∃ a1 a2 tm, a = a1 ++ .call t (.start (some k) tm g p) :: a2 ∧ quietFor t a2 := by
  obtain ⟨tm, a1, a2, h1, h2⟩ := at_acc h e
  exact ⟨a1, a2, tm, h1, quietFor_of h2⟩

/-! Lists of tasks -/

def accR : RP → List (Task × Int)
  | .accepted k _ p => [(k, p)]
  | _ => []
def runR : RP → List Task
  | .running k _ => [k]
  | _ => []

theorem lists {n : Nat} {d : Int} {i : Rid} (tr : List Ev) (h : rphase n d i tr ≠ .bad) :
    accepted i tr = begun i tr ++ accR (rphase n d i tr) ∧ (begun i tr).map Prod.fst = ended i tr ++ runR (rphase n d i tr) := by
  induction tr using snocInd with
  | nil => by_cases hi : i < n <;> simp [rphase, hi, accepted, begun, ended, accR, runR]
  | snoc tr e ih =>
    rw [rphase_app] at h ⊢
    have hb : rphase n d i tr ≠ .bad := by intro hb; rw [hb] at h; exact h (bad_R d i _)
    obtain ⟨h1, h2⟩ := ih hb
    simp only [List.foldl_cons, List.foldl_nil] at h ⊢
    by_cases ha : about i e = true
    · cases e <;> simp only [about, beq_iff_eq] at ha <;> (try simp at ha; done)
      case acc t j k g p =>
        subst ha
        cases hr : rphase n d j tr <;> simp_all [RP.next, accepted, begun, ended, accR, runR]
      case begin j k p =>
        subst ha
        cases hr : rphase n d j tr <;> simp_all [RP.next, accepted, begun, ended, accR, runR]
      case ended j k x =>
        subst ha
        cases hr : rphase n d j tr <;> simp_all [RP.next, accepted, begun, ended, accR, runR]
      case reprio j p =>
        subst ha
        cases hr : rphase n d j tr <;> simp_all [RP.next, accepted, begun, ended, accR, runR]
      case note j =>
        subst ha
        cases hr : rphase n d j tr <;> simp_all [RP.next, accepted, begun, ended, accR, runR]
        next g x => cases g <;> simp_all [accR, runR]
      case back j g =>
        cases g <;> simp at ha
        subst ha
        cases hr : rphase n d j tr <;> simp_all [RP.next, accepted, begun, ended, accR, runR]
        next g x => cases g <;> simp_all [accR, runR]
      case uncaught j =>
        subst ha
        cases hr : rphase n d j tr <;> simp_all [RP.next, accepted, begun, ended, accR, runR]
      case fin j =>
        subst ha
        cases hr : rphase n d j tr <;> simp_all [RP.next, accepted, begun, ended, accR, runR]
      case kill j =>
        subst ha
        cases hr : rphase n d j tr <;> simp_all [RP.next, accepted, begun, ended, accR, runR]
    · rw [other_R (by simpa using ha)]
      have : accepted i [e] = [] ∧ begun i [e] = [] ∧ ended i [e] = [] := by
        cases e <;> simp_all [accepted, begun, ended, about]
      obtain ⟨g1, g2, g3⟩ := this
      simp only [accepted, begun, ended, List.filterMap_append] at h1 h2 g1 g2 g3 ⊢
      rw [g1, g2, g3]; simpa using ⟨h1, h2⟩

/-- On every pool thread the tasks begun are the tasks accepted for it, each once, in order and with the priority given to start, but for at most the
last one; the tasks ended are the tasks begun, but for at most the last one. -/
theorem C64_once {n : Nat} {d : Int} {s : TP.St} {tr : List Ev} (h : Exec n d s tr) (i : Rid) :
    (accepted i tr = begun i tr ∨ ∃ k p, accepted i tr = begun i tr ++ [(k, p)]) ∧
    ((begun i tr).map Prod.fst = ended i tr ∨ ∃ k, (begun i tr).map Prod.fst = ended i tr ++ [k]) := by
  have I := Inv.reach h
  obtain ⟨h1, h2⟩ := lists tr (n := n) (d := d) (i := i) (by rw [I.tc.rp i]; exact absR_ne_bad (I.st.rs i))
  rw [h1, h2]
  cases rphase n d i tr <;> simp [accR, runR]

/-! Counts over all threads -/

theorem sum_one {m : Nat} : ∀ {n : Nat}, ((List.range n).map fun i => if m = i then 1 else 0).sum = if m < n then 1 else 0
  | 0 => by simp
  | n + 1 => by
    rw [List.range_succ, List.map_append, List.sum_append, sum_one]
    simp
    split <;> split <;> split <;> omega

theorem sum_add {f g : Nat → Nat} (l : List Nat) : (l.map fun i => f i + g i).sum = (l.map f).sum + (l.map g).sum := by
  induction l with
  | nil => rfl
  | cons x l ih => simp [ih]; omega

theorem count_split {q : Ev → Bool} {ix : Ev → Nat} {n : Nat} : ∀ tr : List Ev, (∀ e, e ∈ tr → q e = true → ix e < n) →
    tr.countP q = ((List.range n).map fun i => tr.countP fun e => q e && ix e == i).sum
  | [], _ => by
    simp
    induction n with
    | zero => rfl
    | succ n ih => rw [List.range_succ, List.map_append, List.sum_append, ← ih (by simp)]; rfl
  | e :: tr, h => by
    have ih := count_split (q := q) (ix := ix) (n := n) tr (fun x hx => h x (by simp [hx]))
    simp only [List.countP_cons]
    rw [sum_add, ← ih]
    congr 1
    by_cases hq : q e = true
    · have := h e (by simp) hq
      simp only [hq, Bool.true_and, if_true, beq_iff_eq]
      rw [sum_one, if_pos this]
    · simp [hq]
      clear ih h
      induction n with
      | zero => rfl
      | succ n ih => rw [List.range_succ, List.map_append, List.sum_append, ← ih]; rfl

def ixOf : Ev → Rid
  | .acc _ i _ _ _ | .begin i _ _ | .ended i _ _ => i
  | _ => 0

theorem ix_lt {n : Nat} {d : Int} {s : TP.St} {tr : List Ev} (h : Exec n d s tr) {e : Ev} (he : e ∈ tr) (ha : about (ixOf e) e = true) : ixOf e < n := by
  apply Classical.byContradiction
  intro hi
  have := (C64_rounds h (ixOf e)).2 (Nat.le_of_not_lt hi)
  have hm : e ∈ tr.filter (about (ixOf e)) := List.mem_filter.2 ⟨he, ha⟩
  rw [this] at hm; simp at hm

theorem len_begun (i : Rid) (tr : List Ev) : (begun i tr).length = tr.countP fun e => (match e with | .begin .. => true | _ => false) && ixOf e == i := by
  induction tr with
  | nil => rfl
  | cons e tr ih =>
    have : begun i (e :: tr) = begun i [e] ++ begun i tr := by simp [begun, List.filterMap_cons]; split <;> simp
    rw [this, List.length_append, ih, List.countP_cons, Nat.add_comm]
    congr 1
    cases e <;> simp [begun, ixOf, List.filterMap_cons]
    split <;> simp_all
theorem len_ended (i : Rid) (tr : List Ev) : (ended i tr).length = tr.countP fun e => (match e with | .ended .. => true | _ => false) && ixOf e == i := by
  induction tr with
  | nil => rfl
  | cons e tr ih =>
    have : ended i (e :: tr) = ended i [e] ++ ended i tr := by simp [ended, List.filterMap_cons]; split <;> simp
    rw [this, List.length_append, ih, List.countP_cons, Nat.add_comm]
    congr 1
    cases e <;> simp [ended, ixOf, List.filterMap_cons]
    split <;> simp_all
theorem cnt_acc (k : Task) (i : Rid) (tr : List Ev) : (accepted i tr).countP (fun x => x.1 == k) =
    tr.countP fun e => (match e with | .acc _ _ k' _ _ => k' == k | _ => false) && ixOf e == i := by
  induction tr with
  | nil => rfl
  | cons e tr ih =>
    have : accepted i (e :: tr) = accepted i [e] ++ accepted i tr := by simp [accepted, List.filterMap_cons]; split <;> simp
    rw [this, List.countP_append, ih, List.countP_cons, Nat.add_comm]
    congr 1
    cases e <;> simp [accepted, ixOf, List.filterMap_cons]
    split <;> simp_all [List.countP_cons]
    rename_i hh; rw [← hh.2]
theorem cnt_begun (k : Task) (i : Rid) (tr : List Ev) : (begun i tr).countP (fun x => x.1 == k) =
    tr.countP fun e => (match e with | .begin _ k' _ => k' == k | _ => false) && ixOf e == i := by
  induction tr with
  | nil => rfl
  | cons e tr ih =>
    have : begun i (e :: tr) = begun i [e] ++ begun i tr := by simp [begun, List.filterMap_cons]; split <;> simp
    rw [this, List.countP_append, ih, List.countP_cons, Nat.add_comm]
    congr 1
    cases e <;> simp [begun, ixOf, List.filterMap_cons]
    split <;> simp_all [List.countP_cons]
    rename_i hh; rw [← hh.2]

theorem nAcc_sum {n : Nat} {d : Int} {s : TP.St} {tr : List Ev} (h : Exec n d s tr) (k : Task) :
    nAcc k tr = ((List.range n).map fun i => (accepted i tr).countP fun x => x.1 == k).sum := by
  rw [nAcc, count_split (ix := ixOf) (n := n)]
  · simp only [cnt_acc]
  · intro e he hq; refine ix_lt h he ?_; cases e <;> simp_all [about, ixOf]
theorem nBegun_sum {n : Nat} {d : Int} {s : TP.St} {tr : List Ev} (h : Exec n d s tr) (k : Task) :
    nBegun k tr = ((List.range n).map fun i => (begun i tr).countP fun x => x.1 == k).sum := by
  rw [nBegun, count_split (ix := ixOf) (n := n)]
  · simp only [cnt_begun]
  · intro e he hq; refine ix_lt h he ?_; cases e <;> simp_all [about, ixOf]

theorem sum_mono {f g : Nat → Nat} : ∀ {l : List Nat}, (∀ i, i ∈ l → f i ≤ g i) → (l.map f).sum ≤ (l.map g).sum
  | [], _ => Nat.le_refl _
  | x :: l, h => by
    have := sum_mono (fun i hi => h i (by simp [hi]) : ∀ i, i ∈ l → f i ≤ g i)
    have := h x (by simp)
    simp; omega

/-- A task is begun at most as often as it has been accepted. -/
theorem C64_atMost {n : Nat} {d : Int} {s : TP.St} {tr : List Ev} (h : Exec n d s tr) (k : Task) : nBegun k tr ≤ nAcc k tr := by
  rw [nAcc_sum h, nBegun_sum h]
  refine sum_mono fun i _ => ?_
  rcases (C64_once h i).1 with e | ⟨k', p, e⟩ <;> rw [e]
  · exact Nat.le_refl _
  · rw [List.countP_append]; exact Nat.le_add_right _ _

/-! #### C65 -/

/-- A pool thread runs one task at a time. -/
theorem C65_one {n : Nat} {d : Int} {s : TP.St} {tr : List Ev} (h : Exec n d s tr) (i : Rid) :
    (ended i tr).length ≤ (begun i tr).length ∧ (begun i tr).length ≤ (ended i tr).length + 1 := by
  have := congrArg List.length (Eq.refl ((begun i tr).map Prod.fst))
  rcases (C64_once h i).2 with e | ⟨k, e⟩
  · have := congrArg List.length e; simp at this; omega
  · have := congrArg List.length e; simp at this; omega

/-- At most `n` tasks are in progress at the same time. -/
theorem C65_max {n : Nat} {d : Int} {s : TP.St} {tr : List Ev} (h : Exec n d s tr) : allEnded tr ≤ allBegun tr ∧ allBegun tr ≤ allEnded tr + n := by
  have h1 : allBegun tr = ((List.range n).map fun i => (begun i tr).length).sum := by
    rw [allBegun, count_split (ix := ixOf) (n := n)]
    · simp only [len_begun]
    · intro e he hq; refine ix_lt h he ?_; cases e <;> simp_all [about, ixOf]
  have h2 : allEnded tr = ((List.range n).map fun i => (ended i tr).length).sum := by
    rw [allEnded, count_split (ix := ixOf) (n := n)]
    · simp only [len_ended]
    · intro e he hq; refine ix_lt h he ?_; cases e <;> simp_all [about, ixOf]
  rw [h1, h2]
  constructor
  · exact sum_mono fun i _ => (C65_one h i).1
  · refine Nat.le_trans (sum_mono fun i _ => (C65_one h i).2) ?_
    rw [sum_add, show ((List.range n).map fun _ => 1).sum = n by
      clear h h1 h2
      induction n with
      | zero => rfl
      | succ n ih => rw [List.range_succ, List.map_append, List.sum_append, ih]; rfl]
    exact Nat.le_refl _

/-! #### C64, liveness -/

theorem prefix_at {st : Nat → TP.St} {act : Nat → Option Act} {ev : Nat → List Ev} {n : Nat} {d : Int} (hx : InfExec (stut TP.step) st act ev) (h0 : st 0 = TP.init n d) (m : Nat) :
    Exec n d (st m) (upto ev m) := by
  have := hx.reach_upto (init := TP.init n d) (tr := []) (by rw [h0]; exact Reach.init) m
  exact stut_reach (by simpa using this)

/-- A working pool thread gets finished, if it is scheduled fairly (and if the task, once running, returns or throws). -/
theorem finishes {st : Nat → TP.St} {act : Nat → Option Act} {ev : Nat → List Ev} {n : Nat} {d : Int} (hx : InfExec (stut TP.step) st act ev) (h0 : st 0 = TP.init n d)
    {i : Rid} (hf : WeakFair (stut TP.step) st act (some (.pgo i))) (N : Nat) : ∃ m, N ≤ m ∧ rank ((st m).w i) = 0 := by
  refine fair_zero (step := stut TP.step) (fun s => rank (s.w i)) (fun _ => some (.pgo i)) N ?_ ?_ (fun _ _ _ => hf)
  · intro m _ hr
    have hnf : (st m).w i ≠ .finished := by intro h; simp [h, rank] at hr
    rcases stut_cases (hx m) with ⟨h1, h2, _⟩ | ⟨a, h1, h2⟩
    · rw [h2, h1]; exact ⟨Nat.le_refl _, by simp, fun _ => rfl⟩
    · exact ⟨rank_step h2 hnf, fun ha => by rw [h1] at ha; simp at ha; rw [ha] at h2; exact rank_pgo h2, fun _ => rfl⟩
  · intro m _ hr; exact (Inv.reach (prefix_at hx h0 m)).st.pgo hr

theorem upto_add {ε : Type} (ev : Nat → List ε) (a : Nat) : ∀ b, ∃ l, upto ev (a + b) = upto ev a ++ l ∧ ∀ x, x ∈ l → ∃ m, a ≤ m ∧ m < a + b ∧ x ∈ ev m
  | 0 => ⟨[], by simp, by simp⟩
  | b + 1 => by
    obtain ⟨l, h1, h2⟩ := upto_add ev a b
    refine ⟨l ++ ev (a + b), by rw [← Nat.add_assoc, upto, h1, List.append_assoc], ?_⟩
    intro x hx
    rw [List.mem_append] at hx
    rcases hx with hx | hx
    · obtain ⟨m, h3, h4, h5⟩ := h2 x hx; exact ⟨m, h3, by omega, h5⟩
    · exact ⟨a + b, by omega, by omega, hx⟩

/-- An accepted task is begun, with its priority, and brought to its end. -/
theorem C64_runs {st : Nat → TP.St} {act : Nat → Option Act} {ev : Nat → List Ev} {n : Nat} {d : Int} (hx : InfExec (stut TP.step) st act ev) (h0 : st 0 = TP.init n d)
    {i : Rid} (hf : WeakFair (stut TP.step) st act (some (.pgo i))) {m : Nat} {t k g p} (hm : .acc t i k g p ∈ ev m) :
    ∃ m1 m2, m < m1 ∧ m1 < m2 ∧ .begin i k p ∈ ev m1 ∧ .fin i ∈ ev m2 := by
  have E := fun m => prefix_at hx h0 m
  have nb : ∀ m, rphase n d i (upto ev m) ≠ .bad := fun m => by
    rw [(Inv.reach (E m)).tc.rp i]; exact absR_ne_bad ((Inv.reach (E m)).st.rs i)
  -- after the step: accepted
  have hacc : rphase n d i (upto ev (m + 1)) = .accepted k g p := by
    obtain ⟨am, _, hxm⟩ : ∃ a, act m = some a ∧ TP.step (st m) a = some (st (m + 1), ev m) := by
      rcases stut_cases (hx m) with ⟨_, _, h⟩ | h
      · rw [h] at hm; simp at hm
      · exact h
    rcases form_of (Inv.reach (E m)) hxm with ⟨u, hform⟩ | hq
    · have hev : ∃ c, ev m = [.acc t i k g p, .lin t c .ok] := by
        generalize ev m = l at hm hform
        cases hform <;> simp at hm
        obtain ⟨rfl, rfl, rfl, rfl, rfl⟩ := hm; exact ⟨_, rfl⟩
      obtain ⟨c, hev⟩ := hev
      have := nb (m + 1)
      simp only [upto, rphase_app, hev, List.foldl_cons, List.foldl_nil, RP.next, if_true] at this ⊢
      split at this
      · next h => rw [h]; simp
      · simp at this
    · have := hq _ hm; simp [quiet] at this
  -- it is begun before the thread is finished
  obtain ⟨N, hN, hz⟩ := finishes hx h0 hf (m + 1)
  have hNz : rphase n d i (upto ev N) = .rest ∨ rphase n d i (upto ev N) = .dead := by
    rw [(Inv.reach (E N)).tc.rp i]; unfold absR; rcases rank_zero hz with h | h <;> simp [h]
  obtain ⟨b, rfl⟩ : ∃ b, N = m + 1 + b := ⟨N - (m + 1), by omega⟩
  obtain ⟨l, h1, h2⟩ := upto_add ev (m + 1) b
  have hl : .begin i k p ∈ l := by
    have h3 := nb (m + 1 + b)
    rw [h1, rphase_app, hacc] at h3 hNz
    rcases accepted_fold l h3 with h4 | h4
    · rw [h4] at hNz; simp at hNz
    · exact h4
  obtain ⟨m1, g1, g2, g3⟩ := h2 _ hl
  -- after that step: running
  have hrun : idleR (rphase n d i (upto ev (m1 + 1))) = false := by
    have hq : ev m1 = [.begin i k p] := by
      obtain ⟨a1, _, hs⟩ : ∃ a, act m1 = some a ∧ TP.step (st m1) a = some (st (m1 + 1), ev m1) := by
        rcases stut_cases (hx m1) with ⟨_, _, h⟩ | h
        · rw [h] at g3; simp at g3
        · exact h
      cases ha : a1 with
      | pgo j =>
        rw [ha] at hs; simp only [TP.step] at hs
        split at hs <;> (try split at hs) <;> simp only [Option.some.injEq, Prod.mk.injEq, reduceCtorEq] at hs <;> obtain ⟨_, hs⟩ := hs <;> rw [← hs] at g3 ⊢ <;> (try split at g3) <;> simp at g3
        obtain ⟨rfl, rfl, rfl⟩ := g3; rfl
      | throw j =>
        rw [ha] at hs; simp only [TP.step] at hs
        split at hs <;> simp only [Option.some.injEq, Prod.mk.injEq, reduceCtorEq] at hs
        obtain ⟨_, hs⟩ := hs; rw [← hs] at g3; simp at g3
      | call u c =>
        rw [ha] at hs; simp only [TP.step] at hs
        split at hs <;> simp only [Option.some.injEq, Prod.mk.injEq, reduceCtorEq] at hs
        obtain ⟨_, hs⟩ := hs; rw [← hs] at g3; simp at g3
      | expire u =>
        exfalso
        rw [ha] at hs; simp only [TP.step] at hs
        split at hs
        · split at hs
          all_goals (try split at hs) <;> simp only [Option.some.injEq, Prod.mk.injEq, reduceCtorEq] at hs
          all_goals (obtain ⟨_, hs⟩ := hs; rw [← hs] at g3; simp at g3)
        · simp at hs
      | go u =>
        exfalso
        rw [ha] at hs; simp only [TP.step] at hs
        split at hs
        · simp at hs
        · split at hs
          all_goals (repeat' split at hs) <;> simp only [Option.some.injEq, Prod.mk.injEq, reduceCtorEq] at hs
          all_goals (obtain ⟨_, hs⟩ := hs; rw [← hs] at g3; simp at g3)
    have := nb (m1 + 1)
    simp only [upto, rphase_app, hq, List.foldl_cons, List.foldl_nil, RP.next, if_true] at this ⊢
    split at this
    · split at this
      · next h => rw [if_pos h]; rfl
      · simp at this
    · simp at this
  obtain ⟨N2, hN2, hz2⟩ := finishes hx h0 hf (m1 + 1)
  obtain ⟨b2, rfl⟩ : ∃ b, N2 = m1 + 1 + b := ⟨N2 - (m1 + 1), by omega⟩
  obtain ⟨l2, h3, h4⟩ := upto_add ev (m1 + 1) b2
  have hfin : .fin i ∈ l2 := by
    refine fin_fold (d := d) l2 _ hrun ?_
    rw [← rphase_app, ← h3, (Inv.reach (E _)).tc.rp i]; unfold absR; rcases rank_zero hz2 with h | h <;> simp [h, idleR]
  obtain ⟨m2, g4, g5, g6⟩ := h4 _ hfin
  exact ⟨m1, m2, by omega, by omega, g3, g6⟩

end Verif.Props.ThreadPool
