import Verif.Proof.Timer
import Verif.Sem.Fair
/-
Properties C59–C62 (and C76): the one-shot and periodic timers of the StdCpp platform.  The specification is `Verif/Spec/Timer.lean`.
-/
namespace Verif.Props.Timer
open Verif
open _root_.Verif.Mtx (Tid)
open Tm Spec Lts Proto
set_option linter.unusedSimpArgs false
set_option linter.unusedVariables false

/-! #### Specification -/

/-- The executions of a timer of kind `k`, with clients of discipline `d`. -/
abbrev Exec (k : Kind) (period : Nat) (d : Disc) (s : Tm.St) (tr : List Ev) : Prop := Reach (Tm.step d) (Tm.init k period) s tr

def isStart : Ev → Bool
  | .lin _ (.start _) .started => true
  | _ => false
/-- The number of effective start() calls. -/
def starts (tr : List Ev) : Nat := tr.countP isStart
/-- The number of callbacks begun / ended. -/
def begun (tr : List Ev) : Nat := tr.countP (fun e => match e with | .cbBegin => true | _ => false)
def ended (tr : List Ev) : Nat := tr.countP (fun e => match e with | .cbEnd => true | _ => false)
/-- The number of times the timer thread found the time to be up and decided to make the callback. -/
def dues (tr : List Ev) : Nat := tr.countP (fun e => match e with | .due => true | _ => false)

/-- Whether the timer is active after the trace: started, and since then neither stopped nor (one-shot) finished. -/
def activeAfter (tr : List Ev) : Bool := tr.foldl (fun b e => match e with
  | .lin _ (.start _) .started => true
  | .lin _ .stop .stopped => false
  | .fin => false
  | _ => b) false

/-! The same on histories. -/
def nStarts (h : List Eff) : Nat := h.countP (fun e => match e with | .op (.start _) .started => true | _ => false)
def nBegun (h : List Eff) : Nat := h.countP (fun e => match e with | .cbBegin => true | _ => false)
def nEnded (h : List Eff) : Nat := h.countP (fun e => match e with | .cbEnd => true | _ => false)
def nDues (h : List Eff) : Nat := h.countP (fun e => match e with | .due => true | _ => false)

def sN : Eff → Nat | .op (.start _) .started => 1 | _ => 0
def bN : Eff → Nat | .cbBegin => 1 | _ => 0
def eN : Eff → Nat | .cbEnd => 1 | _ => 0
def dN : Eff → Nat | .due => 1 | _ => 0
theorem nStarts_snoc (l : List Eff) (x : Eff) : nStarts (l ++ [x]) = nStarts l + sN x := by
  rw [nStarts, List.countP_append]; cases x with
  | op c o => cases c <;> cases o <;> simp [nStarts, sN]
  | _ => simp [nStarts, sN]
theorem nBegun_snoc (l : List Eff) (x : Eff) : nBegun (l ++ [x]) = nBegun l + bN x := by
  rw [nBegun, List.countP_append]; cases x <;> simp [nBegun, bN]
theorem nEnded_snoc (l : List Eff) (x : Eff) : nEnded (l ++ [x]) = nEnded l + eN x := by
  rw [nEnded, List.countP_append]; cases x <;> simp [nEnded, eN]
theorem nDues_snoc (l : List Eff) (x : Eff) : nDues (l ++ [x]) = nDues l + dN x := by
  rw [nDues, List.countP_append]; cases x <;> simp [nDues, dN]

theorem n_eff (tr : List Ev) : nStarts (effects tr) = starts tr ∧ nBegun (effects tr) = begun tr ∧ nEnded (effects tr) = ended tr ∧
    nDues (effects tr) = dues tr := by
  induction tr with
  | nil => exact ⟨rfl, rfl, rfl, rfl⟩
  | cons e tr ih =>
    obtain ⟨h1, h2, h3, h4⟩ := ih
    cases e with
    | lin t c o => cases c <;> cases o <;> simp_all [effects, eff, nStarts, nBegun, nEnded, nDues, starts, begun, ended, dues, List.filterMap_cons, List.countP_cons, isStart]
    | _ => simp_all [effects, eff, nStarts, nBegun, nEnded, nDues, starts, begun, ended, dues, List.filterMap_cons, List.countP_cons, isStart]

/-! #### C59 -/

/-- Every trace is a history of the atomic timer; each call takes effect once, between its call and its return. -/
theorem C59_linearizable {k : Kind} {p : Nat} {d : Disc} {s : Tm.St} {tr : List Ev} (h : Exec k p d s tr) : ∃ a, Linearizable k tr a := by
  have I := Tm.Inv.reach h
  refine ⟨_, I.hist, fun t => ?_⟩
  rw [I.loc t]
  cases s.pc t <;> simp [shape]

def dueN : Ph → Nat | .due => 1 | _ => 0
def runN : Ph → Nat | .run => 1 | _ => 0

theorem hist_counts {k : Kind} {h : List Eff} {a : A} (hh : Hist k h a) :
    nDues h = nBegun h + dueN a.ph ∧ nBegun h = nEnded h + runN a.ph := by
  induction hh with
  | nil => exact ⟨rfl, rfl⟩
  | snoc _ hl ih =>
    obtain ⟨h1, h2⟩ := ih
    cases hl <;> simp_all [nDues, nBegun, nEnded, List.countP_append, List.countP_cons, dueN, runN] <;>
      (cases k <;> simp [afterCb])

/-- The callbacks that the effective starts so far still allow. -/
def room (a : A) : Nat := match a.ph with
  | .rest => if a.owes then 1 else 0
  | .due => 1
  | _ => 0

theorem hist_once {h : List Eff} {a : A} (hh : Hist .oneShot h a) : nBegun h + room a ≤ nStarts h ∧
    (a.ph = .due ∨ a.ph = .run ∨ a.ph = .over → a.owes = true) := by
  induction hh with
  | nil => simp [nBegun, nStarts, room]
  | @snoc h a x a' _ hl ih =>
    obtain ⟨h1, h2⟩ := ih
    obtain ⟨a1, a2, a3⟩ := a
    cases hl <;> simp_all [nBegun, nStarts, room, List.countP_append, List.countP_cons, afterCb] <;> (try cases a3) <;> simp_all <;> (try omega)
    all_goals (cases a2 <;> simp_all <;> omega)

/-- A one-shot timer never fires more often than it was effectively started (at any moment of any execution); in particular a timer
that was never started never fires. -/
theorem C59_once {p : Nat} {d : Disc} {s : Tm.St} {tr : List Ev} (h : Exec .oneShot p d s tr) : begun tr ≤ starts tr := by
  obtain ⟨a, hl, _⟩ := C59_linearizable h
  obtain ⟨e1, e2, _⟩ := n_eff tr
  have := (hist_once hl).1
  omega

theorem hist_split {k : Kind} {l : List Eff} {a : A} (h : Hist k l a) : ∀ h1 h2, l = h1 ++ h2 → ∃ b, Hist k h1 b := by
  induction h with
  | nil => intro h1 h2 e; have : h1 = [] := by rcases h1 with _ | _ <;> simp at e ⊢; 
           subst this; exact ⟨_, Hist.nil⟩
  | @snoc l a x a' hh hl ih =>
    intro h1 h2 e
    rcases List.eq_nil_or_concat h2 with rfl | ⟨h2', z, rfl⟩
    · simp at e; subst e; exact ⟨_, Hist.snoc hh hl⟩
    · rw [List.concat_eq_append, ← List.append_assoc] at e
      exact ih h1 h2' (List.append_inj' e rfl).1

theorem hist_at {k : Kind} {h1 h2 : List Eff} {x : Eff} {a : A} (h : Hist k (h1 ++ x :: h2) a) : ∃ b b', Hist k h1 b ∧ Legal k b x b' ∧ Hist k (h1 ++ [x]) b' := by
  obtain ⟨b', hb⟩ := hist_split h (h1 ++ [x]) h2 (by simp)
  have key : ∀ l a, Hist k l a → l = h1 ++ [x] → ∃ b, Hist k h1 b ∧ Legal k b x a := by
    intro l a hl
    cases hl with
    | nil => intro e; simp at e
    | snoc hh hleg => intro e; have := List.append_inj' e rfl; obtain ⟨e1, e2⟩ := this; simp at e2; subst e1 e2; exact ⟨_, hh, hleg⟩
  obtain ⟨b, h1, h2⟩ := key _ _ hb rfl
  exact ⟨b, b', h1, h2, hb⟩

/-- What holds from `(h1, b)` on. -/
theorem hist_from {k : Kind} {P : List Eff → A → Prop} {h1 : List Eff} (h0 : ∀ b, Hist k h1 b → P [] b)
    (hs : ∀ l a x a', P l a → Legal k a x a' → P (l ++ [x]) a') : ∀ {h2 a}, Hist k (h1 ++ h2) a → P h2 a := by
  intro h2 a h
  have key : ∀ n (h2 : List Eff), h2.length = n → ∀ a, Hist k (h1 ++ h2) a → P h2 a := by
    intro n
    induction n with
    | zero => intro h2 hl a h; have := List.length_eq_zero_iff.1 hl; subst this; exact h0 a (by simpa using h)
    | succ n ih =>
      intro h2 hl a h
      rcases List.eq_nil_or_concat h2 with rfl | ⟨h2', z, rfl⟩
      · simp at hl
      · rw [List.concat_eq_append] at h hl ⊢
        rw [← List.append_assoc] at h
        generalize hl' : (h1 ++ h2') ++ [z] = l at h
        cases h with
        | nil => simp at hl'
        | snoc hh hleg =>
          have := List.append_inj' hl' rfl
          obtain ⟨e1, e2⟩ := this; simp at e2; subst e1 e2
          exact hs _ _ _ _ (ih h2' (by simpa using hl) _ hh) hleg
  exact key _ h2 rfl a h

/-- Between an effective start and the next one a one-shot timer fires at most once. -/
theorem C59_per_start {p : Nat} {d : Disc} {s : Tm.St} {tr : List Ev} (h : Exec .oneShot p d s tr) {a b : List Ev} {t tm}
    (e : tr = a ++ Ev.lin t (.start tm) .started :: b) (hb : starts b = 0) : begun b ≤ 1 := by
  obtain ⟨q, hl, _⟩ := C59_linearizable h
  have e' : effects tr = (effects a ++ [.op (.start tm) .started]) ++ effects b := by rw [e]; simp [effects, eff]
  rw [e'] at hl
  obtain ⟨n1, n2, _⟩ := n_eff b
  have := hist_from (P := fun l q => (q.ph = .due ∨ q.ph = .run ∨ q.ph = .over → q.owes = true) ∧
      (nStarts l = 0 → nBegun l + (if q.owes = true ∧ (q.ph = .rest ∨ q.ph = .due) then 1 else 0) ≤ 1))
    (fun b hb => ⟨(hist_once hb).2, fun _ => by simp [nBegun]; split <;> simp⟩) (by
      rintro l ⟨q1, q2, q3⟩ x q' ⟨ih1, ih2⟩ hleg
      clear e n1 n2 hb e' hl
      cases hleg <;> simp_all [nStarts_snoc, nBegun_snoc, sN, bN, afterCb] <;> grind) hl
  have := this.2 (by omega)
  omega

/-! #### C60 -/

theorem hist_active {k : Kind} {h : List Eff} {a : A} (hh : Hist k h a) : a.active = h.foldl (fun b e => match e with
    | .op (.start _) .started => true
    | .op .stop .stopped => false
    | .fin => false
    | _ => b) false := by
  induction hh with
  | nil => rfl
  | snoc _ hl ih => cases hl <;> simp_all [List.foldl_append]

theorem active_eff (tr : List Ev) (b : Bool) : (effects tr).foldl (fun b e => match e with
    | .op (.start _) .started => true
    | .op .stop .stopped => false
    | .fin => false
    | _ => b) b = tr.foldl (fun b e => match e with
  | .lin _ (.start _) .started => true
  | .lin _ .stop .stopped => false
  | .fin => false
  | _ => b) b := by
  induction tr generalizing b with
  | nil => rfl
  | cons e tr ih =>
    cases e with
    | lin t c o => simp only [effects, List.filterMap_cons, eff, List.foldl_cons]; rw [← ih]; cases c <;> cases o <;> rfl
    | _ => simp only [effects, List.filterMap_cons, eff, List.foldl_cons]; rw [← ih]; rfl

theorem eff_at {k : Kind} {p : Nat} {d : Disc} {s : Tm.St} {tr : List Ev} (h : Exec k p d s tr) {a b : List Ev} {t c o} (e : tr = a ++ Ev.lin t c o :: b) :
    ∃ q q', Hist k (effects a) q ∧ Legal k q (.op c o) q' := by
  obtain ⟨x, hl, _⟩ := C59_linearizable h
  rw [e] at hl
  have : effects (a ++ Ev.lin t c o :: b) = effects a ++ .op c o :: effects b := by simp [effects, eff]
  rw [this] at hl
  obtain ⟨q, q', h1, h2, _⟩ := hist_at hl
  exact ⟨q, q', h1, h2⟩

/-- isStarted tells whether the timer is active. -/
theorem C60_isStarted {k : Kind} {p : Nat} {d : Disc} {s : Tm.St} {tr : List Ev} (h : Exec k p d s tr) {a b : List Ev} {t r}
    (e : tr = a ++ Ev.lin t .isStarted (.active r) :: b) : r = activeAfter a := by
  obtain ⟨q, q', h1, h2⟩ := eff_at h e
  have h3 := hist_active h1
  rw [active_eff] at h3
  cases h2
  exact h3

/-- start is effective exactly on a timer that is not active, stop on one that is. -/
theorem C60_effective {k : Kind} {p : Nat} {d : Disc} {s : Tm.St} {tr : List Ev} (h : Exec k p d s tr) {a b : List Ev} {t c o}
    (e : tr = a ++ Ev.lin t c o :: b) :
    ((∃ tm, c = .start tm) → (o = .started ∧ activeAfter a = false) ∨ (o = .ignored ∧ activeAfter a = true)) ∧
    (c = .stop → (o = .stopped ∧ activeAfter a = true) ∨ (o = .ignored ∧ activeAfter a = false)) := by
  obtain ⟨q, q', h1, h2⟩ := eff_at h e
  have h3 : q.active = activeAfter a := by rw [hist_active h1, active_eff]; rfl
  cases h2 <;> simp_all

/-- After stop() has taken effect (or was ignored), and until the next effective start, no callback becomes due.  So none begins,
except one that the timer thread had decided on before; there is at most one such. -/
theorem C60_stop_partial {k : Kind} {p : Nat} {d : Disc} {s : Tm.St} {tr : List Ev} (h : Exec k p d s tr) {a b : List Ev} {t o}
    (e : tr = a ++ Ev.lin t .stop o :: b) (hb : starts b = 0) :
    dues b = 0 ∧ begun b ≤ 1 ∧ (dues a = begun a → begun b = 0) := by
  obtain ⟨q, hl, _⟩ := C59_linearizable h
  have e' : effects tr = (effects a ++ [.op .stop o]) ++ effects b := by rw [e]; simp [effects, eff]
  obtain ⟨c1, c2⟩ := hist_counts hl
  obtain ⟨m1, m2, m3, m4⟩ := n_eff tr
  rw [e'] at hl
  obtain ⟨n1, n2, n3, n4⟩ := n_eff b
  obtain ⟨r, r', h1, h2, h3⟩ := hist_at (h2 := effects b) (x := .op .stop o) (by simpa using hl)
  obtain ⟨a1, a2⟩ := hist_counts h1
  obtain ⟨k1, k2, k3, k4⟩ := n_eff a
  have hd : dues b = 0 := by
    have := hist_from (h1 := effects a ++ [.op .stop o]) (P := fun l q => nStarts l = 0 → nDues l = 0 ∧ q.active = false) (by
        intro b hb _
        refine ⟨rfl, ?_⟩
        have hb := hist_active hb
        rw [List.foldl_append, ← hist_active h1] at hb
        cases h2 <;> simp_all) (by
        rintro l ⟨q1, q2, q3⟩ x q' ih hleg
        clear e n1 n2 hb e' hl m1 m2 k1 k2 c1 c2 a1 a2 n3 n4 m3 m4 k3 k4 h3
        cases hleg <;> simp_all [nStarts_snoc, nDues_snoc, sN, dN]) hl
    have := (this (by omega)).1
    omega
  have f1 : dues tr = dues a + dues b := by rw [e]; simp [dues, List.countP_append, List.countP_cons]
  have f2 : begun tr = begun a + begun b := by rw [e]; simp [begun, List.countP_append, List.countP_cons]
  have : dueN r.ph ≤ 1 := by cases r.ph <;> simp [dueN]
  have : dueN q.ph ≤ 1 := by cases q.ph <;> simp [dueN]
  refine ⟨hd, by omega, by omega⟩

/-- The same in terms of the call's return.  `a2` is what happened during the call. -/
theorem C60_return_partial {k : Kind} {p : Nat} {d : Disc} {s : Tm.St} {tr : List Ev} (h : Exec k p d s tr) {a b : List Ev} {t o}
    (e : tr = a ++ Ev.ret t .stop o :: b) :
    ∃ a1 a2, a = a1 ++ Ev.call t .stop :: a2 ∧ (∀ x, x ∈ a2 → ¬ boundary view t x) ∧
      (starts (a2 ++ b) = 0 → dues b = 0 ∧ begun b ≤ 1 ∧ (dues a = begun a → begun b = 0)) := by
  obtain ⟨x, hl, hb⟩ := C59_linearizable h
  obtain ⟨a1, ec, a2, el, a3, e1, e2, e3, e4⟩ := ret_split (hb t) e rfl
  have hec : ec = .call t .stop := by cases ec <;> simp [view] at e2 ⊢; exact e2
  have hel : el = .lin t .stop o := by cases el <;> simp [view] at e3 ⊢; exact e3
  subst hec hel
  refine ⟨a1, a2 ++ Ev.lin t .stop o :: a3, by simp [e1], ?_, ?_⟩
  · intro x hx
    simp only [List.mem_append, List.mem_cons] at hx e4
    rcases hx with hx | rfl | hx
    · exact e4 x (Or.inl hx)
    · simp [boundary, view]
    · exact e4 x (Or.inr hx)
  · intro hs
    have e' : tr = (a1 ++ Ev.call t .stop :: a2) ++ Ev.lin t .stop o :: (a3 ++ Ev.ret t .stop o :: b) := by rw [e, e1]; simp
    have hs' : starts (a3 ++ Ev.ret t .stop o :: b) = 0 := by
      have e1 : starts (a2 ++ Ev.lin t .stop o :: a3 ++ b) = starts a2 + starts a3 + starts b := by
        simp [starts, List.countP_append, List.countP_cons, isStart]; omega
      have e2 : starts (a3 ++ Ev.ret t .stop o :: b) = starts a3 + starts b := by simp [starts, List.countP_append, List.countP_cons, isStart]
      omega
    obtain ⟨r1, r2, r3⟩ := C60_stop_partial h e' hs'
    have d3 : dues a3 + dues b = 0 := by rw [← r1]; simp [dues, List.countP_append, List.countP_cons]
    have b3 : begun (a3 ++ Ev.ret t .stop o :: b) = begun a3 + begun b := by simp [begun, List.countP_append, List.countP_cons]
    have da : dues a = dues (a1 ++ Ev.call t .stop :: a2) + dues a3 := by rw [e1]; simp [dues, List.countP_append, List.countP_cons]; omega
    have ba : begun a = begun (a1 ++ Ev.call t .stop :: a2) + begun a3 := by rw [e1]; simp [begun, List.countP_append, List.countP_cons]; omega
    refine ⟨by omega, by omega, ?_⟩
    intro hda
    -- the callbacks begun never exceed those due
    obtain ⟨c1, _⟩ := hist_counts hl
    obtain ⟨m1, m2, m3, m4⟩ := n_eff tr
    have f1 : dues tr = dues a + dues b := by rw [e]; simp [dues, List.countP_append, List.countP_cons]
    have f2 : begun tr = begun a + begun b := by rw [e]; simp [begun, List.countP_append, List.countP_cons]
    omega

/-- The full claim is false: stop() may return when no callback is in progress, and yet a callback begins afterwards without a
new start - the timer thread had decided to make the callback before stop() took the mutex. -/
def lateCallback (k : Kind) : List Act :=
  [.wgo, .call 1 (.start 5), .go 1, .go 1, .wgo] ++ (match k with | .oneShot => [] | .periodic => [.wgo]) ++
  [.expire, .wgo, .call 1 .stop, .go 1, .go 1]
theorem C60_counterexample (k : Kind) : ∃ (s s' : Tm.St) (tr b : List Ev), Exec k 5 ⟨true, false⟩ s tr ∧ Exec k 5 ⟨true, false⟩ s' (tr ++ b) ∧
    tr.getLast? = some (Ev.ret 1 .stop .stopped) ∧ begun tr = ended tr ∧ starts b = 0 ∧ begun b = 1 := by
  cases k with
  | oneShot =>
    obtain ⟨s, tr, h, hp⟩ := Lts.runSat_ex (step := Tm.step ⟨true, false⟩) (init := Tm.init .oneShot 5) (as := lateCallback .oneShot)
      (P := fun (s : Tm.St) tr => decide (tr.getLast? = some (Ev.ret 1 .stop .stopped) ∧ begun tr = ended tr ∧ s.w = .due)) (by decide)
    have hp : tr.getLast? = some (Ev.ret 1 .stop .stopped) ∧ begun tr = ended tr ∧ s.w = .due := by simpa using hp
    exact ⟨s, _, tr, [.cbBegin], h, Reach.step (a := .wgo) h (by simp [Tm.step, hp]; rfl), hp.1, hp.2.1, rfl, rfl⟩
  | periodic =>
    obtain ⟨s, tr, h, hp⟩ := Lts.runSat_ex (step := Tm.step ⟨true, false⟩) (init := Tm.init .periodic 5) (as := lateCallback .periodic)
      (P := fun (s : Tm.St) tr => decide (tr.getLast? = some (Ev.ret 1 .stop .stopped) ∧ begun tr = ended tr ∧ s.w = .due)) (by decide)
    have hp : tr.getLast? = some (Ev.ret 1 .stop .stopped) ∧ begun tr = ended tr ∧ s.w = .due := by simpa using hp
    exact ⟨s, _, tr, [.cbBegin], h, Reach.step (a := .wgo) h (by simp [Tm.step, hp]; rfl), hp.1, hp.2.1, rfl, rfl⟩

/-! #### C61, C62 -/

/-- No two start() calls overlap, no two stop() calls overlap, and the callback makes no call. -/
def serial : Disc := ⟨true, false⟩

/-- While `t` is inside call `c`. -/
structure J (t : Tid) (c : Call) (s : Tm.St) : Prop where
  inv : ∃ k tr, Tm.Inv k s tr
  slf : s.pc self = .idle
  one : ∀ u, u ≠ t → sameKind c (s.pc u) = false ∧ (c = .destroy → s.pc u = .idle)
  here : shape (s.pc t) = .called c ∨ ∃ o, shape (s.pc t) = .done c o
  loc : match s.pc t with
    | .sWait _ => s.active = false ∧ s.stopped = false
    | .sRetest _ => s.active = false
    | .pWait => s.active = true ∧ s.started = false
    | .pRetest => s.active = true
    | .dJoin => s.endReq = true
    | _ => True

def wr : WPC → Nat
  | .toArm | .chk | .late | .post => 1
  | .running => 2
  | .due => 3
  | _ => 0
def wr2 : WPC → Nat
  | .w0 | .toArm | .chk | .late => 1
  | .post => 2 | .running => 3 | .due => 4
  | _ => 0
def M (t : Tid) (s : Tm.St) : Nat := match s.pc t with
  | .idle => 0 | .ret .. => 1 | .iEnter => 2
  | .sEnter _ | .pEnter | .dEnter => 20
  | .sRetest _ => if s.stopped then 3 else 15
  | .sWait _ => 4 + wr s.w
  | .pRetest => if s.started then 3 else 15
  | .pWait => 5
  | .dJoin => 2 + wr2 s.w
/-- Where the end of a one-shot timer's run passes a client by: asleep in start(), or about to look at m_started again in stop(). -/
def missed : PC → Bool
  | .sWait _ | .pRetest => true
  | _ => false
def help (t : Tid) (s : Tm.St) : Act := match s.pc t with
  | .sWait _ | .pWait => .wgo
  | .dJoin => if s.w = .dead then .go t else .wgo
  | _ => .go t

theorem J.noEnd {t : Tid} {c : Call} {s : Tm.St} (j : J t c s) (hc : c ≠ .destroy) : s.endReq = false := by
  obtain ⟨k, tr, I⟩ := j.inv
  have hti : s.pc t ≠ .idle := by
    intro h; have := j.here; rw [h] at this; simp [shape] at this
  refine (I.noEnd hti ?_).1
  rcases j.here with h | ⟨o, h⟩ <;> rw [h] <;> cases c <;> simp [isD] at hc ⊢

theorem J.step_w {t : Tid} {c : Call} {s s' : Tm.St} {a : Act} {ev : List Ev} (j : J t c s) (ha : a = .wgo) (hs : Tm.step serial s a = some (s', ev))
    (hf : c ≠ .destroy → Ev.fin ∈ ev → missed (s.pc t) = false) :
    J t c s' ∧ (a ≠ .spur t → M t s' ≤ M t s ∧ (a = help t s → M t s' < M t s) ∧ (M t s' = M t s → help t s' = help t s)) := by
  obtain ⟨k, tr, I⟩ := j.inv
  have hI' : ∃ k tr, Tm.Inv k s' tr := ⟨_, _, I.step hs⟩
  have hti : s.pc t ≠ .idle := by
    intro h; have := j.here; rw [h] at this; simp [shape] at this
  obtain ⟨g, z, sl, ar, po, ta, de, go⟩ := I.sc
  have hend := j.noEnd
  have hself := j.slf
  have hone := j.one
  have jl := j.loc
  have jh := j.here
  clear I j
  subst ha
  have hone' : ∀ p, (p = s.pc ∨ p = wakeP s.pc ∨ p = wakeS s.pc) → p Tm.self = .idle ∧ (∀ u, u ≠ t → sameKind c (p u) = false ∧ (c = .destroy → p u = .idle)) ∧
      shape (p t) = shape (s.pc t) := by
    rintro p (rfl | rfl | rfl)
    · exact ⟨hself, hone, rfl⟩
    · refine ⟨by simp [wakeP, hself], fun u hu => ?_, shape_wakeP _ _⟩
      have := hone u hu
      unfold wakeP; cases hq : s.pc u <;> rw [hq] at this <;> cases c <;> simp_all [sameKind]
    · refine ⟨by simp [wakeS, hself], fun u hu => ?_, shape_wakeS _ _⟩
      have := hone u hu
      unfold wakeS; cases hq : s.pc u <;> rw [hq] at this <;> cases c <;> simp_all [sameKind]
  have hpc : s'.pc = s.pc ∨ s'.pc = wakeP s.pc ∨ s'.pc = wakeS s.pc := by
    simp only [Tm.step] at hs
    cases hw : s.w <;> simp only [hw] at hs <;> (try split at hs) <;> (try split at hs) <;> (try split at hs) <;>
      simp [ackStep] at hs <;> (obtain ⟨rfl, rfl⟩ := hs; simp)
  obtain ⟨q1, q2, q3⟩ := hone' _ hpc
  suffices hh : (match s'.pc t with
      | .sWait _ => s'.active = false ∧ s'.stopped = false
      | .sRetest _ => s'.active = false
      | .pWait => s'.active = true ∧ s'.started = false
      | .pRetest => s'.active = true
      | .dJoin => s'.endReq = true
      | _ => True) ∧ (M t s' ≤ M t s ∧ (.wgo = help t s → M t s' < M t s) ∧ (M t s' = M t s → help t s' = help t s)) from
    ⟨⟨hI', q1, q2, by rw [q3]; exact jh, hh.1⟩, fun _ => hh.2⟩
  clear q1 q2 q3 hpc hone' hI' hone
  have hcd : ∀ p, s.pc t = p → shape p ≠ .called .destroy → (∀ o, shape p ≠ .done .destroy o) → c ≠ .destroy := by
    rintro p h h1 h2 rfl
    rw [h] at jh
    rcases jh with h | ⟨o, h⟩
    · exact h1 h
    · exact h2 o h
  simp only [Tm.step] at hs
  cases hp : s.pc t <;> rw [hp] at jl <;> have hcd := hcd _ hp <;> clear jh <;> simp [shape] at hcd
  case idle => exact absurd hp hti
  all_goals
    clear hti
    cases hw : s.w <;> simp only [hw, hself, if_true] at hs <;> (try split at hs) <;> (try split at hs) <;> (try split at hs) <;>
      simp [ackStep] at hs <;> (obtain ⟨rfl, rfl⟩ := hs) <;> simp_all [M, help, wakeP, wakeS, wr, wr2, inG, in0, missed]

theorem J.step_wt {t : Tid} {c : Call} {s s' : Tm.St} {a : Act} {ev : List Ev} (j : J t c s) (ha : a = .expire ∨ a = .wspur)
    (hs : Tm.step serial s a = some (s', ev)) :
    J t c s' ∧ (a ≠ .spur t → M t s' ≤ M t s ∧ (a = help t s → M t s' < M t s) ∧ (M t s' = M t s → help t s' = help t s)) := by
  obtain ⟨k, tr, I⟩ := j.inv
  have hI' : ∃ k tr, Tm.Inv k s' tr := ⟨_, _, I.step hs⟩
  obtain ⟨g, z, sl, ar, po, ta, de, go⟩ := I.sc
  have hself := j.slf
  have hone := j.one
  have jl := j.loc
  have jh := j.here
  have hend := j.noEnd
  have hkeep : s'.pc = s.pc ∧ s'.active = s.active ∧ s'.stopped = s.stopped ∧ s'.started = s.started ∧ s'.endReq = s.endReq ∧
      ((s.w = .w0s ∧ s'.w = .w0) ∨ (s.w = .armed ∧ (s'.w = .chk ∨ s'.w = .late))) := by
    rcases ha with rfl | rfl <;> cases hw : s.w <;> simp [Tm.step, hw] at hs <;> (obtain ⟨rfl, rfl⟩ := hs; simp)
  obtain ⟨e1, e2, e3, e4, e5, e6⟩ := hkeep
  refine ⟨⟨hI', by rw [e1]; exact hself, by rw [e1]; exact hone, by rw [e1]; exact jh, ?_⟩, ?_⟩
  · rw [e1, e2, e3, e4, e5]; exact jl
  · intro _
    clear I j hI' hone hs jh hend
    have hM : M t s' = M t s := by
      unfold M
      rw [e1, e3, e4]
      cases hp : s.pc t <;> rw [hp] at jl <;> simp only
      case sWait =>
        rcases e6 with ⟨h1, h2⟩ | ⟨h1, h2⟩
        · have := z (by rw [h1]; rfl); simp_all
        · have := ar h1; simp_all
      case dJoin =>
        rcases e6 with ⟨h1, h2⟩ | ⟨h1, h2⟩
        · have := sl h1; simp_all
        · have := ar h1; simp_all
    have hH : help t s' = help t s := by
      unfold help
      rw [e1]
      cases hp : s.pc t <;> rw [hp] at jl <;> simp only
      case dJoin =>
        rcases e6 with ⟨h1, h2⟩ | ⟨h1, h2⟩
        · have := sl h1; simp_all
        · have := ar h1; simp_all
    refine ⟨by omega, ?_, fun _ => hH⟩
    intro h
    rcases ha with rfl | rfl <;> unfold help at h <;> split at h <;> (try split at h) <;> simp at h

/-- `t` has not looked at the fields yet, or does not depend on them any more. -/
def free : PC → Bool
  | .idle | .sEnter _ | .pEnter | .iEnter | .dEnter | .ret .. => true
  | _ => false

theorem J.other {t u : Tid} {c : Call} {s s' : Tm.St} {p' : PC} (j : J t c s) (hI' : ∃ k tr, Tm.Inv k s' tr) (hu : u ≠ t) (hus : u ≠ self)
    (hpc : s'.pc = upd s.pc u p') (hk : sameKind c p' = false) (hd : c ≠ .destroy)
    (hf : (s'.active = s.active ∧ s'.stopped = s.stopped ∧ s'.started = s.started ∧ s'.endReq = s.endReq ∧ s'.w = s.w) ∨ free (s.pc t) = true) :
    J t c s' ∧ M t s' = M t s ∧ help t s' = help t s := by
  have ht : s'.pc t = s.pc t := by rw [hpc, upd_ne _ _ hu.symm]
  have jl := j.loc
  refine ⟨⟨hI', by rw [hpc, upd_ne _ _ hus.symm]; exact j.slf, ?_, by rw [ht]; exact j.here, ?_⟩, ?_, ?_⟩
  · intro v hv
    rw [hpc]
    by_cases e : v = u
    · subst e; rw [upd_same]; exact ⟨hk, fun h => absurd h hd⟩
    · rw [upd_ne _ _ e]; exact j.one v hv
  · rw [ht]
    rcases hf with ⟨e1, e2, e3, e4, e5⟩ | hf
    · rw [e1, e2, e3, e4]; exact jl
    · cases hp : s.pc t <;> rw [hp] at hf <;> simp [free] at hf ⊢
  · unfold M
    rw [ht]
    rcases hf with ⟨e1, e2, e3, e4, e5⟩ | hf
    · rw [e2, e3, e5]
    · cases hp : s.pc t <;> rw [hp] at hf <;> simp [free] at hf ⊢
  · unfold help
    rw [ht]
    rcases hf with ⟨e1, e2, e3, e4, e5⟩ | hf
    · rw [e5]
    · cases hp : s.pc t <;> rw [hp] at hf <;> simp [free] at hf ⊢

theorem J.oStart {t u : Tid} {c : Call} {s : Tm.St} {tm : Nat} (j : J t c s) (hI' : ∃ k tr, Tm.Inv k (doStart s u tm).1 tr) (hu : u ≠ t) (hus : u ≠ self)
    (hsh : shape (s.pc u) = .called (.start tm)) (hst : s.stopped = true) (hd : c ≠ .destroy) :
    J t c (doStart s u tm).1 ∧ M t (doStart s u tm).1 = M t s ∧ help t (doStart s u tm).1 = help t s := by
  have h1 := (j.one u hu).1
  have hc : ∀ tm, c ≠ .start tm := by
    rintro tm rfl
    cases hp : s.pc u <;> rw [hp] at h1 hsh <;> simp [sameKind, shape] at h1 hsh
  refine j.other hI' hu hus rfl ?_ hd (Or.inr ?_)
  · cases c <;> simp [sameKind] at hc ⊢
  · obtain ⟨k, tr, I⟩ := j.inv
    have he := j.noEnd hd
    have jl := j.loc
    have jh := j.here
    obtain ⟨g, z, sl, ar, po, ta, de, go⟩ := I.sc
    clear I
    cases hp : s.pc t <;> rw [hp] at jl jh <;> simp [free, shape] at jl jh ⊢
    case sWait tm' => exact hc _ jh.symm
    case sRetest tm' => exact hc _ jh.symm
    case dJoin => exact hd jh.symm
    case pWait => cases hw : s.w <;> simp_all [inG, in0]
    case pRetest => cases hw : s.w <;> simp_all [inG, in0]

theorem J.oStop {t u : Tid} {c : Call} {s : Tm.St} (j : J t c s) (hI' : ∃ k tr, Tm.Inv k (doStop s u).1 tr) (hu : u ≠ t) (hus : u ≠ self)
    (hsh : shape (s.pc u) = .called .stop) (hst : s.started = true) (hd : c ≠ .destroy) :
    J t c (doStop s u).1 ∧ M t (doStop s u).1 = M t s ∧ help t (doStop s u).1 = help t s := by
  have h1 := (j.one u hu).1
  have hc : c ≠ .stop := by
    rintro rfl
    cases hp : s.pc u <;> rw [hp] at h1 hsh <;> simp [sameKind, shape] at h1 hsh
  refine j.other hI' hu hus rfl ?_ hd (Or.inr ?_)
  · cases c <;> simp [sameKind] at hc ⊢
  · obtain ⟨k, tr, I⟩ := j.inv
    have he := j.noEnd hd
    have jl := j.loc
    have jh := j.here
    obtain ⟨g, z, sl, ar, po, ta, de, go⟩ := I.sc
    clear I
    cases hp : s.pc t <;> rw [hp] at jl jh <;> simp [free, shape] at jl jh ⊢
    case pWait => exact hc jh.symm
    case pRetest => exact hc jh.symm
    case dJoin => exact hd jh.symm
    case sWait => cases hw : s.w <;> simp_all [inG, in0]
    case sRetest => cases hw : s.w <;> simp_all [inG, in0]

theorem sameKind_shape {c : Call} {p : PC} : sameKind c p = true ↔
    (∃ c', (shape p = .called c' ∨ ∃ o, shape p = .done c' o) ∧ ((∃ a b, c = .start a ∧ c' = .start b) ∨ (c = .stop ∧ c' = .stop))) := by
  constructor
  · intro h
    cases c <;> cases p <;> simp [sameKind, shape] at h ⊢
    all_goals (rename_i c' _; cases c' <;> simp_all)
  · rintro ⟨c', h1, h2⟩
    rcases h2 with ⟨a, b, rfl, rfl⟩ | ⟨rfl, rfl⟩ <;> cases p <;> simp_all [shape, sameKind]
    all_goals (rw [h1]; rfl)

theorem J.step_other {t u : Tid} {c : Call} {s s' : Tm.St} {a : Act} {ev : List Ev} (j : J t c s) (ha : a = .go u ∨ a = .spur u ∨ ∃ c', a = .call u c')
    (hu : u ≠ t) (hs : Tm.step serial s a = some (s', ev)) : J t c s' ∧ M t s' = M t s ∧ help t s' = help t s := by
  obtain ⟨k, tr, I⟩ := j.inv
  have hI' : ∃ k tr, Tm.Inv k s' tr := ⟨_, _, I.step hs⟩
  have hti : s.pc t ≠ .idle := by
    intro h; have := j.here; rw [h] at this; simp [shape] at this
  have ho := j.one u hu
  rcases ha with rfl | rfl | ⟨c', rfl⟩
  · have hus : u ≠ self := by rintro rfl; simp [Tm.step, j.slf] at hs
    have hd : c ≠ .destroy := by rintro rfl; simp [Tm.step, ho.2 rfl] at hs
    have hnd : isD (shape (s.pc u)) = false := by
      cases h : isD (shape (s.pc u)) with
      | false => rfl
      | true => exact absurd (I.alone u (I.dy u h) t hu.symm) hti
    cases hp : s.pc u <;> simp only [Tm.step, hp] at hs <;> rw [hp] at ho hnd
    case idle => simp at hs
    case sWait | pWait => all_goals simp at hs
    case dEnter | dJoin => all_goals simp [shape, isD] at hnd
    case ret c' o =>
      simp only [Option.some.injEq, Prod.mk.injEq] at hs; obtain ⟨rfl, rfl⟩ := hs
      exact j.other hI' hu hus rfl (by cases c <;> rfl) hd (Or.inl ⟨rfl, rfl, rfl, rfl, rfl⟩)
    case iEnter =>
      simp only [Option.some.injEq, Prod.mk.injEq] at hs; obtain ⟨rfl, rfl⟩ := hs
      exact j.other hI' hu hus rfl (by cases c <;> rfl) hd (Or.inl ⟨rfl, rfl, rfl, rfl, rfl⟩)
    case sEnter tm =>
      have hk : ∀ p, (shape p = .called (.start tm) ∨ ∃ o, shape p = .done (.start tm) o) → sameKind c p = false := by
        intro p h
        cases hk : sameKind c p with
        | false => rfl
        | true =>
          exfalso
          rw [sameKind_shape] at hk
          obtain ⟨c', h1, h2⟩ := hk
          have : c' = .start tm := by rcases h with h | ⟨o, h⟩ <;> rw [h] at h1 <;> simp at h1 <;> exact h1.symm
          subst this
          rcases h2 with ⟨a, b, rfl, _⟩ | ⟨_, h⟩
          · simp [sameKind] at ho
          · simp at h
      split at hs
      · simp only [Option.some.injEq, Prod.mk.injEq] at hs; obtain ⟨rfl, rfl⟩ := hs
        exact j.other hI' hu hus rfl (hk _ (by simp [shape])) hd (Or.inl ⟨rfl, rfl, rfl, rfl, rfl⟩)
      · split at hs
        · next hst =>
          simp only [Option.some.injEq] at hs
          have : (doStart s u tm).1 = s' := by rw [hs]
          subst this
          exact j.oStart hI' hu hus (by rw [hp]; rfl) hst hd
        · simp only [Option.some.injEq, Prod.mk.injEq] at hs; obtain ⟨rfl, rfl⟩ := hs
          exact j.other hI' hu hus rfl (hk _ (by simp [shape])) hd (Or.inl ⟨rfl, rfl, rfl, rfl, rfl⟩)
    case sRetest tm =>
      split at hs
      · next hst =>
        simp only [Option.some.injEq] at hs
        have : (doStart s u tm).1 = s' := by rw [hs]
        subst this
        exact j.oStart hI' hu hus (by rw [hp]; rfl) hst hd
      · simp only [Option.some.injEq, Prod.mk.injEq] at hs; obtain ⟨rfl, rfl⟩ := hs
        exact j.other hI' hu hus rfl (by cases c <;> simp_all [sameKind]) hd (Or.inl ⟨rfl, rfl, rfl, rfl, rfl⟩)
    case pEnter =>
      split at hs
      · simp only [Option.some.injEq, Prod.mk.injEq] at hs; obtain ⟨rfl, rfl⟩ := hs
        exact j.other hI' hu hus rfl (by cases c <;> simp_all [sameKind]) hd (Or.inl ⟨rfl, rfl, rfl, rfl, rfl⟩)
      · split at hs
        · next hst =>
          simp only [Option.some.injEq] at hs
          have : (doStop s u).1 = s' := by rw [hs]
          subst this
          exact j.oStop hI' hu hus (by rw [hp]; rfl) hst hd
        · simp only [Option.some.injEq, Prod.mk.injEq] at hs; obtain ⟨rfl, rfl⟩ := hs
          exact j.other hI' hu hus rfl (by cases c <;> simp_all [sameKind]) hd (Or.inl ⟨rfl, rfl, rfl, rfl, rfl⟩)
    case pRetest =>
      split at hs
      · next hst =>
        simp only [Option.some.injEq] at hs
        have : (doStop s u).1 = s' := by rw [hs]
        subst this
        exact j.oStop hI' hu hus (by rw [hp]; rfl) hst hd
      · simp only [Option.some.injEq, Prod.mk.injEq] at hs; obtain ⟨rfl, rfl⟩ := hs
        exact j.other hI' hu hus rfl (by cases c <;> simp_all [sameKind]) hd (Or.inl ⟨rfl, rfl, rfl, rfl, rfl⟩)
  · have hus : u ≠ self := by rintro rfl; simp [Tm.step, j.slf] at hs
    have hd : c ≠ .destroy := by rintro rfl; simp [Tm.step, ho.2 rfl] at hs
    cases hp : s.pc u <;> simp [Tm.step, hp] at hs <;> rw [hp] at ho
    all_goals
      obtain ⟨rfl, rfl⟩ := hs
      exact j.other hI' hu hus rfl (by cases c <;> simp_all [sameKind]) hd (Or.inl ⟨rfl, rfl, rfl, rfl, rfl⟩)
  · simp only [Tm.step, serial] at hs
    split at hs
    case isFalse => simp at hs
    case isTrue hc =>
    obtain ⟨h1, h2, h3, h4, h5, h6⟩ := hc
    simp only [Option.some.injEq, Prod.mk.injEq] at hs; obtain ⟨rfl, rfl⟩ := hs
    have hus : u ≠ self := by rintro rfl; simpa using (h6 rfl).1
    have hd : c ≠ .destroy := by
      rintro rfl
      have := I.dy t (by rcases j.here with h | ⟨o, h⟩ <;> rw [h] <;> rfl)
      rw [h3] at this; simp at this
    have h7 := h5 trivial t ((I.ins t).2 hti)
    have jh := j.here
    refine j.other hI' hu hus rfl ?_ hd (Or.inl ⟨rfl, rfl, rfl, rfl, rfl⟩)
    cases hk : sameKind c (entry c') with
    | false => rfl
    | true =>
      exfalso
      have : sameKind c' (s.pc t) = true := by
        rw [sameKind_shape] at hk ⊢
        obtain ⟨c'', g1, g2⟩ := hk
        have e : c'' = c' := by cases c' <;> simp [entry, shape] at g1 <;> exact g1.symm
        subst e
        refine ⟨c, jh, ?_⟩
        rcases g2 with ⟨a, b, rfl, rfl⟩ | ⟨rfl, rfl⟩
        · exact Or.inl ⟨b, a, rfl, rfl⟩
        · exact Or.inr ⟨rfl, rfl⟩
      rw [h7] at this; simp at this

/-- One step while `t` is inside: the facts are kept, the measure does not grow, and the helpful action makes it smaller. -/
theorem J.step {t : Tid} {c : Call} {s s' : Tm.St} {a : Act} {ev : List Ev} (j : J t c s) (hs : Tm.step serial s a = some (s', ev))
    (hf : c ≠ .destroy → Ev.fin ∈ ev → missed (s.pc t) = false) (hr : ∀ o, Ev.ret t c o ∉ ev) :
    J t c s' ∧ (a ≠ .spur t → M t s' ≤ M t s ∧ (a = help t s → M t s' < M t s) ∧ (M t s' = M t s → help t s' = help t s)) := by
  obtain ⟨k, tr, I⟩ := j.inv
  have I' := I.step hs
  have hti : s.pc t ≠ .idle := by
    intro h; have := j.here; rw [h] at this; simp [shape] at this
  have hin : s.inside ≠ [] := by intro h; have := (I.ins t).2 hti; rw [h] at this; simp at this
  have hself : Tm.self ≠ t := by rintro rfl; exact hti j.slf
  have sc := I.sc
  have hone := j.one
  have jl := j.loc
  have jh := j.here
  cases a with
  | call u c' =>
    have e : u ≠ t := by rintro rfl; simp [Tm.step, hti] at hs
    obtain ⟨g1, g2, g3⟩ := j.step_other (Or.inr (Or.inr ⟨c', rfl⟩)) e hs
    refine ⟨g1, fun _ => ⟨by omega, ?_, fun _ => g3⟩⟩
    intro h; unfold help at h; split at h <;> (try split at h) <;> simp at h
  | go u =>
    by_cases e : u = t
    · subst e
      have mk : ∀ p', s'.pc = upd s.pc u p' → (shape p' = .called c ∨ ∃ o, shape p' = .done c o) →
          (match p' with
            | .sWait _ => s'.active = false ∧ s'.stopped = false
            | .sRetest _ => s'.active = false
            | .pWait => s'.active = true ∧ s'.started = false
            | .pRetest => s'.active = true
            | .dJoin => s'.endReq = true
            | _ => True) → J u c s' := by
        intro p' h1 h2 h3
        refine ⟨⟨_, _, I'⟩, by rw [h1, upd_ne _ _ hself]; exact j.slf, fun v hv => by rw [h1, upd_ne _ _ hv]; exact hone v hv, ?_, ?_⟩
        · rw [h1, upd_same]; exact h2
        · rw [h1, upd_same]; exact h3
      cases hp : s.pc u <;> rw [hp] at jl jh <;> simp only [Tm.step, hp] at hs
      case idle => simp at hs
      case sWait | pWait => all_goals simp at hs
      case ret c' o =>
        exfalso
        simp only [Option.some.injEq, Prod.mk.injEq] at hs; obtain ⟨rfl, rfl⟩ := hs
        simp [shape] at jh; subst jh
        exact hr o (by simp)
      case iEnter =>
        simp only [Option.some.injEq, Prod.mk.injEq] at hs; obtain ⟨rfl, rfl⟩ := hs
        simp [shape] at jh; subst jh
        refine ⟨mk _ rfl (by simp [shape]) trivial, fun _ => ?_⟩
        simp [M, help, hp, St.at, upd_same]
      case dEnter =>
        simp only [Option.some.injEq, Prod.mk.injEq] at hs; obtain ⟨rfl, rfl⟩ := hs
        simp [shape] at jh; subst jh
        refine ⟨mk _ rfl (by simp [shape]) rfl, fun _ => ?_⟩
        have : wr2 (wakeW s.w) ≤ 4 := by cases s.w <;> simp [wakeW, wr2]
        simp only [M, help, hp, St.at, upd_same]
        exact ⟨by omega, fun _ => by omega, fun h => by omega⟩
      case dJoin =>
        split at hs
        case isFalse => simp at hs
        case isTrue hw =>
        simp only [Option.some.injEq, Prod.mk.injEq] at hs; obtain ⟨rfl, rfl⟩ := hs
        simp [shape] at jh; subst jh
        refine ⟨mk _ rfl (by simp [shape]) trivial, fun _ => ?_⟩
        simp only [M, help, hp, St.at, upd_same]
        exact ⟨by omega, fun _ => by omega, fun h => by omega⟩
      case sEnter tm =>
        simp [shape] at jh; subst jh
        have w4 : wr s.w ≤ 3 := by cases s.w <;> simp [wr]
        split at hs
        · simp only [Option.some.injEq, Prod.mk.injEq] at hs; obtain ⟨rfl, rfl⟩ := hs
          refine ⟨mk _ rfl (by simp [shape]) trivial, fun _ => ?_⟩
          simp only [M, help, hp, St.at, upd_same]
          exact ⟨by omega, fun _ => by omega, fun h => by omega⟩
        · next ha =>
          split at hs
          · simp only [doStart, Option.some.injEq, Prod.mk.injEq] at hs; obtain ⟨rfl, rfl⟩ := hs
            refine ⟨mk _ rfl (by simp [shape]) trivial, fun _ => ?_⟩
            simp only [M, help, hp, St.at, upd_same]
            exact ⟨by omega, fun _ => by omega, fun h => by omega⟩
          · next hst =>
            simp only [Option.some.injEq, Prod.mk.injEq] at hs; obtain ⟨rfl, rfl⟩ := hs
            refine ⟨mk _ rfl (by simp [shape]) ⟨by simpa [St.at] using ha, by simpa [St.at] using hst⟩, fun _ => ?_⟩
            simp only [M, help, hp, St.at, upd_same]
            exact ⟨by omega, fun _ => by omega, fun h => by omega⟩
      case sRetest tm =>
        simp [shape] at jh; subst jh
        have w4 : wr s.w ≤ 3 := by cases s.w <;> simp [wr]
        split at hs
        · next hst =>
          simp only [doStart, Option.some.injEq, Prod.mk.injEq] at hs; obtain ⟨rfl, rfl⟩ := hs
          refine ⟨mk _ rfl (by simp [shape]) trivial, fun _ => ?_⟩
          simp only [M, help, hp, St.at, upd_same, hst, if_true]
          exact ⟨by omega, fun _ => by omega, fun h => by omega⟩
        · next hst =>
          simp only [Option.some.injEq, Prod.mk.injEq] at hs; obtain ⟨rfl, rfl⟩ := hs
          refine ⟨mk _ rfl (by simp [shape]) ⟨by simpa [St.at] using jl, by simpa [St.at] using hst⟩, fun _ => ?_⟩
          simp only [M, help, hp, St.at, upd_same, hst]
          exact ⟨by simp; omega, fun _ => by simp; omega, fun h => by simp at h; omega⟩
      case pEnter =>
        simp [shape] at jh; subst jh
        split at hs
        · simp only [Option.some.injEq, Prod.mk.injEq] at hs; obtain ⟨rfl, rfl⟩ := hs
          refine ⟨mk _ rfl (by simp [shape]) trivial, fun _ => ?_⟩
          simp only [M, help, hp, St.at, upd_same]
          exact ⟨by omega, fun _ => by omega, fun h => by omega⟩
        · next ha =>
          split at hs
          · simp only [doStop, Option.some.injEq, Prod.mk.injEq] at hs; obtain ⟨rfl, rfl⟩ := hs
            refine ⟨mk _ rfl (by simp [shape]) trivial, fun _ => ?_⟩
            simp only [M, help, hp, St.at, upd_same]
            exact ⟨by omega, fun _ => by omega, fun h => by omega⟩
          · next hst =>
            simp only [Option.some.injEq, Prod.mk.injEq] at hs; obtain ⟨rfl, rfl⟩ := hs
            refine ⟨mk _ rfl (by simp [shape]) ⟨by simpa [St.at] using ha, by simpa [St.at] using hst⟩, fun _ => ?_⟩
            simp only [M, help, hp, St.at, upd_same]
            exact ⟨by omega, fun _ => by omega, fun h => by omega⟩
      case pRetest =>
        simp [shape] at jh; subst jh
        split at hs
        · next hst =>
          simp only [doStop, Option.some.injEq, Prod.mk.injEq] at hs; obtain ⟨rfl, rfl⟩ := hs
          refine ⟨mk _ rfl (by simp [shape]) trivial, fun _ => ?_⟩
          simp only [M, help, hp, St.at, upd_same, hst, if_true]
          exact ⟨by omega, fun _ => by omega, fun h => by omega⟩
        · next hst =>
          simp only [Option.some.injEq, Prod.mk.injEq] at hs; obtain ⟨rfl, rfl⟩ := hs
          refine ⟨mk _ rfl (by simp [shape]) ⟨by simpa [St.at] using jl, by simpa [St.at] using hst⟩, fun _ => ?_⟩
          simp only [M, help, hp, St.at, upd_same, hst]
          exact ⟨by simp, fun _ => by simp, fun h => by simp at h⟩
    · obtain ⟨g1, g2, g3⟩ := j.step_other (Or.inl rfl) e hs
      refine ⟨g1, fun _ => ⟨by omega, ?_, fun _ => g3⟩⟩
      intro h; unfold help at h; split at h <;> (try split at h) <;> simp [e] at h
  | spur u =>
    by_cases e : u = t
    · subst e
      refine ⟨?_, fun h => absurd rfl h⟩
      cases hp : s.pc u <;> rw [hp] at jl jh <;> simp [Tm.step, hp] at hs
      all_goals
        obtain ⟨rfl, rfl⟩ := hs
        refine ⟨⟨_, _, I'⟩, by simp only [St.at]; rw [upd_ne _ _ hself]; exact j.slf, fun v hv => by simp only [St.at]; rw [upd_ne _ _ hv]; exact hone v hv, ?_, ?_⟩
        · simpa [St.at, upd_same, shape] using jh
        · simpa [St.at, upd_same] using jl.1
    · obtain ⟨g1, g2, g3⟩ := j.step_other (Or.inr (Or.inl rfl)) e hs
      refine ⟨g1, fun _ => ⟨by omega, ?_, fun _ => g3⟩⟩
      intro h; unfold help at h; split at h <;> (try split at h) <;> simp [e] at h
  | wgo => exact j.step_w rfl hs hf
  | expire =>
    refine j.step_wt (Or.inl rfl) hs
  | wspur => exact j.step_wt (Or.inr rfl) hs

theorem J.enabled {t : Tid} {c : Call} {s : Tm.St} (j : J t c s) : Tm.step serial s (help t s) ≠ none := by
  obtain ⟨k, tr, I⟩ := j.inv
  have hti : s.pc t ≠ .idle := by
    intro h; have := j.here; rw [h] at this; simp [shape] at this
  obtain ⟨g, z, sl, ar, po, ta, de, go⟩ := I.sc
  have hself := j.slf
  have jl := j.loc
  have jh := j.here
  have hend := j.noEnd
  clear I j
  cases hp : s.pc t <;> rw [hp] at jl jh <;> simp only [help, hp]
  case idle => exact absurd hp hti
  case sWait tm =>
    have he : s.endReq = false := hend (by rintro rfl; simp [shape] at jh)
    cases hw : s.w <;> simp_all [Tm.step, inG, in0] <;> split <;> simp
  case pWait =>
    have he : s.endReq = false := hend (by rintro rfl; simp [shape] at jh)
    cases hw : s.w <;> simp_all [Tm.step, inG, in0] <;> split <;> simp
  case dJoin =>
    cases hw : s.w <;> simp_all [Tm.step, inG, in0]
  all_goals (simp [Tm.step, hp] <;> (try split) <;> (try split) <;> simp)

theorem self_idle_of {k : Kind} {p : Nat} {d : Disc} (hd : d.selfCalls = false) {s : Tm.St} {tr : List Ev} (h : Exec k p d s tr) : s.pc self = .idle := by
  refine Reach.inv (I := fun (s : Tm.St) _ => s.pc self = .idle) rfl ?_ h
  intro s tr a s' ev ih hs
  cases a with
  | call u c =>
    simp only [Tm.step] at hs
    split at hs
    · next hc =>
      simp only [Option.some.injEq, Prod.mk.injEq] at hs; obtain ⟨rfl, rfl⟩ := hs
      have : self ≠ u := by rintro rfl; simpa [hd] using (hc.2.2.2.2.2 rfl).1
      simp [St.at, upd_ne _ _ this, ih]
    · simp at hs
  | go u =>
    by_cases e : self = u
    · subst e; simp [Tm.step, ih] at hs
    · cases hq : s.pc u <;> simp only [Tm.step, hq] at hs <;> (try split at hs) <;> (try split at hs) <;> simp [doStart, doStop] at hs <;>
        (obtain ⟨rfl, _⟩ := hs; simp [St.at, upd_ne _ _ e, ih])
  | spur u =>
    by_cases e : self = u
    · subst e; simp [Tm.step, ih] at hs
    · cases hq : s.pc u <;> simp [Tm.step, hq] at hs <;> (obtain ⟨rfl, _⟩ := hs; simp [St.at, upd_ne _ _ e, ih])
  | wgo =>
    simp only [Tm.step] at hs
    cases hw : s.w <;> simp only [hw] at hs <;> (try split at hs) <;> (try split at hs) <;> (try split at hs) <;>
      simp [ackStep] at hs <;> (obtain ⟨rfl, rfl⟩ := hs; simp [wakeP, wakeS, ih])
  | expire => simp only [Tm.step] at hs; split at hs <;> simp at hs; obtain ⟨rfl, _⟩ := hs; exact ih
  | wspur => simp only [Tm.step] at hs; split at hs <;> simp at hs <;> (obtain ⟨rfl, _⟩ := hs; exact ih)

theorem self_idle {k : Kind} {p : Nat} {s : Tm.St} {tr : List Ev} (h : Exec k p serial s tr) : s.pc self = .idle := self_idle_of rfl h

/-- A call made by a client of the serialized discipline returns, in every execution that is fair to that client and to the timer
thread and has only finitely many spurious wake-ups of that client - provided (unless the call is destroy) that the one-shot timer
does not finish while the client is in a place where it misses that. -/
theorem returns_missed {k : Kind} {p : Nat} {st : Nat → Tm.St} {act : Nat → Option Act} {ev : Nat → List Ev} {tr : List Ev} {t : Tid} {c : Call}
    (hx : InfExec (stut (Tm.step serial)) st act ev) (h0 : Exec k p serial (st 0) tr) (hcall : act 0 = some (.call t c))
    (hspur : ∃ N, ∀ n, N ≤ n → act n ≠ some (.spur t))
    (hft : WeakFair (stut (Tm.step serial)) st act (some (.go t))) (hfw : WeakFair (stut (Tm.step serial)) st act (some .wgo))
    (hfin : (∀ n o, Ev.ret t c o ∉ ev n) → c ≠ .destroy → ∀ n, J t c (st n) → Ev.fin ∈ ev n → missed ((st n).pc t) = false) : ∃ n o, Ev.ret t c o ∈ ev n := by
  apply Classical.byContradiction
  intro hno
  have hno : ∀ n o, Ev.ret t c o ∉ ev n := fun n o h => hno ⟨n, o, h⟩
  have hJ : ∀ n, J t c (st (n + 1)) := by
    intro n
    induction n with
    | zero =>
      have I := Tm.Inv.reach h0
      have h1 : Tm.step serial (st 0) (.call t c) = some (st 1, ev 0) := by have := hx 0; rw [hcall] at this; exact this
      have I' := I.step h1
      have hs0 := self_idle h0
      have hs1 := self_idle (Reach.step h0 h1)
      simp only [Tm.step, serial] at h1
      split at h1
      case isFalse => simp at h1
      case isTrue hc =>
      simp only [Option.some.injEq, Prod.mk.injEq] at h1
      refine ⟨⟨_, _, I'⟩, hs1, ?_, ?_, ?_⟩
      · intro u hu
        rw [← h1.1]
        simp only [St.at, upd_ne _ _ hu]
        refine ⟨?_, ?_⟩
        · by_cases hi : (st 0).pc u = .idle
          · rw [hi]; cases c <;> rfl
          · exact hc.2.2.2.2.1 trivial u ((I.ins u).2 hi)
        · intro hd
          have := (I.ins u)
          rw [hc.2.2.2.1 hd] at this
          simpa using this
      · rw [← h1.1]; simp only [St.at, upd_same]; left; cases c <;> simp [entry, shape]
      · rw [← h1.1]; simp only [St.at, upd_same]; cases c <;> simp [entry]
    | succ n ih =>
      rcases stut_cases (hx (n + 1)) with ⟨_, h, _⟩ | ⟨a, _, h⟩
      · rw [h]; exact ih
      · exact (ih.step h (fun hc => hfin hno hc _ ih) (hno _)).1
  obtain ⟨N, hN⟩ := hspur
  obtain ⟨n, hn, hz⟩ := fair_zero (step := stut (Tm.step serial)) (st := st) (act := act) (M t) (fun s => some (help t s)) (N + 1)
    (by
      intro n hn _
      obtain ⟨m, rfl⟩ : ∃ m, n = m + 1 := ⟨n - 1, by omega⟩
      rcases stut_cases (hx (m + 1)) with ⟨h1, h, _⟩ | ⟨a, h1, h⟩
      · rw [h, h1]; exact ⟨Nat.le_refl _, by simp, fun _ => rfl⟩
      · obtain ⟨g1, g2, g3⟩ := ((hJ m).step h (fun hc => hfin hno hc _ (hJ m)) (hno _)).2 (by rintro rfl; exact hN _ (by omega) h1)
        exact ⟨g1, fun ha => g2 (by rw [h1] at ha; simpa using ha), fun ha => by rw [g3 ha]⟩)
    (by
      intro n hn _
      obtain ⟨m, rfl⟩ : ∃ m, n = m + 1 := ⟨n - 1, by omega⟩
      exact (hJ m).enabled)
    (by
      intro n hn _
      unfold help
      split
      · exact hfw
      · exact hfw
      · split
        · exact hft
        · exact hfw
      · exact hft)
  obtain ⟨m, rfl⟩ : ∃ m, n = m + 1 := ⟨n - 1, by omega⟩
  have := (hJ m).here
  unfold M at hz
  split at hz <;> simp_all [shape]
  all_goals (try split at hz) <;> simp_all

/-- In particular if the timer does not finish during the call. -/
theorem returns {k : Kind} {p : Nat} {st : Nat → Tm.St} {act : Nat → Option Act} {ev : Nat → List Ev} {tr : List Ev} {t : Tid} {c : Call}
    (hx : InfExec (stut (Tm.step serial)) st act ev) (h0 : Exec k p serial (st 0) tr) (hcall : act 0 = some (.call t c))
    (hspur : ∃ N, ∀ n, N ≤ n → act n ≠ some (.spur t))
    (hft : WeakFair (stut (Tm.step serial)) st act (some (.go t))) (hfw : WeakFair (stut (Tm.step serial)) st act (some .wgo))
    (hfin : c ≠ .destroy → ∀ n, Ev.fin ∈ ev n → ∃ m o, m < n ∧ Ev.ret t c o ∈ ev m) : ∃ n o, Ev.ret t c o ∈ ev n :=
  returns_missed hx h0 hcall hspur hft hfw (fun hno hc n _ hn => by obtain ⟨m, o, _, h⟩ := hfin hc n hn; exact absurd h (hno m o))

theorem noFin {p : Nat} {st : Nat → Tm.St} {act : Nat → Option Act} {ev : Nat → List Ev} {tr : List Ev}
    (hx : InfExec (stut (Tm.step serial)) st act ev) (h0 : Exec .periodic p serial (st 0) tr) (n : Nat) : Ev.fin ∉ ev n := by
  intro hn
  have hr := stut_reach (hx.reach_upto (reach_stut h0) (n + 1))
  obtain ⟨a, hl, _⟩ := C59_linearizable hr
  obtain ⟨l1, l2, hl12⟩ := List.append_of_mem (show Ev.fin ∈ tr ++ upto ev (n + 1) by simp [upto, hn])
  rw [hl12] at hl
  have e : effects (l1 ++ Ev.fin :: l2) = effects l1 ++ .fin :: effects l2 := by simp [effects, eff]
  rw [e] at hl
  obtain ⟨q, q', _, h2, _⟩ := hist_at hl
  cases h2; simp_all

/-- start() on a periodic timer returns. -/
theorem C61_periodic_partial {p : Nat} {st : Nat → Tm.St} {act : Nat → Option Act} {ev : Nat → List Ev} {tr : List Ev} {t : Tid} {tm : Nat}
    (hx : InfExec (stut (Tm.step serial)) st act ev) (h0 : Exec .periodic p serial (st 0) tr) (hcall : act 0 = some (.call t (.start tm)))
    (hspur : ∃ N, ∀ n, N ≤ n → act n ≠ some (.spur t))
    (hft : WeakFair (stut (Tm.step serial)) st act (some (.go t))) (hfw : WeakFair (stut (Tm.step serial)) st act (some .wgo)) : ∃ n o, Ev.ret t (.start tm) o ∈ ev n :=
  returns hx h0 hcall hspur hft hfw (fun _ n hn => absurd hn (noFin hx h0 n))

/-- start() on a one-shot timer returns, unless the timer finishes during the call. -/
theorem C61_oneShot_partial {p : Nat} {st : Nat → Tm.St} {act : Nat → Option Act} {ev : Nat → List Ev} {tr : List Ev} {t : Tid} {tm : Nat}
    (hx : InfExec (stut (Tm.step serial)) st act ev) (h0 : Exec .oneShot p serial (st 0) tr) (hcall : act 0 = some (.call t (.start tm)))
    (hspur : ∃ N, ∀ n, N ≤ n → act n ≠ some (.spur t))
    (hft : WeakFair (stut (Tm.step serial)) st act (some (.go t))) (hfw : WeakFair (stut (Tm.step serial)) st act (some .wgo))
    (hfin : ∀ n, Ev.fin ∈ ev n → ∃ m o, m < n ∧ Ev.ret t (.start tm) o ∈ ev m) : ∃ n o, Ev.ret t (.start tm) o ∈ ev n :=
  returns hx h0 hcall hspur hft hfw (fun _ => hfin)

/-- stop() on a periodic timer returns. -/
theorem C62_periodic_partial {p : Nat} {st : Nat → Tm.St} {act : Nat → Option Act} {ev : Nat → List Ev} {tr : List Ev} {t : Tid}
    (hx : InfExec (stut (Tm.step serial)) st act ev) (h0 : Exec .periodic p serial (st 0) tr) (hcall : act 0 = some (.call t .stop))
    (hspur : ∃ N, ∀ n, N ≤ n → act n ≠ some (.spur t))
    (hft : WeakFair (stut (Tm.step serial)) st act (some (.go t))) (hfw : WeakFair (stut (Tm.step serial)) st act (some .wgo)) : ∃ n o, Ev.ret t .stop o ∈ ev n :=
  returns hx h0 hcall hspur hft hfw (fun _ n hn => absurd hn (noFin hx h0 n))

/-- stop() on a one-shot timer returns, unless the timer finishes during the call. -/
theorem C62_oneShot_partial {p : Nat} {st : Nat → Tm.St} {act : Nat → Option Act} {ev : Nat → List Ev} {tr : List Ev} {t : Tid}
    (hx : InfExec (stut (Tm.step serial)) st act ev) (h0 : Exec .oneShot p serial (st 0) tr) (hcall : act 0 = some (.call t .stop))
    (hspur : ∃ N, ∀ n, N ≤ n → act n ≠ some (.spur t))
    (hft : WeakFair (stut (Tm.step serial)) st act (some (.go t))) (hfw : WeakFair (stut (Tm.step serial)) st act (some .wgo))
    (hfin : ∀ n, Ev.fin ∈ ev n → ∃ m o, m < n ∧ Ev.ret t .stop o ∈ ev m) : ∃ n o, Ev.ret t .stop o ∈ ev n :=
  returns hx h0 hcall hspur hft hfw (fun _ => hfin)

/-! The full claims are false: schedules that end with a client asleep and nothing that could happen any more (except spurious
wake-ups and new calls).  In the first two the clients make one call at a time. -/

def Stuck (d : Disc) (s : Tm.St) : Prop := Tm.step d s .wgo = none ∧ Tm.step d s .expire = none ∧ ∀ t, Tm.step d s (.go t) = none

theorem stuck_of {k : Kind} {p : Nat} {d : Disc} {s : Tm.St} {tr : List Ev} (h : Exec k p d s tr)
    (hw : (Tm.step d s .wgo).isNone = true ∧ (Tm.step d s .expire).isNone = true) (hg : ∀ t, t ∈ s.inside → (Tm.step d s (.go t)).isNone = true) : Stuck d s := by
  refine ⟨by simpa using hw.1, by simpa using hw.2, fun t => ?_⟩
  by_cases ht : t ∈ s.inside
  · simpa using hg t ht
  · have I := Tm.Inv.reach h
    have : s.pc t = .idle := by
      apply Classical.byContradiction; intro hn; exact ht ((I.ins t).2 hn)
    simp [Tm.step, this]

/-- One-shot: stop() while the callback runs, then start(): it waits for m_stopped, which is set after the callback without a notification. -/
def startHang : List Act :=
  [.wgo, .call 1 (.start 5), .go 1, .go 1, .wgo, .expire, .wgo, .wgo,       -- the callback runs
   .call 1 .stop, .go 1, .go 1, .call 1 (.start 5), .go 1,                  -- stop() returned; start() waits
   .wgo, .wgo, .wgo]
theorem C61_counterexample : ∃ (s : Tm.St) (tr : List Ev), Exec .oneShot 5 serial s tr ∧ s.pc 1 = .sWait 5 ∧ s.inside = [1] ∧ s.w = .w0s ∧ Stuck serial s := by
  obtain ⟨s, tr, h, hp⟩ := Lts.runSat_ex (step := Tm.step serial) (init := Tm.init .oneShot 5) (as := startHang)
    (P := fun (s : Tm.St) tr => decide (s.pc 1 = .sWait 5 ∧ s.inside = [1] ∧ s.w = .w0s ∧ ((Tm.step serial s .wgo).isNone = true ∧ (Tm.step serial s .expire).isNone = true) ∧
      ∀ t, t ∈ s.inside → (Tm.step serial s (.go t)).isNone = true)) (by decide)
  simp only [decide_eq_true_eq] at hp
  exact ⟨s, tr, h, hp.1, hp.2.1, hp.2.2.1, stuck_of h hp.2.2.2.1 hp.2.2.2.2⟩

/-- Both kinds: the callback calls stop() and then start(): start() waits for the timer thread, that is for itself. -/
def selfHang (k : Kind) : List Act :=
  [.wgo, .call 1 (.start 5), .go 1, .go 1, .wgo] ++ (match k with | .oneShot => [] | .periodic => [.wgo]) ++
  [.expire, .wgo, .wgo, .call 0 .stop, .go 0, .go 0, .call 0 (.start 5), .go 0]
theorem C61_self_counterexample (k : Kind) : ∃ (s : Tm.St) (tr : List Ev), Exec k 5 ⟨true, true⟩ s tr ∧ s.pc 0 = .sWait 5 ∧ s.inside = [0] ∧ Stuck ⟨true, true⟩ s := by
  have : Lts.runSat (Tm.step ⟨true, true⟩) (Tm.init k 5) (selfHang k) (fun (s : Tm.St) tr => decide (s.pc 0 = .sWait 5 ∧ s.inside = [0] ∧
      ((Tm.step ⟨true, true⟩ s .wgo).isNone = true ∧ (Tm.step ⟨true, true⟩ s .expire).isNone = true) ∧
      ∀ t, t ∈ s.inside → (Tm.step ⟨true, true⟩ s (.go t)).isNone = true)) = true := by cases k <;> decide
  obtain ⟨s, tr, h, hp⟩ := Lts.runSat_ex this
  simp only [decide_eq_true_eq] at hp
  exact ⟨s, tr, h, hp.1, hp.2.1, stuck_of h hp.2.2.1 hp.2.2.2⟩

/-- One-shot: stop() waits for m_started; it is notified, but before it gets the mutex the timer expires and finishes. -/
def stopHang : List Act :=
  [.wgo, .call 1 (.start 5), .go 1, .go 1, .call 1 .stop, .go 1,            -- stop() waits
   .wgo, .expire, .wgo, .wgo, .wgo, .wgo,                                   -- notified; expired; callback; finished
   .go 1, .wgo]
theorem C62_counterexample : ∃ (s : Tm.St) (tr : List Ev), Exec .oneShot 5 serial s tr ∧ s.pc 1 = .pWait ∧ s.inside = [1] ∧ s.w = .w0s ∧ Stuck serial s := by
  obtain ⟨s, tr, h, hp⟩ := Lts.runSat_ex (step := Tm.step serial) (init := Tm.init .oneShot 5) (as := stopHang)
    (P := fun (s : Tm.St) tr => decide (s.pc 1 = .pWait ∧ s.inside = [1] ∧ s.w = .w0s ∧ ((Tm.step serial s .wgo).isNone = true ∧ (Tm.step serial s .expire).isNone = true) ∧
      ∀ t, t ∈ s.inside → (Tm.step serial s (.go t)).isNone = true)) (by decide)
  simp only [decide_eq_true_eq] at hp
  exact ⟨s, tr, h, hp.1, hp.2.1, hp.2.2.1, stuck_of h hp.2.2.2.1 hp.2.2.2.2⟩

/-- Both kinds: two stop() calls wait for m_started; the first one clears it, the second one waits on. -/
def twoStops : List Act :=
  [.wgo, .call 1 (.start 5), .go 1, .go 1, .call 1 .stop, .go 1, .call 2 .stop, .go 2,
   .wgo, .go 1, .go 1, .go 2, .wgo, .wgo]
theorem C62_two_counterexample (k : Kind) : ∃ (s : Tm.St) (tr : List Ev), Exec k 5 ⟨false, false⟩ s tr ∧ s.pc 2 = .pWait ∧ s.inside = [2] ∧ Stuck ⟨false, false⟩ s := by
  have : Lts.runSat (Tm.step ⟨false, false⟩) (Tm.init k 5) twoStops (fun (s : Tm.St) tr => decide (s.pc 2 = .pWait ∧ s.inside = [2] ∧
      ((Tm.step ⟨false, false⟩ s .wgo).isNone = true ∧ (Tm.step ⟨false, false⟩ s .expire).isNone = true) ∧
      ∀ t, t ∈ s.inside → (Tm.step ⟨false, false⟩ s (.go t)).isNone = true)) = true := by cases k <;> decide
  obtain ⟨s, tr, h, hp⟩ := Lts.runSat_ex this
  simp only [decide_eq_true_eq] at hp
  exact ⟨s, tr, h, hp.1, hp.2.1, stuck_of h hp.2.2.1 hp.2.2.2⟩

/-! #### C76: destroy -/

/-- destroy returns. -/
theorem C76_returns {k : Kind} {p : Nat} {st : Nat → Tm.St} {act : Nat → Option Act} {ev : Nat → List Ev} {tr : List Ev} {t : Tid}
    (hx : InfExec (stut (Tm.step serial)) st act ev) (h0 : Exec k p serial (st 0) tr) (hcall : act 0 = some (.call t .destroy))
    (hspur : ∃ N, ∀ n, N ≤ n → act n ≠ some (.spur t))
    (hft : WeakFair (stut (Tm.step serial)) st act (some (.go t))) (hfw : WeakFair (stut (Tm.step serial)) st act (some .wgo)) : ∃ n o, Ev.ret t .destroy o ∈ ev n :=
  returns hx h0 hcall hspur hft hfw (fun h => absurd rfl h)

theorem destroyed_last {k : Kind} {p : Nat} {d : Disc} {s : Tm.St} {tr : List Ev} (h : Exec k p d s tr) {t : Tid} {o : Tm.Out} (hm : Ev.ret t .destroy o ∈ tr) :
    o = .destroyed ∧ s.gone = true ∧ (∀ u, s.pc u = .idle) ∧ ∃ a, tr = a ++ [Ev.ret t .destroy o] ∧ Ev.ret t .destroy o ∉ a := by
  induction h with
  | init => simp at hm
  | @step s tr act s' ev hr hs ih =>
    have I := Tm.Inv.reach hr
    by_cases hin : Ev.ret t .destroy o ∈ tr
    · obtain ⟨_, hg, hid, _⟩ := ih hin
      have hw := I.sc.go hg
      cases act <;> simp [Tm.step, hid, hg, hw] at hs
    · have hev : Ev.ret t .destroy o ∈ ev := by simpa [hin] using hm
      cases act with
      | go u =>
        cases hp : s.pc u <;> simp only [Tm.step, hp] at hs
        case ret c o' =>
          simp only [Option.some.injEq, Prod.mk.injEq] at hs; obtain ⟨rfl, rfl⟩ := hs
          simp at hev; obtain ⟨rfl, rfl, rfl⟩ := hev
          have hd := I.dy t (by rw [hp]; rfl)
          have := I.dr t _ hp
          refine ⟨this.2, this.1, ?_, tr, rfl, hin⟩
          intro u
          by_cases e : u = t
          · subst e; simp [St.at, upd_same]
          · simp only [St.at, upd_ne _ _ e]; exact I.alone t hd u e
        all_goals exfalso
        all_goals (try split at hs) <;> (try split at hs) <;> simp [doStart, doStop] at hs <;> (obtain ⟨_, rfl⟩ := hs) <;> simp at hev
      | call u c => simp only [Tm.step] at hs; split at hs <;> simp at hs; obtain ⟨_, rfl⟩ := hs; simp at hev
      | spur u => cases hp : s.pc u <;> simp [Tm.step, hp] at hs <;> (obtain ⟨_, rfl⟩ := hs; simp at hev)
      | wgo =>
        simp only [Tm.step] at hs
        cases hw : s.w <;> simp only [hw] at hs <;> (try split at hs) <;> (try split at hs) <;> (try split at hs) <;>
          simp [ackStep] at hs <;> (obtain ⟨rfl, rfl⟩ := hs; (try split at hev) <;> simp at hev)
      | expire | wspur => all_goals (simp only [Tm.step] at hs; split at hs <;> simp at hs <;> (obtain ⟨_, rfl⟩ := hs; simp at hev))

/-- When destroy has returned, the timer thread has ended, every callback begun has ended, none is due, and nothing happens after that. -/
theorem C76_destroyed {k : Kind} {p : Nat} {d : Disc} {s : Tm.St} {tr : List Ev} (h : Exec k p d s tr) {a b : List Ev} {t o}
    (e : tr = a ++ Ev.ret t .destroy o :: b) : s.w = .dead ∧ begun a = ended a ∧ dues a = begun a ∧ b = [] ∧ (∀ u, s.pc u = .idle) := by
  have I := Tm.Inv.reach h
  obtain ⟨-, hg, hid, a', e1, e2⟩ := destroyed_last h (t := t) (o := o) (by rw [e]; simp)
  obtain ⟨c1, c2⟩ := hist_counts I.hist
  obtain ⟨n1, n2, n3, n4⟩ := n_eff tr
  have hb : b = [] := by
    rcases List.eq_nil_or_concat b with rfl | ⟨b', z, rfl⟩
    · rfl
    · exfalso
      rw [List.concat_eq_append] at e
      have h1 : a' ++ [Ev.ret t .destroy o] = (a ++ Ev.ret t .destroy o :: b') ++ [z] := by rw [← e1, e]; simp
      have := (List.append_inj' h1 rfl).1
      apply e2; rw [this]; simp
  subst hb
  have hw := I.sc.go hg
  have ha : (abs s).ph = .dead := by simp [abs, hg, hw, absPh]
  rw [ha] at c1 c2
  simp [dueN, runN] at c1 c2
  have k2 : begun tr = begun a := by rw [e]; simp [begun, List.countP_append, List.countP_cons]
  have k3 : ended tr = ended a := by rw [e]; simp [ended, List.countP_append, List.countP_cons]
  have k4 : dues tr = dues a := by rw [e]; simp [dues, List.countP_append, List.countP_cons]
  exact ⟨hw, by omega, by omega, rfl, hid⟩

/-! #### The hypotheses are met -/

/-- One-shot: start, expiry, callback, finished; start, start (ignored), stop, isStarted, destroy. -/
def demo : List Act :=
  [.wgo, .call 1 (.start 5), .go 1, .go 1, .wgo, .wspur, .wgo, .expire, .wgo, .wgo, .wgo, .wgo,
   .call 1 (.start 7), .go 1, .go 1, .call 2 (.start 9), .go 2, .go 2, .wgo, .call 2 .stop, .go 2, .go 2, .call 1 .isStarted, .go 1, .go 1, .wgo, .wgo,
   .call 1 .destroy, .go 1, .wgo, .go 1, .go 1]
example : ∃ (s : Tm.St) (tr : List Ev), Exec .oneShot 0 serial s tr ∧ (begun tr = 1 ∧ starts tr = 2 ∧ Ev.ret 2 (.start 9) .ignored ∈ tr ∧
    Ev.ret 2 .stop .stopped ∈ tr ∧ Ev.ret 1 .isStarted (.active false) ∈ tr ∧ Ev.ret 1 .destroy .destroyed ∈ tr) := by
  obtain ⟨s, tr, h, hp⟩ := Lts.runSat_ex (step := Tm.step serial) (init := Tm.init .oneShot 0) (as := demo)
    (P := fun (_ : Tm.St) tr => decide (begun tr = 1 ∧ starts tr = 2 ∧ Ev.ret 2 (.start 9) .ignored ∈ tr ∧
    Ev.ret 2 .stop .stopped ∈ tr ∧ Ev.ret 1 .isStarted (.active false) ∈ tr ∧ Ev.ret 1 .destroy .destroyed ∈ tr)) (by decide)
  exact ⟨s, tr, h, by simpa using hp⟩

/-- Periodic, forever: start, callback, stop during the callback, start again (it has to wait). -/
def cyc : List Act :=
  [.call 1 (.start 5), .go 1, .go 1, .wgo, .wgo, .expire, .wgo, .wgo, .call 2 .stop, .go 2, .go 2, .wgo, .wgo]
theorem St_ext {a b : Tm.St} (h1 : a.kind = b.kind) (h2 : a.active = b.active) (h3 : a.started = b.started) (h4 : a.stopped = b.stopped)
    (h5 : a.endReq = b.endReq) (h6 : a.time = b.time) (h7 : a.w = b.w) (h8 : a.pc = b.pc) (h9 : a.inside = b.inside) (h10 : a.dying = b.dying)
    (h11 : a.gone = b.gone) : a = b := by
  cases a; cases b; simp_all
theorem cyc_run : ∃ tr, run (Tm.step serial) cyc (Tm.init .periodic 5) = some (Tm.init .periodic 5, tr) := by
  have hs : (run (Tm.step serial) cyc (Tm.init .periodic 5)).isSome = true := by decide
  refine ⟨((run (Tm.step serial) cyc (Tm.init .periodic 5)).get hs).2, ?_⟩
  have e := (Option.some_get hs).symm
  have h1 : ((run (Tm.step serial) cyc (Tm.init .periodic 5)).get hs).1 = Tm.init .periodic 5 := by
    refine St_ext rfl rfl rfl rfl rfl rfl rfl ?_ rfl rfl rfl
    funext t
    by_cases h1 : t = 1
    · subst h1; rfl
    · by_cases h2 : t = 2
      · subst h2; rfl
      · have e1 : (t == 1) = false := by simpa using h1
        have e2 : (t == 2) = false := by simpa using h2
        simp [cyc, run, Tm.step, serial, Tm.init, Tm.doStart, Tm.doStop, ackStep, wakeP, wakeS, wakeW, upd, St.at, entry, sameKind, self, h1, h2]
  exact e.trans (congrArg some (Prod.ext h1 rfl))
example : ∃ st act ev, InfExec (stut (Tm.step serial)) st act ev ∧ Exec .periodic 5 serial (st 0) [] ∧ act 0 = some (.call 1 (.start 5)) ∧
    (∀ n, act n ≠ some (.spur 1)) ∧ WeakFair (stut (Tm.step serial)) st act (some (.go 1)) ∧ WeakFair (stut (Tm.step serial)) st act (some .wgo) := by
  obtain ⟨tr, h⟩ := cyc_run
  refine ⟨_, _, _, (lasso (by decide) h).stut, ?_, rfl, ?_, (lasso_fair (by decide) (by decide)).stut, (lasso_fair (by decide) (by decide)).stut⟩
  · have : after (Tm.step serial) cyc (Tm.init .periodic 5) (0 % cyc.length) = Tm.init .periodic 5 := rfl
    rw [this]; exact Reach.init
  · intro n
    have hall : ∀ i (hi : i < cyc.length), cyc[i] ≠ .spur 1 := by decide
    intro h; simp at h; exact hall _ _ h

/-- C76: a destroy that waits for the timer thread, which is in the callback; after it nothing can happen. -/
def inCallback : List Act := [.call 1 (.start 5), .go 1, .go 1, .wgo, .expire, .wgo, .wgo]
def lateDestroy : List Act := [.call 1 .destroy, .go 1, .wgo, .wgo, .wgo, .go 1, .go 1]
example : ∃ st act ev tr, InfExec (stut (Tm.step serial)) st act ev ∧ Exec .oneShot 0 serial (st 0) tr ∧ act 0 = some (.call 1 .destroy) ∧ begun tr = 1 ∧ ended tr = 0 ∧
    (∀ n, act n ≠ some (.spur 1)) ∧ ∀ a, WeakFair (stut (Tm.step serial)) st act (some a) := by
  have h1 : (run (Tm.step serial) inCallback (Tm.init .oneShot 0)).map (fun x => (decide (begun x.2 = 1 ∧ ended x.2 = 0),
      (run (Tm.step serial) lateDestroy x.1).map fun y => decide (Ev.ret 1 .destroy .destroyed ∈ y.2))) = some (true, some true) := by decide
  cases hr : run (Tm.step serial) inCallback (Tm.init .oneShot 0) with
  | none => rw [hr] at h1; simp at h1
  | some x =>
    obtain ⟨s0, tr⟩ := x
    rw [hr] at h1
    simp only [Option.map_some, Option.some.injEq, Prod.mk.injEq, decide_eq_true_eq] at h1
    obtain ⟨⟨g1, g2⟩, h1⟩ := h1
    cases hr2 : run (Tm.step serial) lateDestroy s0 with
    | none => rw [hr2] at h1; simp at h1
    | some y =>
      obtain ⟨s', tr'⟩ := y
      rw [hr2] at h1
      simp only [Option.map_some, Option.some.injEq, decide_eq_true_eq] at h1
      have e0 : Exec .oneShot 0 serial s0 tr := by simpa using run_reach inCallback Reach.init hr
      have e1 : Exec .oneShot 0 serial s' (tr ++ tr') := run_reach lateDestroy e0 hr2
      obtain ⟨_, hg, hid, _⟩ := destroyed_last e1 (t := 1) (o := .destroyed) (by simp [h1])
      obtain ⟨l1, l2, hl⟩ := List.append_of_mem (show Ev.ret 1 .destroy .destroyed ∈ tr ++ tr' by simp [h1])
      obtain ⟨hw, _⟩ := C76_destroyed e1 hl
      obtain ⟨st, act, ev, hx, h0, ha, ht, _⟩ := rests lateDestroy hr2
      refine ⟨st, act, ev, tr, hx, by rw [h0]; exact e0, ha 0 (by decide), g1, g2, ?_, ?_⟩
      · intro n hn
        by_cases hlt : n < lateDestroy.length
        · rw [ha n hlt] at hn
          simp only [Option.some.injEq] at hn
          have hall : ∀ i (hi : i < lateDestroy.length), lateDestroy[i] ≠ .spur 1 := by decide
          exact hall n hlt hn
        · rw [(ht n (by omega)).2] at hn; simp at hn
      · intro a
        refine rests_fair ht ?_
        cases a with
        | call u c => simp [Tm.step, hg]
        | go u => simp [Tm.step, hid]
        | spur u => simp [Tm.step, hid]
        | wgo => simp [Tm.step, hw]
        | expire => simp [Tm.step, hw]
        | wspur => simp [Tm.step, hw]

end Verif.Props.Timer
