import Verif.Proof.ItronThread
import Verif.Sem.Fair
/-
C75, C78: a thread object of the ITRON platform, for every schedule of any number of client tasks.
The specification is `Verif/Spec/ItronThread.lean` (which uses the atomic thread object of `Verif/Spec/Thread.lean`).
-/
namespace Verif.Props.ItronThread
open Verif
open _root_.Verif.Mtx (Tid)
open _root_.Verif.EvF (Tmo)
open _root_.Verif.Thr.Spec (A tmo)
open ITh ITh.Spec Lts Proto
set_option linter.unusedSimpArgs false

variable {k : Cfg} {s : ITh.St} {tr : List Ev}

/-- The executions: `destroy` does not overlap with other calls of the same thread object, and nothing is called after it. -/
abbrev Exec (k : Cfg) (s : ITh.St) (tr : List Ev) : Prop := Reach (ITh.step k) (ITh.init k) s tr

/-- The number of effective start() calls. -/
def starts (tr : List Ev) : Nat := tr.countP (fun e => match e with | .lin _ (.thr .start) (.thr .started) => true | _ => false)
/-- The number of times Runnable::run was entered / left. -/
def begun (tr : List Ev) : Nat := tr.countP (fun e => match e with | .runBegin _ => true | _ => false)
def ended (tr : List Ev) : Nat := tr.countP (fun e => match e with | .runEnd => true | _ => false)
/-- The number of times the task became dormant after a run. -/
def fins (tr : List Ev) : Nat := tr.countP (fun e => match e with | .fin => true | _ => false)
/-- The priority last set, or the initial one. -/
def lastPrio (k : Cfg) (tr : List Ev) : Nat :=
  tr.foldl (fun p e => match e with | .lin _ (.setPriority q self) .set => if k.lo ≤ q ∧ q ≤ k.hi then q else self | _ => p) k.ini

/-! #### C75 -/

/-- Every trace is a history of the atomic thread object with a priority; each call takes effect once, between its call and its return. -/
theorem C75_linearizable (h : Exec k s tr) : ∃ a, Linearizable k tr a := by
  have I := ITh.Inv.reach h
  refine ⟨_, I.hist, fun t => ?_⟩
  have := I.loc t
  intro hb
  rw [hb] at this
  cases hp : s.pc t <;> rw [hp] at this <;> simp [Loc] at this

/-! Consequences, in terms of the trace. -/

def nStarts (h : List Eff) : Nat := h.countP (fun e => match e with | .op (.thr .start) (.thr .started) => true | _ => false)
def nBegun (h : List Eff) : Nat := h.countP (fun e => match e with | .runBegin _ => true | _ => false)
def nEnded (h : List Eff) : Nat := h.countP (fun e => match e with | .runEnd => true | _ => false)
def nFins (h : List Eff) : Nat := h.countP (fun e => match e with | .fin => true | _ => false)
def ePrio (k : Cfg) (h : List Eff) : Nat :=
  h.foldl (fun p e => match e with | .op (.setPriority q self) .set => if k.lo ≤ q ∧ q ≤ k.hi then q else self | _ => p) k.ini

theorem n_eff (tr : List Ev) : nStarts (effects tr) = starts tr ∧ nBegun (effects tr) = begun tr ∧ nEnded (effects tr) = ended tr ∧ nFins (effects tr) = fins tr := by
  induction tr with
  | nil => exact ⟨rfl, rfl, rfl, rfl⟩
  | cons e tr ih =>
    obtain ⟨h1, h2, h3, h4⟩ := ih
    cases e with
    | lin t c o =>
      have : effects (.lin t c o :: tr) = .op c o :: effects tr := rfl
      rw [this]
      simp only [nStarts, nBegun, nEnded, nFins, starts, begun, ended, fins, List.countP_cons] at *
      refine ⟨?_, by simpa using h2, by simpa using h3, by simpa using h4⟩
      rw [h1]
      rcases c with c | _ | _
      · rcases o with o | _ | _
        · cases c <;> cases o <;> rfl
        · cases c <;> rfl
        · cases c <;> rfl
      · rfl
      · rfl
    | call t c =>
      have : effects (.call t c :: tr) = effects tr := rfl
      rw [this]; simp_all [starts, begun, ended, fins, List.countP_cons]
    | ret t c o =>
      have : effects (.ret t c o :: tr) = effects tr := rfl
      rw [this]; simp_all [starts, begun, ended, fins, List.countP_cons]
    | runBegin b =>
      have : effects (.runBegin b :: tr) = .runBegin b :: effects tr := rfl
      rw [this]; simp_all [nStarts, nBegun, nEnded, nFins, starts, begun, ended, fins, List.countP_cons]
    | runEnd =>
      have : effects (.runEnd :: tr) = .runEnd :: effects tr := rfl
      rw [this]; simp_all [nStarts, nBegun, nEnded, nFins, starts, begun, ended, fins, List.countP_cons]
    | fin =>
      have : effects (.fin :: tr) = .fin :: effects tr := rfl
      rw [this]; simp_all [nStarts, nBegun, nEnded, nFins, starts, begun, ended, fins, List.countP_cons]

theorem prio_eff (k : Cfg) (tr : List Ev) : ePrio k (effects tr) = lastPrio k tr := by
  have key : ∀ (tr : List Ev) (p : Nat),
      (effects tr).foldl (fun p e => match e with | Eff.op (.setPriority q self) .set => if k.lo ≤ q ∧ q ≤ k.hi then q else self | _ => p) p =
      tr.foldl (fun p e => match e with | .lin _ (.setPriority q self) .set => if k.lo ≤ q ∧ q ≤ k.hi then q else self | _ => p) p := by
    intro tr
    induction tr with
    | nil => intro p; rfl
    | cons e tr ih =>
      intro p
      cases e with
      | lin t c o =>
        have : effects (.lin t c o :: tr) = .op c o :: effects tr := rfl
        rw [this, List.foldl_cons, List.foldl_cons, ih]
        congr 1
        rcases c with c | _ | _
        · rfl
        · cases o <;> rfl
        · rfl
      | runBegin b =>
        have : effects (.runBegin b :: tr) = .runBegin b :: effects tr := rfl
        rw [this, List.foldl_cons, List.foldl_cons, ih]
      | runEnd =>
        have : effects (.runEnd :: tr) = .runEnd :: effects tr := rfl
        rw [this, List.foldl_cons, List.foldl_cons, ih]
      | fin =>
        have : effects (.fin :: tr) = .fin :: effects tr := rfl
        rw [this, List.foldl_cons, List.foldl_cons, ih]
      | call t c => exact ih p
      | ret t c o => exact ih p
  exact key tr k.ini

/-- How far the last run is, by abstract state. -/
def pend : A → Nat | .pending => 1 | _ => 0
def runn : A → Nat | .running => 1 | _ => 0
def ovr : A → Nat | .over => 1 | _ => 0

theorem hist_counts {h : List Eff} {a : A × Nat} (hh : Hist k h a) :
    nStarts h = nBegun h + pend a.1 ∧ nBegun h = nEnded h + runn a.1 ∧ nEnded h = nFins h + ovr a.1 ∧ a.2 = ePrio k h := by
  induction hh with
  | nil => exact ⟨rfl, rfl, rfl, rfl⟩
  | snoc _ hl ih =>
    obtain ⟨h1, h2, h3, h4⟩ := ih
    cases hl with
    | thr hl => cases hl <;> simp_all [nStarts, nBegun, nEnded, nFins, List.countP_append, List.countP_cons, pend, runn, ovr, ePrio] <;> omega
    | _ => simp_all [nStarts, nBegun, nEnded, nFins, List.countP_append, List.countP_cons, pend, runn, ovr, ePrio] <;> omega

/-- Runs never overlap and never outnumber the effective starts: at every moment the effective starts are the runs begun plus at most
one that is about to begin, and the runs begun are the runs ended plus at most one in progress. -/
theorem C75_counts (h : Exec k s tr) :
    begun tr ≤ starts tr ∧ starts tr ≤ begun tr + 1 ∧ ended tr ≤ begun tr ∧ begun tr ≤ ended tr + 1 ∧ fins tr ≤ ended tr ∧ starts tr ≤ fins tr + 1 := by
  obtain ⟨a, hl, _⟩ := C75_linearizable h
  obtain ⟨h1, h2, h3, _⟩ := hist_counts hl
  obtain ⟨e1, e2, e3, e4⟩ := n_eff tr
  rcases a with ⟨a, p⟩
  cases a <;> simp [pend, runn, ovr] at h1 h2 h3 <;> omega

theorem hist_at {h1 h2 : List Eff} {x : Eff} {a : A × Nat} (h : Hist k (h1 ++ x :: h2) a) : ∃ b b', Hist k h1 b ∧ Legal k b x b' ∧ Hist k (h1 ++ [x]) b' := by
  have key : ∀ l a, Hist k l a → ∀ h2, l = h1 ++ x :: h2 → ∃ b b', Hist k h1 b ∧ Legal k b x b' ∧ Hist k (h1 ++ [x]) b' := by
    intro l a hl
    induction hl with
    | nil => intro h2 e; simp at e
    | @snoc h b y b' hh hleg ih =>
      intro h2 e
      rcases List.eq_nil_or_concat h2 with rfl | ⟨h2', z, rfl⟩
      · have := List.append_inj' e rfl
        obtain ⟨e1, e2⟩ := this; simp at e2; subst e1 e2
        exact ⟨b, b', hh, hleg, Hist.snoc hh hleg⟩
      · rw [List.concat_eq_append, show h1 ++ x :: (h2' ++ [z]) = (h1 ++ x :: h2') ++ [z] by simp] at e
        exact ih h2' (List.append_inj' e rfl).1
  exact key _ _ h h2 rfl

theorem eff_at (h : Exec k s tr) {a b : List Ev} {e : Ev} {x : Eff} (he : effect e = some x) (htr : tr = a ++ e :: b) :
    ∃ q q', Hist k (effects a) q ∧ Legal k q x q' := by
  obtain ⟨y, hl, _⟩ := C75_linearizable h
  rw [htr] at hl
  have : effects (a ++ e :: b) = effects a ++ x :: effects b := by simp [effects, he]
  rw [this] at hl
  obtain ⟨q, q', h1, h2, _⟩ := hist_at hl
  exact ⟨q, q', h1, h2⟩

/-- start() is effective exactly when the thread is finished, i.e. every earlier effective start has been run to its end and the task is
dormant again; otherwise it is ignored. -/
theorem C75_start (h : Exec k s tr) {a b : List Ev} {t o} (e : tr = a ++ Ev.lin t (.thr .start) o :: b) :
    (o = .thr .started ∧ starts a = fins a ∧ begun a = fins a) ∨ (o = .thr .ignored ∧ starts a = fins a + 1) := by
  obtain ⟨q, q', h1, h2⟩ := eff_at h rfl e
  obtain ⟨c1, c2, c3, _⟩ := hist_counts h1
  obtain ⟨e1, e2, e3, e4⟩ := n_eff a
  cases h2 with
  | @thr x _ _ _ _ h2 => cases h2 with
    | started => left; simp [pend, runn, ovr] at c1 c2 c3; refine ⟨rfl, ?_, ?_⟩ <;> omega
    | ignored hf hd => right; refine ⟨rfl, ?_⟩; cases x <;> simp [pend, runn, ovr] at c1 c2 c3 hf hd <;> omega
    | ok ht => simp [tmo] at ht
    | timedOut ht => simp [tmo] at ht

/-- Between the call and the return of `t`'s call there is a moment (after `a1`) for which `P` holds. -/
def During (t : Tid) (c : Call) (a : List Ev) (P : List Ev → Prop) : Prop :=
  ∃ a1 a2 a3, a = a1 ++ Ev.call t c :: a2 ++ a3 ∧ (∀ x, x ∈ a2 ++ a3 → ¬ boundary view t x) ∧ P (a1 ++ Ev.call t c :: a2)

theorem call_of_view {e : Ev} {t : Tid} {c : Call} (h : view e = some (.call t c)) : e = .call t c := by
  cases e with
  | call u d => unfold view at h; split at h <;> simp_all
  | ret u d o => unfold view at h; split at h <;> simp_all
  | _ => simp [view] at h
theorem lin_of_view {e : Ev} {t : Tid} {c : Call} {o : ITh.Out} (h : view e = some (.lin t c o)) : e = .lin t c o := by
  cases e with
  | call u d => unfold view at h; split at h <;> simp_all
  | ret u d o => unfold view at h; split at h <;> simp_all
  | lin u d o => simp [view] at h ⊢; exact h
  | _ => simp [view] at h

theorem during (h : Exec k s tr) {a b : List Ev} {t c o} (hc : c ≠ .thr .isFinished) (e : tr = a ++ Ev.ret t c o :: b) :
    During t c a fun m => ∃ q q', Hist k (effects m) q ∧ Legal k q (.op c o) q' := by
  obtain ⟨x, hl, hb⟩ := C75_linearizable h
  have hv : view (.ret t c o) = some (.ret t c o) := by
    rcases c with c | _ | _
    · cases c <;> first | rfl | exact absurd rfl hc
    · rfl
    · rfl
  obtain ⟨a1, ec, a2, el, a3, e1, e2, e3, e4⟩ := ret_split (hb t) e hv
  have hec := call_of_view e2
  have hel := lin_of_view e3
  subst hec hel
  have e' : tr = (a1 ++ Ev.call t c :: a2) ++ Ev.lin t c o :: (a3 ++ Ev.ret t c o :: b) := by rw [e, e1]; simp
  refine ⟨a1, a2, Ev.lin t c o :: a3, by simp [e1], ?_, eff_at h rfl e'⟩
  intro x hx
  simp only [List.mem_append, List.mem_cons] at hx e4
  rcases hx with hx | rfl | hx
  · exact e4 x (Or.inl hx)
  · simp [boundary, view]
  · exact e4 x (Or.inr hx)

/-- A return happens when the client is about to return, and nothing else happens then. -/
theorem ret_at (h : Exec k s tr) {a b : List Ev} {t c o} (e : tr = a ++ Ev.ret t c o :: b) : ∃ s0, Exec k s0 a ∧ s0.pc t = .ret c o := by
  have hret : ∀ {s0 : ITh.St} {a0 s1 ev1}, ITh.step k s0 a0 = some (s1, ev1) → Ev.ret t c o ∈ ev1 → s0.pc t = .ret c o ∧ ev1 = [.ret t c o] := by
    intro s0 a0 s1 ev1 hs hm
    cases a0 with
    | call u c => simp only [ITh.step] at hs; split at hs <;> simp at hs; obtain ⟨_, rfl⟩ := hs; simp at hm
    | expire u => simp only [ITh.step] at hs; split at hs <;> (try split at hs) <;> simp at hs; obtain ⟨_, rfl⟩ := hs; simp at hm
    | task =>
      simp only [ITh.step] at hs; split at hs <;> (try split at hs) <;> simp at hs <;> (obtain ⟨_, rfl⟩ := hs) <;> simp at hm
      obtain ⟨u, _, hu⟩ := hm
      unfold noticed at hu; split at hu <;> (try split at hu) <;> simp at hu
    | go u =>
      cases hp : s0.pc u <;> simp only [ITh.step, hp] at hs <;> (try split at hs) <;> (try split at hs) <;> simp at hs <;>
        (try (obtain ⟨_, rfl⟩ := hs)) <;> (try simp at hm)
      obtain ⟨rfl, rfl, rfl⟩ := hm
      exact ⟨hp, rfl⟩
  have h' : Reach (ITh.step k) (ITh.init k) s tr := h
  clear h
  induction h' generalizing a b with
  | init => simp at e
  | @step s0 tr0 a0 s1 ev1 hr hs ih =>
    by_cases hm : Ev.ret t c o ∈ ev1
    · obtain ⟨h1, h2⟩ := hret hs hm
      subst h2
      rcases List.eq_nil_or_concat b with rfl | ⟨b', y, rfl⟩
      · have := List.append_inj' e (by simp)
        exact ⟨s0, this.1 ▸ hr, h1⟩
      · have e2 : tr0 ++ [.ret t c o] = (a ++ .ret t c o :: b') ++ [y] := by simpa using e
        have := List.append_inj' e2 (by simp)
        exact ih this.1
    · rcases List.append_eq_append_iff.1 e with ⟨x, e1, e2⟩ | ⟨x, e1, e2⟩
      · exact absurd (by rw [e2]; simp) hm
      · cases x with
        | nil => simp at e2; exact absurd (by rw [← e2]; simp) hm
        | cons y x => simp at e2; obtain ⟨rfl, rfl⟩ := e2; exact ih e1

/-- A wait that returned OK: between its call and its return there was a moment when every effective start had been run to its end and the
task was dormant. -/
theorem C75_ok (h : Exec k s tr) {a b : List Ev} {t c} (e : tr = a ++ Ev.ret t (.thr c) (.thr .ok) :: b) :
    (tmo c).isSome ∧ During t (.thr c) a fun m => starts m = fins m := by
  have hc : c ≠ .isFinished := by
    rintro rfl
    obtain ⟨s0, h0, hp⟩ := ret_at h e
    have := (ITh.Inv.reach h0).loc t
    rw [hp] at this; simp [Loc] at this
  obtain ⟨a1, a2, a3, h1, h2, ⟨q, p⟩, q', h3, h4⟩ := during h (by simp [hc]) e
  cases h4 with
  | thr h4 => cases h4 with
    | ok ht =>
      refine ⟨by simp [ht], a1, a2, a3, h1, h2, ?_⟩
      obtain ⟨c1, c2, c3, _⟩ := hist_counts h3
      obtain ⟨n1, n2, n3, n4⟩ := n_eff (a1 ++ Ev.call t (.thr c) :: a2)
      simp [pend, runn, ovr] at c1 c2 c3; omega

/-- What isFinished returns was so at some moment between its call and its return. -/
theorem C75_isFinished (h : Exec k s tr) {a b : List Ev} {t o} (e : tr = a ++ Ev.ret t (.thr .isFinished) o :: b) :
    ∃ r, o = .thr (.finished r) ∧ ∃ a1 a2 a3, a = a1 ++ Ev.call t (.thr .isFinished) :: (a2 ++ a3) ∧ Ev.call t (.thr .isFinished) ∉ a2 ++ a3 ∧
      (r = true ↔ starts (a1 ++ Ev.call t (.thr .isFinished) :: a2) = fins (a1 ++ Ev.call t (.thr .isFinished) :: a2)) := by
  obtain ⟨s0, h0, hp⟩ := ret_at h e
  have hl := (ITh.Inv.reach h0).loc t
  rw [hp] at hl; simp only [Loc, if_true] at hl
  obtain ⟨_, r, h1, u, v, w, q, p, h2, h3, h4, h5, h6⟩ := hl
  refine ⟨r, h1, u, v, w, h2, h3, ?_⟩
  obtain ⟨c1, c2, c3, _⟩ := hist_counts h4
  obtain ⟨n1, n2, n3, n4⟩ := n_eff (u ++ Ev.call t (.thr .isFinished) :: v)
  rw [← h6]
  cases q <;> simp [pend, runn, ovr] at c1 c2 c3 h5 ⊢ <;> omega

/-- A wait that returned TimedOut: its timeout is not FOREVER, and between its call and its return there was a moment when an
effective start had not been run to its end. -/
theorem C75_timedOut (h : Exec k s tr) {a b : List Ev} {t c} (e : tr = a ++ Ev.ret t (.thr c) (.thr .timedOut) :: b) :
    (∃ tm, tmo c = some tm ∧ tm ≠ .forever) ∧ During t (.thr c) a fun m => starts m = fins m + 1 := by
  have hc : c ≠ .isFinished := by
    rintro rfl
    obtain ⟨s0, h0, hp⟩ := ret_at h e
    have := (ITh.Inv.reach h0).loc t
    rw [hp] at this; simp [Loc] at this
  obtain ⟨a1, a2, a3, h1, h2, ⟨q, p⟩, q', h3, h4⟩ := during h (by simp [hc]) e
  cases h4 with
  | thr h4 => cases h4 with
    | timedOut ht hf hn hd =>
      refine ⟨⟨_, ht, hf⟩, a1, a2, a3, h1, h2, ?_⟩
      obtain ⟨c1, c2, c3, _⟩ := hist_counts h3
      obtain ⟨n1, n2, n3, n4⟩ := n_eff (a1 ++ Ev.call t (.thr c) :: a2)
      cases q <;> simp [pend, runn, ovr] at c1 c2 c3 hn hd <;> omega

/-- Every run begins with the priority last set, whatever starts and setPriority calls it overlaps with. -/
theorem C75_run_priority (h : Exec k s tr) {a b : List Ev} {p} (e : tr = a ++ Ev.runBegin p :: b) : p = lastPrio k a := by
  obtain ⟨⟨q, r⟩, q', h1, h2⟩ := eff_at h rfl e
  obtain ⟨_, _, _, h3⟩ := hist_counts h1
  cases h2
  rw [← prio_eff]; exact h3

/-- getPriority returns the priority that was the last one set at some moment between its call and its return. -/
theorem C75_getPriority (h : Exec k s tr) {a b : List Ev} {t o} (e : tr = a ++ Ev.ret t .getPriority o :: b) :
    ∃ p, o = .prio p ∧ During t .getPriority a fun m => lastPrio k m = p := by
  obtain ⟨a1, a2, a3, h1, h2, ⟨q, p⟩, q', h3, h4⟩ := during h (by simp) e
  cases h4
  refine ⟨p, rfl, a1, a2, a3, h1, h2, ?_⟩
  obtain ⟨_, _, _, h5⟩ := hist_counts h3
  rw [← prio_eff]; exact h5.symm

/-- While nobody is inside a call that changes it, the kernel runs the task with the priority last set. -/
theorem C75_base_priority (h : Exec k s tr) (hw : s.w ≠ .dormant) (hq : s.holder = none) : s.base = lastPrio k tr := by
  have I := ITh.Inv.reach h
  obtain ⟨_, _, _, h5⟩ := hist_counts I.hist
  rw [prio_eff] at h5
  rcases I.base hw with h1 | ⟨u, hu⟩
  · rw [h1]; exact h5
  · have : cHolds (s.pc u) = true := by cases hp : s.pc u <;> rw [hp] at hu <;> simp [inRef] at hu <;> rfl
    have := (I.hc u).2 this
    rw [hq] at this; simp at this

/-- When destroy has deleted the thread, its task was dormant and every effective start had been run to its end, so del_tsk succeeds;
nobody else is inside a call. -/
theorem C75_destroyed (h : Exec k s tr) {a b : List Ev} {t o} (e : tr = a ++ Ev.ret t (.thr .destroy) o :: b) :
    o = .thr .destroyed ∧ During t (.thr .destroy) a (fun m => starts m = fins m) ∧ ∃ s0, Exec k s0 a ∧ s0.w = .dormant ∧ ∀ u, u ≠ t → s0.pc u = .idle := by
  obtain ⟨s0, h0, hp⟩ := ret_at h e
  have I := ITh.Inv.reach h0
  have hl := I.loc t
  rw [hp] at hl; simp [Loc] at hl
  obtain ⟨_, hg, rfl⟩ := hl
  obtain ⟨a1, a2, a3, h1, h2, ⟨q, p⟩, q', h3, h4⟩ := during h (by simp) e
  refine ⟨rfl, ?_, s0, h0, (I.gone hg).1, fun u hu => I.alone t (I.dy t (by rw [hp]; rfl)) u hu⟩
  refine ⟨a1, a2, a3, h1, h2, ?_⟩
  obtain ⟨c1, c2, c3, _⟩ := hist_counts h3
  obtain ⟨n1, n2, n3, n4⟩ := n_eff (a1 ++ Ev.call t (.thr .destroy) :: a2)
  cases h4 with
  | thr h4 => cases h4; simp [pend, runn, ovr] at c1 c2 c3; omega

/-- When every effective start has been run to its end, the task is dormant. -/
theorem C75_dormant (h : Exec k s tr) (hq : starts tr = fins tr) : s.w = .dormant := by
  have I := ITh.Inv.reach h
  obtain ⟨c1, c2, c3, _⟩ := hist_counts I.hist
  obtain ⟨n1, n2, n3, n4⟩ := n_eff tr
  cases hg : s.gone
  · cases hw : s.w with
    | dormant => rfl
    | _ => simp [abs, hg, hw, pend, runn, ovr] at c1 c2 c3; omega
  · exact (I.gone hg).1

/-! #### C78: waits return -/

/-- FALSE in general: `tryWait` (and a timed wait) is over when the thread is finished or its time is up.  Here client 2's `tryWait` polls for
the end of a task that has been started again; until that run has ended it cannot return. -/
def restarted : List Act :=
  [.call 1 (.thr .start), .go 1, .go 1, .go 1, .go 1, .go 1, .go 1, .go 1, .go 1, .go 1,   -- start
   .task, .task, .task, .task, .task,                                              -- the run; EV_FINISHED is set
   .call 2 (.thr .tryWait), .go 2,                                                 -- sees EV_FINISHED
   .task,                                                                          -- dormant
   .call 1 (.thr .start), .go 1, .go 1, .go 1, .go 1, .go 1, .go 1, .go 1, .go 1,    -- start again
   .task, .task, .task]                                                            -- running

theorem C78_tryWait_blocks : ∃ (k : Cfg) (s : ITh.St) (tr : List Ev), Exec k s tr ∧ phase 2 tr = .done (.thr .tryWait) (.thr .ok) ∧
    ∀ as s' ev, run (ITh.step k) as s = some (s', ev) → Ev.runEnd ∉ ev → ∀ c o, Ev.ret 2 c o ∉ ev := by
  obtain ⟨s, tr, h, hp⟩ := Lts.runSat_ex (step := ITh.step ⟨1, 16, 8⟩) (init := ITh.init ⟨1, 16, 8⟩) (as := restarted)
    (P := fun (s : ITh.St) tr => decide (s.pc 2 = .wPoll .tryWait true ∧ s.w = .running ∧ phase 2 tr = .done (.thr .tryWait) (.thr .ok))) (by decide)
  replace hp : s.pc 2 = .wPoll .tryWait true ∧ s.w = .running ∧ phase 2 tr = .done (.thr .tryWait) (.thr .ok) := by simpa using hp
  refine ⟨_, s, tr, h, hp.2.2, ?_⟩
  have I := ITh.Inv.reach h
  intro as
  obtain ⟨h1, h2, h3⟩ := hp
  clear h h3
  induction as generalizing s tr with
  | nil => intro s' ev e _ c o; simp [run] at e; rw [e.2]; simp
  | cons a as ih =>
    intro s' ev e hne c o
    simp only [run] at e
    split at e
    · simp at e
    · next s1 ev1 hs =>
      split at e
      · simp at e
      · next s2 ev2 hr =>
        simp at e; obtain ⟨rfl, rfl⟩ := e
        simp only [List.mem_append, not_or] at hne ⊢
        have I1 := I.step hs
        have key : s1.pc 2 = .wPoll .tryWait true ∧ s1.w = .running ∧ ∀ c o, Ev.ret 2 c o ∉ ev1 := by
          cases a with
          | call u d =>
            simp only [ITh.step] at hs; split at hs <;> simp at hs
            next hc =>
            obtain ⟨rfl, rfl⟩ := hs
            have : (2 : Tid) ≠ u := by rintro rfl; rw [h1] at hc; simp at hc
            simp [St.at, upd_ne _ _ this, h1, h2]
          | expire u =>
            simp only [ITh.step] at hs; split at hs <;> (try split at hs) <;> simp at hs
            next hc _ =>
            obtain ⟨rfl, rfl⟩ := hs
            have : (2 : Tid) ≠ u := by rintro rfl; rw [h1] at hc; simp at hc
            simp [St.at, upd_ne _ _ this, h1, h2]
          | task =>
            simp only [ITh.step, h2] at hs; simp at hs; obtain ⟨rfl, rfl⟩ := hs; simp at hne
          | go u =>
            by_cases hu : (2 : Tid) = u
            · subst hu
              simp only [ITh.step, h1, h2] at hs; simp at hs; obtain ⟨rfl, rfl⟩ := hs
              simp [St.at, upd_same, h2]
            · have hl := I.loc u
              cases hq : s.pc u <;> rw [hq] at hl <;> simp only [ITh.step, hq] at hs <;> (try split at hs) <;> (try split at hs) <;> simp at hs <;>
                (try (obtain ⟨rfl, rfl⟩ := hs)) <;> simp_all [St.at, upd_ne _ _ hu, Loc]
        exact ⟨key.2.2 c o, ih s1 _ I1 key.1 key.2.1 s2 ev2 hr hne.2 c o⟩

/-! Progress. -/

/-- How far the task is from being dormant. -/
def sRank : PC → Nat
  | .sRef => 4 | .sChg => 3 | .sUnl _ => 2 | .sSet => 1 | _ => 0

open Classical in
noncomputable def theSetter (s : ITh.St) : Tid := if h : ∃ u, setter (s.pc u) = true then h.choose else 0
open Classical in
noncomputable def theStarter (s : ITh.St) : Tid := if h : ∃ u, s.pc u = .sSta then h.choose else 0

theorem theSetter_eq {s : ITh.St} {tr : List Ev} (I : ITh.Inv k s tr) {u : Tid} (h : setter (s.pc u) = true) : theSetter s = u := by
  have hx : ∃ u, setter (s.pc u) = true := ⟨u, h⟩
  unfold theSetter
  rw [dif_pos hx]
  exact I.one _ _ hx.choose_spec h
theorem theStarter_eq {s : ITh.St} {tr : List Ev} (I : ITh.Inv k s tr) {u : Tid} (h : s.pc u = .sSta) : theStarter s = u := by
  have hx : ∃ u, s.pc u = .sSta := ⟨u, h⟩
  unfold theStarter
  rw [dif_pos hx]
  have a := (I.hc u).2 (by rw [h]; rfl)
  have b := (I.hc hx.choose).2 (by rw [hx.choose_spec]; rfl)
  rw [a] at b; simpa using b.symm

noncomputable def tRank (s : ITh.St) : Nat := match s.w with
  | .dormant => if s.finished then 0 else 12
  | .wStart => if s.started then 6 else 7 + sRank (s.pc (theSetter s))
  | .clr => 5 | .begin => 4 | .running => 3 | .setF => 2 | .exiting => 1
def cRank : PC → Nat
  | .wFlg .. => 5 | .wWait .. => 4 | .wPoll .. => 3 | .dDel => 2 | .ret .. => 1 | _ => 0
noncomputable def rank (t : Tid) (s : ITh.St) : Nat := if cRank (s.pc t) = 0 then 0 else 8 * tRank s + cRank (s.pc t)
/-- Who has to move for the task to become dormant. -/
noncomputable def tHelp (s : ITh.St) : Act := match s.w with
  | .dormant => .go (theStarter s)
  | .wStart => if s.started then .task else .go (theSetter s)
  | _ => .task
noncomputable def help (t : Tid) (s : ITh.St) : Act := match s.pc t with
  | .wWait .. => tHelp s
  | .wPoll .. => if s.w = .dormant then .go t else tHelp s
  | _ => .go t

theorem help_en {s : ITh.St} {tr : List Ev} (I : ITh.Inv k s tr) (t : Tid) (h : rank t s ≠ 0) : ITh.step k s (help t s) ≠ none := by
  have hl := I.loc t
  have hth : (s.w = .dormant → s.finished = false) → ITh.step k s (tHelp s) ≠ none := by
    intro hd
    unfold tHelp
    cases hw : s.w with
    | dormant =>
      obtain ⟨u, hu⟩ := I.live2 hw (hd hw)
      rw [theStarter_eq I hu]; simp [ITh.step, hu, hw]
    | wStart =>
      cases hst : s.started
      · obtain ⟨u, hu⟩ := I.live1 hw hst
        simp only [Bool.false_eq_true, if_false]
        rw [theSetter_eq I hu]
        cases hq : s.pc u <;> rw [hq] at hu <;> simp [setter] at hu <;> simp only [ITh.step, hq] <;> (try split) <;> simp
      · simp [ITh.step, hw, hst]
    | _ => simp [ITh.step, hw]
  unfold help
  cases hq : s.pc t with
  | wWait c tm => rw [hq] at hl; simp only [Loc] at hl; exact hth (fun _ => hl.2.2.1)
  | wPoll c b =>
    simp only
    split
    · next hw => simp [ITh.step, hq, hw]
    · next hw => exact hth (fun h => absurd h hw)
  | wFlg c tm => simp only [ITh.step, hq]; split <;> (try split) <;> simp
  | dDel => simp [ITh.step, hq]
  | ret c o => simp [ITh.step, hq]
  | _ => simp [rank, hq, cRank] at h

/-- The events contain no effective start. -/
def noStart (ev : List Ev) : Prop := ∀ u, Ev.lin u (.thr .start) (.thr .started) ∉ ev

theorem quiet {s s' : ITh.St} {tr tr' : List Ev} (I : ITh.Inv k s tr) (I' : ITh.Inv k s' tr') (h1 : s'.w = s.w) (h2 : s'.started = s.started)
    (h3 : s'.finished = s.finished) (h4 : ∀ v, setter (s.pc v) = true → s'.pc v = s.pc v) (h5 : ∀ v, s.pc v = .sSta → s'.pc v = .sSta) : tRank s' = tRank s ∧ ((s.w = .dormant → s.finished = false) → tHelp s' = tHelp s) := by
  have hset : s.w = .wStart → s.started = false → theSetter s' = theSetter s ∧ s'.pc (theSetter s') = s.pc (theSetter s) := by
    intro hw hs
    obtain ⟨u, hu⟩ := I.live1 hw hs
    have e1 := theSetter_eq I hu
    have e2 := theSetter_eq I' (u := u) (by rw [h4 u hu]; exact hu)
    rw [e1, e2]; exact ⟨rfl, h4 u hu⟩
  constructor
  · unfold tRank
    rw [h1, h2, h3]
    cases hw : s.w <;> simp only
    cases hs : s.started
    · simp [(hset hw hs).2]
    · simp
  · intro hd
    unfold tHelp
    rw [h1, h2]
    cases hw : s.w <;> simp only
    · obtain ⟨u, hu⟩ := I.live2 hw (hd hw)
      rw [theStarter_eq I hu, theStarter_eq I' (h5 u hu)]
    · cases hs : s.started
      · simp [(hset hw hs).1]
      · simp

/-- One step and the way of the task towards being dormant. -/
theorem task_dec {s s' : ITh.St} {tr ev : List Ev} (I : ITh.Inv k s tr) {a : Act} (hs : ITh.step k s a = some (s', ev)) (hn : noStart ev) :
    tRank s' < tRank s ∨ (s'.w = s.w ∧ s'.finished = s.finished ∧ tRank s' = tRank s ∧ ((s.w = .dormant → s.finished = false) → tHelp s' = tHelp s ∧ a ≠ tHelp s)) := by
  have I' := I.step hs
  have hth : ∀ {b}, (s.w = .dormant → s.finished = false) → (b = .task → False) → (∀ u, b = .go u → setter (s.pc u) = false ∧ s.pc u ≠ .sSta) → b ≠ tHelp s := by
    intro b hd h1 h2 e
    unfold tHelp at e
    cases hw : s.w <;> simp only [hw] at e <;> first | exact h1 e | skip
    · obtain ⟨u, hu⟩ := I.live2 hw (hd hw)
      rw [theStarter_eq I hu] at e; exact (h2 u e).2 hu
    · cases hst : s.started
      · obtain ⟨u, hu⟩ := I.live1 hw hst
        simp only [hst, Bool.false_eq_true, if_false] at e
        rw [theSetter_eq I hu] at e; have := (h2 u e).1; rw [hu] at this; simp at this
      · simp [hst] at e; exact h1 e
  have hq : ∀ (u : Tid) (p' : PC), s'.pc = upd s.pc u p' → setter (s.pc u) = false → s.pc u ≠ .sSta → s'.w = s.w → s'.started = s.started → s'.finished = s.finished →
      (a = .go u ∨ a = .expire u ∨ ∃ c, a = .call u c) → s'.w = s.w ∧ s'.finished = s.finished ∧ tRank s' = tRank s ∧ ((s.w = .dormant → s.finished = false) → tHelp s' = tHelp s ∧ a ≠ tHelp s) := by
    intro u p' hpc h1 h2 h3 h4 h5 ha
    have hne : ∀ v, v ≠ u → s'.pc v = s.pc v := fun v hv => by rw [hpc, upd_ne _ _ hv]
    have hx := quiet I I' h3 h4 h5 (fun v hv => hne v (by rintro rfl; rw [h1] at hv; simp at hv)) (fun v hv => by rw [hne v (by rintro rfl; exact h2 hv)]; exact hv)
    refine ⟨h3, h5, hx.1, fun hd => ⟨hx.2 hd, hth hd ?_ ?_⟩⟩
    · rintro rfl; rcases ha with h | h | ⟨c, h⟩ <;> simp at h
    · intro v hv; subst hv
      rcases ha with h | h | ⟨c, h⟩ <;> simp at h
      subst h; exact ⟨h1, h2⟩
  have hset : ∀ (u : Tid), setter (s.pc u) = true → s.w = .wStart ∧ s.started = false := by
    intro u hu
    have := I.loc u
    cases hp : s.pc u <;> rw [hp] at hu this <;> simp [setter] at hu <;> simp [Loc] at this <;> try exact this.2
    rename_i o; cases o <;> simp at hu; exact this.2 rfl
  cases a with
  | call u c =>
    right
    simp only [ITh.step] at hs; split at hs <;> simp at hs
    next hc =>
    obtain ⟨rfl, rfl⟩ := hs
    exact hq u _ rfl (by rw [hc.1]; rfl) (by rw [hc.1]; simp) rfl rfl rfl (.inr (.inr ⟨c, rfl⟩))
  | expire u =>
    right
    simp only [ITh.step] at hs; split at hs <;> (try split at hs) <;> simp at hs
    next hc _ =>
    obtain ⟨rfl, rfl⟩ := hs
    exact hq u _ rfl (by rw [hc]; rfl) (by rw [hc]; simp) rfl rfl rfl (.inr (.inl rfl))
  | task =>
    left
    simp only [ITh.step] at hs
    cases hw : s.w <;> simp [hw] at hs <;> unfold tRank <;> simp only [hw]
    · obtain ⟨h1, rfl, rfl⟩ := hs; simp [h1]
    · obtain ⟨rfl, rfl⟩ := hs; simp
    · obtain ⟨rfl, rfl⟩ := hs; simp
    · obtain ⟨rfl, rfl⟩ := hs; simp
    · obtain ⟨rfl, rfl⟩ := hs; simp
    · obtain ⟨rfl, rfl⟩ := hs; simp [I.exi hw]
  | go u =>
    cases hp : s.pc u with
    | idle => simp [ITh.step, hp] at hs
    | wWait c tm => simp [ITh.step, hp] at hs
    | sClr => simp [ITh.step, hp] at hs; obtain ⟨_, rfl⟩ := hs; exact absurd (by simp) (hn u)
    | sSta =>
      left
      have hl := I.loc u
      rw [hp] at hl; simp only [Loc] at hl
      simp only [ITh.step, hp, hl.2.2, if_true] at hs
      simp at hs; obtain ⟨rfl, rfl⟩ := hs
      have hst : s.started = false := by
        cases h : s.started
        · rfl
        · rcases I.sta h with h | h <;> rw [hl.2.2] at h <;> simp at h
      have := theSetter_eq I' (u := u) (by simp [St.at, upd_same, setter])
      unfold tRank
      rw [this]
      simp [hl.2.2, hl.2.1, hst, St.at, upd_same, sRank]
    | sRef =>
      left
      have hw := hset u (by rw [hp]; rfl)
      have h0 := theSetter_eq I (u := u) (by rw [hp]; rfl)
      simp only [ITh.step, hp] at hs
      split at hs <;> simp at hs <;> (obtain ⟨rfl, rfl⟩ := hs)
      all_goals
        have := theSetter_eq I' (u := u) (by simp [St.at, upd_same, setter])
        unfold tRank
        rw [this, h0]
        simp [hw, St.at, upd_same, sRank, hp]
    | sChg =>
      left
      have hw := hset u (by rw [hp]; rfl)
      have h0 := theSetter_eq I (u := u) (by rw [hp]; rfl)
      simp only [ITh.step, hp] at hs
      simp at hs; obtain ⟨rfl, rfl⟩ := hs
      have := theSetter_eq I' (u := u) (by simp [St.at, upd_same, setter])
      unfold tRank
      rw [this, h0]
      simp [hw, St.at, upd_same, sRank, hp]
    | sSet =>
      left
      have hw := hset u (by rw [hp]; rfl)
      have h0 := theSetter_eq I (u := u) (by rw [hp]; rfl)
      simp only [ITh.step, hp] at hs
      simp at hs; obtain ⟨rfl, rfl⟩ := hs
      unfold tRank
      rw [h0]
      simp [hw, St.at, upd_same, sRank, hp]
    | sUnl o =>
      by_cases ho : o = .started
      · left
        subst ho
        have hw := hset u (by rw [hp]; rfl)
        have h0 := theSetter_eq I (u := u) (by rw [hp]; rfl)
        simp only [ITh.step, hp] at hs
        simp at hs; obtain ⟨rfl, rfl⟩ := hs
        have := theSetter_eq I' (u := u) (by simp [St.at, upd_same, setter])
        unfold tRank
        rw [this, h0]
        simp [hw, St.at, upd_same, sRank, hp]
      · right
        have hf : setter (s.pc u) = false := by rw [hp]; cases o <;> simp_all [setter]
        simp only [ITh.step, hp] at hs
        simp at hs; obtain ⟨rfl, rfl⟩ := hs
        exact hq u _ rfl hf (by rw [hp]; simp) rfl rfl rfl (.inl rfl)
    | _ =>
      right
      have hf : setter (s.pc u) = false := by rw [hp]; rfl
      have hg : s.pc u ≠ .sSta := by rw [hp]; simp
      simp only [ITh.step, hp] at hs
      (try split at hs) <;> (try split at hs) <;> simp at hs <;> (obtain ⟨rfl, rfl⟩ := hs) <;> exact hq u _ rfl hf hg rfl rfl rfl (.inl rfl)

theorem client_dec {s s' : ITh.St} {ev : List Ev} {a : Act} (hs : ITh.step k s a = some (s', ev)) (t : Tid) (h0 : cRank (s.pc t) ≠ 0) :
    cRank (s'.pc t) < cRank (s.pc t) ∨ (a ≠ .go t ∧ s'.pc t = s.pc t) ∨ (a = .go t ∧ s'.pc t = s.pc t ∧ (∃ c b, s.pc t = .wPoll c b) ∧ s.w ≠ .dormant) ∨
      (a = .task ∧ s.w = .exiting ∧ ∃ c, s.pc t = .wPoll c false ∧ s'.pc t = .wPoll c true) := by
  cases a with
  | call u c =>
    simp only [ITh.step] at hs; split at hs <;> simp at hs
    next hc =>
    obtain ⟨rfl, rfl⟩ := hs
    have : t ≠ u := by rintro rfl; rw [hc.1] at h0; simp [cRank] at h0
    right; left; simp [St.at, upd_ne _ _ this]
  | expire u =>
    simp only [ITh.step] at hs; split at hs <;> (try split at hs) <;> simp at hs
    next hc _ =>
    obtain ⟨rfl, rfl⟩ := hs
    by_cases e : t = u
    · subst e; left; simp [St.at, upd_same, hc, cRank]
    · right; left; simp [St.at, upd_ne _ _ e]
  | task =>
    simp only [ITh.step] at hs
    cases hw : s.w <;> simp [hw] at hs
    · obtain ⟨h1, rfl, rfl⟩ := hs; right; left; simp
    · obtain ⟨rfl, rfl⟩ := hs; right; left; simp
    · obtain ⟨rfl, rfl⟩ := hs; right; left; simp
    · obtain ⟨rfl, rfl⟩ := hs; right; left; simp
    · obtain ⟨rfl, rfl⟩ := hs
      rcases release_eq s.pc t with h | ⟨c, tm, h1, h2⟩
      · right; left; simp [h]
      · left; simp [h1, h2, cRank]
    · obtain ⟨rfl, rfl⟩ := hs
      rcases notice_eq s.pc t with h | ⟨c, h1, h2⟩
      · right; left; simp [h]
      · right; right; right; simp [h1, h2]
  | go u =>
    by_cases e : t = u
    · subst e
      cases hp : s.pc t with
      | wFlg c tm =>
        left
        simp only [ITh.step, hp] at hs
        split at hs <;> (try split at hs) <;> simp at hs <;> (obtain ⟨rfl, rfl⟩ := hs) <;> simp [St.at, upd_same, cRank]
      | wWait c tm => simp [ITh.step, hp] at hs
      | wPoll c b =>
        simp only [ITh.step, hp] at hs
        split at hs <;> simp at hs <;> (obtain ⟨rfl, rfl⟩ := hs)
        · left; simp only [St.at, upd_same]; split <;> simp [cRank]
        · next hw => right; right; left; exact ⟨rfl, by simp [St.at, upd_same], ⟨c, b, rfl⟩, hw⟩
      | dDel => left; simp [ITh.step, hp] at hs; obtain ⟨rfl, rfl⟩ := hs; simp [St.at, upd_same, cRank]
      | ret c o => left; simp [ITh.step, hp] at hs; obtain ⟨rfl, rfl⟩ := hs; simp [St.at, upd_same, cRank]
      | _ => rw [hp] at h0; simp [cRank] at h0
    · right; left
      refine ⟨by simp [fun h => e (Eq.symm h)]; exact fun h => e h.symm, ?_⟩
      cases hp : s.pc u <;> simp only [ITh.step, hp] at hs <;> (try split at hs) <;> (try split at hs) <;> simp at hs <;>
        (obtain ⟨rfl, rfl⟩ := hs) <;> simp [St.at, upd_ne _ _ e]

theorem rank_dec {s s' : ITh.St} {tr ev : List Ev} (I : ITh.Inv k s tr) {a : Act} (hs : ITh.step k s a = some (s', ev)) (hn : noStart ev) (t : Tid) (h0 : rank t s ≠ 0) :
    rank t s' ≤ rank t s ∧ (a = help t s → rank t s' < rank t s) ∧ (rank t s' = rank t s → help t s' = help t s) := by
  have hc0 : cRank (s.pc t) ≠ 0 := by intro h; simp [rank, h] at h0
  have ht := task_dec I hs hn
  have hc := client_dec hs t hc0
  have hr : rank t s = 8 * tRank s + cRank (s.pc t) := by simp [rank, hc0]
  by_cases hz : cRank (s'.pc t) = 0
  · have : rank t s' = 0 := by simp [rank, hz]
    omega
  have hr' : rank t s' = 8 * tRank s' + cRank (s'.pc t) := by simp [rank, hz]
  have hle : cRank (s'.pc t) ≤ cRank (s.pc t) := by
    rcases hc with h | h | h | h
    · omega
    · rw [h.2]; exact Nat.le_refl _
    · rw [h.2.1]; exact Nat.le_refl _
    · obtain ⟨_, _, c, h1, h2⟩ := h; rw [h1, h2]; simp [cRank]
  rcases ht with ht | ⟨hw, hf, ht, hh⟩
  · omega
  · rcases hc with hc | hc | hc | hc
    · omega
    · -- somebody else, and no progress of the task
      have hl := I.loc t
      refine ⟨by omega, fun ha => ?_, fun _ => ?_⟩
      · exfalso
        unfold help at ha
        cases hp : s.pc t <;> rw [hp] at hl <;> simp only [hp] at ha <;> first | exact hc.1 ha | skip
        · simp only [Loc] at hl; exact (hh (fun _ => hl.2.2.1)).2 ha
        · split at ha
          · exact hc.1 ha
          · next hd => exact (hh (fun h => absurd h hd)).2 ha
      · unfold help
        rw [hc.2, hw]
        cases hp : s.pc t <;> rw [hp] at hl <;> simp only
        · simp only [Loc] at hl; exact (hh (fun _ => hl.2.2.1)).1
        · split
          · rfl
          · next hd => exact (hh (fun h => absurd h hd)).1
    · obtain ⟨rfl, h1, ⟨c, b, h2⟩, h3⟩ := hc
      refine ⟨by rw [hr, hr', h1, ht]; exact Nat.le_refl _, fun ha => ?_, fun _ => ?_⟩
      · exfalso
        unfold help at ha
        simp only [h2, if_neg h3] at ha
        exact (hh (fun h => absurd h h3)).2 ha
      · unfold help
        rw [h1, hw, h2]
        simp only [if_neg h3]
        exact (hh (fun h => absurd h h3)).1
    · obtain ⟨rfl, h1, _⟩ := hc
      simp only [ITh.step, h1] at hs
      simp at hs; obtain ⟨rfl, _⟩ := hs
      simp [h1] at hw

/-- A client inside wait, tryWait, timedWait or destroy returns, on every execution in which the thread's task and the clients inside a call keep
moving and from some moment on no start() becomes effective.  Missing (and false, `C78_tryWait_blocks`): that it returns although the thread
is started again. -/
theorem C78_wait_returns_partial {st : Nat → ITh.St} {act : Nat → Option Act} {ev : Nat → List Ev} (hx : InfExec (stut (ITh.step k)) st act ev) (h0 : Exec k (st 0) tr)
    (fair : WeakFair (stut (ITh.step k)) st act (some .task)) (fairc : ∀ u, WeakFair (stut (ITh.step k)) st act (some (.go u)))
    {N : Nat} (hN : ∀ n, N ≤ n → noStart (ev n))
    {t : Tid} {c : Thr.Call} (hc : (tmo c).isSome ∨ c = .destroy) (hin : phase t (tr ++ upto ev N) = .called (.thr c) ∨ ∃ o, phase t (tr ++ upto ev N) = .done (.thr c) o) :
    ∃ n, N ≤ n ∧ ∃ c o, Ev.ret t c o ∈ ev n := by
  have hinv : ∀ n, ITh.Inv k (st n) (tr ++ upto ev n) := fun n => ITh.Inv.reach (stut_reach (hx.reach_upto (reach_stut h0) n))
  have hz : ∃ n, N ≤ n ∧ rank t (st n) = 0 := by
    refine fair_zero (step := stut (ITh.step k)) (st := st) (act := act) (rank t) (fun s => some (help t s)) N ?_ ?_ ?_
    · intro n hn hr
      rcases stut_cases (hx n) with ⟨h1, h2, h3⟩ | ⟨b, h1, h2⟩
      · rw [h2, h1]; exact ⟨Nat.le_refl _, by simp, fun _ => rfl⟩
      · have := rank_dec (hinv n) h2 (hN n hn) t hr
        rw [h1]; simp only [Option.some.injEq]
        exact this
    · intro n hn hr; exact help_en (hinv n) t hr
    · intro n hn hr
      have : help t (st n) = .task ∨ ∃ u, help t (st n) = .go u := by
        have htp : tHelp (st n) = .task ∨ ∃ u, tHelp (st n) = .go u := by
          unfold tHelp; split <;> (try split) <;> first | exact .inl rfl | exact .inr ⟨_, rfl⟩
        unfold help; split
        · exact htp
        · split
          · exact .inr ⟨_, rfl⟩
          · exact htp
        · exact .inr ⟨_, rfl⟩
      rcases this with h | ⟨u, h⟩
      · rw [h]; exact fair
      · rw [h]; exact fairc u
  have hstart : rank t (st N) ≠ 0 := by
    have hl := (hinv N).loc t
    have hcr : cRank ((st N).pc t) ≠ 0 := by
      rcases hin with hin | ⟨o, hin⟩
      · rw [hin] at hl
        cases hp : (st N).pc t <;> rw [hp] at hl <;> simp [Loc] at hl <;> simp [cRank]
        all_goals ((first | subst hl | (obtain ⟨rfl, _⟩ := hl)); simp [tmo] at hc)
      · rw [hin] at hl
        cases hp : (st N).pc t <;> rw [hp] at hl <;> simp [Loc] at hl <;> simp [cRank]
        all_goals ((first | subst hl | (obtain ⟨⟨rfl, _⟩, _⟩ := hl) | (obtain ⟨rfl, _⟩ := hl)); simp [tmo] at hc)
    unfold rank; rw [if_neg hcr]; omega
  obtain ⟨n, hn, hr⟩ := hz
  -- the first such moment
  have key : ∀ d, N ≤ d → rank t (st N) ≠ 0 → rank t (st d) = 0 → ∃ n, N ≤ n ∧ rank t (st n) ≠ 0 ∧ rank t (st (n + 1)) = 0 := by
    intro d hd h1 h2
    obtain ⟨j, rfl⟩ := Nat.exists_eq_add_of_le hd
    induction j with
    | zero => exact absurd h2 h1
    | succ j ih =>
      by_cases hj : rank t (st (N + j)) = 0
      · exact ih (by omega) hj
      · exact ⟨N + j, by omega, hj, h2⟩
  obtain ⟨m, hm, h1, h2⟩ := key n hn hstart hr
  refine ⟨m, hm, ?_⟩
  have hc0 : cRank ((st m).pc t) ≠ 0 := by intro h; simp [rank, h] at h1
  have hc1 : cRank ((st (m + 1)).pc t) = 0 := by
    apply Classical.byContradiction; intro h; simp [rank, h] at h2
  rcases stut_cases (hx m) with ⟨_, e, _⟩ | ⟨b, e1, e2⟩
  · rw [e] at hc1; exact absurd hc1 hc0
  · cases b with
    | call u d =>
      rcases client_dec e2 t hc0 with h | h | h | h
      · simp only [ITh.step] at e2; split at e2 <;> simp at e2
        next hcc =>
        have hne : t ≠ u := by rintro rfl; rw [hcc.1] at hc0; simp [cRank] at hc0
        rw [← e2.1] at hc1; simp [St.at, upd_ne _ _ hne] at hc1; exact absurd hc1 hc0
      · rw [h.2] at hc1; exact absurd hc1 hc0
      · simp at h
      · simp at h
    | expire u =>
      simp only [ITh.step] at e2; split at e2 <;> (try split at e2) <;> simp at e2
      by_cases hu : t = u
      · subst hu; rw [← e2.1] at hc1; simp [St.at, upd_same, cRank] at hc1
      · rw [← e2.1] at hc1; simp [St.at, upd_ne _ _ hu] at hc1; exact absurd hc1 hc0
    | task =>
      rcases client_dec e2 t hc0 with h | h | h | h
      · simp only [ITh.step] at e2
        cases hw : (st m).w <;> simp [hw] at e2
        · rw [← e2.2.1] at hc1; exact absurd hc1 hc0
        · rw [← e2.1] at hc1; exact absurd hc1 hc0
        · rw [← e2.1] at hc1; exact absurd hc1 hc0
        · rw [← e2.1] at hc1; exact absurd hc1 hc0
        · rw [← e2.1] at hc1
          rcases release_eq (st m).pc t with h | ⟨c, tm, h3, h4⟩
          · simp [h] at hc1; exact absurd hc1 hc0
          · simp [h4, cRank] at hc1
        · rw [← e2.1] at hc1
          rcases notice_eq (st m).pc t with h | ⟨c, h3, h4⟩
          · simp [h] at hc1; exact absurd hc1 hc0
          · simp [h4, cRank] at hc1
      · rw [h.2] at hc1; exact absurd hc1 hc0
      · simp at h
      · obtain ⟨_, _, c, _, h3⟩ := h; rw [h3] at hc1; simp [cRank] at hc1
    | go u =>
      by_cases hu : t = u
      · subst hu
        cases hp : (st m).pc t with
        | ret c o => simp [ITh.step, hp] at e2; exact ⟨c, o, by rw [← e2.2]; simp⟩
        | wFlg c tm =>
          simp only [ITh.step, hp] at e2
          split at e2 <;> (try split at e2) <;> simp at e2 <;> (rw [← e2.1] at hc1) <;> simp [St.at, upd_same, cRank] at hc1
        | wWait c tm => simp [ITh.step, hp] at e2
        | wPoll c b =>
          simp only [ITh.step, hp] at e2
          split at e2 <;> simp at e2 <;> (rw [← e2.1] at hc1) <;> simp only [St.at, upd_same] at hc1
          · split at hc1 <;> simp [cRank] at hc1
          · simp [cRank] at hc1
        | dDel => simp [ITh.step, hp] at e2; rw [← e2.1] at hc1; simp [St.at, upd_same, cRank] at hc1
        | _ => rw [hp] at hc0; simp [cRank] at hc0
      · rcases client_dec e2 t hc0 with h | h | h | h
        · exfalso
          cases hp : (st m).pc u <;> simp only [ITh.step, hp] at e2 <;> (try split at e2) <;> (try split at e2) <;> simp at e2 <;>
            (rw [← e2.1] at hc1) <;> (simp [St.at, upd_ne _ _ hu] at hc1) <;> exact absurd hc1 hc0
        · rw [h.2] at hc1; exact absurd hc1 hc0
        · rw [h.2.1] at hc1; exact absurd hc1 hc0
        · simp at h

/-! #### The hypotheses are met -/

/-- setPriority, start (the priority is applied), an ignored start, a tryWait that times out, a wait that sleeps, the run with a setPriority in it,
isFinished, destroy. -/
def demo : List Act :=
  [.call 1 (.setPriority 5 7), .go 1, .go 1, .go 1, .go 1, .go 1, .go 1,
   .call 1 (.thr .start), .go 1, .go 1, .go 1, .go 1, .go 1, .go 1, .go 1, .go 1, .go 1, .go 1,
   .call 2 (.thr .tryWait), .go 2, .go 2, .call 3 (.thr .wait), .go 3,
   .call 2 (.thr .start), .go 2, .go 2, .go 2, .go 2,
   .task, .task, .task, .call 2 (.setPriority 99 7), .go 2, .go 2, .go 2, .go 2, .go 2, .go 2, .task, .task, .go 3, .task, .go 3, .go 3,
   .call 1 (.thr .isFinished), .go 1, .go 1, .go 1, .call 1 .getPriority, .go 1, .go 1, .go 1, .go 1,
   .call 1 (.thr .destroy), .go 1, .go 1, .go 1, .go 1]

theorem demo_runs : ∃ (s : ITh.St) (tr : List Ev), Exec ⟨1, 16, 8⟩ s tr ∧ run (ITh.step ⟨1, 16, 8⟩) demo (ITh.init ⟨1, 16, 8⟩) = some (s, tr) := by
  obtain ⟨s, tr, h⟩ : ∃ s tr, run (ITh.step ⟨1, 16, 8⟩) demo (ITh.init ⟨1, 16, 8⟩) = some (s, tr) := by
    cases h : run (ITh.step ⟨1, 16, 8⟩) demo (ITh.init ⟨1, 16, 8⟩) with
    | some x => exact ⟨x.1, x.2, rfl⟩
    | none => exact absurd h (by decide)
  exact ⟨s, tr, by simpa using run_reach demo Reach.init h, h⟩

example : ∃ (s : ITh.St) (tr : List Ev), Exec ⟨1, 16, 8⟩ s tr ∧
    (Ev.ret 1 (.thr .start) (.thr .started) ∈ tr ∧ Ev.ret 2 (.thr .start) (.thr .ignored) ∈ tr ∧ Ev.ret 2 (.thr .tryWait) (.thr .timedOut) ∈ tr ∧
     Ev.ret 3 (.thr .wait) (.thr .ok) ∈ tr ∧ Ev.ret 1 (.thr .isFinished) (.thr (.finished true)) ∈ tr ∧ Ev.runBegin 5 ∈ tr ∧
     Ev.ret 1 .getPriority (.prio 7) ∈ tr ∧ Ev.ret 1 (.thr .destroy) (.thr .destroyed) ∈ tr ∧ begun tr = 1 ∧ ended tr = 1 ∧ starts tr = fins tr) := by
  obtain ⟨s, tr, h, hp⟩ := Lts.runSat_ex (step := ITh.step ⟨1, 16, 8⟩) (init := ITh.init ⟨1, 16, 8⟩) (as := demo)
    (P := fun (_ : ITh.St) tr => decide (Ev.ret 1 (.thr .start) (.thr .started) ∈ tr ∧ Ev.ret 2 (.thr .start) (.thr .ignored) ∈ tr ∧ Ev.ret 2 (.thr .tryWait) (.thr .timedOut) ∈ tr ∧
     Ev.ret 3 (.thr .wait) (.thr .ok) ∈ tr ∧ Ev.ret 1 (.thr .isFinished) (.thr (.finished true)) ∈ tr ∧ Ev.runBegin 5 ∈ tr ∧
     Ev.ret 1 .getPriority (.prio 7) ∈ tr ∧ Ev.ret 1 (.thr .destroy) (.thr .destroyed) ∈ tr ∧ begun tr = 1 ∧ ended tr = 1 ∧ starts tr = fins tr)) (by decide)
  exact ⟨s, tr, h, by simpa using hp⟩

/-- `C75_base_priority`: a reachable state with the task running and the mutex free. -/
example : ∃ (s : ITh.St) (tr : List Ev), Exec ⟨1, 16, 8⟩ s tr ∧ s.w = .running ∧ s.holder = none ∧ s.base = 7 := by
  obtain ⟨s, tr, h, hp⟩ := Lts.runSat_ex (step := ITh.step ⟨1, 16, 8⟩) (init := ITh.init ⟨1, 16, 8⟩) (as := demo.take 38)
    (P := fun (s : ITh.St) _ => decide (s.w = .running ∧ s.holder = none ∧ s.base = 7)) (by decide)
  exact ⟨s, tr, h, by simpa using hp⟩

/-- `C78_wait_returns_partial`: the demo, then nothing; after its 23rd step client 3 is inside wait and no start becomes effective any more. -/
example : ∃ st act ev, InfExec (stut (ITh.step ⟨1, 16, 8⟩)) st act ev ∧ st 0 = ITh.init ⟨1, 16, 8⟩ ∧
    WeakFair (stut (ITh.step ⟨1, 16, 8⟩)) st act (some .task) ∧ (∀ u, WeakFair (stut (ITh.step ⟨1, 16, 8⟩)) st act (some (.go u))) := by
  obtain ⟨s, tr, h, hr⟩ := demo_runs
  obtain ⟨st, act, ev, g1, g2, _, g4, _⟩ := rests demo hr
  have hw : s.w = .dormant ∧ s.inside = [] := by
    have : Lts.runSat (ITh.step ⟨1, 16, 8⟩) (ITh.init ⟨1, 16, 8⟩) demo (fun (s : ITh.St) _ => decide (s.w = .dormant ∧ s.inside = [])) = true := by decide
    unfold Lts.runSat at this; rw [hr] at this; simpa using this
  refine ⟨st, act, ev, g1, g2, rests_fair g4 (by simp [ITh.step, hw]), fun u => rests_fair g4 ?_⟩
  have I := ITh.Inv.reach h
  have : s.pc u = .idle := by
    apply Classical.byContradiction; intro hn
    have := (I.ins u).2 hn; rw [hw.2] at this; simp at this
  simp [ITh.step, this]

end Verif.Props.ItronThread
