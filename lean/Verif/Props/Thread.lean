import Verif.Proof.Thread
/-
Properties C55–C57: a thread object of the StdCpp platform, for every schedule of any number of client threads.
The specification is `Verif/Spec/Thread.lean`.
-/
namespace Verif.Props.Thread
open Verif
open _root_.Verif.Mtx (Tid Err)
open _root_.Verif.EvF (Tmo)
open Thr Spec Lts Proto
set_option linter.unusedSimpArgs false

/-! #### Specification -/

/-- The executions: `destroy` does not overlap with other calls of the same thread object, and nothing is called after it. -/
abbrev Exec (s : Thr.St) (tr : List Ev) : Prop := Reach (Thr.step false) Thr.init s tr

/-- The number of effective start() calls. -/
def starts (tr : List Ev) : Nat := tr.countP (fun e => match e with | .lin _ .start .started => true | _ => false)
/-- The number of times Runnable::run was entered / left. -/
def begun (tr : List Ev) : Nat := tr.countP (fun e => match e with | .runBegin => true | _ => false)
def ended (tr : List Ev) : Nat := tr.countP (fun e => match e with | .runEnd => true | _ => false)
/-- The number of times the thread became finished after a run. -/
def fins (tr : List Ev) : Nat := tr.countP (fun e => match e with | .fin => true | _ => false)

/-! #### C55 -/

/-- Every trace is a history of the atomic thread object; each call takes effect once, between its call and its return. -/
theorem C55_linearizable {s : Thr.St} {tr : List Ev} (h : Exec s tr) : ∃ a, Linearizable tr a := by
  have I := Thr.Inv.reach h
  refine ⟨_, I.hist, fun t => ?_⟩
  have := I.loc t
  intro hb
  rw [hb] at this
  cases hp : s.pc t <;> rw [hp] at this <;> simp [Loc] at this

def nStarts (h : List Eff) : Nat := h.countP (fun e => match e with | .op .start .started => true | _ => false)
def nBegun (h : List Eff) : Nat := h.countP (fun e => match e with | .runBegin => true | _ => false)
def nEnded (h : List Eff) : Nat := h.countP (fun e => match e with | .runEnd => true | _ => false)
def nFins (h : List Eff) : Nat := h.countP (fun e => match e with | .fin => true | _ => false)

theorem n_eff (tr : List Ev) : nStarts (effects tr) = starts tr ∧ nBegun (effects tr) = begun tr ∧ nEnded (effects tr) = ended tr ∧ nFins (effects tr) = fins tr := by
  induction tr with
  | nil => exact ⟨rfl, rfl, rfl, rfl⟩
  | cons e tr ih =>
    obtain ⟨h1, h2, h3, h4⟩ := ih
    cases e with
    | lin t c o => cases c <;> cases o <;> simp_all [effects, nStarts, nBegun, nEnded, nFins, starts, begun, ended, fins, List.countP_cons]
    | _ => simp_all [effects, nStarts, nBegun, nEnded, nFins, starts, begun, ended, fins, List.countP_cons]

/-- How far the last run is, by abstract state. -/
def pend : A → Nat | .pending => 1 | _ => 0
def runn : A → Nat | .running => 1 | _ => 0
def ovr : A → Nat | .over => 1 | _ => 0

theorem hist_counts {h : List Eff} {a : A} (hh : Hist h a) :
    nStarts h = nBegun h + pend a ∧ nBegun h = nEnded h + runn a ∧ nEnded h = nFins h + ovr a := by
  induction hh with
  | nil => exact ⟨rfl, rfl, rfl⟩
  | snoc _ hl ih =>
    obtain ⟨h1, h2, h3⟩ := ih
    cases hl <;> simp_all [nStarts, nBegun, nEnded, nFins, List.countP_append, List.countP_cons, pend, runn, ovr] <;> omega

/-- Runs never overlap and never outnumber the effective starts: at every moment the effective starts are the runs begun plus at most
one that is about to begin, and the runs begun are the runs ended plus at most one in progress. -/
theorem C55_counts {s : Thr.St} {tr : List Ev} (h : Exec s tr) :
    begun tr ≤ starts tr ∧ starts tr ≤ begun tr + 1 ∧ ended tr ≤ begun tr ∧ begun tr ≤ ended tr + 1 ∧ fins tr ≤ ended tr ∧ starts tr ≤ fins tr + 1 := by
  obtain ⟨a, hl, _⟩ := C55_linearizable h
  obtain ⟨h1, h2, h3⟩ := hist_counts hl
  obtain ⟨e1, e2, e3, e4⟩ := n_eff tr
  cases a <;> simp [pend, runn, ovr] at h1 h2 h3 <;> omega

theorem hist_at {h1 h2 : List Eff} {x : Eff} {a : A} (h : Hist (h1 ++ x :: h2) a) : ∃ b b', Hist h1 b ∧ Legal b x b' ∧ Hist (h1 ++ [x]) b' := by
  have key : ∀ l a, Hist l a → ∀ h2, l = h1 ++ x :: h2 → ∃ b b', Hist h1 b ∧ Legal b x b' ∧ Hist (h1 ++ [x]) b' := by
    intro l a hl
    induction hl with
    | nil => intro h2 e; simp at e
    | @snoc h b y b' hh hleg ih =>
      intro h2 e
      rcases List.eq_nil_or_concat h2 with rfl | ⟨h2', z, rfl⟩
      · have := List.append_inj' e rfl
        obtain ⟨e1, e2⟩ := this; simp at e2; subst e1 e2
        exact ⟨b, b', hh, hleg, Hist.snoc hh hleg⟩
      · rw [List.concat_eq_append, show h1 ++ x :: (h2' ++ [z]) = (h1 ++ x :: h2') ++ [z] by simp] at e
        exact ih h2' (List.append_inj' e rfl).1
  exact key _ _ h h2 rfl

theorem eff_at {s : Thr.St} {tr : List Ev} (h : Exec s tr) {a b : List Ev} {t c o} (e : tr = a ++ Ev.lin t c o :: b) :
    ∃ q q', Hist (effects a) q ∧ Legal q (.op c o) q' := by
  obtain ⟨x, hl, _⟩ := C55_linearizable h
  rw [e] at hl
  have : effects (a ++ Ev.lin t c o :: b) = effects a ++ .op c o :: effects b := by simp [effects]
  rw [this] at hl
  obtain ⟨q, q', h1, h2, _⟩ := hist_at hl
  exact ⟨q, q', h1, h2⟩

/-- start() is effective exactly when the thread is finished, i.e. every earlier effective start has been run to its end;
otherwise it is ignored. -/
theorem C55_start {s : Thr.St} {tr : List Ev} (h : Exec s tr) {a b : List Ev} {t o} (e : tr = a ++ Ev.lin t .start o :: b) :
    (o = .started ∧ starts a = fins a ∧ begun a = fins a) ∨ (o = .ignored ∧ starts a = fins a + 1) := by
  obtain ⟨q, q', h1, h2⟩ := eff_at h e
  obtain ⟨c1, c2, c3⟩ := hist_counts h1
  obtain ⟨e1, e2, e3, e4⟩ := n_eff a
  cases h2 with
  | started => left; simp [pend, runn, ovr] at c1 c2 c3; refine ⟨rfl, ?_, ?_⟩ <;> omega
  | ignored hf hd => right; refine ⟨rfl, ?_⟩; cases q <;> simp [pend, runn, ovr] at c1 c2 c3 hf hd <;> omega
  | ok ht => simp [tmo] at ht
  | timedOut ht => simp [tmo] at ht

/-! #### C56 -/

/-- A wait that returned OK: between its call and its return there was a moment when every effective start had been run to its end. -/
theorem C56_ok {s : Thr.St} {tr : List Ev} (h : Exec s tr) {a b : List Ev} {t c} (e : tr = a ++ Ev.ret t c .ok :: b) :
    ∃ a1 a2 a3, a = a1 ++ Ev.call t c :: a2 ++ a3 ∧ (∀ x, x ∈ a2 ++ a3 → ¬ boundary view t x) ∧
      (tmo c).isSome ∧ starts (a1 ++ Ev.call t c :: a2) = fins (a1 ++ Ev.call t c :: a2) := by
  obtain ⟨x, hl, hb⟩ := C55_linearizable h
  obtain ⟨a1, ec, a2, el, a3, e1, e2, e3, e4⟩ := ret_split (hb t) e rfl
  have hec : ec = .call t c := by cases ec <;> simp [view] at e2 ⊢; exact e2
  have hel : el = .lin t c .ok := by cases el <;> simp [view] at e3 ⊢; exact e3
  subst hec hel
  have e' : tr = (a1 ++ Ev.call t c :: a2) ++ Ev.lin t c .ok :: (a3 ++ Ev.ret t c .ok :: b) := by rw [e, e1]; simp
  obtain ⟨q, q', h1, h2⟩ := eff_at h e'
  refine ⟨a1, a2, Ev.lin t c .ok :: a3, by simp [e1], ?_, ?_, ?_⟩
  · intro x hx
    simp only [List.mem_append, List.mem_cons] at hx e4
    rcases hx with hx | rfl | hx
    · exact e4 x (Or.inl hx)
    · simp [boundary, view]
    · exact e4 x (Or.inr hx)
  · cases h2; next ht => simp [ht]
  · obtain ⟨c1, c2, c3⟩ := hist_counts h1
    obtain ⟨n1, n2, n3, n4⟩ := n_eff (a1 ++ Ev.call t c :: a2)
    cases h2; simp [pend, runn, ovr] at c1 c2 c3; omega

/-- A wait that returned TimedOut: its timeout is not FOREVER, and between its call and its return there was a moment when an
effective start had not been run to its end. -/
theorem C56_timedOut {s : Thr.St} {tr : List Ev} (h : Exec s tr) {a b : List Ev} {t c} (e : tr = a ++ Ev.ret t c .timedOut :: b) :
    ∃ a1 a2 a3 tm, a = a1 ++ Ev.call t c :: a2 ++ a3 ∧ (∀ x, x ∈ a2 ++ a3 → ¬ boundary view t x) ∧
      tmo c = some tm ∧ tm ≠ .forever ∧ starts (a1 ++ Ev.call t c :: a2) = fins (a1 ++ Ev.call t c :: a2) + 1 := by
  obtain ⟨x, hl, hb⟩ := C55_linearizable h
  obtain ⟨a1, ec, a2, el, a3, e1, e2, e3, e4⟩ := ret_split (hb t) e rfl
  have hec : ec = .call t c := by cases ec <;> simp [view] at e2 ⊢; exact e2
  have hel : el = .lin t c .timedOut := by cases el <;> simp [view] at e3 ⊢; exact e3
  subst hec hel
  have e' : tr = (a1 ++ Ev.call t c :: a2) ++ Ev.lin t c .timedOut :: (a3 ++ Ev.ret t c .timedOut :: b) := by rw [e, e1]; simp
  obtain ⟨q, q', h1, h2⟩ := eff_at h e'
  obtain ⟨c1, c2, c3⟩ := hist_counts h1
  obtain ⟨n1, n2, n3, n4⟩ := n_eff (a1 ++ Ev.call t c :: a2)
  cases h2 with
  | timedOut ht hf hn hd =>
    refine ⟨a1, a2, Ev.lin t c .timedOut :: a3, _, by simp [e1], ?_, ht, hf, ?_⟩
    · intro x hx
      simp only [List.mem_append, List.mem_cons] at hx e4
      rcases hx with hx | rfl | hx
      · exact e4 x (Or.inl hx)
      · simp [boundary, view]
      · exact e4 x (Or.inr hx)
    · cases q <;> simp [pend, runn, ovr] at c1 c2 c3 hn hd <;> omega

/-- isFinished tells whether every effective start has been run to its end. -/
theorem C56_isFinished {s : Thr.St} {tr : List Ev} (h : Exec s tr) {a b : List Ev} {t r} (e : tr = a ++ Ev.lin t .isFinished (.finished r) :: b) :
    r = true ↔ starts a = fins a := by
  obtain ⟨q, q', h1, h2⟩ := eff_at h e
  obtain ⟨c1, c2, c3⟩ := hist_counts h1
  obtain ⟨n1, n2, n3, n4⟩ := n_eff a
  cases h2
  next hd => cases q <;> simp [pend, runn, ovr] at c1 c2 c3 hd ⊢ <;> omega

/-- Nobody can take a step: neither the clients nor the worker, no timeout can expire. -/
def Stuck (s : Thr.St) : Prop := Thr.step false s .wgo = none ∧ ∀ t, Thr.step false s (.go t) = none ∧ Thr.step false s (.expire t) = none

/-- No lost wake-up: when nothing moves any more, every call has returned and every effective start has been run to its end. -/
theorem C56_stuck {s : Thr.St} {tr : List Ev} (h : Exec s tr) (hst : Stuck s) : (∀ t, s.pc t = .idle) ∧ starts tr = fins tr := by
  have I := Thr.Inv.reach h
  obtain ⟨hw, hgo⟩ := hst
  -- the mutex is free
  have hm : s.holder = none := by
    apply Classical.byContradiction
    intro hm
    obtain ⟨w, hw'⟩ := Option.ne_none_iff_exists'.1 hm
    cases w with
    | worker =>
      have := I.hw.1 hw'
      cases hp : s.w <;> rw [hp] at this <;> simp [wHolds] at this <;> simp [Thr.step, hp] at hw <;> split at hw <;> simp at hw
    | client u =>
      have := (I.hc u).1 hw'
      have hg := (hgo u).1
      cases hp : s.pc u <;> rw [hp] at this <;> simp [cHolds] at this <;> simp [Thr.step, hp] at hg <;> grind
  have hnn : ∀ u, notif (s.pc u) = false := by
    intro u
    cases hn : notif (s.pc u)
    · rfl
    · have := (I.hc u).2 (by cases hp : s.pc u <;> rw [hp] at hn <;> simp_all [notif, cHolds])
      rw [hm] at this; simp at this
  have hww : (s.w = .sleep ∧ s.active = false) ∨ s.w = .dead := by
    cases hp : s.w <;> simp [Thr.step, hp, hm] at hw <;> simp
    case sleep =>
      cases ha : s.active
      · rfl
      · obtain ⟨u, hu⟩ := I.awake hp ha
        rw [hnn u] at hu; simp at hu
    all_goals (split at hw <;> simp at hw)
  have hidle : ∀ t, s.pc t = .idle := by
    intro t
    have hg := (hgo t).1
    have hl := I.loc t
    cases hp : s.pc t <;> rw [hp] at hl <;> simp [Thr.step, hp, hm] at hg <;> try rfl
    case sTest | tTest => exfalso; grind
    case tSleep c tm =>
      simp only [Loc] at hl
      rcases hww with ⟨h1, h2⟩ | h1
      · simp [h1, h2] at hl
      · have he := I.isend (Or.inr h1)
        obtain ⟨d, hd, h2⟩ := I.fresh he
        have hdt : d = t := by
          apply Classical.byContradiction; intro hn
          have := I.alone d hd t (fun e => hn e.symm); rw [hp] at this; simp at this
        subst hdt
        rw [hp] at h2
        simp [dEnd] at h2
        obtain ⟨_, _, d', h3, h4⟩ := I.gone h2
        rw [hd] at h3; simp at h3; subst h3; rw [hp] at h4; simp at h4
    case dJoin =>
      simp only [Loc] at hl
      rcases hww with ⟨h1, h2⟩ | h1
      · simp [h2] at hl
      · exact absurd h1 hg
  refine ⟨hidle, ?_⟩
  have hh := I.hist
  obtain ⟨c1, c2, c3⟩ := hist_counts hh
  obtain ⟨n1, n2, n3, n4⟩ := n_eff tr
  have : abs s = .finished ∨ abs s = .dead := by
    unfold abs
    rcases hww with ⟨h1, h2⟩ | h1
    · cases s.gone <;> simp [h1, h2]
    · have he := I.isend (Or.inr h1)
      cases s.gone <;> simp [h1, he]
  rcases this with h1 | h1 <;> rw [h1] at c1 c2 c3 <;> simp [pend, runn, ovr] at c1 c2 c3 <;> omega

/-! Termination: a bound on the number of steps that can follow. -/

def isCall : Act → Bool
  | .call .. => true
  | _ => false
def isSpur : Act → Bool
  | .spur _ | .wspur => true
  | _ => false

/-- Clients that may yet set m_isActive. -/
def pot : PC → Nat
  | .sLock | .sTest | .sSet | .dLock | .dReq | .dAct => 1
  | .tLock c _ | .tTest c _ _ | .tSleep c _ | .tWoken c _ _ | .tUnl c _ => if c = .destroy then 1 else 0
  | _ => 0
def crank : PC → Nat
  | .idle => 0 | .ret .. => 1
  | .sUnl _ => 2 | .sNotify => 18 | .sSet => 19 | .sTest => 20 | .sLock => 21
  | .fUnl _ => 2 | .fRead => 3 | .fLock => 4
  | .dJoin => 2 | .dUnl => 3 | .dNotify => 19 | .dAct => 20 | .dReq => 21 | .dLock => 22
  | .tUnl .. => 23 | .tTest _ _ true => 24 | .tWoken _ _ true => 25 | .tSleep .. => 26 | .tTest _ _ false => 27 | .tWoken _ _ false => 28
  | .tLock .. => 29
def wrank (n : Nat) : WPC → Nat
  | .dead => 0 | .unlEnd => 1 | .sleep => 0
  | .clear => 5 | .lock2 => 6 | .running => 7 | .run => 8 | .unl1 => 9 | .check => 10
  | .test => 13 | .lock1 | .woken => 14 | .unl2 => 15 | .notify => 16 + 2 * n
def cw (n : Nat) (p : PC) : Nat := (20 + 2 * n) * pot p + crank p
def measure (ts : List Tid) (s : Thr.St) : Nat :=
  (ts.map (fun t => cw ts.length (s.pc t))).sum + (20 + 2 * ts.length) * s.active.toNat + wrank ts.length s.w

theorem sum_upd {f : PC → Nat} {pc : Tid → PC} {t : Tid} {p : PC} : ∀ {ts : List Tid}, ts.Nodup → t ∈ ts →
    (ts.map (fun u => f (upd pc t p u))).sum + f (pc t) = (ts.map (fun u => f (pc u))).sum + f p
  | a :: ts, hn, hm => by
    obtain ⟨h1, h2⟩ := List.nodup_cons.1 hn
    simp only [List.map_cons, List.sum_cons]
    rcases List.mem_cons.1 hm with rfl | hm
    · have : ts.map (fun u => f (upd pc t p u)) = ts.map (fun u => f (pc u)) := by
        apply List.map_congr_left; intro u hu; rw [upd_ne]; rintro rfl; exact h1 hu
      rw [this, upd_same]; omega
    · have := sum_upd (f := f) (pc := pc) (p := p) h2 hm
      rw [upd_ne pc p (show a ≠ t by rintro rfl; exact h1 hm)]; omega

theorem sum_wake (n : Nat) (pc : Tid → PC) : ∀ ts : List Tid,
    (ts.map (fun u => cw n (wakeAll pc u))).sum ≤ (ts.map (fun u => cw n (pc u))).sum + 2 * ts.length
  | [] => by simp
  | a :: ts => by
    simp only [List.map_cons, List.sum_cons, List.length_cons]
    have := sum_wake n pc ts
    have : cw n (wakeAll pc a) ≤ cw n (pc a) + 2 := by
      unfold wakeAll; cases h : pc a <;> simp [cw, pot, crank]
    omega

theorem measure_client {s s' : Thr.St} {ts : List Tid} (hnd : ts.Nodup) (hts : ∀ t, s.pc t ≠ .idle → t ∈ ts) {t : Tid} {p' : PC}
    (ht : s.pc t ≠ .idle) (hpc : s'.pc = upd s.pc t p') (k : Nat)
    (h : cw ts.length p' + (20 + 2 * ts.length) * s'.active.toNat + wrank ts.length s'.w + 1 ≤
      cw ts.length (s.pc t) + (20 + 2 * ts.length) * s.active.toNat + wrank ts.length s.w + k) :
    measure ts s' + 1 ≤ measure ts s + k := by
  have e : (ts.map (fun u => cw ts.length (s'.pc u))).sum + cw ts.length (s.pc t) = (ts.map (fun u => cw ts.length (s.pc u))).sum + cw ts.length p' := by
    rw [hpc]; exact sum_upd hnd (hts t ht)
  unfold measure
  omega

theorem wake_le (n : Nat) (w : WPC) : wrank n (wakeWorker w) ≤ wrank n w + 14 := by cases w <;> simp [wakeWorker, wrank]

theorem measure_step {s s' : Thr.St} {tr ev : List Ev} {a : Act} (I : Thr.Inv s tr) {ts : List Tid} (hnd : ts.Nodup)
    (hts : ∀ t, s.pc t ≠ .idle → t ∈ ts) (hc : isCall a = false) (hs : Thr.step false s a = some (s', ev)) :
    measure ts s' + 1 ≤ measure ts s + (if isSpur a then 15 else 0) := by
  have act := I.act; have off := I.off
  cases a with
  | call t c => simp [isCall] at hc
  | go t =>
    have ht := I.loc t
    have hw := wake_le ts.length s.w
    simp only [isSpur, Bool.false_eq_true, if_false]
    cases hpc : s.pc t <;> simp only [Thr.step, hpc] at hs <;> rw [hpc] at ht <;> simp only [Loc] at ht
    case idle | tSleep => simp at hs
    case sLock | fLock | dLock | dJoin | tLock c tm =>
      all_goals
        simp at hs; obtain ⟨_, rfl, _⟩ := hs
        refine measure_client hnd hts (t := t) (by simp [hpc]) rfl 0 ?_
        simp [St.at, hpc, cw, pot, crank]
        try omega
    case tWoken c tm last =>
      simp at hs; obtain ⟨_, rfl, _⟩ := hs
      refine measure_client hnd hts (t := t) (by simp [hpc]) rfl 0 ?_
      cases last <;> simp [St.at, hpc, cw, pot, crank] <;> omega
    case tTest c tm last =>
      by_cases ha : s.active = false
      · simp [ha] at hs; obtain ⟨rfl, _⟩ := hs
        refine measure_client hnd hts (t := t) (by simp [hpc]) rfl 0 ?_
        cases last <;> simp [St.at, hpc, cw, pot, crank, ha] <;> omega
      · cases last <;> simp [ha] at hs <;> obtain ⟨rfl, _⟩ := hs <;> refine measure_client hnd hts (t := t) (by simp [hpc]) rfl 0 ?_ <;>
          simp [St.at, hpc, cw, pot, crank, ha] <;> omega
    case sTest =>
      by_cases ha : s.active = true <;> simp [ha] at hs <;> obtain ⟨rfl, _⟩ := hs <;> refine measure_client hnd hts (t := t) (by simp [hpc]) rfl 0 ?_ <;>
          simp [St.at, hpc, cw, pot, crank, ha] <;> omega
    case tUnl c o =>
      simp at hs; obtain ⟨rfl, _⟩ := hs
      refine measure_client hnd hts (t := t) (by simp [hpc]) rfl 0 ?_
      by_cases hcd : c = .destroy <;> simp [St.at, hpc, cw, pot, crank, hcd] <;> omega
    case sSet | dAct =>
      all_goals
        simp at hs; obtain ⟨rfl, _⟩ := hs
        refine measure_client hnd hts (t := t) (by simp [hpc]) rfl 0 ?_
        simp [St.at, hpc, cw, pot, crank, ht]
        omega
    case sNotify | dNotify | sUnl o | fRead | fUnl o | dReq | dUnl | ret c o =>
      all_goals
        simp at hs; obtain ⟨rfl, _⟩ := hs
        refine measure_client hnd hts (t := t) (by simp [hpc]) rfl 0 ?_
        simp [St.at, hpc, cw, pot, crank]
        omega
  | expire t =>
    simp only [isSpur, Bool.false_eq_true, if_false]
    cases hpc : s.pc t <;> simp [Thr.step, hpc] at hs
    obtain ⟨_, rfl, _⟩ := hs
    refine measure_client hnd hts (t := t) (by simp [hpc]) rfl 0 ?_
    simp [St.at, hpc, cw, pot, crank]
    omega
  | spur t =>
    simp only [isSpur, if_true]
    cases hpc : s.pc t <;> simp [Thr.step, hpc] at hs
    obtain ⟨rfl, _⟩ := hs
    refine measure_client hnd hts (t := t) (by simp [hpc]) rfl 15 ?_
    simp [St.at, hpc, cw, pot, crank]
    omega
  | wspur =>
    simp only [isSpur, if_true]
    cases hw : s.w <;> simp [Thr.step, hw] at hs
    obtain ⟨rfl, _⟩ := hs
    simp [measure, hw, wrank]
  | wgo =>
    simp only [isSpur, Bool.false_eq_true, if_false]
    cases hw : s.w <;> simp only [Thr.step, hw] at hs
    case sleep | dead => simp at hs
    case lock1 | woken | lock2 =>
      all_goals simp at hs; obtain ⟨_, rfl, _⟩ := hs; simp [measure, hw, wrank]
    case test => by_cases ha : s.active = true <;> simp [ha] at hs <;> obtain ⟨rfl, _⟩ := hs <;> simp [measure, hw, wrank, ha] <;> omega
    case check => by_cases ha : s.endReq = true <;> simp [ha] at hs <;> obtain ⟨rfl, _⟩ := hs <;> simp [measure, hw, wrank] <;> omega
    case clear =>
      simp at hs; obtain ⟨rfl, _⟩ := hs
      have := act (by simp [hw])
      simp [measure, hw, wrank, this]; omega
    case notify =>
      simp at hs; obtain ⟨rfl, _⟩ := hs
      have := sum_wake ts.length s.pc ts
      simp only [measure, hw, wrank]; omega
    case run | running | unl1 | unl2 | unlEnd =>
      all_goals simp at hs; obtain ⟨rfl, _⟩ := hs; simp [measure, hw, wrank]

/-- Without new calls, executions end: their length is bounded by a number that depends on the current state and on how many
spurious wake-ups happen.  (The end is described by `C56_stuck`: all calls have returned.) -/
theorem C56_terminates {s : Thr.St} {tr : List Ev} (h : Exec s tr) : ∃ N, ∀ as s' ev, (∀ a, a ∈ as → isCall a = false) →
    run (Thr.step false) as s = some (s', ev) → as.length ≤ N + 15 * (as.filter isSpur).length := by
  have I0 := Thr.Inv.reach h
  refine ⟨measure s.inside s, ?_⟩
  have key : ∀ (as : List Act) (s0 : Thr.St) tr, Exec s0 tr → (∀ t, s0.pc t ≠ .idle → t ∈ s.inside) → ∀ s' ev, (∀ a, a ∈ as → isCall a = false) →
      run (Thr.step false) as s0 = some (s', ev) → as.length ≤ measure s.inside s0 + 15 * (as.filter isSpur).length := by
    intro as
    induction as with
    | nil => intros; simp
    | cons a as ih =>
      intro s0 tr hr hts s' ev hc hrun
      simp only [run] at hrun
      split at hrun
      · simp at hrun
      · next s1 ev1 h1 =>
        split at hrun
        · simp at hrun
        · next s2 ev2 h2 =>
          have I := Thr.Inv.reach hr
          have hm := measure_step I I0.nodup hts (hc a (by simp)) h1
          have hts' : ∀ t, s1.pc t ≠ .idle → t ∈ s.inside := by
            intro t ht
            apply hts
            intro hid
            apply ht
            have hca := hc a (by simp)
            cases a with
            | call u c => simp [isCall] at hca
            | go u =>
              by_cases e : u = t
              · subst e; simp [Thr.step, hid] at h1
              · simp only [Thr.step] at h1
                split at h1 <;> (try split at h1) <;> (try split at h1) <;> simp at h1 <;> (obtain ⟨rfl, _⟩ := h1; simp [St.at, upd_ne _ _ (show t ≠ u from fun x => e x.symm), hid])
            | expire u | spur u =>
              all_goals
                by_cases e : u = t
                · subst e; simp [Thr.step, hid] at h1
                · simp only [Thr.step] at h1
                  split at h1 <;> (try split at h1) <;> simp at h1 <;> (obtain ⟨rfl, _⟩ := h1; simp [St.at, upd_ne _ _ (show t ≠ u from fun x => e x.symm), hid])
            | wgo =>
              simp only [Thr.step] at h1
              split at h1 <;> (try split at h1) <;> simp at h1 <;> (obtain ⟨rfl, _⟩ := h1; simp [wakeAll, hid])
            | wspur =>
              simp only [Thr.step] at h1
              split at h1 <;> simp at h1 <;> (obtain ⟨rfl, _⟩ := h1; simp [hid])
          have := ih s1 _ (Reach.step hr h1) hts' s2 ev2 (fun a ha => hc a (by simp [ha])) h2
          simp only [List.length_cons, List.filter_cons]
          split at hm <;> simp_all <;> omega
  intro as s' ev hc hr
  exact key as s tr h (fun t ht => (I0.ins t).2 ht) s' ev hc hr

/-! #### C57 -/

theorem destroyed_last {s : Thr.St} {tr : List Ev} (h : Exec s tr) {t : Tid} {o : Thr.Out} (hm : Ev.ret t .destroy o ∈ tr) :
    o = .destroyed ∧ s.gone = true ∧ (∀ u, s.pc u = .idle) ∧ ∃ a, tr = a ++ [Ev.ret t .destroy o] ∧ Ev.ret t .destroy o ∉ a := by
  induction h with
  | init => simp at hm
  | @step s tr act s' ev hr hs ih =>
    have I := Thr.Inv.reach hr
    by_cases hin : Ev.ret t .destroy o ∈ tr
    · obtain ⟨_, hg, hid, _⟩ := ih hin
      have hw := (I.gone hg).1
      cases act <;> simp [Thr.step, hid, hg, hw] at hs
    · have hev : Ev.ret t .destroy o ∈ ev := by simpa [hin] using hm
      cases act with
      | go u =>
        have hl := I.loc u
        cases hp : s.pc u <;> simp only [Thr.step, hp] at hs
        case ret c o' =>
          simp at hs; obtain ⟨rfl, rfl⟩ := hs
          simp at hev; obtain ⟨rfl, rfl, rfl⟩ := hev
          rw [hp] at hl
          have hl := hl.2
          have hd := I.dy t (by rw [hp]; rfl)
          refine ⟨(hl rfl).2, (hl rfl).1, ?_, tr, rfl, hin⟩
          intro u
          by_cases e : u = t
          · subst e; simp [St.at, upd_same]
          · simp [St.at, upd_ne _ _ e]; exact I.alone t hd u e
        all_goals exfalso
        all_goals (try split at hs) <;> (try split at hs) <;> simp at hs <;> (obtain ⟨_, rfl⟩ := hs) <;> (try split at hev) <;> simp at hev
      | call u c => simp only [Thr.step] at hs; split at hs <;> simp at hs; obtain ⟨_, rfl⟩ := hs; simp at hev
      | expire u | spur u =>
        all_goals (simp only [Thr.step] at hs; (split at hs <;> try split at hs) <;> simp at hs <;> (obtain ⟨_, rfl⟩ := hs; simp at hev))
      | wgo => simp only [Thr.step] at hs; (split at hs <;> try split at hs) <;> simp at hs <;> (obtain ⟨_, rfl⟩ := hs; simp at hev)
      | wspur => simp only [Thr.step] at hs; split at hs <;> simp at hs <;> (obtain ⟨_, rfl⟩ := hs; simp at hev)

/-- When destroy has returned, the native thread has ended, every effective start has been run to its end, and nothing happens after
that: no run, no effect of a call; no thread is inside a call. -/
theorem C57_destroyed {s : Thr.St} {tr : List Ev} (h : Exec s tr) {a b : List Ev} {t} (e : tr = a ++ Ev.ret t .destroy .destroyed :: b) :
    s.w = .dead ∧ starts a = ended a ∧ begun a = ended a ∧ b = [] ∧ (∀ u, s.pc u = .idle) := by
  have I := Thr.Inv.reach h
  obtain ⟨-, hg, hid, a', e1, e2⟩ := destroyed_last h (t := t) (o := .destroyed) (by rw [e]; simp)
  obtain ⟨c1, c2, c3⟩ := hist_counts I.hist
  obtain ⟨n1, n2, n3, n4⟩ := n_eff tr
  have hb : b = [] := by
    rcases List.eq_nil_or_concat b with rfl | ⟨b', z, rfl⟩
    · rfl
    · exfalso
      rw [List.concat_eq_append] at e
      have h1 : a' ++ [Ev.ret t .destroy .destroyed] = (a ++ Ev.ret t .destroy .destroyed :: b') ++ [z] := by rw [← e1, e]; simp
      have := (List.append_inj' h1 rfl).1
      apply e2; rw [this]; simp
  subst hb
  have ha : abs s = .dead := by simp [abs, hg]
  rw [ha] at c1 c2 c3
  simp [pend, runn, ovr] at c1 c2 c3
  have k1 : starts tr = starts a := by rw [e]; simp [starts, List.countP_append, List.countP_cons]
  have k2 : begun tr = begun a := by rw [e]; simp [begun, List.countP_append, List.countP_cons]
  have k3 : ended tr = ended a := by rw [e]; simp [ended, List.countP_append, List.countP_cons]
  exact ⟨(I.gone hg).1, by omega, by omega, rfl, hid⟩

/-- Without the discipline (`conc = true`), a start() that comes between the wait inside destroy and its request to end can be
effective and yet never be run; destroy returns. -/
def lostRun : List Act :=
  [.wgo, .wgo,                                                   -- the worker goes to sleep
   .call 1 .destroy, .go 1, .go 1, .go 1,                        -- destroy: its wait() is over
   .call 2 .start, .go 2, .go 2, .go 2, .go 2, .go 2, .go 2,     -- start() is effective and returns
   .go 1, .go 1, .go 1, .go 1, .go 1,                            -- destroy: request to end
   .wgo, .wgo, .wgo, .wgo,                                       -- the worker wakes up and ends
   .go 1, .go 1]
theorem C57_overlap_lost_run : ∃ (s : Thr.St) (tr : List Ev), Reach (Thr.step true) Thr.init s tr ∧
    (Ev.ret 2 .start .started ∈ tr ∧ Ev.ret 1 .destroy .destroyed ∈ tr ∧ begun tr = 0) := by
  obtain ⟨s, tr, h, hp⟩ := Lts.runSat_ex (step := Thr.step true) (init := Thr.init) (as := lostRun)
    (P := fun (_ : Thr.St) tr => decide (Ev.ret 2 .start .started ∈ tr ∧ Ev.ret 1 .destroy .destroyed ∈ tr ∧ begun tr = 0)) (by decide)
  exact ⟨s, tr, h, by simpa using hp⟩

/-- ... or destroy can block forever: the worker is asleep and nobody will wake it. -/
def hang : List Act :=
  [.wgo, .wgo, .call 1 .destroy, .go 1, .go 1, .go 1,
   .call 2 .start, .go 2, .go 2, .go 2, .go 2, .go 2, .go 2,
   .wgo, .wgo, .wgo, .wgo,                                       -- the worker takes the start
   .go 1, .go 1, .go 1, .go 1, .go 1,                            -- destroy: request to end, then join
   .wgo, .wgo, .wgo, .wgo, .wgo, .wgo, .wgo, .wgo]               -- run, m_isActive = false, asleep
theorem C57_overlap_hang : ∃ (s : Thr.St) (tr : List Ev), Reach (Thr.step true) Thr.init s tr ∧
    (s.pc 1 = .dJoin ∧ s.w = .sleep ∧ s.holder = none ∧ ∀ t, t ≠ 1 → s.pc t = .idle) := by
  obtain ⟨s, tr, h, hp⟩ := Lts.runSat_ex (step := Thr.step true) (init := Thr.init) (as := hang)
    (P := fun (s : Thr.St) _ => decide (s.pc 1 = .dJoin ∧ s.w = .sleep ∧ s.holder = none ∧ s.inside = [1])) (by decide)
  have hp : s.pc 1 = .dJoin ∧ s.w = .sleep ∧ s.holder = none ∧ s.inside = [1] := by simpa using hp
  refine ⟨s, tr, h, hp.1, hp.2.1, hp.2.2.1, ?_⟩
  -- whoever is not inside is outside
  have : ∀ t, s.pc t ≠ .idle → t ∈ s.inside := by
    refine Reach.inv (I := fun s _ => ∀ t, s.pc t ≠ .idle → t ∈ s.inside) (by simp [Thr.init]) ?_ h
    intro s tr a s' ev ih hs t ht
    cases a with
    | call u c =>
      simp only [Thr.step] at hs; split at hs <;> simp at hs; obtain ⟨rfl, _⟩ := hs
      by_cases e : t = u
      · simp [e]
      · simp [St.at, upd_ne _ _ e] at ht; simp [ih t ht]
    | go u =>
      by_cases e : t = u
      · subst e
        cases hq : s.pc t <;> simp only [Thr.step, hq] at hs
        case ret => simp at hs; obtain ⟨rfl, _⟩ := hs; simp [St.at, upd_same] at ht
        case idle => simp at hs
        all_goals have hin := ih t (by simp [hq])
        all_goals (try split at hs) <;> (try split at hs) <;> simp at hs <;> (obtain ⟨rfl, _⟩ := hs) <;> exact hin
      · cases hq : s.pc u <;> simp only [Thr.step, hq] at hs
        all_goals (try split at hs) <;> (try split at hs) <;> simp at hs <;> (obtain ⟨rfl, _⟩ := hs) <;> simp [St.at, upd_ne _ _ e] at ht <;>
          have hin := ih t ht <;> first | exact hin | exact (List.mem_erase_of_ne e).2 hin
    | expire u | spur u =>
      all_goals
        simp only [Thr.step] at hs
        cases hq : s.pc u <;> simp only [hq] at hs <;> (try split at hs) <;> simp at hs
        obtain ⟨rfl, _⟩ := hs
        by_cases e : t = u
        · subst e; exact ih t (by simp [hq])
        · simp only [St.at] at ht; rw [upd_ne _ _ e] at ht; exact ih t ht
    | wgo =>
      simp only [Thr.step] at hs
      (split at hs <;> try split at hs) <;> simp at hs <;> (obtain ⟨rfl, _⟩ := hs) <;>
        exact ih t (by intro hn; apply ht; simp [wakeAll, hn])
    | wspur => simp only [Thr.step] at hs; split at hs <;> simp at hs <;> (obtain ⟨rfl, _⟩ := hs; exact ih t ht)
  intro t ht
  apply Classical.byContradiction
  intro hn
  have := this t hn
  rw [hp.2.2.2] at this
  simp at this; exact ht this

/-! #### The hypotheses are met -/

/-- start, a polling wait that times out, the run, a wait that sleeps and is woken, destroy. -/
def demo : List Act :=
  [.wgo, .wgo, .call 1 .start, .go 1, .go 1, .go 1, .go 1, .go 1, .go 1,
   .call 2 .tryWait, .go 2, .go 2, .expire 2, .go 2, .go 2, .go 2, .go 2,
   .call 3 .wait, .go 3, .go 3,
   .call 2 .start, .go 2, .go 2, .go 2, .go 2,
   .wgo, .wgo, .wgo, .wgo, .wgo, .wgo, .wgo, .wgo, .wgo, .wgo, .go 3, .go 3, .go 3, .go 3, .wgo, .wgo,
   .call 1 .destroy, .go 1, .go 1, .go 1, .go 1, .go 1, .go 1, .go 1, .go 1, .wgo, .wgo, .wgo, .wgo, .go 1, .go 1]
example : ∃ (s : Thr.St) (tr : List Ev), Exec s tr ∧
    (Ev.ret 1 .start .started ∈ tr ∧ Ev.ret 2 .start .ignored ∈ tr ∧ Ev.ret 2 .tryWait .timedOut ∈ tr ∧ Ev.ret 3 .wait .ok ∈ tr ∧
     Ev.ret 1 .destroy .destroyed ∈ tr ∧ begun tr = 1 ∧ ended tr = 1) := by
  obtain ⟨s, tr, h, hp⟩ := Lts.runSat_ex (step := Thr.step false) (init := Thr.init) (as := demo)
    (P := fun (_ : Thr.St) tr => decide (Ev.ret 1 .start .started ∈ tr ∧ Ev.ret 2 .start .ignored ∈ tr ∧ Ev.ret 2 .tryWait .timedOut ∈ tr ∧
      Ev.ret 3 .wait .ok ∈ tr ∧ Ev.ret 1 .destroy .destroyed ∈ tr ∧ begun tr = 1 ∧ ended tr = 1)) (by decide)
  exact ⟨s, tr, h, by simpa using hp⟩

end Verif.Props.Thread
