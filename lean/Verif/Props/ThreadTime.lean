import Verif.Model.ThreadTime
import Verif.Proof.Thread
/-
Property C105: the timed waits for a thread (StdCpp) keep their timeouts.
-/
namespace Verif.Props.ThreadTime
open Verif
open _root_.Verif.Mtx (Tid Err)
open _root_.Verif.EvF (Tmo)
open _root_.Verif.Timed (untimed TReach armed)
open Thr Thr.Spec Thr.Time
set_option linter.unusedSimpArgs false
variable {s : Thr.St} {now : Nat} {d : Nat → Nat} {tr : List (Nat × Thr.Ev)}

/-! The specification -/

/-- How long a call may take: `some 0` for those that do not wait, `none` for those that wait without timeout. -/
def limit : Thr.Call → Option Nat
  | .wait | .destroy => none
  | .timedWait (.ms n) => some n
  | .timedWait .forever => none
  | .start | .tryWait | .isFinished => some 0

/-! The proof -/

/-- The time of the last call of `t`. -/
def last (t : Tid) (tr : List (Nat × Thr.Ev)) : Nat := tr.foldl (fun l x => match x.2 with | .call u _ => if u = t then x.1 else l | _ => l) 0

theorem last_app (t : Tid) (a b : List (Nat × Thr.Ev)) : last t (a ++ b) = b.foldl (fun l x => match x.2 with | .call u _ => if u = t then x.1 else l | _ => l) (last t a) := by
  simp [last]

/-- How far a call is; `l`: when it was made, `d`: its deadline. -/
def TLoc (now l d : Nat) : Thr.PC → Prop
  | .idle => True
  | .sLock | .sTest | .sSet | .sNotify | .sUnl _ | .tLock .. | .fLock | .fRead | .fUnl _ => now = l
  | .tTest _ tm z | .tWoken _ tm z => ∀ n, tm = .ms n → d = l + n ∧ now ≤ d ∧ (z = true → d ≤ now)
  | .tSleep _ tm => ∀ n, tm = .ms n → d = l + n ∧ now ≤ d
  | .dLock | .dReq | .dAct | .dNotify | .dUnl | .dJoin => True
  | .tUnl c o | .ret c o => (∀ n, limit c = some n → now ≤ l + n) ∧ (o = .timedOut → ∃ n, limit c = some n ∧ l + n ≤ now)

theorem limit_wait {c : Thr.Call} {n} (h : tmo' c = some (.ms n)) : limit c = some n := by
  cases c <;> simp_all [tmo', tmo, limit]
theorem limit_forever {c : Thr.Call} (h : tmo' c = some .forever) : limit c = none := by
  cases c <;> simp_all [tmo', tmo, limit]

def actor : Thr.Act → Option Tid
  | .call t _ | .go t | .expire t | .spur t => some t
  | .wgo | .wspur => none

/-- Only the worker's notify_all moves another thread: out of its sleep. -/
theorem step_other {a : Thr.Act} {s' : Thr.St} {ev : List Thr.Ev} (h : Thr.step false s a = some (s', ev)) {u : Tid} (hu : some u ≠ actor a) :
    s'.pc u = s.pc u ∨ ∃ c b, s.pc u = .tSleep c b ∧ s'.pc u = .tWoken c b false := by
  cases a <;> simp only [Thr.step] at h <;> simp only [actor, ne_eq, Option.some.injEq] at hu <;> (repeat' split at h) <;> simp only [Option.some.injEq, Prod.mk.injEq, reduceCtorEq] at h <;>
    obtain ⟨rfl, _⟩ := h <;> try (simp [Thr.St.at, upd, hu]; done)
  cases hp : s.pc u <;> simp [wakeAll, hp]

theorem arms_own {a : Thr.Act} {u : Tid} (hu : some u ≠ actor a) : armed d now (arms s a) u = d u := by
  cases a <;> try rfl
  rename_i t
  simp only [actor, ne_eq, Option.some.injEq] at hu
  simp only [arms]
  cases s.pc t <;> try rfl
  rename_i c a
  simp only
  cases a with
  | forever => rfl
  | ms n => simp [armed, upd, hu]

theorem last_other {a : Thr.Act} {s' : Thr.St} {ev : List Thr.Ev} (h : Thr.step false s a = some (s', ev)) {u : Tid} (hu : some u ≠ actor a) :
    last u (tr ++ ev.map fun e => (now, e)) = last u tr := by
  rw [last_app]
  cases a <;> simp only [Thr.step] at h <;> simp only [actor, ne_eq, Option.some.injEq] at hu <;> (repeat' split at h) <;> simp only [Option.some.injEq, Prod.mk.injEq, reduceCtorEq] at h <;>
    obtain ⟨_, rfl⟩ := h <;> simp [Ne.symm hu]
  all_goals intro e; exact absurd e.symm hu

theorem tested {c : Thr.Call} {tm : Tmo} {l d : Nat} {z : Prop} (hc : tmo' c = some tm) (hl : ∀ n, tm = .ms n → d = l + n ∧ now ≤ d ∧ z) : ∀ n, limit c = some n → now ≤ l + n := by
  intro n hn
  cases tm with
  | forever => rw [limit_forever hc] at hn; simp at hn
  | ms m => rw [limit_wait hc] at hn; simp at hn; subst hn; have := hl m rfl; omega

theorem loc_own {a : Thr.Act} {t : Tid} {s' : Thr.St} {ev : List Thr.Ev} (h : Thr.step false s a = some (s', ev)) (I : Thr.Inv s (untimed tr)) (ha : actor a = some t)
    (hl : TLoc now (last t tr) (d t) (s.pc t)) (hx : ∀ t, expires a = some t → d t ≤ now) :
    TLoc now (last t (tr ++ ev.map fun e => (now, e))) (armed d now (arms s a) t) (s'.pc t) := by
  have hi := I.loc t
  rw [last_app]
  cases a with
  | wgo => simp [actor] at ha
  | wspur => simp [actor] at ha
  | call t' c =>
    simp only [actor, Option.some.injEq] at ha
    subst ha
    simp only [Thr.step] at h
    split at h <;> simp at h
    obtain ⟨rfl, rfl⟩ := h
    cases c <;> simp [actor, Thr.St.at, TLoc, entry]
  | spur t' =>
    simp only [actor, Option.some.injEq] at ha
    subst ha
    simp only [Thr.step] at h
    split at h <;> simp at h
    rename_i c b hp
    obtain ⟨rfl, rfl⟩ := h
    rw [hp] at hl
    simpa [actor, Thr.St.at, TLoc, arms, armed] using hl
  | expire t' =>
    simp only [actor, Option.some.injEq] at ha
    subst ha
    simp only [Thr.step] at h
    split at h <;> simp at h
    rename_i c b hp
    obtain ⟨_, rfl, rfl⟩ := h
    rw [hp] at hl
    have := hx t' rfl
    simp [actor, Thr.St.at, TLoc, arms, armed] at hl ⊢
    intro n hn; obtain ⟨h1, h2⟩ := hl n hn; exact ⟨h1, h2, this⟩
  | go t' =>
    simp only [actor, Option.some.injEq] at ha
    subst ha
    simp only [Thr.step] at h
    cases hp : s.pc t' <;> simp only [hp] at h hl hi <;> (repeat' split at h) <;> simp only [Option.some.injEq, Prod.mk.injEq, reduceCtorEq] at h <;>
      obtain ⟨rfl, rfl⟩ := h <;> simp [Thr.St.at, TLoc, arms, hp, armed, Thr.Loc] at hl hi ⊢
    all_goals try (first | trivial | omega)
    case sUnl o => exact ⟨fun n _ => by omega, fun _ => ⟨0, rfl, by omega⟩⟩
    case fUnl o => exact ⟨fun n _ => by omega, fun _ => ⟨0, rfl, by omega⟩⟩
    case dJoin.isTrue => simp [limit]
    case tLock.isTrue c tm _ =>
      intro n hn
      simp only [hn, upd_same]
      omega
    case tTest.isTrue.isTrue c tm _ _ _ => exact tested hi.2.1 hl
    case tTest.isTrue.isFalse c tm _ _ _ => exact tested hi.2.1 hl
    case tTest.isFalse.isTrue c tm z _ hz =>
      refine ⟨tested hi.2.1 hl, ?_⟩
      cases tm with
      | forever => exact absurd rfl (hi.2.2 hz)
      | ms n => exact ⟨n, limit_wait hi.2.1, by have := hl n rfl; have := this.2.2 hz; omega⟩
    case tTest.isFalse.isFalse c tm z _ _ => intro n hn; have := hl n hn; exact ⟨this.1, this.2.1⟩

/-- When the clock advances, everybody inside a call is asleep and the Runnable is running; if nobody is inside a call, nothing is half done. -/
theorem asleep (I : Thr.Inv s (untimed tr)) (hu : ¬ clock.urgent s) :
    (∀ t, s.pc t = .idle ∨ ∃ c tm, s.pc t = .tSleep c tm ∧ abs s = .running) ∧ (abs s = .finished ∨ abs s = .running ∨ abs s = .dead) := by
  have hgo : ∀ t, Thr.step false s (.go t) = none := by
    intro t
    cases h : Thr.step false s (.go t) with
    | none => rfl
    | some x => exact absurd (Or.inl ⟨t, x.1, x.2, h⟩) hu
  have hwgo : s.w ≠ .running → Thr.step false s .wgo = none := by
    intro hw
    cases h : Thr.step false s .wgo with
    | none => rfl
    | some x => exact absurd (Or.inr ⟨hw, x.1, x.2, h⟩) hu
  have hfree : s.holder = none := by
    cases hh : s.holder with
    | none => rfl
    | some u =>
      exfalso
      cases u with
      | worker =>
        have h1 := I.hw.1 hh
        have := hwgo (by intro e; simp [e, wHolds] at h1)
        cases hw : s.w <;> simp [hw, wHolds] at h1 <;> simp [Thr.step, hw] at this <;> (split at this) <;> simp at this
      | client u =>
        have h1 := (I.hc u).1 hh
        have := hgo u
        cases hp : s.pc u <;> simp [hp, cHolds] at h1 <;> simp only [Thr.step, hp] at this <;> (repeat' split at this) <;> simp at this
  have hw : s.w = .sleep ∨ s.w = .running ∨ s.w = .dead := by
    by_cases e : s.w = .running
    · exact Or.inr (Or.inl e)
    · have := hwgo e
      cases hw : s.w <;> simp [Thr.step, hw, hfree] at this ⊢ <;> (try split at this) <;> simp at this
  have hsl : s.w = .sleep → s.active = false := by
    intro e
    cases ha : s.active with
    | false => rfl
    | true =>
      obtain ⟨u, hn⟩ := I.awake e ha
      have := hgo u
      cases hp : s.pc u <;> simp [hp, notif] at hn <;> simp [Thr.step, hp] at this
  refine ⟨fun t => ?_, ?_⟩
  · have ht := hgo t
    have hl := I.loc t
    cases hp : s.pc t <;> simp only [Thr.step, hp, hfree, if_true] at ht <;> (repeat' split at ht) <;> try (simp at ht; done)
    · exact Or.inl rfl
    · rename_i c tm
      refine Or.inr ⟨c, tm, rfl, ?_⟩
      rw [hp] at hl
      have he : s.endReq = false := I.endReq_of (t := t) (by simp [hp]) (by simp [hp, dEnd])
      have hg : s.gone = false := by
        cases hg : s.gone with
        | false => rfl
        | true => have := (I.gone hg).2.1; rw [he] at this; simp at this
      rcases hw with hw | hw | hw
      · have := hsl hw
        rcases hl.2.2 with h1 | h1
        · rw [this] at h1; simp at h1
        · rw [hw] at h1; simp at h1
      · simp [abs, hg, hw]
      · have := I.isend (Or.inr hw); rw [he] at this; simp at this
    · rename_i hd
      rw [hp] at hl
      rcases hw with hw | hw | hw
      · have := hsl hw; rw [hl.2.2] at this; simp at this
      · have := I.noend (by simp [hw]); rw [hl.2.1] at this; simp at this
      · exact absurd hw hd
  · rcases hw with hw | hw | hw
    · have := hsl hw; simp only [abs, hw, this]; split <;> simp
    · simp only [abs, hw]; split <;> simp
    · have := I.isend (Or.inr hw); simp only [abs, hw, this]; split <;> simp

theorem tinv (h : Exec s now d tr) (t : Tid) : TLoc now (last t tr) (d t) (s.pc t) := by
  induction h generalizing t with
  | init => simp [Thr.init, TLoc]
  | tick h hu hd ih =>
    have := ih t
    rcases (asleep (Thr.Inv.reach h.reach) hu).1 t with hp | ⟨c, a, hp, _⟩
    · rw [hp]; trivial
    · rw [hp] at this ⊢
      intro n hn
      have h1 := this n hn
      have h2 := hd t (by simp [clock, waits, hp, hn])
      omega
  | act h hs hx ih =>
    rename_i s now d tr a s' ev
    by_cases e : actor a = some t
    · exact loc_own hs (Thr.Inv.reach h.reach) e (ih _) hx
    · have e := Ne.symm e
      rw [last_other hs e, show armed d now (clock.arms s a) t = d t from arms_own e]
      rcases step_other hs e with h1 | ⟨c, b, h1, h2⟩
      · rw [h1]; exact ih t
      · have := ih t
        rw [h1] at this; rw [h2]
        intro n hn; have := this n hn; exact ⟨this.1, this.2, by simp⟩

theorem ret_step {a : Thr.Act} {s' : Thr.St} {ev e1 e2 : List Thr.Ev} {t : Tid} {c : Thr.Call} {o : Thr.Out} (h : Thr.step false s a = some (s', ev)) (he : ev = e1 ++ .ret t c o :: e2) :
    e1 = [] ∧ s.pc t = .ret c o := by
  have hm : .ret t c o ∈ ev := by rw [he]; simp
  cases a <;> simp only [Thr.step] at h <;> (repeat' split at h) <;> simp only [Option.some.injEq, Prod.mk.injEq, reduceCtorEq] at h <;>
    obtain ⟨_, rfl⟩ := h <;> try (simp at hm; done)
  simp at hm
  obtain ⟨rfl, rfl, rfl⟩ := hm
  cases e1 with
  | nil => simp_all
  | cons x l => have := congrArg List.length he; simp at this

theorem last_of {a b : List (Nat × Thr.Ev)} {t : Tid} {c : Thr.Call} {x : Nat} (hb : ∀ y c', (y, Thr.Ev.call t c') ∉ b) : last t (a ++ (x, .call t c) :: b) = x := by
  rw [last_app, List.foldl_cons]
  simp only [if_true]
  induction b with
  | nil => rfl
  | cons y b ih =>
    rw [List.foldl_cons]
    have : (match y.2 with | .call u _ => if u = t then y.1 else x | _ => x) = x := by
      rcases y with ⟨y, e⟩
      cases e <;> simp
      rename_i u c'
      intro e; subst e; exact absurd (by simp) (hb y c')
    rw [this]
    exact ih fun y c' h => hb y c' (List.mem_cons_of_mem _ h)

/-! #### C105 -/

/-- A call returns no later than its timeout after it was made; if it returns TimedOut, then not earlier either. -/
theorem C105_timeout (h : Exec s now d tr) {a b e : List (Nat × Thr.Ev)} {t : Tid} {c : Thr.Call} {o : Thr.Out} {x y n : Nat}
    (he : tr = a ++ (x, .call t c) :: (b ++ (y, .ret t c o) :: e)) (hb : ∀ z c', (z, Thr.Ev.call t c') ∉ b) (hn : limit c = some n) :
    y ≤ x + n ∧ (o = .timedOut → y = x + n) := by
  obtain ⟨s0, d0, tr0, act, s1, e1, e2, h1, h2, _, h3⟩ := h.at (a := a ++ (x, .call t c) :: b) (r := y) (e := .ret t c o) (b := e) (by rw [he]; simp)
  obtain ⟨rfl, hp⟩ := ret_step h2 rfl
  simp only [List.map_nil, List.append_nil] at h3
  have := tinv h1 t
  rw [hp, ← h3, last_of hb] at this
  refine ⟨this.1 n hn, fun ht => ?_⟩
  obtain ⟨m, hm, h4⟩ := this.2 ht
  rw [hn] at hm; simp at hm; subst hm
  exact Nat.le_antisymm (this.1 _ hn) h4

/-- Whenever time passes (`p` has happened before `y`, everything else at `y` or later) the thread is finished, running or destroyed: a started thread enters its
Runnable at once and is finished as soon as that returns; and calls are pending only while the Runnable runs, and these are waits (or the wait in destroy). -/
theorem C105_prompt (h : Exec s now d tr) {p q : List (Nat × Thr.Ev)} {y : Nat} (hy : 0 < y) (hn : y ≤ now) (e : tr = p ++ q) (hp : ∀ x, x ∈ p → x.1 < y)
    (hq : ∀ x, x ∈ q → y ≤ x.1) : ∃ σ, Hist (effects (untimed p)) σ ∧ (σ = .finished ∨ σ = .running ∨ σ = .dead) ∧
      ∀ t, phase t (untimed p) = .out ∨ σ = .running ∧ ∃ c, phase t (untimed p) = .called c ∧ ((∃ tm, tmo c = some tm) ∨ c = .destroy) := by
  obtain ⟨s0, n0, d0, h0, hu, _⟩ := h.pause hy hn e hp hq
  have I := Thr.Inv.reach h0.reach
  obtain ⟨h1, h2⟩ := asleep I hu
  refine ⟨abs s0, I.hist, h2, fun t => ?_⟩
  have hl := I.loc t
  rcases h1 t with h3 | ⟨c, tm, h3, h4⟩
  · rw [h3] at hl; exact Or.inl hl
  · rw [h3] at hl
    refine Or.inr ⟨h4, c, hl.1, ?_⟩
    have := hl.2.1
    cases c <;> simp [tmo', tmo] at this ⊢

/-! Examples: thread 1 starts the thread and waits for it with a timeout of `n`. -/

theorem doit (h : Exec s now d tr) (a : Thr.Act) {s' : Thr.St} {ev : List Thr.Ev} (hs : Thr.step false s a = some (s', ev)) (hx : ∀ t, expires a = some t → d t ≤ now) :
    Exec s' now (armed d now (arms s a)) (tr ++ ev.map fun e => (now, e)) := TReach.act h hs hx

theorem waiting {n j : Nat} (hj : j ≤ n) : ∃ s d, Exec s j d [(0, .call 1 .start), (0, .lin 1 .start .started), (0, .ret 1 .start .started), (0, .runBegin), (0, .call 1 (.timedWait (.ms n)))] ∧
    s.holder = none ∧ s.active = true ∧ s.w = .running ∧ s.pc 1 = .tSleep (.timedWait (.ms n)) (.ms n) ∧ (∀ t, t ≠ 1 → s.pc t = .idle) ∧ d 1 = n := by
  induction j with
  | zero =>
    have b1 := doit TReach.init (.call 1 .start) rfl (by simp [expires])
    have b2 := doit b1 (.go 1) rfl (by simp [expires])
    have b3 := doit b2 (.go 1) rfl (by simp [expires])
    have b4 := doit b3 (.go 1) rfl (by simp [expires])
    have b5 := doit b4 (.go 1) rfl (by simp [expires])
    have b6 := doit b5 (.go 1) rfl (by simp [expires])
    have b7 := doit b6 (.go 1) rfl (by simp [expires])
    have b8 := doit b7 .wgo rfl (by simp [expires])
    have b9 := doit b8 .wgo rfl (by simp [expires])
    have b10 := doit b9 .wgo rfl (by simp [expires])
    have b11 := doit b10 .wgo rfl (by simp [expires])
    have b12 := doit b11 .wgo rfl (by simp [expires])
    have b13 := doit b12 (.call 1 (.timedWait (.ms n))) rfl (by simp [expires])
    have b14 := doit b13 (.go 1) rfl (by simp [expires])
    have b15 := doit b14 (.go 1) rfl (by simp [expires])
    refine ⟨_, _, b15, rfl, rfl, rfl, rfl, fun t ht => by simp [Thr.St.at, upd, ht, Thr.init], ?_⟩
    simp [arms, armed, Thr.St.at, upd, entry]
  | succ j ih =>
    obtain ⟨s, d, h, h1, h2, h3, h4, h5, h6⟩ := ih (by omega)
    refine ⟨s, d, h.tick ?_ ?_, h1, h2, h3, h4, h5, h6⟩
    · rintro (⟨t, s', ev, hs⟩ | ⟨hw, _⟩)
      · by_cases e : t = 1
        · subst e; simp [Thr.step, h4] at hs
        · simp [Thr.step, h5 t e] at hs
      · exact hw h3
    · intro t ht
      by_cases e : t = 1
      · subst e; omega
      · simp [clock, waits, h5 t e] at ht

/-- The Runnable does not return: TimedOut, `n` later. -/
theorem times_out (n : Nat) : ∃ s now d tr a b, Exec s now d tr ∧ tr = a ++ (0, .call 1 (.timedWait (.ms n))) :: (b ++ (n, .ret 1 (.timedWait (.ms n)) .timedOut) :: []) ∧
    ∀ z c', (z, Thr.Ev.call 1 c') ∉ b := by
  obtain ⟨s, d, h, h1, h2, h3, h4, h5, h6⟩ := waiting (Nat.le_refl n)
  have a1 := doit h (.expire 1) (by simp [Thr.step, h4]; exact ⟨rfl, rfl⟩) (by simp [expires, h6])
  have a2 := doit a1 (.go 1) (by simp [Thr.step, Thr.St.at, h1]; exact ⟨rfl, rfl⟩) (by simp [expires])
  have a3 := doit a2 (.go 1) (by simp [Thr.step, Thr.St.at, h2]; exact ⟨rfl, rfl⟩) (by simp [expires])
  have a4 := doit a3 (.go 1) (by simp [Thr.step, Thr.St.at]; exact ⟨rfl, rfl⟩) (by simp [expires])
  have a5 := doit a4 (.go 1) (by simp [Thr.step, Thr.St.at]; exact ⟨rfl, rfl⟩) (by simp [expires])
  exact ⟨_, _, _, _, [(0, .call 1 .start), (0, .lin 1 .start .started), (0, .ret 1 .start .started), (0, .runBegin)], [(n, .lin 1 (.timedWait (.ms n)) .timedOut)], a5, by simp, by simp⟩

/-- The Runnable returns at `j`: OK, at `j`. -/
theorem finishes {n j : Nat} (hj : j ≤ n) : ∃ s now d tr a b, Exec s now d tr ∧ tr = a ++ (0, .call 1 (.timedWait (.ms n))) :: (b ++ (j, .ret 1 (.timedWait (.ms n)) .ok) :: []) ∧
    ∀ z c', (z, Thr.Ev.call 1 c') ∉ b := by
  obtain ⟨s, d, h, h1, h2, h3, h4, h5, h6⟩ := waiting hj
  have b1 := doit h (.wgo) (by simp [Thr.step, Thr.St.at, h3]; exact ⟨rfl, rfl⟩) (by simp [expires])
  have b2 := doit b1 (.wgo) (by simp [Thr.step, Thr.St.at, h1]; exact ⟨rfl, rfl⟩) (by simp [expires])
  have b3 := doit b2 (.wgo) (by simp [Thr.step, Thr.St.at]; exact ⟨rfl, rfl⟩) (by simp [expires])
  have b4 := doit b3 (.wgo) (by simp [Thr.step, Thr.St.at]; exact ⟨rfl, rfl⟩) (by simp [expires])
  have b5 := doit b4 (.wgo) (by simp [Thr.step, Thr.St.at]; exact ⟨rfl, rfl⟩) (by simp [expires])
  have a2 := doit b5 (.go 1) (by simp [Thr.step, Thr.St.at, wakeAll, h4]; exact ⟨rfl, rfl⟩) (by simp [expires])
  have a3 := doit a2 (.go 1) (by simp [Thr.step, Thr.St.at]; exact ⟨rfl, rfl⟩) (by simp [expires])
  have a4 := doit a3 (.go 1) (by simp [Thr.step, Thr.St.at]; exact ⟨rfl, rfl⟩) (by simp [expires])
  have a5 := doit a4 (.go 1) (by simp [Thr.step, Thr.St.at]; exact ⟨rfl, rfl⟩) (by simp [expires])
  exact ⟨_, _, _, _, [(0, .call 1 .start), (0, .lin 1 .start .started), (0, .ret 1 .start .started), (0, .runBegin)],
    [(j, .runEnd), (j, .fin), (j, .lin 1 (.timedWait (.ms n)) .ok)], a5, by simp, by simp⟩

end Verif.Props.ThreadTime
