import Verif.Model.EventFlagTime
import Verif.Proof.EventFlag
/-
Property C104: the timed waits of an event flag (StdCpp) keep their timeouts.
-/
namespace Verif.Props.EventFlagTime
open Verif
open _root_.Verif.Mtx (Tid Err)
open _root_.Verif.Timed (untimed TReach armed)
open EvF EvF.Spec EvF.Time EvF.Std
set_option linter.unusedSimpArgs false
variable {w : Nat} {auto : Bool} {s : Std.St w} {now : Nat} {d : Nat → Nat} {tr : List (Nat × Ev w)}

/-! The specification -/

/-- How long a call may take: `some 0` for those that do not wait, `none` for those that wait without timeout. -/
def limit : Call w → Option Nat
  | .waitAny | .waitOne _ | .wait .. => none
  | .timedWaitAny (.ms n) | .timedWaitOne _ (.ms n) | .timedWait _ _ _ (.ms n) => some n
  | .timedWaitAny .forever | .timedWaitOne _ .forever | .timedWait _ _ _ .forever => none
  | _ => some 0

/-! The proof -/

/-- The time of the last call of `t`. -/
def last (t : Tid) (tr : List (Nat × Ev w)) : Nat := tr.foldl (fun l x => match x.2 with | .call u _ => if u = t then x.1 else l | _ => l) 0

theorem last_app (t : Tid) (a b : List (Nat × Ev w)) : last t (a ++ b) = b.foldl (fun l x => match x.2 with | .call u _ => if u = t then x.1 else l | _ => l) (last t a) := by
  simp [last]

/-- How far a call is; `l`: when it was made, `d`: its deadline. -/
def TLoc (now l d : Nat) : PC w → Prop
  | .idle => True
  | .entry _ | .lockW _ _ | .lockS .. | .writeS .. | .notify _ | .lockR .. | .writeR .. | .lockG _ | .readG _ => now = l
  | .test _ a z | .woken _ a z => ∀ n, a.tm = .ms n → d = l + n ∧ now ≤ d ∧ (z = true → d ≤ now)
  | .sleep _ a => ∀ n, a.tm = .ms n → d = l + n ∧ now ≤ d
  | .out _ a => ∀ n, a.tm = .ms n → now ≤ l + n
  | .clear c _ => ∀ n, limit c = some n → now ≤ l + n
  | .unlock c r | .ret c r => (∀ n, limit c = some n → now ≤ l + n) ∧ (r.err = .TimedOut → ∃ n, limit c = some n ∧ l + n ≤ now)

theorem limit_wait {c : Call w} {p m out n} (h : dispatch c = .twait p m out (.ms n)) : limit c = some n := by
  cases c <;> simp only [dispatch] at h <;> (try split at h) <;> simp_all [limit]
theorem limit_forever {c : Call w} {p m out} (h : dispatch c = .twait p m out .forever) : limit c = none := by
  cases c <;> simp only [dispatch] at h <;> (try split at h) <;> simp_all [limit]

def actor : Act w → Tid
  | .call t _ | .go t | .wake t | .timeout t | .raise t _ => t

/-- Only notify_all moves another thread: out of its sleep. -/
theorem step_other {a : Act w} {s' : Std.St w} {ev : List (Ev w)} (h : Std.step auto s a = some (s', ev)) {u : Tid} (hu : u ≠ actor a) :
    s'.pc u = s.pc u ∨ ∃ c b, s.pc u = .sleep c b ∧ s'.pc u = .woken c b false := by
  cases a <;> simp only [Std.step] at h <;> simp only [actor] at hu <;> (repeat' split at h) <;> simp only [Option.some.injEq, Prod.mk.injEq, reduceCtorEq] at h <;>
    obtain ⟨rfl, _⟩ := h <;> simp [St.at, upd, hu]
  cases hp : s.pc u <;> simp [wakeAll, hp]

theorem arms_own {a : Act w} {u : Tid} (hu : u ≠ actor a) : armed d now (arms s a) u = d u := by
  cases a <;> try rfl
  rename_i t
  simp only [actor] at hu
  simp only [arms]
  cases s.pc t <;> try rfl
  rename_i c a
  simp only
  cases a.tm with
  | forever => rfl
  | ms n => simp [armed, upd, hu]

theorem last_other {a : Act w} {s' : Std.St w} {ev : List (Ev w)} (h : Std.step auto s a = some (s', ev)) {u : Tid} (hu : u ≠ actor a) :
    last u (tr ++ ev.map fun e => (now, e)) = last u tr := by
  rw [last_app]
  cases a <;> simp only [Std.step] at h <;> simp only [actor] at hu <;> (repeat' split at h) <;> simp only [Option.some.injEq, Prod.mk.injEq, reduceCtorEq] at h <;>
    obtain ⟨_, rfl⟩ := h <;> simp [Ne.symm hu]

theorem loc_own {a : Act w} {s' : Std.St w} {ev : List (Ev w)} (h : Std.step auto s a = some (s', ev)) (I : EvF.Inv auto s (untimed tr))
    (hl : TLoc now (last (actor a) tr) (d (actor a)) (s.pc (actor a))) (hx : ∀ t, expires a = some t → d t ≤ now) :
    TLoc now (last (actor a) (tr ++ ev.map fun e => (now, e))) (armed d now (arms s a) (actor a)) (s'.pc (actor a)) := by
  have hi := I.loc (actor a)
  rw [last_app]
  cases a with
  | raise t e => simp [Std.step] at h
  | call t c =>
    simp only [Std.step] at h
    split at h <;> simp at h
    obtain ⟨rfl, rfl⟩ := h
    simp [actor, St.at, TLoc]
  | wake t =>
    simp only [actor] at *
    simp only [Std.step] at h
    split at h <;> simp at h
    rename_i c b hp
    obtain ⟨rfl, rfl⟩ := h
    rw [hp] at hl
    simpa [actor, St.at, TLoc, arms, armed] using hl
  | timeout t =>
    simp only [actor] at *
    simp only [Std.step] at h
    split at h <;> simp at h
    rename_i c b hp
    obtain ⟨_, rfl, rfl⟩ := h
    rw [hp] at hl
    have := hx t rfl
    simp [actor, St.at, TLoc, arms, armed] at hl ⊢
    intro n hn; obtain ⟨h1, h2⟩ := hl n hn; exact ⟨h1, h2, this⟩
  | go t =>
    simp only [actor] at *
    simp only [Std.step] at h
    cases hp : s.pc t <;> simp only [hp] at h hl hi <;> (repeat' split at h) <;> simp only [Option.some.injEq, Prod.mk.injEq, reduceCtorEq] at h <;>
      obtain ⟨rfl, rfl⟩ := h <;> simp [St.at, TLoc, arms, hp, armed, EvF.Loc, Asked] at hl hi ⊢
    all_goals try (first | trivial | omega)
    case lockW.isTrue c a hg =>
      intro n hn
      simp only [hn, upd_same]
      omega
    case test.isTrue c a z _ => intro n hn; have := hl n hn; omega
    case test.isFalse.isTrue c a z _ hz =>
      cases ht : a.tm with
      | forever => exact absurd ht (hi.2.2.2 hz)
      | ms n =>
        have h1 : limit c = some n := limit_wait (ht ▸ hi.2.1.1)
        have h2 := hl n ht
        rw [h1]
        refine ⟨?_, n, rfl, ?_⟩
        · intro m hm; simp at hm; omega
        · have := h2.2.2 hz; omega
    case test.isFalse.isFalse c a z _ _ => intro n hn; have := hl n hn; exact ⟨this.1, this.2.1⟩
    case out.isTrue c a _ =>
      intro n hn
      cases ht : a.tm with
      | forever => rw [limit_forever (ht ▸ hi.2.1.1)] at hn; simp at hn
      | ms m => rw [limit_wait (ht ▸ hi.2.1.1)] at hn; simp at hn; subst hn; exact hl m ht
    case out.isFalse c a _ =>
      intro n hn
      cases ht : a.tm with
      | forever => rw [limit_forever (ht ▸ hi.2.1.1)] at hn; simp at hn
      | ms m => rw [limit_wait (ht ▸ hi.2.1.1)] at hn; simp at hn; subst hn; exact hl m ht

/-- When the clock advances, everybody inside a call is asleep, and its condition does not hold. -/
theorem asleep (I : EvF.Inv auto s (untimed tr)) (hu : ¬ (clock w auto).urgent s) (t : Tid) :
    s.pc t = .idle ∨ ∃ c a, s.pc t = .sleep c a ∧ pred a.m a.p s.pat = false := by
  have hgo : ∀ t, Std.step auto s (.go t) = none := by
    intro t
    cases h : Std.step auto s (.go t) with
    | none => rfl
    | some x => exact absurd ⟨t, x.1, x.2, h⟩ hu
  have hfree : s.holder = none := by
    cases hh : s.holder with
    | none => rfl
    | some u =>
      exfalso
      have := hgo u
      rcases I.crit u hh with ⟨c, a, l, hp⟩ | ⟨c, a, hp⟩ | ⟨c, r, hp⟩ | ⟨c, p, hp⟩ | ⟨c, hp⟩ | ⟨c, p, hp⟩ | ⟨c, hp⟩ | ⟨c, r, hp⟩ <;> simp only [Std.step, hp] at this <;>
        (repeat' split at this) <;> simp at this
  have ht := hgo t
  simp only [Std.step] at ht
  cases hp : s.pc t <;> simp only [hp, hfree, if_true] at ht <;> (repeat' split at ht) <;> try (simp at ht; done)
  · exact Or.inl rfl
  · rename_i c a
    refine Or.inr ⟨c, a, rfl, ?_⟩
    cases hpr : pred a.m a.p s.pat with
    | false => rfl
    | true =>
      obtain ⟨u, c', hq⟩ := I.awake t c a hp hpr
      have := hgo u
      simp [Std.step, hq] at this

theorem tinv (h : Exec w auto s now d tr) (t : Tid) : TLoc now (last t tr) (d t) (s.pc t) := by
  induction h generalizing t with
  | init => simp [Std.init, TLoc]
  | tick h hu hd ih =>
    have := ih t
    rcases asleep (inv_reach h.reach) hu t with hp | ⟨c, a, hp, _⟩
    · rw [hp]; trivial
    · rw [hp] at this ⊢
      intro n hn
      have h1 := this n hn
      have h2 := hd t (by simp [clock, waits, hp, hn])
      omega
  | act h hs hx ih =>
    rename_i s now d tr a s' ev
    by_cases e : t = actor a
    · subst e; exact loc_own hs (inv_reach h.reach) (ih _) hx
    · rw [last_other hs e, show armed d now ((clock w auto).arms s a) t = d t from arms_own e]
      rcases step_other hs e with h1 | ⟨c, b, h1, h2⟩
      · rw [h1]; exact ih t
      · have := ih t
        rw [h1] at this; rw [h2]
        intro n hn; have := this n hn; exact ⟨this.1, this.2, by simp⟩

theorem ret_step {a : Act w} {s' : Std.St w} {ev e1 e2 : List (Ev w)} {t : Tid} {c : Call w} {r : Res w} (h : Std.step auto s a = some (s', ev)) (he : ev = e1 ++ .ret t c r :: e2) :
    e1 = [] ∧ s.pc t = .ret c r := by
  have hm : .ret t c r ∈ ev := by rw [he]; simp
  cases a <;> simp only [Std.step] at h <;> (repeat' split at h) <;> simp only [Option.some.injEq, Prod.mk.injEq, reduceCtorEq] at h <;>
    obtain ⟨_, rfl⟩ := h <;> simp at hm
  obtain ⟨rfl, rfl, rfl⟩ := hm
  cases e1 with
  | nil => simp_all
  | cons x l => have := congrArg List.length he; simp at this

theorem last_of {a b : List (Nat × Ev w)} {t : Tid} {c : Call w} {x : Nat} (hb : ∀ y c', (y, Ev.call t c') ∉ b) : last t (a ++ (x, .call t c) :: b) = x := by
  rw [last_app, List.foldl_cons]
  simp only [if_true]
  induction b with
  | nil => rfl
  | cons y b ih =>
    rw [List.foldl_cons]
    have : (match y.2 with | .call u _ => if u = t then y.1 else x | _ => x) = x := by
      rcases y with ⟨y, e⟩
      cases e <;> simp
      rename_i u c'
      intro e; subst e; exact absurd (by simp) (hb y c')
    rw [this]
    exact ih fun y c' h => hb y c' (List.mem_cons_of_mem _ h)

/-! #### C104 -/

/-- A call returns no later than its timeout after it was made; if it returns TimedOut, then not earlier either. -/
theorem C104_timeout (h : Exec w auto s now d tr) {a b e : List (Nat × Ev w)} {t : Tid} {c : Call w} {r : Res w} {x y n : Nat}
    (he : tr = a ++ (x, .call t c) :: (b ++ (y, .ret t c r) :: e)) (hb : ∀ z c', (z, Ev.call t c') ∉ b) (hn : limit c = some n) :
    y ≤ x + n ∧ (r.err = .TimedOut → y = x + n) := by
  obtain ⟨s0, d0, tr0, act, s1, e1, e2, h1, h2, _, h3⟩ := h.at (a := a ++ (x, .call t c) :: b) (r := y) (e := .ret t c r) (b := e) (by rw [he]; simp)
  obtain ⟨rfl, hp⟩ := ret_step h2 rfl
  simp only [List.map_nil, List.append_nil] at h3
  have := tinv h1 t
  rw [hp, ← h3, last_of hb] at this
  refine ⟨this.1 n hn, fun ht => ?_⟩
  obtain ⟨m, hm, h4⟩ := this.2 ht
  rw [hn] at hm; simp at hm; subst hm
  exact Nat.le_antisymm (this.1 _ hn) h4

/-- A waiting call whose condition holds is not kept waiting: whenever time passes (`p` has happened before `y`, everything else at `y` or later), no call that
has taken effect is still on its way to return, and every call that is still waiting could, in the state the history has led to, only return TimedOut. -/
theorem C104_prompt (h : Exec w auto s now d tr) {p q : List (Nat × Ev w)} {y : Nat} (hy : 0 < y) (hn : y ≤ now) (e : tr = p ++ q) (hp : ∀ x, x ∈ p → x.1 < y)
    (hq : ∀ x, x ∈ q → y ≤ x.1) : ∃ σ, Hist auto false (effects (untimed p)) σ ∧
      ∀ t, phase t (untimed p) = .out ∨ ∃ c, phase t (untimed p) = .called c ∧ ∀ r σ', Legal auto false σ c r σ' → r = ⟨.TimedOut, none⟩ := by
  obtain ⟨s0, n0, d0, h0, hu, _⟩ := h.pause hy hn e hp hq
  have I := inv_reach h0.reach
  refine ⟨s0.pat, I.hist, fun t => ?_⟩
  have hl := I.loc t
  rcases asleep I hu t with h1 | ⟨c, a, h1, h2⟩
  · rw [h1] at hl; exact Or.inl hl
  · rw [h1] at hl
    obtain ⟨h3, h4, h5, h6⟩ := hl
    refine Or.inr ⟨c, h3, fun r σ' hg => ?_⟩
    rw [legal_iff, h4] at hg
    have hne : ¬ ((a.m ≠ .OR ∧ a.m ≠ .AND) ∨ ∀ i, i < w → a.p.getLsbD i = false) := by
      intro hx
      rcases hx with ⟨h7, h8⟩ | h7
      · rcases h5 with h5 | h5
        · exact h7 h5
        · exact h8 h5
      · exact h6 ((zero_iff _).2 h7)
    simp only [PLegal, Wait] at hg
    split at hg
    · rename_i hc; exact absurd hc hne
    · rcases hg with ⟨hc, _⟩ | ⟨hr, _⟩ | ⟨hc, _⟩
      · have := (pred_cond h5).2 hc; rw [h2] at this; simp at this
      · exact hr
      · simp at hc

theorem doit {s : Std.St 8} {tr : List (Nat × Ev 8)} (h : Exec 8 true s now d tr) (a : Act 8) {s' : Std.St 8} {ev : List (Ev 8)} (hs : Std.step true s a = some (s', ev)) (hx : ∀ t, expires a = some t → d t ≤ now) :
    Exec 8 true s' now (armed d now (arms s a)) (tr ++ ev.map fun e => (now, e)) := TReach.act h hs hx

/-! Examples: thread 1 waits for bit 0 with a timeout of `n`. -/

abbrev theCall (n : Nat) : Call 8 := .timedWaitOne 0 (.ms n)

theorem waiting {n j : Nat} (hj : j ≤ n) : ∃ s d, Exec 8 true s j d [(0, .call 1 (theCall n))] ∧ s.holder = none ∧ s.pat = 0 ∧
    s.pc 1 = .sleep (theCall n) ⟨oneBit 8 0, .OR, false, .ms n⟩ ∧ (∀ t, t ≠ 1 → s.pc t = .idle) ∧ d 1 = n := by
  induction j with
  | zero =>
    have b1 := doit TReach.init (.call 1 (theCall n)) rfl (by simp [expires])
    have b2 := doit b1 (.go 1) rfl (by simp [expires])
    have b3 := doit b2 (.go 1) rfl (by simp [expires])
    have b4 := doit b3 (.go 1) (by simp [Std.step, St.at, Std.init, pred]; exact ⟨rfl, rfl⟩) (by simp [expires])
    refine ⟨_, _, b4, rfl, rfl, rfl, fun t ht => by simp [St.at, upd, ht, Std.init], ?_⟩
    simp [arms, armed, St.at, upd]
  | succ j ih =>
    obtain ⟨s, d, h, h1, h2, h3, h4, h5⟩ := ih (by omega)
    refine ⟨s, d, h.tick ?_ ?_, h1, h2, h3, h4, h5⟩
    · rintro ⟨t, s', ev, hs⟩
      by_cases e : t = 1
      · subst e; simp [Std.step, h3] at hs
      · simp [Std.step, h4 t e] at hs
    · intro t ht
      by_cases e : t = 1
      · subst e; omega
      · simp [clock, waits, h4 t e] at ht

/-- Nobody sets the bit: TimedOut, `n` later. -/
theorem times_out (n : Nat) : ∃ s now d tr b, Exec 8 true s now d tr ∧ tr = [] ++ (0, .call 1 (theCall n)) :: (b ++ (n, .ret 1 (theCall n) ⟨.TimedOut, none⟩) :: []) ∧
    ∀ z c', (z, Ev.call 1 c') ∉ b := by
  obtain ⟨s, d, h, h1, h2, h3, h4, h5⟩ := waiting (Nat.le_refl n)
  have a1 := doit h (.timeout 1) (by simp [Std.step, h3]; exact ⟨rfl, rfl⟩) (by simp [expires, h5])
  have a2 := doit a1 (.go 1) (by simp [Std.step, St.at, h1]; exact ⟨rfl, rfl⟩) (by simp [expires])
  have a3 := doit a2 (.go 1) (by simp [Std.step, St.at, h2, pred]; exact ⟨rfl, rfl⟩) (by simp [expires])
  have a4 := doit a3 (.go 1) (by simp [Std.step, St.at]; exact ⟨rfl, rfl⟩) (by simp [expires])
  have a5 := doit a4 (.go 1) (by simp [Std.step, St.at]; exact ⟨rfl, rfl⟩) (by simp [expires])
  exact ⟨_, _, _, _, [(n, .lin 1 (theCall n) ⟨.TimedOut, none⟩)], a5, by simp, by simp⟩

/-- Thread 2 sets the bit at `j`: OK, at `j`. -/
theorem is_set {n j : Nat} (hj : j ≤ n) : ∃ s now d tr a b, Exec 8 true s now d tr ∧ tr = a ++ (0, .call 1 (theCall n)) :: (b ++ (j, .ret 1 (theCall n) ⟨.OK, none⟩) :: []) ∧
    ∀ z c', (z, Ev.call 1 c') ∉ b := by
  obtain ⟨s, d, h, h1, h2, h3, h4, h5⟩ := waiting hj
  have hp : pred .OR (oneBit 8 0) (oneBit 8 0) = true := by decide
  have b1 := doit h (.call 2 (.setOne 0)) (by simp [Std.step, h4]; exact ⟨rfl, rfl⟩) (by simp [expires])
  have b2 := doit b1 (.go 2) (by simp [Std.step, St.at, dispatch]; exact ⟨rfl, rfl⟩) (by simp [expires])
  have b3 := doit b2 (.go 2) (by simp [Std.step, St.at, h1]; exact ⟨rfl, rfl⟩) (by simp [expires])
  have b4 := doit b3 (.go 2) (by simp [Std.step, St.at]; exact ⟨rfl, rfl⟩) (by simp [expires])
  have b5 := doit b4 (.go 2) (by simp [Std.step, St.at]; exact ⟨rfl, rfl⟩) (by simp [expires])
  have b6 := doit b5 (.go 2) (by simp [Std.step, St.at]; exact ⟨rfl, rfl⟩) (by simp [expires])
  have b7 := doit b6 (.go 2) (by simp [Std.step, St.at]; exact ⟨rfl, rfl⟩) (by simp [expires])
  have a1 := doit b7 (.go 1) (by simp [Std.step, St.at, wakeAll, upd, h3]; exact ⟨rfl, rfl⟩) (by simp [expires])
  have a2 := doit a1 (.go 1) (by simp [Std.step, St.at, h2, hp]; exact ⟨rfl, rfl⟩) (by simp [expires])
  have a3 := doit a2 (.go 1) (by simp [Std.step, St.at]; exact ⟨rfl, rfl⟩) (by simp [expires])
  have a4 := doit a3 (.go 1) (by simp [Std.step, St.at]; exact ⟨rfl, rfl⟩) (by simp [expires])
  have a5 := doit a4 (.go 1) (by simp [Std.step, St.at]; exact ⟨rfl, rfl⟩) (by simp [expires])
  have a6 := doit a5 (.go 1) (by simp [Std.step, St.at]; exact ⟨rfl, rfl⟩) (by simp [expires])
  exact ⟨_, _, _, _, [], [(j, .call 2 (.setOne 0)), (j, .lin 2 (.setOne 0) ⟨.OK, none⟩), (j, .ret 2 (.setOne 0) ⟨.OK, none⟩), (j, .lin 1 (theCall n) ⟨.OK, none⟩)],
    a6, by simp, by simp⟩

end Verif.Props.EventFlagTime
