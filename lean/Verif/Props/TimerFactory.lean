import Verif.Model.TimerFactory
/-
C92: create and destroy of timers do not deadlock with the callbacks that destroy waits for.
-/
namespace Verif.Props.TimerFactory
open Verif Verif.TFac
open _root_.Verif.Lts (Reach)

/-- Thread `t` cannot go on before thread `u` has done something: `u` holds the factory's mutex that `t` wants, or `u` runs the callback whose end `t` waits for. -/
inductive WaitsFor (c : Cfg) (s : FSt) (t u : Nat) : Prop where
  | lockC (cb : Option Nat) (h : s.pc t = .wantC cb) (ho : s.fac = some u)
  | lockD (cb : Option Nat) (o : Nat) (h : s.pc t = .wantD cb o) (ho : s.fac = some u)
  | endOf (cb : Option Nat) (o : Nat) (h : s.pc t = .stopping cb o) (hc : (s.pc u).cb = some o)
  | inside (cb : Option Nat) (o : Nat) (h : s.pc t = .inD cb o) (hw : c.waitFirst = false) (hc : (s.pc u).cb = some o)

/-- A chain of threads that wait for each other. -/
inductive Chain (c : Cfg) (s : FSt) : Nat → Nat → Prop where
  | refl (t : Nat) : Chain c s t t
  | next {t u v : Nat} (h : WaitsFor c s t u) (h' : Chain c s u v) : Chain c s t v

/-- Thread `t` is inside create or destroy. -/
def InCall (s : FSt) (t : Nat) : Prop := ∀ cb, s.pc t ≠ .user cb

/-- Thread `t` is not blocked: its call can go on, or it runs code of the user. -/
def Runs (c : Cfg) (s : FSt) (t : Nat) : Prop := (∃ n, (step c s (.go t n)).isSome) ∨ ∃ cb, s.pc t = .user cb

/-- Holds the factory's mutex. -/
def inside : PC → Bool
  | .inC _ | .inD .. => true
  | _ => false
/-- In create, called by a callback. -/
def cbC : PC → Bool
  | .wantC cb | .inC cb => cb.isSome
  | _ => false
/-- In destroy, called by a callback. -/
def cbD : PC → Bool
  | .stopping cb _ | .wantD cb _ | .inD cb _ => cb.isSome
  | _ => false

structure Inv (c : Cfg) (s : FSt) : Prop where
  fac : ∀ t, s.fac = some t ↔ inside (s.pc t) = true
  busy : ∀ o, (s.tm o).idle = false → ∃ t, (s.pc t).cb = some o
  cc : ∀ t, cbC (s.pc t) = true → c.cbCreate = true
  cd : ∀ t, cbD (s.pc t) = true → c.cbDestroy = true
  st : ∀ t cb o, s.pc t = .stopping cb o → c.waitFirst = true
  fin : ∃ n, ∀ m, n ≤ m → (s.tm m).live = false

theorem Inv.init {c : Cfg} : Inv c TFac.init := by
  constructor <;> simp [TFac.init, inside, cbC, cbD]

theorem Inv.step {c : Cfg} {s s' : FSt} {a : Act} {ev : List Ev} (i : Inv c s) (hs : step c s a = some (s', ev)) : Inv c s' := by
  have hfin : ∀ (f : Nat → Tm), (∃ n, ∀ m, n ≤ m → (f m).live = false) → ∀ (k : Nat) (x : Tm), ∃ n, ∀ m, n ≤ m → (put f k x m).live = false := by
    intro f ⟨n, hn⟩ k x
    refine ⟨max n (k+1), fun m hm => ?_⟩
    simp only [put]; split
    · omega
    · exact hn m (by omega)
  have hf := i.fin
  have h1 := i.fac
  have h2 := i.busy
  have h3 := i.cc
  have h4 := i.cd
  have h5 := i.st
  have k1 : ∀ t o, (s.pc t).cb = some o → (s'.pc t).cb = some o ∨ (s'.tm o).idle = true := by
    clear h1 h2 h3 h4 h5 hf hfin i
    intro t o h
    cases a <;> simp only [TFac.step] at hs <;> (repeat' split at hs) <;> simp only [Option.some.injEq, Prod.mk.injEq, reduceCtorEq] at hs <;> obtain ⟨rfl, rfl⟩ := hs <;> grind [put, PC.cb]
  have k2 : ∀ o, (s'.tm o).idle = false → (s.tm o).idle = false ∨ ∃ t, a = .fire t o := by
    clear h1 h2 h3 h4 h5 hf hfin i k1
    intro o h
    rcases Classical.em (∃ t, a = .fire t o) with hf | hf
    · exact Or.inr hf
    left
    cases a with
    | fire t p =>
      have hp : o ≠ p := by rintro rfl; exact hf ⟨t, rfl⟩
      simp only [TFac.step] at hs
      split at hs <;> simp only [Option.some.injEq, Prod.mk.injEq, reduceCtorEq] at hs
      obtain ⟨rfl, rfl⟩ := hs
      simpa [put, hp] using h
    | _ => simp only [TFac.step] at hs <;> (repeat' split at hs) <;> simp only [Option.some.injEq, Prod.mk.injEq, reduceCtorEq] at hs <;> obtain ⟨rfl, rfl⟩ := hs <;> grind [put, PC.cb]
  have k3 : ∀ t o, a = .fire t o → (s'.pc t).cb = some o := by
    clear h1 h2 h3 h4 h5 hf hfin i k1 k2
    intro t o h
    cases a <;> simp only [TFac.step] at hs <;> (repeat' split at hs) <;> simp only [Option.some.injEq, Prod.mk.injEq, reduceCtorEq] at hs <;> obtain ⟨rfl, rfl⟩ := hs <;> grind [put, PC.cb]
  refine ⟨?_, ?_, ?_, ?_, ?_, ?_⟩
  · clear h2 h3 h4 h5 hf hfin i k1 k2
    cases a <;> simp only [TFac.step] at hs <;> (repeat' split at hs) <;> simp only [Option.some.injEq, Prod.mk.injEq, reduceCtorEq] at hs <;> obtain ⟨rfl, rfl⟩ := hs <;> grind [put, inside]
  · intro o ho
    rcases k2 o ho with h | ⟨t, h⟩
    · obtain ⟨t, ht⟩ := h2 o h
      rcases k1 t o ht with h | h
      · exact ⟨t, h⟩
      · rw [ho] at h; simp at h
    · exact ⟨t, k3 t o h⟩
  · clear h1 h2 h4 h5 hf hfin i k1 k2
    cases a <;> simp only [TFac.step] at hs <;> (repeat' split at hs) <;> simp only [Option.some.injEq, Prod.mk.injEq, reduceCtorEq] at hs <;> obtain ⟨rfl, rfl⟩ := hs <;> grind [put, cbC]
  · clear h1 h2 h3 h5 hf hfin i k1 k2
    cases a <;> simp only [TFac.step] at hs <;> (repeat' split at hs) <;> simp only [Option.some.injEq, Prod.mk.injEq, reduceCtorEq] at hs <;> obtain ⟨rfl, rfl⟩ := hs <;> grind [put, cbD]
  · clear h1 h2 h3 h4 hf hfin i k1 k2
    cases a <;> simp only [TFac.step] at hs <;> (repeat' split at hs) <;> simp only [Option.some.injEq, Prod.mk.injEq, reduceCtorEq] at hs <;> obtain ⟨rfl, rfl⟩ := hs <;> grind [put]
  · clear h1 h2 h3 h4 h5 i k1 k2
    cases a <;> simp only [TFac.step] at hs <;> (repeat' split at hs) <;> simp only [Option.some.injEq, Prod.mk.injEq, reduceCtorEq] at hs <;> obtain ⟨rfl, rfl⟩ := hs <;> first | exact hf | exact hfin _ hf _ _

theorem Inv.reach {c : Cfg} {s : FSt} {tr : List Ev} (h : Reach (TFac.step c) TFac.init s tr) : Inv c s := by
  induction h with
  | init => exact Inv.init
  | step _ hs ih => exact ih.step hs

/-- What a thread that holds the factory's mutex, or runs a callback, can do if callbacks do not call destroy. -/
theorem runs_inC {c : Cfg} {s : FSt} (i : Inv c s) {t : Nat} {cb : Option Nat} (h : s.pc t = .inC cb) : Runs c s t := by
  obtain ⟨n, hn⟩ := i.fin
  exact Or.inl ⟨n, by simp [TFac.step, h, hn n (Nat.le_refl n)]⟩

/-- **C92.**  If callbacks do not destroy timers of their own factory and, on Windows, do not create any either, then create and destroy never deadlock with
callbacks: whoever a call waits for, directly or through others, is not blocked. -/
theorem C92_no_deadlock_partial (c : Cfg) (hd : c.cbDestroy = false) (hc : c.waitFirst = true ∨ c.cbCreate = false) (s : FSt) (tr : List Ev)
    (h : Reach (TFac.step c) TFac.init s tr) (t : Nat) : ∃ u, Chain c s t u ∧ Runs c s u := by
  have i := Inv.reach h
  -- the owner of the mutex
  have own : ∀ u, s.fac = some u → ∃ w, Chain c s u w ∧ Runs c s w := by
    intro u hu
    have hin := (i.fac u).mp hu
    cases hp : s.pc u with
    | inC cb => exact ⟨u, .refl u, runs_inC i hp⟩
    | inD cb o =>
      by_cases hw : c.waitFirst = true
      · exact ⟨u, .refl u, Or.inl ⟨0, by simp [TFac.step, hp, hw]⟩⟩
      · cases hi : (s.tm o).idle with
        | true => exact ⟨u, .refl u, Or.inl ⟨0, by simp [TFac.step, hp, hi]⟩⟩
        | false =>
          obtain ⟨w, hcb⟩ := i.busy o hi
          have hcc : c.cbCreate = false := hc.resolve_left hw
          have hw' : c.waitFirst = false := by simpa using hw
          refine ⟨w, .next (.inside cb o hp hw' hcb) (.refl w), Or.inr ?_⟩
          have h3 := i.cc w; have h4 := i.cd w
          cases hq : s.pc w <;> simp_all [PC.cb, cbC, cbD]
    | _ => rw [hp] at hin; simp [inside] at hin
  have want : ∀ u, (∃ cb, s.pc u = .wantC cb) ∨ (∃ cb o, s.pc u = .wantD cb o) → ∃ w, Chain c s u w ∧ Runs c s w := by
    intro u hu
    cases hf : s.fac with
    | none =>
      refine ⟨u, .refl u, Or.inl ⟨0, ?_⟩⟩
      rcases hu with ⟨cb, hp⟩ | ⟨cb, o, hp⟩ <;> simp [TFac.step, hp, hf]
    | some v =>
      obtain ⟨w, h1, h2⟩ := own v hf
      rcases hu with ⟨cb, hp⟩ | ⟨cb, o, hp⟩
      · exact ⟨w, .next (.lockC cb hp hf) h1, h2⟩
      · exact ⟨w, .next (.lockD cb o hp hf) h1, h2⟩
  cases hp : s.pc t with
  | user cb => exact ⟨t, .refl t, Or.inr ⟨cb, hp⟩⟩
  | wantC cb => exact want t (Or.inl ⟨cb, hp⟩)
  | wantD cb o => exact want t (Or.inr ⟨cb, o, hp⟩)
  | inC cb => exact ⟨t, .refl t, runs_inC i hp⟩
  | inD cb o => exact own t ((i.fac t).mpr (by rw [hp]; rfl))
  | stopping cb o =>
    have hwf := i.st t cb o hp
    cases hi : (s.tm o).idle with
    | true => exact ⟨t, .refl t, Or.inl ⟨0, by simp [TFac.step, hp, hi]⟩⟩
    | false =>
      obtain ⟨w, hcb⟩ := i.busy o hi
      have hch : WaitsFor c s t w := .endOf cb o hp hcb
      cases hq : s.pc w with
      | user cb' => exact ⟨w, .next hch (.refl w), Or.inr ⟨cb', hq⟩⟩
      | wantC cb' => obtain ⟨x, h1, h2⟩ := want w (Or.inl ⟨cb', hq⟩); exact ⟨x, .next hch h1, h2⟩
      | inC cb' => exact ⟨w, .next hch (.refl w), runs_inC i hq⟩
      | wantD cb' p => obtain ⟨x, h1, h2⟩ := want w (Or.inr ⟨cb', p, hq⟩); exact ⟨x, .next hch h1, h2⟩
      | inD cb' p => obtain ⟨x, h1, h2⟩ := own w ((i.fac w).mpr (by rw [hq]; rfl)); exact ⟨x, .next hch h1, h2⟩
      | stopping cb' p => have := i.cd w; rw [hq] at this hcb; simp [cbD, PC.cb, hd] at this hcb; simp [this] at hcb

/-! #### The deadlocks -/

def windows (cbCreate cbDestroy : Bool) : Cfg := ⟨false, cbCreate, cbDestroy⟩
def stdCpp (cbCreate cbDestroy : Bool) : Cfg := ⟨true, cbCreate, cbDestroy⟩

/-- Thread `t` destroys timer `o` and waits, with the factory's mutex, for its callback, which thread `u` runs and which is in create, before the mutex. -/
structure Dead (s : FSt) (t u o : Nat) : Prop where
  fac : s.fac = some t
  destroyer : s.pc t = .inD none o
  callback : s.pc u = .wantC (some o)
  running : (s.tm o).idle = false
  one : ∀ v, v ≠ u → (s.pc v).cb ≠ some o
  owner : ∀ v, v ≠ t → inside (s.pc v) = false

theorem dead_step {d : Bool} {s s' : FSt} {a : Act} {ev : List Ev} {t u o : Nat} (h : Dead s t u o) (hs : TFac.step (windows true d) s a = some (s', ev)) :
    Dead s' t u o := by
  obtain ⟨h1, h2, h3, h4, h5, h6⟩ := h
  simp only [windows] at hs
  constructor <;> cases a <;> simp only [TFac.step] at hs <;> (repeat' split at hs) <;> simp only [Option.some.injEq, Prod.mk.injEq, reduceCtorEq] at hs <;> obtain ⟨rfl, rfl⟩ := hs <;> grind [put, PC.cb, inside]

theorem dead_forever {d : Bool} {s s' : FSt} {tr : List Ev} {t u o : Nat} (h : Reach (TFac.step (windows true d)) s s' tr) (hd : Dead s t u o) :
    Dead s' t u o := by
  induction h with
  | init => exact hd
  | step _ hs ih => exact dead_step ih hs

/-- A call of create or destroy has returned. -/
def returned : Ev → Bool
  | .created .. | .destroyed .. => true
  | _ => false

theorem dead_quiet {d : Bool} {s s' : FSt} {a : Act} {ev : List Ev} {t u o : Nat} (h : Dead s t u o) (hs : TFac.step (windows true d) s a = some (s', ev)) :
    ev.all (fun e => !returned e) = true := by
  obtain ⟨h1, h2, h3, h4, h5, h6⟩ := h
  simp only [windows] at hs
  cases a <;> simp only [TFac.step] at hs <;> (repeat' split at hs) <;> simp only [Option.some.injEq, Prod.mk.injEq, reduceCtorEq] at hs <;> obtain ⟨rfl, rfl⟩ := hs <;> grind [inside, returned]

theorem dead_silent {d : Bool} {s s' : FSt} {tr : List Ev} {t u o : Nat} (h : Reach (TFac.step (windows true d)) s s' tr) (hd : Dead s t u o) :
    tr.all (fun e => !returned e) = true := by
  induction h with
  | init => rfl
  | step hr hs ih => rw [List.all_append, ih, dead_quiet (dead_forever hr hd) hs]; rfl

/-- Windows (WO:122-126, WP:121-125): a timer is created and started, its callback runs; another thread destroys it; the callback creates a timer. -/
def demo : List Act := [.create 0, .go 0 0, .go 0 0, .arm 0, .fire 1 0, .destroy 0 0, .go 0 0, .create 1]

/-- The state after `demo`: thread 0 in destroy, thread 1 in create. -/
def two (p q : PC) (f : Option Nat) : FSt := ⟨f, fun v => match v with | 0 => ⟨true, false, false⟩ | _ + 1 => ⟨false, false, true⟩, fun v => match v with | 0 => p | 1 => q | _ + 2 => .user none⟩

theorem reach_ext {c : Cfg} {s s' : FSt} {tr : List Ev} (h : Reach (TFac.step c) TFac.init s tr) (h1 : s.fac = s'.fac) (h2 : ∀ v, s.tm v = s'.tm v)
    (h3 : ∀ v, s.pc v = s'.pc v) : Reach (TFac.step c) TFac.init s' tr := by
  have : s = s' := by cases s; cases s'; simp only [FSt.mk.injEq]; exact ⟨h1, funext h2, funext h3⟩
  rwa [← this]

theorem demo_reach : ∃ tr, Reach (TFac.step (windows true false)) TFac.init (two (.inD none 0) (.wantC (some 0)) (some 0)) tr :=
  ⟨_, reach_ext (Lts.run_reach demo Reach.init rfl) rfl (fun v => by match v with | 0 => rfl | v + 1 => rfl)
    (fun v => by match v with | 0 => rfl | 1 => rfl | v + 2 => rfl)⟩

/-- **C92, counterexample.**  On Windows a callback that creates a timer while its own timer is being destroyed blocks for ever, and so do the thread that
destroys the timer and every later create and destroy: no execution that goes on from there contains the return of any of them. -/
theorem C92_windows_deadlock : ∃ s tr, Reach (TFac.step (windows true false)) TFac.init s tr ∧ s.pc 0 = .inD none 0 ∧ s.pc 1 = .wantC (some 0) ∧
    ∀ s' tr', Reach (TFac.step (windows true false)) s s' tr' →
      s'.pc 0 = .inD none 0 ∧ s'.pc 1 = .wantC (some 0) ∧ ∀ e ∈ tr', returned e = false := by
  obtain ⟨tr, hr⟩ := demo_reach
  refine ⟨_, _, hr, rfl, rfl, fun s' tr' h' => ?_⟩
  have h0 : Dead (two (.inD none 0) (.wantC (some 0)) (some 0)) 0 1 0 := by
    refine ⟨rfl, rfl, rfl, rfl, fun v hv => ?_, fun v hv => ?_⟩
    · match v, hv with
      | 0, _ => simp [two, PC.cb]
      | 1, hv => exact absurd rfl hv
      | v + 2, _ => simp [two, PC.cb]
    · match v, hv with
      | 0, hv => exact absurd rfl hv
      | 1, _ => rfl
      | v + 2, _ => rfl
  have hd := dead_forever h' h0
  have hq := dead_silent h' h0
  refine ⟨hd.destroyer, hd.callback, fun e he => ?_⟩
  simpa using List.all_eq_true.mp hq e he

/-- Thread `t` runs the callback of timer `o` and, in it, destroys `o`: it waits for itself. -/
structure Self (s : FSt) (t o : Nat) : Prop where
  me : s.pc t = .stopping (some o) o ∨ (s.pc t = .inD (some o) o ∧ s.fac = some t)
  running : (s.tm o).idle = false
  one : ∀ v, v ≠ t → (s.pc v).cb ≠ some o
  owner : ∀ v, s.fac = some v ↔ inside (s.pc v) = true
  live : (s.tm o).live = true
  nobody : ∀ v cb, v ≠ t → (s.pc v = .wantD cb o → s.fac = some t) ∧ s.pc v ≠ .inD cb o

theorem self_step {c : Cfg} {s s' : FSt} {a : Act} {ev : List Ev} {t o : Nat} (hm : c.waitFirst = true ↔ s.pc t = .stopping (some o) o) (h : Self s t o)
    (hs : TFac.step c s a = some (s', ev)) : Self s' t o ∧ s'.pc t = s.pc t := by
  obtain ⟨h1, h2, h3, h4, h5, h6⟩ := h
  have key : s'.pc t = s.pc t := by
    cases a <;> simp only [TFac.step] at hs <;> (repeat' split at hs) <;> simp only [Option.some.injEq, Prod.mk.injEq, reduceCtorEq] at hs <;> obtain ⟨rfl, rfl⟩ := hs <;> grind [put, PC.cb, inside]
  refine ⟨?_, key⟩
  constructor <;> cases a <;> simp only [TFac.step] at hs <;> (repeat' split at hs) <;> simp only [Option.some.injEq, Prod.mk.injEq, reduceCtorEq] at hs <;> obtain ⟨rfl, rfl⟩ := hs <;> grind [put, PC.cb, inside]

theorem self_forever {c : Cfg} {s s' : FSt} {tr : List Ev} {t o : Nat} (hm : c.waitFirst = true ↔ s.pc t = .stopping (some o) o)
    (h : Reach (TFac.step c) s s' tr) (hd : Self s t o) : Self s' t o ∧ s'.pc t = s.pc t := by
  induction h with
  | init => exact ⟨hd, rfl⟩
  | step _ hs ih =>
    have := self_step (by rw [ih.2]; exact hm) ih.1 hs
    exact ⟨this.1, this.2.trans ih.2⟩

/-- On every platform a callback that destroys its own timer blocks for ever, in destroy. -/
theorem C92_self_destroy (w : Bool) : ∃ s tr p, Reach (TFac.step ⟨w, false, true⟩) TFac.init s tr ∧ s.pc 1 = p ∧ (p = .stopping (some 0) 0 ∨ p = .inD (some 0) 0) ∧
    ∀ s' tr', Reach (TFac.step ⟨w, false, true⟩) s s' tr' → s'.pc 1 = p := by
  have key : ∀ (p : PC) (f : Option Nat), (p = .stopping (some 0) 0 ∧ f = none) ∨ (p = .inD (some 0) 0 ∧ f = some 1) → Self (two (.user none) p f) 1 0 := by
    intro p f hp
    refine ⟨?_, rfl, fun v hv => ?_, fun v => ?_, rfl, fun v cb hv => ?_⟩
    · rcases hp with ⟨rfl, rfl⟩ | ⟨rfl, rfl⟩
      · exact Or.inl rfl
      · exact Or.inr ⟨rfl, rfl⟩
    · match v, hv with
      | 0, _ => simp [two, PC.cb]
      | 1, hv => exact absurd rfl hv
      | v + 2, _ => simp [two, PC.cb]
    · rcases hp with ⟨rfl, rfl⟩ | ⟨rfl, rfl⟩ <;> match v with
      | 0 => simp [two, inside]
      | 1 => simp [two, inside]
      | v + 2 => simp [two, inside]
    · match v, hv with
      | 0, _ => simp [two]
      | 1, hv => exact absurd rfl hv
      | v + 2, _ => simp [two]
  cases w with
  | true =>
    have h0 : Reach (TFac.step ⟨true, false, true⟩) TFac.init _ _ := Lts.run_reach [.create 0, .go 0 0, .go 0 0, .arm 0, .fire 1 0, .destroy 1 0] Reach.init rfl
    have hr := reach_ext (s' := two (.user none) (.stopping (some 0) 0) none) h0 rfl (fun v => by match v with | 0 => rfl | v + 1 => rfl)
      (fun v => by match v with | 0 => rfl | 1 => rfl | v + 2 => rfl)
    exact ⟨_, _, .stopping (some 0) 0, hr, rfl, Or.inl rfl, fun s' tr' h' => (self_forever (t := 1) (o := 0) (by simp [two]) h' (key _ _ (Or.inl ⟨rfl, rfl⟩))).2⟩
  | false =>
    have h0 : Reach (TFac.step ⟨false, false, true⟩) TFac.init _ _ := Lts.run_reach [.create 0, .go 0 0, .go 0 0, .arm 0, .fire 1 0, .destroy 1 0, .go 1 0] Reach.init rfl
    have hr := reach_ext (s' := two (.user none) (.inD (some 0) 0) (some 1)) h0 rfl (fun v => by match v with | 0 => rfl | v + 1 => rfl)
      (fun v => by match v with | 0 => rfl | 1 => rfl | v + 2 => rfl)
    exact ⟨_, _, .inD (some 0) 0, hr, rfl, Or.inr rfl, fun s' tr' h' => (self_forever (t := 1) (o := 0) (by simp [two]) h' (key _ _ (Or.inr ⟨rfl, rfl⟩))).2⟩

/-- Concrete case for the positive theorem: on StdCpp the same history as in `demo` goes on, the callback's create returns, then the callback, then destroy. -/
example : (Lts.run (TFac.step (stdCpp true false)) (demo.take 6 ++ [.create 1, .go 1 0, .go 1 1, .ret 1, .go 0 0, .go 0 0, .go 0 0]) TFac.init).map (·.2) =
    some [.created 0 0, .begin 1 0, .created 1 1, .done 1 0, .destroyed 0 0] := by decide

/-- And on Windows when the callback does not create: destroy waits for it, thread 2's create waits for destroy. -/
example : (Lts.run (TFac.step (windows false false)) (demo.take 7 ++ [.create 2]) TFac.init).map (fun p => (p.1.pc 0, p.1.pc 1, p.1.pc 2)) =
    some (.inD none 0, .user (some 0), .wantC none) := by decide

end Verif.Props.TimerFactory
