import Verif.Model.ThreadPriority
import Verif.Props.Priority
/-
C101: the priority of a thread object is what was asked for last, for every concurrent history.
-/
set_option linter.unusedSimpArgs false
set_option linter.unusedVariables false
namespace Verif.Props.ThreadPriority
open Verif TPrio
open _root_.Verif.Lts (Reach run runSat_ex)
open _root_.Verif.Mtx (Tid)
open _root_.Verif.Props.Priority (InRange Sane inRange_iff posix_closed win_closed C34_normal_partial)

/-! #### Specification -/

/-- The priority of the object `u`, as the completed calls determine it. -/
def Ev.value (u : Tid) (x : Option Int) : Ev → Option Int
  | .done _ q v => if q.target = u then some v else x
  | .destroyed _ u' => if u' = u then none else x
  | _ => x
def value (u : Tid) (tr : List Ev) : Option Int := tr.foldl (Ev.value u) none

/-- The priority of `u` when it was created. -/
def Ev.first (u : Tid) (x : Option Int) : Ev → Option Int
  | .done _ (.create u' _) v => if u' = u then some v else x
  | .destroyed _ u' => if u' = u then none else x
  | _ => x
def first (u : Tid) (tr : List Ev) : Option Int := tr.foldl (Ev.first u) none

/-- Who an event belongs to. -/
def Ev.by : Ev → Tid
  | .call c _ | .done c _ _ | .thrown c _ | .get c _ _ | .getInitial c _ _ | .destroyed c _ => c

theorem value_app (u : Tid) (tr ev : List Ev) : value u (tr ++ ev) = ev.foldl (Ev.value u) (value u tr) := by simp [value]
theorem first_app (u : Tid) (tr ev : List Ev) : first u (tr ++ ev) = ev.foldl (Ev.first u) (first u tr) := by simp [first]

/-- Where `c` is in its call: it called at the end of `a1` and has done nothing since. -/
def Since (c : Tid) (q : Call) (tr a2 : List Ev) : Prop := ∃ a1, tr = a1 ++ .call c q :: a2 ∧ ∀ e, e ∈ a2 → Ev.by e ≠ c

/-- What may have been read: the argument, or the priority of the caller at some moment of the call, or (a caller that is not a thread of the library) the
normal priority. -/
def Read (k : Cfg) (c : Tid) (q : Call) (v : Int) (tr : List Ev) : Prop :=
  (valid k q.arg = true ∧ v = q.arg ∧ ∃ a2, Since c q tr a2) ∨
  (valid k q.arg = false ∧ ∃ a1 a3 a4, tr = a1 ++ .call c q :: (a3 ++ a4) ∧ (∀ e, e ∈ a3 ++ a4 → Ev.by e ≠ c) ∧
    (value c (a1 ++ .call c q :: a3) = some v ∨ value c (a1 ++ .call c q :: a3) = none ∧ normal k = some v))

/-! #### Invariant -/

structure Inv (k : Cfg) (s : TPrio.St) (tr : List Ev) : Prop where
  val : ∀ u, value u tr = (s.th u).map Th.prio
  fst : ∀ u, first u tr = (s.th u).map Th.init
  on : ∀ c q, s.pc c = .on q → ∃ a2, Since c q tr a2
  sto : ∀ c q v, s.pc c = .storing q v → Read k c q v tr
  os : ∀ u, (s.th u = none → s.os u = none) ∧ ∀ x, s.th u = some x → native k x.prio = some (s.os u)
  fresh : ∀ c u p, s.pc c = .on (.create u p) ∨ (∃ v, s.pc c = .storing (.create u p) v) → c ≠ u

theorem since_more {c : Tid} {q : Call} {tr a2 : List Ev} {e : Ev} (h : Since c q tr a2) (he : Ev.by e ≠ c) : Since c q (tr ++ [e]) (a2 ++ [e]) := by
  obtain ⟨a1, rfl, h2⟩ := h
  refine ⟨a1, by simp, ?_⟩
  intro x hx
  rcases List.mem_append.1 hx with hx | hx
  · exact h2 x hx
  · simp only [List.mem_singleton] at hx; subst hx; exact he

theorem read_more {k : Cfg} {c : Tid} {q : Call} {v : Int} {tr : List Ev} {e : Ev} (h : Read k c q v tr) (he : Ev.by e ≠ c) : Read k c q v (tr ++ [e]) := by
  rcases h with ⟨h1, h2, a2, h3⟩ | ⟨h1, a1, a3, a4, rfl, h3, h4⟩
  · exact Or.inl ⟨h1, h2, _, since_more h3 he⟩
  · refine Or.inr ⟨h1, a1, a3, a4 ++ [e], by simp, ?_, h4⟩
    intro x hx
    simp only [List.mem_append, List.mem_singleton] at hx h3
    rcases hx with hx | hx | hx
    · exact h3 x (Or.inl hx)
    · exact h3 x (Or.inr hx)
    · subst hx; exact he

theorem Inv.init (k : Cfg) : Inv k init [] :=
  ⟨fun _ => rfl, fun _ => rfl, by simp [TPrio.init], by simp [TPrio.init], by simp [TPrio.init], by simp [TPrio.init]⟩

/-- A step of `c` that emits `e` and leaves `c` at `p`. -/
theorem Inv.emit {k : Cfg} {s s' : TPrio.St} {tr : List Ev} {c : Tid} {e : Ev} {p : PC} (I : Inv k s tr) (he : Ev.by e = c) (hp : s'.pc = upd s.pc c p)
    (h1 : ∀ u, value u (tr ++ [e]) = (s'.th u).map Th.prio) (h2 : ∀ u, first u (tr ++ [e]) = (s'.th u).map Th.init)
    (h3 : p = .idle ∨ ∃ q, p = .on q ∧ e = .call c q ∧ (∀ u x, q = .create u x → c ≠ u))
    (h5 : ∀ u, (s'.th u = none → s'.os u = none) ∧ ∀ x, s'.th u = some x → native k x.prio = some (s'.os u)) : Inv k s' (tr ++ [e]) := by
  refine ⟨h1, h2, ?_, ?_, h5, ?_⟩
  · intro d q hd
    rw [hp] at hd
    by_cases hdc : d = c
    · subst hdc
      rw [upd_same] at hd
      rcases h3 with h3 | ⟨q', h3, h4, _⟩
      · rw [h3] at hd; simp at hd
      · rw [h3] at hd; simp at hd; subst hd; subst h4; exact ⟨[], tr, by simp, by simp⟩
    · rw [upd_ne _ _ hdc] at hd
      obtain ⟨a2, h⟩ := I.on d q hd
      exact ⟨_, since_more h (by rw [he]; exact fun h => hdc h.symm)⟩
  · intro d q v hd
    rw [hp] at hd
    by_cases hdc : d = c
    · subst hdc
      rw [upd_same] at hd
      rcases h3 with h3 | ⟨q', h3, _⟩ <;> rw [h3] at hd <;> simp at hd
    · rw [upd_ne _ _ hdc] at hd
      exact read_more (I.sto d q v hd) (by rw [he]; exact fun h => hdc h.symm)
  · intro d u x hd
    rw [hp] at hd
    by_cases hdc : d = c
    · subst hdc
      rw [upd_same] at hd
      rcases h3 with h3 | ⟨q', h3, _, h4⟩ <;> rw [h3] at hd <;> simp at hd
      exact h4 u x hd
    · rw [upd_ne _ _ hdc] at hd
      exact I.fresh d u x hd

theorem upd_self' {α : Type} (f : Nat → α) (i : Nat) : upd f i (f i) = f := by
  funext j; by_cases h : j = i
  · subst h; simp
  · simp [upd, h]

theorem Inv.step {k : Cfg} {s s' : TPrio.St} {tr ev : List Ev} {a : Act} (I : Inv k s tr) (hs : TPrio.step k s a = some (s', ev)) : Inv k s' (tr ++ ev) := by
  have quiet : ∀ {q : Call} {v : Int} {c : Tid}, s.pc c = .on q → ev = [] → s' = { s with pc := upd s.pc c (.storing q v) } → Read k c q v tr → Inv k s' (tr ++ ev) := by
    intro q v c hc he h hr
    subst he h
    simp only [List.append_nil]
    refine ⟨I.val, I.fst, ?_, ?_, I.os, ?_⟩
    · intro d q' hd
      by_cases hdc : d = c
      · subst hdc; simp at hd
      · simp only [upd_ne _ _ hdc] at hd; exact I.on d q' hd
    · intro d q' v' hd
      by_cases hdc : d = c
      · subst hdc; simp at hd; obtain ⟨rfl, rfl⟩ := hd; exact hr
      · simp only [upd_ne _ _ hdc] at hd; exact I.sto d q' v' hd
    · intro d u x hd
      by_cases hdc : d = c
      · subst hdc; simp at hd; subst hd; exact I.fresh d u x (Or.inl hc)
      · simp only [upd_ne _ _ hdc] at hd; exact I.fresh d u x hd
  cases a with
  | call c q =>
    simp only [TPrio.step] at hs
    split at hs
    · rename_i h
      simp only [Option.some.injEq, Prod.mk.injEq] at hs
      obtain ⟨rfl, rfl⟩ := hs
      refine I.emit (c := c) rfl rfl (by intro u; rw [value_app]; simp [Ev.value, I.val]) (by intro u; rw [first_app]; simp [Ev.first, I.fst]) (Or.inr ⟨q, rfl, rfl, ?_⟩) I.os
      intro u x hq
      subst hq
      have := h.2
      simp only [allowed, Bool.and_eq_true, decide_eq_true_eq] at this
      exact this.2
    · simp at hs
  | go c =>
    simp only [TPrio.step] at hs
    split at hs
    · simp at hs
    · rename_i q hc
      split at hs
      · rename_i hv
        simp only [Option.some.injEq, Prod.mk.injEq] at hs
        obtain ⟨rfl, rfl⟩ := hs
        exact quiet hc rfl rfl (Or.inl ⟨hv, rfl, I.on c q hc⟩)
      · rename_i hv
        have hv : valid k q.arg = false := by simpa using hv
        obtain ⟨a2, a1, rfl, h2⟩ := I.on c q hc
        have hval := I.val c
        split at hs
        · rename_i x hx
          simp only [Option.some.injEq, Prod.mk.injEq] at hs
          obtain ⟨rfl, rfl⟩ := hs
          exact quiet hc rfl rfl (Or.inr ⟨hv, a1, a2, [], by simp, by simpa using h2, Or.inl (by rw [hval, hx]; rfl)⟩)
        · rename_i hx
          split at hs
          · rename_i v hn
            simp only [Option.some.injEq, Prod.mk.injEq] at hs
            obtain ⟨rfl, rfl⟩ := hs
            exact quiet hc rfl rfl (Or.inr ⟨hv, a1, a2, [], by simp, by simpa using h2, Or.inr ⟨by rw [hval, hx]; rfl, hn⟩⟩)
          · simp at hs
    · rename_i q v hc
      split at hs
      · simp only [Option.some.injEq, Prod.mk.injEq] at hs
        obtain ⟨rfl, rfl⟩ := hs
        exact I.emit (c := c) rfl rfl (by intro u; rw [value_app]; simp [Ev.value, I.val]) (by intro u; rw [first_app]; simp [Ev.first, I.fst]) (Or.inl rfl) I.os
      · rename_i n hn
        split at hs
        · rename_i u p x hx
          simp only [Option.some.injEq, Prod.mk.injEq] at hs
          obtain ⟨rfl, rfl⟩ := hs
          simp only [Call.target] at hx
          refine I.emit (c := c) rfl rfl ?_ ?_ (Or.inl rfl) ?_
          · intro w
            rw [value_app]
            by_cases h : w = u
            · subst h; simp [Ev.value, Call.target]
            · simp [Ev.value, Call.target, Ne.symm h, upd_ne _ _ h, I.val]
          · intro w
            rw [first_app]
            by_cases h : w = u
            · subst h; simp [Ev.first, I.fst, hx]
            · simp [Ev.first, upd_ne _ _ h, I.fst]
          · intro w
            by_cases h : w = u
            · subst h; simp [hn]
            · simp only [upd_ne _ _ h]; exact I.os w
        · rename_i u p hx
          simp only [Option.some.injEq, Prod.mk.injEq] at hs
          obtain ⟨rfl, rfl⟩ := hs
          refine I.emit (c := c) rfl rfl ?_ ?_ (Or.inl rfl) ?_
          · intro w
            rw [value_app]
            by_cases h : w = u
            · subst h; simp [Ev.value, Call.target]
            · simp [Ev.value, Call.target, Ne.symm h, upd_ne _ _ h, I.val]
          · intro w
            rw [first_app]
            by_cases h : w = u
            · subst h; simp [Ev.first]
            · simp [Ev.first, Ne.symm h, upd_ne _ _ h, I.fst]
          · intro w
            by_cases h : w = u
            · subst h; simp [hn]
            · simp only [upd_ne _ _ h]; exact I.os w
        · simp at hs
  | get c u =>
    simp only [TPrio.step] at hs
    split at hs
    · rename_i x hc hx
      simp only [Option.some.injEq, Prod.mk.injEq] at hs
      obtain ⟨rfl, rfl⟩ := hs
      exact I.emit (c := c) (p := s.pc c) rfl (upd_self' _ _).symm (by intro u; rw [value_app]; simp [Ev.value, I.val]) (by intro u; rw [first_app]; simp [Ev.first, I.fst]) (Or.inl hc) I.os
    · simp at hs
  | getInitial c u =>
    simp only [TPrio.step] at hs
    split at hs
    · rename_i x hc hx
      simp only [Option.some.injEq, Prod.mk.injEq] at hs
      obtain ⟨rfl, rfl⟩ := hs
      exact I.emit (c := c) (p := s.pc c) rfl (upd_self' _ _).symm (by intro u; rw [value_app]; simp [Ev.value, I.val]) (by intro u; rw [first_app]; simp [Ev.first, I.fst]) (Or.inl hc) I.os
    · simp at hs
  | destroy c u =>
    simp only [TPrio.step] at hs
    split at hs
    · rename_i h
      simp only [Option.some.injEq, Prod.mk.injEq] at hs
      obtain ⟨rfl, rfl⟩ := hs
      refine I.emit (c := c) (p := s.pc c) rfl (upd_self' _ _).symm ?_ ?_ (Or.inl h.1) ?_
      · intro w
        rw [value_app]
        by_cases h : w = u
        · subst h; simp [Ev.value]
        · simp [Ev.value, Ne.symm h, upd_ne _ _ h, I.val]
      · intro w
        rw [first_app]
        by_cases h : w = u
        · subst h; simp [Ev.first]
        · simp [Ev.first, Ne.symm h, upd_ne _ _ h, I.fst]
      · intro w
        by_cases h : w = u
        · subst h; simp
        · simp only [upd_ne _ _ h]; exact I.os w
    · simp at hs

theorem Inv.reach {k : Cfg} {s : TPrio.St} {tr : List Ev} (h : Reach (TPrio.step k) TPrio.init s tr) : Inv k s tr :=
  Reach.inv (I := Inv k) (Inv.init k) (fun _ _ _ _ _ hi hs => hi.step hs) h

theorem one {k : Cfg} {s s' : TPrio.St} {a : Act} {ev : List Ev} (hs : TPrio.step k s a = some (s', ev)) : ev = [] ∨ ∃ e, ev = [e] := by
  cases a <;> simp only [TPrio.step] at hs <;> (repeat' split at hs) <;> simp only [Option.some.injEq, Prod.mk.injEq, reduceCtorEq] at hs <;>
    obtain ⟨_, rfl⟩ := hs <;> simp

theorem event_at {k : Cfg} {s : TPrio.St} {tr : List Ev} (h : Reach (TPrio.step k) TPrio.init s tr) : ∀ {a b : List Ev} {e : Ev}, tr = a ++ e :: b →
    ∃ s0 s1 act, Reach (TPrio.step k) TPrio.init s0 a ∧ TPrio.step k s0 act = some (s1, [e]) := by
  induction h with
  | init => intro a b e h; simp at h
  | @step s tr act s' ev h hs ih =>
    intro a b e he
    rcases one hs with rfl | ⟨x, rfl⟩
    · exact ih (by simpa using he)
    · rcases List.eq_nil_or_concat b with rfl | ⟨b', y, rfl⟩
      · have h2 : tr ++ [x] = a ++ [e] := he
        have : x = e := by have := List.append_inj_right' h2 rfl; simpa using this
        subst this
        have h3 := List.append_inj_left' h2 rfl
        subst h3
        exact ⟨_, _, _, h, hs⟩
      · have h2 : tr ++ [x] = (a ++ e :: b') ++ [y] := by rw [he]; simp
        exact ih (List.append_inj_left' h2 rfl)

/-! #### C101 -/

/-- The normal priority: halfway between the two ends of the range, rounded towards 0; 0 on StdCpp. -/
def IsNormal (k : Cfg) (v : Int) : Prop := v = if k.plat = .std then 0 else (k.r.lowest + k.r.highest).tdiv 2

theorem normal_is {k : Cfg} {v : Int} (h : normal k = some v) : IsNormal k v := by
  unfold IsNormal
  have h1 : Prio.minP k.r + Prio.maxP k.r = k.r.lowest + k.r.highest := by unfold Prio.minP Prio.maxP; grind
  unfold normal at h
  split at h
  · rename_i hk
    rw [if_pos hk]
    simp only [Prio.normalP, Prio.chk, bind, Option.bind, pure] at h
    split at h
    · simp at h
    · rename_i x hx
      split at hx
      · simp only [Option.some.injEq] at hx h; subst hx; rw [← h]; decide
      · simp at hx
  · rename_i hk
    rw [if_neg (by intro h; exact hk h)]
    simp only [Prio.normalP, Prio.chk, bind, Option.bind, pure, h1] at h
    split at h
    · simp at h
    · rename_i x hx
      split at hx
      · simp only [Option.some.injEq] at hx h; subst hx; rw [← h]
      · simp at hx


abbrev Exec (k : Cfg) (s : TPrio.St) (tr : List Ev) : Prop := Reach (TPrio.step k) TPrio.init s tr

/-- getPriority returns what the last completed create or setPriority of the object determined. -/
theorem C101_current {k : Cfg} {s : TPrio.St} {tr : List Ev} (h : Exec k s tr) {a b : List Ev} {c u v} (e : tr = a ++ .get c u v :: b) : value u a = some v := by
  obtain ⟨s0, s1, act, h0, hs⟩ := event_at h e
  have I := Inv.reach h0
  cases act <;> simp only [TPrio.step] at hs <;> (repeat' split at hs) <;> simp only [Option.some.injEq, Prod.mk.injEq, reduceCtorEq, List.cons.injEq, and_false, false_and] at hs
  rename_i x hx
  obtain ⟨_, h1, _⟩ := hs
  simp only [Ev.get.injEq] at h1
  obtain ⟨_, rfl, rfl⟩ := h1
  rw [I.val, hx]; rfl

/-- getInitialPriority returns what create determined. -/
theorem C101_initial {k : Cfg} {s : TPrio.St} {tr : List Ev} (h : Exec k s tr) {a b : List Ev} {c u v} (e : tr = a ++ .getInitial c u v :: b) : first u a = some v := by
  obtain ⟨s0, s1, act, h0, hs⟩ := event_at h e
  have I := Inv.reach h0
  cases act <;> simp only [TPrio.step] at hs <;> (repeat' split at hs) <;> simp only [Option.some.injEq, Prod.mk.injEq, reduceCtorEq, List.cons.injEq, and_false, false_and] at hs
  rename_i x hx
  obtain ⟨_, h1, _⟩ := hs
  simp only [Ev.getInitial.injEq] at h1
  obtain ⟨_, rfl, rfl⟩ := h1
  rw [I.fst, hx]; rfl

theorem done_step {k : Cfg} {s0 s1 : TPrio.St} {act : Act} {c : Tid} {q : Call} {v : Int} (hs : TPrio.step k s0 act = some (s1, [.done c q v])) :
    s0.pc c = .storing q v ∧ (native k v).isSome = true := by
  cases act <;> simp only [TPrio.step] at hs <;> (repeat' split at hs) <;> simp only [Option.some.injEq, Prod.mk.injEq, reduceCtorEq, List.cons.injEq, and_false, false_and] at hs <;> grind

theorem done_at {k : Cfg} {s : TPrio.St} {tr : List Ev} (h : Exec k s tr) {a b : List Ev} {c q v} (e : tr = a ++ .done c q v :: b) :
    Read k c q v a ∧ (native k v).isSome = true := by
  obtain ⟨s0, s1, act, h0, hs⟩ := event_at h e
  obtain ⟨h1, h2⟩ := done_step hs
  exact ⟨(Inv.reach h0).sto _ _ _ h1, h2⟩

/-- The argument is a priority: any but INHERIT_PRIORITY (StdCpp), one of the range (Posix, Windows). -/
def IsPriority (k : Cfg) (p : Int) : Prop := if k.plat = .std then p ≠ -1 else InRange k.r p

theorem valid_iff (k : Cfg) (p : Int) : valid k p = true ↔ IsPriority k p := by
  unfold valid IsPriority
  cases hk : k.plat <;> simp only [if_true, if_false, reduceCtorEq, Bool.and_eq_true, decide_eq_true_eq, INHERIT, inRange_iff, ne_eq]
  exact decide_eq_true_iff

/-- A call with a priority gives the object that priority. -/
theorem C101_given {k : Cfg} {s : TPrio.St} {tr : List Ev} (h : Exec k s tr) {a b : List Ev} {c q v} (e : tr = a ++ .done c q v :: b) (hp : IsPriority k q.arg) :
    v = q.arg := by
  obtain ⟨h1, _⟩ := done_at h e
  rcases h1 with ⟨_, h1, _⟩ | ⟨h1, _⟩
  · exact h1
  · rw [(valid_iff k _).2 hp] at h1; simp at h1

/-- A call with INHERIT_PRIORITY (or any other number that is not a priority) gives the object the priority that the calling thread had at some moment
during the call; if the caller was not a thread of the library then, the normal priority. -/
theorem C101_inherit_partial {k : Cfg} {s : TPrio.St} {tr : List Ev} (h : Exec k s tr) {a b : List Ev} {c q v} (e : tr = a ++ .done c q v :: b) (hp : ¬ IsPriority k q.arg) :
    ∃ a1 a3 a4, a = a1 ++ .call c q :: (a3 ++ a4) ∧ (∀ e, e ∈ a3 ++ a4 → Ev.by e ≠ c) ∧
      (value c (a1 ++ .call c q :: a3) = some v ∨ value c (a1 ++ .call c q :: a3) = none ∧ IsNormal k v) := by
  obtain ⟨h1, _⟩ := done_at h e
  rcases h1 with ⟨h1, _⟩ | ⟨_, a1, a3, a4, h1, h2, h3⟩
  · exact absurd ((valid_iff k _).1 h1) hp
  · exact ⟨a1, a3, a4, h1, h2, h3.imp id fun h => ⟨h.1, normal_is h.2⟩⟩

theorem value_stable {c : Tid} : ∀ (l : List Ev) (x : Option Int), (∀ d q w, .done d q w ∈ l → q.target ≠ c) → (∀ d, .destroyed d c ∉ l) → l.foldl (Ev.value c) x = x
  | [], x, _, _ => rfl
  | e :: l, x, h1, h2 => by
    have : Ev.value c x e = x := by
      cases e with
      | done d q w => simp [Ev.value, h1 d q w (by simp)]
      | destroyed d u =>
        have : u ≠ c := by intro h; subst h; exact h2 d (by simp)
        simp [Ev.value, this]
      | _ => rfl
    rw [List.foldl_cons, this]
    exact value_stable l x (fun d q w h => h1 d q w (by simp [h])) (fun d h => h2 d (by simp [h]))

/-- In particular, if nobody changes the caller's priority meanwhile, it is the priority getPriority of the caller returns at the call. -/
theorem C101_inherit_serial_partial {k : Cfg} {s : TPrio.St} {tr : List Ev} (h : Exec k s tr) {a1 a2 b : List Ev} {c q v}
    (e : tr = a1 ++ .call c q :: (a2 ++ .done c q v :: b)) (hp : ¬ IsPriority k q.arg) (hq : ∀ e, e ∈ a2 → Ev.by e ≠ c)
    (h1 : ∀ d q' w, .done d q' w ∈ a2 → q'.target ≠ c) (h2 : ∀ d, .destroyed d c ∉ a2) :
    value c a1 = some v ∨ value c a1 = none ∧ IsNormal k v := by
  obtain ⟨b1, b3, b4, e1, e2, e3⟩ := C101_inherit_partial h (a := a1 ++ .call c q :: a2) (b := b) (c := c) (q := q) (v := v) (by rw [e]; simp) hp
  have key : ∀ (x y x' y' : List Ev), x ++ .call c q :: y = x' ++ .call c q :: y' → (∀ e, e ∈ y → Ev.by e ≠ c) → (∀ e, e ∈ y' → Ev.by e ≠ c) → x = x' ∧ y = y' := by
    intro x y x' y' hxy hy hy'
    rcases List.append_eq_append_iff.1 hxy with ⟨z, h1, h2⟩ | ⟨z, h1, h2⟩
    · cases z with
      | nil => simp at h1 h2; exact ⟨h1.symm, h2⟩
      | cons w z =>
        simp only [List.cons_append, List.cons.injEq] at h2
        exact absurd rfl (hy (.call c q) (by rw [h2.2]; simp))
    · cases z with
      | nil => simp at h1 h2; exact ⟨h1, h2.symm⟩
      | cons w z =>
        simp only [List.cons_append, List.cons.injEq] at h2
        exact absurd rfl (hy' (.call c q) (by rw [h2.2]; simp))
  obtain ⟨rfl, rfl⟩ := key _ _ _ _ e1 hq e2
  have : value c (a1 ++ .call c q :: b3) = value c a1 := by
    rw [value_app, List.foldl_cons]
    exact value_stable _ _ (fun d q' w h => h1 d q' w (by simp [h])) (fun d h => h2 d (by simp [h]))
  rw [this] at e3
  exact e3

/-- A Posix factory made by its constructor: `rrMin`, `rrMax` the SCHED_RR priorities of the system. -/
def PosixFactory (k : Cfg) (pol rr dflt rrMin rrMax : Int) : Prop :=
  k.plat = .posix pol rr dflt ∧ Sane k.W k.r ∧ rrMin ≤ rrMax ∧ Prio.posixMap k.W dflt rrMin rrMax k.r = some k.pm
/-- A Windows factory made by its constructor. -/
def WindowsFactory (k : Cfg) : Prop := k.plat = .windows ∧ Sane k.W k.r ∧ Prio.winMap k.W k.r = some k.pm

/-- What the two have in common. -/
structure Ranged (k : Cfg) : Prop where
  plat : k.plat ≠ .std
  nat : ∀ v, InRange k.r v → (native k v).isSome = true
  norm : ∀ v, normal k = some v → InRange k.r v

theorem posix_ranged {k : Cfg} {pol rr dflt rrMin rrMax : Int} (h : PosixFactory k pol rr dflt rrMin rrMax) : Ranged k := by
  obtain ⟨hp, hs, hr, hm⟩ := h
  obtain ⟨pm, mid, h1, h2, h3⟩ := posix_closed (dflt := dflt) (rrMin := rrMin) (rrMax := rrMax) hs
  rw [hm] at h2
  simp only [Option.some.injEq] at h2
  subst h2
  refine ⟨by rw [hp]; simp, ?_, ?_⟩
  · intro v hv; simp [native, hp, h3 v hv]
  · intro v hv
    simp only [normal, hp] at hv
    exact (inRange_iff _ _).2 (C34_normal_partial k.W k.r v hv).1

theorem windows_ranged {k : Cfg} (h : WindowsFactory k) : Ranged k := by
  obtain ⟨hp, hs, hm⟩ := h
  obtain ⟨pm, mid, h1, h2, h3⟩ := win_closed hs
  rw [hm] at h2
  simp only [Option.some.injEq] at h2
  subst h2
  refine ⟨by rw [hp]; simp, ?_, ?_⟩
  · intro v hv; simp [native, hp, h3 v hv]
  · intro v hv
    simp only [normal, hp] at hv
    exact (inRange_iff _ _).2 (C34_normal_partial k.W k.r v hv).1

structure RInv (k : Cfg) (s : TPrio.St) (tr : List Ev) : Prop where
  th : ∀ u x, s.th u = some x → InRange k.r x.prio ∧ InRange k.r x.init
  sto : ∀ c q v, s.pc c = .storing q v → InRange k.r v
  ev : ∀ c q, .thrown c q ∉ tr

theorem RInv.reach {k : Cfg} {s : TPrio.St} {tr : List Ev} (hk : Ranged k) (h : Exec k s tr) : RInv k s tr := by
  refine Reach.inv (I := RInv k) ⟨by simp [TPrio.init], by simp [TPrio.init], by simp⟩ ?_ h
  intro s tr a s' ev I hs
  have hv : ∀ p, valid k p = true → InRange k.r p := by
    intro p hp
    have := (valid_iff k p).1 hp
    unfold IsPriority at this
    rw [if_neg hk.plat] at this
    exact this
  obtain ⟨hpl, hnat, hnorm⟩ := hk
  obtain ⟨I1, I2, I3⟩ := I
  cases a <;> simp only [TPrio.step] at hs <;> (repeat' split at hs) <;> simp only [Option.some.injEq, Prod.mk.injEq, reduceCtorEq] at hs <;> obtain ⟨rfl, rfl⟩ := hs
  all_goals refine ⟨?_, ?_, ?_⟩
  all_goals first | (intro c q hm; simp only [List.mem_append, List.mem_singleton, List.not_mem_nil, or_false, reduceCtorEq, I3, false_or] at hm; done) | skip
  all_goals first | exact I1 | exact I2 | skip
  all_goals grind [upd]

/-- Posix and Windows: no call throws, and every priority that getPriority or getInitialPriority returns is in the range. -/
theorem C101_range {k : Cfg} (hk : (∃ pol rr dflt rrMin rrMax, PosixFactory k pol rr dflt rrMin rrMax) ∨ WindowsFactory k) {s : TPrio.St} {tr : List Ev} (h : Exec k s tr) :
    (∀ c q, .thrown c q ∉ tr) ∧ (∀ c q v, .done c q v ∈ tr → InRange k.r v) ∧ (∀ c u v, .get c u v ∈ tr → InRange k.r v) ∧
    ∀ c u v, .getInitial c u v ∈ tr → InRange k.r v := by
  have hr : Ranged k := by
    rcases hk with ⟨_, _, _, _, _, h⟩ | h
    · exact posix_ranged h
    · exact windows_ranged h
  refine ⟨(RInv.reach hr h).ev, ?_, ?_, ?_⟩
  · intro c q v hm
    obtain ⟨a, b, e⟩ := List.append_of_mem hm
    obtain ⟨s0, s1, act, h0, hs⟩ := event_at h e
    exact (RInv.reach hr h0).sto _ _ _ (done_step hs).1
  · intro c u v hm
    obtain ⟨a, b, e⟩ := List.append_of_mem hm
    obtain ⟨s0, s1, act, h0, hs⟩ := event_at h e
    have I := RInv.reach hr h0
    have hv := C101_current h e
    rw [(Inv.reach h0).val] at hv
    cases hx : s0.th u with
    | none => rw [hx] at hv; simp at hv
    | some x => rw [hx] at hv; simp at hv; rw [← hv]; exact (I.th u x hx).1
  · intro c u v hm
    obtain ⟨a, b, e⟩ := List.append_of_mem hm
    obtain ⟨s0, s1, act, h0, hs⟩ := event_at h e
    have I := RInv.reach hr h0
    have hv := C101_initial h e
    rw [(Inv.reach h0).fst] at hv
    cases hx : s0.th u with
    | none => rw [hx] at hv; simp at hv
    | some x => rw [hx] at hv; simp at hv; rw [← hv]; exact (I.th u x hx).2

/-- Posix: the system has been told, last, the native priority of the object's priority, with a policy under which the system accepts it: the default policy
and priority of the process, or SCHED_RR with one of its priorities. -/
theorem C101_posix {k : Cfg} {pol rr dflt rrMin rrMax : Int} (hk : PosixFactory k pol rr dflt rrMin rrMax) {s : TPrio.St} {tr : List Ev} (h : Exec k s tr) {u v}
    (hv : value u tr = some v) : ∃ policy n, s.os u = some (policy, n) ∧ k.pm v = some n ∧ (policy = pol ∧ n = dflt ∨ policy = rr ∧ rrMin ≤ n ∧ n ≤ rrMax) := by
  have I := Inv.reach h
  have R := RInv.reach (posix_ranged hk) h
  rw [I.val] at hv
  cases hx : s.th u with
  | none => rw [hx] at hv; simp at hv
  | some x =>
    rw [hx] at hv
    simp only [Option.map_some, Option.some.injEq] at hv
    subst hv
    have h1 := (I.os u).2 x hx
    have h2 := (R.th u x hx).1
    obtain ⟨hp, hs, hr, hm⟩ := hk
    obtain ⟨pm, e1, e2⟩ := Priority.C35_total_partial k.W dflt rrMin rrMax k.r hs hr
    rw [hm] at e1
    simp only [Option.some.injEq] at e1
    subst e1
    obtain ⟨n, e3, e4⟩ := e2 _ h2
    simp only [native, hp, e3, Option.map_some, Option.some.injEq] at h1
    refine ⟨_, n, h1.symm, e3, ?_⟩
    by_cases hd : n = dflt
    · left; simp [hd]
    · right; rcases e4 with e4 | e4
      · exact absurd e4 hd
      · simp [hd, e4]

/-- Windows: SetThreadPriority was called last with the native priority of the object's priority. -/
theorem C101_windows {k : Cfg} (hk : WindowsFactory k) {s : TPrio.St} {tr : List Ev} (h : Exec k s tr) {u v} (hv : value u tr = some v) :
    ∃ n, s.os u = some (0, n) ∧ k.pm v = some n ∧ (n = 15 ∨ n = -15 ∨ -2 ≤ n ∧ n ≤ 2) := by
  have I := Inv.reach h
  have R := RInv.reach (windows_ranged hk) h
  rw [I.val] at hv
  cases hx : s.th u with
  | none => rw [hx] at hv; simp at hv
  | some x =>
    rw [hx] at hv
    simp only [Option.map_some, Option.some.injEq] at hv
    subst hv
    have h1 := (I.os u).2 x hx
    have h2 := (R.th u x hx).1
    obtain ⟨hp, hs, hm⟩ := hk
    obtain ⟨pm, mid, e0, e1, e2⟩ := win_closed hs
    rw [hm] at e1
    simp only [Option.some.injEq] at e1
    subst e1
    have e3 := e2 _ h2
    simp only [native, hp, e3, Option.map_some, Option.some.injEq] at h1
    refine ⟨_, h1.symm, e3, ?_⟩
    simp only [Prio.timeCritical, Prio.idle]
    split
    · left; rfl
    · split
      · right; left; rfl
      · right; right; omega

/-- If -1 is in the range, INHERIT_PRIORITY is taken for the priority -1, whatever the priority of the caller. -/
theorem C101_inherit_counterexample {k : Cfg} (hk : k.plat ≠ .std) (hr : InRange k.r INHERIT) {s : TPrio.St} {tr : List Ev} (h : Exec k s tr) {a b : List Ev} {c u v}
    (e : tr = a ++ .done c (.set u INHERIT) v :: b) : v = -1 :=
  C101_given h e (by unfold IsPriority; rw [if_neg hk]; exact hr)

/-! #### Cases -/

def cfg (lo hi : Int) : Cfg := ⟨.posix 0 2 0, 32, ⟨lo, hi⟩, (Prio.posixMap 32 0 1 99 ⟨lo, hi⟩).getD fun _ => none⟩

/-- The main program, 0, creates threads 1 and 2; 1 creates 3 with INHERIT_PRIORITY, raises itself and sets 2 to its own priority. -/
def demo : List Act :=
  [.call 0 (.create 1 5), .go 0, .go 0, .call 0 (.create 2 INHERIT), .go 0, .go 0, .call 1 (.create 3 INHERIT), .go 1, .go 1, .call 1 (.set 1 9), .go 1, .go 1,
   .call 1 (.set 2 100), .go 1, .go 1, .get 0 1, .get 0 2, .get 0 3, .getInitial 0 1, .getInitial 0 2, .destroy 0 3]

set_option maxRecDepth 20000 in
example : PosixFactory (cfg 1 9) 0 2 0 1 99 := by
  refine ⟨rfl, by unfold Sane; decide, by decide, ?_⟩
  have : (Prio.posixMap 32 0 1 99 ⟨1, 9⟩).isSome = true := by decide
  simp only [cfg]
  cases h : Prio.posixMap 32 0 1 99 ⟨1, 9⟩ with
  | none => rw [h] at this; simp at this
  | some x => rfl

set_option maxRecDepth 20000 in
example : ∃ s tr, Exec (cfg 1 9) s tr ∧ Ev.get 0 1 9 ∈ tr ∧ Ev.get 0 2 9 ∈ tr ∧ Ev.get 0 3 5 ∈ tr ∧ Ev.getInitial 0 1 5 ∈ tr ∧ Ev.getInitial 0 2 5 ∈ tr ∧ s.os 1 = some (2, 4) ∧ s.os 3 = none := by
  obtain ⟨s, tr, h, hp⟩ := runSat_ex (step := TPrio.step (cfg 1 9)) (init := TPrio.init) (as := demo)
    (P := fun s tr => decide (Ev.get 0 1 9 ∈ tr ∧ Ev.get 0 2 9 ∈ tr ∧ Ev.get 0 3 5 ∈ tr ∧ Ev.getInitial 0 1 5 ∈ tr ∧ Ev.getInitial 0 2 5 ∈ tr ∧ s.os 1 = some (2, 4) ∧ s.os 3 = none)) (by decide)
  simp only [decide_eq_true_eq] at hp
  exact ⟨s, tr, h, hp⟩

set_option maxRecDepth 20000 in
/-- The counterexample exists: with the range -3 .. 3, a thread of priority 3 that asks for its own priority gives -1. -/
example : ∃ s tr, Exec (cfg (-3) 3) s tr ∧ value 1 tr = some 3 ∧ Ev.done 1 (.create 2 INHERIT) (-1) ∈ tr := by
  obtain ⟨s, tr, h, hp⟩ := runSat_ex (step := TPrio.step (cfg (-3) 3)) (init := TPrio.init) (as := [.call 0 (.create 1 3), .go 0, .go 0, .call 1 (.create 2 INHERIT), .go 1, .go 1])
    (P := fun s tr => decide (value 1 tr = some 3 ∧ Ev.done 1 (.create 2 INHERIT) (-1) ∈ tr)) (by decide)
  simp only [decide_eq_true_eq] at hp
  exact ⟨s, tr, h, hp⟩

set_option maxRecDepth 20000 in
/-- "At some moment during the call" cannot be improved: thread 1 asks for its own priority for 2; it reads 5, then 3 sets 1 to 7 and 2 to 9, then 1 stores 5: afterwards
2 has the priority 1 had before both. -/
theorem C101_stale : ∃ s tr, Exec (cfg 1 9) s tr ∧ value 2 tr = some 5 ∧ ∃ a b c d, tr = a ++ [Ev.call 1 (.set 2 INHERIT)] ++ b ++ [Ev.done 3 (.set 1 7) 7] ++ c ++ [Ev.done 3 (.set 2 9) 9] ++ d ++ [Ev.done 1 (.set 2 INHERIT) 5] := by
  obtain ⟨s, tr, h, hp⟩ := runSat_ex (step := TPrio.step (cfg 1 9)) (init := TPrio.init)
    (as := [.call 0 (.create 1 5), .go 0, .go 0, .call 0 (.create 2 1), .go 0, .go 0, .call 0 (.create 3 1), .go 0, .go 0,
      .call 1 (.set 2 INHERIT), .go 1, .call 3 (.set 1 7), .go 3, .go 3, .call 3 (.set 2 9), .go 3, .go 3, .go 1])
    (P := fun s tr => decide (value 2 tr = some 5 ∧ tr.drop 6 = [.call 1 (.set 2 INHERIT), .call 3 (.set 1 7), .done 3 (.set 1 7) 7, .call 3 (.set 2 9), .done 3 (.set 2 9) 9, .done 1 (.set 2 INHERIT) 5])) (by decide)
  simp only [decide_eq_true_eq] at hp
  refine ⟨s, tr, h, hp.1, tr.take 6, [.call 3 (.set 1 7)], [.call 3 (.set 2 9)], [], ?_⟩
  have := List.take_append_drop 6 tr
  rw [hp.2] at this
  rw [← this]
  simp only [List.append_assoc, List.cons_append, List.nil_append, List.take_append_drop]
  rw [List.take_left' (by rw [List.length_take]; have := congrArg List.length hp.2; simp at this ⊢; omega)]

end Verif.Props.ThreadPriority
