import Verif.Proof.ThreadPoolClient
/- From the automata of `Verif/Spec/ThreadPool.lean` to lists of events. -/
namespace Verif.TP
open Verif
open _root_.Verif.Mtx (Tid)
open _root_.Verif.EvF (Tmo)
open Spec Lts Proto
set_option linter.unusedSimpArgs false
set_option linter.unusedVariables false

theorem snocInd {α : Type} {P : List α → Prop} (nil : P []) (snoc : ∀ l x, P l → P (l ++ [x])) (l : List α) : P l := by
  have h : ∀ l : List α, P l.reverse := by
    intro l
    induction l with
    | nil => exact nil
    | cons x l ih => rw [List.reverse_cons]; exact snoc _ x ih
  have := h l.reverse
  rwa [List.reverse_reverse] at this

/-! Rounds -/

def flat (d : Int) (i : Rid) (rs : List Round) : List Ev := (rs.map (Round.events d i)).flatten

theorem flat_snoc (d : Int) (i : Rid) (rs : List Round) (r : Round) : flat d i (rs ++ [r]) = flat d i rs ++ r.events d i := by simp [flat]

def first5 (d : Int) (i : Rid) (r : Round) : List Ev :=
  [.acc r.t i r.k r.g r.p, .begin i r.k r.p, .ended i r.k r.x, .reprio i d, if r.g.isSome then .note i else .back i none]

/-- The part of a round a phase stands for. -/
def Part (d : Int) (i : Rid) (pre : List Ev) : RP → Prop
  | .rest => pre = []
  | .accepted k g p => ∃ r : Round, r.k = k ∧ r.g = g ∧ r.p = p ∧ pre = (first5 d i r).take 1
  | .running k g => ∃ r : Round, r.k = k ∧ r.g = g ∧ pre = (first5 d i r).take 2
  | .ended g x => ∃ r : Round, r.g = g ∧ r.x = x ∧ pre = (first5 d i r).take 3
  | .reset g x => ∃ r : Round, r.g = g ∧ r.x = x ∧ pre = (first5 d i r).take 4
  | .told x => ∃ r : Round, (if x then r.x = true ∧ pre = first5 d i r else pre = first5 d i r ++ (if r.x then [.uncaught i] else []))
  | .dead => pre = [.kill i]
  | .bad => True

theorem bad_R (d : Int) (i : Rid) : ∀ tr : List Ev, tr.foldl (RP.next d i) .bad = .bad
  | [] => rfl
  | e :: tr => by
    have : RP.next d i .bad e = .bad := by
      cases e <;> simp [RP.next]
      next j g => cases g <;> simp
    rw [List.foldl_cons, this]; exact bad_R d i tr

theorem other_R {d : Int} {i : Rid} {e : Ev} (h : about i e = false) (r : RP) : RP.next d i r e = r := by
  cases e <;> simp_all [about, RP.next]
  next j g => cases g <;> simp_all [about]

theorem parsed {n : Nat} {d : Int} {i : Rid} (hi : i < n) (tr : List Ev) (h : rphase n d i tr ≠ .bad) :
    ∃ rs pre, tr.filter (about i) = flat d i rs ++ pre ∧ Part d i pre (rphase n d i tr) := by
  induction tr using snocInd with
  | nil => exact ⟨[], [], rfl, by simp [rphase, hi, Part]⟩
  | snoc tr e ih =>
    rw [rphase_app] at h ⊢
    have hb : rphase n d i tr ≠ .bad := by intro hb; rw [hb] at h; exact h (bad_R d i _)
    obtain ⟨rs, pre, h1, h2⟩ := ih hb
    rw [List.filter_append, h1]
    by_cases ha : about i e = true
    · simp only [List.filter_cons, ha, if_true, List.filter_nil, List.foldl_cons, List.foldl_nil] at h ⊢
      cases hr : rphase n d i tr with
      | rest =>
        rw [hr] at h h2; simp only [Part] at h2; subst h2
        cases e <;> simp_all [about, RP.next]
        case acc t j k g p => exact ⟨rs, [.acc t i k g p], by simp, ⟨t, k, g, p, false⟩, rfl, rfl, rfl, rfl⟩
        case back j g => cases g <;> simp_all [about]
        case kill j => exact ⟨rs, [.kill i], rfl, rfl⟩
      | accepted k g p =>
        rw [hr] at h h2; obtain ⟨r, rfl, rfl, rfl, rfl⟩ := h2
        cases e <;> simp_all [about, RP.next]
        case begin j k' p' => exact ⟨rs, (first5 d i r).take 2, by simp [first5], r, rfl, rfl, rfl⟩
        case back j g => cases g <;> simp_all [about]
      | running k g =>
        rw [hr] at h h2; obtain ⟨r, rfl, rfl, rfl⟩ := h2
        cases e <;> simp_all [about, RP.next]
        case ended j k' x => exact ⟨rs, (first5 d i { r with x := x }).take 3, by simp [first5], { r with x := x }, rfl, rfl, rfl⟩
        case back j g => cases g <;> simp_all [about]
      | ended g x =>
        rw [hr] at h h2; obtain ⟨r, rfl, rfl, rfl⟩ := h2
        cases e <;> simp_all [about, RP.next]
        case reprio j p => exact ⟨rs, (first5 d i r).take 4, by simp [first5], r, rfl, rfl, rfl⟩
        case back j g => cases g <;> simp_all [about]
      | reset g x =>
        rw [hr] at h h2; obtain ⟨r, rfl, rfl, rfl⟩ := h2
        cases e <;> simp_all [about, RP.next]
        case note j =>
          cases hg : r.g with
          | none => simp [hg] at h
          | some g => exact ⟨rs, first5 d i r, by simp [first5, hg], r, by cases hx : r.x <;> simp [hx]⟩
        case back j g =>
          cases g with
          | some g => simp_all [about]
          | none =>
            cases hg : r.g with
            | some g => simp_all
            | none => 
              simp_all [about]
              exact ⟨rs, first5 d i r, by simp [first5, hg], r, by cases hx : r.x <;> simp [hx]⟩
      | told x =>
        rw [hr] at h h2; obtain ⟨r, h2⟩ := h2
        cases e <;> simp_all [about, RP.next]
        case uncaught j =>
          subst h; obtain ⟨hx, rfl⟩ := h2
          exact ⟨rs, first5 d i r ++ [.uncaught i], by simp, r, by simp [hx]⟩
        case fin j =>
          subst h; subst h2
          exact ⟨rs ++ [r], [], by rw [flat_snoc]; simp [Round.events, first5], rfl⟩
        case back j g => cases g <;> simp_all [about]
      | dead =>
        rw [hr] at h
        cases e <;> simp_all [about, RP.next]
        case back j g => cases g <;> simp_all [about]
      | bad => exact absurd hr hb
    · simp only [List.filter_cons, ha, List.filter_nil, List.foldl_cons, List.foldl_nil]
      refine ⟨rs, pre, by simp, ?_⟩
      rw [other_R (by simpa using ha)]; exact h2

theorem idle_dead {n : Nat} {d : Int} {i : Rid} (hi : n ≤ i) (tr : List Ev) (h : rphase n d i tr ≠ .bad) :
    tr.filter (about i) = [] ∧ rphase n d i tr = .dead := by
  induction tr using snocInd with
  | nil => simp [rphase, Nat.not_lt.2 hi]
  | snoc tr e ih =>
    rw [rphase_app] at h ⊢
    have hb : rphase n d i tr ≠ .bad := by intro hb; rw [hb] at h; exact h (bad_R d i _)
    obtain ⟨h1, h2⟩ := ih hb
    rw [List.filter_append, h1]
    by_cases ha : about i e = true
    · exfalso
      rw [h2] at h
      cases e <;> simp_all [about, RP.next]
      case back j g => cases g <;> simp_all [about]
    · simp [List.filter_cons, ha, other_R (by simpa using ha), h2]

theorem absR_ne_bad {s : St} {i : Rid} (h : RShape s i) : absR s i ≠ .bad := by
  unfold RShape at h; unfold absR
  cases hw : s.w i <;> simp [hw]
  case pending =>
    cases ht : s.task i <;> simp
    cases ho : s.own i <;> simp [ho, hw, late, busyP, busyG, ht] at h

/-! Starts -/

/-- What a step adds to the trace, as far as calls are concerned. -/
inductive Form (s : St) (t : Tid) : List Ev → Prop where
  | call (c) : Form s t [.call t c]
  | lin (c o) (h : ¬ (isStart c = true ∧ o = .ok)) (hr : Results c o) : Form s t [.lin t c o]
  | acc (i k tm g p) (hp : s.pc t = .on (.start (some k) tm g p) (.sGo i)) : Form s t [.acc t i k g p, .lin t (.start (some k) tm g p) .ok]
  | back (i g) (hp : s.pc t = .on (.release g) (.rSend i)) : Form s t [.back i (some g), .lin t (.release g) .done]
  | drop (i c) (h : isStart c = true) (hr : Results c .timedOut) : Form s t [.drop t i, .lin t c .timedOut]
  | ret (c o) : Form s t [.ret t c o]

def quiet : Ev → Bool
  | .call .. | .lin .. | .ret .. | .acc .. | .drop .. | .back _ (some _) => false
  | _ => true

theorem form_of {n : Nat} {d : Int} {s s' : St} {tr ev : List Ev} {a : Act} (I : Inv n d s tr) (hs : TP.step s a = some (s', ev)) :
    (∃ t, Form s t ev) ∨ ∀ e, e ∈ ev → quiet e = true := by
  cases a with
  | call t c =>
    simp only [TP.step] at hs
    split at hs
    · simp only [Option.some.injEq, Prod.mk.injEq] at hs; obtain ⟨_, rfl⟩ := hs; exact Or.inl ⟨t, .call c⟩
    · simp at hs
  | pgo i =>
    right
    simp only [TP.step] at hs
    split at hs <;> (try split at hs) <;> simp only [Option.some.injEq, Prod.mk.injEq, reduceCtorEq] at hs <;>
      (try (obtain ⟨_, rfl⟩ := hs; intro e he; simp at he; try (subst he; rfl)))
  | throw i =>
    right
    simp only [TP.step] at hs
    split at hs <;> simp only [Option.some.injEq, Prod.mk.injEq, reduceCtorEq] at hs
    obtain ⟨_, rfl⟩ := hs; intro e he; simp at he; subst he; rfl
  | expire t =>
    simp only [TP.step] at hs
    split at hs
    · split at hs
      all_goals (try split at hs) <;> simp only [Option.some.injEq, Prod.mk.injEq, reduceCtorEq] at hs
      · obtain ⟨_, rfl⟩ := hs; exact Or.inl ⟨t, .lin _ _ (by simp) (by simp_all [Results])⟩
      · obtain ⟨_, rfl⟩ := hs; exact Or.inl ⟨t, .drop _ _ rfl (by simp_all [Results])⟩
      · obtain ⟨_, rfl⟩ := hs; exact Or.inl ⟨t, .lin _ _ (by simp) (by simp_all [Results])⟩
    · simp at hs
  | go t =>
    have hcs := I.st.cs t
    cases h0 : s.pc t with
    | idle => simp [TP.step, h0] at hs
    | on c q =>
      rw [h0] at hcs
      cases q with
      | ret o =>
        left
        cases c with
        | start k tm g p => cases k <;> simp only [TP.step, h0, Option.some.injEq, Prod.mk.injEq] at hs <;> (obtain ⟨_, rfl⟩ := hs; exact ⟨t, .ret _ _⟩)
        | _ => simp only [TP.step, h0, Option.some.injEq, Prod.mk.injEq] at hs; obtain ⟨_, rfl⟩ := hs; exact ⟨t, .ret _ _⟩
      | _ =>
        cases c with
        | start k tm g p =>
          cases k <;> simp only [CShape] at hcs <;> simp only [TP.step, h0] at hs
          all_goals (try split at hs) <;> simp only [Option.some.injEq, Prod.mk.injEq, reduceCtorEq] at hs
          all_goals (obtain ⟨_, rfl⟩ := hs)
          all_goals first
            | (right; simp; done)
            | (exact Or.inl ⟨t, .acc _ _ _ _ _ h0⟩)
            | (exfalso; simp_all; done)
            | (exact Or.inl ⟨t, .lin _ _ (by simp) (by simp [Results])⟩)
        | _ =>
          simp only [CShape] at hcs <;> simp only [TP.step, h0] at hs
          all_goals (repeat' split at hs) <;> simp only [Option.some.injEq, Prod.mk.injEq, reduceCtorEq] at hs
          all_goals (obtain ⟨_, rfl⟩ := hs)
          all_goals first
            | (right; simp [quiet]; done)
            | (exact Or.inl ⟨t, .back _ _ h0⟩)
            | (exact Or.inl ⟨t, .lin _ _ (by simp [isStart]) (by simp [Results])⟩)

def conv : Phase Call Out → CP
  | .out => .out
  | .called c => .called c
  | .done c o => .done c o
  | .bad => .bad

theorem quiet_C {e : Ev} (h : quiet e = true) (t : Tid) (r : CP) : CP.next t r e = r := by cases e <;> simp_all [quiet, CP.next]
theorem quiet_P {e : Ev} (h : quiet e = true) (t : Tid) (r : Phase Call Out) : Phase.next view t r e = r := by cases e <;> simp_all [quiet, Phase.next, view]

theorem cphase_app (t : Tid) (tr ev : List Ev) : cphase t (tr ++ ev) = ev.foldl (CP.next t) (cphase t tr) := by simp [cphase]

theorem cphase_conv {n : Nat} {d : Int} {s : St} {tr : List Ev} (h : Reach TP.step (TP.init n d) s tr) (t : Tid) :
    cphase t tr = conv (phase t tr) ∧ phase t tr ≠ .bad := by
  have nb : ∀ {s tr}, Reach TP.step (TP.init n d) s tr → phase t tr ≠ .bad := by
    intro s tr h; rw [(Inv.reach h).tc.loc t]; cases s.pc t with
    | idle => simp [shape]
    | on c p => cases p <;> simp [shape]
  refine ⟨?_, nb h⟩
  induction h with
  | init => rfl
  | @step s tr a s' ev h1 hs ih =>
    have I := Inv.reach h1
    have nb' := nb (Reach.step h1 hs)
    rw [cphase_app, ih]
    rw [phase_app] at nb' ⊢
    rcases form_of I hs with ⟨u, hf⟩ | hq
    · generalize hph : phase t tr = ph at *
      by_cases e : u = t
      · subst e
        cases hf <;> cases ph <;> simp_all [Phase.next, view, Phase.pnext, CP.next, conv] <;> (try (split at nb' <;> simp_all [conv]))
      · cases hf <;> simp [Phase.next, view, Phase.pnext, CP.next, e]
    · rw [fold_same fun e he r => quiet_C (hq e he) t r, fold_same fun e he r => quiet_P (hq e he) t r]

theorem results {n : Nat} {d : Int} {s : St} {tr : List Ev} (h : Reach TP.step (TP.init n d) s tr) {t : Tid} {c : Call} {o : Out}
    (hm : .lin t c o ∈ tr) : Results c o := by
  induction h with
  | init => simp at hm
  | @step s tr a s' ev h1 hs ih =>
    rw [List.mem_append] at hm
    rcases hm with hm | hm
    · exact ih hm
    · rcases form_of (Inv.reach h1) hs with ⟨u, hf⟩ | hq
      · cases hf <;> simp at hm
        case lin c o h hr => obtain ⟨_, rfl, rfl⟩ := hm; exact hr
        case acc => obtain ⟨_, rfl, rfl⟩ := hm; exact Or.inl rfl
        case back => obtain ⟨_, rfl, rfl⟩ := hm; exact rfl
        case drop c h hr => obtain ⟨_, rfl, rfl⟩ := hm; exact hr
      · have := hq _ hm; simp [quiet] at this

/-- The calls, returns and accepted tasks of `t`. -/
def ofT (t : Tid) : Ev → Bool
  | .call u _ | .ret u _ _ | .acc u _ _ _ _ => u == t
  | _ => false

theorem bad_C (t : Tid) : ∀ tr : List Ev, tr.foldl (CP.next t) .bad = .bad
  | [] => rfl
  | e :: tr => by
    have : CP.next t .bad e = .bad := by cases e <;> simp [CP.next]
    rw [List.foldl_cons, this]; exact bad_C t tr

def Called (t : Tid) (tr : List Ev) (c : Call) : Prop := ∃ a b, tr = a ++ .call t c :: b ∧ ∀ x, x ∈ b → ofT t x = false
def Got (t : Tid) (tr : List Ev) (c : Call) : Prop := ∃ a b b' k tm g p i, c = .start (some k) tm g p ∧ tr = a ++ .call t c :: (b ++ .acc t i k g p :: b') ∧
  (∀ x, x ∈ b → ofT t x = false) ∧ ∀ x, x ∈ b' → ofT t x = false

def CSays (t : Tid) (tr : List Ev) : CP → Prop
  | .called c => Called t tr c
  | .got c _ => Got t tr c
  | .done c o => if isStart c = true ∧ o = .ok then Got t tr c else Called t tr c
  | _ => True

theorem Called.snoc {t : Tid} {tr : List Ev} {c : Call} {e : Ev} (h : Called t tr c) (he : ofT t e = false) : Called t (tr ++ [e]) c := by
  obtain ⟨a, b, rfl, h⟩ := h
  refine ⟨a, b ++ [e], by simp, ?_⟩
  intro x hx; simp at hx; rcases hx with hx | rfl
  · exact h x hx
  · exact he
theorem Got.snoc {t : Tid} {tr : List Ev} {c : Call} {e : Ev} (h : Got t tr c) (he : ofT t e = false) : Got t (tr ++ [e]) c := by
  obtain ⟨a, b, b', k, tm, g, p, i, h0, rfl, h1, h2⟩ := h
  refine ⟨a, b, b' ++ [e], k, tm, g, p, i, h0, by simp, h1, ?_⟩
  intro x hx; simp at hx; rcases hx with hx | rfl
  · exact h2 x hx
  · exact he

theorem csays {t : Tid} (tr : List Ev) (h : cphase t tr ≠ .bad) : CSays t tr (cphase t tr) := by
  induction tr using snocInd with
  | nil => trivial
  | snoc tr e ih =>
    have hb : cphase t tr ≠ .bad := by intro hb; rw [cphase_app, hb] at h; exact h (bad_C t _)
    have ih := ih hb
    rw [cphase_app] at h ⊢
    simp only [List.foldl_cons, List.foldl_nil] at h ⊢
    have keep : ofT t e = false → CP.next t (cphase t tr) e = cphase t tr → CSays t (tr ++ [e]) (CP.next t (cphase t tr) e) := by
      intro h1 h2
      rw [h2]
      cases hc : cphase t tr with
      | out => trivial
      | bad => trivial
      | called c => rw [hc] at ih; exact Called.snoc ih h1
      | got c i => rw [hc] at ih; exact Got.snoc ih h1
      | done c o =>
        rw [hc] at ih; simp only [CSays] at ih ⊢
        split at ih
        · next hh => rw [if_pos hh]; exact Got.snoc ih h1
        · next hh => rw [if_neg hh]; exact Called.snoc ih h1
    cases e with
    | call u c =>
      by_cases hu : u = t
      · subst hu
        cases hc : cphase u tr <;> simp [CP.next, hc] at h ⊢
        exact ⟨tr, [], rfl, by simp⟩
      · exact keep (by simp [ofT, hu]) (by simp [CP.next, hu])
    | acc u i k g p =>
      by_cases hu : u = t
      · subst hu
        cases hc : cphase u tr with
        | called c =>
          rw [hc] at ih h
          cases c with
          | start k' tm g' p' =>
            simp [CP.next] at h ⊢
            obtain ⟨rfl, rfl, rfl⟩ := h
            obtain ⟨a, b, rfl, hb'⟩ := ih
            simp [CSays]
            exact ⟨a, b, [], k, tm, g', p', i, rfl, by simp, hb', by simp⟩
          | _ => simp [CP.next] at h
        | _ => rw [hc] at h; simp [CP.next] at h
      · exact keep (by simp [ofT, hu]) (by simp [CP.next, hu])
    | lin u c o =>
      by_cases hu : u = t
      · subst hu
        cases hc : cphase u tr with
        | called c' =>
          rw [hc] at ih h
          simp only [CP.next, if_true] at h ⊢
          split at h
          · next h' =>
            obtain ⟨rfl, h'⟩ := h'
            simp only [CSays, h', if_false] at ih ⊢
            simp only [h', not_false_eq_true, and_self, if_true, if_false]
            exact Called.snoc ih rfl
          · simp at h
        | got c' i =>
          rw [hc] at ih h
          simp only [CP.next, if_true] at h ⊢
          split at h
          · next h' =>
            obtain ⟨rfl, rfl⟩ := h'
            obtain ⟨a, b, b', k, tm, g, p, i', rfl, h1, h2⟩ := ih
            simp only [CSays, isStart, and_self, if_true]
            exact Got.snoc ⟨a, b, b', k, tm, g, p, i', rfl, h1, h2⟩ rfl
          · simp at h
        | _ => rw [hc] at h; simp [CP.next] at h
      · exact keep rfl (by simp [CP.next, hu])
    | ret u c o =>
      by_cases hu : u = t
      · subst hu
        cases hc : cphase u tr <;> simp [CP.next, hc] at h ⊢
        next c' o' =>
          by_cases hh : c' = c ∧ o' = o
          · simp [hh, CSays]
          · simp [hh] at h
      · exact keep (by simp [ofT, hu]) (by simp [CP.next, hu])
    | _ => exact keep rfl rfl

/-- At a return. -/
theorem at_ret {n : Nat} {d : Int} {s : St} {tr : List Ev} (h : Reach TP.step (TP.init n d) s tr) {a b : List Ev} {t : Tid} {c : Call} {o : Out}
    (e : tr = a ++ .ret t c o :: b) : CSays t a (.done c o) := by
  obtain ⟨h1, h2⟩ := cphase_conv h t
  have hne : cphase t tr ≠ .bad := by rw [h1]; cases hp : phase t tr <;> simp [conv]; exact h2 hp
  rw [e, cphase_app, List.foldl_cons] at hne
  have ha : cphase t a ≠ .bad := by
    intro hb; rw [hb] at hne; exact hne (by rw [show CP.next t .bad (.ret t c o) = .bad by simp [CP.next]]; exact bad_C t b)
  have hd : cphase t a = .done c o := by
    apply Classical.byContradiction
    intro hd
    apply hne
    rw [show CP.next t (cphase t a) (.ret t c o) = .bad by simp [CP.next, hd]]; exact bad_C t b
  rw [← hd]; exact csays a ha

theorem at_acc {n : Nat} {d : Int} {s : St} {tr : List Ev} (h : Reach TP.step (TP.init n d) s tr) {a b : List Ev} {t : Tid} {i k g p}
    (e : tr = a ++ .acc t i k g p :: b) : ∃ tm, CSays t a (.called (.start (some k) tm g p)) := by
  obtain ⟨h1, h2⟩ := cphase_conv h t
  have hne : cphase t tr ≠ .bad := by rw [h1]; cases hp : phase t tr <;> simp [conv]; exact h2 hp
  rw [e, cphase_app, List.foldl_cons] at hne
  have ha : cphase t a ≠ .bad := by
    intro hb; rw [hb] at hne; exact hne (by rw [show CP.next t .bad (.acc t i k g p) = .bad by simp [CP.next]]; exact bad_C t b)
  have hd : ∃ tm, cphase t a = .called (.start (some k) tm g p) := by
    apply Classical.byContradiction
    intro hd
    apply hne
    have : CP.next t (cphase t a) (.acc t i k g p) = .bad := by
      cases hc : cphase t a with
      | called c =>
        cases c with
        | start k' tm g' p' =>
          simp only [CP.next, if_true]
          split
          · next h' => obtain ⟨rfl, rfl, rfl⟩ := h'; exact absurd ⟨tm, hc⟩ hd
          · rfl
        | _ => simp [CP.next]
      | _ => simp [CP.next]
    rw [this]; exact bad_C t b
  obtain ⟨tm, hd⟩ := hd
  exact ⟨tm, by rw [← hd]; exact csays a ha⟩

end Verif.TP
namespace Verif.TP
open Verif
open _root_.Verif.Mtx (Tid)
open _root_.Verif.EvF (Tmo)
open Spec Lts Proto

/-- A position in a trace as a step. -/
theorem split_step {σ α ε : Type} {step : σ → α → Option (σ × List ε)} {init : σ} {s : σ} {tr : List ε} (h : Reach step init s tr) :
    ∀ {a b : List ε} {e : ε}, tr = a ++ e :: b → ∃ s1 tr1 act s2 ev e1 e2, Reach step init s1 tr1 ∧ step s1 act = some (s2, ev) ∧ ev = e1 ++ e :: e2 ∧ a = tr1 ++ e1 := by
  induction h with
  | init => intro a b e h; simp at h
  | @step s1 tr1 act s2 ev h1 hs ih =>
    intro a b e he
    rcases List.append_eq_append_iff.1 he with ⟨c, rfl, h2⟩ | ⟨c, h2, h3⟩
    · exact ⟨s1, tr1, act, s2, ev, c, b, h1, hs, h2, rfl⟩
    · cases c with
      | nil =>
        simp at h2 h3
        exact ⟨s1, tr1, act, s2, ev, [], b, h1, hs, by rw [← h3]; rfl, by simp [h2]⟩
      | cons x c =>
        simp at h3; obtain ⟨rfl, h3⟩ := h3
        exact ih h2

/-- What others can do to a working pool thread. -/
theorem w_step {s s' : St} {a : Act} {ev : List Ev} {i : Rid} (hs : TP.step s a = some (s', ev)) (h1 : a ≠ .pgo i) (h2 : a ≠ .throw i) (h3 : s.w i ≠ .finished) :
    s'.w i = s.w i := by
  have upd' : ∀ j w, (j = i → s.w i = w) → upd s.w j w i = s.w i := by
    intro j w h
    by_cases e : i = j
    · subst e; rw [upd_same, h rfl]
    · rw [upd_ne _ _ e]
  cases a with
  | call t c =>
    simp only [TP.step] at hs
    split at hs
    · simp only [Option.some.injEq, Prod.mk.injEq] at hs; obtain ⟨rfl, _⟩ := hs; rfl
    · simp at hs
  | expire t =>
    simp only [TP.step] at hs
    split at hs
    · split at hs
      all_goals (try split at hs) <;> simp only [Option.some.injEq, Prod.mk.injEq, reduceCtorEq] at hs
      all_goals (obtain ⟨rfl, _⟩ := hs; rfl)
    · simp at hs
  | throw j =>
    have hj : i ≠ j := by rintro rfl; exact h2 rfl
    simp only [TP.step] at hs
    split at hs <;> simp only [Option.some.injEq, Prod.mk.injEq, reduceCtorEq] at hs
    obtain ⟨rfl, _⟩ := hs; simp only [St.wAt]; rw [upd_ne _ _ hj]
  | pgo j =>
    have hj : i ≠ j := by rintro rfl; exact h1 rfl
    simp only [TP.step] at hs
    split at hs <;> (try split at hs) <;> simp only [Option.some.injEq, Prod.mk.injEq, reduceCtorEq] at hs <;>
      (obtain ⟨rfl, _⟩ := hs; simp only [St.wAt, St.evAt, St.ownAt]; rw [upd_ne _ _ hj])
  | go t =>
    simp only [TP.step] at hs
    split at hs
    · simp at hs
    · split at hs
      all_goals (repeat' split at hs) <;> simp only [Option.some.injEq, Prod.mk.injEq, reduceCtorEq] at hs
      all_goals (obtain ⟨rfl, _⟩ := hs)
      all_goals first
        | rfl
        | (simp only [St.wAt, St.ownAt, St.at]; rw [upd_ne]; rintro rfl; exact h3 (by assumption))

/-- How far a pool thread is from being finished. -/
def rank : W → Nat
  | .dead => 0
  | .finished => 0
  | .over => 1
  | .leave _ => 2
  | .notify _ => 3
  | .send _ => 3
  | .reset _ => 4
  | .branch _ => 5
  | .prio _ => 6
  | .inTask _ => 7
  | .pending => 8

theorem rank_zero {w : W} (h : rank w = 0) : w = .finished ∨ w = .dead := by cases w <;> simp [rank] at h ⊢

theorem rank_throw {s s' : St} {i : Rid} {ev : List Ev} (hs : TP.step s (.throw i) = some (s', ev)) : rank (s'.w i) < rank (s.w i) := by
  simp only [TP.step] at hs
  split at hs <;> simp only [Option.some.injEq, Prod.mk.injEq, reduceCtorEq] at hs
  next hw => obtain ⟨rfl, _⟩ := hs; simp [St.wAt, hw, rank]

theorem rank_pgo {s s' : St} {i : Rid} {ev : List Ev} (hs : TP.step s (.pgo i) = some (s', ev)) : rank (s'.w i) < rank (s.w i) := by
  simp only [TP.step] at hs
  cases hw : s.w i <;> simp only [hw] at hs <;> (try split at hs) <;> simp only [Option.some.injEq, Prod.mk.injEq, reduceCtorEq] at hs <;>
    (obtain ⟨rfl, _⟩ := hs; simp [St.wAt, St.evAt, St.ownAt, rank]) <;> (try (split <;> simp [rank]))

theorem rank_step {s s' : St} {a : Act} {ev : List Ev} {i : Rid} (hs : TP.step s a = some (s', ev)) (h3 : s.w i ≠ .finished) :
    rank (s'.w i) ≤ rank (s.w i) := by
  by_cases h1 : a = .pgo i
  · subst h1; exact Nat.le_of_lt (rank_pgo hs)
  · by_cases h2 : a = .throw i
    · subst h2; exact Nat.le_of_lt (rank_throw hs)
    · rw [w_step hs h1 h2 h3]; exact Nat.le_refl _

theorem nodup_len : ∀ (n : Nat) (l : List Nat), l.Nodup → (∀ x, x ∈ l → x < n) → l.length ≤ n
  | 0, l, _, h => by
    cases l with
    | nil => exact Nat.le_refl _
    | cons x l => exact absurd (h x (by simp)) (Nat.not_lt_zero x)
  | n + 1, l, hn, h => by
    have := nodup_len n (l.erase n) (hn.erase n) (fun x hx => by
      have h1 := h x (List.mem_of_mem_erase hx)
      have h2 : x ≠ n := by rintro rfl; exact (hn.mem_erase_iff.1 hx).1 rfl
      omega)
    rw [List.length_erase] at this
    split at this <;> omega

/-- The queue has room for whoever is not in it. -/
theorem Stat.room {n : Nat} {d : Int} {s : St} (S : Stat n d s) {i : Rid} (hi : i < n) (ho : s.own i ≠ .free) : s.free.length < s.n := by
  have hsub : ∀ x, x ∈ i :: s.free → x < n := by
    intro x hx; simp at hx
    rcases hx with rfl | hx
    · exact hi
    · apply Classical.byContradiction
      intro hn
      have := S.od x (Nat.le_of_not_lt hn); rw [(S.fo x).1 hx] at this; simp at this
  have hnd : (i :: s.free).Nodup := List.nodup_cons.2 ⟨fun h => ho ((S.fo i).1 h), S.fr⟩
  have := nodup_len n _ hnd hsub
  simp at this; rw [S.cn]; omega

theorem Stat.lt {n : Nat} {d : Int} {s : St} (S : Stat n d s) {i : Rid} (ho : s.own i ≠ .dead) : i < n := by
  apply Classical.byContradiction; intro h; exact ho (S.od i (Nat.le_of_not_lt h))

/-- A working thread can go on. -/
theorem Stat.pgo {n : Nat} {d : Int} {s : St} (S : Stat n d s) {i : Rid} (hr : rank (s.w i) ≠ 0) : TP.step s (.pgo i) ≠ none := by
  have R := S.rs i
  cases hw : s.w i <;> simp [TP.step, hw, rank] at hr ⊢
  case pending =>
    cases ht : s.task i <;> simp
  case send x =>
    have ho : s.own i = .pool := by
      unfold RShape at R; cases ho : s.own i <;> simp [ho, hw, late, busyG] at R
      rfl
    exact S.room (S.lt (by rw [ho]; simp)) (by rw [ho]; simp)

/-! The automaton of a pool thread along a piece of a trace -/

theorem accepted_fold {d : Int} {i : Rid} {k : Task} {g : Option Gid} {p : Int} : ∀ ev : List Ev, ev.foldl (RP.next d i) (.accepted k g p) ≠ .bad →
    ev.foldl (RP.next d i) (.accepted k g p) = .accepted k g p ∨ .begin i k p ∈ ev
  | [], _ => Or.inl rfl
  | e :: ev, h => by
    by_cases ha : about i e = true
    · rw [List.foldl_cons] at h
      by_cases hb : e = .begin i k p
      · simp [hb]
      · exfalso; apply h
        rw [show RP.next d i (.accepted k g p) e = .bad by
          cases e <;> simp_all [about, RP.next]
          case back j g => cases g <;> simp_all [about]]
        exact bad_R d i ev
    · rw [List.foldl_cons, other_R (by simpa using ha)] at h ⊢
      rcases accepted_fold ev h with h' | h'
      · exact Or.inl h'
      · exact Or.inr (by simp [h'])

def idleR : RP → Bool
  | .rest | .dead => true
  | _ => false

theorem fin_one {d : Int} {i : Rid} {r : RP} {e : Ev} (h : idleR r = false) (hf : e ≠ .fin i) : idleR (RP.next d i r e) = false := by
  by_cases ha : about i e = true
  · cases e <;> simp only [about, beq_iff_eq, Bool.false_eq_true] at ha
    case back j g =>
      cases g with
      | some g => simp at ha
      | none =>
        simp at ha; subst ha
        cases r <;> simp [RP.next, idleR] at h ⊢
        next g x => cases g <;> simp [idleR]
    case note j =>
      subst ha
      cases r <;> simp [RP.next, idleR] at h ⊢
      next g x => cases g <;> simp [idleR]
    case fin j => subst ha; exact absurd rfl hf
    case uncaught j => subst ha; cases r <;> simp [RP.next, idleR] at h ⊢; (split <;> (rename_i hh; split at hh <;> simp_all))
    case acc t j k g p => subst ha; cases r <;> simp [RP.next, idleR] at h ⊢
    case kill j => subst ha; cases r <;> simp [RP.next, idleR] at h ⊢
    case begin j k p => subst ha; cases r <;> simp [RP.next, idleR] at h ⊢; (split <;> (rename_i hh; split at hh <;> simp_all))
    case ended j k x => subst ha; cases r <;> simp [RP.next, idleR] at h ⊢; (split <;> (rename_i hh; split at hh <;> simp_all))
    case reprio j p => subst ha; cases r <;> simp [RP.next, idleR] at h ⊢; (split <;> (rename_i hh; split at hh <;> simp_all))
  · rw [other_R (by simpa using ha)]; exact h

theorem fin_fold {d : Int} {i : Rid} : ∀ (ev : List Ev) (r : RP), idleR r = false → idleR (ev.foldl (RP.next d i) r) = true → .fin i ∈ ev
  | [], r, h, h' => by rw [List.foldl_nil, h] at h'; simp at h'
  | e :: ev, r, h, h' => by
    rw [List.foldl_cons] at h'
    by_cases hf : e = .fin i
    · simp [hf]
    · have := fin_fold ev _ (fin_one h hf) h'
      simp [this]

end Verif.TP
