import Verif.Proof.ThreadPoolTrace
/- What calls with a guard find, judging by the trace. -/
namespace Verif.TP
open Verif
open _root_.Verif.Mtx (Tid)
open _root_.Verif.EvF (Tmo)
open Spec Lts Proto
set_option linter.unusedSimpArgs false
set_option linter.unusedVariables false

theorem Inv.gp_busy {n : Nat} {d : Int} {s : St} {tr : List Ev} (I : Inv n d s tr) {g : Gid} {i : Rid} (h : gphase g tr = .busy i) :
    s.own i = .guard g ∧ early (s.w i) = true := by
  by_cases h1 : ∃ j, s.own j = .guard g
  · obtain ⟨j, hj⟩ := h1
    have := I.tc.g1 g j hj
    rw [h] at this; split at this <;> simp at this
    next he => subst this; exact ⟨hj, he⟩
  · by_cases h2 : ∃ j t q, s.own j = .rel t ∧ s.pc t = .on (.release g) q
    · obtain ⟨j, t, q, h3, h4⟩ := h2
      have := I.tc.g2 g j t q h3 h4; rw [h] at this; simp at this
    · have := I.tc.g3 g (fun j hj => h1 ⟨j, hj⟩) (fun j t q h3 h4 => h2 ⟨j, t, q, h3, h4⟩)
      rw [h] at this; simp at this

theorem Inv.gp_over {n : Nat} {d : Int} {s : St} {tr : List Ev} (I : Inv n d s tr) {g : Gid} {i : Rid} (h : gphase g tr = .over i) :
    s.own i = .guard g ∧ early (s.w i) = false ∨ ∃ t q, s.own i = .rel t ∧ s.pc t = .on (.release g) q := by
  by_cases h1 : ∃ j, s.own j = .guard g
  · obtain ⟨j, hj⟩ := h1
    have := I.tc.g1 g j hj
    rw [h] at this; split at this <;> simp at this
    next he => subst this; exact Or.inl ⟨hj, by simpa using he⟩
  · by_cases h2 : ∃ j t q, s.own j = .rel t ∧ s.pc t = .on (.release g) q
    · obtain ⟨j, t, q, h3, h4⟩ := h2
      have := I.tc.g2 g j t q h3 h4; rw [h] at this; simp at this; subst this; exact Or.inr ⟨t, q, h3, h4⟩
    · have := I.tc.g3 g (fun j hj => h1 ⟨j, hj⟩) (fun j t q h3 h4 => h2 ⟨j, t, q, h3, h4⟩)
      rw [h] at this; simp at this

theorem Inv.gp_bad {n : Nat} {d : Int} {s : St} {tr : List Ev} (I : Inv n d s tr) (g : Gid) : gphase g tr ≠ .bad := by
  intro h
  by_cases h1 : ∃ j, s.own j = .guard g
  · obtain ⟨j, hj⟩ := h1
    have := I.tc.g1 g j hj
    rw [h] at this; split at this <;> simp at this
  · by_cases h2 : ∃ j t q, s.own j = .rel t ∧ s.pc t = .on (.release g) q
    · obtain ⟨j, t, q, h3, h4⟩ := h2
      have := I.tc.g2 g j t q h3 h4; rw [h] at this; simp at this
    · have := I.tc.g3 g (fun j hj => h1 ⟨j, hj⟩) (fun j t q h3 h4 => h2 ⟨j, t, q, h3, h4⟩)
      rw [h] at this; simp at this

theorem Inv.gp_own {n : Nat} {d : Int} {s : St} {tr : List Ev} (I : Inv n d s tr) {g : Gid} {i : Rid} (h : s.own i = .guard g) : gphase g tr ≠ .free := by
  rw [I.tc.g1 g i h]; split <;> simp

/-- A call that uses a guard and finds it invalid. -/
theorem Inv.gp_none {n : Nat} {d : Int} {s : St} {tr : List Ev} (I : Inv n d s tr) {t : Tid} {c : Call} {q : Pos} {g : Gid} {b : Bool} (h0 : s.pc t = .on c q)
    (hc : uses c = some (g, b)) (hq : ∀ i, q ≠ .sGuard i) (hr : rhold (.on c q) = none) (hg : s.guard g = none) : gphase g tr = .free := by
  have S := I.st
  refine I.tc.g3 g ?_ ?_
  · intro j hj
    rcases S.gs2 g j hj with h | ⟨u, k, tm, p, h⟩
    · rw [hg] at h; simp at h
    · have hu : t ≠ u := by rintro rfl; rw [h0] at h; simp at h; exact hq j h.2
      exact S.ex u t g (Ne.symm hu) ⟨_, _, h, rfl⟩ ⟨c, q, b, h0, hc⟩
  · intro j u q' hj h
    have hu : t ≠ u := by rintro rfl; have := S.hr j t hj; rw [h0, hr] at this; simp at this
    exact S.ex u t g (Ne.symm hu) ⟨_, _, h, rfl⟩ ⟨c, q, b, h0, hc⟩

theorem Inv.gp_clear {n : Nat} {d : Int} {s : St} {tr : List Ev} (I : Inv n d s tr) {t : Tid} {g : Gid} (h0 : s.pc t = .on (.release g) .rClear) :
    gphase g tr = .free := by
  have S := I.st
  have hcs := S.cs t; rw [h0] at hcs
  refine I.tc.g3 g hcs ?_
  intro j u q' hj h
  have hu : t ≠ u := by rintro rfl; have := S.hr j t hj; rw [h0] at this; simp [rhold] at this
  exact S.ex u t g (Ne.symm hu) ⟨_, _, h, rfl⟩ ⟨_, _, _, h0, rfl⟩

theorem quiet_G {g : Gid} : ∀ (ev : List Ev) (r : GP), (∀ e, e ∈ ev → quiet e = true) →
    ev.foldl (GP.next g) r = r ∨ ∃ i, r = .busy i ∧ ev.foldl (GP.next g) r = .over i
  | [], r, _ => Or.inl rfl
  | e :: ev, r, h => by
    rw [List.foldl_cons]
    have h1 : GP.next g r e = r ∨ ∃ i, r = .busy i ∧ GP.next g r e = .over i := by
      have := h e (by simp)
      cases e <;> simp [quiet] at this <;> simp [GP.next]
      case ended i k x => by_cases hr : r = .busy i <;> simp [hr]
      case back i g' => cases g' <;> simp_all
    have ih := quiet_G (g := g) ev (GP.next g r e) (fun x hx => h x (by simp [hx]))
    rcases h1 with h1 | ⟨i, h1, h2⟩
    · rw [h1] at ih ⊢; exact ih
    · rw [h2] at ih ⊢
      rcases ih with ih | ⟨j, ih, _⟩
      · exact Or.inr ⟨i, h1, ih⟩
      · simp at ih

/-- While a call uses a guard, others do not change it. -/
theorem Inv.gstable {n : Nat} {d : Int} {s s' : St} {tr ev : List Ev} {a : Act} (I : Inv n d s tr) (hs : TP.step s a = some (s', ev)) {t : Tid} {c : Call} {q : Pos}
    {g : Gid} {b : Bool} (h0 : s.pc t = .on c q) (hc : uses c = some (g, b)) (h1 : ∀ i, q ≠ .sGo i) (h2 : ∀ i, q ≠ .rSend i) :
    gphase g (tr ++ ev) = gphase g tr ∨ ∃ i, gphase g tr = .busy i ∧ gphase g (tr ++ ev) = .over i := by
  rw [gphase_app]
  rcases form_of I hs with ⟨u, hf⟩ | hq
  · left
    cases hf with
    | call c => rfl
    | lin c o => rfl
    | acc i k tm g' p hp =>
      have hu : u ≠ t := by rintro rfl; rw [h0] at hp; simp at hp; exact h1 i hp.2
      cases g' with
      | none => rfl
      | some g' =>
        have : g' ≠ g := by
          rintro rfl; exact I.st.ex u t g' hu ⟨_, _, hp, rfl⟩ ⟨_, _, _, h0, hc⟩
        simp [GP.next, this]
    | back i g' hp =>
      have hu : u ≠ t := by rintro rfl; rw [h0] at hp; simp at hp; exact h2 i hp.2
      have : g' ≠ g := by
        rintro rfl; exact I.st.ex u t g' hu ⟨_, _, hp, rfl⟩ ⟨_, _, _, h0, hc⟩
      simp [GP.next, this]
    | drop i c => rfl
    | ret c o => rfl
  · exact quiet_G ev _ hq

/-- What a call that is about to return has found. -/
def RetOk (tr : List Ev) : PC → Prop
  | .on (.wait g _) (.ret .ok) => ∀ i, gphase g tr ≠ .busy i
  | .on (.wait g _) (.ret .timedOut) => gphase g tr ≠ .free
  | .on (.isValid g) (.ret (.valid b)) => b = true ↔ gphase g tr ≠ .free
  | .on (.release g) (.ret _) => gphase g tr = .free
  | _ => True

theorem RetOk.stable {n : Nat} {d : Int} {s s' : St} {tr ev : List Ev} {a : Act} (I : Inv n d s tr) (hs : TP.step s a = some (s', ev)) {t : Tid}
    (h : RetOk tr (s.pc t)) : RetOk (tr ++ ev) (s.pc t) := by
  cases h0 : s.pc t with
  | idle => trivial
  | on c q =>
    rw [h0] at h
    cases q with
    | ret o =>
      have st := fun g b (hc : uses c = some (g, b)) => I.gstable hs h0 hc (by simp) (by simp)
      cases c with
      | wait g tm =>
        cases o <;> simp only [RetOk] at h ⊢
        · rcases st g _ rfl with e | ⟨i, e, e'⟩
          · rw [e]; exact h
          · exact absurd e (h i)
        · rcases st g _ rfl with e | ⟨i, e, e'⟩
          · rw [e]; exact h
          · rw [e']; simp
      | isValid g =>
        cases o <;> simp only [RetOk] at h ⊢
        rcases st g _ rfl with e | ⟨i, e, e'⟩
        · rw [e]; exact h
        · rw [e'] ; rw [e] at h; simpa using h
      | release g =>
        simp only [RetOk] at h ⊢
        rcases st g _ rfl with e | ⟨i, e, e'⟩
        · rw [e]; exact h
        · rw [e] at h; simp at h
      | _ => trivial
    | _ => cases c <;> trivial

theorem pc_other {s s' : St} {ev : List Ev} {a : Act} (hs : TP.step s a = some (s', ev)) {t : Tid} (h1 : a ≠ .go t) (h2 : a ≠ .expire t) (h3 : ∀ c, a ≠ .call t c) :
    s'.pc t = s.pc t := by
  cases a with
  | call u c =>
    have hu : t ≠ u := by rintro rfl; exact h3 c rfl
    simp only [TP.step] at hs
    split at hs
    · simp only [Option.some.injEq, Prod.mk.injEq] at hs; obtain ⟨rfl, _⟩ := hs; simp only [St.at]; rw [upd_ne _ _ hu]
    · simp at hs
  | expire u =>
    have hu : t ≠ u := by rintro rfl; exact h2 rfl
    simp only [TP.step] at hs
    split at hs
    · split at hs
      all_goals (try split at hs) <;> simp only [Option.some.injEq, Prod.mk.injEq, reduceCtorEq] at hs
      all_goals (obtain ⟨rfl, _⟩ := hs; simp only [St.at, St.ownAt]; rw [upd_ne _ _ hu])
    · simp at hs
  | throw j =>
    simp only [TP.step] at hs
    split at hs <;> simp only [Option.some.injEq, Prod.mk.injEq, reduceCtorEq] at hs
    obtain ⟨rfl, _⟩ := hs; rfl
  | pgo j =>
    simp only [TP.step] at hs
    split at hs <;> (try split at hs) <;> simp only [Option.some.injEq, Prod.mk.injEq, reduceCtorEq] at hs <;>
      (obtain ⟨rfl, _⟩ := hs; rfl)
  | go u =>
    have hu : t ≠ u := by rintro rfl; exact h1 rfl
    simp only [TP.step] at hs
    split at hs
    · simp at hs
    · split at hs
      all_goals (repeat' split at hs) <;> simp only [Option.some.injEq, Prod.mk.injEq, reduceCtorEq] at hs
      all_goals (obtain ⟨rfl, _⟩ := hs; simp only [St.at, St.ownAt, St.evAt, St.wAt] <;> first | rfl | rw [upd_ne _ _ hu])

theorem retOk {n : Nat} {d : Int} {s : St} {tr : List Ev} (h : Reach TP.step (TP.init n d) s tr) (t : Tid) : RetOk tr (s.pc t) := by
  induction h with
  | init => trivial
  | @step s tr a s' ev h1 hs ih =>
    have I := Inv.reach h1
    have keep : s'.pc t = s.pc t → RetOk (tr ++ ev) (s'.pc t) := fun e => by rw [e]; exact RetOk.stable I hs ih
    by_cases hc : ∃ c, a = .call t c
    · obtain ⟨c, rfl⟩ := hc
      simp only [TP.step] at hs
      split at hs
      · simp only [Option.some.injEq, Prod.mk.injEq] at hs; obtain ⟨rfl, _⟩ := hs
        simp only [St.at]; rw [upd_same]; cases c <;> trivial
      · simp at hs
    by_cases he : a = .expire t
    · subst he
      cases h0 : s.pc t with
      | idle => simp [TP.step, h0] at hs
      | on c q =>
        have hcs := I.st.cs t; rw [h0] at hcs
        simp only [TP.step, h0] at hs
        split at hs
        all_goals (try split at hs) <;> simp only [Option.some.injEq, Prod.mk.injEq, reduceCtorEq] at hs
        all_goals (obtain ⟨rfl, rfl⟩ := hs; simp only [St.at, St.ownAt]; rw [upd_same])
        · trivial
        · trivial
        · simp only [CShape] at hcs; simp only [RetOk]
          rw [gphase_app]; exact I.gp_own hcs.2
    by_cases hg : ¬ a = .go t
    · exact keep (pc_other hs hg he (fun c h => hc ⟨c, h⟩))
    · rw [Decidable.not_not] at hg; subst hg
      have I' := I.step hs
      have ihs := RetOk.stable I hs ih
      cases h0 : s.pc t with
      | idle => simp [TP.step, h0] at hs
      | on c q =>
        have hcs := I.st.cs t; rw [h0] at hcs ihs
        cases c with
        | start k tm g p =>
          cases k <;> cases q <;> simp only [TP.step, h0] at hs
          all_goals (repeat' split at hs) <;> simp only [Option.some.injEq, Prod.mk.injEq, reduceCtorEq] at hs
          all_goals (obtain ⟨rfl, _⟩ := hs; simp only [St.at, St.ownAt, St.wAt]; rw [upd_same]; trivial)
        | destroy =>
          cases q <;> simp only [TP.step, h0] at hs
          all_goals (repeat' split at hs) <;> simp only [Option.some.injEq, Prod.mk.injEq, reduceCtorEq] at hs
          all_goals (obtain ⟨rfl, _⟩ := hs; simp only [St.at, St.ownAt, St.wAt]; first | rw [upd_same]; trivial | rw [h0]; trivial)
        | isValid g =>
          cases q <;> simp only [TP.step, h0, Option.some.injEq, Prod.mk.injEq, reduceCtorEq] at hs
          case ret o => obtain ⟨rfl, _⟩ := hs; simp only []; rw [upd_same]; trivial
          case vEnter =>
            obtain ⟨rfl, rfl⟩ := hs
            simp only [St.at]; rw [upd_same]; simp only [RetOk]
            rw [gphase_app]
            simp only [List.foldl_cons, List.foldl_nil, GP.next]
            cases hgd : s.guard g with
            | none => simp [I.gp_none h0 rfl (by simp) rfl hgd]
            | some i => simp [I.gp_own (I.st.guardOwn h0 rfl rfl hgd)]
        | wait g tm =>
          cases q <;> simp only [TP.step, h0, reduceCtorEq] at hs
          case ret o => simp only [Option.some.injEq, Prod.mk.injEq] at hs; obtain ⟨rfl, _⟩ := hs; simp only []; rw [upd_same]; trivial
          case wEnter =>
            split at hs <;> simp only [Option.some.injEq, Prod.mk.injEq, reduceCtorEq] at hs
            all_goals (obtain ⟨rfl, rfl⟩ := hs; simp only [St.at]; rw [upd_same])
            · next hgd =>
              simp only [RetOk]
              rw [gphase_app]
              simp only [List.foldl_cons, List.foldl_nil, GP.next]
              intro i; rw [I.gp_none h0 rfl (by simp) rfl hgd]; simp
            · trivial
          case wWait i =>
            simp only [CShape] at hcs
            split at hs <;> simp only [Option.some.injEq, Prod.mk.injEq, reduceCtorEq] at hs
            next hev =>
              obtain ⟨rfl, rfl⟩ := hs; simp only [St.at]; rw [upd_same]
              simp only [RetOk]
              rw [gphase_app]
              simp only [List.foldl_cons, List.foldl_nil, GP.next]
              intro j hj
              obtain ⟨h2, h3⟩ := I.gp_busy hj
              have h4 := I.tc.g1 g _ hcs.2
              rw [hj] at h4
              have R := I.st.rs j
              unfold RShape at R; rw [h2] at R
              split at h4 <;> simp at h4
              subst h4
              simp only [hev, Bool.true_eq_false, and_false, false_or, and_true] at R
              have := R.1
              cases hw : s.w j <;> simp [late, early, hw] at this h3
        | release g =>
          cases q <;> simp only [TP.step, h0, reduceCtorEq] at hs
          case ret o => simp only [Option.some.injEq, Prod.mk.injEq] at hs; obtain ⟨rfl, _⟩ := hs; simp only []; rw [upd_same]; trivial
          case rEnter =>
            split at hs <;> simp only [Option.some.injEq, Prod.mk.injEq, reduceCtorEq] at hs
            all_goals (obtain ⟨rfl, rfl⟩ := hs; simp only [St.at]; rw [upd_same])
            · next hgd =>
              simp only [RetOk]
              rw [gphase_app]
              simp only [List.foldl_cons, List.foldl_nil, GP.next]
              exact I.gp_none h0 rfl (by simp) rfl hgd
            · trivial
          case rClear =>
            simp only [Option.some.injEq, Prod.mk.injEq] at hs
            obtain ⟨rfl, rfl⟩ := hs; simp only [St.at]; rw [upd_same]
            simp only [RetOk]
            rw [gphase_app]; exact I.gp_clear h0
          all_goals (try split at hs) <;> simp only [Option.some.injEq, Prod.mk.injEq, reduceCtorEq] at hs
          all_goals (obtain ⟨rfl, rfl⟩ := hs; simp only [St.at, St.ownAt, St.evAt]; rw [upd_same]; trivial)

end Verif.TP
namespace Verif.TP
open Verif
open _root_.Verif.Mtx (Tid)
open _root_.Verif.EvF (Tmo)
open Spec Lts Proto
set_option linter.unusedSimpArgs false
set_option linter.unusedVariables false

/-- The step of a return. -/
theorem ret_ev {s s' : St} {a : Act} {ev : List Ev} (hs : TP.step s a = some (s', ev)) {t : Tid} {c : Call} {o : Out} (h : .ret t c o ∈ ev) :
    a = .go t ∧ s.pc t = .on c (.ret o) ∧ ev = [.ret t c o] ∧ s' = { s with pc := upd s.pc t .idle, inside := s.inside.erase t } := by
  cases a with
  | call u c' =>
    simp only [TP.step] at hs
    split at hs
    · simp only [Option.some.injEq, Prod.mk.injEq] at hs; obtain ⟨_, rfl⟩ := hs; simp at h
    · simp at hs
  | expire u =>
    simp only [TP.step] at hs
    split at hs
    · split at hs
      all_goals (try split at hs) <;> simp only [Option.some.injEq, Prod.mk.injEq, reduceCtorEq] at hs
      all_goals (obtain ⟨_, rfl⟩ := hs; simp at h)
    · simp at hs
  | throw j =>
    simp only [TP.step] at hs
    split at hs <;> simp only [Option.some.injEq, Prod.mk.injEq, reduceCtorEq] at hs
    obtain ⟨_, rfl⟩ := hs; simp at h
  | pgo j =>
    simp only [TP.step] at hs
    split at hs <;> (try split at hs) <;> simp only [Option.some.injEq, Prod.mk.injEq, reduceCtorEq] at hs <;>
      (obtain ⟨_, rfl⟩ := hs; (try split at h) <;> simp at h)
  | go u =>
    cases hp : s.pc u with
    | idle => simp [TP.step, hp] at hs
    | on c' q =>
      simp only [TP.step, hp] at hs
      split at hs
      all_goals (repeat' split at hs) <;> simp only [Option.some.injEq, Prod.mk.injEq, reduceCtorEq] at hs
      all_goals (obtain ⟨rfl, rfl⟩ := hs; simp at h)
      obtain ⟨rfl, rfl, rfl⟩ := h
      exact ⟨rfl, hp, rfl, rfl⟩

/-- A return within a trace. -/
theorem ret_at {n : Nat} {d : Int} {s : St} {tr : List Ev} (h : Reach TP.step (TP.init n d) s tr) {a b : List Ev} {t : Tid} {c : Call} {o : Out}
    (e : tr = a ++ .ret t c o :: b) : ∃ s1 s2, Reach TP.step (TP.init n d) s1 a ∧ s1.pc t = .on c (.ret o) ∧ TP.step s1 (.go t) = some (s2, [.ret t c o]) := by
  obtain ⟨s1, tr1, act, s2, ev, e1, e2, h1, hs, hev, rfl⟩ := split_step h e
  obtain ⟨rfl, h2, h3, _⟩ := ret_ev hs (t := t) (c := c) (o := o) (by rw [hev]; simp)
  rw [h3] at hev
  cases e1 with
  | nil => rw [List.append_nil]; exact ⟨s1, s2, h1, h2, by rw [← h3]; exact hs⟩
  | cons x e1 => simp at hev

/-- The result of a return. -/
theorem ret_results {n : Nat} {d : Int} {s : St} {tr : List Ev} (h : Reach TP.step (TP.init n d) s tr) {a b : List Ev} {t : Tid} {c : Call} {o : Out}
    (e : tr = a ++ .ret t c o :: b) : Results c o := by
  have I := Inv.reach h
  have hnb : phase t tr ≠ .bad := by rw [I.tc.loc t]; cases hp : s.pc t <;> simp [shape]; split <;> simp
  obtain ⟨a1, ec, a2, el, a3, rfl, _, hl, _⟩ := Proto.ret_split hnb (e := .ret t c o) (c := c) (r := o) e rfl
  have : el = .lin t c o := by
    cases el <;> simp [view] at hl
    obtain ⟨rfl, rfl, rfl⟩ := hl; rfl
  subst this
  exact results h (t := t) (by rw [e]; simp)

/-! What a guard has seen -/

theorem busy_fold {g : Gid} {i : Rid} : ∀ (ev : List Ev), ev.foldl (GP.next g) (.busy i) ≠ .bad →
    (ev.foldl (GP.next g) (.busy i) = .busy i ∧ (∀ k x, .ended i k x ∉ ev)) ∨
    ∃ c k x e, ev = c ++ .ended i k x :: e ∧ (∀ k x, .ended i k x ∉ c) ∧ ev.foldl (GP.next g) (.busy i) = e.foldl (GP.next g) (.over i)
  | [], _ => Or.inl ⟨rfl, by simp⟩
  | x :: ev, h => by
    rw [List.foldl_cons] at h ⊢
    by_cases hx : ∃ k y, x = .ended i k y
    · obtain ⟨k, y, rfl⟩ := hx
      right
      exact ⟨[], k, y, ev, rfl, by simp, by simp [GP.next]⟩
    · have hb : ∀ l : List Ev, l.foldl (GP.next g) .bad = .bad := by
        intro l
        induction l with
        | nil => rfl
        | cons y l ih =>
          rw [List.foldl_cons, show GP.next g .bad y = .bad by unfold GP.next; split <;> simp]; exact ih
      have h1 : GP.next g (.busy i) x = .busy i := by
        cases x <;> simp [GP.next] at h ⊢
        case acc u j k g' p =>
          cases g' with
          | none => rfl
          | some g' =>
            simp only [] at h ⊢
            split
            · next e => simp only [e, if_true] at h; exact absurd (hb ev) h
            · rfl
        case ended j k y =>
          intro e; exact hx ⟨k, y, by rw [e]⟩
        case back j g' =>
          cases g' with
          | none => rfl
          | some g' =>
            simp only [] at h ⊢
            split
            · next e => simp only [e, if_true] at h; exact absurd (hb ev) h
            · rfl
      rw [h1] at h ⊢
      rcases busy_fold ev h with ⟨h2, h3⟩ | ⟨c, k, y, e, h2, h3, h4⟩
      · refine Or.inl ⟨h2, fun k y hm => ?_⟩
        rcases List.mem_cons.1 hm with hm | hm
        · exact hx ⟨k, y, hm.symm⟩
        · exact h3 k y hm
      · refine Or.inr ⟨x :: c, k, y, e, by rw [h2]; rfl, fun k' y' hm => ?_, h4⟩
        rcases List.mem_cons.1 hm with hm | hm
        · exact hx ⟨k', y', hm.symm⟩
        · exact h3 k' y' hm


def pend (k : Task) : RP → Bool
  | .accepted k' _ _ | .running k' _ => k' == k
  | _ => false

/-- The first task to end on a thread that has been given task `k` is `k`. -/
theorem ended_same {d : Int} {i : Rid} {k k' : Task} {x : Bool} : ∀ (c e : List Ev) (r : RP), pend k r = true → (∀ k x, .ended i k x ∉ c) →
    (c ++ .ended i k' x :: e).foldl (RP.next d i) r ≠ .bad → k' = k
  | [], e, r, hr, _, h => by
    rw [List.nil_append, List.foldl_cons] at h
    cases r <;> simp [pend] at hr
    · simp only [RP.next, if_true] at h; exact absurd (bad_R d i e) h
    · apply Classical.byContradiction
      intro hk
      simp only [RP.next, if_true] at h
      rw [if_neg (by rw [hr]; exact hk)] at h
      exact absurd (bad_R d i e) h
  | y :: c, e, r, hr, hc, h => by
    rw [List.cons_append, List.foldl_cons] at h
    have hb : RP.next d i r y ≠ .bad := by intro hb; rw [hb] at h; exact h (bad_R d i _)
    refine ended_same c e _ ?_ (fun k x hm => hc k x (by simp [hm])) h
    by_cases ha : about i y = true
    · cases y <;> simp [about] at ha
      case ended j k x => subst ha; exact absurd (List.mem_cons_self ..) (hc k x)
      case begin j k2 p =>
        subst ha; cases r <;> simp [pend, RP.next] at hr hb ⊢
        rw [if_pos hb]; simp [pend, hb.1, hr]
      case acc t j k2 g p => subst ha; cases r <;> simp [pend, RP.next] at hr hb
      case reprio j p => subst ha; cases r <;> simp [pend, RP.next] at hr hb
      case note j => subst ha; cases r <;> simp [pend, RP.next] at hr hb
      case back j g => cases g <;> simp at ha; subst ha; cases r <;> simp [pend, RP.next] at hr hb
      case uncaught j => subst ha; cases r <;> simp [pend, RP.next] at hr hb
      case fin j => subst ha; cases r <;> simp [pend, RP.next] at hr hb
      case kill j => subst ha; cases r <;> simp [pend, RP.next] at hr hb
    · rw [other_R (by simpa using ha)]; exact hr

/-- A guard's task, as it went. -/
theorem guarded {n : Nat} {d : Int} {s : St} {a : List Ev} (h : Reach TP.step (TP.init n d) s a) {a1 a2 : List Ev} {u i k g p}
    (e : a = a1 ++ .acc u i k (some g) p :: a2) :
    (gphase g a = .busy i ∧ ∀ k x, .ended i k x ∉ a2) ∨ ∃ c x e, a2 = c ++ .ended i k x :: e ∧ gphase g a = e.foldl (GP.next g) (.over i) := by
  have I := Inv.reach h
  have hb := I.gp_bad g
  have hG : gphase g a = a2.foldl (GP.next g) (.busy i) := by
    rw [e, gphase_app, List.foldl_cons] at hb ⊢
    have hne : GP.next g (gphase g a1) (.acc u i k (some g) p) = .busy i := by
      simp only [GP.next, if_true]
      split
      · rfl
      · next hf =>
        exfalso; apply hb
        simp only [GP.next, if_true, if_neg hf]
        clear hb e
        induction a2 with
        | nil => rfl
        | cons y l ih => rw [List.foldl_cons, show GP.next g .bad y = .bad by unfold GP.next; split <;> simp]; exact ih
    rw [hne]
  rw [hG] at hb ⊢
  rcases busy_fold a2 hb with h1 | ⟨c, k', x, e', h1, h2, h3⟩
  · exact Or.inl h1
  · refine Or.inr ⟨c, x, e', ?_, h3⟩
    have hr : rphase n d i a ≠ .bad := by rw [I.tc.rp i]; exact absR_ne_bad (I.st.rs i)
    rw [e, rphase_app, List.foldl_cons, h1] at hr
    have : k' = k := by
      refine ended_same c e' _ ?_ h2 hr
      have : RP.next d i (rphase n d i a1) (.acc u i k (some g) p) ≠ .bad := by intro hb; rw [hb] at hr; exact hr (bad_R d i _)
      simp only [RP.next, if_true] at this ⊢
      split at this
      · next h => rw [if_pos h]; simp [pend]
      · simp at this
    rw [h1, this]

/-- From the end of the task to the release. -/
theorem over_fold {g : Gid} {i : Rid} : ∀ (ev : List Ev), ev.foldl (GP.next g) (.over i) = .free → .back i (some g) ∈ ev
  | [], h => by simp at h
  | x :: ev, h => by
    rw [List.foldl_cons] at h
    have hb : ∀ l : List Ev, l.foldl (GP.next g) .bad = .bad := by
      intro l
      induction l with
      | nil => rfl
      | cons y l ih => rw [List.foldl_cons, show GP.next g .bad y = .bad by unfold GP.next; split <;> simp]; exact ih
    by_cases hx : x = .back i (some g)
    · rw [hx]; simp
    · have h1 : GP.next g (.over i) x = .over i ∨ GP.next g (.over i) x = .bad := by
        unfold GP.next
        split
        · split
          · right; simp
          · exact Or.inl rfl
        · left; simp
        · next j g' =>
          split
          · next e =>
            right
            subst e
            by_cases hj : i = j
            · subst hj; exact absurd rfl hx
            · simp [hj]
          · exact Or.inl rfl
        · exact Or.inl rfl
      rcases h1 with h1 | h1
      · rw [h1] at h; exact List.mem_cons_of_mem _ (over_fold ev h)
      · rw [h1, hb] at h; simp at h


/-- A position in a trace as a step, with what comes after. -/
theorem split_step' {σ α ε : Type} {step : σ → α → Option (σ × List ε)} {init : σ} {s : σ} {tr : List ε} (h : Reach step init s tr) :
    ∀ {a b : List ε} {e : ε}, tr = a ++ e :: b → ∃ s1 tr1 act s2 ev e1 e2 rest, Reach step init s1 tr1 ∧ step s1 act = some (s2, ev) ∧ ev = e1 ++ e :: e2 ∧ a = tr1 ++ e1 ∧
      b = e2 ++ rest := by
  induction h with
  | init => intro a b e h; simp at h
  | @step s1 tr1 act s2 ev h1 hs ih =>
    intro a b e he
    rcases List.append_eq_append_iff.1 he with ⟨c, rfl, h2⟩ | ⟨c, h2, h3⟩
    · exact ⟨s1, tr1, act, s2, ev, c, b, [], h1, hs, h2, rfl, by simp⟩
    · cases c with
      | nil =>
        simp at h2 h3
        exact ⟨s1, tr1, act, s2, ev, [], b, [], h1, hs, by rw [← h3]; rfl, by simp [h2], by simp⟩
      | cons x c =>
        simp at h3; obtain ⟨rfl, rfl⟩ := h3
        obtain ⟨s1', tr1', act', s2', ev', e1, e2, rest, g1, g2, g3, g4, g5⟩ := ih h2
        exact ⟨s1', tr1', act', s2', ev', e1, e2, rest ++ ev, g1, g2, g3, g4, by rw [g5, List.append_assoc]⟩

end Verif.TP
