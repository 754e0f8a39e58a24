import Verif.Proof.ThreadPoolLive
/- Notifications and guards. -/
namespace Verif.TP
open Verif
open _root_.Verif.Mtx (Tid)
open _root_.Verif.EvF (Tmo)
open Spec Lts Proto
set_option linter.unusedSimpArgs false
set_option linter.unusedVariables false

theorem gnote_app (g : Gid) (tr ev : List Ev) : gnote g (tr ++ ev) = ev.foldl (GN.next g) (gnote g tr) := by simp [gnote]

def lift (s : St) : GP → GN
  | .free => .free
  | .busy i => .busy i
  | .over i => if late (s.w i) then .told i else .over i
  | .bad => .bad

/-- The thread of a guard does not change its state but by its own steps. -/
theorem Inv.late_step {n : Nat} {d : Int} {s s' : St} {tr ev : List Ev} {a : Act} (I : Inv n d s tr) (hs : TP.step s a = some (s', ev)) {i : Rid}
    (ho : s.own i ≠ .free ∧ ∀ u, s.own i ≠ .client u) (hi : s.own i ≠ .dead) (ha : a ≠ .pgo i) (hb : a ≠ .throw i) : s'.w i = s.w i := by
  by_cases hw : s.w i = .finished
  · rcases fin_stays hs hw with h | ⟨u, rfl, ⟨k, tm, g, p, hp⟩ | hp⟩
    · rw [h, hw]
    · have hcs := I.st.cs u; rw [hp] at hcs; simp only [CShape] at hcs
      exact absurd hcs.2.1 (ho.2 u)
    · simp only [TP.step, hp] at hs
      split at hs
      · next j rest hf =>
        split at hs <;> simp only [Option.some.injEq, Prod.mk.injEq, reduceCtorEq] at hs
        obtain ⟨rfl, _⟩ := hs
        have hj : i ≠ j := by rintro rfl; exact ho.1 ((I.st.fo i).1 (by rw [hf]; simp))
        simp only [St.wAt, St.ownAt]; rw [upd_ne _ _ hj]
      · simp only [Option.some.injEq, Prod.mk.injEq] at hs; obtain ⟨rfl, _⟩ := hs; rfl
  · exact w_step hs ha hb hw

theorem gnote_lift {n : Nat} {d : Int} {s : St} {tr : List Ev} (h : Reach TP.step (TP.init n d) s tr) (g : Gid) : gnote g tr = lift s (gphase g tr) := by
  induction h with
  | init => rfl
  | @step s tr a s' ev h1 hs ih =>
    have I := Inv.reach h1
    have I' := I.step hs
    have hbad := I'.gp_bad g
    rw [gnote_app, ih]
    rw [gphase_app] at hbad ⊢
    -- the thread of the guard
    have hw : ∀ i, gphase g tr = .over i → a ≠ .pgo i → a ≠ .throw i → s'.w i = s.w i := by
      intro i hi h1 h2
      have ho : ∀ o, s.own i = o → (∃ g, o = .guard g) ∨ (∃ u, o = .rel u) := by
        rintro o rfl
        rcases I.gp_over hi with h | ⟨t, q, h, _⟩
        · exact Or.inl ⟨g, h.1⟩
        · exact Or.inr ⟨t, h⟩
      refine I.late_step hs ⟨fun h => ?_, fun u h => ?_⟩ (fun h => ?_) h1 h2 <;> (have := ho _ h; simp at this)
    have same : (∀ e, e ∈ ev → ∀ r, GN.next g r e = r) → (∀ e, e ∈ ev → ∀ r, GP.next g r e = r) → (∀ i, gphase g tr = .over i → late (s'.w i) = late (s.w i)) →
        ev.foldl (GN.next g) (lift s (gphase g tr)) = lift s' (ev.foldl (GP.next g) (gphase g tr)) := by
      intro e1 e2 e3
      rw [fold_same e1, fold_same e2]
      cases hg : gphase g tr <;> simp [lift]
      next i => rw [e3 i hg]
    by_cases hp : ∃ i, a = .pgo i ∨ a = .throw i
    · obtain ⟨i, hp⟩ := hp
      have hoth : ∀ j, j ≠ i → gphase g tr = .over j → s'.w j = s.w j := by
        intro j hj h; refine hw j h ?_ ?_ <;> (rcases hp with rfl | rfl <;> simp [Ne.symm hj])
      have nothing : ∀ w', s'.w i = w' → late w' = late (s.w i) → (∀ e, e ∈ ev → ∀ r, GN.next g r e = r) → (∀ e, e ∈ ev → ∀ r, GP.next g r e = r) →
          ev.foldl (GN.next g) (lift s (gphase g tr)) = lift s' (ev.foldl (GP.next g) (gphase g tr)) := by
        intro w' h1 h2 h3 h4
        refine same h3 h4 (fun j hj => ?_)
        by_cases e : j = i
        · subst e; rw [h1, h2]
        · rw [hoth j e hj]
      rcases hp with rfl | rfl
      · cases hwi : s.w i <;> simp only [TP.step, hwi] at hs
        case finished => simp at hs
        case dead => simp at hs
        case pending =>
          split at hs <;> simp only [Option.some.injEq, Prod.mk.injEq] at hs <;> obtain ⟨rfl, rfl⟩ := hs
          · exact nothing _ (by simp [St.wAt]; rfl) (by rw [hwi]; rfl) (by simp [GN.next]) (by simp [GP.next])
          · exact nothing _ (by simp [St.wAt]; rfl) (by rw [hwi]; rfl) (by simp) (by simp)
        case inTask k =>
          simp only [Option.some.injEq, Prod.mk.injEq] at hs; obtain ⟨rfl, rfl⟩ := hs
          simp only [List.foldl_cons, List.foldl_nil, GN.next, GP.next]
          cases hg : gphase g tr with
          | busy j =>
            by_cases e : j = i
            · subst e; simp [lift, St.wAt, upd_same, late]
            · simp [lift, e]
          | over j =>
            simp only [lift]
            by_cases e : j = i
            · subst e; simp [hwi, late, St.wAt, upd_same]
            · simp [St.wAt, upd_ne _ _ e]; split <;> simp
          | _ => simp [lift]
        case notify x =>
          simp only [Option.some.injEq, Prod.mk.injEq] at hs; obtain ⟨rfl, rfl⟩ := hs
          simp only [List.foldl_cons, List.foldl_nil, GN.next, GP.next]
          cases hg : gphase g tr with
          | busy j =>
            by_cases e : j = i
            · subst e; have := (I.gp_busy hg).2; rw [hwi] at this; simp [early] at this
            · simp [lift, e]
          | over j =>
            simp only [lift]
            by_cases e : j = i
            · subst e; simp [hwi, late, St.wAt, St.evAt, upd_same]
            · simp [St.wAt, St.evAt, upd_ne _ _ e, e]; split <;> simp [e]
          | _ => simp [lift]
        case send x =>
          split at hs <;> simp only [Option.some.injEq, Prod.mk.injEq, reduceCtorEq] at hs; obtain ⟨rfl, rfl⟩ := hs
          refine same (by simp [GN.next]) (by simp [GP.next]) (fun j hj => ?_)
          by_cases e : j = i
          · exfalso
            subst e
            have R := I.st.rs j; unfold RShape at R
            rcases I.gp_over hj with h | ⟨t, q, h, _⟩
            · rw [h.1, hwi] at R; simp [busyG, late] at R
            · rw [h, hwi] at R; simp [late] at R
          · rw [hoth j e hj]
        case leave x =>
          simp only [Option.some.injEq, Prod.mk.injEq] at hs; obtain ⟨rfl, rfl⟩ := hs
          refine nothing _ (by simp [St.wAt]; rfl) (by rw [hwi]; rfl) ?_ ?_ <;> (intro e he; split at he <;> simp at he; subst he; simp [GN.next, GP.next])
        all_goals
          simp only [Option.some.injEq, Prod.mk.injEq] at hs; obtain ⟨rfl, rfl⟩ := hs
          refine nothing _ (by simp [St.wAt, St.evAt]; rfl) ?_ (by simp [GN.next]) (by simp [GP.next])
          rw [hwi]
          first | rfl | (split <;> rfl)
      · cases hwi : s.w i <;> simp only [TP.step, hwi, reduceCtorEq] at hs
        next k =>
          simp only [Option.some.injEq, Prod.mk.injEq] at hs; obtain ⟨rfl, rfl⟩ := hs
          simp only [List.foldl_cons, List.foldl_nil, GN.next, GP.next]
          cases hg : gphase g tr with
          | busy j =>
            by_cases e : j = i
            · subst e; simp [lift, St.wAt, upd_same, late]
            · simp [lift, e]
          | over j =>
            simp only [lift]
            by_cases e : j = i
            · subst e; simp [hwi, late, St.wAt, upd_same]
            · simp [St.wAt, upd_ne _ _ e]; split <;> simp
          | _ => simp [lift]
    · have hp' : ∀ i, gphase g tr = .over i → late (s'.w i) = late (s.w i) := fun i hi => by
        rw [hw i hi (fun h => hp ⟨i, Or.inl h⟩) (fun h => hp ⟨i, Or.inr h⟩)]
      have hf : (∃ t, Form s t ev) ∨ ev = [] ∨ ∃ i, ev = [.kill i] := by
        rcases form_of I hs with h | hq
        · exact Or.inl h
        · right
          cases a with
          | pgo i => exact absurd ⟨i, Or.inl rfl⟩ hp
          | throw i => exact absurd ⟨i, Or.inr rfl⟩ hp
          | call u c =>
            simp only [TP.step] at hs
            split at hs
            · simp only [Option.some.injEq, Prod.mk.injEq] at hs; obtain ⟨_, rfl⟩ := hs; have := hq _ (List.mem_singleton.2 rfl); simp [quiet] at this
            · simp at hs
          | expire u =>
            simp only [TP.step] at hs
            split at hs
            · split at hs
              all_goals (try split at hs) <;> simp only [Option.some.injEq, Prod.mk.injEq, reduceCtorEq] at hs
              all_goals (obtain ⟨_, rfl⟩ := hs; have := hq _ (List.mem_cons_self ..); simp [quiet] at this)
            · simp at hs
          | go u =>
            simp only [TP.step] at hs
            split at hs
            · simp at hs
            · split at hs
              all_goals (repeat' split at hs) <;> simp only [Option.some.injEq, Prod.mk.injEq, reduceCtorEq] at hs
              all_goals (obtain ⟨_, rfl⟩ := hs)
              all_goals first
                | exact Or.inl rfl
                | exact Or.inr ⟨_, rfl⟩
                | (have := hq _ (List.mem_cons_self ..); simp [quiet] at this)
      rcases hf with ⟨t, hf⟩ | rfl | ⟨i, rfl⟩
      · cases hf with
        | call c => exact same (by simp [GN.next]) (by simp [GP.next]) hp'
        | lin c o => exact same (by simp [GN.next]) (by simp [GP.next]) hp'
        | ret c o => exact same (by simp [GN.next]) (by simp [GP.next]) hp'
        | drop i c => exact same (by simp [GN.next]) (by simp [GP.next]) hp'
        | acc i k tm g' p h0 =>
          cases g' with
          | none => exact same (by simp [GN.next]) (by simp [GP.next]) hp'
          | some g' =>
            by_cases e : g' = g
            · subst e
              simp only [List.foldl_cons, List.foldl_nil, GN.next, GP.next, if_true] at hbad ⊢
              by_cases hfr : gphase g' tr = .free
              · simp [hfr, lift]
              · simp [hfr] at hbad
            · exact same (by simp [GN.next, e]) (by simp [GP.next, e]) hp'
        | back i g' h0 =>
          by_cases e : g' = g
          · subst e
            simp only [List.foldl_cons, List.foldl_nil, GN.next, GP.next, if_true] at hbad ⊢
            by_cases hfr : gphase g' tr = .over i
            · have hl : late (s.w i) = true := by
                have hcs := I.st.cs t; rw [h0] at hcs; simp only [CShape] at hcs
                have R := I.st.rs i; unfold RShape at R; rw [hcs.2.1] at R; exact R
              simp [hfr, lift, hl]
            · simp [hfr] at hbad
          · exact same (by simp [GN.next, e]) (by simp [GP.next, e]) hp'
      · exact same (by simp) (by simp) hp'
      · exact same (by simp [GN.next]) (by simp [GP.next]) hp'

theorem gnote_bad {n : Nat} {d : Int} {s : St} {tr : List Ev} (h : Reach TP.step (TP.init n d) s tr) (g : Gid) : gnote g tr ≠ .bad := by
  rw [gnote_lift h]
  have := (Inv.reach h).gp_bad g
  cases hg : gphase g tr <;> simp [lift]
  · split <;> simp
  · exact this hg


theorem bad_N {g : Gid} : ∀ l : List Ev, l.foldl (GN.next g) .bad = .bad
  | [] => rfl
  | y :: l => by rw [List.foldl_cons, show GN.next g .bad y = .bad by unfold GN.next; split <;> simp]; exact bad_N l

def stage : GN → Nat
  | .busy _ => 0
  | .over _ => 1
  | .told _ => 2
  | _ => 3

/-- With a notification and without a release: notified. -/
theorem told_fold {g : Gid} {i : Rid} : ∀ (ev : List Ev) (r : GN), r = .busy i ∨ r = .over i ∨ r = .told i → ev.foldl (GN.next g) r ≠ .bad →
    .back i (some g) ∉ ev → (.note i ∈ ev ∨ r = .told i) → ev.foldl (GN.next g) r = .told i
  | [], r, _, _, _, h => by simpa using h
  | x :: ev, r, hr, hb, hn, h => by
    rw [List.foldl_cons] at hb ⊢
    have hb' : GN.next g r x ≠ .bad := by intro e; rw [e, bad_N] at hb; exact hb rfl
    have hx : x ≠ .back i (some g) := fun e => hn (by rw [e]; simp)
    have h1 : GN.next g r x = .busy i ∨ GN.next g r x = .over i ∨ GN.next g r x = .told i := by
      unfold GN.next at hb' ⊢
      split
      · next u j k g' p =>
        simp only [] at hb'
        split
        · next e => simp only [e, if_true] at hb'; rcases hr with rfl | rfl | rfl <;> simp at hb'
        · exact hr
      · next j k y =>
        split
        · next e => rcases hr with rfl | rfl | rfl <;> simp at e; subst e; simp
        · exact hr
      · next j =>
        simp only [] at hb'
        split
        · next e => rcases hr with rfl | rfl | rfl <;> simp at e; subst e; simp
        · next e =>
          split
          · next e2 => rw [if_neg e, if_pos e2] at hb'; simp at hb'
          · exact hr
      · next j g' =>
        simp only [] at hb'
        split
        · next e =>
          subst e
          simp only [if_true] at hb'
          split at hb'
          · next e2 => rcases hr with rfl | rfl | rfl <;> simp at e2; subst e2; exact absurd rfl hx
          · simp at hb'
        · exact hr
      · exact hr
    refine told_fold ev _ h1 hb (fun hm => hn (by simp [hm])) ?_
    rcases h with h | rfl
    · rcases List.mem_cons.1 h with h | h
      · right
        rw [← h] at hb' ⊢
        rcases hr with rfl | rfl | rfl <;> simp [GN.next] at hb' ⊢
      · exact Or.inl h
    · right
      rcases h1 with h1 | h1 | h1
      · exfalso; unfold GN.next at h1; split at h1 <;> (try split at h1) <;> (try split at h1) <;> simp_all
      · exfalso; unfold GN.next at h1; split at h1 <;> (try split at h1) <;> (try split at h1) <;> simp_all
      · exact h1

/-- The step of a call. -/
theorem call_ev {s s' : St} {a : Act} {ev : List Ev} (hs : TP.step s a = some (s', ev)) {t : Tid} {c : Call} (h : .call t c ∈ ev) :
    ev = [.call t c] ∧ s.pc t = .idle ∧ s'.pc t = .on c (entry c) := by
  cases a with
  | call u c' =>
    simp only [TP.step] at hs
    split at hs
    · next hc =>
      simp only [Option.some.injEq, Prod.mk.injEq] at hs; obtain ⟨rfl, rfl⟩ := hs; simp at h
      obtain ⟨rfl, rfl⟩ := h
      exact ⟨rfl, hc.1, by simp [St.at, upd_same]⟩
    · simp at hs
  | expire u =>
    simp only [TP.step] at hs
    split at hs
    · split at hs
      all_goals (try split at hs) <;> simp only [Option.some.injEq, Prod.mk.injEq, reduceCtorEq] at hs
      all_goals (obtain ⟨_, rfl⟩ := hs; simp at h)
    · simp at hs
  | throw j =>
    simp only [TP.step] at hs
    split at hs <;> simp only [Option.some.injEq, Prod.mk.injEq, reduceCtorEq] at hs
    obtain ⟨_, rfl⟩ := hs; simp at h
  | pgo j =>
    simp only [TP.step] at hs
    split at hs <;> (try split at hs) <;> simp only [Option.some.injEq, Prod.mk.injEq, reduceCtorEq] at hs <;>
      (obtain ⟨_, rfl⟩ := hs; (try split at h) <;> simp at h)
  | go u =>
    cases hp : s.pc u with
    | idle => simp [TP.step, hp] at hs
    | on c' q =>
      simp only [TP.step, hp] at hs
      split at hs
      all_goals (repeat' split at hs) <;> simp only [Option.some.injEq, Prod.mk.injEq, reduceCtorEq] at hs
      all_goals (obtain ⟨rfl, rfl⟩ := hs; simp at h)

/-- A wait that begins after the notification does not time out. -/
theorem prompt {n : Nat} {d : Int} {s : St} {tr : List Ev} (h : Reach TP.step (TP.init n d) s tr) {t : Tid} {g : Gid} {tm : Tmo} {i : Rid} :
    ∀ {a b : List Ev}, tr = a ++ .call t (.wait g tm) :: b → gnote g a = .told i → (∀ o, .ret t (.wait g tm) o ∉ b) →
    gnote g tr = .told i ∧ ∃ q, s.pc t = .on (.wait g tm) q ∧ q ≠ .ret .timedOut := by
  induction h with
  | init => intro a b e; simp at e
  | @step s tr act s' ev h1 hs ih =>
    intro a b e hg hb
    have I := Inv.reach h1
    have I' := I.step hs
    have key : gnote g tr = .told i → (∃ q, s.pc t = .on (.wait g tm) q ∧ q ≠ .ret .timedOut) → (∀ o, .ret t (.wait g tm) o ∉ ev) →
        gnote g (tr ++ ev) = .told i ∧ ∃ q, s'.pc t = .on (.wait g tm) q ∧ q ≠ .ret .timedOut := by
      rintro hg ⟨q, hp, hq⟩ hnr
      have hover : gphase g tr = .over i ∧ late (s.w i) = true := by
        rw [gnote_lift h1] at hg
        cases hh : gphase g tr <;> simp [hh, lift] at hg
        split at hg
        · next j hl => simp at hg; subst hg; exact ⟨rfl, hl⟩
        · simp at hg
      have hown : s.own i = .guard g := by
        rcases I.gp_over hover.1 with h | ⟨u, q', h2, h3⟩
        · exact h.1
        · exfalso
          have hu : u ≠ t := by rintro rfl; rw [hp] at h3; simp at h3
          exact I.st.ex u t g hu ⟨_, _, h3, rfl⟩ ⟨_, _, _, hp, rfl⟩
      obtain ⟨q', hp'⟩ : ∃ q', s'.pc t = .on (.wait g tm) q' := by
        rcases I.stay hs hp with h | ⟨o, _, h⟩
        · exact h
        · exact absurd (by rw [h]; simp) (hnr o)
      have hcs := I.st.cs t; rw [hp] at hcs
      have hphase : gphase g (tr ++ ev) = .over i := by
        rcases I.gstable hs hp (g := g) rfl (by rintro j rfl; simp only [CShape] at hcs) (by rintro j rfl; simp only [CShape] at hcs) with h | ⟨j, h, _⟩
        · rw [h]; exact hover.1
        · rw [hover.1] at h; simp at h
      have hown' : s'.own i = .guard g := by
        rcases I'.gp_over hphase with h | ⟨u, q', h2, h3⟩
        · exact h.1
        · exfalso
          have hu : u ≠ t := by rintro rfl; rw [hp'] at h3; simp at h3
          exact I'.st.ex u t g hu ⟨_, _, h3, rfl⟩ ⟨_, _, _, hp', rfl⟩
      have hlate' : late (s'.w i) = true := by
        have hd : q ≠ .dDrain := by rintro rfl; simp only [CShape] at hcs
        obtain ⟨w1, _, _⟩ := I.wt_own hs hp hd hown hown'
        apply Classical.byContradiction
        intro hl
        have hl' : late (s'.w i) = false := by simpa using hl
        unfold wt at w1; rw [hl', hover.2] at w1; simp at w1
      refine ⟨by rw [gnote_lift (Reach.step h1 hs), hphase]; simp [lift, hlate'], q', hp', ?_⟩
      rintro rfl
      by_cases hg' : act = .go t
      · subst hg'
        cases q <;> simp only [CShape] at hcs <;> simp only [TP.step, hp] at hs
        all_goals (repeat' split at hs) <;> simp only [Option.some.injEq, Prod.mk.injEq, reduceCtorEq] at hs
        all_goals (obtain ⟨rfl, _⟩ := hs; simp [St.at, upd_same] at hp')
      · by_cases he : act = .expire t
        · subst he
          cases q <;> simp only [CShape] at hcs <;> simp only [TP.step, hp] at hs
          all_goals (try split at hs) <;> simp only [Option.some.injEq, Prod.mk.injEq, reduceCtorEq] at hs
          next j hc =>
            have h2 := I.tc.g1 g _ hcs.2
            rw [hover.1] at h2
            split at h2 <;> simp at h2
            subst h2
            have R := I.st.rs i; unfold RShape at R; rw [hown] at R
            rcases R.1 with ⟨h3, _⟩ | ⟨_, h3⟩
            · have h4 := hover.2; cases hw : s.w i <;> simp [hw, late, busyG] at h3 h4
            · rw [h3] at hc; simp at hc
        · rw [pc_other hs hg' he (by rintro c rfl; simp [TP.step, hp] at hs), hp] at hp'
          simp at hp'; exact hq hp'
    have first : Ev.call t (.wait g tm) ∈ ev → gnote g tr = .told i → gnote g (tr ++ ev) = .told i ∧ ∃ q, s'.pc t = .on (.wait g tm) q ∧ q ≠ .ret .timedOut := by
      intro hm hg
      obtain ⟨hev, _, hp⟩ := call_ev hs hm
      exact ⟨by rw [gnote_app, hev, hg]; rfl, .wEnter, hp, by simp⟩
    rcases List.append_eq_append_iff.1 e with ⟨c, rfl, h2⟩ | ⟨c, h2, h3⟩
    · have hm : Ev.call t (.wait g tm) ∈ ev := by rw [h2]; simp
      obtain ⟨hev, _⟩ := call_ev hs hm
      rw [hev] at h2
      cases c with
      | nil => rw [List.append_nil] at hg; exact first hm hg
      | cons x c => simp at h2
    · cases c with
      | nil => simp at h2 h3; subst h2; exact first (by rw [← h3]; simp) hg
      | cons x c =>
        simp at h3
        obtain ⟨rfl, rfl⟩ := h3
        obtain ⟨g1, g2⟩ := ih h2 hg (fun o hm => hb o (by simp [hm]))
        exact key g1 g2 (fun o hm => hb o (by simp [hm]))

end Verif.TP
