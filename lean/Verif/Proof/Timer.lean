import Verif.Spec.Timer
namespace Verif.Tm
open Verif
open _root_.Verif.Mtx (Tid)
open Tm Spec Lts Proto
set_option linter.unusedSectionVars false
set_option linter.unusedSimpArgs false
set_option linter.unusedVariables false

theorem effects_app (tr ev : List Ev) : effects (tr ++ ev) = effects tr ++ effects ev := by simp [effects]
theorem phase_app (t : Tid) (tr ev : List Ev) : phase t (tr ++ ev) = ev.foldl (Phase.next view t) (phase t tr) := Proto.phase_app t tr ev
abbrev mine (t : Tid) (e : Ev) : Prop := Proto.mine view t e
theorem hist0 {k : Kind} {h : List Eff} {a : A} (hh : Hist k h a) : Hist k (h ++ []) a := by rwa [List.append_nil]

/-- The phase a client must be in. -/
def shape : PC → Phase Call Out
  | .idle => .out
  | .sEnter tm | .sWait tm | .sRetest tm => .called (.start tm)
  | .pEnter | .pWait | .pRetest => .called .stop
  | .iEnter => .called .isStarted
  | .dEnter | .dJoin => .called .destroy
  | .ret c o => .done c o

theorem shape_out {p : PC} : shape p = .out ↔ p = .idle := by cases p <;> simp [shape]

def isD : Phase Call Out → Bool
  | .called .destroy | .done .destroy _ => true
  | _ => false

theorem shape_wakeP (pc : Tid → PC) (u : Tid) : shape (wakeP pc u) = shape (pc u) := by unfold wakeP; cases h : pc u <;> simp [shape]
theorem shape_wakeS (pc : Tid → PC) (u : Tid) : shape (wakeS pc u) = shape (pc u) := by unfold wakeS; cases h : pc u <;> simp [shape]

def absPh (w : WPC) (gone : Bool) : Ph := match w with
  | .w0 | .w0s | .toArm | .armed | .chk | .late => .rest
  | .due => .due
  | .running => .run
  | .post => .over
  | .dead => if gone then .dead else .quit
def abs (s : St) : A := ⟨s.active, !s.stopped, absPh s.w s.gone⟩

/-- In the second half of the loop: a start has been noticed and not been dealt with. -/
def inG : WPC → Bool
  | .toArm | .armed | .chk | .late | .due | .running | .post => true
  | _ => false
def in0 : WPC → Bool
  | .w0 | .w0s => true
  | _ => false

structure Scal (s : St) : Prop where
  g : inG s.w = true → s.stopped = false ∧ s.started = s.active
  z : in0 s.w = true → s.started = false ∧ s.stopped = !s.active
  sl : s.w = .w0s → s.active = false ∧ s.endReq = false
  ar : s.w = .armed → s.active = true ∧ s.endReq = false
  po : s.w = .post → s.kind = .oneShot
  ta : s.w = .toArm → s.kind = .periodic
  de : s.w = .dead → s.endReq = true
  go : s.gone = true → s.w = .dead

structure Inv (k : Kind) (s : St) (tr : List Ev) : Prop where
  knd : s.kind = k
  hist : Hist k (effects tr) (abs s)
  loc : ∀ t, phase t tr = shape (s.pc t)
  sc : Scal s
  ins : ∀ t, t ∈ s.inside ↔ s.pc t ≠ .idle
  nodup : s.inside.Nodup
  dy : ∀ t, isD (shape (s.pc t)) = true → s.dying = some t
  alone : ∀ d, s.dying = some d → ∀ u, u ≠ d → s.pc u = .idle
  dyin : ∀ d, s.dying = some d → s.gone = false → s.pc d = .dEnter ∨ s.pc d = .dJoin
  gon : s.gone = true → ∃ d, s.dying = some d ∧ (s.pc d = .idle ∨ s.pc d = .ret .destroy .destroyed)
  dj : ∀ t, s.pc t = .dJoin → s.endReq = true
  dr : ∀ t o, s.pc t = .ret .destroy o → s.gone = true ∧ o = .destroyed
  er : s.endReq = true → ∃ d, s.dying = some d ∧ (s.pc d = .dJoin ∨ s.gone = true)

theorem Inv.init (k : Kind) (period : Nat) : Inv k (init k period) [] := by
  constructor <;> try (simp [Tm.init, abs, absPh, shape, Proto.phase, isD, effects, eff, Hist.nil]; done)
  constructor <;> simp [Tm.init, inG, in0]

theorem wakeW_G (w : WPC) : inG (wakeW w) = inG w := by cases w <;> rfl
theorem wakeW_0 (w : WPC) : in0 (wakeW w) = in0 w := by cases w <;> rfl
theorem wakeW_ph (w : WPC) (g : Bool) : absPh (wakeW w) g = absPh w g := by cases w <;> rfl

/-- A step of client `t` within a call. -/
theorem Inv.client {k : Kind} {s s' : St} {tr ev : List Ev} (I : Inv k s tr) (t : Tid) (p' : PC)
    (hpc : s'.pc = upd s.pc t p') (hmine : ∀ e, e ∈ ev → mine t e)
    (hk : s'.kind = s.kind)
    (hh : Hist k (effects tr ++ effects ev) (abs s'))
    (hloc : ev.foldl (Phase.next view t) (shape (s.pc t)) = shape p')
    (hs : Scal s')
    (hin : s'.inside = s.inside ∧ s.pc t ≠ .idle ∧ p' ≠ .idle)
    (hdy : s'.dying = s.dying) (hg : s'.gone = s.gone) (he : s'.endReq = s.endReq)
    (h1 : isD (shape (s.pc t)) = false) (h2 : isD (shape p') = false) : Inv k s' (tr ++ ev) := by
  have hupd : ∀ u, u ≠ t → s'.pc u = s.pc u := fun u hu => by rw [hpc, upd_ne _ _ hu]
  have hsame : s'.pc t = p' := by rw [hpc, upd_same]
  obtain ⟨i1, i2, i3⟩ := hin
  have htd : s.dying = none := by
    cases hd : s.dying with
    | none => rfl
    | some d =>
      exfalso
      by_cases e : t = d
      · subst e
        cases hgn : s.gone with
        | false => rcases I.dyin t hd hgn with h | h <;> rw [h] at h1 <;> simp [shape, isD] at h1
        | true =>
          obtain ⟨d, h3, h4⟩ := I.gon hgn
          rw [hd] at h3; simp at h3; subst h3
          rcases h4 with h | h
          · exact i2 h
          · rw [h] at h1; simp [shape, isD] at h1
      · exact i2 (I.alone d hd t e)
  refine ⟨hk.trans I.knd, by rw [effects_app]; exact hh, fun u => ?_, hs, ?_, ?_, ?_, ?_, ?_, ?_, ?_, ?_, ?_⟩
  · rw [phase_app]
    by_cases e : u = t
    · subst e; rw [hsame, I.loc u]; exact hloc
    · rw [hupd u e, phase_other e hmine]; exact I.loc u
  · intro u; rw [i1, I.ins u]
    by_cases e : u = t
    · subst e; simp [hsame, i2, i3]
    · rw [hupd u e]
  · rw [i1]; exact I.nodup
  · intro u hu; rw [hdy]
    by_cases e : u = t
    · subst e; rw [hsame, h2] at hu; simp at hu
    · rw [hupd u e] at hu; exact I.dy u hu
  · intro d hd; rw [hdy, htd] at hd; simp at hd
  · intro d hd; rw [hdy, htd] at hd; simp at hd
  · intro hgn; obtain ⟨d, h3, _⟩ := I.gon (hg ▸ hgn); rw [htd] at h3; simp at h3
  · intro u hu
    by_cases e : u = t
    · subst e; rw [hsame] at hu; subst hu; simp [shape, isD] at h2
    · rw [hupd u e] at hu; rw [he]; exact I.dj u hu
  · intro u o hu
    by_cases e : u = t
    · subst e; rw [hsame] at hu; subst hu; simp [shape, isD] at h2
    · rw [hupd u e] at hu; rw [hg]; exact I.dr u o hu
  · intro her; obtain ⟨d, h3, _⟩ := I.er (he ▸ her); rw [htd] at h3; simp at h3

theorem Inv.noEnd {k : Kind} {s : St} {tr : List Ev} (I : Inv k s tr) {t : Tid} (hi : s.pc t ≠ .idle) (h1 : isD (shape (s.pc t)) = false) :
    s.endReq = false ∧ s.gone = false := by
  have key : s.endReq = false := by
    cases h : s.endReq with
    | false => rfl
    | true =>
      exfalso
      obtain ⟨d, hd, h2⟩ := I.er h
      by_cases e : t = d
      · subst e
        rcases h2 with h2 | h2
        · rw [h2] at h1; simp [shape, isD] at h1
        · obtain ⟨d, h3, h4⟩ := I.gon h2
          rw [hd] at h3; simp at h3; subst h3
          rcases h4 with h4 | h4
          · exact hi h4
          · rw [h4] at h1; simp [shape, isD] at h1
      · exact hi (I.alone d hd t e)
  refine ⟨key, ?_⟩
  cases h : s.gone with
  | false => rfl
  | true => have := I.sc.de (I.sc.go h); rw [key] at this; simp at this

/-- A step of the timer thread. -/
theorem Inv.worker {k : Kind} {s s' : St} {tr ev : List Ev} (I : Inv k s tr)
    (hpc : ∀ u, shape (s'.pc u) = shape (s.pc u) ∧ (s.pc u = .dJoin ↔ s'.pc u = .dJoin)) (hmine : ∀ e, e ∈ ev → view e = none)
    (hk : s'.kind = s.kind)
    (hh : Hist k (effects tr ++ effects ev) (abs s')) (hs : Scal s')
    (hin : s'.inside = s.inside) (hdy : s'.dying = s.dying) (hg : s'.gone = s.gone) (he : s'.endReq = s.endReq) : Inv k s' (tr ++ ev) := by
  have hid : ∀ u, s'.pc u = .idle ↔ s.pc u = .idle := by intro u; rw [← shape_out, (hpc u).1, shape_out]
  have hph : ∀ u ph, ev.foldl (Phase.next view u) ph = ph := by
    intro u ph
    clear hh
    induction ev generalizing ph with
    | nil => rfl
    | cons e ev ih =>
      rw [List.foldl_cons, show Phase.next view u ph e = ph by simp [Phase.next, hmine e]]
      exact ih (fun x hx => hmine x (by simp [hx])) ph
  have hret : ∀ u c o, s'.pc u = .ret c o → s.pc u = .ret c o := by
    intro u c o h
    have := (hpc u).1; rw [h] at this
    cases hp : s.pc u <;> rw [hp] at this <;> simp [shape] at this ⊢
    exact ⟨this.1.symm, this.2.symm⟩
  have hret' : ∀ u c o, s.pc u = .ret c o → s'.pc u = .ret c o := by
    intro u c o h
    have := (hpc u).1; rw [h] at this
    cases hp : s'.pc u <;> rw [hp] at this <;> simp [shape] at this ⊢
    exact this
  refine ⟨hk.trans I.knd, by rw [effects_app]; exact hh, fun u => ?_, hs, ?_, ?_, ?_, ?_, ?_, ?_, ?_, ?_, ?_⟩
  · rw [phase_app, hph, (hpc u).1]; exact I.loc u
  · intro u; rw [hin, I.ins u, Ne, Ne, hid u]
  · rw [hin]; exact I.nodup
  · intro u hu; rw [hdy]; rw [(hpc u).1] at hu; exact I.dy u hu
  · intro d hd u hu; rw [hid u]; exact I.alone d (hdy ▸ hd) u hu
  · intro d hd hgn
    rcases I.dyin d (hdy ▸ hd) (hg ▸ hgn) with h | h
    · left
      have := hpc d; rw [h] at this
      cases hp : s'.pc d <;> rw [hp] at this <;> simp [shape] at this ⊢
    · right; exact ((hpc d).2.1 h)
  · intro hgn
    obtain ⟨d, h1, h2⟩ := I.gon (hg ▸ hgn)
    refine ⟨d, hdy ▸ h1, ?_⟩
    rcases h2 with h2 | h2
    · exact Or.inl ((hid d).2 h2)
    · exact Or.inr (hret' d _ _ h2)
  · intro u hu; rw [he]; exact I.dj u ((hpc u).2.2 hu)
  · intro u o hu; rw [hg]; exact I.dr u o (hret u _ _ hu)
  · intro her
    obtain ⟨d, h1, h2⟩ := I.er (he ▸ her)
    refine ⟨d, hdy ▸ h1, ?_⟩
    rcases h2 with h2 | h2
    · exact Or.inl ((hpc d).2.1 h2)
    · exact Or.inr (hg ▸ h2)

theorem Inv.step_call {k : Kind} {d : Disc} {s s' : St} {tr ev : List Ev} {t : Tid} {c : Call} (I : Inv k s tr)
    (hstep : Tm.step d s (.call t c) = some (s', ev)) : Inv k s' (tr ++ ev) := by
  simp only [Tm.step] at hstep
  split at hstep
  case isFalse => simp at hstep
  case isTrue hcond =>
  obtain ⟨h1, h2, h4, h3, h5, h6⟩ := hcond
  simp only [Option.some.injEq, Prod.mk.injEq] at hstep; obtain ⟨rfl, rfl⟩ := hstep
  have hend : s.endReq = false := by
    cases h : s.endReq
    · rfl
    · obtain ⟨d, hd, _⟩ := I.er h; rw [h4] at hd; simp at hd
  have hne : entry c ≠ .idle := by cases c <;> simp [entry]
  have hsh : shape (entry c) = .called c := by cases c <;> simp [entry, shape]
  refine ⟨I.knd, ?_, ?_, ⟨I.sc.g, I.sc.z, I.sc.sl, I.sc.ar, I.sc.po, I.sc.ta, I.sc.de, I.sc.go⟩, ?_, ?_, ?_, ?_, ?_, ?_, ?_, ?_, ?_⟩
  · rw [effects_app]; exact hist0 I.hist
  · intro u
    rw [phase_app]
    by_cases e : u = t
    · subst e
      simp only [St.at, upd_same, hsh, I.loc u, h1]
      simp [Phase.next, Phase.pnext, view, shape]
    · simp only [St.at, upd_ne _ _ e]
      rw [phase_other e (by simp [mine, Proto.mine, view])]; exact I.loc u
  · intro u
    by_cases e : u = t
    · subst e; simp [St.at, upd_same, hne]
    · simp [St.at, upd_ne _ _ e, e, I.ins u]
  · have := I.ins t; rw [h1] at this; simp at this; simp [this, I.nodup]
  · intro u hu
    by_cases e : u = t
    · subst e; simp only [St.at, upd_same, hsh] at hu
      have : c = .destroy := by cases c <;> simp [isD] at hu ⊢
      simp [this]
    · simp only [St.at, upd_ne _ _ e] at hu; have := I.dy u hu; rw [h4] at this; simp at this
  · intro d hd u hu
    simp only at hd
    split at hd
    · next hc =>
      simp at hd; subst hd
      have := (I.ins u); rw [h3 hc] at this; simp at this
      simp [St.at, upd_ne _ _ hu, this]
    · rw [h4] at hd; simp at hd
  · intro d hd _
    simp only at hd
    split at hd
    · next hc => simp at hd; subst hd; simp only [St.at, upd_same]; rw [hc]; simp [entry]
    · rw [h4] at hd; simp at hd
  · intro h; simp [St.at] at h; simp [h2] at h
  · intro u hu
    by_cases e : u = t
    · subst e; simp only [St.at, upd_same] at hu; cases c <;> simp [entry] at hu
    · simp only [St.at, upd_ne _ _ e] at hu; exact I.dj u hu
  · intro u o hu
    by_cases e : u = t
    · subst e; simp only [St.at, upd_same] at hu; cases c <;> simp [entry] at hu
    · simp only [St.at, upd_ne _ _ e] at hu; exact I.dr u o hu
  · intro h; simp [St.at] at h; simp [hend] at h

theorem Inv.step_ret {k : Kind} {d : Disc} {s s' : St} {tr ev : List Ev} {t : Tid} {c : Call} {o : Out} (I : Inv k s tr)
    (hstep : Tm.step d s (.go t) = some (s', ev)) (hpc : s.pc t = .ret c o) : Inv k s' (tr ++ ev) := by
  simp only [Tm.step, hpc, Option.some.injEq, Prod.mk.injEq] at hstep; obtain ⟨rfl, rfl⟩ := hstep
  have hmem : t ∈ s.inside := (I.ins t).2 (by rw [hpc]; simp)
  refine ⟨I.knd, ?_, ?_, ⟨I.sc.g, I.sc.z, I.sc.sl, I.sc.ar, I.sc.po, I.sc.ta, I.sc.de, I.sc.go⟩, ?_, ?_, ?_, ?_, ?_, ?_, ?_, ?_, ?_⟩
  · rw [effects_app]; exact hist0 I.hist
  · intro u
    rw [phase_app]
    by_cases e : u = t
    · subst e
      simp only [St.at, upd_same, I.loc u, hpc, shape]
      simp [Phase.next, Phase.pnext, view]
    · simp only [St.at, upd_ne _ _ e]
      rw [phase_other e (by simp [mine, Proto.mine, view])]; exact I.loc u
  · intro u
    by_cases e : u = t
    · subst e; simp [St.at, upd_same, I.nodup.mem_erase_iff]
    · simp [St.at, upd_ne _ _ e, I.nodup.mem_erase_iff, e, I.ins u]
  · exact I.nodup.erase t
  · intro u hu
    by_cases e : u = t
    · subst e; simp only [St.at, upd_same] at hu; simp [shape, isD] at hu
    · simp only [St.at, upd_ne _ _ e] at hu; exact I.dy u hu
  · intro d hd u hu
    by_cases e : u = t
    · subst e; simp [St.at, upd_same]
    · simp only [St.at, upd_ne _ _ e]; exact I.alone d hd u hu
  · intro d hd hg
    by_cases e : d = t
    · subst e; rcases I.dyin d hd hg with h | h <;> rw [hpc] at h <;> simp at h
    · simp only [St.at, upd_ne _ _ e]; exact I.dyin d hd hg
  · intro h
    obtain ⟨d, h1, h2⟩ := I.gon h
    refine ⟨d, h1, ?_⟩
    by_cases e : d = t
    · subst e; simp [St.at, upd_same]
    · simp only [St.at, upd_ne _ _ e]; exact h2
  · intro u hu
    by_cases e : u = t
    · subst e; simp [St.at, upd_same] at hu
    · simp only [St.at, upd_ne _ _ e] at hu; exact I.dj u hu
  · intro u o hu
    by_cases e : u = t
    · subst e; simp [St.at, upd_same] at hu
    · simp only [St.at, upd_ne _ _ e] at hu; exact I.dr u o hu
  · intro h
    obtain ⟨d, h1, h2⟩ := I.er h
    refine ⟨d, h1, ?_⟩
    by_cases e : d = t
    · subst e; rcases h2 with h2 | h2
      · rw [hpc] at h2; simp at h2
      · exact Or.inr h2
    · simp only [St.at, upd_ne _ _ e]; exact h2

/-- The two steps of destroy. -/
theorem Inv.step_destroy {k : Kind} {d : Disc} {s s' : St} {tr ev : List Ev} {t : Tid} (I : Inv k s tr)
    (hstep : Tm.step d s (.go t) = some (s', ev)) (hpc : s.pc t = .dEnter ∨ s.pc t = .dJoin) : Inv k s' (tr ++ ev) := by
  have hdy : s.dying = some t := I.dy t (by rcases hpc with h | h <;> rw [h] <;> rfl)
  have hal := I.alone t hdy
  have hng : s.gone = false := by
    cases h : s.gone with
    | false => rfl
    | true =>
      obtain ⟨d, h1, h2⟩ := I.gon h; rw [hdy] at h1; simp at h1; subst h1
      rcases hpc with h3 | h3 <;> rw [h3] at h2 <;> simp at h2
  rcases hpc with hpc | hpc
  · simp only [Tm.step, hpc, Option.some.injEq, Prod.mk.injEq] at hstep; obtain ⟨rfl, rfl⟩ := hstep
    refine ⟨I.knd, ?_, ?_, ?_, ?_, I.nodup, ?_, ?_, ?_, ?_, ?_, ?_, ?_⟩
    · rw [effects_app]
      refine hist0 ?_
      simp only [abs, St.at, wakeW_ph]; exact I.hist
    · intro u
      rw [List.append_nil]
      by_cases e : u = t
      · subst e; simp only [St.at, upd_same, I.loc u, hpc, shape]
      · simp only [St.at, upd_ne _ _ e]; exact I.loc u
    · have h := I.sc
      constructor <;> simp only [St.at, wakeW_G, wakeW_0]
      · exact h.g
      · exact h.z
      · intro hw; cases hw' : s.w <;> rw [hw'] at hw <;> simp [wakeW] at hw
      · intro hw; cases hw' : s.w <;> rw [hw'] at hw <;> simp [wakeW] at hw
      · intro hw; apply h.po; cases hw' : s.w <;> rw [hw'] at hw <;> simp [wakeW] at hw ⊢
      · intro hw; apply h.ta; cases hw' : s.w <;> rw [hw'] at hw <;> simp [wakeW] at hw ⊢
      · intro _; trivial
      · intro hg; rw [hng] at hg; simp at hg
    · intro u
      by_cases e : u = t
      · subst e; simp [St.at, upd_same, I.ins u, hpc]
      · simp only [St.at, upd_ne _ _ e]; exact I.ins u
    · intro u hu
      by_cases e : u = t
      · subst e; exact hdy
      · simp only [St.at, upd_ne _ _ e] at hu; exact I.dy u hu
    · intro d hd u hu
      simp only [St.at] at hd ⊢
      rw [hdy] at hd; simp at hd; subst hd
      simp only [upd_ne _ _ hu]; exact hal u hu
    · intro d hd hg
      simp only [St.at] at hd ⊢
      rw [hdy] at hd; simp at hd; subst hd
      simp [upd_same]
    · intro h; simp only [St.at] at h; rw [hng] at h; simp at h
    · intro u hu; rfl
    · intro u o hu
      by_cases e : u = t
      · subst e; simp [St.at, upd_same] at hu
      · simp only [St.at, upd_ne _ _ e] at hu; exact I.dr u o hu
    · intro _; exact ⟨t, hdy, Or.inl (by simp [St.at, upd_same])⟩
  · simp only [Tm.step, hpc] at hstep
    split at hstep
    case isFalse => simp at hstep
    case isTrue hw =>
    simp only [Option.some.injEq, Prod.mk.injEq] at hstep; obtain ⟨rfl, rfl⟩ := hstep
    have h := I.sc
    have hend := I.dj t hpc
    refine ⟨I.knd, ?_, ?_, ?_, ?_, I.nodup, ?_, ?_, ?_, ?_, ?_, ?_, ?_⟩
    · rw [effects_app]
      have ha : (abs s).ph = .quit := by simp [abs, hw, absPh, hng]
      have := I.hist.snoc (x := .op .destroy .destroyed) (Legal.destroyed ha)
      simp only [abs, St.at, hw, absPh, if_true] at this ⊢
      exact this
    · intro u
      rw [phase_app]
      by_cases e : u = t
      · subst e; simp only [St.at, upd_same, I.loc u, hpc, shape]; simp [Phase.next, Phase.pnext, view]
      · simp only [St.at, upd_ne _ _ e]; rw [phase_other e (by simp [mine, Proto.mine, view])]; exact I.loc u
    · exact ⟨h.g, h.z, h.sl, h.ar, h.po, h.ta, h.de, fun _ => hw⟩
    · intro u
      by_cases e : u = t
      · subst e; simp [St.at, upd_same, I.ins u, hpc]
      · simp only [St.at, upd_ne _ _ e]; exact I.ins u
    · intro u hu
      by_cases e : u = t
      · subst e; exact hdy
      · simp only [St.at, upd_ne _ _ e] at hu; exact I.dy u hu
    · intro d hd u hu
      simp only [St.at] at hd ⊢
      rw [hdy] at hd; simp at hd; subst hd
      simp only [upd_ne _ _ hu]; exact hal u hu
    · intro d hd hg; simp at hg
    · intro _; exact ⟨t, hdy, Or.inr (by simp [St.at, upd_same])⟩
    · intro u hu; exact hend
    · intro u o hu
      by_cases e : u = t
      · subst e; simp [St.at, upd_same] at hu; simp [hu]
      · simp only [St.at, upd_ne _ _ e] at hu; have := I.dr u o hu; rw [hng] at this; simp at this
    · intro _; exact ⟨t, hdy, Or.inr rfl⟩

theorem Scal.same {s s' : St} (h : Scal s) (h1 : s'.active = s.active) (h2 : s'.started = s.started) (h3 : s'.stopped = s.stopped)
    (h4 : s'.endReq = s.endReq) (h5 : s'.w = s.w) (h6 : s'.kind = s.kind) (h7 : s'.gone = s.gone) : Scal s' := by
  constructor <;> rw [h5] <;> (try rw [h1]) <;> (try rw [h2]) <;> (try rw [h3]) <;> (try rw [h4]) <;> (try rw [h6]) <;> (try rw [h7])
  · exact h.g
  · exact h.z
  · exact h.sl
  · exact h.ar
  · exact h.po
  · exact h.ta
  · exact h.de
  · exact h.go

/-- A client's step that changes none of the timer's fields. -/
theorem Inv.quiet {k : Kind} {s : St} {tr ev : List Ev} (I : Inv k s tr) (t : Tid) (p' : PC) (hmine : ∀ e, e ∈ ev → mine t e)
    (hh : Hist k (effects tr ++ effects ev) (abs s))
    (hloc : ev.foldl (Phase.next view t) (shape (s.pc t)) = shape p') (hi : s.pc t ≠ .idle) (hi' : p' ≠ .idle)
    (h1 : isD (shape (s.pc t)) = false) (h2 : isD (shape p') = false) : Inv k (s.at t p') (tr ++ ev) :=
  I.client t p' rfl hmine rfl hh hloc (I.sc.same rfl rfl rfl rfl rfl rfl rfl) ⟨rfl, hi, hi'⟩ rfl rfl rfl h1 h2

theorem Inv.doStart {k : Kind} {s : St} {tr : List Ev} {t : Tid} {tm : Nat} (I : Inv k s tr) (hpc : shape (s.pc t) = .called (.start tm))
    (hst : s.stopped = true) : Inv k (doStart s t tm).1 (tr ++ (doStart s t tm).2) := by
  have hi : s.pc t ≠ .idle := by intro h; rw [h] at hpc; simp [shape] at hpc
  obtain ⟨hne, hng⟩ := I.noEnd hi (by rw [hpc]; rfl)
  have h := I.sc
  have hw : in0 s.w = true := by
    cases hw : s.w <;> simp [in0]
    case dead => have := h.de hw; rw [hne] at this; simp at this
    all_goals (have := (h.g (by rw [hw]; rfl)).1; rw [hst] at this; simp at this)
  have ha : s.active = false := by have := (h.z hw).2; rw [hst] at this; simpa using this.symm
  have hs := (h.z hw).1
  refine I.client t (.ret (.start tm) .started) rfl (by simp [Tm.doStart, mine, Proto.mine, view]) rfl ?_ ?_ ?_ ⟨rfl, hi, by simp⟩ rfl rfl rfl
    (by rw [hpc]; rfl) rfl
  · have := I.hist.snoc (x := .op (.start tm) .started) (Legal.started (by simp [abs, ha]) (by simp [abs, hst]))
    simp only [abs, Tm.doStart, St.at, wakeW_ph, Bool.not_false] at this ⊢
    exact this
  · rw [hpc]; simp [Tm.doStart, Phase.next, Phase.pnext, view, shape]
  · have hw' : wakeW s.w = .w0 := by cases hw' : s.w <;> rw [hw'] at hw <;> simp [in0] at hw <;> rfl
    constructor <;> simp only [Tm.doStart, St.at, hw'] <;> simp [inG, in0, hs, hng]

theorem Inv.doStop {k : Kind} {s : St} {tr : List Ev} {t : Tid} (I : Inv k s tr) (hpc : shape (s.pc t) = .called .stop)
    (hst : s.started = true) : Inv k (doStop s t).1 (tr ++ (doStop s t).2) := by
  have hi : s.pc t ≠ .idle := by intro h; rw [h] at hpc; simp [shape] at hpc
  obtain ⟨hne, hng⟩ := I.noEnd hi (by rw [hpc]; rfl)
  have h := I.sc
  have hw : inG s.w = true := by
    cases hw : s.w <;> simp [inG]
    case dead => have := h.de hw; rw [hne] at this; simp at this
    all_goals (have := (h.z (by rw [hw]; rfl)).1; rw [hst] at this; simp at this)
  obtain ⟨h1, h2⟩ := h.g hw
  refine I.client t (.ret .stop .stopped) rfl (by simp [Tm.doStop, mine, Proto.mine, view]) rfl ?_ ?_ ?_ ⟨rfl, hi, by simp⟩ rfl rfl rfl
    (by rw [hpc]; rfl) rfl
  · have := I.hist.snoc (x := .op .stop .stopped) (Legal.stopped (by simp [abs, ← h2, hst]))
    simp only [abs, Tm.doStop, St.at, wakeW_ph] at this ⊢
    exact this
  · rw [hpc]; simp [Tm.doStop, Phase.next, Phase.pnext, view, shape]
  · constructor <;> simp only [Tm.doStop, St.at, wakeW_G, wakeW_0]
    · intro _; exact ⟨h1, trivial⟩
    · intro h0; exfalso; cases hw' : s.w <;> rw [hw'] at hw h0 <;> simp [in0, inG] at hw h0
    · intro h0; exfalso; cases hw' : s.w <;> rw [hw'] at hw h0 <;> simp [wakeW, inG] at hw h0
    · intro h0; exfalso; cases hw' : s.w <;> rw [hw'] at hw h0 <;> simp [wakeW, inG] at hw h0
    · intro hw; apply h.po; cases hw' : s.w <;> rw [hw'] at hw <;> simp [wakeW] at hw ⊢
    · intro hw; apply h.ta; cases hw' : s.w <;> rw [hw'] at hw <;> simp [wakeW] at hw ⊢
    · intro h0; exfalso; cases hw' : s.w <;> rw [hw'] at hw h0 <;> simp [wakeW, inG] at hw h0
    · intro hg; rw [hng] at hg; simp at hg

theorem Inv.step_go {k : Kind} {d : Disc} {s s' : St} {tr ev : List Ev} {t : Tid} (I : Inv k s tr)
    (hstep : Tm.step d s (.go t) = some (s', ev)) : Inv k s' (tr ++ ev) := by
  cases hpc : s.pc t with
  | idle => simp [Tm.step, hpc] at hstep
  | ret c o => exact I.step_ret hstep hpc
  | dEnter => exact I.step_destroy hstep (Or.inl hpc)
  | dJoin => exact I.step_destroy hstep (Or.inr hpc)
  | sWait tm => simp [Tm.step, hpc] at hstep
  | pWait => simp [Tm.step, hpc] at hstep
  | sEnter tm =>
    simp only [Tm.step, hpc] at hstep
    split at hstep
    · next ha =>
      simp only [Option.some.injEq, Prod.mk.injEq] at hstep; obtain ⟨rfl, rfl⟩ := hstep
      exact I.quiet t _ (by simp [mine, Proto.mine, view]) (I.hist.snoc (x := .op (.start tm) .ignored) (Legal.startIgnored (by simp [abs, ha])))
        (by simp [hpc, shape, Phase.next, Phase.pnext, view]) (by simp [hpc]) (by simp) (by rw [hpc]; rfl) rfl
    · split at hstep
      · next hs =>
        simp only [Option.some.injEq] at hstep
        have := I.doStart (t := t) (tm := tm) (by rw [hpc]; rfl) hs
        rw [hstep] at this; exact this
      · simp only [Option.some.injEq, Prod.mk.injEq] at hstep; obtain ⟨rfl, rfl⟩ := hstep
        exact I.quiet t _ (by simp) (hist0 I.hist) (by simp [hpc, shape]) (by simp [hpc]) (by simp) (by rw [hpc]; rfl) rfl
  | sRetest tm =>
    simp only [Tm.step, hpc] at hstep
    split at hstep
    · next hs =>
      simp only [Option.some.injEq] at hstep
      have := I.doStart (t := t) (tm := tm) (by rw [hpc]; rfl) hs
      rw [hstep] at this; exact this
    · simp only [Option.some.injEq, Prod.mk.injEq] at hstep; obtain ⟨rfl, rfl⟩ := hstep
      exact I.quiet t _ (by simp) (hist0 I.hist) (by simp [hpc, shape]) (by simp [hpc]) (by simp) (by rw [hpc]; rfl) rfl
  | pEnter =>
    simp only [Tm.step, hpc] at hstep
    split at hstep
    · next ha =>
      simp only [Option.some.injEq, Prod.mk.injEq] at hstep; obtain ⟨rfl, rfl⟩ := hstep
      exact I.quiet t _ (by simp [mine, Proto.mine, view]) (I.hist.snoc (x := .op .stop .ignored) (Legal.stopIgnored (by simp [abs, ha])))
        (by simp [hpc, shape, Phase.next, Phase.pnext, view]) (by simp [hpc]) (by simp) (by rw [hpc]; rfl) rfl
    · split at hstep
      · next hs =>
        simp only [Option.some.injEq] at hstep
        have := I.doStop (t := t) (by rw [hpc]; rfl) hs
        rw [hstep] at this; exact this
      · simp only [Option.some.injEq, Prod.mk.injEq] at hstep; obtain ⟨rfl, rfl⟩ := hstep
        exact I.quiet t _ (by simp) (hist0 I.hist) (by simp [hpc, shape]) (by simp [hpc]) (by simp) (by rw [hpc]; rfl) rfl
  | pRetest =>
    simp only [Tm.step, hpc] at hstep
    split at hstep
    · next hs =>
      simp only [Option.some.injEq] at hstep
      have := I.doStop (t := t) (by rw [hpc]; rfl) hs
      rw [hstep] at this; exact this
    · simp only [Option.some.injEq, Prod.mk.injEq] at hstep; obtain ⟨rfl, rfl⟩ := hstep
      exact I.quiet t _ (by simp) (hist0 I.hist) (by simp [hpc, shape]) (by simp [hpc]) (by simp) (by rw [hpc]; rfl) rfl
  | iEnter =>
    simp only [Tm.step, hpc, Option.some.injEq, Prod.mk.injEq] at hstep; obtain ⟨rfl, rfl⟩ := hstep
    exact I.quiet t _ (by simp [mine, Proto.mine, view]) (I.hist.snoc (x := .op .isStarted (.active s.active)) (Legal.isStarted (a := abs s)))
      (by simp [hpc, shape, Phase.next, Phase.pnext, view]) (by simp [hpc]) (by simp) (by rw [hpc]; rfl) rfl

theorem Inv.step_spur {k : Kind} {d : Disc} {s s' : St} {tr ev : List Ev} {t : Tid} (I : Inv k s tr)
    (hstep : Tm.step d s (.spur t) = some (s', ev)) : Inv k s' (tr ++ ev) := by
  cases hpc : s.pc t <;> simp [Tm.step, hpc] at hstep
  all_goals
    obtain ⟨rfl, rfl⟩ := hstep
    exact I.quiet t _ (by simp) (hist0 I.hist) (by simp [hpc, shape]) (by simp [hpc]) (by simp) (by rw [hpc]; rfl) rfl

theorem noGone {k : Kind} {s : St} {tr : List Ev} (I : Inv k s tr) (h : s.w ≠ .dead) : s.gone = false := by
  cases hg : s.gone with
  | false => rfl
  | true => exact absurd (I.sc.go hg) h

theorem Inv.ack {k : Kind} {s : St} {tr : List Ev} (I : Inv k s tr) (hw : s.w = .toArm ∨ s.w = .chk ∨ s.w = .late)
    (hc : s.active = false ∨ s.endReq = true) : Inv k (ackStep s).1 (tr ++ (ackStep s).2) := by
  have h := I.sc
  have hg := noGone I (by rcases hw with hw | hw | hw <;> rw [hw] <;> simp)
  obtain ⟨h1, h2⟩ := h.g (by rcases hw with hw | hw | hw <;> rw [hw] <;> rfl)
  have hph : (abs s).ph = .rest := by rcases hw with hw | hw | hw <;> simp [abs, hw, absPh]
  refine I.worker (fun u => ⟨shape_wakeS _ _, ?_⟩) ?_ rfl ?_ ?_ rfl rfl rfl rfl
  · simp only [ackStep, wakeS]; cases s.pc u <;> simp
  · simp only [ackStep]; split <;> simp [view]
  · cases he : s.endReq with
    | true =>
      have := I.hist.snoc (x := .quit) (Legal.quit (b := false) hph)
      simp only [ackStep, he, if_true, abs, absPh, hg] at this ⊢
      simpa [effects, eff] using this
    | false =>
      have ha : s.active = false := by simpa [he] using hc
      have := I.hist.snoc (x := .ack) (Legal.ack (by simp [abs, ha]) (by simp [abs, h1]) hph)
      have e : abs (ackStep s).1 = { abs s with owes := false } := by
        rcases hw with hw | hw | hw <;> simp [ackStep, he, abs, absPh, hw]
      rw [e]
      simpa [effects, eff, ackStep, he] using this
  · cases he : s.endReq with
    | true => constructor <;> simp [ackStep, he, inG, in0]
    | false =>
      have ha : s.active = false := by simpa [he] using hc
      constructor <;> simp [ackStep, he, inG, in0, ha, h2, hg]

theorem Inv.step_w {k : Kind} {d : Disc} {s s' : St} {tr ev : List Ev} (I : Inv k s tr)
    (hstep : Tm.step d s .wgo = some (s', ev)) : Inv k s' (tr ++ ev) := by
  have h := I.sc
  have hng := fun hw => noGone I (hw : s.w ≠ .dead)
  cases hw : s.w with
  | w0s | armed | dead => all_goals simp [Tm.step, hw] at hstep
  | w0 =>
    have hg := hng (by rw [hw]; simp)
    obtain ⟨z1, z2⟩ := h.z (by rw [hw]; rfl)
    have hph : (abs s).ph = .rest := by simp [abs, hw, absPh]
    simp only [Tm.step, hw] at hstep
    split at hstep
    · next hc =>
      split at hstep
      · next he =>
        simp only [Option.some.injEq, Prod.mk.injEq] at hstep; obtain ⟨rfl, rfl⟩ := hstep
        refine I.worker (fun u => ⟨shape_wakeP _ _, ?_⟩) (by simp [view]) rfl ?_ ?_ rfl rfl rfl rfl
        · simp only [wakeP]; cases s.pc u <;> simp
        · have := I.hist.snoc (x := .quit) (Legal.quit (b := (abs s).owes) hph)
          simpa [abs, absPh, hg, effects, eff] using this
        · constructor <;> simp [inG, in0, he]
      · next he =>
        have ha : s.active = true := by simpa [he] using hc
        have he : s.endReq = false := by simpa using he
        split at hstep
        · next hk =>
          simp only [Option.some.injEq, Prod.mk.injEq] at hstep; obtain ⟨rfl, rfl⟩ := hstep
          refine I.worker (fun u => ⟨shape_wakeP _ _, ?_⟩) (by simp [view]) rfl ?_ ?_ rfl rfl rfl rfl
          · simp only [wakeP]; cases s.pc u <;> simp
          · have := I.hist.snoc (x := .arm) (Legal.arm (by simp [abs, ha]) hph)
            simpa [abs, absPh, hg, effects, eff, hw] using this
          · constructor <;> simp [inG, in0, he, ha, z2, hg]
        · next hk =>
          simp only [Option.some.injEq, Prod.mk.injEq] at hstep; obtain ⟨rfl, rfl⟩ := hstep
          refine I.worker (fun u => ⟨shape_wakeP _ _, ?_⟩) (by simp [view]) rfl ?_ ?_ rfl rfl rfl rfl
          · simp only [wakeP]; cases s.pc u <;> simp
          · have := hist0 I.hist
            simpa [abs, absPh, hg, effects, eff, hw] using this
          · constructor <;> simp [inG, in0, he, ha, z2, hk, hg]
    · next hc =>
      simp only [Option.some.injEq, Prod.mk.injEq] at hstep; obtain ⟨rfl, rfl⟩ := hstep
      refine I.worker (fun u => ⟨rfl, Iff.rfl⟩) (by simp [view]) rfl ?_ ?_ rfl rfl rfl rfl
      · have := hist0 I.hist
        simpa [abs, absPh, hg, effects, eff, hw] using this
      · simp only [Bool.or_eq_true, not_or, Bool.not_eq_true] at hc
        constructor <;> simp [inG, in0, hc, z1, z2, hg]
  | toArm =>
    have hg := hng (by rw [hw]; simp)
    simp only [Tm.step, hw] at hstep
    split at hstep
    · next hc =>
      simp only [Option.some.injEq] at hstep
      have := I.ack (Or.inl hw) hc
      rw [hstep] at this; exact this
    · next hc =>
      simp only [Option.some.injEq, Prod.mk.injEq] at hstep; obtain ⟨rfl, rfl⟩ := hstep
      have hc : s.active = true ∧ s.endReq = false := by simpa [not_or] using hc
      have g := h.g (by rw [hw]; rfl)
      refine I.worker (fun u => ⟨rfl, Iff.rfl⟩) (by simp [view]) rfl ?_ ?_ rfl rfl rfl rfl
      · have := I.hist.snoc (x := .arm) (Legal.arm (by simp [abs, hc]) (by simp [abs, hw, absPh]))
        simpa [abs, absPh, hg, effects, eff, hw] using this
      · constructor <;> simp [inG, in0, hc, g, hg]
  | chk =>
    have hg := hng (by rw [hw]; simp)
    simp only [Tm.step, hw] at hstep
    split at hstep
    · next hc =>
      simp only [Option.some.injEq] at hstep
      have := I.ack (Or.inr (Or.inl hw)) hc
      rw [hstep] at this; exact this
    · next hc =>
      simp only [Option.some.injEq, Prod.mk.injEq] at hstep; obtain ⟨rfl, rfl⟩ := hstep
      have hc : s.active = true ∧ s.endReq = false := by simpa [not_or] using hc
      have g := h.g (by rw [hw]; rfl)
      refine I.worker (fun u => ⟨rfl, Iff.rfl⟩) (by simp [view]) rfl ?_ ?_ rfl rfl rfl rfl
      · have := hist0 I.hist
        simpa [abs, absPh, hg, effects, eff, hw] using this
      · constructor <;> simp [inG, in0, hc, g, hg]
  | late =>
    have hg := hng (by rw [hw]; simp)
    simp only [Tm.step, hw] at hstep
    split at hstep
    · next hc =>
      simp only [Option.some.injEq] at hstep
      have := I.ack (Or.inr (Or.inr hw)) hc
      rw [hstep] at this; exact this
    · next hc =>
      simp only [Option.some.injEq, Prod.mk.injEq] at hstep; obtain ⟨rfl, rfl⟩ := hstep
      have hc : s.active = true ∧ s.endReq = false := by simpa [not_or] using hc
      have g := h.g (by rw [hw]; rfl)
      refine I.worker (fun u => ⟨rfl, Iff.rfl⟩) (by simp [view]) rfl ?_ ?_ rfl rfl rfl rfl
      · have := I.hist.snoc (x := .due) (Legal.due (by simp [abs, hc]) (by simp [abs, g]) (by simp [abs, hw, absPh]))
        simpa [abs, absPh, hg, effects, eff, hw] using this
      · constructor <;> simp [inG, in0, hc, g, hg]
  | due =>
    have hg := hng (by rw [hw]; simp)
    simp only [Tm.step, hw, Option.some.injEq, Prod.mk.injEq] at hstep; obtain ⟨rfl, rfl⟩ := hstep
    have g := h.g (by rw [hw]; rfl)
    refine I.worker (fun u => ⟨rfl, Iff.rfl⟩) (by simp [view]) rfl ?_ ?_ rfl rfl rfl rfl
    · have := I.hist.snoc (x := .cbBegin) (Legal.cbBegin (by simp [abs, hw, absPh]))
      simpa [abs, absPh, hg, effects, eff, hw] using this
    · constructor <;> simp [inG, in0, g, hg]
  | running =>
    have hg := hng (by rw [hw]; simp)
    simp only [Tm.step, hw] at hstep
    split at hstep
    case isFalse => simp at hstep
    simp only [Option.some.injEq, Prod.mk.injEq] at hstep; obtain ⟨rfl, rfl⟩ := hstep
    have g := h.g (by rw [hw]; rfl)
    have hk := I.knd
    refine I.worker (fun u => ⟨rfl, Iff.rfl⟩) (by simp [view]) rfl ?_ ?_ rfl rfl rfl rfl
    · have := I.hist.snoc (x := .cbEnd) (Legal.cbEnd (by simp [abs, hw, absPh]))
      cases k <;> simp only [hk] <;> simpa [abs, absPh, hg, effects, eff, hw, afterCb] using this
    · cases k <;> constructor <;> simp [hk, inG, in0, g, hg]
  | post =>
    have hg := hng (by rw [hw]; simp)
    simp only [Tm.step, hw, Option.some.injEq, Prod.mk.injEq] at hstep; obtain ⟨rfl, rfl⟩ := hstep
    have hk := h.po hw
    rw [I.knd] at hk
    refine I.worker (fun u => ⟨rfl, Iff.rfl⟩) (by simp [view]) rfl ?_ ?_ rfl rfl rfl rfl
    · have := I.hist.snoc (x := .fin) (Legal.fin hk (by simp [abs, hw, absPh]))
      simpa [abs, absPh, hg, effects, eff, hw] using this
    · constructor <;> simp [inG, in0, hg]

theorem Inv.step_wt {k : Kind} {d : Disc} {s s' : St} {tr ev : List Ev} {a : Act} (I : Inv k s tr) (ha : a = .expire ∨ a = .wspur)
    (hstep : Tm.step d s a = some (s', ev)) : Inv k s' (tr ++ ev) := by
  have h := I.sc
  have hng := fun hw => noGone I (hw : s.w ≠ .dead)
  rcases ha with rfl | rfl
  · cases hw : s.w <;> simp [Tm.step, hw] at hstep
    obtain ⟨rfl, rfl⟩ := hstep
    have hg := hng (by rw [hw]; simp)
    have g := h.g (by rw [hw]; rfl)
    refine I.worker (fun u => ⟨rfl, Iff.rfl⟩) (by simp [view]) rfl ?_ ?_ rfl rfl rfl rfl
    · have := hist0 I.hist
      simpa [abs, absPh, hg, effects, eff, hw] using this
    · constructor <;> simp [inG, in0, g, hg]
  · cases hw : s.w <;> simp [Tm.step, hw] at hstep
    all_goals
      obtain ⟨rfl, rfl⟩ := hstep
      have hg := hng (by rw [hw]; simp)
      refine I.worker (fun u => ⟨rfl, Iff.rfl⟩) (by simp [view]) rfl ?_ ?_ rfl rfl rfl rfl
      · have := hist0 I.hist
        simpa [abs, absPh, hg, effects, eff, hw] using this
    · have z := h.z (by rw [hw]; rfl)
      constructor <;> simp [inG, in0, z, hg]
    · have g := h.g (by rw [hw]; rfl)
      constructor <;> simp [inG, in0, g, hg]

theorem Inv.step {k : Kind} {d : Disc} {s s' : St} {tr ev : List Ev} {a : Act} (I : Inv k s tr)
    (hstep : Tm.step d s a = some (s', ev)) : Inv k s' (tr ++ ev) := by
  cases a with
  | call t c => exact I.step_call hstep
  | go t => exact I.step_go hstep
  | spur t => exact I.step_spur hstep
  | wgo => exact I.step_w hstep
  | expire => exact I.step_wt (Or.inl rfl) hstep
  | wspur => exact I.step_wt (Or.inr rfl) hstep

theorem Inv.reach {k : Kind} {d : Disc} {period : Nat} {s : St} {tr : List Ev} (h : Reach (Tm.step d) (Tm.init k period) s tr) : Inv k s tr :=
  h.inv (Inv.init k period) fun _ _ _ _ _ I hs => I.step hs

end Verif.Tm
