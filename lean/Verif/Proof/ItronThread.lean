import Verif.Spec.ItronThread
namespace Verif.ITh
open Verif
open _root_.Verif.Mtx (Tid)
open _root_.Verif.EvF (Tmo)
open _root_.Verif.Thr.Spec (A tmo)
open ITh Spec Lts Proto
set_option linter.unusedSimpArgs false
set_option linter.unusedVariables false

theorem effects_app (tr ev : List Ev) : effects (tr ++ ev) = effects tr ++ effects ev := by simp [effects]
theorem phase_app (t : Tid) (tr ev : List Ev) : phase t (tr ++ ev) = ev.foldl (Phase.next view t) (phase t tr) := Proto.phase_app t tr ev
abbrev mine (t : Tid) (e : Ev) : Prop := Proto.mine view t e

def cHolds : PC → Bool
  | .sFlg | .sTst | .sClr | .sSta | .sRef | .sChg | .sUnl _ | .pSet .. | .pFlg .. | .pTst .. | .pChg .. | .pUnl .. | .gRead | .gUnl _ => true
  | _ => false
/-- About to set EV_STARTED. -/
def setter : PC → Bool
  | .sRef | .sChg | .sUnl .started | .sSet => true
  | _ => false
def inSet : PC → Bool
  | .pFlg .. | .pTst .. | .pChg .. => true
  | _ => false
def inRef : PC → Bool
  | .sRef | .sChg => true
  | _ => false
def isDestroy : PC → Bool
  | .wFlg .destroy _ | .wWait .destroy _ | .wPoll .destroy _ | .dDel | .ret (.thr .destroy) _ => true
  | _ => false

def abs (s : St) : A :=
  if s.gone then .dead
  else match s.w with
    | .dormant => if s.finished then .finished else .pending
    | .wStart | .clr | .begin => .pending
    | .running => .running
    | .setF | .exiting => .over

/-- The timeout that goes with a wait, also the one inside destroy. -/
def tmo' : Thr.Call → Option Tmo
  | .destroy => some .forever
  | c => tmo c

/-- `t` is inside isFinished, judging by the trace. -/
def Open (t : Tid) (tr : List Ev) : Prop := ∃ u v, tr = u ++ .call t (.thr .isFinished) :: v ∧ Ev.call t (.thr .isFinished) ∉ v

def Loc (k : Cfg) (s : St) (ph : Phase Call Out) (op : Prop) (sw : Bool → Prop) : PC → Prop
  | .idle => ph = .out
  | .sLock | .sFlg => ph = .called (.thr .start)
  | .sTst => ph = .called (.thr .start) ∧ s.finished = true
  | .sClr => ph = .called (.thr .start) ∧ s.finished = true ∧ s.w = .dormant
  | .sSta => ph = .done (.thr .start) (.thr .started) ∧ s.finished = false ∧ s.w = .dormant
  | .sRef | .sChg | .sSet => ph = .done (.thr .start) (.thr .started) ∧ s.w = .wStart ∧ s.started = false
  | .sUnl o => ph = .done (.thr .start) (.thr o) ∧ (o = .started → s.w = .wStart ∧ s.started = false)
  | .wFlg c tm => ph = .called (.thr c) ∧ tmo' c = some tm
  | .wWait c tm => ph = .called (.thr c) ∧ tmo' c = some tm ∧ s.finished = false ∧ tm ≠ .ms 0
  | .wPoll c seen => (∃ tm, tmo' c = some tm) ∧ (if seen = true ∧ c ≠ .destroy then ph = .done (.thr c) (.thr .ok) else ph = .called (.thr c)) ∧
      (seen = false → s.w = .exiting) ∧ (seen = true → c = .destroy → s.w = .dormant ∧ s.finished = true)
  | .fFlg => ph = .out ∧ op
  | .fTst => ph = .out ∧ op ∧ (sw true ∨ s.w = .exiting)
  | .pLock p self | .pSet p self => ph = .called (.setPriority p self)
  | .pFlg p self | .pChg p self => ph = .called (.setPriority p self) ∧ s.prio = inherit k p self
  | .pTst p self => ph = .called (.setPriority p self) ∧ s.prio = inherit k p self ∧ s.finished = true
  | .pUnl p self => ph = .done (.setPriority p self) .set
  | .gLock | .gRead => ph = .called .getPriority
  | .gUnl v => ph = .done .getPriority (.prio v)
  | .dDel => ph = .called (.thr .destroy) ∧ s.w = .dormant ∧ s.finished = true
  | .ret c o => if c = .thr .isFinished then ph = .out ∧ ∃ b, o = .thr (.finished b) ∧ sw b
      else ph = .done c o ∧ (c = .thr .destroy → s.gone = true ∧ o = .thr .destroyed)

structure Inv (k : Cfg) (s : St) (tr : List Ev) : Prop where
  hist : Hist k (effects tr) (abs s, s.aprio)
  loc : ∀ t, Loc k s (phase t tr) (Open t tr) (Saw k t tr) (s.pc t)
  hc : ∀ t, s.holder = some t ↔ cHolds (s.pc t) = true
  ins : ∀ t, t ∈ s.inside ↔ s.pc t ≠ .idle
  nodup : s.inside.Nodup
  dy : ∀ t, isDestroy (s.pc t) = true → s.dying = some t
  alone : ∀ d, s.dying = some d → ∀ u, u ≠ d → s.pc u = .idle
  dyin : ∀ d, s.dying = some d → s.gone = false → isDestroy (s.pc d) = true
  gone : s.gone = true → s.w = .dormant ∧ s.finished = true ∧ ∃ d, s.dying = some d ∧ (s.pc d = .idle ∨ s.pc d = .ret (.thr .destroy) (.thr .destroyed))
  sta : s.started = true → s.w = .wStart ∨ s.w = .clr
  fin : s.finished = true → s.w = .exiting ∨ s.w = .dormant
  exi : s.w = .exiting → s.finished = true
  base : s.w ≠ .dormant → s.base = s.aprio ∨ ∃ t, inRef (s.pc t) = true
  prio : s.prio = s.aprio ∨ ∃ t, inSet (s.pc t) = true
  one : ∀ t u, setter (s.pc t) = true → setter (s.pc u) = true → t = u
  live1 : s.w = .wStart → s.started = false → ∃ t, setter (s.pc t) = true
  live2 : s.w = .dormant → s.finished = false → ∃ t, s.pc t = .sSta

theorem hist0 {k : Cfg} {h : List Eff} {a : A × Nat} (hh : Hist k h a) : Hist k (h ++ []) a := by rwa [List.append_nil]

theorem Inv.init (k : Cfg) : Inv k (init k) [] := by
  constructor <;> simp [ITh.init, abs, Loc, Proto.phase, cHolds, isDestroy, effects, Hist.nil, setter]

theorem Loc.frame {k : Cfg} {s s' : St} {ph : Phase Call Out} {op op' : Prop} {sw sw' : Bool → Prop} {p : PC} (h : Loc k s ph op sw p)
    (hop : op → op') (hsw : ∀ b, sw b → sw' b)
    (h1 : s'.finished = s.finished ∨ (cHolds p = false ∧ isDestroy p = false ∧ s'.finished = false))
    (h2 : s'.w = s.w ∨ (s.w = .dormant ∧ cHolds p = false ∧ isDestroy p = false))
    (h3 : s'.started = s.started ∨ setter p = false) (h4 : s'.prio = s.prio ∨ cHolds p = false) (h5 : s.gone = true → s'.gone = true) :
    Loc k s' ph op' sw' p := by
  cases p with
  | ret c o => 
    simp only [Loc] at *
    split at h
    · next hc => rw [if_pos hc]; obtain ⟨a, b, c, d⟩ := h; exact ⟨a, b, c, hsw _ d⟩
    · next hc => rw [if_neg hc]; exact ⟨h.1, fun hc => ⟨h5 (h.2 hc).1, (h.2 hc).2⟩⟩
  | fTst =>
    simp only [Loc] at *
    refine ⟨h.1, hop h.2.1, ?_⟩
    rcases h.2.2 with h | h
    · exact .inl (hsw _ h)
    · right; rcases h2 with h2 | h2
      · rw [h2, h]
      · rw [h2.1] at h; simp at h
  | fFlg => exact ⟨h.1, hop h.2⟩
  | wPoll c b =>
    cases c <;> cases b <;> simp only [Loc, isDestroy, cHolds, setter] at * <;> grind
  | sUnl o => cases o <;> simp only [Loc, isDestroy, cHolds, setter] at * <;> grind
  | _ => simp only [Loc, isDestroy, cHolds, setter] at * <;> grind

theorem Open.mono {t : Tid} {tr ev : List Ev} (h : Open t tr) (hn : Ev.call t (.thr .isFinished) ∉ ev) : Open t (tr ++ ev) := by
  obtain ⟨u, v, rfl, h2⟩ := h
  exact ⟨u, v ++ ev, by simp, by simp [h2, hn]⟩

theorem _root_.Verif.ITh.Spec.Saw.mono {k : Cfg} {t : Tid} {tr ev : List Ev} {b : Bool} (h : Saw k t tr b) (hn : Ev.call t (.thr .isFinished) ∉ ev) : Saw k t (tr ++ ev) b := by
  obtain ⟨u, v, w, a, p, rfl, h2, h3⟩ := h
  exact ⟨u, v, w ++ ev, a, p, by simp, by rw [← List.append_assoc, List.mem_append]; simp [h2, hn], h3⟩

theorem Open.saw {k : Cfg} {t : Tid} {tr : List Ev} {a : A} {p : Nat} {b : Bool} (h : Open t tr) (hh : Hist k (effects tr) (a, p)) (h1 : a ≠ .dead)
    (h2 : a = .finished ↔ b = true) : Saw k t tr b := by
  obtain ⟨u, v, rfl, h3⟩ := h
  exact ⟨u, v, [], a, p, by simp, by simpa using h3, hh, h1, h2⟩

theorem holder_upd {m m' : Option Tid} {pc : Tid → PC} {t : Tid} {p' : PC} (h : ∀ u, m = some u ↔ cHolds (pc u) = true)
    (hc : (m' = m ∧ cHolds p' = cHolds (pc t)) ∨ (m = none ∧ m' = some t ∧ cHolds p' = true) ∨
      (cHolds (pc t) = true ∧ m' = none ∧ cHolds p' = false)) :
    ∀ u, m' = some u ↔ cHolds (upd pc t p' u) = true := by
  intro u
  have h0 := h u
  have h1 := h t
  by_cases e : u = t
  · subst e; rw [upd_same]; grind
  · rw [upd_ne _ _ e]; grind

theorem ex_upd {pc : Tid → PC} {t : Tid} {p' : PC} {f : PC → Bool} (h : ∃ u, f (pc u) = true) (hf : f (pc t) = false ∨ f p' = true) :
    ∃ u, f (upd pc t p' u) = true := by
  obtain ⟨u, hu⟩ := h
  by_cases e : u = t
  · subst e; exact ⟨u, by rw [upd_same]; grind⟩
  · exact ⟨u, by rw [upd_ne _ _ e]; exact hu⟩

/-- A step of client `t` inside a call. -/
theorem Inv.client {k : Cfg} {s s' : St} {tr ev : List Ev} (I : Inv k s tr) (t : Tid) (p' : PC)
    (hpc : s'.pc = upd s.pc t p') (hmine : ∀ e, e ∈ ev → mine t e ∧ ∀ u, e ≠ .call u (.thr .isFinished))
    (hh : Hist k (effects tr ++ effects ev) (abs s', s'.aprio))
    (hloc : (Open t tr → Open t (tr ++ ev)) → (∀ b, Saw k t tr b → Saw k t (tr ++ ev) b) →
      Loc k s' (ev.foldl (Phase.next view t) (phase t tr)) (Open t (tr ++ ev)) (Saw k t (tr ++ ev)) p')
    (h1 : s'.finished = s.finished ∨ (cHolds (s.pc t) = true ∧ s'.finished = false))
    (h2 : s'.w = s.w ∨ (s.w = .dormant ∧ cHolds (s.pc t) = true))
    (h3 : s'.started = s.started ∨ setter (s.pc t) = true)
    (h4 : s'.prio = s.prio ∨ cHolds (s.pc t) = true)
    (hm : (s'.holder = s.holder ∧ cHolds p' = cHolds (s.pc t)) ∨ (s.holder = none ∧ s'.holder = some t ∧ cHolds p' = true) ∨
      (cHolds (s.pc t) = true ∧ s'.holder = none ∧ cHolds p' = false))
    (hin : s'.inside = s.inside ∧ s.pc t ≠ .idle ∧ p' ≠ .idle)
    (hdy : s'.dying = s.dying ∧ isDestroy p' = isDestroy (s.pc t))
    (hsg : s.gone = true → s'.gone = true ∧ s.pc t ≠ .ret (.thr .destroy) (.thr .destroyed))
    (hgone : s'.gone = true → s.gone = false → s'.w = .dormant ∧ s'.finished = true ∧ s.dying = some t ∧ p' = .ret (.thr .destroy) (.thr .destroyed))
    (sta : s'.started = true → s'.w = .wStart ∨ s'.w = .clr)
    (fin : s'.finished = true → s'.w = .exiting ∨ s'.w = .dormant)
    (exi : s'.w = .exiting → s'.finished = true)
    (base : s'.w ≠ .dormant → s'.base = s'.aprio ∨ (s'.base = s.base ∧ s'.aprio = s.aprio ∧ s'.w = s.w ∧ (inRef (s.pc t) = false ∨ inRef p' = true)) ∨ inRef p' = true)
    (prio : s'.prio = s'.aprio ∨ (s'.prio = s.prio ∧ s'.aprio = s.aprio ∧ (inSet (s.pc t) = false ∨ inSet p' = true)) ∨ inSet p' = true)
    (one : setter p' = true → setter (s.pc t) = true ∨ s.w = .dormant)
    (live1 : s'.w = .wStart → s'.started = false → setter p' = true ∨ (s.w = .wStart ∧ s.started = false ∧ setter (s.pc t) = false))
    (live2 : s'.w = .dormant → s'.finished = false → p' = .sSta ∨ (s.w = .dormant ∧ s.finished = false ∧ s.pc t ≠ .sSta)) : Inv k s' (tr ++ ev) := by
  have hupd : ∀ u, u ≠ t → s'.pc u = s.pc u := fun u hu => by rw [hpc, upd_ne _ _ hu]
  have hsame : s'.pc t = p' := by rw [hpc, upd_same]
  obtain ⟨i1, i2, i3⟩ := hin
  obtain ⟨d1, d2⟩ := hdy
  have hnc : ∀ u, Ev.call u (.thr .isFinished) ∉ ev := fun u hu => (hmine _ hu).2 u rfl
  have hother : ∀ u, u ≠ t → cHolds (s.pc t) = true → cHolds (s.pc u) = false := by
    intro u hu ht
    cases h : cHolds (s.pc u)
    · rfl
    · have a := (I.hc u).2 h; have b := (I.hc t).2 ht; rw [a] at b; simp at b; exact absurd b hu
  have hdes : ∀ u, u ≠ t → isDestroy (s.pc u) = false := by
    intro u hu
    cases h : isDestroy (s.pc u)
    · rfl
    · exact absurd (I.alone u (I.dy u h) t (fun e => hu e.symm)) i2
  have hset : ∀ u, u ≠ t → setter (s.pc t) = true → setter (s.pc u) = false := by
    intro u hu ht
    cases h : setter (s.pc u)
    · rfl
    · exact absurd (I.one u t h ht) hu
  constructor
  · rw [effects_app]; exact hh
  · intro u
    by_cases e : u = t
    · subst e; rw [phase_app, hsame]
      exact hloc (fun h => h.mono (hnc _)) (fun b h => h.mono (hnc _))
    · rw [phase_app, hupd u e, phase_other e (fun x hx => (hmine x hx).1)]
      refine (I.loc u).frame (fun h => h.mono (hnc _)) (fun b h => h.mono (hnc _)) ?_ ?_ ?_ ?_ (fun h => (hsg h).1)
      · rcases h1 with h | h
        · exact .inl h
        · exact .inr ⟨hother u e h.1, hdes u e, h.2⟩
      · rcases h2 with h | h
        · exact .inl h
        · exact .inr ⟨h.1, hother u e h.2, hdes u e⟩
      · rcases h3 with h | h
        · exact .inl h
        · exact .inr (hset u e h)
      · rcases h4 with h | h
        · exact .inl h
        · exact .inr (hother u e h)
  · rw [hpc]; exact holder_upd I.hc hm
  · intro u; rw [i1, I.ins u]
    by_cases e : u = t
    · subst e; rw [hsame]; simp [i2, i3]
    · rw [hupd u e]
  · rw [i1]; exact I.nodup
  · intro u hu; rw [d1]; apply I.dy
    by_cases e : u = t
    · subst e; rw [← d2]; rw [hsame] at hu; exact hu
    · rw [hupd u e] at hu; exact hu
  · intro d hd u hu
    have := I.alone d (d1 ▸ hd) u hu
    have e : u ≠ t := fun e => i2 (e ▸ this)
    rw [hupd u e]; exact this
  · intro d hd hg
    have h2 : s.gone = false := by
      cases h : s.gone
      · rfl
      · rw [(hsg h).1] at hg; simp at hg
    have := I.dyin d (d1 ▸ hd) h2
    by_cases e : d = t
    · subst e; rw [hsame, d2]; exact this
    · rw [hupd d e]; exact this
  · intro hg
    cases h : s.gone
    · obtain ⟨a, b, c, d⟩ := hgone hg h
      exact ⟨a, b, t, by rw [d1, c], .inr (by rw [hsame, d])⟩
    · obtain ⟨a, b, d, c, e⟩ := I.gone h
      exfalso
      by_cases hd : d = t
      · subst hd
        rcases e with e | e
        · exact i2 e
        · exact (hsg h).2 e
      · exact i2 (I.alone d c t (fun x => hd x.symm))
  · exact sta
  · exact fin
  · exact exi
  · intro hw
    rcases base hw with h | ⟨a, b, c, d⟩ | h
    · exact .inl h
    · rw [a, b]
      rcases I.base (c ▸ hw) with h | h
      · exact .inl h
      · right; rw [hpc]; exact ex_upd h d
    · exact .inr ⟨t, by rw [hsame]; exact h⟩
  · rcases prio with h | ⟨a, b, d⟩ | h
    · exact .inl h
    · rw [a, b]
      rcases I.prio with h | h
      · exact .inl h
      · right; rw [hpc]; exact ex_upd h d
    · exact .inr ⟨t, by rw [hsame]; exact h⟩
  · have key : ∀ u, u ≠ t → setter p' = true → setter (s.pc u) = true → False := by
      intro u hu hp hu2
      rcases one hp with h | h
      · have := hset u hu h; rw [hu2] at this; simp at this
      · have := I.loc u
        cases hq : s.pc u <;> rw [hq] at this hu2 <;> simp [setter] at hu2 <;> simp [Loc, h] at this
        rename_i o
        cases o <;> simp at hu2 this
    intro a b ha hb
    by_cases ea : a = t <;> by_cases eb : b = t
    · rw [ea, eb]
    · subst ea; rw [hsame] at ha; rw [hupd b eb] at hb; exact absurd hb (fun h => key b eb ha h)
    · subst eb; rw [hsame] at hb; rw [hupd a ea] at ha; exact absurd ha (fun h => key a ea hb h)
    · rw [hupd a ea] at ha; rw [hupd b eb] at hb; exact I.one a b ha hb
  · intro hw hs
    rcases live1 hw hs with h | ⟨a, b, c⟩
    · exact ⟨t, by rw [hsame]; exact h⟩
    · rw [hpc]; exact ex_upd (I.live1 a b) (.inl c)
  · intro hw hs
    rcases live2 hw hs with h | ⟨a, b, c⟩
    · exact ⟨t, by rw [hsame]; exact h⟩
    · obtain ⟨u, hu⟩ := I.live2 a b
      have : u ≠ t := fun e => c (e ▸ hu)
      exact ⟨u, by rw [hupd u this]; exact hu⟩

theorem Inv.not_gone {k : Cfg} {s : St} {tr : List Ev} (I : Inv k s tr) {t : Tid} (h1 : s.pc t ≠ .idle) (h2 : s.pc t ≠ .ret (.thr .destroy) (.thr .destroyed)) : s.gone = false := by
  cases h : s.gone
  · rfl
  · obtain ⟨_, _, d, a, b⟩ := I.gone h
    by_cases e : d = t
    · subst e; rcases b with b | b <;> contradiction
    · exact absurd (I.alone d a t (fun x => e x.symm)) h1

theorem Inv.ninSet {k : Cfg} {s : St} {tr : List Ev} (I : Inv k s tr) {t : Tid} (h1 : cHolds (s.pc t) = true) (h2 : inSet (s.pc t) = false) : s.prio = s.aprio := by
  rcases I.prio with h | ⟨u, hu⟩
  · exact h
  · have h3 : cHolds (s.pc u) = true := by cases hq : s.pc u <;> rw [hq] at hu <;> simp [inSet] at hu <;> rfl
    have a := (I.hc u).2 h3; have b := (I.hc t).2 h1; rw [a] at b; simp at b
    subst b; rw [hu] at h2; simp at h2


theorem abs_pend {s : St} (h : s.gone = false) (h2 : s.w = .wStart ∨ s.w = .clr ∨ s.w = .begin ∨ (s.w = .dormant ∧ s.finished = false)) : abs s = .pending := by
  rcases h2 with h2 | h2 | h2 | h2 <;> simp [abs, h, h2]
theorem abs_fin {s : St} (h : s.gone = false) (h2 : s.w = .dormant ∧ s.finished = true) : abs s = .finished := by simp [abs, h, h2]
theorem abs_nfin {s : St} (h : s.gone = false) (h2 : s.finished = false ∨ s.w ≠ .dormant) : abs s ≠ .finished ∧ abs s ≠ .dead := by
  simp only [abs, h]; cases hw : s.w <;> simp_all

theorem hist1 {k : Cfg} {h : List Eff} {a a' : A × Nat} {ev : List Ev} {x : Eff} (hh : Hist k h a) (he : effects ev = [x]) (hl : Legal k a x a') : Hist k (h ++ effects ev) a' := by
  rw [he]; exact hh.snoc hl

theorem tmo_of {c : Thr.Call} {tm : Tmo} (h : tmo' c = some tm) (hc : c ≠ .destroy) : tmo c = some tm := by cases c <;> simp_all [tmo']

macro "finish_client" : tactic =>
  `(tactic| all_goals (first | (simp_all [St.at, Loc, cHolds, isDestroy, inRef, inSet, setter, Phase.next, Phase.pnext, view, effects, effect]; done) |
      (simp_all [St.at, Loc, cHolds, isDestroy, inRef, inSet, setter, Phase.next, Phase.pnext, view, effects, effect]; grind)))

theorem Inv.step_start {k : Cfg} {s s' : St} {tr ev : List Ev} {t : Tid} (I : Inv k s tr) (hstep : ITh.step k s (.go t) = some (s', ev))
    (hr : s.pc t = .sLock ∨ s.pc t = .sFlg ∨ s.pc t = .sTst ∨ s.pc t = .sClr ∨ s.pc t = .sSta ∨ s.pc t = .sRef ∨ s.pc t = .sChg ∨ s.pc t = .sSet) : Inv k s' (tr ++ ev) := by
  simp only [ITh.step] at hstep
  have ht := I.loc t
  have hps := I.ninSet (t := t)
  have hng := I.not_gone (t := t)
  have hhist := I.hist
  have b1 := I.sta; have b2 := I.fin; have b3 := I.exi; have b4 := I.base; have b5 := I.prio
  rcases hr with hpc | hpc | hpc | hpc | hpc | hpc | hpc | hpc
  all_goals rw [hpc] at ht hps hng; simp only [Loc] at ht; simp [cHolds, inSet] at hps hng; simp only [hpc] at hstep
  · split at hstep <;> simp at hstep; obtain ⟨rfl, rfl⟩ := hstep
    refine I.client t _ rfl (by simp) (hist0 I.hist) ?_ ?_ ?_ ?_ ?_ ?_ ?_ ?_ ?_ ?_ ?_ ?_ ?_ ?_ ?_ ?_ ?_ ?_
    finish_client
  · have ha := abs_nfin hng
    split at hstep <;> simp at hstep <;> obtain ⟨rfl, rfl⟩ := hstep
    · refine I.client t _ rfl (by simp) (hist0 I.hist) ?_ ?_ ?_ ?_ ?_ ?_ ?_ ?_ ?_ ?_ ?_ ?_ ?_ ?_ ?_ ?_ ?_ ?_
      finish_client
    · next hf =>
      simp at hf
      refine I.client t _ rfl (by simp [mine, Proto.mine, view]) (hist1 I.hist rfl (.thr (.ignored (ha (.inl hf)).1 (ha (.inl hf)).2))) ?_ ?_ ?_ ?_ ?_ ?_ ?_ ?_ ?_ ?_ ?_ ?_ ?_ ?_ ?_ ?_ ?_ ?_
      finish_client
  · have ha := abs_nfin hng
    split at hstep <;> simp at hstep <;> obtain ⟨rfl, rfl⟩ := hstep
    · refine I.client t _ rfl (by simp) (hist0 I.hist) ?_ ?_ ?_ ?_ ?_ ?_ ?_ ?_ ?_ ?_ ?_ ?_ ?_ ?_ ?_ ?_ ?_ ?_
      finish_client
    · next hf =>
      refine I.client t _ rfl (by simp [mine, Proto.mine, view]) (hist1 I.hist rfl (.thr (.ignored (ha (.inr hf)).1 (ha (.inr hf)).2))) ?_ ?_ ?_ ?_ ?_ ?_ ?_ ?_ ?_ ?_ ?_ ?_ ?_ ?_ ?_ ?_ ?_ ?_
      finish_client
  · simp at hstep; obtain ⟨rfl, rfl⟩ := hstep
    have e1 : abs s = .finished := abs_fin hng ⟨ht.2.2, ht.2.1⟩
    have e2 : abs { s.at t .sSta with finished := false } = .pending := abs_pend hng (.inr (.inr (.inr ⟨ht.2.2, rfl⟩)))
    refine I.client t _ rfl (by simp [mine, Proto.mine, view]) (hist1 I.hist rfl ?_) ?_ ?_ ?_ ?_ ?_ ?_ ?_ ?_ ?_ ?_ ?_ ?_ ?_ ?_ ?_ ?_ ?_ ?_
    · rw [e1, e2]; exact .thr .started
    finish_client
  · rw [if_pos ht.2.2] at hstep
    simp at hstep; obtain ⟨rfl, rfl⟩ := hstep
    have e1 : abs s = .pending := abs_pend hng (.inr (.inr (.inr ⟨ht.2.2, ht.2.1⟩)))
    have e2 : abs { s.at t .sRef with w := .wStart, base := k.ini } = .pending := abs_pend hng (.inl rfl)
    refine I.client t _ rfl (by simp) (by rw [e2, ← e1]; exact hist0 I.hist) ?_ ?_ ?_ ?_ ?_ ?_ ?_ ?_ ?_ ?_ ?_ ?_ ?_ ?_ ?_ ?_ ?_ ?_
    finish_client
  · split at hstep <;> simp at hstep <;> obtain ⟨rfl, rfl⟩ := hstep
    all_goals refine I.client t _ rfl (by simp) (hist0 I.hist) ?_ ?_ ?_ ?_ ?_ ?_ ?_ ?_ ?_ ?_ ?_ ?_ ?_ ?_ ?_ ?_ ?_ ?_
    finish_client
  · simp at hstep; obtain ⟨rfl, rfl⟩ := hstep
    refine I.client t _ rfl (by simp) (hist0 I.hist) ?_ ?_ ?_ ?_ ?_ ?_ ?_ ?_ ?_ ?_ ?_ ?_ ?_ ?_ ?_ ?_ ?_ ?_
    finish_client
  · simp at hstep; obtain ⟨rfl, rfl⟩ := hstep
    refine I.client t _ rfl (by simp) (hist0 I.hist) ?_ ?_ ?_ ?_ ?_ ?_ ?_ ?_ ?_ ?_ ?_ ?_ ?_ ?_ ?_ ?_ ?_ ?_
    finish_client

theorem Inv.step_sUnl {k : Cfg} {s s' : St} {tr ev : List Ev} {t : Tid} {o : Thr.Out} (I : Inv k s tr) (hstep : ITh.step k s (.go t) = some (s', ev))
    (hpc : s.pc t = .sUnl o) : Inv k s' (tr ++ ev) := by
  simp only [ITh.step] at hstep
  have ht := I.loc t
  have hng := I.not_gone (t := t)
  have b1 := I.sta; have b2 := I.fin; have b3 := I.exi
  have hps := I.ninSet (t := t)
  rw [hpc] at ht hps hng; simp only [Loc] at ht; simp [cHolds, inSet] at hps hng; simp only [hpc] at hstep
  simp at hstep; obtain ⟨rfl, rfl⟩ := hstep
  by_cases ho : o = .started
  · subst ho
    have ht2 := ht.2 rfl
    refine I.client t _ rfl (by simp) (hist0 I.hist) ?_ ?_ ?_ ?_ ?_ ?_ ?_ ?_ ?_ ?_ ?_ ?_ ?_ ?_ ?_ ?_ ?_ ?_
    finish_client
  · have hs : setter (.sUnl o) = false := by cases o <;> simp_all [setter]
    rw [if_neg ho]
    refine I.client t _ rfl (by simp) (hist0 I.hist) ?_ ?_ ?_ ?_ ?_ ?_ ?_ ?_ ?_ ?_ ?_ ?_ ?_ ?_ ?_ ?_ ?_ ?_
    all_goals simp_all [St.at, Loc, cHolds, isDestroy, inRef, inSet]
    all_goals simp_all [setter]

theorem Inv.step_prio {k : Cfg} {s s' : St} {tr ev : List Ev} {t : Tid} {p q : Nat} (I : Inv k s tr) (hstep : ITh.step k s (.go t) = some (s', ev))
    (hr : s.pc t = .pLock p q ∨ s.pc t = .pSet p q ∨ s.pc t = .pFlg p q ∨ s.pc t = .pTst p q ∨ s.pc t = .pChg p q ∨ s.pc t = .pUnl p q ∨ s.pc t = .gLock ∨ s.pc t = .gRead ∨ s.pc t = .gUnl p) : Inv k s' (tr ++ ev) := by
  simp only [ITh.step] at hstep
  have ht := I.loc t
  have hps := I.ninSet (t := t)
  have hng := I.not_gone (t := t)
  have hhist := I.hist
  have b1 := I.sta; have b2 := I.fin; have b3 := I.exi; have b4 := I.base; have b5 := I.prio
  rcases hr with hpc | hpc | hpc | hpc | hpc | hpc | hpc | hpc | hpc
  all_goals rw [hpc] at ht hps hng; simp only [Loc] at ht; simp [cHolds, inSet] at hps hng; simp only [hpc] at hstep
  · split at hstep <;> simp at hstep; obtain ⟨rfl, rfl⟩ := hstep
    refine I.client t _ rfl (by simp) (hist0 I.hist) ?_ ?_ ?_ ?_ ?_ ?_ ?_ ?_ ?_ ?_ ?_ ?_ ?_ ?_ ?_ ?_ ?_ ?_
    finish_client
  · simp at hstep; obtain ⟨rfl, rfl⟩ := hstep
    refine I.client t _ rfl (by simp) (hist0 I.hist) ?_ ?_ ?_ ?_ ?_ ?_ ?_ ?_ ?_ ?_ ?_ ?_ ?_ ?_ ?_ ?_ ?_ ?_
    finish_client
  · split at hstep <;> simp at hstep <;> obtain ⟨rfl, rfl⟩ := hstep
    all_goals refine I.client t _ rfl (by simp) (hist0 I.hist) ?_ ?_ ?_ ?_ ?_ ?_ ?_ ?_ ?_ ?_ ?_ ?_ ?_ ?_ ?_ ?_ ?_ ?_
    finish_client
  · split at hstep <;> simp at hstep <;> obtain ⟨rfl, rfl⟩ := hstep
    · next hw =>
      have e1 : abs s = .finished := abs_fin hng ⟨hw, ht.2.2⟩
      have e2 : abs { s.at t (.pUnl p q) with aprio := s.prio } = .finished := abs_fin hng ⟨hw, ht.2.2⟩
      refine I.client t _ rfl (by simp [mine, Proto.mine, view]) (hist1 I.hist rfl ?_) ?_ ?_ ?_ ?_ ?_ ?_ ?_ ?_ ?_ ?_ ?_ ?_ ?_ ?_ ?_ ?_ ?_ ?_
      · rw [e1, e2]; simp only [ht.2.1, inherit]; exact .set (by simp)
      finish_client
    · refine I.client t _ rfl (by simp) (hist0 I.hist) ?_ ?_ ?_ ?_ ?_ ?_ ?_ ?_ ?_ ?_ ?_ ?_ ?_ ?_ ?_ ?_ ?_ ?_
      finish_client
  · simp at hstep; obtain ⟨rfl, rfl⟩ := hstep
    have e1 : abs s ≠ .dead := by simp only [abs, hng]; cases s.w <;> simp; split <;> simp
    refine I.client t _ rfl (by simp [mine, Proto.mine, view]) (hist1 (a' := (abs s, s.prio)) I.hist rfl ?_) ?_ ?_ ?_ ?_ ?_ ?_ ?_ ?_ ?_ ?_ ?_ ?_ ?_ ?_ ?_ ?_ ?_ ?_
    · rw [ht.2]; simp only [inherit]; exact .set e1
    finish_client
  · simp at hstep; obtain ⟨rfl, rfl⟩ := hstep
    refine I.client t _ rfl (by simp) (hist0 I.hist) ?_ ?_ ?_ ?_ ?_ ?_ ?_ ?_ ?_ ?_ ?_ ?_ ?_ ?_ ?_ ?_ ?_ ?_
    finish_client
  · split at hstep <;> simp at hstep; obtain ⟨rfl, rfl⟩ := hstep
    refine I.client t _ rfl (by simp) (hist0 I.hist) ?_ ?_ ?_ ?_ ?_ ?_ ?_ ?_ ?_ ?_ ?_ ?_ ?_ ?_ ?_ ?_ ?_ ?_
    finish_client
  · simp at hstep; obtain ⟨rfl, rfl⟩ := hstep
    have e1 : abs s ≠ .dead := by simp only [abs, hng]; cases s.w <;> simp; split <;> simp
    refine I.client t _ rfl (by simp [mine, Proto.mine, view]) (hist1 (a' := (abs s, s.aprio)) I.hist rfl (by rw [hps]; exact .get e1)) ?_ ?_ ?_ ?_ ?_ ?_ ?_ ?_ ?_ ?_ ?_ ?_ ?_ ?_ ?_ ?_ ?_ ?_
    finish_client
  · simp at hstep; obtain ⟨rfl, rfl⟩ := hstep
    refine I.client t _ rfl (by simp) (hist0 I.hist) ?_ ?_ ?_ ?_ ?_ ?_ ?_ ?_ ?_ ?_ ?_ ?_ ?_ ?_ ?_ ?_ ?_ ?_
    finish_client

theorem Inv.step_isFin {k : Cfg} {s s' : St} {tr ev : List Ev} {t : Tid} (I : Inv k s tr) (hstep : ITh.step k s (.go t) = some (s', ev))
    (hr : s.pc t = .fFlg ∨ s.pc t = .fTst ∨ s.pc t = .dDel) : Inv k s' (tr ++ ev) := by
  simp only [ITh.step] at hstep
  have ht := I.loc t
  have hps := I.ninSet (t := t)
  have hng := I.not_gone (t := t)
  have hdy := I.dy t
  have hhist := I.hist
  have b1 := I.sta; have b2 := I.fin; have b3 := I.exi; have b4 := I.base; have b5 := I.prio
  rcases hr with hpc | hpc | hpc
  all_goals rw [hpc] at ht hps hng hdy; simp only [Loc] at ht; simp [cHolds, inSet, isDestroy] at hps hng hdy; simp only [hpc] at hstep
  · have ha := abs_nfin hng
    have hb := abs_fin hng
    split at hstep <;> simp at hstep <;> obtain ⟨rfl, rfl⟩ := hstep
    · next hf =>
      have hsw : Saw k t tr true ∨ s.w = .exiting := by
        rcases b2 hf with h | h
        · exact .inr h
        · exact .inl (ht.2.saw I.hist (by simp [hb ⟨h, hf⟩]) (by simp [hb ⟨h, hf⟩]))
      refine I.client t _ rfl (by simp) (hist0 I.hist) ?_ ?_ ?_ ?_ ?_ ?_ ?_ ?_ ?_ ?_ ?_ ?_ ?_ ?_ ?_ ?_ ?_ ?_
      · intro h1 h2; simpa using ⟨ht.1, ht.2, hsw⟩
      finish_client
    · next hf =>
      simp at hf
      have hsw : Saw k t tr false := ht.2.saw I.hist (ha (.inl hf)).2 (by simp [(ha (.inl hf)).1])
      refine I.client t _ rfl (by simp) (hist0 I.hist) ?_ ?_ ?_ ?_ ?_ ?_ ?_ ?_ ?_ ?_ ?_ ?_ ?_ ?_ ?_ ?_ ?_ ?_
      · intro h1 h2; simpa [Loc] using ⟨ht.1, hsw⟩
      finish_client
  · have ha := abs_nfin hng
    simp at hstep; obtain ⟨rfl, rfl⟩ := hstep
    have hsw : Saw k t tr (decide (s.w = .dormant)) := by
      by_cases hw : s.w = .dormant
      · simp only [hw, decide_true]
        have := ht.2.2; simpa [hw] using this
      · simp only [hw, decide_false]
        exact ht.2.1.saw I.hist (ha (.inr hw)).2 (by simp [(ha (.inr hw)).1])
    refine I.client t _ rfl (by simp) (hist0 I.hist) ?_ ?_ ?_ ?_ ?_ ?_ ?_ ?_ ?_ ?_ ?_ ?_ ?_ ?_ ?_ ?_ ?_ ?_
    · intro h1 h2; simpa [Loc] using ⟨ht.1, hsw⟩
    finish_client
  · simp at hstep; obtain ⟨rfl, rfl⟩ := hstep
    have hb := abs_fin hng ht.2
    have hd : abs { s.at t (.ret (.thr .destroy) (.thr .destroyed)) with gone := true } = .dead := by simp [abs]
    refine I.client t _ rfl (by simp [mine, Proto.mine, view]) (hist1 I.hist rfl ?_) ?_ ?_ ?_ ?_ ?_ ?_ ?_ ?_ ?_ ?_ ?_ ?_ ?_ ?_ ?_ ?_ ?_ ?_
    · rw [hb, hd]; exact .thr .destroyed
    finish_client

theorem Inv.timedOut {k : Cfg} {s : St} {tr : List Ev} {t : Tid} {c : Thr.Call} {pc0 : PC} (I : Inv k s tr) (hpc : s.pc t = pc0) (hng : s.gone = false)
    (hid : isDestroy pc0 = false) (hcf : c ≠ .isFinished) (hcd : c ≠ .destroy) (hph : phase t tr = .called (.thr c))
    (hl : Legal k (abs s, s.aprio) (.op (.thr c) (.thr .timedOut)) (abs s, s.aprio)) (hc0 : cHolds pc0 = false := by rfl) (hi0 : inRef pc0 = false := by rfl)
    (hi1 : inSet pc0 = false := by rfl) (hi2 : setter pc0 = false := by rfl) (hi3 : pc0 ≠ .idle := by simp) (hi4 : pc0 ≠ .sSta := by simp) :
    Inv k (s.at t (.ret (.thr c) (.thr .timedOut))) (tr ++ [.lin t (.thr c) (.thr .timedOut)]) := by
  have hv : ∀ o, view (.lin t (.thr c) o) = some (.lin t (.thr c) o) := by intro o; rfl
  have hid1 : isDestroy (.ret (.thr c) (.thr .timedOut)) = false := by cases c <;> simp_all [isDestroy]
  refine I.client t _ rfl (by simp [mine, Proto.mine, view]) (hist1 I.hist rfl hl) ?_ (.inl rfl) (.inl rfl) (.inl rfl) (.inl rfl) (.inl ⟨rfl, by rw [hpc, hc0]; rfl⟩)
    ⟨rfl, by rw [hpc]; exact hi3, by simp⟩ ⟨rfl, by rw [hpc, hid, hid1]⟩ (by simp [hng]) (by simp [St.at, hng]) I.sta I.fin I.exi
    (fun _ => .inr (.inl ⟨rfl, rfl, rfl, .inl (by rw [hpc]; exact hi0)⟩)) (.inr (.inl ⟨rfl, rfl, .inl (by rw [hpc]; exact hi1)⟩)) (by simp [setter])
    (fun a b => .inr ⟨a, b, by rw [hpc]; exact hi2⟩) (fun a b => .inr ⟨a, b, by rw [hpc]; exact hi4⟩)
  intro _ _
  simp [Loc, hcf, hcd, Phase.next, hv, Phase.pnext, hph]

theorem Inv.step_wait {k : Cfg} {s s' : St} {tr ev : List Ev} {t : Tid} {c : Thr.Call} {tm : Tmo} (I : Inv k s tr) (hstep : ITh.step k s (.go t) = some (s', ev))
    (hpc : s.pc t = .wFlg c tm) : Inv k s' (tr ++ ev) := by
  simp only [ITh.step] at hstep
  have ht := I.loc t
  have hng := I.not_gone (t := t)
  have hdy := I.dy t
  have hhist := I.hist
  have b1 := I.sta; have b2 := I.fin; have b3 := I.exi; have b4 := I.base; have b5 := I.prio
  rw [hpc] at ht hng hdy; simp only [Loc] at ht; simp at hng; simp only [hpc] at hstep
  have hid : ∀ c tm b, isDestroy (.wPoll c b) = isDestroy (.wFlg c tm) ∧ isDestroy (.wWait c tm) = isDestroy (.wFlg c tm) := by
    intro c; cases c <;> simp [isDestroy]
  split at hstep
  · next hf =>
    simp at hstep; obtain ⟨rfl, rfl⟩ := hstep
    have hb := abs_fin hng
    have hbf : s.w = .exiting ∨ s.w = .dormant := b2 hf
    have hc := tmo_of ht.2
    by_cases hw : s.w = .dormant ∧ c ≠ .destroy
    · rw [if_pos (by simpa using hw)]
      refine I.client t _ rfl (by simp [mine, Proto.mine, view]) (hist1 I.hist rfl ?_) ?_ ?_ ?_ ?_ ?_ ?_ ?_ ?_ ?_ ?_ ?_ ?_ ?_ ?_ ?_ ?_ ?_ ?_
      · show Legal k (abs s, s.aprio) _ (abs s, s.aprio)
        rw [hb ⟨hw.1, hf⟩]; exact .thr (.ok (hc hw.2))
      · intro _ _; simp [Loc, St.at, hw, ht, Phase.next, Phase.pnext, view]
      all_goals have hid := hid c tm
      finish_client
    · rw [if_neg (by simpa using hw)]
      refine I.client t _ rfl (by simp) (hist0 I.hist) ?_ ?_ ?_ ?_ ?_ ?_ ?_ ?_ ?_ ?_ ?_ ?_ ?_ ?_ ?_ ?_ ?_ ?_
      · intro _ _; simp only [Loc, St.at, List.foldl_nil]
        refine ⟨⟨_, ht.2⟩, ?_, ?_, ?_⟩
        · rw [if_neg (by simpa using hw)]; exact ht.1
        · simp; grind
        · simp [hf]; grind
      all_goals have hid := hid c tm
      finish_client
  · next hf =>
    simp at hf
    have ha := abs_nfin hng (.inl hf)
    split at hstep
    · next h0 =>
      subst h0
      have hcd : c ≠ .destroy := by rintro rfl; simp [tmo'] at ht
      have hc := tmo_of ht.2 hcd
      have hid0 : isDestroy (.wFlg c (.ms 0)) = false := by cases c <;> simp_all [isDestroy]
      simp at hstep; obtain ⟨rfl, rfl⟩ := hstep
      have hcf : c ≠ .isFinished := by rintro rfl; simp [tmo] at hc
      exact I.timedOut hpc hng hid0 hcf hcd ht.1 (.thr (.timedOut hc (by simp) ha.1 ha.2))
    · simp at hstep; obtain ⟨rfl, rfl⟩ := hstep
      refine I.client t _ rfl (by simp) (hist0 I.hist) ?_ ?_ ?_ ?_ ?_ ?_ ?_ ?_ ?_ ?_ ?_ ?_ ?_ ?_ ?_ ?_ ?_ ?_
      all_goals have hid := hid c tm
      finish_client

theorem Inv.step_expire {k : Cfg} {s s' : St} {tr ev : List Ev} {t : Tid} (I : Inv k s tr) (hstep : ITh.step k s (.expire t) = some (s', ev)) : Inv k s' (tr ++ ev) := by
  simp only [ITh.step] at hstep
  cases hpc : s.pc t with
  | wWait c tm =>
    have ht := I.loc t
    have hng := I.not_gone (t := t)
    rw [hpc] at ht hng; simp only [Loc] at ht; simp at hng; simp only [hpc] at hstep
    split at hstep <;> simp at hstep; obtain ⟨rfl, rfl⟩ := hstep
    next hf =>
    have ha := abs_nfin hng (.inl ht.2.2.1)
    have hcd : c ≠ .destroy := by rintro rfl; simp [tmo'] at ht; exact hf ht.2.1.symm
    have hc := tmo_of ht.2.1 hcd
    have hid0 : isDestroy (.wWait c tm) = false := by cases c <;> simp_all [isDestroy]
    have hcf : c ≠ .isFinished := by rintro rfl; simp [tmo] at hc
    exact I.timedOut hpc hng hid0 hcf hcd ht.1 (.thr (.timedOut hc hf ha.1 ha.2))
  | _ => simp [hpc] at hstep

theorem Inv.step_poll {k : Cfg} {s s' : St} {tr ev : List Ev} {t : Tid} {c : Thr.Call} {b : Bool} (I : Inv k s tr) (hstep : ITh.step k s (.go t) = some (s', ev))
    (hpc : s.pc t = .wPoll c b) : Inv k s' (tr ++ ev) := by
  simp only [ITh.step] at hstep
  have ht := I.loc t
  have hng := I.not_gone (t := t)
  have b1 := I.sta; have b2 := I.fin; have b3 := I.exi; have b4 := I.base; have b5 := I.prio
  rw [hpc] at ht hng; simp only [Loc] at ht; simp at hng; simp only [hpc] at hstep
  split at hstep
  · next hw =>
    simp at hstep; obtain ⟨rfl, rfl⟩ := hstep
    have hb : b = true := by
      cases b
      · have := ht.2.2.1 rfl; rw [hw] at this; simp at this
      · rfl
    subst hb
    by_cases hc : c = .destroy
    · subst hc
      simp only [if_true]
      refine I.client t _ rfl (by simp) (hist0 I.hist) ?_ ?_ ?_ ?_ ?_ ?_ ?_ ?_ ?_ ?_ ?_ ?_ ?_ ?_ ?_ ?_ ?_ ?_
      finish_client
    · rw [if_neg hc]
      have hid0 : isDestroy (.wPoll c true) = false := by cases c <;> simp_all [isDestroy]
      have hid1 : isDestroy (.ret (.thr c) (.thr .ok)) = false := by cases c <;> simp_all [isDestroy]
      have hcf : c ≠ .isFinished := by rintro rfl; simp [tmo', tmo] at ht
      refine I.client t _ rfl (by simp) (hist0 I.hist) ?_ (.inl rfl) (.inl rfl) (.inl rfl) (.inl rfl) (.inl ⟨rfl, by rw [hpc]; rfl⟩)
        ⟨rfl, by rw [hpc]; simp, by simp⟩ ⟨rfl, by rw [hpc, hid0, hid1]⟩ (by simp [hng]) (by simp [St.at, hng]) I.sta I.fin I.exi
        (fun _ => .inr (.inl ⟨rfl, rfl, rfl, .inl (by rw [hpc]; rfl)⟩)) (.inr (.inl ⟨rfl, rfl, .inl (by rw [hpc]; rfl)⟩)) (by simp [setter])
        (fun a b => .inr ⟨a, b, by rw [hpc]; rfl⟩) (fun a b => .inr ⟨a, b, by rw [hpc]; simp⟩)
      intro _ _
      have := ht.2.1
      simp [hc] at this
      simp [Loc, hcf, hc, this]
  · simp at hstep; obtain ⟨rfl, rfl⟩ := hstep
    refine I.client t _ rfl (by simp) (hist0 I.hist) ?_ (.inl rfl) (.inl rfl) (.inl rfl) (.inl rfl) (.inl ⟨rfl, by rw [hpc]⟩)
        ⟨rfl, by rw [hpc]; simp, by simp⟩ ⟨rfl, by rw [hpc]⟩ (by simp [hng]) (by simp [St.at, hng]) I.sta I.fin I.exi
        (fun _ => .inr (.inl ⟨rfl, rfl, rfl, .inl (by rw [hpc]; rfl)⟩)) (.inr (.inl ⟨rfl, rfl, .inl (by rw [hpc]; rfl)⟩)) (by simp [setter])
        (fun a b => .inr ⟨a, b, by rw [hpc]; rfl⟩) (fun a b => .inr ⟨a, b, by rw [hpc]; simp⟩)
    intro _ _
    exact ht

theorem Inv.step_call {k : Cfg} {s s' : St} {tr ev : List Ev} {t : Tid} {c : Call} (I : Inv k s tr) (hstep : ITh.step k s (.call t c) = some (s', ev)) : Inv k s' (tr ++ ev) := by
  simp only [ITh.step] at hstep
  split at hstep
  case isFalse => simp at hstep
  case isTrue hcond =>
  obtain ⟨h1, h2, h3, h4⟩ := hcond
  simp at hstep; obtain ⟨rfl, rfl⟩ := hstep
  have ht := I.loc t
  rw [h1] at ht; simp only [Loc] at ht
  have hcall : isDestroy (entry c) = true ↔ c = .thr .destroy := by
    rcases c with c | _ | _
    · cases c <;> simp [entry, isDestroy]
    · simp [entry, isDestroy]
    · simp [entry, isDestroy]
  have hent : cHolds (entry c) = false := by rcases c with c | _ | _ <;> first | rfl | (cases c <;> rfl)
  have hne : entry c ≠ .idle := by rcases c with c | _ | _ <;> first | (simp [entry]; done) | (cases c <;> simp [entry])
  have hset : setter (entry c) = false := by rcases c with c | _ | _ <;> first | rfl | (cases c <;> rfl)
  have hoth : ∀ u, u ≠ t → Ev.call u (.thr .isFinished) ∉ [Ev.call t c] := by intro u hu; simp; intro e; exact absurd e hu
  have hfr : ∀ {f : PC → Bool}, f .idle = false → (∃ u, f (s.pc u) = true) → ∃ u, f (upd s.pc t (entry c) u) = true := by
    intro f hf he; exact ex_upd he (.inl (by rw [h1]; exact hf))
  constructor
  · rw [effects_app]; exact hist0 I.hist
  · intro u
    rw [phase_app]
    by_cases e : u = t
    · subst e
      simp only [St.at, upd_same]
      by_cases hc : c = .thr .isFinished
      · subst hc
        simp only [entry, Loc, List.foldl_cons, List.foldl_nil, Phase.next, view]
        exact ⟨ht, tr, [], rfl, by simp⟩
      · rcases c with c | _ | _
        · cases c <;> simp [entry, Loc, Phase.next, Phase.pnext, view, ht, tmo', tmo] at hc ⊢
        · simp [entry, Loc, Phase.next, Phase.pnext, view, ht]
        · simp [entry, Loc, Phase.next, Phase.pnext, view, ht]
    · simp only [St.at, upd_ne _ _ e]
      rw [phase_other e (by
        intro x hx; simp at hx; subst hx
        simp only [mine, Proto.mine]
        split
        · next h => cases c with
          | thr c => cases c <;> simp [view] at h <;> exact h.1.symm
          | _ => simp [view] at h; exact h.1.symm
        · next h => simp only [view] at h; split at h <;> simp_all
        · next h => simp only [view] at h; split at h <;> simp_all
        · trivial)]
      exact (I.loc u).frame (fun h => h.mono (hoth u e)) (fun b h => h.mono (hoth u e)) (.inl rfl) (.inl rfl) (.inl rfl) (.inl rfl) id
  · exact holder_upd I.hc (Or.inl ⟨rfl, by rw [h1, hent]; rfl⟩)
  · intro u
    by_cases e : u = t
    · subst e; simp [St.at, upd_same, hne]
    · simp [St.at, upd_ne _ _ e, e, I.ins u]
  · have := I.ins t; rw [h1] at this; simp at this; simp [this, I.nodup]
  · intro u hu
    by_cases e : u = t
    · subst e; simp only [St.at, upd_same, hcall] at hu; simp [hu]
    · simp only [St.at, upd_ne _ _ e] at hu; have := I.dy u hu; rw [h4] at this; simp at this
  · intro d hd u hu
    simp only at hd
    split at hd
    · next hc =>
      simp at hd; subst hd
      have := (I.ins u); rw [h3 hc] at this; simp at this
      simp [St.at, upd_ne _ _ hu, this]
    · simp at hd
  · intro d hd _
    simp only at hd
    split at hd
    · next hc => simp at hd; subst hd; simp only [St.at, upd_same, hcall]; exact hc
    · simp at hd
  · intro h; simp [St.at] at h; simp [h2] at h
  · exact I.sta
  · exact I.fin
  · exact I.exi
  · intro h; rcases I.base h with h | h
    · exact .inl h
    · exact .inr (hfr rfl h)
  · rcases I.prio with h | h
    · exact .inl h
    · exact .inr (hfr rfl h)
  · intro a b ha hb
    have : ∀ u, setter (upd s.pc t (entry c) u) = true → setter (s.pc u) = true := by
      intro u hu
      by_cases e : u = t
      · subst e; rw [upd_same, hset] at hu; simp at hu
      · rwa [upd_ne _ _ e] at hu
    exact I.one a b (this a ha) (this b hb)
  · intro e1 e2; exact hfr rfl (I.live1 e1 e2)
  · intro e1 e2
    obtain ⟨u, hu⟩ := I.live2 e1 e2
    refine ⟨u, ?_⟩
    simp only [St.at]
    rw [upd_ne]; exact hu
    rintro rfl; rw [h1] at hu; simp at hu

theorem Inv.step_ret {k : Cfg} {s s' : St} {tr ev : List Ev} {t : Tid} {c : Call} {o : Out} (I : Inv k s tr) (hstep : ITh.step k s (.go t) = some (s', ev)) (hpc : s.pc t = .ret c o) : Inv k s' (tr ++ ev) := by
  simp only [ITh.step] at hstep
  have ht := I.loc t
  rw [hpc] at ht; simp only [Loc] at ht
  simp only [hpc] at hstep
  simp at hstep; obtain ⟨rfl, rfl⟩ := hstep
  have hmem : t ∈ s.inside := (I.ins t).2 (by rw [hpc]; simp)
  have hfr : ∀ {f : PC → Bool}, f (.ret c o) = false → (∃ u, f (s.pc u) = true) → ∃ u, f (upd s.pc t .idle u) = true := by
    intro f hf he; exact ex_upd he (.inl (by rw [hpc]; exact hf))
  have hdes : isDestroy (.ret c o) = true ↔ c = .thr .destroy := by
    rcases c with c | _ | _
    · cases c <;> simp [isDestroy]
    · simp [isDestroy]
    · simp [isDestroy]
  have hnc : ∀ u, Ev.call u (.thr .isFinished) ∉ [Ev.ret t c o] := by simp
  constructor
  · rw [effects_app]; exact hist0 I.hist
  · intro u
    rw [phase_app]
    by_cases e : u = t
    · subst e
      simp only [St.at, upd_same, Loc]
      by_cases hc : c = .thr .isFinished
      · subst hc
        simp at ht; simp [Phase.next, view, ht]
      · rw [if_neg hc] at ht
        have hv : view (.ret u c o) = some (.ret u c o) := by
          rcases c with c | _ | _
          · cases c <;> simp_all [view]
          · rfl
          · rfl
        simp [Phase.next, Phase.pnext, hv, ht]
    · simp only [St.at, upd_ne _ _ e]
      rw [phase_other e (by
        intro x hx; simp at hx; subst hx
        simp only [Proto.mine]
        split
        · next h => simp only [view] at h; split at h <;> simp_all
        · next h => simp only [view] at h; split at h <;> simp_all
        · next h => cases c with
          | thr c => cases c <;> simp [view] at h <;> exact h.1.symm
          | _ => simp [view] at h; exact h.1.symm
        · trivial)]
      exact (I.loc u).frame (fun h => h.mono (hnc u)) (fun b h => h.mono (hnc u)) (.inl rfl) (.inl rfl) (.inl rfl) (.inl rfl) id
  · exact holder_upd I.hc (Or.inl ⟨rfl, by rw [hpc]; simp [cHolds]⟩)
  · intro u
    rw [I.nodup.mem_erase_iff]
    by_cases e : u = t
    · subst e; simp [St.at, upd_same]
    · simp [St.at, upd_ne _ _ e, e, I.ins u]
  · exact I.nodup.erase t
  · intro u hu
    by_cases e : u = t
    · subst e; simp only [St.at, upd_same] at hu; simp [isDestroy] at hu
    · simp only [St.at, upd_ne _ _ e] at hu; exact I.dy u hu
  · intro d hd u hu
    have := I.alone d hd u hu
    by_cases e : u = t
    · subst e; simp [St.at, upd_same]
    · simp [St.at, upd_ne _ _ e, this]
  · intro d hd hg
    simp only [St.at] at hg hd
    have h1 := I.dyin d hd hg
    by_cases e : d = t
    · subst e
      rw [hpc, hdes] at h1; subst h1
      simp at ht
      rw [ht.2.1] at hg; simp at hg
    · simp [St.at, upd_ne _ _ e, h1]
  · intro hg
    obtain ⟨h1, h2, d, h3, h4⟩ := I.gone hg
    refine ⟨h1, h2, d, h3, ?_⟩
    by_cases e : d = t
    · subst e; left; simp [St.at, upd_same]
    · simp only [St.at, upd_ne _ _ e]; exact h4
  · exact I.sta
  · exact I.fin
  · exact I.exi
  · intro h; rcases I.base h with h | h
    · exact .inl h
    · exact .inr (hfr rfl h)
  · rcases I.prio with h | h
    · exact .inl h
    · exact .inr (hfr rfl h)
  · intro a b ha hb
    have : ∀ u, setter (upd s.pc t .idle u) = true → setter (s.pc u) = true := by
      intro u hu
      by_cases e : u = t
      · subst e; rw [upd_same] at hu; simp [setter] at hu
      · rwa [upd_ne _ _ e] at hu
    exact I.one a b (this a ha) (this b hb)
  · intro e1 e2; exact hfr rfl (I.live1 e1 e2)
  · intro e1 e2
    obtain ⟨u, hu⟩ := I.live2 e1 e2
    refine ⟨u, ?_⟩
    simp only [St.at]
    rw [upd_ne]; exact hu
    rintro rfl; rw [hpc] at hu; simp at hu

/-! #### The task -/

theorem Inv.ng_of_w {k : Cfg} {s : St} {tr : List Ev} (I : Inv k s tr) (h : s.w ≠ .dormant) : s.gone = false := by
  cases hg : s.gone
  · rfl
  · exact absurd (I.gone hg).1 h

theorem Loc.frame_ret {k : Cfg} {s s' : St} {ph : Phase Call Out} {op op' : Prop} {sw sw' : Bool → Prop} {c : Call} {o : Out} (h : Loc k s ph op sw (.ret c o))
    (hsw : ∀ b, sw b → sw' b) (h5 : s.gone = true → s'.gone = true) : Loc k s' ph op' sw' (.ret c o) := by
  simp only [Loc] at *
  split at h
  · next hc => rw [if_pos hc]; obtain ⟨a, b, c, d⟩ := h; exact ⟨a, b, c, hsw _ d⟩
  · next hc => rw [if_neg hc]; exact ⟨h.1, fun hc => ⟨h5 (h.2 hc).1, (h.2 hc).2⟩⟩

/-- A step of the task that leaves the clients alone. -/
theorem Inv.task {k : Cfg} {s s' : St} {tr ev : List Ev} (I : Inv k s tr) 
    (hs : s'.pc = s.pc ∧ s'.finished = s.finished ∧ s'.prio = s.prio ∧ s'.aprio = s.aprio ∧ s'.base = s.base ∧ s'.gone = s.gone ∧ s'.holder = s.holder ∧ s'.inside = s.inside ∧ s'.dying = s.dying)
    (hev : ∀ e, e ∈ ev → view e = none ∧ ∀ u c, e ≠ .call u c)
    (hw : s.w ≠ .dormant ∧ s.w ≠ .exiting) (hw1 : s.w = .wStart → s.started = true) (hw2 : s'.w ≠ .dormant ∧ s'.w ≠ .exiting ∧ s'.w ≠ .wStart)
    (hh : Hist k (effects tr ++ effects ev) (abs s', s.aprio))
    (sta : s'.started = true → s'.w = .clr) : Inv k s' (tr ++ ev) := by
  obtain ⟨e1, e2, e3, e4, e5, e6, e7, e8, e9⟩ := hs
  have hng := I.ng_of_w hw.1
  have hnf : s.finished = false := by
    cases h : s.finished
    · rfl
    · rcases I.fin h with h | h <;> simp_all
  have hnc : ∀ u c, Ev.call u c ∉ ev := fun u c h => (hev _ h).2 u c rfl
  constructor
  · rw [effects_app, e4]; exact hh
  · intro u
    have hp : phase u (tr ++ ev) = phase u tr := by
      rw [phase_app]
      have : ∀ (l : List Ev), (∀ e, e ∈ l → view e = none) → ∀ ph, l.foldl (Phase.next view u) ph = ph := by
        intro l; induction l with
        | nil => intro _ _; rfl
        | cons x l ih => intro h ph; rw [List.foldl_cons]; simp only [Phase.next, h x (by simp)]; exact ih (fun e he => h e (by simp [he])) ph
      exact this ev (fun e he => (hev e he).1) _
    rw [hp, e1]
    have hl := I.loc u
    have h1 : Open u tr → Open u (tr ++ ev) := fun h => h.mono (hnc _ _)
    have h2 : ∀ b, Saw k u tr b → Saw k u (tr ++ ev) b := fun b h => h.mono (hnc _ _)
    cases hq : s.pc u with
    | ret c o => rw [hq] at hl; exact hl.frame_ret h2 (by rw [e6]; exact id)
    | fTst => rw [hq] at hl; simp only [Loc] at *; refine ⟨hl.1, h1 hl.2.1, ?_⟩; rcases hl.2.2 with h | h
              · exact .inl (h2 _ h)
              · exact absurd h hw.2
    | fFlg => rw [hq] at hl; exact ⟨hl.1, h1 hl.2⟩
    | wPoll c b => rw [hq] at hl; cases b <;> simp_all [Loc]; simpa [hl.2.2] using hl.2.1
    | _ => rw [hq] at hl; simp only [Loc] at * <;> grind
  · rw [e7, e1]; exact I.hc
  · rw [e8, e1]; exact I.ins
  · rw [e8]; exact I.nodup
  · rw [e1, e9]; exact I.dy
  · rw [e1, e9]; exact I.alone
  · rw [e1, e9, e6]; exact I.dyin
  · rw [e6, hng]; simp
  · intro h; exact .inr (sta h)
  · rw [e2, hnf]; simp
  · intro h; exact absurd h hw2.2.1
  · intro _; rw [e1, e4, e5]; exact I.base hw.1
  · rw [e1, e3, e4]; exact I.prio
  · rw [e1]; exact I.one
  · intro h; exact absurd h hw2.2.2
  · intro h; exact absurd h hw2.1

theorem release_eq (pc : Tid → PC) (t : Tid) : release pc t = pc t ∨ ∃ c tm, pc t = .wWait c tm ∧ release pc t = .wPoll c false := by
  unfold release; split
  · next c tm h => exact .inr ⟨c, tm, h, rfl⟩
  · exact .inl rfl
theorem notice_eq (pc : Tid → PC) (t : Tid) : notice pc t = pc t ∨ ∃ c, pc t = .wPoll c false ∧ notice pc t = .wPoll c true := by
  unfold notice; split
  · next c h => exact .inr ⟨c, h, rfl⟩
  · exact .inl rfl

theorem release_same {f : PC → Bool} (hf : ∀ c tm, f (.wPoll c false) = f (.wWait c tm)) (pc : Tid → PC) (t : Tid) : f (release pc t) = f (pc t) := by
  rcases release_eq pc t with h | ⟨c, tm, h1, h2⟩
  · rw [h]
  · rw [h1, h2]; exact hf c tm
theorem notice_same {f : PC → Bool} (hf : ∀ c, f (.wPoll c true) = f (.wPoll c false)) (pc : Tid → PC) (t : Tid) : f (notice pc t) = f (pc t) := by
  rcases notice_eq pc t with h | ⟨c, h1, h2⟩
  · rw [h]
  · rw [h1, h2]; exact hf c

theorem isDestroy_rel (c : Thr.Call) (tm : Tmo) : isDestroy (.wPoll c false) = isDestroy (.wWait c tm) := by cases c <;> rfl
theorem isDestroy_not (c : Thr.Call) : isDestroy (.wPoll c true) = isDestroy (.wPoll c false) := by cases c <;> rfl

/-- A step of the task that moves clients from one wait state to another. -/
theorem Inv.task2 {k : Cfg} {s s' : St} {tr ev : List Ev} (I : Inv k s tr) (g : PC → PC)
    (hpc : s'.pc = fun t => g (s.pc t))
    (hc : ∀ p, cHolds (g p) = cHolds p) (hi : ∀ p, g p = .idle ↔ p = .idle) (hd : ∀ p, isDestroy (g p) = isDestroy p)
    (hr : ∀ p, inRef (g p) = inRef p) (hst : ∀ p, inSet (g p) = inSet p) (hse : ∀ p, setter (g p) = setter p) (hsta : ∀ p, g p = .sSta ↔ p = .sSta)
    (hs : s'.prio = s.prio ∧ s'.aprio = s.aprio ∧ s'.base = s.base ∧ s'.gone = s.gone ∧ s'.holder = s.holder ∧ s'.inside = s.inside ∧ s'.dying = s.dying ∧ s'.started = s.started)
    (hw : s.w = .setF ∨ s.w = .exiting) (hw2 : s'.w = .exiting ∨ s'.w = .dormant) (hf : s'.finished = true)
    (hh : Hist k (effects tr ++ effects ev) (abs s', s.aprio))
    (hloc : ∀ u, Loc k s' (phase u (tr ++ ev)) (Open u (tr ++ ev)) (Saw k u (tr ++ ev)) (g (s.pc u))) : Inv k s' (tr ++ ev) := by
  obtain ⟨e3, e4, e5, e6, e7, e8, e9, e10⟩ := hs
  have hng : s.gone = false := I.ng_of_w (by rcases hw with h | h <;> simp [h])
  constructor
  · rw [effects_app, e4]; exact hh
  · intro u; rw [hpc]; exact hloc u
  · intro t; rw [e7, hpc]; simp only [hc]; exact I.hc t
  · intro t; rw [e8, hpc]; simp only [Ne, hi]; exact I.ins t
  · rw [e8]; exact I.nodup
  · intro t; rw [e9, hpc]; simp only [hd]; exact I.dy t
  · intro d; rw [e9, hpc]; simp only [hi]; exact I.alone d
  · intro d; rw [e9, e6, hpc]; simp only [hd]; exact I.dyin d
  · rw [e6, hng]; simp
  · intro h; rw [e10] at h; rcases I.sta h with h | h <;> rcases hw with h2 | h2 <;> rw [h] at h2 <;> simp at h2
  · intro _; exact hw2
  · intro _; exact hf
  · intro _; rw [e5, e4, hpc]; simp only [hr]; exact I.base (by rcases hw with h | h <;> simp [h])
  · rw [e3, e4, hpc]; simp only [hst]; exact I.prio
  · rw [hpc]; simp only [hse]; exact I.one
  · intro h; rcases hw2 with h2 | h2 <;> rw [h] at h2 <;> simp at h2
  · intro _ h; rw [hf] at h; simp at h

def rel1 : PC → PC
  | .wWait c _ => .wPoll c false
  | p => p
def not1 : PC → PC
  | .wPoll c false => .wPoll c true
  | p => p
theorem release_def (pc : Tid → PC) : release pc = fun t => rel1 (pc t) := by funext t; simp only [release, rel1]; cases pc t <;> rfl
theorem notice_def (pc : Tid → PC) : notice pc = fun t => not1 (pc t) := by
  funext t; simp only [notice, not1]; cases h : pc t <;> rfl

theorem Inv.step_setF {k : Cfg} {s : St} {tr : List Ev} (I : Inv k s tr) (hw : s.w = .setF) :
    Inv k { s with w := .exiting, finished := true, pc := release s.pc } (tr ++ []) := by
  have hng := I.ng_of_w (by rw [hw]; simp)
  have hnf : s.finished = false := by
    cases h : s.finished
    · rfl
    · rcases I.fin h with h | h <;> simp_all
  have ha : abs s = .over := by simp [abs, hng, hw]
  refine I.task2 rel1 (release_def _) ?_ ?_ ?_ ?_ ?_ ?_ ?_ ⟨rfl, rfl, rfl, rfl, rfl, rfl, rfl, rfl⟩ (.inl hw) (.inl rfl) rfl ?_ ?_
  · intro p; cases p <;> rfl
  · intro p; cases p <;> simp [rel1]
  · intro p; cases p <;> simp only [rel1]; exact isDestroy_rel _ _
  · intro p; cases p <;> rfl
  · intro p; cases p <;> rfl
  · intro p; cases p <;> simp only [rel1] <;> rfl
  · intro p; cases p <;> simp [rel1]
  · have : abs { s with w := .exiting, finished := true, pc := release s.pc } = .over := by simp [abs, hng]
    rw [this, ← ha]; exact hist0 I.hist
  · intro u
    have hl := I.loc u
    rw [List.append_nil]
    cases hq : s.pc u with
    | ret c o => rw [hq] at hl; exact hl.frame_ret (fun _ h => h) id
    | wPoll c b => rw [hq] at hl; cases b <;> simp_all [Loc, rel1]; simpa [hl.2.2] using hl.2.1
    | wWait c tm => rw [hq] at hl; simp only [Loc, rel1] at *; exact ⟨⟨_, hl.2.1⟩, by simpa using hl.1, by simp, by simp⟩
    | _ => rw [hq] at hl; simp_all [Loc, rel1]

theorem batch_phase {pc : Tid → PC} (u : Tid) : ∀ {l : List Tid}, l.Nodup → ∀ ph : Phase Call Out, (l.filterMap (noticed pc)).foldl (Phase.next view u) ph =
    if u ∈ l then (match noticed pc u with | some e => Phase.next view u ph e | none => ph) else ph
  | [], _, ph => by simp
  | t :: l, hn, ph => by
    rw [List.nodup_cons] at hn
    have ih := batch_phase (pc := pc) u hn.2
    have hev : ∀ t e, noticed pc t = some e → ∃ c, e = .lin t (.thr c) (.thr .ok) := by
      intro t e h; unfold noticed at h; split at h
      · split at h <;> simp at h; exact ⟨_, h.symm⟩
      · simp at h
    by_cases e : u = t
    · subst e
      simp only [List.mem_cons, true_or, if_true]
      cases hm : noticed pc u with
      | none => rw [List.filterMap_cons_none hm, ih, if_neg hn.1]
      | some x => rw [List.filterMap_cons_some hm, List.foldl_cons, ih, if_neg hn.1]
    · simp only [List.mem_cons, e, false_or]
      cases hm : noticed pc t with
      | none => rw [List.filterMap_cons_none hm, ih]
      | some x =>
        obtain ⟨c, rfl⟩ := hev t x hm
        rw [List.filterMap_cons_some hm, List.foldl_cons, ih]
        have : Phase.next view u ph (.lin t (.thr c) (.thr .ok)) = ph := by
          simp [Phase.next, view, Phase.pnext, fun h => e (Eq.symm h)]
          intro h; exact absurd h.symm e
        rw [this]

theorem batch_hist {k : Cfg} {p : Nat} : ∀ {l : List Ev} {h : List Eff}, Hist k h (.finished, p) → (∀ e, e ∈ l → ∃ t c tm, e = .lin t (.thr c) (.thr .ok) ∧ tmo c = some tm) →
    Hist k (h ++ effects l) (.finished, p)
  | [], h, hh, _ => hist0 hh
  | e :: l, h, hh, hl => by
    obtain ⟨t, c, tm, rfl, hc⟩ := hl e (by simp)
    have := batch_hist (l := l) (hh.snoc (.thr (.ok hc))) (fun e he => hl e (by simp [he]))
    simpa [effects, effect] using this

theorem Inv.step_exit {k : Cfg} {s : St} {tr : List Ev} (I : Inv k s tr) (hw : s.w = .exiting) :
    Inv k { s with w := .dormant, pc := notice s.pc } (tr ++ .fin :: s.inside.filterMap (noticed s.pc)) := by
  have hng := I.ng_of_w (by rw [hw]; simp)
  have hf := I.exi hw
  have ha : abs s = .over := by simp [abs, hng, hw]
  have ha' : abs { s with w := .dormant, pc := notice s.pc } = .finished := by simp [abs, hng, hf]
  have hev : ∀ e, e ∈ s.inside.filterMap (noticed s.pc) → ∃ t c tm, e = .lin t (.thr c) (.thr .ok) ∧ tmo c = some tm := by
    intro e he
    obtain ⟨t, ht, h⟩ := List.mem_filterMap.1 he
    have hl := I.loc t
    unfold noticed at h
    split at h
    · next c hq =>
      split at h <;> simp at h
      next hc =>
      rw [hq] at hl; simp only [Loc] at hl
      obtain ⟨tm, h2⟩ := hl.1
      exact ⟨t, c, tm, h.symm, tmo_of h2 hc⟩
    · simp at h
  have hh : Hist k (effects tr ++ effects (.fin :: s.inside.filterMap (noticed s.pc))) (.finished, s.aprio) := by
    have h1 := I.hist; rw [ha] at h1
    have := batch_hist (h1.snoc .fin) hev
    simpa [effects, effect] using this
  have hnc : ∀ u c, Ev.call u c ∉ Ev.fin :: s.inside.filterMap (noticed s.pc) := by
    intro u c h
    simp only [List.mem_cons] at h
    rcases h with h | h
    · simp at h
    · obtain ⟨_, _, _, h, _⟩ := hev _ h; simp at h
  refine I.task2 not1 (notice_def _) ?_ ?_ ?_ ?_ ?_ ?_ ?_ ⟨rfl, rfl, rfl, rfl, rfl, rfl, rfl, rfl⟩ (.inr hw) (.inr rfl) hf ?_ ?_
  · intro p; cases p <;> try rfl
    rename_i c b; cases b <;> rfl
  · intro p; cases p <;> simp [not1]
    rename_i c b; cases b <;> simp
  · intro p; cases p <;> simp only [not1]
    rename_i c b; cases b <;> simp [isDestroy_not]
  · intro p; cases p <;> try rfl
    rename_i c b; cases b <;> rfl
  · intro p; cases p <;> try rfl
    rename_i c b; cases b <;> rfl
  · intro p; cases p <;> simp only [not1]
    rename_i c b; cases b <;> simp [setter]
  · intro p; cases p <;> simp [not1]
    rename_i c b; cases b <;> simp
  · rw [ha']; exact hh
  · intro u
    have hl := I.loc u
    have hin := I.ins u
    have h1 : Open u tr → Open u (tr ++ .fin :: s.inside.filterMap (noticed s.pc)) := fun h => h.mono (hnc _ _)
    have h2 : ∀ b, Saw k u tr b → Saw k u (tr ++ .fin :: s.inside.filterMap (noticed s.pc)) b := fun b h => h.mono (hnc _ _)
    have hp : phase u (tr ++ .fin :: s.inside.filterMap (noticed s.pc)) = if u ∈ s.inside then (match noticed s.pc u with | some e => Phase.next view u (phase u tr) e | none => phase u tr) else phase u tr := by
      rw [phase_app, List.foldl_cons]
      exact batch_phase u I.nodup _
    have hp0 : (∀ c, s.pc u ≠ .wPoll c false) → phase u (tr ++ .fin :: s.inside.filterMap (noticed s.pc)) = phase u tr := by
      intro h
      rw [hp]
      have : noticed s.pc u = none := by unfold noticed; split
                                         · next c hq => exact absurd hq (h c)
                                         · rfl
      rw [this]; simp
    have hsw : Open u tr → Saw k u (tr ++ .fin :: s.inside.filterMap (noticed s.pc)) true := fun h =>
      (h1 h).saw (by rw [effects_app]; exact hh) (by simp) (by simp)
    cases hq : s.pc u with
    | ret c o => rw [hp0 (by simp [hq])]; rw [hq] at hl; exact hl.frame_ret h2 id
    | wPoll c b =>
      cases b
      · rw [hq] at hl; simp only [Loc, not1] at hl ⊢
        refine ⟨hl.1, ?_, by simp, by intro _ _; simpa using hf⟩
        have hmem : u ∈ s.inside := hin.2 (by rw [hq]; simp)
        rw [hp, if_pos hmem]
        have hph : phase u tr = .called (.thr c) := by simpa using hl.2.1
        by_cases hc : c = .destroy
        · subst hc; simp [noticed, hq, hph]
        · simp [noticed, hq, hph, hc, Phase.next, view, Phase.pnext]
      · rw [hp0 (by simp [hq])]; rw [hq] at hl; simp only [Loc, not1] at hl ⊢
        exact ⟨hl.1, hl.2.1, by simp, by intro _ _; simpa using hf⟩
    | fTst => rw [hp0 (by simp [hq])]; rw [hq] at hl; exact ⟨hl.1, h1 hl.2.1, .inl (hsw hl.2.1)⟩
    | fFlg => rw [hp0 (by simp [hq])]; rw [hq] at hl; exact ⟨hl.1, h1 hl.2⟩
    | _ => rw [hp0 (by simp [hq])]; rw [hq] at hl; clear hp hp0 hev hnc hh h1 h2 hsw; simp_all [Loc, not1]

theorem Inv.step_task {k : Cfg} {s s' : St} {tr ev : List Ev} (I : Inv k s tr) (hstep : ITh.step k s .task = some (s', ev)) : Inv k s' (tr ++ ev) := by
  simp only [ITh.step] at hstep
  have hng := I.ng_of_w
  have hh := I.hist
  have hs := I.sta
  cases hw : s.w with
  | dormant => simp [hw] at hstep
  | setF => simp [hw] at hstep; obtain ⟨rfl, rfl⟩ := hstep; exact I.step_setF hw
  | exiting => simp [hw] at hstep; obtain ⟨rfl, rfl⟩ := hstep; exact I.step_exit hw
  | wStart =>
    simp [hw] at hstep; obtain ⟨h1, rfl, rfl⟩ := hstep
    have hg := hng (by simp [hw])
    have e1 : abs s = .pending := by simp [abs, hg, hw]
    have e2 : abs { s with w := .clr } = .pending := by simp [abs, hg]
    rw [e1] at hh
    exact I.task ⟨rfl, rfl, rfl, rfl, rfl, rfl, rfl, rfl, rfl⟩ (by simp) (by simp [hw]) (fun _ => h1) (by simp) (by rw [e2]; exact hist0 hh) (by simp)
  | clr =>
    simp [hw] at hstep; obtain ⟨rfl, rfl⟩ := hstep
    have hg := hng (by simp [hw])
    have e1 : abs s = .pending := by simp [abs, hg, hw]
    have e2 : abs { s with w := .begin, started := false } = .pending := by simp [abs, hg]
    rw [e1] at hh
    exact I.task ⟨rfl, rfl, rfl, rfl, rfl, rfl, rfl, rfl, rfl⟩ (by simp) (by simp [hw]) (by simp [hw]) (by simp) (by rw [e2]; exact hist0 hh) (by simp)
  | begin =>
    simp [hw] at hstep; obtain ⟨rfl, rfl⟩ := hstep
    have hg := hng (by simp [hw])
    have e1 : abs s = .pending := by simp [abs, hg, hw]
    have e2 : abs { s with w := .running } = .running := by simp [abs, hg]
    rw [e1] at hh
    have hb : s.base = s.aprio := by
      rcases I.base (by simp [hw]) with h | ⟨u, hu⟩
      · exact h
      · have := I.loc u
        cases hq : s.pc u <;> rw [hq] at hu this <;> simp [inRef] at hu <;> simp [Loc, hw] at this
    refine I.task ⟨rfl, rfl, rfl, rfl, rfl, rfl, rfl, rfl, rfl⟩ (by simp [view]) (by simp [hw]) (by simp [hw]) (by simp) ?_ (fun h => by have := hs h; simp [hw] at this)
    rw [e2, hb]; exact hist1 hh rfl .runBegin
  | running =>
    simp [hw] at hstep; obtain ⟨rfl, rfl⟩ := hstep
    have hg := hng (by simp [hw])
    have e1 : abs s = .running := by simp [abs, hg, hw]
    have e2 : abs { s with w := .setF } = .over := by simp [abs, hg]
    rw [e1] at hh
    refine I.task ⟨rfl, rfl, rfl, rfl, rfl, rfl, rfl, rfl, rfl⟩ (by simp [view]) (by simp [hw]) (by simp [hw]) (by simp) ?_ (fun h => by have := hs h; simp [hw] at this)
    rw [e2]; exact hist1 hh rfl .runEnd

theorem Inv.step {k : Cfg} {s s' : St} {tr ev : List Ev} {a : Act} (I : Inv k s tr) (hstep : ITh.step k s a = some (s', ev)) : Inv k s' (tr ++ ev) := by
  cases a with
  | call t c => exact I.step_call hstep
  | expire t => exact I.step_expire hstep
  | task => exact I.step_task hstep
  | go t =>
    cases hpc : s.pc t with
    | idle => simp [ITh.step, hpc] at hstep
    | wWait c tm => simp [ITh.step, hpc] at hstep
    | ret c o => exact I.step_ret hstep hpc
    | sUnl o => exact I.step_sUnl hstep hpc
    | wFlg c tm => exact I.step_wait hstep hpc
    | wPoll c b => exact I.step_poll hstep hpc
    | fFlg | fTst | dDel => exact I.step_isFin hstep (by simp [hpc])
    | pLock p q | pSet p q | pFlg p q | pTst p q | pChg p q | pUnl p q => exact I.step_prio (p := p) (q := q) hstep (by simp [hpc])
    | gLock | gRead => exact I.step_prio (p := 0) (q := 0) hstep (by simp [hpc])
    | gUnl v => exact I.step_prio (p := v) (q := 0) hstep (by simp [hpc])
    | _ => exact I.step_start hstep (by simp [hpc])

theorem Inv.reach {k : Cfg} {s : St} {tr : List Ev} (h : Reach (ITh.step k) (ITh.init k) s tr) : Inv k s tr :=
  Reach.inv (I := Inv k) (Inv.init k) (fun _ _ _ _ _ I hs => I.step hs) h

end Verif.ITh
