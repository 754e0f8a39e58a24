import Verif.Model.ThreadPoolItron
import Verif.Props.ThreadPoolThread
import Verif.Props.ItronThread
/-
C112: the thread pool running on the thread implementation of the ITRON platform.
-/
set_option linter.unusedSimpArgs false
set_option linter.unusedVariables false
namespace Verif.Props.ThreadPoolItron
open Verif TP TP.OnThreads TP.OnItron
open _root_.Verif.Lts (Reach run runSat_ex run_reach)
open _root_.Verif.Mtx (Tid)
open _root_.Verif.EvF (Tmo)
open _root_.Verif.Proto (Phase)
open _root_.Verif.Props.ThreadPool (Exec)
open _root_.Verif.Props.ThreadPoolQueue (Correct correct OnlyStarts)

/-! #### What the pool sees of an ITRON thread is linearizable -/

theorem reach_it {k : ITh.Cfg} {b : Bool} {s : ITh.St} {ftr : List Thr.Ev} (h : Reach (program k b) (ITh.init k) s ftr) :
    ∃ tr, Reach (ITh.step k) (ITh.init k) s tr ∧ ftr = tr.filterMap seen := by
  refine Lts.Reach.inv (I := fun s ftr => ∃ tr, Reach (ITh.step k) (ITh.init k) s tr ∧ ftr = tr.filterMap seen) ⟨[], Reach.init, rfl⟩ ?_ h
  rintro s ftr act s' ev ⟨tr, hr, rfl⟩ hs
  simp only [program] at hs
  split at hs
  · simp at hs
  · split at hs
    · rename_i s2 ev2 hst
      simp only [Option.some.injEq, Prod.mk.injEq] at hs
      obtain ⟨rfl, rfl⟩ := hs
      exact ⟨tr ++ ev2, Reach.step hr hst, by rw [List.filterMap_append]⟩
    · simp at hs

/-- The phase of a client of an ITRON thread as the pool sees it. -/
def ph : Phase ITh.Call ITh.Out → Phase Thr.Call Thr.Out
  | .out => .out
  | .called (.thr c) => .called c
  | .called _ => .out
  | .done (.thr c) (.thr o) => .done c o
  | .done _ _ => .out
  | .bad => .bad

def good : Phase ITh.Call ITh.Out → Prop
  | .out => True
  | .called c => c ≠ .thr .isFinished
  | .done (.thr c) o => c ≠ .isFinished ∧ ∃ o', o = .thr o'
  | .done _ _ => True
  | .bad => False

theorem ph_next {t : Tid} {p : Phase ITh.Call ITh.Out} {e : ITh.Ev} (h : p.next ITh.Spec.view t e ≠ .bad) (g : good p)
    (hl : ∀ u c o, e = .lin u (.thr c) o → ∃ o', o = .thr o') :
    good (p.next ITh.Spec.view t e) ∧ ([e].filterMap seen).foldl (Phase.next Thr.Spec.view t) (ph p) = ph (p.next ITh.Spec.view t e) := by
  cases e with
  | runBegin b => exact ⟨g, rfl⟩
  | runEnd => exact ⟨g, rfl⟩
  | fin => exact ⟨g, rfl⟩
  | call u c =>
    by_cases hu : u = t
    · subst hu
      by_cases hp : p = .out
      · subst hp
        cases c with
        | thr c => cases c <;> simp [Phase.next, Phase.pnext, ITh.Spec.view, Thr.Spec.view, List.filterMap_cons, seen, ph, good]
        | _ => simp [Phase.next, Phase.pnext, ITh.Spec.view, Thr.Spec.view, List.filterMap_cons, seen, ph, good]
      · cases c with
        | thr c =>
          cases c <;> simp [Phase.next, Phase.pnext, ITh.Spec.view, hp] at h
          exact ⟨g, rfl⟩
        | _ => simp [Phase.next, Phase.pnext, ITh.Spec.view, hp] at h
    · have e1 : p.next ITh.Spec.view t (.call u c) = p := by
        cases c with
        | thr c => cases c <;> simp [Phase.next, Phase.pnext, ITh.Spec.view, hu]
        | _ => simp [Phase.next, Phase.pnext, ITh.Spec.view, hu]
      rw [e1]
      refine ⟨g, ?_⟩
      cases c with
      | thr c => cases c <;> simp [List.filterMap_cons, seen, Phase.next, Phase.pnext, Thr.Spec.view, hu]
      | _ => simp [List.filterMap_cons, seen]
  | lin u c o =>
    by_cases hu : u = t
    · subst hu
      by_cases hp : p = .called c
      · subst hp
        cases c with
        | thr c =>
          obtain ⟨o', rfl⟩ := hl _ _ _ rfl
          cases c <;> first | (exfalso; exact g rfl) | simp [Phase.next, Phase.pnext, ITh.Spec.view, Thr.Spec.view, List.filterMap_cons, seen, ph, good]
        | _ => simp [Phase.next, Phase.pnext, ITh.Spec.view, Thr.Spec.view, List.filterMap_cons, seen, ph, good]
      · simp [Phase.next, Phase.pnext, ITh.Spec.view, hp] at h
    · have e1 : p.next ITh.Spec.view t (.lin u c o) = p := by simp [Phase.next, Phase.pnext, ITh.Spec.view, hu]
      rw [e1]
      refine ⟨g, ?_⟩
      cases c with
      | thr c => cases o <;> cases c <;> simp [List.filterMap_cons, seen, Phase.next, Phase.pnext, Thr.Spec.view, hu]
      | _ => simp [List.filterMap_cons, seen]
  | ret u c o =>
    by_cases hu : u = t
    · subst hu
      by_cases hc : c = .thr .isFinished
      · subst hc
        have e1 : p.next ITh.Spec.view u (.ret u (.thr .isFinished) o) = p := by simp [Phase.next, ITh.Spec.view]
        rw [e1]
        exact ⟨g, by cases o <;> rfl⟩
      · have hv : ITh.Spec.view (.ret u c o) = some (.ret u c o) := by
          cases c with
          | thr c => cases c <;> first | rfl | exact absurd rfl hc
          | _ => rfl
        simp only [Phase.next, hv, Phase.pnext, if_true] at h ⊢
        split at h
        · rename_i hp
          subst hp
          simp only [if_true]
          refine ⟨trivial, ?_⟩
          cases c with
          | thr c =>
            obtain ⟨_, o', rfl⟩ := g
            cases c <;> first | (exfalso; exact hc rfl) | simp [Phase.next, Phase.pnext, Thr.Spec.view, List.filterMap_cons, seen, ph]
          | _ => simp [List.filterMap_cons, seen, ph]
        · exact absurd rfl h
    · have e1 : p.next ITh.Spec.view t (.ret u c o) = p := by
        cases c with
        | thr c => cases c <;> simp [Phase.next, Phase.pnext, ITh.Spec.view, hu]
        | _ => simp [Phase.next, Phase.pnext, ITh.Spec.view, hu]
      rw [e1]
      refine ⟨g, ?_⟩
      cases c with
      | thr c => cases o <;> cases c <;> simp [List.filterMap_cons, seen, Phase.next, Phase.pnext, Thr.Spec.view, hu]
      | _ => simp [List.filterMap_cons, seen]

theorem hist_last {k : ITh.Cfg} {h : List ITh.Spec.Eff} {x : ITh.Spec.Eff} {a : Thr.Spec.A × Nat} (hh : ITh.Spec.Hist k (h ++ [x]) a) :
    ∃ a0, ITh.Spec.Hist k h a0 ∧ ITh.Spec.Legal k a0 x a := by
  generalize e : h ++ [x] = l at hh
  cases hh with
  | nil => simp at e
  | snoc h1 h2 =>
    obtain ⟨rfl, e2⟩ := List.append_inj' e rfl
    simp only [List.cons.injEq, and_true] at e2
    subst e2
    exact ⟨_, h1, h2⟩

theorem phase_snoc {ε C R : Type} [DecidableEq C] [DecidableEq R] {view : ε → Option (Proto.PEv Tid C R)} (t : Tid) (tr : List ε) (e : ε) :
    Proto.phase view t (tr ++ [e]) = (Proto.phase view t tr).next view t e := by rw [Proto.phase_app]; rfl

theorem teffects_app (a b : List Thr.Ev) : Thr.Spec.effects (a ++ b) = Thr.Spec.effects a ++ Thr.Spec.effects b := by simp [Thr.Spec.effects]

theorem seen_lin {k : ITh.Cfg} {tr : List ITh.Ev} : ∀ {a : Thr.Spec.A × Nat}, ITh.Spec.Linearizable k tr a →
    (∀ t, good (ITh.Spec.phase t tr) ∧ Thr.Spec.phase t (tr.filterMap seen) = ph (ITh.Spec.phase t tr)) ∧ Thr.Spec.Hist (Thr.Spec.effects (tr.filterMap seen)) a.1 := by
  induction tr using TP.snocInd with
  | nil =>
    intro a ⟨h, _⟩
    refine ⟨fun t => ⟨trivial, rfl⟩, ?_⟩
    simp only [ITh.Spec.effects, List.filterMap_nil] at h
    generalize e : ([] : List ITh.Spec.Eff) = l at h
    cases h with
    | nil => exact .nil
    | snoc => simp at e
  | snoc tr e ih =>
    intro a ⟨h, hb⟩
    have hb' : ∀ t, ITh.Spec.phase t tr ≠ .bad := by
      intro t hx
      apply hb t
      rw [ITh.Spec.phase, phase_snoc]
      rw [ITh.Spec.phase] at hx
      rw [hx]; exact Proto.bad_stays (view := ITh.Spec.view) t [e]
    rw [ITh.effects_app] at h
    have hlast : ∃ a0, ITh.Spec.Hist k (ITh.Spec.effects tr) a0 ∧ (∀ x, ITh.Spec.effect e = some x → ITh.Spec.Legal k a0 x a) ∧ (ITh.Spec.effect e = none → a0 = a) := by
      cases hx : ITh.Spec.effect e with
      | none =>
        refine ⟨a, ?_, by simp, by simp⟩
        simpa [ITh.Spec.effects, hx] using h
      | some x =>
        have : ITh.Spec.effects [e] = [x] := by simp [ITh.Spec.effects, hx]
        rw [this] at h
        obtain ⟨a0, h1, h2⟩ := hist_last h
        exact ⟨a0, h1, by simpa using h2, by simp⟩
    obtain ⟨a0, h1, h2, h3⟩ := hlast
    obtain ⟨i1, i2⟩ := ih ⟨h1, hb'⟩
    rw [List.filterMap_append, teffects_app]
    refine ⟨?_, ?_⟩
    · intro t
      have hbt := hb t
      obtain ⟨g, i⟩ := i1 t
      rw [ITh.Spec.phase, phase_snoc] at hbt ⊢
      rw [Thr.Spec.phase, Proto.phase_app, ← Thr.Spec.phase, i]
      exact ph_next hbt g (fun u c o he => by
        subst he
        have := h2 _ rfl
        cases this with
        | thr hx => exact ⟨_, rfl⟩)
    · have keep : Thr.Spec.effects ([e].filterMap seen) = [] → a0.1 = a.1 → Thr.Spec.Hist (Thr.Spec.effects (tr.filterMap seen) ++ Thr.Spec.effects ([e].filterMap seen)) a.1 := by
        intro h4 h5; rw [h4, List.append_nil, ← h5]; exact i2
      have move : ∀ x, Thr.Spec.effects ([e].filterMap seen) = [x] → Thr.Spec.Legal a0.1 x a.1 →
          Thr.Spec.Hist (Thr.Spec.effects (tr.filterMap seen) ++ Thr.Spec.effects ([e].filterMap seen)) a.1 := by
        intro x h4 h5; rw [h4]; exact .snoc i2 h5
      cases e with
      | runBegin b => have := h2 _ rfl; cases this; exact move _ rfl .runBegin
      | runEnd => have := h2 _ rfl; cases this; exact move _ rfl .runEnd
      | fin => have := h2 _ rfl; cases this; exact move _ rfl .fin
      | call u c =>
        have h4 := h3 rfl
        refine keep ?_ (by rw [h4])
        cases c with
        | thr c => cases c <;> rfl
        | _ => rfl
      | ret u c o =>
        have h4 := h3 rfl
        refine keep ?_ (by rw [h4])
        cases c with
        | thr c => cases o <;> cases c <;> rfl
        | _ => rfl
      | lin u c o =>
        have h4 := h2 _ rfl
        cases h4 with
        | thr hx =>
          rename_i q q' p c o
          by_cases hc : c = .isFinished
          · subst hc
            refine keep rfl ?_
            cases hx <;> first | rfl | (rename_i hy; simp [Thr.Spec.tmo] at hy)
          · exact move (.op c o) (by cases c <;> first | rfl | exact absurd rfl hc) hx
        | set _ => exact keep rfl rfl
        | get _ => exact keep rfl rfl

theorem itron_lin {k : ITh.Cfg} {b : Bool} {f : ITh.St} {ftr : List Thr.Ev} (h : Reach (program k b) (ITh.init k) f ftr) : ∃ q, Thr.Spec.Linearizable ftr q := by
  obtain ⟨tr, hr, rfl⟩ := reach_it h
  obtain ⟨a, hl⟩ := Props.ItronThread.C75_linearizable hr
  obtain ⟨h1, h2⟩ := seen_lin hl
  refine ⟨a.1, h2, fun t hb => ?_⟩
  rw [(h1 t).2] at hb
  have := (h1 t).1
  generalize ITh.Spec.phase t tr = p at *
  cases p with
  | out => simp [ph] at hb
  | called c => cases c <;> simp [ph] at hb
  | done c o => cases c <;> cases o <;> simp [ph] at hb
  | bad => exact this

/-- The pool on ItronThread has the properties C64 - C71 of the pool on atomic threads, whoever uses isFinished and the priorities of its threads meanwhile. -/
theorem C112_correct {k : ITh.Cfg} {b : Bool} {n : Nat} {d : Int} {s : CSt ITh.St} {tr : List Ev}
    (h : Reach (OnThreads.step (program k b)) (OnThreads.init n d (ITh.init k)) s tr) : Correct n d tr := by
  obtain ⟨a, _, ha, _⟩ := Props.ThreadPoolThread.C111_refines (fun f ftr h => itron_lin h) h
  exact correct ha

/-! #### The pool keeps the rules of the threads -/

/-- The places a client can be at that only uses the methods the pool uses. -/
def ours : ITh.PC → Bool
  | .fFlg | .fTst | .pLock .. | .pSet .. | .pFlg .. | .pTst .. | .pChg .. | .pUnl .. | .gLock | .gRead | .gUnl _ => false
  | .ret (.thr c) _ => c != .isFinished
  | .ret _ _ => false
  | .wPoll c _ | .wFlg c _ | .wWait c _ => c != .isFinished
  | _ => true

theorem stays_ours {k : ITh.Cfg} {s : ITh.St} {ftr : List Thr.Ev} (h : Reach (program k false) (ITh.init k) s ftr) : ∀ t, ours (s.pc t) = true := by
  refine Lts.Reach.inv (I := fun s _ => ∀ t, ours (s.pc t) = true) (by intro t; rfl) ?_ h
  intro s ftr act s' ev ih hs
  simp only [program] at hs
  split at hs
  · simp at hs
  rename_i hf
  split at hs
  case h_2 => simp at hs
  rename_i s2 ev2 hst
  simp only [Option.some.injEq, Prod.mk.injEq] at hs
  obtain ⟨rfl, rfl⟩ := hs
  cases act with
  | call t c =>
    simp only [ITh.step] at hst
    split at hst <;> simp only [Option.some.injEq, Prod.mk.injEq, reduceCtorEq] at hst
    obtain ⟨rfl, rfl⟩ := hst
    intro u
    by_cases e : u = t
    · subst e
      simp only [ITh.St.at, upd_same]
      cases c with
      | thr c => cases c <;> simp_all [foreign, ITh.entry, ours]
      | _ => simp_all [foreign]
    · simp only [ITh.St.at]; rw [upd_ne _ _ e]; exact ih u
  | go t =>
    have ht := ih t
    simp only [ITh.step] at hst
    (repeat' split at hst) <;> simp only [Option.some.injEq, Prod.mk.injEq, reduceCtorEq] at hst <;> obtain ⟨rfl, rfl⟩ := hst <;> intro u <;>
      (by_cases e : u = t
       · subst e
         simp only [ITh.St.at, upd_same]
         clear ih h hf
         first | grind [ours]
       · simp only [ITh.St.at]; rw [upd_ne _ _ e]; exact ih u)
  | expire t =>
    have ht := ih t
    simp only [ITh.step] at hst
    (repeat' split at hst) <;> simp only [Option.some.injEq, Prod.mk.injEq, reduceCtorEq] at hst <;> obtain ⟨rfl, rfl⟩ := hst <;> intro u <;>
      (by_cases e : u = t
       · subst e
         simp only [ITh.St.at, upd_same]
         clear ih h hf
         first | grind [ours]
       · simp only [ITh.St.at]; rw [upd_ne _ _ e]; exact ih u)
  | task =>
    have h1 : ∀ u, ours (ITh.release s.pc u) = true := by
      intro u; have := ih u; unfold ITh.release; cases hp : s.pc u <;> rw [hp] at this <;> exact this
    have h2 : ∀ u, ours (ITh.notice s.pc u) = true := by
      intro u; have := ih u; unfold ITh.notice; cases hp : s.pc u <;> rw [hp] at this <;> (try exact this)
      rename_i b; cases b <;> exact this
    simp only [ITh.step] at hst
    (repeat' split at hst) <;> simp only [Option.some.injEq, Prod.mk.injEq, reduceCtorEq] at hst <;> obtain ⟨rfl, rfl⟩ := hst <;>
      first | exact ih | exact h1 | exact h2

/-- What the pool knows about an ITRON thread that is used by nobody else. -/
structure Knows (k : ITh.Cfg) (f : ITh.St) (ftr : List Thr.Ev) (tr : List ITh.Ev) : Prop where
  inv : ITh.Inv k f tr
  ph : ∀ t, Thr.Spec.phase t ftr = ph (ITh.Spec.phase t tr)
  hist : Thr.Spec.Hist (Thr.Spec.effects ftr) (ITh.abs f)
  ours : ∀ t, ours (f.pc t) = true
  good : ∀ t, good (ITh.Spec.phase t tr)

theorem knows {k : ITh.Cfg} {f : ITh.St} {ftr : List Thr.Ev} (h : Reach (program k false) (ITh.init k) f ftr) : ∃ tr, Knows k f ftr tr := by
  obtain ⟨tr, hr, rfl⟩ := reach_it h
  have I := ITh.Inv.reach hr
  have hl : ITh.Spec.Linearizable k tr (ITh.abs f, f.aprio) := by
    refine ⟨I.hist, fun t hb => ?_⟩
    obtain ⟨_, h2⟩ := Props.ItronThread.C75_linearizable hr
    exact h2.2 t hb
  obtain ⟨h1, h2⟩ := seen_lin hl
  exact ⟨tr, I, fun t => (h1 t).2, h2, stays_ours h, fun t => (h1 t).1⟩

section
variable {k : ITh.Cfg} {f : ITh.St} {ftr : List Thr.Ev} {ttr0 : List ITh.Ev}

theorem Knows.idle_iff (K : Knows k f ftr ttr0) (t : Tid) : f.pc t = .idle ↔ Thr.Spec.phase t ftr = .out := by
  have hl := K.inv.loc t
  have ho := K.ours t
  rw [K.ph t]
  cases hp : f.pc t <;> rw [hp] at hl ho <;> simp only [ITh.Loc] at hl <;> simp only [Props.ThreadPoolItron.ours, bne_iff_ne, ne_eq, Bool.false_eq_true] at ho <;>
    (try contradiction)
  case wPoll c b =>
    split at hl
    · rw [hl.2.1]; simp [Props.ThreadPoolItron.ph]
    · rw [hl.2.1]; simp [Props.ThreadPoolItron.ph]
  case ret c o =>
    cases c <;> simp only [Bool.false_eq_true] at ho
    rename_i c
    split at hl
    · rename_i hc; simp at hc; subst hc; simp at ho
    · rw [hl.1]
      have hg := K.good t
      rw [hl.1] at hg
      obtain ⟨_, o', rfl⟩ := hg
      simp [Props.ThreadPoolItron.ph]
  all_goals simp_all [Props.ThreadPoolItron.ph]

/-- Who is inside destroy has called destroy. -/
theorem Knows.destroying (K : Knows k f ftr ttr0) {u : Tid} (h : ITh.isDestroy (f.pc u) = true) : calledBy (Thr.Spec.phase u ftr) = some .destroy := by
  have hl := K.inv.loc u
  have hg := K.good u
  rw [K.ph u]
  cases hp : f.pc u <;> rw [hp] at hl h <;> simp only [ITh.Loc] at hl <;> simp only [ITh.isDestroy, Bool.false_eq_true] at h
  case wFlg c tm => split at h <;> simp_all [Props.ThreadPoolItron.ph, calledBy]
  case wWait c tm => split at h <;> simp_all [Props.ThreadPoolItron.ph, calledBy]
  case wPoll c b => split at h <;> simp_all [Props.ThreadPoolItron.ph, calledBy]
  case dDel => rw [hl.1]; rfl
  case ret c o =>
    split at h <;> simp only [ITh.PC.ret.injEq, reduceCtorEq, Bool.false_eq_true] at *
    rename_i heq
    obtain ⟨rfl, rfl⟩ := heq
    simp only [ITh.Call.thr.injEq, reduceCtorEq, if_false] at hl
    obtain ⟨h1, h2⟩ := hl
    rw [h1, (h2 trivial).2]; rfl

variable {n : Nat} {d : Int} {p a : TP.St} {ttr : Rid → List Thr.Ev} {α : Rid → Thr.Spec.A} {tr : List Ev}

theorem can_call {t : Tid} {i : Rid} {c : Thr.Call} (hr : Exec n d a tr) (rel : Rel p ttr α a) (h : tCall p t = some (i, c))
    (K : Knows k f (ttr i) ttr0) (hid : f.pc t = .idle) : ∃ f', ITh.step k f (.call t (.thr c)) = some (f', [.call t (.thr c)]) := by
  have ho := (K.idle_iff t).1 hid
  have hal := Props.ThreadPoolThread.alive hr rel h ho
  have I := K.inv
  have habs : ITh.abs f = α i := hist_det K.hist (rel.hi i).1
  have hg : f.gone = false := by
    cases hx : f.gone with
    | false => rfl
    | true => exfalso; apply hal; rw [← habs]; simp [ITh.abs, hx]
  have hd : f.dying = none := by
    cases hx : f.dying with
    | none => rfl
    | some u =>
      exfalso
      have h1 := I.dyin u hx hg
      have h2 : f.pc u ≠ .idle := by intro h; rw [h] at h1; simp [ITh.isDestroy] at h1
      have h3 : Thr.Spec.phase u (ttr i) ≠ .out := fun h => h2 ((K.idle_iff u).2 h)
      obtain ⟨c', h4, h5⟩ := rel.ph i u h3
      have h6 := K.destroying h1
      rw [h4] at h6
      simp only [Option.some.injEq] at h6
      subst h6
      obtain ⟨h7, r, h8⟩ := tCall_destroy h5
      by_cases e : t = u
      · subst e; exact h2 hid
      · unfold tCall at h
        rw [(rel.alone hr h7).2 t e] at h; simp at h
  have hins : c = .destroy → f.inside = [] := by
    rintro rfl
    obtain ⟨h7, r, h8⟩ := tCall_destroy h
    rcases hx : f.inside with - | ⟨u, l⟩
    · rfl
    · exfalso
      have h2 := (I.ins u).1 (by rw [hx]; simp)
      have h3 : Thr.Spec.phase u (ttr i) ≠ .out := fun h => h2 ((K.idle_iff u).2 h)
      obtain ⟨c', h4, h5⟩ := rel.ph i u h3
      by_cases e : u = t
      · subst e; exact h2 hid
      · unfold tCall at h5
        rw [(rel.alone hr h7).2 u e] at h5; simp at h5
  simp only [ITh.step]
  rw [if_pos ⟨hid, hg, fun hc => hins (by simpa using hc), hd⟩]
  exact ⟨_, rfl⟩

/-- The pool calls nothing but start, waits and destroy. -/
theorem no_isFinished {t : Tid} {i : Rid} {c : Thr.Call} (h : tCall p t = some (i, c)) : c ≠ .isFinished := by
  unfold tCall at h
  (repeat' split at h) <;> simp only [Option.some.injEq, Prod.mk.injEq, reduceCtorEq] at h <;> obtain ⟨_, rfl⟩ := h <;> simp
end

abbrev pool (k : ITh.Cfg) : CSt ITh.St → CAct ITh.Act → Option (CSt ITh.St × List Ev) := OnThreads.step (program k false)
abbrev fresh (k : ITh.Cfg) (n : Nat) (d : Int) : CSt ITh.St := OnThreads.init n d (ITh.init k)

section
variable {k : ITh.Cfg} {n : Nat} {d : Int} {s : CSt ITh.St} {tr : List Ev}

/-- The rules for the use of a thread are kept: where the pool's code calls a method of a thread the call is accepted (the thread is not destroyed, and
Thread::destroy does not overlap with any other call of that thread). -/
theorem C112_calls (h : Reach (pool k) (fresh k n d) s tr) {t : Tid} {i : Rid} {c : Thr.Call} (hc : tCall s.p t = some (i, c)) (hid : (s.f i).pc t = .idle) :
    ∃ s', pool k s (.thr i (.call t (.thr c))) = some (s', []) ∧ (s'.f i).pc t = ITh.entry (.thr c) := by
  obtain ⟨a, ttr, α, hf, hr, rel⟩ := OnThreads.simulation (fun f ftr h => itron_lin h) h
  obtain ⟨tr0, K⟩ := knows (hf i)
  obtain ⟨f', hf'⟩ := can_call hr rel hc K hid
  have hc' := no_isFinished hc
  have hp : program k false (s.f i) (.call t (.thr c)) = some (f', [.call t c]) := by
    have h1 : foreign (.call t (.thr c)) = false := by cases c <;> first | rfl | exact absurd rfl hc'
    have h2 : [ITh.Ev.call t (.thr c)].filterMap seen = [.call t c] := by cases c <;> first | rfl | exact absurd rfl hc'
    simp only [program, h1, Bool.false_eq_true, false_and, if_false, hf', h2]
  refine ⟨⟨s.p, upd s.f i f'⟩, ?_, ?_⟩
  · simp [pool, OnThreads.step, Props.ThreadPoolThread.call_lt hr rel hc ((K.idle_iff t).1 hid), hp, onEvs, onEv, hc]
  · simp only [upd_same]
    simp only [ITh.step] at hf'
    split at hf' <;> simp only [Option.some.injEq, Prod.mk.injEq, reduceCtorEq] at hf'
    rw [← hf'.1]
    simp [ITh.St.at, upd]

/-- When a thread of the pool has been destroyed its task is dormant and nobody is inside the thread object but destroy on its way out. -/
theorem C112_free (h : Reach (pool k) (fresh k n d) s tr) {i : Rid} (hk : .kill i ∈ tr) :
    (s.f i).w = .dormant ∧ (s.f i).gone = true ∧ s.p.w i = .finished ∧
      ∀ u, (s.f i).pc u = .idle ∨ (s.f i).pc u = .ret (.thr .destroy) (.thr .destroyed) := by
  obtain ⟨a, ttr, α, hf, hr, rel⟩ := OnThreads.simulation (fun f ftr h => itron_lin h) h
  obtain ⟨tr0, K⟩ := knows (hf i)
  obtain ⟨hα, hpw⟩ := Props.ThreadPoolThread.killed h hr rel hk
  have habs : ITh.abs (s.f i) = α i := hist_det K.hist (rel.hi i).1
  have hg : (s.f i).gone = true := by
    cases hx : (s.f i).gone with
    | true => rfl
    | false =>
      exfalso
      rw [hα] at habs
      unfold ITh.abs at habs
      rw [hx] at habs
      simp only [Bool.false_eq_true, if_false] at habs
      (repeat' split at habs) <;> simp at habs
  obtain ⟨h1, _, e, h3, h4⟩ := K.inv.gone hg
  refine ⟨h1, hg, hpw, fun u => ?_⟩
  by_cases hu : u = e
  · subst hu; exact h4
  · exact Or.inl (K.inv.alone e h3 u hu)

/-! #### Deadlock -/

/-- Nothing but new calls of the pool can happen, and polls that find nothing. -/
def Quiet (k : ITh.Cfg) (s : CSt ITh.St) : Prop :=
  (∀ a, (∀ t c, a ≠ .call t c) → pool k s (.tp a) = none) ∧ ∀ i a s' ev, pool k s (.thr i a) = some (s', ev) → s' = s ∧ ev = []

/-- A client that need not wait moves on. -/
theorem moves {f : ITh.St} {t : Tid} (h1 : f.pc t ≠ .idle) (h2 : f.pc t = .sLock → f.holder = none) (h3 : ∀ c tm, f.pc t ≠ .wWait c tm)
    (h4 : ∀ c b, f.pc t = .wPoll c b → f.w = .dormant) (h5 : ours (f.pc t) = true) : ∃ f' ev, ITh.step k f (.go t) = some (f', ev) ∧ f'.pc t ≠ f.pc t := by
  cases hp : f.pc t <;> rw [hp] at h5 <;> simp only [Props.ThreadPoolItron.ours, Bool.false_eq_true] at h5 <;> simp only [ITh.step, hp] <;> (try contradiction)
  case wWait c tm => exact absurd hp (h3 c tm)
  case sLock => rw [if_pos (h2 hp)]; exact ⟨_, _, rfl, by simp [ITh.St.at, upd]⟩
  case wPoll c b => rw [if_pos (h4 c b hp)]; refine ⟨_, _, rfl, ?_⟩; simp only [ITh.St.at, upd, if_true]; split <;> simp
  all_goals (repeat' split) <;> (refine ⟨_, _, rfl, ?_⟩; simp only [ITh.St.at, upd, if_true]; (try split) <;> simp)

/-- What a thread object looks like in which only the Runnable could do something. -/
theorem quiet_thr {f : ITh.St} {ftr : List Thr.Ev} {tr0 : List ITh.Ev} (K : Knows k f ftr tr0)
    (hgo : ∀ t f' ev, ITh.step k f (.go t) = some (f', ev) → f' = f) (hex : ∀ t, ITh.step k f (.expire t) = none)
    (hw : ITh.step k f .task = none ∨ f.w = .running) :
    (f.w = .running ∨ (f.w = .dormant ∧ f.finished = true)) ∧
      ∀ t, f.pc t = .idle ∨ (f.w = .running ∧ ∃ c, f.pc t = .wWait c .forever) ∨ (f.w = .running ∧ ∃ c, c ≠ .destroy ∧ f.pc t = .wPoll c true) := by
  have I := K.inv
  have still : ∀ t, f.pc t = .idle ∨ (f.pc t = .sLock ∧ f.holder ≠ none) ∨ (∃ c tm, f.pc t = .wWait c tm) ∨ ∃ c b, f.pc t = .wPoll c b ∧ f.w ≠ .dormant := by
    intro t
    apply Classical.byContradiction
    intro hn
    simp only [not_or, not_and, not_exists, Classical.not_not] at hn
    obtain ⟨h1, h2, h3, h4⟩ := hn
    obtain ⟨f', ev, h5, h6⟩ := moves (k := k) h1 h2 h3 h4 (K.ours t)
    rw [hgo t f' ev h5] at h6
    exact h6 rfl
  have hm : f.holder = none := by
    apply Classical.byContradiction
    intro hm
    obtain ⟨u, hu⟩ := Option.ne_none_iff_exists'.1 hm
    have h1 := (I.hc u).1 hu
    rcases still u with h | ⟨h, _⟩ | ⟨c, tm, h⟩ | ⟨c, b, h, _⟩ <;> rw [h] at h1 <;> simp [ITh.cHolds] at h1
  have hset : ∀ u, ITh.setter (f.pc u) = false ∧ f.pc u ≠ .sSta := by
    intro u
    rcases still u with h | ⟨h, _⟩ | ⟨c, tm, h⟩ | ⟨c, b, h, _⟩ <;> rw [h] <;> simp [ITh.setter]
  have hww : f.w = .running ∨ (f.w = .dormant ∧ f.finished = true) := by
    rcases hw with hw | hw
    · cases hp : f.w <;> simp [ITh.step, hp] at hw <;> simp
      case dormant =>
        cases hx : f.finished with
        | true => rfl
        | false => obtain ⟨t, ht⟩ := I.live2 hp hx; exact absurd ht (hset t).2
      case wStart => obtain ⟨t, ht⟩ := I.live1 hp hw; rw [(hset t).1] at ht; simp at ht
    · exact Or.inl hw
  refine ⟨hww, fun t => ?_⟩
  have he := hex t
  have hl := I.loc t
  rcases still t with h | ⟨h, h'⟩ | ⟨c, tm, h⟩ | ⟨c, b, h, h'⟩
  · exact Or.inl h
  · exact absurd hm h'
  · right; left
    rw [h] at hl
    simp only [ITh.Loc] at hl
    simp only [ITh.step, h] at he
    have htm : tm = .forever := by
      apply Classical.byContradiction
      intro hx
      rw [if_pos hx] at he; simp at he
    subst htm
    rcases hww with h1 | ⟨h1, h2⟩
    · exact ⟨h1, c, h⟩
    · rw [h2] at hl; simp at hl
  · right; right
    rw [h] at hl
    simp only [ITh.Loc] at hl
    obtain ⟨h1, h2, h3, h4⟩ := hl
    have hr : f.w = .running := by
      rcases hww with h1 | ⟨h1, _⟩
      · exact h1
      · exact absurd h1 h'
    cases b with
    | false => have := h3 rfl; rw [hr] at this; simp at this
    | true =>
      refine ⟨hr, c, ?_, h⟩
      intro hc
      exact h' (h4 rfl hc).1

theorem go_events {f f' : ITh.St} {act : ITh.Act} {evs : List ITh.Ev} (h : ITh.step k f act = some (f', evs)) (ha : (∃ t, act = .go t) ∨ ∃ t, act = .expire t)
    (i : Rid) (p : TP.St) : ∃ y, onEvs i p (evs.filterMap seen) = some y := by
  suffices ∀ l : List Thr.Ev, (∀ e, e ∈ l → (∃ t c o, e = .lin t c o) ∨ ∃ t c o, e = .ret t c o) → ∀ p, ∃ y, onEvs i p l = some y by
    refine this _ ?_ p
    rcases ha with ⟨t, rfl⟩ | ⟨t, rfl⟩ <;> simp only [ITh.step] at h <;> (repeat' split at h) <;> simp only [Option.some.injEq, Prod.mk.injEq, reduceCtorEq] at h <;>
      obtain ⟨rfl, rfl⟩ := h <;> intro e he <;> simp only [List.mem_filterMap, List.mem_cons, List.not_mem_nil, or_false, false_and, exists_false, exists_eq_left] at he <;>
      (unfold seen at he; split at he <;> simp only [Option.some.injEq, reduceCtorEq] at he <;>
        first | exact Or.inl ⟨_, _, _, he.symm⟩ | exact Or.inr ⟨_, _, _, he.symm⟩ | (exfalso; simp_all; done))
  intro l
  induction l with
  | nil => intro _ p; exact ⟨_, rfl⟩
  | cons e l ih =>
    intro hl p
    rcases hl e (by simp) with ⟨t, c, o, rfl⟩ | ⟨t, c, o, rfl⟩
    · obtain ⟨y, hy⟩ := ih (fun e he => hl e (by simp [he])) p
      exact ⟨_, by simp only [onEvs, onEv, hy]; rfl⟩
    · obtain ⟨y, hy⟩ := ih (fun e he => hl e (by simp [he])) (resume p t o)
      exact ⟨_, by simp only [onEvs, onEv, hy]; rfl⟩

theorem task_events {f f' : ITh.St} {evs : List ITh.Ev} (h : ITh.step k f .task = some (f', evs)) (i : Rid) (p : TP.St) (hr : f.w = .running → p.w i = .over) :
    ∃ y, onEvs i p (evs.filterMap seen) = some y := by
  suffices ∀ l : List Thr.Ev, (∀ e, e ∈ l → (∃ t c o, e = .lin t c o) ∨ e = .runBegin ∨ e = .fin) → ∀ p, ∃ y, onEvs i p l = some y by
    simp only [ITh.step] at h
    split at h
    case h_5 heq =>
      simp only [Option.some.injEq, Prod.mk.injEq] at h
      obtain ⟨rfl, rfl⟩ := h
      exact ⟨_, by simp only [List.filterMap_cons, seen, List.filterMap_nil, onEvs, onEv, hr heq, if_true]; rfl⟩
    case h_7 =>
      simp only [Option.some.injEq, Prod.mk.injEq] at h
      obtain ⟨rfl, rfl⟩ := h
      refine this _ ?_ p
      intro e he
      simp only [List.mem_filterMap, List.mem_cons] at he
      obtain ⟨x, rfl | ⟨u, _, hx⟩, h2⟩ := he
      · simp only [seen, Option.some.injEq] at h2; right; right; exact h2.symm
      · left
        unfold ITh.noticed at hx
        (repeat' split at hx) <;> simp only [Option.some.injEq, reduceCtorEq] at hx
        subst hx
        unfold seen at h2
        split at h2 <;> simp only [Option.some.injEq, reduceCtorEq] at h2 <;> first | exact ⟨_, _, _, h2.symm⟩ | (exfalso; simp_all; done)
    all_goals ((repeat' split at h) <;> simp only [Option.some.injEq, Prod.mk.injEq, reduceCtorEq] at h <;> obtain ⟨rfl, rfl⟩ := h <;> refine this _ ?_ p <;>
      simp [List.filterMap_cons, seen])
  intro l
  induction l with
  | nil => intro _ p; exact ⟨_, rfl⟩
  | cons e l ih =>
    intro hl p
    have hl' := fun e he => hl e (List.mem_cons_of_mem _ he)
    rcases hl e (by simp) with ⟨t, c, o, rfl⟩ | rfl | rfl
    · obtain ⟨y, hy⟩ := ih hl' p
      exact ⟨_, by simp only [onEvs, onEv, hy]; rfl⟩
    · obtain ⟨y, hy⟩ := ih hl' (p.wAt i .pending)
      exact ⟨_, by simp only [onEvs, onEv, hy]; rfl⟩
    · obtain ⟨y, hy⟩ := ih hl' p
      exact ⟨_, by simp only [onEvs, onEv, hy]; rfl⟩

/-- The kernel objects of the threads never make pool calls wait for each other, nor poll for ever: what can be left over are starts without timeout that wait
for the release of a guard. -/
theorem C112_stuck (h : Reach (pool k) (fresh k n d) s tr) (hq : Quiet k s) : OnlyStarts n tr := by
  obtain ⟨a, ttr, α, hf, hr, rel⟩ := OnThreads.simulation (fun f ftr h => itron_lin h) h
  suffices ∀ act, (∀ t c, act ≠ .call t c) → TP.step a act = none from Props.ThreadPoolMore.C77_stuck hr this
  obtain ⟨s1, s2⟩ := hq
  have Ks := fun i => knows (hf i)
  have habs : ∀ i, ITh.abs (s.f i) = α i := fun i => by obtain ⟨_, K⟩ := Ks i; exact hist_det K.hist (rel.hi i).1
  have hn : s.p.n = n := by
    have h1 : a.n = n := (TP.Inv.reach hr).st.cn
    have h2 : a.n = s.p.n := rel.num
    rw [← h2, h1]
  have hstep : ∀ i, i < s.p.n → ∀ act f' evs, foreign act = false → ITh.step k (s.f i) act = some (f', evs) →
      (∃ y, onEvs i s.p (evs.filterMap seen) = some y) → f' = s.f i := by
    intro i hlt act f' evs hfo hx ⟨⟨p', ev⟩, hy⟩
    have := (s2 i act ⟨p', upd s.f i f'⟩ ev (by simp [pool, OnThreads.step, hlt, program, hfo, hx, hy])).1
    have h2 := congrArg (fun s : CSt ITh.St => s.f i) this
    simpa using h2
  have hgo : ∀ i, i < s.p.n → ∀ t f' evs, ITh.step k (s.f i) (.go t) = some (f', evs) → f' = s.f i := fun i hlt t f' evs hx =>
    hstep i hlt (.go t) f' evs rfl hx (go_events hx (Or.inl ⟨t, rfl⟩) i s.p)
  have hex : ∀ i, i < s.p.n → ∀ t, ITh.step k (s.f i) (.expire t) = none := by
    intro i hlt t
    cases hx : ITh.step k (s.f i) (.expire t) with
    | none => rfl
    | some y =>
      exfalso
      have h1 := hstep i hlt (.expire t) y.1 y.2 rfl hx (go_events hx (Or.inr ⟨t, rfl⟩) i s.p)
      simp only [ITh.step] at hx
      split at hx
      · rename_i c tm hp
        split at hx <;> simp only [Option.some.injEq, reduceCtorEq] at hx
        rw [← hx] at h1
        have := congrArg (fun f : ITh.St => f.pc t) h1
        simp [ITh.St.at, hp] at this
      · simp at hx
  have htask : ∀ i, i < s.p.n → (ITh.step k (s.f i) .task = none ∨ (s.f i).w = .running) ∧ ((s.f i).w = .running → s.p.w i ≠ .over) := by
    intro i hlt
    have hw : ∀ f' evs, ITh.step k (s.f i) .task = some (f', evs) → f'.w ≠ (s.f i).w := by
      intro f' evs hx
      simp only [ITh.step] at hx
      (repeat' split at hx) <;> simp only [Option.some.injEq, Prod.mk.injEq, reduceCtorEq] at hx <;> obtain ⟨rfl, rfl⟩ := hx <;> simp_all
    refine ⟨?_, ?_⟩
    · by_cases hrun : (s.f i).w = .running
      · exact Or.inr hrun
      · left
        cases hx : ITh.step k (s.f i) .task with
        | none => rfl
        | some y =>
          exfalso
          exact hw y.1 y.2 hx (by rw [hstep i hlt .task y.1 y.2 rfl hx (task_events hx i s.p (fun h => absurd h hrun))])
    · intro hrun hov
      have hx : ITh.step k (s.f i) .task = some ({ s.f i with w := .setF }, [.runEnd]) := by simp [ITh.step, hrun]
      exact hw _ _ hx (by rw [hstep i hlt .task _ _ rfl hx (task_events hx i s.p (fun _ => hov))])
  have key : ∀ i, i < s.p.n → ((s.f i).w = .running ∨ ((s.f i).w = .dormant ∧ (s.f i).finished = true)) ∧
      ∀ t, (s.f i).pc t = .idle ∨ ((s.f i).w = .running ∧ ∃ c, (s.f i).pc t = .wWait c .forever) ∨
        ((s.f i).w = .running ∧ ∃ c, c ≠ .destroy ∧ (s.f i).pc t = .wPoll c true) := fun i hlt => by
    obtain ⟨tr0, K⟩ := Ks i
    exact quiet_thr K (hgo i hlt) (hex i hlt) (htask i hlt).1
  have ghost : ∀ i, ¬ i < s.p.n → s.f i = ITh.init k := fun i hge => Props.ThreadPoolThread.untouched (fun f ftr h => itron_lin h) h (by rw [← hn]; exact hge)
  have hrun : ∀ i, (s.f i).w = .running → α i = .running := by
    intro i h1
    obtain ⟨tr0, K⟩ := Ks i
    rw [← habs]; unfold ITh.abs; rw [h1]
    cases hg : (s.f i).gone with
    | false => simp
    | true => have := (K.inv.gone hg).1; rw [h1] at this; simp at this
  -- nobody polls for a thread that has been started again
  have key2 : ∀ i t, (s.f i).pc t = .idle ∨ ((s.f i).w = .running ∧ ∃ c, (s.f i).pc t = .wWait c .forever) := by
    intro i t
    by_cases hlt : i < s.p.n
    · rcases (key i hlt).2 t with h1 | h1 | ⟨h1, c, hc, h2⟩
      · exact Or.inl h1
      · exact Or.inr h1
      · exfalso
        obtain ⟨tr0, K⟩ := Ks i
        have hl := K.inv.loc t
        rw [h2] at hl
        simp only [ITh.Loc] at hl
        obtain ⟨⟨tm, htm⟩, h3, _⟩ := hl
        rw [if_pos ⟨trivial, hc⟩] at h3
        have h4 := K.ph t
        rw [h3] at h4
        simp only [ph] at h4
        obtain ⟨c', h5, h6⟩ := rel.ph i t (by rw [h4]; simp)
        rw [h4] at h5
        simp only [calledBy, Option.some.injEq] at h5
        subst h5
        have hα := hrun i h1
        have hpw := (rel.rn i).1 hα
        have haw : a.w i ≠ .finished := by rw [(rel.w_run hpw).2]; exact hpw
        have hpc : a.pc t = afterPC (s.p.pc t) .ok := by rw [rel.pc]; exact vPC_done h6 h4
        have hcs := (TP.Inv.reach hr).st.cs t
        rw [hpc] at hcs
        unfold tCall at h6
        split at h6
        · rename_i hq
          simp only [Option.some.injEq, Prod.mk.injEq] at h6
          obtain ⟨rfl, rfl⟩ := h6
          rw [hq] at hcs
          simp only [afterPC, if_true, CShape] at hcs
          exact haw hcs.2.2
        · simp only [Option.some.injEq, Prod.mk.injEq] at h6
          obtain ⟨_, rfl⟩ := h6
          simp [ITh.tmo', Thr.Spec.tmo] at htm
        · rename_i j hq
          split at h6 <;> simp only [Option.some.injEq, Prod.mk.injEq, reduceCtorEq] at h6
          rename_i hjn
          obtain ⟨rfl, rfl⟩ := h6
          rw [hq] at hcs
          simp only [afterPC, CShape] at hcs
          exact haw (hcs j (Nat.lt_succ_self _) (by have := rel.num; rw [this]; exact hjn))
        · split at h6 <;> simp only [Option.some.injEq, Prod.mk.injEq, reduceCtorEq] at h6
          exact hc h6.2.symm
        · simp at h6
    · left; rw [ghost i hlt]; rfl
  have hnd : ∀ i t c o, Thr.Spec.phase t (ttr i) ≠ .done c o := by
    intro i t c o hp
    obtain ⟨tr0, K⟩ := Ks i
    have hl := K.inv.loc t
    rw [K.ph t] at hp
    rcases key2 i t with h1 | ⟨_, c', h1⟩ <;> rw [h1] at hl <;> simp only [ITh.Loc] at hl
    · rw [hl] at hp; simp [ph] at hp
    · rw [hl.1] at hp; simp [ph] at hp
  refine Props.ThreadPoolThread.stuck_gen h hr rel s1 ?_ hnd ?_ ?_ ?_
  · intro t i c hc hp
    obtain ⟨tr0, K⟩ := Ks i
    have h1 := (K.idle_iff t).2 hp
    obtain ⟨s', h3, h4⟩ := C112_calls h hc h1
    have := (s2 i _ s' [] h3).1
    rw [this, h1] at h4
    have := no_isFinished hc
    cases c <;> simp [ITh.entry] at h4
  · intro i t c hp
    obtain ⟨tr0, K⟩ := Ks i
    have hl := K.inv.loc t
    rw [K.ph t] at hp
    rcases key2 i t with h1 | ⟨h1, c', h2⟩
    · rw [h1] at hl; simp only [ITh.Loc] at hl
      rw [hl] at hp; simp [ph] at hp
    · rw [h2] at hl
      simp only [ITh.Loc] at hl
      rw [hl.1] at hp
      simp only [ph, Phase.called.injEq] at hp
      subst hp
      exact ⟨hrun i h1, by have := hl.2.1; cases c' <;> exact this⟩
  · intro i hlt
    have hα := habs i
    unfold ITh.abs at hα
    rcases (key i hlt).1 with h1 | ⟨h1, h2⟩
    · rw [h1] at hα
      cases hg : (s.f i).gone <;> rw [hg] at hα <;> simp at hα <;> rw [← hα] <;> simp
    · rw [h1, h2] at hα
      cases hg : (s.f i).gone <;> rw [hg] at hα <;> simp at hα <;> rw [← hα] <;> simp
  · intro i hα
    have hlt : i < s.p.n := by
      apply Classical.byContradiction
      intro hge
      have := habs i
      rw [ghost i hge, hα] at this
      simp [ITh.abs, ITh.init] at this
    refine (htask i hlt).2 ?_
    have h1 := habs i
    rw [hα] at h1
    unfold ITh.abs at h1
    rcases (key i hlt).1 with h3 | ⟨h3, h4⟩
    · exact h3
    · rw [h3, h4] at h1; split at h1 <;> simp at h1

end

/-! #### A schedule -/

def k0 : ITh.Cfg := ⟨1, 16, 8⟩
def tp (a : Act) : CAct ITh.Act := .tp a
def th (a : ITh.Act) : CAct ITh.Act := .thr 0 a

/-- A pool with one thread.  Client 1 starts task 7 with guard 5, client 2 wants to start task 8 and finds no thread; task 7 throws and is over; the guard is not released. -/
def waiting : List (CAct ITh.Act) :=
  [tp (.call 1 (.start (some 7) .forever (some 5) 3)), tp (.go 1), tp (.go 1), th (.call 1 (.thr (.timedWait .forever)))] ++ List.replicate 3 (th (.go 1)) ++
  [tp (.go 1), tp (.go 1), th (.call 1 (.thr .start))] ++ List.replicate 9 (th (.go 1)) ++ [tp (.go 1), tp (.go 1), tp (.call 2 (.start (some 8) .forever none 4)), tp (.go 2)] ++
  List.replicate 3 (th .task) ++ [tp (.pgo 0), tp (.throw 0)] ++ List.replicate 4 (tp (.pgo 0)) ++ List.replicate 3 (th .task)
/-- The guard is released, task 8 runs; meanwhile client 3 destroys the pool: it waits for the flag, polls until the task is dormant, and deletes it.
`m`: the number of steps of start (10 if the priority has to be changed). -/
def ending (m : Nat) : List (CAct ITh.Act) :=
  [tp (.call 1 (.release 5))] ++ List.replicate 6 (tp (.go 1)) ++ [tp (.go 2), th (.call 2 (.thr (.timedWait .forever)))] ++ List.replicate 3 (th (.go 2)) ++
  [tp (.go 2), tp (.go 2), th (.call 2 (.thr .start))] ++ List.replicate m (th (.go 2)) ++ [tp (.go 2), tp (.go 2), tp (.call 3 .destroy), th (.call 3 (.thr .wait)), th (.go 3)] ++
  List.replicate 3 (th .task) ++ List.replicate 7 (tp (.pgo 0)) ++ [th .task, th .task, th (.go 3), th .task, th (.go 3), th (.go 3)] ++
  [tp (.go 3), th (.call 3 (.thr .destroy))] ++ List.replicate 4 (th (.go 3)) ++ [tp (.go 3), tp (.go 3)]
/-- Meanwhile somebody changes the priority of the thread. -/
def reprio : List (CAct ITh.Act) := [th (.call 9 (.setPriority 12 8))] ++ List.replicate 6 (th (.go 9))

set_option maxRecDepth 40000 in
/-- Both tasks run on the one thread, then it is destroyed: the hypotheses of C112_correct (with a stranger) and C112_free. -/
example : ∃ s tr, Reach (OnThreads.step (program k0 true)) (fresh k0 1 5) s tr ∧
    decide (Ev.ret 1 (.release 5) .done ∈ tr ∧ Ev.ret 2 (.start (some 8) .forever none 4) .ok ∈ tr ∧ Ev.ret 3 .destroy .done ∈ tr ∧ Ev.kill 0 ∈ tr ∧
    Props.ThreadPool.begun 0 tr = [(7, 3), (8, 4)] ∧ s.p.gone = true ∧ (s.f 0).prio = 12) = true :=
  runSat_ex (step := OnThreads.step (program k0 true)) (init := fresh k0 1 5) (as := waiting ++ reprio ++ ending 10) (P := fun s tr => decide (Ev.ret 1 (.release 5) .done ∈ tr ∧ Ev.ret 2 (.start (some 8) .forever none 4) .ok ∈ tr ∧ Ev.ret 3 .destroy .done ∈ tr ∧ Ev.kill 0 ∈ tr ∧
    Props.ThreadPool.begun 0 tr = [(7, 3), (8, 4)] ∧ s.p.gone = true ∧ (s.f 0).prio = 12)) (by decide)

set_option maxRecDepth 40000 in
example : ∃ s tr, Reach (pool k0) (fresh k0 1 5) s tr ∧ decide (Ev.ret 3 .destroy .done ∈ tr ∧ Ev.kill 0 ∈ tr ∧ Props.ThreadPool.begun 0 tr = [(7, 3), (8, 4)]) = true :=
  runSat_ex (step := pool k0) (init := fresh k0 1 5) (as := waiting ++ ending 9) (P := fun s tr => decide (Ev.ret 3 .destroy .done ∈ tr ∧ Ev.kill 0 ∈ tr ∧
    Props.ThreadPool.begun 0 tr = [(7, 3), (8, 4)])) (by decide)

set_option maxRecDepth 40000 in
/-- The hypotheses of C112_calls: the destroyer is about to wait for thread 0. -/
example : ∃ s tr, Reach (pool k0) (fresh k0 1 5) s tr ∧ decide (tCall s.p 3 = some (0, .wait) ∧ (s.f 0).pc 3 = .idle) = true :=
  runSat_ex (step := pool k0) (init := fresh k0 1 5) (as := [tp (.call 3 .destroy)]) (P := fun s tr => decide (tCall s.p 3 = some (0, .wait) ∧ (s.f 0).pc 3 = .idle)) (by decide)

set_option maxRecDepth 40000 in
/-- The hypothesis of the stuck theorem: after `waiting` only client 2 is inside a call, and the task is dormant. -/
example : ∃ s tr, Reach (pool k0) (fresh k0 1 5) s tr ∧ Quiet k0 s ∧ TP.Spec.phase 2 tr = .called (.start (some 8) .forever none 4) := by
  obtain ⟨s, tr, h, hp⟩ := runSat_ex (step := pool k0) (init := fresh k0 1 5) (as := waiting)
    (P := fun s tr => decide (s.p.inside = [2] ∧ s.p.pc 2 = .on (.start (some 8) .forever none 4) .sRecv ∧ s.p.free = [] ∧ s.p.n = 1 ∧
      (s.f 0).inside = [] ∧ (s.f 0).w = .dormant ∧ s.p.w 0 = .finished ∧ TP.Spec.phase 2 tr = .called (.start (some 8) .forever none 4))) (by decide)
  simp only [decide_eq_true_eq] at hp
  obtain ⟨h1, h2, h3, h4, h5, h6, h7, h8⟩ := hp
  refine ⟨s, tr, h, ?_, h8⟩
  obtain ⟨a, ttr, α, hf, hr, rel⟩ := OnThreads.simulation (fun f ftr h => itron_lin h) h
  have S := (TP.Inv.reach hr).st
  obtain ⟨tr0, K⟩ := knows (hf 0)
  have hpc : ∀ t, t ≠ 2 → s.p.pc t = .idle := by
    intro t ht
    apply Classical.byContradiction
    intro hne
    have e : callOf (a.pc t) = callOf (s.p.pc t) := rel.call t
    have h9 : t ∈ a.inside := by
      rw [S.ins]
      intro h0; rw [h0] at e
      cases hq : s.p.pc t <;> rw [hq] at e hne <;> simp [callOf] at e hne
    have : a.inside = s.p.inside := by rw [rel.eq]; rfl
    rw [this, h1] at h9; simp at h9; exact ht h9
  have hw : ∀ i, s.p.w i = .finished := by
    intro i
    apply Classical.byContradiction
    intro hne
    have hα := (rel.w_run hne).1
    by_cases hlt : i < 1
    · have : i = 0 := Nat.lt_one_iff.1 hlt
      subst this; exact hne h7
    · obtain ⟨_, Ki⟩ := knows (hf i)
      have hα' := hist_det Ki.hist (rel.hi i).1
      rw [Props.ThreadPoolThread.untouched (fun f ftr h => itron_lin h) h hlt, hα] at hα'
      simp [ITh.abs, ITh.init] at hα'
  have hti : ∀ t, (s.f 0).pc t = .idle := by
    intro t
    apply Classical.byContradiction
    intro hne
    have := (K.inv.ins t).2 hne
    rw [h5] at this; simp at this
  have htc : ∀ t, tCall s.p t = none := by
    intro t
    by_cases e : t = 2
    · subst e; simp [tCall, h2]
    · simp [tCall, hpc t e]
  refine ⟨?_, ?_⟩
  · intro act hact
    cases act with
    | call t c => exact absurd rfl (hact t c)
    | go t =>
      by_cases e : t = 2
      · subst e; simp [pool, OnThreads.step, TP.step, h2, h3]
      · simp [pool, OnThreads.step, hpc t e, TP.step]
    | expire t =>
      by_cases e : t = 2
      · subst e; simp [pool, OnThreads.step, TP.step, h2, h3]
      · simp [pool, OnThreads.step, hpc t e, TP.step]
    | pgo i => simp [pool, OnThreads.step, own, hw i]
    | throw i => simp [pool, OnThreads.step, own, hw i]
  · intro i act s' ev hs
    exfalso
    simp only [pool, OnThreads.step, h4] at hs
    split at hs
    case isFalse => simp at hs
    rename_i hlt
    have : i = 0 := by have : (i : Nat) < 1 := hlt; exact Nat.lt_one_iff.1 this
    subst this
    cases act with
    | call t c =>
      cases c with
      | thr c =>
        by_cases hc : c = .isFinished
        · subst hc; simp [program, foreign] at hs
        · have h1 : foreign (.call t (.thr c)) = false := by cases c <;> first | rfl | exact absurd rfl hc
          have h2 : [ITh.Ev.call t (.thr c)].filterMap seen = [.call t c] := by cases c <;> first | rfl | exact absurd rfl hc
          simp only [program, h1, Bool.false_eq_true, false_and, if_false, ITh.step, hti] at hs
          split at hs
          · simp at hs
          · rename_i heq
            split at heq <;> simp only [Option.some.injEq, Prod.mk.injEq, reduceCtorEq] at heq
            rename_i heq2
            split at heq2 <;> simp only [Option.some.injEq, Prod.mk.injEq, reduceCtorEq] at heq2
            obtain ⟨rfl, rfl⟩ := heq2
            obtain ⟨rfl, rfl⟩ := heq
            rw [h2] at hs
            simp [onEvs, onEv, htc] at hs
      | _ => simp [program, foreign] at hs
    | go t => simp [program, foreign, ITh.step, hti] at hs
    | expire t => simp [program, foreign, ITh.step, hti] at hs
    | task => simp [program, foreign, ITh.step, h6] at hs

end Verif.Props.ThreadPoolItron
