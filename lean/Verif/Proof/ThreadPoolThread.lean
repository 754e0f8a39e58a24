import Verif.Model.ThreadPoolThread
import Verif.Proof.ThreadPoolQueue
import Verif.Spec.Thread
/-
Refinement of the pool on linearizable thread programs to the pool on atomic threads.
-/
set_option linter.unusedSimpArgs false
set_option linter.unusedVariables false
namespace Verif.TP.OnThreads
open Verif TP
open _root_.Verif.Lts (Reach)
open _root_.Verif.Mtx (Tid)
open _root_.Verif.EvF (Tmo)
open _root_.Verif.TP.OnQueue (merge merge_self merge_upd clash_eq upd_view destroyer)

/-! #### Histories of a thread -/

theorem legal_det {q a b : Thr.Spec.A} {x : Thr.Spec.Eff} (h1 : Thr.Spec.Legal q x a) (h2 : Thr.Spec.Legal q x b) : a = b := by
  cases h1 <;> cases h2 <;> rfl

theorem hist_snoc {h : List Thr.Spec.Eff} {x : Thr.Spec.Eff} {q : Thr.Spec.A} (hh : Thr.Spec.Hist (h ++ [x]) q) :
    ∃ q0, Thr.Spec.Hist h q0 ∧ Thr.Spec.Legal q0 x q := by
  generalize e : h ++ [x] = l at hh
  cases hh with
  | nil => simp at e
  | snoc h1 h2 =>
    obtain ⟨rfl, e2⟩ := List.append_inj' e rfl
    simp only [List.cons.injEq, and_true] at e2
    subst e2
    exact ⟨_, h1, h2⟩

theorem hist_det {h : List Thr.Spec.Eff} {a b : Thr.Spec.A} (h1 : Thr.Spec.Hist h a) (h2 : Thr.Spec.Hist h b) : a = b := by
  revert a b
  suffices ∀ (n : Nat) (h : List Thr.Spec.Eff), h.length = n → ∀ {a b : Thr.Spec.A}, Thr.Spec.Hist h a → Thr.Spec.Hist h b → a = b from
    fun {a b} h1 h2 => this _ _ rfl h1 h2
  intro n
  induction n with
  | zero =>
    intro h hn a b h1 h2
    rw [List.length_eq_zero_iff] at hn
    subst hn
    generalize e : ([] : List Thr.Spec.Eff) = l at h1
    cases h1 with
    | snoc => simp at e
    | nil =>
      clear e
      generalize e : ([] : List Thr.Spec.Eff) = l at h2
      cases h2 with
      | nil => rfl
      | snoc => simp at e
  | succ n ih =>
    intro h hn a b h1 h2
    rcases List.eq_nil_or_concat h with rfl | ⟨h', x, rfl⟩
    · simp at hn
    · rw [List.concat_eq_append] at h1 h2 hn
      obtain ⟨q1, h3, h4⟩ := hist_snoc h1
      obtain ⟨q2, h5, h6⟩ := hist_snoc h2
      have := ih h' (by simpa using hn) h3 h5
      subst this
      exact legal_det h4 h6

def effOf : Thr.Ev → Option Thr.Spec.Eff
  | .lin _ c o => some (.op c o)
  | .runBegin => some .runBegin
  | .runEnd => some .runEnd
  | .fin => some .fin
  | _ => none

theorem effects_snoc (tr : List Thr.Ev) (x : Thr.Ev) : Thr.Spec.effects (tr ++ [x]) = Thr.Spec.effects tr ++ (effOf x).toList := by
  unfold Thr.Spec.effects
  rw [List.filterMap_append]
  cases x <;> rfl

theorem tphase_snoc (t : Tid) (tr : List Thr.Ev) (e : Thr.Ev) :
    Thr.Spec.phase t (tr ++ [e]) = Proto.Phase.next Thr.Spec.view t (Thr.Spec.phase t tr) e := by
  simp [Thr.Spec.phase, Proto.phase]

theorem lin_prefix {xs : List Thr.Ev} {x : Thr.Ev} {q : Thr.Spec.A} (h : Thr.Spec.Linearizable (xs ++ [x]) q) :
    ∃ q0, Thr.Spec.Linearizable xs q0 ∧ (∀ e, effOf x = some e → Thr.Spec.Legal q0 e q) ∧ (effOf x = none → q = q0) := by
  obtain ⟨h1, h2⟩ := h
  have hb : ∀ t, Thr.Spec.phase t xs ≠ .bad := by
    intro t hb
    apply h2 t
    rw [tphase_snoc, hb]
    exact Proto.bad_stays (view := Thr.Spec.view) t [x]
  rw [effects_snoc] at h1
  cases he : effOf x with
  | none => rw [he] at h1; exact ⟨q, ⟨by simpa using h1, hb⟩, by simp, by simp⟩
  | some e =>
    rw [he] at h1
    obtain ⟨q0, h3, h4⟩ := hist_snoc h1
    exact ⟨q0, ⟨h3, hb⟩, by rintro e' ⟨⟩; exact h4, by simp⟩

theorem lin_prefixes {xs : List Thr.Ev} : ∀ {ys : List Thr.Ev} {q : Thr.Spec.A}, Thr.Spec.Linearizable (xs ++ ys) q →
    ∃ q0, Thr.Spec.Linearizable xs q0 := by
  intro ys
  induction hn : ys.length generalizing ys with
  | zero => intro q h; simp at hn; subst hn; exact ⟨q, by simpa using h⟩
  | succ n ih =>
    intro q h
    rcases List.eq_nil_or_concat ys with rfl | ⟨zs, z, rfl⟩
    · simp at hn
    · rw [List.concat_eq_append, ← List.append_assoc] at h
      obtain ⟨q0, h0, _⟩ := lin_prefix h
      exact ih (ys := zs) (by simpa using hn) h0

/-! #### The pool on atomic threads -/

/-- Its state. -/
def mk (p : St) (own : Rid → Own) (free : List Rid) (pc : Tid → PC) (w : Rid → W) : St := { p with own := own, free := free, pc := pc, w := w }

/-- A step of the pool's own code is a step of the abstract pool. -/
theorem step_frame {p p' : St} {act : Act} {ev : List Ev} (hc : own p act = true) (hs : TP.step p act = some (p', ev))
    (O : Rid → Own) (pc : Tid → PC) (wk : Rid → W)
    (hpc : ∀ t, (∃ c, act = .call t c) ∨ act = .go t ∨ act = .expire t → pc t = p.pc t)
    (hw : ∀ i, act = .pgo i ∨ act = .throw i → wk i = p.w i)
    (hcall : ∀ u, callOf (pc u) = callOf (p.pc u)) :
    ∃ a', TP.step (mk p O p.free pc wk) act = some (a', ev) ∧ a' = mk p' a'.own p'.free (merge p.pc p'.pc pc) (merge p.w p'.w wk) := by
  cases act with
  | call t c =>
    have hp := hpc t (Or.inl ⟨c, rfl⟩)
    simp only [TP.step] at hs ⊢
    split at hs
    · rename_i h
      simp only [Option.some.injEq, Prod.mk.injEq] at hs
      obtain ⟨rfl, rfl⟩ := hs
      have h' : (mk p O p.free pc wk).pc t = .idle ∧ (mk p O p.free pc wk).gone = false ∧ (mk p O p.free pc wk).dying = none ∧
          (c = .destroy → (mk p O p.free pc wk).inside = []) ∧
          (∀ u, u ∈ (mk p O p.free pc wk).inside → clash c ((mk p O p.free pc wk).pc u) = false) ∧ freshGuard (mk p O p.free pc wk) c = true := by
        refine ⟨hp.trans h.1, h.2.1, h.2.2.1, h.2.2.2.1, ?_, h.2.2.2.2.2⟩
        intro u hu
        have := h.2.2.2.2.1 u hu
        rw [clash_eq] at this ⊢
        show (match callOf (pc u) with | some c' => conflict c c' | none => false) = false
        rw [hcall]; exact this
      rw [if_pos h']
      refine ⟨_, rfl, ?_⟩
      simp only [mk, St.at]
      rw [merge_upd hp, merge_self]
    · cases hs
  | go t =>
    have hp := hpc t (Or.inr (Or.inl rfl))
    simp only [own, tCall] at hc
    simp only [TP.step] at hs ⊢
    have hp' : (mk p O p.free pc wk).pc t = p.pc t := hp
    rw [hp']
    have hu : ∀ x, merge p.pc (upd p.pc t x) pc = upd pc t x := fun x => merge_upd hp
    have hfm : (mk p O p.free pc wk).free = p.free := rfl
    have hem : (mk p O p.free pc wk).ev = p.ev := rfl
    have hnm : (mk p O p.free pc wk).n = p.n := rfl
    have hgm : (mk p O p.free pc wk).guard = p.guard := rfl
    cases hq : p.pc t with
    | idle => rw [hq] at hs; simp at hs
    | on c q =>
      rw [hq] at hs hc
      rcases c with ⟨_ | k, tm, g, pr⟩ | ⟨g, tm⟩ | g | g | _ <;> cases q <;>
        simp only [Option.isNone_some, reduceCtorEq, Bool.false_eq_true] at hc <;>
        simp only [hfm, hem, hnm, hgm] at hs ⊢ <;> (repeat' split at hs) <;>
        simp only [Option.some.injEq, Prod.mk.injEq, reduceCtorEq] at hs <;> obtain ⟨rfl, rfl⟩ := hs <;>
        (first
        | (simp_all only [if_true, if_false, Option.isNone_some, Bool.false_eq_true]; done)
        | ((try simp only [*, if_true, if_false]); exact ⟨_, rfl, by simp_all [mk, St.at, St.wAt, St.ownAt, St.evAt, merge_self]⟩))
  | expire t =>
    have hp := hpc t (Or.inr (Or.inr rfl))
    simp only [own, tCall] at hc
    simp only [TP.step] at hs ⊢
    have hp' : (mk p O p.free pc wk).pc t = p.pc t := hp
    rw [hp']
    have hu : ∀ x, merge p.pc (upd p.pc t x) pc = upd pc t x := fun x => merge_upd hp
    have hem : (mk p O p.free pc wk).ev = p.ev := rfl
    cases hq : p.pc t with
    | idle => rw [hq] at hs; simp at hs
    | on c q =>
      rw [hq] at hs hc
      rcases c with ⟨_ | k, tm, g, pr⟩ | ⟨g, tm⟩ | g | g | _ <;> cases q <;>
        simp only [Option.isNone_some, reduceCtorEq, Bool.false_eq_true] at hc <;>
        simp only [hem, ne_eq] at hs ⊢ <;> (repeat' split at hs) <;>
        simp only [Option.some.injEq, Prod.mk.injEq, reduceCtorEq] at hs <;> obtain ⟨rfl, rfl⟩ := hs <;>
        (simp only [*, if_true, if_false, not_false_eq_true, and_self]; exact ⟨_, rfl, by simp_all [mk, St.at, St.wAt, St.ownAt, St.evAt, merge_self]⟩)
  | pgo i =>
    have hp := hw i (Or.inl rfl)
    simp only [own] at hc
    simp only [TP.step] at hs ⊢
    have hp' : (mk p O p.free pc wk).w i = p.w i := hp
    rw [hp']
    have hu : ∀ x, merge p.w (upd p.w i x) wk = upd wk i x := fun x => merge_upd hp
    have htm : (mk p O p.free pc wk).task = p.task := rfl
    have hnm : (mk p O p.free pc wk).needs = p.needs := rfl
    have hdm : (mk p O p.free pc wk).dflt = p.dflt := rfl
    have hpm : (mk p O p.free pc wk).prio = p.prio := rfl
    have hfm : (mk p O p.free pc wk).free = p.free := rfl
    have hn : (mk p O p.free pc wk).n = p.n := rfl
    cases h : p.w i <;> rw [h] at hs hc hp <;> simp only [Bool.false_eq_true] at hc hs <;>
      simp only [htm, hnm, hdm, hpm, hfm, hn] at hs ⊢ <;> (try (cases ht : p.task i <;> rw [ht] at hs)) <;> (repeat' split at hs) <;>
      simp only [Option.some.injEq, Prod.mk.injEq, reduceCtorEq] at hs <;> obtain ⟨rfl, rfl⟩ := hs <;>
      ((try simp only [*, if_true, if_false]); exact ⟨_, rfl, by simp_all [mk, St.at, St.wAt, St.ownAt, St.evAt, merge_self]⟩)
  | throw i =>
    have hp := hw i (Or.inr rfl)
    simp only [TP.step] at hs ⊢
    have hp' : (mk p O p.free pc wk).w i = p.w i := hp
    rw [hp']
    cases h : p.w i <;> rw [h] at hs hp <;> simp only [reduceCtorEq] at hs ⊢
    simp only [Option.some.injEq, Prod.mk.injEq] at hs
    obtain ⟨rfl, rfl⟩ := hs
    refine ⟨_, rfl, ?_⟩
    simp only [mk, St.wAt, Option.some.injEq, Prod.mk.injEq, and_true]
    rw [merge_upd (hp.trans h.symm), merge_self]

/-- What a step of the pool's own code can change. -/
theorem moved {p p' : St} {act : Act} {ev : List Ev} (hc : own p act = true) (hs : TP.step p act = some (p', ev)) :
    (∀ t, p'.pc t ≠ p.pc t → (∃ c, act = .call t c) ∨ act = .go t ∨ act = .expire t) ∧
    (∀ i, p'.w i ≠ p.w i → act = .pgo i ∨ act = .throw i) ∧
    (∀ i, p'.w i = .finished ↔ p.w i = .finished) ∧ p'.n = p.n ∧
    (∀ j, j ∈ p'.free → j ∈ p.free ∨ (act = .pgo j ∧ ∃ x, p.w j = .send x) ∨ ∃ t g, act = .go t ∧ p.pc t = .on (.release g) (.rSend j)) ∧
    (∀ i r, p.free = i :: r → (∃ r', p'.free = i :: r') ∨ ∃ t k tm g pr, act = .go t ∧ p.pc t = .on (.start k tm g pr) .sRecv) := by
  cases act with
  | call t c =>
    simp only [TP.step] at hs
    split at hs
    · simp only [Option.some.injEq, Prod.mk.injEq] at hs
      obtain ⟨rfl, rfl⟩ := hs
      simp only [St.at]
      grind [upd]
    · simp at hs
  | go t =>
    simp only [own, tCall] at hc
    simp only [TP.step] at hs
    cases hq : p.pc t with
    | idle => rw [hq] at hs; simp at hs
    | on c q =>
      rw [hq] at hs hc
      rcases c with ⟨_ | k, tm, g, pr⟩ | ⟨g, tm⟩ | g | g | _ <;> cases q <;>
        simp only [Option.isNone_some, reduceCtorEq, Bool.false_eq_true] at hc <;>
        simp only at hs <;> (repeat' split at hs) <;>
        simp only [Option.some.injEq, Prod.mk.injEq, reduceCtorEq] at hs <;> obtain ⟨rfl, rfl⟩ := hs <;>
        (first
        | (simp_all only [if_true, if_false, Option.isNone_some, Bool.false_eq_true]; done)
        | (simp only [St.at, St.wAt, St.ownAt, St.evAt]; grind [upd]))
  | expire t =>
    simp only [TP.step] at hs
    simp only [own, tCall] at hc
    (repeat' split at hs) <;>
        simp only [Option.some.injEq, Prod.mk.injEq, reduceCtorEq] at hs <;> obtain ⟨rfl, rfl⟩ := hs <;>
        (simp only [St.at, St.wAt, St.ownAt, St.evAt]; grind [upd])
  | pgo i =>
    simp only [TP.step] at hs
    simp only [own] at hc
    (repeat' split at hs) <;>
        simp only [Option.some.injEq, Prod.mk.injEq, reduceCtorEq] at hs <;> obtain ⟨rfl, rfl⟩ := hs <;>
        (simp only [St.at, St.wAt, St.ownAt, St.evAt]; grind [upd])
  | throw i =>
    simp only [TP.step] at hs
    (repeat' split at hs) <;>
        simp only [Option.some.injEq, Prod.mk.injEq, reduceCtorEq] at hs <;> obtain ⟨rfl, rfl⟩ := hs <;>
        (simp only [St.at, St.wAt, St.ownAt, St.evAt]; grind [upd])
/-! #### The program points as the pool on atomic threads sees them -/

def vPC (p : St) (ttr : Rid → List Thr.Ev) (t : Tid) : PC :=
  match tCall p t with
  | none => p.pc t
  | some (i, _) => match Thr.Spec.phase t (ttr i) with
    | .done _ o => afterPC (p.pc t) o
    | _ => p.pc t
def vW (p : St) (α : Rid → Thr.Spec.A) (i : Rid) : W :=
  if p.n ≤ i then .dead else match α i with
    | .finished => .finished
    | .pending => .pending
    | .running => p.w i
    | .over => .over
    | .dead => .dead

def calledBy : Proto.Phase Thr.Call Thr.Out → Option Thr.Call
  | .called c => some c
  | .done c _ => some c
  | _ => none

/-- The pool's queue: the same, except that the runner of a thread that has just been destroyed is still in the concrete one. -/
def Queue (p : St) (ttr : Rid → List Thr.Ev) (α : Rid → Thr.Spec.A) (a : St) : Prop :=
  (a.free = p.free ∧ (∀ i, i ∈ p.free → α i ≠ .dead) ∧ ∀ i t o, Thr.Spec.phase t (ttr i) ≠ .done .destroy o) ∨
  ∃ t i, p.free = i :: a.free ∧ α i = .dead ∧ Thr.Spec.phase t (ttr i) = .done .destroy .destroyed ∧ ∀ j, j ∈ a.free → α j ≠ .dead

structure Rel (p : St) (ttr : Rid → List Thr.Ev) (α : Rid → Thr.Spec.A) (a : St) : Prop where
  eq : a = mk p a.own a.free (vPC p ttr) (vW p α)
  hi : ∀ i, Thr.Spec.Linearizable (ttr i) (α i)
  ph : ∀ i t, Thr.Spec.phase t (ttr i) ≠ .out → ∃ c, calledBy (Thr.Spec.phase t (ttr i)) = some c ∧ tCall p t = some (i, c)
  rn : ∀ i, α i = .running ↔ p.w i ≠ .finished
  bg : ∀ i, p.n ≤ i → α i = .finished
  fr : Queue p ttr α a

section
variable {p : St} {ttr : Rid → List Thr.Ev}
theorem vPC_none {t : Tid} (h : tCall p t = none) : vPC p ttr t = p.pc t := by unfold vPC; rw [h]
theorem vPC_out {t : Tid} (h' : ∀ i c o, Thr.Spec.phase t (ttr i) ≠ .done c o) : vPC p ttr t = p.pc t := by
  unfold vPC
  split
  · rfl
  · split
    · rename_i h2; exact absurd h2 (h' _ _ _)
    · rfl
theorem vPC_done {t : Tid} {i : Rid} {c c' o} (h : tCall p t = some (i, c)) (h' : Thr.Spec.phase t (ttr i) = .done c' o) :
    vPC p ttr t = afterPC (p.pc t) o := by
  unfold vPC; rw [h]; simp only; rw [h']
theorem after_call (q : PC) (o : Thr.Out) : callOf (afterPC q o) = callOf q := by
  unfold afterPC; split
  · split <;> rfl
  · rfl
  · rfl
  · rfl
theorem vPC_call {t : Tid} : callOf (vPC p ttr t) = callOf (p.pc t) := by
  unfold vPC; split
  · rfl
  · split
    · exact after_call _ _
    · rfl
end

section
variable {p a : St} {ttr : Rid → List Thr.Ev} {α : Rid → Thr.Spec.A} {n : Nat} {d : Int} {tr : List Ev}
theorem Rel.out (rel : Rel p ttr α a) {t : Tid} (h : tCall p t = none) (i : Rid) : Thr.Spec.phase t (ttr i) = .out := by
  apply Classical.byContradiction
  intro hne
  obtain ⟨c, _, h2⟩ := rel.ph i t hne
  rw [h] at h2; simp at h2
theorem Rel.pc (rel : Rel p ttr α a) (t : Tid) : a.pc t = vPC p ttr t := by rw [rel.eq]; rfl
theorem Rel.wk (rel : Rel p ttr α a) (i : Rid) : a.w i = vW p α i := by rw [rel.eq]; rfl
theorem Rel.dying (rel : Rel p ttr α a) : a.dying = p.dying := by rw [rel.eq]; rfl
theorem Rel.num (rel : Rel p ttr α a) : a.n = p.n := by rw [rel.eq]; rfl
theorem Rel.call (rel : Rel p ttr α a) (t : Tid) : callOf (a.pc t) = callOf (p.pc t) := by rw [rel.pc, vPC_call]
/-- The phases of a client are `out` for all threads but the one it calls. -/
theorem Rel.other (rel : Rel p ttr α a) {t : Tid} {i j : Rid} {c : Thr.Call} (h : tCall p t = some (i, c)) (hj : j ≠ i) : Thr.Spec.phase t (ttr j) = .out := by
  apply Classical.byContradiction
  intro hne
  obtain ⟨c, _, h2⟩ := rel.ph j t hne
  rw [h] at h2; simp only [Option.some.injEq, Prod.mk.injEq] at h2
  exact hj h2.1.symm
/-- Whoever is inside destroy is alone. -/
theorem Rel.alone (hr : Reach TP.step (TP.init n d) a tr) (rel : Rel p ttr α a) {t : Tid} {q : Pos} (ht : p.pc t = .on .destroy q) :
    p.dying = some t ∧ ∀ u, u ≠ t → p.pc u = .idle := by
  have S := (TP.Inv.reach hr).st
  have h1 := rel.call t
  rw [ht] at h1
  have h2 : a.dying = some t := by
    cases hx : a.pc t with
    | idle => rw [hx] at h1; simp [callOf] at h1
    | on c q' => rw [hx] at h1; simp only [callOf, Option.some.injEq] at h1; subst h1; exact S.dy t q' hx
  refine ⟨rel.dying ▸ h2, fun u hu => ?_⟩
  have h3 := S.al t h2 u hu
  have h4 := rel.call u
  rw [h3] at h4
  cases hx : p.pc u with
  | idle => rfl
  | on c q' => rw [hx] at h4; simp [callOf] at h4
/-- While another call is in progress nobody is inside destroy. -/
theorem Rel.not_dying (hr : Reach TP.step (TP.init n d) a tr) (rel : Rel p ttr α a) {t : Tid} {c : Call} {q : Pos} (ht : p.pc t = .on c q) (hc : c ≠ .destroy) :
    a.dying = none := by
  have S := (TP.Inv.reach hr).st
  have h1 := rel.call t
  rw [ht] at h1
  cases hd : a.dying with
  | none => rfl
  | some x =>
    exfalso
    by_cases e : t = x
    · subst e
      rcases destroyer hr t hd with h | h <;> rw [h] at h1 <;> simp [callOf] at h1
      exact hc h1.symm
    · have := S.al x hd t e
      rw [this] at h1; simp [callOf] at h1
/-- A thread is destroyed only inside destroy. -/
theorem Rel.dead (hr : Reach TP.step (TP.init n d) a tr) (rel : Rel p ttr α a) {i : Rid} (h : α i = .dead) : a.own i = .dead ∧ a.dying ≠ none := by
  have S := (TP.Inv.reach hr).st
  have hn : ¬ p.n ≤ i := by intro hn; rw [rel.bg i hn] at h; simp at h
  have hw : a.w i = .dead := by rw [rel.wk]; simp [vW, hn, h]
  have hown : a.own i = .dead := by
    have := S.rs i
    unfold RShape at this
    split at this <;> simp [hw, late, busyP, busyG] at this
    assumption
  refine ⟨hown, fun hd => S.dd hd i ?_ hown⟩
  have h1 : a.n = n := S.cn
  have h2 : a.n = p.n := rel.num
  have h1' : @Eq Nat a.n n := h1
  omega
theorem Rel.w_run (rel : Rel p ttr α a) {i : Rid} (h : p.w i ≠ .finished) : α i = .running ∧ a.w i = p.w i := by
  have h1 := (rel.rn i).2 h
  have hn : ¬ p.n ≤ i := by intro hn; rw [rel.bg i hn] at h1; simp at h1
  exact ⟨h1, by rw [rel.wk]; simp [vW, hn, h1]⟩

theorem tCall_destroy {t : Tid} {i : Rid} (h : tCall p t = some (i, .destroy)) : p.pc t = .on .destroy .dDrain ∧ ∃ r, p.free = i :: r := by
  unfold tCall at h
  split at h <;> (try simp only [Option.some.injEq, Prod.mk.injEq, reduceCtorEq, and_false] at h)
  · split at h <;> simp at h
  · rename_i h1
    refine ⟨h1, ?_⟩
    split at h
    · rename_i h2
      simp only [Option.some.injEq, Prod.mk.injEq, and_true] at h
      subst h
      exact ⟨_, h2⟩
    · simp at h

/-- While the runner of a destroyed thread is still in the queue the pool's own code does nothing. -/
theorem Rel.queue_same (hr : Reach TP.step (TP.init n d) a tr) (rel : Rel p ttr α a) {act : Act} {p' : St} {ev : List Ev}
    (hc : own p act = true) (hs : TP.step p act = some (p', ev)) :
    a.free = p.free ∧ (∀ i, i ∈ p.free → α i ≠ .dead) ∧ ∀ i t o, Thr.Spec.phase t (ttr i) ≠ .done .destroy o := by
  rcases rel.fr with h | ⟨t, i, h1, h2, h3, h4⟩
  · exact h
  · exfalso
    obtain ⟨c, h5, h6⟩ := rel.ph i t (by rw [h3]; simp)
    rw [h3] at h5
    simp only [calledBy, Option.some.injEq] at h5
    subst h5
    obtain ⟨h7, r, h8⟩ := tCall_destroy h6
    obtain ⟨h9, h10⟩ := rel.alone hr h7
    have hW : ∀ j, p.w j = .finished ∨ p.w j = .dead := by
      intro j
      by_cases hf : p.w j = .finished
      · exact Or.inl hf
      · right
        obtain ⟨h11, h12⟩ := rel.w_run hf
        have hn : ¬ p.n ≤ j := by intro hn; rw [rel.bg j hn] at h11; simp at h11
        have hpc : a.pc t = .on .destroy .dDrain := by rw [rel.pc, vPC_done h6 h3, h7]; rfl
        have := (TP.Inv.reach hr).st.cs t
        rw [hpc] at this
        have hx := this j (by rw [rel.num]; omega)
        rw [h12] at hx
        exact hx.resolve_left hf
    have hG : ∀ u, own p (.go u) = true → p.pc u = .idle := by
      intro u hu
      by_cases e : u = t
      · subst e; simp [own, h6] at hu
      · exact h10 u e
    cases act with
    | call u c =>
      simp only [TP.step, h9] at hs
      simp at hs
    | go u => simp [TP.step, hG u hc] at hs
    | expire u => simp [TP.step, hG u hc] at hs
    | pgo j => rcases hW j with h | h <;> simp [own, h] at hc
    | throw j => rcases hW j with h | h <;> simp [own, h] at hc

/-- A step of the pool's own code. -/
theorem sim_own {p' : St} {act : Act} {ev : List Ev} (hr : Reach TP.step (TP.init n d) a tr) (rel : Rel p ttr α a) (hc : own p act = true)
    (hs : TP.step p act = some (p', ev)) : ∃ a', TP.step a act = some (a', ev) ∧ Rel p' ttr α a' := by
  obtain ⟨c1, c2, c3, c4, c5, c6⟩ := moved hc hs
  obtain ⟨q1, q2, q3⟩ := rel.queue_same hr hc hs
  have S := (TP.Inv.reach hr).st
  have f1 : ∀ t, (∃ c, act = .call t c) ∨ act = .go t ∨ act = .expire t → tCall p t = none := by
    rintro t (⟨c, rfl⟩ | rfl | rfl) <;> simpa [own] using hc
  have f2 : ∀ i, act = .pgo i ∨ act = .throw i → p.w i ≠ .finished := by
    rintro i (rfl | rfl) h <;> simp [own, h] at hc
  have f3 : ∀ i, act = .pgo i ∨ act = .throw i → vW p α i = p.w i := by
    intro i hi; rw [← rel.wk]; exact (rel.w_run (f2 i hi)).2
  obtain ⟨a', h1, h2⟩ := step_frame hc hs a.own (vPC p ttr) (vW p α) (fun t ht => vPC_none (f1 t ht)) f3 (fun u => vPC_call)
  have e0 : mk p a.own p.free (vPC p ttr) (vW p α) = a := by rw [← q1]; exact rel.eq.symm
  rw [e0] at h1
  -- a call of a thread goes on
  have hk : ∀ t x, tCall p t = some x → tCall p' t = some x := by
    intro t x hx
    have e : p'.pc t = p.pc t := by
      apply Classical.byContradiction
      intro hne
      rw [f1 t (c1 t hne)] at hx; simp at hx
    unfold tCall at hx ⊢
    rw [e, c4]
    split at hx
    · exact hx
    · exact hx
    · exact hx
    · rename_i hd
      split at hx
      · rename_i i r hf
        rcases c6 i r hf with ⟨r', h⟩ | ⟨u, k, tm, g, pr, h3, h4⟩
        · rw [h]; exact hx
        · exfalso
          have hu := (rel.alone hr hd).2 u (by rintro rfl; rw [hd] at h4; simp at h4)
          rw [hu] at h4; simp at h4
      · simp at hx
    · simp at hx
  refine ⟨a', h1, ?_, rel.hi, ?_, ?_, ?_, ?_⟩
  · have e1 : vPC p' ttr = merge p.pc p'.pc (vPC p ttr) := by
      funext t
      unfold merge
      cases hx : tCall p t with
      | none =>
        have ho : ∀ i, Thr.Spec.phase t (ttr i) = .out := rel.out hx
        have : vPC p' ttr t = p'.pc t := vPC_out (by intro i c o; rw [ho]; simp)
        rw [this]
        split
        · rename_i e; rw [e, vPC_none hx]
        · rfl
      | some x =>
        have e : p'.pc t = p.pc t := by
          apply Classical.byContradiction
          intro hne
          rw [f1 t (c1 t hne)] at hx; simp at hx
        rw [if_pos e]
        unfold vPC
        rw [hk t x hx, hx, e]
    have e2 : vW p' α = merge p.w p'.w (vW p α) := by
      funext i
      unfold merge
      by_cases e : p'.w i = p.w i
      · rw [if_pos e]; unfold vW; rw [c4, e]
      · rw [if_neg e]
        have h3 := (rel.w_run (f2 i (c2 i e))).1
        have hn : ¬ p.n ≤ i := by intro hn; rw [rel.bg i hn] at h3; simp at h3
        unfold vW; rw [c4, if_neg hn, h3]
    rw [e1, e2, h2]; rfl
  · intro i t hu
    obtain ⟨c, h3, h4⟩ := rel.ph i t hu
    exact ⟨c, h3, hk _ _ h4⟩
  · intro i; rw [rel.rn i, ne_eq, ne_eq, c3]
  · intro i hi; rw [c4] at hi; exact rel.bg i hi
  · left
    refine ⟨by rw [h2]; rfl, ?_, q3⟩
    intro j hj
    rcases c5 j hj with h | ⟨rfl, x, hx⟩ | ⟨t, g, rfl, hx⟩
    · exact q2 j h
    · have := (rel.w_run (i := j) (by rw [hx]; simp)).1
      rw [this]; simp
    · intro hd
      have h3 := (rel.dead hr hd).2
      exact h3 (rel.not_dying hr hx (by simp))

/-! #### Events of a thread -/

def subj : Thr.Ev → Option Tid
  | .call t _ | .lin t _ _ | .ret t _ _ => some t
  | _ => none

theorem phase_upd {x : Thr.Ev} {t : Tid} {i : Rid} (h : subj x ≠ some t) (j : Rid) :
    Thr.Spec.phase t (upd ttr i (ttr i ++ [x]) j) = Thr.Spec.phase t (ttr j) := by
  by_cases e : j = i
  · subst e
    simp only [upd_same]
    rw [tphase_snoc]
    cases x <;> simp_all [Proto.Phase.next, Thr.Spec.view, Proto.Phase.pnext, subj]
  · rw [upd_ne _ _ e]

theorem Rel.lt (hr : Reach TP.step (TP.init n d) a tr) (rel : Rel p ttr α a) {t : Tid} {i : Rid} {c : Thr.Call} (h : tCall p t = some (i, c))
    (hpc : a.pc t = p.pc t) : i < p.n := by
  have S := (TP.Inv.reach hr).st
  apply Classical.byContradiction
  intro hn
  have hn' : p.n ≤ i := Nat.le_of_not_lt hn
  have hod : a.own i = .dead := S.od i (by have h1 : @Eq Nat a.n n := S.cn; have h2 : @Eq Nat a.n p.n := rel.num; omega)
  have hcs := S.cs t
  rw [hpc] at hcs
  unfold tCall at h
  split at h
  · rename_i h1
    simp only [Option.some.injEq, Prod.mk.injEq] at h
    obtain ⟨rfl, _⟩ := h
    rw [h1] at hcs
    rw [hcs.2] at hod; simp at hod
  · rename_i h1
    simp only [Option.some.injEq, Prod.mk.injEq] at h
    obtain ⟨rfl, _⟩ := h
    rw [h1] at hcs
    rw [hcs.2.1] at hod; simp at hod
  · split at h
    · rename_i h1 h2
      simp only [Option.some.injEq, Prod.mk.injEq] at h
      obtain ⟨rfl, _⟩ := h
      exact hn h2
    · simp at h
  · split at h
    · rename_i h1
      simp only [Option.some.injEq, Prod.mk.injEq] at h
      obtain ⟨h, _⟩ := h
      rw [h] at h1
      rcases rel.fr with ⟨h3, _⟩ | ⟨t', i', h3, h4, _⟩
      · have := (S.fo i).1 (by rw [h3, h1]; simp)
        rw [this] at hod; simp at hod
      · rw [h1] at h3
        simp only [List.cons.injEq] at h3
        rw [← h3.1, rel.bg _ hn'] at h4; simp at h4
    · simp at h
  · simp at h

/-- The new history of thread `i`. -/
theorem hi_upd (rel : Rel p ttr α a) {i : Rid} {x : Thr.Ev} {q : Thr.Spec.A} (hl : Thr.Spec.Linearizable (ttr i ++ [x]) q) (j : Rid) :
    Thr.Spec.Linearizable (upd ttr i (ttr i ++ [x]) j) (upd α i q j) := by
  by_cases e : j = i
  · subst e; simpa only [upd_same] using hl
  · rw [upd_ne _ _ e, upd_ne _ _ e]; exact rel.hi j

theorem upd_eq {β : Type} {f : Nat → β} {i : Nat} {x : β} (h : x = f i) : upd f i x = f := by
  funext j; by_cases e : j = i
  · subst e; simp [upd, h]
  · simp [upd, e]

theorem sim_call {p' : St} {i : Rid} {t : Tid} {c : Thr.Call} {q : Thr.Spec.A} {ev : List Ev} (rel : Rel p ttr α a)
    (hl : Thr.Spec.Linearizable (ttr i ++ [.call t c]) q) (he : onEv i p (.call t c) = some (p', ev)) :
    ev = [] ∧ Rel p' (upd ttr i (ttr i ++ [.call t c])) (upd α i q) a := by
  simp only [onEv] at he
  split at he <;> simp only [Option.some.injEq, Prod.mk.injEq, reduceCtorEq] at he
  rename_i hc
  obtain ⟨rfl, rfl⟩ := he
  obtain ⟨q0, hq0, _, hq⟩ := lin_prefix hl
  have hq' : q = α i := by rw [hq rfl]; exact hist_det hq0.1 (rel.hi i).1
  have hbad := hl.2 t
  rw [tphase_snoc] at hbad
  simp only [Proto.Phase.next, Thr.Spec.view, Proto.Phase.pnext, if_true] at hbad
  have hout : Thr.Spec.phase t (ttr i) = .out := by
    apply Classical.byContradiction
    intro h; simp only [h, if_false] at hbad; exact hbad rfl
  have hnew : Thr.Spec.phase t (ttr i ++ [.call t c]) = .called c := by
    rw [tphase_snoc, hout]; simp [Proto.Phase.next, Thr.Spec.view, Proto.Phase.pnext]
  have hph : ∀ j u, Thr.Spec.phase u (upd ttr i (ttr i ++ [.call t c]) j) = if u = t ∧ j = i then .called c else Thr.Spec.phase u (ttr j) := by
    intro j u
    by_cases e : u = t
    · subst e
      by_cases ej : j = i
      · subst ej; simp only [upd_same, and_self, if_true]; exact hnew
      · rw [upd_ne _ _ ej]; simp [ej]
    · rw [phase_upd (by simpa [subj] using fun h => e h.symm)]; simp [e]
  refine ⟨rfl, ?_, hi_upd rel hl, ?_, ?_, ?_, ?_⟩
  · have e1 : vPC p (upd ttr i (ttr i ++ [.call t c])) = vPC p ttr := by
      funext u
      unfold vPC
      cases hx : tCall p u with
      | none => rfl
      | some y =>
        obtain ⟨j, c'⟩ := y
        simp only [hph]
        by_cases e : u = t ∧ j = i
        · obtain ⟨rfl, rfl⟩ := e
          rw [if_pos ⟨rfl, rfl⟩, hout]
        · rw [if_neg e]
    rw [upd_eq hq', e1]; exact rel.eq
  · intro j u hu
    rw [hph] at hu ⊢
    by_cases e : u = t ∧ j = i
    · obtain ⟨rfl, rfl⟩ := e
      rw [if_pos ⟨rfl, rfl⟩]; exact ⟨c, rfl, hc⟩
    · rw [if_neg e] at hu ⊢; exact rel.ph j u hu
  · rw [upd_eq hq']; exact rel.rn
  · rw [upd_eq hq']; exact rel.bg
  · rw [upd_eq hq']
    rcases rel.fr with ⟨h1, h2, h3⟩ | ⟨u, j, h1, h2, h3, h4⟩
    · left
      refine ⟨h1, h2, fun j u o => ?_⟩
      rw [hph]; split
      · simp
      · exact h3 j u o
    · right
      refine ⟨u, j, h1, h2, ?_, h4⟩
      rw [hph, if_neg]
      · exact h3
      · rintro ⟨rfl, rfl⟩; rw [hout] at h3; simp at h3

theorem sim_run {p' : St} {i : Rid} {x : Thr.Ev} {q : Thr.Spec.A} {ev : List Ev} (hx : x = .runBegin ∨ x = .runEnd ∨ x = .fin) (rel : Rel p ttr α a)
    (hl : Thr.Spec.Linearizable (ttr i ++ [x]) q) (he : onEv i p x = some (p', ev)) :
    ∃ a', ((ev = [] ∧ a' = a) ∨ ∃ act, TP.step a act = some (a', ev)) ∧ Rel p' (upd ttr i (ttr i ++ [x])) (upd α i q) a' := by
  obtain ⟨q0, hq0, hq, _⟩ := lin_prefix hl
  have hq' : q0 = α i := hist_det hq0.1 (rel.hi i).1
  subst hq'
  have hph : ∀ j u, Thr.Spec.phase u (upd ttr i (ttr i ++ [x]) j) = Thr.Spec.phase u (ttr j) :=
    fun j u => phase_upd (by rcases hx with rfl | rfl | rfl <;> simp [subj]) j
  have hvp : ∀ p1 : St, p1.pc = p.pc → p1.free = p.free → p1.n = p.n → vPC p1 (upd ttr i (ttr i ++ [x])) = vPC p ttr := by
    intro p1 e1 e2 e3; funext u; unfold vPC tCall; rw [e1, e2, e3]; simp only [hph]
  have htc : ∀ p1 : St, p1.pc = p.pc → p1.free = p.free → p1.n = p.n → ∀ u, tCall p1 u = tCall p u := by
    intro p1 e1 e2 e3 u; unfold tCall; rw [e1, e2, e3]
  -- a step that touches only thread `i`
  have key : ∀ (p1 a' : St), p1.pc = p.pc → p1.free = p.free → p1.n = p.n → α i ≠ .dead → q ≠ .dead → (p.n ≤ i → q = .finished) →
      (∀ j, j ≠ i → p1.w j = p.w j) → (q = .running ↔ p1.w i ≠ .finished) → a'.free = a.free →
      a' = mk p1 a'.own a'.free (vPC p ttr) (vW p1 (upd α i q)) → Rel p1 (upd ttr i (ttr i ++ [x])) (upd α i q) a' := by
    intro p1 a' e1 e2 e3 hnd hqd hbg hwj hrn hfr heq
    refine ⟨by rw [hvp p1 e1 e2 e3]; exact heq, hi_upd rel hl, ?_, ?_, ?_, ?_⟩
    · intro j u hu
      rw [hph] at hu ⊢
      rw [htc p1 e1 e2 e3]; exact rel.ph j u hu
    · intro j
      by_cases e : j = i
      · subst e; rw [upd_same]; exact hrn
      · rw [upd_ne _ _ e, hwj j e]; exact rel.rn j
    · intro j hj
      rw [e3] at hj
      by_cases e : j = i
      · subst e; rw [upd_same]; exact hbg hj
      · rw [upd_ne _ _ e]; exact rel.bg j hj
    · have hne : ∀ j, α j ≠ .dead → upd α i q j ≠ .dead := by
        intro j hj
        by_cases e : j = i
        · subst e; rw [upd_same]; exact hqd
        · rw [upd_ne _ _ e]; exact hj
      rcases rel.fr with ⟨h1, h2, h3⟩ | ⟨u, j, h1, h2, h3, h4⟩
      · left
        refine ⟨by rw [hfr, e2]; exact h1, fun j hj => hne j (h2 j (by rw [← e2]; exact hj)), fun j u o => by rw [hph]; exact h3 j u o⟩
      · right
        have hji : j ≠ i := by rintro rfl; exact hnd h2
        refine ⟨u, j, by rw [hfr, e2]; exact h1, by rw [upd_ne _ _ hji]; exact h2, by rw [hph]; exact h3, fun k hk => hne k (h4 k (by rw [← hfr]; exact hk))⟩
  rcases hx with rfl | rfl | rfl
  · simp only [onEv, Option.some.injEq, Prod.mk.injEq] at he
    obtain ⟨rfl, rfl⟩ := he
    have hle := hq _ rfl
    generalize hα : α i = z at hle
    cases hle
    have hn : ¬ p.n ≤ i := by intro hn; rw [rel.bg i hn] at hα; simp at hα
    refine ⟨a, Or.inl ⟨rfl, rfl⟩, key _ a rfl rfl rfl (by rw [hα]; simp) (by simp) (fun h => absurd h hn) ?_ (by simp [St.wAt, upd]) rfl ?_⟩
    · intro j hj; simp [St.wAt, upd, hj]
    · have e : vW (p.wAt i .pending) (upd α i .running) = vW p α := by
        funext j
        unfold vW
        by_cases e : j = i
        · subst e; simp [St.wAt, upd, hα]
        · simp [St.wAt, upd, e]
      rw [e]; exact rel.eq
  · simp only [onEv] at he
    split at he <;> simp only [Option.some.injEq, Prod.mk.injEq, reduceCtorEq] at he
    rename_i hov
    obtain ⟨rfl, rfl⟩ := he
    have hle := hq _ rfl
    generalize hα : α i = z at hle
    cases hle
    have hn : ¬ p.n ≤ i := by intro hn; rw [rel.bg i hn] at hα; simp at hα
    refine ⟨a, Or.inl ⟨rfl, rfl⟩, key _ a rfl rfl rfl (by rw [hα]; simp) (by simp) (fun h => absurd h hn) ?_ (by simp [St.wAt, upd]) rfl ?_⟩
    · intro j hj; simp [St.wAt, upd, hj]
    · have e : vW (p.wAt i .finished) (upd α i .over) = vW p α := by
        funext j
        unfold vW
        by_cases e : j = i
        · subst e; simp [St.wAt, upd, hα, hov]
        · simp [St.wAt, upd, e]
      rw [e]; exact rel.eq
  · simp only [onEv, Option.some.injEq, Prod.mk.injEq] at he
    obtain ⟨rfl, rfl⟩ := he
    have hle := hq _ rfl
    generalize hα : α i = z at hle
    cases hle
    have hn : ¬ p.n ≤ i := by intro hn; rw [rel.bg i hn] at hα; simp at hα
    have hw : a.w i = .over := by rw [rel.wk]; simp [vW, hn, hα]
    have hp : p.w i = .finished := by
      apply Classical.byContradiction
      intro h; have := (rel.rn i).2 h; rw [hα] at this; simp at this
    refine ⟨a.wAt i .finished, Or.inr ⟨.pgo i, by simp [TP.step, hw]⟩, key _ _ rfl rfl rfl (by rw [hα]; simp) (by simp) (fun h => absurd h hn) (fun _ _ => rfl) (by simp [hp]) rfl ?_⟩
    have e : vW p (upd α i .finished) = upd (vW p α) i .finished := by
      apply upd_view
      · simp [vW, upd, hn]
      · intro j hj; simp [vW, upd, hj]
    rw [e]
    conv => lhs; rw [rel.eq]
    rfl

theorem sim_lin {p' : St} {i : Rid} {t : Tid} {c : Thr.Call} {o : Thr.Out} {q : Thr.Spec.A} {ev : List Ev} (hr : Reach TP.step (TP.init n d) a tr)
    (rel : Rel p ttr α a) (hl : Thr.Spec.Linearizable (ttr i ++ [.lin t c o]) q) (he : onEv i p (.lin t c o) = some (p', ev)) :
    ∃ a', (∃ act, TP.step a act = some (a', ev)) ∧ Rel p' (upd ttr i (ttr i ++ [.lin t c o])) (upd α i q) a' := by
  simp only [onEv, Option.some.injEq, Prod.mk.injEq] at he
  obtain ⟨rfl, rfl⟩ := he
  obtain ⟨q0, hq0, hq, _⟩ := lin_prefix hl
  have hq' : q0 = α i := hist_det hq0.1 (rel.hi i).1
  subst hq'
  have hle := hq _ rfl
  have hbad := hl.2 t
  rw [tphase_snoc] at hbad
  simp only [Proto.Phase.next, Thr.Spec.view, Proto.Phase.pnext, if_true] at hbad
  have hout : Thr.Spec.phase t (ttr i) = .called c := by
    apply Classical.byContradiction
    intro h; simp only [h, if_false] at hbad; exact hbad rfl
  have hnew : Thr.Spec.phase t (ttr i ++ [.lin t c o]) = .done c o := by
    rw [tphase_snoc, hout]; simp [Proto.Phase.next, Thr.Spec.view, Proto.Phase.pnext]
  have hph : ∀ j u, Thr.Spec.phase u (upd ttr i (ttr i ++ [.lin t c o]) j) = if u = t ∧ j = i then .done c o else Thr.Spec.phase u (ttr j) := by
    intro j u
    by_cases e : u = t
    · subst e
      by_cases ej : j = i
      · subst ej; simp only [upd_same, and_self, if_true]; exact hnew
      · rw [upd_ne _ _ ej]; simp [ej]
    · rw [phase_upd (by simpa [subj] using fun h => e h.symm)]; simp [e]
  obtain ⟨c', hc', htc⟩ := rel.ph i t (by rw [hout]; simp)
  rw [hout] at hc'
  simp only [calledBy, Option.some.injEq] at hc'
  subst hc'
  have hapc : a.pc t = p.pc t := by
    rw [rel.pc]
    apply vPC_out
    intro j c' o'
    by_cases e : j = i
    · subst e; rw [hout]; simp
    · rw [rel.other htc e]; simp
  have hlt : i < p.n := rel.lt hr htc hapc
  have hn : ¬ p.n ≤ i := Nat.not_le.2 hlt
  have e1 : vPC p (upd ttr i (ttr i ++ [.lin t c o])) = upd (vPC p ttr) t (afterPC (p.pc t) o) := by
    apply upd_view
    · exact vPC_done htc (by simp only [upd_same]; exact hnew)
    · intro u hu
      unfold vPC
      cases hx : tCall p u with
      | none => rfl
      | some y =>
        obtain ⟨j, c'⟩ := y
        simp only [hph]
        rw [if_neg (by rintro ⟨rfl, _⟩; exact hu rfl)]
  have key : ∀ a' : St, a' = mk p a'.own a'.free (upd (vPC p ttr) t (afterPC (p.pc t) o)) (vW p (upd α i q)) →
      Queue p (upd ttr i (ttr i ++ [.lin t c o])) (upd α i q) a' → Rel p (upd ttr i (ttr i ++ [.lin t c o])) (upd α i q) a' := by
    intro a' h1 h2
    refine ⟨by rw [e1]; exact h1, hi_upd rel hl, ?_, ?_, ?_, h2⟩
    · intro j u hu
      rw [hph] at hu ⊢
      by_cases e : u = t ∧ j = i
      · obtain ⟨rfl, rfl⟩ := e
        rw [if_pos ⟨rfl, rfl⟩]; exact ⟨c, rfl, htc⟩
      · rw [if_neg e] at hu ⊢; exact rel.ph j u hu
    · intro j
      by_cases e : j = i
      · subst e
        rw [upd_same, ← rel.rn j]
        generalize hα : α j = z at hle
        cases hle <;> simp
      · rw [upd_ne _ _ e]; exact rel.rn j
    · intro j hj
      have : j ≠ i := by rintro rfl; exact hn hj
      rw [upd_ne _ _ this]; exact rel.bg j hj
  have hnd : α i ≠ .dead := by
    generalize α i = z at hle ⊢
    clear key e1
    cases hle <;> first | (simp; done) | assumption
  have queue : ∀ a' : St, c ≠ .destroy → q ≠ .dead → a'.free = a.free → Queue p (upd ttr i (ttr i ++ [.lin t c o])) (upd α i q) a' := by
    intro a' hcd hqd hfr
    have hne : ∀ j, α j ≠ .dead → upd α i q j ≠ .dead := by
      intro j hj
      by_cases e : j = i
      · subst e; rw [upd_same]; exact hqd
      · rw [upd_ne _ _ e]; exact hj
    rcases rel.fr with ⟨h1, h2, h3⟩ | ⟨u, j, h1, h2, h3, h4⟩
    · left
      refine ⟨hfr.trans h1, fun j hj => hne j (h2 j hj), fun j u o' => ?_⟩
      rw [hph]; split
      · simp [hcd]
      · exact h3 j u o'
    · right
      have hji : j ≠ i := by rintro rfl; exact hnd h2
      refine ⟨u, j, by rw [hfr]; exact h1, by rw [upd_ne _ _ hji]; exact h2, ?_, fun k hk => hne k (h4 k (by rw [← hfr]; exact hk))⟩
      rw [hph, if_neg (fun h => hji h.2)]; exact h3
  have haw : vW p α = a.w := by rw [rel.eq]; rfl
  have hap : vPC p ttr = a.pc := by rw [rel.eq]; rfl
  have hak : ∀ ow fr pc w, mk p ow fr pc w = { a with own := ow, free := fr, pc := pc, w := w } := by
    intro ow fr pc w; rw [rel.eq]; rfl
  have hwi : a.w i = vW p α i := rel.wk i
  have hsame : q = α i → vW p (upd α i q) = a.w := by
    intro h; rw [upd_eq h, haw]
  have hnf : α i ≠ .finished → a.w i ≠ .finished := by
    intro h
    rw [hwi]; unfold vW; rw [if_neg hn]
    cases hz : α i with
    | finished => exact absurd hz h
    | running => exact (rel.rn i).1 hz
    | _ => simp
  have hfi : α i = .finished → a.w i = .finished := by
    intro h; rw [hwi]; unfold vW; rw [if_neg hn, h]
  have htc0 := htc
  unfold tCall at htc
  split at htc
  · -- timedWait of a start
    rename_i k tm g pr j h1
    simp only [Option.some.injEq, Prod.mk.injEq] at htc
    obtain ⟨rfl, rfl⟩ := htc
    rw [h1] at hapc key
    generalize hα : α j = z at hle
    cases hle with
    | ok h =>
      refine ⟨a.at t (.start (some k) tm g pr) (.sSet j), ⟨.go t, by simp [TP.step, hapc, hfi hα, marks, h1]⟩, ?_⟩
      refine key _ ?_ (queue _ (by simp) (by simp) rfl)
      rw [hsame hα.symm, hap, hak]; rfl
    | timedOut h2 h3 h4 h5 =>
      simp only [Thr.Spec.tmo, Option.some.injEq] at h2
      subst h2
      refine ⟨_, ⟨.expire t, by simp [TP.step, hapc, h3, hnf (by rw [hα]; exact h4), marks, h1]; rfl⟩, ?_⟩
      refine key _ ?_ (queue _ (by simp) h5 rfl)
      rw [hsame hα.symm, hap, hak]; rfl
  · -- start
    rename_i k tm g pr j h1
    simp only [Option.some.injEq, Prod.mk.injEq] at htc
    obtain ⟨rfl, rfl⟩ := htc
    rw [h1] at hapc key
    generalize hα : α j = z at hle
    cases hle with
    | started =>
      refine ⟨_, ⟨.go t, by simp [TP.step, hapc, hfi hα, marks, h1]; rfl⟩, ?_⟩
      refine key _ ?_ (queue _ (by simp) (by simp) rfl)
      have e : vW p (upd α j .pending) = upd (vW p α) j .pending := by
        apply upd_view
        · simp [vW, upd, hn]
        · intro j' hj; simp [vW, upd, hj]
      rw [e, haw, hap, hak]; rfl
    | ignored h2 h3 =>
      refine ⟨_, ⟨.go t, by simp [TP.step, hapc, hnf (by rw [hα]; exact h2), marks, h1]; rfl⟩, ?_⟩
      refine key _ ?_ (queue _ (by simp) h3 rfl)
      rw [hsame hα.symm, hap, hak]; rfl
    | ok h => simp [Thr.Spec.tmo] at h
    | timedOut h => simp [Thr.Spec.tmo] at h
  · -- wait of destroy
    rename_i j h1
    split at htc <;> simp only [Option.some.injEq, Prod.mk.injEq, reduceCtorEq] at htc
    obtain ⟨rfl, rfl⟩ := htc
    rw [h1] at hapc key
    generalize hα : α j = z at hle
    cases hle with
    | ok h =>
      refine ⟨_, ⟨.go t, by simp [TP.step, hapc, hfi hα, marks, h1, rel.num, hlt]; rfl⟩, ?_⟩
      refine key _ ?_ (queue _ (by simp) (by simp) rfl)
      rw [hsame hα.symm, hap, hak]; rfl
    | timedOut h2 h3 h4 h5 =>
      simp only [Thr.Spec.tmo, Option.some.injEq] at h2
      exact absurd h2.symm h3
  · -- Thread::destroy
    rename_i h1
    split at htc <;> simp only [Option.some.injEq, Prod.mk.injEq, reduceCtorEq] at htc
    rename_i j r h2
    obtain ⟨rfl, rfl⟩ := htc
    rw [h1] at hapc key
    obtain ⟨f1, f2, f3⟩ : a.free = p.free ∧ (∀ i, i ∈ p.free → α i ≠ .dead) ∧ ∀ i t o, Thr.Spec.phase t (ttr i) ≠ .done .destroy o := by
      rcases rel.fr with h | ⟨u, k, h3, h4, h5, h6⟩
      · exact h
      · rw [h2] at h3
        simp only [List.cons.injEq] at h3
        rw [← h3.1] at h4
        exact absurd h4 hnd
    generalize hα : α j = z at hle
    cases hle with
    | destroyed =>
      refine ⟨_, ⟨.go t, by simp [TP.step, hapc, f1, h2, hfi hα, marks, h1]; rfl⟩, ?_⟩
      refine key _ ?_ ?_
      · have e : vW p (upd α j .dead) = upd (vW p α) j .dead := by
          apply upd_view
          · simp [vW, upd]
          · intro j' hj; simp [vW, upd, hj]
        have e2 : upd (vPC p ttr) t (afterPC (.on .destroy .dDrain) .destroyed) = a.pc := by
          rw [hap]; exact upd_eq (by rw [hapc]; rfl)
        rw [e, e2, haw, hak]; rfl
      · right
        refine ⟨t, j, h2, by rw [upd_same], by rw [hph, if_pos ⟨rfl, rfl⟩], ?_⟩
        intro k hk
        have hnd := (TP.Inv.reach hr).st.fr
        rw [f1, h2] at hnd
        have hkj : k ≠ j := by
          rintro rfl
          exact (List.nodup_cons.1 hnd).1 hk
        rw [upd_ne _ _ hkj]
        exact f2 k (by rw [h2]; exact List.mem_cons_of_mem _ hk)
    | ok h => simp [Thr.Spec.tmo] at h
    | timedOut h => simp [Thr.Spec.tmo] at h
  · simp at htc

theorem sim_ret {p' : St} {i : Rid} {t : Tid} {c : Thr.Call} {o : Thr.Out} {q : Thr.Spec.A} {ev : List Ev} (hr : Reach TP.step (TP.init n d) a tr)
    (rel : Rel p ttr α a) (hl : Thr.Spec.Linearizable (ttr i ++ [.ret t c o]) q) (he : onEv i p (.ret t c o) = some (p', ev)) :
    ev = [] ∧ Rel p' (upd ttr i (ttr i ++ [.ret t c o])) (upd α i q) a := by
  simp only [onEv, Option.some.injEq, Prod.mk.injEq] at he
  obtain ⟨rfl, rfl⟩ := he
  obtain ⟨q0, hq0, _, hq⟩ := lin_prefix hl
  have hq' : q = α i := by rw [hq rfl]; exact hist_det hq0.1 (rel.hi i).1
  have hbad := hl.2 t
  rw [tphase_snoc] at hbad
  simp only [Proto.Phase.next, Thr.Spec.view, Proto.Phase.pnext, if_true] at hbad
  have hout : Thr.Spec.phase t (ttr i) = .done c o := by
    apply Classical.byContradiction
    intro h; simp only [h, if_false] at hbad; exact hbad rfl
  have hnew : Thr.Spec.phase t (ttr i ++ [.ret t c o]) = .out := by
    rw [tphase_snoc, hout]; simp [Proto.Phase.next, Thr.Spec.view, Proto.Phase.pnext]
  have hph : ∀ j u, Thr.Spec.phase u (upd ttr i (ttr i ++ [.ret t c o]) j) = if u = t ∧ j = i then .out else Thr.Spec.phase u (ttr j) := by
    intro j u
    by_cases e : u = t
    · subst e
      by_cases ej : j = i
      · subst ej; simp only [upd_same, and_self, if_true]; exact hnew
      · rw [upd_ne _ _ ej]; simp [ej]
    · rw [phase_upd (by simpa [subj] using fun h => e h.symm)]; simp [e]
  obtain ⟨c', hc', htc⟩ := rel.ph i t (by rw [hout]; simp)
  rw [hout] at hc'
  simp only [calledBy, Option.some.injEq] at hc'
  subst hc'
  have hto : ∀ j, Thr.Spec.phase t (upd ttr i (ttr i ++ [.ret t c o]) j) = .out := by
    intro j
    rw [hph]; split
    · rfl
    · rename_i h; exact rel.other htc (fun e => h ⟨rfl, e⟩)
  have hother : ∀ u, u ≠ t → tCall (resume p t o) u = tCall p u := by
    intro u hu
    have e : (resume p t o).pc u = p.pc u := by simp [resume, upd, hu]
    unfold tCall
    rw [e]
    by_cases hd : p.pc t = .on .destroy .dDrain
    · have := (rel.alone hr hd).2 u hu
      rw [this]
    · have : (resume p t o).free = p.free := by simp [resume, hd]
      rw [this]; rfl
  rw [upd_eq hq']
  refine ⟨rfl, ?_, fun j => ?_, ?_, rel.rn, rel.bg, ?_⟩
  · have e1 : vPC (resume p t o) (upd ttr i (ttr i ++ [.ret t c o])) = vPC p ttr := by
      funext u
      by_cases e : u = t
      · subst e
        rw [vPC_out (by intro j c o; rw [hto]; simp), vPC_done htc hout]
        simp [resume, upd]
      · unfold vPC
        rw [hother u e]
        have : (resume p t o).pc u = p.pc u := by simp [resume, upd, e]
        rw [this]
        cases hx : tCall p u with
        | none => rfl
        | some y => obtain ⟨j, c'⟩ := y; simp only [hph]; rw [if_neg (fun h => e h.1)]
    have e2 : vW (resume p t o) α = vW p α := rfl
    rw [e1, e2]
    conv => lhs; rw [rel.eq]
    rfl
  · have := hi_upd rel hl j
    rw [upd_eq hq'] at this; exact this
  · intro j u hu
    by_cases e : u = t
    · subst e; exact absurd (hto j) hu
    · rw [hother u e]
      rw [hph, if_neg (fun h => e h.1)] at hu ⊢
      exact rel.ph j u hu
  · rcases rel.fr with ⟨h1, h2, h3⟩ | ⟨u, j, h1, h2, h3, h4⟩
    · have hd : p.pc t ≠ .on .destroy .dDrain := by
        intro hd
        unfold tCall at htc
        rw [hd] at htc
        simp only at htc
        split at htc <;> simp only [Option.some.injEq, Prod.mk.injEq, reduceCtorEq] at htc
        rw [← htc.2] at hout
        exact h3 i t o hout
      left
      have : (resume p t o).free = p.free := by simp [resume, hd]
      refine ⟨h1.trans this.symm, fun k hk => h2 k (by rw [← this]; exact hk), fun k u o' => ?_⟩
      rw [hph]; split
      · simp
      · exact h3 k u o'
    · obtain ⟨c2, hc2, htc2⟩ := rel.ph j u (by rw [h3]; simp)
      rw [h3] at hc2
      simp only [calledBy, Option.some.injEq] at hc2
      subst hc2
      obtain ⟨h5, r, h6⟩ := tCall_destroy htc2
      have hut : t = u := by
        apply Classical.byContradiction
        intro hne
        have := (rel.alone hr h5).2 t hne
        unfold tCall at htc
        rw [this] at htc; simp at htc
      subst hut
      left
      have : (resume p t o).free = a.free := by simp [resume, h5, h1]
      refine ⟨this.symm, fun k hk => h4 k (by rw [← this]; exact hk), fun k v o' => ?_⟩
      by_cases e : v = t
      · subst e; rw [hto]; simp
      · rw [hph, if_neg (fun h => e h.1)]
        intro hv
        obtain ⟨c3, _, h7⟩ := rel.ph k v (by rw [hv]; simp)
        unfold tCall at h7
        rw [(rel.alone hr h5).2 v e] at h7; simp at h7

theorem sim_t {p' : St} {i : Rid} {x : Thr.Ev} {q : Thr.Spec.A} {ev : List Ev} (hr : Reach TP.step (TP.init n d) a tr)
    (rel : Rel p ttr α a) (hl : Thr.Spec.Linearizable (ttr i ++ [x]) q) (he : onEv i p x = some (p', ev)) :
    ∃ a', Reach TP.step (TP.init n d) a' (tr ++ ev) ∧ Rel p' (upd ttr i (ttr i ++ [x])) (upd α i q) a' := by
  cases x with
  | call t c => obtain ⟨rfl, h⟩ := sim_call rel hl he; exact ⟨a, by simpa using hr, h⟩
  | ret t c o => obtain ⟨rfl, h⟩ := sim_ret hr rel hl he; exact ⟨a, by simpa using hr, h⟩
  | lin t c o => obtain ⟨a', ⟨act, h1⟩, h⟩ := sim_lin hr rel hl he; exact ⟨a', Reach.step hr h1, h⟩
  | runBegin =>
    obtain ⟨a', ⟨rfl, rfl⟩ | ⟨act, h1⟩, h⟩ := sim_run (by simp) rel hl he
    · exact ⟨_, by simpa using hr, h⟩
    · exact ⟨a', Reach.step hr h1, h⟩
  | runEnd =>
    obtain ⟨a', ⟨rfl, rfl⟩ | ⟨act, h1⟩, h⟩ := sim_run (by simp) rel hl he
    · exact ⟨_, by simpa using hr, h⟩
    · exact ⟨a', Reach.step hr h1, h⟩
  | fin =>
    obtain ⟨a', ⟨rfl, rfl⟩ | ⟨act, h1⟩, h⟩ := sim_run (by simp) rel hl he
    · exact ⟨_, by simpa using hr, h⟩
    · exact ⟨a', Reach.step hr h1, h⟩
end

theorem sim_ts {n : Nat} {d : Int} {i : Rid} : ∀ {xs : List Thr.Ev} {p p' a : St} {ttr : Rid → List Thr.Ev} {α : Rid → Thr.Spec.A} {q : Thr.Spec.A} {tr ev : List Ev}
    (_ : Reach TP.step (TP.init n d) a tr) (_ : Rel p ttr α a) (_ : Thr.Spec.Linearizable (ttr i ++ xs) q) (_ : onEvs i p xs = some (p', ev)),
    ∃ a' α', Reach TP.step (TP.init n d) a' (tr ++ ev) ∧ Rel p' (upd ttr i (ttr i ++ xs)) α' a'
  | [], p, p', a, ttr, α, q, tr, ev, hr, rel, _, he => by
    simp only [onEvs, Option.some.injEq, Prod.mk.injEq] at he
    obtain ⟨rfl, rfl⟩ := he
    have e : upd ttr i (ttr i ++ []) = ttr := by funext j; unfold upd; split <;> simp_all
    exact ⟨a, α, by simpa using hr, by rw [e]; exact rel⟩
  | x :: xs, p, p', a, ttr, α, q, tr, ev, hr, rel, hl, he => by
    simp only [onEvs] at he
    split at he
    · simp at he
    · rename_i p1 e1 h1
      split at he
      · simp at he
      · rename_i p2 e2 h2
        simp only [Option.some.injEq, Prod.mk.injEq] at he
        obtain ⟨rfl, rfl⟩ := he
        have hl' : Thr.Spec.Linearizable ((ttr i ++ [x]) ++ xs) q := by simpa using hl
        obtain ⟨q0, hl0⟩ := lin_prefixes hl'
        obtain ⟨a1, ha1, rel1⟩ := sim_t hr rel hl0 h1
        have hl2 : Thr.Spec.Linearizable (upd ttr i (ttr i ++ [x]) i ++ xs) q := by simpa using hl
        obtain ⟨a2, α2, ha2, rel2⟩ := sim_ts ha1 rel1 hl2 h2
        have e : upd (upd ttr i (ttr i ++ [x])) i (upd ttr i (ttr i ++ [x]) i ++ xs) = upd ttr i (ttr i ++ x :: xs) := by
          funext j; unfold upd; split <;> simp
        rw [e] at rel2
        exact ⟨a2, α2, by rw [← List.append_assoc]; exact ha2, rel2⟩

/-- Every execution of the pool on linearizable thread programs is, event for event, an execution of the pool on atomic threads. -/
theorem simulation {F A : Type} {n : Nat} {d : Int} {T : F → A → Option (F × List Thr.Ev)} {f0 : F}
    (hT : ∀ f ftr, Reach T f0 f ftr → ∃ q, Thr.Spec.Linearizable ftr q)
    {s : CSt F} {tr : List Ev} (h : Reach (step T) (init n d f0) s tr) :
    ∃ a ttr α, (∀ i, Reach T f0 (s.f i) (ttr i)) ∧ Reach TP.step (TP.init n d) a tr ∧ Rel s.p ttr α a := by
  refine Lts.Reach.inv (I := fun s tr => ∃ a ttr α, (∀ i, Reach T f0 (s.f i) (ttr i)) ∧ Reach TP.step (TP.init n d) a tr ∧ Rel s.p ttr α a) ?_ ?_ h
  · refine ⟨TP.init n d, fun _ => [], fun _ => .finished, fun _ => Reach.init, Reach.init, ?_, ?_, ?_, ?_, ?_, ?_⟩
    · have e : vW (init n d f0).p (fun _ => .finished) = (TP.init n d).w := by
        funext i; simp only [vW, init, TP.init]
        by_cases h : i < n
        · simp [h, Nat.not_le.2 h]
        · simp [h, Nat.le_of_not_lt h]
      rw [e]; rfl
    · intro i; exact ⟨.nil, fun t => by simp [Thr.Spec.phase, Proto.phase]⟩
    · intro i t h; exact absurd rfl h
    · intro i; simp [init]
    · intro i _; rfl
    · left; exact ⟨rfl, fun _ _ => by simp, fun _ _ _ => by simp [Thr.Spec.phase, Proto.phase]⟩
  · rintro s tr act s' ev ⟨a, ttr, α, hf, hr, rel⟩ hs
    cases act with
    | tp act =>
      simp only [step] at hs
      split at hs
      · rename_i hc
        split at hs
        · rename_i p' ev' hm
          simp only [Option.some.injEq, Prod.mk.injEq] at hs
          obtain ⟨rfl, rfl⟩ := hs
          obtain ⟨a', h1, h2⟩ := sim_own hr rel hc hm
          exact ⟨a', ttr, α, hf, Reach.step hr h1, h2⟩
        · simp at hs
      · simp at hs
    | thr i act =>
      simp only [step] at hs
      split at hs
      case isFalse => simp at hs
      rename_i hlt
      split at hs
      · simp at hs
      · rename_i f' evs hT'
        split at hs
        · simp at hs
        · rename_i p' ev' hm
          simp only [Option.some.injEq, Prod.mk.injEq] at hs
          obtain ⟨rfl, rfl⟩ := hs
          have hf' := Reach.step (hf i) hT'
          obtain ⟨q, hl⟩ := hT _ _ hf'
          obtain ⟨a', α', h1, h2⟩ := sim_ts hr rel hl hm
          refine ⟨a', _, α', ?_, h1, h2⟩
          intro j
          by_cases ej : j = i
          · subst ej; simp only [upd_same]; exact hf'
          · rw [upd_ne _ _ ej]; show Reach T f0 (upd s.f i f' j) _; rw [upd_ne _ _ ej]; exact hf j
end Verif.TP.OnThreads
