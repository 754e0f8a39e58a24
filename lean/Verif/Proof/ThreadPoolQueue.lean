import Verif.Model.ThreadPoolQueue
import Verif.Proof.ThreadPoolClient
import Verif.Props.MessageQueue
/-
Refinement of the pool on a linearizable queue program to the pool on the atomic queue.
-/
set_option linter.unusedSimpArgs false
set_option linter.unusedVariables false
namespace Verif.TP.OnQueue
open Verif TP
open _root_.Verif.Lts (Reach run)
open _root_.Verif.Mtx (Tid Err)
open _root_.Verif.EvF (Tmo)
open _root_.Verif.MQ.Spec (Legal Hist Eff Snd Rcv effects Failed)

/-! #### Facts about histories of the queue -/
section
variable {V : Type}

theorem legal_det {cap : Nat} {q a b : List V} {x : Eff V} (h1 : Legal cap q x a) (h2 : Legal cap q x b) : a = b := by
  have hs : ∀ v tm r, Snd cap v tm q r a → Snd cap v tm q r b → a = b := by
    rintro v tm r (⟨rfl, _, rfl⟩ | ⟨rfl, _, rfl⟩ | ⟨hf, rfl⟩) (⟨h, _, rfl⟩ | ⟨h, _, rfl⟩ | ⟨hg, rfl⟩) <;>
      simp_all [Failed]
  have hr : ∀ o tm r, Rcv o tm q r a → Rcv o tm q r b → a = b := by
    rintro v tm r (⟨v1, e1, rfl⟩ | ⟨rfl, _, rfl⟩ | ⟨hf, rfl⟩) (⟨v2, e2, h⟩ | ⟨h, _, rfl⟩ | ⟨hg, rfl⟩) <;>
      simp_all [Failed]
  cases x with
  | op c r => cases c <;> simp only [Legal] at h1 h2 <;> first | exact hs _ _ _ h1 h2 | exact hr _ _ _ h1 h2 | exact h1.2.trans h2.2.symm
  | sawFull => exact h1.2.trans h2.2.symm
  | sawEmpty => exact h1.2.trans h2.2.symm

theorem hist_snoc {cap : Nat} {h : List (Eff V)} {x : Eff V} {q : List V} (hh : Hist cap (h ++ [x]) q) :
    ∃ q0, Hist cap h q0 ∧ Legal cap q0 x q := by
  generalize hl : h ++ [x] = l at hh
  cases hh with
  | nil => simp at hl
  | snoc h1 h2 =>
    obtain ⟨rfl, e⟩ := List.append_inj' hl rfl
    simp only [List.cons.injEq, and_true] at e
    subst e
    exact ⟨_, h1, h2⟩

theorem hist_det {cap : Nat} : ∀ {h : List (Eff V)} {a b : List V}, Hist cap h a → Hist cap h b → a = b := by
  intro h a b h1
  induction h1 generalizing b with
  | nil =>
    intro h2
    generalize hl : ([] : List (Eff V)) = l at h2
    cases h2 with
    | nil => rfl
    | snoc _ _ => simp at hl
  | snoc h1 hx ih =>
    intro h2
    obtain ⟨q0, h3, h4⟩ := hist_snoc h2
    rw [← ih h3] at h4
    exact legal_det hx h4
end

/-- The effect of an event on the queue's contents, if any. -/
def effOf : MQ.Ev Rid → Option (Eff Rid)
  | .lin _ c r => some (.op c r)
  | .sawFull _ => some .sawFull
  | .sawEmpty _ => some .sawEmpty
  | _ => none

theorem effects_snoc (tr : List (MQ.Ev Rid)) (x : MQ.Ev Rid) : effects (tr ++ [x]) = effects tr ++ (effOf x).toList := by
  cases x <;> simp [effects, effOf]

abbrev qphase (u : Tid) (tr : List (MQ.Ev Rid)) : MQ.Spec.Phase Rid := MQ.Spec.phase u tr

theorem qphase_snoc (t : Tid) (tr : List (MQ.Ev Rid)) (e : MQ.Ev Rid) :
    qphase t (tr ++ [e]) = MQ.Spec.Phase.next t (qphase t tr) e := by simp [qphase, MQ.Spec.phase]

theorem qbad_next (t : Tid) (e : MQ.Ev Rid) : MQ.Spec.Phase.next t .bad e = .bad := by
  cases e <;> simp [MQ.Spec.Phase.next]

theorem lin_prefix {cap : Nat} {xs : List (MQ.Ev Rid)} {x : MQ.Ev Rid} {q : List Rid} (h : MQ.Spec.Linearizable cap (xs ++ [x]) q) :
    ∃ q0, MQ.Spec.Linearizable cap xs q0 ∧ (∀ e, effOf x = some e → Legal cap q0 e q) ∧ (effOf x = none → q = q0) := by
  obtain ⟨hh, hp⟩ := h
  have hp' : ∀ t, MQ.Spec.phase t xs ≠ .bad := fun t e => hp t (by
    have := qphase_snoc t xs x; simp only [qphase] at this; rw [this, e, qbad_next])
  rw [effects_snoc] at hh
  cases hx : effOf x with
  | none =>
    rw [hx] at hh
    refine ⟨q, ⟨by simpa using hh, hp'⟩, by simp, fun _ => rfl⟩
  | some e =>
    rw [hx] at hh
    obtain ⟨q0, h1, h2⟩ := hist_snoc hh
    exact ⟨q0, ⟨h1, hp'⟩, by rintro _ ⟨⟩; exact h2, by simp⟩

theorem lin_prefixes {cap : Nat} {xs : List (MQ.Ev Rid)} : ∀ {ys : List (MQ.Ev Rid)} {q : List Rid},
    MQ.Spec.Linearizable cap (xs ++ ys) q → ∃ q0, MQ.Spec.Linearizable cap xs q0 := by
  intro ys
  induction hn : ys.length generalizing ys with
  | zero => intro q h; simp at hn; subst hn; exact ⟨q, by simpa using h⟩
  | succ n ih =>
    intro q h
    rcases List.eq_nil_or_concat ys with rfl | ⟨zs, z, rfl⟩
    · simp at hn
    · rw [List.concat_eq_append, ← List.append_assoc] at h
      obtain ⟨q0, h0, _⟩ := lin_prefix h
      exact ih (ys := zs) (by simpa using hn) h0

/-! #### The relation -/

theorem who_cli (t : Tid) : who (cli t) = .client t := by
  have h1 : ∀ t : Nat, 2 * t % 2 = 0 := by omega
  have h2 : ∀ t : Nat, 2 * t / 2 = t := by omega
  unfold who cli; rw [if_pos (h1 t), h2 t]
theorem who_wrk (i : Rid) : who (wrk i) = .worker i := by
  have h1 : ∀ t : Nat, ¬ (2 * t + 1) % 2 = 0 := by omega
  have h2 : ∀ t : Nat, (2 * t + 1) / 2 = t := by omega
  unfold who wrk; rw [if_neg (h1 i), h2 i]
theorem who_client {u : Tid} {t : Tid} (h : who u = .client t) : u = cli t := by
  have h1 : ∀ u t : Nat, u % 2 = 0 → u / 2 = t → u = 2 * t := by omega
  unfold who at h; split at h <;> simp at h; exact h1 u t (by assumption) h
theorem who_worker {u : Tid} {i : Rid} (h : who u = .worker i) : u = wrk i := by
  have h1 : ∀ u t : Nat, ¬ u % 2 = 0 → u / 2 = t → u = 2 * t + 1 := by omega
  unfold who at h; split at h <;> simp at h; exact h1 u i (by assumption) h
theorem cli_inj {t u : Tid} (h : cli t = cli u) : t = u := by
  have h1 := who_cli t; rw [h, who_cli] at h1; simpa using h1.symm
theorem wrk_inj {t u : Rid} (h : wrk t = wrk u) : t = u := by
  have h1 := who_wrk t; rw [h, who_wrk] at h1; simpa using h1.symm
theorem cli_wrk {t : Tid} {i : Rid} : cli t ≠ wrk i := by
  intro h; have h1 := who_cli t; rw [h, who_wrk] at h1; simp at h1

/-- Program points as the pool on the atomic queue sees them. -/
def vPC (p : St) (qtr : List (MQ.Ev Rid)) (t : Tid) : PC :=
  match qphase (cli t) qtr with
  | .done _ r => afterPC (p.pc t) r
  | _ => p.pc t
def vW (p : St) (qtr : List (MQ.Ev Rid)) (i : Rid) : W :=
  match qphase (wrk i) qtr with
  | .done _ _ => afterW (p.w i)
  | _ => p.w i

/-- A runner taken out by destroy, not yet destroyed. -/
def taken : MQ.Spec.Phase Rid → List Rid
  | .done _ (.done .OK (some i)) => [i]
  | _ => []
def pend (p : St) (qtr : List (MQ.Ev Rid)) : List Rid :=
  match p.dying with
  | some t => taken (qphase (cli t) qtr)
  | none => []

/-- The abstract pool: some fields replaced. -/
def mk (p : St) (free : List Rid) (own : Rid → Own) (pc : Tid → PC) (w : Rid → W) : St :=
  { p with free := free, own := own, pc := pc, w := w }

def calledBy : MQ.Spec.Phase Rid → Option (MQ.Call Rid)
  | .called c _ => some c
  | .done c _ => some c
  | _ => none

/-- What is known while destroy is inside the queue. -/
def drainOk (q : List Rid) : MQ.Spec.Phase Rid → Prop
  | .called _ why => why = true → q = []
  | .done _ r => (∃ i, r = .done .OK (some i)) ∨ (r = .done .TimedOut none ∧ q = [])
  | _ => True

structure Rel (n : Nat) (p : St) (qtr : List (MQ.Ev Rid)) (q : List Rid) (a : St) : Prop where
  eq : a = mk p (pend p qtr ++ q) a.own (vPC p qtr) (vW p qtr)
  ph : ∀ u, qphase u qtr ≠ .out → calledBy (qphase u qtr) = qCall p u ∧ qCall p u ≠ none
  dr : ∀ t, p.pc t = .on .destroy .dDrain → drainOk q (qphase (cli t) qtr)

section
variable {p : St} {qtr : List (MQ.Ev Rid)}
theorem vPC_eq {t : Tid} (h : ∀ c r, qphase (cli t) qtr ≠ .done c r) : vPC p qtr t = p.pc t := by
  unfold vPC; split
  · rename_i h'; exact absurd h' (h _ _)
  · rfl
theorem vPC_done {t : Tid} {c r} (h : qphase (cli t) qtr = .done c r) : vPC p qtr t = afterPC (p.pc t) r := by unfold vPC; rw [h]
theorem vW_eq {i : Rid} (h : ∀ c r, qphase (wrk i) qtr ≠ .done c r) : vW p qtr i = p.w i := by
  unfold vW; split
  · rename_i h'; exact absurd h' (h _ _)
  · rfl
theorem vW_done {i : Rid} {c r} (h : qphase (wrk i) qtr = .done c r) : vW p qtr i = afterW (p.w i) := by unfold vW; rw [h]

theorem vW_fin {i : Rid} : vW p qtr i = .finished ↔ p.w i = .finished := by
  unfold vW; split
  · cases h : p.w i <;> simp [afterW]
  · rfl
theorem vPC_idle {t : Tid} : vPC p qtr t = .idle ↔ p.pc t = .idle := by
  unfold vPC; split
  · unfold afterPC; split
    · rename_i h; rw [h]; split <;> simp
    · rename_i h; rw [h]; simp
    · rfl
  · rfl
theorem vPC_call {t : Tid} : callOf (vPC p qtr t) = callOf (p.pc t) := by
  unfold vPC; split
  · unfold afterPC; split
    · rename_i h; rw [h]; split <;> simp [callOf]
    · rename_i h; rw [h]; simp [callOf]
    · rfl
  · rfl
end

theorem clash_eq (c : Call) (p : PC) : clash c p = (match callOf p with | some c' => conflict c c' | none => false) := by
  cases p <;> rfl

/-- A value changed only where the program changed it. -/
def merge {α : Type} [DecidableEq α] (old new v : Nat → α) (j : Nat) : α := if new j = old j then v j else new j

theorem merge_self {α : Type} [DecidableEq α] (f v : Nat → α) : merge f f v = v := by funext j; simp [merge]
theorem merge_upd {α : Type} [DecidableEq α] {f v : Nat → α} {t : Nat} {x : α} (h : v t = f t) : merge f (upd f t x) v = upd v t x := by
  funext j
  by_cases hj : j = t
  · subst hj; simp [merge, upd]; intro e; rw [h, e]
  · simp [merge, upd, hj]

/-- A step of the pool's own code is a step of the abstract pool. -/
theorem step_frame {p p' : St} {act : Act} {ev : List Ev} (hc : atQueue p act = false) (hs : TP.step p act = some (p', ev))
    (F : List Rid) (O : Rid → Own) (pc : Tid → PC) (w : Rid → W)
    (hpc : ∀ t, (∃ c, act = .call t c) ∨ act = .go t ∨ act = .expire t → pc t = p.pc t)
    (hw : ∀ i, act = .pgo i ∨ act = .throw i → w i = p.w i)
    (hcall : ∀ u, callOf (pc u) = callOf (p.pc u)) (hfin : ∀ i, w i = .finished ↔ p.w i = .finished)
    (hfr : ∀ i, p.w i = .finished → w i = p.w i) :
    ∃ a', TP.step (mk p F O pc w) act = some (a', ev) ∧ a' = mk p' F a'.own (merge p.pc p'.pc pc) (merge p.w p'.w w) := by
  cases act with
  | call t c =>
    have hp := hpc t (Or.inl ⟨c, rfl⟩)
    simp only [TP.step] at hs ⊢
    split at hs
    · rename_i h
      simp only [Option.some.injEq, Prod.mk.injEq] at hs
      obtain ⟨rfl, rfl⟩ := hs
      have h' : (mk p F O pc w).pc t = .idle ∧ (mk p F O pc w).gone = false ∧ (mk p F O pc w).dying = none ∧ (c = .destroy → (mk p F O pc w).inside = []) ∧
          (∀ u, u ∈ (mk p F O pc w).inside → clash c ((mk p F O pc w).pc u) = false) ∧ freshGuard (mk p F O pc w) c = true := by
        refine ⟨hp.trans h.1, h.2.1, h.2.2.1, h.2.2.2.1, ?_, h.2.2.2.2.2⟩
        intro u hu
        have := h.2.2.2.2.1 u hu
        rw [clash_eq] at this ⊢
        show (match callOf (pc u) with | some c' => conflict c c' | none => false) = false
        rw [hcall]; exact this
      rw [if_pos h']
      refine ⟨_, rfl, ?_⟩
      simp only [mk, St.at]
      rw [merge_upd hp, merge_self]
    · cases hs
  | go t =>
    have hp := hpc t (Or.inr (Or.inl rfl))
    simp only [atQueue] at hc
    simp only [TP.step] at hs ⊢
    have hp' : (mk p F O pc w).pc t = p.pc t := hp
    rw [hp']
    have hu : ∀ x, merge p.pc (upd p.pc t x) pc = upd pc t x := fun x => merge_upd hp
    have hm : ∀ i, p.w i = .finished → ∀ x, merge p.w (upd p.w i x) w = upd w i x := fun i hi x => merge_upd (hfr i hi)
    have hwm : (mk p F O pc w).w = w := rfl
    have hnm : (mk p F O pc w).n = p.n := rfl
    have hgm : (mk p F O pc w).guard = p.guard := rfl
    have hem : (mk p F O pc w).ev = p.ev := rfl
    cases hq : p.pc t with
    | idle => rw [hq] at hs; simp at hs
    | on c q =>
      rw [hq] at hs hc
      rcases c with ⟨_ | k, tm, g, pr⟩ | ⟨g, tm⟩ | g | g | _ <;> cases q <;>
        simp only [qPos, Option.isSome_some, Option.isSome_none, reduceCtorEq, Bool.true_eq_false] at hc <;>
        simp only [hwm, hnm, hgm, hem, hfin] at hs ⊢ <;> (repeat' split at hs) <;>
        simp only [Option.some.injEq, Prod.mk.injEq, reduceCtorEq] at hs <;> obtain ⟨rfl, rfl⟩ := hs <;>
        ((try simp only [*, if_true, if_false]); exact ⟨_, rfl, by simp_all [mk, St.at, St.wAt, St.ownAt, St.evAt, merge_self]⟩)
  | expire t => 
    have hp := hpc t (Or.inr (Or.inr rfl))
    simp only [atQueue] at hc
    simp only [TP.step] at hs ⊢
    have hp' : (mk p F O pc w).pc t = p.pc t := hp
    rw [hp']
    have hu : ∀ x, merge p.pc (upd p.pc t x) pc = upd pc t x := fun x => merge_upd hp
    have hwm : (mk p F O pc w).w = w := rfl
    have hem : (mk p F O pc w).ev = p.ev := rfl
    cases hq : p.pc t with
    | idle => rw [hq] at hs; simp at hs
    | on c q =>
      rw [hq] at hs hc
      rcases c with ⟨_ | k, tm, g, pr⟩ | ⟨g, tm⟩ | g | g | _ <;> cases q <;>
        simp only [qPos, Option.isSome_some, Option.isSome_none, reduceCtorEq, Bool.true_eq_false] at hc <;>
        simp only [hwm, hem, hfin, ne_eq] at hs ⊢ <;> (repeat' split at hs) <;>
        simp only [Option.some.injEq, Prod.mk.injEq, reduceCtorEq] at hs <;> obtain ⟨rfl, rfl⟩ := hs <;>
        (simp only [*, if_true, if_false, not_false_eq_true, and_self]; exact ⟨_, rfl, by simp_all [mk, St.at, St.wAt, St.ownAt, St.evAt, merge_self]⟩)
  | pgo i =>
    have hp := hw i (Or.inl rfl)
    simp only [atQueue] at hc
    simp only [TP.step] at hs ⊢
    have hp' : (mk p F O pc w).w i = p.w i := hp
    rw [hp']
    have hu : ∀ x, merge p.w (upd p.w i x) w = upd w i x := fun x => merge_upd hp
    have htm : (mk p F O pc w).task = p.task := rfl
    have hnm : (mk p F O pc w).needs = p.needs := rfl
    have hdm : (mk p F O pc w).dflt = p.dflt := rfl
    have hpm : (mk p F O pc w).prio = p.prio := rfl
    cases h : p.w i <;> rw [h] at hs hc hp <;> simp only [qW, Option.isSome_some, Option.isSome_none, reduceCtorEq, Bool.true_eq_false] at hc hs <;>
      simp only [htm, hnm, hdm, hpm] at hs ⊢ <;> (try (cases ht : p.task i <;> rw [ht] at hs)) <;>
      simp only [Option.some.injEq, Prod.mk.injEq, reduceCtorEq] at hs <;> obtain ⟨rfl, rfl⟩ := hs <;>
      exact ⟨_, rfl, by simp_all [mk, St.at, St.wAt, St.ownAt, St.evAt, merge_self]⟩
  | throw i => 
    have hp := hw i (Or.inr rfl)
    simp only [TP.step] at hs ⊢
    have hp' : (mk p F O pc w).w i = p.w i := hp
    rw [hp']
    cases h : p.w i <;> rw [h] at hs hp <;> simp only [reduceCtorEq] at hs ⊢ 
    simp only [Option.some.injEq, Prod.mk.injEq] at hs
    obtain ⟨rfl, rfl⟩ := hs
    refine ⟨_, rfl, ?_⟩
    simp only [mk, St.wAt, Option.some.injEq, Prod.mk.injEq, and_true]
    rw [merge_upd (hp.trans h.symm), merge_self]

/-! #### Exclusive access of destroy -/

theorem destroyer {n : Nat} {d : Int} {a : St} {tr : List Ev} (h : Reach TP.step (TP.init n d) a tr) :
    ∀ t, a.dying = some t → callOf (a.pc t) = some .destroy ∨ a.pc t = .idle := by
  refine Lts.Reach.inv (I := fun a _ => ∀ t, a.dying = some t → callOf (a.pc t) = some .destroy ∨ a.pc t = .idle) ?_ ?_ h
  · intro t h; simp [TP.init] at h
  · intro s tr act s' ev ih hs t ht
    cases act with
    | call u c =>
      simp only [TP.step] at hs
      split at hs
      · rename_i hc
        simp only [Option.some.injEq, Prod.mk.injEq] at hs
        obtain ⟨rfl, rfl⟩ := hs
        simp only [hc.2.2.1] at ht
        split at ht
        · simp only [Option.some.injEq] at ht; subst ht
          left; rename_i e; simp [St.at, upd, callOf, e]
        · simp at ht
      · simp at hs
    | go u =>
      simp only [TP.step] at hs
      cases hq : s.pc u with
      | idle => rw [hq] at hs; simp at hs
      | on c q =>
        rw [hq] at hs
        have key : ∀ p', callOf p' = some c ∨ p' = .idle → s'.pc = upd s.pc u p' → s'.dying = s.dying → callOf (s'.pc t) = some .destroy ∨ s'.pc t = .idle := by
          intro p' h1 h2 h3
          have := ih t (h3 ▸ ht)
          rw [h2]
          by_cases e : t = u
          · subst e; rw [hq] at this
            rcases h1 with h1 | h1
            · left; simp only [upd, if_true, h1]; simpa [callOf] using this
            · right; simp [upd, h1]
          · simpa [upd, e] using this
        have key0 : s'.pc = s.pc → s'.dying = s.dying → callOf (s'.pc t) = some .destroy ∨ s'.pc t = .idle := by
          intro h2 h3; rw [h2]; exact ih t (h3 ▸ ht)
        rcases c with ⟨_ | k, tm, g, pr⟩ | ⟨g, tm⟩ | g | g | _ <;> cases q <;>
          simp only at hs <;> (repeat' split at hs) <;>
          simp only [Option.some.injEq, Prod.mk.injEq, reduceCtorEq] at hs <;> obtain ⟨rfl, rfl⟩ := hs <;>
          first
          | exact key _ (Or.inl rfl) rfl rfl
          | exact key _ (Or.inr rfl) rfl rfl
          | exact key0 rfl rfl
    | expire u =>
      simp only [TP.step] at hs
      cases hq : s.pc u with
      | idle => rw [hq] at hs; simp at hs
      | on c q =>
        rw [hq] at hs
        have key : ∀ p', callOf p' = some c ∨ p' = .idle → s'.pc = upd s.pc u p' → s'.dying = s.dying → callOf (s'.pc t) = some .destroy ∨ s'.pc t = .idle := by
          intro p' h1 h2 h3
          have := ih t (h3 ▸ ht)
          rw [h2]
          by_cases e : t = u
          · subst e; rw [hq] at this
            rcases h1 with h1 | h1
            · left; simp only [upd, if_true, h1]; simpa [callOf] using this
            · right; simp [upd, h1]
          · simpa [upd, e] using this
        rcases c with ⟨_ | k, tm, g, pr⟩ | ⟨g, tm⟩ | g | g | _ <;> cases q <;>
          simp only at hs <;> (repeat' split at hs) <;>
          simp only [Option.some.injEq, Prod.mk.injEq, reduceCtorEq] at hs <;> obtain ⟨rfl, rfl⟩ := hs <;>
          exact key _ (Or.inl rfl) rfl rfl
    | pgo i =>
      have key0 : s'.pc = s.pc → s'.dying = s.dying → callOf (s'.pc t) = some .destroy ∨ s'.pc t = .idle := by
          intro h2 h3; rw [h2]; exact ih t (h3 ▸ ht)
      simp only [TP.step] at hs
      (repeat' split at hs) <;> simp only [Option.some.injEq, Prod.mk.injEq, reduceCtorEq] at hs <;> obtain ⟨rfl, rfl⟩ := hs <;>
        exact key0 rfl rfl
    | throw i =>
      have key0 : s'.pc = s.pc → s'.dying = s.dying → callOf (s'.pc t) = some .destroy ∨ s'.pc t = .idle := by
          intro h2 h3; rw [h2]; exact ih t (h3 ▸ ht)
      simp only [TP.step] at hs
      (repeat' split at hs) <;> simp only [Option.some.injEq, Prod.mk.injEq, reduceCtorEq] at hs <;> obtain ⟨rfl, rfl⟩ := hs <;>
        exact key0 rfl rfl

section
variable {n : Nat} {d : Int} {p a : St} {tr : List Ev} {qtr : List (MQ.Ev Rid)} {q : List Rid}

theorem Rel.pc (rel : Rel n p qtr q a) (t : Tid) : a.pc t = vPC p qtr t := by rw [rel.eq]; rfl
theorem Rel.w (rel : Rel n p qtr q a) (i : Rid) : a.w i = vW p qtr i := by rw [rel.eq]; rfl
theorem Rel.dying (rel : Rel n p qtr q a) : a.dying = p.dying := by rw [rel.eq]; rfl

theorem Rel.alone (hr : Reach TP.step (TP.init n d) a tr) (rel : Rel n p qtr q a) {t : Tid} (ht : p.pc t = .on .destroy .dDrain) :
    ∀ u, u ≠ cli t → qphase u qtr = .out := by
  have S := (TP.Inv.reach hr).st
  have hv : a.pc t = .on .destroy .dDrain := by
    rw [rel.pc]; unfold vPC; split <;> simp [ht, afterPC]
  have hcs := S.cs t
  rw [hv] at hcs
  simp only [CShape, S.cn] at hcs
  intro u hu
  apply Classical.byContradiction
  intro hne
  have h1 := (rel.ph u hne).2
  unfold qCall at h1
  cases hw : who u with
  | client s =>
    rw [hw] at h1; simp only at h1
    have e := who_client hw
    have : s ≠ t := fun h => hu (by rw [e, h])
    have hi := S.al t (S.dy t _ hv) s this
    rw [rel.pc, vPC_idle] at hi
    simp [hi, qPos] at h1
  | worker i =>
    rw [hw] at h1; simp only at h1
    have hd : a.w i = .finished ∨ a.w i = .dead := by
      by_cases hi : i < n
      · exact hcs i hi
      · right
        have := S.rs i
        unfold RShape at this
        rw [S.od i (Nat.le_of_not_lt hi)] at this
        exact this
    rw [rel.w] at hd
    unfold vW at hd
    cases hx : p.w i <;> rw [hx] at h1 hd <;> simp only [qW] at h1
    all_goals first | (exact absurd rfl h1) | skip
    split at hd <;> simp [afterW] at hd

/-- Somebody is inside the queue who has not taken effect: no runner is in the hands of destroy. -/
theorem Rel.pend_nil (hr : Reach TP.step (TP.init n d) a tr) (rel : Rel n p qtr q a) {u : Tid} {c : MQ.Call Rid} {why : Bool}
    (hu : qphase u qtr = .called c why) : pend p qtr = [] := by
  unfold pend
  cases hd : p.dying with
  | none => rfl
  | some t =>
    simp only
    cases hp : qphase (cli t) qtr <;> simp only [taken]
    rename_i c' r'
    exfalso
    have h1 := (rel.ph (cli t) (by rw [hp]; simp)).2
    simp only [qCall, who_cli] at h1
    have h2 := destroyer hr t (by rw [rel.dying, hd])
    rw [rel.pc, vPC_call, vPC_idle] at h2
    cases hq : p.pc t with
    | idle => rw [hq] at h1; simp [qPos] at h1
    | on c q =>
      rw [hq] at h1 h2
      simp [callOf] at h2
      subst h2
      cases q <;> simp [qPos] at h1
      have := rel.alone hr hq u (fun e => by rw [e, hp] at hu; simp at hu)
      rw [this] at hu; simp at hu
end

/-- Who an event is about. -/
def subj : MQ.Ev Rid → Tid
  | .call u _ | .busy u | .sawFull u | .sawEmpty u | .lin u _ _ | .ret u _ _ => u

theorem qphase_other {u : Tid} {x : MQ.Ev Rid} (h : u ≠ subj x) (qtr : List (MQ.Ev Rid)) : qphase u (qtr ++ [x]) = qphase u qtr := by
  rw [qphase_snoc]
  cases x <;> simp only [subj] at h <;> simp [MQ.Spec.Phase.next, Ne.symm h]

theorem pend_same {p : St} {qtr : List (MQ.Ev Rid)} {x : MQ.Ev Rid} (h : ∀ t, p.dying = some t → subj x = cli t → taken (qphase (cli t) (qtr ++ [x])) = taken (qphase (cli t) qtr)) :
    pend p (qtr ++ [x]) = pend p qtr := by
  unfold pend
  cases hd : p.dying with
  | none => rfl
  | some t =>
    simp only
    by_cases e : subj x = cli t
    · exact h t hd e
    · rw [qphase_other (fun e' => e e'.symm)]

section
variable {n : Nat} {d : Int} {p a : St} {tr : List Ev} {qtr : List (MQ.Ev Rid)} {q : List Rid}

/-- Events that change nothing in the pool: entering the queue, and markers of the queue. -/
theorem Rel.quiet (rel : Rel n p qtr q a) {x : MQ.Ev Rid} {c : MQ.Call Rid} {why : Bool}
    (h0 : qphase (subj x) qtr = .out ∨ ∃ w, qphase (subj x) qtr = .called c w) (h1 : qphase (subj x) (qtr ++ [x]) = .called c why)
    (hc : qCall p (subj x) = some c)
    (hd : ∀ t, p.pc t = .on .destroy .dDrain → subj x = cli t → why = true → q = []) : Rel n p (qtr ++ [x]) q a := by
  have hnd : ∀ c' r', qphase (subj x) qtr ≠ .done c' r' := by
    intro c' r' e; rcases h0 with h | ⟨w, h⟩ <;> rw [h] at e <;> simp at e
  refine ⟨?_, ?_, ?_⟩
  · have e1 : vPC p (qtr ++ [x]) = vPC p qtr := by
      funext t
      by_cases e : cli t = subj x
      · rw [vPC_eq (by rw [e, h1]; simp), vPC_eq (by rw [e]; exact hnd)]
      · simp only [vPC]; rw [qphase_other e]
    have e2 : vW p (qtr ++ [x]) = vW p qtr := by
      funext t
      by_cases e : wrk t = subj x
      · rw [vW_eq (by rw [e, h1]; simp), vW_eq (by rw [e]; exact hnd)]
      · simp only [vW]; rw [qphase_other e]
    have e3 : pend p (qtr ++ [x]) = pend p qtr := by
      refine pend_same fun t _ e => ?_
      rw [← e, h1]
      rcases h0 with h | ⟨w, h⟩ <;> rw [h] <;> rfl
    rw [e1, e2, e3]; exact rel.eq
  · intro u hu
    by_cases e : u = subj x
    · subst e; rw [h1, hc]; simp [calledBy]
    · rw [qphase_other e] at hu ⊢; exact rel.ph u hu
  · intro t ht
    by_cases e : cli t = subj x
    · rw [e, h1]; exact hd t ht e.symm
    · rw [qphase_other e]; exact rel.dr t ht
end

/-- A call gives the lock up as busy only if somebody else is inside. -/
def Honest (qtr : List (MQ.Ev Rid)) : Prop := ∀ l t r, qtr = l ++ .busy t :: r → ∃ u, u ≠ t ∧ qphase u l ≠ .out

theorem upd_view {α : Type} {f g : Nat → α} {t : Nat} {x : α} (h1 : f t = x) (h2 : ∀ u, u ≠ t → f u = g u) : f = upd g t x := by
  funext u
  by_cases e : u = t
  · subst e; simp [upd, h1]
  · simp [upd, e, h2 u e]

/-- One event of the queue is a step of the pool on the atomic queue, or nothing. -/
theorem sim_event {n : Nat} {d : Int} {p p' a : St} {qtr : List (MQ.Ev Rid)} {x : MQ.Ev Rid} {q q' : List Rid} {tr ev : List Ev}
    (hr : Reach TP.step (TP.init n d) a tr) (hq : MQ.Spec.Linearizable n qtr q) (rel : Rel n p qtr q a)
    (hl : MQ.Spec.Linearizable n (qtr ++ [x]) q') (hh : Honest (qtr ++ [x])) (he : onEv p x = some (p', ev)) :
    ∃ a', Reach TP.step (TP.init n d) a' (tr ++ ev) ∧ Rel n p' (qtr ++ [x]) q' a' := by
  obtain ⟨q0, hl0, hleg, hnone⟩ := lin_prefix hl
  have hq0 : q0 = q := hist_det hl0.1 hq.1
  subst hq0
  have S := (TP.Inv.reach hr).st
  have hbad : qphase (subj x) (qtr ++ [x]) ≠ .bad := hl.2 _
  have hpre : qphase (subj x) qtr ≠ .bad := hq.2 _
  cases x with
  | call u c =>
    simp only [onEv] at he
    split at he
    · rename_i hc
      simp only [Option.some.injEq, Prod.mk.injEq] at he
      obtain ⟨rfl, rfl⟩ := he
      have := hnone rfl; subst this
      have hout : qphase u qtr = .out := by
        cases h : qphase u qtr with
        | out => rfl
        | _ => rw [qphase_snoc] at hbad; simp [subj, h, MQ.Spec.Phase.next] at hbad
      exact ⟨a, by simpa using hr, rel.quiet (Or.inl hout) (why := false) (by rw [qphase_snoc]; simp [subj, hout, MQ.Spec.Phase.next]) hc (by simp)⟩
    · simp at he
  | busy u =>
    simp only [onEv, Option.some.injEq, Prod.mk.injEq] at he
    obtain ⟨rfl, rfl⟩ := he
    have := hnone rfl; subst this
    obtain ⟨c, w, hcd⟩ : ∃ c w, qphase u qtr = .called c w := by
      cases h : qphase u qtr with
      | called c w => exact ⟨c, w, rfl⟩
      | _ => rw [qphase_snoc] at hbad; simp [subj, h, MQ.Spec.Phase.next] at hbad
    have hc := (rel.ph u (by rw [hcd]; simp)).1
    rw [hcd] at hc
    refine ⟨a, by simpa using hr, rel.quiet (Or.inr ⟨w, hcd⟩) (why := true) (by rw [qphase_snoc]; simp [subj, hcd, MQ.Spec.Phase.next]) hc.symm ?_⟩
    intro t ht e
    obtain ⟨v, hv, hne⟩ := hh qtr u [] rfl
    simp only [subj] at e
    exact absurd (rel.alone hr ht v (e ▸ hv)) hne
  | sawFull u =>
    simp only [onEv, Option.some.injEq, Prod.mk.injEq] at he
    obtain ⟨rfl, rfl⟩ := he
    have := hleg _ rfl
    simp only [Legal] at this
    rw [this.2]
    obtain ⟨c, w, hcd, hsd⟩ : ∃ c w, qphase u qtr = .called c w ∧ MQ.Spec.isSend c = true := by
      cases h : qphase u qtr with
      | called c w =>
        rw [qphase_snoc] at hbad; simp [subj, h, MQ.Spec.Phase.next] at hbad
        exact ⟨c, w, rfl, by cases hh : MQ.Spec.isSend c <;> simp [hh] at hbad ⊢⟩
      | _ => rw [qphase_snoc] at hbad; simp [subj, h, MQ.Spec.Phase.next] at hbad
    have hc := (rel.ph u (by rw [hcd]; simp)).1
    rw [hcd] at hc
    refine ⟨a, by simpa using hr, rel.quiet (Or.inr ⟨w, hcd⟩) (why := true) (by rw [qphase_snoc]; simp [subj, hcd, MQ.Spec.Phase.next, hsd]) hc.symm ?_⟩
    intro t ht e
    simp only [subj] at e
    subst e
    simp only [qCall, who_cli, ht, qPos, calledBy, Option.some.injEq] at hc
    subst hc; simp [MQ.Spec.isSend] at hsd
  | sawEmpty u =>
    simp only [onEv, Option.some.injEq, Prod.mk.injEq] at he
    obtain ⟨rfl, rfl⟩ := he
    have := hleg _ rfl
    simp only [Legal] at this
    rw [this.2]
    obtain ⟨c, w, hcd, hsd⟩ : ∃ c w, qphase u qtr = .called c w ∧ MQ.Spec.isRecv c = true := by
      cases h : qphase u qtr with
      | called c w =>
        rw [qphase_snoc] at hbad; simp [subj, h, MQ.Spec.Phase.next] at hbad
        exact ⟨c, w, rfl, by cases hh : MQ.Spec.isRecv c <;> simp [hh] at hbad ⊢⟩
      | _ => rw [qphase_snoc] at hbad; simp [subj, h, MQ.Spec.Phase.next] at hbad
    have hc := (rel.ph u (by rw [hcd]; simp)).1
    rw [hcd] at hc
    exact ⟨a, by simpa using hr, rel.quiet (Or.inr ⟨w, hcd⟩) (why := true) (by rw [qphase_snoc]; simp [subj, hcd, MQ.Spec.Phase.next, hsd]) hc.symm
      (fun _ _ _ _ => this.1)⟩
  | lin u c r =>
    simp only [onEv] at he
    split at he
    · rename_i hgood
      simp only [Option.some.injEq, Prod.mk.injEq] at he
      obtain ⟨rfl, rfl⟩ := he
      have hlegal := hleg _ rfl
      obtain ⟨why, hcd, hto⟩ : ∃ w, qphase u qtr = .called c w ∧ (r = .done .TimedOut none → w = true) := by
        cases h : qphase u qtr with
        | called c' w =>
          rw [qphase_snoc] at hbad
          by_cases hc : c' = c ∧ (r = .done .TimedOut none → w = true)
          · exact ⟨w, by rw [hc.1], hc.2⟩
          · simp only [subj, h, MQ.Spec.Phase.next, if_true, if_neg hc] at hbad; exact absurd rfl hbad
        | _ => rw [qphase_snoc] at hbad; simp [subj, h, MQ.Spec.Phase.next] at hbad
      have hdone : qphase u (qtr ++ [.lin u c r]) = .done c r := by
        rw [qphase_snoc]; simp [hcd, MQ.Spec.Phase.next]; exact hto
      have hpn : pend p qtr = [] := rel.pend_nil hr hcd
      have hcall := (rel.ph u (by rw [hcd]; simp)).1
      rw [hcd] at hcall
      simp only [calledBy] at hcall
      have hph : ∀ v, qphase v (qtr ++ [.lin u c r]) ≠ .out → calledBy (qphase v (qtr ++ [.lin u c r])) = qCall p v ∧ qCall p v ≠ none := by
        intro v hv
        by_cases e : v = u
        · subst e; rw [hdone, ← hcall]; simp [calledBy]
        · rw [qphase_other (by simpa [subj] using e)] at hv ⊢; exact rel.ph v hv
      have ha := rel.eq
      rw [hpn, List.nil_append] at ha
      cases hw : who u with
      | worker i =>
        have eu := who_worker hw
        subst eu
        have e1 : vPC p (qtr ++ [.lin (wrk i) c r]) = vPC p qtr := by
          funext t; simp only [vPC]; rw [qphase_other (by simpa [subj] using cli_wrk)]
        have e2 : vW p (qtr ++ [.lin (wrk i) c r]) = upd (vW p qtr) i (afterW (p.w i)) :=
          upd_view (vW_done hdone) fun j hj => by
            simp only [vW]; rw [qphase_other (by simpa [subj] using fun e => hj (wrk_inj e))]
        have e3 : pend p (qtr ++ [.lin (wrk i) c r]) = [] := by
          rw [pend_same (fun t _ e => absurd e.symm (by simpa [subj] using cli_wrk)), hpn]
        have hvw : a.w i = p.w i := by rw [rel.w, vW_eq (by rw [hcd]; simp)]
        simp only [qCall, hw] at hcall
        cases hx : p.w i <;> rw [hx] at hcall <;> simp only [qW, reduceCtorEq, Option.some.injEq] at hcall
        rename_i xx
        subst hcall
        simp only [Legal, Snd] at hlegal
        rcases hlegal with ⟨rfl, hlt, rfl⟩ | ⟨_, hf, _⟩ | ⟨hf, _⟩
        · have hstep : TP.step a (.pgo i) = some ({ (a.wAt i (.leave xx)).ownAt i .free with free := a.free ++ [i] }, [.back i none]) := by
            have hfl : a.free.length < a.n := by rw [S.cn]; rw [ha]; exact hlt
            simp only [TP.step, hvw, hx, if_pos hfl]
          refine ⟨_, by simpa [marks, hw] using Reach.step hr hstep, ?_, hph, ?_⟩
          · rw [e1, e2, e3, hx]
            generalize ho : a.own = o at ha
            subst ha
            simp [mk, St.wAt, St.ownAt, afterW]
          · intro t ht
            have := rel.alone hr ht (wrk i) (fun e => cli_wrk e.symm)
            rw [this] at hcd; simp at hcd
        · simp at hf
        · rcases hf with rfl | rfl | rfl <;> simp [good] at hgood
      | client t =>
        have eu := who_client hw
        subst eu
        have e1 : vPC p (qtr ++ [.lin (cli t) c r]) = upd (vPC p qtr) t (afterPC (p.pc t) r) :=
          upd_view (vPC_done hdone) fun j hj => by
            simp only [vPC]; rw [qphase_other (by simpa [subj] using fun e => hj (cli_inj e))]
        have e2 : vW p (qtr ++ [.lin (cli t) c r]) = vW p qtr := by
          funext i; simp only [vW]; rw [qphase_other (by simpa [subj] using fun e => cli_wrk e.symm)]
        have hvp : a.pc t = p.pc t := by rw [rel.pc, vPC_eq (by rw [hcd]; simp)]
        simp only [qCall, hw] at hcall
        -- the destroyer, if it is somebody else
        have hdr : p.pc t ≠ .on .destroy .dDrain → ∀ s, p.pc s = .on .destroy .dDrain → drainOk q' (qphase (cli s) (qtr ++ [.lin (cli t) c r])) := by
          intro hne s hs
          have := rel.alone hr hs (cli t) (fun e => hne (by rw [cli_inj e]; exact hs))
          rw [this] at hcd; simp at hcd
        have e3 : callOf (p.pc t) ≠ some .destroy → pend p (qtr ++ [.lin (cli t) c r]) = [] := by
          intro hnd
          rw [pend_same, hpn]
          intro s hs e
          have := destroyer hr s (by rw [rel.dying, hs])
          have e' := cli_inj (show cli t = cli s from e)
          rw [← e', rel.pc, vPC_call, vPC_idle] at this
          rcases this with h | h
          · exact absurd h hnd
          · rw [h] at hcall; simp [qPos] at hcall
        cases hpt : p.pc t with
        | idle => rw [hpt] at hcall; simp [qPos] at hcall
        | on cc pos =>
          rw [hpt] at hcall hvp e1 hdr e3
          rcases cc with ⟨_ | k, tm, g, pr⟩ | ⟨g, tm⟩ | g | g | _ <;> cases pos <;>
            simp only [qPos, reduceCtorEq, Option.some.injEq] at hcall
          · -- start
            subst hcall
            have e3 := e3 (by simp [callOf])
            have hdr := hdr (by simp)
            simp only [Legal, Rcv, if_true] at hlegal
            rcases hlegal with ⟨v, hv, rfl⟩ | ⟨rfl, hf, rfl⟩ | ⟨hf, _⟩
            · have hfr : a.free = v :: q' := by rw [ha]; exact hv
              have hstep : TP.step a (.go t) = some ({ (a.at t (.start (some k) tm g pr) (.sWait v)).ownAt v (.client t) with free := q' }, []) := by
                simp only [TP.step, hvp, hfr]
              refine ⟨_, by simpa [marks, hw, hpt] using Reach.step hr hstep, ?_, hph, hdr⟩
              rw [e1, e2, e3]
              generalize ho : a.own = o at ha
              subst ha
              simp [mk, St.at, St.ownAt, afterPC]
            · have hstep : TP.step a (.expire t) = some (a.at t (.start (some k) tm g pr) (.ret .timedOut), [.lin t (.start (some k) tm g pr) .timedOut]) := by
                simp only [TP.step, hvp, if_pos hf]
              refine ⟨_, by simpa [marks, hw, hpt] using Reach.step hr hstep, ?_, hph, hdr⟩
              rw [e1, e2, e3]
              generalize ho : a.own = o at ha
              subst ha
              simp [mk, St.at, St.ownAt, afterPC]
            · rcases hf with rfl | rfl | rfl <;> simp [good] at hgood
          · -- release
            rename_i i
            subst hcall
            have e3 := e3 (by simp [callOf])
            have hdr := hdr (by simp)
            simp only [Legal, Snd] at hlegal
            rcases hlegal with ⟨rfl, hlt, rfl⟩ | ⟨_, hf, _⟩ | ⟨hf, _⟩
            · have hstep : TP.step a (.go t) = some ({ (a.at t (.release g) .rClear).ownAt i .free with free := a.free ++ [i] }, [.back i (some g), .lin t (.release g) .done]) := by
                have hfl : a.free.length < a.n := by rw [S.cn]; rw [ha]; exact hlt
                simp only [TP.step, hvp, if_pos hfl]
              refine ⟨_, by simpa [marks, hw, hpt] using Reach.step hr hstep, ?_, hph, hdr⟩
              rw [e1, e2, e3]
              generalize ho : a.own = o at ha
              subst ha
              simp [mk, St.at, St.ownAt, afterPC]
            · simp at hf
            · rcases hf with rfl | rfl | rfl <;> simp [good] at hgood
          · -- destroy
            subst hcall
            have hdy := S.dy t _ hvp
            rw [rel.dying] at hdy
            have hd0 := rel.dr t hpt
            rw [hcd] at hd0
            have e1' : vPC p (qtr ++ [.lin (cli t) (.tryReceive true) r]) = vPC p qtr := by
              rw [e1]; funext s; by_cases e : s = t
              · subst e; simp only [upd, if_true]; rw [vPC_eq (by rw [hcd]; simp), hpt]; simp [afterPC]
              · simp [upd, e]
            have key : q0 = pend p (qtr ++ [.lin (cli t) (.tryReceive true) r]) ++ q' → drainOk q' (.done (.tryReceive true) r) →
                ∃ a', Reach TP.step (TP.init n d) a' (tr ++ marks p (cli t) r) ∧ Rel n p (qtr ++ [.lin (cli t) (.tryReceive true) r]) q' a' := by
              intro h1 h2
              refine ⟨a, by simpa [marks, hw, hpt] using hr, ?_, hph, ?_⟩
              · rw [e1', e2, ← h1]; exact ha
              · intro s hs
                by_cases e : s = t
                · subst e; rw [hdone]; exact h2
                · have := rel.alone hr hs (cli t) (fun e' => e (cli_inj e').symm)
                  rw [this] at hcd; simp at hcd
            simp only [pend, hdy, hdone] at key
            simp only [Legal, Rcv, if_true] at hlegal
            rcases hlegal with ⟨v, hv, rfl⟩ | ⟨rfl, hf, rfl⟩ | ⟨hf, _⟩
            · exact key (by simpa [taken] using hv) (Or.inl ⟨v, rfl⟩)
            · exact key (by simp [taken]) (Or.inr ⟨rfl, hd0 (hto rfl)⟩)
            · rcases hf with rfl | rfl | rfl <;> simp [good] at hgood
    · simp at he
  | ret u c r =>
    simp only [onEv] at he
    have := hnone rfl; subst this
    have hdone : qphase u qtr = .done c r := by
      apply Classical.byContradiction
      intro h
      change qphase u (qtr ++ [.ret u c r]) ≠ .bad at hbad
      rw [qphase_snoc] at hbad
      simp only [MQ.Spec.Phase.next, if_true] at hbad
      rw [if_neg h] at hbad; exact absurd rfl hbad
    have hout : qphase u (qtr ++ [.ret u c r]) = .out := by rw [qphase_snoc]; simp [hdone, MQ.Spec.Phase.next]
    have hoth : ∀ v, v ≠ u → qphase v (qtr ++ [.ret u c r]) = qphase v qtr := fun v hv => qphase_other (by simpa [subj] using hv) qtr
    have hcall := rel.ph u (by rw [hdone]; simp)
    rw [hdone] at hcall
    simp only [calledBy] at hcall
    obtain ⟨hcall, -⟩ := hcall
    have ha := rel.eq
    cases hw : who u with
    | worker i =>
      have eu := who_worker hw
      subst eu
      simp only [resume, hw, Option.some.injEq, Prod.mk.injEq] at he
      obtain ⟨rfl, rfl⟩ := he
      refine ⟨a, by simpa using hr, ?_, ?_, ?_⟩
      · have e1 : vPC (p.wAt i (afterW (p.w i))) (qtr ++ [.ret (wrk i) c r]) = vPC p qtr := by
          funext t; simp only [vPC, St.wAt]; rw [hoth _ cli_wrk]
        have e2 : vW (p.wAt i (afterW (p.w i))) (qtr ++ [.ret (wrk i) c r]) = vW p qtr := by
          funext j
          by_cases e : j = i
          · subst e; rw [vW_eq (by rw [hout]; simp), vW_done hdone]; simp [St.wAt, upd]
          · simp only [vW, St.wAt, upd, if_neg e]; rw [hoth _ (fun e' => e (wrk_inj e'))]
        have e3 : pend (p.wAt i (afterW (p.w i))) (qtr ++ [.ret (wrk i) c r]) = pend p qtr := by
          show pend p _ = _
          exact pend_same (fun t _ e => absurd e.symm (by simpa [subj] using cli_wrk))
        rw [e1, e2, e3]; exact ha
      · intro v hv
        by_cases e : v = wrk i
        · subst e; rw [hout] at hv; simp at hv
        · rw [hoth v e] at hv ⊢
          have := rel.ph v hv
          have h2 : qCall (p.wAt i (afterW (p.w i))) v = qCall p v := by
            unfold qCall
            cases hv' : who v with
            | client t => rfl
            | worker j =>
              have : j ≠ i := fun e' => e (by rw [who_worker hv', e'])
              simp [St.wAt, upd, this]
          rw [h2]; exact this
      · intro t ht; rw [hoth _ cli_wrk]; exact rel.dr t ht
    | client t =>
      have eu := who_client hw
      subst eu
      simp only [qCall, hw] at hcall
      have hvW : vW p (qtr ++ [.ret (cli t) c r]) = vW p qtr := by
        funext j; simp only [vW]; rw [hoth _ (fun e => cli_wrk e.symm)]
      by_cases hd : p.pc t = .on .destroy .dDrain
      · have hv : a.pc t = .on .destroy .dDrain := by
          rw [rel.pc]; unfold vPC; split <;> simp [hd, afterPC]
        have hdy := S.dy t _ hv
        rw [rel.dying] at hdy
        have hd0 := rel.dr t hd
        rw [hdone] at hd0
        have hvP : vPC p (qtr ++ [.ret (cli t) c r]) = vPC p qtr := by
          funext s
          by_cases e : s = t
          · subst e; simp only [vPC]; rw [hout, hdone, hd]; simp [afterPC]
          · simp only [vPC]; rw [hoth _ (fun e' => e (cli_inj e'))]
        have hpd : pend p (qtr ++ [.ret (cli t) c r]) = [] := by simp only [pend, hdy, hout, taken]
        have hqo : ∀ v, v ≠ cli t → qphase v qtr = .out := rel.alone hr hd
        have hph : ∀ p'' v, qphase v (qtr ++ [.ret (cli t) c r]) ≠ .out → calledBy (qphase v (qtr ++ [.ret (cli t) c r])) = qCall p'' v ∧ qCall p'' v ≠ none := by
          intro p'' v hv
          by_cases e : v = cli t
          · subst e; rw [hout] at hv; simp at hv
          · rw [hoth v e, hqo v e] at hv; simp at hv
        have hdr : ∀ (p'' : St) s, p''.pc s = .on .destroy .dDrain → drainOk q' (qphase (cli s) (qtr ++ [.ret (cli t) c r])) := by
          intro p'' s _
          by_cases e : cli s = cli t
          · rw [e, hout]; trivial
          · rw [hoth _ e, hqo _ e]; trivial
        rcases hd0 with ⟨i, rfl⟩ | ⟨rfl, rfl⟩
        · simp only [resume, hw, hd] at he
          split at he
          · rename_i hfin
            simp only [Option.some.injEq, Prod.mk.injEq] at he
            obtain ⟨rfl, rfl⟩ := he
            have hpd0 : pend p qtr = [i] := by simp only [pend, hdy, hdone, taken]
            have haf : a.free = i :: q' := by rw [ha, hpd0]; rfl
            have haw : a.w i = .finished := by rw [rel.w, vW_fin]; exact hfin
            have hstep : TP.step a (.go t) = some ({ (a.wAt i .dead).ownAt i .dead with free := q' }, [.kill i]) := by
              simp only [TP.step, hv, haf, if_pos haw]
            refine ⟨_, Reach.step hr hstep, ?_, hph _, hdr _⟩
            have e1 : vPC (p.wAt i .dead) (qtr ++ [.ret (cli t) c (.done .OK (some i))]) = vPC p qtr := hvP
            have e2 : vW (p.wAt i .dead) (qtr ++ [.ret (cli t) c (.done .OK (some i))]) = upd (vW p qtr) i .dead := by
              funext j
              have : ∀ c' r', qphase (wrk j) (qtr ++ [.ret (cli t) c (.done .OK (some i))]) ≠ .done c' r' := by
                intro c' r'; rw [hoth _ (fun e => cli_wrk e.symm), hqo _ (fun e => cli_wrk e.symm)]; simp
              rw [vW_eq this]
              have h2 : vW p qtr j = p.w j := vW_eq (by intro c' r'; rw [hqo _ (fun e => cli_wrk e.symm)]; simp)
              by_cases e : j = i
              · simp [St.wAt, upd, e]
              · simp [St.wAt, upd, e, h2]
            have e3 : pend (p.wAt i .dead) (qtr ++ [.ret (cli t) c (.done .OK (some i))]) = [] := hpd
            rw [e1, e2, e3]
            generalize ho : a.own = o at ha
            subst ha
            simp [mk, St.wAt, St.ownAt]
          · simp at he
        · simp only [resume, hw, hd, Option.some.injEq, Prod.mk.injEq] at he
          obtain ⟨rfl, rfl⟩ := he
          have hpd0 : pend p qtr = [] := by simp only [pend, hdy, hdone, taken]
          have haf : a.free = [] := by rw [ha, hpd0]; rfl
          have hstep : TP.step a (.go t) = some ({ a.at t .destroy (.ret .done) with gone := true }, [.lin t .destroy .done]) := by
            simp only [TP.step, hv, haf]
          refine ⟨_, Reach.step hr hstep, ?_, hph _, hdr _⟩
          have e1 : vPC { p.at t .destroy (.ret .done) with gone := true } (qtr ++ [.ret (cli t) c (.done .TimedOut none)]) = upd (vPC p qtr) t (.on .destroy (.ret .done)) := by
            funext s
            have h1 : ∀ c' r', qphase (cli s) (qtr ++ [.ret (cli t) c (.done .TimedOut none)]) ≠ .done c' r' := by
              intro c' r'
              by_cases e : cli s = cli t
              · rw [e, hout]; simp
              · rw [hoth _ e, hqo _ e]; simp
            rw [vPC_eq h1]
            by_cases e : s = t
            · subst e; simp [St.at, upd]
            · have h2 : vPC p qtr s = p.pc s := vPC_eq (by intro c' r'; rw [hqo _ (fun e' => e (cli_inj e'))]; simp)
              simp [St.at, upd, e, h2]
          have e2 : vW { p.at t .destroy (.ret .done) with gone := true } (qtr ++ [.ret (cli t) c (.done .TimedOut none)]) = vW p qtr := hvW
          have e3 : pend { p.at t .destroy (.ret .done) with gone := true } (qtr ++ [.ret (cli t) c (.done .TimedOut none)]) = [] := hpd
          rw [e1, e2, e3]
          generalize ho : a.own = o at ha
          subst ha
          simp [mk, St.at, hpd0]
      · have he' : p' = { p with pc := upd p.pc t (afterPC (p.pc t) r) } ∧ ev = [] := by
          unfold resume at he
          rw [hw] at he
          simp only at he
          simp only [Option.some.injEq, Prod.mk.injEq] at he; exact ⟨he.1.symm, he.2.symm⟩
        obtain ⟨rfl, rfl⟩ := he'
        have hnd : afterPC (p.pc t) r ≠ .on .destroy .dDrain := by
          unfold afterPC
          split
          · split <;> simp
          · simp
          · exact hd
        refine ⟨a, by simpa using hr, ?_, ?_, ?_⟩
        · have e1 : vPC { p with pc := upd p.pc t (afterPC (p.pc t) r) } (qtr ++ [.ret (cli t) c r]) = vPC p qtr := by
            funext s
            by_cases e : s = t
            · subst e; rw [vPC_eq (by rw [hout]; simp), vPC_done hdone]; simp [upd]
            · simp only [vPC, upd, if_neg e]; rw [hoth _ (fun e' => e (cli_inj e'))]
          have e3 : pend { p with pc := upd p.pc t (afterPC (p.pc t) r) } (qtr ++ [.ret (cli t) c r]) = pend p qtr := by
            show pend p _ = _
            refine pend_same fun s hs e => ?_
            exfalso
            have e' := cli_inj (show cli t = cli s from e)
            have := destroyer hr s (by rw [rel.dying, hs])
            rw [← e', rel.pc, vPC_call, vPC_idle] at this
            cases hpt : p.pc t with
            | idle => rw [hpt] at hcall; simp [qPos] at hcall
            | on cc pos =>
              rw [hpt] at this hcall hd
              simp [callOf] at this
              subst this
              cases pos <;> simp [qPos] at hcall hd
          have e2 : vW { p with pc := upd p.pc t (afterPC (p.pc t) r) } (qtr ++ [.ret (cli t) c r]) = vW p qtr := hvW
          rw [e1, e2, e3]; exact ha
        · intro v hv
          by_cases e : v = cli t
          · subst e; rw [hout] at hv; simp at hv
          · rw [hoth v e] at hv ⊢
            have := rel.ph v hv
            have h2 : qCall { p with pc := upd p.pc t (afterPC (p.pc t) r) } v = qCall p v := by
              unfold qCall
              cases hv' : who v with
              | worker j => rfl
              | client s =>
                have : s ≠ t := fun e' => e (by rw [who_client hv', e'])
                simp [upd, this]
            rw [h2]; exact this
        · intro s hs
          by_cases e : s = t
          · subst e; simp [upd] at hs; exact absurd hs hnd
          · simp only [upd, if_neg e] at hs
            rw [hoth _ (fun e' => e (cli_inj e'))]; exact rel.dr s hs

theorem honest_prefix {xs ys : List (MQ.Ev Rid)} (h : Honest (xs ++ ys)) : Honest xs := by
  intro l t r e; exact h l t (r ++ ys) (by rw [e]; simp)

theorem sim_events {n : Nat} {d : Int} : ∀ {xs : List (MQ.Ev Rid)} {p p' a : St} {qtr : List (MQ.Ev Rid)} {q q' : List Rid} {tr ev : List Ev}
    (_ : Reach TP.step (TP.init n d) a tr) (_ : MQ.Spec.Linearizable n qtr q) (_ : Rel n p qtr q a)
    (_ : MQ.Spec.Linearizable n (qtr ++ xs) q') (_ : Honest (qtr ++ xs)) (_ : onEvs p xs = some (p', ev)),
    ∃ a', Reach TP.step (TP.init n d) a' (tr ++ ev) ∧ Rel n p' (qtr ++ xs) q' a'
  | [], p, p', a, qtr, q, q', tr, ev, hr, hq, rel, hl, hh, he => by
    simp only [onEvs, Option.some.injEq, Prod.mk.injEq] at he
    obtain ⟨rfl, rfl⟩ := he
    rw [List.append_nil] at hl
    have := hist_det hl.1 hq.1
    subst this
    exact ⟨a, by simpa using hr, by simpa using rel⟩
  | x :: xs, p, p', a, qtr, q, q', tr, ev, hr, hq, rel, hl, hh, he => by
    simp only [onEvs] at he
    split at he
    · simp at he
    · rename_i m1 e1 h1
      split at he
      · simp at he
      · rename_i m2 e2 h2
        simp only [Option.some.injEq, Prod.mk.injEq] at he
        obtain ⟨rfl, rfl⟩ := he
        have hl' : MQ.Spec.Linearizable n ((qtr ++ [x]) ++ xs) q' := by simpa using hl
        have hh' : Honest ((qtr ++ [x]) ++ xs) := by simpa using hh
        obtain ⟨q1, hl1⟩ := lin_prefixes hl'
        obtain ⟨a1, hr1, rel1⟩ := sim_event hr hq rel hl1 (honest_prefix hh') h1
        obtain ⟨a2, hr2, rel2⟩ := sim_events hr1 hl1 rel1 hl' hh' h2
        exact ⟨a2, by simpa using hr2, by simpa using rel2⟩

/-- What a step of the pool's own code can change. -/
theorem step_changes {p p' : St} {act : Act} {ev : List Ev} (hc : atQueue p act = false) (hs : TP.step p act = some (p', ev)) :
    (∀ t, p'.pc t ≠ p.pc t → qPos (p.pc t) = none) ∧ (∀ i, p'.w i ≠ p.w i → qW i (p.w i) = none) ∧
    (p'.dying = p.dying ∨ ∃ t, p'.dying = some t ∧ p.dying = none ∧ p.pc t = .idle) := by
  have hpc : ∀ t x, qPos (p.pc t) = none → ∀ u, upd p.pc t x u ≠ p.pc u → qPos (p.pc u) = none := by
    intro t x h u hu
    by_cases e : u = t
    · rw [e]; exact h
    · simp [upd, e] at hu
  have hw : ∀ i x, qW i (p.w i) = none → ∀ u, upd p.w i x u ≠ p.w u → qW u (p.w u) = none := by
    intro t x h u hu
    by_cases e : u = t
    · rw [e]; exact h
    · simp [upd, e] at hu
  have h0 : ∀ t, p.pc t ≠ p.pc t → qPos (p.pc t) = none := fun t h => absurd rfl h
  have h1 : ∀ i, p.w i ≠ p.w i → qW i (p.w i) = none := fun t h => absurd rfl h
  cases act with
  | call t c =>
    simp only [atQueue] at hc
    simp only [TP.step] at hs
    split at hs
    · rename_i h
      simp only [Option.some.injEq, Prod.mk.injEq] at hs
      obtain ⟨rfl, rfl⟩ := hs
      refine ⟨hpc t _ (by simpa using hc), h1, ?_⟩
      by_cases e : c = .destroy
      · right; exact ⟨t, by simp [e], h.2.2.1, h.1⟩
      · left; simp [e]
    · simp at hs
  | go t =>
    simp only [atQueue] at hc
    have hc' : qPos (p.pc t) = none := by simpa using hc
    have hpc' := fun x => hpc t x hc'
    simp only [TP.step] at hs
    cases hq : p.pc t with
    | idle => rw [hq] at hs; simp at hs
    | on c q =>
      rw [hq] at hs hc
      rcases c with ⟨_ | k, tm, g, pr⟩ | ⟨g, tm⟩ | g | g | _ <;> cases q <;>
        simp only [qPos, Option.isSome_some, Option.isSome_none, reduceCtorEq, Bool.true_eq_false] at hc <;>
        simp only at hs <;> (repeat' split at hs) <;>
        simp only [Option.some.injEq, Prod.mk.injEq, reduceCtorEq] at hs <;> obtain ⟨rfl, rfl⟩ := hs <;>
        first
        | exact ⟨hpc' _, h1, Or.inl rfl⟩
        | exact ⟨hpc' _, hw _ _ (by simp [*, qW]), Or.inl rfl⟩
  | expire t =>
    simp only [atQueue] at hc
    have hc' : qPos (p.pc t) = none := by simpa using hc
    have hpc' := fun x => hpc t x hc'
    simp only [TP.step] at hs
    (repeat' split at hs) <;>
        simp only [Option.some.injEq, Prod.mk.injEq, reduceCtorEq] at hs <;> obtain ⟨rfl, rfl⟩ := hs <;>
        exact ⟨hpc' _, h1, Or.inl rfl⟩
  | pgo i =>
    simp only [atQueue] at hc
    have hc' : qW i (p.w i) = none := by simpa using hc
    simp only [TP.step] at hs
    (repeat' split at hs) <;>
        simp only [Option.some.injEq, Prod.mk.injEq, reduceCtorEq] at hs <;> obtain ⟨rfl, rfl⟩ := hs <;>
        exact ⟨h0, hw i _ hc', Or.inl rfl⟩
  | throw i =>
    simp only [atQueue] at hc
    have hc' : qW i (p.w i) = none := by simpa using hc
    simp only [TP.step] at hs
    (repeat' split at hs) <;>
        simp only [Option.some.injEq, Prod.mk.injEq, reduceCtorEq] at hs <;> obtain ⟨rfl, rfl⟩ := hs <;>
        exact ⟨h0, hw i _ hc', Or.inl rfl⟩

/-- A step of the pool's own code. -/
theorem sim_own {n : Nat} {d : Int} {p p' a : St} {qtr : List (MQ.Ev Rid)} {q : List Rid} {act : Act} {tr ev : List Ev}
    (hr : Reach TP.step (TP.init n d) a tr) (rel : Rel n p qtr q a) (hc : atQueue p act = false) (hs : TP.step p act = some (p', ev)) :
    ∃ a', TP.step a act = some (a', ev) ∧ Rel n p' qtr q a' := by
  have hcli : ∀ t, qPos (p.pc t) = none → qphase (cli t) qtr = .out := by
    intro t h
    apply Classical.byContradiction
    intro hne
    have := (rel.ph _ hne).2
    simp [qCall, who_cli, h] at this
  have hwrk : ∀ i, qW i (p.w i) = none → qphase (wrk i) qtr = .out := by
    intro t h
    apply Classical.byContradiction
    intro hne
    have := (rel.ph _ hne).2
    simp [qCall, who_wrk, h] at this
  have hvP : ∀ t, qPos (p.pc t) = none → vPC p qtr t = p.pc t := fun t h => vPC_eq (by rw [hcli t h]; simp)
  have hvW : ∀ i, qW i (p.w i) = none → vW p qtr i = p.w i := fun t h => vW_eq (by rw [hwrk t h]; simp)
  obtain ⟨a', h1, h2⟩ := step_frame hc hs (pend p qtr ++ q) a.own (vPC p qtr) (vW p qtr)
    (by
      intro t ht
      apply hvP
      rcases ht with ⟨c, rfl⟩ | rfl | rfl <;> simpa [atQueue] using hc)
    (by
      intro t ht
      apply hvW
      rcases ht with rfl | rfl <;> simpa [atQueue] using hc)
    (fun u => vPC_call) (fun i => vW_fin)
    (by intro i hi; rw [hi]; exact vW_fin.2 hi)
  rw [← rel.eq] at h1
  obtain ⟨c1, c2, c3⟩ := step_changes hc hs
  refine ⟨a', h1, ?_, ?_, ?_⟩
  · have e1 : vPC p' qtr = merge p.pc p'.pc (vPC p qtr) := by
      funext t
      unfold merge
      split
      · rename_i e; simp only [vPC, e]
      · rename_i e; exact vPC_eq (by rw [hcli t (c1 t e)]; simp)
    have e2 : vW p' qtr = merge p.w p'.w (vW p qtr) := by
      funext t
      unfold merge
      split
      · rename_i e; simp only [vW, e]
      · rename_i e; exact vW_eq (by rw [hwrk t (c2 t e)]; simp)
    have e3 : pend p' qtr = pend p qtr := by
      unfold pend
      rcases c3 with h | ⟨t, h3, h4, h5⟩
      · rw [h]
      · rw [h3, h4]; simp only; rw [hcli t (by simp [h5, qPos])]; rfl
    rw [e1, e2, e3]; exact h2
  · intro u hu
    have h3 := rel.ph u hu
    have h4 : qCall p' u = qCall p u := by
      have h5 := h3.2
      unfold qCall at h5 ⊢
      cases hw : who u with
      | client t =>
        rw [hw] at h5; simp only at h5 ⊢
        by_cases e : p'.pc t = p.pc t
        · rw [e]
        · exact absurd (c1 t e) h5
      | worker t =>
        rw [hw] at h5; simp only at h5 ⊢
        by_cases e : p'.w t = p.w t
        · rw [e]
        · exact absurd (c2 t e) h5
    rw [h4]; exact h3
  · intro t ht
    by_cases e : p'.pc t = p.pc t
    · exact rel.dr t (by rw [← e]; exact ht)
    · rw [hcli t (c1 t e)]; trivial

/-- A queue as the pool's create leaves it: `n` places, the runners 0, ..., n - 1 in it, nobody inside. -/
def Filled {Q A : Type} (O : Q → A → Option (Q × List (MQ.Ev Rid))) (e : Q) (n : Nat) (q0 : Q) (tr0 : List (MQ.Ev Rid)) : Prop :=
  Reach O e q0 tr0 ∧ MQ.Spec.Linearizable n tr0 (List.range n) ∧ ∀ u, qphase u tr0 = .out

/-- Every execution of the pool on a linearizable queue program is, event for event, an execution of the pool on the atomic queue. -/
theorem simulation {Q A : Type} {n : Nat} {d : Int} {O : Q → A → Option (Q × List (MQ.Ev Rid))} {e q0 : Q} {tr0 : List (MQ.Ev Rid)}
    (hO : ∀ s qtr, Reach O e s qtr → (∃ q, MQ.Spec.Linearizable n qtr q) ∧ Honest qtr) (h0 : Filled O e n q0 tr0)
    {s : CSt Q} {tr : List Ev} (h : Reach (step O) (init n d q0) s tr) :
    ∃ a qtr q, Reach O e s.q qtr ∧ MQ.Spec.Linearizable n qtr q ∧ Reach TP.step (TP.init n d) a tr ∧ Rel n s.p qtr q a := by
  refine Lts.Reach.inv (I := fun s tr => ∃ a qtr q, Reach O e s.q qtr ∧ MQ.Spec.Linearizable n qtr q ∧ Reach TP.step (TP.init n d) a tr ∧ Rel n s.p qtr q a) ?_ ?_ h
  · refine ⟨TP.init n d, tr0, List.range n, h0.1, h0.2.1, Reach.init, ?_, ?_, ?_⟩
    · have e1 : vPC (TP.init n d) tr0 = (TP.init n d).pc := by funext t; exact vPC_eq (by intro c r; rw [h0.2.2]; simp)
      have e2 : vW (TP.init n d) tr0 = (TP.init n d).w := by funext t; exact vW_eq (by intro c r; rw [h0.2.2]; simp)
      show TP.init n d = mk (TP.init n d) (pend (TP.init n d) tr0 ++ List.range n) _ (vPC (TP.init n d) tr0) (vW (TP.init n d) tr0)
      rw [e1, e2]; rfl
    · intro u hu; exact absurd (h0.2.2 u) hu
    · intro t ht; rw [h0.2.2]; trivial
  · rintro s tr act s' ev ⟨a, qtr, q, hf, hq, hr, rel⟩ hs
    cases act with
    | tp act =>
      simp only [step] at hs
      split at hs
      · simp at hs
      · rename_i hc
        split at hs
        · rename_i p' ev' hm
          simp only [Option.some.injEq, Prod.mk.injEq] at hs
          obtain ⟨rfl, rfl⟩ := hs
          have hc' : atQueue s.p act = false := by simpa using hc
          obtain ⟨a', h1, h2⟩ := sim_own hr rel hc' hm
          exact ⟨a', qtr, q, hf, hq, Reach.step hr h1, h2⟩
        · simp at hs
    | mq act =>
      simp only [step] at hs
      split at hs
      · simp at hs
      · rename_i f' evs hO'
        split at hs
        · simp at hs
        · rename_i m' ev' hm
          simp only [Option.some.injEq, Prod.mk.injEq] at hs
          obtain ⟨rfl, rfl⟩ := hs
          have hf' := Reach.step hf hO'
          obtain ⟨⟨q', hl⟩, hh⟩ := hO _ _ hf'
          obtain ⟨a', hr', rel'⟩ := sim_events hr hq rel hl hh hm
          exact ⟨a', _, q', hf', hl, hr', rel'⟩
end Verif.TP.OnQueue
