import Verif.Model.MessageQueueEvent
import Verif.Props.MessageQueue
import Verif.Props.EventFlag
/-
Refinement of the queue on a linearizable event flag program to the queue on the atomic event flag.
-/
set_option linter.unusedSimpArgs false
namespace Verif.MQ.OnFlag
open Verif MQ
open _root_.Verif.Lts (Reach run)
open _root_.Verif.Mtx (Tid Err)
open _root_.Verif.EvF (Tmo)
open _root_.Verif.Props.EventFlag (bitOf bit_hist)
variable {V F : Type} {w : Nat}

/-- The abstract queue state: pc's and bits replaced. -/
def mk (m : St V) (pc : Tid → PC V) (ne nf : Bool) : St V := { m with pc := pc, ne := ne, nf := nf }

section
variable (m : St V) (pc : Tid → PC V) (ne nf : Bool)
theorem mk_ub : (mk m pc ne nf).ub = m.ub := rfl
theorem mk_pc : (mk m pc ne nf).pc = pc := rfl
theorem mk_ms : (mk m pc ne nf).ms = m.ms := rfl
theorem mk_mr : (mk m pc ne nf).mr = m.mr := rfl
theorem mk_mb : (mk m pc ne nf).mb = m.mb := rfl
theorem mk_b : (mk m pc ne nf).b = m.b := rfl
theorem mk_e : (mk m pc ne nf).e = m.e := rfl
theorem mk_nb : (mk m pc ne nf).nb = m.nb := rfl
theorem mk_buf : (mk m pc ne nf).buf = m.buf := rfl
theorem mk_full : isFull (mk m pc ne nf) = isFull m := rfl
theorem mk_empty : isEmpty (mk m pc ne nf) = isEmpty m := rfl
theorem mk_size : size (mk m pc ne nf) = size m := rfl
theorem mk_max : maxSize (mk m pc ne nf) = maxSize m := rfl
end

theorem step_frame {m m' : St V} {act : Act V} {ev : List (Ev V)} (hc : (evCall (m.pc (tid act)) : Option (EvF.Call w)) = none)
    (hs : MQ.step m act = some (m', ev)) (pc : Tid → PC V) (ne nf : Bool) (hp : pc (tid act) = m.pc (tid act)) :
    MQ.step (mk m pc ne nf) act = some (mk m' (upd pc (tid act) (m'.pc (tid act))) ne nf, ev) ∧
    (∀ u, u ≠ tid act → m'.pc u = m.pc u) := by
  cases act with
  | call t c =>
    simp only [tid] at *
    simp only [MQ.step] at hs ⊢
    split at hs
    · cases hs
    · rename_i hub
      split at hs
      · rename_i hidle
        simp only [Option.some.injEq, Prod.mk.injEq] at hs
        obtain ⟨rfl, rfl⟩ := hs
        have h1 : (mk m pc ne nf).ub = m.ub := rfl
        have h2 : (mk m pc ne nf).pc t = .idle := by show pc t = _; rw [hp, hidle]
        rw [h1, if_neg hub, h2]
        refine ⟨?_, fun u hu => by simp [St.at, upd, hu]⟩
        simp [mk, St.at]
      · cases hs
  | go t =>
    simp only [tid] at *
    have hub : m.ub = false := by
      cases h : m.ub
      · rfl
      · simp [MQ.step, h] at hs
    have huu : upd pc t (m.pc t) = pc := by funext k; unfold upd; split <;> simp_all
    cases hpc : m.pc t <;> rw [hpc] at hp hc huu <;> simp only [evCall, reduceCtorEq] at hc <;>
      simp only [MQ.step, hpc, hub, if_false, Bool.false_eq_true] at hs <;>
      simp only [MQ.step, mk_ub, mk_pc, mk_ms, mk_mr, mk_mb, mk_b, mk_e, mk_nb, mk_buf, mk_full, mk_empty, mk_size, mk_max, hp, hub, if_false, Bool.false_eq_true] <;>
      (repeat' split at hs) <;>
      (try simp only [Option.some.injEq, Prod.mk.injEq, reduceCtorEq] at hs) <;> obtain ⟨rfl, rfl⟩ := hs <;>
      (refine ⟨?_, fun u hu => by simp [St.at, upd, hu]⟩; simp_all [mk, St.at])
  | expire t =>
    simp only [tid] at *
    have hub : m.ub = false := by
      cases h : m.ub
      · rfl
      · simp [MQ.step, h] at hs
    cases hpc : m.pc t <;> rw [hpc] at hp hc <;> simp only [evCall, reduceCtorEq] at hc <;>
      simp only [MQ.step, hpc, hub, if_false, Bool.false_eq_true] at hs <;>
      simp only [MQ.step, mk_ub, mk_pc, mk_ms, mk_mr, mk_mb, mk_b, mk_e, mk_nb, mk_buf, mk_full, mk_empty, mk_size, mk_max, hp, hub, if_false, Bool.false_eq_true] <;>
      (repeat' split at hs) <;>
      simp only [Option.some.injEq, Prod.mk.injEq, reduceCtorEq] at hs <;> obtain ⟨rfl, rfl⟩ := hs <;>
      (refine ⟨?_, fun u hu => by simp [St.at, upd, hu]⟩; simp_all [mk, St.at])
  | raise t e =>
    simp only [tid] at *
    have hub : m.ub = false := by
      cases h : m.ub
      · rfl
      · simp [MQ.step, h] at hs
    cases hpc : m.pc t <;> rw [hpc] at hp hc <;> simp only [evCall, reduceCtorEq] at hc <;>
      simp only [MQ.step, hpc, hub, if_false, Bool.false_eq_true] at hs <;>
      simp only [MQ.step, mk_ub, mk_pc, mk_ms, mk_mr, mk_mb, mk_b, mk_e, mk_nb, mk_buf, mk_full, mk_empty, mk_size, mk_max, hp, hub, if_false, Bool.false_eq_true] <;>
      (repeat' split at hs) <;>
      simp only [Option.some.injEq, Prod.mk.injEq, reduceCtorEq] at hs <;> obtain ⟨rfl, rfl⟩ := hs <;>
      (refine ⟨?_, fun u hu => by simp [St.at, upd, hu]⟩; simp_all [mk, St.at])
  | throw t b =>
    simp only [tid] at *
    have hub : m.ub = false := by
      cases h : m.ub
      · rfl
      · simp [MQ.step, h] at hs
    cases hpc : m.pc t <;> rw [hpc] at hp hc <;> simp only [evCall, reduceCtorEq] at hc <;>
      simp only [MQ.step, hpc, hub, if_false, Bool.false_eq_true] at hs <;>
      simp only [MQ.step, mk_ub, mk_pc, mk_ms, mk_mr, mk_mb, mk_b, mk_e, mk_nb, mk_buf, mk_full, mk_empty, mk_size, mk_max, hp, hub, if_false, Bool.false_eq_true] <;>
      (repeat' split at hs) <;>
      simp only [Option.some.injEq, Prod.mk.injEq, reduceCtorEq] at hs <;> obtain ⟨rfl, rfl⟩ := hs <;>
      (refine ⟨?_, fun u hu => by simp [St.at, upd, hu]⟩; simp_all [mk, St.at])

/-! #### One event of the flag -/
open EvF.Spec in
/-- The queue thread's program point as the queue on the atomic flag sees it. -/
def view (m : St V) (ftr : List (EvF.Ev w)) (t : Tid) : PC V :=
  match EvF.Spec.phase t ftr with
  | .done _ r => after (m.pc t) r
  | _ => m.pc t

/-- What the flag's trace says about the queue thread's program point. -/
def okPhase (p : PC V) : EvF.Spec.Phase w → Prop
  | .out => True
  | .called c => evCall p = some c
  | .done c _ => evCall p = some c
  | .bad => False

structure Rel (m : St V) (ftr : List (EvF.Ev w)) (a : St V) : Prop where
  eq : a = mk m (view m ftr) (bitOf false 0 (EvF.Spec.effects ftr)) (bitOf false 1 (EvF.Spec.effects ftr))
  ph : ∀ t, okPhase (m.pc t) (EvF.Spec.phase t ftr)

theorem phase_snoc (t : Tid) (tr : List (EvF.Ev w)) (e : EvF.Ev w) :
    EvF.Spec.phase t (tr ++ [e]) = EvF.Spec.Phase.next t (EvF.Spec.phase t tr) e := by simp [EvF.Spec.phase]

theorem bad_next (t : Tid) (e : EvF.Ev w) : EvF.Spec.Phase.next t .bad e = .bad := by cases e <;> simp [EvF.Spec.Phase.next]

theorem lin_prefix {auto os : Bool} {xs : List (EvF.Ev w)} {x : EvF.Ev w} {σ : BitVec w} (h : EvF.Spec.Linearizable auto os (xs ++ [x]) σ) :
    ∃ σ0, EvF.Spec.Linearizable auto os xs σ0 ∧ ∀ t c r, x = .lin t c r → EvF.Spec.Legal auto os σ0 c r σ := by
  obtain ⟨hh, hp⟩ := h
  have hp' : ∀ t, EvF.Spec.phase t xs ≠ .bad := fun t e => hp t (by rw [phase_snoc, e, bad_next])
  cases x with
  | call t c => exact ⟨σ, ⟨by simpa [EvF.Spec.effects] using hh, hp'⟩, by simp⟩
  | ret t c r => exact ⟨σ, ⟨by simpa [EvF.Spec.effects] using hh, hp'⟩, by simp⟩
  | lin t c r =>
    have e : EvF.Spec.effects (xs ++ [.lin t c r]) = EvF.Spec.effects xs ++ [(c, r)] := by simp [EvF.Spec.effects]
    rw [e] at hh
    generalize hl : EvF.Spec.effects xs ++ [(c, r)] = l at hh
    cases hh with
    | nil => simp at hl
    | snoc h1 h2 =>
      obtain ⟨rfl, e⟩ := List.append_inj' hl rfl
      simp only [List.cons.injEq, Prod.mk.injEq, and_true] at e
      obtain ⟨rfl, rfl⟩ := e
      exact ⟨_, ⟨h1, hp'⟩, by rintro _ _ _ ⟨⟩; exact h2⟩

theorem lin_prefixes {auto os : Bool} {xs : List (EvF.Ev w)} : ∀ {ys : List (EvF.Ev w)} {σ : BitVec w},
    EvF.Spec.Linearizable auto os (xs ++ ys) σ → ∃ σ0, EvF.Spec.Linearizable auto os xs σ0 := by
  intro ys
  induction hn : ys.length generalizing ys with
  | zero => intro σ h; simp at hn; subst hn; exact ⟨σ, by simpa using h⟩
  | succ n ih =>
    intro σ h
    rcases List.eq_nil_or_concat ys with rfl | ⟨zs, z, rfl⟩
    · simp at hn
    · rw [List.concat_eq_append, ← List.append_assoc] at h
      obtain ⟨σ0, h0, _⟩ := lin_prefix h
      exact ih (ys := zs) (by simpa using hn) h0

/-- Only bit 0 is requested by a wait for EV_NOT_EMPTY. -/
theorem ne_bit {i : Nat} : (evNotEmpty w).getLsbD i = (decide (i < w) && decide (i = 0)) := by
  simp only [evNotEmpty, BitVec.getLsbD_ofNat]
  congr 1
  rw [show (1 : Nat) = 2 ^ 0 from rfl, Nat.testBit_two_pow]
  simp [eq_comm]
theorem nf_bit {i : Nat} : (evNotFull w).getLsbD i = (decide (i < w) && decide (i = 1)) := by
  simp only [evNotFull, BitVec.getLsbD_ofNat]
  congr 1
  rw [show (2 : Nat) = 2 ^ 1 from rfl, Nat.testBit_two_pow]
  simp [eq_comm]

theorem eff_snoc (tr : List (EvF.Ev w)) (t : Tid) (c : EvF.Call w) (r : EvF.Res w) :
    EvF.Spec.effects (tr ++ [.lin t c r]) = EvF.Spec.effects tr ++ [(c, r)] := by simp [EvF.Spec.effects]

theorem bit_snoc (i : Nat) (tr : List (EvF.Ev w)) (t : Tid) (c : EvF.Call w) (r : EvF.Res w) :
    bitOf false i (EvF.Spec.effects (tr ++ [.lin t c r])) = Props.EventFlag.bitAfter false i (bitOf false i (EvF.Spec.effects tr)) (c, r) := by
  rw [eff_snoc]; simp [bitOf]

/-- A legal wait for one of the two bits. -/
theorem wait_cases {os : Bool} {i : Nat} {p : BitVec w} {tm : Tmo} {σ σ' : BitVec w} {r : EvF.Res w} (hi : i < w)
    (hp : ∀ j, p.getLsbD j = (decide (j < w) && decide (j = i))) (h : EvF.Spec.Legal false os σ (.timedWait p .OR false tm) r σ') :
    (r = ⟨.OK, none⟩ ∧ σ.getLsbD i = true) ∨ (r = ⟨.TimedOut, none⟩ ∧ tm ≠ .forever ∧ σ.getLsbD i = false) ∨
    (r = ⟨.OtherError, none⟩ ∨ r = ⟨.CalledByNonThread, none⟩) := by
  simp only [EvF.Spec.Legal, EvF.Spec.Wait] at h
  split at h
  · rename_i hx
    rcases hx with hx | hx
    · simp at hx
    · have := hx i hi; rw [hp] at this; simp [hi] at this
  · have hc : EvF.Spec.Cond .OR p.getLsbD σ ↔ σ.getLsbD i = true := by
      simp only [EvF.Spec.Cond]
      constructor
      · rintro ⟨j, hj, h1, h2⟩; rw [hp] at h1; simp [hj] at h1; subst h1; exact h2
      · intro h; exact ⟨i, hi, by rw [hp]; simp [hi], h⟩
    rw [hc] at h
    rcases h with ⟨h1, h2, _⟩ | ⟨h1, h2, _, h3⟩ | ⟨_, h1, _⟩
    · left; exact ⟨by simpa using h2, h1⟩
    · right; left; exact ⟨h1, h2, by simpa using h3⟩
    · right; right; exact h1.symm

theorem view_eq {m : St V} {ftr : List (EvF.Ev w)} {t : Tid} (h : ∀ c r, EvF.Spec.phase t ftr ≠ .done c r) : view m ftr t = m.pc t := by
  unfold view
  split
  · rename_i h'; exact absurd h' (h _ _)
  · rfl

theorem view_done {m : St V} {ftr : List (EvF.Ev w)} {t : Tid} {c r} (h : EvF.Spec.phase t ftr = .done c r) :
    view m ftr t = after (m.pc t) r := by unfold view; rw [h]

theorem view_congr {m m' : St V} {ftr ftr' : List (EvF.Ev w)} {t : Tid} (h : EvF.Spec.phase t ftr' = EvF.Spec.phase t ftr) (hp : m'.pc t = m.pc t) :
    view m' ftr' t = view m ftr t := by unfold view; rw [h, hp]

/-- One event of the flag is a step of the queue on the atomic flag, or nothing. -/
theorem sim_event {cap : Nat} {os : Bool} (hw : 2 ≤ w) {m m' a : St V} {ftr : List (EvF.Ev w)} {x : EvF.Ev w} {σ : BitVec w} {tr ev : List (Ev V)}
    [DecidableEq V] (hr : Reach MQ.step (MQ.init V cap) a tr) (rel : Rel m ftr a) (hl : EvF.Spec.Linearizable false os (ftr ++ [x]) σ)
    (he : onEv m x = some (m', ev)) :
    ∃ a', Reach MQ.step (MQ.init V cap) a' (tr ++ ev) ∧ Rel m' (ftr ++ [x]) a' := by
  obtain ⟨σ0, hl0, hleg⟩ := lin_prefix hl
  have hub : a.ub = false := (Props.MessageQueue.C48_ring hr).1
  have hbits := fun i (hi : i < w) => bit_hist hl0.1 hi
  cases x with
  | call t c =>
    simp only [onEv] at he
    split at he
    · rename_i hc
      simp only [Option.some.injEq, Prod.mk.injEq] at he
      obtain ⟨rfl, rfl⟩ := he
      have hbad := hl.2 t
      rw [phase_snoc] at hbad
      simp only [EvF.Spec.Phase.next, if_true] at hbad
      have hout : EvF.Spec.phase t ftr = .out := by
        by_cases h : EvF.Spec.phase t ftr = .out
        · exact h
        · rw [if_neg h] at hbad; simp at hbad
      refine ⟨a, by simpa using hr, ?_, ?_⟩
      · rw [rel.eq]
        have e : EvF.Spec.effects (ftr ++ [.call t c]) = EvF.Spec.effects ftr := by simp [EvF.Spec.effects]
        have hv : view m (ftr ++ [.call t c]) = view m ftr := by
          funext u
          by_cases hu : u = t
          · subst hu
            rw [view_eq (by intro c' r'; rw [phase_snoc, hout]; simp [EvF.Spec.Phase.next]), view_eq (by intro c' r'; rw [hout]; simp)]
          · exact view_congr (by rw [phase_snoc]; simp [EvF.Spec.Phase.next, Ne.symm hu]) rfl
        rw [e, hv]
      · intro u
        rw [phase_snoc]
        by_cases hu : u = t
        · subst hu; rw [hout]; simp [EvF.Spec.Phase.next, okPhase, hc]
        · have := rel.ph u
          simpa [EvF.Spec.Phase.next, Ne.symm hu] using this
    · simp at he
  | ret t c r =>
    simp only [onEv, Option.some.injEq, Prod.mk.injEq] at he
    obtain ⟨rfl, rfl⟩ := he
    have hbad := hl.2 t
    rw [phase_snoc] at hbad
    simp only [EvF.Spec.Phase.next, if_true] at hbad
    have hdone : EvF.Spec.phase t ftr = .done c r := by
      by_cases h : EvF.Spec.phase t ftr = .done c r
      · exact h
      · rw [if_neg h] at hbad; simp at hbad
    have hout : EvF.Spec.phase t (ftr ++ [.ret t c r]) = .out := by rw [phase_snoc, hdone]; simp [EvF.Spec.Phase.next]
    refine ⟨a, by simpa using hr, ?_, ?_⟩
    · rw [rel.eq]
      have e : EvF.Spec.effects (ftr ++ [.ret t c r]) = EvF.Spec.effects ftr := by simp [EvF.Spec.effects]
      have hv : view (m.at t (after (m.pc t) r)) (ftr ++ [.ret t c r]) = view m ftr := by
        funext u
        by_cases hu : u = t
        · subst hu
          rw [view_eq (by intro c' r'; rw [hout]; simp), view_done hdone]; simp [St.at, upd]
        · exact view_congr (by rw [phase_snoc]; simp [EvF.Spec.Phase.next, Ne.symm hu]) (by simp [St.at, upd, hu])
      rw [e, hv]; rfl
    · intro u
      by_cases hu : u = t
      · subst hu; rw [hout]; simp [okPhase]
      · have := rel.ph u
        rw [phase_snoc]
        simpa [EvF.Spec.Phase.next, Ne.symm hu, St.at, upd, hu] using this
  | lin t c r =>
    simp only [onEv, Option.some.injEq, Prod.mk.injEq] at he
    obtain ⟨rfl, rfl⟩ := he
    have hleg := hleg t c r rfl
    have hbad := hl.2 t
    rw [phase_snoc] at hbad
    simp only [EvF.Spec.Phase.next, if_true] at hbad
    have hcalled : EvF.Spec.phase t ftr = .called c := by
      by_cases h : EvF.Spec.phase t ftr = .called c
      · exact h
      · rw [if_neg h] at hbad; simp at hbad
    have hdone : EvF.Spec.phase t (ftr ++ [.lin t c r]) = .done c r := by rw [phase_snoc, hcalled]; simp [EvF.Spec.Phase.next]
    have hph := rel.ph t
    rw [hcalled] at hph
    simp only [okPhase] at hph
    have hva : view m ftr t = m.pc t := view_eq (by intro c' r'; rw [hcalled]; simp)
    have hv : view m (ftr ++ [.lin t c r]) = upd (view m ftr) t (after (m.pc t) r) := by
      funext u
      by_cases hu : u = t
      · subst hu; rw [view_done hdone]; simp [upd]
      · rw [view_congr (m := m) (ftr := ftr) (by rw [phase_snoc]; simp [EvF.Spec.Phase.next, Ne.symm hu]) rfl]; simp [upd, hu]
    have hrelph : ∀ u, okPhase (m.pc u) (EvF.Spec.phase u (ftr ++ [.lin t c r])) := by
      intro u
      by_cases hu : u = t
      · subst hu; rw [hdone]; simpa [okPhase] using hph
      · have := rel.ph u
        rw [phase_snoc]
        simpa [EvF.Spec.Phase.next, Ne.symm hu] using this
    have hpa : a.pc t = m.pc t := by rw [rel.eq]; exact hva
    have hne : a.ne = σ0.getLsbD 0 := by rw [rel.eq, hbits 0 (by omega)]; rfl
    have hnf : a.nf = σ0.getLsbD 1 := by rw [rel.eq, hbits 1 (by omega)]; rfl
    have key : ∀ (act : Act V) (a' : St V), MQ.step a act = some (a', linEv t (m.pc t) r) →
        a' = mk m (view m (ftr ++ [.lin t c r])) (bitOf false 0 (EvF.Spec.effects (ftr ++ [.lin t c r]))) (bitOf false 1 (EvF.Spec.effects (ftr ++ [.lin t c r]))) →
        ∃ a', Reach MQ.step (MQ.init V cap) a' (tr ++ linEv t (m.pc t) r) ∧ Rel m (ftr ++ [.lin t c r]) a' :=
      fun act a' h1 h2 => ⟨a', Reach.step hr h1, h2, hrelph⟩
    have ha := rel.eq
    rw [bit_snoc, bit_snoc, hv] at key
    cases hpc : m.pc t <;> rw [hpc] at hph hpa key <;> simp only [evCall, reduceCtorEq, Option.some.injEq] at hph <;> subst hph
    case sReset c' v tm =>
      refine key (.go t) _ (by simp only [MQ.step, hpa, hub, linEv]; rfl) ?_
      rw [ha]
      simp [mk, St.at, after, Props.EventFlag.bitAfter, nf_bit]
      omega
    case rReset c' v tm =>
      refine key (.go t) _ (by simp only [MQ.step, hpa, hub, linEv]; rfl) ?_
      rw [ha]
      simp [mk, St.at, after, Props.EventFlag.bitAfter, ne_bit]
      omega
    case sSet c' =>
      refine key (.go t) _ (by simp only [MQ.step, hpa, hub, linEv]; rfl) ?_
      rw [ha]
      simp [mk, St.at, after, Props.EventFlag.bitAfter, ne_bit]
      omega
    case rSet c' v =>
      refine key (.go t) _ (by simp only [MQ.step, hpa, hub, linEv]; rfl) ?_
      rw [ha]
      simp [mk, St.at, after, Props.EventFlag.bitAfter, nf_bit]
      omega
    case sWait c' v tm =>
      rcases wait_cases (i := 1) (by omega) (fun j => nf_bit) hleg with ⟨rfl, h1⟩ | ⟨rfl, h2, h1⟩ | rfl | rfl
      · refine key (.go t) _ (by simp only [MQ.step, hpa, hub, linEv, hnf, h1]; rfl) ?_
        rw [ha]; simp [mk, St.at, after, Props.EventFlag.bitAfter]
      · refine key (.expire t) _ (by simp [MQ.step, hpa, hub, linEv, hnf, h1, h2]; rfl) ?_
        rw [ha]; simp [mk, St.at, after, Props.EventFlag.bitAfter]
      · refine key (.raise t .OtherError) _ (by simp [MQ.step, hpa, hub, linEv]; rfl) ?_
        rw [ha]; simp [mk, St.at, after, Props.EventFlag.bitAfter]
      · refine key (.raise t .CalledByNonThread) _ (by simp [MQ.step, hpa, hub, linEv]; rfl) ?_
        rw [ha]; simp [mk, St.at, after, Props.EventFlag.bitAfter]
    case rWait c' v tm =>
      rcases wait_cases (i := 0) (by omega) (fun j => ne_bit) hleg with ⟨rfl, h1⟩ | ⟨rfl, h2, h1⟩ | rfl | rfl
      · refine key (.go t) _ (by simp only [MQ.step, hpa, hub, linEv, hne, h1]; rfl) ?_
        rw [ha]; simp [mk, St.at, after, Props.EventFlag.bitAfter]
      · refine key (.expire t) _ (by simp [MQ.step, hpa, hub, linEv, hne, h1, h2]; rfl) ?_
        rw [ha]; simp [mk, St.at, after, Props.EventFlag.bitAfter]
      · refine key (.raise t .OtherError) _ (by simp [MQ.step, hpa, hub, linEv]; rfl) ?_
        rw [ha]; simp [mk, St.at, after, Props.EventFlag.bitAfter]
      · refine key (.raise t .CalledByNonThread) _ (by simp [MQ.step, hpa, hub, linEv]; rfl) ?_
        rw [ha]; simp [mk, St.at, after, Props.EventFlag.bitAfter]

theorem sim_events {cap : Nat} {os : Bool} (hw : 2 ≤ w) [DecidableEq V] : ∀ {xs : List (EvF.Ev w)} {m m' a : St V} {ftr : List (EvF.Ev w)} {σ : BitVec w} {tr ev : List (Ev V)}
    (_ : Reach MQ.step (MQ.init V cap) a tr) (_ : Rel m ftr a) (_ : EvF.Spec.Linearizable false os (ftr ++ xs) σ)
    (_ : onEvs m xs = some (m', ev)), ∃ a', Reach MQ.step (MQ.init V cap) a' (tr ++ ev) ∧ Rel m' (ftr ++ xs) a'
  | [], m, m', a, ftr, σ, tr, ev, hr, rel, _, he => by
    simp only [onEvs, Option.some.injEq, Prod.mk.injEq] at he
    obtain ⟨rfl, rfl⟩ := he
    exact ⟨a, by simpa using hr, by simpa using rel⟩
  | x :: xs, m, m', a, ftr, σ, tr, ev, hr, rel, hl, he => by
    simp only [onEvs] at he
    split at he
    · simp at he
    · rename_i m1 e1 h1
      split at he
      · simp at he
      · rename_i m2 e2 h2
        simp only [Option.some.injEq, Prod.mk.injEq] at he
        obtain ⟨rfl, rfl⟩ := he
        have hl' : EvF.Spec.Linearizable false os ((ftr ++ [x]) ++ xs) σ := by simpa using hl
        obtain ⟨σ0, hl0⟩ := lin_prefixes hl'
        obtain ⟨a1, hr1, rel1⟩ := sim_event hw hr rel hl0 h1
        obtain ⟨a2, hr2, rel2⟩ := sim_events hw hr1 rel1 hl' h2
        exact ⟨a2, by simpa using hr2, by simpa using rel2⟩

/-- Every execution of the queue on a linearizable event flag program is, event for event, an execution of the queue on the atomic one. -/
theorem simulation {cap : Nat} {os : Bool} (hw : 2 ≤ w) [DecidableEq V] {O : F → EvF.Act w → Option (F × List (EvF.Ev w))} {f0 : F}
    (hO : ∀ f ftr, Reach O f0 f ftr → ∃ σ, EvF.Spec.Linearizable false os ftr σ)
    {s : CSt V F} {tr : List (Ev V)} (h : Reach (step O) (init V cap f0) s tr) :
    ∃ a ftr, Reach O f0 s.f ftr ∧ Reach MQ.step (MQ.init V cap) a tr ∧ Rel s.m ftr a := by
  refine Lts.Reach.inv (I := fun s tr => ∃ a ftr, Reach O f0 s.f ftr ∧ Reach MQ.step (MQ.init V cap) a tr ∧ Rel s.m ftr a) ?_ ?_ h
  · exact ⟨_, [], Reach.init, Reach.init, ⟨by rfl, fun t => by simp [EvF.Spec.phase, okPhase]⟩⟩
  · rintro s tr act s' ev ⟨a, ftr, hf, hr, rel⟩ hs
    cases act with
    | mq act =>
      simp only [step] at hs
      split at hs
      · rename_i hc
        split at hs
        · rename_i m' ev' hm
          simp only [Option.some.injEq, Prod.mk.injEq] at hs
          obtain ⟨rfl, rfl⟩ := hs
          have hout : EvF.Spec.phase (tid act) ftr = .out := by
            have := rel.ph (tid act)
            cases hp : EvF.Spec.phase (tid act) ftr <;> rw [hp] at this <;> simp_all [okPhase]
          have hv : view s.m ftr (tid act) = s.m.pc (tid act) := view_eq (by intro c r; rw [hout]; simp)
          obtain ⟨h1, h2⟩ := step_frame hc hm (view s.m ftr) _ _ hv
          rw [← rel.eq] at h1
          refine ⟨_, ftr, hf, Reach.step hr h1, ?_, fun u => ?_⟩
          · congr 1
            funext u
            by_cases hu : u = tid act
            · subst hu
              rw [view_eq (by intro c r; rw [hout]; simp)]; simp [upd]
            · rw [view_congr (m := s.m) rfl (h2 u hu)]; simp [upd, hu]
          · by_cases hu : u = tid act
            · subst hu; rw [hout]; simp [okPhase]
            · rw [h2 u hu]; exact rel.ph u
        · simp at hs
      · simp at hs
    | ev act =>
      simp only [step] at hs
      split at hs
      · simp at hs
      · rename_i f' evs hO'
        split at hs
        · simp at hs
        · rename_i m' ev' hm
          simp only [Option.some.injEq, Prod.mk.injEq] at hs
          obtain ⟨rfl, rfl⟩ := hs
          have hf' := Reach.step hf hO'
          obtain ⟨σ, hl⟩ := hO _ _ hf'
          obtain ⟨a', hr', rel'⟩ := sim_events hw hr rel hl hm
          exact ⟨a', _, hf', hr', rel'⟩

end Verif.MQ.OnFlag
