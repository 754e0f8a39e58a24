import Verif.Spec.EventFlag
namespace Verif.EvF
open Verif Mtx Spec Lts
variable {w : Nat}

/-! #### Bit-level lemmas -/

theorem pred_or (p pat : BitVec w) : pred .OR p pat = true ↔ ∃ i, i < w ∧ p.getLsbD i = true ∧ pat.getLsbD i = true := by
  simp only [pred, if_true, bne_iff_ne, ne_eq]
  constructor
  · intro h
    apply Classical.byContradiction
    intro hn
    apply h
    apply BitVec.eq_of_getLsbD_eq
    intro i hi
    simp only [BitVec.getLsbD_and]
    cases h1 : p.getLsbD i
    · simp
    · cases h2 : pat.getLsbD i
      · simp
      · exact absurd ⟨i, hi, h1, h2⟩ hn
  · rintro ⟨i, _, h1, h2⟩ he
    have := congrArg (fun x => x.getLsbD i) he
    simp [h1, h2] at this

theorem pred_and (p pat : BitVec w) : pred .AND p pat = true ↔ ∀ i, i < w → p.getLsbD i = true → pat.getLsbD i = true := by
  simp only [pred, reduceCtorEq, if_false, beq_iff_eq]
  constructor
  · intro h i _ h1
    have := congrArg (fun x => x.getLsbD i) h
    simpa [h1] using this
  · intro h
    apply BitVec.eq_of_getLsbD_eq
    intro i hi
    have := h i hi
    cases h1 : p.getLsbD i <;> simp_all

theorem pred_cond {m : Mode} {p pat : BitVec w} (hm : m = .OR ∨ m = .AND) : pred m p pat = true ↔ Cond m p.getLsbD pat := by
  rcases hm with rfl | rfl
  · exact pred_or p pat
  · exact pred_and p pat

theorem zero_iff (p : BitVec w) : p = 0 ↔ ∀ i, i < w → p.getLsbD i = false := by
  constructor
  · rintro rfl i _; simp
  · intro h; apply BitVec.eq_of_getLsbD_eq; intro i hi; simpa using h i hi

theorem allBits_bit {i : Nat} (hi : i < w) : (allBits w).getLsbD i = true := by simp [allBits, hi]
theorem oneBit_bit {i pos : Nat} (hi : i < w) : (oneBit w pos).getLsbD i = (i == pos) := by
  simp only [oneBit, BitVec.getLsbD_twoPow]
  by_cases h : i = pos
  · subst h; simp [hi]
  · simp [h, show pos ≠ i from fun e => h e.symm]

theorem Cond.congr {m : Mode} {f g : Nat → Bool} (h : ∀ i, i < w → f i = g i) (σ : BitVec w) : Cond m f σ ↔ Cond m g σ := by
  cases m <;> simp only [Cond] <;> grind

theorem Wait.congr {auto os : Bool} {f g : Nat → Bool} (h : ∀ i, i < w → f i = g i) {m out tm} {σ : BitVec w} {r σ'} :
    Wait auto os f m out tm σ r σ' ↔ Wait auto os g m out tm σ r σ' := by
  unfold Wait
  rw [Cond.congr h]
  have : (∀ i, i < w → f i = false) ↔ (∀ i, i < w → g i = false) := by grind
  simp only [this]

/-! #### The calls in terms of their primitive -/

/-- What the specification says about a call, by primitive. -/
def PLegal (auto os : Bool) (σ : BitVec w) : Prim w → Res w → BitVec w → Prop
  | .twait p m out tm, r, σ' => Wait auto os p.getLsbD m out tm σ r σ'
  | .set p, r, σ' => r = ⟨.OK, none⟩ ∧ σ' = σ ||| p
  | .reset p, r, σ' => r = ⟨.OK, none⟩ ∧ σ' = σ &&& ~~~p
  | .get, r, σ' => r = ⟨.OK, some σ⟩ ∧ σ' = σ
  | .invalid, r, σ' => r = ⟨.InvalidParameter, none⟩ ∧ σ' = σ

theorem change_set {f : Nat → Bool} {p σ σ' : BitVec w} (hf : ∀ i, i < w → f i = p.getLsbD i) : Change f true σ σ' ↔ σ' = σ ||| p := by
  constructor
  · intro h; apply BitVec.eq_of_getLsbD_eq; intro i hi; rw [h i hi, hf i hi, BitVec.getLsbD_or]; cases p.getLsbD i <;> simp
  · rintro rfl i hi; rw [hf i hi, BitVec.getLsbD_or]; cases p.getLsbD i <;> simp
theorem change_reset {f : Nat → Bool} {p σ σ' : BitVec w} (hf : ∀ i, i < w → f i = p.getLsbD i) : Change f false σ σ' ↔ σ' = σ &&& ~~~p := by
  constructor
  · intro h; apply BitVec.eq_of_getLsbD_eq; intro i hi; rw [h i hi, hf i hi, BitVec.getLsbD_and, BitVec.getLsbD_not]; cases p.getLsbD i <;> simp [hi]
  · rintro rfl i hi; rw [hf i hi, BitVec.getLsbD_and, BitVec.getLsbD_not]; cases p.getLsbD i <;> simp [hi]

theorem wait_oob {auto os : Bool} {pos : Nat} (hp : w ≤ pos) {out tm} {σ : BitVec w} {r σ'} :
    Wait auto os (fun i => i == pos) .OR out tm σ r σ' ↔ (r = ⟨.InvalidParameter, none⟩ ∧ σ' = σ) := by
  unfold Wait
  rw [if_pos (Or.inr (by intro i hi; simp; omega))]

theorem legal_iff {auto os : Bool} {σ : BitVec w} (c : Call w) (r : Res w) (σ' : BitVec w) :
    Legal auto os σ c r σ' ↔ PLegal auto os σ (dispatch c) r σ' := by
  cases c <;> simp only [Legal, dispatch]
  case waitAny | tryWaitAny | timedWaitAny => simp only [PLegal]; exact Wait.congr fun i hi => (allBits_bit hi).symm
  case waitOne pos | tryWaitOne pos =>
    split
    · next h => simp only [PLegal]; exact wait_oob h
    · simp only [PLegal]; exact Wait.congr fun i hi => (oneBit_bit hi).symm
  case timedWaitOne pos tm =>
    split
    · next h => simp only [PLegal]; exact wait_oob h
    · simp only [PLegal]; exact Wait.congr fun i hi => (oneBit_bit hi).symm
  case wait | tryWait | timedWait => simp only [PLegal]
  case setAll => simp only [PLegal]; rw [change_set fun i hi => (allBits_bit hi).symm]
  case resetAll => simp only [PLegal]; rw [change_reset fun i hi => (allBits_bit hi).symm]
  case setOne pos =>
    by_cases h : pos < w
    · rw [if_pos h, if_neg (by omega)]; simp only [PLegal]; rw [change_set fun i hi => (oneBit_bit hi).symm]
    · rw [if_neg h, if_pos (by omega)]; simp only [PLegal]
  case resetOne pos =>
    by_cases h : pos < w
    · rw [if_pos h, if_neg (by omega)]; simp only [PLegal]; rw [change_reset fun i hi => (oneBit_bit hi).symm]
    · rw [if_neg h, if_pos (by omega)]; simp only [PLegal]
  case set p => simp only [PLegal]; rw [change_set fun i hi => rfl]
  case reset p => simp only [PLegal]; rw [change_reset fun i hi => rfl]
  case getCurrentPattern => simp only [PLegal]

/-! #### Trace lemmas -/

theorem effects_app (tr ev : List (Ev w)) : effects (tr ++ ev) = effects tr ++ effects ev := by simp [effects]
theorem phase_app (t : Tid) (tr ev : List (Ev w)) : phase t (tr ++ ev) = ev.foldl (Phase.next t) (phase t tr) := by simp [phase]

/-! #### StdCppEventFlag: the invariant -/
section Std
open EvF.Std

/-- The wait in progress is the one the caller asked for, with valid parameters. -/
def Asked (c : Call w) (a : W w) : Prop := dispatch c = .twait a.p a.m a.out a.tm ∧ (a.m = .OR ∨ a.m = .AND) ∧ a.p ≠ 0

def Loc (s : Std.St w) (ph : Phase w) (t : Tid) : PC w → Prop
  | .idle => ph = .out
  | .entry c => ph = .called c
  | .lockW c a => ph = .called c ∧ Asked c a
  | .test c a last => ph = .called c ∧ Asked c a ∧ s.holder = some t ∧ (last = true → a.tm ≠ .forever)
  | .sleep c a => ph = .called c ∧ Asked c a
  | .woken c a last => ph = .called c ∧ Asked c a ∧ (last = true → a.tm ≠ .forever)
  | .out c a => ph = .called c ∧ Asked c a ∧ s.holder = some t ∧ pred a.m a.p s.pat = true
  | .clear c r => ph = .called c ∧ s.holder = some t ∧ ∃ a, Asked c a ∧ pred a.m a.p s.pat = true ∧ r = if a.out then some s.pat else none
  | .lockS c p => ph = .called c ∧ dispatch c = .set p
  | .writeS c p => ph = .called c ∧ dispatch c = .set p ∧ s.holder = some t
  | .notify c => ph = .done c ⟨.OK, none⟩ ∧ s.holder = some t
  | .lockR c p => ph = .called c ∧ dispatch c = .reset p
  | .writeR c p => ph = .called c ∧ dispatch c = .reset p ∧ s.holder = some t
  | .lockG c => ph = .called c ∧ dispatch c = .get
  | .readG c => ph = .called c ∧ dispatch c = .get ∧ s.holder = some t
  | .unlock c r => ph = .done c r ∧ s.holder = some t
  | .ret c r => ph = .done c r

structure Inv (auto : Bool) (s : Std.St w) (tr : List (Ev w)) : Prop where
  hist : Hist auto false (effects tr) s.pat
  loc : ∀ t, Loc s (phase t tr) t (s.pc t)
  /-- Nobody holds the mutex without being in a critical section. -/
  crit : ∀ t, s.holder = some t → (∃ c a l, s.pc t = .test c a l) ∨ (∃ c a, s.pc t = .out c a) ∨ (∃ c r, s.pc t = .clear c r) ∨
    (∃ c p, s.pc t = .writeS c p) ∨ (∃ c, s.pc t = .notify c) ∨ (∃ c p, s.pc t = .writeR c p) ∨ (∃ c, s.pc t = .readG c) ∨ (∃ c r, s.pc t = .unlock c r)
  /-- No sleeper is missed: if its condition holds a notification is about to come. -/
  awake : ∀ t c a, s.pc t = .sleep c a → pred a.m a.p s.pat = true → ∃ u c', s.pc u = .notify c'

theorem Inv.init (auto : Bool) : Inv auto (Std.init w) [] := by
  refine ⟨Hist.nil, ?_, ?_, ?_⟩ <;> simp [Std.init, Loc, phase]

theorem Loc.frame {s s' : Std.St w} {ph : Phase w} {t u : Tid} {p : PC w} (hne : u ≠ t) (h : Loc s ph u p)
    (h1 : s.holder = none ∨ s.holder = some t ∨ (s'.holder = s.holder ∧ s'.pat = s.pat)) : Loc s' ph u p := by
  have : s.holder = some u → s'.holder = s.holder ∧ s'.pat = s.pat := by
    intro e; rcases h1 with h1 | h1 | h1
    · simp [h1] at e
    · rw [h1] at e; simp at e; exact absurd e.symm hne
    · exact h1
  cases p <;> simp only [Loc] at * <;> grind

/-- Events of thread `t` only. -/
def mine (t : Tid) : Ev w → Prop
  | .call u _ => u = t
  | .lin u _ _ => u = t
  | .ret u _ _ => u = t

theorem phase_other {t u : Tid} (hne : u ≠ t) {ev : List (Ev w)} (h : ∀ e, e ∈ ev → mine t e) (ph : Phase w) :
    ev.foldl (Phase.next u) ph = ph := by
  induction ev generalizing ph with
  | nil => rfl
  | cons e ev ih =>
    have h1 := h e (by simp)
    rw [List.foldl_cons, show Phase.next u ph e = ph by cases e <;> simp only [mine] at h1 <;> subst h1 <;> simp [Phase.next, hne.symm]]
    exact ih (fun e he => h e (by simp [he])) ph

theorem Spec.Hist.go {auto os : Bool} {h : List (Call w × Res w)} {σ σ' : BitVec w} {c : Call w} {r : Res w} (hh : Hist auto os h σ)
    (hl : PLegal auto os σ (dispatch c) r σ') : Hist auto os (h ++ [(c, r)]) σ' :=
  Hist.snoc hh ((legal_iff c r σ').2 hl)

theorem eff0 {auto os : Bool} {h : List (Call w × Res w)} {σ : BitVec w} (hh : Hist auto os h σ) : Hist auto os (h ++ []) σ := by
  rwa [List.append_nil]

theorem Inv.step {auto : Bool} {s s' : Std.St w} {tr ev : List (Ev w)} {a : Act w} (h : Inv auto s tr)
    (hs : Std.step auto s a = some (s', ev)) : Inv auto s' (tr ++ ev) := by
  obtain ⟨hh, hl, hc, ha⟩ := h
  -- the acting thread only
  have main : ∀ t p', s'.pc = upd s.pc t p' → (∀ e, e ∈ ev → mine t e) →
      (s.holder = none ∨ s.holder = some t ∨ (s'.holder = s.holder ∧ s'.pat = s.pat)) →
      Hist auto false (effects tr ++ effects ev) s'.pat → Loc s' (ev.foldl (Phase.next t) (phase t tr)) t p' →
      (s'.holder = none ∨ s'.holder = s.holder ∨ s'.holder = some t) →
      (s'.holder = some t → (∃ c a l, p' = .test c a l) ∨ (∃ c a, p' = .out c a) ∨ (∃ c r, p' = .clear c r) ∨
        (∃ c p, p' = .writeS c p) ∨ (∃ c, p' = .notify c) ∨ (∃ c p, p' = .writeR c p) ∨ (∃ c, p' = .readG c) ∨ (∃ c r, p' = .unlock c r)) →
      (∀ c a, p' = .sleep c a → pred a.m a.p s'.pat = false) →
      ((∀ u c a, u ≠ t → s.pc u = .sleep c a → pred a.m a.p s'.pat = true → pred a.m a.p s.pat = true) ∨ (∃ c, p' = .notify c)) →
      (∀ c, s.pc t ≠ .notify c) →
      Inv auto s' (tr ++ ev) := by
    intro t p' hpc hmine hfr hhist hloc hho hcrit hslp hmon hnn
    refine ⟨by rw [effects_app]; exact hhist, fun u => ?_, fun u hu => ?_, fun u c a hu hp => ?_⟩
    · rw [phase_app, hpc]
      by_cases e : u = t
      · subst e; rw [upd_same]; exact hloc
      · rw [upd_ne _ _ e, phase_other e hmine]
        exact (hl u).frame e hfr
    · by_cases e : u = t
      · subst e; rw [hpc, upd_same]; exact hcrit hu
      · rw [hpc, upd_ne _ _ e]
        apply hc u
        rcases hho with h1 | h1 | h1
        · rw [h1] at hu; simp at hu
        · rw [← h1]; exact hu
        · rw [h1] at hu; simp at hu; exact absurd hu.symm e
    · by_cases e : u = t
      · subst e; rw [hpc, upd_same] at hu; have := hslp c a hu; rw [hp] at this; simp at this
      · rw [hpc, upd_ne _ _ e] at hu
        rcases hmon with h1 | ⟨c', h1⟩
        · obtain ⟨v, c', hv⟩ := ha u c a hu (h1 u c a e hu hp)
          refine ⟨v, c', ?_⟩
          rw [hpc, upd_ne _ _ (fun e2 => hnn c' (by rw [← e2]; exact hv))]; exact hv
        · exact ⟨t, c', by rw [hpc, upd_same, h1]⟩
  cases a with
  | call t c =>
    simp only [Std.step, Option.ite_none_right_eq_some, Option.some.injEq, Prod.mk.injEq] at hs
    obtain ⟨hpc, rfl, rfl⟩ := hs
    have ht := hl t
    rw [hpc] at ht
    simp only [Loc] at ht
    have hcr := hc t
    refine main t _ rfl (by simp [mine]) (Or.inr (Or.inr ⟨rfl, rfl⟩)) ?_ ?_ (Or.inr (Or.inl rfl)) ?_ (by simp) (Or.inl ?_) (by simp [hpc])
    · exact eff0 hh
    · simp [Loc, Phase.next, ht]
    · intro hho; have := hcr hho; simp [hpc] at this
    · intros; assumption
  | go t =>
    simp only [Std.step] at hs
    have ht := hl t
    have hcr := hc t
    cases hpc : s.pc t <;> rw [hpc] at ht <;> simp only [hpc] at hs <;> simp only [Loc] at ht
    case idle => simp at hs
    case entry c =>
      have hnc : s.holder ≠ some t := fun e => by have := hcr e; simp [hpc] at this
      have inval : PLegal auto false s.pat (dispatch c) ⟨.InvalidParameter, none⟩ s.pat →
          s' = s.at t (.ret c ⟨.InvalidParameter, none⟩) → ev = [.lin t c ⟨.InvalidParameter, none⟩] → Inv auto s' (tr ++ ev) := by
        rintro hp rfl rfl
        refine main t _ rfl (by simp [mine]) (Or.inr (Or.inr ⟨rfl, rfl⟩)) ?_ ?_ (Or.inr (Or.inl rfl)) ?_ (by simp) (Or.inl (fun _ _ _ _ _ h => h)) (by simp [hpc])
        · exact hh.go hp
        · simp [Loc, Phase.next, ht]
        · intro hho; exact absurd hho hnc
      have other : ∀ p', s' = s.at t p' → ev = [] → Loc s' (phase t tr) t p' → (∀ c a, p' ≠ .sleep c a) → Inv auto s' (tr ++ ev) := by
        rintro p' rfl rfl hloc hns
        refine main t _ rfl (by simp) (Or.inr (Or.inr ⟨rfl, rfl⟩)) ?_ hloc (Or.inr (Or.inl rfl)) ?_ (fun c a e => absurd e (hns c a)) (Or.inl (fun _ _ _ _ _ h => h)) (by simp [hpc])
        · exact eff0 hh
        · intro hho; exact absurd hho hnc
      cases hd : dispatch c <;> simp only [hd] at hs
      case invalid =>
        simp only [Option.some.injEq, Prod.mk.injEq] at hs
        exact inval (by simp [hd, PLegal]) hs.1.symm hs.2.symm
      case twait p m out tm =>
        split at hs
        · next hm =>
          simp only [Option.some.injEq, Prod.mk.injEq] at hs
          exact inval (by simp [hd, PLegal, Wait, hm]) hs.1.symm hs.2.symm
        · next hm =>
          split at hs
          · next hp =>
            simp only [Option.some.injEq, Prod.mk.injEq] at hs
            refine inval ?_ hs.1.symm hs.2.symm
            simp only [hd, PLegal, Wait]
            rw [if_pos (Or.inr ((zero_iff p).1 hp))]; simp
          · next hp =>
            simp only [Option.some.injEq, Prod.mk.injEq] at hs
            refine other _ hs.1.symm hs.2.symm ?_ (by simp)
            simp only [Loc, Asked]
            refine ⟨ht, hd, ?_, hp⟩
            cases m <;> simp at hm ⊢
      case set p =>
        simp only [Option.some.injEq, Prod.mk.injEq] at hs
        exact other _ hs.1.symm hs.2.symm (by simp [Loc, ht, hd]) (by simp)
      case reset p =>
        simp only [Option.some.injEq, Prod.mk.injEq] at hs
        exact other _ hs.1.symm hs.2.symm (by simp [Loc, ht, hd]) (by simp)
      case get =>
        simp only [Option.some.injEq, Prod.mk.injEq] at hs
        exact other _ hs.1.symm hs.2.symm (by simp [Loc, ht, hd]) (by simp)
    case sleep => simp at hs
    case notify c =>
      simp only [Option.some.injEq, Prod.mk.injEq] at hs
      obtain ⟨rfl, rfl⟩ := hs
      rw [List.append_nil]
      refine ⟨hh, fun u => ?_, fun u hu => ?_, fun u c a hu hp => ?_⟩
      · by_cases e : u = t
        · subst e; simp only [upd_same, Loc]; exact ht
        · show Loc _ (phase u tr) u (upd (wakeAll s.pc) t (.unlock c ⟨.OK, none⟩) u)
          rw [upd_ne _ _ e]
          have hu := hl u
          unfold wakeAll
          cases hpu : s.pc u <;> rw [hpu] at hu <;> simp only [Loc] at hu ⊢ <;> grind
      · by_cases e : u = t
        · subst e; simp [upd_same]
        · have : u = t := by have := ht.2; simp only at hu; rw [this] at hu; simpa using hu.symm
          exact absurd this e
      · by_cases e : u = t
        · subst e; simp [upd_same] at hu
        · simp only at hu
          rw [upd_ne _ _ e] at hu
          unfold wakeAll at hu
          split at hu
          · simp at hu
          · next hx => exact absurd hu (hx c a)
    case lockW c a =>
      simp only [Option.ite_none_right_eq_some, Option.some.injEq, Prod.mk.injEq] at hs
      obtain ⟨hn, rfl, rfl⟩ := hs
      exact main t _ rfl (by simp) (Or.inl hn) (eff0 hh) (by simp [Loc, ht]) (Or.inr (Or.inr rfl)) (by simp) (by simp)
        (Or.inl (fun _ _ _ _ _ h => h)) (by simp [hpc])
    case woken c a last =>
      simp only [Option.ite_none_right_eq_some, Option.some.injEq, Prod.mk.injEq] at hs
      obtain ⟨hn, rfl, rfl⟩ := hs
      refine main t _ rfl (by simp) (Or.inl hn) (eff0 hh) ?_ (Or.inr (Or.inr rfl)) (by simp) (by simp)
        (Or.inl (fun _ _ _ _ _ h => h)) (by simp [hpc])
      simp only [Loc, List.foldl_nil]; exact ⟨ht.1, ht.2.1, trivial, ht.2.2⟩
    case lockS c p =>
      simp only [Option.ite_none_right_eq_some, Option.some.injEq, Prod.mk.injEq] at hs
      obtain ⟨hn, rfl, rfl⟩ := hs
      exact main t _ rfl (by simp) (Or.inl hn) (eff0 hh) (by simp [Loc, ht]) (Or.inr (Or.inr rfl)) (by simp) (by simp)
        (Or.inl (fun _ _ _ _ _ h => h)) (by simp [hpc])
    case lockR c p =>
      simp only [Option.ite_none_right_eq_some, Option.some.injEq, Prod.mk.injEq] at hs
      obtain ⟨hn, rfl, rfl⟩ := hs
      exact main t _ rfl (by simp) (Or.inl hn) (eff0 hh) (by simp [Loc, ht]) (Or.inr (Or.inr rfl)) (by simp) (by simp)
        (Or.inl (fun _ _ _ _ _ h => h)) (by simp [hpc])
    case lockG c =>
      simp only [Option.ite_none_right_eq_some, Option.some.injEq, Prod.mk.injEq] at hs
      obtain ⟨hn, rfl, rfl⟩ := hs
      exact main t _ rfl (by simp) (Or.inl hn) (eff0 hh) (by simp [Loc, ht]) (Or.inr (Or.inr rfl)) (by simp) (by simp)
        (Or.inl (fun _ _ _ _ _ h => h)) (by simp [hpc])
    case test c a last =>
      obtain ⟨h1, h2, h3, h4⟩ := ht
      split at hs
      · next hp =>
        simp only [Option.some.injEq, Prod.mk.injEq] at hs
        obtain ⟨rfl, rfl⟩ := hs
        exact main t _ rfl (by simp) (Or.inr (Or.inl h3)) (eff0 hh) (by simp [Loc, h1, h2, h3, Std.St.at, hp]) (Or.inr (Or.inl rfl)) (by simp) (by simp)
          (Or.inl (fun _ _ _ _ _ h => h)) (by simp [hpc])
      · next hp =>
        split at hs
        · next hlast =>
          simp only [Option.some.injEq, Prod.mk.injEq] at hs
          obtain ⟨rfl, rfl⟩ := hs
          refine main t _ rfl (by simp [mine]) (Or.inr (Or.inl h3)) (hh.go (σ' := s.pat) ?_) (by simp [Loc, h1, h3, Std.St.at, Phase.next]) (Or.inr (Or.inl rfl)) (by simp) (by simp)
            (Or.inl (fun _ _ _ _ _ h => h)) (by simp [hpc])
          rw [h2.1]
          simp only [PLegal, Wait]
          rw [if_neg (by
            rintro (⟨x, y⟩ | x)
            · rcases h2.2.1 with e | e <;> contradiction
            · exact h2.2.2 ((zero_iff _).2 x))]
          exact Or.inr (Or.inl ⟨trivial, h4 hlast, trivial, fun e => hp ((pred_cond h2.2.1).2 e)⟩)
        · simp only [Option.some.injEq, Prod.mk.injEq] at hs
          obtain ⟨rfl, rfl⟩ := hs
          refine main t _ rfl (by simp) (Or.inr (Or.inl h3)) (eff0 hh) (by simp [Loc, h1, h2]) (Or.inl rfl) (by simp) ?_
            (Or.inl (fun _ _ _ _ _ h => h)) (by simp [hpc])
          intro c' a' e
          simp only [PC.sleep.injEq] at e
          obtain ⟨rfl, rfl⟩ := e
          simpa [Std.St.at] using hp
    case out c a =>
      obtain ⟨h1, h2, h3, h4⟩ := ht
      simp only [Option.some.injEq, Prod.mk.injEq] at hs
      obtain ⟨rfl, rfl⟩ := hs
      refine main t _ rfl (by simp) (Or.inr (Or.inl h3)) (eff0 hh) ?_ (Or.inr (Or.inl rfl)) (by simp) (by simp)
        (Or.inl (fun _ _ _ _ _ h => h)) (by simp [hpc])
      simp only [Loc, Std.St.at, List.foldl_nil]
      exact ⟨h1, h3, a, h2, h4, rfl⟩
    case clear c r =>
      obtain ⟨h1, h3, a, h2, h4, hr⟩ := ht
      simp only [Option.some.injEq, Prod.mk.injEq] at hs
      obtain ⟨rfl, rfl⟩ := hs
      refine main t _ rfl (by simp [mine]) (Or.inr (Or.inl h3)) (hh.go ?_) (by simp [Loc, h1, h3, Std.St.at, Phase.next]) (Or.inr (Or.inl rfl)) (by simp) (by simp)
        (Or.inl ?_) (by simp [hpc])
      · rw [h2.1]
        simp only [PLegal, Wait]
        rw [if_neg (by
          rintro (⟨x, y⟩ | x)
          · rcases h2.2.1 with e | e <;> contradiction
          · exact h2.2.2 ((zero_iff _).2 x))]
        exact Or.inl ⟨(pred_cond h2.2.1).1 h4, by rw [hr], trivial⟩
      · intro u c' a' hne hu hp
        simp only at hp
        split at hp
        · have hu' := hl u
          rw [hu] at hu'
          simp only [Loc, Asked] at hu'
          have hm := hu'.2.2.1
          have hz := hu'.2.2.2
          rcases hm with e | e <;> simp [pred, e] at hp
          exact absurd hp.symm hz
        · exact hp
    case writeS c p =>
      obtain ⟨h1, h2, h3⟩ := ht
      simp only [Option.some.injEq, Prod.mk.injEq] at hs
      obtain ⟨rfl, rfl⟩ := hs
      exact main t _ rfl (by simp [mine]) (Or.inr (Or.inl h3)) (hh.go (by simp [h2, PLegal])) (by simp [Loc, h1, h3, Std.St.at, Phase.next]) (Or.inr (Or.inl rfl)) (by simp) (by simp)
        (Or.inr ⟨c, rfl⟩) (by simp [hpc])
    case writeR c p =>
      obtain ⟨h1, h2, h3⟩ := ht
      simp only [Option.some.injEq, Prod.mk.injEq] at hs
      obtain ⟨rfl, rfl⟩ := hs
      refine main t _ rfl (by simp [mine]) (Or.inr (Or.inl h3)) (hh.go (by simp [h2, PLegal])) (by simp [Loc, h1, h3, Std.St.at, Phase.next]) (Or.inr (Or.inl rfl)) (by simp) (by simp)
        (Or.inl ?_) (by simp [hpc])
      intro u c' a' hne hu hp
      have hu' := hl u
      rw [hu] at hu'
      simp only [Loc, Asked] at hu'
      rcases hu'.2.2.1 with e | e <;> rw [e] at hp ⊢
      · rw [pred_or] at hp ⊢
        obtain ⟨i, hi, x, y⟩ := hp
        exact ⟨i, hi, x, by simp at y; exact y.1⟩
      · rw [pred_and] at hp ⊢
        intro i hi x
        have y := hp i hi x
        simp at y; exact y.1
    case readG c =>
      obtain ⟨h1, h2, h3⟩ := ht
      simp only [Option.some.injEq, Prod.mk.injEq] at hs
      obtain ⟨rfl, rfl⟩ := hs
      exact main t _ rfl (by simp [mine]) (Or.inr (Or.inl h3)) (hh.go (σ' := s.pat) (by simp [h2, PLegal])) (by simp [Loc, h1, h3, Std.St.at, Phase.next]) (Or.inr (Or.inl rfl)) (by simp) (by simp)
        (Or.inl (fun _ _ _ _ _ h => h)) (by simp [hpc])
    case unlock c r =>
      simp only [Option.some.injEq, Prod.mk.injEq] at hs
      obtain ⟨rfl, rfl⟩ := hs
      exact main t _ rfl (by simp) (Or.inr (Or.inl ht.2)) (eff0 hh) (by simp [Loc, ht]) (Or.inl rfl) (by simp) (by simp)
        (Or.inl (fun _ _ _ _ _ h => h)) (by simp [hpc])
    case ret c r =>
      simp only [Option.some.injEq, Prod.mk.injEq] at hs
      obtain ⟨rfl, rfl⟩ := hs
      have hnc : s.holder ≠ some t := fun e => by have := hcr e; simp [hpc] at this
      exact main t _ rfl (by simp [mine]) (Or.inr (Or.inr ⟨rfl, rfl⟩)) (eff0 hh) (by simp [Loc, ht, Phase.next]) (Or.inr (Or.inl rfl))
        (fun e => absurd e hnc) (by simp) (Or.inl (fun _ _ _ _ _ h => h)) (by simp [hpc])
  | wake t =>
    simp only [Std.step] at hs
    have ht := hl t
    have hcr := hc t
    split at hs <;> try simp at hs
    next c a hpc =>
    obtain ⟨rfl, rfl⟩ := hs
    rw [hpc] at ht
    simp only [Loc] at ht
    have hnc : s.holder ≠ some t := fun e => by have := hcr e; simp [hpc] at this
    exact main t _ rfl (by simp) (Or.inr (Or.inr ⟨rfl, rfl⟩)) (eff0 hh) (by simp [Loc, ht]) (Or.inr (Or.inl rfl))
      (fun e => absurd e hnc) (by simp) (Or.inl (fun _ _ _ _ _ h => h)) (by simp [hpc])
  | timeout t =>
    simp only [Std.step] at hs
    have ht := hl t
    have hcr := hc t
    split at hs <;> try simp at hs
    next c a hpc =>
    obtain ⟨hfo, rfl, rfl⟩ := hs
    rw [hpc] at ht
    simp only [Loc] at ht
    have hnc : s.holder ≠ some t := fun e => by have := hcr e; simp [hpc] at this
    exact main t _ rfl (by simp) (Or.inr (Or.inr ⟨rfl, rfl⟩)) (eff0 hh) (by simp [Loc, ht, hfo]) (Or.inr (Or.inl rfl))
      (fun e => absurd e hnc) (by simp) (Or.inl (fun _ _ _ _ _ h => h)) (by simp [hpc])
  | raise t e => simp [Std.step] at hs

theorem inv_reach {auto : Bool} {s : Std.St w} {tr : List (Ev w)} (h : Reach (Std.step auto) (Std.init w) s tr) : Inv auto s tr :=
  Lts.Reach.inv (Inv.init auto) (fun _ _ _ _ _ ih hs => ih.step hs) h

theorem Loc.not_bad {s : Std.St w} {ph : Phase w} {t : Tid} {p : PC w} (h : Loc s ph t p) : ph ≠ .bad := by
  cases p <;> simp only [Loc] at h <;> grind

end Std

/-! #### ItronEventFlag -/
section Itron
open EvF.Itron

def ILoc (ph : Phase w) : Itron.PC w → Prop
  | .idle => ph = .out
  | .entry c => ph = .called c
  | .waiting c => ph = .called c
  | .ret c r => ph = .done c r

def Valid (x : Waiter w) : Prop := dispatch x.c = .twait x.p x.m x.out x.tm ∧ (x.m = .OR ∨ x.m = .AND) ∧ x.p ≠ 0

theorem pred_zero {m : Mode} {p : BitVec w} (hm : m = .OR ∨ m = .AND) (hp : p ≠ 0) : pred m p 0 = false := by
  rcases hm with rfl | rfl <;> simp [pred]
  exact fun e => hp e.symm

theorem wait_ok {auto os : Bool} {x : Waiter w} (hv : Valid x) {pat : BitVec w} (hp : pred x.m x.p pat = true) :
    PLegal auto os pat (dispatch x.c) (okRes x.out pat) (if auto then 0 else pat) := by
  rw [hv.1]
  simp only [PLegal, Wait]
  rw [if_neg (by
    rintro (⟨a, b⟩ | a)
    · rcases hv.2.1 with e | e <;> contradiction
    · exact hv.2.2 ((zero_iff _).2 a))]
  exact Or.inl ⟨(pred_cond hv.2.1).1 hp, rfl, trivial⟩

/-- What `release` does, for a queue of valid waiters. -/
theorem release_spec {clr : Bool} : ∀ (q : List (Waiter w)) (pat : BitVec w) (h : List (Call w × Res w)), (∀ x ∈ q, Valid x) →
    Hist clr true h pat →
    Hist clr true (h ++ (release clr q pat).2.2.map (fun x => (x.1.c, okRes x.1.out x.2))) (release clr q pat).2.1 ∧
    ((release clr q pat).2.1 = pat ∨ (release clr q pat).2.1 = 0) ∧
    (∀ x ∈ (release clr q pat).1, x ∈ q ∧ pred x.m x.p (release clr q pat).2.1 = false) ∧
    ((release clr q pat).2.2.map (·.1)).Sublist q ∧ (release clr q pat).1.Sublist q ∧
    ((release clr q pat).1 ++ (release clr q pat).2.2.map (·.1)).Perm q
  | [], pat, h, _, hh => by simp [release, hh]
  | y :: q, pat, h, hv, hh => by
    have hvq : ∀ x ∈ q, Valid x := fun x hx => hv x (by simp [hx])
    have hy := hv y (by simp)
    by_cases hp : pred y.m y.p pat = true
    · obtain ⟨i1, i2, i3, i4, i5, i6⟩ := release_spec q (if clr then 0 else pat) (h ++ [(y.c, okRes y.out pat)]) hvq
        (hh.go (wait_ok hy hp))
      simp only [release, hp, if_true]
      refine ⟨by simpa using i1, ?_, fun x hx => ⟨by simp [(i3 x hx).1], (i3 x hx).2⟩, by simpa using i4, i5.cons _, ?_⟩
      · rcases i2 with e | e
        · rw [e]; cases clr <;> simp
        · exact Or.inr e
      · simp only [List.map_cons]
        exact List.perm_middle.trans (i6.cons y)
    · obtain ⟨i1, i2, i3, i4, i5, i6⟩ := release_spec q pat h hvq hh
      have hp' : pred y.m y.p pat = false := by simpa using hp
      simp only [release, hp', Bool.false_eq_true, if_false]
      refine ⟨i1, i2, ?_, i4.cons _, i5.cons_cons _, ?_⟩
      · intro x hx
        rcases List.mem_cons.1 hx with e | e
        · subst e
          refine ⟨by simp, ?_⟩
          rcases i2 with e | e <;> rw [e]
          · exact hp'
          · exact pred_zero hy.2.1 hy.2.2
        · exact ⟨by simp [(i3 x e).1], (i3 x e).2⟩
      · exact i6.cons y

/-- The released tasks' program counters and phases. -/
theorem release_pcs : ∀ (rel : List (Waiter w × BitVec w)) (pc : Tid → Itron.PC w) (ph : Tid → Phase w),
    (∀ u, ILoc (ph u) (pc u)) → (∀ x ∈ rel, pc x.1.t = .waiting x.1.c) → (rel.map (·.1.t)).Nodup →
    (∀ u, ILoc ((rel.map (fun x => Ev.lin x.1.t x.1.c (okRes x.1.out x.2))).foldl (Phase.next u) (ph u))
      (rel.foldl (fun pc x => upd pc x.1.t (.ret x.1.c (okRes x.1.out x.2))) pc u)) ∧
    (∀ u, u ∉ rel.map (·.1.t) → rel.foldl (fun pc x => upd pc x.1.t (.ret x.1.c (okRes x.1.out x.2))) pc u = pc u) ∧
    (∀ u, u ∈ rel.map (·.1.t) → ∃ c r, rel.foldl (fun pc x => upd pc x.1.t (.ret x.1.c (okRes x.1.out x.2))) pc u = .ret c r)
  | [], pc, ph, hl, _, _ => by simpa using hl
  | y :: rel, pc, ph, hl, hw, hn => by
    have hn' : y.1.t ∉ rel.map (·.1.t) ∧ (rel.map (·.1.t)).Nodup := by simpa using hn
    have hy := hw y (by simp)
    have hly := hl y.1.t
    rw [hy] at hly
    simp only [ILoc] at hly
    obtain ⟨i1, i2, i3⟩ := release_pcs rel (upd pc y.1.t (.ret y.1.c (okRes y.1.out y.2)))
      (fun u => Phase.next u (ph u) (.lin y.1.t y.1.c (okRes y.1.out y.2)))
      (fun u => by
        by_cases e : u = y.1.t
        · subst e; rw [upd_same]; simp [ILoc, Phase.next, hly]
        · rw [upd_ne _ _ e]; simpa [Phase.next, Ne.symm e, show ¬ y.1.t = u from fun x => e x.symm] using hl u)
      (fun x hx => by
        have : x.1.t ≠ y.1.t := fun e => hn'.1 (by rw [← e]; exact List.mem_map_of_mem (f := fun x => x.1.t) hx)
        rw [upd_ne _ _ this]; exact hw x (by simp [hx]))
      hn'.2
    simp only [List.map_cons, List.foldl_cons]
    refine ⟨i1, fun u hu => ?_, fun u hu => ?_⟩
    · simp only [List.mem_cons, not_or] at hu
      rw [i2 u hu.2, upd_ne _ _ hu.1]
    · by_cases e : u ∈ rel.map (·.1.t)
      · exact i3 u e
      · rw [i2 u e]
        have : u = y.1.t := by simpa [e] using hu
        rw [this, upd_same]; exact ⟨_, _, rfl⟩

structure IInv (clr : Bool) (s : Itron.St w) (tr : List (Ev w)) : Prop where
  hist : Hist clr true (effects tr) s.pat
  loc : ∀ t, ILoc (phase t tr) (s.pc t)
  wait : ∀ t c, s.pc t = .waiting c → ∃ x ∈ s.queue, x.t = t
  queue : ∀ x ∈ s.queue, s.pc x.t = .waiting x.c ∧ Valid x ∧ pred x.m x.p s.pat = false
  nodup : (s.queue.map (·.t)).Nodup

theorem IInv.init (clr : Bool) : IInv clr (Itron.init w) [] := by
  refine ⟨Hist.nil, ?_, ?_, ?_, ?_⟩ <;> simp [Itron.init, ILoc, phase]

theorem IInv.step {clr : Bool} {ins : List (Waiter w) → Waiter w → Nat} {s s' : Itron.St w} {tr ev : List (Ev w)} {a : Act w}
    (h : IInv clr s tr) (hs : Itron.step clr ins s a = some (s', ev)) : IInv clr s' (tr ++ ev) := by
  obtain ⟨hh, hl, hw, hq, hn⟩ := h
  -- a step of `t`, not waiting before or after
  have main : ∀ t p', s'.pc = upd s.pc t p' → (∀ e, e ∈ ev → mine t e) →
      Hist clr true (effects tr ++ effects ev) s'.pat → ILoc (ev.foldl (Phase.next t) (phase t tr)) p' →
      (∀ c, p' ≠ .waiting c) → s'.queue.Sublist s.queue → (∀ x, x ∈ s.queue → x.t ≠ t → x ∈ s'.queue) → (∀ x ∈ s'.queue, x.t ≠ t) →
      (∀ x ∈ s'.queue, pred x.m x.p s'.pat = false) →
      IInv clr s' (tr ++ ev) := by
    intro t p' hpc hmine hhist hloc hnw hsub hkeep hnt hpf
    refine ⟨by rw [effects_app]; exact hhist, fun u => ?_, fun u c hu => ?_, fun x hx => ?_, (hsub.map _).nodup hn⟩
    · rw [phase_app, hpc]
      by_cases e : u = t
      · subst e; rw [upd_same]; exact hloc
      · rw [upd_ne _ _ e, phase_other e hmine]; exact hl u
    · rw [hpc] at hu
      by_cases e : u = t
      · subst e; rw [upd_same] at hu; exact absurd hu (hnw c)
      · rw [upd_ne _ _ e] at hu
        obtain ⟨x, hx, hxt⟩ := hw u c hu
        exact ⟨x, hkeep x hx (by rw [hxt]; exact e), hxt⟩
    · have h1 := hq x (hsub.mem hx)
      refine ⟨?_, h1.2.1, hpf x hx⟩
      rw [hpc, upd_ne _ _ (hnt x hx)]; exact h1.1
  have notq : ∀ t, (∀ c, s.pc t ≠ .waiting c) → ∀ x ∈ s.queue, x.t ≠ t := fun t ht x hx e => ht x.c (by rw [← e]; exact (hq x hx).1)
  cases a with
  | call t c =>
    simp only [Itron.step, Option.ite_none_right_eq_some, Option.some.injEq, Prod.mk.injEq] at hs
    obtain ⟨hpc, rfl, rfl⟩ := hs
    have ht := hl t
    rw [hpc] at ht
    simp only [ILoc] at ht
    exact main t _ rfl (by simp [mine]) (eff0 hh) (by simp [ILoc, Phase.next, ht]) (by simp) (List.Sublist.refl _) (fun x hx _ => hx)
      (notq t (by simp [hpc])) (fun x hx => (hq x hx).2.2)
  | go t =>
    simp only [Itron.step] at hs
    have ht := hl t
    cases hpc : s.pc t <;> rw [hpc] at ht <;> simp only [hpc] at hs <;> simp only [ILoc] at ht
    case idle => simp at hs
    case waiting => simp at hs
    case ret c r =>
      simp only [Option.some.injEq, Prod.mk.injEq] at hs
      obtain ⟨rfl, rfl⟩ := hs
      exact main t _ rfl (by simp [mine]) (eff0 hh) (by simp [ILoc, Phase.next, ht]) (by simp) (List.Sublist.refl _) (fun x hx _ => hx)
        (notq t (by simp [hpc])) (fun x hx => (hq x hx).2.2)
    case entry c =>
      have nt := notq t (by simp [hpc])
      -- a call that takes effect at once without releasing anybody
      have one : ∀ r pat', s' = { s.at t (.ret c r) with pat := pat' } → ev = [.lin t c r] → PLegal clr true s.pat (dispatch c) r pat' →
          (∀ x ∈ s.queue, pred x.m x.p pat' = false) → IInv clr s' (tr ++ ev) := by
        rintro r pat' rfl rfl hp hpf
        exact main t _ rfl (by simp [mine]) (hh.go hp) (by simp [ILoc, Phase.next, ht]) (by simp) (List.Sublist.refl _) (fun x hx _ => hx) nt hpf
      have same : ∀ x ∈ s.queue, pred x.m x.p s.pat = false := fun x hx => (hq x hx).2.2
      cases hd : dispatch c <;> simp only [hd] at hs
      case invalid =>
        simp only [Option.some.injEq, Prod.mk.injEq] at hs
        exact one _ s.pat hs.1.symm hs.2.symm (by simp [hd, PLegal]) same
      case get =>
        simp only [Option.some.injEq, Prod.mk.injEq] at hs
        exact one _ s.pat hs.1.symm hs.2.symm (by simp [hd, PLegal]) same
      case reset p =>
        simp only [Option.some.injEq, Prod.mk.injEq] at hs
        refine one _ _ hs.1.symm hs.2.symm (by simp [hd, PLegal]) ?_
        intro x hx
        have hx' := hq x hx
        cases hb : pred x.m x.p (s.pat &&& ~~~p)
        · rfl
        · have := hx'.2.2
          rw [← Bool.not_eq_true] at this
          exfalso; apply this
          rcases hx'.2.1.2.1 with e | e <;> rw [e] at hb ⊢
          · rw [pred_or] at hb ⊢
            obtain ⟨i, hi, x, y⟩ := hb
            exact ⟨i, hi, x, by simp at y; exact y.1⟩
          · rw [pred_and] at hb ⊢
            intro i hi x
            have y := hb i hi x
            simp at y; exact y.1
      case twait p m out tm =>
        split at hs
        · next hm =>
          simp only [Option.some.injEq, Prod.mk.injEq] at hs
          exact one _ s.pat hs.1.symm hs.2.symm (by simp [hd, PLegal, Wait, hm]) same
        next hm =>
        split at hs
        · next hp =>
          simp only [Option.some.injEq, Prod.mk.injEq] at hs
          refine one _ s.pat hs.1.symm hs.2.symm ?_ same
          simp only [hd, PLegal, Wait]
          rw [if_pos (Or.inr ((zero_iff p).1 hp))]; simp
        next hp =>
        have hm' : m = .OR ∨ m = .AND := by cases m <;> simp at hm ⊢
        have hnv : ¬ ((m ≠ .OR ∧ m ≠ .AND) ∨ ∀ i, i < w → p.getLsbD i = false) := by
          rintro (⟨a, b⟩ | a)
          · rcases hm' with e | e <;> contradiction
          · exact hp ((zero_iff _).2 a)
        split at hs
        · next hc =>
          simp only [Option.some.injEq, Prod.mk.injEq] at hs
          refine one _ _ hs.1.symm hs.2.symm (wait_ok (x := ⟨t, c, p, m, out, tm⟩) ⟨hd, hm', hp⟩ hc) ?_
          intro x hx
          split
          · exact pred_zero (hq x hx).2.1.2.1 (hq x hx).2.1.2.2
          · exact same x hx
        next hc =>
        have hc' : pred m p s.pat = false := by simpa using hc
        split at hs
        · next htm =>
          simp only [Option.some.injEq, Prod.mk.injEq] at hs
          refine one _ s.pat hs.1.symm hs.2.symm ?_ same
          simp only [hd, PLegal, Wait]
          rw [if_neg hnv]
          exact Or.inr (Or.inl ⟨trivial, by rw [htm]; simp, trivial, fun e => hc ((pred_cond hm').2 e)⟩)
        · simp only [Option.some.injEq, Prod.mk.injEq] at hs
          obtain ⟨rfl, rfl⟩ := hs
          have hk : min (ins s.queue ⟨t, c, p, m, out, tm⟩) s.queue.length ≤ s.queue.length := Nat.min_le_right _ _
          have hperm := List.perm_insertIdx (⟨t, c, p, m, out, tm⟩ : Waiter w) s.queue hk
          refine ⟨by rw [List.append_nil]; exact hh, fun u => ?_, fun u c' hu => ?_, fun x hx => ?_, ?_⟩
          · rw [List.append_nil]
            by_cases e : u = t
            · subst e; simp only [Itron.St.at, upd_same, ILoc]; exact ht
            · show ILoc _ (upd s.pc t (.waiting c) u)
              rw [upd_ne _ _ e]; exact hl u
          · by_cases e : u = t
            · exact ⟨⟨t, c, p, m, out, tm⟩, hperm.mem_iff.2 (by simp), e.symm⟩
            · have : s.pc u = .waiting c' := by rw [← hu]; exact (upd_ne _ _ e).symm
              obtain ⟨x, hx, hxt⟩ := hw u c' this
              exact ⟨x, hperm.mem_iff.2 (by simp [hx]), hxt⟩
          · have := hperm.mem_iff.1 hx
            rcases List.mem_cons.1 this with e | e
            · subst e
              exact ⟨upd_same _ _ _, ⟨hd, hm', hp⟩, hc'⟩
            · refine ⟨?_, (hq x e).2⟩
              show upd s.pc t _ x.t = _
              rw [upd_ne _ _ (nt x e)]; exact (hq x e).1
          · refine ((hperm.map (·.t)).nodup_iff).2 ?_
            simp only [List.map_cons, List.nodup_cons]
            refine ⟨?_, hn⟩
            rw [List.mem_map]
            rintro ⟨x, hx, e⟩
            exact nt x hx e
      case set p =>
        simp only [Option.some.injEq, Prod.mk.injEq] at hs
        obtain ⟨rfl, rfl⟩ := hs
        have hh1 : Hist clr true (effects tr ++ [(c, ⟨.OK, none⟩)]) (s.pat ||| p) := hh.go (by simp [hd, PLegal])
        obtain ⟨r1, r2, r3, r4, r5, r6⟩ := release_spec s.queue (s.pat ||| p) _ (fun x hx => (hq x hx).2.1) hh1
        have hrelq : ∀ x, x ∈ (release clr s.queue (s.pat ||| p)).2.2 → x.1 ∈ s.queue := fun x hx =>
          r4.mem (List.mem_map_of_mem (f := fun x => x.1) hx)
        obtain ⟨p1, p2, p3⟩ := release_pcs (release clr s.queue (s.pat ||| p)).2.2 (upd s.pc t (.ret c ⟨.OK, none⟩))
          (fun u => Phase.next u (phase u tr) (.lin t c ⟨.OK, none⟩))
          (fun u => by
            by_cases e : u = t
            · subst e; rw [upd_same]; simp [ILoc, Phase.next, ht]
            · rw [upd_ne _ _ e]; simpa [Phase.next, show ¬ t = u from fun x => e x.symm] using hl u)
          (fun x hx => by
            have h1 := hq x.1 (hrelq x hx)
            rw [upd_ne _ _ (nt x.1 (hrelq x hx))]; exact h1.1)
          (by
            have := (r4.map (·.t)).nodup hn
            simpa [List.map_map, Function.comp_def] using this)
        refine ⟨?_, fun u => ?_, fun u c' hu => ?_, fun x hx => ?_, (r5.map _).nodup hn⟩
        · rw [effects_app]
          have : effects (Ev.lin t c ⟨.OK, none⟩ :: (release clr s.queue (s.pat ||| p)).2.2.map (fun x => Ev.lin x.1.t x.1.c (okRes x.1.out x.2)))
              = (c, ⟨.OK, none⟩) :: (release clr s.queue (s.pat ||| p)).2.2.map (fun x => (x.1.c, okRes x.1.out x.2)) := by
            simp only [effects, List.filterMap_cons, List.filterMap_map, Function.comp_def]
            rw [← List.filterMap_eq_map]; rfl
          rw [this]
          simpa using r1
        · rw [phase_app, List.foldl_cons]; exact p1 u
        · by_cases e : u ∈ (release clr s.queue (s.pat ||| p)).2.2.map (·.1.t)
          · obtain ⟨c1, r1, e1⟩ := p3 u e
            simp only at hu; rw [e1] at hu; simp at hu
          · simp only at hu
            rw [p2 u e] at hu
            have hut : u ≠ t := by rintro rfl; rw [upd_same] at hu; simp at hu
            rw [upd_ne _ _ hut] at hu
            obtain ⟨x, hx, hxt⟩ := hw u c' hu
            rcases List.mem_append.1 (r6.mem_iff.2 hx) with h1 | h1
            · exact ⟨x, h1, hxt⟩
            · exfalso; apply e
              obtain ⟨y, hy, hyx⟩ := List.mem_map.1 h1
              rw [List.mem_map]; exact ⟨y, hy, by rw [hyx]; exact hxt⟩
        · have h3 := r3 x hx
          refine ⟨?_, (hq x h3.1).2.1, h3.2⟩
          simp only
          rw [p2 x.t ?_, upd_ne _ _ (nt x h3.1)]
          · exact (hq x h3.1).1
          · intro e
            have hnd := ((r6.map (·.t)).nodup_iff).2 hn
            rw [List.map_append, List.nodup_append] at hnd
            obtain ⟨y, hy, hyx⟩ := List.mem_map.1 e
            refine hnd.2.2 x.t (List.mem_map_of_mem (f := fun x => x.t) hx) x.t ?_ rfl
            rw [List.map_map]
            exact List.mem_map.2 ⟨y, hy, hyx⟩
  | wake t => simp [Itron.step] at hs
  | timeout t =>
    simp only [Itron.step] at hs
    split at hs <;> try simp at hs
    next c hpc =>
    split at hs <;> try simp at hs
    next x hx =>
    obtain ⟨hfo, rfl, rfl⟩ := hs
    have ht := hl t
    rw [hpc] at ht
    simp only [ILoc] at ht
    have hxq := List.mem_of_find?_eq_some hx
    have hxt : x.t = t := by simpa using List.find?_some hx
    have hv := hq x hxq
    rw [hxt, hpc] at hv
    simp only [Itron.PC.waiting.injEq] at hv
    obtain ⟨hc, hv, hpf⟩ := hv
    refine main t _ rfl (by simp [mine]) (hh.go (σ' := s.pat) ?_) (by simp [ILoc, Phase.next, ht]) (by simp) List.filter_sublist
      (fun x hx e => by simp [hx, e]) (fun x hx => by simpa using (List.mem_filter.1 hx).2) (fun x hx => (hq x (List.mem_filter.1 hx).1).2.2)
    rw [hc, hv.1]
    simp only [PLegal, Wait]
    rw [if_neg (by
      rintro (⟨a, b⟩ | a)
      · rcases hv.2.1 with e | e <;> contradiction
      · exact hv.2.2 ((zero_iff _).2 a))]
    refine Or.inr (Or.inl ⟨trivial, hfo, trivial, fun e => ?_⟩)
    have := (pred_cond hv.2.1).2 e
    rw [hpf] at this; simp at this
  | raise t e =>
    simp only [Itron.step] at hs
    have ht := hl t
    cases hpc : s.pc t <;> rw [hpc] at ht <;> simp only [hpc] at hs <;> simp only [ILoc] at ht
    case idle => simp at hs
    case ret => simp at hs
    case entry c =>
      cases hd : dispatch c <;> simp only [hd] at hs
      case twait p m out tm =>
        simp only [Option.ite_none_right_eq_some, Option.some.injEq, Prod.mk.injEq] at hs
        obtain ⟨⟨hm, hp, he⟩, rfl, rfl⟩ := hs
        refine main t _ rfl (by simp [mine]) (hh.go (σ' := s.pat) ?_) (by simp [ILoc, Phase.next, ht]) (by simp) (List.Sublist.refl _) (fun x hx _ => hx)
          (notq t (by simp [hpc])) (fun x hx => (hq x hx).2.2)
        rw [hd]
        simp only [PLegal, Wait]
        rw [if_neg (by
          rintro (⟨a, b⟩ | a)
          · rcases hm with e | e <;> contradiction
          · exact hp ((zero_iff _).2 a))]
        exact Or.inr (Or.inr ⟨trivial, by rcases he with e | e <;> simp [e], trivial⟩)
      all_goals simp at hs
    case waiting c =>
      simp only [Option.ite_none_right_eq_some, Option.some.injEq, Prod.mk.injEq] at hs
      obtain ⟨he, rfl, rfl⟩ := hs
      obtain ⟨x, hxq, hxt⟩ := hw t c hpc
      have hv := hq x hxq
      rw [hxt, hpc] at hv
      simp only [Itron.PC.waiting.injEq] at hv
      obtain ⟨hc, hv, hpf⟩ := hv
      refine main t _ rfl (by simp [mine]) (hh.go (σ' := s.pat) ?_) (by simp [ILoc, Phase.next, ht]) (by simp) List.filter_sublist
        (fun x hx e => by simp [hx, e]) (fun x hx => by simpa using (List.mem_filter.1 hx).2) (fun x hx => (hq x (List.mem_filter.1 hx).1).2.2)
      rw [hc, hv.1]
      simp only [PLegal, Wait]
      rw [if_neg (by
        rintro (⟨a, b⟩ | a)
        · rcases hv.2.1 with e | e <;> contradiction
        · exact hv.2.2 ((zero_iff _).2 a))]
      exact Or.inr (Or.inr ⟨trivial, by simp [he], trivial⟩)

theorem iinv_reach {clr : Bool} {ins : List (Waiter w) → Waiter w → Nat} {s : Itron.St w} {tr : List (Ev w)}
    (h : Reach (Itron.step clr ins) (Itron.init w) s tr) : IInv clr s tr :=
  Lts.Reach.inv (IInv.init clr) (fun _ _ _ _ _ ih hs => ih.step hs) h

theorem ILoc.not_bad {ph : Phase w} {p : Itron.PC w} (h : ILoc ph p) : ph ≠ .bad := by
  cases p <;> simp only [ILoc] at h <;> simp [h]

end Itron
end Verif.EvF
