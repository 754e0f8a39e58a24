import Verif.Proof.EventFlag
/-
Properties C41–C45: event flags, for every schedule of any number of threads, every pattern width, and both implementations.
The specification is `Verif/Spec/EventFlag.lean`: an atomic object holding a set of bit positions.
-/
namespace Verif.Props.EventFlag
open _root_.Verif.Mtx (Tid Err)
open Verif EvF Spec Lts
variable {w : Nat}

/-! #### Specification -/

/-- Bit `i` after one more call took effect, given its value before. -/
def bitAfter (auto : Bool) (i : Nat) (b : Bool) : Call w × Res w → Bool
  | (.setAll, _) => true
  | (.setOne pos, _) => if i = pos then true else b
  | (.set p, _) => if p.getLsbD i then true else b
  | (.resetAll, _) => false
  | (.resetOne pos, _) => if i = pos then false else b
  | (.reset p, _) => if p.getLsbD i then false else b
  | (.getCurrentPattern, _) => b
  | (_, r) => if auto ∧ r.err = .OK then false else b          -- the waits

/-- Bit `i` after a history. -/
def bitOf (auto : Bool) (i : Nat) (h : List (Call w × Res w)) : Bool := h.foldl (bitAfter auto i) false

/-- The calls that returned to `t`, with their results. -/
def returned (t : Tid) (tr : List (Ev w)) : List (Call w × Res w) :=
  tr.filterMap (fun | .ret u c r => if u = t then some (c, r) else none | _ => none)
/-- The calls of `t` that took effect. -/
def effectsOf (t : Tid) (tr : List (Ev w)) : List (Call w × Res w) :=
  tr.filterMap (fun | .lin u c r => if u = t then some (c, r) else none | _ => none)

/-- The parameters of a wait: requested positions, mode, whether the caller wants the pattern, timeout. -/
def waitParams : Call w → Option ((Nat → Bool) × Mode × Bool × Tmo)
  | .waitAny => some (fun _ => true, .OR, false, .forever)
  | .waitOne pos => some (fun i => i == pos, .OR, false, .forever)
  | .wait p m out => some (p.getLsbD, m, out, .forever)
  | .tryWaitAny => some (fun _ => true, .OR, false, .ms 0)
  | .tryWaitOne pos => some (fun i => i == pos, .OR, false, .ms 0)
  | .tryWait p m out => some (p.getLsbD, m, out, .ms 0)
  | .timedWaitAny tm => some (fun _ => true, .OR, false, tm)
  | .timedWaitOne pos tm => some (fun i => i == pos, .OR, false, tm)
  | .timedWait p m out tm => some (p.getLsbD, m, out, tm)
  | _ => none

/-- Invalid parameters: no position `< w` requested, a mode that is neither OR nor AND, or a position out of range. -/
def InvalidParams : Call w → Prop
  | .setOne pos => w ≤ pos
  | .resetOne pos => w ≤ pos
  | c => ∃ req m out tm, waitParams c = some (req, m, out, tm) ∧ ((m ≠ .OR ∧ m ≠ .AND) ∨ ∀ i, i < w → req i = false)

/-- A set call that was accepted. -/
def isSet : Call w × Res w → Bool
  | (.setAll, r) => r.err == .OK
  | (.setOne _, r) => r.err == .OK
  | (.set _, r) => r.err == .OK
  | _ => false
/-- A wait that returned OK. -/
def isOkWait : Call w × Res w → Bool
  | (c, r) => (waitParams c).isSome && r.err == .OK

theorem legal_wait {auto os : Bool} {σ σ' : BitVec w} {c : Call w} {r : Res w} {req m out tm}
    (hc : waitParams c = some (req, m, out, tm)) : Legal auto os σ c r σ' ↔ Wait auto os req m out tm σ r σ' := by
  cases c <;> simp only [waitParams, Option.some.injEq, Prod.mk.injEq, reduceCtorEq] at hc <;> obtain ⟨rfl, rfl, rfl, rfl⟩ := hc <;> rfl

theorem bit_legal {auto os : Bool} {σ σ' : BitVec w} {c : Call w} {r : Res w} (h : Legal auto os σ c r σ') {i : Nat} (hi : i < w) :
    σ'.getLsbD i = bitAfter auto i (σ.getLsbD i) (c, r) := by
  have wait : ∀ req m out tm, Wait auto os req m out tm σ r σ' →
      σ'.getLsbD i = if auto = true ∧ r.err = .OK then false else σ.getLsbD i := by
    intro req m out tm h
    unfold Wait at h
    split at h
    · obtain ⟨rfl, rfl⟩ := h; simp
    · rcases h with ⟨_, rfl, rfl⟩ | ⟨rfl, _, rfl, _⟩ | ⟨_, rfl | rfl, rfl⟩ <;> cases auto <;> simp
  cases c <;> simp only [Legal, bitAfter] at h ⊢
  case setAll | resetAll | set | reset => have := h.2 i hi; simpa using this
  case setOne pos | resetOne pos =>
    split at h
    · have := h.2 i hi; simpa using this
    · rw [h.2, if_neg (by omega)]
  case getCurrentPattern => rw [h.2]
  all_goals exact wait _ _ _ _ h

theorem bit_hist {auto os : Bool} {h : List (Call w × Res w)} {σ : BitVec w} (hh : Hist auto os h σ) {i : Nat} (hi : i < w) :
    σ.getLsbD i = bitOf auto i h := by
  induction hh with
  | nil => simp [bitOf]
  | snoc _ hl ih => rw [bit_legal hl hi, ih]; simp [bitOf]

theorem hist_at {auto os : Bool} {h : List (Call w × Res w)} {σ : BitVec w} (hh : Hist auto os h σ) {h1 h2 c r}
    (e : h = h1 ++ (c, r) :: h2) : ∃ σ1 σ2, Hist auto os h1 σ1 ∧ Legal auto os σ1 c r σ2 := by
  induction hh generalizing h2 with
  | nil => simp at e
  | @snoc h' σ c' r' σ' hh hl ih =>
    rcases List.eq_nil_or_concat h2 with rfl | ⟨h3, x, rfl⟩
    · obtain ⟨rfl, e'⟩ := List.append_inj' e rfl
      rw [List.cons.injEq, Prod.mk.injEq] at e'
      obtain ⟨⟨rfl, rfl⟩, _⟩ := e'
      exact ⟨σ, σ', hh, hl⟩
    · rw [List.concat_eq_append, ← List.cons_append, ← List.append_assoc] at e
      obtain ⟨e1, _⟩ := List.append_inj' e rfl
      exact ih e1

/-- The call that took effect and has not returned yet. -/
def pending : Phase w → List (Call w × Res w)
  | .done c r => [(c, r)]
  | _ => []

/-- What a linearizable trace means for the calls of one thread: the results returned are those of the calls' effects, in order. -/
theorem returned_effects (t : Tid) (tr : List (Ev w)) (h : phase t tr ≠ .bad) :
    effectsOf t tr = returned t tr ++ pending (phase t tr) := by
  have bad : ∀ tr : List (Ev w), tr.foldl (Phase.next t) .bad = .bad := by
    intro tr
    induction tr with
    | nil => rfl
    | cons e tr ih =>
      rw [List.foldl_cons]
      have : Phase.next t .bad e = .bad := by cases e <;> simp [Phase.next]
      rw [this]; exact ih
  have key : ∀ (tr : List (Ev w)) (ph : Phase w), tr.foldl (Phase.next t) ph ≠ .bad →
      pending ph ++ effectsOf t tr = returned t tr ++ pending (tr.foldl (Phase.next t) ph) := by
    intro tr
    induction tr with
    | nil => intro ph _; simp [effectsOf, returned]
    | cons e tr ih =>
      intro ph hb
      rw [List.foldl_cons] at hb ⊢
      have h1 := ih _ hb
      have hnb : Phase.next t ph e ≠ .bad := fun e => by rw [e, bad] at hb; exact hb rfl
      have h2 : pending ph ++ effectsOf t [e] = returned t [e] ++ pending (Phase.next t ph e) := by
        cases e with
        | call u c =>
          by_cases hu : u = t
          · by_cases hp : ph = .out
            · simp [Phase.next, hu, hp, effectsOf, returned, pending]
            · simp [Phase.next, hu, hp] at hnb
          · simp [Phase.next, hu, effectsOf, returned]
        | lin u c r =>
          by_cases hu : u = t
          · by_cases hp : ph = .called c
            · simp [Phase.next, hu, hp, effectsOf, returned, pending]
            · simp [Phase.next, hu, hp] at hnb
          · simp [Phase.next, hu, effectsOf, returned]
        | ret u c r =>
          by_cases hu : u = t
          · by_cases hp : ph = .done c r
            · simp [Phase.next, hu, hp, effectsOf, returned, pending]
            · simp [Phase.next, hu, hp] at hnb
          · simp [Phase.next, hu, effectsOf, returned]
      have e1 : effectsOf t (e :: tr) = effectsOf t [e] ++ effectsOf t tr := by
        rw [show e :: tr = [e] ++ tr from rfl]; simp only [effectsOf, List.filterMap_append]
      have e2 : returned t (e :: tr) = returned t [e] ++ returned t tr := by
        rw [show e :: tr = [e] ++ tr from rfl]; simp only [returned, List.filterMap_append]
      rw [e1, e2, ← List.append_assoc, h2, List.append_assoc, List.append_assoc, h1]
  simpa [pending, phase] using key tr .out h

theorem mem_effects {t : Tid} {tr : List (Ev w)} {x : Call w × Res w} (h : x ∈ effectsOf t tr) : x ∈ effects tr := by
  simp only [effectsOf, effects, List.mem_filterMap] at h ⊢
  obtain ⟨e, he, hx⟩ := h
  refine ⟨e, he, ?_⟩
  cases e <;> simp at hx ⊢
  exact hx.2

/-- A result that was returned is the result of an effect. -/
theorem returned_mem {auto os : Bool} {tr : List (Ev w)} {σ : BitVec w} (h : Linearizable auto os tr σ) {t c r}
    (hr : Ev.ret t c r ∈ tr) : (c, r) ∈ effects tr := by
  apply mem_effects (t := t)
  rw [returned_effects t tr (h.2 t)]
  apply List.mem_append_left
  simp only [returned, List.mem_filterMap]
  exact ⟨_, hr, by simp⟩

theorem legal_of_mem {auto os : Bool} {tr : List (Ev w)} {σ : BitVec w} (h : Linearizable auto os tr σ) {c r} (hr : (c, r) ∈ effects tr) :
    ∃ h1 h2 σ1 σ2, effects tr = h1 ++ (c, r) :: h2 ∧ Hist auto os h1 σ1 ∧ Legal auto os σ1 c r σ2 := by
  obtain ⟨h1, h2, e⟩ := List.append_of_mem hr
  obtain ⟨σ1, σ2, a, b⟩ := hist_at h.1 e
  exact ⟨h1, h2, σ1, σ2, e, a, b⟩

/-! #### Linearizability -/

theorem std_lin {auto : Bool} {s : Std.St w} {tr : List (Ev w)} (h : Reach (Std.step auto) (Std.init w) s tr) :
    Linearizable auto false tr s.pat :=
  ⟨(inv_reach h).hist, fun t => ((inv_reach h).loc t).not_bad⟩

theorem itron_lin {clr : Bool} {ins : List (Itron.Waiter w) → Itron.Waiter w → Nat} {s : Itron.St w} {tr : List (Ev w)}
    (h : Reach (Itron.step clr ins) (Itron.init w) s tr) : Linearizable clr true tr s.pat :=
  ⟨(iinv_reach h).hist, fun t => ((iinv_reach h).loc t).not_bad⟩

/-! #### C41 -/

/-- The pattern is determined, bit by bit, by the calls that took effect: set positions are in, reset positions are out, and an
OK wait of an auto-reset flag empties it. -/
theorem C41_pattern {auto : Bool} {s : Std.St w} {tr : List (Ev w)} (h : Reach (Std.step auto) (Std.init w) s tr) {i : Nat} (hi : i < w) :
    s.pat.getLsbD i = bitOf auto i (effects tr) := bit_hist (std_lin h).1 hi

theorem C41_itron {clr : Bool} {ins : List (Itron.Waiter w) → Itron.Waiter w → Nat} {s : Itron.St w} {tr : List (Ev w)}
    (h : Reach (Itron.step clr ins) (Itron.init w) s tr) {i : Nat} (hi : i < w) :
    s.pat.getLsbD i = bitOf clr i (effects tr) := bit_hist (itron_lin h).1 hi

/-- `getCurrentPattern` returns the pattern of the calls that took effect before it, for one of the two implementations. -/
theorem C41_get {auto os : Bool} {tr : List (Ev w)} {σ : BitVec w} (h : Linearizable auto os tr σ) {t r}
    (hr : Ev.ret t .getCurrentPattern r ∈ tr) : ∃ h1 h2 p, effects tr = h1 ++ (.getCurrentPattern, r) :: h2 ∧ r = ⟨.OK, some p⟩ ∧
      ∀ i, i < w → p.getLsbD i = bitOf auto i h1 := by
  obtain ⟨h1, h2, σ1, σ2, e, hh, hl⟩ := legal_of_mem h (returned_mem h hr)
  exact ⟨h1, h2, σ1, e, hl.1, fun i hi => bit_hist hh hi⟩

/-- The calls a thread makes take effect in its program order, with the results it gets. -/
theorem C41_order {auto : Bool} {s : Std.St w} {tr : List (Ev w)} (h : Reach (Std.step auto) (Std.init w) s tr) (t : Tid) :
    ∃ rest, effectsOf t tr = returned t tr ++ rest ∧ rest.length ≤ 1 := by
  refine ⟨_, returned_effects t tr ((std_lin h).2 t), ?_⟩
  cases phase t tr <;> simp [pending]

/-! #### C42 -/

/-- Every execution is linearizable with respect to the atomic event flag. -/
theorem C42_linearizable {auto : Bool} {s : Std.St w} {tr : List (Ev w)} (h : Reach (Std.step auto) (Std.init w) s tr) :
    Linearizable auto false tr s.pat := std_lin h

/-- A wait that returned OK: at some moment of the history its condition held on the pattern `σ`, and `σ` is what it reports. -/
theorem C42_ok {auto : Bool} {s : Std.St w} {tr : List (Ev w)} (h : Reach (Std.step auto) (Std.init w) s tr) {t c r}
    (hr : Ev.ret t c r ∈ tr) (ho : r.err = .OK) {req m out tm} (hw : waitParams c = some (req, m, out, tm)) :
    ∃ h1 h2, ∃ σ σ' : BitVec w, effects tr = h1 ++ (c, r) :: h2 ∧ (∀ i, i < w → σ.getLsbD i = bitOf auto i h1) ∧ Cond m req σ ∧
      r.pat = (if out then some σ else none) ∧ (∀ i, i < w → σ'.getLsbD i = bitOf auto i (h1 ++ [(c, r)])) ∧
      σ' = if auto then 0 else σ := by
  obtain ⟨h1, h2, σ1, σ2, e, hh, hl⟩ := legal_of_mem (std_lin h) (returned_mem (std_lin h) hr)
  refine ⟨h1, h2, σ1, σ2, e, fun i hi => bit_hist hh hi, ?_⟩
  have hb : ∀ i, i < w → σ2.getLsbD i = bitOf auto i (h1 ++ [(c, r)]) := fun i hi => bit_hist (Hist.snoc hh hl) hi
  rw [legal_wait hw] at hl
  unfold Wait at hl
  split at hl
  · obtain ⟨rfl, _⟩ := hl; simp at ho
  · rcases hl with ⟨a, rfl, b⟩ | ⟨rfl, _⟩ | ⟨hf, _⟩
    · exact ⟨a, rfl, hb, b⟩
    · simp at ho
    · simp at hf

/-- A wait that returned TimedOut had a finite timeout and a condition that did not hold at the moment it gave up; nothing changed. -/
theorem C42_timedOut {auto : Bool} {s : Std.St w} {tr : List (Ev w)} (h : Reach (Std.step auto) (Std.init w) s tr) {t c r}
    (hr : Ev.ret t c r ∈ tr) (ho : r.err = .TimedOut) : ∃ req m out tm, waitParams c = some (req, m, out, tm) ∧ tm ≠ .forever ∧
      ∃ h1 h2, ∃ σ : BitVec w, effects tr = h1 ++ (c, r) :: h2 ∧ (∀ i, i < w → σ.getLsbD i = bitOf auto i h1) ∧ ¬ Cond m req σ ∧ r.pat = none ∧
        ∀ i, i < w → bitOf auto i (h1 ++ [(c, r)]) = bitOf auto i h1 := by
  obtain ⟨h1, h2, σ1, σ2, e, hh, hl⟩ := legal_of_mem (std_lin h) (returned_mem (std_lin h) hr)
  have hb : ∀ i, i < w → σ2.getLsbD i = bitOf auto i (h1 ++ [(c, r)]) := fun i hi => bit_hist (Hist.snoc hh hl) hi
  have wait : ∀ req m out tm, waitParams c = some (req, m, out, tm) → ∃ req m out tm, waitParams c = some (req, m, out, tm) ∧ tm ≠ .forever ∧
      ∃ h1 h2, ∃ σ : BitVec w, effects tr = h1 ++ (c, r) :: h2 ∧ (∀ i, i < w → σ.getLsbD i = bitOf auto i h1) ∧ ¬ Cond m req σ ∧ r.pat = none ∧
        ∀ i, i < w → bitOf auto i (h1 ++ [(c, r)]) = bitOf auto i h1 := fun req m out tm hw => by
    have hl' := hl
    rw [legal_wait hw] at hl'
    unfold Wait at hl'
    split at hl'
    · obtain ⟨rfl, _⟩ := hl'; simp at ho
    · rcases hl' with ⟨a, rfl, b⟩ | ⟨rfl, a, rfl, b⟩ | ⟨hf, _⟩
      · simp at ho
      · exact ⟨req, m, out, tm, hw, a, h1, h2, σ2, e, fun i hi => bit_hist hh hi, b, rfl, fun i hi => by rw [← hb i hi, bit_hist hh hi]⟩
      · simp at hf
  have no : r.err ≠ .TimedOut → False := fun x => x ho
  cases c
  case setAll | resetAll | set | reset | getCurrentPattern => exact absurd ho (by rw [hl.1]; simp)
  case setOne pos | resetOne pos =>
    simp only [Legal] at hl
    split at hl <;> exact absurd ho (by rw [hl.1]; simp)
  all_goals exact wait _ _ _ _ rfl

theorem once_hist {os : Bool} {h : List (Call w × Res w)} {σ : BitVec w} (hh : Hist true os h σ) :
    h.countP isOkWait + (if σ = 0 then 0 else 1) ≤ h.countP isSet := by
  induction hh with
  | nil => simp
  | @snoc h σ c r σ' hh hl ih =>
    rw [List.countP_append, List.countP_append]
    have wait : ∀ req m out tm, waitParams c = some (req, m, out, tm) →
        ([(c, r)].countP isOkWait + (if σ' = 0 then 0 else 1) ≤ if σ = 0 then 0 else 1) := by
      intro req m out tm hw
      rw [legal_wait hw] at hl
      unfold Wait at hl
      split at hl
      · obtain ⟨rfl, rfl⟩ := hl; simp [isOkWait]
      · next hv =>
        rcases hl with ⟨a, rfl, b⟩ | ⟨rfl, a, rfl, b⟩ | ⟨_, rfl | rfl, rfl⟩
        · have : σ ≠ 0 := by
            rintro rfl
            simp only [not_or, not_and, ne_eq, Decidable.not_not] at hv
            cases m with
            | OR => obtain ⟨i, _, _, x⟩ := a; simp at x
            | AND =>
              apply hv.2
              intro i hi
              cases hq : req i
              · rfl
              · have := a i hi hq; simp at this
            | other n => exact a
          simp only [b, this, if_true, if_false]
          exact List.countP_le_length
        all_goals simp [isOkWait]
    have setlike : (waitParams c).isSome = false → isSet (c, r) = true →
        ([(c, r)].countP isOkWait + (if σ' = 0 then 0 else 1) ≤ (if σ = 0 then 0 else 1) + [(c, r)].countP isSet) := by
      intro h1 h2
      simp only [List.countP_cons, List.countP_nil, isOkWait, h1, h2, Bool.false_and, if_true]
      simp only [Bool.false_eq_true, if_false]; split <;> split <;> omega
    have mono : (waitParams c).isSome = false → (∀ i, i < w → σ'.getLsbD i = true → σ.getLsbD i = true) →
        ([(c, r)].countP isOkWait + (if σ' = 0 then 0 else 1) ≤ if σ = 0 then 0 else 1) := by
      intro h1 h2
      simp only [List.countP_cons, List.countP_nil, isOkWait, h1, Bool.false_and]
      have : σ = 0 → σ' = 0 := by
        rintro rfl
        rw [zero_iff]; intro i hi
        cases hq : σ'.getLsbD i
        · rfl
        · have := h2 i hi hq; simp at this
      simp only [Bool.false_eq_true, if_false]
      by_cases e : σ = 0
      · simp [e, this e]
      · simp only [e, if_false]; split <;> omega
    have done : ([(c, r)].countP isOkWait + (if σ' = 0 then 0 else 1) ≤ (if σ = 0 then 0 else 1) + [(c, r)].countP isSet) := by
      cases c
      case setAll | set => exact setlike rfl (by rw [hl.1]; rfl)
      case setOne pos =>
        simp only [Legal] at hl
        split at hl
        · exact setlike rfl (by rw [hl.1]; rfl)
        · exact Nat.le_trans (mono rfl (fun i hi hb => by rw [← hl.2]; exact hb)) (Nat.le_add_right _ _)
      case resetAll =>
        exact Nat.le_trans (mono rfl (fun i hi hb => by have := hl.2 i hi; simp at this; simp [this] at hb)) (Nat.le_add_right _ _)
      case reset p =>
        refine Nat.le_trans (mono rfl (fun i hi hb => ?_)) (Nat.le_add_right _ _)
        have := hl.2 i hi
        split at this
        · simp [this] at hb
        · rw [← this]; exact hb
      case resetOne pos =>
        simp only [Legal] at hl
        refine Nat.le_trans (mono rfl (fun i hi hb => ?_)) (Nat.le_add_right _ _)
        split at hl
        · have := hl.2 i hi
          split at this
          · simp [this] at hb
          · rw [← this]; exact hb
        · rw [← hl.2]; exact hb
      case getCurrentPattern => exact Nat.le_trans (mono rfl (fun i hi hb => by rw [← hl.2]; exact hb)) (Nat.le_add_right _ _)
      all_goals exact Nat.le_trans (wait _ _ _ _ rfl) (Nat.le_add_right _ _)
    omega

/-- An auto-reset flag: one set call releases at most one waiter. -/
theorem C42_autoReset_once {s : Std.St w} {tr : List (Ev w)} (h : Reach (Std.step true) (Std.init w) s tr) :
    (effects tr).countP isOkWait ≤ (effects tr).countP isSet := by
  have := once_hist (std_lin h).1
  omega

/-! #### C43 -/

/-- The atomic event flag could answer OK to `c` now. -/
def CanSucceed (auto : Bool) (σ : BitVec w) (c : Call w) : Prop := ∃ r σ', r.err = .OK ∧ Legal auto false σ c r σ'

/-- If nothing can move any more, then every call still in progress is a wait whose condition does not hold. -/
theorem C43_stuck {auto : Bool} {s : Std.St w} {tr : List (Ev w)} (h : Reach (Std.step auto) (Std.init w) s tr)
    (hst : ∀ u, Std.step auto s (.go u) = none) (t : Tid) :
    phase t tr = .out ∨ ∃ c, phase t tr = .called c ∧ (waitParams c).isSome ∧ ¬ CanSucceed auto s.pat c := by
  have inv := inv_reach h
  have hfree : s.holder = none := by
    cases hh : s.holder with
    | none => rfl
    | some u =>
      have hu := hst u
      rcases inv.crit u hh with ⟨c, a, l, e⟩ | ⟨c, a, e⟩ | ⟨c, a, e⟩ | ⟨c, a, e⟩ | ⟨c, e⟩ | ⟨c, a, e⟩ | ⟨c, e⟩ | ⟨c, a, e⟩ <;>
        simp only [Std.step, e] at hu
      · split at hu
        · simp at hu
        · split at hu <;> simp at hu
      all_goals simp at hu
  have hl := inv.loc t
  have ht := hst t
  cases hpc : s.pc t <;> rw [hpc] at hl <;> simp only [Std.step, hpc] at ht <;> simp only [Loc] at hl
  case idle => exact Or.inl hl
  case entry c =>
    exfalso
    split at ht
    case h_2 => split at ht <;> (try split at ht) <;> simp at ht
    all_goals simp at ht
  case sleep c a =>
    right
    obtain ⟨h1, h2⟩ := hl
    refine ⟨c, h1, ?_, ?_⟩
    · have h2 := h2.1
      cases c <;> simp [waitParams, dispatch] at h2 ⊢ <;> (split at h2 <;> simp at h2)
    · rintro ⟨r, σ', ho, hl⟩
      rw [legal_iff, h2.1] at hl
      simp only [PLegal] at hl
      unfold Wait at hl
      split at hl
      · rw [hl.1] at ho; simp at ho
      · rcases hl with ⟨x, _⟩ | ⟨x, _⟩ | ⟨x, _⟩
        · obtain ⟨u, c', hu⟩ := inv.awake t c a hpc ((pred_cond h2.2.1).2 x)
          have := hst u
          simp [Std.step, hu] at this
        · rw [x] at ho; simp at ho
        · simp at x
  case test c a l =>
    split at ht
    · simp at ht
    · split at ht <;> simp at ht
  all_goals simp [hfree] at ht

/-- While the flag's mutex is free and no notification is under way nobody sleeps whose condition holds. -/
theorem C43_no_lost_wakeup {auto : Bool} {s : Std.St w} {tr : List (Ev w)} (h : Reach (Std.step auto) (Std.init w) s tr)
    (hf : s.holder = none) {t c a} (hp : s.pc t = .sleep c a) : ¬ CanSucceed auto s.pat c := by
  have inv := inv_reach h
  have hl := inv.loc t
  rw [hp] at hl
  simp only [Loc] at hl
  rintro ⟨r, σ', ho, hl'⟩
  rw [legal_iff, hl.2.1] at hl'
  simp only [PLegal] at hl'
  unfold Wait at hl'
  split at hl'
  · rw [hl'.1] at ho; simp at ho
  · rcases hl' with ⟨x, _⟩ | ⟨x, _⟩ | ⟨x, _⟩
    · obtain ⟨u, c', hu⟩ := inv.awake t c a hp ((pred_cond hl.2.2.1).2 x)
      have := inv.loc u
      rw [hu] at this
      simp [Loc, hf] at this
    · rw [x] at ho; simp at ho
    · simp at x

/-- A thread inside a call, running alone while the mutex is free: it returns within seven steps, or it goes to sleep in a wait
that cannot succeed.  In particular a woken waiter whose condition holds returns OK. -/
theorem C43_alone {auto : Bool} {s : Std.St w} {tr : List (Ev w)} (h : Reach (Std.step auto) (Std.init w) s tr)
    (hf : s.holder = none) {t c} (hp : phase t tr = .called c) :
    (∃ n, n ≤ 7 ∧ ∃ s' ev, run (Std.step auto) (List.replicate n (.go t)) s = some (s', ev) ∧ (∃ r, Ev.ret t c r ∈ ev) ∧ s'.holder = none) ∨
    (∃ n, n ≤ 7 ∧ (∃ s', run (Std.step auto) (List.replicate n (.go t)) s = some (s', []) ∧ s'.pat = s.pat ∧
      s'.holder = none ∧ ∃ a, s'.pc t = .sleep c a) ∧ ¬ CanSucceed auto s.pat c) := by
  have hl := (inv_reach h).loc t
  rw [hp] at hl
  have cant : ∀ a, Asked c a → pred a.m a.p s.pat = false → ¬ CanSucceed auto s.pat c := by
    rintro a h2 hpf ⟨r, σ', ho, hl'⟩
    rw [legal_iff, h2.1] at hl'
    simp only [PLegal] at hl'
    unfold Wait at hl'
    split at hl'
    · rw [hl'.1] at ho; simp at ho
    · rcases hl' with ⟨x, _⟩ | ⟨x, _⟩ | ⟨x, _⟩
      · rw [(pred_cond h2.2.1).2 x] at hpf; simp at hpf
      · rw [x] at ho; simp at ho
      · simp at x
  cases hpc : s.pc t <;> rw [hpc] at hl <;> simp only [Loc] at hl
  case idle => simp at hl
  case entry c' =>
    cases hl
    cases hd : dispatch c with
    | invalid => exact Or.inl ⟨2, by omega, by simp [List.replicate, run, Std.step, hpc, hd, Std.St.at, hf]; exact ⟨_, _, ⟨rfl, rfl⟩, ⟨_, List.mem_cons_of_mem _ (List.mem_singleton.2 rfl)⟩, rfl⟩⟩
    | set p => exact Or.inl ⟨6, by omega, by simp [List.replicate, run, Std.step, hpc, hd, Std.St.at, hf]; exact ⟨_, _, ⟨rfl, rfl⟩, ⟨_, List.mem_cons_of_mem _ (List.mem_singleton.2 rfl)⟩, rfl⟩⟩
    | reset p => exact Or.inl ⟨5, by omega, by simp [List.replicate, run, Std.step, hpc, hd, Std.St.at, hf]; exact ⟨_, _, ⟨rfl, rfl⟩, ⟨_, List.mem_cons_of_mem _ (List.mem_singleton.2 rfl)⟩, rfl⟩⟩
    | get => exact Or.inl ⟨5, by omega, by simp [List.replicate, run, Std.step, hpc, hd, Std.St.at, hf]; exact ⟨_, _, ⟨rfl, rfl⟩, ⟨_, List.mem_cons_of_mem _ (List.mem_singleton.2 rfl)⟩, rfl⟩⟩
    | twait p m out tm =>
      by_cases hm : m ≠ .OR ∧ m ≠ .AND
      · exact Or.inl ⟨2, by omega, by simp [List.replicate, run, Std.step, hpc, hd, Std.St.at, hm, hf]; exact ⟨_, _, ⟨rfl, rfl⟩, ⟨_, List.mem_cons_of_mem _ (List.mem_singleton.2 rfl)⟩, rfl⟩⟩
      by_cases hz : p = 0#w
      · exact Or.inl ⟨2, by omega, by simp [List.replicate, run, Std.step, hpc, hd, Std.St.at, hm, hz, hf]; exact ⟨_, _, ⟨rfl, rfl⟩, ⟨_, List.mem_cons_of_mem _ (List.mem_singleton.2 rfl)⟩, rfl⟩⟩
      cases hpf : pred m p s.pat
      · refine Or.inr ⟨3, by omega, by simp [List.replicate, run, Std.step, hpc, hd, Std.St.at, hm, hz, hf, hpf], ?_⟩
        exact cant ⟨p, m, out, tm⟩ ⟨hd, by cases m <;> simp at hm ⊢, hz⟩ hpf
      · exact Or.inl ⟨7, by omega, by simp [List.replicate, run, Std.step, hpc, hd, Std.St.at, hm, hz, hf, hpf]; exact ⟨_, _, ⟨rfl, rfl⟩, ⟨_, List.mem_cons_of_mem _ (List.mem_singleton.2 rfl)⟩, rfl⟩⟩
  case lockW c' a =>
    obtain ⟨e, ha⟩ := hl
    cases e
    cases hpf : pred a.m a.p s.pat
    · exact Or.inr ⟨2, by omega, by simp [List.replicate, run, Std.step, hpc, Std.St.at, hf, hpf], cant a ha hpf⟩
    · exact Or.inl ⟨6, by omega, by simp [List.replicate, run, Std.step, hpc, Std.St.at, hf, hpf]; exact ⟨_, _, ⟨rfl, rfl⟩, ⟨_, List.mem_cons_of_mem _ (List.mem_singleton.2 rfl)⟩, rfl⟩⟩
  case woken c' a last =>
    obtain ⟨e, ha, _⟩ := hl
    cases e
    cases hpf : pred a.m a.p s.pat
    · cases last
      · exact Or.inr ⟨2, by omega, by simp [List.replicate, run, Std.step, hpc, Std.St.at, hf, hpf], cant a ha hpf⟩
      · exact Or.inl ⟨4, by omega, by simp [List.replicate, run, Std.step, hpc, Std.St.at, hf, hpf]; exact ⟨_, _, ⟨rfl, rfl⟩, ⟨_, List.mem_cons_of_mem _ (List.mem_singleton.2 rfl)⟩, rfl⟩⟩
    · exact Or.inl ⟨6, by omega, by simp [List.replicate, run, Std.step, hpc, Std.St.at, hf, hpf]; exact ⟨_, _, ⟨rfl, rfl⟩, ⟨_, List.mem_cons_of_mem _ (List.mem_singleton.2 rfl)⟩, rfl⟩⟩
  case sleep c' a =>
    obtain ⟨e, ha⟩ := hl
    cases e
    exact Or.inr ⟨0, by omega, ⟨s, rfl, rfl, hf, _, hpc⟩, C43_no_lost_wakeup h hf hpc⟩
  case lockS c' p => cases hl.1; exact Or.inl ⟨5, by omega, by simp [List.replicate, run, Std.step, hpc, Std.St.at, hf]; exact ⟨_, _, ⟨rfl, rfl⟩, ⟨_, List.mem_cons_of_mem _ (List.mem_singleton.2 rfl)⟩, rfl⟩⟩
  case lockR c' p => cases hl.1; exact Or.inl ⟨4, by omega, by simp [List.replicate, run, Std.step, hpc, Std.St.at, hf]; exact ⟨_, _, ⟨rfl, rfl⟩, ⟨_, List.mem_cons_of_mem _ (List.mem_singleton.2 rfl)⟩, rfl⟩⟩
  case lockG c' => cases hl.1; exact Or.inl ⟨4, by omega, by simp [List.replicate, run, Std.step, hpc, Std.St.at, hf]; exact ⟨_, _, ⟨rfl, rfl⟩, ⟨_, List.mem_cons_of_mem _ (List.mem_singleton.2 rfl)⟩, rfl⟩⟩
  all_goals simp [hf] at hl

/-- Setting bits does wake: a thread is asleep in a wait that could succeed once the bits of `q` are in; another thread sets `q`;
both run to the end and the waiter returns OK. -/
theorem C43_set_wakes {auto : Bool} {s : Std.St w} {tr : List (Ev w)} (h : Reach (Std.step auto) (Std.init w) s tr)
    (hf : s.holder = none) {t u : Tid} (hne : u ≠ t) {q : BitVec w} {c a}
    (hp : s.pc t = .sleep c a) (hu : s.pc u = .idle) (hq : CanSucceed auto (s.pat ||| q) c) :
    ∃ s' ev, run (Std.step auto) (.call u (.set q) :: List.replicate 6 (.go u) ++ List.replicate 6 (.go t)) s = some (s', ev) ∧
      ∃ r, Ev.ret t c r ∈ ev ∧ r.err = .OK := by
  have hl := (inv_reach h).loc t
  rw [hp] at hl
  have h2 := hl.2
  have hx : pred a.m a.p (s.pat ||| q) = true := by
    obtain ⟨r, σ', ho, hl'⟩ := hq
    rw [legal_iff, h2.1] at hl'
    simp only [PLegal] at hl'
    unfold Wait at hl'
    split at hl'
    · rw [hl'.1] at ho; simp at ho
    · rcases hl' with ⟨x, _⟩ | ⟨x, _⟩ | ⟨x, _⟩
      · exact (pred_cond h2.2.1).2 x
      · rw [x] at ho; simp at ho
      · simp at x
  simp [List.replicate, run, Std.step, hu, dispatch, Std.St.at, hf, Std.wakeAll, upd, hne, hp, Ne.symm hne, hx]
  exact ⟨_, _, ⟨rfl, rfl⟩, ⟨.OK, if a.out then some (s.pat ||| q) else none⟩, by simp, rfl⟩

/-! #### C44 -/

theorem dispatch_invalid {c : Call w} (h : InvalidParams c) : dispatch c = .invalid ∨
    ∃ p m out tm, dispatch c = .twait p m out tm ∧ ((m ≠ .OR ∧ m ≠ .AND) ∨ p = 0) := by
  have gen : ∀ (p : BitVec w) (m : Mode), ((m ≠ .OR ∧ m ≠ .AND) ∨ ∀ i, i < w → p.getLsbD i = false) → (m ≠ .OR ∧ m ≠ .AND) ∨ p = 0 :=
    fun p m h => h.imp id (zero_iff p).2
  have all : (∀ i, i < w → true = false) → allBits w = 0 := fun h => (zero_iff _).2 fun i hi => absurd (h i hi) (by simp)
  cases c <;> simp only [InvalidParams, waitParams, Option.some.injEq, Prod.mk.injEq] at h
  case setOne pos | resetOne pos => left; simp [dispatch, h]
  case wait p m out | tryWait p m out | timedWait p m out tm =>
    obtain ⟨_, _, _, _, ⟨rfl, rfl, rfl, rfl⟩, h⟩ := h
    exact Or.inr ⟨_, _, _, _, rfl, gen _ _ h⟩
  case waitAny | tryWaitAny | timedWaitAny tm =>
    obtain ⟨_, _, _, _, ⟨rfl, rfl, rfl, rfl⟩, h⟩ := h
    refine Or.inr ⟨_, _, _, _, rfl, Or.inr (all ?_)⟩
    rcases h with h | h
    · simp at h
    · exact h
  case waitOne pos | tryWaitOne pos | timedWaitOne pos tm =>
    obtain ⟨_, _, _, _, ⟨rfl, rfl, rfl, rfl⟩, h⟩ := h
    have : w ≤ pos := by
      rcases h with h | h
      · simp at h
      · apply Classical.byContradiction; intro hc; have := h pos (by omega); simp at this
    left; simp [dispatch, this]
  all_goals (obtain ⟨_, _, _, _, h, _⟩ := h; simp at h)

theorem upd3 {α : Type} {f : Tid → α} {t : Tid} {x y z : α} (h : f t = z) : upd (upd (upd f t x) t y) t z = f := by
  funext u
  by_cases e : u = t
  · subst e; simp [upd, h]
  · simp [upd, e]

/-- A call with invalid parameters made in any state, whatever the other threads are doing: it returns InvalidParameter after two
steps of its own, without waiting for anything and without changing anything. -/
theorem C44_invalid {auto : Bool} (s : Std.St w) (t : Tid) {c : Call w} (hi : InvalidParams c) (hp : s.pc t = .idle) :
    run (Std.step auto) [.call t c, .go t, .go t] s =
      some (s, [.call t c, .lin t c ⟨.InvalidParameter, none⟩, .ret t c ⟨.InvalidParameter, none⟩]) := by
  rcases dispatch_invalid hi with hd | ⟨p, m, out, tm, hd, hv⟩
  · simp [run, Std.step, hp, hd, Std.St.at, upd3 hp]
  · by_cases hm : m ≠ .OR ∧ m ≠ .AND
    · simp [run, Std.step, hp, hd, Std.St.at, hm, upd3 hp]
    · have hz : p = 0#w := hv.resolve_left hm
      simp [run, Std.step, hp, hd, Std.St.at, hm, hz, upd3 hp]

theorem C44_invalid_itron {clr : Bool} {ins : List (Itron.Waiter w) → Itron.Waiter w → Nat} (s : Itron.St w) (t : Tid) {c : Call w}
    (hi : InvalidParams c) (hp : s.pc t = .idle) :
    run (Itron.step clr ins) [.call t c, .go t, .go t] s =
      some (s, [.call t c, .lin t c ⟨.InvalidParameter, none⟩, .ret t c ⟨.InvalidParameter, none⟩]) := by
  rcases dispatch_invalid hi with hd | ⟨p, m, out, tm, hd, hv⟩
  · simp [run, Itron.step, hp, hd, Itron.St.at, upd3 hp]
  · by_cases hm : m ≠ .OR ∧ m ≠ .AND
    · simp [run, Itron.step, hp, hd, Itron.St.at, hm, upd3 hp]
    · have hz : p = 0#w := hv.resolve_left hm
      simp [run, Itron.step, hp, hd, Itron.St.at, hm, hz, upd3 hp]

/-- InvalidParameter is returned for invalid parameters only, on either platform. -/
theorem C44_only {auto os : Bool} {tr : List (Ev w)} {σ : BitVec w} (h : Linearizable auto os tr σ) {t c r}
    (hr : Ev.ret t c r ∈ tr) : r.err = .InvalidParameter ↔ InvalidParams c := by
  obtain ⟨h1, h2, σ1, σ2, e, hh, hl⟩ := legal_of_mem h (returned_mem h hr)
  have wait : ∀ req m out tm, waitParams c = some (req, m, out, tm) →
      (r.err = .InvalidParameter ↔ ((m ≠ .OR ∧ m ≠ .AND) ∨ ∀ i, i < w → req i = false)) := by
    intro req m out tm hw
    rw [legal_wait hw] at hl
    unfold Wait at hl
    split at hl
    · next x => simp only [x, iff_true]; rw [hl.1]
    · next x =>
      simp only [x, iff_false]
      rcases hl with ⟨_, rfl, _⟩ | ⟨rfl, _⟩ | ⟨_, rfl | rfl, _⟩ <;> simp
  have wait' : ∀ req m out tm, waitParams c = some (req, m, out, tm) →
      (r.err = .InvalidParameter ↔ ∃ req m out tm, waitParams c = some (req, m, out, tm) ∧ ((m ≠ .OR ∧ m ≠ .AND) ∨ ∀ i, i < w → req i = false)) := by
    intro req m out tm hw
    rw [wait _ _ _ _ hw]
    constructor
    · exact fun x => ⟨req, m, out, tm, hw, x⟩
    · rintro ⟨_, _, _, _, hw', x⟩; rw [hw] at hw'; cases hw'; exact x
  cases c
  case setAll | resetAll | set | reset | getCurrentPattern => simp [InvalidParams, waitParams, hl.1]
  case setOne pos | resetOne pos =>
    simp only [Legal] at hl
    simp only [InvalidParams]
    split at hl
    · rw [hl.1]; simp; omega
    · rw [hl.1]; simp; omega
  all_goals exact wait' _ _ _ _ rfl

/-! #### C45 -/

/-- The ITRON event flag, with any queueing order and any kernel errors, is linearizable with respect to the same atomic object. -/
theorem C45_refines {clr : Bool} {ins : List (Itron.Waiter w) → Itron.Waiter w → Nat} {s : Itron.St w} {tr : List (Ev w)}
    (h : Reach (Itron.step clr ins) (Itron.init w) s tr) : Linearizable clr true tr s.pat := itron_lin h

/-- A task in the wait queue is there because its condition does not hold; all other tasks can run. -/
theorem C45_stuck {clr : Bool} {ins : List (Itron.Waiter w) → Itron.Waiter w → Nat} {s : Itron.St w} {tr : List (Ev w)}
    (h : Reach (Itron.step clr ins) (Itron.init w) s tr) (t : Tid) (hst : Itron.step clr ins s (.go t) = none) :
    phase t tr = .out ∨ ∃ c, phase t tr = .called c ∧ (waitParams c).isSome ∧ ¬ CanSucceed clr s.pat c := by
  have inv := iinv_reach h
  have hl := inv.loc t
  cases hpc : s.pc t <;> rw [hpc] at hl <;> simp only [Itron.step, hpc] at hst <;> simp only [ILoc] at hl
  case idle => exact Or.inl hl
  case ret => simp at hst
  case entry c =>
    exfalso
    split at hst
    case h_2 => repeat' split at hst
                all_goals simp at hst
    all_goals simp at hst
  case waiting c =>
    right
    obtain ⟨x, hx, hxt⟩ := inv.wait t c hpc
    have hq := inv.queue x hx
    rw [hxt, hpc] at hq
    obtain ⟨e, hv, hpf⟩ := hq
    cases e
    refine ⟨x.c, hl, ?_, ?_⟩
    · have h2 := hv.1
      revert h2
      cases x.c <;> simp [waitParams, dispatch] <;> intro h2 <;> (split at h2 <;> simp at h2)
    · rintro ⟨r, σ', ho, hl'⟩
      rw [legal_iff, hv.1] at hl'
      simp only [PLegal] at hl'
      unfold Wait at hl'
      split at hl'
      · rw [hl'.1] at ho; simp at ho
      · rcases hl' with ⟨y, _⟩ | ⟨y, _⟩ | ⟨y, _⟩
        · rw [(pred_cond hv.2.1).2 y] at hpf; simp at hpf
        · rw [y] at ho; simp at ho
        · simp at y

/-! #### Non-vacuity -/

/-- Two waiters on an auto-reset flag, one set: exactly one of them is released, the other goes back to sleep. -/
def twoWaiters : List (Act 8) :=
  .call 1 (.waitOne 3) :: List.replicate 3 (.go 1) ++ .call 2 .waitAny :: List.replicate 3 (.go 2) ++
  .call 0 (.set 0x0c#8) :: List.replicate 6 (.go 0) ++ List.replicate 6 (.go 2) ++ List.replicate 2 (.go 1)

example : ∃ s tr, Reach (Std.step true) (Std.init 8) s tr ∧ Ev.ret 2 .waitAny ⟨.OK, none⟩ ∈ tr ∧ phase 1 tr = .called (.waitOne 3) ∧
    (effects tr).countP isOkWait = 1 ∧ (effects tr).countP isSet = 1 ∧ s.holder = none ∧ s.pat = 0 := by
  obtain ⟨s, tr, h, hp⟩ := runSat_ex (step := Std.step true) (init := Std.init 8) (as := twoWaiters)
    (P := fun s tr => decide (Ev.ret 2 .waitAny ⟨.OK, none⟩ ∈ tr ∧ phase 1 tr = .called (.waitOne 3) ∧
    (effects tr).countP isOkWait = 1 ∧ (effects tr).countP isSet = 1 ∧ s.holder = none ∧ s.pat = 0)) (by decide)
  exact ⟨s, tr, h, of_decide_eq_true hp⟩

/-- The hypothesis of C43_stuck: a reachable state in which nothing can move and a waiter is asleep. -/
example : ∃ s tr, Reach (Std.step true) (Std.init 8) s tr ∧ (∀ u, Std.step true s (.go u) = none) ∧ phase 1 tr = .called (.waitOne 3) := by
  refine ⟨_, _, run_reach [.call 1 (.waitOne 3), .go 1, .go 1, .go 1] Reach.init rfl, fun u => ?_, by decide⟩
  by_cases e : u = 1
  · subst e; rfl
  · simp [Std.step, Std.St.at, upd, e, Std.init]

/-- The same on ITRON: the released waiter is the first of the queue. -/
def twoWaitersItron : List (Act 8) :=
  [.call 1 (.waitOne 3), .go 1, .call 2 .waitAny, .go 2, .call 0 (.set 0x0c#8), .go 0, .go 1, .go 0]

example : ∃ s tr, Reach (Itron.step true (fun q _ => q.length)) (Itron.init 8) s tr ∧ Ev.ret 1 (.waitOne 3) ⟨.OK, none⟩ ∈ tr ∧
    phase 2 tr = .called .waitAny ∧ s.pat = 0 := by
  obtain ⟨s, tr, h, hp⟩ := runSat_ex (step := Itron.step true (fun q _ => q.length)) (init := Itron.init 8) (as := twoWaitersItron)
    (P := fun s tr => decide (Ev.ret 1 (.waitOne 3) ⟨.OK, none⟩ ∈ tr ∧ phase 2 tr = .called .waitAny ∧ s.pat = 0)) (by decide)
  exact ⟨s, tr, h, of_decide_eq_true hp⟩

/-- Timeout and invalid parameters do occur. -/
example : InvalidParams (.waitOne 32 : Call 32) ∧ InvalidParams (.wait 0#32 .OR true) ∧ InvalidParams (.tryWait 5#32 (.other 7) false) ∧
    ¬ InvalidParams (.waitOne 31 : Call 32) := by
  refine ⟨⟨_, _, _, _, rfl, Or.inr ?_⟩, ⟨_, _, _, _, rfl, Or.inr ?_⟩, ⟨_, _, _, _, rfl, Or.inl (by decide)⟩, ?_⟩
  · intro i hi; simp; omega
  · intro i hi; simp
  · rintro ⟨_, _, _, _, h, hx⟩
    cases h
    rcases hx with h | h
    · simp at h
    · have := h 31 (by omega); simp at this

example : (((run (Std.step false) (.call 1 (.timedWait 6#8 .AND true (.ms 5)) :: .go 1 :: .go 1 :: .go 1 :: .timeout 1 :: List.replicate 4 (.go 1))
    (Std.init 8)).map (·.2)).getD []).getLast? = some (.ret 1 (.timedWait 6#8 .AND true (.ms 5)) ⟨.TimedOut, none⟩) := by decide

end Verif.Props.EventFlag
