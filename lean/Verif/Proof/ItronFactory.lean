import Verif.Model.ItronFactory
namespace Verif.Props.ItronFactory
open Verif Verif.IFa Verif.Fac
open _root_.Verif.Lts (Reach)

variable {c : IFa.Cfg} {s s' : FSt} {tr : List Fac.Ev}

/-- The block a caller holds while no object is in it. -/
def raw : IFa.PC → Option Nat
  | .new p | .back p | .rel p => some p
  | _ => none
/-- The object a caller is destroying. -/
def dyi : IFa.PC → Option Nat
  | .stp p | .del p => some p
  | _ => none

structure Inv (c : IFa.Cfg) (s : FSt) (tr : List Fac.Ev) : Prop where
  bn : s.blk.Nodup
  bl : s.blk.length ≤ c.N
  kn : (s.ker.map (·.id)).Nodup
  ko : ∀ x ∈ s.ker, x.ours = true → ∃ ph, s.obj x.ex = some ⟨x.id, ph⟩ ∧ x.sta = activeAfter x.ex tr ∧ (ph = .stopped → x.sta = false)
  ok : ∀ p id ph, s.obj p = some ⟨id, ph⟩ → 0 < id ∧ p ∈ s.blk ∧ ∃ x ∈ s.ker, x.id = id ∧ x.ours = true ∧ x.ex = p
  rw_ : ∀ t p, raw (s.pc t) = some p → p ∈ s.blk ∧ s.obj p = none
  dy : ∀ t p, dyi (s.pc t) = some p → ∃ id ph, s.obj p = some ⟨id, ph⟩ ∧ ph ≠ .live
  un1 : ∀ t t' p, raw (s.pc t) = some p → raw (s.pc t') = some p → t = t'
  un2 : ∀ t t' p, dyi (s.pc t) = some p → dyi (s.pc t') = some p → t = t'
  cov : ∀ p ∈ s.blk, s.obj p ≠ none ∨ ∃ t, raw (s.pc t) = some p
  cov2 : ∀ p id ph, s.obj p = some ⟨id, ph⟩ → ph ≠ .live → ∃ t, dyi (s.pc t) = some p
  ln : (live tr).Nodup
  lv : ∀ p, p ∈ live tr ↔ s.obj p ≠ none ∨ ∃ t, s.pc t = .rel p

theorem live_append (tr : List Fac.Ev) (e : Fac.Ev) : live (tr ++ [e]) = liveStep (live tr) e := by simp [live, List.foldl_append]
theorem active_append (p : Nat) (tr : List Fac.Ev) (e : Fac.Ev) : activeAfter p (tr ++ [e]) = activeStep p (activeAfter p tr) e := by
  simp [activeAfter, List.foldl_append]

theorem find_ker {l : List KObj} {id : Nat} {x : KObj} (h : l.find? (fun x => x.id == id) = some x) : x ∈ l ∧ x.id = id :=
  ⟨List.mem_of_find?_eq_some h, by simpa using List.find?_some h⟩

theorem mem_inj {l : List KObj} (h : (l.map (·.id)).Nodup) {x y : KObj} (hx : x ∈ l) (hy : y ∈ l) (e : x.id = y.id) : x = y := by
  induction l with
  | nil => simp at hx
  | cons a l ih =>
    simp only [List.map_cons, List.nodup_cons, List.mem_map, not_exists, not_and] at h
    simp only [List.mem_cons] at hx hy
    rcases hx with rfl | hx <;> rcases hy with rfl | hy
    · rfl
    · exact absurd e.symm (h.1 y hy)
    · exact absurd e (h.1 x hx)
    · exact ih h.2 hx hy

theorem set_ids (l : List KObj) (id : Nat) (b : Bool) : (setSta l id b).map (·.id) = l.map (·.id) := by
  unfold setSta; rw [List.map_map]; apply List.map_congr_left; intro x _; simp only [Function.comp]; split <;> rfl
theorem mem_set {l : List KObj} {id : Nat} {b : Bool} {x : KObj} : x ∈ setSta l id b ↔ ∃ y ∈ l, x = if y.id = id then { y with sta := b } else y := by
  unfold setSta; simp only [List.mem_map]; constructor
  · rintro ⟨y, h, rfl⟩; exact ⟨y, h, rfl⟩
  · rintro ⟨y, h, rfl⟩; exact ⟨y, h, rfl⟩

theorem init : Inv c FSt.init [] := by
  constructor <;> simp [FSt.init, raw, dyi, live]

theorem Inv.in_blk (h : Inv c s tr) (p : Nat) (hp : s.obj p ≠ none) : p ∈ s.blk := by
  cases e : s.obj p with
  | none => exact absurd e hp
  | some x => exact (h.ok p x.id x.ph e).2.1

theorem exR {pc : Nat → IFa.PC} {t : Nat} {v : IFa.PC} {p : Nat} :
    (∃ a, raw (put pc t v a) = some p) ↔ raw v = some p ∨ ∃ a, a ≠ t ∧ raw (pc a) = some p := by
  constructor
  · rintro ⟨a, h⟩; by_cases e : a = t
    · left; simpa [put, e] using h
    · right; exact ⟨a, e, by simpa [put, e] using h⟩
  · rintro (h | ⟨a, e, h⟩)
    · exact ⟨t, by simpa [put] using h⟩
    · exact ⟨a, by simpa [put, e] using h⟩
theorem exD {pc : Nat → IFa.PC} {t : Nat} {v : IFa.PC} {p : Nat} :
    (∃ a, dyi (put pc t v a) = some p) ↔ dyi v = some p ∨ ∃ a, a ≠ t ∧ dyi (pc a) = some p := by
  constructor
  · rintro ⟨a, h⟩; by_cases e : a = t
    · left; simpa [put, e] using h
    · right; exact ⟨a, e, by simpa [put, e] using h⟩
  · rintro (h | ⟨a, e, h⟩)
    · exact ⟨t, by simpa [put] using h⟩
    · exact ⟨a, by simpa [put, e] using h⟩
theorem exL {pc : Nat → IFa.PC} {t : Nat} {v : IFa.PC} {p : Nat} :
    (∃ a, put pc t v a = .rel p) ↔ v = .rel p ∨ ∃ a, a ≠ t ∧ pc a = .rel p := by
  constructor
  · rintro ⟨a, h⟩; by_cases e : a = t
    · left; simpa [put, e] using h
    · right; exact ⟨a, e, by simpa [put, e] using h⟩
  · rintro (h | ⟨a, e, h⟩)
    · exact ⟨t, by simpa [put] using h⟩
    · exact ⟨a, by simpa [put, e] using h⟩

theorem Inv.get (h : Inv c s tr) {t p : Nat} (hp : s.pc t = .get) (h2 : p ∉ s.blk) (h3 : s.blk.length < c.N) :
    Inv c { s with pc := put s.pc t (.new p), blk := p :: s.blk } tr := by
  have hb := h.in_blk
  obtain ⟨bn, bl, kn, ko, ok, rw_, dy, un1, un2, cov, cov2, ln, lv⟩ := h
  constructor
  case bn => simp [h2, bn]
  case bl => simp; omega
  case kn => exact kn
  case ko => exact ko
  case ok => intro q id ph hq; obtain ⟨a, b, d⟩ := ok q id ph hq; exact ⟨a, List.mem_cons_of_mem _ b, d⟩
  case ln => exact ln
  all_goals clear ko ok kn; simp only [exR, exD, exL]; grind [raw, dyi, put]

theorem Inv.idle (h : Inv c s tr) {t : Nat} {v : IFa.PC} (hp : s.pc t = .out ∨ s.pc t = .get) (hv : v = .out ∨ v = .get) :
    Inv c { s with pc := put s.pc t v } tr := by
  obtain ⟨bn, bl, kn, ko, ok, rw_, dy, un1, un2, cov, cov2, ln, lv⟩ := h
  constructor
  case bn => exact bn
  case bl => exact bl
  case kn => exact kn
  case ko => exact ko
  case ok => exact ok
  case ln => exact ln
  all_goals clear ko ok kn; simp only [exR, exD, exL]; grind [raw, dyi, put]

theorem Inv.fail (h : Inv c s tr) {t p : Nat} (hp : s.pc t = .new p) : Inv c { s with pc := put s.pc t (.back p) } tr := by
  obtain ⟨bn, bl, kn, ko, ok, rw_, dy, un1, un2, cov, cov2, ln, lv⟩ := h
  constructor
  case bn => exact bn
  case bl => exact bl
  case kn => exact kn
  case ko => exact ko
  case ok => exact ok
  case ln => exact ln
  all_goals clear ko ok kn; simp only [exR, exD, exL]; grind [raw, dyi, put]

theorem Inv.back (h : Inv c s tr) {t p : Nat} (hp : s.pc t = .back p) :
    Inv c { s with pc := put s.pc t .out, blk := s.blk.filter (· ≠ p) } tr := by
  have hb := h.in_blk
  obtain ⟨bn, bl, kn, ko, ok, rw_, dy, un1, un2, cov, cov2, ln, lv⟩ := h
  have h0 := (rw_ t p (by simp [hp, raw])).2
  have e : ∀ q, q ∈ s.blk.filter (· ≠ p) ↔ q ∈ s.blk ∧ q ≠ p := by simp
  constructor
  case bn => exact bn.sublist List.filter_sublist
  case bl => exact Nat.le_trans (List.length_filter_le _ _) bl
  case kn => exact kn
  case ko => exact ko
  case ok =>
    intro q id ph hq; obtain ⟨a, b, d⟩ := ok q id ph hq
    exact ⟨a, (e q).mpr ⟨b, by rintro rfl; rw [h0] at hq; simp at hq⟩, d⟩
  case ln => exact ln
  all_goals clear ko ok kn bn bl; simp only [exR, exD, exL, e]; grind [raw, dyi, put]

theorem Inv.rel (h : Inv c s tr) {t p : Nat} (hp : s.pc t = .rel p) :
    Inv c { s with pc := put s.pc t .out, blk := s.blk.filter (· ≠ p) } (tr ++ [.destroyed t p]) := by
  have hb := h.in_blk
  obtain ⟨bn, bl, kn, ko, ok, rw_, dy, un1, un2, cov, cov2, ln, lv⟩ := h
  have h0 := (rw_ t p (by simp [hp, raw])).2
  have e : ∀ q, q ∈ s.blk.filter (· ≠ p) ↔ q ∈ s.blk ∧ q ≠ p := by simp
  have e' : ∀ q, q ∈ live (tr ++ [.destroyed t p]) ↔ q ∈ live tr ∧ q ≠ p := by simp [live_append, liveStep]
  constructor
  case bn => exact bn.sublist List.filter_sublist
  case bl => exact Nat.le_trans (List.length_filter_le _ _) bl
  case kn => exact kn
  case ko => simpa only [active_append, activeStep] using ko
  case ok =>
    intro q id ph hq; obtain ⟨a, b, d⟩ := ok q id ph hq
    exact ⟨a, (e q).mpr ⟨b, by rintro rfl; rw [h0] at hq; simp at hq⟩, d⟩
  case ln => rw [live_append]; exact ln.sublist List.filter_sublist
  all_goals clear ko ok kn bn bl; simp only [exR, exD, exL, e, e']; grind [raw, dyi, put]

theorem Inv.new (h : Inv c s tr) {t p id : Nat} (hp : s.pc t = .new p) (hi : 0 < id) (hf : ∀ x ∈ s.ker, x.id ≠ id) :
    Inv c { s with pc := put s.pc t .out, ker := ⟨id, true, false, p⟩ :: s.ker, obj := put s.obj p (some ⟨id, .live⟩) } (tr ++ [.created t p]) := by
  have hb := h.in_blk
  obtain ⟨bn, bl, kn, ko, ok, rw_, dy, un1, un2, cov, cov2, ln, lv⟩ := h
  obtain ⟨hpb, h0⟩ := rw_ t p (by simp [hp, raw])
  have e' : ∀ q, q ∈ live (tr ++ [.created t p]) ↔ q = p ∨ q ∈ live tr := by simp [live_append, liveStep]
  have hnl : p ∉ live tr := by
    rw [lv]; rintro (h | ⟨t', h⟩)
    · exact h h0
    · have := un1 t t' p (by simp [hp, raw]) (by simp [h, raw]); subst this; rw [hp] at h; simp at h
  constructor
  case bn => exact bn
  case bl => exact bl
  case kn => simpa using ⟨fun x hx e => hf x hx e, kn⟩
  case ko =>
    intro x hx ho
    simp only [List.mem_cons] at hx
    rcases hx with rfl | hx
    · exact ⟨.live, by simp [put], by simp [active_append, activeStep], by simp⟩
    · obtain ⟨ph, a1, a2, a3⟩ := ko x hx ho
      have hne : x.ex ≠ p := by rintro e; rw [e, h0] at a1; simp at a1
      exact ⟨ph, by simpa [put, hne] using a1, by simpa [active_append, activeStep, Ne.symm hne] using a2, a3⟩
  case ok =>
    intro q id' ph hq
    by_cases e : q = p
    · subst e
      simp [put] at hq; obtain ⟨rfl, rfl⟩ := hq
      exact ⟨hi, hpb, _, List.mem_cons_self, rfl, rfl, rfl⟩
    · simp [put, e] at hq
      obtain ⟨a, b, x, hx, r⟩ := ok q id' ph hq
      exact ⟨a, b, x, List.mem_cons_of_mem _ hx, r⟩
  case ln => rw [live_append]; simpa [liveStep] using ⟨hnl, ln⟩
  all_goals clear ko ok kn bn bl; simp only [exR, exD, exL, e']; grind [raw, dyi, put]

theorem Inv.destroy (h : Inv c s tr) {t p id : Nat} (hp : s.pc t = .out) (ho : s.obj p = some ⟨id, .live⟩) :
    Inv c { s with pc := put s.pc t (if c.timer then .stp p else .del p), obj := put s.obj p (some ⟨id, .dying⟩) } (tr ++ [.destroy t p]) := by
  have hb := h.in_blk
  obtain ⟨bn, bl, kn, ko, ok, rw_, dy, un1, un2, cov, cov2, ln, lv⟩ := h
  have hr : raw (if c.timer then IFa.PC.stp p else .del p) = none := by split <;> rfl
  have hd : dyi (if c.timer then IFa.PC.stp p else .del p) = some p := by split <;> rfl
  have hl : ∀ q, ¬ (if c.timer then IFa.PC.stp p else .del p) = .rel q := by intro q; split <;> simp
  revert hr hd hl
  generalize (if c.timer then IFa.PC.stp p else .del p) = v
  intro hr hd hl
  have e' : live (tr ++ [.destroy t p]) = live tr := by simp [live_append, liveStep]
  constructor
  case bn => exact bn
  case bl => exact bl
  case kn => exact kn
  case ko =>
    intro x hx hxo
    obtain ⟨ph, a1, a2, a3⟩ := ko x hx hxo
    by_cases e : x.ex = p
    · rw [e, ho] at a1; simp at a1
      exact ⟨.dying, by simp [put, e, a1.1], by simpa [active_append, activeStep] using a2, by simp⟩
    · exact ⟨ph, by simpa [put, e] using a1, by simpa [active_append, activeStep] using a2, a3⟩
  case ok =>
    intro q id' ph hq
    by_cases e : q = p
    · subst e
      simp [put] at hq; obtain ⟨rfl, rfl⟩ := hq
      exact ok q id .live ho
    · simp [put, e] at hq; exact ok q id' ph hq
  case ln => rw [e']; exact ln
  case dy =>
    intro t' q hq
    by_cases e : t' = t
    · subst e
      simp only [put, if_true, hd, Option.some.injEq] at hq
      subst hq; exact ⟨id, .dying, by simp [put], by simp⟩
    · obtain ⟨i', ph', a1, a2⟩ := dy t' q (by simpa [put, e] using hq)
      have : q ≠ p := by rintro rfl; rw [ho] at a1; simp at a1; exact a2 a1.2.symm
      exact ⟨i', ph', by simpa [put, this] using a1, a2⟩
  all_goals clear ko ok kn bn bl; simp only [exR, exD, exL, e']; grind [raw, dyi, put]

theorem Inv.sta (h : Inv c s tr) {p id : Nat} {ph : Ph} (ho : s.obj p = some ⟨id, ph⟩) (b : Bool) (hb : ph = .stopped → b = false) :
    Inv c { s with ker := setSta s.ker id b } (tr ++ [.op p (if b then .start else .stop)]) := by
  obtain ⟨bn, bl, kn, ko, ok, rw_, dy, un1, un2, cov, cov2, ln, lv⟩ := h
  have e' : live (tr ++ [.op p (if b then .start else .stop)]) = live tr := by simp [live_append, liveStep]
  obtain ⟨hi, _, y, hy, hy1, hy2, hy3⟩ := ok p id ph ho
  constructor
  case kn => simp only [set_ids]; exact kn
  case ko =>
    intro x hx hxo
    rw [mem_set] at hx
    obtain ⟨z, hz, rfl⟩ := hx
    by_cases e : z.id = id
    · have : z = y := mem_inj kn hz hy (e.trans hy1.symm)
      subst this
      simp only [e, if_true]
      obtain ⟨ph', a1, a2, a3⟩ := ko z hz hy2
      rw [hy3, ho] at a1; simp at a1
      refine ⟨ph, by simp only [hy3]; exact ho, ?_, hb⟩
      cases b <;> simp [active_append, activeStep, hy3]
    · simp only [e, if_false] at hxo ⊢
      obtain ⟨ph', a1, a2, a3⟩ := ko z hz hxo
      have hne : p ≠ z.ex := by rintro rfl; rw [ho] at a1; simp at a1; exact e a1.1.symm
      refine ⟨ph', a1, ?_, a3⟩
      cases b <;> simp [active_append, activeStep, hne, a2]
  case ok =>
    intro q id' ph' hq
    obtain ⟨a1, a2, x, hx, x1, x2, x3⟩ := ok q id' ph' hq
    refine ⟨a1, a2, _, mem_set.mpr ⟨x, hx, rfl⟩, ?_⟩
    split <;> exact ⟨x1, x2, x3⟩
  case ln => rw [e']; exact ln
  case lv => rw [e']; exact lv
  all_goals assumption

theorem Inv.stopped (h : Inv c s tr) {t p id : Nat} {ph : Ph} (hp : s.pc t = .stp p) (ho : s.obj p = some ⟨id, ph⟩)
    (hs : activeAfter p tr = false) : Inv c { s with pc := put s.pc t (.del p), obj := put s.obj p (some ⟨id, .stopped⟩) } tr := by
  have hb := h.in_blk
  obtain ⟨bn, bl, kn, ko, ok, rw_, dy, un1, un2, cov, cov2, ln, lv⟩ := h
  constructor
  case bn => exact bn
  case bl => exact bl
  case kn => exact kn
  case ko =>
    intro x hx hxo
    obtain ⟨ph', a1, a2, a3⟩ := ko x hx hxo
    by_cases e : x.ex = p
    · rw [e, ho] at a1; simp at a1
      exact ⟨.stopped, by simp [put, e, a1.1], a2, fun _ => by rw [a2, e]; exact hs⟩
    · exact ⟨ph', by simpa [put, e] using a1, a2, a3⟩
  case ok =>
    intro q id' ph' hq
    by_cases e : q = p
    · subst e
      simp [put] at hq; obtain ⟨rfl, rfl⟩ := hq
      exact ok q id ph ho
    · simp [put, e] at hq; exact ok q id' ph' hq
  case ln => exact ln
  all_goals clear ko ok kn bn bl; simp only [exR, exD, exL]; grind [raw, dyi, put]

theorem Inv.del (h : Inv c s tr) {t p id : Nat} {ph : Ph} (hp : s.pc t = .del p) (ho : s.obj p = some ⟨id, ph⟩) :
    Inv c { s with pc := put s.pc t (.rel p), ker := s.ker.filter (fun x => x.id ≠ id), obj := put s.obj p none } tr := by
  have hb := h.in_blk
  obtain ⟨bn, bl, kn, ko, ok, rw_, dy, un1, un2, cov, cov2, ln, lv⟩ := h
  constructor
  case bn => exact bn
  case bl => exact bl
  case kn => exact kn.sublist (List.Sublist.map _ List.filter_sublist)
  case ko =>
    intro x hx hxo
    simp only [List.mem_filter, decide_eq_true_eq] at hx
    obtain ⟨ph', a1, a2, a3⟩ := ko x hx.1 hxo
    have : x.ex ≠ p := by rintro e; rw [e, ho] at a1; simp at a1; exact hx.2 a1.1.symm
    exact ⟨ph', by simpa [put, this] using a1, a2, a3⟩
  case ok =>
    intro q id' ph' hq
    by_cases e : q = p
    · subst e; simp [put] at hq
    · simp [put, e] at hq
      obtain ⟨a1, a2, x, hx, x1, x2, x3⟩ := ok q id' ph' hq
      refine ⟨a1, a2, x, ?_, x1, x2, x3⟩
      simp only [List.mem_filter, decide_eq_true_eq]
      refine ⟨hx, ?_⟩
      rintro rfl
      obtain ⟨_, _, y, hy, y1, y2, y3⟩ := ok p _ ph ho
      have := mem_inj kn hx hy y1.symm
      subst this
      exact e (x3.symm.trans y3)
  case ln => exact ln
  all_goals clear ko ok kn bn bl; simp only [exR, exD, exL]; grind [raw, dyi, put]

theorem Inv.foreign (h : Inv c s tr) {l : List KObj} (hn : (l.map (·.id)).Nodup) (ho : ∀ x ∈ l, x.ours = true → x ∈ s.ker)
    (hs : ∀ x ∈ s.ker, x.ours = true → x ∈ l) : Inv c { s with ker := l } tr := by
  obtain ⟨bn, bl, kn, ko, ok, rw_, dy, un1, un2, cov, cov2, ln, lv⟩ := h
  constructor
  case kn => exact hn
  case ko => intro x hx hxo; exact ko x (ho x hx hxo) hxo
  case ok =>
    intro q id' ph' hq
    obtain ⟨a1, a2, x, hx, x1, x2, x3⟩ := ok q id' ph' hq
    exact ⟨a1, a2, x, hs x hx x2, x1, x2, x3⟩
  all_goals assumption

/-- Events that change neither which objects exist nor which timers are active. -/
theorem Inv.quiet (h : Inv c s tr) {e : Fac.Ev} (h1 : ∀ l, liveStep l e = l) (h2 : ∀ p b, Fac.activeStep p b e = b) : Inv c s (tr ++ [e]) := by
  obtain ⟨bn, bl, kn, ko, ok, rw_, dy, un1, un2, cov, cov2, ln, lv⟩ := h
  constructor
  case ko => simpa only [active_append, h2] using ko
  case ln => simpa only [live_append, h1] using ln
  case lv => simpa only [live_append, h1] using lv
  all_goals assumption

theorem fresh_iff {s : FSt} {id : Nat} : fresh s id = true ↔ 0 < id ∧ ∀ x ∈ s.ker, x.id ≠ id := by
  simp [fresh]

theorem usable_some {p id : Nat} (h : usable c s p = some id) : c.timer = true ∧ ∃ ph, s.obj p = some ⟨id, ph⟩ ∧ ph ≠ .stopped := by
  unfold usable at h
  split at h
  · next i ph e =>
    simp only [Option.ite_none_right_eq_some, Option.some.injEq] at h
    obtain ⟨⟨h1, h2⟩, rfl⟩ := h
    exact ⟨h1, ph, e, h2⟩
  · simp at h

theorem Inv.step (h : Inv c s tr) {a : IFa.Act} {ev : List Fac.Ev} (hs : IFa.step c s a = some (s', ev)) : Inv c s' (tr ++ ev) := by
  cases a with
  | create t =>
    simp only [IFa.step, Option.ite_none_right_eq_some] at hs
    obtain ⟨hp, hs⟩ := hs
    split at hs <;> simp only [Option.some.injEq, Prod.mk.injEq] at hs <;> obtain ⟨rfl, rfl⟩ := hs
    · rw [List.append_nil]; exact h.idle (.inl hp) (.inr rfl)
    · exact h.quiet (fun _ => rfl) (fun _ _ => rfl)
  | get t ans =>
    simp only [IFa.step, Option.ite_none_right_eq_some] at hs
    obtain ⟨hp, hs⟩ := hs
    cases ans with
    | none =>
      simp only [Option.ite_none_right_eq_some, Option.some.injEq, Prod.mk.injEq] at hs
      obtain ⟨_, rfl, rfl⟩ := hs
      exact (h.idle (.inr hp) (.inl rfl)).quiet (fun _ => rfl) (fun _ _ => rfl)
    | some p =>
      simp only [Option.ite_none_right_eq_some, Option.some.injEq, Prod.mk.injEq] at hs
      obtain ⟨⟨h1, h2, h3⟩, rfl, rfl⟩ := hs
      rw [List.append_nil]; exact h.get hp h2 h3
  | new t ans =>
    simp only [IFa.step] at hs
    split at hs
    · next p hp =>
      cases ans with
      | none =>
        simp only [Option.some.injEq, Prod.mk.injEq] at hs
        obtain ⟨rfl, rfl⟩ := hs
        rw [List.append_nil]; exact h.fail hp
      | some id =>
        simp only [Option.ite_none_right_eq_some, Option.some.injEq, Prod.mk.injEq] at hs
        obtain ⟨hf, rfl, rfl⟩ := hs
        rw [fresh_iff] at hf
        exact h.new hp hf.1 hf.2
    · simp at hs
  | rel t =>
    simp only [IFa.step] at hs
    split at hs
    · next p hp =>
      simp only [Option.some.injEq, Prod.mk.injEq] at hs
      obtain ⟨rfl, rfl⟩ := hs
      exact (h.back hp).quiet (fun _ => rfl) (fun _ _ => rfl)
    · next p hp =>
      simp only [Option.some.injEq, Prod.mk.injEq] at hs
      obtain ⟨rfl, rfl⟩ := hs
      exact h.rel hp
    · simp at hs
  | destroy t p =>
    simp only [IFa.step] at hs
    split at hs
    · next id ho =>
      simp only [Option.ite_none_right_eq_some, Option.some.injEq, Prod.mk.injEq] at hs
      obtain ⟨hp, rfl, rfl⟩ := hs
      exact h.destroy hp ho
    · simp at hs
  | stp t =>
    simp only [IFa.step] at hs
    split at hs
    · next p hp =>
      split at hs
      · next id ph ho =>
        simp only [Option.some.injEq, Prod.mk.injEq] at hs
        obtain ⟨rfl, rfl⟩ := hs
        exact (h.sta ho false (fun _ => rfl)).stopped hp ho (by simp [active_append, Fac.activeStep])
      · simp at hs
    · simp at hs
  | del t =>
    simp only [IFa.step] at hs
    split at hs
    · next p hp =>
      split at hs
      · next id ph ho =>
        simp only [Option.some.injEq, Prod.mk.injEq] at hs
        obtain ⟨rfl, rfl⟩ := hs
        rw [List.append_nil, if_pos (h.ok p id ph ho).1]; exact h.del hp ho
      · simp at hs
    · simp at hs
  | start p =>
    simp only [IFa.step] at hs
    split at hs
    · next id hu =>
      obtain ⟨_, ph, ho, hne⟩ := usable_some hu
      simp only [Option.some.injEq, Prod.mk.injEq] at hs
      obtain ⟨rfl, rfl⟩ := hs
      exact h.sta ho true (fun e => absurd e hne)
    · simp at hs
  | stop p =>
    simp only [IFa.step] at hs
    split at hs
    · next id hu =>
      obtain ⟨_, ph, ho, hne⟩ := usable_some hu
      simp only [Option.some.injEq, Prod.mk.injEq] at hs
      obtain ⟨rfl, rfl⟩ := hs
      exact h.sta ho false (fun _ => rfl)
    · simp at hs
  | isStarted p =>
    simp only [IFa.step] at hs
    split at hs
    · simp only [Option.some.injEq, Prod.mk.injEq] at hs
      obtain ⟨rfl, rfl⟩ := hs
      exact h.quiet (fun _ => rfl) (fun _ _ => rfl)
    · simp at hs
  | fire id =>
    simp only [IFa.step] at hs
    split at hs
    · simp only [Option.ite_none_right_eq_some, Option.some.injEq, Prod.mk.injEq] at hs
      obtain ⟨_, rfl, rfl⟩ := hs
      split <;> exact h.quiet (fun _ => rfl) (fun _ _ => rfl)
    · simp at hs
  | newK id =>
    simp only [IFa.step, Option.ite_none_right_eq_some, Option.some.injEq, Prod.mk.injEq] at hs
    obtain ⟨hf, rfl, rfl⟩ := hs
    rw [fresh_iff] at hf
    rw [List.append_nil]
    refine h.foreign ?_ ?_ ?_
    · simpa using ⟨hf.2, h.kn⟩
    · intro x hx ho; simp only [List.mem_cons] at hx; rcases hx with rfl | hx
      · simp at ho
      · exact hx
    · intro x hx _; exact List.mem_cons_of_mem _ hx
  | delK id =>
    simp only [IFa.step, Option.some.injEq, Prod.mk.injEq] at hs
    obtain ⟨rfl, rfl⟩ := hs
    rw [List.append_nil]
    refine h.foreign (h.kn.sublist (List.Sublist.map _ List.filter_sublist)) ?_ ?_
    · intro x hx _; exact (List.mem_filter.mp hx).1
    · intro x hx ho; simp [hx, ho]

theorem Inv.reach (h : Reach (IFa.step c) FSt.init s tr) : Inv c s tr := by
  induction h with
  | init => exact init
  | step _ e ih => exact ih.step e

theorem one_event {a : IFa.Act} {ev : List Fac.Ev} (hs : IFa.step c s a = some (s', ev)) : ev = [] ∨ ∃ e, ev = [e] := by
  cases a with
  | get t ans => cases ans <;> simp only [IFa.step] at hs <;> (repeat' split at hs) <;> simp at hs <;> simp [← hs.2]
  | new t ans => cases ans <;> simp only [IFa.step] at hs <;> (repeat' split at hs) <;> simp at hs <;> simp [← hs.2]
  | _ => simp only [IFa.step] at hs <;> (repeat' split at hs) <;> simp at hs <;> simp [← hs.2]

/-- The step that made an observation. -/
theorem event_at (h : Reach (IFa.step c) FSt.init s tr) : ∀ {a b : List Fac.Ev} {e : Fac.Ev}, tr = a ++ e :: b →
    ∃ s0 s1 act, Reach (IFa.step c) FSt.init s0 a ∧ IFa.step c s0 act = some (s1, [e]) := by
  induction h with
  | init => intro a b e h; cases a <;> simp at h
  | @step s tr act s' ev hr hs ih =>
    intro a b e heq
    rcases one_event hs with rfl | ⟨e', rfl⟩
    · exact ih (by simpa using heq)
    · rcases List.eq_nil_or_concat b with rfl | ⟨l, x, rfl⟩
      · obtain ⟨rfl, h2⟩ := List.append_inj' heq (by simp)
        simp only [List.cons.injEq, and_true] at h2; subst h2
        exact ⟨s, s', act, hr, hs⟩
      · have h2 : tr ++ [e'] = (a ++ e :: l) ++ [x] := by simpa using heq
        exact ih (List.append_inj' h2 (by simp)).1

/-- A timer is inactive when it is deleted. -/
structure Inv2 (c : IFa.Cfg) (s : FSt) (tr : List Fac.Ev) : Prop where
  nt : c.timer = false → ∀ p, activeAfter p tr = false
  dl : ∀ t p, s.pc t = .del p → c.timer = true → ∃ id, s.obj p = some ⟨id, .stopped⟩
  rl : ∀ t p, s.pc t = .rel p → activeAfter p tr = false

theorem Inv.act (h : Inv c s tr) {p id : Nat} (ho : s.obj p = some ⟨id, .stopped⟩) : activeAfter p tr = false := by
  obtain ⟨_, _, x, hx, x1, x2, x3⟩ := h.ok p id _ ho
  obtain ⟨ph, a1, a2, a3⟩ := h.ko x hx x2
  subst x3 x1
  rw [ho] at a1; simp at a1
  rw [← a2]; exact a3 a1.symm

theorem Inv2.step (h : Inv c s tr) (h2 : Inv2 c s tr) {a : IFa.Act} {ev : List Fac.Ev} (hs : IFa.step c s a = some (s', ev)) :
    Inv2 c s' (tr ++ ev) := by
  obtain ⟨nt, dl, rl⟩ := h2
  have key : ∀ t p, s.pc t = .rel p → s.obj p = none := fun t p e => (h.rw_ t p (by rw [e]; rfl)).2
  have key1 : ∀ t p, s.pc t = .new p → s.obj p = none := fun t p e => (h.rw_ t p (by rw [e]; rfl)).2
  have key2 : ∀ t p, s.pc t = .del p → s.obj p ≠ none := fun t p e => by
    obtain ⟨id, ph, h1, _⟩ := h.dy t p (by rw [e]; rfl); rw [h1]; simp
  have key3 : ∀ t p, s.pc t = .del p → ∀ id, s.obj p ≠ some ⟨id, .live⟩ := fun t p e id' => by
    obtain ⟨id, ph, h1, h2⟩ := h.dy t p (by rw [e]; rfl); rw [h1]; simp; intro _; exact h2
  have act := fun p id (ho : s.obj p = some ⟨id, .stopped⟩) => h.act ho
  have hu : ∀ t t' p, s.pc t = .stp p → s.pc t' = .del p → False := fun t t' p e e' => by
    have := h.un2 t t' p (by rw [e]; rfl) (by rw [e']; rfl); subst this; rw [e] at e'; simp at e'
  have hu2 : ∀ t t' p, s.pc t = .new p → s.pc t' = .rel p → False := fun t t' p e e' => by
    have := h.un1 t t' p (by rw [e]; rfl) (by rw [e']; rfl); subst this; rw [e] at e'; simp at e'
  have hu3 : ∀ t t' p, s.pc t = .del p → s.pc t' = .del p → t = t' := fun t t' p e e' => h.un2 t t' p (by rw [e]; rfl) (by rw [e']; rfl)
  cases a with
  | create t =>
    simp only [IFa.step, Option.ite_none_right_eq_some] at hs
    obtain ⟨hp, hs⟩ := hs
    split at hs <;> simp only [Option.some.injEq, Prod.mk.injEq] at hs <;> obtain ⟨rfl, rfl⟩ := hs <;> constructor <;>
      (try simp only [List.append_nil, active_append, Fac.activeStep]) <;> grind [put]
  | get t ans =>
    simp only [IFa.step, Option.ite_none_right_eq_some] at hs
    obtain ⟨hp, hs⟩ := hs
    cases ans with
    | none =>
      simp only [Option.ite_none_right_eq_some, Option.some.injEq, Prod.mk.injEq] at hs
      obtain ⟨_, rfl, rfl⟩ := hs
      constructor <;> (try simp only [List.append_nil, active_append, Fac.activeStep]) <;> grind [put]
    | some p =>
      simp only [Option.ite_none_right_eq_some, Option.some.injEq, Prod.mk.injEq] at hs
      obtain ⟨⟨h1, h2, h3⟩, rfl, rfl⟩ := hs
      constructor <;> (try simp only [List.append_nil, active_append, Fac.activeStep]) <;> grind [put]
  | new t ans =>
    simp only [IFa.step] at hs
    split at hs
    · next p hp =>
      cases ans with
      | none =>
        simp only [Option.some.injEq, Prod.mk.injEq] at hs
        obtain ⟨rfl, rfl⟩ := hs
        constructor <;> (try simp only [List.append_nil, active_append, Fac.activeStep]) <;> grind [put]
      | some id =>
        simp only [Option.ite_none_right_eq_some, Option.some.injEq, Prod.mk.injEq] at hs
        obtain ⟨hf, rfl, rfl⟩ := hs
        constructor <;> (try simp only [List.append_nil, active_append, Fac.activeStep]) <;> grind [put]
    · simp at hs
  | rel t =>
    simp only [IFa.step] at hs
    split at hs
    · next p hp =>
      simp only [Option.some.injEq, Prod.mk.injEq] at hs
      obtain ⟨rfl, rfl⟩ := hs
      constructor <;> (try simp only [List.append_nil, active_append, Fac.activeStep]) <;> grind [put]
    · next p hp =>
      simp only [Option.some.injEq, Prod.mk.injEq] at hs
      obtain ⟨rfl, rfl⟩ := hs
      constructor <;> (try simp only [List.append_nil, active_append, Fac.activeStep]) <;> grind [put]
    · simp at hs
  | destroy t p =>
    simp only [IFa.step] at hs
    split at hs
    · next id ho =>
      simp only [Option.ite_none_right_eq_some, Option.some.injEq, Prod.mk.injEq] at hs
      obtain ⟨hp, rfl, rfl⟩ := hs
      constructor <;> (try simp only [List.append_nil, active_append, Fac.activeStep]) <;> grind [put]
    · simp at hs
  | stp t =>
    simp only [IFa.step] at hs
    split at hs
    · next p hp =>
      split at hs
      · next id ph ho =>
        simp only [Option.some.injEq, Prod.mk.injEq] at hs
        obtain ⟨rfl, rfl⟩ := hs
        constructor
        case dl =>
          intro t' q hq htm
          by_cases e : t' = t
          · subst e; simp [put] at hq; subst hq; exact ⟨id, by simp [put]⟩
          · simp [put, e] at hq
            obtain ⟨i', hi'⟩ := dl t' q hq htm
            have : q ≠ p := by rintro rfl; exact hu t t' q hp hq
            exact ⟨i', by simpa [put, this] using hi'⟩
        all_goals simp only [active_append, Fac.activeStep]; grind [put]
      · simp at hs
    · simp at hs
  | del t =>
    simp only [IFa.step] at hs
    split at hs
    · next p hp =>
      split at hs
      · next id ph ho =>
        simp only [Option.some.injEq, Prod.mk.injEq] at hs
        obtain ⟨rfl, rfl⟩ := hs
        have hact : activeAfter p tr = false := by
          cases htm : c.timer with
          | false => exact nt htm p
          | true => obtain ⟨i', hi'⟩ := dl t p hp htm; exact act p i' hi'
        constructor <;> (try simp only [List.append_nil, active_append, Fac.activeStep]) <;> grind [put]
      · simp at hs
    · simp at hs
  | start p =>
    simp only [IFa.step] at hs
    split at hs
    · next id hu =>
      obtain ⟨htm, ph, ho, hne⟩ := usable_some hu
      simp only [Option.some.injEq, Prod.mk.injEq] at hs
      obtain ⟨rfl, rfl⟩ := hs
      constructor <;> (try simp only [List.append_nil, active_append, Fac.activeStep]) <;> grind [put]
    · simp at hs
  | stop p =>
    simp only [IFa.step] at hs
    split at hs
    · next id hu =>
      obtain ⟨htm, ph, ho, hne⟩ := usable_some hu
      simp only [Option.some.injEq, Prod.mk.injEq] at hs
      obtain ⟨rfl, rfl⟩ := hs
      constructor <;> (try simp only [List.append_nil, active_append, Fac.activeStep]) <;> grind [put]
    · simp at hs
  | isStarted p =>
    simp only [IFa.step] at hs
    split at hs
    · simp only [Option.some.injEq, Prod.mk.injEq] at hs
      obtain ⟨rfl, rfl⟩ := hs
      constructor <;> (try simp only [List.append_nil, active_append, Fac.activeStep]) <;> assumption
    · simp at hs
  | fire id =>
    simp only [IFa.step] at hs
    split at hs
    · simp only [Option.ite_none_right_eq_some, Option.some.injEq, Prod.mk.injEq] at hs
      obtain ⟨_, rfl, rfl⟩ := hs
      split <;> constructor <;> (try simp only [List.append_nil, active_append, Fac.activeStep]) <;> assumption
    · simp at hs
  | newK id =>
    simp only [IFa.step, Option.ite_none_right_eq_some, Option.some.injEq, Prod.mk.injEq] at hs
    obtain ⟨hf, rfl, rfl⟩ := hs
    rw [List.append_nil]; exact ⟨nt, dl, rl⟩
  | delK id =>
    simp only [IFa.step, Option.some.injEq, Prod.mk.injEq] at hs
    obtain ⟨rfl, rfl⟩ := hs
    rw [List.append_nil]; exact ⟨nt, dl, rl⟩

theorem Inv2.reach (h : Reach (IFa.step c) FSt.init s tr) : Inv2 c s tr := by
  induction h with
  | init => constructor <;> simp [FSt.init, activeAfter]
  | step hr e ih => exact ih.step (Inv.reach hr) e

end Verif.Props.ItronFactory
