import Verif.Spec.ThreadPoolErr
import Verif.Proof.ThreadPool
/-
Invariants of the thread pool whose operating system calls may fail.
-/
namespace Verif.TPE
open Verif
open _root_.Verif.Mtx (Tid Err)
open _root_.Verif.EvF (Tmo)
open _root_.Verif.Lts (Reach)
open _root_.Verif.TP (Gid Rid Task Call Out PC Pos W Own hold rhold conflict uses)
set_option linter.unusedSimpArgs false

/-- Between its start and the moment it decides who is to release it. -/
def act : W → Bool
  | .pending | .inTask _ | .prio _ | .branch _ => true
  | _ => false
def selfRel : W → Bool
  | .reset _ | .send _ => true
  | _ => false
/-- The thread a start is about to hand a task to. -/
def holdF : PC → Option Rid
  | .on _ (.sSet i) | .on _ (.sPrio i) | .on _ (.sGo i) => some i
  | _ => none
def rW : PC → Option (Gid × Rid)
  | .on (.release g) (.rWait i) => some (g, i)
  | _ => none
def sG : PC → Option (Gid × Rid)
  | .on (.start _ _ (some g) _) (.sGuard i) => some (g, i)
  | _ => none
/-- The guard a release is about to clear. -/
def past : PC → Option Gid
  | .on (.release g) (.rReset _) | .on (.release g) (.rSend _) | .on (.release g) .rClear => some g
  | _ => none
def clashes : PC → PC → Bool
  | .on c _, .on c' _ => conflict c c'
  | _, _ => false

theorem conflict_comm (c c' : Call) : conflict c c' = conflict c' c := by
  unfold conflict
  cases uses c <;> cases uses c' <;> simp
  rename_i x y; obtain ⟨g, b⟩ := x; obtain ⟨g', b'⟩ := y
  simp [Bool.or_comm, Bool.beq_comm (a := g)]

/-- What a start has written into the thread it holds. -/
def CData (s : TP.St) : PC → Prop
  | .on (.start k _ g _) (.sPrio i) => s.task i = k ∧ s.needs i = g.isSome
  | .on (.start k _ g p) (.sGo i) => s.task i = k ∧ s.needs i = g.isSome ∧ s.prio i = p
  | _ => True

/-- Who is in the queue, and what every thread does for whom. -/
structure Own1 (n : Nat) (s : TP.St) : Prop where
  cn : s.n = n
  fr : s.free.Nodup
  fo : ∀ i, i ∈ s.free ↔ s.own i = .free
  od : ∀ i, n ≤ i → s.own i = .dead
  dw : ∀ i, s.own i = .dead ↔ s.w i = .dead
  ho : ∀ t i, hold (s.pc t) = some i → s.own i = .client t
  hr : ∀ t i, rhold (s.pc t) = some i → s.own i = .rel t
  hf : ∀ t i, holdF (s.pc t) = some i → s.w i = .finished
  rw : ∀ t g i, rW (s.pc t) = some (g, i) → s.own i = .guard g
  sg : ∀ t g i, sG (s.pc t) = some (g, i) → s.own i = .guard g
  gd : ∀ g i, s.guard g = some i → (∀ t, past (s.pc t) ≠ some g) → s.own i = .guard g
  ex : ∀ t u, t ≠ u → clashes (s.pc t) (s.pc u) = false
  ins : ∀ t, t ∈ s.inside ↔ s.pc t ≠ .idle
  nd : s.inside.Nodup
  cd : ∀ t, CData s (s.pc t)
  e1 : ∀ i, act (s.w i) = true → s.needs i = false → s.own i = .pool
  e2 : ∀ i, selfRel (s.w i) = true → s.own i = .pool
  e3 : ∀ i, s.own i = .pool → (act (s.w i) = true ∧ s.needs i = false) ∨ selfRel (s.w i) = true

theorem holdF_hold {p : PC} {i : Rid} (h : holdF p = some i) : hold p = some i := by
  unfold holdF at h; split at h <;> simp_all [hold]

theorem CData.congr {s s' : TP.St} {p : PC} (h : CData s p) (hh : ∀ i, holdF p = some i → s'.task i = s.task i ∧ s'.needs i = s.needs i ∧ s'.prio i = s.prio i) :
    CData s' p := by
  unfold CData at h ⊢
  split at h <;> simp_all [holdF]

theorem Own1.init (n : Nat) (d : Int) : Own1 n (TP.init n d) := by
  have e : ∀ i, ((TP.init n d).w i = .finished ∧ (TP.init n d).own i = .free ∧ i < n) ∨ ((TP.init n d).w i = .dead ∧ (TP.init n d).own i = .dead ∧ n ≤ i) := by
    intro i; by_cases h : i < n <;> simp [TP.init, h]; exact Nat.le_of_not_lt h
  refine ⟨rfl, List.nodup_range, ?_, ?_, ?_, ?_, ?_, ?_, ?_, ?_, ?_, ?_, ?_, ?_, ?_, ?_, ?_, ?_⟩
  · intro i; simp [TP.init]
  · intro i h; simp [TP.init, Nat.not_lt.2 h]
  · intro i; rcases e i with h | h <;> simp [h]
  · intro t i h; simp [TP.init, hold] at h
  · intro t i h; simp [TP.init, rhold] at h
  · intro t i h; simp [TP.init, holdF] at h
  · intro t g i h; simp [TP.init, rW] at h
  · intro t g i h; simp [TP.init, sG] at h
  · intro g i h; simp [TP.init] at h
  · intros; rfl
  · intro t; simp [TP.init]
  · simp [TP.init]
  · intro t; trivial
  · intro i h; rcases e i with g | g <;> simp [g, act] at h
  · intro i h; rcases e i with g | g <;> simp [g, selfRel] at h
  · intro i h; rcases e i with g | g <;> simp [g] at h

/-- A step of pool thread `i`: nobody else's affairs change. -/
theorem Own1.pool {n : Nat} {s s' : TP.St} (I : Own1 n s) (i : Rid)
    (hpc : s'.pc = s.pc) (hguard : s'.guard = s.guard) (hins : s'.inside = s.inside) (hn : s'.n = s.n) (htask : s'.task = s.task) (hneeds : s'.needs = s.needs)
    (hj : ∀ j, j ≠ i → s'.w j = s.w j ∧ s'.own j = s.own j ∧ s'.prio j = s.prio j)
    (hw : s.w i ≠ .finished ∧ s.w i ≠ .dead) (hw' : s'.w i ≠ .dead)
    (hfree : (s'.free = s.free ∧ s'.own i = s.own i) ∨ (s.own i = .pool ∧ s'.own i = .free ∧ s'.free = s.free ++ [i]) ∨ (s.own i = .pool ∧ s'.own i = .lost ∧ s'.free = s.free))
    (h1 : act (s'.w i) = true → s.needs i = false → s'.own i = .pool) (h2 : selfRel (s'.w i) = true → s'.own i = .pool)
    (h3 : s'.own i = .pool → (act (s'.w i) = true ∧ s.needs i = false) ∨ selfRel (s'.w i) = true) : Own1 n s' := by
  obtain ⟨cn, fr, fo, od, dw, ho, hr, hf, rw, sg, gd, ex, ins, nd, cd, e1, e2, e3⟩ := I
  have hown : ∀ j o, o ≠ .pool → s.own j = o → s'.own j = o := by
    intro j o _ _
    by_cases e : j = i
    · subst e; grind
    · rw [(hj j e).2.1]; assumption
  refine ⟨hn.trans cn, ?_, ?_, ?_, ?_, ?_, ?_, ?_, ?_, ?_, ?_, ?_, ?_, ?_, ?_, ?_, ?_, ?_⟩
  · grind
  · intro j; by_cases e : j = i
    · subst e; grind
    · grind
  · intro j h; exact hown j _ (by simp) (od j h)
  · intro j; by_cases e : j = i
    · subst e; grind
    · grind
  · intro t j h; rw [hpc] at h; exact hown j _ (by simp) (ho t j h)
  · intro t j h; rw [hpc] at h; exact hown j _ (by simp) (hr t j h)
  · intro t j h; rw [hpc] at h; have := hf t j h
    by_cases e : j = i
    · subst e; exact absurd this hw.1
    · rw [(hj j e).1]; exact this
  · intro t g j h; rw [hpc] at h; exact hown j _ (by simp) (rw t g j h)
  · intro t g j h; rw [hpc] at h; exact hown j _ (by simp) (sg t g j h)
  · intro g j h h'; rw [hguard] at h; rw [hpc] at h'; exact hown j _ (by simp) (gd g j h h')
  · rw [hpc]; exact ex
  · rw [hpc, hins]; exact ins
  · rw [hins]; exact nd
  · intro t; rw [hpc]
    refine (cd t).congr fun j h => ?_
    have := hf t j h
    have e : j ≠ i := by rintro rfl; exact hw.1 this
    exact ⟨by rw [htask], by rw [hneeds], (hj j e).2.2⟩
  all_goals (intro j; by_cases e : j = i)
  · subst e; rw [hneeds]; exact h1
  · rw [hneeds, (hj j e).1, (hj j e).2.1]; exact e1 j
  · subst e; exact h2
  · rw [(hj j e).1, (hj j e).2.1]; exact e2 j
  · subst e; rw [hneeds]; exact h3
  · rw [hneeds, (hj j e).1, (hj j e).2.1]; exact e3 j

theorem Own1.pgo {n : Nat} {s s' : TP.St} {ev : List TP.Ev} {i : Rid} (I : Own1 n s) (h : TP.step s (.pgo i) = some (s', ev)) : Own1 n s' := by
  have e1 := I.e1 i; have e2 := I.e2 i; have e3 := I.e3 i
  simp only [TP.step] at h
  (repeat' split at h) <;> simp only [Option.some.injEq, Prod.mk.injEq, reduceCtorEq] at h <;> obtain ⟨rfl, _⟩ := h <;>
    refine I.pool i rfl rfl rfl rfl rfl rfl ?_ ?_ ?_ ?_ ?_ ?_ ?_ <;> (try simp only [TP.St.wAt, TP.St.ownAt, TP.St.evAt]) <;> grind [upd, act, selfRel]

theorem Own1.throw {n : Nat} {s s' : TP.St} {ev : List TP.Ev} {i : Rid} (I : Own1 n s) (h : TP.step s (.throw i) = some (s', ev)) : Own1 n s' := by
  have e1 := I.e1 i; have e2 := I.e2 i; have e3 := I.e3 i
  simp only [TP.step] at h
  (repeat' split at h) <;> simp only [Option.some.injEq, Prod.mk.injEq, reduceCtorEq] at h <;> obtain ⟨rfl, _⟩ := h <;>
    refine I.pool i rfl rfl rfl rfl rfl rfl ?_ ?_ ?_ ?_ ?_ ?_ ?_ <;> (try simp only [TP.St.wAt, TP.St.ownAt, TP.St.evAt]) <;> grind [upd, act, selfRel]

theorem Own1.pfail {n : Nat} {s s' : XSt} {ev : List XEv} {i : Rid} {e : Err} (I : Own1 n s.b) (h : step s (.pfail i e) = some (s', ev)) : Own1 n s'.b := by
  have e1 := I.e1 i; have e2 := I.e2 i; have e3 := I.e3 i
  simp only [step] at h
  (repeat' split at h) <;> simp only [Option.some.injEq, Prod.mk.injEq, reduceCtorEq] at h <;> obtain ⟨rfl, _⟩ := h <;>
    refine I.pool i rfl rfl rfl rfl rfl rfl ?_ ?_ ?_ ?_ ?_ ?_ ?_ <;> (try simp only [TP.St.wAt, TP.St.ownAt, TP.St.evAt]) <;> grind [upd, act, selfRel]

/-- A client enters a call. -/
theorem Own1.call {n : Nat} {s s' : TP.St} {ev : List TP.Ev} {t : Tid} {c : Call} (I : Own1 n s) (h : TP.step s (.call t c) = some (s', ev)) : Own1 n s' := by
  obtain ⟨cn, fr, fo, od, dw, ho, hr, hf, rw, sg, gd, ex, ins, nd, cd, e1, e2, e3⟩ := I
  simp only [TP.step] at h
  split at h <;> simp at h
  next hc =>
  obtain ⟨hi, _, _, _, hcl, _⟩ := hc
  obtain ⟨rfl, _⟩ := h
  have k1 : hold (.on c (TP.entry c)) = none := by cases c <;> rfl
  have k2 : rhold (.on c (TP.entry c)) = none := by cases c <;> rfl
  have k3 : holdF (.on c (TP.entry c)) = none := by cases c <;> rfl
  have k4 : rW (.on c (TP.entry c)) = none := by cases c <;> rfl
  have k5 : sG (.on c (TP.entry c)) = none := by cases c <;> simp [sG, TP.entry]
  have k6 : past (.on c (TP.entry c)) = none := by cases c <;> rfl
  refine ⟨cn, fr, fo, od, dw, ?_, ?_, ?_, ?_, ?_, ?_, ?_, ?_, ?_, ?_, e1, e2, e3⟩ <;> simp only [TP.St.at]
  · grind [upd]
  · grind [upd]
  · grind [upd]
  · grind [upd]
  · grind [upd]
  · intro g i h h'
    refine gd g i h fun u => ?_
    have := h' u
    by_cases e : u = t
    · subst e; rw [hi]; simp [past]
    · rwa [upd_ne _ _ e] at this
  · intro u v huv
    by_cases e : u = t
    · subst e
      rw [upd_same, upd_ne _ _ (Ne.symm huv)]
      by_cases hv : v ∈ s.inside
      · have := hcl v hv
        cases hpv : s.pc v <;> simp_all [clashes, TP.clash]
      · have : s.pc v = .idle := by have := ins v; grind
        rw [this]; simp [clashes]
    · by_cases e' : v = t
      · subst e'
        rw [upd_same, upd_ne _ _ e]
        by_cases hv : u ∈ s.inside
        · have := hcl u hv
          cases hpv : s.pc u <;> simp_all [clashes, TP.clash, conflict_comm c]
        · have : s.pc u = .idle := by have := ins u; grind
          rw [this]; simp [clashes]
      · rw [upd_ne _ _ e, upd_ne _ _ e']; exact ex u v huv
  · grind [upd]
  · have := ins t; simp [hi] at this; simp [this, nd]
  · intro u
    by_cases e : u = t
    · subst e; rw [upd_same]; cases c <;> simp [CData, TP.entry]
    · rw [upd_ne _ _ e]; exact (cd u).congr fun _ _ => ⟨rfl, rfl, rfl⟩

theorem ex_at {pc : Tid → PC} {t : Tid} {c : Call} {p q : Pos} (h : ∀ t u, t ≠ u → clashes (pc t) (pc u) = false) (hp : pc t = .on c p) :
    ∀ u v, u ≠ v → clashes (upd pc t (.on c q) u) (upd pc t (.on c q) v) = false := by
  intro u v huv
  by_cases e : u = t
  · subst e; have := h u v huv; rw [hp] at this; rw [upd_same, upd_ne _ _ (Ne.symm huv)]; cases hv : pc v <;> simp_all [clashes]
  · by_cases e' : v = t
    · subst e'; have := h u v huv; rw [hp] at this; rw [upd_same, upd_ne _ _ e]; cases hv : pc u <;> simp_all [clashes]
    · rw [upd_ne _ _ e, upd_ne _ _ e']; exact h u v huv

theorem ins_at {pc : Tid → PC} {t : Tid} {c : Call} {p q : Pos} {l : List Tid} (h : ∀ t, t ∈ l ↔ pc t ≠ .idle) (hp : pc t = .on c p) :
    ∀ u, u ∈ l ↔ upd pc t (.on c q) u ≠ .idle := by
  intro u
  by_cases e : u = t
  · subst e; rw [upd_same, h u, hp]; simp
  · rw [upd_ne _ _ e]; exact h u

theorem gd_at {s : TP.St} {t : Tid} {c : Call} {p q : Pos} {own : Rid → Own}
    (gd : ∀ g i, s.guard g = some i → (∀ t, past (s.pc t) ≠ some g) → s.own i = .guard g) (hp : s.pc t = .on c p) (hq : past (.on c p) = none)
    (hown : ∀ g i, s.own i = .guard g → past (.on c q) ≠ some g → own i = .guard g) :
    ∀ g i, s.guard g = some i → (∀ u, past (upd s.pc t (.on c q) u) ≠ some g) → own i = .guard g := by
  intro g i h h'
  refine hown g i (gd g i h fun u => ?_) (by have := h' t; rwa [upd_same] at this)
  by_cases e : u = t
  · subst e; rw [hp, hq]; simp
  · have := h' u; rwa [upd_ne _ _ e] at this

theorem cd_at {s s' : TP.St} {t : Tid} {c : Call} {q : Pos} (cd : ∀ t, CData s (s.pc t)) (hq : CData s' (.on c q))
    (hh : ∀ u i, u ≠ t → holdF (s.pc u) = some i → s'.task i = s.task i ∧ s'.needs i = s.needs i ∧ s'.prio i = s.prio i) :
    ∀ u, CData s' (upd s.pc t (.on c q) u) := by
  intro u
  by_cases e : u = t
  · subst e; rwa [upd_same]
  · rw [upd_ne _ _ e]; exact (cd u).congr fun i h => hh u i e h

set_option maxHeartbeats 2000000 in
/-- Steps of a start. -/
theorem Own1.goStart {n : Nat} {s s' : TP.St} {ev : List TP.Ev} {t : Tid} {k tm g' pr q} (hp : s.pc t = .on (.start k tm g' pr) q) (I : Own1 n s)
    (h : TP.step s (.go t) = some (s', ev)) (hq : ∀ o, q ≠ .ret o) : Own1 n s' := by
  obtain ⟨cn, fr, fo, od, dw, ho, hr, hf, rw, sg, gd, ex, ins, nd, cd, e1, e2, e3⟩ := I
  simp only [TP.step, hp] at h
  have cdt := cd t
  rw [hp] at cdt
  have hot := ho t
  have hft := hf t
  have sgt := sg t
  rw [hp] at hot hft sgt
  have gd1 : ∀ q', ∀ g i, s.guard g = some i → (∀ u, past (upd s.pc t (.on (.start k tm g' pr) q') u) ≠ some g) → s.own i = .guard g := by
    intro q' g i h h'
    refine gd g i h fun u => ?_
    by_cases e : u = t
    · subst e; rw [hp]; simp [past]
    · have := h' u; rwa [upd_ne _ _ e] at this
  cases k with
  | none =>
    cases q <;> simp at h hq
    obtain ⟨rfl, _⟩ := h
    refine ⟨?_, ?_, ?_, ?_, ?_, ?_, ?_, ?_, ?_, ?_, gd1 _, ex_at ex hp, ins_at ins hp, nd, cd_at cd ?_ ?_, ?_, ?_, ?_⟩ <;>
      simp only [TP.St.at, TP.St.wAt, TP.St.ownAt, TP.St.evAt] <;> (try assumption)
    all_goals (clear cd ex ins gd gd1; grind [upd, hold, holdF, rhold, rW, sG, past, act, selfRel, TP.toOwn, CData, holdF_hold])
  | some k =>
    cases q <;> simp only [reduceCtorEq] at h <;> (try (simp at hq; done)) <;> (repeat' split at h) <;> simp only [Option.some.injEq, Prod.mk.injEq, reduceCtorEq] at h <;> obtain ⟨rfl, _⟩ := h <;>
      simp only [hold, holdF, rhold, CData] at hot hft cdt <;>
      refine ⟨?_, ?_, ?_, ?_, ?_, ?_, ?_, ?_, ?_, ?_, ?_, ex_at ex hp, ins_at ins hp, nd, cd_at cd ?_ ?_, ?_, ?_, ?_⟩ <;>
      simp only [TP.St.at, TP.St.wAt, TP.St.ownAt, TP.St.evAt] <;> (try assumption) <;> (try exact gd1 _)
    case some.sGuard.refine_11 i _ =>
      intro g i' h h'
      have hh := fun h => gd1 _ g i' h h'
      cases g' with
      | none => exact hh h
      | some g' =>
        simp only [TP.setGuard] at h
        by_cases e : g = g'
        · subst e; rw [upd_same] at h; injection h with h; subst h; exact sgt g i rfl
        · rw [upd_ne _ _ e] at h; exact hh h
    case h_2.refine_11 => intro g i h h'; have := gd1 _ g i h h'; grind [upd]
    case some.sGo.isTrue.refine_16 i _ _ =>
      intro j
      by_cases e : j = i
      · subst e; intro ho; left; rw [upd_same] at ho ⊢; cases g' <;> simp [TP.toOwn] at ho; exact ⟨rfl, cdt.2.1⟩
      · rw [upd_ne _ _ e, upd_ne _ _ e]; exact e3 j
    case some.sGo.isTrue.refine_11 => intro g i h h'; have := gd1 _ g i h h'; grind [upd]
    all_goals (clear cd ex ins gd gd1; try cases g') 
    all_goals ((try simp only [TP.toOwn]); grind [upd, hold, holdF, rhold, rW, sG, past, act, selfRel, CData, holdF_hold])

/-- A client moves on within its call. -/
theorem Own1.move {n : Nat} {s : TP.St} {t : Tid} {c : Call} {p q : Pos} (hp : s.pc t = .on c p) (I : Own1 n s)
    (h1 : ∀ i, hold (.on c q) = some i → s.own i = .client t) (h2 : ∀ i, rhold (.on c q) = some i → s.own i = .rel t)
    (h3 : ∀ i, holdF (.on c q) = some i → s.w i = .finished) (h4 : ∀ g i, rW (.on c q) = some (g, i) → s.own i = .guard g)
    (h5 : ∀ g i, sG (.on c q) = some (g, i) → s.own i = .guard g) (h6 : past (.on c p) = none ∨ past (.on c q) = past (.on c p))
    (h7 : CData s (.on c q)) : Own1 n (s.at t c q) := by
  obtain ⟨cn, fr, fo, od, dw, ho, hr, hf, rw, sg, gd, ex, ins, nd, cd, e1, e2, e3⟩ := I
  refine ⟨cn, fr, fo, od, dw, ?_, ?_, ?_, ?_, ?_, ?_, ex_at ex hp, ins_at ins hp, nd, cd_at cd h7 (fun _ _ _ _ => ⟨rfl, rfl, rfl⟩), e1, e2, e3⟩ <;> simp only [TP.St.at]
  case refine_6 =>
    intro g i h h'
    refine gd g i h fun u => ?_
    have hu := h' u
    by_cases e : u = t
    · subst e; rw [upd_same] at hu; rw [hp]; rcases h6 with h6 | h6
      · rw [h6]; simp
      · rw [← h6]; exact hu
    · rwa [upd_ne _ _ e] at hu
  all_goals
    intro u
    by_cases e : u = t
    · subst e; rw [upd_same]; assumption
    · rw [upd_ne _ _ e]; first | exact ho u | exact hr u | exact hf u | exact rw u | exact sg u

theorem Own1.ignore {n : Nat} {s : TP.St} (I : Own1 n s) (ev : Rid → Bool) (dying : Option Tid) (gone : Bool) :
    Own1 n { s with ev := ev, dying := dying, gone := gone } := by
  obtain ⟨cn, fr, fo, od, dw, ho, hr, hf, rw, sg, gd, ex, ins, nd, cd, e1, e2, e3⟩ := I
  exact ⟨cn, fr, fo, od, dw, ho, hr, hf, rw, sg, gd, ex, ins, nd, fun t => (cd t).congr fun _ _ => ⟨rfl, rfl, rfl⟩, e1, e2, e3⟩

/-- The release of a guard takes its thread. -/
theorem Own1.take {n : Nat} {s : TP.St} {t : Tid} {g : Gid} {i : Rid} (hp : s.pc t = .on (.release g) (.rWait i)) (I : Own1 n s) :
    Own1 n ((s.at t (.release g) (.rReset i)).ownAt i (.rel t)) := by
  obtain ⟨cn, fr, fo, od, dw, ho, hr, hf, rw, sg, gd, ex, ins, nd, cd, e1, e2, e3⟩ := I
  have hg := rw t g i (by rw [hp]; rfl)
  have rwx : ∀ u j, u ≠ t → rW (s.pc u) ≠ some (g, j) := by
    intro u j hu h
    have := ex t u (Ne.symm hu)
    rw [hp] at this
    unfold rW at h
    split at h <;> simp at h
    next g' i' hpu => obtain ⟨rfl, rfl⟩ := h; rw [hpu] at this; simp [clashes, conflict, uses] at this
  have sgx : ∀ u j, u ≠ t → sG (s.pc u) ≠ some (g, j) := by
    intro u j hu h
    have := ex t u (Ne.symm hu)
    rw [hp] at this
    unfold sG at h
    split at h <;> simp at h
    next g' _ i' hpu => obtain ⟨rfl, rfl⟩ := h; rw [hpu] at this; simp [clashes, conflict, uses] at this
  refine ⟨cn, fr, ?_, ?_, ?_, ?_, ?_, ?_, ?_, ?_, ?_, ex_at ex hp, ins_at ins hp, nd, cd_at cd trivial (fun _ _ _ _ => ⟨rfl, rfl, rfl⟩), ?_, ?_, ?_⟩ <;> simp only [TP.St.at, TP.St.ownAt]
  case refine_9 =>
    intro g' j h h'
    have h2 := h' t
    rw [upd_same] at h2
    simp [past] at h2
    have := gd g' j h (fun u => by
      have hu := h' u
      by_cases e : u = t
      · subst e; rw [hp]; simp [past]
      · rwa [upd_ne _ _ e] at hu)
    have e : j ≠ i := by rintro rfl; rw [hg] at this; injection this with this; exact h2 this
    rw [upd_ne _ _ e]; exact this
  all_goals (clear cd ex ins gd; grind [upd, hold, holdF, rhold, rW, sG])

/-- It returns the thread to the queue, or fails to. -/
theorem Own1.give {n : Nat} {s : TP.St} {t : Tid} {g : Gid} {i : Rid} {b : Bool} (hp : s.pc t = .on (.release g) (.rSend i)) (I : Own1 n s) :
    Own1 n { (s.at t (.release g) .rClear).ownAt i (if b then .free else .lost) with free := if b then s.free ++ [i] else s.free } := by
  obtain ⟨cn, fr, fo, od, dw, ho, hr, hf, rw, sg, gd, ex, ins, nd, cd, e1, e2, e3⟩ := I
  have hg := hr t i (by rw [hp]; rfl)
  refine ⟨cn, ?_, ?_, ?_, ?_, ?_, ?_, ?_, ?_, ?_, ?_, ex_at ex hp, ins_at ins hp, nd, cd_at cd trivial (fun _ _ _ _ => ⟨rfl, rfl, rfl⟩), ?_, ?_, ?_⟩ <;> simp only [TP.St.at, TP.St.ownAt]
  case refine_10 =>
    intro g' j h h'
    have h2 := h' t
    rw [upd_same] at h2
    simp [past] at h2
    have := gd g' j h (fun u => by
      have hu := h' u
      by_cases e : u = t
      · subst e; rw [hp]; simp [past, h2]
      · rwa [upd_ne _ _ e] at hu)
    have e : j ≠ i := by rintro rfl; rw [hg] at this; simp at this
    rw [upd_ne _ _ e]; exact this
  all_goals (clear cd ex ins gd; cases b <;> grind [upd, hold, holdF, rhold, rW, sG])

/-- It forgets the thread. -/
theorem Own1.clear {n : Nat} {s : TP.St} {t : Tid} {g : Gid} {o : TP.Out} (hp : s.pc t = .on (.release g) .rClear) (I : Own1 n s) :
    Own1 n { s.at t (.release g) (.ret o) with guard := upd s.guard g none } := by
  obtain ⟨cn, fr, fo, od, dw, ho, hr, hf, rw, sg, gd, ex, ins, nd, cd, e1, e2, e3⟩ := I
  refine ⟨cn, fr, fo, od, dw, ?_, ?_, ?_, ?_, ?_, ?_, ex_at ex hp, ins_at ins hp, nd, cd_at cd trivial (fun _ _ _ _ => ⟨rfl, rfl, rfl⟩), e1, e2, e3⟩ <;> simp only [TP.St.at]
  case refine_6 =>
    intro g' j h h'
    have e : g' ≠ g := by rintro rfl; simp at h
    rw [upd_ne _ _ e] at h
    refine gd g' j h (fun u => ?_)
    have hu := h' u
    by_cases e' : u = t
    · subst e'; rw [hp]; simp [past, Ne.symm e]
    · rwa [upd_ne _ _ e'] at hu
  all_goals (clear cd ex ins gd; grind [upd, hold, holdF, rhold, rW, sG])

/-- A call returns. -/
theorem Own1.ret {n : Nat} {s : TP.St} {t : Tid} {c : Call} {o : TP.Out} (hp : s.pc t = .on c (.ret o)) (I : Own1 n s) :
    Own1 n { s with pc := upd s.pc t .idle, inside := s.inside.erase t } := by
  obtain ⟨cn, fr, fo, od, dw, ho, hr, hf, rw, sg, gd, ex, ins, nd, cd, e1, e2, e3⟩ := I
  refine ⟨cn, fr, fo, od, dw, ?_, ?_, ?_, ?_, ?_, ?_, ?_, ?_, nd.erase t, ?_, e1, e2, e3⟩ <;> simp only []
  case refine_6 =>
    intro g' j h h'
    refine gd g' j h (fun u => ?_)
    have hu := h' u
    by_cases e' : u = t
    · subst e'; rw [hp]; simp [past]
    · rwa [upd_ne _ _ e'] at hu
  case refine_7 =>
    intro u v huv
    by_cases e : u = t
    · subst e; rw [upd_same]; simp [clashes]
    · by_cases e' : v = t
      · subst e'; rw [upd_same]; cases upd s.pc v PC.idle u <;> simp [clashes]
      · rw [upd_ne _ _ e, upd_ne _ _ e']; exact ex u v huv
  case refine_8 =>
    intro u
    rw [nd.mem_erase_iff]
    by_cases e : u = t
    · subst e; simp
    · rw [upd_ne _ _ e, ins u]; simp [e]
  case refine_9 =>
    intro u
    by_cases e : u = t
    · subst e; rw [upd_same]; trivial
    · rw [upd_ne _ _ e]; exact (cd u).congr fun _ _ => ⟨rfl, rfl, rfl⟩
  all_goals (clear cd ex ins gd; grind [upd, hold, holdF, rhold, rW, sG])

/-- A start gives up the thread it holds. -/
theorem Own1.drop {n : Nat} {s : TP.St} {t : Tid} {c : Call} {i : Rid} {o : TP.Out} (hp : s.pc t = .on c (.sWait i)) (I : Own1 n s) :
    Own1 n ((s.at t c (.ret o)).ownAt i .lost) := by
  obtain ⟨cn, fr, fo, od, dw, ho, hr, hf, rw, sg, gd, ex, ins, nd, cd, e1, e2, e3⟩ := I
  have hg := ho t i (by rw [hp]; rfl)
  have k4 : rW (.on c (.ret o)) = none := by cases c <;> rfl
  have k5 : sG (.on c (.ret o)) = none := by cases c <;> simp [sG]
  refine ⟨cn, fr, ?_, ?_, ?_, ?_, ?_, ?_, ?_, ?_, ?_, ex_at ex hp, ins_at ins hp, nd, cd_at cd (by cases c <;> trivial) (fun _ _ _ _ => ⟨rfl, rfl, rfl⟩), ?_, ?_, ?_⟩ <;> simp only [TP.St.at, TP.St.ownAt]
  case refine_9 =>
    intro g' j h h'
    have := gd g' j h (fun u => by
      have hu := h' u
      by_cases e : u = t
      · subst e; rw [hp]; cases c <;> simp [past]
      · rwa [upd_ne _ _ e] at hu)
    have e : j ≠ i := by rintro rfl; rw [hg] at this; simp at this
    rw [upd_ne _ _ e]; exact this
  all_goals (clear cd ex ins gd; grind [upd, hold, holdF, rhold])

/-- destroy takes a thread from the queue and destroys it. -/
theorem Own1.kill {n : Nat} {s : TP.St} {i : Rid} {rest : List Rid} (I : Own1 n s) (hfree : s.free = i :: rest) (hw : s.w i = .finished) :
    Own1 n { (s.wAt i .dead).ownAt i .dead with free := rest } := by
  obtain ⟨cn, fr, fo, od, dw, ho, hr, hf, rw, sg, gd, ex, ins, nd, cd, e1, e2, e3⟩ := I
  have hg := (fo i).1 (by rw [hfree]; simp)
  refine ⟨cn, ?_, ?_, ?_, ?_, ?_, ?_, ?_, ?_, ?_, ?_, ex, ins, nd, fun t => (cd t).congr fun _ _ => ⟨rfl, rfl, rfl⟩, ?_, ?_, ?_⟩ <;> simp only [TP.St.wAt, TP.St.ownAt]
  case refine_10 =>
    intro g' j h h'
    have := gd g' j h h'
    have e : j ≠ i := by rintro rfl; rw [hg] at this; simp at this
    rw [upd_ne _ _ e]; exact this
  all_goals (clear cd ex ins gd; grind [upd, act, selfRel, holdF_hold])

theorem Own1.go {n : Nat} {s s' : TP.St} {ev : List TP.Ev} {t : Tid} (I : Own1 n s) (h : TP.step s (.go t) = some (s', ev)) : Own1 n s' := by
  cases hp : s.pc t with
  | idle => simp [TP.step, hp] at h
  | on c q =>
    by_cases hr : ∃ o, q = .ret o
    · obtain ⟨o, rfl⟩ := hr
      have : s' = { s with pc := upd s.pc t .idle, inside := s.inside.erase t } := by
        simp only [TP.step, hp] at h
        simp only [Option.some.injEq, Prod.mk.injEq] at h; exact h.1.symm
      rw [this]; exact I.ret hp
    · have hq : ∀ o, q ≠ .ret o := fun o e => hr ⟨o, e⟩
      cases c with
      | start k tm g pr => exact I.goStart hp h hq
      | wait g tm =>
        simp only [TP.step, hp] at h
        cases q <;> simp only [reduceCtorEq] at h <;> (try (simp at hq; done)) <;> (repeat' split at h) <;> simp only [Option.some.injEq, Prod.mk.injEq, reduceCtorEq] at h <;>
          obtain ⟨rfl, _⟩ := h <;> exact I.move hp (by simp [hold]) (by simp [rhold]) (by simp [holdF]) (by simp [rW]) (by simp [sG]) (Or.inl rfl) trivial
      | isValid g =>
        simp only [TP.step, hp] at h
        cases q <;> simp only [reduceCtorEq] at h <;> (try (simp at hq; done)) <;> simp only [Option.some.injEq, Prod.mk.injEq, reduceCtorEq] at h
        obtain ⟨rfl, _⟩ := h
        exact I.move hp (by simp [hold]) (by simp [rhold]) (by simp [holdF]) (by simp [rW]) (by simp [sG]) (Or.inl rfl) trivial
      | release g =>
        simp only [TP.step, hp] at h
        cases q <;> simp only [reduceCtorEq] at h <;> (try (simp at hq; done)) <;> (repeat' split at h) <;> simp only [Option.some.injEq, Prod.mk.injEq, reduceCtorEq] at h <;> obtain ⟨rfl, _⟩ := h
        · exact I.move hp (by simp [hold]) (by simp [rhold]) (by simp [holdF]) (by simp [rW]) (by simp [sG]) (Or.inl rfl) trivial
        · next i hg _ =>
          refine I.move hp (by simp [hold]) (by simp [rhold]) (by simp [holdF]) ?_ (by simp [sG]) (Or.inl rfl) trivial
          intro g' j e
          simp [rW] at e; obtain ⟨rfl, rfl⟩ := e
          refine I.gd _ _ hg fun u hu => ?_
          by_cases e : u = t
          · subst e; rw [hp] at hu; simp [past] at hu
          · have := I.ex u t e
            rw [hp] at this
            unfold past at hu
            split at hu <;> simp at hu <;> next hpu => subst hu; rw [hpu] at this; simp [clashes, conflict, uses] at this
        · exact I.take hp
        · have := (I.move (q := .rSend _) hp (by simp [hold]) (fun i e => I.hr t i (by rw [hp]; simpa [rhold] using e)) (by simp [holdF]) (by simp [rW]) (by simp [sG]) (Or.inr rfl) trivial)
          exact this.ignore _ s.dying s.gone
        · exact I.give (b := true) hp
        · exact I.clear hp
      | destroy =>
        simp only [TP.step, hp] at h
        cases q <;> simp only [reduceCtorEq] at h <;> (try (simp at hq; done)) <;> (repeat' split at h) <;> simp only [Option.some.injEq, Prod.mk.injEq, reduceCtorEq] at h <;> obtain ⟨rfl, _⟩ := h
        · exact I.move hp (by simp [hold]) (by simp [rhold]) (by simp [holdF]) (by simp [rW]) (by simp [sG]) (Or.inl rfl) trivial
        · exact I.move hp (by simp [hold]) (by simp [rhold]) (by simp [holdF]) (by simp [rW]) (by simp [sG]) (Or.inl rfl) trivial
        · next hf hw _ => exact I.kill hf hw
        · have := I.move (q := .ret .done) hp (by simp [hold]) (by simp [rhold]) (by simp [holdF]) (by simp [rW]) (by simp [sG]) (Or.inl rfl) trivial
          exact this.ignore _ s.dying true

theorem Own1.expire {n : Nat} {s s' : TP.St} {ev : List TP.Ev} {t : Tid} (I : Own1 n s) (h : TP.step s (.expire t) = some (s', ev)) : Own1 n s' := by
  simp only [TP.step] at h
  split at h
  case h_2 => simp at h
  next c p hp =>
  (repeat' split at h) <;> simp only [Option.some.injEq, Prod.mk.injEq, reduceCtorEq] at h <;> obtain ⟨rfl, _⟩ := h
  · exact I.move hp (by simp [hold]) (by simp [rhold]) (by simp [holdF]) (by simp [rW]) (by simp [sG]) (Or.inl rfl) trivial
  · exact I.drop hp
  · exact I.move hp (by simp [hold]) (by simp [rhold]) (by simp [holdF]) (by simp [rW]) (by simp [sG]) (Or.inl rfl) trivial

theorem Own1.fail {n : Nat} {s s' : XSt} {ev : List XEv} {t : Tid} {e : Err} (I : Own1 n s.b) (h : step s (.fail t e) = some (s', ev)) : Own1 n s'.b := by
  simp only [step] at h
  split at h
  · simp at h
  split at h
  · simp at h
  next c p hp =>
  (repeat' split at h) <;> simp only [Option.some.injEq, Prod.mk.injEq, reduceCtorEq] at h <;> obtain ⟨rfl, _⟩ := h
  · exact I.move hp (by simp [hold]) (by simp [rhold]) (by simp [holdF]) (by simp [rW]) (by simp [sG]) (Or.inl rfl) trivial
  · exact I.drop hp
  · exact I.move hp (by simp [hold]) (by simp [rhold]) (by simp [holdF]) (by simp [rW]) (by simp [sG]) (Or.inl rfl) trivial
  · exact I.take hp
  · exact I.move hp (by simp [hold]) (fun i e => I.hr t i (by rw [hp]; simpa [rhold] using e)) (by simp [holdF]) (by simp [rW]) (by simp [sG]) (Or.inr rfl) trivial
  · exact I.give (b := false) hp
  · exact I.move hp (by simp [hold]) (by simp [rhold]) (by simp [holdF]) (by simp [rW]) (by simp [sG]) (Or.inl rfl) trivial
  · have := I.move (q := .ret .done) hp (by simp [hold]) (by simp [rhold]) (by simp [holdF]) (by simp [rW]) (by simp [sG]) (Or.inl rfl) trivial
    exact this.ignore _ s.b.dying true

theorem Own1.step {n : Nat} {s s' : XSt} {ev : List XEv} {a : XAct} (I : Own1 n s.b) (h : step s a = some (s', ev)) : Own1 n s'.b := by
  cases a with
  | fail t e => exact I.fail h
  | pfail i e => exact I.pfail h
  | base a =>
    simp only [TPE.step] at h
    split at h <;> simp only [Option.some.injEq, Prod.mk.injEq, reduceCtorEq] at h
    next b' l h1 =>
    obtain ⟨rfl, _⟩ := h
    cases a with
    | call t c => exact I.call h1
    | go t => exact I.go h1
    | expire t => exact I.expire h1
    | pgo i => exact I.pgo h1
    | throw i => exact I.throw h1

theorem Own1.reach {n : Nat} {d : Int} {s : XSt} {tr : List XEv} (h : Reach TPE.step (TPE.init n d) s tr) : Own1 n s.b :=
  Reach.inv (I := fun s _ => Own1 n s.b) (Own1.init n d) (fun _ _ _ _ _ hi hs => hi.step hs) h

end Verif.TPE
