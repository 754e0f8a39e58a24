import Verif.Proof.ThreadPoolErr
/-
Who has the threads of a thread pool whose operating system calls may fail.
-/
namespace Verif.TPE
open Verif
open _root_.Verif.Mtx (Tid Err)
open _root_.Verif.EvF (Tmo)
open _root_.Verif.Lts (Reach)
open _root_.Verif.TP (Gid Rid Task Call PC Pos W Own Ev hold rhold conflict uses)
open Spec
set_option linter.unusedSimpArgs false

def isRet : Pos → Bool
  | .ret _ => true
  | _ => false
def startG : Call → Option Gid
  | .start _ _ g _ => g
  | _ => none
/-- The guard a start in progress is to fill. -/
def stG : PC → Option Gid
  | .on c p => if isRet p then none else startG c
  | .idle => none

structure Own2 (s : TP.St) (tr : List XEv) : Prop where
  co : ∀ i t, s.own i = .client t → hold (s.pc t) = some i
  ro : ∀ i t, s.own i = .rel t → rhold (s.pc t) = some i
  go : ∀ i g, s.own i = .guard g → (∃ t, sG (s.pc t) = some (g, i)) ∨ (s.guard g = some i ∧ ∀ t, past (s.pc t) ≠ some g)
  fg : ∀ t g, stG (s.pc t) = some g → s.guard g = none
  lo : ∀ i, s.own i = .lost → ∃ e, e ∈ tr ∧ loses i e = true

theorem Own2.init (n : Nat) (d : Int) : Own2 (TP.init n d) [] := by
  refine ⟨?_, ?_, ?_, ?_, ?_⟩
  · intro i t h; simp only [TP.init] at h; split at h <;> simp at h
  · intro i t h; simp only [TP.init] at h; split at h <;> simp at h
  · intro i t h; simp only [TP.init] at h; split at h <;> simp at h
  · intro t g _; rfl
  · intro i h; simp only [TP.init] at h; split at h <;> simp at h

/-- A step of pool thread `i`. -/
theorem Own2.pool {s s' : TP.St} {tr ev : List XEv} (J : Own2 s tr) (i : Rid) (hpc : s'.pc = s.pc) (hg : s'.guard = s.guard) (hj : ∀ j, j ≠ i → s'.own j = s.own j)
    (hi : s'.own i = s.own i ∨ s'.own i = .free ∨ (s'.own i = .lost ∧ ∃ e, e ∈ ev ∧ loses i e = true)) : Own2 s' (tr ++ ev) := by
  obtain ⟨co, ro, go, fg, lo⟩ := J
  have key : ∀ j, s'.own j ≠ .free → s'.own j ≠ .lost → s.own j = s'.own j := by
    intro j h1 h2; by_cases e : j = i
    · subst e; rcases hi with h | h | h
      · exact h.symm
      · exact absurd h h1
      · exact absurd h.1 h2
    · exact (hj j e).symm
  refine ⟨?_, ?_, ?_, ?_, ?_⟩
  · intro j t h; rw [hpc]; exact co j t (by rw [key j (by simp [h]) (by simp [h])]; exact h)
  · intro j t h; rw [hpc]; exact ro j t (by rw [key j (by simp [h]) (by simp [h])]; exact h)
  · intro j t h; rw [hpc, hg]; exact go j t (by rw [key j (by simp [h]) (by simp [h])]; exact h)
  · rw [hpc, hg]; exact fg
  · intro j h; by_cases e : j = i
    · subst e; rcases hi with h' | h' | h'
      · obtain ⟨e, h1, h2⟩ := lo j (h' ▸ h); exact ⟨e, by simp [h1], h2⟩
      · rw [h] at h'; simp at h'
      · obtain ⟨e, h1, h2⟩ := h'.2; exact ⟨e, by simp [h1], h2⟩
    · obtain ⟨e, h1, h2⟩ := lo j (by rw [← hj j e]; exact h); exact ⟨e, by simp [h1], h2⟩

theorem Own2.pgo {s s' : TP.St} {tr ev : List XEv} {l : List Ev} {i : Rid} (J : Own2 s tr) (h : TP.step s (.pgo i) = some (s', l)) : Own2 s' (tr ++ ev) := by
  simp only [TP.step] at h
  (repeat' split at h) <;> simp only [Option.some.injEq, Prod.mk.injEq, reduceCtorEq] at h <;> obtain ⟨rfl, _⟩ := h <;>
    refine J.pool i rfl rfl ?_ ?_ <;> simp [TP.St.wAt, TP.St.ownAt, TP.St.evAt] <;> (intro j hj; rw [upd_ne _ _ hj])

theorem Own2.throw {s s' : TP.St} {tr ev : List XEv} {l : List Ev} {i : Rid} (J : Own2 s tr) (h : TP.step s (.throw i) = some (s', l)) : Own2 s' (tr ++ ev) := by
  simp only [TP.step] at h
  (repeat' split at h) <;> simp only [Option.some.injEq, Prod.mk.injEq, reduceCtorEq] at h <;> obtain ⟨rfl, _⟩ := h <;>
    refine J.pool i rfl rfl ?_ ?_ <;> simp [TP.St.wAt, TP.St.ownAt, TP.St.evAt]

theorem Own2.pfail {s s' : XSt} {tr ev : List XEv} {i : Rid} {e : Err} (J : Own2 s.b tr) (h : TPE.step s (.pfail i e) = some (s', ev)) : Own2 s'.b (tr ++ ev) := by
  simp only [step] at h
  (repeat' split at h) <;> simp only [Option.some.injEq, Prod.mk.injEq, reduceCtorEq] at h <;> obtain ⟨rfl, rfl⟩ := h <;>
    refine J.pool i rfl rfl ?_ ?_ <;> simp [TP.St.wAt, TP.St.ownAt, TP.St.evAt, loses] <;> (intro j hj; rw [upd_ne _ _ hj])

theorem stG_cases {p : PC} {g : Gid} (h : stG p = some g) : ∃ k tm pr q, p = .on (.start k tm (some g) pr) q := by
  cases p with
  | idle => simp [stG, isRet, startG] at h
  | on c q =>
    simp only [stG] at h
    split at h <;> (try (simp at h; done))
    cases c <;> simp [startG] at h
    rw [h]; exact ⟨_, _, _, _, rfl⟩

theorem fresh_clash {k tm pr q} {g : Gid} {p : PC} (h : clashes p (.on (.start k tm (some g) pr) q) = false) : past p ≠ some g ∧ stG p ≠ some g ∧ (∀ i, sG p ≠ some (g, i)) ∧ ∀ i, rW p ≠ some (g, i) := by
  refine ⟨?_, ?_, ?_, ?_⟩
  · intro e; unfold past at e; split at e <;> simp at e <;> subst e <;> simp [clashes, conflict, uses] at h
  · intro e; obtain ⟨_, _, _, _, rfl⟩ := stG_cases e; simp [clashes, conflict, uses] at h
  · intro i e; unfold sG at e; split at e <;> simp at e; obtain ⟨rfl, rfl⟩ := e; simp [clashes, conflict, uses] at h
  · intro i e; unfold rW at e; split at e <;> simp at e; obtain ⟨rfl, rfl⟩ := e; simp [clashes, conflict, uses] at h

theorem rel_clash {q} {g : Gid} {p : PC} (h : clashes p (.on (.release g) q) = false) : past p ≠ some g ∧ stG p ≠ some g ∧ (∀ i, sG p ≠ some (g, i)) ∧ ∀ i, rW p ≠ some (g, i) := by
  refine ⟨?_, ?_, ?_, ?_⟩
  · intro e; unfold past at e; split at e <;> simp at e <;> subst e <;> simp [clashes, conflict, uses] at h
  · intro e; obtain ⟨_, _, _, _, rfl⟩ := stG_cases e; simp [clashes, conflict, uses] at h
  · intro i e; unfold sG at e; split at e <;> simp at e; obtain ⟨rfl, rfl⟩ := e; simp [clashes, conflict, uses] at h
  · intro i e; unfold rW at e; split at e <;> simp at e; obtain ⟨rfl, rfl⟩ := e; simp [clashes, conflict, uses] at h

/-- A client moves on; the threads and guards are as before. -/
theorem Own2.move {s s' : TP.St} {tr ev : List XEv} {t : Tid} {p' : PC} (J : Own2 s tr) (hpc : s'.pc = upd s.pc t p') (ho : s'.own = s.own) (hg : s'.guard = s.guard)
    (h1 : hold p' = hold (s.pc t)) (h2 : rhold p' = rhold (s.pc t)) (h3 : sG p' = sG (s.pc t)) (h4 : past p' = past (s.pc t))
    (h5 : ∀ g, stG p' = some g → s.guard g = none) : Own2 s' (tr ++ ev) := by
  obtain ⟨co, ro, go, fg, lo⟩ := J
  refine ⟨?_, ?_, ?_, ?_, ?_⟩
  · rw [hpc, ho]; intro i u h; have := co i u h; by_cases e : u = t
    · subst e; rw [upd_same, h1]; exact this
    · rw [upd_ne _ _ e]; exact this
  · rw [hpc, ho]; intro i u h; have := ro i u h; by_cases e : u = t
    · subst e; rw [upd_same, h2]; exact this
    · rw [upd_ne _ _ e]; exact this
  · rw [hpc, ho, hg]; intro i g h; rcases go i g h with ⟨u, hu⟩ | ⟨hu, hv⟩
    · left; refine ⟨u, ?_⟩; by_cases e : u = t
      · subst e; rw [upd_same, h3]; exact hu
      · rw [upd_ne _ _ e]; exact hu
    · right; refine ⟨hu, fun u => ?_⟩; by_cases e : u = t
      · subst e; rw [upd_same, h4]; exact hv u
      · rw [upd_ne _ _ e]; exact hv u
  · rw [hpc, hg]; intro u g h; by_cases e : u = t
    · subst e; rw [upd_same] at h; exact h5 g h
    · rw [upd_ne _ _ e] at h; exact fg u g h
  · rw [ho]; intro i h; obtain ⟨e, he, hl⟩ := lo i h; exact ⟨e, by simp [he], hl⟩

/-- A client moves on and hands thread `i` to `o`. -/
theorem Own2.moveOwn {s s' : TP.St} {tr ev : List XEv} {t : Tid} {p' : PC} {i : Rid} {o : Own} (J : Own2 s tr) (hpc : s'.pc = upd s.pc t p') (ho : s'.own = upd s.own i o) (hg : s'.guard = s.guard)
    (hs : hold (s.pc t) = none ∨ hold (s.pc t) = some i) (hr : rhold (s.pc t) = none ∨ rhold (s.pc t) = some i)
    (h1 : ∀ u, o = .client u → u = t ∧ hold p' = some i) (h2 : ∀ u, o = .rel u → u = t ∧ rhold p' = some i) (h2' : ∀ g, o = .guard g → sG p' = some (g, i))
    (h3 : sG (s.pc t) = none) (h4 : past p' = past (s.pc t) ∨ ∃ g, past p' = some g ∧ s.guard g = some i)
    (h5 : ∀ g, stG p' = some g → s.guard g = none) (h6 : o = .lost → ∃ e, e ∈ ev ∧ loses i e = true) : Own2 s' (tr ++ ev) := by
  obtain ⟨co, ro, go, fg, lo⟩ := J
  refine ⟨?_, ?_, ?_, ?_, ?_⟩
  · rw [hpc, ho]; intro j u h; by_cases e : j = i
    · subst e; rw [upd_same] at h; obtain ⟨rfl, h'⟩ := h1 u h; rw [upd_same]; exact h'
    · rw [upd_ne _ _ e] at h; have := co j u h; by_cases e' : u = t
      · subst e'; rw [this] at hs; simp [e] at hs
      · rw [upd_ne _ _ e']; exact this
  · rw [hpc, ho]; intro j u h; by_cases e : j = i
    · subst e; rw [upd_same] at h; obtain ⟨rfl, h'⟩ := h2 u h; rw [upd_same]; exact h'
    · rw [upd_ne _ _ e] at h; have := ro j u h; by_cases e' : u = t
      · subst e'; rw [this] at hr; simp [e] at hr
      · rw [upd_ne _ _ e']; exact this
  · rw [hpc, ho, hg]; intro j g h; by_cases e : j = i
    · subst e; rw [upd_same] at h; exact Or.inl ⟨t, by rw [upd_same]; exact h2' g h⟩
    · rw [upd_ne _ _ e] at h; rcases go j g h with ⟨u, hu⟩ | ⟨hu, hv⟩
      · left; refine ⟨u, ?_⟩; by_cases e' : u = t
        · subst e'; rw [h3] at hu; simp at hu
        · rw [upd_ne _ _ e']; exact hu
      · right; refine ⟨hu, fun u => ?_⟩; by_cases e' : u = t
        · subst e'; rw [upd_same]; rcases h4 with h4 | ⟨g', h4, h4'⟩
          · rw [h4]; exact hv u
          · rw [h4]; intro eq; injection eq with eq; subst eq; rw [h4'] at hu; injection hu with hu; exact e hu.symm
        · rw [upd_ne _ _ e']; exact hv u
  · rw [hpc, hg]; intro u g h; by_cases e : u = t
    · subst e; rw [upd_same] at h; exact h5 g h
    · rw [upd_ne _ _ e] at h; exact fg u g h
  · rw [ho]; intro j h; by_cases e : j = i
    · subst e; rw [upd_same] at h; obtain ⟨e, he, hl⟩ := h6 h; exact ⟨e, by simp [he], hl⟩
    · rw [upd_ne _ _ e] at h; obtain ⟨e, he, hl⟩ := lo j h; exact ⟨e, by simp [he], hl⟩

theorem Own2.fill {n : Nat} {s : TP.St} {tr ev : List XEv} {t : Tid} {k tm g pr i o} (I : Own1 n s) (J : Own2 s tr) (hp : s.pc t = .on (.start k tm g pr) (.sGuard i)) :
    Own2 { s.at t (.start k tm g pr) (.ret o) with guard := TP.setGuard s.guard g i } (tr ++ ev) := by
  cases g with
  | none => exact J.move (s' := { s.at t (.start k tm none pr) (.ret o) with guard := TP.setGuard s.guard none i }) rfl rfl rfl (by rw [hp]; rfl) (by rw [hp]; rfl) (by rw [hp]; rfl) (by rw [hp]; rfl) (by simp [stG, isRet, startG])
  | some g =>
    obtain ⟨co, ro, go, fg, lo⟩ := J
    have cl : ∀ u, u ≠ t → past (s.pc u) ≠ some g ∧ stG (s.pc u) ≠ some g ∧ (∀ i, sG (s.pc u) ≠ some (g, i)) ∧ ∀ i, rW (s.pc u) ≠ some (g, i) :=
      fun u hu => fresh_clash (by have := I.ex u t hu; rwa [hp] at this)
    refine ⟨?_, ?_, ?_, ?_, ?_⟩ <;> simp only [TP.St.at, TP.setGuard]
    · intro j u h; have := co j u h; by_cases e : u = t
      · subst e; rw [hp] at this; simp [hold] at this
      · rw [upd_ne _ _ e]; exact this
    · intro j u h; have := ro j u h; by_cases e : u = t
      · subst e; rw [hp] at this; simp [rhold] at this
      · rw [upd_ne _ _ e]; exact this
    · intro j g' h
      by_cases eg : g' = g
      · subst eg
        right
        rcases go j g' h with ⟨u, hu⟩ | ⟨hu, _⟩
        · by_cases e : u = t
          · subst e; rw [hp] at hu; simp [sG] at hu; subst hu
            refine ⟨by simp, fun v => ?_⟩
            by_cases e' : v = u
            · subst e'; rw [upd_same]; simp [past]
            · rw [upd_ne _ _ e']; exact (cl v e').1
          · exact absurd hu ((cl u e).2.2.1 j)
        · rw [fg t g' (by rw [hp]; rfl)] at hu; simp at hu
      · rw [upd_ne _ _ eg]
        rcases go j g' h with ⟨u, hu⟩ | ⟨hu, hv⟩
        · left; refine ⟨u, ?_⟩; by_cases e : u = t
          · subst e; rw [hp] at hu; simp [sG] at hu; exact absurd hu.1.symm eg
          · rw [upd_ne _ _ e]; exact hu
        · right; refine ⟨hu, fun u => ?_⟩; by_cases e : u = t
          · subst e; rw [upd_same]; simp [past]
          · rw [upd_ne _ _ e]; exact hv u
    · intro u g' h; by_cases e : u = t
      · subst e; rw [upd_same] at h; simp [stG, isRet, startG] at h
      · rw [upd_ne _ _ e] at h
        by_cases eg : g' = g
        · subst eg; exact absurd h (cl u e).2.1
        · rw [upd_ne _ _ eg]; exact fg u g' h
    · intro j h; obtain ⟨e, he, hl⟩ := lo j h; exact ⟨e, by simp [he], hl⟩

theorem Own2.clear {n : Nat} {s : TP.St} {tr ev : List XEv} {t : Tid} {g o} (I : Own1 n s) (J : Own2 s tr) (hp : s.pc t = .on (.release g) .rClear) :
    Own2 { s.at t (.release g) (.ret o) with guard := upd s.guard g none } (tr ++ ev) := by
  obtain ⟨co, ro, go, fg, lo⟩ := J
  have cl : ∀ u, u ≠ t → past (s.pc u) ≠ some g ∧ stG (s.pc u) ≠ some g ∧ (∀ i, sG (s.pc u) ≠ some (g, i)) ∧ ∀ i, rW (s.pc u) ≠ some (g, i) :=
    fun u hu => rel_clash (by have := I.ex u t hu; rwa [hp] at this)
  refine ⟨?_, ?_, ?_, ?_, ?_⟩ <;> simp only [TP.St.at]
  · intro j u h; have := co j u h; by_cases e : u = t
    · subst e; rw [hp] at this; simp [hold] at this
    · rw [upd_ne _ _ e]; exact this
  · intro j u h; have := ro j u h; by_cases e : u = t
    · subst e; rw [hp] at this; simp [rhold] at this
    · rw [upd_ne _ _ e]; exact this
  · intro j g' h
    by_cases eg : g' = g
    · subst eg
      rcases go j g' h with ⟨u, hu⟩ | ⟨hu, hv⟩
      · by_cases e : u = t
        · subst e; rw [hp] at hu; simp [sG] at hu
        · exact absurd hu ((cl u e).2.2.1 j)
      · exact absurd (by rw [hp]; rfl) (hv t)
    · rw [upd_ne _ _ eg]
      rcases go j g' h with ⟨u, hu⟩ | ⟨hu, hv⟩
      · left; refine ⟨u, ?_⟩; by_cases e : u = t
        · subst e; rw [hp] at hu; simp [sG] at hu
        · rw [upd_ne _ _ e]; exact hu
      · right; refine ⟨hu, fun u => ?_⟩; by_cases e : u = t
        · subst e; rw [upd_same]; simp [past]
        · rw [upd_ne _ _ e]; exact hv u
  · intro u g' h; by_cases e : u = t
    · subst e; rw [upd_same] at h; simp [stG, isRet, startG] at h
    · rw [upd_ne _ _ e] at h
      by_cases eg : g' = g
      · subst eg; simp
      · rw [upd_ne _ _ eg]; exact fg u g' h
  · intro j h; obtain ⟨e, he, hl⟩ := lo j h; exact ⟨e, by simp [he], hl⟩

/-- A release takes the thread its guard has. -/
theorem Own2.take {n : Nat} {s : TP.St} {tr ev : List XEv} {t : Tid} {g i} (I : Own1 n s) (J : Own2 s tr) (hp : s.pc t = .on (.release g) (.rWait i)) :
    Own2 ((s.at t (.release g) (.rReset i)).ownAt i (.rel t)) (tr ++ ev) := by
  have cl : ∀ u, u ≠ t → past (s.pc u) ≠ some g ∧ stG (s.pc u) ≠ some g ∧ (∀ i, sG (s.pc u) ≠ some (g, i)) ∧ ∀ i, rW (s.pc u) ≠ some (g, i) :=
    fun u hu => rel_clash (by have := I.ex u t hu; rwa [hp] at this)
  have hg : s.guard g = some i := by
    rcases J.go i g (I.rw t g i (by rw [hp]; rfl)) with ⟨u, hu⟩ | h
    · by_cases e : u = t
      · subst e; rw [hp] at hu; simp [sG] at hu
      · exact absurd hu ((cl u e).2.2.1 i)
    · exact h.1
  exact J.moveOwn (s' := (s.at t (.release g) (.rReset i)).ownAt i (.rel t)) rfl rfl rfl (by rw [hp]; simp [hold]) (by rw [hp]; simp [rhold]) (by simp)
    (by intro u h; injection h with h; exact ⟨h.symm, rfl⟩) (by simp) (by rw [hp]; simp [sG]) (Or.inr ⟨g, rfl, hg⟩) (by simp [stG, isRet, startG]) (by simp)

theorem Own2.go' {n : Nat} {s s' : TP.St} {tr ev : List XEv} {l : List Ev} {t : Tid} (I : Own1 n s) (J : Own2 s tr) (h : TP.step s (.go t) = some (s', l)) : Own2 s' (tr ++ ev) := by
  have fgt := J.fg t
  simp only [TP.step] at h
  split at h
  · simp at h
  next c p hp =>
  (repeat' split at h) <;> simp only [Option.some.injEq, Prod.mk.injEq, reduceCtorEq] at h <;> obtain ⟨rfl, _⟩ := h
  case h_7.isFalse g p i hw _ => exact absurd (I.hf t i (by rw [hp]; rfl)) hw
  all_goals
    first
      | exact Own2.fill I J hp
      | exact Own2.clear I J hp
      | exact Own2.take I J hp
      | (refine J.move (t := t) rfl rfl rfl (by rw [hp]; first | rfl | (simp [hold]; done)) (by rw [hp]; first | rfl | (simp [rhold]; done)) (by rw [hp]; first | rfl | (simp [sG]; done)) (by rw [hp]; rfl) ?_
         intro g hg; first | (simp [stG, isRet, startG] at hg; done) | (refine fgt g ?_; rw [hp]; simpa [stG, isRet, startG] using hg))
      | skip
  case h_2 i rest hfr _ =>
    exact J.moveOwn (t := t) rfl rfl rfl (by rw [hp]; simp [hold]) (by rw [hp]; simp [rhold]) (by intro u h; injection h with h; exact ⟨h.symm, rfl⟩) (by simp) (by simp)
      (by rw [hp]; simp [sG]) (Or.inl (by rw [hp]; rfl)) (fun g hg => fgt g (by rw [hp]; simpa [stG, isRet, startG] using hg)) (by simp)
  case h_7.isTrue g p i hw _ =>
    exact J.moveOwn (t := t) rfl rfl rfl (by rw [hp]; simp [hold]) (by rw [hp]; simp [rhold]) (by cases g <;> simp [TP.toOwn]) (by cases g <;> simp [TP.toOwn])
      (by cases g <;> simp [TP.toOwn, sG])
      (by rw [hp]; simp [sG]) (Or.inl (by rw [hp]; rfl)) (fun g hg => fgt g (by rw [hp]; simpa [stG, isRet, startG] using hg)) (by cases g <;> simp [TP.toOwn])
  case h_14.isTrue g i hl _ =>
    exact J.moveOwn (t := t) rfl rfl rfl (by rw [hp]; simp [hold]) (by rw [hp]; simp [rhold]) (by simp) (by simp) (by simp)
      (by rw [hp]; simp [sG]) (Or.inl (by rw [hp]; rfl)) (by simp [stG, isRet, startG]) (by simp)
  case h_1.isTrue i rest hfr hw _ =>
    refine J.moveOwn (t := t) (p' := s.pc t) (i := i) (o := .dead) ?_ rfl rfl (by rw [hp]; simp [hold]) (by rw [hp]; simp [rhold]) (by simp) (by simp) (by simp)
      (by rw [hp]; simp [sG]) (Or.inl rfl) fgt (by simp)
    exact (TP.upd_self _ _).symm
  case h_19 =>
    exact J.move (t := t) (p' := .idle) rfl rfl rfl (by rw [hp]; rfl) (by rw [hp]; rfl) (by rw [hp]; cases c <;> simp [sG]) (by rw [hp]; cases c <;> rfl) (by simp [stG])

theorem Own2.expire {s s' : TP.St} {tr : List XEv} {x : XSt} {l : List Ev} {t : Tid} (J : Own2 s tr) (h : TP.step s (.expire t) = some (s', l)) : Own2 s' (tr ++ events x l) := by
  simp only [TP.step] at h
  split at h
  case h_2 => simp at h
  next c p hp =>
  (repeat' split at h) <;> simp only [Option.some.injEq, Prod.mk.injEq, reduceCtorEq] at h <;> obtain ⟨rfl, rfl⟩ := h
  case h_2.isTrue =>
    exact J.moveOwn (t := t) rfl rfl rfl (by rw [hp]; simp [hold]) (by rw [hp]; simp [rhold]) (by simp) (by simp) (by simp)
      (by rw [hp]; simp [sG]) (Or.inl (by rw [hp]; rfl)) (by simp [stG, isRet, startG]) (by simp [events, loses])
  all_goals
    refine J.move (t := t) rfl rfl rfl (by rw [hp]; first | rfl | (simp [hold]; done)) (by rw [hp]; first | rfl | (simp [rhold]; done)) (by rw [hp]; first | rfl | (simp [sG]; done)) (by rw [hp]; rfl) ?_
    simp [stG, isRet, startG]

theorem Own2.fail {n : Nat} {s s' : XSt} {tr ev : List XEv} {t : Tid} {e : Err} (I : Own1 n s.b) (J : Own2 s.b tr) (h : TPE.step s (.fail t e) = some (s', ev)) : Own2 s'.b (tr ++ ev) := by
  simp only [step] at h
  split at h
  · simp at h
  split at h
  · simp at h
  next c p hp =>
  (repeat' split at h) <;> simp only [Option.some.injEq, Prod.mk.injEq, reduceCtorEq] at h <;> obtain ⟨rfl, rfl⟩ := h
  all_goals
    first
      | exact Own2.take I J hp
      | (refine J.move (t := t) rfl rfl rfl (by rw [hp]; first | rfl | (simp [hold]; done)) (by rw [hp]; first | rfl | (simp [rhold]; done)) (by rw [hp]; first | rfl | (simp [sG]; done)) (by rw [hp]; rfl) ?_
         simp [stG, isRet, startG]; done)
      | exact J.moveOwn (t := t) rfl rfl rfl (by rw [hp]; simp [hold]) (by rw [hp]; simp [rhold]) (by simp) (by simp) (by simp)
          (by rw [hp]; simp [sG]) (Or.inl (by rw [hp]; rfl)) (by simp [stG, isRet, startG]) (by simp [loses])

theorem Own2.call {s s' : TP.St} {tr ev : List XEv} {l : List Ev} {t : Tid} {c : Call} (J : Own2 s tr) (h : TP.step s (.call t c) = some (s', l)) : Own2 s' (tr ++ ev) := by
  simp only [TP.step] at h
  split at h <;> simp only [Option.some.injEq, Prod.mk.injEq, reduceCtorEq] at h
  next hc =>
  obtain ⟨hi, _, _, _, _, hf⟩ := hc
  obtain ⟨rfl, _⟩ := h
  refine J.move (t := t) rfl rfl rfl (by rw [hi]; cases c <;> rfl) (by rw [hi]; cases c <;> rfl) (by rw [hi]; cases c <;> simp [sG, TP.entry]) (by rw [hi]; cases c <;> rfl) ?_
  intro g hg
  cases c <;> simp [stG, isRet, startG, TP.entry] at hg
  subst hg; simpa [TP.freshGuard] using hf

theorem Own2.reach {n : Nat} {d : Int} {s : XSt} {tr : List XEv} (h : Reach TPE.step (TPE.init n d) s tr) : Own2 s.b tr := by
  refine (Reach.inv (I := fun s tr => Own1 n s.b ∧ Own2 s.b tr) ⟨Own1.init n d, Own2.init n d⟩ (fun s tr a s' ev hi hs => ⟨hi.1.step hs, ?_⟩) h).2
  cases a with
  | fail t e => exact Own2.fail hi.1 hi.2 hs
  | pfail t e => exact hi.2.pfail hs
  | base a =>
    simp only [TPE.step] at hs
    split at hs <;> simp only [Option.some.injEq, Prod.mk.injEq, reduceCtorEq] at hs
    next h1 =>
    obtain ⟨rfl, rfl⟩ := hs
    cases a with
    | call t c => exact hi.2.call h1
    | go t => exact Own2.go' hi.1 hi.2 h1
    | expire t => exact hi.2.expire h1
    | pgo i => exact hi.2.pgo h1
    | throw i => exact hi.2.throw h1

end Verif.TPE
