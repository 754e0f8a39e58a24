import Verif.Proof.ThreadPoolGuard
import Verif.Sem.Fair
/- Calls return. -/
namespace Verif.TP
open Verif
open _root_.Verif.Mtx (Tid)
open _root_.Verif.EvF (Tmo)
open Spec Lts Proto
set_option linter.unusedSimpArgs false
set_option linter.unusedVariables false

/-- Who can start or destroy a finished thread. -/
theorem fin_stays {s s' : St} {ev : List Ev} {a : Act} (hs : TP.step s a = some (s', ev)) {i : Rid} (hw : s.w i = .finished) :
    s'.w i = .finished ∨ ∃ u, a = .go u ∧ ((∃ k tm g p, s.pc u = .on (.start (some k) tm g p) (.sGo i)) ∨ s.pc u = .on .destroy .dDrain) := by
  cases a with
  | call u c =>
    left
    simp only [TP.step] at hs
    split at hs
    · simp only [Option.some.injEq, Prod.mk.injEq] at hs; obtain ⟨rfl, _⟩ := hs; exact hw
    · simp at hs
  | expire u =>
    left
    simp only [TP.step] at hs
    split at hs
    · split at hs
      all_goals (try split at hs) <;> simp only [Option.some.injEq, Prod.mk.injEq, reduceCtorEq] at hs
      all_goals (obtain ⟨rfl, _⟩ := hs; exact hw)
    · simp at hs
  | throw j =>
    left
    by_cases hj : i = j
    · subst hj; simp [TP.step, hw] at hs
    · simp only [TP.step] at hs
      split at hs <;> simp only [Option.some.injEq, Prod.mk.injEq, reduceCtorEq] at hs
      obtain ⟨rfl, _⟩ := hs; simp only [St.wAt]; rw [upd_ne _ _ hj]; exact hw
  | pgo j =>
    left
    by_cases hj : i = j
    · subst hj; simp [TP.step, hw] at hs
    · simp only [TP.step] at hs
      split at hs <;> (try split at hs) <;> simp only [Option.some.injEq, Prod.mk.injEq, reduceCtorEq] at hs <;>
        (obtain ⟨rfl, _⟩ := hs; simp only [St.wAt, St.evAt, St.ownAt]; rw [upd_ne _ _ hj]; exact hw)
  | go u =>
    cases hp : s.pc u with
    | idle => simp [TP.step, hp] at hs
    | on c q =>
      simp only [TP.step, hp] at hs
      split at hs
      case h_7 j =>
        by_cases hj : i = j
        · subst hj; exact Or.inr ⟨u, rfl, Or.inl ⟨_, _, _, _, hp⟩⟩
        · left
          split at hs <;> simp only [Option.some.injEq, Prod.mk.injEq, reduceCtorEq] at hs
          · obtain ⟨rfl, _⟩ := hs; simp only [St.wAt, St.ownAt, St.at]; rw [upd_ne _ _ hj]; exact hw
          · obtain ⟨rfl, _⟩ := hs; exact hw
      all_goals first
        | exact Or.inr ⟨u, rfl, Or.inr hp⟩
        | (left; (repeat' split at hs) <;> simp only [Option.some.injEq, Prod.mk.injEq, reduceCtorEq] at hs <;> (obtain ⟨rfl, _⟩ := hs; exact hw))

/-- How far a thread is from having notified its guard. -/
def wt (w : W) : Nat := if late w then 0 else 1 + rank w

theorem late_fin {w : W} : rank w ≤ 2 → late w = true ∨ w = .dead := by cases w <;> simp [rank, late]
theorem late_rank {w : W} (h : late w = true) : rank w ≤ 2 := by cases w <;> simp [late, rank] at h ⊢

theorem Inv.fin_own {n : Nat} {d : Int} {s s' : St} {tr ev : List Ev} {a : Act} (I : Inv n d s tr) (hs : TP.step s a = some (s', ev)) {i : Rid} {t : Tid}
    {c : Call} {q : Pos} (h0 : s.pc t = .on c q) (hq : q ≠ .dDrain) (ho : ∀ u, s.own i = .client u → u = t ∧ q ≠ .sGo i) (hw : s.w i = .finished) : s'.w i = .finished := by
  rcases fin_stays hs hw with h | ⟨u, rfl, ⟨k, tm, g, p, hp⟩ | hp⟩
  · exact h
  · have hcs := I.st.cs u; rw [hp] at hcs; simp only [CShape] at hcs
    obtain ⟨rfl, h⟩ := ho u hcs.2.1
    rw [h0] at hp; simp at hp; exact absurd hp.2 h
  · have hd := I.st.dy u _ hp
    by_cases e : t = u
    · subst e; rw [h0] at hp; simp at hp; exact absurd hp.2 hq
    · have := I.st.al u hd t e; rw [h0] at this; simp at this

theorem Inv.rank_own {n : Nat} {d : Int} {s s' : St} {tr ev : List Ev} {a : Act} (I : Inv n d s tr) (hs : TP.step s a = some (s', ev)) {i : Rid} {t : Tid}
    {c : Call} {q : Pos} (h0 : s.pc t = .on c q) (hq : q ≠ .dDrain) (ho : ∀ u, s.own i = .client u → u = t ∧ q ≠ .sGo i) : rank (s'.w i) ≤ rank (s.w i) := by
  by_cases hw : s.w i = .finished
  · rw [I.fin_own hs h0 hq ho hw, hw]; exact Nat.le_refl _
  · exact rank_step hs hw

theorem Inv.wt_own {n : Nat} {d : Int} {s s' : St} {tr ev : List Ev} {a : Act} (I : Inv n d s tr) (hs : TP.step s a = some (s', ev)) {i : Rid} {t : Tid}
    {c : Call} {q : Pos} (h0 : s.pc t = .on c q) (hq : q ≠ .dDrain) {g : Gid} (ho : s.own i = .guard g) (ho' : s'.own i = .guard g) :
    wt (s'.w i) ≤ wt (s.w i) ∧ (a = .pgo i → late (s.w i) = false → wt (s'.w i) < wt (s.w i)) ∧ (wt (s'.w i) = wt (s.w i) → late (s'.w i) = late (s.w i)) := by
  have hr := I.rank_own hs h0 hq (i := i) (by intro u h; rw [ho] at h; simp at h)
  have hd : s'.w i ≠ .dead := by
    have R := (I.step hs).st.rs i
    unfold RShape at R; rw [ho'] at R
    intro h; simp [h, busyG, late] at R
  unfold wt
  refine ⟨?_, ?_, ?_⟩
  · split
    · exact Nat.zero_le _
    · next hl' =>
      split
      · next hl =>
        rcases late_fin (Nat.le_trans hr (late_rank hl)) with h | h
        · exact absurd h hl'
        · exact absurd h hd
      · omega
  · intro ha hl; subst ha
    have := rank_pgo hs
    simp only [hl, Bool.false_eq_true, if_false]; split <;> omega
  · cases h1 : late (s'.w i) <;> cases h2 : late (s.w i) <;> simp
    omega

/-- How far client `t` is from its return. -/
def M (t : Tid) (s : St) : Nat := match s.pc t with
  | .idle => 0
  | .on _ p => match p with
    | .ret _ => 1
    | .sGuard _ | .rClear | .vEnter => 2
    | .sGo _ | .rSend _ => 3
    | .sPrio _ | .rReset _ => 4
    | .sSet _ => 5
    | .sWait i => 6 + rank (s.w i)
    | .sRecv => 19
    | .sEnter => 20
    | .wWait i => 2 + wt (s.w i)
    | .wEnter => 20
    | .rWait i => 5 + wt (s.w i)
    | .rEnter => 20
    | .dDrain => 2 + s.free.length
    | .dWait j => if j < s.n then 4 + s.n + (s.n - j) * 10 + rank (s.w j) else 3 + s.n

def help (t : Tid) (s : St) : Act := match s.pc t with
  | .on _ (.sWait i) => if rank (s.w i) = 0 then .go t else .pgo i
  | .on _ .sRecv => .expire t
  | .on _ (.wWait i) | .on _ (.rWait i) => if late (s.w i) then .go t else .pgo i
  | .on _ (.dWait j) => if j < s.n ∧ rank (s.w j) ≠ 0 then .pgo j else .go t
  | _ => .go t

/-- A start that may wait for ever. -/
def forever : Call → Bool
  | .start (some _) .forever _ _ => true
  | _ => false

theorem rank_le (w : W) : rank w ≤ 8 := by cases w <;> simp [rank]
theorem wt_le (w : W) : wt w ≤ 9 := by have := rank_le w; unfold wt; split <;> omega

theorem Inv.n_step {n : Nat} {d : Int} {s s' : St} {tr ev : List Ev} {a : Act} (I : Inv n d s tr) (hs : TP.step s a = some (s', ev)) : s'.n = s.n := by
  rw [(I.step hs).st.cn, I.st.cn]

/-- A client inside a call stays inside until it returns. -/
theorem Inv.stay {n : Nat} {d : Int} {s s' : St} {tr ev : List Ev} {a : Act} (I : Inv n d s tr) (hs : TP.step s a = some (s', ev)) {t : Tid} {c : Call} {q : Pos}
    (h0 : s.pc t = .on c q) : (∃ q', s'.pc t = .on c q') ∨ ∃ o, q = .ret o ∧ ev = [.ret t c o] := by
  by_cases hc : ∃ c, a = .call t c
  · obtain ⟨c', rfl⟩ := hc; simp [TP.step, h0] at hs
  by_cases he : a = .expire t
  · subst he
    left
    simp only [TP.step, h0] at hs
    split at hs
    all_goals (try split at hs) <;> simp only [Option.some.injEq, Prod.mk.injEq, reduceCtorEq] at hs
    all_goals (obtain ⟨rfl, _⟩ := hs; simp only [St.at, St.ownAt]; rw [upd_same]; exact ⟨_, rfl⟩)
  by_cases hg : a = .go t
  · subst hg
    simp only [TP.step, h0] at hs
    split at hs
    all_goals (repeat' split at hs) <;> simp only [Option.some.injEq, Prod.mk.injEq, reduceCtorEq] at hs
    all_goals (obtain ⟨rfl, rfl⟩ := hs)
    all_goals first
      | exact Or.inr ⟨_, rfl, rfl⟩
      | (left; simp only [St.at, St.ownAt, St.evAt, St.wAt]; rw [upd_same]; exact ⟨_, rfl⟩)
      | (left; simp only [St.at, St.ownAt, St.evAt, St.wAt]; rw [h0]; exact ⟨_, rfl⟩)
  · left; rw [pc_other hs hg he (fun c h => hc ⟨c, h⟩)]; exact ⟨_, h0⟩

theorem Inv.M_pos {n : Nat} {s : St} {t : Tid} {c : Call} {q : Pos} (h0 : s.pc t = .on c q) : M t s ≠ 0 := by
  unfold M; rw [h0]; cases q <;> simp
  split <;> omega

/-- The client's own steps. -/
theorem Inv.M_own {n : Nat} {d : Int} {s s' : St} {tr ev : List Ev} {a : Act} (I : Inv n d s tr) {t : Tid} (hs : TP.step s a = some (s', ev))
    (ha : a = .go t ∨ a = .expire t) : M t s' < M t s := by
  have hn := I.n_step hs
  have I' := I.step hs
  cases h0 : s.pc t with
  | idle => rcases ha with rfl | rfl <;> simp [TP.step, h0] at hs
  | on c q =>
    have hcs := I.st.cs t; rw [h0] at hcs
    rcases ha with rfl | rfl
    · cases c with
      | start k tm g p =>
        cases k <;> cases q <;> simp only [CShape] at hcs <;> simp only [TP.step, h0] at hs
        all_goals (repeat' split at hs) <;> simp only [Option.some.injEq, Prod.mk.injEq, reduceCtorEq] at hs
        all_goals (obtain ⟨rfl, _⟩ := hs; simp only [M, h0, St.at, St.ownAt, St.wAt, upd_same]; first | omega | skip)
        all_goals (have := rank_le (s.w ‹_›); omega)
      | wait g tm =>
        cases q <;> simp only [CShape] at hcs <;> simp only [TP.step, h0] at hs
        all_goals (repeat' split at hs) <;> simp only [Option.some.injEq, Prod.mk.injEq, reduceCtorEq] at hs
        all_goals (obtain ⟨rfl, _⟩ := hs; simp only [M, h0, St.at, St.ownAt, St.wAt, upd_same]; first | omega | skip)
        all_goals (have := wt_le (s.w ‹_›); omega)
      | release g =>
        cases q <;> simp only [CShape] at hcs <;> simp only [TP.step, h0] at hs
        all_goals (repeat' split at hs) <;> simp only [Option.some.injEq, Prod.mk.injEq, reduceCtorEq] at hs
        all_goals (obtain ⟨rfl, _⟩ := hs; simp only [M, h0, St.at, St.ownAt, St.wAt, St.evAt, upd_same]; first | omega | skip)
        all_goals (have := wt_le (s.w ‹_›); omega)
      | isValid g =>
        cases q <;> simp only [CShape] at hcs <;> simp only [TP.step, h0] at hs
        all_goals (repeat' split at hs) <;> simp only [Option.some.injEq, Prod.mk.injEq, reduceCtorEq] at hs
        all_goals (obtain ⟨rfl, _⟩ := hs; simp only [M, h0, St.at, St.ownAt, St.wAt, St.evAt, upd_same]; omega)
      | destroy =>
        cases q <;> simp only [CShape] at hcs <;> simp only [TP.step, h0] at hs
        case dWait j =>
          split at hs
          · next hj =>
            split at hs <;> simp only [Option.some.injEq, Prod.mk.injEq, reduceCtorEq] at hs
            obtain ⟨rfl, _⟩ := hs
            have e1 : M t (s.at t .destroy (.dWait (j + 1))) = if j + 1 < s.n then 4 + s.n + (s.n - (j + 1)) * 10 + rank (s.w (j + 1)) else 3 + s.n := by
              unfold M; rw [show (s.at t .destroy (.dWait (j + 1))).pc t = .on .destroy (.dWait (j + 1)) by simp [St.at, upd_same]]; rfl
            rw [e1]
            simp only [M, h0, hj, if_true]
            have := rank_le (s.w (j + 1))
            by_cases hj' : j + 1 < s.n
            · rw [if_pos hj']
              have e2 : s.n - j = s.n - (j + 1) + 1 := Nat.sub_eq_of_eq_add (by have := Nat.sub_add_cancel (Nat.le_of_lt hj'); rw [Nat.add_assoc, Nat.add_comm 1 j]; exact this.symm)
              rw [e2]; omega
            · rw [if_neg hj']; omega
          · next hj =>
            simp only [Option.some.injEq, Prod.mk.injEq, reduceCtorEq] at hs
            obtain ⟨rfl, _⟩ := hs
            simp only [M, h0, St.at, upd_same, hj, if_false]
            have : s.free.length ≤ s.n := by
              refine nodup_len _ _ I.st.fr ?_
              intro x hx; rw [I.st.cn]; exact I.st.lt (by rw [(I.st.fo x).1 hx]; simp)
            omega
        case dDrain =>
          split at hs
          · next hf =>
            split at hs <;> simp only [Option.some.injEq, Prod.mk.injEq, reduceCtorEq] at hs
            obtain ⟨rfl, _⟩ := hs
            simp only [M, h0, St.wAt, St.ownAt, hf, List.length_cons]; omega
          · simp only [Option.some.injEq, Prod.mk.injEq, reduceCtorEq] at hs
            obtain ⟨rfl, _⟩ := hs
            simp only [M, h0, St.at, upd_same]; omega
        case ret o =>
          simp only [Option.some.injEq, Prod.mk.injEq, reduceCtorEq] at hs
          obtain ⟨rfl, _⟩ := hs
          simp only [M, h0, upd_same]; omega
    · simp only [TP.step, h0] at hs
      split at hs
      all_goals (try split at hs) <;> simp only [Option.some.injEq, Prod.mk.injEq, reduceCtorEq] at hs
      all_goals (obtain ⟨rfl, _⟩ := hs; simp only [M, h0, St.at, St.ownAt, upd_same]; omega)

/-- In the last part of destroy nothing else happens. -/
theorem Inv.drain_alone {n : Nat} {d : Int} {s s' : St} {tr ev : List Ev} {a : Act} (I : Inv n d s tr) (hs : TP.step s a = some (s', ev)) {t : Tid}
    (h0 : s.pc t = .on .destroy .dDrain) : a = .go t := by
  have hd := I.st.dy t _ h0
  have al := I.st.al t hd
  have hcs := I.st.cs t; rw [h0] at hcs; simp only [CShape] at hcs
  have hw : ∀ i, s.w i = .finished ∨ s.w i = .dead := by
    intro i
    by_cases hi : i < s.n
    · exact hcs i hi
    · right; have R := I.st.rs i; unfold RShape at R; rw [I.st.od i (by have := I.st.cn; rw [← this]; exact Nat.le_of_not_lt hi)] at R; exact R
  cases a with
  | call u c => simp [TP.step, hd] at hs
  | go u =>
    by_cases e : u = t
    · rw [e]
    · simp [TP.step, al u e] at hs
  | expire u =>
    by_cases e : u = t
    · subst e; simp [TP.step, h0] at hs
    · simp [TP.step, al u e] at hs
  | pgo i => rcases hw i with h | h <;> simp [TP.step, h] at hs
  | throw i => rcases hw i with h | h <;> simp [TP.step, h] at hs

theorem Inv.M_step {n : Nat} {d : Int} {s s' : St} {tr ev : List Ev} {a : Act} (I : Inv n d s tr) (hs : TP.step s a = some (s', ev)) {t : Tid} {c : Call} {q : Pos}
    (h0 : s.pc t = .on c q) : M t s' ≤ M t s ∧ (a = help t s → M t s' < M t s) ∧ (M t s' = M t s → help t s' = help t s) := by
  by_cases ho : a = .go t ∨ a = .expire t
  · have := I.M_own hs ho; exact ⟨by omega, fun _ => this, fun h => by omega⟩
  have ho1 : a ≠ .go t := fun h => ho (Or.inl h)
  have ho2 : a ≠ .expire t := fun h => ho (Or.inr h)
  have hpc : s'.pc t = s.pc t := pc_other hs ho1 ho2 (by rintro c' rfl; simp [TP.step, h0] at hs)
  have hn := I.n_step hs
  have I' := I.step hs
  have hcs := I.st.cs t; rw [h0] at hcs
  have hcs' := I'.st.cs t; rw [hpc, h0] at hcs'
  unfold M help
  rw [hpc, h0, hn]
  cases q <;> simp only [and_true, true_and, Nat.le_refl, implies_true] <;> (try (intro h; first | exact absurd h ho1 | exact absurd h ho2))
  case sWait i =>
    have hw := I.rank_own hs h0 (by simp) (i := i) (by
      intro u hu
      cases c <;> simp only [CShape] at hcs
      next k _ _ _ => cases k <;> simp only [CShape] at hcs; rw [hcs.2] at hu; simp at hu; exact ⟨hu.symm, by simp⟩)
    refine ⟨by omega, ?_, fun h => by rw [show rank (s'.w i) = rank (s.w i) by omega]⟩
    split
    · intro h; exact absurd h ho1
    · rintro rfl; have := rank_pgo hs; omega
  case wWait i =>
    cases c <;> simp only [CShape] at hcs hcs'
    obtain ⟨e1, e2, e3⟩ := I.wt_own hs h0 (by simp) hcs.2 hcs'.2
    refine ⟨by omega, ?_, fun h => by rw [e3 (by omega)]⟩
    split
    · intro h; exact absurd h ho1
    · next hl => intro h; have := e2 h (by simpa using hl); omega
  case rWait i =>
    cases c <;> simp only [CShape] at hcs hcs'
    obtain ⟨e1, e2, e3⟩ := I.wt_own hs h0 (by simp) hcs.2 hcs'.2
    refine ⟨by omega, ?_, fun h => by rw [e3 (by omega)]⟩
    split
    · intro h; exact absurd h ho1
    · next hl => intro h; have := e2 h (by simpa using hl); omega
  case dDrain =>
    cases c with
    | destroy => exact absurd (I.drain_alone hs h0) ho1
    | start k _ _ _ => cases k <;> simp only [CShape] at hcs
    | _ => simp only [CShape] at hcs
  case dWait j =>
    have hw := I.rank_own hs h0 (by simp) (i := j) (by
      intro u hu
      cases c with
      | destroy =>
        have := I.st.ho j u hu
        by_cases e : u = t
        · exact ⟨e, by simp⟩
        · rw [I.st.al t (I.st.dy t _ h0) u e] at this; simp [hold] at this
      | start k _ _ _ => cases k <;> simp only [CShape] at hcs
      | _ => simp only [CShape] at hcs)
    split
    · next hj =>
      refine ⟨by omega, ?_, fun h => by rw [show rank (s'.w j) = rank (s.w j) by omega]⟩
      split
      · rintro rfl; have := rank_pgo hs; omega
      · intro h; exact absurd h ho1
    · next hj => simp only [hj, false_and, if_false, Nat.le_refl, true_and, implies_true, and_true]; intro h; exact absurd h ho1

theorem own_dead {s s' : St} {ev : List Ev} {a : Act} (hs : TP.step s a = some (s', ev)) {i : Rid} (hw : s.own i ≠ .dead) :
    s'.own i ≠ .dead ∨ ∃ u, a = .go u ∧ s.pc u = .on .destroy .dDrain := by
  have key : ∀ j o, o ≠ Own.dead → upd s.own j o i ≠ .dead := by
    intro j o ho
    by_cases e : i = j
    · subst e; rw [upd_same]; exact ho
    · rw [upd_ne _ _ e]; exact hw
  cases a with
  | call u c =>
    left
    simp only [TP.step] at hs
    split at hs
    · simp only [Option.some.injEq, Prod.mk.injEq] at hs; obtain ⟨rfl, _⟩ := hs; exact hw
    · simp at hs
  | expire u =>
    left
    simp only [TP.step] at hs
    split at hs
    · split at hs
      all_goals (try split at hs) <;> simp only [Option.some.injEq, Prod.mk.injEq, reduceCtorEq] at hs
      all_goals (obtain ⟨rfl, _⟩ := hs; first | exact hw | exact key _ _ (by simp))
    · simp at hs
  | throw j =>
    left
    simp only [TP.step] at hs
    split at hs <;> simp only [Option.some.injEq, Prod.mk.injEq, reduceCtorEq] at hs
    obtain ⟨rfl, _⟩ := hs; exact hw
  | pgo j =>
    left
    simp only [TP.step] at hs
    split at hs <;> (try split at hs) <;> simp only [Option.some.injEq, Prod.mk.injEq, reduceCtorEq] at hs <;>
      (obtain ⟨rfl, _⟩ := hs; first | exact hw | exact key _ _ (by simp))
  | go u =>
    cases hp : s.pc u with
    | idle => simp [TP.step, hp] at hs
    | on c q =>
      simp only [TP.step, hp] at hs
      split at hs
      all_goals first
        | exact Or.inr ⟨u, rfl, hp⟩
        | (left; (repeat' split at hs) <;> simp only [Option.some.injEq, Prod.mk.injEq, reduceCtorEq] at hs <;>
            (obtain ⟨rfl, _⟩ := hs; first | exact hw | (refine key _ _ ?_; simp; done) | (rename Option Gid => g; cases g <;> exact key _ _ (by simp [toOwn]))))

/-- No thread is destroyed before all have been waited for. -/
theorem nodead {n : Nat} {d : Int} {s : St} {tr : List Ev} (h : Reach TP.step (TP.init n d) s tr) {t : Tid} {j : Rid} (h0 : s.pc t = .on .destroy (.dWait j)) :
    ∀ i, i < n → s.own i ≠ .dead := by
  induction h generalizing j with
  | init => simp [TP.init] at h0
  | @step s tr a s' ev h1 hs ih =>
    have I := Inv.reach h1
    intro i hi
    have hold : s.own i ≠ .dead := by
      by_cases hd : s.dying = none
      · exact I.st.dd hd i hi
      · by_cases hc : ∃ c, a = .call t c
        · obtain ⟨c, rfl⟩ := hc; simp [TP.step, hd] at hs
        cases hp : s.pc t with
        | idle =>
          rw [pc_other hs (by rintro rfl; simp [TP.step, hp] at hs) (by rintro rfl; simp [TP.step, hp] at hs) (fun c h => hc ⟨c, h⟩), hp] at h0; simp at h0
        | on c q =>
          have hst := I.stay hs hp
          rw [h0] at hst
          have hc : c = .destroy := by
            rcases hst with ⟨q', e⟩ | ⟨o, rfl, rfl⟩
            · simp at e; exact e.1.symm
            · exfalso
              by_cases hg : a = .go t
              · subst hg
                cases c with
                | start k tm g p => cases k <;> simp only [TP.step, hp, Option.some.injEq, Prod.mk.injEq] at hs <;> (obtain ⟨rfl, _⟩ := hs; simp [upd_same] at h0)
                | _ => simp only [TP.step, hp, Option.some.injEq, Prod.mk.injEq] at hs; obtain ⟨rfl, _⟩ := hs; simp [upd_same] at h0
              · rw [pc_other hs hg (by rintro rfl; simp [TP.step, hp] at hs) (fun c h => hc ⟨c, h⟩), hp] at h0; simp at h0
          subst hc
          cases q with
          | dWait j' => exact ih hp i hi
          | dDrain =>
            exfalso
            have := I.drain_alone hs hp; subst this
            simp only [TP.step, hp] at hs
            split at hs
            · split at hs <;> simp only [Option.some.injEq, Prod.mk.injEq, reduceCtorEq] at hs
              obtain ⟨rfl, _⟩ := hs; simp only [St.wAt, St.ownAt] at h0; rw [hp] at h0; simp at h0
            · simp only [Option.some.injEq, Prod.mk.injEq] at hs; obtain ⟨rfl, _⟩ := hs; simp [St.at, upd_same] at h0
          | ret o =>
            exfalso
            by_cases hg : a = .go t
            · subst hg; simp only [TP.step, hp, Option.some.injEq, Prod.mk.injEq] at hs; obtain ⟨rfl, _⟩ := hs; simp [upd_same] at h0
            · rw [pc_other hs hg (by rintro rfl; simp [TP.step, hp] at hs) (fun c h => hc ⟨c, h⟩), hp] at h0; simp at h0
          | _ => have hcs := I.st.cs t; rw [hp] at hcs; simp only [CShape] at hcs
    rcases own_dead hs hold with h | ⟨u, rfl, hu⟩
    · exact h
    · exfalso
      by_cases e : t = u
      · subst e
        simp only [TP.step, hu] at hs
        split at hs
        · split at hs <;> simp only [Option.some.injEq, Prod.mk.injEq, reduceCtorEq] at hs
          obtain ⟨rfl, _⟩ := hs; simp only [St.wAt, St.ownAt] at h0; rw [hu] at h0; simp at h0
        · simp only [Option.some.injEq, Prod.mk.injEq] at hs; obtain ⟨rfl, _⟩ := hs; simp [St.at, upd_same] at h0
      · rw [pc_other hs (by simpa using Ne.symm e) (by simp) (by simp), I.st.al u (I.st.dy u _ hu) t e] at h0; simp at h0

theorem Inv.M_en {n : Nat} {d : Int} {s : St} {tr : List Ev} (I : Inv n d s tr) {t : Tid} {c : Call} {q : Pos}
    (h0 : s.pc t = .on c q) (hc : forever c = false)
    (hnd : ∀ j, s.pc t = .on .destroy (.dWait j) → ∀ i, i < n → s.own i ≠ .dead) : TP.step s (help t s) ≠ none := by
  have hcs := I.st.cs t; rw [h0] at hcs
  have S := I.st
  unfold help; rw [h0]
  cases c with
  | start k tm g p =>
    cases k with
    | none => cases q <;> simp only [CShape] at hcs <;> simp [TP.step, h0]
    | some k =>
      cases q <;> simp only [CShape] at hcs <;> simp only []
      case sRecv =>
        simp only [TP.step, h0]
        cases tm <;> simp [forever] at hc ⊢
      case sWait i =>
        split
        · next hr =>
          have hf : s.w i = .finished := by
            rcases rank_zero hr with h | h
            · exact h
            · have R := S.rs i; unfold RShape at R; rw [hcs.2, h] at R; simp [late] at R
          simp [TP.step, h0, hf]
        · next hr => exact S.pgo hr
      case sGo i => simp only [TP.step, h0]; split <;> simp
      all_goals simp [TP.step, h0]
  | wait g tm =>
    cases q <;> simp only [CShape] at hcs <;> simp only []
    case wWait i =>
      have R := S.rs i; unfold RShape at R; rw [hcs.2] at R
      split
      · next hl =>
        have : s.ev i = true := by
          rcases R.1 with ⟨h, _⟩ | ⟨_, h⟩
          · cases hw : s.w i <;> simp [hw, late, busyG] at hl h
          · exact h
        simp [TP.step, h0, this]
      · next hl => refine S.pgo (fun hr => ?_); rcases rank_zero hr with h | h <;> simp [h, late, busyG] at hl R
    case wEnter => simp only [TP.step, h0]; split <;> simp
    all_goals simp [TP.step, h0]
  | release g =>
    cases q <;> simp only [CShape] at hcs <;> simp only []
    case rWait i =>
      have R := S.rs i; unfold RShape at R; rw [hcs.2] at R
      split
      · next hl =>
        have : s.ev i = true := by
          rcases R.1 with ⟨h, _⟩ | ⟨_, h⟩
          · cases hw : s.w i <;> simp [hw, late, busyG] at hl h
          · exact h
        simp [TP.step, h0, this]
      · next hl => refine S.pgo (fun hr => ?_); rcases rank_zero hr with h | h <;> simp [h, late, busyG] at hl R
    case rEnter => simp only [TP.step, h0]; split <;> simp
    case rSend i =>
      have := S.room (S.lt (by rw [hcs.2.1]; simp)) (by rw [hcs.2.1]; simp : s.own i ≠ .free)
      simp [TP.step, h0, this]
    all_goals simp [TP.step, h0]
  | isValid g => cases q <;> simp only [CShape] at hcs <;> simp [TP.step, h0]
  | destroy =>
    cases q <;> simp only [CShape] at hcs <;> simp only []
    case dWait j =>
      split
      · next h => exact S.pgo h.2
      · next h =>
        simp only [TP.step, h0]
        by_cases hj : j < s.n
        · have hr : rank (s.w j) = 0 := by
            apply Classical.byContradiction; intro hr; exact h ⟨hj, hr⟩
          have hf : s.w j = .finished := by
            rcases rank_zero hr with e | e
            · exact e
            · exfalso
              have R := S.rs j; unfold RShape at R
              have : s.own j = .dead := by
                cases ho : s.own j <;> simp [ho, e, late, busyP, busyG] at R
                rfl
              exact hnd j h0 j (by rw [← S.cn]; exact hj) this
          simp [hj, hf]
        · simp [hj]
    case dDrain =>
      simp only [TP.step, h0]
      split
      · next i rest hf =>
        have hi : s.own i = .free := (S.fo i).1 (by rw [hf]; simp)
        have hlt : i < s.n := by rw [S.cn]; exact S.lt (by rw [hi]; simp)
        rcases hcs i hlt with h | h
        · simp [h]
        · have R := S.rs i; unfold RShape at R; rw [hi, h] at R; simp [late] at R
      · simp
    case ret o => simp [TP.step, h0]

end Verif.TP
