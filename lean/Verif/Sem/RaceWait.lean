import Verif.Sem.Race
/-
A third static check for access skeletons: which locks a thread holds while it waits for a condition.  Nothing in this file is about cppelib.
-/
namespace Verif.Race
variable {L V M : Type}

/-- Thread `t` waits for a condition whose lock is `l` (condition_variable::wait). -/
def Waits (s : State L V) (t : Nat) (l : L) : Prop := ∃ k, s.kont t = .reacq l :: k

/-- Inside the blocks on `H`: waiting for a condition with lock `l` while holding `h` must be allowed by `al`; no lock is held while code of the user runs. -/
def waitsOk [DecidableEq L] (al : L → L → Bool) (H : List L) : Prog L V → Bool
  | .skip | .rd _ | .wr _ | .brk | .ret => true
  | .user => H.isEmpty
  | .wait l => H.all (fun h => decide (h = l) || al h l)
  | .seq p q => waitsOk al H p && waitsOk al H q
  | .alt p q => waitsOk al H p && waitsOk al H q
  | .loop p => waitsOk al H p
  | .scope l p => waitsOk al (l :: H) p
  | .call p => waitsOk al H p

def okW [DecidableEq L] (al : L → L → Bool) : List (Frame L V) → Prop
  | [] => True
  | .run p :: k => waitsOk al (held k) p = true ∧ okW al k
  | .again p :: k => waitsOk al (held k) p = true ∧ okW al k
  | .reacq l :: k => (∀ h ∈ held k, h = l ∨ al h l = true) ∧ okW al k
  | .unlock _ :: k => okW al k
  | .fin :: k => okW al k

variable [DecidableEq L] {api : M → Prog L V} {recu : L → Bool} {s s' : State L V} {al : L → L → Bool}

theorem okW.tail {f : Frame L V} {k : List (Frame L V)} (h : okW al (f :: k)) : okW al k := by
  cases f with
  | run p => exact h.2
  | again p => exact h.2
  | reacq l => exact h.2
  | unlock l => exact h
  | fin => exact h

theorem okW_ex {t : Nat} {k : List (Frame L V)} (h : ∀ u, okW al (s.kont u)) (hk : okW al k) (u : Nat) : okW al (put s.kont t k u) := by
  simp only [put]; split
  · exact hk
  · exact h u

theorem okW_leave {t : Nat} {b : Bool} {k : List (Frame L V)} (h : ∀ u, okW al (s.kont u)) (hk : okW al k) (hs : leave s t b k = some s') (u : Nat) :
    okW al (s'.kont u) := by
  have g : ∀ H : List L, waitsOk al H (if b then Prog.ret else Prog.brk : Prog L V) = true := by intro H; cases b <;> rfl
  cases k with
  | nil => simp only [Race.leave, Option.some.injEq] at hs; subst hs; exact okW_ex h (k := []) trivial u
  | cons f k =>
    have ht := hk.tail
    cases f with
    | run q => simp only [Race.leave, Option.some.injEq] at hs; subst hs; exact okW_ex h (k := .run _ :: k) ⟨g _, ht⟩ u
    | reacq l => simp only [Race.leave, Option.some.injEq] at hs; subst hs; exact okW_ex h (k := .run _ :: k) ⟨g _, ht⟩ u
    | unlock l => simp only [Race.leave, Option.some.injEq] at hs; subst hs; exact okW_ex h (k := .run _ :: k) ⟨g _, ht⟩ u
    | again q =>
      simp only [Race.leave, Option.some.injEq] at hs; subst hs
      cases b
      · exact okW_ex h ht u
      · exact okW_ex h (k := .run .ret :: k) ⟨rfl, ht⟩ u
    | fin => simp only [Race.leave, Option.some.injEq] at hs; subst hs; exact okW_ex h ht u

theorem okW_step (hapi : ∀ m, waitsOk al [] (api m) = true) (h : ∀ u, okW al (s.kont u)) {t : Nat} {c : Choice M}
    (hs : stepT api recu s t c = some s') (u : Nat) : okW al (s'.kont u) := by
  have hok := h t
  simp only [stepT] at hs
  split at hs
  · simp at hs
  · next p k he =>
    rw [he] at hok
    obtain ⟨hp, hk⟩ := hok
    cases p with
    | skip => simp only [Option.some.injEq] at hs; subst hs; exact okW_ex h hk u
    | rd v => simp only [Option.some.injEq] at hs; subst hs; exact okW_ex h hk u
    | wr v => simp only [Option.some.injEq] at hs; subst hs; exact okW_ex h hk u
    | user =>
      simp only [waitsOk, List.isEmpty_iff] at hp
      cases c with
      | call m =>
        simp only [Option.some.injEq] at hs; subst hs
        refine okW_ex h (k := .run (api m) :: .fin :: .run .user :: k) ⟨?_, ?_, hk⟩ u
        · simp only [held, hp]; exact hapi m
        · simp only [hp]; rfl
      | _ => simp only [Option.some.injEq] at hs; subst hs; exact okW_ex h hk u
    | wait l =>
      simp only [Option.ite_none_right_eq_some, Option.some.injEq] at hs
      obtain ⟨ho, rfl⟩ := hs
      simp only [waitsOk, List.all_eq_true, Bool.or_eq_true, decide_eq_true_eq] at hp
      exact okW_ex h (k := .reacq l :: k) ⟨hp, hk⟩ u
    | seq p q =>
      simp only [Option.some.injEq] at hs; subst hs
      simp only [waitsOk, Bool.and_eq_true] at hp
      exact okW_ex h (k := .run p :: .run q :: k) ⟨hp.1, hp.2, hk⟩ u
    | alt p q =>
      simp only [waitsOk, Bool.and_eq_true] at hp
      cases c <;> (simp only [Option.some.injEq] at hs; subst hs)
      case left => exact okW_ex h (k := .run p :: k) ⟨hp.1, hk⟩ u
      all_goals exact okW_ex h (k := .run q :: k) ⟨hp.2, hk⟩ u
    | loop p => simp only [Option.some.injEq] at hs; subst hs; exact okW_ex h (k := .run p :: .again p :: k) ⟨hp, hp, hk⟩ u
    | brk => exact okW_leave h hk hs u
    | ret => exact okW_leave h hk hs u
    | scope l p =>
      simp only [Option.ite_none_right_eq_some, Option.some.injEq] at hs
      obtain ⟨ho, rfl⟩ := hs
      exact okW_ex h (k := .run p :: .unlock l :: k) ⟨hp, hk⟩ u
    | call p => simp only [Option.some.injEq] at hs; subst hs; exact okW_ex h (k := .run p :: .fin :: k) ⟨hp, hk⟩ u
  · next l k he =>
    rw [he] at hok
    simp only [Option.some.injEq] at hs; subst hs
    exact okW_ex h (k := k) hok u
  · next p k he =>
    rw [he] at hok
    simp only [Option.some.injEq] at hs; subst hs
    exact okW_ex h (k := .run p :: .again p :: k) ⟨hok.1, hok⟩ u
  · next k he =>
    rw [he] at hok
    simp only [Option.some.injEq] at hs; subst hs
    exact okW_ex h (k := k) hok u
  · next l k he =>
    rw [he] at hok
    simp only [Option.ite_none_right_eq_some, Option.some.injEq] at hs
    obtain ⟨ho, rfl⟩ := hs
    exact okW_ex h hok.2 u

theorem okW_reach (hapi : ∀ m, waitsOk al [] (api m) = true) (h : Reachable api recu s) (u : Nat) : okW al (s.kont u) := by
  refine h.ind (P := fun s => ∀ u, okW al (s.kont u)) (fun _ => ⟨rfl, trivial⟩) (fun _ _ _ _ hi hs => okW_step hapi hi hs) u

/-- **Check 3.**  A thread that waits for a condition holds only locks that `al` allows. -/
theorem waits_holds {rank : L → Nat} (ho : ∀ m, ordered rank recu [] (api m) = true) (hapi : ∀ m, waitsOk al [] (api m) = true) (h : Reachable api recu s) {t : Nat} {l h' : L}
    (hw : Waits s t l) (hh : s.own h' = some t) : al h' l = true := by
  obtain ⟨k, hk⟩ := hw
  have h1 := ((own_reach ho h).own t h').mp hh
  have h2 := okW_reach hapi h t
  rw [hk] at h1 h2
  simp only [now, List.mem_filter, decide_eq_true_eq] at h1
  exact (h2.1 h' h1.1).resolve_left h1.2

end Verif.Race
