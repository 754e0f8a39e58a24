/-
Specification of resource bookkeeping, independent of any cppelib code: a program leaves a log of what it acquired, failed to
acquire, used and released.  `parent r = some p` says that `r` lives inside / on `p` (a block of a pool, an object in a block,
a thread running an object).
-/
namespace Verif.Res
variable {R : Type} [DecidableEq R]

inductive Ev (R : Type) where
  | acq (r : R)    -- obtained
  | fail (r : R)   -- asked for, not obtained
  | use (r : R)    -- accessed
  | rel (r : R)    -- given back
  deriving DecidableEq, Repr

/-- What is held after one more event. -/
def Ev.apply (L : R → Bool) : Ev R → R → Bool
  | .acq a, r => if r = a then true else L r
  | .rel a, r => if r = a then false else L r
  | .fail _, r => L r
  | .use _, r => L r

/-- What is held after the log. -/
def live (log : List (Ev R)) : R → Bool := log.foldl Ev.apply (fun _ => false)

/-- The event is allowed when `L` is held: what is obtained was not held and what it lives on is; what is used is held;
what is given back is held and nothing that lives on it is held any more. -/
def Ev.allowed (parent : R → Option R) (L : R → Bool) : Ev R → Prop
  | .acq r => L r = false ∧ ∀ p, parent r = some p → L p = true
  | .fail r => ∀ p, parent r = some p → L p = true
  | .use r => L r = true
  | .rel r => L r = true ∧ ∀ c, parent c = some r → L c = false

/-- Every event of the log was allowed when it happened.  In particular nothing is released twice. -/
def Disciplined (parent : R → Option R) (log : List (Ev R)) : Prop :=
  ∀ pre e post, log = pre ++ e :: post → e.allowed parent (live pre)

theorem live_snoc (log : List (Ev R)) (e : Ev R) : live (log ++ [e]) = e.apply (live log) := by simp [live]

theorem disciplined_nil (parent : R → Option R) : Disciplined parent [] := by
  intro pre e post h; cases pre <;> simp at h

theorem Disciplined.snoc {parent : R → Option R} {log : List (Ev R)} (h : Disciplined parent log) {e : Ev R} (he : e.allowed parent (live log)) :
    Disciplined parent (log ++ [e]) := by
  intro pre e' post heq
  rcases List.eq_nil_or_concat post with rfl | ⟨l, x, rfl⟩
  · have := List.append_inj' heq (by simp)
    obtain ⟨rfl, h2⟩ := this
    simp only [List.cons.injEq, and_true] at h2
    subst h2; exact he
  · have h2 : log ++ [e] = (pre ++ e' :: l) ++ [x] := by simpa using heq
    have := List.append_inj' h2 (by simp)
    exact h pre e' l this.1

end Verif.Res
