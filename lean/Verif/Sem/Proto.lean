import Verif.Sem.Lts
/-
Calls in a trace: every call of a thread is a `call`, later one effect (`lin`), later a `ret` with the result of that effect.
Nothing in this file is about cppelib.
-/
namespace Verif.Proto
variable {ε T C R : Type} [DecidableEq T] [DecidableEq C] [DecidableEq R]

inductive PEv (T C R : Type) where
  | call (t : T) (c : C)
  | lin (t : T) (c : C) (r : R)
  | ret (t : T) (c : C) (r : R)
  deriving DecidableEq, Repr

/-- Where a thread is, judging by the trace; `bad`: not a sequence of (call, effect, return with that effect's result). -/
inductive Phase (C R : Type) where
  | out | called (c : C) | done (c : C) (r : R) | bad
  deriving DecidableEq, Repr

def Phase.pnext (t : T) (ph : Phase C R) : PEv T C R → Phase C R
  | .call u c => if u = t then (if ph = .out then .called c else .bad) else ph
  | .lin u c r => if u = t then (if ph = .called c then .done c r else .bad) else ph
  | .ret u c r => if u = t then (if ph = .done c r then .out else .bad) else ph

/-- `view e`: the event as a call, effect or return, if it is one. -/
def Phase.next (view : ε → Option (PEv T C R)) (t : T) (ph : Phase C R) (e : ε) : Phase C R :=
  match view e with
  | some p => ph.pnext t p
  | none => ph

def phase (view : ε → Option (PEv T C R)) (t : T) (tr : List ε) : Phase C R := tr.foldl (Phase.next view t) .out

variable {view : ε → Option (PEv T C R)}

theorem phase_app (t : T) (tr ev : List ε) : phase view t (tr ++ ev) = ev.foldl (Phase.next view t) (phase view t tr) := by simp [phase]

/-- The event is not one of another thread. -/
def mine (view : ε → Option (PEv T C R)) (t : T) (e : ε) : Prop := match view e with
  | some (.call u _) | some (.lin u _ _) | some (.ret u _ _) => u = t
  | none => True

theorem phase_other {t u : T} (hne : u ≠ t) {ev : List ε} (h : ∀ e, e ∈ ev → mine view t e) (ph : Phase C R) :
    ev.foldl (Phase.next view u) ph = ph := by
  induction ev generalizing ph with
  | nil => rfl
  | cons e ev ih =>
    have h1 := h e (by simp)
    have : Phase.next view u ph e = ph := by
      unfold mine at h1; unfold Phase.next
      cases hv : view e with
      | none => rfl
      | some p => cases p <;> simp only [hv] at h1 <;> subst h1 <;> simp [Phase.pnext, hne.symm]
    rw [List.foldl_cons, this]
    exact ih (fun e he => h e (by simp [he])) ph

theorem bad_stays (t : T) (b : List ε) : b.foldl (Phase.next view t) .bad = .bad := by
  induction b with
  | nil => rfl
  | cons x b ih =>
    rw [List.foldl_cons, show Phase.next view t .bad x = .bad by
      unfold Phase.next; cases view x with
      | none => rfl
      | some p => cases p <;> simp [Phase.pnext]]
    exact ih

/-- A call or return of `t`. -/
def boundary (view : ε → Option (PEv T C R)) (t : T) (e : ε) : Prop := match view e with
  | some (.call u _) | some (.ret u _ _) => u = t
  | _ => False

/-- What a phase says about the trace. -/
def Says (view : ε → Option (PEv T C R)) (t : T) (tr : List ε) : Phase C R → Prop
  | .called c => ∃ a e b, tr = a ++ e :: b ∧ view e = some (.call t c) ∧ (∀ x, x ∈ b → ¬ boundary view t x)
  | .done c r => ∃ a e b f d, tr = a ++ e :: b ++ f :: d ∧ view e = some (.call t c) ∧ view f = some (.lin t c r) ∧
      (∀ x, x ∈ b ++ d → ¬ boundary view t x)
  | _ => True

theorem Says.stay {t : T} {tr : List ε} {e : ε} {ph : Phase C R} (h : Says view t tr ph) (hb : ¬ boundary view t e) : Says view t (tr ++ [e]) ph := by
  cases ph with
  | called c =>
    obtain ⟨a, x, b, h1, h2, h3⟩ := h
    refine ⟨a, x, b ++ [e], by simp [h1], h2, ?_⟩
    intro y hy; simp only [List.mem_append, List.mem_singleton] at hy
    rcases hy with hy | rfl
    · exact h3 y hy
    · exact hb
  | done c r =>
    obtain ⟨a, x, b, f, d, h1, h2, h3, h4⟩ := h
    refine ⟨a, x, b, f, d ++ [e], by simp [h1], h2, h3, ?_⟩
    intro y hy
    rw [← List.append_assoc, List.mem_append, List.mem_singleton] at hy
    rcases hy with hy | rfl
    · exact h4 y hy
    · exact hb
  | _ => trivial

theorem says_snoc {t : T} {tr : List ε} {e : ε} (h : Says view t tr (phase view t tr)) : Says view t (tr ++ [e]) (phase view t (tr ++ [e])) := by
  rw [phase_app]
  simp only [List.foldl_cons, List.foldl_nil]
  generalize phase view t tr = ph at h ⊢
  cases hv : view e with
  | none => simp only [Phase.next, hv]; exact h.stay (by simp [boundary, hv])
  | some p =>
    simp only [Phase.next, hv]
    cases p with
    | call u c =>
      simp only [Phase.pnext]
      split
      · next hu =>
        subst hu
        split
        · exact ⟨tr, e, [], rfl, hv, by simp⟩
        · trivial
      · next hu => exact h.stay (by simpa [boundary, hv] using hu)
    | lin u c r =>
      simp only [Phase.pnext]
      split
      · next hu =>
        subst hu
        split
        · next hc =>
          subst hc
          obtain ⟨a, x, b, h1, h2, h3⟩ := h
          exact ⟨a, x, b, e, [], by simp [h1], h2, hv, by simpa using h3⟩
        · trivial
      · exact h.stay (by simp [boundary, hv])
    | ret u c r =>
      simp only [Phase.pnext]
      split
      · split <;> trivial
      · next hu => exact h.stay (by simpa [boundary, hv] using hu)

theorem says (t : T) (tr : List ε) : Says view t tr (phase view t tr) := by
  have key : ∀ n (tr : List ε), tr.length = n → Says view t tr (phase view t tr) := by
    intro n
    induction n with
    | zero => intro tr h; rw [List.length_eq_zero_iff.1 h]; trivial
    | succ n ih =>
      intro tr h
      rcases List.eq_nil_or_concat tr with rfl | ⟨tr, e, rfl⟩
      · simp at h
      · rw [List.concat_eq_append] at h ⊢
        exact says_snoc (ih tr (by simpa using h))
  exact key _ tr rfl

/-- A return is preceded by the call's effect, with the same result, and that by the call; the thread does nothing else in between. -/
theorem ret_split {t : T} {tr : List ε} (hnb : phase view t tr ≠ .bad) {a b : List ε} {e : ε} {c : C} {r : R} (htr : tr = a ++ e :: b)
    (hv : view e = some (.ret t c r)) :
    ∃ a1 ec a2 el a3, a = a1 ++ ec :: a2 ++ el :: a3 ∧ view ec = some (.call t c) ∧ view el = some (.lin t c r) ∧
      ∀ x, x ∈ a2 ++ a3 → ¬ boundary view t x := by
  have h1 : phase view t (a ++ [e]) ≠ .bad := by
    intro hb
    apply hnb
    rw [htr, show a ++ e :: b = (a ++ [e]) ++ b by simp, phase_app, hb]
    exact bad_stays t b
  rw [phase_app] at h1
  simp only [List.foldl_cons, List.foldl_nil, Phase.next, hv, Phase.pnext, if_true] at h1
  have hp : phase view t a = .done c r := by
    apply Classical.byContradiction; intro hn; apply h1; simp [hn]
  have := says (view := view) t a
  rw [hp] at this
  exact this

end Verif.Proto
