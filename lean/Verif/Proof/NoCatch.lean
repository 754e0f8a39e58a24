import Verif.Sem.Mem
/- No modelled container code catches exceptions: normal return means no element operation threw. -/
namespace Verif
open Cmd
variable {V α β : Type} {E : Env V}

/-- On normal return none of the element operations performed threw; an element exception that
escapes comes from the last one performed. -/
def NoCatch (E : Env V) (m : Cmd (St V) α) : Prop := ∀ s,
  match m s with
  | .ok _ s' => s.cnt ≤ s'.cnt ∧ ∀ k, s.cnt ≤ k → k < s'.cnt → E.thr k = false
  | .exn e s' => s.cnt ≤ s'.cnt ∧ (e = .elemThrow → s.cnt < s'.cnt ∧ E.thr (s'.cnt - 1) = true ∧
      ∀ k, s.cnt ≤ k → k + 1 < s'.cnt → E.thr k = false)
      ∧ (e ≠ .elemThrow → ∀ k, s.cnt ≤ k → k < s'.cnt → E.thr k = false)
  | .ub _ => True
  | .diverge => True

theorem nc_pure (a : α) : NoCatch E (pure a : Cmd (St V) α) := by
  intro s; show _ ∧ _; exact ⟨Nat.le_refl _, fun k h1 h2 => absurd h1 (by omega)⟩
theorem nc_gets (f : St V → α) : NoCatch E (gets f) := by
  intro s; show _ ∧ _; exact ⟨Nat.le_refl _, fun k h1 h2 => absurd h1 (by omega)⟩
theorem nc_modify (f : St V → St V) (hf : ∀ s, (f s).cnt = s.cnt) : NoCatch E (modify f) := by
  intro s; show _ ∧ _; rw [hf]; exact ⟨Nat.le_refl _, fun k h1 h2 => absurd h1 (by omega)⟩
theorem nc_throw (e : Exn) (he : e ≠ .elemThrow) : NoCatch E (throw e : Cmd (St V) α) := by
  intro s; show _ ∧ _ ∧ _; exact ⟨Nat.le_refl _, fun h => absurd h he, fun _ k h1 h2 => absurd h1 (by omega)⟩
theorem nc_fault (f : Fault) : NoCatch E (fault f : Cmd (St V) α) := fun _ => trivial
theorem nc_ite {c : Prop} [Decidable c] {m n : Cmd (St V) α} (hm : NoCatch E m) (hn : NoCatch E n) :
    NoCatch E (if c then m else n) := by split <;> assumption
theorem nc_bind {m : Cmd (St V) β} {f : β → Cmd (St V) α} (hm : NoCatch E m) (hf : ∀ b, NoCatch E (f b)) :
    NoCatch E (m >>= f) := by
  intro s
  have h1 := hm s
  have hb : (m >>= f) s = (match m s with
    | .ok a s' => f a s'
    | .exn e s' => .exn e s'
    | .ub x => .ub x
    | .diverge => .diverge) := by
    show Cmd.bind m f s = _
    unfold Cmd.bind; cases m s <;> rfl
  rw [hb]
  cases hms : m s with
  | ok b s1 =>
    rw [hms] at h1
    have h2 := hf b s1
    dsimp only at h1 h2 ⊢
    cases hfs : f b s1 with
    | ok a s2 =>
      rw [hfs] at h2
      dsimp only at h2 ⊢
      refine ⟨by omega, fun k h3 h4 => ?_⟩
      by_cases hk : k < s1.cnt
      · exact h1.2 k h3 hk
      · exact h2.2 k (by omega) h4
    | exn e s2 =>
      rw [hfs] at h2
      dsimp only at h2 ⊢
      refine ⟨by omega, fun he => ⟨by have := (h2.2.1 he).1; omega, (h2.2.1 he).2.1, fun k h3 h4 => ?_⟩, fun he k h3 h4 => ?_⟩
      · by_cases hk : k < s1.cnt
        · exact h1.2 k h3 hk
        · exact (h2.2.1 he).2.2 k (by omega) h4
      · by_cases hk : k < s1.cnt
        · exact h1.2 k h3 hk
        · exact h2.2.2 he k (by omega) h4
    | ub f => trivial
    | diverge => trivial
  | exn e s1 => rw [hms] at h1; exact h1
  | ub f => trivial
  | diverge => trivial

theorem nc_loop {cond : β → St V → Bool} {body : β → Cmd (St V) β} (hb : ∀ x, NoCatch E (body x)) :
    ∀ fuel x, NoCatch E (loop cond body fuel x) := by
  intro fuel
  induction fuel with
  | zero => intro x s; trivial
  | succ n ih =>
    intro x s
    unfold loop
    by_cases hc : cond x s = true
    · simp only [hc, if_true]; exact nc_bind (hb x) (fun y => ih y) s
    · simp only [hc]; exact ⟨Nat.le_refl _, fun k h1 h2 => absurd h1 (by omega)⟩

theorem nc_forIter {ι : Type} [BEq ι] {fuel : Nat} {a b : ι} {next : ι → ι} {body : ι → Cmd (St V) Unit}
    (hb : ∀ i, NoCatch E (body i)) : NoCatch E (forIter fuel a b next body) :=
  nc_bind (nc_loop (fun i => nc_bind (hb i) (fun _ => nc_pure _)) _ _) (fun _ => nc_pure _)
theorem nc_forN {fuel n : Nat} {body : Nat → Cmd (St V) Unit}
    (hb : ∀ i, NoCatch E (body i)) : NoCatch E (forN fuel n body) :=
  nc_bind (nc_loop (fun i => nc_bind (hb i) (fun _ => nc_pure _)) _ _) (fun _ => nc_pure _)

theorem nc_construct (i : Nat) (r : Ref V) : NoCatch E (construct E i r) := by
  intro s
  unfold construct
  by_cases h1 : s.nbuf ≤ i
  · rw [if_pos h1]; trivial
  · rw [if_neg h1]
    cases h2 : s.slot i with
    | some w => trivial
    | none =>
      cases h3 : r.get s with
      | none => trivial
      | some v =>
        dsimp only
        by_cases h4 : E.thr s.cnt = true
        · rw [if_pos h4]
          exact ⟨by simp, fun _ => ⟨by simp, by simpa using h4, fun k h5 h6 => absurd h6 (by simp; omega)⟩, fun h => absurd rfl h⟩
        · rw [if_neg h4]
          refine ⟨by simp, fun k h5 h6 => ?_⟩
          simp only at h6
          have : k = s.cnt := by omega
          subst this; simpa using h4

theorem nc_assignSlot (i : Nat) (r : Ref V) : NoCatch E (assignSlot E i r) := by
  intro s
  unfold assignSlot
  by_cases h1 : s.nbuf ≤ i
  · rw [if_pos h1]; trivial
  · rw [if_neg h1]
    cases h2 : s.slot i with
    | none => trivial
    | some w =>
      cases h3 : r.get s with
      | none => trivial
      | some v =>
        dsimp only
        by_cases h4 : E.thr s.cnt = true
        · rw [if_pos h4]
          exact ⟨by simp, fun _ => ⟨by simp, by simpa using h4, fun k h5 h6 => absurd h6 (by simp; omega)⟩, fun h => absurd rfl h⟩
        · rw [if_neg h4]
          refine ⟨by simp, fun k h5 h6 => ?_⟩
          simp only at h6
          have : k = s.cnt := by omega
          subst this; simpa using h4

theorem nc_destroySlot (i : Nat) : NoCatch E (destroySlot (V := V) i) := by
  intro s
  unfold destroySlot
  by_cases h1 : s.nbuf ≤ i
  · rw [if_pos h1]; trivial
  · rw [if_neg h1]
    cases h2 : s.slot i with
    | none => trivial
    | some w => exact ⟨Nat.le_refl _, fun k h1 h2 => absurd h1 (by simp at h2; omega)⟩

theorem nc_readSlot (i : Nat) : NoCatch E (readSlot (V := V) i) := by
  intro s
  unfold readSlot
  by_cases h1 : s.nbuf ≤ i
  · rw [if_pos h1]; trivial
  · rw [if_neg h1]
    cases h2 : s.slot i with
    | none => trivial
    | some w => exact ⟨Nat.le_refl _, fun k h1 h2 => absurd h1 (by omega)⟩

theorem nc_dassert (c : St V → Bool) : NoCatch E (dassert E c) := by
  intro s
  unfold dassert
  by_cases h : (E.dbg && !c s) = true
  · rw [if_pos h]
    exact ⟨Nat.le_refl _, fun h => by (cases h), fun _ k h1 h2 => absurd h1 (by omega)⟩
  · rw [if_neg h]
    exact ⟨Nat.le_refl _, fun k h1 h2 => absurd h1 (by omega)⟩

theorem nc_srcRead (src : List V) (j : Nat) : NoCatch E (srcRead src j) := by
  unfold srcRead
  cases src[j]? with
  | none => exact nc_fault _
  | some v => exact nc_pure _

/-- Compositional proof search for `NoCatch`. -/
macro "nocatch" : tactic => `(tactic| repeat' (with_reducible first
  | exact nc_pure _ | exact nc_gets _ | exact nc_modify _ (fun _ => rfl) | exact nc_throw _ (by decide) | exact nc_fault _
  | exact nc_construct _ _ | exact nc_assignSlot _ _ | exact nc_destroySlot _ | exact nc_readSlot _ | exact nc_dassert _
  | exact nc_srcRead _ _ | assumption
  | refine nc_ite ?_ ?_ | refine nc_bind ?_ (fun _ => ?_) | refine nc_forIter (fun _ => ?_) | refine nc_forN (fun _ => ?_)
  | refine nc_loop (fun _ => ?_) _ _))

end Verif
