import Verif.Model.History
namespace Verif
open Spec
variable {σ V : Type} {exec : Op V → Cmd σ (Ret V)} {cap : Nat}

/-- If every call simulates the list operation, so does every history. -/
theorem history_refines {Rep : List V → σ → Prop} {Good : Op V → Prop}
    (hstep : ∀ xs s o ys r, Rep xs s → Good o → apply cap xs o = some (ys, r) →
      (∃ ret s', exec o s = .ok ret s' ∧ r = .ret ret ∧ Rep ys s') ∨
      (∃ e s', exec o s = .exn e s' ∧ r = .threw e ∧ Rep ys s'))
    (os : List (Op V)) : ∀ xs s zs rs, Rep xs s → (∀ o ∈ os, Good o) → applyAll cap xs os = some (zs, rs) →
      ∃ s', history exec s os = some (s', rs) ∧ Rep zs s' := by
  induction os with
  | nil =>
    intro xs s zs rs h _ ha
    simp only [applyAll, Option.some.injEq, Prod.mk.injEq] at ha
    obtain ⟨rfl, rfl⟩ := ha
    exact ⟨s, rfl, h⟩
  | cons o os ih =>
    intro xs s zs rs h hg ha
    simp only [applyAll] at ha
    cases hap : apply cap xs o with
    | none => simp [hap] at ha
    | some p =>
      obtain ⟨ys, r⟩ := p
      cases hall : applyAll cap ys os with
      | none => simp [hap, hall] at ha
      | some q =>
        obtain ⟨zs', rs'⟩ := q
        simp only [hap, hall, Option.bind_eq_bind, Option.bind_some, Option.pure_def, Option.some.injEq, Prod.mk.injEq] at ha
        obtain ⟨rfl, rfl⟩ := ha
        rcases hstep xs s o ys r h (hg o (by simp)) hap with ⟨ret, s', he, rfl, hr⟩ | ⟨e, s', he, rfl, hr⟩
        · obtain ⟨s'', h1, h2⟩ := ih ys s' zs' rs' hr (fun o ho => hg o (by simp [ho])) hall
          exact ⟨s'', by simp [history, he, h1], h2⟩
        · obtain ⟨s'', h1, h2⟩ := ih ys s' zs' rs' hr (fun o ho => hg o (by simp [ho])) hall
          exact ⟨s'', by simp [history, he, h1], h2⟩

end Verif
