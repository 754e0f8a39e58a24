import Verif.Model.Main
/-
Property C58: the main functions of threads and timers, for every Runnable, handler and stop().
-/
namespace Verif.Props.Main
open Verif Main
variable {H U : Type}

/-! #### Specification -/

/-- The message that goes with an exception. -/
def message : Thrown → String
  | .std what => what
  | .failure m => m
  | .other => "Unknown Exception"

/-- The handler to call: the object's own if set, else the default one if set, else none. -/
def chosen (own dflt : Option H) : Option H := match own with
  | some h => some h
  | none => dflt

/-! #### C58 -/

theorem handle_eq (E : Env H U) (msg : String) (w : W H U) : handleException E msg w = ((handleTry E msg w).1, none) := by
  unfold handleException tryC
  cases h : handleTry E msg w with
  | mk s o => cases o <;> rfl

/-- Nothing escapes, whatever run(), stop() and the handlers do. -/
theorem C58_returns (E : Env H U) (w : W H U) : (main E w).2 = none := by
  have hh : ∀ msg w, (handleException E msg w).2 = none := by
    intro msg w; rw [handle_eq]
  unfold main tryC
  cases hr : E.runnable with
  | none => rfl
  | some r =>
    simp only
    split
    · next e _ => cases e <;> exact hh _ _
    · next h1 =>
      cases he : ext Ev.run r w with
      | mk s o => cases o with
        | none => rfl
        | some e => exact absurd he (h1 s e)

/-- run() is called once; if it ends normally, nothing else happens. -/
theorem C58_normal (E : Env H U) (w : W H U) {r : Ext H U} (hr : E.runnable = some r) {own dflt u}
    (h : r w.own w.dflt w.user = (own, dflt, u, none)) : main E w = (⟨own, dflt, u, w.log ++ [.run]⟩, none) := by
  simp [main, tryC, hr, ext, h]

/-- Threads: if run() throws, exactly one handler is called, the one that is set at that moment, with this thread and the
exception's message; whether the handler throws makes no difference. -/
theorem C58_thread (E : Env H U) (hk : E.kind = .thread) (w : W H U) {r : Ext H U} (hr : E.runnable = some r) {own dflt u e}
    (h : r w.own w.dflt w.user = (own, dflt, u, some e)) :
    match chosen own dflt with
    | none => main E w = (⟨own, dflt, u, w.log ++ [.run]⟩, none)
    | some hd =>
      let z := E.handler hd E.self (message e) own dflt u
      main E w = (⟨z.1, z.2.1, z.2.2.1, w.log ++ [.run, .handle hd E.self (message e)]⟩, none) := by
  cases own with
  | some hd =>
    simp only [chosen]
    cases e <;> simp [main, tryC, hr, ext, h, handle_eq, handleTry, hk, seq, skip, message]
  | none =>
    cases dflt with
    | none =>
      simp only [chosen]
      cases e <;> simp [main, tryC, hr, ext, h, handle_eq, handleTry, hk, seq, skip]
    | some hd =>
      simp only [chosen]
      cases e <;> simp [main, tryC, hr, ext, h, handle_eq, handleTry, hk, seq, skip, message]

/-- Timers: if run() throws, the timer is stopped first; then exactly one handler is called, the one that is set at that moment. -/
theorem C58_timer (E : Env H U) (hk : E.kind ≠ .thread) (w : W H U) {r : Ext H U} (hr : E.runnable = some r) {own dflt u e}
    (h : r w.own w.dflt w.user = (own, dflt, u, some e)) {own' dflt' u'} (hs : E.stop own dflt u = (own', dflt', u', none)) :
    match chosen own' dflt' with
    | none => main E w = (⟨own', dflt', u', w.log ++ [.run, .stop]⟩, none)
    | some hd =>
      let z := E.handler hd E.self (message e) own' dflt' u'
      main E w = (⟨z.1, z.2.1, z.2.2.1, w.log ++ [.run, .stop, .handle hd E.self (message e)]⟩, none) := by
  have hk' : E.kind = .oneShot ∨ E.kind = .periodic := by cases hk2 : E.kind <;> simp_all
  cases own' with
  | some hd =>
    simp only [chosen]
    rcases hk' with hk' | hk' <;> cases e <;> simp [main, tryC, hr, ext, h, handle_eq, handleTry, hk', seq, message, hs]
  | none =>
    cases dflt' with
    | none =>
      simp only [chosen]
      rcases hk' with hk' | hk' <;> cases e <;> simp [main, tryC, hr, ext, h, handle_eq, handleTry, hk', seq, hs]
    | some hd =>
      simp only [chosen]
      rcases hk' with hk' | hk' <;> cases e <;> simp [main, tryC, hr, ext, h, handle_eq, handleTry, hk', seq, message, hs]

/-- Timers: if stop() itself throws, no handler is called (and nothing escapes). -/
theorem C58_stop_throws (E : Env H U) (hk : E.kind ≠ .thread) (w : W H U) {r : Ext H U} (hr : E.runnable = some r) {own dflt u e}
    (h : r w.own w.dflt w.user = (own, dflt, u, some e)) {own' dflt' u' e'} (hs : E.stop own dflt u = (own', dflt', u', some e')) :
    main E w = (⟨own', dflt', u', w.log ++ [.run, .stop]⟩, none) := by
  have hk' : E.kind = .oneShot ∨ E.kind = .periodic := by cases hk2 : E.kind <;> simp_all
  rcases hk' with hk' | hk' <;> cases e <;> simp [main, tryC, hr, ext, h, handle_eq, handleTry, hk', seq, hs]

/-- Without a Runnable nothing happens. -/
theorem C58_null (E : Env H U) (w : W H U) (hr : E.runnable = none) : main E w = (w, none) := by
  simp [main, tryC, hr, skip]

/-! The hypotheses are met: a timer whose run() installs handler 7 and throws a std::exception; the handler throws too. -/
def demo : Env Nat Nat := ⟨.periodic, 3, some (fun _ d u => (some 7, d, u + 1, some (.std "boom"))), fun o d u => (o, d, u + 10, none),
  fun _ _ _ => fun o d u => (o, d, u + 100, some .other)⟩
example : main demo ⟨none, some 5, 0, []⟩ = (⟨some 7, some 5, 111, [.run, .stop, .handle 7 3 "boom"]⟩, none) := rfl
example : demo.kind ≠ .thread ∧ demo.runnable.isSome ∧ (demo.stop (some 7) (some 5) 1).2.2.2 = none := by decide

end Verif.Props.Main
