import Verif.Proof.ThreadPool
namespace Verif.TP
open Verif
open _root_.Verif.Mtx (Tid)
open _root_.Verif.EvF (Tmo)
open Spec Lts Proto
set_option linter.unusedSectionVars false
set_option linter.unusedSimpArgs false
set_option linter.unusedVariables false

theorem conflict_of {c c' : Call} {g : Gid} {b b' : Bool} (h : uses c = some (g, b)) (h' : uses c' = some (g, b')) (hb : b = true ∨ b' = true) :
    conflict c c' = true := by
  rcases hb with rfl | rfl <;> simp [conflict, h, h']

theorem Inv.step_call {n : Nat} {d : Int} {s s' : St} {tr ev : List Ev} {t : Tid} {c : Call} (I : Inv n d s tr)
    (hs : TP.step s (.call t c) = some (s', ev)) : Inv n d s' (tr ++ ev) := by
  have S := I.st
  simp only [TP.step] at hs
  split at hs
  case isFalse => simp at hs
  rename_i h
  obtain ⟨hid, hgone, hdying, hde, hcl, hfg⟩ := h
  simp only [Option.some.injEq, Prod.mk.injEq] at hs; obtain ⟨rfl, rfl⟩ := hs
  have hc : ∀ j, s.own j ≠ .client t := fun j h => by have := S.ho j t h; rw [hid] at this; simp [hold] at this
  have hr : ∀ j, s.own j ≠ .rel t := fun j h => by have := S.hr j t h; rw [hid] at this; simp [rhold] at this
  have hcl' : ∀ u g c' q b b', s.pc u = .on c' q → uses c' = some (g, b) → uses c = some (g, b') → b = true ∨ b' = true → False := by
    intro u g c' q b b' h1 h2 h3 h4
    have := hcl u ((S.ins u).2 (by rw [h1]; simp))
    rw [h1] at this; simp only [clash] at this
    rw [conflict_of h3 h2 h4.symm] at this; simp at this
  refine ⟨⟨S.cn, S.cd, S.fr, S.fo, S.od, S.rs, ?_, ?_, ?_, ?_, ?_, ?_, ?_, ?_, ?_, ?_, ?_⟩, I.tc.client t rfl ?_ ?_ ?_ ?_⟩
  · intro i u h
    have hu : u ≠ t := by rintro rfl; exact hc i h
    simp only [St.at]; rw [upd_ne _ _ hu]; exact S.ho i u h
  · intro i u h
    have hu : u ≠ t := by rintro rfl; exact hr i h
    simp only [St.at]; rw [upd_ne _ _ hu]; exact S.hr i u h
  · intro u
    by_cases e : u = t
    · subst e
      simp only [St.at]; rw [upd_same]
      cases c with
      | start k tm g p =>
        have : gNone s g := by
          cases g with
          | none => trivial
          | some g => simpa [freshGuard, gNone] using hfg
        cases k <;> cases g <;> simpa [entry, CShape, gNone] using this
      | wait g tm => simp [entry, CShape]
      | release g => simp [entry, CShape]
      | isValid g => simp [entry, CShape]
      | destroy => simp [entry, CShape]
    · simp only [St.at]; rw [upd_ne _ _ e]
      refine (S.cs u).frame rfl ?_ ?_ ?_ ?_ ?_
      · intro j _; exact ⟨rfl, rfl, rfl, rfl, rfl, fun h => h⟩
      · intro j g h _; exact h
      · intro g _; rfl
      · intro j g _ h; exact h
      · intro q h; have := S.dy u q h; rw [hdying] at this; simp at this
  · intro g i h
    rcases S.gs1 g i h with h' | ⟨u, ⟨h1, h2, h3⟩ | h'⟩
    · exact Or.inl h'
    · have hu : u ≠ t := by rintro rfl; exact hr i h2
      exact Or.inr ⟨u, Or.inl ⟨by simp only [St.at]; rw [upd_ne _ _ hu]; exact h1, h2, by simp only [St.at]; rw [upd_ne _ _ hu]; exact h3⟩⟩
    · have hu : u ≠ t := by rintro rfl; rw [hid] at h'; simp at h'
      exact Or.inr ⟨u, Or.inr (by simp only [St.at]; rw [upd_ne _ _ hu]; exact h')⟩
  · intro g i h
    rcases S.gs2 g i h with h' | ⟨u, k, tm, p, h'⟩
    · exact Or.inl h'
    · have hu : u ≠ t := by rintro rfl; rw [hid] at h'; simp at h'
      exact Or.inr ⟨u, k, tm, p, by simp only [St.at]; rw [upd_ne _ _ hu]; exact h'⟩
  · intro x u g hxu hx hu
    simp only [St.at] at hx hu
    by_cases e : x = t
    · subst e
      rw [upd_same] at hx; rw [upd_ne _ _ (Ne.symm hxu)] at hu
      obtain ⟨c1, q1, h1, h2⟩ := hx; simp at h1; obtain ⟨rfl, rfl⟩ := h1
      obtain ⟨c2, q2, b2, h3, h4⟩ := hu
      exact hcl' u g c2 q2 b2 true h3 h4 h2 (Or.inr rfl)
    · rw [upd_ne _ _ e] at hx
      by_cases e' : u = t
      · subst e'
        rw [upd_same] at hu
        obtain ⟨c1, q1, b1, h1, h2⟩ := hu; simp at h1; obtain ⟨rfl, rfl⟩ := h1
        obtain ⟨c2, q2, h3, h4⟩ := hx
        exact hcl' x g c2 q2 true b1 h3 h4 h2 (Or.inl rfl)
      · rw [upd_ne _ _ e'] at hu; exact S.ex x u g hxu hx hu
  · intro u
    simp only [St.at, List.mem_cons]
    by_cases e : u = t
    · subst e; rw [upd_same]; simp
    · rw [upd_ne _ _ e, S.ins u]; simp [e]
  · exact List.nodup_cons.2 ⟨fun h => (S.ins t).1 h hid, S.nodup⟩
  · intro u q h
    simp only [St.at] at h ⊢
    by_cases e : u = t
    · subst e; rw [upd_same] at h; simp at h; simp [h.1]
    · rw [upd_ne _ _ e] at h; have := S.dy u q h; rw [hdying] at this; simp at this
  · intro x hx u hu
    simp only [St.at] at hx ⊢
    by_cases e : c = .destroy
    · simp [e] at hx; subst hx
      rw [upd_ne _ _ hu]
      have := hde e
      exact Classical.byContradiction fun h => by have := (S.ins u).2 h; simp_all
    · simp [e, hdying] at hx
  · intro h j hj h'
    exact S.dd hdying j hj h'
  · intro e he; simp at he; subst he; simp [mine, Proto.mine, view]
  · intro i; exact (absR_same ⟨rfl, rfl, rfl, rfl, rfl, rfl⟩).symm
  · intro g; exact (I.tc.grel g).keep rfl (fun _ _ _ => rfl) (fun _ _ => Iff.rfl) (fun _ _ => Iff.rfl) (Or.inr hr)
  · rw [hid]; cases c <;> simp [Phase.next, view, Phase.pnext, shape, entry]

theorem Inv.step_ret {n : Nat} {d : Int} {s : St} {tr : List Ev} {t : Tid} {c : Call} {o : Out} (I : Inv n d s tr)
    (h0 : s.pc t = .on c (.ret o)) : Inv n d { s with pc := upd s.pc t .idle, inside := s.inside.erase t } (tr ++ [.ret t c o]) := by
  have S := I.st
  have hc : ∀ j, s.own j ≠ .client t := fun j h => by have := S.ho j t h; rw [h0] at this; simp [hold] at this
  have hr : ∀ j, s.own j ≠ .rel t := fun j h => by have := S.hr j t h; rw [h0] at this; simp [rhold] at this
  refine ⟨⟨S.cn, S.cd, S.fr, S.fo, S.od, S.rs, ?_, ?_, ?_, ?_, ?_, ?_, ?_, ?_, ?_, ?_, S.dd⟩, I.tc.client t rfl ?_ ?_ ?_ ?_⟩
  · intro i u h
    have hu : u ≠ t := by rintro rfl; exact hc i h
    simp only []; rw [upd_ne _ _ hu]; exact S.ho i u h
  · intro i u h
    have hu : u ≠ t := by rintro rfl; exact hr i h
    simp only []; rw [upd_ne _ _ hu]; exact S.hr i u h
  · intro u
    simp only []
    by_cases e : u = t
    · subst e; rw [upd_same]; trivial
    · rw [upd_ne _ _ e]
      refine (S.cs u).frame rfl ?_ ?_ ?_ ?_ (S.noDestroy e (by rw [h0]; simp))
      · intro j _; exact ⟨rfl, rfl, rfl, rfl, rfl, fun h => h⟩
      · intro j g h _; exact h
      · intro g _; rfl
      · intro j g _ h; exact h
  · intro g i h
    rcases S.gs1 g i h with h' | ⟨u, ⟨h1, h2, h3⟩ | h'⟩
    · exact Or.inl h'
    · have hu : u ≠ t := by rintro rfl; exact hr i h2
      exact Or.inr ⟨u, Or.inl ⟨by simp only []; rw [upd_ne _ _ hu]; exact h1, h2, by simp only []; rw [upd_ne _ _ hu]; exact h3⟩⟩
    · have hu : u ≠ t := by rintro rfl; rw [h0] at h'; simp at h'
      exact Or.inr ⟨u, Or.inr (by simp only []; rw [upd_ne _ _ hu]; exact h')⟩
  · intro g i h
    rcases S.gs2 g i h with h' | ⟨u, k, tm, p, h'⟩
    · exact Or.inl h'
    · have hu : u ≠ t := by rintro rfl; rw [h0] at h'; simp at h'
      exact Or.inr ⟨u, k, tm, p, by simp only []; rw [upd_ne _ _ hu]; exact h'⟩
  · intro x u g hxu hx hu
    simp only [] at hx hu
    by_cases e : x = t
    · subst e; rw [upd_same] at hx; obtain ⟨_, _, h, _⟩ := hx; simp at h
    · by_cases e' : u = t
      · subst e'; rw [upd_same] at hu; obtain ⟨_, _, _, h, _⟩ := hu; simp at h
      · rw [upd_ne _ _ e] at hx; rw [upd_ne _ _ e'] at hu; exact S.ex x u g hxu hx hu
  · intro u
    simp only []
    by_cases e : u = t
    · subst e; rw [upd_same]; simp [S.nodup.mem_erase_iff]
    · rw [upd_ne _ _ e, S.nodup.mem_erase_iff, S.ins u]; simp [e]
  · exact S.nodup.erase t
  · intro u q h
    simp only [] at h
    by_cases e : u = t
    · subst e; rw [upd_same] at h; simp at h
    · rw [upd_ne _ _ e] at h; exact S.dy u q h
  · intro x hx u hu
    simp only []
    by_cases e : u = t
    · subst e; rw [upd_same]
    · rw [upd_ne _ _ e]; exact S.al x hx u hu
  · intro e he; simp at he; subst he; simp [mine, Proto.mine, view]
  · intro i; exact (absR_same ⟨rfl, rfl, rfl, rfl, rfl, rfl⟩).symm
  · intro g; exact (I.tc.grel g).keep rfl (fun _ _ _ => rfl) (fun _ _ => Iff.rfl) (fun _ _ => Iff.rfl) (Or.inr hr)
  · rw [h0]; simp [Phase.next, view, Phase.pnext, shape]

/-! Lemmas about guards -/

theorem Stat.notUses {n : Nat} {d : Int} {s : St} (S : Stat n d s) {t u : Tid} {c : Call} {q : Pos} {g : Gid} (h0 : s.pc t = .on c q) (hc : uses c = some (g, true))
    (hu : u ≠ t) : ¬ usesG (s.pc u) g := S.ex t u g (Ne.symm hu) ⟨c, q, h0, hc⟩

/-- A call using a guard finds its thread owned by the guard, unless the call is a release that has begun. -/
theorem Stat.guardOwn {n : Nat} {d : Int} {s : St} (S : Stat n d s) {t : Tid} {c : Call} {q : Pos} {g : Gid} {b : Bool} {i : Rid} (h0 : s.pc t = .on c q)
    (hc : uses c = some (g, b)) (hk : keepsG q = true) (hg : s.guard g = some i) : s.own i = .guard g := by
  rcases S.gs1 g i hg with h | ⟨u, h⟩
  · exact h
  · have hw : ∃ q, s.pc u = .on (.release g) q := by
      rcases h with ⟨_, _, h⟩ | h
      · exact h
      · exact ⟨_, h⟩
    obtain ⟨q1, hw⟩ := hw
    have hu : t ≠ u := by
      rintro rfl
      rw [h0] at hw; simp at hw; obtain ⟨rfl, rfl⟩ := hw
      rcases h with ⟨h, _⟩ | h
      · rw [h0] at h; cases q <;> simp [rhold, keepsG] at h hk
      · rw [h0] at h; simp at h; rw [h] at hk; simp [keepsG] at hk
    exact absurd ⟨c, q, b, h0, hc⟩ (S.ex u t g (Ne.symm hu) ⟨_, _, hw, rfl⟩)

/-- Nobody but the caller owns for a guard that is being changed. -/
theorem Stat.guardOf {n : Nat} {d : Int} {s : St} (S : Stat n d s) {t : Tid} {c : Call} {q : Pos} {g : Gid} {j : Rid} (h0 : s.pc t = .on c q)
    (hc : uses c = some (g, true)) (hk : ∀ i, q ≠ .sGuard i) (h : s.own j = .guard g) : s.guard g = some j := by
  rcases S.gs2 g j h with h | ⟨u, k, tm, p, h⟩
  · exact h
  · have hu : u ≠ t := by rintro rfl; rw [h0] at h; simp at h; exact absurd h.2 (hk j)
    exact absurd ⟨_, _, _, h, rfl⟩ (S.notUses h0 hc hu)

theorem GRel.keepg {s s' : St} {g : Gid} {r : GP} (G : GRel s g r)
    (hw : ∀ j, s'.own j = .guard g → early (s'.w j) = early (s.w j))
    (ho : ∀ j, s'.own j = .guard g ↔ s.own j = .guard g)
    (hr : ∀ j, (∃ u q, s'.own j = .rel u ∧ s'.pc u = .on (.release g) q) ↔ (∃ u q, s.own j = .rel u ∧ s.pc u = .on (.release g) q)) : GRel s' g r := by
  refine ⟨?_, ?_, ?_⟩
  · intro j h; rw [G.g1 j ((ho j).1 h), hw j h]
  · intro j u q h h2
    obtain ⟨u', q', h', h2'⟩ := (hr j).1 ⟨u, q, h, h2⟩
    exact G.g2 j u' q' h' h2'
  · intro h1 h2
    refine G.g3 (fun j h => h1 j ((ho j).2 h)) ?_
    intro j u q h h3
    obtain ⟨u', q', h', h2'⟩ := (hr j).2 ⟨u, q, h, h3⟩
    exact h2 j u' q' h' h2'

/-! The steps -/

section
variable {n : Nat} {d : Int} {s : St} {tr : List Ev} {t : Tid}

/-- TP:186 -/
theorem Inv.go_recv {k : Task} {tm : Tmo} {g : Option Gid} {p : Int} {i : Rid} {rest : List Rid} (I : Inv n d s tr)
    (h0 : s.pc t = .on (.start (some k) tm g p) .sRecv) (hf : s.free = i :: rest) :
    Inv n d { (s.at t (.start (some k) tm g p) (.sWait i)).ownAt i (.client t) with free := rest } (tr ++ []) := by
  have S := I.st
  have hoi : s.own i = .free := (S.fo i).1 (by simp [hf])
  have hfr := S.fr; rw [hf] at hfr
  have hnot := (List.nodup_cons.1 hfr).1
  have hrs := S.rs i
  have hcs := S.cs t; rw [h0] at hcs
  have hne : ∀ j, j ≠ i → Same s { (s.at t (.start (some k) tm g p) (.sWait i)).ownAt i (.client t) with free := rest } j := by
    intro j hj; simp [Same, St.at, St.ownAt, upd_ne _ _ hj]
  have hgo : ∀ j g', upd s.own i (.client t) j = .guard g' ↔ s.own j = .guard g' := by
    intro j g'
    by_cases e : j = i
    · subst e; rw [upd_same, hoi]; simp
    · rw [upd_ne _ _ e]
  obtain ⟨a, b⟩ := S.gsame (s' := { (s.at t (.start (some k) tm g p) (.sWait i)).ownAt i (.client t) with free := rest }) t h0 rfl rfl rfl hgo (fun j u h => by
    have : j ≠ i := by rintro rfl; rw [hoi] at h; simp at h
    simp only [St.at, St.ownAt]; rw [upd_ne _ _ this]; exact h)
  refine I.touch (c := .start (some k) tm g p) (q := .sRecv) (q' := .sWait i) t i
    (S.client t i h0 rfl rfl rfl rfl rfl ?_ (fun _ _ _ _ => rfl) (List.nodup_cons.1 hfr).2 ?_ ?_ ?_ ?_ a b) h0 rfl hne ?_ ?_ (by simp) rfl
  · intro j
    by_cases e : j = i
    · subst e
      refine Or.inr ⟨rfl, ?_, ?_, ?_, ?_⟩
      · intro u hu; simp [hoi, St.at, St.ownAt, Ne.symm hu]
      · unfold RShape at hrs ⊢; rw [hoi] at hrs; simpa [St.ownAt, St.at] using hrs
      · intro h; have := S.od j h; rw [hoi] at this; simp at this
      · simp [St.ownAt]
    · exact Or.inl (hne j e)
  · intro j
    simp only [St.at, St.ownAt]
    by_cases e : j = i
    · subst e; rw [upd_same]; simp [hnot]
    · rw [upd_ne _ _ e, ← S.fo j, hf]; simp [e]
  · intro j h
    simp only [St.at, St.ownAt] at h
    by_cases e : j = i
    · subst e; rfl
    · rw [upd_ne _ _ e] at h; have := S.ho j t h; rw [h0] at this; simp [hold] at this
  · intro j h
    simp only [St.at, St.ownAt] at h
    by_cases e : j = i
    · subst e; rw [upd_same] at h; simp at h
    · rw [upd_ne _ _ e] at h; have := S.hr j t h; rw [h0] at this; simp [rhold] at this
  · simp only [CShape] at hcs ⊢
    refine ⟨?_, by simp [St.ownAt]⟩
    cases g <;> simpa [gNone, St.at, St.ownAt] using hcs
  · simp [absR, St.at, St.ownAt]
    have hl : late (s.w i) = true := by unfold RShape at hrs; rw [hoi] at hrs; exact hrs.1
    cases hw : s.w i <;> simp [late, hw] at hl ⊢
  · simp [hoi, St.ownAt]

/-- A start changes the runner it holds. -/
theorem Inv.go_held {k : Task} {tm : Tmo} {g : Option Gid} {p : Int} {i : Rid} {q q' : Pos} (I : Inv n d s tr)
    (h0 : s.pc t = .on (.start (some k) tm g p) q) (hk : keepsG q = true) (hoi : s.own i = .client t) (hwi : s.w i = .finished)
    (hh : hold (.on (.start (some k) tm g p) q') = some i) (task' : Rid → Option Task) (needs' : Rid → Bool) (prio' : Rid → Int)
    (hj : ∀ j, j ≠ i → task' j = s.task j ∧ needs' j = s.needs j ∧ prio' j = s.prio j)
    (hcs : CShape { s.at t (.start (some k) tm g p) q' with task := task', needs := needs', prio := prio' } t (.on (.start (some k) tm g p) q'))
    (hloc : shape (.on (.start (some k) tm g p) q) = shape (.on (.start (some k) tm g p) q')) :
    Inv n d { s.at t (.start (some k) tm g p) q' with task := task', needs := needs', prio := prio' } (tr ++ []) := by
  have S := I.st
  have hrs := S.rs i
  have hne : ∀ j, j ≠ i → Same s { s.at t (.start (some k) tm g p) q' with task := task', needs := needs', prio := prio' } j := by
    intro j h; have := hj j h; simp [Same, St.at, this]
  obtain ⟨a, b⟩ := S.gsame (s' := { s.at t (.start (some k) tm g p) q' with task := task', needs := needs', prio := prio' }) t h0 rfl hk rfl (fun _ _ => Iff.rfl) (fun _ _ h => h)
  refine I.touch (c := .start (some k) tm g p) (q := q) (q' := q') t i
    (S.client t i h0 rfl rfl rfl rfl rfl ?_ (fun _ _ _ _ => rfl) S.fr S.fo ?_ ?_ hcs a b) h0 rfl hne ?_ ?_ (by simp) hloc
  · intro j
    by_cases e : j = i
    · subst e
      refine Or.inr ⟨rfl, ?_, ?_, ?_, ?_⟩
      · intro u hu; simp [hoi, St.at, Ne.symm hu]
      · unfold RShape at hrs ⊢; rw [hoi] at hrs; simpa [St.at, hoi] using hrs
      · intro h; have := S.od j h; rw [hoi] at this; simp at this
      · simp [St.at, hoi]
    · exact Or.inl (hne j e)
  · intro j h
    simp only [St.at] at h
    have h1 := S.ho j t h; have h2 := S.ho i t hoi; rw [h1] at h2; rw [hh, h2]
  · intro j h
    simp only [St.at] at h
    have := S.hr j t h; rw [h0] at this
    cases q <;> simp [rhold, keepsG] at this hk
  · simp [absR, St.at, hwi]
  · simp [hoi, St.at]

/-- TP:249 -/
theorem Inv.go_start {k : Task} {tm : Tmo} {g : Option Gid} {p : Int} {i : Rid} (I : Inv n d s tr)
    (h0 : s.pc t = .on (.start (some k) tm g p) (.sGo i)) :
    Inv n d (((s.at t (.start (some k) tm g p) (.sGuard i)).wAt i .pending).ownAt i (toOwn g)) (tr ++ [.acc t i k g p, .lin t (.start (some k) tm g p) .ok]) := by
  have S := I.st
  have hcs := S.cs t; rw [h0] at hcs
  simp only [CShape] at hcs
  obtain ⟨hgn, hoi, hwi, htk, hnd, hpr⟩ := hcs
  have hrs := S.rs i; unfold RShape at hrs; rw [hoi] at hrs
  have hne : ∀ j, j ≠ i → Same s (((s.at t (.start (some k) tm g p) (.sGuard i)).wAt i .pending).ownAt i (toOwn g)) j := by
    intro j hj; simp [Same, St.at, St.ownAt, St.wAt, upd_ne _ _ hj]
  have hto : ∀ u, toOwn g ≠ .client u ∧ toOwn g ≠ .rel u ∧ toOwn g ≠ .dead ∧ toOwn g ≠ .free := by intro u; cases g <;> simp [toOwn]
  have huse : ∀ γ, g = some γ → uses (.start (some k) tm g p) = some (γ, true) := by rintro γ rfl; rfl
  have hnone : ∀ γ, g = some γ → ∀ j, s.own j ≠ .guard γ := by
    intro γ hg j h
    have := S.guardOf h0 (huse γ hg) (by simp) h
    subst hg; simp only [gNone] at hgn; rw [this] at hgn; simp at hgn
  have hnorel : ∀ γ, g = some γ → ∀ u q, s.pc u ≠ .on (.release γ) q := by
    intro γ hg u q h
    have hu : u ≠ t := by rintro rfl; rw [h0] at h; simp at h
    exact S.notUses h0 (huse γ hg) hu ⟨_, _, _, h, rfl⟩
  refine ⟨S.client t i h0 rfl rfl rfl rfl rfl ?_ (fun _ _ _ _ => rfl) S.fr ?_ ?_ ?_ ?_ ?_ ?_, I.tc.client t rfl ?_ ?_ ?_ ?_⟩
  · intro j
    by_cases e : j = i
    · subst e
      refine Or.inr ⟨rfl, ?_, ?_, ?_, ?_⟩
      · intro u hu
        refine ⟨by simp [hoi, Ne.symm hu], by simp [hoi], by simp [St.ownAt, hto u], by simp [St.ownAt, hto u], ?_⟩
        intro γ h
        have hg : g = some γ := by
          rcases h with h | h
          · rw [hoi] at h; simp at h
          · simp [St.ownAt] at h; cases g <;> simp [toOwn] at h; rw [h]
        exact S.notUses h0 (huse γ hg) hu
      · cases g <;> simp [RShape, St.ownAt, St.wAt, St.at, toOwn, busyP, busyG, hrs.2, hnd, htk]
      · intro h; have := S.od j h; rw [hoi] at this; simp at this
      · intro _; simp [St.ownAt, hto 0]
    · exact Or.inl (hne j e)
  · intro j
    simp only [St.at, St.ownAt, St.wAt]
    by_cases e : j = i
    · subst e; rw [upd_same, S.fo j, hoi]; simp [(hto 0).2.2.2]
    · rw [upd_ne _ _ e]; exact S.fo j
  · intro j h
    simp only [St.at, St.ownAt, St.wAt] at h
    by_cases e : j = i
    · subst e; rw [upd_same] at h; exact absurd h (hto t).1
    · rw [upd_ne _ _ e] at h; have := S.ho j t h; rw [h0] at this; simp [hold] at this; exact absurd this.symm e
  · intro j h
    simp only [St.at, St.ownAt, St.wAt] at h
    by_cases e : j = i
    · subst e; rw [upd_same] at h; exact absurd h (hto t).2.1
    · rw [upd_ne _ _ e] at h; have := S.hr j t h; rw [h0] at this; simp [rhold] at this
  · simp only [CShape]
    cases g <;> simp [gNone, gOwn, St.ownAt, St.at, St.wAt, toOwn]
    simpa [gNone] using hgn
  · intro γ j h
    simp only [St.at, St.ownAt, St.wAt] at h ⊢
    rcases S.gs1 γ j h with h' | ⟨u, ⟨h1, h2, h3⟩ | h'⟩
    · have : j ≠ i := by rintro rfl; rw [hoi] at h'; simp at h'
      left; rw [upd_ne _ _ this]; exact h'
    · have : j ≠ i := by rintro rfl; rw [hoi] at h2; simp at h2
      have hu : u ≠ t := by rintro rfl; rw [h0] at h1; simp [rhold] at h1
      refine Or.inr ⟨u, Or.inl ?_⟩
      rw [upd_ne _ _ this, upd_ne _ _ hu]; exact ⟨h1, h2, h3⟩
    · have hu : u ≠ t := by rintro rfl; rw [h0] at h'; simp at h'
      refine Or.inr ⟨u, Or.inr ?_⟩
      rw [upd_ne _ _ hu]; exact h'
  · intro γ j h
    simp only [St.at, St.ownAt, St.wAt] at h ⊢
    by_cases e : j = i
    · subst e
      rw [upd_same] at h
      refine Or.inr ⟨t, some k, tm, p, ?_⟩
      rw [upd_same]
      cases g <;> simp [toOwn] at h; rw [h]
    · rw [upd_ne _ _ e] at h
      rcases S.gs2 γ j h with h' | ⟨u, k', tm', p', h'⟩
      · exact Or.inl h'
      · have hu : u ≠ t := by rintro rfl; rw [h0] at h'; simp at h'
        exact Or.inr ⟨u, k', tm', p', by rw [upd_ne _ _ hu]; exact h'⟩
  · intro e he; simp at he; rcases he with rfl | rfl <;> simp [mine, Proto.mine, view]
  · intro j
    by_cases e : j = i
    · subst e
      cases g <;> simp [absR, hwi, RP.next, St.ownAt, St.wAt, St.at, htk, hpr, toOwn, gOf]
    · simp [RP.next, Ne.symm e]; exact (absR_same (hne j e)).symm
  · intro γ
    by_cases hg : g = some γ
    · have hfree : gphase γ tr = .free := (I.tc.grel γ).g3 (hnone γ hg) (fun j u q _ => hnorel γ hg u q)
      subst hg
      simp [GP.next, hfree]
      refine ⟨?_, ?_, ?_⟩
      · intro j h
        simp only [St.at, St.ownAt, St.wAt] at h ⊢
        by_cases e : j = i
        · subst e; simp [early]
        · rw [upd_ne _ _ e] at h; exact absurd h (hnone γ rfl j)
      · intro j u q h h2
        simp only [St.at, St.ownAt, St.wAt] at h h2
        by_cases e : u = t
        · subst e; rw [upd_same] at h2; simp at h2
        · rw [upd_ne _ _ e] at h2; exact absurd h2 (hnorel γ rfl u q)
      · intro h; exact absurd (by simp [St.ownAt, toOwn]) (h i)
    · have : [Ev.acc t i k g p, .lin t (.start (some k) tm g p) .ok].foldl (GP.next γ) (gphase γ tr) = gphase γ tr := by
        cases g with
        | none => simp [GP.next]
        | some g' => simp at hg; simp [GP.next, hg]
      rw [this]
      have hto' : toOwn g ≠ .guard γ := by cases g <;> simp [toOwn]; simpa using hg
      refine (I.tc.grel γ).keepg ?_ ?_ ?_
      · intro j h
        simp only [St.at, St.ownAt, St.wAt] at h ⊢
        by_cases e : j = i
        · subst e; rw [upd_same] at h; exact absurd h hto'
        · rw [upd_ne _ _ e]
      · intro j
        simp only [St.at, St.ownAt, St.wAt]
        by_cases e : j = i
        · subst e; rw [upd_same, hoi]; simp [hto']
        · rw [upd_ne _ _ e]
      · intro j
        simp only [St.at, St.ownAt, St.wAt]
        by_cases e : j = i
        · subst e; rw [upd_same, hoi]; simp [fun u => (hto u).2.1]
        · rw [upd_ne _ _ e]
          constructor
          · rintro ⟨u, q, h1, h2⟩
            by_cases e' : u = t
            · subst e'; rw [upd_same] at h2; simp at h2
            · rw [upd_ne _ _ e'] at h2; exact ⟨u, q, h1, h2⟩
          · rintro ⟨u, q, h1, h2⟩
            have e' : u ≠ t := by rintro rfl; rw [h0] at h2; simp at h2
            exact ⟨u, q, h1, by rw [upd_ne _ _ e']; exact h2⟩
  · rw [h0]; simp [Phase.next, view, Phase.pnext, shape]

/-- TP:201-204 -/
theorem Inv.go_guard {k : Task} {tm : Tmo} {g : Option Gid} {p : Int} {i : Rid} (I : Inv n d s tr)
    (h0 : s.pc t = .on (.start (some k) tm g p) (.sGuard i)) :
    Inv n d { s.at t (.start (some k) tm g p) (.ret .ok) with guard := setGuard s.guard g i } (tr ++ []) := by
  have S := I.st
  have hcs := S.cs t; rw [h0] at hcs
  simp only [CShape] at hcs
  obtain ⟨hgn, hgo⟩ := hcs
  have huse : ∀ γ, g = some γ → uses (.start (some k) tm g p) = some (γ, true) := by rintro γ rfl; rfl
  have hgd : ∀ γ, g ≠ some γ → setGuard s.guard g i γ = s.guard γ := by
    intro γ hg; cases g with
    | none => rfl
    | some g' => simp at hg; exact upd_ne _ _ (Ne.symm hg)
  refine ⟨S.client t i h0 rfl rfl rfl rfl rfl (fun j => Or.inl ⟨rfl, rfl, rfl, rfl, rfl, rfl⟩) ?_ S.fr S.fo ?_ ?_ trivial ?_ ?_, I.tc.client t rfl (by simp) ?_ ?_ ?_⟩
  · intro u hu γ hγ
    refine hgd γ ?_
    intro h; exact S.notUses h0 (huse γ h) hu hγ
  · intro j h; have := S.ho j t h; rw [h0] at this; simp [hold] at this
  · intro j h; have := S.hr j t h; rw [h0] at this; simp [rhold] at this
  · intro γ j h
    simp only [St.at] at h ⊢
    by_cases hg : g = some γ
    · subst hg
      simp [setGuard, upd_same] at h; subst h; exact Or.inl hgo
    · rw [hgd γ hg] at h
      rcases S.gs1 γ j h with h' | ⟨u, ⟨h1, h2, h3⟩ | h'⟩
      · exact Or.inl h'
      · have hu : u ≠ t := by rintro rfl; rw [h0] at h1; simp [rhold] at h1
        refine Or.inr ⟨u, Or.inl ?_⟩
        rw [upd_ne _ _ hu]; exact ⟨h1, h2, h3⟩
      · have hu : u ≠ t := by rintro rfl; rw [h0] at h'; simp at h'
        refine Or.inr ⟨u, Or.inr ?_⟩
        rw [upd_ne _ _ hu]; exact h'
  · intro γ j h
    simp only [St.at] at h ⊢
    rcases S.gs2 γ j h with h' | ⟨u, k', tm', p', h'⟩
    · by_cases hg : g = some γ
      · subst hg; simp only [gNone] at hgn; rw [h'] at hgn; simp at hgn
      · left; rw [hgd γ hg]; exact h'
    · by_cases hu : u = t
      · subst hu; rw [h0] at h'; simp at h'
        obtain ⟨⟨_, _, rfl, _⟩, rfl⟩ := h'
        left; simp [setGuard, upd_same]
      · exact Or.inr ⟨u, k', tm', p', by rw [upd_ne _ _ hu]; exact h'⟩
  · intro j; exact (absR_same ⟨rfl, rfl, rfl, rfl, rfl, rfl⟩).symm
  · intro γ; exact (I.tc.grel γ).keep rfl (fun _ _ _ => rfl) (fun _ _ => Iff.rfl) (fun _ _ => Iff.rfl) (Or.inl ⟨_, _, _, h0, rfl⟩)
  · rw [h0]; rfl

/-- TP:314-316, 292 -/
theorem Inv.go_take {g : Gid} {i : Rid} (I : Inv n d s tr) (h0 : s.pc t = .on (.release g) (.rWait i)) (hev : s.ev i = true) :
    Inv n d ((s.at t (.release g) (.rReset i)).ownAt i (.rel t)) (tr ++ []) := by
  have S := I.st
  have hcs := S.cs t; rw [h0] at hcs
  simp only [CShape] at hcs
  obtain ⟨hgi, hoi⟩ := hcs
  have hrs := S.rs i; unfold RShape at hrs; rw [hoi] at hrs; simp [hev] at hrs
  have hlate := hrs.1
  have hearly : early (s.w i) = false := by cases hw : s.w i <;> simp [late, early, hw] at hlate ⊢
  have hne : ∀ j, j ≠ i → Same s ((s.at t (.release g) (.rReset i)).ownAt i (.rel t)) j := by
    intro j hj; simp [Same, St.at, St.ownAt, upd_ne _ _ hj]
  have huniq : ∀ j, s.own j = .guard g → j = i := by
    intro j h; have := S.guardOf h0 rfl (by simp) h; rw [hgi] at this; simp at this; exact this.symm
  refine ⟨S.client t i h0 rfl rfl rfl rfl rfl ?_ (fun _ _ _ _ => rfl) S.fr ?_ ?_ ?_ ?_ ?_ ?_, I.tc.client t rfl (by simp) ?_ ?_ ?_⟩
  · intro j
    by_cases e : j = i
    · subst e
      refine Or.inr ⟨rfl, ?_, ?_, ?_, ?_⟩
      · intro u hu
        refine ⟨by simp [hoi], by simp [hoi], by simp [St.ownAt], by simp [St.ownAt, Ne.symm hu], ?_⟩
        intro γ h
        have hg : γ = g := by
          rcases h with h | h
          · rw [hoi] at h; simp at h; exact h.symm
          · simp [St.ownAt] at h
        subst hg; exact S.notUses h0 rfl hu
      · simp [RShape, St.ownAt, St.at, hlate]
      · intro h; have := S.od j h; rw [hoi] at this; simp at this
      · intro _; simp [St.ownAt]
    · exact Or.inl (hne j e)
  · intro j
    simp only [St.at, St.ownAt]
    by_cases e : j = i
    · subst e; rw [upd_same, S.fo j, hoi]; simp
    · rw [upd_ne _ _ e]; exact S.fo j
  · intro j h
    simp only [St.at, St.ownAt] at h
    by_cases e : j = i
    · subst e; rw [upd_same] at h; simp at h
    · rw [upd_ne _ _ e] at h; have := S.ho j t h; rw [h0] at this; simp [hold] at this
  · intro j h
    simp only [St.at, St.ownAt] at h
    by_cases e : j = i
    · subst e; rfl
    · rw [upd_ne _ _ e] at h; have := S.hr j t h; rw [h0] at this; simp [rhold] at this
  · simp [CShape, St.at, St.ownAt, hgi, hev]
  · intro γ j h
    simp only [St.at, St.ownAt] at h ⊢
    rcases S.gs1 γ j h with h' | ⟨u, ⟨h1, h2, h3⟩ | h'⟩
    · by_cases e : j = i
      · subst e; rw [hoi] at h'; simp at h'; subst h'
        refine Or.inr ⟨t, Or.inl ?_⟩
        rw [upd_same, upd_same]; exact ⟨rfl, rfl, _, rfl⟩
      · left; rw [upd_ne _ _ e]; exact h'
    · have e : j ≠ i := by rintro rfl; rw [hoi] at h2; simp at h2
      have hu : u ≠ t := by rintro rfl; rw [h0] at h1; simp [rhold] at h1
      refine Or.inr ⟨u, Or.inl ?_⟩
      rw [upd_ne _ _ e, upd_ne _ _ hu]; exact ⟨h1, h2, h3⟩
    · have hu : u ≠ t := by rintro rfl; rw [h0] at h'; simp at h'
      refine Or.inr ⟨u, Or.inr ?_⟩
      rw [upd_ne _ _ hu]; exact h'
  · intro γ j h
    simp only [St.at, St.ownAt] at h ⊢
    have e : j ≠ i := by rintro rfl; rw [upd_same] at h; simp at h
    rw [upd_ne _ _ e] at h
    rcases S.gs2 γ j h with h' | ⟨u, k', tm', p', h'⟩
    · exact Or.inl h'
    · have hu : u ≠ t := by rintro rfl; rw [h0] at h'; simp at h'
      exact Or.inr ⟨u, k', tm', p', by rw [upd_ne _ _ hu]; exact h'⟩
  · intro j
    by_cases e : j = i
    · subst e; simp [absR, St.at, St.ownAt]
      cases hw : s.w j <;> simp [late, hw] at hlate ⊢
    · exact (absR_same (hne j e)).symm
  · intro γ
    simp only [List.foldl_nil]
    by_cases hγ : γ = g
    · subst hγ
      have hover : gphase γ tr = .over i := by rw [(I.tc.grel γ).g1 i hoi, hearly]; rfl
      rw [hover]
      refine ⟨?_, ?_, ?_⟩
      · intro j h
        simp only [St.at, St.ownAt] at h
        have e : j ≠ i := by rintro rfl; rw [upd_same] at h; simp at h
        rw [upd_ne _ _ e] at h; exact absurd (huniq j h) e
      · intro j u q h h2
        simp only [St.at, St.ownAt] at h h2
        by_cases e : j = i
        · rw [e]
        · rw [upd_ne _ _ e] at h
          by_cases e' : u = t
          · subst e'; have := S.hr j u h; rw [h0] at this; simp [rhold] at this
          · rw [upd_ne _ _ e'] at h2
            exact absurd ⟨_, _, _, h2, rfl⟩ (S.notUses h0 rfl e')
      · intro _ h; exact absurd (by simp only [St.at, St.ownAt]; rw [upd_same]) (h i t (.rReset i) (by simp [St.ownAt]))
    · refine (I.tc.grel γ).keepg ?_ ?_ ?_
      · intro j h; rfl
      · intro j
        simp only [St.at, St.ownAt]
        by_cases e : j = i
        · subst e; rw [upd_same, hoi]; simp [Ne.symm hγ]
        · rw [upd_ne _ _ e]
      · intro j
        simp only [St.at, St.ownAt]
        by_cases e : j = i
        · subst e; rw [upd_same, hoi]; simp
          exact Ne.symm hγ
        · rw [upd_ne _ _ e]
          constructor
          · rintro ⟨u, q, h1, h2⟩
            by_cases e' : u = t
            · subst e'; rw [upd_same] at h2; simp at h2; exact absurd h2.1.symm hγ
            · rw [upd_ne _ _ e'] at h2; exact ⟨u, q, h1, h2⟩
          · rintro ⟨u, q, h1, h2⟩
            have e' : u ≠ t := by rintro rfl; rw [h0] at h2; simp at h2; exact absurd h2.1.symm hγ
            exact ⟨u, q, h1, by rw [upd_ne _ _ e']; exact h2⟩
  · rw [h0]; rfl

/-- TP:292 -/
theorem Inv.go_reset {g : Gid} {i : Rid} (I : Inv n d s tr) (h0 : s.pc t = .on (.release g) (.rReset i)) :
    Inv n d ((s.at t (.release g) (.rSend i)).evAt i false) (tr ++ []) := by
  have S := I.st
  have hcs := S.cs t; rw [h0] at hcs
  simp only [CShape] at hcs
  obtain ⟨hgi, hoi, hev⟩ := hcs
  have hrs := S.rs i; unfold RShape at hrs; rw [hoi] at hrs
  have hne : ∀ j, j ≠ i → Same s ((s.at t (.release g) (.rSend i)).evAt i false) j := by
    intro j hj; simp [Same, St.at, St.evAt, upd_ne _ _ hj]
  have hrt : ∀ j, s.own j = .rel t → j = i := by
    intro j h; have := S.hr j t h; rw [h0] at this; simp [rhold] at this; exact this.symm
  refine I.touch (c := .release g) (q := .rReset i) (q' := .rSend i) t i
    (S.client t i h0 rfl rfl rfl rfl rfl ?_ (fun _ _ _ _ => rfl) S.fr S.fo ?_ ?_ ?_ ?_ ?_) h0 rfl hne rfl ?_ (by simp) rfl
  · intro j
    by_cases e : j = i
    · subst e
      refine Or.inr ⟨rfl, ?_, ?_, ?_, ?_⟩
      · intro u hu; simp [hoi, St.at, St.evAt, Ne.symm hu]
      · simp [RShape, St.at, St.evAt, hoi, hrs]
      · intro h; have := S.od j h; rw [hoi] at this; simp at this
      · intro _; simp [St.evAt, St.at, hoi]
    · exact Or.inl (hne j e)
  · intro j h
    have := S.ho j t h; rw [h0] at this; simp [hold] at this
  · intro j h; rw [hrt j h]; rfl
  · simp [CShape, St.at, St.evAt, hgi, hoi]
  · intro γ j h
    simp only [St.at, St.evAt] at h ⊢
    rcases S.gs1 γ j h with h' | ⟨u, ⟨h1, h2, h3⟩ | h'⟩
    · exact Or.inl h'
    · by_cases hu : u = t
      · subst hu
        obtain ⟨q, h3⟩ := h3
        rw [h0] at h3; simp at h3
        refine Or.inr ⟨u, Or.inl ⟨?_, h2, .rSend i, ?_⟩⟩
        · rw [upd_same, hrt j h2]; rfl
        · rw [upd_same, h3.1]
      · refine Or.inr ⟨u, Or.inl ?_⟩
        rw [upd_ne _ _ hu]; exact ⟨h1, h2, h3⟩
    · have hu : u ≠ t := by rintro rfl; rw [h0] at h'; simp at h'
      refine Or.inr ⟨u, Or.inr ?_⟩
      rw [upd_ne _ _ hu]; exact h'
  · intro γ j h
    simp only [St.at, St.evAt] at h ⊢
    rcases S.gs2 γ j h with h' | ⟨u, k', tm', p', h'⟩
    · exact Or.inl h'
    · have hu : u ≠ t := by rintro rfl; rw [h0] at h'; simp at h'
      exact Or.inr ⟨u, k', tm', p', by rw [upd_ne _ _ hu]; exact h'⟩
  · simp [hoi, St.at, St.evAt]

/-- TP:293 -/
theorem Inv.go_send {g : Gid} {i : Rid} (I : Inv n d s tr) (h0 : s.pc t = .on (.release g) (.rSend i)) :
    Inv n d { (s.at t (.release g) .rClear).ownAt i .free with free := s.free ++ [i] } (tr ++ [.back i (some g), .lin t (.release g) .done]) := by
  have S := I.st
  have hcs := S.cs t; rw [h0] at hcs
  simp only [CShape] at hcs
  obtain ⟨hgi, hoi, hev⟩ := hcs
  have hlate := S.rs i; unfold RShape at hlate; rw [hoi] at hlate
  have hnf : i ∉ s.free := by rw [S.fo i, hoi]; simp
  have hne : ∀ j, j ≠ i → Same s { (s.at t (.release g) .rClear).ownAt i .free with free := s.free ++ [i] } j := by
    intro j hj; simp [Same, St.at, St.ownAt, upd_ne _ _ hj]
  have hrt : ∀ j, s.own j = .rel t → j = i := by
    intro j h; have := S.hr j t h; rw [h0] at this; simp [rhold] at this; exact this.symm
  have hnone : ∀ j, s.own j ≠ .guard g := by
    intro j h; have := S.guardOf h0 rfl (by simp) h; rw [hgi] at this; simp at this; subst this; rw [hoi] at h; simp at h
  refine ⟨S.client t i h0 rfl rfl rfl rfl rfl ?_ (fun _ _ _ _ => rfl) ?_ ?_ ?_ ?_ ?_ ?_ ?_, I.tc.client t rfl ?_ ?_ ?_ ?_⟩
  · intro j
    by_cases e : j = i
    · subst e
      refine Or.inr ⟨rfl, ?_, ?_, ?_, ?_⟩
      · intro u hu; simp [hoi, St.at, St.ownAt, Ne.symm hu]
      · simp [RShape, St.at, St.ownAt, hlate, hev]
      · intro h; have := S.od j h; rw [hoi] at this; simp at this
      · intro _; simp [St.ownAt, St.at]
    · exact Or.inl (hne j e)
  · refine List.nodup_append.2 ⟨S.fr, by simp, ?_⟩
    intro a ha b hb e
    simp at hb; subst hb; subst e; exact hnf ha
  · intro j
    simp only [St.at, St.ownAt]
    by_cases e : j = i
    · subst e; rw [upd_same]; simp
    · rw [upd_ne _ _ e, ← S.fo j]; simp [e]
  · intro j h
    simp only [St.at, St.ownAt] at h
    have e : j ≠ i := by rintro rfl; rw [upd_same] at h; simp at h
    rw [upd_ne _ _ e] at h
    have := S.ho j t h; rw [h0] at this; simp [hold] at this
  · intro j h
    simp only [St.at, St.ownAt] at h
    have e : j ≠ i := by rintro rfl; rw [upd_same] at h; simp at h
    rw [upd_ne _ _ e] at h
    exact absurd (hrt j h) e
  · intro j h
    simp only [St.at, St.ownAt] at h
    have e : j ≠ i := by rintro rfl; rw [upd_same] at h; simp at h
    rw [upd_ne _ _ e] at h; exact hnone j h
  · intro γ j h
    simp only [St.at, St.ownAt] at h ⊢
    rcases S.gs1 γ j h with h' | ⟨u, ⟨h1, h2, h3⟩ | h'⟩
    · have e : j ≠ i := by rintro rfl; rw [hoi] at h'; simp at h'
      left; rw [upd_ne _ _ e]; exact h'
    · by_cases hu : u = t
      · subst hu
        obtain ⟨q, h3⟩ := h3
        rw [h0] at h3; simp at h3
        exact Or.inr ⟨u, Or.inr (by rw [upd_same, h3.1])⟩
      · have e : j ≠ i := by rintro rfl; rw [hoi] at h2; simp at h2; exact hu h2.symm
        refine Or.inr ⟨u, Or.inl ?_⟩
        rw [upd_ne _ _ hu, upd_ne _ _ e]; exact ⟨h1, h2, h3⟩
    · have hu : u ≠ t := by rintro rfl; rw [h0] at h'; simp at h'
      refine Or.inr ⟨u, Or.inr ?_⟩
      rw [upd_ne _ _ hu]; exact h'
  · intro γ j h
    simp only [St.at, St.ownAt] at h ⊢
    have e : j ≠ i := by rintro rfl; rw [upd_same] at h; simp at h
    rw [upd_ne _ _ e] at h
    rcases S.gs2 γ j h with h' | ⟨u, k', tm', p', h'⟩
    · exact Or.inl h'
    · have hu : u ≠ t := by rintro rfl; rw [h0] at h'; simp at h'
      exact Or.inr ⟨u, k', tm', p', by rw [upd_ne _ _ hu]; exact h'⟩
  · intro e he; simp at he; rcases he with rfl | rfl <;> simp [mine, Proto.mine, view]
  · intro j
    simp only [List.foldl_cons, List.foldl_nil, RP.next]
    by_cases e : j = i
    · subst e; simp [absR, St.at, St.ownAt]
      cases hw : s.w j <;> simp [late, hw] at hlate ⊢
    · exact (absR_same (hne j e)).symm
  · intro γ
    by_cases hγ : γ = g
    · subst hγ
      have hover : gphase γ tr = .over i := (I.tc.grel γ).g2 i t _ hoi h0
      simp only [List.foldl_cons, List.foldl_nil, GP.next, hover, if_true]
      refine ⟨?_, ?_, fun _ _ => rfl⟩
      · intro j h
        simp only [St.at, St.ownAt] at h
        have e : j ≠ i := by rintro rfl; rw [upd_same] at h; simp at h
        rw [upd_ne _ _ e] at h; exact absurd h (hnone j)
      · intro j u q h h2
        simp only [St.at, St.ownAt] at h h2
        have e : j ≠ i := by rintro rfl; rw [upd_same] at h; simp at h
        rw [upd_ne _ _ e] at h
        by_cases e' : u = t
        · subst e'; exact absurd (hrt j h) e
        · rw [upd_ne _ _ e'] at h2
          exact absurd ⟨_, _, _, h2, rfl⟩ (S.notUses h0 rfl e')
    · simp only [List.foldl_cons, List.foldl_nil, GP.next, Ne.symm hγ, if_false]
      refine (I.tc.grel γ).keepg ?_ ?_ ?_
      · intro j h; rfl
      · intro j
        simp only [St.at, St.ownAt]
        by_cases e : j = i
        · subst e; rw [upd_same, hoi]; simp
        · rw [upd_ne _ _ e]
      · intro j
        simp only [St.at, St.ownAt]
        by_cases e : j = i
        · subst e; rw [upd_same, hoi]; simp
          rw [h0]; simp [Ne.symm hγ]
        · rw [upd_ne _ _ e]
          constructor
          · rintro ⟨u, q, h1, h2⟩
            by_cases e' : u = t
            · subst e'; rw [upd_same] at h2; simp at h2; exact absurd h2.1.symm hγ
            · rw [upd_ne _ _ e'] at h2; exact ⟨u, q, h1, h2⟩
          · rintro ⟨u, q, h1, h2⟩
            have e' : u ≠ t := by rintro rfl; rw [h0] at h2; simp at h2; exact absurd h2.1.symm hγ
            exact ⟨u, q, h1, by rw [upd_ne _ _ e']; exact h2⟩
  · rw [h0]; simp [Phase.next, view, Phase.pnext, shape]

/-- TP:317 -/
theorem Inv.go_clear {g : Gid} (I : Inv n d s tr) (h0 : s.pc t = .on (.release g) .rClear) :
    Inv n d { s.at t (.release g) (.ret .done) with guard := upd s.guard g none } (tr ++ []) := by
  have S := I.st
  have hcs := S.cs t; rw [h0] at hcs
  simp only [CShape] at hcs
  have hrt : ∀ j, s.own j ≠ .rel t := by
    intro j h; have := S.hr j t h; rw [h0] at this; simp [rhold] at this
  refine ⟨S.client t 0 h0 rfl rfl rfl rfl rfl (fun j => Or.inl ⟨rfl, rfl, rfl, rfl, rfl, rfl⟩) ?_ S.fr S.fo ?_ ?_ trivial ?_ ?_, I.tc.client t rfl (by simp) ?_ ?_ ?_⟩
  · intro u hu γ hγ
    refine upd_ne _ _ ?_
    rintro rfl; exact S.notUses h0 rfl hu hγ
  · intro j h; have := S.ho j t h; rw [h0] at this; simp [hold] at this
  · intro j h; exact absurd h (hrt j)
  · intro γ j h
    simp only [St.at] at h ⊢
    have hγ : γ ≠ g := by rintro rfl; rw [upd_same] at h; simp at h
    rw [upd_ne _ _ hγ] at h
    rcases S.gs1 γ j h with h' | ⟨u, ⟨h1, h2, h3⟩ | h'⟩
    · exact Or.inl h'
    · have hu : u ≠ t := by rintro rfl; exact hrt j h2
      refine Or.inr ⟨u, Or.inl ?_⟩
      rw [upd_ne _ _ hu]; exact ⟨h1, h2, h3⟩
    · have hu : u ≠ t := by rintro rfl; rw [h0] at h'; simp at h'; exact hγ h'.symm
      refine Or.inr ⟨u, Or.inr ?_⟩
      rw [upd_ne _ _ hu]; exact h'
  · intro γ j h
    simp only [St.at] at h ⊢
    have hγ : γ ≠ g := by rintro rfl; exact hcs j h
    rcases S.gs2 γ j h with h' | ⟨u, k', tm', p', h'⟩
    · left; rw [upd_ne _ _ hγ]; exact h'
    · have hu : u ≠ t := by rintro rfl; rw [h0] at h'; simp at h'
      exact Or.inr ⟨u, k', tm', p', by rw [upd_ne _ _ hu]; exact h'⟩
  · intro j; exact (absR_same ⟨rfl, rfl, rfl, rfl, rfl, rfl⟩).symm
  · intro γ; exact (I.tc.grel γ).keep rfl (fun _ _ _ => rfl) (fun _ _ => Iff.rfl) (fun _ _ => Iff.rfl) (Or.inl ⟨_, _, _, h0, rfl⟩)
  · rw [h0]; rfl

/-- TP:147-158 -/
theorem Inv.go_kill {i : Rid} {rest : List Rid} (I : Inv n d s tr) (h0 : s.pc t = .on .destroy .dDrain) (hf : s.free = i :: rest) (hw : s.w i = .finished) :
    Inv n d { (s.wAt i .dead).ownAt i .dead with free := rest } (tr ++ [.kill i]) := by
  have S := I.st
  have hcs := S.cs t; rw [h0] at hcs
  simp only [CShape] at hcs
  have hoi : s.own i = .free := (S.fo i).1 (by simp [hf])
  have hfr := S.fr; rw [hf] at hfr
  have hnot := (List.nodup_cons.1 hfr).1
  have hdy := S.dy t _ h0
  have hpc : ({ (s.wAt i .dead).ownAt i .dead with free := rest } : St).pc = upd s.pc t (.on .destroy .dDrain) := by
    rw [← h0, upd_self]; rfl
  have hne : ∀ j, j ≠ i → Same s { (s.wAt i .dead).ownAt i .dead with free := rest } j := by
    intro j hj; simp [Same, St.wAt, St.ownAt, upd_ne _ _ hj]
  have hgo : ∀ j g', upd s.own i .dead j = .guard g' ↔ s.own j = .guard g' := by
    intro j g'
    by_cases e : j = i
    · subst e; rw [upd_same, hoi]; simp
    · rw [upd_ne _ _ e]
  have hrl : ∀ j u, upd s.own i .dead j = .rel u ↔ s.own j = .rel u := by
    intro j g'
    by_cases e : j = i
    · subst e; rw [upd_same, hoi]; simp
    · rw [upd_ne _ _ e]
  obtain ⟨a, b⟩ := S.gsame (s' := { (s.wAt i .dead).ownAt i .dead with free := rest }) t h0 hpc rfl rfl hgo (fun j u h => (hrl j u).2 h)
  refine ⟨S.client t i h0 hpc rfl rfl rfl rfl ?_ (fun _ _ _ _ => rfl) (List.nodup_cons.1 hfr).2 ?_ ?_ ?_ ?_ a b, I.tc.client t hpc ?_ ?_ ?_ ?_⟩
  · intro j
    by_cases e : j = i
    · subst e
      refine Or.inr ⟨rfl, ?_, ?_, ?_, ?_⟩
      · intro u hu; simp [hoi, St.ownAt]
      · simp [RShape, St.ownAt, St.wAt]
      · intro _; simp [St.ownAt]
      · intro h; rw [hdy] at h; simp at h
    · exact Or.inl (hne j e)
  · intro j
    simp only [St.wAt, St.ownAt]
    by_cases e : j = i
    · subst e; rw [upd_same]; simp [hnot]
    · rw [upd_ne _ _ e, ← S.fo j, hf]; simp [e]
  · intro j h
    simp only [St.wAt, St.ownAt] at h
    have e : j ≠ i := by rintro rfl; rw [upd_same] at h; simp at h
    rw [upd_ne _ _ e] at h; have := S.ho j t h; rw [h0] at this; simp [hold] at this
  · intro j h
    simp only [St.wAt, St.ownAt] at h
    have e : j ≠ i := by rintro rfl; rw [upd_same] at h; simp at h
    rw [upd_ne _ _ e] at h; have := S.hr j t h; rw [h0] at this; simp [rhold] at this
  · simp only [CShape]
    intro j hj
    simp only [St.wAt, St.ownAt] at hj ⊢
    by_cases e : j = i
    · subst e; rw [upd_same]; simp
    · rw [upd_ne _ _ e]; exact hcs j hj
  · intro e he; simp at he; subst he; simp [mine, Proto.mine, view]
  · intro j
    simp only [List.foldl_cons, List.foldl_nil, RP.next]
    by_cases e : j = i
    · subst e; simp [absR, St.wAt, St.ownAt, hw]
    · simp [Ne.symm e]; exact (absR_same (hne j e)).symm
  · intro γ
    simp only [List.foldl_cons, List.foldl_nil, GP.next]
    refine (I.tc.grel γ).keep hpc ?_ hgo hrl (Or.inl ⟨_, _, _, h0, rfl⟩)
    intro j g' h
    simp only [St.wAt, St.ownAt] at h ⊢
    have e : j ≠ i := by rintro rfl; rw [upd_same] at h; simp at h
    rw [upd_ne _ _ e]
  · rw [h0]; simp [Phase.next, view, shape]

/-- TP:194-197 -/
theorem Inv.go_drop {k : Task} {tm : Tmo} {g : Option Gid} {p : Int} {i : Rid} (I : Inv n d s tr)
    (h0 : s.pc t = .on (.start (some k) tm g p) (.sWait i)) :
    Inv n d ((s.at t (.start (some k) tm g p) (.ret .timedOut)).ownAt i .lost) (tr ++ [.drop t i, .lin t (.start (some k) tm g p) .timedOut]) := by
  have S := I.st
  have hcs := S.cs t; rw [h0] at hcs
  simp only [CShape] at hcs
  obtain ⟨hgn, hoi⟩ := hcs
  have hrs := S.rs i; unfold RShape at hrs; rw [hoi] at hrs
  have hne : ∀ j, j ≠ i → Same s ((s.at t (.start (some k) tm g p) (.ret .timedOut)).ownAt i .lost) j := by
    intro j hj; simp [Same, St.at, St.ownAt, upd_ne _ _ hj]
  have hgo : ∀ j g', upd s.own i .lost j = .guard g' ↔ s.own j = .guard g' := by
    intro j g'
    by_cases e : j = i
    · subst e; rw [upd_same, hoi]; simp
    · rw [upd_ne _ _ e]
  obtain ⟨a, b⟩ := S.gsame (s' := (s.at t (.start (some k) tm g p) (.ret .timedOut)).ownAt i .lost) t h0 rfl rfl rfl hgo (fun j u h => by
    have : j ≠ i := by rintro rfl; rw [hoi] at h; simp at h
    simp only [St.at, St.ownAt]; rw [upd_ne _ _ this]; exact h)
  refine I.touch (c := .start (some k) tm g p) (q := .sWait i) (q' := .ret .timedOut) t i
    (S.client t i h0 rfl rfl rfl rfl rfl ?_ (fun _ _ _ _ => rfl) S.fr ?_ ?_ ?_ trivial a b) h0 rfl hne ?_ ?_ ?_ ?_
  · intro j
    by_cases e : j = i
    · subst e
      refine Or.inr ⟨rfl, ?_, ?_, ?_, ?_⟩
      · intro u hu; simp [hoi, St.at, St.ownAt, Ne.symm hu]
      · simpa [RShape, St.ownAt, St.at] using hrs
      · intro h; have := S.od j h; rw [hoi] at this; simp at this
      · simp [St.ownAt]
    · exact Or.inl (hne j e)
  · intro j
    simp only [St.at, St.ownAt]
    by_cases e : j = i
    · subst e; rw [upd_same, S.fo j, hoi]; simp
    · rw [upd_ne _ _ e]; exact S.fo j
  · intro j h
    simp only [St.at, St.ownAt] at h
    have e : j ≠ i := by rintro rfl; rw [upd_same] at h; simp at h
    rw [upd_ne _ _ e] at h; have := S.ho j t h; rw [h0] at this; simp [hold] at this; exact absurd this.symm e
  · intro j h
    simp only [St.at, St.ownAt] at h
    have e : j ≠ i := by rintro rfl; rw [upd_same] at h; simp at h
    rw [upd_ne _ _ e] at h; have := S.hr j t h; rw [h0] at this; simp [rhold] at this
  · simp [absR, St.at, St.ownAt]
    have hl := hrs.1
    cases hw : s.w i <;> simp [late, hw] at hl ⊢
  · simp [hoi, St.ownAt]
  · intro e he; simp at he; rcases he with rfl | rfl <;> simp [mine, Proto.mine, view, plain]
  · simp [Phase.next, view, Phase.pnext, shape]

end

theorem mineLin {t : Tid} {c : Call} {o : Out} : ∀ e, e ∈ [Ev.lin t c o] → mine t e ∧ plain e = true := by
  intro e he; simp at he; subst he; simp [mine, Proto.mine, view, plain]
theorem nomine {t : Tid} : ∀ e, e ∈ ([] : List Ev) → mine t e ∧ plain e = true := by simp

theorem Inv.step_go {n : Nat} {d : Int} {s s' : St} {tr ev : List Ev} {t : Tid} (I : Inv n d s tr) (hs : TP.step s (.go t) = some (s', ev)) :
    Inv n d s' (tr ++ ev) := by
  have S := I.st
  have hcs := S.cs t
  cases h0 : s.pc t with
  | idle => simp [TP.step, h0] at hs
  | on c q =>
    rw [h0] at hcs
    by_cases hret : ∃ o, q = .ret o
    · obtain ⟨o, rfl⟩ := hret
      have : s' = { s with pc := upd s.pc t .idle, inside := s.inside.erase t } ∧ ev = [.ret t c o] := by
        cases c with
        | start k tm g p => cases k <;> simp only [TP.step, h0, Option.some.injEq, Prod.mk.injEq] at hs <;> exact ⟨hs.1.symm, hs.2.symm⟩
        | _ => simp only [TP.step, h0, Option.some.injEq, Prod.mk.injEq] at hs; exact ⟨hs.1.symm, hs.2.symm⟩
      obtain ⟨rfl, rfl⟩ := this
      exact I.step_ret h0
    cases c with
    | start k tm g p =>
      cases k with
      | none =>
        cases q <;> simp only [CShape] at hcs
        case sEnter =>
          simp only [TP.step, h0, Option.some.injEq, Prod.mk.injEq] at hs; obtain ⟨rfl, rfl⟩ := hs
          exact I.local' t h0 rfl rfl trivial mineLin (by simp [Phase.next, view, Phase.pnext, shape])
        case ret o => exact absurd ⟨o, rfl⟩ hret
      | some k =>
        cases q <;> simp only [CShape] at hcs
        case ret o => exact absurd ⟨o, rfl⟩ hret
        case sEnter =>
          simp only [TP.step, h0, Option.some.injEq, Prod.mk.injEq] at hs; obtain ⟨rfl, rfl⟩ := hs
          exact I.local' t h0 rfl rfl (by cases g <;> simpa [CShape, gNone, St.at] using hcs) nomine rfl
        case sRecv =>
          cases hf : s.free with
          | nil => simp [TP.step, h0, hf] at hs
          | cons i rest =>
            simp only [TP.step, h0, hf, Option.some.injEq, Prod.mk.injEq] at hs; obtain ⟨rfl, rfl⟩ := hs
            exact I.go_recv h0 hf
        case sWait i =>
          simp only [TP.step, h0] at hs
          split at hs
          case isFalse => simp at hs
          rename_i hw
          simp only [Option.some.injEq, Prod.mk.injEq] at hs; obtain ⟨rfl, rfl⟩ := hs
          exact I.local' t h0 rfl rfl (by cases g <;> simpa [CShape, gNone, St.at, hw] using hcs) nomine rfl
        case sSet i =>
          simp only [TP.step, h0, Option.some.injEq, Prod.mk.injEq] at hs; obtain ⟨rfl, rfl⟩ := hs
          refine I.go_held (q' := .sPrio i) h0 rfl hcs.2.1 hcs.2.2 rfl _ _ _ (fun j hj => ⟨upd_ne _ _ hj, upd_ne _ _ hj, rfl⟩) ?_ rfl
          cases g <;> simpa [CShape, gNone, St.at] using hcs
        case sPrio i =>
          simp only [TP.step, h0, Option.some.injEq, Prod.mk.injEq] at hs; obtain ⟨rfl, rfl⟩ := hs
          refine I.go_held (q' := .sGo i) h0 rfl hcs.2.1 hcs.2.2.1 rfl _ _ _ (fun j hj => ⟨rfl, rfl, upd_ne _ _ hj⟩) ?_ rfl
          cases g <;> simpa [CShape, gNone, St.at] using hcs
        case sGo i =>
          simp only [TP.step, h0, hcs.2.2.1, if_true, Option.some.injEq, Prod.mk.injEq] at hs; obtain ⟨rfl, rfl⟩ := hs
          exact I.go_start h0
        case sGuard i =>
          simp only [TP.step, h0, Option.some.injEq, Prod.mk.injEq] at hs; obtain ⟨rfl, rfl⟩ := hs
          exact I.go_guard h0
    | wait g tm =>
      cases q <;> simp only [CShape] at hcs
      case ret o => exact absurd ⟨o, rfl⟩ hret
      case wEnter =>
        cases hg : s.guard g with
        | none =>
          simp only [TP.step, h0, hg, Option.some.injEq, Prod.mk.injEq] at hs; obtain ⟨rfl, rfl⟩ := hs
          exact I.local' t h0 rfl rfl trivial mineLin (by simp [Phase.next, view, Phase.pnext, shape])
        | some i =>
          simp only [TP.step, h0, hg, Option.some.injEq, Prod.mk.injEq] at hs; obtain ⟨rfl, rfl⟩ := hs
          have := S.guardOwn h0 rfl rfl hg
          exact I.local' t h0 rfl rfl (by simp [CShape, St.at, hg, this]) nomine rfl
      case wWait i =>
        simp only [TP.step, h0] at hs
        split at hs
        case isFalse => simp at hs
        simp only [Option.some.injEq, Prod.mk.injEq] at hs; obtain ⟨rfl, rfl⟩ := hs
        exact I.local' t h0 rfl rfl trivial mineLin (by simp [Phase.next, view, Phase.pnext, shape])
    | release g =>
      cases q <;> simp only [CShape] at hcs
      case ret o => exact absurd ⟨o, rfl⟩ hret
      case rEnter =>
        cases hg : s.guard g with
        | none =>
          simp only [TP.step, h0, hg, Option.some.injEq, Prod.mk.injEq] at hs; obtain ⟨rfl, rfl⟩ := hs
          exact I.local' t h0 rfl rfl trivial mineLin (by simp [Phase.next, view, Phase.pnext, shape])
        | some i =>
          simp only [TP.step, h0, hg, Option.some.injEq, Prod.mk.injEq] at hs; obtain ⟨rfl, rfl⟩ := hs
          have := S.guardOwn h0 rfl rfl hg
          exact I.local' t h0 rfl rfl (by simp [CShape, St.at, hg, this]) nomine rfl
      case rWait i =>
        simp only [TP.step, h0] at hs
        split at hs
        case isFalse => simp at hs
        rename_i hev
        simp only [Option.some.injEq, Prod.mk.injEq] at hs; obtain ⟨rfl, rfl⟩ := hs
        exact I.go_take h0 hev
      case rReset i =>
        simp only [TP.step, h0, Option.some.injEq, Prod.mk.injEq] at hs; obtain ⟨rfl, rfl⟩ := hs
        exact I.go_reset h0
      case rSend i =>
        simp only [TP.step, h0] at hs
        split at hs
        case isFalse => simp at hs
        simp only [Option.some.injEq, Prod.mk.injEq] at hs; obtain ⟨rfl, rfl⟩ := hs
        exact I.go_send h0
      case rClear =>
        simp only [TP.step, h0, Option.some.injEq, Prod.mk.injEq] at hs; obtain ⟨rfl, rfl⟩ := hs
        exact I.go_clear h0
    | isValid g =>
      cases q <;> simp only [CShape] at hcs
      case ret o => exact absurd ⟨o, rfl⟩ hret
      case vEnter =>
        simp only [TP.step, h0, Option.some.injEq, Prod.mk.injEq] at hs; obtain ⟨rfl, rfl⟩ := hs
        exact I.local' t h0 rfl rfl trivial mineLin (by simp [Phase.next, view, Phase.pnext, shape])
    | destroy =>
      cases q <;> simp only [CShape] at hcs
      case ret o => exact absurd ⟨o, rfl⟩ hret
      case dWait j =>
        simp only [TP.step, h0] at hs
        split at hs
        · rename_i hj
          split at hs
          case isFalse => simp at hs
          rename_i hw
          simp only [Option.some.injEq, Prod.mk.injEq] at hs; obtain ⟨rfl, rfl⟩ := hs
          refine I.local' t h0 rfl rfl ?_ nomine rfl
          simp only [CShape, St.at]
          intro i h1 h2
          rcases Nat.lt_or_eq_of_le (Nat.le_of_lt_succ h1) with h | h
          · exact hcs i h h2
          · subst h; exact hw
        · rename_i hj
          simp only [Option.some.injEq, Prod.mk.injEq] at hs; obtain ⟨rfl, rfl⟩ := hs
          refine I.local' t h0 rfl rfl ?_ nomine rfl
          simp only [CShape, St.at]
          intro i h2; exact Or.inl (hcs i (Nat.lt_of_lt_of_le h2 (Nat.le_of_not_lt hj)) h2)
      case dDrain =>
        cases hf : s.free with
        | nil =>
          simp only [TP.step, h0, hf, Option.some.injEq, Prod.mk.injEq] at hs; obtain ⟨rfl, rfl⟩ := hs
          exact I.local t true h0 rfl rfl hcs mineLin (by simp [Phase.next, view, Phase.pnext, shape])
        | cons i rest =>
          simp only [TP.step, h0, hf] at hs
          split at hs
          case isFalse => simp at hs
          rename_i hw
          simp only [Option.some.injEq, Prod.mk.injEq] at hs; obtain ⟨rfl, rfl⟩ := hs
          exact I.go_kill h0 hf hw

theorem Inv.step_expire {n : Nat} {d : Int} {s s' : St} {tr ev : List Ev} {t : Tid} (I : Inv n d s tr) (hs : TP.step s (.expire t) = some (s', ev)) :
    Inv n d s' (tr ++ ev) := by
  have S := I.st
  have hcs := S.cs t
  cases h0 : s.pc t with
  | idle => simp [TP.step, h0] at hs
  | on c q =>
    rw [h0] at hcs
    cases c with
    | start k tm g p =>
      cases k with
      | none => cases q <;> simp [TP.step, h0] at hs
      | some k =>
        cases q <;> simp only [TP.step, h0] at hs <;> try (simp at hs; done)
        case sRecv =>
          split at hs
          case isFalse => simp at hs
          simp only [Option.some.injEq, Prod.mk.injEq] at hs; obtain ⟨rfl, rfl⟩ := hs
          exact I.local' t h0 rfl rfl trivial mineLin (by simp [Phase.next, view, Phase.pnext, shape])
        case sWait i =>
          split at hs
          case isFalse => simp at hs
          simp only [Option.some.injEq, Prod.mk.injEq] at hs; obtain ⟨rfl, rfl⟩ := hs
          exact I.go_drop h0
    | wait g tm =>
      cases q <;> simp only [TP.step, h0] at hs <;> try (simp at hs; done)
      case wWait i =>
        split at hs
        case isFalse => simp at hs
        simp only [Option.some.injEq, Prod.mk.injEq] at hs; obtain ⟨rfl, rfl⟩ := hs
        exact I.local' t h0 rfl rfl trivial mineLin (by simp [Phase.next, view, Phase.pnext, shape])
    | release g => simp [TP.step, h0] at hs
    | isValid g => simp [TP.step, h0] at hs
    | destroy => simp [TP.step, h0] at hs

theorem Inv.step {n : Nat} {d : Int} {s s' : St} {tr ev : List Ev} {a : Act} (I : Inv n d s tr) (hs : TP.step s a = some (s', ev)) :
    Inv n d s' (tr ++ ev) := by
  cases a with
  | call t c => exact I.step_call hs
  | go t => exact I.step_go hs
  | expire t => exact I.step_expire hs
  | pgo i => exact I.step_pool hs
  | throw i => exact I.step_throw hs

theorem Inv.reach {n : Nat} {d : Int} {s : St} {tr : List Ev} (h : Reach TP.step (TP.init n d) s tr) : Inv n d s tr :=
  Lts.Reach.inv (I := Inv n d) ⟨Stat.init n d, Trc.init n d⟩ (fun _ _ _ _ _ I hs => Inv.step I hs) h

end Verif.TP
