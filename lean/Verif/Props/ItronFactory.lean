import Verif.Proof.ItronFactory
/-
C85, C86: the ITRON factories of mutexes, event flags and periodic timers, and the ITRON periodic timer.
Everything holds for every number of callers, every interleaving of their kernel calls, every answer the kernel may give.
-/
namespace Verif.Props.ItronFactory
open Verif Verif.IFa Verif.Fac
open _root_.Verif.Lts (Reach)

variable {c : IFa.Cfg} {s s' : FSt} {tr : List Fac.Ev}

/-- An execution of the factory, its clients and the kernel, with its history. -/
abbrev Exec (c : IFa.Cfg) (s : FSt) (tr : List Fac.Ev) : Prop := Reach (IFa.step c) FSt.init s tr

/-- **C85.** create never returns the address of an object that exists. -/
theorem C85_fresh {a b : List Fac.Ev} {t p : Nat} (h : Exec c s (a ++ .created t p :: b)) : p ∉ live a := by
  obtain ⟨s0, s1, act, hr, hs⟩ := event_at h rfl
  have hi := Inv.reach hr
  rw [hi.lv]
  cases act with
  | new t' ans =>
    cases ans with
    | none => simp only [IFa.step] at hs; (repeat' split at hs) <;> simp at hs
    | some id =>
      simp only [IFa.step] at hs
      split at hs
      · next p' e =>
        split at hs <;> simp at hs
        obtain ⟨_, rfl, rfl⟩ := hs
        have := hi.rw_ t' p' (by rw [e]; rfl)
        simp only [this.2, ne_eq, not_true_eq_false, false_or, not_exists]
        intro t2 e2
        have := hi.un1 t' t2 p' (by rw [e]; rfl) (by rw [e2]; rfl)
        subst this; rw [e] at e2; simp at e2
      · simp at hs
  | get t ans => cases ans <;> simp only [IFa.step] at hs <;> (repeat' split at hs) <;> simp at hs
  | _ => simp only [IFa.step] at hs; (repeat' split at hs) <;> simp at hs

theorem live_sub (h : Inv c s tr) : live tr ⊆ s.blk := by
  intro p hp
  rcases (h.lv p).mp hp with hp | ⟨t, hp⟩
  · exact h.in_blk p hp
  · exact (h.rw_ t p (by rw [hp]; rfl)).1

/-- **C85.** At most `N` objects exist, at distinct addresses. -/
theorem C85_bound (h : Exec c s tr) : (live tr).Nodup ∧ (live tr).length ≤ c.N :=
  ⟨(Inv.reach h).ln, Nat.le_trans (List.Nodup.length_le_of_subset (Inv.reach h).ln (live_sub (Inv.reach h))) (Inv.reach h).bl⟩

/-- **C85.** Nothing leaks: when no call is in progress, the memory handed out is exactly that of the objects that exist, and so are the kernel
objects the factory has made. -/
theorem C85_no_leak (h : Exec c s tr) (hq : ∀ t, s.pc t = .out) :
    s.blk.Perm (live tr) ∧ ((s.ker.filter (·.ours)).map (·.ex)).Perm (live tr) := by
  have hi := Inv.reach h
  have hl : ∀ p, p ∈ live tr ↔ s.obj p ≠ none := by
    intro p; rw [hi.lv]; simp [hq]
  constructor
  · rw [List.perm_ext_iff_of_nodup hi.bn hi.ln]
    intro p
    refine ⟨fun hp => ?_, fun hp => live_sub hi hp⟩
    rw [hl]
    rcases hi.cov p hp with h1 | ⟨t, h1⟩
    · exact h1
    · rw [hq] at h1; simp [raw] at h1
  · have hn : ((s.ker.filter (·.ours)).map (·.ex)).Nodup := by
      have hk : (s.ker.filter (·.ours)).Pairwise (fun x y => x.ex ≠ y.ex) := by
        have h0 : (s.ker.filter (·.ours)).Pairwise (fun x y => x.id ≠ y.id) := by
          have := hi.kn; rw [List.Nodup, List.pairwise_map] at this; exact this.sublist List.filter_sublist
        refine h0.imp_of_mem ?_
        intro x y hx hy hxy e
        obtain ⟨ph, a1, _⟩ := hi.ko x (List.mem_filter.mp hx).1 (List.mem_filter.mp hx).2
        obtain ⟨ph', b1, _⟩ := hi.ko y (List.mem_filter.mp hy).1 (List.mem_filter.mp hy).2
        rw [e, b1] at a1; simp at a1; exact hxy a1.1.symm
      rw [List.Nodup, List.pairwise_map]; exact hk
    rw [List.perm_ext_iff_of_nodup hn hi.ln]
    intro p
    rw [hl]
    simp only [List.mem_map, List.mem_filter]
    constructor
    · rintro ⟨x, ⟨hx, ho⟩, rfl⟩
      obtain ⟨ph, a1, _⟩ := hi.ko x hx ho
      rw [a1]; simp
    · intro hp
      cases e : s.obj p with
      | none => exact absurd e hp
      | some o =>
        obtain ⟨_, _, x, hx, _, ho, hx3⟩ := hi.ok p o.id o.ph e
        exact ⟨x, ⟨hx, ho⟩, hx3⟩

/-- **C85.** Every object works on a kernel object that exists, was made for it and is nobody else's. -/
theorem C85_own (h : Exec c s tr) {p q : Nat} {o o' : Obj} (hp : s.obj p = some o) :
    (∃ x ∈ s.ker, x.id = o.id ∧ x.ours = true ∧ x.ex = p) ∧ (s.obj q = some o' → o.id = o'.id → p = q) := by
  have hi := Inv.reach h
  obtain ⟨_, _, x, hx, hx1, ho, hx3⟩ := hi.ok p o.id o.ph hp
  refine ⟨⟨x, hx, hx1, ho, hx3⟩, ?_⟩
  intro hq e
  obtain ⟨_, _, y, hy, hy1, ho', hy3⟩ := hi.ok q o'.id o'.ph hq
  have := mem_inj hi.kn hx hy (by rw [hx1, hy1, e]); subst this
  rw [← hx3, hy3]

/-- **C85.** Why create returns null: the factory has no pool; or `N` blocks are in use, each by an object that exists or by another create; or
the kernel refused, and then the memory has been given back. -/
theorem C85_null {a b : List Fac.Ev} {t : Nat} {w : Why} (h : Exec c s (a ++ .null t w :: b)) :
    ∃ s0 s1 act, Exec c s0 a ∧ IFa.step c s0 act = some (s1, [.null t w]) ∧ s1.pc t = .out ∧
      match w with
      | .noPool => c.pool = false
      | .full => ∃ l : List Nat, l.Nodup ∧ l.length = c.N ∧ ∀ p ∈ l, p ∈ live a ∨ ∃ t', t' ≠ t ∧ (s0.pc t' = .new p ∨ s0.pc t' = .back p)
      | .kernel => ∃ p, s0.pc t = .back p ∧ p ∉ s1.blk ∧ ∀ x ∈ s1.ker, x.ours = true → x.ex ≠ p := by
  obtain ⟨s0, s1, act, hr, hs⟩ := event_at h rfl
  have hi := Inv.reach hr
  refine ⟨s0, s1, act, hr, hs, ?_⟩
  cases act with
  | create t' =>
    simp only [IFa.step] at hs
    split at hs
    · next e => split at hs <;> simp at hs; next e2 => obtain ⟨rfl, rfl, rfl⟩ := hs; exact ⟨e, by simpa using e2⟩
    · simp at hs
  | get t' ans =>
    cases ans with
    | some p => simp only [IFa.step] at hs; (repeat' split at hs) <;> simp at hs
    | none =>
      simp only [IFa.step] at hs
      split at hs
      · next e =>
        split at hs <;> simp at hs
        next hn =>
        obtain ⟨rfl, rfl, rfl⟩ := hs
        refine ⟨by simp [put], s0.blk, hi.bn, Nat.le_antisymm hi.bl hn, ?_⟩
        intro p hp
        rw [hi.lv]
        rcases hi.cov p hp with h1 | ⟨t2, h1⟩
        · exact .inl (.inl h1)
        · have ht : t2 ≠ t' := by rintro rfl; rw [e] at h1; simp [raw] at h1
          cases e2 : s0.pc t2 <;> rw [e2] at h1 <;> simp [raw] at h1
          · subst h1; exact .inr ⟨t2, ht, .inl e2⟩
          · subst h1; exact .inr ⟨t2, ht, .inr e2⟩
          · subst h1; exact .inl (.inr ⟨t2, e2⟩)
      · simp at hs
  | rel t' =>
    simp only [IFa.step] at hs
    split at hs
    · next p e =>
      simp at hs
      obtain ⟨rfl, rfl, rfl⟩ := hs
      refine ⟨by simp [put], p, e, by simp, ?_⟩
      intro x hx ho e2
      obtain ⟨ph, a1, _⟩ := hi.ko x hx ho
      rw [e2, (hi.rw_ t' p (by rw [e]; rfl)).2] at a1; simp at a1
    · simp at hs
    · simp at hs
  | new t' ans => cases ans <;> simp only [IFa.step] at hs <;> (repeat' split at hs) <;> simp at hs
  | _ => simp only [IFa.step] at hs; (repeat' split at hs) <;> simp at hs

/-- **C85.** What the factory does to the kernel's objects leaves those of the rest of the system alone. -/
theorem C85_foreign (h : Exec c s tr) {a : IFa.Act} {ev : List Fac.Ev} (hs : IFa.step c s a = some (s', ev))
    (ha : ∀ id, a ≠ .newK id ∧ a ≠ .delK id) : s'.ker.filter (fun x => !x.ours) = s.ker.filter (fun x => !x.ours) := by
  have hi := Inv.reach h
  have hset : ∀ p id ph b, s.obj p = some ⟨id, ph⟩ → (setSta s.ker id b).filter (fun x => !x.ours) = s.ker.filter (fun x => !x.ours) := by
    intro p id ph b ho
    obtain ⟨_, _, x, hx, hx1, hxo, _⟩ := hi.ok p id ph ho
    have : ∀ l : List KObj, (∀ y ∈ l, y ∈ s.ker) → (setSta l id b).filter (fun x => !x.ours) = l.filter (fun x => !x.ours) := by
      intro l
      induction l with
      | nil => intro _; rfl
      | cons y l ih =>
        intro hl
        have ih := ih fun z hz => hl z (List.mem_cons_of_mem _ hz)
        unfold setSta at ih ⊢
        simp only [List.map_cons]
        by_cases e : y.id = id
        · have := mem_inj hi.kn (hl y (by simp)) hx (e.trans hx1.symm); subst this
          rw [if_pos e, List.filter_cons_of_neg (by simp [hxo]), List.filter_cons_of_neg (by simp [hxo]), ih]
        · rw [if_neg e, List.filter_cons, List.filter_cons, ih]
    exact this _ fun _ h => h
  cases a with
  | newK id => exact absurd rfl (ha id).1
  | delK id => exact absurd rfl (ha id).2
  | del t =>
    simp only [IFa.step] at hs
    split at hs
    · next p e =>
      split at hs
      · next id ph ho =>
        simp only [Option.some.injEq, Prod.mk.injEq] at hs
        obtain ⟨rfl, _⟩ := hs
        obtain ⟨h0, _, x, hx, hx1, hxo, _⟩ := hi.ok p id ph ho
        simp only [h0, if_true, List.filter_filter]
        apply List.filter_congr
        intro y hy
        by_cases e : y.id = id
        · have := mem_inj hi.kn hy hx (e.trans hx1.symm); subst this; simp [hxo]
        · simp [e]
      · simp at hs
    · simp at hs
  | stp t =>
    simp only [IFa.step] at hs
    split at hs
    · split at hs
      · next ho => simp only [Option.some.injEq, Prod.mk.injEq] at hs; obtain ⟨rfl, _⟩ := hs; exact hset _ _ _ _ ho
      · simp at hs
    · simp at hs
  | start p =>
    simp only [IFa.step] at hs
    split at hs
    · next hu => obtain ⟨_, ph, ho, _⟩ := usable_some hu; simp only [Option.some.injEq, Prod.mk.injEq] at hs; obtain ⟨rfl, _⟩ := hs; exact hset _ _ _ _ ho
    · simp at hs
  | stop p =>
    simp only [IFa.step] at hs
    split at hs
    · next hu => obtain ⟨_, ph, ho, _⟩ := usable_some hu; simp only [Option.some.injEq, Prod.mk.injEq] at hs; obtain ⟨rfl, _⟩ := hs; exact hset _ _ _ _ ho
    · simp at hs
  | get t ans => cases ans <;> simp only [IFa.step] at hs <;> (repeat' split at hs) <;> simp at hs <;> simp [← hs.1]
  | new t ans => cases ans <;> simp only [IFa.step] at hs <;> (repeat' split at hs) <;> simp at hs <;> simp [← hs.1]
  | _ => simp only [IFa.step] at hs; (repeat' split at hs) <;> simp at hs <;> simp [← hs.1]

/-- **C85.** create can succeed: with a pool, fewer than `N` blocks in use and a kernel that has an object left, a create that is not disturbed
returns the address the pool gives. -/
theorem C85_possible {t p id : Nat} (h : Exec c s tr) (hp : c.pool = true) (ht : s.pc t = .out) (hb : s.blk.length < c.N)
    (h1 : 0 < p) (h2 : p ∉ s.blk) (h3 : 0 < id) (h4 : ∀ x ∈ s.ker, x.id ≠ id) :
    ∃ s', Exec c s' (tr ++ [.created t p]) ∧ p ∈ live (tr ++ [.created t p]) ∧ s'.pc = s.pc := by
  have s1 : IFa.step c s (.create t) = some ({ s with pc := put s.pc t .get }, []) := by simp [IFa.step, ht, hp]
  have s2 : IFa.step c { s with pc := put s.pc t .get } (.get t (some p)) =
      some ({ s with pc := put (put s.pc t .get) t (.new p), blk := p :: s.blk }, []) := by
    simp only [IFa.step]; rw [if_pos (by simp [put]), if_pos ⟨h1, h2, hb⟩]
  have hfr : fresh { s with pc := put (put s.pc t .get) t (.new p), blk := p :: s.blk } id = true := fresh_iff.mpr ⟨h3, h4⟩
  have s3 : IFa.step c { s with pc := put (put s.pc t .get) t (.new p), blk := p :: s.blk } (.new t (some id)) =
      some ({ pc := put (put (put s.pc t .get) t (.new p)) t .out, blk := p :: s.blk, ker := ⟨id, true, false, p⟩ :: s.ker,
              obj := put s.obj p (some ⟨id, .live⟩) }, [.created t p]) := by
    simp only [IFa.step]
    have : put (put s.pc t .get) t (.new p) t = .new p := by simp [put]
    simp only [this, hfr, if_true]
  refine ⟨_, by simpa using Reach.step (Reach.step (Reach.step h s1) s2) s3, ?_, ?_⟩
  · rw [live_append]; simp [liveStep]
  · funext x; simp only [put]; split <;> simp_all

theorem obj_of_fire (hi : Inv c s tr) {id : Nat} {x : KObj} (hf : s.ker.find? (fun x => x.id == id) = some x) (ho : x.ours = true) (hs : x.sta = true) :
    x.ex ∈ live tr ∧ activeAfter x.ex tr = true ∧ (s.obj x.ex).isSome = true := by
  obtain ⟨hx, _⟩ := find_ker hf
  obtain ⟨ph, a1, a2, _⟩ := hi.ko x hx ho
  refine ⟨(hi.lv _).mpr (.inl (by rw [a1]; simp)), by rw [← a2]; exact hs, by rw [a1]; rfl⟩

/-- **C86.** A callback is that of a timer that exists and has been started, and has not been stopped since. -/
theorem C86_callback {a b : List Fac.Ev} {p : Nat} (h : Exec c s (a ++ .callback p :: b)) : p ∈ live a ∧ activeAfter p a = true := by
  obtain ⟨s0, s1, act, hr, hs⟩ := event_at h rfl
  have hi := Inv.reach hr
  cases act with
  | fire id =>
    simp only [IFa.step] at hs
    split at hs
    · next x e =>
      split at hs
      · next hx =>
        simp only [Bool.and_eq_true] at hx
        obtain ⟨h1, h2, h3⟩ := obj_of_fire hi e hx.1 hx.2
        simp [h3] at hs
        obtain ⟨_, rfl⟩ := hs
        exact ⟨h1, h2⟩
      · simp at hs
    · simp at hs
  | get t ans => cases ans <;> simp only [IFa.step] at hs <;> (repeat' split at hs) <;> simp at hs
  | new t ans => cases ans <;> simp only [IFa.step] at hs <;> (repeat' split at hs) <;> simp at hs
  | _ => simp only [IFa.step] at hs; (repeat' split at hs) <;> simp at hs

/-- **C86.** The kernel never calls back into a timer that has been destroyed. -/
theorem C86_no_uaf (h : Exec c s tr) (p : Nat) : Fac.Ev.uaf p ∉ tr := by
  intro hm
  obtain ⟨a, b, rfl⟩ := List.append_of_mem hm
  obtain ⟨s0, s1, act, hr, hs⟩ := event_at h rfl
  have hi := Inv.reach hr
  cases act with
  | fire id =>
    simp only [IFa.step] at hs
    split at hs
    · next x e =>
      split at hs
      · next hx =>
        simp only [Bool.and_eq_true] at hx
        obtain ⟨h1, h2, h3⟩ := obj_of_fire hi e hx.1 hx.2
        simp [h3] at hs
      · simp at hs
    · simp at hs
  | get t ans => cases ans <;> simp only [IFa.step] at hs <;> (repeat' split at hs) <;> simp at hs
  | new t ans => cases ans <;> simp only [IFa.step] at hs <;> (repeat' split at hs) <;> simp at hs
  | _ => simp only [IFa.step] at hs; (repeat' split at hs) <;> simp at hs

/-- **C86.** isStarted: started, and not stopped since. -/
theorem C86_isStarted {a b : List Fac.Ev} {p : Nat} {r : Bool} (h : Exec c s (a ++ .op p (.isStarted r) :: b)) : r = activeAfter p a := by
  obtain ⟨s0, s1, act, hr, hs⟩ := event_at h rfl
  have hi := Inv.reach hr
  cases act with
  | isStarted p' =>
    simp only [IFa.step] at hs
    split at hs
    · next id hu =>
      simp at hs
      obtain ⟨_, rfl, rfl⟩ := hs
      obtain ⟨_, ph, ho, _⟩ := usable_some hu
      obtain ⟨_, _, x, hx, hx1, hxo, hx3⟩ := hi.ok p' id ph ho
      obtain ⟨_, _, a2, _⟩ := hi.ko x hx hxo
      unfold getSta
      split
      · next y hy =>
        obtain ⟨hy, hy1⟩ := find_ker hy
        have := mem_inj hi.kn hy hx (by rw [hx1, hy1]); subst this
        rw [a2, hx3]
      · next hn => have := List.find?_eq_none.mp hn x hx; simp [hx1] at this
    · simp at hs
  | get t ans => cases ans <;> simp only [IFa.step] at hs <;> (repeat' split at hs) <;> simp at hs
  | new t ans => cases ans <;> simp only [IFa.step] at hs <;> (repeat' split at hs) <;> simp at hs
  | _ => simp only [IFa.step] at hs; (repeat' split at hs) <;> simp at hs

/-- **C86.** A timer that is running is stopped by destroy; after destroy its callback does not run (with `C86_callback`). -/
theorem C86_destroyed {a b : List Fac.Ev} {t p : Nat} (h : Exec c s (a ++ .destroyed t p :: b)) : p ∈ live a ∧ activeAfter p a = false := by
  obtain ⟨s0, s1, act, hr, hs⟩ := event_at h rfl
  have hi := Inv.reach hr
  cases act with
  | rel t' =>
    simp only [IFa.step] at hs
    split at hs <;> simp at hs
    next e => obtain ⟨_, rfl, rfl⟩ := hs; exact ⟨(hi.lv _).mpr (.inr ⟨_, e⟩), (Inv2.reach hr).rl _ _ e⟩
  | get t ans => cases ans <;> simp only [IFa.step] at hs <;> (repeat' split at hs) <;> simp at hs
  | new t ans => cases ans <;> simp only [IFa.step] at hs <;> (repeat' split at hs) <;> simp at hs
  | _ => simp only [IFa.step] at hs; (repeat' split at hs) <;> simp at hs

/-- **C86.** A timer that exists and is active has a running cyclic handler, whose expiry runs its callback. -/
theorem C86_fires (h : Exec c s tr) {p : Nat} (hl : p ∈ live tr) (ha : activeAfter p tr = true) : ∃ id, IFa.step c s (.fire id) = some (s, [.callback p]) := by
  have hi := Inv.reach h
  rcases (hi.lv p).mp hl with ho | ⟨t, ht⟩
  · cases e : s.obj p with
    | none => exact absurd e ho
    | some o =>
      obtain ⟨_, _, x, hx, hx1, hxo, hx3⟩ := hi.ok p o.id o.ph e
      obtain ⟨ph, _, a2, _⟩ := hi.ko x hx hxo
      refine ⟨o.id, ?_⟩
      simp only [IFa.step]
      have hfind : s.ker.find? (fun x => x.id == o.id) = some x := by
        cases hf : s.ker.find? (fun x => x.id == o.id) with
        | none => have := List.find?_eq_none.mp hf x hx; simp [hx1] at this
        | some y =>
          obtain ⟨hy, hy1⟩ := find_ker hf
          rw [mem_inj hi.kn hy hx (by rw [hx1, hy1])]
      rw [hfind]
      subst hx3
      simp [hxo, a2, ha, e]
  · have := (Inv2.reach h).rl t p ht; rw [ha] at this; simp at this

/-- A two-timer factory. -/
def two : IFa.Cfg := ⟨2, true, true⟩

-- Non-vacuity: a foreign cyclic handler exists; two creates interleave, a third finds the pool empty; a timer runs, is destroyed while running, and its address is reused.
example : ∃ s tr, Exec two s tr ∧ tr = [.created 1 20, .created 0 10, .null 2 .full, .op 10 .start, .callback 10, .destroy 1 10, .callback 10,
    .op 10 .stop, .destroyed 1 10, .created 0 10, .op 10 (.isStarted false)] ∧ (s.ker.filter (fun x => !x.ours)).length = 1 ∧ live tr = [10, 20] := by
  obtain ⟨s, tr, h, hp⟩ := Lts.runSat_ex (step := IFa.step two) (init := FSt.init)
    (as := [.newK 7, .create 0, .create 1, .get 0 (some 10), .get 1 (some 20), .new 1 (some 3), .new 0 (some 4), .create 2, .get 2 none, .start 10, .fire 4,
      .destroy 1 10, .fire 4, .stp 1, .del 1, .rel 1, .create 0, .get 0 (some 10), .new 0 (some 4), .isStarted 10])
    (P := fun (s : FSt) tr => decide (tr = [.created 1 20, .created 0 10, .null 2 .full, .op 10 .start, .callback 10, .destroy 1 10, .callback 10,
      .op 10 .stop, .destroyed 1 10, .created 0 10, .op 10 (.isStarted false)] ∧ (s.ker.filter (fun x => !x.ours)).length = 1 ∧ live tr = [10, 20])) (by decide)
  exact ⟨s, tr, h, of_decide_eq_true hp⟩
-- The kernel refuses; the memory is given back.
example : ∃ s tr, Exec ⟨1, true, false⟩ s tr ∧ tr = [.null 0 .kernel, .created 0 10] ∧ s.blk = [10] := by
  obtain ⟨s, tr, h, hp⟩ := Lts.runSat_ex (step := IFa.step ⟨1, true, false⟩) (init := FSt.init)
    (as := [.create 0, .get 0 (some 10), .new 0 none, .rel 0, .create 0, .get 0 (some 10), .new 0 (some 1)])
    (P := fun (s : FSt) tr => decide (tr = [.null 0 .kernel, .created 0 10] ∧ s.blk = [10])) (by decide)
  exact ⟨s, tr, h, of_decide_eq_true hp⟩
example : ∃ s tr, Exec ⟨1, false, false⟩ s tr ∧ tr = [.null 0 .noPool] := by
  obtain ⟨s, tr, h, hp⟩ := Lts.runSat_ex (step := IFa.step ⟨1, false, false⟩) (init := FSt.init) (as := [.create 0])
    (P := fun (_ : FSt) tr => decide (tr = [.null 0 .noPool])) (by decide)
  exact ⟨s, tr, h, of_decide_eq_true hp⟩

end Verif.Props.ItronFactory
