import Verif.Sem.Lts
/-
Access skeletons: which locks a piece of code takes and which variables it reads and writes, in which order, every branch being possible.
Semantics for any number of threads, the definition of a data race and of being blocked, and two static checks with their soundness theorems.
Nothing in this file is about cppelib.
-/
namespace Verif.Race

/-- Skeletons over locks `L` and variables `V`. -/
inductive Prog (L V : Type) where
  | skip
  | rd (v : V)
  | wr (v : V)
  | user                       -- code of the user: any number of calls of the API
  | wait (l : L)               -- condition_variable::wait: release l, wait, take l again (also wakes up spuriously)
  | seq (p q : Prog L V)
  | alt (p q : Prog L V)       -- either
  | loop (p : Prog L V)        -- while (true), left by brk or ret
  | brk
  | ret
  | scope (l : L) (p : Prog L V)  -- lock_guard / unique_lock on l for the block p; released however p is left
  | call (p : Prog L V)        -- a function call: ret inside p ends p

variable {L V M : Type}

/-- What is left to do. -/
inductive Frame (L V : Type) where
  | run (p : Prog L V)
  | unlock (l : L)
  | again (p : Prog L V)       -- end of a loop body
  | fin                        -- end of a called function
  | reacq (l : L)              -- second half of wait

structure State (L V : Type) where
  kont : Nat → List (Frame L V)
  own : L → Option Nat

/-- Every thread starts with code of the user. -/
def init : State L V := ⟨fun _ => [.run .user], fun _ => none⟩

inductive Choice (M : Type) where
  | go | left | right | call (m : M)
  deriving DecidableEq

/-- Locks held by what is left to do. -/
def held : List (Frame L V) → List L
  | [] => []
  | .unlock l :: k => l :: held k
  | .run _ :: k => held k
  | .again _ :: k => held k
  | .fin :: k => held k
  | .reacq _ :: k => held k

def put {α : Type} (f : Nat → α) (i : Nat) (x : α) : Nat → α := fun j => if j = i then x else f j
def putL [DecidableEq L] (f : L → Option Nat) (l : L) (x : Option Nat) : L → Option Nat := fun j => if j = l then x else f j

/-- Leaving by ret or brk: what follows in `k` is skipped, locks are released one by one. -/
def leave [DecidableEq L] (s : State L V) (t : Nat) (isRet : Bool) : List (Frame L V) → Option (State L V)
  | [] => some { s with kont := put s.kont t [] }
  | .run _ :: k => some { s with kont := put s.kont t (.run (if isRet then .ret else .brk) :: k) }
  | .reacq _ :: k => some { s with kont := put s.kont t (.run (if isRet then .ret else .brk) :: k) }
  | .unlock l :: k => some ⟨put s.kont t (.run (if isRet then .ret else .brk) :: k), if l ∈ held k then s.own else putL s.own l none⟩
  | .again _ :: k => some { s with kont := put s.kont t (if isRet then .run .ret :: k else k) }
  | .fin :: k => some { s with kont := put s.kont t k }

/-- One step of thread `t`.  `api m` is the body of a function the user can call; `rec l`: the mutex is recursive. -/
def stepT [DecidableEq L] (api : M → Prog L V) (recu : L → Bool) (s : State L V) (t : Nat) (c : Choice M) : Option (State L V) :=
  let go (k : List (Frame L V)) : Option (State L V) := some { s with kont := put s.kont t k }
  match s.kont t with
  | [] => none
  | .run p :: k => match p with
    | .skip => go k
    | .rd _ => go k
    | .wr _ => go k
    | .user => match c with
      | .call m => go (.run (api m) :: .fin :: .run .user :: k)
      | _ => go k
    | .wait l => if s.own l = some t then some ⟨put s.kont t (.reacq l :: k), putL s.own l none⟩ else none
    | .seq p q => go (.run p :: .run q :: k)
    | .alt p q => match c with
      | .left => go (.run p :: k)
      | _ => go (.run q :: k)
    | .loop p => go (.run p :: .again p :: k)
    | .brk => leave s t false k
    | .ret => leave s t true k
    | .scope l p =>
      if s.own l = none ∨ (s.own l = some t ∧ recu l = true) then some ⟨put s.kont t (.run p :: .unlock l :: k), putL s.own l (some t)⟩ else none
    | .call p => go (.run p :: .fin :: k)
  | .unlock l :: k => some ⟨put s.kont t k, if l ∈ held k then s.own else putL s.own l none⟩
  | .again p :: k => go (.run p :: .again p :: k)
  | .fin :: k => go k
  | .reacq l :: k => if s.own l = none then some ⟨put s.kont t k, putL s.own l (some t)⟩ else none

/-- The transition system: a thread and its choice. -/
def step [DecidableEq L] (api : M → Prog L V) (recu : L → Bool) (s : State L V) (a : Nat × Choice M) : Option (State L V × List Unit) :=
  (stepT api recu s a.1 a.2).map fun s' => (s', [])

/-- Thread `t` is about to read (`w = false`) or write `v`. -/
def Accesses (s : State L V) (t : Nat) (v : V) (w : Bool) : Prop :=
  ∃ k, s.kont t = .run (if w then .wr v else .rd v) :: k

/-- A data race: two threads are about to access the same variable, one of them to write it. -/
def Racy (s : State L V) : Prop := ∃ t u v w, t ≠ u ∧ Accesses s t v true ∧ Accesses s u v w

/-- Thread `t` wants the lock `l` (for a block, or again after a wait). -/
def Wants (s : State L V) (t : Nat) (l : L) : Prop := (∃ p k, s.kont t = .run (.scope l p) :: k) ∨ ∃ k, s.kont t = .reacq l :: k

/-- Thread `t` can take a step. -/
def CanStep [DecidableEq L] (api : M → Prog L V) (recu : L → Bool) (s : State L V) (t : Nat) : Prop := ∃ c, (stepT api recu s t c).isSome

/-- Locks held now: all blocks entered, except the one a wait has released. -/
def now [DecidableEq L] : List (Frame L V) → List L
  | .reacq l :: k => (held k).filter (· ≠ l)
  | k => held k

/-! #### Check 1: every access is inside a block that holds the variable's lock -/

/-- `acc H v w`: reading (`w = false`) or writing `v` is allowed where the blocks on `H` have been entered. -/
def chk (acc : List L → V → Bool → Bool) (H : List L) [DecidableEq L] : Prog L V → Bool
  | .skip | .user | .brk | .ret => true
  | .rd v => acc H v false
  | .wr v => acc H v true
  | .wait l => decide (l ∈ H)
  | .seq p q => chk acc H p && chk acc H q
  | .alt p q => chk acc H p && chk acc H q
  | .loop p => chk acc H p
  | .scope l p => chk acc (l :: H) p
  | .call p => chk acc H p

/-- More locks never hurt. -/
def Mono (acc : List L → V → Bool → Bool) : Prop := ∀ (H H' : List L) v w, (∀ l ∈ H, l ∈ H') → acc H v w = true → acc H' v w = true

/-- `imm v`: never written, may be read anywhere.  Otherwise accesses must be inside a block on `grd v`. -/
def byLock [DecidableEq L] (imm : V → Bool) (grd : V → L) (H : List L) (v : V) (w : Bool) : Bool :=
  if w then !imm v && decide (grd v ∈ H) else imm v || decide (grd v ∈ H)

/-- The check for data races. -/
abbrev guarded [DecidableEq L] (imm : V → Bool) (grd : V → L) (H : List L) : Prog L V → Bool := chk (byLock imm grd) H

theorem byLock_mono [DecidableEq L] {imm : V → Bool} {grd : V → L} : Mono (byLock imm grd) := by
  intro H H' v w hs h
  cases w <;> simp only [byLock, if_true, Bool.false_eq_true, if_false, Bool.or_eq_true, Bool.and_eq_true, decide_eq_true_eq] at *
  · exact h.imp_right (hs _)
  · exact ⟨h.1, hs _ h.2⟩

theorem chk_mono [DecidableEq L] {acc : List L → V → Bool → Bool} (hm : Mono acc) {p : Prog L V} :
    ∀ {H H' : List L}, (∀ l ∈ H, l ∈ H') → chk acc H p = true → chk acc H' p = true := by
  induction p with
  | skip | user | brk | ret => intros; rfl
  | rd v => intro H H' hs h; exact hm _ _ _ _ hs h
  | wr v => intro H H' hs h; exact hm _ _ _ _ hs h
  | wait l => intro H H' hs h; simp only [chk, decide_eq_true_eq] at *; exact hs _ h
  | seq p q ihp ihq => intro H H' hs h; simp only [chk, Bool.and_eq_true] at *; exact ⟨ihp hs h.1, ihq hs h.2⟩
  | alt p q ihp ihq => intro H H' hs h; simp only [chk, Bool.and_eq_true] at *; exact ⟨ihp hs h.1, ihq hs h.2⟩
  | loop p ih => intro H H' hs h; exact ih hs h
  | call p ih => intro H H' hs h; exact ih hs h
  | scope l p ih =>
    intro H H' hs h
    refine ih (H := l :: H) (fun x hx => ?_) h
    rcases List.mem_cons.mp hx with rfl | hx
    · exact List.mem_cons_self ..
    · exact List.mem_cons_of_mem _ (hs _ hx)

/-- The check for what is left to do after the next action. -/
def okK [DecidableEq L] (acc : List L → V → Bool → Bool) : List (Frame L V) → Prop
  | [] => True
  | .run p :: k => chk acc (held k) p = true ∧ okK acc k
  | .again p :: k => chk acc (held k) p = true ∧ okK acc k
  | .reacq _ :: _ => False
  | .unlock _ :: k => okK acc k
  | .fin :: k => okK acc k

/-- The check for what is left to do. -/
def okS [DecidableEq L] (acc : List L → V → Bool → Bool) : List (Frame L V) → Prop
  | .reacq l :: k => l ∈ held k ∧ okK acc k
  | k => okK acc k

theorem okS_of_okK [DecidableEq L] {acc : List L → V → Bool → Bool} {k : List (Frame L V)} (h : okK acc k) : okS acc k := by
  cases k with
  | nil => trivial
  | cons f k => cases f <;> first | exact h | exact h.elim

theorem now_of_okK [DecidableEq L] {acc : List L → V → Bool → Bool} {k : List (Frame L V)} (h : okK acc k) : now k = held k := by
  cases k with
  | nil => rfl
  | cons f k => cases f <;> first | rfl | exact h.elim

structure RInv [DecidableEq L] (acc : List L → V → Bool → Bool) (s : State L V) : Prop where
  ok : ∀ t, okS acc (s.kont t)
  own : ∀ t l, s.own l = some t ↔ l ∈ now (s.kont t)

variable [DecidableEq L] {acc : List L → V → Bool → Bool} {api : M → Prog L V} {recu : L → Bool} {s s' : State L V}

/-- A step that changes thread `t` only and no lock. -/
theorem RInv.same (h : RInv acc s) {t : Nat} {k : List (Frame L V)} (hk : okK acc k) (hh : ∀ l, l ∈ now (s.kont t) ↔ l ∈ held k) :
    RInv acc { s with kont := put s.kont t k } := by
  refine ⟨fun u => ?_, fun u l => ?_⟩ <;> simp only [put] <;> split
  · exact okS_of_okK hk
  · exact h.ok u
  · next e => subst e; rw [now_of_okK hk, ← hh]; exact h.own _ l
  · exact h.own u l

/-- A step that releases `l`, unless it is held more than once. -/
theorem RInv.rel (h : RInv acc s) {t : Nat} {l : L} {k : List (Frame L V)} (hk : okK acc k) (hh : now (s.kont t) = l :: held k) :
    RInv acc ⟨put s.kont t k, if l ∈ held k then s.own else putL s.own l none⟩ := by
  have ho : s.own l = some t := (h.own t l).mpr (by rw [hh]; exact List.mem_cons_self ..)
  refine ⟨fun u => ?_, fun u x => ?_⟩
  · simp only [put]; split
    · exact okS_of_okK hk
    · exact h.ok u
  · have := h.own u x
    simp only [put]
    by_cases hu : u = t
    · subst hu
      rw [if_pos rfl, now_of_okK hk]
      rw [hh, List.mem_cons] at this
      by_cases hl : l ∈ held k
      · rw [if_pos hl, this]
        constructor
        · intro h; rcases h with rfl | h
          · exact hl
          · exact h
        · exact Or.inr
      · rw [if_neg hl]; simp only [putL]
        by_cases hx : x = l
        · subst hx; simp [hl]
        · rw [if_neg hx, this]; simp [hx]
    · rw [if_neg hu, ← this]
      by_cases hl : l ∈ held k
      · rw [if_pos hl]
      · rw [if_neg hl]; simp only [putL]
        by_cases hx : x = l
        · subst hx; rw [if_pos rfl, ho]; simp [Ne.symm hu]
        · rw [if_neg hx]

theorem RInv.init : RInv acc (init : State L V) := by
  refine ⟨fun t => ?_, fun t l => ?_⟩ <;> simp [Race.init, okS, okK, chk, now, held]

theorem RInv.leave (h : RInv acc s) {t : Nat} {b : Bool} {p : Prog L V} {k : List (Frame L V)} (hk : okK acc k) (he : s.kont t = .run p :: k)
    (hs : leave s t b k = some s') : RInv acc s' := by
  have hn : now (s.kont t) = held k := by rw [he]; rfl
  have g : ∀ H : List L, chk acc H (if b then Prog.ret else Prog.brk : Prog L V) = true := by intro H; cases b <;> rfl
  cases k with
  | nil => simp only [Race.leave, Option.some.injEq] at hs; subst hs; exact h.same (k := []) trivial (by simp [hn])
  | cons f k =>
    cases f with
    | run q => simp only [Race.leave, Option.some.injEq] at hs; subst hs; exact h.same ⟨g _, hk.2⟩ (by simp [hn, held])
    | reacq l => exact hk.elim
    | unlock l =>
      simp only [Race.leave, Option.some.injEq] at hs; subst hs
      exact h.rel (k := .run (if b then .ret else .brk) :: k) ⟨g _, hk⟩ hn
    | again q =>
      simp only [Race.leave, Option.some.injEq] at hs; subst hs
      cases b
      · exact h.same hk.2 (by simp [hn, held])
      · exact h.same (k := .run .ret :: k) ⟨rfl, hk.2⟩ (by simp [hn, held])
    | fin => simp only [Race.leave, Option.some.injEq] at hs; subst hs; exact h.same (k := k) hk (by simp [hn, held])

theorem RInv.step (hm : Mono acc) (hapi : ∀ m, chk acc [] (api m) = true) (h : RInv acc s) {t : Nat} {c : Choice M}
    (hs : stepT api recu s t c = some s') : RInv acc s' := by
  have hok := h.ok t
  simp only [stepT] at hs
  split at hs
  · simp at hs
  · next p k he =>
    rw [he] at hok
    have hn : now (s.kont t) = held k := by rw [he]; rfl
    obtain ⟨hp, hk⟩ := hok
    cases p with
    | skip => simp only [Option.some.injEq] at hs; subst hs; exact h.same hk (by simp [hn])
    | rd v => simp only [Option.some.injEq] at hs; subst hs; exact h.same hk (by simp [hn])
    | wr v => simp only [Option.some.injEq] at hs; subst hs; exact h.same hk (by simp [hn])
    | user =>
      cases c with
      | call m =>
        simp only [Option.some.injEq] at hs; subst hs
        refine h.same (k := .run (api m) :: .fin :: .run .user :: k) ⟨chk_mono hm (by simp) (hapi m), rfl, hk⟩ (by simp [hn, held])
      | _ => simp only [Option.some.injEq] at hs; subst hs; exact h.same hk (by simp [hn])
    | wait l =>
      simp only [Option.ite_none_right_eq_some, Option.some.injEq] at hs
      obtain ⟨ho, rfl⟩ := hs
      simp only [chk, decide_eq_true_eq] at hp
      refine ⟨fun u => ?_, fun u x => ?_⟩
      · simp only [put]; split
        · exact ⟨hp, hk⟩
        · exact h.ok u
      · have := h.own u x
        simp only [put, putL]
        by_cases hu : u = t
        · subst hu
          rw [hn] at this
          rw [if_pos rfl]
          simp only [now, List.mem_filter, decide_eq_true_eq]
          by_cases hx : x = l
          · simp [hx]
          · rw [if_neg hx, this]; simp [hx]
        · rw [if_neg hu, ← this]
          by_cases hx : x = l
          · subst hx; simp [ho, Ne.symm hu]
          · rw [if_neg hx]
    | seq p q =>
      simp only [Option.some.injEq] at hs; subst hs
      simp only [chk, Bool.and_eq_true] at hp
      exact h.same (k := .run p :: .run q :: k) ⟨hp.1, hp.2, hk⟩ (by simp [hn, held])
    | alt p q =>
      simp only [chk, Bool.and_eq_true] at hp
      cases c <;> (simp only [Option.some.injEq] at hs; subst hs)
      case left => exact h.same (k := .run p :: k) ⟨hp.1, hk⟩ (by simp [hn, held])
      all_goals exact h.same (k := .run q :: k) ⟨hp.2, hk⟩ (by simp [hn, held])
    | loop p => simp only [Option.some.injEq] at hs; subst hs; exact h.same (k := .run p :: .again p :: k) ⟨hp, hp, hk⟩ (by simp [hn, held])
    | brk => exact h.leave hk he hs
    | ret => exact h.leave hk he hs
    | scope l p =>
      simp only [Option.ite_none_right_eq_some, Option.some.injEq] at hs
      obtain ⟨ho, rfl⟩ := hs
      have hne : ∀ u, u ≠ t → s.own l ≠ some u := by
        intro u hu e; rcases ho with ho | ho
        · rw [ho] at e; simp at e
        · rw [ho.1] at e; exact hu (Option.some.inj e).symm
      refine ⟨fun u => ?_, fun u x => ?_⟩
      · simp only [put]; split
        · exact ⟨hp, hk⟩
        · exact h.ok u
      · have := h.own u x
        simp only [put, putL]
        by_cases hu : u = t
        · subst hu
          rw [hn] at this
          rw [if_pos rfl]
          simp only [now, held, List.mem_cons]
          by_cases hx : x = l
          · simp [hx]
          · rw [if_neg hx, this]; simp [hx]
        · rw [if_neg hu, ← this]
          by_cases hx : x = l
          · subst hx; simp [Ne.symm hu, hne u hu]
          · rw [if_neg hx]
    | call p => simp only [Option.some.injEq] at hs; subst hs; exact h.same (k := .run p :: .fin :: k) ⟨hp, hk⟩ (by simp [hn, held])
  · next l k he =>
    rw [he] at hok
    simp only [Option.some.injEq] at hs; subst hs
    exact h.rel hok (by rw [he]; rfl)
  · next p k he =>
    rw [he] at hok
    simp only [Option.some.injEq] at hs; subst hs
    exact h.same (k := .run p :: .again p :: k) ⟨hok.1, hok⟩ (by rw [he]; simp [now, held])
  · next k he =>
    rw [he] at hok
    simp only [Option.some.injEq] at hs; subst hs
    exact h.same hok (by rw [he]; simp [now, held])
  · next l k he =>
    rw [he] at hok
    simp only [Option.ite_none_right_eq_some, Option.some.injEq] at hs
    obtain ⟨ho, rfl⟩ := hs
    refine ⟨fun u => ?_, fun u x => ?_⟩
    · simp only [put]; split
      · exact okS_of_okK hok.2
      · exact h.ok u
    · have := h.own u x
      simp only [put, putL]
      by_cases hu : u = t
      · subst hu
        rw [he] at this
        simp only [now, List.mem_filter, decide_eq_true_eq] at this
        rw [if_pos rfl, now_of_okK hok.2]
        by_cases hx : x = l
        · subst hx; simp [hok.1]
        · rw [if_neg hx, this]; simp [hx]
      · rw [if_neg hu, ← this]
        by_cases hx : x = l
        · subst hx; simp [Ne.symm hu, ho]
        · rw [if_neg hx]

/-- Reachable by any schedule. -/
abbrev Reachable (api : M → Prog L V) (recu : L → Bool) (s : State L V) : Prop := ∃ tr, Lts.Reach (Race.step api recu) init s tr

theorem Reachable.ind {P : State L V → Prop} (h : Reachable api recu s) (h0 : P init)
    (hstep : ∀ s s' t c, P s → stepT api recu s t c = some s' → P s') : P s := by
  obtain ⟨tr, h⟩ := h
  induction h with
  | init => exact h0
  | step _ hs ih =>
    simp only [Race.step, Option.map_eq_some_iff, Prod.mk.injEq] at hs
    obtain ⟨s1, hs, rfl, _⟩ := hs
    exact hstep _ _ _ _ ih hs

theorem RInv.reach (hm : Mono acc) (hapi : ∀ m, chk acc [] (api m) = true) (h : Reachable api recu s) : RInv acc s :=
  h.ind RInv.init fun _ _ _ _ hi hs => hi.step hm hapi hs

theorem chk_weaken {acc acc' : List L → V → Bool → Bool} (hw : ∀ H v w, acc H v w = true → acc' H v w = true) {p : Prog L V} :
    ∀ {H : List L}, chk acc H p = true → chk acc' H p = true := by
  induction p with
  | skip | user | brk | ret => intros; rfl
  | rd v => intro H h; exact hw _ _ _ h
  | wr v => intro H h; exact hw _ _ _ h
  | wait l => intro H h; exact h
  | seq p q ihp ihq => intro H h; simp only [chk, Bool.and_eq_true] at *; exact ⟨ihp h.1, ihq h.2⟩
  | alt p q ihp ihq => intro H h; simp only [chk, Bool.and_eq_true] at *; exact ⟨ihp h.1, ihq h.2⟩
  | loop p ih => intro H h; exact ih h
  | call p ih => intro H h; exact ih h
  | scope l p ih => intro H h; exact ih (H := l :: H) h

/-- As `byLock`, but accesses to variables with `ign` are not checked. -/
def byLockX (ign imm : V → Bool) (grd : V → L) (H : List L) (v : V) (w : Bool) : Bool := ign v || byLock imm grd H v w

/-- **Soundness of check 1.**  If every access to `v` in every API function is inside a block on the variable's lock (or the variable is never
written), no schedule of any number of threads leads to a data race on `v`. -/
theorem race_free_on {ign imm : V → Bool} {grd : V → L} (hapi : ∀ m, chk (byLockX ign imm grd) [] (api m) = true) (h : Reachable api recu s)
    {t u : Nat} {v : V} {w : Bool} (hne : t ≠ u) (h1 : Accesses s t v true) (h2 : Accesses s u v w) : ign v = true := by
  rcases Bool.eq_false_or_eq_true (ign v) with hi | hi
  · exact hi
  exfalso
  obtain ⟨k, hk⟩ := h1
  obtain ⟨k', hk'⟩ := h2
  have hm : Mono (byLockX ign imm grd) := by
    intro H H' v w hs h
    simp only [byLockX, Bool.or_eq_true] at *
    exact h.imp_right (byLock_mono _ _ _ _ hs)
  have I := RInv.reach hm hapi h
  have ht := I.ok t
  have hu := I.ok u
  rw [hk] at ht; rw [hk'] at hu
  simp only [if_true] at hk ht
  obtain ⟨ht, -⟩ := ht
  simp only [chk, byLockX, hi, Bool.false_or, byLock, if_true, Bool.and_eq_true, Bool.not_eq_true', decide_eq_true_eq] at ht
  have h1 := (I.own t (grd v)).mpr (by rw [hk]; exact ht.2)
  have h2 : grd v ∈ held k' := by
    cases w
    · obtain ⟨hu, -⟩ := hu; simpa [chk, byLockX, hi, byLock, if_true, ht.1] using hu
    · obtain ⟨hu, -⟩ := hu; simpa [chk, byLockX, hi, byLock, if_true, ht.1] using hu
  have h2 := (I.own u (grd v)).mpr (by rw [hk']; exact h2)
  rw [h1] at h2
  exact hne (Option.some.inj h2)

/-- If that holds for every variable, there is no data race. -/
theorem race_free {imm : V → Bool} {grd : V → L} (hapi : ∀ m, guarded imm grd [] (api m) = true) (h : Reachable api recu s) : ¬ Racy s := by
  rintro ⟨t, u, v, w, hne, h1, h2⟩
  have := race_free_on (ign := fun _ => false) (imm := imm) (grd := grd) (fun m => chk_weaken (fun H v w h => by simpa [byLockX] using h) (hapi m)) h hne h1 h2
  simp at this

/-! #### Check 2: locks are taken in ascending order, and none is held while code of the user runs -/

/-- Inside the blocks on `H` (innermost first). -/
def ordered (rank : L → Nat) (recu : L → Bool) (H : List L) : Prog L V → Bool
  | .skip | .rd _ | .wr _ | .brk | .ret => true
  | .user => H.isEmpty
  | .wait l => decide (H.head? = some l) && !recu l
  | .seq p q => ordered rank recu H p && ordered rank recu H q
  | .alt p q => ordered rank recu H p && ordered rank recu H q
  | .loop p => ordered rank recu H p
  | .scope l p => (H.all (fun h => decide (rank h < rank l)) || (recu l && decide (l ∈ H))) && ordered rank recu (l :: H) p
  | .call p => ordered rank recu H p

def okD (rank : L → Nat) (recu : L → Bool) : List (Frame L V) → Prop
  | [] => True
  | .run p :: k => ordered rank recu (held k) p = true ∧ okD rank recu k
  | .again p :: k => ordered rank recu (held k) p = true ∧ okD rank recu k
  | .reacq l :: k => (held k).head? = some l ∧ recu l = false ∧ okD rank recu k
  | .unlock l :: k => ((∀ h ∈ held k, rank h < rank l) ∨ (recu l = true ∧ l ∈ held k)) ∧ okD rank recu k
  | .fin :: k => okD rank recu k

variable {rank : L → Nat}

theorem okD.tail {f : Frame L V} {k : List (Frame L V)} (h : okD rank recu (f :: k)) : okD rank recu k := by
  cases f with
  | run p => exact h.2
  | again p => exact h.2
  | reacq l => exact h.2.2
  | unlock l => exact h.2
  | fin => exact h

theorem okD_ex {t : Nat} {k : List (Frame L V)} (h : ∀ u, okD rank recu (s.kont u)) (hk : okD rank recu k) (u : Nat) : okD rank recu (put s.kont t k u) := by
  simp only [put]; split
  · exact hk
  · exact h u

theorem okD_leave {t : Nat} {b : Bool} {k : List (Frame L V)} (h : ∀ u, okD rank recu (s.kont u)) (hk : okD rank recu k) (hs : leave s t b k = some s') (u : Nat) :
    okD rank recu (s'.kont u) := by
  have g : ∀ H : List L, ordered rank recu H (if b then Prog.ret else Prog.brk : Prog L V) = true := by intro H; cases b <;> rfl
  cases k with
  | nil => simp only [Race.leave, Option.some.injEq] at hs; subst hs; exact okD_ex h (k := []) trivial u
  | cons f k =>
    have ht := hk.tail
    cases f with
    | run q => simp only [Race.leave, Option.some.injEq] at hs; subst hs; exact okD_ex h (k := .run _ :: k) ⟨g _, ht⟩ u
    | reacq l => simp only [Race.leave, Option.some.injEq] at hs; subst hs; exact okD_ex h (k := .run _ :: k) ⟨g _, ht⟩ u
    | unlock l => simp only [Race.leave, Option.some.injEq] at hs; subst hs; exact okD_ex h (k := .run _ :: k) ⟨g _, ht⟩ u
    | again q =>
      simp only [Race.leave, Option.some.injEq] at hs; subst hs
      cases b
      · exact okD_ex h ht u
      · exact okD_ex h (k := .run .ret :: k) ⟨rfl, ht⟩ u
    | fin => simp only [Race.leave, Option.some.injEq] at hs; subst hs; exact okD_ex h ht u

theorem okD_step (hapi : ∀ m, ordered rank recu [] (api m) = true) (h : ∀ u, okD rank recu (s.kont u)) {t : Nat} {c : Choice M}
    (hs : stepT api recu s t c = some s') (u : Nat) : okD rank recu (s'.kont u) := by
  have hok := h t
  simp only [stepT] at hs
  split at hs
  · simp at hs
  · next p k he =>
    rw [he] at hok
    obtain ⟨hp, hk⟩ := hok
    cases p with
    | skip => simp only [Option.some.injEq] at hs; subst hs; exact okD_ex h hk u
    | rd v => simp only [Option.some.injEq] at hs; subst hs; exact okD_ex h hk u
    | wr v => simp only [Option.some.injEq] at hs; subst hs; exact okD_ex h hk u
    | user =>
      simp only [ordered, List.isEmpty_iff] at hp
      cases c with
      | call m =>
        simp only [Option.some.injEq] at hs; subst hs
        refine okD_ex h (k := .run (api m) :: .fin :: .run .user :: k) ⟨?_, ?_, hk⟩ u
        · simp only [held, hp]; exact hapi m
        · simp only [hp]; rfl
      | _ => simp only [Option.some.injEq] at hs; subst hs; exact okD_ex h hk u
    | wait l =>
      simp only [Option.ite_none_right_eq_some, Option.some.injEq] at hs
      obtain ⟨ho, rfl⟩ := hs
      simp only [ordered, Bool.and_eq_true, decide_eq_true_eq, Bool.not_eq_true'] at hp
      exact okD_ex h (k := .reacq l :: k) ⟨hp.1, hp.2, hk⟩ u
    | seq p q =>
      simp only [Option.some.injEq] at hs; subst hs
      simp only [ordered, Bool.and_eq_true] at hp
      exact okD_ex h (k := .run p :: .run q :: k) ⟨hp.1, hp.2, hk⟩ u
    | alt p q =>
      simp only [ordered, Bool.and_eq_true] at hp
      cases c <;> (simp only [Option.some.injEq] at hs; subst hs)
      case left => exact okD_ex h (k := .run p :: k) ⟨hp.1, hk⟩ u
      all_goals exact okD_ex h (k := .run q :: k) ⟨hp.2, hk⟩ u
    | loop p => simp only [Option.some.injEq] at hs; subst hs; exact okD_ex h (k := .run p :: .again p :: k) ⟨hp, hp, hk⟩ u
    | brk => exact okD_leave h hk hs u
    | ret => exact okD_leave h hk hs u
    | scope l p =>
      simp only [Option.ite_none_right_eq_some, Option.some.injEq] at hs
      obtain ⟨ho, rfl⟩ := hs
      simp only [ordered, Bool.and_eq_true, Bool.or_eq_true, List.all_eq_true, decide_eq_true_eq] at hp
      exact okD_ex h (k := .run p :: .unlock l :: k) ⟨hp.2, hp.1, hk⟩ u
    | call p => simp only [Option.some.injEq] at hs; subst hs; exact okD_ex h (k := .run p :: .fin :: k) ⟨hp, hk⟩ u
  · next l k he =>
    rw [he] at hok
    simp only [Option.some.injEq] at hs; subst hs
    exact okD_ex h hok.2 u
  · next p k he =>
    rw [he] at hok
    simp only [Option.some.injEq] at hs; subst hs
    exact okD_ex h (k := .run p :: .again p :: k) ⟨hok.1, hok⟩ u
  · next k he =>
    rw [he] at hok
    simp only [Option.some.injEq] at hs; subst hs
    exact okD_ex h (k := k) hok u
  · next l k he =>
    rw [he] at hok
    simp only [Option.ite_none_right_eq_some, Option.some.injEq] at hs
    obtain ⟨ho, rfl⟩ := hs
    exact okD_ex h hok.2.2 u

theorem okD_reach (hapi : ∀ m, ordered rank recu [] (api m) = true) (h : Reachable api recu s) (u : Nat) : okD rank recu (s.kont u) := by
  refine h.ind (P := fun s => ∀ u, okD rank recu (s.kont u)) (fun _ => ⟨rfl, trivial⟩) (fun _ _ _ _ hi hs => okD_step hapi hi hs) u

theorem chk_of_ordered {H : List L} {p : Prog L V} : ordered rank recu H p = true → chk (fun _ _ _ => true) H p = true := by
  induction p generalizing H with
  | skip | user | brk | ret | rd | wr => intros; rfl
  | wait l =>
    intro h; simp only [ordered, Bool.and_eq_true, decide_eq_true_eq] at h
    simp only [chk, decide_eq_true_eq]
    exact List.mem_of_mem_head? (by rw [h.1]; rfl)
  | seq p q ihp ihq => intro h; simp only [ordered, chk, Bool.and_eq_true] at *; exact ⟨ihp h.1, ihq h.2⟩
  | alt p q ihp ihq => intro h; simp only [ordered, chk, Bool.and_eq_true] at *; exact ⟨ihp h.1, ihq h.2⟩
  | loop p ih => exact ih
  | call p ih => exact ih
  | scope l p ih => intro h; simp only [ordered, Bool.and_eq_true] at h; exact ih h.2

/-- Ownership, from check 2 alone. -/
theorem own_reach (hapi : ∀ m, ordered rank recu [] (api m) = true) (h : Reachable api recu s) : RInv (fun _ _ _ => true) s :=
  RInv.reach (fun _ _ _ _ _ _ => rfl) (fun m => chk_of_ordered (hapi m)) h

/-- **Check 2, first consequence.**  A thread that runs code of the user holds no lock. -/
theorem user_free (hapi : ∀ m, ordered rank recu [] (api m) = true) (h : Reachable api recu s) {t : Nat} {k : List (Frame L V)}
    (hk : s.kont t = .run .user :: k) (l : L) : s.own l ≠ some t := by
  intro ho
  have h1 := ((own_reach hapi h).own t l).mp ho
  have h2 := okD_reach hapi h t
  rw [hk] at h1 h2
  have := h2.1
  simp only [ordered, List.isEmpty_iff] at this
  simp only [now, held, this] at h1
  simp at h1

/-- The locks above which `l` was taken, in what is left to do. -/
theorem rank_head {k : List (Frame L V)} : ∀ {l : L}, okD rank recu k → (held k).head? = some l → recu l = false → ∀ h ∈ held k, h ≠ l → rank h < rank l := by
  induction k with
  | nil => intro l _ h; simp [held] at h
  | cons f k ih =>
    intro l hok hh hr x hx hne
    cases f with
    | unlock l' =>
      simp only [held, List.head?_cons, Option.some.injEq] at hh; subst hh
      simp only [held, List.mem_cons] at hx
      rcases hok.1 with h1 | h1
      · exact h1 x (hx.resolve_left hne)
      · rw [hr] at h1; simp at h1
    | _ => exact ih hok.tail hh hr x hx hne

/-- A lock is only wanted by a thread whose other locks are below it. -/
theorem wants_up (hapi : ∀ m, ordered rank recu [] (api m) = true) (h : Reachable api recu s) {u : Nat} {l l2 : L} (ho : s.own l = some u)
    (hw : Wants s u l2) (hne : s.own l2 ≠ some u) : rank l < rank l2 := by
  have I := own_reach hapi h
  have hm := (I.own u l).mp ho
  have hm2 : l2 ∉ now (s.kont u) := fun h => hne ((I.own u l2).mpr h)
  have hd := okD_reach hapi h u
  rcases hw with ⟨p, k, hk⟩ | ⟨k, hk⟩
  · rw [hk] at hm hm2 hd
    have := hd.1
    simp only [ordered, Bool.and_eq_true, Bool.or_eq_true, List.all_eq_true, decide_eq_true_eq] at this
    rcases this.1 with h1 | h1
    · exact h1 l hm
    · exact absurd h1.2 hm2
  · rw [hk] at hm hd
    simp only [now, List.mem_filter, decide_eq_true_eq] at hm
    exact rank_head hd.2.2 hd.1 hd.2.1 l hm.1 hm.2

/-- A thread that wants a lock gets it, unless another thread has it. -/
theorem wants_key (hapi : ∀ m, ordered rank recu [] (api m) = true) (h : Reachable api recu s) {t : Nat} {l : L} (hw : Wants s t l) :
    CanStep api recu s t ∨ ∃ u, u ≠ t ∧ s.own l = some u := by
  have I := own_reach hapi h
  have D := okD_reach hapi h
  cases ho : s.own l with
  | none =>
    left
    rcases hw with ⟨p, k, hk⟩ | ⟨k, hk⟩
    · exact ⟨.go, by simp [stepT, hk, ho]⟩
    · exact ⟨.go, by simp [stepT, hk, ho]⟩
  | some u =>
    by_cases hu : u = t
    · subst hu
      have hm := (I.own u l).mp ho
      rcases hw with ⟨p, k, hk⟩ | ⟨k, hk⟩
      · have hd := D u
        rw [hk] at hd hm
        have := hd.1
        simp only [ordered, Bool.and_eq_true, Bool.or_eq_true, List.all_eq_true, decide_eq_true_eq] at this
        rcases this.1 with h1 | h1
        · exact absurd (h1 l hm) (Nat.lt_irrefl _)
        · exact Or.inl ⟨.go, by simp [stepT, hk, ho, h1.1]⟩
      · rw [hk] at hm; simp [now] at hm
    · exact Or.inr ⟨u, hu, rfl⟩

/-- **Check 2, second consequence.**  Locks never deadlock: whenever a thread wants a lock, that thread can go on, or some thread that holds a
lock (that one or one above it) can. -/
theorem no_deadlock (hapi : ∀ m, ordered rank recu [] (api m) = true) {B : Nat} (hB : ∀ l, rank l ≤ B) (h : Reachable api recu s) :
    ∀ (n : Nat) (t : Nat) (l : L), B - rank l ≤ n → Wants s t l →
      CanStep api recu s t ∨ ∃ w l', rank l ≤ rank l' ∧ s.own l' = some w ∧ CanStep api recu s w := by
  have I := own_reach hapi h
  have D := okD_reach hapi h
  have key : ∀ t l, Wants s t l → CanStep api recu s t ∨ ∃ u, u ≠ t ∧ s.own l = some u := fun t l hw => wants_key hapi h hw
  have up : ∀ u l l2, s.own l = some u → Wants s u l2 → s.own l2 ≠ some u → rank l < rank l2 := fun u l l2 ho hw hne => wants_up hapi h ho hw hne
  have canOf : ∀ w l', s.own l' = some w → (∀ l, ¬ Wants s w l) → CanStep api recu s w := by
    intro w l' ho hn
    have hm := (I.own w l').mp ho
    match hk : s.kont w with
    | [] => rw [hk] at hm; simp [now, held] at hm
    | .unlock x :: k => exact ⟨.go, by simp [stepT, hk]⟩
    | .again p :: k => exact ⟨.go, by simp [stepT, hk]⟩
    | .fin :: k => exact ⟨.go, by simp [stepT, hk]⟩
    | .reacq x :: k => exact absurd (Or.inr ⟨k, hk⟩) (hn x)
    | .run p :: k =>
      have hl : ∀ b, (leave s w b k).isSome := by
        intro b
        cases k with
        | nil => rfl
        | cons f k => cases f <;> rfl
      cases p with
      | scope x p => exact absurd (Or.inl ⟨p, k, hk⟩) (hn x)
      | wait x =>
        have hd := (D w); rw [hk] at hd
        have := hd.1
        simp only [ordered, Bool.and_eq_true, decide_eq_true_eq] at this
        have ho : s.own x = some w := (I.own w x).mpr (by rw [hk]; exact List.mem_of_mem_head? (l := held k) (by rw [this.1]; rfl))
        exact ⟨.go, by simp [stepT, hk, ho]⟩
      | brk => exact ⟨.go, by simp only [stepT, hk]; exact hl false⟩
      | ret => exact ⟨.go, by simp only [stepT, hk]; exact hl true⟩
      | _ => exact ⟨.go, by simp [stepT, hk]⟩
  intro n
  induction n with
  | zero =>
    intro t l hb hw
    rcases key t l hw with h1 | ⟨u, hu, ho⟩
    · exact Or.inl h1
    · right
      by_cases hn : ∃ l2, Wants s u l2
      · obtain ⟨l2, hw2⟩ := hn
        rcases key u l2 hw2 with h2 | ⟨x, hx, ho2⟩
        · exact ⟨u, l, Nat.le_refl _, ho, h2⟩
        · exfalso
          have : rank l < rank l2 := up u l l2 ho hw2 (by rw [ho2]; simpa using hx)
          have := hB l2
          omega
      · exact ⟨u, l, Nat.le_refl _, ho, canOf u l ho (fun l2 h2 => hn ⟨l2, h2⟩)⟩
  | succ n ih =>
    intro t l hb hw
    rcases key t l hw with h1 | ⟨u, hu, ho⟩
    · exact Or.inl h1
    · right
      by_cases hn : ∃ l2, Wants s u l2
      · obtain ⟨l2, hw2⟩ := hn
        rcases key u l2 hw2 with h2 | ⟨x, hx, ho2⟩
        · exact ⟨u, l, Nat.le_refl _, ho, h2⟩
        · have hlt : rank l < rank l2 := up u l l2 ho hw2 (by rw [ho2]; simpa using hx)
          have := hB l2
          rcases ih u l2 (by omega) hw2 with h3 | ⟨w, l', h3, h4, h5⟩
          · exact ⟨u, l, Nat.le_refl _, ho, h3⟩
          · exact ⟨w, l', by omega, h4, h5⟩
      · exact ⟨u, l, Nat.le_refl _, ho, canOf u l ho (fun l2 h2 => hn ⟨l2, h2⟩)⟩

end Verif.Race
