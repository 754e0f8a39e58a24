import Verif.Proof.ThreadPoolClient
/-
C93: what a thread pool hands from one thread to another is never used by two threads at once.  The thread pool has no lock around these members:
they are passed on by the free-runner queue, by starting a thread and by waiting for it.  Model: Model/ThreadPool.lean.
-/
namespace Verif.Props.PoolRace
open Verif
open _root_.Verif.Mtx (Tid)
open _root_.Verif.EvF (Tmo)
open TP Spec Lts Proto
set_option linter.unusedSimpArgs false

/-! #### Specification -/

/-- Who executes: a client of the pool, or a pool thread. -/
inductive Actor where
  | client (t : Tid)
  | pool (i : Rid)
  deriving DecidableEq

/-- The things that are shared without a lock. -/
inductive Loc where
  | task (i : Rid)                 -- TaskRunner::m_task
  | needs (i : Rid)                -- TaskRunner::m_needsWaiting
  | guard (g : Gid)                -- WaitGuard::m_runner
  | life (i : Rid)                 -- the TaskRunner, its thread and its event flag themselves: used, or destroyed (a write)
  deriving DecidableEq

/-- What a client accesses in its next step; `true`: it writes.  By the lines of ThreadPool.cpp. -/
def clientAcc (s : TP.St) : Call → Pos → List (Loc × Bool)
  | _, .sWait i => [(.life i, false)]                                                              -- TP:193-194
  | _, .sSet i => [(.task i, true), (.needs i, true), (.life i, false)]                            -- TP:246-247
  | _, .sPrio i | _, .sGo i => [(.life i, false)]                                                  -- TP:248-249
  | .start _ _ (some g) _, .sGuard _ => [(.guard g, true)]                                         -- TP:201-203
  | .wait g _, .wEnter => [(.guard g, false)]                                                      -- TP:333
  | .wait g _, .wWait i => [(.guard g, false), (.life i, false)]                                   -- TP:336
  | .release g, .rEnter => [(.guard g, false)]                                                     -- TP:314
  | .release g, .rWait i => [(.guard g, false), (.life i, false)]                                  -- TP:315
  | .release g, .rReset i | .release g, .rSend i => [(.guard g, false), (.life i, false)]          -- TP:316, 292-293
  | .release g, .rClear => [(.guard g, true)]                                                      -- TP:317
  | .isValid g, .vEnter => [(.guard g, false)]                                                     -- TP:341
  | .destroy, .dWait j => if j < s.n then [(.life j, false)] else []                               -- TP:124-126
  | .destroy, .dDrain => (s.free.head?.toList).map fun i => (.life i, true)                        -- TP:154-157
  | _, _ => []

/-- What pool thread `i` accesses in its next step. -/
def poolAcc (i : Rid) : W → List (Loc × Bool)
  | .finished | .dead => []
  | .pending => [(.task i, false), (.life i, false)]                                               -- TP:270-271
  | .branch _ => [(.needs i, false), (.life i, false)]                                             -- TP:278
  | .inTask _ | .prio _ | .notify _ | .reset _ | .send _ | .leave _ | .over => [(.life i, false)]

def accesses (s : TP.St) : Actor → List (Loc × Bool)
  | .client t => match s.pc t with
    | .idle => []
    | .on c p => clientAcc s c p
  | .pool i => poolAcc i (s.w i)

/-- Two threads are about to access the same thing, one of them to write or destroy it. -/
def Racy (s : TP.St) : Prop := ∃ a b x w, a ≠ b ∧ (x, true) ∈ accesses s a ∧ (x, w) ∈ accesses s b

/-! #### Proof -/

theorem client_write {s : TP.St} {c : Call} {p : Pos} {x : Loc} (h : (x, true) ∈ clientAcc s c p) :
    (∃ i, p = .sSet i ∧ (x = .task i ∨ x = .needs i)) ∨
    (∃ g b, uses c = some (g, b) ∧ b = true ∧ x = .guard g) ∨
    (c = .destroy ∧ p = .dDrain ∧ ∃ i rest, s.free = i :: rest ∧ x = .life i) := by
  unfold clientAcc at h
  split at h <;> try simp only [List.mem_cons, List.not_mem_nil, or_false, Prod.mk.injEq, Bool.true_eq_false, and_false, reduceCtorEq, and_true, false_or] at h
  · exact Or.inl ⟨_, rfl, h⟩
  · exact Or.inr (Or.inl ⟨_, _, rfl, rfl, h⟩)
  · exact Or.inr (Or.inl ⟨_, _, rfl, rfl, h⟩)
  · split at h <;> simp at h
  · cases hf : s.free with
    | nil => simp [hf] at h
    | cons i rest => simp [hf] at h; exact Or.inr (Or.inr ⟨rfl, rfl, i, rest, rfl, h⟩)

theorem client_guard {s : TP.St} {c : Call} {p : Pos} {g : Gid} {w : Bool} (h : (.guard g, w) ∈ clientAcc s c p) :
    ∃ b, uses c = some (g, b) := by
  unfold clientAcc at h
  split at h <;> try simp only [List.mem_cons, List.not_mem_nil, or_false, Prod.mk.injEq, reduceCtorEq, false_and, false_or, Loc.guard.injEq] at h
  all_goals first
    | (obtain ⟨rfl, _⟩ := h; exact ⟨_, rfl⟩)
    | (split at h <;> simp at h; done)
    | (simp only [List.mem_map, Prod.mk.injEq, reduceCtorEq, false_and, and_false, exists_false] at h)

theorem client_field {s : TP.St} {c : Call} {p : Pos} {i : Rid} {w : Bool} (h : (.task i, w) ∈ clientAcc s c p ∨ (.needs i, w) ∈ clientAcc s c p) :
    p = .sSet i := by
  unfold clientAcc at h
  split at h <;> try simp only [List.mem_cons, List.not_mem_nil, or_false, Prod.mk.injEq, reduceCtorEq, false_and, false_or, Loc.task.injEq, Loc.needs.injEq] at h
  all_goals first
    | (rcases h with h | h <;> rw [h.1]; done)
    | (split at h <;> simp at h; done)
    | (simp only [List.mem_map, Prod.mk.injEq, reduceCtorEq, false_and, and_false, exists_false, or_self] at h)

theorem pool_read {i : Rid} {v : W} {x : Loc} {w : Bool} (h : (x, w) ∈ poolAcc i v) :
    w = false ∧ v ≠ .finished ∧ v ≠ .dead ∧ (x = .life i ∨ x = .task i ∨ x = .needs i) := by
  cases v <;> simp [poolAcc] at h ⊢
  all_goals (first | (rcases h with h | h <;> simp [h]; done) | simp [h])

/-- **C93.**  In every execution (any number of threads, clients, tasks and guards, every schedule, tasks that throw, calls that time out): no two threads
are ever about to access the same task pointer, wait flag, guard or pool thread object when one of them writes or destroys it. -/
theorem C93_race_free {n : Nat} {d : Int} {s : TP.St} {tr : List Ev} (h : Reach TP.step (TP.init n d) s tr) : ¬ Racy s := by
  have I := (Inv.reach h).st
  rintro ⟨a, b, x, w, hne, h1, h2⟩
  cases a with
  | pool i => exact absurd (pool_read h1).1 (by simp)
  | client t =>
    simp only [accesses] at h1
    cases hp : s.pc t with
    | idle => simp [hp] at h1
    | on c p =>
      simp only [hp] at h1
      have hcs := I.cs t
      rw [hp] at hcs
      rcases client_write h1 with ⟨i, rfl, hx⟩ | ⟨g, _, hu, rfl, rfl⟩ | ⟨rfl, rfl, i, rest, hf, rfl⟩
      · have hi : s.own i = .client t ∧ s.w i = .finished := by
          cases c <;> simp only [CShape] at hcs
          next k tm g q => cases k <;> simp only [CShape] at hcs; exact hcs.2
        cases b with
        | pool j =>
          have := pool_read h2
          rcases hx with rfl | rfl <;> simp at this <;> (obtain ⟨_, hv, _, rfl⟩ := this; exact hv hi.2)
        | client u =>
          simp only [accesses] at h2
          cases hq : s.pc u with
          | idle => simp [hq] at h2
          | on c' q =>
            simp only [hq] at h2
            have : q = .sSet i := by
              rcases hx with rfl | rfl
              · exact client_field (Or.inl h2)
              · exact client_field (Or.inr h2)
            subst this
            have hcu := I.cs u
            rw [hq] at hcu
            have : s.own i = .client u := by
              cases c' <;> simp only [CShape] at hcu
              next k tm g q => cases k <;> simp only [CShape] at hcu; exact hcu.2.1
            rw [hi.1] at this
            simp only [Own.client.injEq] at this
            exact hne (by rw [this])
      · cases b with
        | pool j => have := (pool_read h2).2.2.2; simp at this
        | client u =>
          simp only [accesses] at h2
          cases hq : s.pc u with
          | idle => simp [hq] at h2
          | on c' q =>
            simp only [hq] at h2
            obtain ⟨b', hb⟩ := client_guard h2
            refine I.ex t u g (fun e => hne (by rw [e])) ⟨c, p, hp, hu⟩ ⟨c', q, b', hq, hb⟩
      · have hd := I.dy t _ hp
        cases b with
        | client u =>
          have := I.al t hd u (fun e => hne (by rw [e]))
          simp [accesses, this] at h2
        | pool j =>
          have hj := pool_read h2
          simp only [Loc.life.injEq, reduceCtorEq, or_false] at hj
          obtain ⟨_, h3, h4, rfl⟩ := hj
          simp only [CShape] at hcs
          have hn : i < s.n := by
            by_cases hi : i < s.n
            · exact hi
            · have := I.od i (by rw [I.cn] at hi; exact Nat.le_of_not_lt hi)
              have h5 := (I.fo i).1 (by rw [hf]; exact List.mem_cons_self ..)
              rw [this] at h5; cases h5
          rcases hcs i hn with e | e
          · exact h3 e
          · exact h4 e


def c0 : Call := .start (some 5) .forever none 3
/-- A task has run on the only thread; a second start has taken the thread from the queue and is about to write the task while the other client waits. -/
def demo : List Act := [.call 0 c0] ++ List.replicate 8 (.go 0) ++ List.replicate 6 (.pgo 0) ++ [.call 0 c0, .go 0, .go 0] ++ List.replicate 2 (.pgo 0)
  ++ [.call 1 c0, .go 1, .go 0]
/-- The same up to the moment when the thread decides whom to tell. -/
def demo2 : List Act := [.call 0 c0] ++ List.replicate 8 (.go 0) ++ List.replicate 3 (.pgo 0)

example : ∃ s tr, Reach TP.step (TP.init 1 0) s tr ∧ (.task 0, true) ∈ accesses s (.client 0) ∧ s.pc 1 = .on c0 .sRecv := by
  obtain ⟨s, tr, h, hp⟩ := Lts.runSat_ex (step := TP.step) (init := TP.init 1 0) (as := demo)
    (P := fun s _ => decide ((.task 0, true) ∈ accesses s (.client 0) ∧ s.pc 1 = .on c0 .sRecv)) (by decide)
  exact ⟨s, tr, h, of_decide_eq_true hp⟩
example : ∃ s tr, Reach TP.step (TP.init 1 0) s tr ∧ (.needs 0, false) ∈ accesses s (.pool 0) := by
  obtain ⟨s, tr, h, hp⟩ := Lts.runSat_ex (step := TP.step) (init := TP.init 1 0) (as := demo2)
    (P := fun s _ => decide ((.needs 0, false) ∈ accesses s (.pool 0))) (by decide)
  exact ⟨s, tr, h, of_decide_eq_true hp⟩

theorem killed_phase {d : Int} {i : Rid} : ∀ (tr : List Ev) (r : RP), (.kill i ∈ tr ∨ r = .dead ∨ r = .bad) → tr.foldl (RP.next d i) r = .dead ∨ tr.foldl (RP.next d i) r = .bad
  | [], r, h => by simpa using h
  | e :: tr, r, h => by
    simp only [List.foldl_cons]
    apply killed_phase tr
    by_cases hr : r = .dead ∨ r = .bad
    · right
      rcases hr with rfl | rfl <;> cases e <;> simp only [RP.next] <;> (repeat' split) <;> simp_all
    · simp only [List.mem_cons] at h
      rcases h with (rfl | h) | h
      · right; simp only [RP.next, if_true]; split <;> simp
      · exact Or.inl h
      · exact absurd h hr

theorem killed_dead {n : Nat} {d : Int} {s : TP.St} {tr : List Ev} (I : Inv n d s tr) {i : Rid} (hk : .kill i ∈ tr) : s.w i = .dead ∧ s.own i = .dead := by
  have h1 := killed_phase (d := d) tr (if i < n then RP.rest else RP.dead) (Or.inl hk)
  have h2 := I.tc.rp i
  simp only [rphase] at h2
  rw [h2] at h1
  have hr := I.st.rs i
  simp only [absR] at h1
  cases hw : s.w i <;> simp only [hw] at h1 <;> try (simp at h1; done)
  · cases ht : s.task i with
    | some k => simp [ht] at h1
    | none => simp only [RShape, hw, ht, late, busyP, busyG] at hr; split at hr <;> simp at hr
  · refine ⟨rfl, ?_⟩
    simp only [RShape, hw, late, busyP, busyG] at hr
    split at hr <;> simp_all

/-- While destroy waits for the threads none has been destroyed. -/
def Waiting (s : TP.St) : Prop := ∀ t j, s.pc t = .on .destroy (.dWait j) → ∀ i, i < s.n → s.own i ≠ .dead

theorem Waiting.step {n : Nat} {d : Int} {s s' : TP.St} {tr ev : List Ev} {a : Act} (I : Inv n d s tr) (J : Waiting s) (hs : TP.step s a = some (s', ev)) : Waiting s' := by
  have hdd := I.st.dd
  rw [← I.st.cn] at hdd
  have hdy := I.st.dy
  have hal := I.st.al
  simp only [Waiting] at J
  clear I
  intro t j hp i hi
  cases a <;> simp only [TP.step] at hs <;> (repeat' split at hs) <;> simp only [Option.some.injEq, Prod.mk.injEq, reduceCtorEq] at hs <;>
    (try (obtain ⟨rfl, rfl⟩ := hs)) <;> simp only [St.at, St.wAt, St.ownAt, St.evAt, upd, entry] at hp hi ⊢ <;> grind [entry, toOwn]

theorem waiting {n : Nat} {d : Int} {s : TP.St} {tr : List Ev} (h : Reach TP.step (TP.init n d) s tr) : Waiting s := by
  induction h with
  | init => intro t j hp; simp [TP.init] at hp
  | step h hs ih => exact Waiting.step (Inv.reach h) ih hs

theorem life_own {n : Nat} {d : Int} {s : TP.St} {tr : List Ev} (h : Reach TP.step (TP.init n d) s tr) {a : Actor} {i : Rid} {w : Bool}
    (ha : (.life i, w) ∈ accesses s a) : s.own i ≠ .dead := by
  have I := (Inv.reach h).st
  have J := waiting h
  cases a with
  | pool j =>
    have := pool_read ha
    simp only [Loc.life.injEq, reduceCtorEq, or_false] at this
    obtain ⟨_, _, hd, rfl⟩ := this
    intro ho
    have := I.rs i
    simp only [RShape, ho] at this
    exact hd this
  | client t =>
    have hcs := I.cs t
    simp only [accesses] at ha
    cases hp : s.pc t with
    | idle => simp [hp] at ha
    | on c p =>
      simp only [hp] at ha hcs
      unfold clientAcc at ha
      split at ha <;> try simp only [List.mem_cons, List.not_mem_nil, or_false, Prod.mk.injEq, reduceCtorEq, false_and, false_or, Loc.life.injEq] at ha
      all_goals first
        | (obtain ⟨rfl, _⟩ := ha
           first
             | (rw [hcs.2]; simp; done)
             | (rw [hcs.2.1]; simp; done)
             | (cases c <;> simp only [CShape] at hcs
                next k _ _ _ => cases k <;> simp only [CShape] at hcs
                                first
                                  | (rw [hcs.2]; simp; done)
                                  | (rw [hcs.2.1]; simp; done)))
        | (split at ha <;> simp only [List.mem_cons, List.not_mem_nil, or_false, Prod.mk.injEq, Loc.life.injEq] at ha
           obtain ⟨rfl, _⟩ := ha
           next hn => exact J t _ hp _ hn)
        | (simp only [List.mem_map, Prod.mk.injEq, Loc.life.injEq, Option.mem_toList] at ha
           obtain ⟨_, hf, rfl, _⟩ := ha
           have := (I.fo _).1 (List.mem_of_mem_head? hf)
           rw [this]; simp)

/-- A destroyed pool thread (with its TaskRunner and event flag) is never used again. -/
theorem C93_no_use_after_destroy {n : Nat} {d : Int} {s : TP.St} {tr : List Ev} (h : Reach TP.step (TP.init n d) s tr) {i : Rid} (hk : .kill i ∈ tr)
    (a : Actor) (w : Bool) : (.life i, w) ∉ accesses s a :=
  fun ha => life_own h ha (killed_dead (Inv.reach h) hk).2

example : ∃ s tr, Reach TP.step (TP.init 2 0) s tr ∧ .kill 0 ∈ tr ∧ (.life 1, true) ∈ accesses s (.client 0) := by
  obtain ⟨s, tr, h, hp⟩ := Lts.runSat_ex (step := TP.step) (init := TP.init 2 0) (as := .call 0 .destroy :: List.replicate 4 (.go 0))
    (P := fun s tr => decide (.kill 0 ∈ tr ∧ (.life 1, true) ∈ accesses s (.client 0))) (by decide)
  exact ⟨s, tr, h, of_decide_eq_true hp⟩

end Verif.Props.PoolRace
