import Verif.Model.StdPool
/-
C89: the StdCpp (Posix, Windows) memory pools.
-/
namespace Verif.Props.StdPool
open Verif Verif.StdPool PoolSpec
open _root_.Verif.Lts (Reach)

variable {k : Kind} {s s' : HSt} {tr : List Call}

/-- An execution. -/
abbrev Exec (k : Kind) (s : HSt) (tr : List Call) : Prop := Reach (step k) HSt.init s tr

/-- What the caller knows. -/
abbrev knows (k : Kind) (tr : List Call) : Known := known (decide (k = .fixed)) tr

/-- The caller gives back only blocks it holds, to the pool they came from. -/
def Proper (k : Kind) (tr : List Call) : Prop := ∀ a b i x, tr = a ++ .dealloc i (some x) :: b → ∃ l, ⟨i, x, l⟩ ∈ (knows k a).out

/-- The caller gives back all blocks of a pool before destroying it. -/
def Tidy (k : Kind) (tr : List Call) : Prop := ∀ a b i, tr = a ++ .destroy i :: b → ∀ x ∈ (knows k a).out, x.pool ≠ i

theorem known_app (f : Bool) (tr : List Call) (c : Call) : known f (tr ++ [c]) = (known f tr).next f c := by simp [known, List.foldl_append]

structure Inv (k : Kind) (s : HSt) (tr : List Call) : Prop where
  pl : ∀ i, ((knows k tr).pool i).map (·.1) = s.pool i
  hn : (s.heap.map (·.1)).Nodup
  hd : s.heap.Pairwise fun b c => b.1 + b.2 ≤ c.1 ∨ c.1 + c.2 ≤ b.1
  hz : ∀ b ∈ s.heap, 0 < b.1
  ou : Proper k tr → ∀ x ∈ (knows k tr).out, (x.addr, x.len) ∈ s.heap ∧ s.pool x.pool ≠ none
  on : Proper k tr → ((knows k tr).out.map (·.addr)).Nodup
  ub : Proper k tr → s.ub = false
  td : Proper k tr → Tidy k tr → ∀ b ∈ s.heap, ∃ x ∈ (knows k tr).out, x.addr = b.1

theorem Proper.left {tr : List Call} {c : Call} (h : Proper k (tr ++ [c])) : Proper k tr := fun a b i x e => h a (b ++ [c]) i x (by rw [e]; simp)
theorem Tidy.left {tr : List Call} {c : Call} (h : Tidy k (tr ++ [c])) : Tidy k tr := fun a b i e => h a (b ++ [c]) i (by rw [e]; simp)

theorem inj_of_nodup {l : List Block} (h : (l.map (·.addr)).Nodup) {x y : Block} (hx : x ∈ l) (hy : y ∈ l) (e : x.addr = y.addr) : x = y := by
  induction l with
  | nil => simp at hx
  | cons z l ih =>
    simp only [List.map_cons, List.nodup_cons, List.mem_map, not_exists, not_and] at h
    rcases List.mem_cons.mp hx with ex | hx' <;> rcases List.mem_cons.mp hy with ey | hy'
    · rw [ex, ey]
    · exact absurd (by rw [← ex]; exact e.symm) (h.1 y hy')
    · exact absurd (by rw [← ey]; exact e) (h.1 x hx')
    · exact ih h.2 hx' hy'

theorem Inv.step (h : Inv k s tr) {a : StdPool.Act} {ev : List Call} (hs : StdPool.step k s a = some (s', ev)) : Inv k s' (tr ++ ev) := by
  obtain ⟨pl, hn, hd, hz, ou, on, ub, td⟩ := h
  cases a with
  | create bs size base ans =>
    simp only [StdPool.step] at hs
    have quiet : Inv k s (tr ++ [.create bs size none]) := by
      have e : knows k (tr ++ [.create bs size none]) = knows k tr := by simp only [knows, known_app]; rfl
      refine ⟨?_, hn, hd, hz, fun hp => ?_, fun hp => ?_, fun hp => ub hp.left, fun hp ht => ?_⟩ <;> rw [e]
      · exact pl
      · exact ou hp.left
      · exact on hp.left
      · exact td hp.left ht.left
    split at hs
    · simp only [Option.some.injEq, Prod.mk.injEq] at hs; obtain ⟨rfl, rfl⟩ := hs; exact quiet
    · cases ans with
      | none => simp only [Option.some.injEq, Prod.mk.injEq] at hs; obtain ⟨rfl, rfl⟩ := hs; exact quiet
      | some i =>
        simp only [Option.ite_none_right_eq_some, Option.some.injEq, Prod.mk.injEq] at hs
        obtain ⟨hi, rfl, rfl⟩ := hs
        have e : knows k (tr ++ [.create bs size (some i)]) = { knows k tr with pool := fun j => if j = i then some (bs, size) else (knows k tr).pool j } := by
          simp only [knows, known_app]; rfl
        refine ⟨?_, hn, hd, hz, fun hp => ?_, fun hp => ?_, fun hp => ub hp.left, fun hp ht => ?_⟩ <;> rw [e]
        · intro j; simp only [put]; split
          · rfl
          · exact pl j
        · intro x hx; refine ⟨(ou hp.left x hx).1, ?_⟩
          simp only [put]; split
          · simp
          · exact (ou hp.left x hx).2
        · exact on hp.left
        · exact td hp.left ht.left
  | destroy i =>
    simp only [StdPool.step, Option.ite_none_right_eq_some, Option.some.injEq, Prod.mk.injEq] at hs
    obtain ⟨hi, rfl, rfl⟩ := hs
    have e : knows k (tr ++ [.destroy i]) = ⟨fun j => if j = i then none else (knows k tr).pool j, (knows k tr).out.filter (·.pool ≠ i)⟩ := by
      simp only [knows, known_app]; rfl
    refine ⟨?_, hn, hd, hz, fun hp => ?_, fun hp => ?_, fun hp => ub hp.left, fun hp ht => ?_⟩ <;> rw [e]
    · intro j; simp only [put]; split
      · rfl
      · exact pl j
    · intro x hx
      simp only [List.mem_filter, decide_eq_true_eq] at hx
      refine ⟨(ou hp.left x hx.1).1, ?_⟩
      simp only [put, hx.2, if_false]; exact (ou hp.left x hx.1).2
    · exact (on hp.left).sublist (List.Sublist.map _ List.filter_sublist)
    · intro b hb
      obtain ⟨x, hx, e2⟩ := td hp.left ht.left b hb
      exact ⟨x, by simp only [List.mem_filter, decide_eq_true_eq]; exact ⟨hx, ht tr [] i rfl x hx⟩, e2⟩
  | alloc i size ans =>
    simp only [StdPool.step] at hs
    split at hs
    · simp at hs
    · next bs hb =>
      cases ans with
      | none =>
        simp only [Option.some.injEq, Prod.mk.injEq] at hs; obtain ⟨rfl, rfl⟩ := hs
        have e : knows k (tr ++ [.alloc i size none]) = knows k tr := by simp only [knows, known_app]; rfl
        refine ⟨?_, hn, hd, hz, fun hp => ?_, fun hp => ?_, fun hp => ub hp.left, fun hp ht => ?_⟩ <;> rw [e]
        · exact pl
        · exact ou hp.left
        · exact on hp.left
        · exact td hp.left ht.left
      | some a =>
        simp only [Option.ite_none_right_eq_some, Option.some.injEq, Prod.mk.injEq] at hs
        obtain ⟨hm, rfl, rfl⟩ := hs
        simp only [mallocOk, Bool.and_eq_true, decide_eq_true_eq, List.all_eq_true] at hm
        have hl : (if decide (k = .fixed) = true then (((knows k tr).pool i).map (·.1)).getD 0 else size) = want k bs size := by
          rw [pl i, hb]; cases k <;> simp [want]
        have e : knows k (tr ++ [.alloc i size (some a)]) = { knows k tr with out := ⟨i, a, want k bs size⟩ :: (knows k tr).out } := by
          simp only [knows, known_app, Known.next]
          rw [show (known (decide (k = .fixed)) tr) = knows k tr from rfl, hl]
        have hna : ∀ b ∈ s.heap, b.1 ≠ a := fun b hb => (hm.2 b hb).1
        refine ⟨?_, ?_, ?_, ?_, fun hp => ?_, fun hp => ?_, fun hp => ub hp.left, fun hp ht => ?_⟩ <;> (try rw [e])
        · exact pl
        · simp only [List.map_cons, List.nodup_cons, List.mem_map, not_exists, not_and]
          exact ⟨fun b hb => hna b hb, hn⟩
        · exact List.pairwise_cons.mpr ⟨fun b hb => (hm.2 b hb).2, hd⟩
        · intro b hb
          rcases List.mem_cons.mp hb with rfl | hb
          · exact hm.1
          · exact hz b hb
        · intro x hx
          rcases List.mem_cons.mp hx with rfl | hx
          · exact ⟨List.mem_cons_self .., by simp [hb]⟩
          · exact ⟨List.mem_cons_of_mem _ (ou hp.left x hx).1, (ou hp.left x hx).2⟩
        · simp only [List.map_cons, List.nodup_cons, List.mem_map, not_exists, not_and]
          exact ⟨fun x hx => hna _ (ou hp.left x hx).1, on hp.left⟩
        · intro b hb
          rcases List.mem_cons.mp hb with rfl | hb
          · exact ⟨_, List.mem_cons_self .., rfl⟩
          · obtain ⟨x, hx, e2⟩ := td hp.left ht.left b hb; exact ⟨x, List.mem_cons_of_mem _ hx, e2⟩
  | dealloc i a =>
    simp only [StdPool.step] at hs
    split at hs
    · simp at hs
    · next bs hb =>
      cases a with
      | none =>
        simp only [Option.some.injEq, Prod.mk.injEq] at hs; obtain ⟨rfl, rfl⟩ := hs
        have e : knows k (tr ++ [.dealloc i none]) = knows k tr := by simp only [knows, known_app]; rfl
        refine ⟨?_, hn, hd, hz, fun hp => ?_, fun hp => ?_, fun hp => ub hp.left, fun hp ht => ?_⟩ <;> rw [e]
        · exact pl
        · exact ou hp.left
        · exact on hp.left
        · exact td hp.left ht.left
      | some a =>
        simp only [Option.some.injEq, Prod.mk.injEq] at hs; obtain ⟨rfl, rfl⟩ := hs
        have e : knows k (tr ++ [.dealloc i (some a)]) = { knows k tr with out := (knows k tr).out.filter fun b => ¬ (b.pool = i ∧ b.addr = a) } := by
          simp only [knows, known_app]; rfl
        have own : Proper k (tr ++ [.dealloc i (some a)]) → ∃ l, ⟨i, a, l⟩ ∈ (knows k tr).out := fun hp => hp tr [] i a rfl
        refine ⟨?_, ?_, ?_, ?_, fun hp => ?_, fun hp => ?_, fun hp => ?_, fun hp ht => ?_⟩ <;> (try rw [e])
        · exact pl
        · exact hn.sublist (List.Sublist.map _ List.filter_sublist)
        · exact hd.sublist List.filter_sublist
        · intro b hb; exact hz b (List.mem_filter.mp hb).1
        · intro x hx
          simp only [List.mem_filter, decide_eq_true_eq] at hx ⊢
          obtain ⟨l, hl⟩ := own hp
          refine ⟨⟨(ou hp.left x hx.1).1, fun ea => hx.2 ?_⟩, (ou hp.left x hx.1).2⟩
          have := inj_of_nodup (on hp.left) hx.1 hl ea
          subst this; exact ⟨rfl, rfl⟩
        · exact (on hp.left).sublist (List.Sublist.map _ List.filter_sublist)
        · obtain ⟨l, hl⟩ := own hp
          have := (ou hp.left _ hl).1
          simp only [ub hp.left, Bool.false_or, Bool.not_eq_false', List.any_eq_true, beq_iff_eq]
          exact ⟨_, this, rfl⟩
        · intro b hb
          simp only [List.mem_filter, decide_eq_true_eq] at hb
          obtain ⟨x, hx, e2⟩ := td hp.left ht.left b hb.1
          refine ⟨x, ?_, e2⟩
          simp only [List.mem_filter, decide_eq_true_eq]
          exact ⟨hx, fun h => hb.2 (e2 ▸ h.2)⟩

theorem Inv.init : Inv k HSt.init [] := by
  refine ⟨fun _ => rfl, ?_, ?_, ?_, ?_, ?_, fun _ => rfl, ?_⟩ <;> simp [HSt.init, knows, known, Known.init]

theorem Inv.reach (h : Exec k s tr) : Inv k s tr := by
  induction h with
  | init => exact Inv.init
  | step _ hs ih => exact ih.step hs

theorem one {a : StdPool.Act} {ev : List Call} (hs : StdPool.step k s a = some (s', ev)) : ∃ e, ev = [e] := by
  cases a <;> simp only [StdPool.step] at hs <;> (repeat' split at hs) <;>
    first
    | (simp only [Option.some.injEq, Prod.mk.injEq] at hs; exact ⟨_, hs.2.symm⟩)
    | (simp at hs; done)

theorem event_at (h : Exec k s tr) : ∀ {a b : List Call} {e : Call}, tr = a ++ e :: b → ∃ s0 s1 act, Exec k s0 a ∧ StdPool.step k s0 act = some (s1, [e]) := by
  induction h with
  | init => intro a b e h; simp at h
  | step hr hs ih =>
    intro a b e h
    obtain ⟨x, rfl⟩ := one hs
    rcases List.eq_nil_or_concat b with rfl | ⟨b', z, rfl⟩
    · have h := List.append_inj' h rfl
      obtain ⟨rfl, h2⟩ := h
      simp only [List.cons.injEq, and_true] at h2; subst h2
      exact ⟨_, _, _, hr, hs⟩
    · rw [List.concat_eq_append, ← List.cons_append, ← List.append_assoc] at h
      exact ih (List.append_inj' h rfl).1

/-- The length of the block a call of allocate asks for: the block size the pool was created with, or the size given. -/
def lenOf (k : Kind) (w : Known) (i size : Nat) : Nat := match k with
  | .fixed => ((w.pool i).map (·.1)).getD 0
  | .variable => size

/-- **C89** (blocks).  A block handed out is not null and shares no byte, and no address, with any block the caller holds, whichever pool it is
from, for every history in which the caller gives back only blocks it holds. -/
theorem C89_disjoint (h : Exec k s tr) {a b : List Call} {i size x : Nat} (e : tr = a ++ .alloc i size (some x) :: b) (hp : Proper k a) :
    0 < x ∧ (∃ p, (knows k a).pool i = some p) ∧
    ∀ y ∈ (knows k a).out, y.addr ≠ x ∧ apart x (lenOf k (knows k a) i size) y.addr y.len := by
  obtain ⟨s0, s1, act, hr, hs⟩ := event_at h e
  have I := Inv.reach hr
  cases act <;> simp only [StdPool.step] at hs <;> (repeat' split at hs) <;>
    simp only [Option.some.injEq, Prod.mk.injEq, reduceCtorEq, List.cons.injEq, Call.alloc.injEq, and_false, and_true] at hs
  next i size _ bs hb _ x' hm =>
    obtain ⟨-, e1, e2, e3⟩ := hs
    subst e1; subst e2; subst e3
    simp only [mallocOk, Bool.and_eq_true, decide_eq_true_eq, List.all_eq_true] at hm
    refine ⟨hm.1, ?_, fun y hy => ?_⟩
    · have := I.pl i
      rw [hb] at this
      cases hq : (knows k a).pool i with
      | none => simp [hq] at this
      | some p => exact ⟨p, rfl⟩
    · have hy' := (I.ou hp y hy).1
      have hl : lenOf k (knows k a) i size = want k bs size := by
        cases k
        · simp only [lenOf, I.pl i, hb, want, Option.getD_some]
        · rfl
      rw [hl]
      have := hm.2 _ hy'
      refine ⟨this.1, fun z hz => ?_⟩
      have := this.2
      simp only at this
      omega

/-- **C89** (free).  A caller that gives back only blocks it holds (to any existing pool, null included) causes no bad call of free. -/
theorem C89_no_bad_free (h : Exec k s tr) (hp : Proper k tr) : s.ub = false := (Inv.reach h).ub hp

/-- **C89** (no leak, no loss).  If moreover every pool is destroyed only when its blocks have been given back, the memory in use is exactly the
blocks the caller holds. -/
theorem C89_exact (h : Exec k s tr) (hp : Proper k tr) (ht : Tidy k tr) (a l : Nat) :
    (a, l) ∈ s.heap ↔ ∃ i, ⟨i, a, l⟩ ∈ (knows k tr).out := by
  have I := Inv.reach h
  constructor
  · intro hb
    obtain ⟨x, hx, e⟩ := I.td hp ht _ hb
    have hx' := (I.ou hp x hx).1
    have : (x.addr, x.len) = (a, l) := by
      have hn := I.hn
      clear I
      generalize s.heap = L at hb hx' hn
      induction L with
      | nil => simp at hb
      | cons z L ih =>
        simp only [List.map_cons, List.nodup_cons, List.mem_map, not_exists, not_and] at hn
        rcases List.mem_cons.mp hb with h1 | h1 <;> rcases List.mem_cons.mp hx' with h2 | h2
        · rw [h1, h2]
        · exact absurd (by rw [← h1]; exact e) (hn.1 _ h2)
        · exact absurd (by rw [← h2]; exact e.symm) (hn.1 _ h1)
        · exact ih h1 h2 hn.2
    simp only [Prod.mk.injEq] at this
    obtain ⟨rfl, rfl⟩ := this
    exact ⟨x.pool, hx⟩
  · rintro ⟨i, hi⟩
    exact (I.ou hp _ hi).1

/-- **C89** (all given back: all memory released). -/
theorem C89_release (h : Exec k s tr) (hp : Proper k tr) (ht : Tidy k tr) (h0 : (knows k tr).out = []) : s.heap = [] := by
  rcases he : s.heap with - | ⟨⟨a, l⟩, L⟩
  · rfl
  · obtain ⟨i, hi⟩ := (C89_exact h hp ht a l).mp (by rw [he]; exact List.mem_cons_self ..)
    rw [h0] at hi; simp at hi

/-- **C89** (getBlockSize).  It gives the block size the pool was created with. -/
theorem C89_blockSize (h : Exec k s tr) {i bs size : Nat} (hi : (knows k tr).pool i = some (bs, size)) : getBlockSize s i = some bs := by
  have := (Inv.reach h).pl i
  rw [hi] at this; exact this.symm

/-- **C89** (create).  create gives a pool only for sizes that are not zero (the block size matters for fixed pools). -/
theorem C89_create (h : Exec k s tr) {a b : List Call} {i bs size : Nat} (e : tr = a ++ .create bs size (some i) :: b) :
    size ≠ 0 ∧ (k = .fixed → bs ≠ 0) ∧ (knows k a).pool i = none := by
  obtain ⟨s0, s1, act, hr, hs⟩ := event_at h e
  have I := Inv.reach hr
  cases act <;> simp only [StdPool.step] at hs <;> (repeat' split at hs) <;>
    simp only [Option.some.injEq, Prod.mk.injEq, reduceCtorEq, List.cons.injEq, Call.create.injEq, and_false, and_true] at hs
  next hrj _ j hj =>
    obtain ⟨-, rfl, rfl, rfl⟩ := hs
    refine ⟨?_, ?_, ?_⟩
    · intro h0; apply hrj; cases k <;> simp [rejects, h0]
    · rintro rfl h0; apply hrj; simp [rejects, h0]
    · have := I.pl j
      rw [hj] at this; simpa using this

/-- **C89** (getRequiredMemorySize).  Within the range of size_t the answer is the room for that many blocks, and for no more. -/
theorem C89_required_partial {M bs n : Nat} (h : bs * n < M) (hb : 0 < bs) :
    getRequiredMemorySize M bs n = bs * n ∧ getRequiredMemorySize M bs n / bs = n := by
  simp only [getRequiredMemorySize, Nat.mod_eq_of_lt h, Nat.mul_div_cancel_left n hb, and_self]

/-- Outside that range the answer is less than the blocks need, for every size of size_t. -/
theorem C89_required_counterexample (M bs n : Nat) (hM : 0 < M) (h : M ≤ bs * n) : getRequiredMemorySize M bs n < bs * n := by
  simp only [getRequiredMemorySize]
  exact Nat.lt_of_lt_of_le (Nat.mod_lt _ hM) h

/-- **C89 is false in full** (size).  A fixed pool made with room for two blocks of 8 hands out three. -/
theorem C89_bound_counterexample : ∃ s tr, Exec .fixed s tr ∧ (knows .fixed tr).pool 0 = some (8, 16) ∧
    (knows .fixed tr).out = [⟨0, 300, 8⟩, ⟨0, 200, 8⟩, ⟨0, 100, 8⟩] := by
  obtain ⟨s, tr, h, hp⟩ := Lts.runSat_ex (step := step .fixed) (init := HSt.init)
    (as := [.create 8 16 none (some 0), .alloc 0 0 (some 100), .alloc 0 0 (some 200), .alloc 0 0 (some 300)])
    (P := fun (_ : HSt) tr => decide ((knows .fixed tr).pool 0 = some (8, 16) ∧ (knows .fixed tr).out = [⟨0, 300, 8⟩, ⟨0, 200, 8⟩, ⟨0, 100, 8⟩])) (by decide)
  exact ⟨s, tr, h, of_decide_eq_true hp⟩

/-- **C89 is false in full** (address).  The memory the caller provides, 16 bytes at 1000, is not used. -/
theorem C89_address_counterexample : ∃ s s1 s2 ev1 ev2 x, Exec .fixed s [] ∧ step .fixed s (.create 8 16 (some 1000) (some 0)) = some (s1, ev1) ∧
    step .fixed s1 (.alloc 0 0 (some x)) = some (s2, ev2) ∧ ¬ (1000 ≤ x ∧ x + 8 ≤ 1016) :=
  ⟨HSt.init, _, _, _, _, 100, .init, rfl, rfl, by decide⟩

/-- **C89 is false in full** (destroy).  Destroying a pool releases none of its blocks: the caller holds none any more, the memory stays in use. -/
theorem C89_destroy_counterexample : ∃ s tr, Exec .fixed s tr ∧ Proper .fixed tr ∧ (knows .fixed tr).out = [] ∧ s.heap = [(100, 8)] := by
  obtain ⟨s, tr, h, hp⟩ := Lts.runSat_ex (step := step .fixed) (init := HSt.init)
    (as := [.create 8 16 none (some 0), .alloc 0 0 (some 100), .destroy 0])
    (P := fun (s : HSt) tr => decide (tr = [.create 8 16 (some 0), .alloc 0 0 (some 100), .destroy 0] ∧ s.heap = [(100, 8)])) (by decide)
  obtain ⟨rfl, h2⟩ := of_decide_eq_true hp
  refine ⟨s, _, h, ?_, by decide, h2⟩
  intro a b i x e
  have : Call.dealloc i (some x) ∈ [Call.create 8 16 (some 0), .alloc 0 0 (some 100), .destroy 0] := by rw [e]; simp
  simp at this

/-- Two pools, three blocks, two given back. -/
def demo : List Call := [.create 8 16 (some 0), .create 4 4 (some 1), .alloc 0 0 (some 100), .alloc 1 0 (some 200), .dealloc 0 (some 100), .dealloc 0 none,
  .alloc 0 0 (some 96), .dealloc 1 (some 200), .destroy 1]

-- Non-vacuity: the hypotheses of the theorems hold of `demo`, and a block is in use at the end.
example : ∃ s, Exec .fixed s demo ∧ Proper .fixed demo ∧ Tidy .fixed demo ∧ s.heap = [(96, 8)] ∧ (knows .fixed demo).out = [⟨0, 96, 8⟩] := by
  obtain ⟨s, tr, h, hp⟩ := Lts.runSat_ex (step := step .fixed) (init := HSt.init)
    (as := [.create 8 16 none (some 0), .create 4 4 none (some 1), .alloc 0 0 (some 100), .alloc 1 0 (some 200), .dealloc 0 (some 100), .dealloc 0 none,
      .alloc 0 0 (some 96), .dealloc 1 (some 200), .destroy 1])
    (P := fun (s : HSt) tr => decide (tr = demo ∧ s.heap = [(96, 8)])) (by decide)
  obtain ⟨rfl, h2⟩ := of_decide_eq_true hp
  refine ⟨s, h, ?_, ?_, h2, by decide⟩
  · intro a b i x e
    have hl : a.length < 9 := by have := congrArg List.length e; simp [demo] at this; omega
    have ha : a = demo.take a.length := by rw [e]; simp
    have hx : demo[a.length]? = some (.dealloc i (some x)) := by rw [e]; simp
    generalize a.length = n at *
    subst ha
    match n, hl with
    | 4, _ => simp [demo] at hx; obtain ⟨rfl, rfl⟩ := hx; exact ⟨8, by decide⟩
    | 7, _ => simp [demo] at hx; obtain ⟨rfl, rfl⟩ := hx; exact ⟨4, by decide⟩
    | 0, _ | 1, _ | 2, _ | 3, _ | 5, _ | 6, _ | 8, _ => simp [demo] at hx
  · intro a b i e
    have hl : a.length < 9 := by have := congrArg List.length e; simp [demo] at this; omega
    have ha : a = demo.take a.length := by rw [e]; simp
    have hx : demo[a.length]? = some (.destroy i) := by rw [e]; simp
    generalize a.length = n at *
    subst ha
    match n, hl with
    | 8, _ => simp [demo] at hx; subst hx; decide
    | 0, _ | 1, _ | 2, _ | 3, _ | 4, _ | 5, _ | 6, _ | 7, _ => simp [demo] at hx

end Verif.Props.StdPool
