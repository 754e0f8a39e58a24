import Verif.Model.ItronPool
/-
C72: the ITRON memory pool factories, for every history of calls and every behaviour of the kernel within its contract.
-/
namespace Verif.Props.ItronPool
open Verif Verif.ItronPool
open _root_.Verif.Lts (Reach)
open _root_.Verif.PoolSpec (Known known Block apart Call)

variable {c : Cfg} {s : PSt} {tr : List Ev}

abbrev Reachable (c : Cfg) (s : PSt) (tr : List Ev) : Prop := Reach (step c) PSt.init s tr

/-- What the caller knows after the history. -/
abbrev knows (c : Cfg) (tr : List Ev) : Known := known (decide (c.kind = .fixed)) tr

/-! #### Invariant -/

theorem known_snoc (f : Bool) (tr : List Call) (e : Call) : known f (tr ++ [e]) = (known f tr).next f e := by simp [known]

/-- The blocks of one pool, as the kernel has them. -/
def mine (w : Known) (i : Nat) : List (Nat × Nat) := (w.out.filter (·.pool = i)).map fun b => (b.addr, b.len)

structure Inv (c : Cfg) (s : PSt) (w : Known) : Prop where
  k0 : s.k 0 = none
  ids : ∀ id, (s.k id).isSome → id ∈ s.ids
  free : ∀ i, (s.slot i).mpf = 0 ↔ w.pool i = none
  range : ∀ i, w.pool i ≠ none → i < c.N
  pool : ∀ i bs sz, w.pool i = some (bs, sz) → (s.slot i).blockSize = bs ∧
    ∃ base len, s.k (s.slot i).mpf = some ⟨bs, blkcnt c bs sz, base, len, mine w i⟩
  inj : ∀ i j, (s.slot i).mpf ≠ 0 → (s.slot i).mpf = (s.slot j).mpf → i = j
  area : ∀ a b p q, s.k a = some p → s.k b = some q → a ≠ b → disjoint p.base p.len q.base q.len
  inside : ∀ a p x, s.k a = some p → x ∈ p.out → p.base ≤ x.1 ∧ x.1 + x.2 ≤ p.base + p.len
  out : ∀ b ∈ w.out, w.pool b.pool ≠ none

theorem Inv.init (c : Cfg) : Inv c PSt.init .init := by
  refine ⟨rfl, ?_, ?_, ?_, ?_, ?_, ?_, ?_, ?_⟩ <;> simp [PSt.init, Known.init]

theorem firstFree_some : ∀ {n i j : Nat}, firstFree s n i = some j → i ≤ j ∧ j < i + n ∧ (s.slot j).mpf = 0
  | 0, i, j, h => by simp [firstFree] at h
  | n + 1, i, j, h => by
    unfold firstFree at h
    split at h
    · next h0 => simp at h; subst h; exact ⟨by omega, by omega, h0⟩
    · have := firstFree_some h; omega

theorem firstFree_none : ∀ {n i : Nat}, firstFree s n i = none → ∀ j, i ≤ j → j < i + n → (s.slot j).mpf ≠ 0
  | 0, i, _, j, h1, h2 => by omega
  | n + 1, i, h, j, h1, h2 => by
    unfold firstFree at h
    split at h
    · simp at h
    · next h0 =>
      by_cases hj : j = i
      · subst hj; exact h0
      · exact firstFree_none h j (by omega) (by omega)

theorem Inv.step {w : Known} (h : Inv c s w) {a : Act} {s' : PSt} {ev : List Ev} (hs : step c s a = some (s', ev)) :
    ∃ e, ev = [e] ∧ Inv c s' (w.next (decide (c.kind = .fixed)) e) := by
  cases a with
  | create bs size ans =>
    simp only [ItronPool.step] at hs
    split at hs
    · simp at hs; obtain ⟨rfl, rfl⟩ := hs; exact ⟨_, rfl, h⟩
    · split at hs
      · simp at hs; obtain ⟨rfl, rfl⟩ := hs; exact ⟨_, rfl, h⟩
      · next i hi =>
        split at hs
        · simp at hs; obtain ⟨rfl, rfl⟩ := hs; exact ⟨_, rfl, h⟩
        · next id base len =>
          split at hs
          · next hok =>
            simp only [Option.some.injEq, Prod.mk.injEq] at hs
            obtain ⟨rfl, rfl⟩ := hs
            obtain ⟨_, hlt, hfree⟩ := firstFree_some hi
            simp only [acreOk, Bool.and_eq_true, decide_eq_true_eq, List.all_eq_true, Option.isNone_iff_eq_none] at hok
            obtain ⟨⟨⟨hid, hnone⟩, _⟩, hdis⟩ := hok
            have hdis' : ∀ j p, s.k j = some p → disjoint base len p.base p.len := by
              intro j p hp
              have := hdis j (h.ids j (by simp [hp]))
              simpa [hp] using this
            have hpn : w.pool i = none := (h.free i).mp hfree
            have hmine : mine w i = [] := by
              simp only [mine, List.map_eq_nil_iff, List.filter_eq_nil_iff]
              intro b hb hbi
              simp only [decide_eq_true_eq] at hbi
              exact h.out b hb (hbi ▸ hpn)
            have hne : ∀ j, (s.slot j).mpf ≠ id := by
              intro j hj
              cases hp : w.pool j with
              | none => have := (h.free j).mpr hp; omega
              | some x =>
                obtain ⟨_, _, _, hk⟩ := h.pool j x.1 x.2 hp
                rw [hj, hnone] at hk; simp at hk
            refine ⟨_, rfl, ?_⟩
            simp only [Known.next]
            refine ⟨?_, ?_, ?_, ?_, ?_, ?_, ?_, ?_, ?_⟩
            · simp only [put]; rw [if_neg (by omega)]; exact h.k0
            · intro j hj
              simp only [put] at hj
              split at hj
              · next e => simp [e]
              · simp [h.ids j hj]
            · intro j
              by_cases hj : j = i
              · simp [put, hj]; omega
              · simp [put, hj, h.free j]
            · intro j hj
              by_cases hji : j = i
              · omega
              · simp [hji] at hj; exact h.range j hj
            · intro j bs' sz' hj
              by_cases hji : j = i
              · subst hji
                simp at hj
                obtain ⟨rfl, rfl⟩ := hj
                have hm : mine { w with pool := fun j' => if j' = j then some (bs, size) else w.pool j' } j = [] := hmine
                refine ⟨by simp [put], base, len, ?_⟩
                rw [hm]; simp [put]
              · simp [hji] at hj
                obtain ⟨h1, b', l', h2⟩ := h.pool j bs' sz' hj
                refine ⟨by simpa [put, hji] using h1, b', l', ?_⟩
                have : (put s.slot i ⟨bs, id⟩ j).mpf = (s.slot j).mpf := by simp [put, hji]
                rw [this]
                simp only [put]
                rw [if_neg (hne j)]
                exact h2
            · intro j j' h1 h2
              by_cases hj : j = i <;> by_cases hj' : j' = i
              · rw [hj, hj']
              · simp [put, hj, hj'] at h2; exact absurd h2.symm (hne j')
              · simp [put, hj, hj'] at h2; exact absurd h2 (hne j)
              · simp [put, hj, hj'] at h1 h2; exact h.inj j j' h1 h2
            · intro a b p q ha hb hab
              simp only [put] at ha hb
              split at ha <;> split at hb
              · omega
              · simp at ha; subst ha; exact hdis' b q hb
              · simp at hb; subst hb; have := hdis' a p ha; unfold disjoint at *; simp only; omega
              · exact h.area a b p q ha hb hab
            · intro a p x ha hx
              simp only [put] at ha
              split at ha
              · simp at ha; subst ha; simp at hx
              · exact h.inside a p x ha hx
            · intro b hb
              have := h.out b hb
              by_cases hbi : b.pool = i
              · simp [hbi]
              · simpa [hbi] using this
          · simp at hs
  | destroy i =>
    simp only [ItronPool.step] at hs
    split at hs
    · next hi =>
      simp only [Option.some.injEq, Prod.mk.injEq] at hs
      obtain ⟨rfl, rfl⟩ := hs
      refine ⟨_, rfl, ?_⟩
      simp only [Known.next]
      refine ⟨?_, ?_, ?_, ?_, ?_, ?_, ?_, ?_, ?_⟩
      · simp only [put]; split
        · rfl
        · exact h.k0
      · intro j hj
        simp only [put] at hj
        split at hj
        · simp at hj
        · next e => simp only [List.mem_filter]; exact ⟨h.ids j hj, by simpa using e⟩
      · intro j
        by_cases hj : j = i
        · simp [put, hj]
        · simp [put, hj, h.free j]
      · intro j hj
        by_cases hji : j = i
        · simp [hji] at hj
        · simp [hji] at hj; exact h.range j hj
      · intro j bs' sz' hj
        by_cases hji : j = i
        · simp [hji] at hj
        · simp [hji] at hj
          obtain ⟨h1, b', l', h2⟩ := h.pool j bs' sz' hj
          refine ⟨by simpa [put, hji] using h1, b', l', ?_⟩
          have h3 : (put s.slot i ⟨0, 0⟩ j).mpf = (s.slot j).mpf := by simp [put, hji]
          have hm : mine ⟨fun k => if k = i then none else w.pool k, w.out.filter (fun b => decide (b.pool ≠ i))⟩ j = mine w j := by
            simp only [mine, List.filter_filter]
            congr 1
            apply List.filter_congr
            intro b _
            by_cases hb : b.pool = j
            · subst hb; simp [hji]
            · simp [hb]
          rw [h3, hm]
          simp only [put]
          rw [if_neg, h2]
          intro e
          have h0 : (s.slot j).mpf ≠ 0 := by rw [Ne, h.free j, hj]; simp
          exact hji (h.inj j i h0 e)
      · intro j j' h1 h2
        by_cases hj : j = i <;> by_cases hj' : j' = i
        · rw [hj, hj']
        · simp [put, hj] at h1
        · simp [put, hj, hj'] at h1 h2; omega
        · simp [put, hj, hj'] at h1 h2; exact h.inj j j' h1 h2
      · intro a b p q ha hb hab
        simp only [put] at ha hb
        split at ha <;> split at hb <;> first | (simp at ha; done) | (simp at hb; done) | exact h.area a b p q ha hb hab
      · intro a p x ha hx
        simp only [put] at ha
        split at ha
        · simp at ha
        · exact h.inside a p x ha hx
      · intro b hb
        simp only [List.mem_filter, decide_eq_true_eq] at hb
        simp only [if_neg hb.2]
        exact h.out b hb.1
    · simp at hs
  | alloc i size ans =>
    simp only [ItronPool.step] at hs
    split at hs
    · next hi =>
      split at hs
      · simp at hs; obtain ⟨rfl, rfl⟩ := hs; exact ⟨_, rfl, h⟩
      · next p hp =>
        split at hs
        · next hok =>
          split at hs
          · simp at hs; obtain ⟨rfl, rfl⟩ := hs; exact ⟨_, rfl, h⟩
          · next a =>
            simp only [Option.some.injEq, Prod.mk.injEq] at hs
            obtain ⟨rfl, rfl⟩ := hs
            simp only [pgetOk, Bool.and_eq_true, decide_eq_true_eq] at hok
            obtain ⟨⟨⟨_, hin1, hin2⟩, _⟩, _⟩ := hok
            have h0 : (s.slot i).mpf ≠ 0 := by intro e; rw [e, h.k0] at hp; simp at hp
            refine ⟨_, rfl, ?_⟩
            have hpool : ∃ bs sz, w.pool i = some (bs, sz) := by
              cases hw : w.pool i with
              | none => exact absurd ((h.free i).mpr hw) h0
              | some x => exact ⟨x.1, x.2, rfl⟩
            obtain ⟨bs, sz, hw⟩ := hpool
            obtain ⟨hb1, b0, l0, hb2⟩ := h.pool i bs sz hw
            rw [hp] at hb2
            simp only [Option.some.injEq] at hb2
            have hlen : (if decide (c.kind = .fixed) then ((w.pool i).map (·.1)).getD 0 else size) = want c p size := by
              rw [hw, hb2]; unfold want
              cases c.kind <;> simp
            simp only [Known.next, hlen]
            refine ⟨?_, ?_, h.free, h.range, ?_, h.inj, ?_, ?_, ?_⟩
            · simp only [put]; rw [if_neg (by omega)]; exact h.k0
            · intro j hj
              simp only [put] at hj
              split at hj
              · next e => subst e; exact h.ids _ (by simp [hp])
              · exact h.ids j hj
            · intro j bs' sz' hj
              obtain ⟨h1, b', l', h2⟩ := h.pool j bs' sz' hj
              by_cases hji : j = i
              · subst hji
                have e : (bs', sz') = (bs, sz) := by
                  have hj' : w.pool j = some (bs', sz') := hj
                  rw [hw] at hj'; simpa using hj'.symm
                obtain ⟨rfl, rfl⟩ := Prod.mk.injEq _ _ _ _ ▸ e
                refine ⟨h1, b0, l0, ?_⟩
                simp only [put, if_true, hb2]
                congr 2
                simp [mine]
              · refine ⟨h1, b', l', ?_⟩
                have hne : (s.slot j).mpf ≠ (s.slot i).mpf := fun e => hji (h.inj i j h0 e.symm).symm
                simp only [put]
                rw [if_neg hne, h2]
                have : ¬ i = j := fun e => hji e.symm
                simp [mine, this]
            · intro a' b p' q ha hb hab
              simp only [put] at ha hb
              split at ha <;> split at hb
              · omega
              · next e1 e2 => simp at ha; subst ha; exact h.area _ b p q (e1 ▸ hp) hb (by omega)
              · next e1 e2 => simp at hb; subst hb; exact h.area a' _ p' p ha (e2 ▸ hp) (by omega)
              · exact h.area a' b p' q ha hb hab
            · intro a' p' x ha hx
              simp only [put] at ha
              split at ha
              · simp at ha; subst ha
                simp only [List.mem_cons] at hx
                rcases hx with rfl | hx
                · exact ⟨hin1, hin2⟩
                · exact h.inside _ p x hp hx
              · exact h.inside a' p' x ha hx
            · intro b hb
              simp only [List.mem_cons] at hb
              rcases hb with rfl | hb
              · simp [hw]
              · exact h.out b hb
        · simp at hs
    · simp at hs
  | dealloc i a =>
    simp only [ItronPool.step] at hs
    split at hs
    · next hi =>
      split at hs
      · simp at hs; obtain ⟨rfl, rfl⟩ := hs; exact ⟨_, rfl, h⟩
      · next a =>
        split at hs
        · next hk =>
          simp only [Option.some.injEq, Prod.mk.injEq] at hs
          obtain ⟨rfl, rfl⟩ := hs
          refine ⟨_, rfl, ?_⟩
          have hpn : w.pool i = none := by
            cases hw : w.pool i with
            | none => rfl
            | some x => obtain ⟨_, _, _, h2⟩ := h.pool i x.1 x.2 hw; rw [hk] at h2; simp at h2
          have : w.out.filter (fun b => decide (¬ (b.pool = i ∧ b.addr = a))) = w.out := by
            rw [List.filter_eq_self]
            intro b hb
            simp only [decide_eq_true_eq]
            rintro ⟨e, _⟩
            exact h.out b hb (e ▸ hpn)
          simp only [Known.next, this]
          exact h
        · next p hp =>
          simp only [Option.some.injEq, Prod.mk.injEq] at hs
          obtain ⟨rfl, rfl⟩ := hs
          have h0 : (s.slot i).mpf ≠ 0 := by intro e; rw [e, h.k0] at hp; simp at hp
          refine ⟨_, rfl, ?_⟩
          simp only [Known.next]
          refine ⟨?_, ?_, h.free, h.range, ?_, h.inj, ?_, ?_, ?_⟩
          · simp only [put]; rw [if_neg (by omega)]; exact h.k0
          · intro j hj
            simp only [put] at hj
            split at hj
            · next e => subst e; exact h.ids _ (by simp [hp])
            · exact h.ids j hj
          · intro j bs' sz' hj
            obtain ⟨h1, b', l', h2⟩ := h.pool j bs' sz' hj
            refine ⟨h1, b', l', ?_⟩
            by_cases hji : j = i
            · subst hji
              rw [hp] at h2
              simp only [Option.some.injEq] at h2
              simp only [put, if_true, h2]
              congr 2
              simp only [mine, List.filter_map, List.filter_filter, Function.comp_def]
              congr 1
              apply List.filter_congr
              intro b _
              by_cases hb : b.pool = j <;> simp [hb]
            · have hne : (s.slot j).mpf ≠ (s.slot i).mpf := fun e => hji (h.inj i j h0 e.symm).symm
              simp only [put]
              rw [if_neg hne, h2]
              congr 2
              simp only [mine, List.filter_filter]
              congr 1
              apply List.filter_congr
              intro b _
              by_cases hb : b.pool = j
              · subst hb; simp [hji]
              · simp [hb]
          · intro a' b p' q ha hb hab
            simp only [put] at ha hb
            split at ha <;> split at hb
            · omega
            · next e1 e2 => simp at ha; subst ha; exact h.area _ b p q (e1 ▸ hp) hb (by omega)
            · next e1 e2 => simp at hb; subst hb; exact h.area a' _ p' p ha (e2 ▸ hp) (by omega)
            · exact h.area a' b p' q ha hb hab
          · intro a' p' x ha hx
            simp only [put] at ha
            split at ha
            · simp at ha; subst ha
              exact h.inside _ p x hp (List.mem_filter.mp hx).1
            · exact h.inside a' p' x ha hx
          · intro b hb
            exact h.out b (List.mem_filter.mp hb).1
    · simp at hs

theorem Inv.reach (h : Reachable c s tr) : Inv c s (knows c tr) := by
  induction h with
  | init => exact Inv.init c
  | step _ hs ih =>
    obtain ⟨e, rfl, hI⟩ := ih.step hs
    simp only [knows, known_snoc]
    exact hI

theorem apart_of {a la b lb : Nat} (h : disjoint a la b lb) : apart a la b lb := by
  unfold disjoint at h; unfold apart; intro x; omega

/-! #### The property: exclusive slots -/

/-- create hands out a pool that is not in use: not created before, or destroyed since. -/
theorem C72_exclusive {bs size i : Nat} {ans} {s' : PSt} {ev : List Ev} (h : Reachable c s tr)
    (hs : step c s (.create bs size ans) = some (s', ev)) (hr : Call.create bs size (some i) ∈ ev) : i < c.N ∧ (knows c tr).pool i = none := by
  have hI := Inv.reach h
  simp only [ItronPool.step] at hs
  split at hs
  · simp at hs; obtain ⟨rfl, rfl⟩ := hs; simp at hr
  · split at hs
    · simp at hs; obtain ⟨rfl, rfl⟩ := hs; simp at hr
    · next j hj =>
      split at hs
      · simp at hs; obtain ⟨rfl, rfl⟩ := hs; simp at hr
      · split at hs
        · simp at hs; obtain ⟨rfl, rfl⟩ := hs
          simp at hr; subst hr
          obtain ⟨_, h2, h3⟩ := firstFree_some hj
          exact ⟨by omega, (hI.free _).mp h3⟩
        · simp at hs

/-- create returns null only for a zero size, when all `N` pools are in use, or when the kernel refuses. -/
theorem C72_create {bs size : Nat} {ans : Option (Nat × Nat × Nat)} {s' : PSt} {ev : List Ev} (h : Reachable c s tr)
    (hs : step c s (.create bs size ans) = some (s', ev)) :
    (Call.create bs size none ∈ ev ↔ (size = 0 ∨ (c.kind = .fixed ∧ bs = 0)) ∨ (∀ i, i < c.N → (knows c tr).pool i ≠ none) ∨ ans = none) := by
  have hI := Inv.reach h
  have hrej : rejects c bs size = true ↔ (size = 0 ∨ (c.kind = .fixed ∧ bs = 0)) := by
    unfold rejects; cases c.kind <;> simp [or_comm]
  simp only [ItronPool.step] at hs
  split at hs
  · next hr => simp at hs; obtain ⟨rfl, rfl⟩ := hs; simp [hrej.mp hr]
  · next hr =>
    rw [hrej] at hr
    split at hs
    · next hn =>
      simp at hs; obtain ⟨rfl, rfl⟩ := hs
      simp only [List.mem_singleton, true_iff]
      refine Or.inr (Or.inl fun i hi => ?_)
      rw [Ne, ← hI.free i]
      exact firstFree_none hn i (by omega) (by omega)
    · next j hj =>
      split at hs
      · simp at hs; obtain ⟨rfl, rfl⟩ := hs; simp
      · split at hs
        · simp at hs; obtain ⟨rfl, rfl⟩ := hs
          obtain ⟨_, h2, h3⟩ := firstFree_some hj
          simp only [List.mem_singleton, PoolSpec.Call.create.injEq, reduceCtorEq, and_false, false_iff]
          rintro (h | h | h)
          · exact hr h
          · exact h j (by omega) ((hI.free j).mp h3)
          · simp at h
        · simp at hs

/-- After destroy the pool can be created again: if the kernel accepts, create does not return null. -/
theorem C72_reusable {i bs size : Nat} {ans : Nat × Nat × Nat} {s1 s2 : PSt} {ev1 ev2 : List Ev} (h : Reachable c s tr)
    (h1 : step c s (.destroy i) = some (s1, ev1)) (hsz : 0 < size ∧ 0 < bs) (h2 : step c s1 (.create bs size (some ans)) = some (s2, ev2)) :
    ∃ j, ev2 = [.create bs size (some j)] := by
  have hr1 : Reachable c s1 (tr ++ ev1) := Reach.step h h1
  have hi : i < c.N := by
    simp only [ItronPool.step] at h1; split at h1
    · assumption
    · simp at h1
  have he : ev1 = [.destroy i] := by
    simp only [ItronPool.step, if_pos hi, Option.some.injEq, Prod.mk.injEq] at h1; exact h1.2.symm
  have hnn := mt (C72_create hr1 h2).mp (by
    rintro (h | h | h)
    · omega
    · refine h i hi ?_
      rw [he]; simp [knows, known_snoc, Known.next]
    · simp at h)
  obtain ⟨e, rfl, _⟩ := (Inv.reach hr1).step h2
  simp only [ItronPool.step] at h2
  split at h2
  · simp at h2; obtain ⟨_, rfl⟩ := h2; simp at hnn
  · split at h2
    · simp at h2; obtain ⟨_, rfl⟩ := h2; simp at hnn
    · split at h2
      · simp at h2; obtain ⟨_, rfl⟩ := h2; exact ⟨_, rfl⟩
      · simp at h2

/-- getBlockSize is the block size the pool was created with. -/
theorem C72_blockSize {i bs size : Nat} (h : Reachable c s tr) (hp : (knows c tr).pool i = some (bs, size)) : getBlockSize s i = bs :=
  ((Inv.reach h).pool i bs size hp).1

/-! #### Blocks -/

/-- A block that allocate hands out comes from an existing pool, has the size asked for, and shares no byte with any block that is still
handed out by any pool. -/
theorem C72_fresh {i size a : Nat} {ans} {s' : PSt} {ev : List Ev} (h : Reachable c s tr) (hs : step c s (.alloc i size ans) = some (s', ev))
    (hr : Call.alloc i size (some a) ∈ ev) :
    ∃ bs sz len, (knows c tr).pool i = some (bs, sz) ∧ len = (if c.kind = .fixed then bs else size) ∧ 0 < len ∧
      (knows c (tr ++ ev)).out = ⟨i, a, len⟩ :: (knows c tr).out ∧
      ∀ b ∈ (knows c tr).out, apart a len b.addr b.len := by
  have hI := Inv.reach h
  simp only [ItronPool.step] at hs
  split at hs
  · split at hs
    · simp at hs; obtain ⟨rfl, rfl⟩ := hs; simp at hr
    · next p hp =>
      split at hs
      · next hok =>
        split at hs
        · simp at hs; obtain ⟨rfl, rfl⟩ := hs; simp at hr
        · next a' =>
          simp only [Option.some.injEq, Prod.mk.injEq] at hs
          obtain ⟨rfl, rfl⟩ := hs
          simp at hr; subst hr
          simp only [pgetOk, Bool.and_eq_true, decide_eq_true_eq, List.all_eq_true] at hok
          obtain ⟨⟨⟨hpos, hin1, hin2⟩, hdis⟩, _⟩ := hok
          have h0 : (s.slot i).mpf ≠ 0 := by intro e; rw [e, hI.k0] at hp; simp at hp
          cases hw : (knows c tr).pool i with
          | none => exact absurd ((hI.free i).mpr hw) h0
          | some x =>
            obtain ⟨bs, sz⟩ := x
            obtain ⟨hb1, b0, l0, hb2⟩ := hI.pool i bs sz hw
            rw [hp] at hb2
            simp only [Option.some.injEq] at hb2
            have hlen : want c p size = (if c.kind = .fixed then bs else size) := by
              rw [hb2]; unfold want; cases c.kind <;> simp
            refine ⟨bs, sz, _, rfl, rfl, hlen ▸ hpos, ?_, ?_⟩
            · simp only [knows, known_snoc, Known.next]
              have hw' : (known (decide (c.kind = .fixed)) tr).pool i = some (bs, sz) := hw
              rw [hw']
              by_cases hk : c.kind = .fixed <;> simp [hk]
            · intro b hb
              rw [← hlen]
              by_cases hbi : b.pool = i
              · refine apart_of (hdis (b.addr, b.len) ?_)
                rw [hb2]
                simp only [mine, List.mem_map, List.mem_filter, decide_eq_true_eq]
                exact ⟨b, ⟨hb, hbi⟩, rfl⟩
              · cases hwb : (knows c tr).pool b.pool with
                | none => exact absurd hwb (hI.out b hb)
                | some y =>
                  obtain ⟨_, bb, lb, hkb⟩ := hI.pool b.pool y.1 y.2 hwb
                  have hne : (s.slot i).mpf ≠ (s.slot b.pool).mpf := fun e => hbi (hI.inj i b.pool h0 e).symm
                  have hab := hI.area _ _ _ _ hp hkb hne
                  have hin := hI.inside _ _ (b.addr, b.len) hkb (by
                    simp only [mine, List.mem_map, List.mem_filter, decide_eq_true_eq]
                    exact ⟨b, ⟨hb, rfl⟩, rfl⟩)
                  simp only at hin
                  apply apart_of
                  unfold disjoint at *
                  simp only at hab
                  omega
      · simp at hs
  · simp at hs

/-- What the code needs of the kernel's TSZ_MPF: room for one block is not zero, and room for `n` blocks is room for `n` times one block. -/
structure Contract (c : Cfg) : Prop where
  pos : ∀ bs, 0 < bs → 0 < c.tsz 1 bs
  sup : ∀ n bs, n * c.tsz 1 bs ≤ c.tsz n bs

/-- The number of blocks of pool `i` that are handed out. -/
def held (w : Known) (i : Nat) : Nat := (w.out.filter (·.pool = i)).length

/-- A fixed pool created with getRequiredMemorySize(bs, n) bytes hands out blocks as long as fewer than `n` are handed out.
Partial: kernels whose TSZ_MPF includes a constant overhead per pool are excluded by `Contract.sup`, see `C72_counterexample`. -/
theorem C72_capacity_partial {i bs n size : Nat} {ans} {s' : PSt} {ev : List Ev} (hc : Contract c) (hk : c.kind = .fixed) (hbs : 0 < bs)
    (h : Reachable c s tr) (hp : (knows c tr).pool i = some (bs, getRequiredMemorySize c bs n))
    (hs : step c s (.alloc i size ans) = some (s', ev)) (hn : held (knows c tr) i < n) : ∃ a, ev = [.alloc i size (some a)] := by
  have hI := Inv.reach h
  obtain ⟨_, b0, l0, hkp⟩ := hI.pool i _ _ hp
  have hcnt : n ≤ blkcnt c bs (getRequiredMemorySize c bs n) := by
    unfold blkcnt getRequiredMemorySize
    rw [Nat.le_div_iff_mul_le (hc.pos bs hbs)]
    exact hc.sup n bs
  have hi : i < c.N := hI.range i (by simp [hp])
  simp only [ItronPool.step, if_pos hi, hkp] at hs
  split at hs
  · next hok =>
    split at hs
    · simp only [pgetOk, decide_eq_true_eq] at hok
      have := hok hk
      simp only [mine, List.length_map] at this
      unfold held at hn
      omega
    · next a =>
      simp only [Option.some.injEq, Prod.mk.injEq] at hs
      exact ⟨a, hs.2.symm⟩
  · simp at hs

/-- In general: a fixed pool hands out a block exactly when fewer than memoryPoolSize / TSZ_MPF(1, bs) are handed out. -/
theorem C72_count {i bs sz size : Nat} {ans} {s' : PSt} {ev : List Ev} (hk : c.kind = .fixed)
    (h : Reachable c s tr) (hp : (knows c tr).pool i = some (bs, sz)) (hs : step c s (.alloc i size ans) = some (s', ev)) :
    (∃ a, ev = [.alloc i size (some a)]) ↔ held (knows c tr) i < sz / c.tsz 1 bs := by
  have hI := Inv.reach h
  obtain ⟨_, b0, l0, hkp⟩ := hI.pool i _ _ hp
  have hi : i < c.N := hI.range i (by simp [hp])
  simp only [ItronPool.step, if_pos hi, hkp] at hs
  split at hs
  · next hok =>
    split at hs
    · simp only [pgetOk, decide_eq_true_eq] at hok
      have := hok hk
      simp only [mine, List.length_map] at this
      simp only [Option.some.injEq, Prod.mk.injEq] at hs
      obtain ⟨_, rfl⟩ := hs
      unfold held
      simp only [blkcnt] at this
      simp
      omega
    · next a =>
      simp only [Option.some.injEq, Prod.mk.injEq] at hs
      obtain ⟨_, rfl⟩ := hs
      simp only [pgetOk, Bool.and_eq_true, decide_eq_true_eq] at hok
      have := hok.2 hk
      simp only [mine, List.length_map, blkcnt] at this
      unfold held
      simp
      omega
  · simp at hs

/-- allocate on a pool that does not exist (any more) returns null; deallocating null changes nothing. -/
theorem C72_no_pool {i size : Nat} {ans} {s' : PSt} {ev : List Ev} (h : Reachable c s tr) (hp : (knows c tr).pool i = none)
    (hs : step c s (.alloc i size ans) = some (s', ev)) : ev = [.alloc i size none] ∧ s' = s := by
  have hI := Inv.reach h
  have h0 : (s.slot i).mpf = 0 := (hI.free i).mpr hp
  simp only [ItronPool.step, h0, hI.k0] at hs
  split at hs
  · simp at hs; exact ⟨hs.2.symm, hs.1.symm⟩
  · simp at hs

theorem C72_dealloc_null {i : Nat} {s' : PSt} {ev : List Ev} (hs : step c s (.dealloc i none) = some (s', ev)) : s' = s := by
  simp only [ItronPool.step] at hs
  split at hs
  · simp at hs; exact hs.1.symm
  · simp at hs

/-- The kernel can always be asked: no call of the factory is stuck, whatever the history (the kernel's contract can be met: by refusing a
pool, and by handing out or refusing a block). -/
theorem C72_total_create {bs size : Nat} : ∃ s' ev, step c s (.create bs size none) = some (s', ev) := by
  simp only [ItronPool.step]
  split
  · exact ⟨_, _, rfl⟩
  · split <;> exact ⟨_, _, rfl⟩

/-! #### Witnesses -/

/-- Two slots, blocks rounded up to 8 bytes. -/
def small : Cfg := ⟨.fixed, 2, fun n bs => n * ((bs + 7) / 8 * 8)⟩

example : Contract small := ⟨fun bs h => by simp only [small]; omega, fun n bs => by simp [small]⟩

/-- A history with two pools, a third creation that fails, allocation to the limit, reuse of a slot. -/
def demo : List Act :=
  [.create 5 (getRequiredMemorySize small 5 2) (some (1, 100, 16)), .create 8 8 (some (2, 200, 8)), .create 8 8 (some (3, 300, 8)),
   .alloc 0 0 (some 100), .alloc 0 0 (some 108), .alloc 0 0 none, .alloc 1 0 (some 200), .dealloc 0 (some 100), .alloc 0 0 (some 100),
   .destroy 1, .create 4 8 (some (7, 200, 8))]

example : ∃ s tr, Reachable small s tr ∧ tr = [.create 5 16 (some 0), .create 8 8 (some 1), .create 8 8 none,
    .alloc 0 0 (some 100), .alloc 0 0 (some 108), .alloc 0 0 none, .alloc 1 0 (some 200), .dealloc 0 (some 100), .alloc 0 0 (some 100),
    .destroy 1, .create 4 8 (some 1)] ∧ (knows small tr).pool 0 = some (5, getRequiredMemorySize small 5 2) ∧ held (knows small tr) 0 = 2 := by
  obtain ⟨s, tr, h, hp⟩ := Lts.runSat_ex (step := step small) (init := PSt.init) (as := demo)
    (P := fun _ tr => decide (tr = [.create 5 16 (some 0), .create 8 8 (some 1), .create 8 8 none,
      .alloc 0 0 (some 100), .alloc 0 0 (some 108), .alloc 0 0 none, .alloc 1 0 (some 200), .dealloc 0 (some 100), .alloc 0 0 (some 100),
      .destroy 1, .create 4 8 (some 1)])) (by decide)
  have e : tr = _ := of_decide_eq_true hp
  exact ⟨s, tr, h, e, by rw [e]; decide, by rw [e]; decide⟩

/-- With a kernel that needs 8 bytes per pool on top of the blocks (TSZ_MPF(n, bs) = n * bs + 8), a pool created with
getRequiredMemorySize(8, 2) = 24 bytes is given room for 24 / 16 = 1 block only. -/
def overhead : Cfg := ⟨.fixed, 1, fun n bs => n * bs + 8⟩

theorem C72_counterexample : ∃ s tr s', Reachable overhead s tr ∧ (knows overhead tr).pool 0 = some (8, getRequiredMemorySize overhead 8 2) ∧
    held (knows overhead tr) 0 = 1 ∧ step overhead s (.alloc 0 0 none) = some (s', [.alloc 0 0 none]) ∧
    ∀ a, step overhead s (.alloc 0 0 (some a)) = none := by
  obtain ⟨s, tr, h, hp⟩ := Lts.runSat_ex (step := step overhead) (init := PSt.init)
    (as := [.create 8 (getRequiredMemorySize overhead 8 2) (some (1, 100, 24)), .alloc 0 0 (some 100)])
    (P := fun s tr => decide (tr = [.create 8 24 (some 0), .alloc 0 0 (some 100)] ∧ s.slot 0 = ⟨8, 1⟩ ∧ s.k 1 = some ⟨8, 1, 100, 24, [(100, 8)]⟩)) (by decide)
  obtain ⟨e, e0, e1⟩ := of_decide_eq_true hp
  refine ⟨s, tr, s, h, by rw [e]; decide, by rw [e]; decide, ?_, ?_⟩
  · simp [ItronPool.step, e0, e1, overhead, pgetOk]
  · intro a
    simp [ItronPool.step, e0, e1, overhead, pgetOk]

end Verif.Props.ItronPool
