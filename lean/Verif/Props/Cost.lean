import Verif.Proof.Cost
import Verif.Props.Vector
import Verif.Props.Deque
/-
C98: the cost of container calls, counted in elements constructed or assigned (the counter `cnt` of the model's memory, incremented by
every placement new and every copy assignment and by nothing else).  `Spec/Cost.lean` states the costs by list length and position only.
-/
namespace Verif.Props.Cost
open Verif Cmd Spec
variable {V : Type}

theorem vec_cost {E : Env V} {cap : Nat} (hF : Vector.Fits E cap) {xs : List V} {s : St V} {o : Op V} (h : Vector.Holds cap xs s)
    (ho : Vector.Callable E o) (hin : (apply cap xs o).isSome) : Verif.Cost (vecCost xs.length o) (Vec.exec E o) s := by
  have hF' := hF; unfold Vector.Fits Vec.Fits at hF'
  have he : s.e = xs.length := h.sz
  have hle := h.le
  obtain ⟨hv, hr⟩ := ho
  have pure0 : ∀ {α β : Type} {k : Nat} {m : Cmd (St V) α} {f : α → β}, Verif.Cost k m s → Verif.Cost k (m >>= fun a => pure (f a)) s :=
    fun h => Cost.bindR0 h fun _ _ _ => Cost.pure _
  cases o with
  | pushFront v => cases hv
  | popFront => cases hv
  | pushBack v => exact pure0 (f := fun _ => Ret.unit) Vec.Cost.pushBack
  | popBack => exact pure0 (f := fun _ => Ret.unit) Vec.Cost.popBack
  | insert p v =>
    have hp : p ≤ xs.length := by by_cases hp : p ≤ xs.length <;> simp [apply, hp] at hin; exact hp
    refine pure0 (f := fun it : Int => Ret.pos it.toNat) (Cost.bind0 Cost.dassert fun _ s1 h1 => Cost.bindR0 ?_ fun _ _ _ => Cost.pure _)
    rw [Vec.dassert_same h1]
    exact (Vec.Cost.insertN_ (n := 1) (by omega) (by omega)).congr (by simp only [vecCost, he])
  | insertN p n v =>
    have hp : p ≤ xs.length := by by_cases hp : p ≤ xs.length <;> simp [apply, hp] at hin; exact hp
    refine pure0 (f := fun _ => Ret.unit) (Cost.bind0 Cost.dassert fun _ s1 h1 => ?_)
    rw [Vec.dassert_same h1]
    exact (Vec.Cost.insertN_ (by omega) (by omega)).congr (by simp only [vecCost, he])
  | insertInt p n v =>
    have hp : p ≤ xs.length := by by_cases hp : p ≤ xs.length <;> simp [apply, hp] at hin; exact hp
    by_cases hn : n < 0
    · have hap : apply cap xs (.insertInt p n v) = some (xs, .threw .badAlloc) := by simp [apply, hp, hn]
      have hw := Vec.exec_wp hF h.rep hv hr hin
      unfold Verif.Cost
      rcases wp_cases hw with ⟨ret, s', hx, ys, _, ha⟩ | ⟨e, s', hx, hc⟩
      · rw [hap] at ha; cases ha
      · rcases hc with ⟨_, rfl⟩ | ⟨_, ⟨zs, r, ha⟩, _⟩
        · rw [hx]; exact ⟨Nat.le_refl _, Nat.le_add_right _ _⟩
        · rw [hap] at ha; cases ha
    · have hz : toSize E.M n = n.toNat := toSize_of_nonneg (by omega) (by simp [Op.representable] at hr; omega)
      refine pure0 (f := fun _ => Ret.unit) (Cost.bind0 Cost.dassert fun _ s1 h1 => ?_)
      rw [Vec.dassert_same h1, hz]
      exact (Vec.Cost.insertN_ (by omega) (by omega)).congr (by simp only [vecCost, he])
  | insertRange p src =>
    have hp : p ≤ xs.length := by by_cases hp : p ≤ xs.length <;> simp [apply, hp] at hin; exact hp
    refine pure0 (f := fun _ => Ret.unit) (Cost.bind0 Cost.dassert fun _ s1 h1 => ?_)
    rw [Vec.dassert_same h1]
    exact (Vec.Cost.insertRange_ (by omega) (by omega) hr).congr (by simp only [vecCost, he])
  | erase p =>
    have hp : p < xs.length := by by_cases hp : p < xs.length <;> simp [apply, hp] at hin; exact hp
    refine pure0 (f := fun it : Int => Ret.pos it.toNat) (Cost.bind0 Cost.dassert fun _ s1 h1 => ?_)
    rw [Vec.dassert_same h1]
    have := Vec.Cost.eraseRange (E := E) (a := p) (b := p + 1) (s := s) (by omega)
    simp only [vecCost]; rw [he] at this; exact this
  | eraseRange a b =>
    have hp : a < b ∧ b ≤ xs.length := by by_cases hp : a < b ∧ b ≤ xs.length <;> simp [apply, hp] at hin; exact hp
    refine pure0 (f := fun it : Int => Ret.pos it.toNat) ?_
    have := Vec.Cost.eraseRange (E := E) (a := a) (b := b) (s := s) (by omega)
    simp only [vecCost]; rw [he] at this; exact this
  | resize n v => exact pure0 (f := fun _ => Ret.unit) (Vec.Cost.resize.congr (by simp only [vecCost, he]))
  | assignN n v => exact pure0 (f := fun _ => Ret.unit) Vec.Cost.assignN
  | assignRange src => exact pure0 (f := fun _ => Ret.unit) Vec.Cost.assignRange
  | clear => exact pure0 (f := fun _ => Ret.unit) Vec.Cost.clear
  | at_ i =>
    exact pure0 (f := Ret.val) (Cost.gets (Cost.ite (fun _ => Cost.throw _) fun _ => Vec.Cost.deref fun _ => Cost.read))
  | index i => exact pure0 (f := Ret.val) (Vec.Cost.deref fun _ => Cost.read)
  | front => exact pure0 (f := Ret.val) (Cost.bind0 Cost.dassert fun _ _ _ => Vec.Cost.deref fun _ => Cost.read)
  | back => exact pure0 (f := Ret.val) (Cost.bind0 Cost.dassert fun _ _ _ => Cost.gets (Vec.Cost.deref fun _ => Cost.read))
  | size => exact Cost.gets (Cost.pure _)
  | empty => exact Cost.gets (Cost.pure _)
  | full => exact Cost.gets (Cost.pure _)
  | availableSize => exact Cost.gets (Cost.pure _)
  | maxSize => exact Cost.gets (Cost.pure _)

theorem deq_cost {E : Env V} {cap : Nat} (hF : Deque.Fits E cap) {xs : List V} {s : St V} {o : Op V} (h : Deque.Holds cap xs s)
    (ho : Deque.Callable E o) (hin : (apply cap xs o).isSome) : Verif.Cost (deqCost xs.length o) (Deq.exec E o) s := by
  have hF' := hF; unfold Deque.Fits Deq.Fits at hF'
  have hd := h.rep
  have hle := h.le
  have hr : o.representable E.M := ho
  have hinb := h.inb
  have pure0 : ∀ {α β : Type} {k : Nat} {m : Cmd (St V) α} {f : α → β}, Verif.Cost k m s → Verif.Cost k (m >>= fun a => pure (f a)) s :=
    fun h => Cost.bindR0 h fun _ _ _ => Cost.pure _
  have ret0 : ∀ {k : Nat} {m : Cmd (St V) Nat}, Verif.Cost k m s →
      Verif.Cost k (m >>= fun it => gets (fun s => Deq.itDiff E.M s.nbuf s.b it s.b) >>= fun d => pure (Ret.pos d.toNat : Ret V)) s :=
    fun h => Cost.bindR0 h fun _ _ _ => Cost.gets (Cost.pure _)
  have hsz : Deq.size E s = xs.length := h.size hF
  have hb0 : s.b = Deq.ring (cap + 1) s.b 0 := (Deq.ring_zero h.inb).symm
  have hpos : ∀ p, p ≤ cap + 1 → Deq.itAddU E.M s.nbuf s.b p = Deq.ring (cap + 1) s.b p := by
    intro p hp
    have := Deq.itAddU_ring (o := s.b) (j := 0) (n := p) hF h.inb (by omega)
    rw [Deq.ring_zero h.inb, Nat.zero_add] at this
    rw [h.buf]; exact this
  cases o with
  | pushBack v => exact pure0 (f := fun _ => Ret.unit) Deq.Cost.pushBack
  | pushFront v => exact pure0 (f := fun _ => Ret.unit) Deq.Cost.pushFront
  | popBack => exact pure0 (f := fun _ => Ret.unit) Deq.Cost.popBack
  | popFront => exact pure0 (f := fun _ => Ret.unit) Deq.Cost.popFront
  | insert p v =>
    have hp : p ≤ xs.length := by by_cases hp : p ≤ xs.length <;> simp [apply, hp] at hin; exact hp
    refine Cost.gets (ret0 ?_)
    rw [hpos p (by omega)]
    refine Cost.bind0 Cost.dassert fun _ s1 h1 => ?_
    rw [Vec.dassert_same h1]
    exact Deq.Cost.insertN_ hF hd hp
  | insertN p n v =>
    have hp : p ≤ xs.length := by by_cases hp : p ≤ xs.length <;> simp [apply, hp] at hin; exact hp
    refine Cost.gets (pure0 (f := fun _ => Ret.unit) ?_)
    rw [hpos p (by omega)]
    refine Cost.bind0 Cost.dassert fun _ s1 h1 => ?_
    rw [Vec.dassert_same h1]
    exact pure0 (f := fun _ => ()) (Deq.Cost.insertN_ hF hd hp)
  | insertInt p n v =>
    have hp : p ≤ xs.length := by by_cases hp : p ≤ xs.length <;> simp [apply, hp] at hin; exact hp
    by_cases hn : n < 0
    · have hap : apply cap xs (.insertInt p n v) = some (xs, .threw .badAlloc) := by simp [apply, hp, hn]
      have hw := Deq.exec_wp hF h.rep hr (by rw [Nat.add_sub_cancel]; exact hin)
      unfold Deq.OkPost Deq.ExPost at hw
      rw [Nat.add_sub_cancel] at hw
      unfold Verif.Cost
      rcases wp_cases hw with ⟨ret, s', hx, ys, _, _, ha, _⟩ | ⟨e, s', hx, hc⟩
      · rw [hap] at ha; cases ha
      · rcases hc with ⟨_, rfl⟩ | ⟨_, ⟨zs, r, ha⟩, _⟩
        · rw [hx]; exact ⟨Nat.le_refl _, Nat.le_add_right _ _⟩
        · rw [hap] at ha; cases ha
    · have hz : toSize E.M n = n.toNat := toSize_of_nonneg (by omega) (by simp [Op.representable] at hr; omega)
      refine Cost.gets (pure0 (f := fun _ => Ret.unit) ?_)
      rw [hpos p (by omega)]
      refine Cost.bind0 Cost.dassert fun _ s1 h1 => ?_
      rw [Vec.dassert_same h1, hz]
      exact pure0 (f := fun _ => ()) (Deq.Cost.insertN_ hF hd hp)
  | insertRange p src =>
    have hp : p ≤ xs.length := by by_cases hp : p ≤ xs.length <;> simp [apply, hp] at hin; exact hp
    refine Cost.gets (pure0 (f := fun _ => Ret.unit) ?_)
    rw [hpos p (by omega)]
    refine Cost.bind0 Cost.dassert fun _ s1 h1 => ?_
    rw [Vec.dassert_same h1]
    exact Deq.Cost.insertRange_ hF hd hp hr
  | erase p =>
    have hp : p < xs.length := by by_cases hp : p < xs.length <;> simp [apply, hp] at hin; exact hp
    refine Cost.gets (ret0 ?_)
    rw [hpos p (by omega)]
    refine Cost.bind0 Cost.dassert fun _ s1 h1 => ?_
    rw [Vec.dassert_same h1]
    refine Cost.gets ?_
    have e : Deq.itAdd E.M s.nbuf (Deq.ring (cap + 1) s.b p) 1 = Deq.ring (cap + 1) s.b (p + 1) := by
      rw [h.buf]; exact Deq.itAdd_ring (n := 1) hF h.inb (by omega)
    rw [e]
    exact Deq.Cost.eraseRange hF hd (by omega) hp
  | eraseRange a b =>
    have hp : a < b ∧ b ≤ xs.length := by by_cases hp : a < b ∧ b ≤ xs.length <;> simp [apply, hp] at hin; exact hp
    refine Cost.gets (Cost.gets (ret0 ?_))
    rw [hpos a (by omega), hpos b (by omega)]
    exact Deq.Cost.eraseRange hF hd (by omega) hp.2
  | resize n v => exact pure0 (f := fun _ => Ret.unit) (Deq.Cost.resize.congr (by simp only [deqCost, hsz]))
  | assignN n v => exact pure0 (f := fun _ => Ret.unit) Deq.Cost.assignN
  | assignRange src => exact pure0 (f := fun _ => Ret.unit) Deq.Cost.assignRange
  | clear => exact pure0 (f := fun _ => Ret.unit) Deq.Cost.clear
  | at_ i =>
    exact pure0 (f := Ret.val) (Cost.gets (Cost.ite (fun _ => Cost.throw _) fun _ => Cost.gets Cost.read))
  | index i => exact pure0 (f := Ret.val) (Cost.gets Cost.read)
  | front => exact pure0 (f := Ret.val) (Cost.bind0 Cost.dassert fun _ _ _ => Cost.gets Cost.read)
  | back => exact pure0 (f := Ret.val) (Cost.bind0 Cost.dassert fun _ _ _ => Cost.gets Cost.read)
  | size => exact Cost.gets (Cost.pure _)
  | empty => exact Cost.gets (Cost.pure _)
  | full => exact Cost.gets (Cost.pure _)
  | availableSize => exact Cost.gets (Cost.pure _)
  | maxSize => exact Cost.gets (Cost.pure _)

/-- C98, vectors: a call that returns constructed or assigned exactly `vecCost` elements; one whose element operation throws, at most that many. -/
theorem C98_vector_call (E : Env V) (cap : Nat) (hF : Vector.Fits E cap) {xs : List V} {s : St V} {o : Op V} (h : Vector.Holds cap xs s)
    (ho : Vector.Callable E o) (hin : (apply cap xs o).isSome) :
    (∀ ret s', Vec.exec E o s = .ok ret s' → s'.cnt = s.cnt + vecCost xs.length o) ∧
    (∀ e s', Vec.exec E o s = .exn e s' → s.cnt ≤ s'.cnt ∧ s'.cnt ≤ s.cnt + vecCost xs.length o) :=
  ⟨fun _ _ => (vec_cost hF h ho hin).ok, fun _ _ => (vec_cost hF h ho hin).exn⟩

/-- C98, deques, whatever the rotation. -/
theorem C98_deque_call (E : Env V) (cap : Nat) (hF : Deque.Fits E cap) {xs : List V} {s : St V} {o : Op V} (h : Deque.Holds cap xs s)
    (ho : Deque.Callable E o) (hin : (apply cap xs o).isSome) :
    (∀ ret s', Deq.exec E o s = .ok ret s' → s'.cnt = s.cnt + deqCost xs.length o) ∧
    (∀ e s', Deq.exec E o s = .exn e s' → s.cnt ≤ s'.cnt ∧ s'.cnt ≤ s.cnt + deqCost xs.length o) :=
  ⟨fun _ _ => (deq_cost hF h ho hin).ok, fun _ _ => (deq_cost hF h ho hin).exn⟩

theorem history_cost {exec : Op V → Cmd (St V) (Ret V)} {cap : Nat} {cost : Nat → Op V → Nat} {Rep : List V → St V → Prop} {Good : Op V → Prop}
    (hstep : ∀ xs s o ys r, Rep xs s → Good o → apply cap xs o = some (ys, r) →
      (∃ ret s', exec o s = .ok ret s' ∧ r = .ret ret ∧ Rep ys s' ∧ s'.cnt = s.cnt + cost xs.length o) ∨
      (∃ e, exec o s = .exn e s ∧ r = .threw e ∧ Rep ys s))
    (os : List (Op V)) : ∀ xs s zs rs, Rep xs s → (∀ o ∈ os, Good o) → applyAll cap xs os = some (zs, rs) →
      ∃ s', history exec s os = some (s', rs) ∧ Rep zs s' ∧ s'.cnt = s.cnt + totalCost cost cap xs os := by
  induction os with
  | nil =>
    intro xs s zs rs h _ ha
    simp only [applyAll, Option.some.injEq, Prod.mk.injEq] at ha
    obtain ⟨rfl, rfl⟩ := ha
    exact ⟨s, rfl, h, rfl⟩
  | cons o os ih =>
    intro xs s zs rs h hg ha
    simp only [applyAll, Option.bind_eq_bind, Option.bind_eq_some_iff, Option.pure_def, Option.some.injEq, Prod.mk.injEq, Prod.exists] at ha
    obtain ⟨ys, r, h1, zs', rs', h2, rfl, rfl⟩ := ha
    rcases hstep xs s o ys r h (hg o (by simp)) h1 with ⟨ret, s1, he, rfl, hrep, hc⟩ | ⟨e, he, rfl, hrep⟩
    · obtain ⟨s2, hh, hr2, hc2⟩ := ih ys s1 zs' rs' hrep (fun o ho => hg o (by simp [ho])) h2
      refine ⟨s2, by simp [history, he, hh], hr2, ?_⟩
      simp only [totalCost, h1]; omega
    · obtain ⟨s2, hh, hr2, hc2⟩ := ih ys s zs' rs' hrep (fun o ho => hg o (by simp [ho])) h2
      refine ⟨s2, by simp [history, he, hh], hr2, ?_⟩
      simp only [totalCost, h1]; omega

/-- C98 over histories: the constructions and assignments of a whole run of in-contract calls are the sum of the costs of the calls that
succeed; refused calls cost nothing. -/
theorem C98_vector_history (E : Env V) (cap : Nat) (hF : Vector.Fits E cap) (hnt : ∀ k, E.thr k = false) (os : List (Op V))
    (hos : ∀ o ∈ os, Vector.Callable E o) (xs zs : List V) (rs : List (Res V)) (s : St V) (h : Vector.Holds cap xs s)
    (hspec : applyAll cap xs os = some (zs, rs)) :
    ∃ s', history (Vec.exec E) s os = some (s', rs) ∧ Vector.Holds cap zs s' ∧ s'.cnt = s.cnt + totalCost vecCost cap xs os := by
  refine history_cost (Rep := fun xs s => Vector.Holds cap xs s) (Good := Vector.Callable E) ?_ os xs s zs rs h hos hspec
  intro xs s o ys r hh hg hap
  rcases Vector.C01_vector_single_call E cap hF hnt hh hg hap with ⟨ret, s', he, hr, hy⟩ | ⟨e, he, hr, rfl⟩
  · exact Or.inl ⟨ret, s', he, hr, hy, (C98_vector_call E cap hF hh hg (by rw [hap]; rfl)).1 _ _ he⟩
  · exact Or.inr ⟨e, he, hr, hh⟩
theorem C98_deque_history (E : Env V) (cap : Nat) (hF : Deque.Fits E cap) (hnt : ∀ k, E.thr k = false) (os : List (Op V))
    (hos : ∀ o ∈ os, Deque.Callable E o) (xs zs : List V) (rs : List (Res V)) (s : St V) (h : Deque.Holds cap xs s)
    (hspec : applyAll cap xs os = some (zs, rs)) :
    ∃ s', history (Deq.exec E) s os = some (s', rs) ∧ Deque.Holds cap zs s' ∧ s'.cnt = s.cnt + totalCost deqCost cap xs os := by
  refine history_cost (Rep := fun xs s => Deque.Holds cap xs s) (Good := Deque.Callable E) ?_ os xs s zs rs h hos hspec
  intro xs s o ys r hh hg hap
  rcases Deque.C10_deque_single_call E cap hF hnt hh hg hap with ⟨ret, s', he, hr, hy⟩ | ⟨e, he, hr, rfl⟩
  · exact Or.inl ⟨ret, s', he, hr, hy, (C98_deque_call E cap hF hh hg (by rw [hap]; rfl)).1 _ _ he⟩
  · exact Or.inr ⟨e, he, hr, hh⟩

/-- What the costs amount to: a deque never moves more than half of its elements, wherever a call inserts or erases; nothing in front of the
position of a vector moves; at the ends of a deque and at the back of a vector the size does not matter. -/
theorem C98_bounds (z p n : Nat) (v : V) :
    deqCost z (.insertN p n v) ≤ 2 * n + z / 2 ∧
    (∀ b, p ≤ b → b ≤ z → 2 * deqCost z (.eraseRange p b : Op V) ≤ z - (b - p)) ∧
    (p ≤ z → vecCost z (.insertN p n v) ≤ 2 * n + (z - p)) ∧
    deqCost z (.insertN 0 n v) = n ∧ deqCost z (.insertN z n v) = n ∧ vecCost z (.insertN z n v) = n ∧
    deqCost (z + 1) (.erase 0 : Op V) = 0 ∧ deqCost (z + 1) (.erase z : Op V) = 0 ∧ vecCost (z + 1) (.erase z : Op V) = 0 := by
  refine ⟨?_, ?_, ?_, ?_, ?_, ?_, ?_, ?_, ?_⟩ <;> simp only [deqCost, vecCost, gapCost, shortSide] <;> grind

/-- A history of pushes and pops at either end of a deque makes at most one copy per call, whatever the contents. -/
theorem C98_deque_ends (cap : Nat) (os : List (Op V))
    (hos : ∀ o ∈ os, (∃ v, o = .pushBack v ∨ o = .pushFront v) ∨ o = .popBack ∨ o = .popFront) :
    ∀ xs : List V, totalCost deqCost cap xs os ≤ os.length := by
  induction os with
  | nil => intro xs; exact Nat.le_refl _
  | cons o os ih =>
    intro xs
    have hc : deqCost xs.length o ≤ 1 := by
      rcases hos o (by simp) with ⟨v, rfl | rfl⟩ | rfl | rfl <;> simp [deqCost]
    have ih' := ih (fun o ho => hos o (by simp [ho]))
    simp only [totalCost, List.length_cons]
    split
    · next ys _ _ => have := ih' ys; omega
    · next ys _ _ => have := ih' ys; omega
    · omega

-- erasing the second of [10, 20, 30] in a wrapped deque moves one element
example : ∃ ret s', Deq.exec Deque.exE (.erase 1) Deque.exW = .ok ret s' ∧ s'.cnt = Deque.exW.cnt + 1 := by
  rcases Deque.C10_deque_single_call (o := .erase 1) Deque.exE 7 (by unfold Deque.Fits Deq.Fits Deque.exE; decide) (fun _ => rfl)
    Deque.exW_holds trivial rfl with ⟨ret, s', he, _⟩ | ⟨_, _, hr, _⟩
  · exact ⟨ret, s', he, (C98_deque_call (o := .erase 1) Deque.exE 7 (by unfold Deque.Fits Deq.Fits Deque.exE; decide) Deque.exW_holds trivial rfl).1 _ _ he⟩
  · cases hr
example : totalCost deqCost 7 [10, 20, 30] [.insertN 1 2 5, .eraseRange 0 1, .pushFront 3, .insertRange 2 [1, 2, 3, 4, 5, 6]] = 3 + 0 + 1 := by decide

end Verif.Props.Cost
