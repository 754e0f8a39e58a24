import Verif.Spec.Cost
import Verif.Proof.VectorApi
import Verif.Proof.DequeApi
/- Counting constructions and assignments: a partial-correctness calculus beside the `wp` one. -/
namespace Verif
open Cmd
variable {V α β : Type} {E : Env V} {s : St V}

/-- `m`, run from `s`, makes exactly `k` constructions/assignments if it returns, at most `k` if it throws. -/
def Cost (k : Nat) (m : Cmd (St V) α) (s : St V) : Prop :=
  match m s with
  | .ok _ s' => s'.cnt = s.cnt + k
  | .exn _ s' => s.cnt ≤ s'.cnt ∧ s'.cnt ≤ s.cnt + k
  | _ => True

theorem Cost.ok {k : Nat} {m : Cmd (St V) α} {a : α} {s' : St V} (h : Cost k m s) (he : m s = .ok a s') : s'.cnt = s.cnt + k := by
  unfold Cost at h; rw [he] at h; exact h
theorem Cost.exn {k : Nat} {m : Cmd (St V) α} {e : Exn} {s' : St V} (h : Cost k m s) (he : m s = .exn e s') :
    s.cnt ≤ s'.cnt ∧ s'.cnt ≤ s.cnt + k := by
  unfold Cost at h; rw [he] at h; exact h

theorem Cost.congr {j k : Nat} {m : Cmd (St V) α} (h : Cost j m s) (e : j = k) : Cost k m s := e ▸ h

theorem Cost.bind {j k : Nat} {m : Cmd (St V) α} {f : α → Cmd (St V) β} (h1 : Cost j m s)
    (h2 : ∀ a s', m s = .ok a s' → Cost k (f a) s') : Cost (j + k) (m >>= f) s := by
  show Cost (j + k) (Cmd.bind m f) s
  unfold Cost Cmd.bind
  cases hm : m s with
  | ok a s' =>
    have c1 := h1.ok hm
    have c2 := h2 a s' hm
    simp only
    cases hf : f a s' with
    | ok b s'' => have := c2.ok hf; simp only; omega
    | exn e s'' => have := c2.exn hf; simp only; omega
    | ub f => trivial
    | diverge => trivial
  | exn e s' => have := h1.exn hm; simp only; omega
  | ub f => trivial
  | diverge => trivial

theorem Cost.bind0 {k : Nat} {m : Cmd (St V) α} {f : α → Cmd (St V) β} (h1 : Cost 0 m s)
    (h2 : ∀ a s', m s = .ok a s' → Cost k (f a) s') : Cost k (m >>= f) s := (h1.bind h2).congr (by omega)
theorem Cost.bindR0 {k : Nat} {m : Cmd (St V) α} {f : α → Cmd (St V) β} (h1 : Cost k m s)
    (h2 : ∀ a s', m s = .ok a s' → Cost 0 (f a) s') : Cost k (m >>= f) s := h1.bind h2

theorem Cost.pure (a : α) : Cost 0 (Pure.pure a : Cmd (St V) α) s := rfl
theorem Cost.throw {k : Nat} (e : Exn) : Cost k (Cmd.throw e : Cmd (St V) α) s := ⟨Nat.le_refl _, Nat.le_add_right _ _⟩
theorem Cost.fault {k : Nat} (f : Fault) : Cost k (Cmd.fault f : Cmd (St V) α) s := trivial
theorem Cost.gets {k : Nat} {f : St V → α} {g : α → Cmd (St V) β} (h : Cost k (g (f s)) s) : Cost k (Cmd.gets f >>= g) s := h
theorem Cost.gets0 {f : St V → α} : Cost 0 (Cmd.gets f) s := rfl
theorem Cost.modify {f : St V → St V} (h : ∀ s, (f s).cnt = s.cnt) : Cost 0 (Cmd.modify f) s := h s
theorem Cost.ite {k : Nat} {c : Prop} [Decidable c] {m n : Cmd (St V) α} (h1 : c → Cost k m s) (h2 : ¬ c → Cost k n s) :
    Cost k (if c then m else n) s := by split <;> simp_all

theorem Cost.construct {i : Nat} {r : Ref V} : Cost 1 (construct E i r) s := by
  unfold Cost Verif.construct
  split <;> rename_i hh <;> (repeat' split at hh) <;> simp_all <;> (subst_vars; first | omega | simp | (obtain ⟨_, rfl⟩ := hh; simp))
theorem Cost.assign {i : Nat} {r : Ref V} : Cost 1 (assignSlot E i r) s := by
  unfold Cost assignSlot
  split <;> rename_i hh <;> (repeat' split at hh) <;> simp_all <;> (subst_vars; first | omega | simp | (obtain ⟨_, rfl⟩ := hh; simp))
theorem Cost.destroy {i : Nat} : Cost 0 (destroySlot i : Cmd (St V) Unit) s := by
  unfold Cost destroySlot
  split <;> rename_i hh <;> (repeat' split at hh) <;> simp_all <;> (subst_vars; first | omega | simp | (obtain ⟨_, rfl⟩ := hh; simp))
theorem Cost.read {i : Nat} : Cost 0 (readSlot i : Cmd (St V) V) s := by
  unfold Cost readSlot
  split <;> rename_i hh <;> (repeat' split at hh) <;> simp_all
theorem Cost.dassert {c : St V → Bool} : Cost 0 (dassert E c) s := by
  unfold Cost Verif.dassert
  split <;> rename_i hh <;> split at hh <;> simp_all
theorem Cost.src {src : List V} {j : Nat} : Cost 0 (srcRead src j) s := by
  unfold srcRead; split
  · exact Cost.pure _
  · exact Cost.fault _

/-- A loop making `N` iterations of cost `k`. -/
theorem Cost.loop {cond : β → St V → Bool} {body : β → Cmd (St V) β} {fuel : Nat} {x : β} {k : Nat} (N : Nat) (p : Nat → β)
    (h0 : p 0 = x) (hc : ∀ i s, i < N → cond (p i) s = true) (hN : ∀ s, cond (p N) s = false)
    (hb : ∀ i s, i < N → Cost k (body (p i)) s ∧ ∀ y s', body (p i) s = .ok y s' → y = p (i+1)) :
    Cost (N * k) (Cmd.loop cond body fuel x) s := by
  have key : ∀ fuel i s, i ≤ N → Cost ((N - i) * k) (Cmd.loop cond body fuel (p i)) s := by
    intro fuel
    induction fuel with
    | zero => intro i s _; trivial
    | succ f ih =>
      intro i s hi
      by_cases h : i < N
      · have : Cost (k + (N - (i+1)) * k) (body (p i) >>= Cmd.loop cond body f) s := by
          refine Cost.bind (hb i s h).1 fun a s' ha => ?_
          rw [(hb i s h).2 a s' ha]; exact ih _ _ h
        have e : k + (N - (i+1)) * k = (N - i) * k := by
          rw [show N - i = (N - (i+1)) + 1 by omega, Nat.succ_mul]; omega
        rw [e] at this
        unfold Cost at *
        simpa [Cmd.loop, hc i s h] using this
      · have : i = N := by omega
        subst this
        unfold Cost; simp [Cmd.loop, hN]
  have := key fuel 0 s (by omega)
  rwa [h0, Nat.sub_zero] at this

theorem Cost.loop0 {cond : β → St V → Bool} {body : β → Cmd (St V) β} {fuel : Nat} (hb : ∀ x s, Cost 0 (body x) s) :
    ∀ x (s : St V), Cost 0 (Cmd.loop cond body fuel x) s := by
  induction fuel with
  | zero => intro x s; trivial
  | succ f ih =>
    intro x s
    have : Cost 0 (body x >>= Cmd.loop cond body f) s := Cost.bind0 (hb x s) fun _ _ _ => ih _ _
    by_cases h : cond x s = true <;> unfold Cost at * <;> simp [Cmd.loop, h] at * <;> assumption

theorem Cost.forN {fuel n k : Nat} {body : Nat → Cmd (St V) Unit} (hb : ∀ i s, Cost k (body i) s) : Cost (n * k) (forN fuel n body) s := by
  unfold Verif.forN
  refine Cost.bindR0 (Cost.loop n (fun i => i) rfl ?_ ?_ ?_) fun _ _ _ => Cost.pure _
  · intro i s h; simpa using h
  · intro s; simp
  · intro i s h
    refine ⟨Cost.bindR0 (hb i s) fun _ _ _ => Cost.pure _, fun y s' hy => ?_⟩
    cases hm : body i s with
    | ok a s1 => rw [Cmd.bind_ok hm] at hy; cases hy; rfl
    | exn e s1 => rw [Cmd.bind_exn hm] at hy; cases hy
    | ub f => rw [Cmd.bind_ub hm] at hy; cases hy
    | diverge => exfalso; change Cmd.bind _ _ _ = _ at hy; simp [Cmd.bind, hm] at hy

theorem Cost.forIter {ι : Type} [BEq ι] [LawfulBEq ι] {fuel k : Nat} {start stop : ι} {next : ι → ι} {body : ι → Cmd (St V) Unit}
    (N : Nat) (p : Nat → ι) (h0 : p 0 = start) (hN : p N = stop) (hne : ∀ i, i < N → p i ≠ stop)
    (hnext : ∀ i, i < N → next (p i) = p (i+1)) (hb : ∀ i s, Cost k (body i) s) :
    Cost (N * k) (forIter fuel start stop next body) s := by
  unfold Verif.forIter
  refine Cost.bindR0 (Cost.loop N p h0 ?_ ?_ ?_) fun _ _ _ => Cost.pure _
  · intro i s h; simpa using hne i h
  · intro s; simp [hN]
  · intro i s h
    refine ⟨Cost.bindR0 (hb _ s) fun _ _ _ => Cost.pure _, fun y s' hy => ?_⟩
    rw [← hnext i h]
    cases hm : body (p i) s with
    | ok a s1 => rw [Cmd.bind_ok hm] at hy; cases hy; rfl
    | exn e s1 => rw [Cmd.bind_exn hm] at hy; cases hy
    | ub f => rw [Cmd.bind_ub hm] at hy; cases hy
    | diverge => exfalso; change Cmd.bind _ _ _ = _ at hy; simp [Cmd.bind, hm] at hy

theorem Cost.forIter0 {ι : Type} [BEq ι] {fuel : Nat} {start stop : ι} {next : ι → ι} {body : ι → Cmd (St V) Unit}
    (hb : ∀ i s, Cost 0 (body i) s) : Cost 0 (Verif.forIter fuel start stop next body) s := by
  unfold Verif.forIter
  exact Cost.bindR0 (Cost.loop0 (fun x s => Cost.bindR0 (hb x s) fun _ _ _ => Cost.pure _) _ _) fun _ _ _ => Cost.pure _

namespace Vec

theorem Cost.deref {k : Nat} {z : Int} {f : Nat → Cmd (St V) α} (h : ∀ i, Cost k (f i) s) : Cost k (Vec.deref z f) s := by
  unfold Vec.deref; exact Cost.ite (fun _ => Cost.fault _) fun _ => h _

/-- Integer positions counted up or down. -/
theorem Cost.up {fuel k N : Nat} {a b : Int} {body : Int → Cmd (St V) Unit} (h : b = a + (N : Int)) (hb : ∀ i s, Cost k (body i) s) :
    Cost (N * k) (forIter fuel a b (· + 1) body) s := by
  refine Cost.forIter N (fun i => a + (i : Int)) (by simp) (by simp [h]) (fun i hi => by omega) (fun i hi => by omega) hb
theorem Cost.down {fuel k N : Nat} {a b : Int} {body : Int → Cmd (St V) Unit} (h : a = b + (N : Int)) (hb : ∀ i s, Cost k (body i) s) :
    Cost (N * k) (forIter fuel a b (· - 1) body) s := by
  refine Cost.forIter N (fun i => a - (i : Int)) (by simp) (by simp [h]) (fun i hi => by omega) (fun i hi => by omega) hb

theorem Cost.destroyRange {a b : Int} : Cost 0 (destroyRange E a b) s :=
  Cost.forIter0 fun _ _ => Cost.deref fun _ => Cost.destroy
theorem Cost.constructEnd {r : Ref V} : Cost 1 (constructEnd E r) s := by
  unfold Vec.constructEnd
  exact Cost.gets (Cost.bindR0 (Cost.deref fun _ => Cost.construct) fun _ _ _ => Cost.modify fun _ => rfl)
theorem Cost.clear : Cost 0 (clear E) s := by
  unfold Vec.clear
  exact Cost.gets (Cost.bindR0 Cost.destroyRange fun _ _ _ => Cost.modify fun _ => rfl)
theorem Cost.pushBack {r : Ref V} : Cost 1 (pushBack E r) s := by
  unfold Vec.pushBack
  exact Cost.gets (Cost.ite (fun _ => Cost.throw _) fun _ => Cost.constructEnd)
theorem Cost.popBack : Cost 0 (popBack E) s := by
  unfold Vec.popBack
  exact Cost.bind0 Cost.dassert fun _ _ _ => Cost.gets (Cost.bindR0 (Cost.deref fun _ => Cost.destroy) fun _ _ _ => Cost.modify fun _ => rfl)
theorem Cost.resize {n : Nat} {r : Ref V} : Cost (n - s.e) (resize E n r) s := by
  unfold Vec.resize
  refine Cost.gets (Cost.ite (fun h => ?_) fun h => Cost.gets (Cost.ite (fun _ => Cost.throw _) fun _ => Cost.gets ?_))
  · refine Cost.congr (Cost.gets (Cost.bindR0 Cost.destroyRange fun _ _ _ => Cost.modify fun _ => rfl)) ?_
    unfold size at h; omega
  · refine (Cost.forN (k := 1) fun _ _ => Cost.pushBack).congr ?_
    unfold size at *; unfold usub; rw [if_pos (by omega)]; omega
theorem clear_e {a : Unit} {s' : St V} (h : clear E s = .ok a s') : s'.e = 0 := by
  unfold Vec.clear at h
  cases hd : destroyRange E begin_ (end_ s) s with
  | ok b s1 =>
    change (destroyRange E begin_ (end_ s) >>= fun _ => Cmd.modify fun s => { s with e := 0 }) s = _ at h
    rw [Cmd.bind_ok hd] at h
    cases h; rfl
  | exn e s1 => change (destroyRange E begin_ (end_ s) >>= fun _ => Cmd.modify fun s => { s with e := 0 }) s = _ at h
                rw [Cmd.bind_exn hd] at h; cases h
  | ub f => change (destroyRange E begin_ (end_ s) >>= fun _ => Cmd.modify fun s => { s with e := 0 }) s = _ at h
            rw [Cmd.bind_ub hd] at h; cases h
  | diverge => exfalso
               change Cmd.bind (destroyRange E begin_ (end_ s)) _ s = _ at h
               simp [Cmd.bind, hd] at h
theorem Cost.assignN {n : Nat} {r : Ref V} : Cost n (assignN E n r) s := by
  unfold Vec.assignN
  refine Cost.gets (Cost.ite (fun _ => Cost.throw _) fun _ => Cost.bind0 Cost.clear fun _ s' h => ?_)
  refine (Cost.resize).congr ?_
  rw [clear_e h]; omega
theorem Cost.countRange {src : List V} : Cost 0 (countRange E src) s := by
  unfold Vec.countRange
  exact Cost.bindR0 (Cost.loop0 (fun _ _ => Cost.pure _) _ _) fun _ _ _ => Cost.pure _
theorem Cost.src_pos {fuel k : Nat} {src : List V} {body : Nat → Cmd (St V) Unit} (hb : ∀ i s, Cost k (body i) s) :
    Cost (src.length * k) (forIter fuel 0 src.length (· + 1) body) s :=
  Cost.forIter src.length (fun i => i) rfl rfl (fun i hi => by omega) (fun i hi => rfl) hb
theorem Cost.assignRange {src : List V} : Cost src.length (assignRange E src) s := by
  unfold Vec.assignRange
  refine Cost.bind0 Cost.countRange fun _ _ _ => Cost.gets (Cost.ite (fun _ => Cost.throw _) fun _ => Cost.bind0 Cost.clear fun _ s' h => ?_)
  exact (Cost.src_pos (k := 1) fun _ _ => Cost.bind0 Cost.src fun _ _ _ => Cost.pushBack).congr (by omega)

theorem countRange_val {src : List V} (h : src.length < E.M) : countRange E src s = .ok src.length s := by
  have := Vec.countRange_wp (E := E) (s := s) (X := fun _ _ => False) (Q := fun n s' => n = src.length ∧ s' = s) h ⟨rfl, rfl⟩
  rcases wp_cases this with ⟨a, s', he, rfl, rfl⟩ | ⟨_, _, _, hf⟩
  · exact he
  · exact hf.elim

theorem Cost.insertN_ {n p : Nat} {r : Ref V} (hp : p ≤ s.e) (he : s.e < E.M) :
    Cost (Spec.gapCost (s.e - p) n) (insertN_ E (p : Int) n r) s := by
  unfold Vec.insertN_
  refine Cost.gets (Cost.ite (fun _ => Cost.throw _) fun _ => Cost.gets ?_)
  have hnum : toSize E.M (end_ s - (p : Int)) = s.e - p := by
    rw [toSize_of_nonneg] <;> simp only [end_, begin_] <;> omega
  simp only [hnum]
  refine Cost.ite (fun h => ?_) fun h => ?_
  · refine Cost.congr (Cost.bind (Cost.forN (k := 1) fun _ _ => Cost.constructEnd) fun _ _ _ =>
      Cost.bind (Cost.down (k := 1) (N := s.e - p) ?_ fun _ _ => Cost.deref fun _ => Cost.deref fun _ => Cost.assign) fun _ _ _ =>
        Cost.up (k := 1) (N := n) rfl fun _ _ => Cost.deref fun _ => Cost.assign) ?_
    · simp only [end_, begin_]; omega
    · unfold Spec.gapCost; rw [if_pos h]; omega
  · refine Cost.congr (Cost.bind (Cost.forN (k := 1) fun _ _ => Cost.constructEnd) fun _ _ _ =>
      Cost.bind (Cost.up (k := 1) (N := s.e - p) rfl fun _ _ => Cost.deref fun _ => Cost.constructEnd) fun _ _ _ =>
        Cost.up (k := 1) (N := s.e - p) ?_ fun _ _ => Cost.deref fun _ => Cost.assign) ?_
    · simp only [end_, begin_]; omega
    · unfold Spec.gapCost usub; rw [if_pos (by omega), if_neg (by omega)]; omega

theorem Cost.copyAssign {src : List V} {stop : Int × Nat → Bool} {it : Int} {j : Nat} (N : Nat)
    (h1 : ∀ i, i < N → stop (it + (i : Int), j + i) = false) (h2 : stop (it + (N : Int), j + N) = true) :
    Cost N (copyAssignLoop E src stop it j) s := by
  unfold copyAssignLoop
  refine Cost.congr (Cost.bindR0 (Cost.loop (k := 1) N (fun i => (it + (i : Int), j + i)) (by simp) ?_ ?_ ?_) fun _ _ _ => Cost.pure _) (by omega)
  · intro i s hi; simp [h1 i hi]
  · intro s; simp [h2]
  · intro i s hi
    refine ⟨Cost.bind0 Cost.src fun _ _ _ => Cost.bindR0 (Cost.deref fun _ => Cost.assign) fun _ _ _ => Cost.pure _, fun y s' hy => ?_⟩
    have e : ((it + (i : Int)) + 1, j + i + 1) = (it + ((i + 1 : Nat) : Int), j + (i + 1)) := by
      ext <;> simp <;> omega
    simp only at hy
    rw [← e]
    cases hm : srcRead src (j + i) s with
    | ok a s1 =>
      rw [Cmd.bind_ok hm] at hy
      cases hm2 : Vec.deref (it + (i : Int)) (fun i => assignSlot E i (.ext a)) s1 with
      | ok b s2 => rw [Cmd.bind_ok hm2] at hy; cases hy; rfl
      | exn e s2 => rw [Cmd.bind_exn hm2] at hy; cases hy
      | ub f => rw [Cmd.bind_ub hm2] at hy; cases hy
      | diverge => exfalso; change Cmd.bind _ _ _ = _ at hy; simp [Cmd.bind, hm2] at hy
    | exn e s1 => rw [Cmd.bind_exn hm] at hy; cases hy
    | ub f => rw [Cmd.bind_ub hm] at hy; cases hy
    | diverge => exfalso; change Cmd.bind _ _ _ = _ at hy; simp [Cmd.bind, hm] at hy

theorem Cost.insertRange_ {src : List V} {p : Nat} (hp : p ≤ s.e) (he : s.e < E.M) (hs : src.length < E.M) :
    Cost (Spec.gapCost (s.e - p) src.length) (insertRange_ E (p : Int) src) s := by
  unfold Vec.insertRange_
  refine Cost.bind0 Cost.countRange fun n s' hc => ?_
  rw [countRange_val hs] at hc
  obtain ⟨rfl, rfl⟩ : src.length = n ∧ s = s' := by cases hc; exact ⟨rfl, rfl⟩
  refine Cost.gets (Cost.ite (fun _ => Cost.throw _) fun _ => Cost.gets ?_)
  have hnum : toSize E.M (end_ s - (p : Int)) = s.e - p := by
    rw [toSize_of_nonneg] <;> simp only [end_, begin_] <;> omega
  simp only [hnum]
  refine Cost.ite (fun h => ?_) fun h => ?_
  · refine Cost.congr (Cost.bind (Cost.forN (k := 1) fun _ _ => Cost.constructEnd) fun _ _ _ =>
      Cost.bind (Cost.down (k := 1) (N := s.e - p) ?_ fun _ _ => Cost.deref fun _ => Cost.deref fun _ => Cost.assign) fun _ _ _ =>
        Cost.copyAssign src.length ?_ ?_) ?_
    · simp only [end_, begin_]; omega
    · intro i hi; simp; omega
    · simp
    · unfold Spec.gapCost; rw [if_pos h]; omega
  · refine Cost.congr (Cost.bind (Cost.forN (k := 1) fun _ _ => Cost.bind0 Cost.src fun _ _ _ => Cost.constructEnd) fun _ _ _ =>
      Cost.bind (Cost.up (k := 1) (N := s.e - p) rfl fun _ _ => Cost.deref fun _ => Cost.constructEnd) fun _ _ _ =>
        Cost.copyAssign (s.e - p) ?_ ?_) ?_
    · intro i hi; simp [end_, begin_]; omega
    · simp [end_, begin_]; omega
    · unfold Spec.gapCost usub; rw [if_pos (by omega), if_neg (by omega)]; omega

theorem Cost.eraseRange {a b : Nat} (hb : b ≤ s.e) : Cost (s.e - b) (eraseRange E (a : Int) (b : Int)) s := by
  unfold Vec.eraseRange
  refine Cost.bind0 Cost.dassert fun _ s1 h1 => Cost.bind0 Cost.dassert fun _ s2 h2 => Cost.bind0 Cost.dassert fun _ s3 h3 => ?_
  have hs : ∀ {c : St V → Bool} {s s' : St V} {a : Unit}, dassert E c s = .ok a s' → s' = s := by
    intro c s s' a h; unfold dassert at h; split at h <;> cases h; rfl
  rw [hs h3, hs h2, hs h1]
  refine Cost.gets ?_
  refine Cost.congr (Cost.bindR0 (Cost.up (k := 1) (N := s.e - b) ?_ fun _ _ => Cost.deref fun _ => Cost.deref fun _ => Cost.assign) fun _ _ _ =>
    Cost.bind0 Cost.destroyRange fun _ _ _ => Cost.bindR0 (Cost.modify fun _ => rfl) fun _ _ _ => Cost.pure _) (by omega)
  simp only [end_, begin_]; omega

theorem dassert_same {c : St V → Bool} {s s' : St V} {a : Unit} (h : dassert E c s = .ok a s') : s' = s := by
  unfold dassert at h; split at h <;> cases h; rfl

end Vec

namespace Deq
variable {nb o k : Nat} {fuel : Nat} {xs : List V} {c : Nat}

/-- Iterators counted up or down around the ring. -/
theorem Cost.up {i N : Nat} {a b : Nat} {body : Nat → Cmd (St V) Unit} (hF : Fits E.M nb) (ho : o < nb) (hN : i + N ≤ nb) (hN' : N < nb)
    (ha : a = ring nb o i) (hb' : b = ring nb o (i + N)) (hb : ∀ i s, Cost k (body i) s) :
    Cost (N * k) (forIter fuel a b (itInc E.M nb) body) s := by
  subst ha hb'
  refine Cost.forIter N (fun j => ring nb o (i + j)) rfl rfl (fun j hj h => ?_) (fun j hj => ?_) hb
  · have := ring_inj ho (by omega) hN (by omega) h; omega
  · exact itInc_ring hF ho (by omega)
theorem Cost.down {i N : Nat} {a b : Nat} {body : Nat → Cmd (St V) Unit} (hF : Fits E.M nb) (ho : o < nb) (hN : i + N ≤ nb) (hN' : N < nb)
    (ha : a = ring nb o (i + N)) (hb' : b = ring nb o i) (hb : ∀ i s, Cost k (body i) s) :
    Cost (N * k) (forIter fuel a b (itDec E.M nb) body) s := by
  subst ha hb'
  refine Cost.forIter N (fun j => ring nb o (i + N - j)) rfl (by simp) (fun j hj h => ?_) (fun j hj => ?_) hb
  · have := ring_inj ho (by omega) (by omega) (by omega) h.symm; omega
  · rw [itDec_ring hF ho (by omega) (by omega)]; congr 1

theorem Cost.destroyRange {a b nb : Nat} : Cost 0 (destroyRange E nb a b) s := Cost.forIter0 fun _ _ => Cost.destroy
theorem Cost.constructEnd {r : Ref V} : Cost 1 (constructEnd E r) s := by
  unfold Deq.constructEnd
  exact Cost.gets (Cost.bindR0 Cost.construct fun _ _ _ => Cost.modify fun _ => rfl)
theorem Cost.constructBegin {r : Ref V} : Cost 1 (constructBegin E r) s := by
  unfold Deq.constructBegin
  exact Cost.gets (Cost.bindR0 Cost.construct fun _ _ _ => Cost.modify fun _ => rfl)
theorem Cost.clear : Cost 0 (clear E) s := by
  unfold Deq.clear
  exact Cost.gets (Cost.gets (Cost.gets (Cost.bindR0 Cost.destroyRange fun _ _ _ => Cost.modify fun _ => rfl)))
theorem Cost.pushBack {r : Ref V} : Cost 1 (pushBack E r) s := by
  unfold Deq.pushBack
  exact Cost.gets (Cost.ite (fun _ => Cost.throw _) fun _ => Cost.constructEnd)
theorem Cost.pushFront {r : Ref V} : Cost 1 (pushFront E r) s := by
  unfold Deq.pushFront
  exact Cost.gets (Cost.ite (fun _ => Cost.throw _) fun _ => Cost.constructBegin)
theorem Cost.popBack : Cost 0 (popBack E) s := by
  unfold Deq.popBack
  exact Cost.bind0 Cost.dassert fun _ _ _ => Cost.gets (Cost.bindR0 Cost.destroy fun _ _ _ => Cost.modify fun _ => rfl)
theorem Cost.popFront : Cost 0 (popFront E) s := by
  unfold Deq.popFront
  exact Cost.bind0 Cost.dassert fun _ _ _ => Cost.gets (Cost.bindR0 Cost.destroy fun _ _ _ => Cost.modify fun _ => rfl)
theorem Cost.resize {n : Nat} {r : Ref V} : Cost (n - size E s) (resize E n r) s := by
  unfold Deq.resize
  refine Cost.gets (Cost.ite (fun h => ?_) fun h => Cost.gets (Cost.ite (fun _ => Cost.throw _) fun _ => Cost.gets ?_))
  · refine Cost.congr (Cost.gets (Cost.gets (Cost.gets (Cost.bindR0 Cost.destroyRange fun _ _ _ => Cost.modify fun _ => rfl)))) ?_
    omega
  · refine (Cost.forN (k := 1) fun _ _ => Cost.pushBack).congr ?_
    unfold usub; rw [if_pos (by omega)]; omega
theorem clear_e {a : Unit} {s' : St V} (h : clear E s = .ok a s') : s'.e = s'.b := by
  change (destroyRange E s.nbuf s.b s.e >>= fun _ => Cmd.modify fun s => { s with e := s.b }) s = _ at h
  cases hd : destroyRange E s.nbuf s.b s.e s with
  | ok b s1 => rw [Cmd.bind_ok hd] at h; cases h; rfl
  | exn e s1 => rw [Cmd.bind_exn hd] at h; cases h
  | ub f => rw [Cmd.bind_ub hd] at h; cases h
  | diverge => exfalso
               change Cmd.bind (destroyRange E s.nbuf s.b s.e) _ s = _ at h
               simp [Cmd.bind, hd] at h
theorem Cost.assignN {n : Nat} {r : Ref V} : Cost n (assignN E n r) s := by
  unfold Deq.assignN
  refine Cost.gets (Cost.ite (fun _ => Cost.throw _) fun _ => Cost.bind0 Cost.clear fun _ s' h => ?_)
  refine (Cost.resize).congr ?_
  have : size E s' = 0 := by unfold size distIdx usub; rw [clear_e h]; simp
  omega
theorem Cost.assignRange {src : List V} : Cost src.length (assignRange E src) s := by
  unfold Deq.assignRange
  refine Cost.bind0 Vec.Cost.countRange fun _ _ _ => Cost.gets (Cost.ite (fun _ => Cost.throw _) fun _ => Cost.bind0 Cost.clear fun _ s' h => ?_)
  exact (Vec.Cost.src_pos (k := 1) fun _ _ => Cost.bind0 Cost.src fun _ _ _ => Cost.pushBack).congr (by omega)

/-- A ring position one step before `begin()`. -/
theorem origin_before (ho : o < nb) (n : Nat) (hn : n ≤ nb) : ∃ o', o' < nb ∧ ∀ j, n + j ≤ nb → ring nb o' (n + j) = ring nb o j := by
  refine ⟨if n ≤ o then o - n else o + nb - n, by split <;> omega, fun j hj => ?_⟩
  unfold ring; split <;> split <;> split <;> omega

theorem Cost.copyAssign {src : List V} {stop : Nat × Nat → Bool} {i j : Nat} (N : Nat) (hF : Fits E.M nb) (ho : o < nb) (hN : i + N ≤ nb)
    (h1 : ∀ q, q < N → stop (ring nb o (i + q), j + q) = false) (h2 : stop (ring nb o (i + N), j + N) = true) :
    Cost N (copyAssignLoop E nb src stop (ring nb o i) j) s := by
  unfold Deq.copyAssignLoop
  refine Cost.congr (Cost.bindR0 (Cost.loop (k := 1) N (fun q => (ring nb o (i + q), j + q)) (by simp) ?_ ?_ ?_) fun _ _ _ => Cost.pure _) (by omega)
  · intro q s hq; simp [h1 q hq]
  · intro s; simp [h2]
  · intro q s hq
    refine ⟨Cost.bind0 Cost.src fun _ _ _ => Cost.bindR0 Cost.assign fun _ _ _ => Cost.pure _, fun y s' hy => ?_⟩
    simp only at hy
    rw [itInc_ring hF ho (by omega)] at hy
    rw [← Nat.add_assoc, ← Nat.add_assoc]
    cases hm : srcRead src (j + q) s with
    | ok a s1 =>
      rw [Cmd.bind_ok hm] at hy
      cases hm2 : assignSlot E (ring nb o (i + q)) (.ext a) s1 with
      | ok b s2 => rw [Cmd.bind_ok hm2] at hy; cases hy; rfl
      | exn e s2 => rw [Cmd.bind_exn hm2] at hy; cases hy
      | ub f => rw [Cmd.bind_ub hm2] at hy; cases hy
      | diverge => exfalso; change Cmd.bind _ _ _ = _ at hy; simp [Cmd.bind, hm2] at hy
    | exn e s1 => rw [Cmd.bind_exn hm] at hy; cases hy
    | ub f => rw [Cmd.bind_ub hm] at hy; cases hy
    | diverge => exfalso; change Cmd.bind _ _ _ = _ at hy; simp [Cmd.bind, hm] at hy

theorem Cost.insertN_ {n p : Nat} {r : Ref V} (hF : Fits E.M nb) (h : DSh nb o 0 xs c s) (hp : p ≤ xs.length) :
    Cost (Spec.gapCost (Spec.shortSide xs.length p) n) (insertN_ E (ring nb o p) n r) s := by
  have ho := h.ho; have hl := h.hl
  have hF' := hF; unfold Fits at hF'
  have hv := h.view0
  have hd1 : itDiff E.M nb (ring nb o 0) (ring nb o p) (ring nb o 0) = (p : Int) := by
    rw [itDiff_ring hF ho (by omega) (by omega) (by omega) (by omega) (by omega) (by omega)]; omega
  have hd2 : itDiff E.M nb (ring nb o 0) (ring nb o xs.length) (ring nb o p) = ((xs.length - p : Nat) : Int) := by
    rw [itDiff_ring hF ho (by omega) (by omega) (by omega) (by omega) (by omega) (by omega)]; omega
  have hb0 : s.b = ring nb o 0 := by rw [hv.hb, ring_zero ho]
  unfold Deq.insertN_
  refine Cost.gets (Cost.ite (fun _ => Cost.throw _) fun hav => ?_)
  rw [h.available hF] at hav
  refine Cost.gets (Cost.gets (Cost.gets ?_))
  simp only [h.size hF, hv.nbuf, hb0, hd1, toSize_nat (show p < E.M by omega)]
  have hsd : Spec.shortSide xs.length p = if xs.length / 2 < p then xs.length - p else p := rfl
  refine Cost.ite (fun hside => ?_) fun hside => ?_
  · rw [hsd, if_pos hside]
    refine Cost.gets (Cost.gets ?_)
    simp only [hv.nbuf, hb0, hv.he, hd2, toSize_nat (show xs.length - p < E.M by omega)]
    refine Cost.ite (fun hn => ?_) fun hn => ?_
    · refine Cost.congr (Cost.bind (Cost.forN (k := 1) fun _ _ => Cost.constructEnd) fun _ _ _ =>
        Cost.bind (Cost.down (k := 1) (o := o) (i := p - 1) (N := xs.length - p) hF ho (by omega) (by omega) ?_ ?_ fun _ _ => Cost.assign) fun _ _ _ =>
          Cost.bindR0 (Cost.up (k := 1) (o := o) (i := p) (N := n) hF ho (by omega) (by omega) rfl ?_ fun _ _ => Cost.assign) fun _ _ _ => Cost.pure _) ?_
      · rw [itSub1_ring hF ho (by omega) (by omega)]; congr 1; omega
      · rw [itSub1_ring hF ho (by omega) (by omega)]
      · rw [itAddU_ring hF ho (by omega)]
      · unfold Spec.gapCost; rw [if_pos hn]; omega
    · refine Cost.congr (Cost.bind (Cost.forN (k := 1) fun _ _ => Cost.constructEnd) fun _ _ _ =>
        Cost.bind (Cost.up (k := 1) (o := o) (i := p) (N := xs.length - p) hF ho (by omega) (by omega) rfl ?_ fun _ _ => Cost.constructEnd) fun _ _ _ =>
          Cost.bindR0 (Cost.up (k := 1) (o := o) (i := p) (N := xs.length - p) hF ho (by omega) (by omega) rfl ?_ fun _ _ => Cost.assign) fun _ _ _ => Cost.pure _) ?_
      · rw [itAddU_ring hF ho (by omega)]
      · congr 1; omega
      · unfold Spec.gapCost usub; rw [if_pos (by omega), if_neg (by omega)]; omega
  · rw [hsd, if_neg hside]
    refine Cost.gets (Cost.gets ?_)
    simp only [hv.nbuf, hb0, hd1, toSize_nat (show p < E.M by omega)]
    refine Cost.ite (fun hn => ?_) fun hn => ?_
    · refine Cost.congr (Cost.bind (Cost.forN (k := 1) fun _ _ => Cost.constructBegin) fun _ _ _ =>
        Cost.bind (Cost.up (k := 1) (o := o) (i := 0) (N := p) hF ho (by omega) (by omega) rfl ?_ fun _ _ => Cost.assign) fun _ _ _ =>
          Cost.bindR0 (Cost.up (k := 1) (o := o) (i := p - n) (N := n) hF ho (by omega) (by omega) ?_ ?_ fun _ _ => Cost.assign) fun _ _ _ => Cost.pure _) ?_
      · congr 1; omega
      · rw [itSubU_ring hF ho (by omega) (by omega)]
      · congr 1; omega
      · unfold Spec.gapCost; rw [if_pos hn]; omega
    · obtain ⟨o', ho', hr⟩ := origin_before ho 1 (by omega)
      have e1 := hr p (by omega)
      have e0 := hr 0 (by omega)
      refine Cost.congr (Cost.bind (Cost.forN (k := 1) fun _ _ => Cost.constructBegin) fun _ _ _ =>
        Cost.bind (Cost.down (k := 1) (o := o') (i := 0) (N := p) hF ho' (by omega) (by omega) ?_ ?_ fun _ _ => Cost.constructBegin) fun _ _ _ =>
          Cost.bindR0 (Cost.up (k := 1) (o := o) (i := 0) (N := p) hF ho (by omega) (by omega) rfl ?_ fun _ _ => Cost.assign) fun _ _ _ => Cost.pure _) ?_
      · rw [← e1, itSub1_ring hF ho' (by omega) (by omega)]; congr 1; omega
      · rw [← e0, itSub1_ring hF ho' (by omega) (by omega)]
      · congr 1; omega
      · unfold Spec.gapCost usub; rw [if_pos (by omega), if_neg (by omega)]; omega

theorem Cost.insertRange_ {src : List V} {p : Nat} (hF : Fits E.M nb) (h : DSh nb o 0 xs c s) (hp : p ≤ xs.length) (hs : src.length < E.M) :
    Cost (Spec.gapCost (Spec.shortSide xs.length p) src.length) (insertRange_ E (ring nb o p) src) s := by
  have ho := h.ho; have hl := h.hl
  have hF' := hF; unfold Fits at hF'
  have hv := h.view0
  have hd1 : itDiff E.M nb (ring nb o 0) (ring nb o p) (ring nb o 0) = (p : Int) := by
    rw [itDiff_ring hF ho (by omega) (by omega) (by omega) (by omega) (by omega) (by omega)]; omega
  have hd2 : itDiff E.M nb (ring nb o 0) (ring nb o xs.length) (ring nb o p) = ((xs.length - p : Nat) : Int) := by
    rw [itDiff_ring hF ho (by omega) (by omega) (by omega) (by omega) (by omega) (by omega)]; omega
  have hb0 : s.b = ring nb o 0 := by rw [hv.hb, ring_zero ho]
  unfold Deq.insertRange_
  refine Cost.bind0 Vec.Cost.countRange fun n s' hc => ?_
  rw [Vec.countRange_val hs] at hc
  obtain ⟨hn, rfl⟩ : src.length = n ∧ s = s' := by cases hc; exact ⟨rfl, rfl⟩
  rw [← hn]
  refine Cost.gets (Cost.ite (fun _ => Cost.throw _) fun hav => ?_)
  rw [h.available hF] at hav
  refine Cost.gets (Cost.gets (Cost.gets ?_))
  simp only [h.size hF, hv.nbuf, hb0, hd1, toSize_nat (show p < E.M by omega)]
  have hsd : Spec.shortSide xs.length p = if xs.length / 2 < p then xs.length - p else p := rfl
  refine Cost.ite (fun hside => ?_) fun hside => ?_
  · rw [hsd, if_pos hside]
    refine Cost.gets (Cost.gets ?_)
    simp only [hv.nbuf, hb0, hv.he, hd2, toSize_nat (show xs.length - p < E.M by omega)]
    refine Cost.ite (fun hn => ?_) fun hn => ?_
    · refine Cost.congr (Cost.bind (Cost.forN (k := 1) fun _ _ => Cost.constructEnd) fun _ _ _ =>
        Cost.bind (Cost.down (k := 1) (o := o) (i := p - 1) (N := xs.length - p) hF ho (by omega) (by omega) ?_ ?_ fun _ _ => Cost.assign) fun _ _ _ =>
          Cost.copyAssign (o := o) (i := p) src.length hF ho (by omega) ?_ ?_) ?_
      · rw [itSub1_ring hF ho (by omega) (by omega)]; congr 1; omega
      · rw [itSub1_ring hF ho (by omega) (by omega)]
      · intro q hq; simp; omega
      · simp
      · unfold Spec.gapCost; rw [if_pos hn]; omega
    · refine Cost.congr (Cost.bind (Cost.forN (k := 1) fun _ _ => Cost.bind0 Cost.src fun _ _ _ => Cost.constructEnd) fun _ _ _ =>
        Cost.bind (Cost.up (k := 1) (o := o) (i := p) (N := xs.length - p) hF ho (by omega) (by omega) rfl ?_ fun _ _ => Cost.constructEnd) fun _ _ _ =>
          Cost.copyAssign (o := o) (i := p) (xs.length - p) hF ho (by omega) ?_ ?_) ?_
      · rw [itAddU_ring hF ho (by omega)]
      · intro q hq
        simp only [beq_eq_false_iff_ne]
        intro hh
        have := ring_inj ho (by omega) (by omega) (by omega) hh; omega
      · have : p + (xs.length - p) = xs.length := by omega
        simp [this]
      · unfold Spec.gapCost usub; rw [if_pos (by omega), if_neg (by omega)]; omega
  · rw [hsd, if_neg hside]
    refine Cost.gets (Cost.gets ?_)
    simp only [hv.nbuf, hb0, hd1, toSize_nat (show p < E.M by omega)]
    refine Cost.ite (fun hn => ?_) fun hn => ?_
    · rw [itSubU_ring hF ho (by omega) (by omega)]
      refine Cost.congr (Cost.bind (Cost.forN (k := 1) fun _ _ => Cost.constructBegin) fun _ _ _ =>
        Cost.bind (Cost.up (k := 1) (o := o) (i := 0) (N := p) hF ho (by omega) (by omega) rfl ?_ fun _ _ => Cost.assign) fun _ _ _ =>
          Cost.copyAssign (o := o) (i := p - src.length) src.length hF ho (by omega) ?_ ?_) ?_
      · congr 1; omega
      · intro q hq
        simp only [beq_eq_false_iff_ne]
        intro hh
        have := ring_inj ho (by omega) (by omega) (by omega) hh; omega
      · have : p - src.length + src.length = p := by omega
        simp [this]
      · unfold Spec.gapCost; rw [if_pos hn]; omega
    · obtain ⟨o', ho', hr⟩ := origin_before ho 1 (by omega)
      have e1 := hr p (by omega)
      have e0 := hr 0 (by omega)
      refine Cost.congr (Cost.bind (Cost.forN (k := 1) fun _ _ => Cost.bind0 Cost.src fun _ _ _ => Cost.constructBegin) fun _ _ _ =>
        Cost.bind (Cost.down (k := 1) (o := o') (i := 0) (N := p) hF ho' (by omega) (by omega) ?_ ?_ fun _ _ => Cost.constructBegin) fun _ _ _ =>
          Cost.copyAssign (o := o) (i := 0) p hF ho (by omega) ?_ ?_) ?_
      · rw [← e1, itSub1_ring hF ho' (by omega) (by omega)]; congr 1; omega
      · rw [← e0, itSub1_ring hF ho' (by omega) (by omega)]
      · intro q hq
        simp only [beq_eq_false_iff_ne]
        intro hh
        have := ring_inj ho (by omega) (by omega) (by omega) hh; omega
      · simp
      · unfold Spec.gapCost usub; rw [if_pos (by omega), if_neg (by omega)]; omega

theorem Cost.eraseRange {a b : Nat} (hF : Fits E.M nb) (h : DSh nb o 0 xs c s) (hab : a ≤ b) (hb : b ≤ xs.length) :
    Cost (min a (xs.length - b)) (eraseRange E (ring nb o a) (ring nb o b)) s := by
  have ho := h.ho; have hl := h.hl
  have hF' := hF; unfold Fits at hF'
  have hv := h.view0
  have hb0 : s.b = ring nb o 0 := by rw [hv.hb, ring_zero ho]
  have hd1 : itDiff E.M nb (ring nb o 0) (ring nb o a) (ring nb o 0) = (a : Int) := by
    rw [itDiff_ring hF ho (by omega) (by omega) (by omega) (by omega) (by omega) (by omega)]; omega
  have hd2 : itDiff E.M nb (ring nb o 0) (ring nb o xs.length) (ring nb o b) = ((xs.length - b : Nat) : Int) := by
    rw [itDiff_ring hF ho (by omega) (by omega) (by omega) (by omega) (by omega) (by omega)]; omega
  unfold Deq.eraseRange
  refine Cost.bind0 Cost.dassert fun _ s1 h1 => Cost.bind0 Cost.dassert fun _ s2 h2 => Cost.bind0 Cost.dassert fun _ s3 h3 => ?_
  rw [Vec.dassert_same h3, Vec.dassert_same h2, Vec.dassert_same h1]
  refine Cost.gets (Cost.gets (Cost.gets (Cost.gets ?_)))
  simp only [hv.nbuf, hv.he, hb0, hd1, hd2]
  refine Cost.ite (fun hs => Cost.gets ?_) fun hs => Cost.gets ?_
  · refine Cost.congr (Cost.bindR0 (Cost.up (k := 1) (o := o) (i := b) (N := xs.length - b) hF ho (by omega) (by omega) rfl ?_ fun _ _ => Cost.assign) fun _ _ _ =>
      Cost.bind0 Cost.destroyRange fun _ _ _ => Cost.bindR0 (Cost.modify fun _ => rfl) fun _ _ _ => Cost.pure _) (by omega)
    rw [hv.he]; congr 1; omega
  · obtain ⟨o', ho', hr⟩ := origin_before ho 1 (by omega)
    have e1 := hr a (by omega)
    have e0 := hr 0 (by omega)
    refine Cost.congr (Cost.bindR0 (Cost.down (k := 1) (o := o') (i := 0) (N := a) hF ho' (by omega) (by omega) ?_ ?_ fun _ _ => Cost.assign) fun _ _ _ =>
      Cost.bind0 Cost.destroyRange fun _ _ _ => Cost.bindR0 (Cost.modify fun _ => rfl) fun _ _ _ => Cost.pure _) (by omega)
    · rw [← e1, itSub1_ring hF ho' (by omega) (by omega)]; congr 1; omega
    · rw [hb0, ← e0, itSub1_ring hF ho' (by omega) (by omega)]

end Deq
end Verif
