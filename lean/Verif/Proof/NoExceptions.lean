import Verif.Model.NoExceptions
namespace Verif
open Cmd
variable {V α β : Type}

/-- `m'` (goes on after failing checks) does what `m` (leaves at a failing check) does whenever no check fails. -/
def Sim {σ : Type} (m' m : Cmd σ α) : Prop :=
  ∀ s, (∃ e s', m s = .exn e s' ∧ e ≠ .elemThrow) ∨ m' s = m s

theorem Sim.refl {σ : Type} (m : Cmd σ α) : Sim m m := fun _ => Or.inr rfl
theorem Sim.bind {σ : Type} {m' m : Cmd σ α} {f' f : α → Cmd σ β} (h : Sim m' m) (hf : ∀ a, Sim (f' a) (f a)) :
    Sim (m' >>= f') (m >>= f) := by
  intro s
  rcases h s with ⟨e, s', h1, h2⟩ | h1
  · exact Or.inl ⟨e, s', Cmd.bind_exn h1, h2⟩
  · cases hm : m s with
    | ok a s' =>
      rw [hm] at h1
      rw [Cmd.bind_ok h1, Cmd.bind_ok hm]
      exact hf a s'
    | exn e s' => rw [hm] at h1; right; rw [Cmd.bind_exn h1, Cmd.bind_exn hm]
    | ub x => rw [hm] at h1; right; rw [Cmd.bind_ub h1, Cmd.bind_ub hm]
    | diverge =>
      rw [hm] at h1; right
      show Cmd.bind m' f' s = Cmd.bind m f s
      simp [Cmd.bind, h1, hm]
theorem Sim.ite {σ : Type} {c : Prop} [Decidable c] {m' m n' n : Cmd σ α} (h1 : Sim m' m) (h2 : Sim n' n) :
    Sim (if c then m' else n') (if c then m else n) := by split <;> assumption
theorem Sim.loop {σ : Type} {cond : β → σ → Bool} {b' b : β → Cmd σ β} (h : ∀ x, Sim (b' x) (b x)) (n : Nat) :
    ∀ x, Sim (Cmd.loop cond b' n x) (Cmd.loop cond b n x) := by
  induction n with
  | zero => intro x s; exact Or.inr rfl
  | succ n ih =>
    intro x s
    simp only [Cmd.loop]
    split
    · exact Sim.bind (h x) ih s
    · exact Or.inr rfl
theorem Sim.forN {σ : Type} {b' b : Nat → Cmd σ Unit} (h : ∀ x, Sim (b' x) (b x)) (fuel n : Nat) :
    Sim (forN fuel n b') (forN fuel n b) :=
  Sim.bind (Sim.loop (fun x => Sim.bind (h x) (fun _ => Sim.refl _)) _ _) (fun _ => Sim.refl _)
theorem Sim.forIter {σ ι : Type} [BEq ι] {b' b : ι → Cmd σ Unit} (h : ∀ x, Sim (b' x) (b x)) (fuel : Nat) (i j : ι) (nx : ι → ι) :
    Sim (forIter fuel i j nx b') (forIter fuel i j nx b) :=
  Sim.bind (Sim.loop (fun x => Sim.bind (h x) (fun _ => Sim.refl _)) _ _) (fun _ => Sim.refl _)
/-- A check followed by the rest, against the nested form of Model/Vector and Model/Deque. -/
theorem Sim.check {σ : Type} {e : Exn} {c : Prop} [Decidable c] {m' m : Cmd σ α} (he : e ≠ .elemThrow) (h : Sim m' m) :
    Sim (check .cont e (decide c) >>= fun _ => m') (if c then throw e else m) := by
  intro s
  by_cases hc : c
  · left; exact ⟨e, s, by simp only [hc, if_true]; rfl, he⟩
  · simp only [hc, decide_false, if_false]; exact h s
theorem Sim.checkB {σ : Type} {e : Exn} {c : Bool} {m' m : Cmd σ α} (he : e ≠ .elemThrow) (h : Sim m' m) :
    Sim (Verif.check .cont e c >>= fun _ => m') (if c = true then throw e else m) := by
  cases c
  · exact h
  · exact fun s => Or.inl ⟨e, s, rfl, he⟩
theorem Sim.dassert {E : Env V} {c : St V → Bool} : Sim (dassertM .cont E c) (dassert E c) := by
  intro s
  unfold dassertM Verif.dassert
  by_cases h : (E.dbg && !c s) = true
  · left; exact ⟨_, _, by rw [if_pos h], by simp⟩
  · right; rw [if_neg h, if_neg h]

/-! The two builds in which a failing check ends the call are the existing models, literally. -/

theorem check_leaves {σ : Type} {h : OnFail} (hh : h ≠ .cont) {e : Exn} {c : Prop} [Decidable c] {m : Cmd σ α} :
    (check h e (decide c) >>= fun _ => m) = (if c then throw e else m) := by
  by_cases hc : c <;> cases h <;> simp_all [check, onFail] <;> rfl
theorem check_leavesB {σ : Type} {h : OnFail} (hh : h ≠ .cont) {e : Exn} {c : Bool} {m : Cmd σ α} :
    (check h e c >>= fun _ => m) = (if c = true then throw e else m) := by
  cases c <;> cases h <;> simp_all [check, onFail] <;> rfl
theorem dassertM_leaves {h : OnFail} (hh : h ≠ .cont) {E : Env V} {c : St V → Bool} : dassertM h E c = dassert E c := by
  funext s
  cases h <;> simp_all [dassertM, dassert, onFail, Cmd.throw]

namespace VecM
theorem exec_leaves {h : OnFail} (hh : h ≠ .cont) (E : Env V) (o : Spec.Op V) : VecM.exec h E o = Vec.exec E o := by
  have hpb : ∀ r, VecM.pushBack h E r = Vec.pushBack E r := by
    intro r; unfold VecM.pushBack Vec.pushBack; simp only [check_leavesB hh]
  have hrs : ∀ n r, VecM.resize h E n r = Vec.resize E n r := by
    intro n r; unfold VecM.resize Vec.resize; simp only [check_leaves hh, hpb]
  have hin : ∀ p n r, VecM.insertN_ h E p n r = Vec.insertN_ E p n r := by
    intro p n r; unfold VecM.insertN_ Vec.insertN_; simp only [check_leaves hh]
  have hir : ∀ p r, VecM.insertRange_ h E p r = Vec.insertRange_ E p r := by
    intro p r; unfold VecM.insertRange_ Vec.insertRange_; simp only [check_leaves hh]
  have her : ∀ p n, VecM.eraseRange h E p n = Vec.eraseRange E p n := by
    intro p n; unfold VecM.eraseRange Vec.eraseRange; simp only [dassertM_leaves hh]
  cases o <;> simp only [VecM.exec, Vec.exec, VecM.popBack, Vec.popBack, VecM.insert, Vec.insert, VecM.insertN, Vec.insertN,
    VecM.insertInteger, Vec.insertInteger, VecM.insertRange, Vec.insertRange, VecM.erase, Vec.erase, VecM.assignN, Vec.assignN,
    VecM.assignRange, Vec.assignRange, VecM.at_, Vec.at_, VecM.front, Vec.front, VecM.back, Vec.back,
    check_leaves hh, dassertM_leaves hh, hpb, hrs, hin, hir, her]

theorem exec_sim (E : Env V) (o : Spec.Op V) : Sim (VecM.exec .cont E o) (Vec.exec E o) := by
  have hpb : ∀ r, Sim (VecM.pushBack .cont E r) (Vec.pushBack E r) := fun r =>
    (Sim.refl _).bind fun _ => Sim.checkB (by simp) (Sim.refl _)
  have hrs : ∀ n r, Sim (VecM.resize .cont E n r) (Vec.resize E n r) := fun n r =>
    (Sim.refl _).bind fun _ => Sim.ite (Sim.refl _) ((Sim.refl _).bind fun _ => Sim.check (by simp)
      ((Sim.refl _).bind fun _ => Sim.forN (fun _ => hpb r) _ _))
  have hin : ∀ p n r, Sim (VecM.insertN_ .cont E p n r) (Vec.insertN_ E p n r) := fun p n r =>
    (Sim.refl _).bind fun _ => Sim.check (by simp) (Sim.refl _)
  have hir : ∀ p r, Sim (VecM.insertRange_ .cont E p r) (Vec.insertRange_ E p r) := fun p r =>
    (Sim.refl _).bind fun _ => (Sim.refl _).bind fun _ => Sim.check (by simp) (Sim.refl _)
  have her : ∀ p n, Sim (VecM.eraseRange .cont E p n) (Vec.eraseRange E p n) := fun p n =>
    Sim.dassert.bind fun _ => Sim.dassert.bind fun _ => Sim.dassert.bind fun _ => Sim.refl _
  cases o with
  | pushBack v => exact (hpb _).bind fun _ => Sim.refl _
  | popBack => exact (Sim.dassert.bind fun _ => Sim.refl _).bind fun _ => Sim.refl _
  | insert p v => exact (Sim.dassert.bind fun _ => (hin _ _ _).bind fun _ => Sim.refl _).bind fun _ => Sim.refl _
  | insertN p n v => exact (Sim.dassert.bind fun _ => hin _ _ _).bind fun _ => Sim.refl _
  | insertInt p n v => exact (Sim.dassert.bind fun _ => hin _ _ _).bind fun _ => Sim.refl _
  | insertRange p src => exact (Sim.dassert.bind fun _ => hir _ _).bind fun _ => Sim.refl _
  | erase p => exact (Sim.dassert.bind fun _ => her _ _).bind fun _ => Sim.refl _
  | eraseRange a b => exact (her _ _).bind fun _ => Sim.refl _
  | resize n v => exact (hrs _ _).bind fun _ => Sim.refl _
  | assignN n v =>
    exact ((Sim.refl _).bind fun _ => Sim.check (by simp) ((Sim.refl _).bind fun _ => hrs _ _)).bind fun _ => Sim.refl _
  | assignRange src =>
    exact ((Sim.refl _).bind fun _ => (Sim.refl _).bind fun _ => Sim.check (by simp) ((Sim.refl _).bind fun _ =>
      Sim.forIter (fun _ => (Sim.refl _).bind fun _ => hpb _) _ _ _ _)).bind fun _ => Sim.refl _
  | at_ i => exact ((Sim.refl _).bind fun _ => Sim.check (by simp) (Sim.refl _)).bind fun _ => Sim.refl _
  | front => exact (Sim.dassert.bind fun _ => Sim.refl _).bind fun _ => Sim.refl _
  | back => exact (Sim.dassert.bind fun _ => Sim.refl _).bind fun _ => Sim.refl _
  | _ => exact Sim.refl _
end VecM

namespace DeqM
theorem exec_leaves {h : OnFail} (hh : h ≠ .cont) (E : Env V) (o : Spec.Op V) : DeqM.exec h E o = Deq.exec E o := by
  have hpb : ∀ r, DeqM.pushBack h E r = Deq.pushBack E r := by
    intro r; unfold DeqM.pushBack Deq.pushBack; simp only [check_leavesB hh]
  have hpf : ∀ r, DeqM.pushFront h E r = Deq.pushFront E r := by
    intro r; unfold DeqM.pushFront Deq.pushFront; simp only [check_leavesB hh]
  have hrs : ∀ n r, DeqM.resize h E n r = Deq.resize E n r := by
    intro n r; unfold DeqM.resize Deq.resize; simp only [check_leaves hh, hpb]
  have hin : ∀ p n r, DeqM.insertN_ h E p n r = Deq.insertN_ E p n r := by
    intro p n r; unfold DeqM.insertN_ Deq.insertN_; simp only [check_leaves hh]
  have hir : ∀ p r, DeqM.insertRange_ h E p r = Deq.insertRange_ E p r := by
    intro p r; unfold DeqM.insertRange_ Deq.insertRange_; simp only [check_leaves hh]
  have her : ∀ p n, DeqM.eraseRange h E p n = Deq.eraseRange E p n := by
    intro p n; unfold DeqM.eraseRange Deq.eraseRange; simp only [dassertM_leaves hh]
  cases o <;> simp only [DeqM.exec, Deq.exec, DeqM.popBack, Deq.popBack, DeqM.popFront, Deq.popFront, DeqM.insert, Deq.insert, DeqM.insertN, Deq.insertN,
    DeqM.insertInteger, Deq.insertInteger, DeqM.insertRange, Deq.insertRange, DeqM.erase, Deq.erase, DeqM.assignN, Deq.assignN,
    DeqM.assignRange, Deq.assignRange, DeqM.at_, Deq.at_, DeqM.front, Deq.front, DeqM.back, Deq.back,
    check_leaves hh, dassertM_leaves hh, hpb, hpf, hrs, hin, hir, her]

theorem exec_sim (E : Env V) (o : Spec.Op V) : Sim (DeqM.exec .cont E o) (Deq.exec E o) := by
  have hpb : ∀ r, Sim (DeqM.pushBack .cont E r) (Deq.pushBack E r) := fun r =>
    (Sim.refl _).bind fun _ => Sim.checkB (by simp) (Sim.refl _)
  have hpf : ∀ r, Sim (DeqM.pushFront .cont E r) (Deq.pushFront E r) := fun r =>
    (Sim.refl _).bind fun _ => Sim.checkB (by simp) (Sim.refl _)
  have hrs : ∀ n r, Sim (DeqM.resize .cont E n r) (Deq.resize E n r) := fun n r =>
    (Sim.refl _).bind fun _ => Sim.ite (Sim.refl _) ((Sim.refl _).bind fun _ => Sim.check (by simp)
      ((Sim.refl _).bind fun _ => Sim.forN (fun _ => hpb r) _ _))
  have hin : ∀ p n r, Sim (DeqM.insertN_ .cont E p n r) (Deq.insertN_ E p n r) := fun p n r =>
    (Sim.refl _).bind fun _ => Sim.check (by simp) (Sim.refl _)
  have hir : ∀ p r, Sim (DeqM.insertRange_ .cont E p r) (Deq.insertRange_ E p r) := fun p r =>
    (Sim.refl _).bind fun _ => (Sim.refl _).bind fun _ => Sim.check (by simp) (Sim.refl _)
  have her : ∀ p n, Sim (DeqM.eraseRange .cont E p n) (Deq.eraseRange E p n) := fun p n =>
    Sim.dassert.bind fun _ => Sim.dassert.bind fun _ => Sim.dassert.bind fun _ => Sim.refl _
  cases o with
  | pushBack v => exact (hpb _).bind fun _ => Sim.refl _
  | pushFront v => exact (hpf _).bind fun _ => Sim.refl _
  | popBack => exact (Sim.dassert.bind fun _ => Sim.refl _).bind fun _ => Sim.refl _
  | popFront => exact (Sim.dassert.bind fun _ => Sim.refl _).bind fun _ => Sim.refl _
  | insert p v => exact (Sim.refl _).bind fun _ => (Sim.dassert.bind fun _ => hin _ _ _).bind fun _ => Sim.refl _
  | insertN p n v => exact (Sim.refl _).bind fun _ => (Sim.dassert.bind fun _ => (hin _ _ _).bind fun _ => Sim.refl _).bind fun _ => Sim.refl _
  | insertInt p n v => exact (Sim.refl _).bind fun _ => (Sim.dassert.bind fun _ => (hin _ _ _).bind fun _ => Sim.refl _).bind fun _ => Sim.refl _
  | insertRange p src => exact (Sim.refl _).bind fun _ => (Sim.dassert.bind fun _ => hir _ _).bind fun _ => Sim.refl _
  | erase p => exact (Sim.refl _).bind fun _ => (Sim.dassert.bind fun _ => (Sim.refl _).bind fun _ => her _ _).bind fun _ => Sim.refl _
  | eraseRange a b => exact (Sim.refl _).bind fun _ => (Sim.refl _).bind fun _ => (her _ _).bind fun _ => Sim.refl _
  | resize n v => exact (hrs _ _).bind fun _ => Sim.refl _
  | assignN n v =>
    exact ((Sim.refl _).bind fun _ => Sim.check (by simp) ((Sim.refl _).bind fun _ => hrs _ _)).bind fun _ => Sim.refl _
  | assignRange src =>
    exact ((Sim.refl _).bind fun _ => (Sim.refl _).bind fun _ => Sim.check (by simp) ((Sim.refl _).bind fun _ =>
      Sim.forIter (fun _ => (Sim.refl _).bind fun _ => hpb _) _ _ _ _)).bind fun _ => Sim.refl _
  | at_ i => exact ((Sim.refl _).bind fun _ => Sim.check (by simp) (Sim.refl _)).bind fun _ => Sim.refl _
  | front => exact (Sim.dassert.bind fun _ => Sim.refl _).bind fun _ => Sim.refl _
  | back => exact (Sim.dassert.bind fun _ => Sim.refl _).bind fun _ => Sim.refl _
  | _ => exact Sim.refl _
end DeqM
end Verif
