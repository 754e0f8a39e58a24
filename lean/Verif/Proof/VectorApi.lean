import Verif.Model.VectorApi
import Verif.Proof.Vector
import Verif.Proof.NoCatch
namespace Verif.Vec
open Verif Cmd Spec
variable {V : Type} {E : Env V} {nb c : Nat} {xs : List V} {s : St V}

/-- Normal return agrees with the list. -/
def OkPost (nb c : Nat) (xs : List V) (o : Op V) (r : Ret V) (s' : St V) : Prop :=
  ∃ ys, VRep nb ys c s' ∧ apply nb xs o = some (ys, .ret r)

/-- Exceptional return: either the specified exception with the state untouched, or an element copy
threw (only if the call fits) and a valid vector with an untouched prefix remains. -/
def ExPost (E : Env V) (nb c : Nat) (xs : List V) (o : Op V) (s : St V) (e : Exn) (s' : St V) : Prop :=
  (apply nb xs o = some (xs, .threw e) ∧ s' = s) ∨
  (e = .elemThrow ∧ (∃ zs r, apply nb xs o = some (zs, .ret r)) ∧ Thrown E c ∧ ∃ ys, VRep nb ys c s' ∧ ys.take (o.kept xs) = xs.take (o.kept xs) ∧
    (∀ v, o = .pushBack v → ys = xs))

theorem grow_ok {cap : Nat} {xs ys : List V} {r : Ret V} (h : ys.length ≤ cap) : grow cap xs ys r = (ys, .ret r) := if_pos h

theorem posOk_true {p : Nat} (h : VRep nb xs c s) (hp : p ≤ xs.length) : posOk (p : Int) s = true := by
  have hend : end_ s = (xs.length : Int) := by simp [end_, begin_, h.sh.he]
  have hb : begin_ = 0 := rfl
  simp [posOk, hend]; omega

theorem exec_wp (hF : Fits E nb) (h : VRep nb xs c s) {o : Op V} (hv : o.onVector = true)
    (hr : o.representable E.M) (hin : (apply nb xs o).isSome) :
    wp (exec E o) (OkPost nb c xs o) (ExPost E nb c xs o s) s := by
  have hlen := h.len
  have hF' := hF
  unfold Fits at hF'
  have hend : end_ s = (xs.length : Int) := by simp [end_, begin_, h.sh.he]
  have hsz : Vec.size s = xs.length := h.sh.he
  have hmx : Vec.maxSize s = nb := h.sh.nbuf
  cases o with
  | pushFront v => simp [Op.onVector] at hv
  | popFront => simp [Op.onVector] at hv
  | pushBack v =>
    simp only [exec, wp_bind, wp_pure]
    refine pushBack_wp (v := v) hF h rfl (fun hlt s' h' => ⟨_, h', ?_⟩) (fun hf => Or.inl ⟨?_, rfl⟩)
      (fun hlt t s' h' => Or.inr ⟨rfl, ⟨_, _, by simp only [apply, grow]; rw [if_pos (by simp; omega)]⟩, t, xs, h', rfl, fun _ _ => rfl⟩)
    · simp [apply, grow]; omega
    · simp [apply, grow]; omega
  | popBack =>
    simp only [exec, wp_bind, wp_pure]
    have hne : xs ≠ [] := by intro hh; simp [apply, hh] at hin
    exact popBack_wp hF h hne (fun s' h' _ => ⟨_, h', by simp [apply, hne]⟩)
  | insert p v =>
    have hp : p ≤ xs.length := by
      by_cases hp : p ≤ xs.length
      · exact hp
      · simp [apply, hp] at hin
    simp only [exec, insert, wp_bind, wp_pure, wp_dassert, posOk_true h hp]
    refine ⟨by simp, fun _ => ?_⟩
    refine insertN_wp (n := 1) (v := v) hF (by omega) h rfl hp (stable_ext _ _) (fun hl s' h' => ⟨_, h', ?_⟩)
      (fun hf => Or.inl ⟨?_, rfl⟩) (fun hl ex s' hx => ?_)
    · simp [apply, grow, ins, hp]; omega
    · simp [apply, grow, ins, hp]; omega
    · obtain ⟨h1, h2, ys, h3, h4⟩ := hx.toList hp hlen
      exact Or.inr ⟨h1, ⟨_, _, by simp only [apply, if_pos hp]; rw [grow_ok (by simp [ins]; omega)]⟩, h2, ys, h3, h4, by simp⟩
  | insertN p n v =>
    have hp : p ≤ xs.length := by
      by_cases hp : p ≤ xs.length
      · exact hp
      · simp [apply, hp] at hin
    simp only [exec, insertN, wp_bind, wp_pure, wp_dassert, posOk_true h hp]
    refine ⟨by simp, fun _ => ?_⟩
    refine insertN_wp (v := v) hF hr h rfl hp (stable_ext _ _) (fun hl s' h' => ⟨_, h', ?_⟩)
      (fun hf => Or.inl ⟨?_, rfl⟩) (fun hl ex s' hx => ?_)
    · simp [apply, grow, ins, hp]; omega
    · simp [apply, grow, ins, hp]; omega
    · obtain ⟨h1, h2, ys, h3, h4⟩ := hx.toList hp hlen
      exact Or.inr ⟨h1, ⟨_, _, by simp only [apply, if_pos hp]; rw [grow_ok (by simp [ins]; omega)]⟩, h2, ys, h3, h4, by simp⟩
  | insertInt p n v =>
    have hp : p ≤ xs.length := by
      by_cases hp : p ≤ xs.length
      · exact hp
      · simp [apply, hp] at hin
    simp only [Op.representable] at hr
    simp only [exec, insertInteger, wp_bind, wp_pure, wp_dassert, posOk_true h hp]
    refine ⟨by simp, fun _ => ?_⟩
    have hM : (0 : Int) < E.M := by omega
    have hlt : toSize E.M n < E.M := by
      unfold toSize
      have := Int.emod_lt_of_pos n hM
      have := Int.emod_nonneg n (Int.ne_of_gt hM)
      omega
    by_cases hneg : n < 0
    · have hbig : nb < xs.length + toSize E.M n := by
        have : toSize E.M n = (n + E.M).toNat := by
          unfold toSize
          rw [← Int.add_emod_right, Int.emod_eq_of_lt (by omega) (by omega)]
        omega
      refine insertN_wp (v := v) hF hlt h rfl hp (stable_ext _ _) (fun hl => absurd hl (by omega))
        (fun hf => Or.inl ⟨?_, rfl⟩) (fun hl ex s' hx => absurd hl (by omega))
      · simp [apply, hp, hneg]
    · have htn : toSize E.M n = n.toNat := toSize_of_nonneg (by omega) hr.2
      rw [htn] at hlt ⊢
      refine insertN_wp (v := v) hF hlt h rfl hp (stable_ext _ _) (fun hl s' h' => ⟨_, h', ?_⟩)
        (fun hf => Or.inl ⟨?_, rfl⟩) (fun hl ex s' hx => ?_)
      · simp [apply, grow, ins, hp, hneg]; omega
      · simp [apply, grow, ins, hp, hneg]; omega
      · obtain ⟨h1, h2, ys, h3, h4⟩ := hx.toList hp hlen
        exact Or.inr ⟨h1, ⟨_, _, by simp only [apply, if_pos hp, if_neg hneg]; rw [grow_ok (by simp [ins]; omega)]⟩, h2, ys, h3, h4, by simp⟩
  | insertRange p src =>
    have hp : p ≤ xs.length := by
      by_cases hp : p ≤ xs.length
      · exact hp
      · simp [apply, hp] at hin
    simp only [exec, insertRange, wp_bind, wp_pure, wp_dassert, posOk_true h hp]
    refine ⟨by simp, fun _ => ?_⟩
    refine insertRange_wp hF hr h rfl hp (fun hl s' h' => ⟨_, h', ?_⟩)
      (fun hf => Or.inl ⟨?_, rfl⟩) (fun hl ex s' hx => ?_)
    · simp [apply, grow, ins, hp]; omega
    · simp [apply, grow, ins, hp]; omega
    · obtain ⟨h1, h2, ys, h3, h4⟩ := hx.toList hp hlen
      exact Or.inr ⟨h1, ⟨_, _, by simp only [apply, if_pos hp]; rw [grow_ok (by simp [ins]; omega)]⟩, h2, ys, h3, h4, by simp⟩
  | erase p =>
    have hp : p < xs.length := by
      by_cases hp : p < xs.length
      · exact hp
      · simp [apply, hp] at hin
    simp only [exec, wp_bind, wp_pure]
    refine erase_wp hF h rfl hp (fun s' h' => ⟨_, h', ?_⟩) (fun ex s' hx => ?_)
    · simp [apply, hp]
    · obtain ⟨h1, h2, ys, h3, h4⟩ := hx.toList (by omega) hlen
      exact Or.inr ⟨h1, ⟨_, _, by simp only [apply, if_pos hp]; rfl⟩, h2, ys, h3, h4, by simp⟩
  | eraseRange a b =>
    have hp : a < b ∧ b ≤ xs.length := by
      by_cases hp : a < b ∧ b ≤ xs.length
      · exact hp
      · simp [apply, hp] at hin
    simp only [exec, wp_bind, wp_pure]
    refine eraseRange_wp hF h rfl rfl hp.1 hp.2 (fun s' h' => ⟨_, h', ?_⟩) (fun ex s' hx => ?_)
    · simp [apply, hp]
    · obtain ⟨h1, h2, ys, h3, h4⟩ := hx.toList (by omega) hlen
      exact Or.inr ⟨h1, ⟨_, _, by simp only [apply, if_pos hp]; rfl⟩, h2, ys, h3, h4, by simp⟩
  | resize n v =>
    simp only [exec, wp_bind, wp_pure]
    have hl2 : (xs.take n ++ List.replicate (n - xs.length) v).length = n := by simp; omega
    refine resize_wp (v := v) hF hr h (stable_ext _ _) (fun hn s' h' => ⟨_, h', ?_⟩) (fun hn => Or.inl ⟨?_, rfl⟩)
      (fun hn t s' k h' => Or.inr ⟨rfl, ⟨_, _, by simp only [apply, grow, hl2]; rw [if_pos hn]⟩, t, _, h', ?_, by simp⟩)
    · simp only [apply, grow, hl2]; rw [if_pos hn]
    · simp only [apply, grow, hl2]; rw [if_neg (by omega)]
    · simp [Op.kept]
  | assignN n v =>
    simp only [exec, wp_bind, wp_pure]
    refine assignN_wp (v := v) hF hr h (fun hn s' h' => ⟨_, h', ?_⟩) (fun hn => Or.inl ⟨?_, rfl⟩)
      (fun hn t s' k h' => Or.inr ⟨rfl, ⟨_, _, by simp only [apply, grow, List.length_replicate]; rw [if_pos hn]⟩, t, _, h', by simp [Op.kept], by simp⟩)
    · simp only [apply, grow, List.length_replicate]; rw [if_pos hn]
    · simp only [apply, grow, List.length_replicate]; rw [if_neg (by omega)]
  | assignRange src =>
    simp only [exec, wp_bind, wp_pure]
    refine assignRange_wp hF hr h (fun hn s' h' => ⟨_, h', ?_⟩) (fun hn => Or.inl ⟨?_, rfl⟩)
      (fun hn t s' k h' => Or.inr ⟨rfl, ⟨_, _, by simp only [apply, grow]; rw [if_pos hn]⟩, t, _, h', by simp [Op.kept], by simp⟩)
    · simp only [apply, grow]; rw [if_pos hn]
    · simp only [apply, grow]; rw [if_neg (by omega)]
  | clear =>
    simp only [exec, wp_bind, wp_pure]
    exact clear_wp hF h (fun s' h' _ => ⟨_, h', rfl⟩)
  | at_ i =>
    simp only [exec, wp_bind, wp_pure]
    refine at_wp h (fun hi => ⟨_, h, ?_⟩) (fun hi => Or.inl ⟨?_, rfl⟩)
    · simp [apply, hi]
    · simp [apply, hi]
  | index i =>
    have hi : i < xs.length := by
      by_cases hi : i < xs.length
      · exact hi
      · simp [apply] at hin; exact hin
    simp only [exec, wp_bind, wp_pure]
    exact index_wp h hi ⟨_, h, by simp [apply, hi]⟩
  | front =>
    have hi : 0 < xs.length := by
      cases xs with
      | nil => simp [apply] at hin
      | cons a as => simp
    simp only [exec, wp_bind, wp_pure]
    refine front_wp h hi ⟨_, h, ?_⟩
    simp [apply, List.head?_eq_getElem?, hi]
  | back =>
    have hi : 0 < xs.length := by
      cases xs with
      | nil => simp [apply] at hin
      | cons a as => simp
    simp only [exec, wp_bind, wp_pure]
    refine back_wp h hi ⟨_, h, ?_⟩
    have : xs.length - 1 < xs.length := by omega
    simp [apply, List.getLast?_eq_getElem?, this]
  | size =>
    simp only [exec, wp_bind, wp_pure, wp_gets]
    exact ⟨_, h, by simp [apply, hsz]⟩
  | empty =>
    simp only [exec, wp_bind, wp_pure, wp_gets]
    exact ⟨_, h, by simp only [apply, Vec.empty, hsz]; rw [show (decide (xs.length = 0)) = (xs.length == 0) by rw [Bool.eq_iff_iff]; simp]⟩
  | full =>
    simp only [exec, wp_bind, wp_pure, wp_gets]
    exact ⟨_, h, by simp only [apply, Vec.full, hsz, hmx]; rw [show (decide (xs.length = nb)) = (xs.length == nb) by rw [Bool.eq_iff_iff]; simp]⟩
  | availableSize =>
    simp only [exec, wp_bind, wp_pure, wp_gets]
    exact ⟨_, h, by simp [apply, Vec.availableSize, hsz, hmx, usub, hlen]⟩
  | maxSize =>
    simp only [exec, wp_bind, wp_pure, wp_gets]
    exact ⟨_, h, by simp [apply, hmx]⟩

theorem fresh_rep (nb c : Nat) : VRep nb ([] : List V) c (fresh nb c) :=
  ⟨⟨rfl, fun k _ => rfl, rfl, rfl, Nat.le_refl _⟩, by simp⟩

theorem nc_deref {α : Type} {z : Int} {f : Nat → Cmd (St V) α} (h : ∀ i, NoCatch E (f i)) : NoCatch E (deref z f) :=
  nc_ite (nc_fault _) (h _)

theorem nc_exec (o : Op V) : NoCatch E (exec E o) := by
  have hce : ∀ r, NoCatch E (constructEnd E r) := fun r => by
    unfold constructEnd; refine nc_bind (nc_gets _) (fun _ => nc_bind (nc_deref fun _ => ?_) fun _ => ?_) <;> nocatch
  have hdr : ∀ a b, NoCatch E (destroyRange E a b) := fun a b => by
    unfold destroyRange; exact nc_forIter fun _ => nc_deref fun _ => nc_destroySlot _
  have hcl : NoCatch E (Vec.clear E) := by unfold Vec.clear; nocatch; exact hdr _ _
  have hpb : ∀ r, NoCatch E (pushBack E r) := fun r => by unfold pushBack; nocatch; exact hce _
  have hrs : ∀ n r, NoCatch E (Vec.resize E n r) := fun n r => by
    unfold Vec.resize; nocatch
    · exact hdr _ _
    · exact hpb _
  have hcr : ∀ src, NoCatch E (countRange E src) := fun src => by unfold countRange; nocatch
  have hca : ∀ src st it j, NoCatch E (copyAssignLoop E src st it j) := fun src st it j => by
    unfold copyAssignLoop; nocatch; exact nc_deref fun _ => nc_assignSlot _ _
  have hin : ∀ p n r, NoCatch E (insertN_ E p n r) := fun p n r => by
    unfold insertN_; nocatch
    all_goals first | exact hce _ | exact nc_deref fun _ => nc_assignSlot _ _ |
      exact nc_deref fun _ => hce _ | exact nc_deref fun _ => nc_deref fun _ => nc_assignSlot _ _
  have hir : ∀ p src, NoCatch E (insertRange_ E p src) := fun p src => by
    unfold insertRange_; nocatch
    all_goals first | exact hcr _ | exact hce _ | exact nc_deref fun _ => nc_assignSlot _ _ | exact hca _ _ _ _ |
      exact nc_deref fun _ => hce _ | exact nc_deref fun _ => nc_deref fun _ => nc_assignSlot _ _
  have her : ∀ a b, NoCatch E (Vec.eraseRange E a b) := fun a b => by
    unfold Vec.eraseRange; nocatch
    all_goals first | exact hdr _ _ | exact nc_deref fun _ => nc_deref fun _ => nc_assignSlot _ _
  cases o with
  | pushBack v => unfold exec; nocatch; exact hpb _
  | pushFront v => exact nc_fault _
  | popFront => exact nc_fault _
  | popBack => unfold exec popBack; nocatch; exact nc_deref fun _ => nc_destroySlot _
  | insert p v => unfold exec Vec.insert; nocatch; exact hin _ _ _
  | insertN p n v => unfold exec Vec.insertN; nocatch; exact hin _ _ _
  | insertInt p n v => unfold exec insertInteger; nocatch; exact hin _ _ _
  | insertRange p src => unfold exec Vec.insertRange; nocatch; exact hir _ _
  | erase p => unfold exec Vec.erase; nocatch; exact her _ _
  | eraseRange a b => unfold exec; nocatch; exact her _ _
  | resize n v => unfold exec; nocatch; exact hrs _ _
  | assignN n v =>
    unfold exec Vec.assignN; nocatch
    · exact hrs _ _
  | assignRange src =>
    unfold exec Vec.assignRange; nocatch
    · exact hcr _
    · exact hpb _
  | clear => unfold exec; nocatch
  | at_ i => unfold exec Vec.at_; nocatch; exact nc_deref fun _ => nc_readSlot _
  | index i => unfold exec Vec.index; nocatch; exact nc_deref fun _ => nc_readSlot _
  | front => unfold exec Vec.front; nocatch; exact nc_deref fun _ => nc_readSlot _
  | back => unfold exec Vec.back; nocatch; exact nc_deref fun _ => nc_readSlot _
  | size => unfold exec; nocatch
  | empty => unfold exec; nocatch
  | full => unfold exec; nocatch
  | availableSize => unfold exec; nocatch
  | maxSize => unfold exec; nocatch

end Verif.Vec
