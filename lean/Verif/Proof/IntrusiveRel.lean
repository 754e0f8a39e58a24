import Verif.Proof.IntrusiveApi
namespace Verif.IL
open Verif Cmd Spec.IList

/-- `m'` returns whatever `m` returns normally. -/
def Le {α : Type} (m m' : Cmd Heap α) : Prop := ∀ h a h', m h = .ok a h' → m' h = .ok a h'

theorem Le.refl {α : Type} (m : Cmd Heap α) : Le m m := fun _ _ _ h => h

theorem Le.bind {α β : Type} {m m' : Cmd Heap α} {f f' : α → Cmd Heap β} (h1 : Le m m') (h2 : ∀ a, Le (f a) (f' a)) :
    Le (m >>= f) (m' >>= f') := by
  intro h b h' hb
  change Cmd.bind m f h = _ at hb
  change Cmd.bind m' f' h = _
  unfold Cmd.bind at hb ⊢
  cases hm : m h with
  | ok a s => rw [hm] at hb; rw [h1 h a s hm]; exact h2 a s b h' hb
  | exn e s => rw [hm] at hb; cases hb
  | ub f => rw [hm] at hb; cases hb
  | diverge => rw [hm] at hb; cases hb

theorem Le.ite {α : Type} {p : Prop} [Decidable p] {m m' n n' : Cmd Heap α} (h1 : Le m m') (h2 : Le n n') :
    Le (if p then m else n) (if p then m' else n') := by
  split <;> assumption

theorem Le.loop {β : Type} {cond : β → Heap → Bool} {f f' : β → Cmd Heap β} (h1 : ∀ x, Le (f x) (f' x)) :
    ∀ n x, Le (Cmd.loop cond f n x) (Cmd.loop cond f' n x)
  | 0, _ => fun h a h' e => by simp [Cmd.loop] at e
  | n+1, x => fun h a h' e => by
    simp only [Cmd.loop] at e ⊢
    split
    · rename_i hc; rw [if_pos hc] at e
      exact Le.bind (h1 x) (fun y => Le.loop h1 n y) h a h' e
    · rename_i hc; rw [if_neg hc] at e; exact e

variable {M : Nat}
theorem le_dassert (b : Bool) : Le (dassert ⟨true, M⟩ b) (dassert ⟨false, M⟩ b) := by
  intro h a h' e
  unfold dassert at e ⊢
  cases b <;> simp_all

theorem le_itInc (p : Nat) : Le (itInc ⟨true, M⟩ p) (itInc ⟨false, M⟩ p) := Le.bind (le_dassert _) (fun _ => Le.refl _)
theorem le_itDec (p : Nat) : Le (itDec ⟨true, M⟩ p) (itDec ⟨false, M⟩ p) := Le.bind (le_dassert _) (fun _ => Le.refl _)
theorem le_deref (p : Nat) : Le (deref ⟨true, M⟩ p) (deref ⟨false, M⟩ p) := Le.bind (le_dassert _) (fun _ => Le.refl _)
theorem le_nth (t : Nat) : ∀ k, Le (nth ⟨true, M⟩ t k) (nth ⟨false, M⟩ t k)
  | 0 => Le.refl _
  | k+1 => Le.bind (le_nth t k) (fun _ => le_itInc _)
theorem le_insert (p d : Nat) : Le (insert ⟨true, M⟩ p d) (insert ⟨false, M⟩ p d) := Le.bind (le_dassert _) (fun _ => Le.refl _)
theorem le_erase (t p : Nat) : Le (erase ⟨true, M⟩ t p) (erase ⟨false, M⟩ t p) :=
  Le.bind (Le.refl _) (fun _ => Le.bind (le_dassert _) (fun _ => Le.bind (le_dassert _) (fun _ => Le.refl _)))
theorem le_range (t p x f l : Nat) : Le (spliceRange ⟨true, M⟩ t p x f l) (spliceRange ⟨false, M⟩ t p x f l) :=
  Le.bind (le_dassert _) (fun _ => Le.bind (le_dassert _) (fun _ => Le.bind (le_dassert _) (fun _ => Le.bind (le_dassert _) (fun _ =>
    Le.bind (le_dassert _) (fun _ => Le.refl _)))))
theorem le_one (t p x i : Nat) : Le (spliceOne ⟨true, M⟩ t p x i) (spliceOne ⟨false, M⟩ t p x i) :=
  Le.bind (le_dassert _) (fun _ => Le.bind (le_dassert _) (fun _ => Le.ite (Le.refl _) (Le.bind (le_itInc _) (fun _ => Le.ite (Le.refl _) (le_range _ _ _ _ _)))))
theorem le_all (t p x : Nat) : Le (spliceAll ⟨true, M⟩ t p x) (spliceAll ⟨false, M⟩ t p x) :=
  Le.bind (le_dassert _) (fun _ => Le.bind (Le.refl _) (fun _ => Le.ite (Le.refl _) (Le.bind (Le.refl _) (fun _ => le_range _ _ _ _ _))))
theorem le_swap (m t x : Nat) : Le (swap ⟨true, M⟩ m t x) (swap ⟨false, M⟩ m t x) :=
  Le.ite (Le.refl _) (Le.bind (Le.refl _) (fun _ => Le.bind (le_all _ _ _) (fun _ => Le.bind (le_all _ _ _) (fun _ => le_all _ _ _))))
theorem le_front (t : Nat) : Le (front ⟨true, M⟩ t) (front ⟨false, M⟩ t) :=
  Le.bind (Le.refl _) (fun _ => Le.bind (le_dassert _) (fun _ => Le.bind (Le.refl _) (fun _ => le_deref _)))
theorem le_back (t : Nat) : Le (back ⟨true, M⟩ t) (back ⟨false, M⟩ t) :=
  Le.bind (Le.refl _) (fun _ => Le.bind (le_dassert _) (fun _ => Le.bind (le_itDec _) (fun _ => le_deref _)))
theorem le_size (t : Nat) : Le (size ⟨true, M⟩ t) (size ⟨false, M⟩ t) :=
  Le.bind (Le.refl _) (fun _ => Le.bind (Le.loop (fun _ => Le.bind (le_itInc _) (fun _ => Le.refl _)) _ _) (fun _ => Le.refl _))
theorem le_forward (t : Nat) : Le (forward ⟨true, M⟩ t) (forward ⟨false, M⟩ t) :=
  Le.bind (Le.refl _) (fun _ => Le.bind (Le.loop (fun _ => Le.bind (le_deref _) (fun _ => Le.bind (le_itInc _) (fun _ => Le.refl _))) _ _) (fun _ => Le.refl _))
theorem le_backward (t : Nat) : Le (backward ⟨true, M⟩ t) (backward ⟨false, M⟩ t) :=
  Le.bind (Le.refl _) (fun _ => Le.bind (Le.loop (fun _ => Le.bind (le_itDec _) (fun _ => Le.bind (le_deref _) (fun _ => Le.refl _))) _ _) (fun _ => Le.refl _))

theorem le_exec (o : Op) : Le (exec ⟨true, M⟩ o) (exec ⟨false, M⟩ o) := by
  cases o with
  | pushBack t d => exact Le.bind (Le.bind (le_insert _ _) (fun _ => Le.refl _)) (fun _ => Le.refl _)
  | pushFront t d => exact Le.bind (Le.bind (Le.refl _) (fun _ => Le.bind (le_insert _ _) (fun _ => Le.refl _))) (fun _ => Le.refl _)
  | popBack t => exact Le.bind (Le.bind (Le.refl _) (fun _ => Le.bind (le_dassert _) (fun _ => Le.bind (le_itDec _) (fun _ => Le.bind (le_erase _ _) (fun _ => Le.refl _))))) (fun _ => Le.refl _)
  | popFront t => exact Le.bind (Le.bind (Le.refl _) (fun _ => Le.bind (le_dassert _) (fun _ => Le.bind (Le.refl _) (fun _ => Le.bind (le_erase _ _) (fun _ => Le.refl _))))) (fun _ => Le.refl _)
  | insert t k d => exact Le.bind (le_nth _ _) (fun _ => Le.bind (le_insert _ _) (fun _ => Le.refl _))
  | erase t k => exact Le.bind (le_nth _ _) (fun _ => Le.bind (le_erase _ _) (fun _ => Le.refl _))
  | spliceAll t k x => exact Le.bind (le_nth _ _) (fun _ => Le.bind (le_all _ _ _) (fun _ => Le.refl _))
  | spliceOne t k x i => exact Le.bind (le_nth _ _) (fun _ => Le.bind (le_nth _ _) (fun _ => Le.bind (le_one _ _ _ _) (fun _ => Le.refl _)))
  | spliceRange t k x a b => exact Le.bind (le_nth _ _) (fun _ => Le.bind (le_nth _ _) (fun _ => Le.bind (le_nth _ _) (fun _ => Le.bind (le_range _ _ _ _ _) (fun _ => Le.refl _))))
  | swap t x tmp => exact Le.bind (le_swap _ _ _) (fun _ => Le.refl _)
  | front t => exact Le.bind (le_front _) (fun _ => Le.refl _)
  | back t => exact Le.bind (le_back _) (fun _ => Le.refl _)
  | size t => exact Le.bind (le_size _) (fun _ => Le.refl _)
  | empty t => exact Le.refl _
  | forward t => exact Le.bind (le_forward _) (fun _ => Le.refl _)
  | backward t => exact Le.bind (le_backward _) (fun _ => Le.refl _)

end Verif.IL
