import Verif.Proof.IntrusiveExec
namespace Verif.IL
open Verif Cmd Spec.IList
variable {T : List Nat} {F G : Fam} {h h' : Heap} {c : Cfg} {X : Exn → Heap → Prop}

theorem elemAt_len (F : Fam) (t : Nat) : elemAt F t (F t).length = t := by simp [elemAt]

theorem elemAt_get {t k : Nat} (hk : k < (F t).length) : (F t)[k]? = some (elemAt F t k) := by
  unfold elemAt; rw [List.getElem?_eq_getElem hk]; rfl

theorem take_succ_elemAt {t k : Nat} (hk : k < (F t).length) : (F t).take (k+1) = (F t).take k ++ [elemAt F t k] := by
  rw [List.take_add_one, elemAt_get hk]; rfl

theorem drop_elemAt {t k : Nat} (hk : k < (F t).length) : (F t).drop k = elemAt F t k :: (F t).drop (k+1) := by
  rw [List.drop_eq_getElem_cons hk]; congr 1
  unfold elemAt; rw [List.getElem?_eq_getElem hk]; rfl

theorem begin_wp {t : Nat} {Q : Nat → Heap → Prop} (hr : Rep T F h) (ht : t ∈ T) (hQ : Q (elemAt F t 0) h) : wp (begin_ t) Q X h :=
  nth_wp (c := ⟨false, 0⟩) (k := 0) hr ht (Nat.zero_le _) hQ

theorem size_wp {t : Nat} {Q : Nat → Heap → Prop} (hr : Rep T F h) (ht : t ∈ T) (hM : (F t).length < c.M) (hQ : Q (F t).length h) :
    wp (size c t) Q X h := by
  simp only [size, wp_bind]
  refine begin_wp hr ht ?_
  refine wp_loop (F t).length (fun k p s => p.1 = elemAt F t k ∧ p.2 = k ∧ s = h) (by unfold Cfg.fuel; omega) ⟨rfl, rfl, rfl⟩ ?_ ?_
  · rintro k ⟨p, m⟩ s hk ⟨h1, h2, rfl⟩
    simp only at h1 h2
    subst h1 h2
    refine ⟨by simpa [end_] using elemAt_ne_end hr ht ht hk, ?_⟩
    rw [wp_bind]
    refine wp_itInc (elemAt_ne_zero hr ht) ?_
    simp only [wp_pure, and_true]
    refine ⟨next_elemAt hr ht hk, ?_⟩
    unfold uadd; rw [if_pos (by omega)]
  · rintro ⟨p, m⟩ s ⟨h1, h2, rfl⟩
    simp only at h1 h2
    subst h1 h2
    exact ⟨by simp [end_, elemAt_len], hQ⟩

theorem forward_wp {t : Nat} {Q : List Nat → Heap → Prop} (hr : Rep T F h) (ht : t ∈ T) (hM : (F t).length < c.M) (hQ : Q (F t) h) :
    wp (forward c t) Q X h := by
  simp only [forward, wp_bind]
  refine begin_wp hr ht ?_
  refine wp_loop (F t).length (fun k p s => p.1 = elemAt F t k ∧ p.2 = (F t).take k ∧ s = h) (by unfold Cfg.fuel; omega) ⟨rfl, rfl, rfl⟩ ?_ ?_
  · rintro k ⟨p, m⟩ s hk ⟨rfl, rfl, rfl⟩
    refine ⟨by simpa [end_] using elemAt_ne_end hr ht ht hk, ?_⟩
    rw [wp_bind]
    refine wp_deref (elemAt_ne_zero hr ht) ?_
    rw [wp_bind]
    refine wp_itInc (elemAt_ne_zero hr ht) ?_
    simp only [wp_pure, and_true]
    exact ⟨next_elemAt hr ht hk, (take_succ_elemAt hk).symm⟩
  · rintro ⟨p, m⟩ s ⟨rfl, h2, rfl⟩
    refine ⟨by simp [end_, elemAt_len], ?_⟩
    simp only at h2
    rw [h2, List.take_length]; exact hQ

theorem backward_wp {t : Nat} {Q : List Nat → Heap → Prop} (hr : Rep T F h) (ht : t ∈ T) (hM : (F t).length < c.M) (hQ : Q (F t).reverse h) :
    wp (backward c t) Q X h := by
  simp only [backward, wp_bind]
  refine begin_wp hr ht ?_
  refine wp_loop (F t).length (fun k p s => p.1 = elemAt F t ((F t).length - k) ∧ p.2 = ((F t).drop ((F t).length - k)).reverse ∧ s = h)
    (by unfold Cfg.fuel; omega) ⟨by simp [end_, elemAt_len], by simp, rfl⟩ ?_ ?_
  · rintro k ⟨p, m⟩ s hk ⟨h1, h2, rfl⟩
    simp only at h1 h2
    subst h1 h2
    have hlt : (F t).length - (k+1) < (F t).length := by omega
    have hs : (F t).length - k = (F t).length - (k+1) + 1 := by omega
    refine ⟨?_, ?_⟩
    · simp only [bne_iff_ne]
      intro e
      have := (elemAt_inj hr ht ht (by omega) (by omega) e).2
      omega
    · rw [wp_bind]
      refine wp_itDec (elemAt_ne_zero hr ht) ?_
      have e1 : s.prev (elemAt F t ((F t).length - k)) = elemAt F t ((F t).length - (k+1)) := by rw [hs, prev_elemAt hr ht hlt]
      simp only [e1]
      rw [wp_bind]
      refine wp_deref (elemAt_ne_zero hr ht) ?_
      simp only [wp_pure, and_true, true_and]
      rw [drop_elemAt hlt, List.reverse_cons, ← hs]
  · rintro ⟨p, m⟩ s ⟨h1, h2, rfl⟩
    simp only at h1 h2
    subst h1 h2
    rw [Nat.sub_self, List.drop_zero]
    exact ⟨by simp, hQ⟩

/-- Nodes a call may write. -/
def foot (F : Fam) (o : Op) (n : Nat) : Prop := (∃ u ∈ involved o, n ∈ u :: F u) ∨ n ∈ newElem o ∨ n ∈ scratch o

theorem exec_wp {o : Op} {r : Ret} (hr : Rep T F h) (ha : apply T F o = some (G, r)) (hM : ∀ u ∈ T, (F u).length < c.M) :
    wp (exec c o) (fun r' h' => r' = r ∧ Rep T G h' ∧ Same (foot F o) h h') (fun _ _ => False) h := by
  cases o with
  | pushBack t d =>
    simp only [apply] at ha; split at ha <;> simp at ha
    rename_i hc; obtain ⟨ht, hd'⟩ := hc; obtain ⟨rfl, rfl⟩ := ha
    simp only [exec, pushBack, wp_bind, wp_pure]
    have := insert_wp (c := c) (X := fun _ _ => False) (B := []) (A := F t) hr ht (by simp) hd'
      (Q := fun _ s' => True ∧ Rep T (upd F t (F t ++ [d])) s' ∧ Same (foot F (.pushBack t d)) h s') ?_
    · exact this
    · intro h' r1 s1
      exact ⟨trivial, r1, s1.mono (fun n hn => by simp [foot, involved, newElem] at hn ⊢; grind)⟩
  | pushFront t d =>
    simp only [apply] at ha; split at ha <;> simp at ha
    rename_i hc; obtain ⟨ht, hd'⟩ := hc; obtain ⟨rfl, rfl⟩ := ha
    simp only [exec, pushFront, wp_bind, wp_pure]
    refine begin_wp hr ht ?_
    rw [← hd_drop, List.drop_zero]
    refine insert_wp (A := []) hr ht rfl hd' (fun h' r1 s1 => ?_)
    exact ⟨trivial, r1, s1.mono (fun n hn => by simp [foot, involved, newElem] at hn ⊢; grind)⟩
  | popBack t =>
    simp only [apply] at ha; split at ha <;> simp at ha
    rename_i hc; obtain ⟨ht, hne⟩ := hc; obtain ⟨rfl, rfl⟩ := ha
    have hl : 0 < (F t).length := List.length_pos_iff.mpr hne
    simp only [exec, popBack, wp_bind, wp_pure]
    refine empty_wp hr ht ?_
    simp only [wp_dassert]
    refine ⟨fun ⟨_, h2⟩ => by simp [hne] at h2, fun _ => ?_⟩
    refine wp_itDec (fun e => hr.nz t ht (by simp [← e, end_])) ?_
    have e1 : h.prev (end_ t) = elemAt F t ((F t).length - 1) := by
      have := prev_elemAt (k := (F t).length - 1) hr ht (by omega)
      rw [show (F t).length - 1 + 1 = (F t).length by omega, elemAt_len] at this
      exact this
    rw [e1]
    have hF : F t = (F t).dropLast ++ elemAt F t ((F t).length - 1) :: [] := by
      have h2 := take_succ_elemAt (F := F) (t := t) (k := (F t).length - 1) (by omega)
      rw [show (F t).length - 1 + 1 = (F t).length by omega, List.take_length, ← List.dropLast_eq_take] at h2
      exact h2
    refine erase_wp hr ht hF (fun h' r1 s1 => ?_)
    rw [List.append_nil] at r1
    exact ⟨trivial, r1, s1.mono (fun n hn => by simp [foot, involved, newElem] at hn ⊢; grind)⟩
  | popFront t =>
    simp only [apply] at ha; split at ha <;> simp at ha
    rename_i hc; obtain ⟨ht, hne⟩ := hc; obtain ⟨rfl, rfl⟩ := ha
    have hl : 0 < (F t).length := List.length_pos_iff.mpr hne
    simp only [exec, popFront, wp_bind, wp_pure]
    refine empty_wp hr ht ?_
    simp only [wp_dassert]
    refine ⟨fun ⟨_, h2⟩ => by simp [hne] at h2, fun _ => ?_⟩
    refine begin_wp hr ht ?_
    have hF : F t = [] ++ elemAt F t 0 :: (F t).tail := by
      have := drop_elemAt (F := F) (t := t) hl
      rw [List.drop_zero, Nat.zero_add, List.drop_one] at this
      exact this
    refine erase_wp hr ht hF (fun h' r1 s1 => ?_)
    exact ⟨trivial, r1, s1.mono (fun n hn => by simp [foot, involved, newElem] at hn ⊢; grind)⟩
  | insert t k d =>
    simp only [apply] at ha; split at ha <;> simp at ha
    rename_i hc; obtain ⟨ht, hk, hd'⟩ := hc; obtain ⟨rfl, rfl⟩ := ha
    simp only [exec, wp_bind, wp_pure]
    refine nth_wp hr ht hk ?_
    rw [← hd_drop]
    refine insert_wp hr ht (A := (F t).take k) (by simp) hd' (fun h' r1 s1 => ?_)
    exact ⟨rfl, r1, s1.mono (fun n hn => by simp [foot, involved, newElem] at hn ⊢; grind)⟩
  | erase t k =>
    simp only [apply] at ha; split at ha <;> simp at ha
    rename_i hc; obtain ⟨ht, hk⟩ := hc; obtain ⟨rfl, rfl⟩ := ha
    simp only [exec, wp_bind, wp_pure]
    refine nth_wp hr ht (by omega) ?_
    have hF : F t = (F t).take k ++ elemAt F t k :: (F t).drop (k+1) := by
      rw [← drop_elemAt hk]; simp
    refine erase_wp hr ht hF (fun h' r1 s1 => ?_)
    rw [hd_drop]
    exact ⟨rfl, r1, s1.mono (fun n hn => by simp [foot, involved, newElem] at hn ⊢; grind)⟩
  | spliceAll t k x =>
    simp only [apply] at ha; split at ha <;> simp at ha
    rename_i hc; obtain ⟨ht, hx, htx, hk⟩ := hc; obtain ⟨rfl, rfl⟩ := ha
    simp only [exec, wp_bind, wp_pure]
    refine nth_wp hr ht hk (spliceAll_wp hr ht hx htx hk (fun h' r1 s1 => ?_))
    exact ⟨trivial, r1, s1.mono (fun n hn => by simp [foot, involved, newElem] at hn ⊢; grind)⟩
  | spliceOne t k x i =>
    simp only [apply] at ha; split at ha <;> simp at ha
    rename_i hc; obtain ⟨ht, hx, hk, hi⟩ := hc; obtain ⟨rfl, rfl⟩ := ha
    simp only [exec, wp_bind, wp_pure]
    refine nth_wp hr ht hk (nth_wp hr hx (by omega) (spliceOne_wp hr ht hx hk hi (fun h' r1 s1 => ?_)))
    exact ⟨trivial, r1, s1.mono (fun n hn => by simp [foot, involved, newElem] at hn ⊢; grind)⟩
  | spliceRange t k x a b =>
    simp only [apply] at ha; split at ha <;> simp at ha
    rename_i hc; obtain ⟨ht, hx, hk, hab, hb, hal, hno⟩ := hc; obtain ⟨rfl, rfl⟩ := ha
    simp only [exec, wp_bind, wp_pure]
    refine nth_wp hr ht hk (nth_wp hr hx (by omega) (nth_wp hr hx hb (spliceRange_wp hr ht hx hk hab hb hal hno (fun h' r1 s1 => ?_))))
    exact ⟨trivial, r1, s1.mono (fun n hn => by simp [foot, involved, newElem] at hn ⊢; grind)⟩
  | swap t x tmp =>
    simp only [apply] at ha; split at ha <;> simp at ha
    rename_i hc; obtain ⟨ht, hx, htmp⟩ := hc; obtain ⟨rfl, rfl⟩ := ha
    simp only [exec, wp_bind, wp_pure]
    refine swap_wp hr ht hx htmp (fun h' r1 s1 _ => ?_)
    exact ⟨trivial, r1, s1.mono (fun n hn => by simp [foot, involved, newElem, scratch] at hn ⊢; grind)⟩
  | front t =>
    simp only [apply] at ha; split at ha <;> simp at ha
    rename_i ht; obtain ⟨n, hn, rfl, rfl⟩ := ha
    have hne : F t ≠ [] := by intro e; rw [e] at hn; simp at hn
    simp only [exec, front, wp_bind, wp_pure]
    refine empty_wp hr ht ?_
    simp only [wp_dassert]
    refine ⟨fun ⟨_, h2⟩ => by simp [hne] at h2, fun _ => ?_⟩
    refine begin_wp hr ht (wp_deref (elemAt_ne_zero hr ht) ?_)
    refine ⟨?_, hr, Same.refl _ _⟩
    rw [List.head?_eq_getElem?] at hn
    unfold elemAt; rw [hn]; rfl
  | back t =>
    simp only [apply] at ha; split at ha <;> simp at ha
    rename_i ht; obtain ⟨n, hn, rfl, rfl⟩ := ha
    have hne : F t ≠ [] := by intro e; rw [e] at hn; simp at hn
    have hl : 0 < (F t).length := List.length_pos_iff.mpr hne
    simp only [exec, back, wp_bind, wp_pure]
    refine empty_wp hr ht ?_
    simp only [wp_dassert]
    refine ⟨fun ⟨_, h2⟩ => by simp [hne] at h2, fun _ => ?_⟩
    refine wp_itDec (fun e => hr.nz t ht (by simp [← e, end_])) ?_
    have e1 : h.prev (end_ t) = elemAt F t ((F t).length - 1) := by
      have := prev_elemAt (k := (F t).length - 1) hr ht (by omega)
      rw [show (F t).length - 1 + 1 = (F t).length by omega, elemAt_len] at this
      exact this
    rw [e1]
    refine wp_deref (elemAt_ne_zero hr ht) ⟨?_, hr, Same.refl _ _⟩
    rw [List.getLast?_eq_getElem?] at hn
    unfold elemAt; rw [hn]; rfl
  | size t =>
    simp only [apply] at ha; split at ha <;> simp at ha
    rename_i ht; obtain ⟨rfl, rfl⟩ := ha
    simp only [exec, wp_bind, wp_pure]
    exact size_wp hr ht (hM t ht) ⟨rfl, hr, Same.refl _ _⟩
  | empty t =>
    simp only [apply] at ha; split at ha <;> simp at ha
    rename_i ht; obtain ⟨rfl, rfl⟩ := ha
    simp only [exec, wp_bind, wp_pure]
    exact empty_wp hr ht ⟨rfl, hr, Same.refl _ _⟩
  | forward t =>
    simp only [apply] at ha; split at ha <;> simp at ha
    rename_i ht; obtain ⟨rfl, rfl⟩ := ha
    simp only [exec, wp_bind, wp_pure]
    exact forward_wp hr ht (hM t ht) ⟨rfl, hr, Same.refl _ _⟩
  | backward t =>
    simp only [apply] at ha; split at ha <;> simp at ha
    rename_i ht; obtain ⟨rfl, rfl⟩ := ha
    simp only [exec, wp_bind, wp_pure]
    exact backward_wp hr ht (hM t ht) ⟨rfl, hr, Same.refl _ _⟩

theorem mem_move {F : Fam} {t k x a b u n : Nat} (hm : n ∈ move F t k x a b u) : ∃ v, n ∈ F v := by
  unfold move at hm
  by_cases hu : u = t
  · subst hu
    rw [upd_same] at hm
    have hm2 : n ∈ upd F x ((F x).take a ++ (F x).drop b) u ∨ n ∈ F x := by
      simp only [List.mem_append] at hm
      rcases hm with (h1 | h1) | h1
      · exact Or.inl (List.mem_of_mem_take h1)
      · exact Or.inr (List.mem_of_mem_take (List.mem_of_mem_drop h1))
      · exact Or.inl (List.mem_of_mem_drop h1)
    rcases hm2 with h1 | h1
    · by_cases hux : u = x
      · subst hux; rw [upd_same] at h1
        rcases List.mem_append.mp h1 with h2 | h2
        · exact ⟨_, List.mem_of_mem_take h2⟩
        · exact ⟨_, List.mem_of_mem_drop h2⟩
      · rw [upd_ne _ _ hux] at h1; exact ⟨_, h1⟩
    · exact ⟨_, h1⟩
  · rw [upd_ne _ _ hu] at hm
    by_cases hux : u = x
    · subst hux; rw [upd_same] at hm
      rcases List.mem_append.mp hm with h2 | h2
      · exact ⟨_, List.mem_of_mem_take h2⟩
      · exact ⟨_, List.mem_of_mem_drop h2⟩
    · rw [upd_ne _ _ hux] at hm; exact ⟨_, hm⟩

/-- Elements only come from calls that insert them. -/
theorem apply_mem {o : Op} {r : Ret} (ha : apply T F o = some (G, r)) {u n : Nat} (hm : n ∈ G u) : (∃ v, n ∈ F v) ∨ n ∈ newElem o := by
  have take' : ∀ (l : List Nat) k, n ∈ l.take k → n ∈ l := fun l k hx => List.mem_of_mem_take hx
  have drop' : ∀ (l : List Nat) k, n ∈ l.drop k → n ∈ l := fun l k hx => List.mem_of_mem_drop hx
  have dl' : ∀ (l : List Nat), n ∈ l.dropLast → n ∈ l := fun l hx => List.dropLast_subset l hx
  have tl' : ∀ (l : List Nat), n ∈ l.tail → n ∈ l := fun l hx => List.mem_of_mem_tail hx
  cases o <;> simp only [apply] at ha <;> split at ha <;> simp at ha
  case spliceAll | spliceOne | spliceRange => obtain ⟨rfl, rfl⟩ := ha; exact Or.inl (mem_move hm)
  case pushBack | pushFront | popBack | popFront | insert | erase | swap =>
    obtain ⟨rfl, rfl⟩ := ha
    simp only [newElem]
    unfold upd at hm
    grind
  case front | back => obtain ⟨_, _, rfl, _⟩ := ha; exact Or.inl ⟨_, hm⟩
  case size | empty | forward | backward => obtain ⟨rfl, _⟩ := ha; exact Or.inl ⟨_, hm⟩

/-- Addresses fit in `size_t`, hence so do the lengths. -/
theorem length_lt (hr : Rep T F h) {M : Nat} (hT : ∀ t ∈ T, t < M) (hb : ∀ u n, n ∈ F u → n < M) : ∀ u ∈ T, (F u).length < M := by
  intro u hu
  have h1 : (0 :: (u :: F u)).Nodup := List.nodup_cons.mpr ⟨hr.nz u hu, hr.nodup u hu⟩
  have h2 : (0 :: (u :: F u)) ⊆ List.range M := by
    intro n hn
    simp only [List.mem_cons] at hn
    have := hT u hu
    rw [List.mem_range]
    rcases hn with rfl | rfl | hn
    · omega
    · exact this
    · exact hb u n hn
  have := List.Nodup.length_le_of_subset h1 h2
  simp at this; omega

theorem history_ok {ops : List Op} : ∀ {F : Fam} {h : Heap} {G : Fam} {rs : List Ret}, Rep T F h → (∀ t ∈ T, t < c.M) →
    (∀ u n, n ∈ F u → n < c.M) → (∀ o ∈ ops, ∀ d ∈ newElem o, d < c.M) → applyAll T F ops = some (G, rs) →
    ∃ h', history c h ops = some (h', rs) ∧ Rep T G h' ∧ (∀ u n, n ∈ G u → n < c.M) := by
  induction ops with
  | nil => intro F h G rs hr _ hb _ ha; simp [applyAll] at ha; obtain ⟨rfl, rfl⟩ := ha; exact ⟨h, rfl, hr, hb⟩
  | cons o os ih =>
    intro F h G rs hr hT hb hn ha
    simp only [applyAll] at ha
    cases h1 : apply T F o with
    | none => simp [h1] at ha
    | some p =>
      obtain ⟨F1, r⟩ := p
      simp only [h1, Option.bind_eq_bind, Option.bind_some] at ha
      cases h2 : applyAll T F1 os with
      | none => simp [h2] at ha
      | some q =>
        obtain ⟨H, rs'⟩ := q
        simp [h2] at ha
        obtain ⟨rfl, rfl⟩ := ha
        have hw := exec_wp (c := c) hr h1 (length_lt hr hT hb)
        rcases wp_cases hw with ⟨a, s', he, rfl, hr', _⟩ | ⟨_, _, _, hf⟩
        · have hb' : ∀ u n, n ∈ F1 u → n < c.M := by
            intro u n hm
            rcases apply_mem h1 hm with ⟨v, hv⟩ | hv
            · exact hb v n hv
            · exact hn o (by simp) n hv
          obtain ⟨h', k1, k2, k3⟩ := ih hr' hT hb' (fun o' ho' => hn o' (by simp [ho'])) h2
          refine ⟨h', ?_, k2, k3⟩
          simp [history, he, k1]
        · exact hf.elim

theorem ctorAll_ok {T : List Nat} {h0 : Heap} (hnd : T.Nodup) (hz : 0 ∉ T) :
    ∃ h, ctorAll T h0 = .ok () h ∧ Rep T (fun _ => []) h := by
  have : wp (ctorAll T) (fun _ h => Rep T (fun _ => []) h) (fun _ _ => False) h0 := by
    induction T with
    | nil => exact ⟨fun t ht => by simp at ht, fun t ht => by simp at ht, fun t ht => by simp at ht, fun t ht => by simp at ht⟩
    | cons t ts ih =>
      simp only [ctorAll, wp_bind]
      refine wp_mono (ih (List.nodup_cons.mp hnd).2 (fun e => hz (by simp [e]))) (fun _ h' hr => ?_) (fun _ _ e => e)
      refine ctor_wp hr ⟨fun e => hz (by simp [e]), fun u hu => ⟨fun e => (List.nodup_cons.mp hnd).1 (e ▸ hu), by simp⟩⟩ (fun h'' r1 _ => ?_)
      refine r1.congr (fun u _ => ?_)
      unfold upd; split <;> rfl
  rcases wp_cases this with ⟨a, s', he, hr⟩ | ⟨_, _, _, hf⟩
  · exact ⟨s', he, hr⟩
  · exact hf.elim

end Verif.IL
