import Verif.Model.IntrusiveList
namespace Verif.IL
open Verif Cmd Spec.IList

/-- Consecutive nodes of the list are linked both ways. -/
def Linked (h : Heap) : List Nat → Prop
  | a :: b :: l => (h.next a = b ∧ h.prev b = a) ∧ Linked h (b :: l)
  | _ => True

theorem linked_app {h : Heap} : ∀ {S S' : List Nat} {a b : Nat}, S.getLast? = some a → S'.head? = some b →
    (Linked h (S ++ S') ↔ Linked h S ∧ (h.next a = b ∧ h.prev b = a) ∧ Linked h S')
  | [], _, a, b, h1, _ => by simp at h1
  | [x], [], a, b, _, h2 => by simp at h2
  | [x], y :: S', a, b, h1, h2 => by
    simp at h1 h2; subst h1; subst h2
    simp [Linked]
  | x :: y :: S, S', a, b, h1, h2 => by
    have ih := linked_app (S := y :: S) (S' := S') (a := a) (b := b) (h := h) (by simpa using h1) h2
    show ((h.next x = y ∧ h.prev y = x) ∧ Linked h (y :: S ++ S')) ↔ ((h.next x = y ∧ h.prev y = x) ∧ Linked h (y :: S)) ∧ _
    rw [ih, and_assoc, and_assoc]
    simp only [and_assoc]

theorem linked_frame {h h' : Heap} : ∀ {S : List Nat}, Linked h S → (∀ x ∈ S.dropLast, h'.next x = h.next x) →
    (∀ x ∈ S.tail, h'.prev x = h.prev x) → Linked h' S
  | [], _, _, _ => trivial
  | [_], _, _, _ => trivial
  | a :: b :: l, hl, hn, hp => by
    refine ⟨⟨?_, ?_⟩, linked_frame hl.2 (fun x hx => hn x (by simp [hx])) (fun x hx => hp x (by simp at hx ⊢; simp [hx]))⟩
    · rw [hn a (by simp)]; exact hl.1.1
    · rw [hp b (by simp)]; exact hl.1.2

theorem nem {x a : Nat} {l : List Nat} (hx : x ∈ l) (ha : a ∉ l) : x ≠ a := fun e => ha (e ▸ hx)

theorem last_notin {S : List Nat} {a : Nat} (hn : S.Nodup) (ha : S.getLast? = some a) : a ∉ S.dropLast := by
  obtain ⟨l, rfl⟩ := List.getLast?_eq_some_iff.mp ha
  rw [List.nodup_append] at hn
  intro h; rw [List.dropLast_concat] at h
  exact hn.2.2 a h a (by simp) rfl

theorem head_notin {S : List Nat} {b : Nat} (hn : S.Nodup) (hb : S.head? = some b) : b ∉ S.tail := by
  cases S with
  | nil => simp at hb
  | cons x l => simp at hb; subst hb; exact (List.nodup_cons.mp hn).1

/-- Exchanging two adjacent segments of a linked sequence. -/
theorem seg_swap {h h' : Heap} {S1 S2 S3 S4 : List Nat} {a1 a2 a3 b2 b3 b4 : Nat}
    (hl : Linked h (S1 ++ (S2 ++ (S3 ++ S4))))
    (h1 : S1.getLast? = some a1) (h2 : S2.getLast? = some a2) (h3 : S3.getLast? = some a3)
    (g2 : S2.head? = some b2) (g3 : S3.head? = some b3) (g4 : S4.head? = some b4)
    (hd : (S1 ++ (S2 ++ (S3 ++ S4.dropLast))).Nodup) (ht : (S1.tail ++ (S2 ++ (S3 ++ S4))).Nodup)
    (hn : ∀ x, h'.next x = if x = a1 then b3 else if x = a3 then b2 else if x = a2 then b4 else h.next x)
    (hp : ∀ x, h'.prev x = if x = b3 then a1 else if x = b2 then a3 else if x = b4 then a2 else h.prev x) :
    Linked h' (S1 ++ (S3 ++ (S2 ++ S4))) := by
  have m1 := List.mem_of_getLast? h1
  have m2 := List.mem_of_getLast? h2
  have m3 := List.mem_of_getLast? h3
  have n2 := List.mem_of_mem_head? (Option.mem_def.mpr g2)
  have n3 := List.mem_of_mem_head? (Option.mem_def.mpr g3)
  have n4 := List.mem_of_mem_head? (Option.mem_def.mpr g4)
  have e34 : (S3 ++ S4).head? = some b3 := by simp [g3]
  have e234 : (S2 ++ (S3 ++ S4)).head? = some b2 := by simp [g2]
  have f34 : (S2 ++ S4).head? = some b2 := by simp [g2]
  have f234 : (S3 ++ (S2 ++ S4)).head? = some b3 := by simp [g3]
  rw [linked_app h1 e234, linked_app h2 e34, linked_app h3 g4] at hl
  obtain ⟨l1, _, l2, _, l3, _, l4⟩ := hl
  rw [linked_app h1 f234, linked_app h3 f34, linked_app h2 g4]
  simp only [List.nodup_append, List.mem_append] at hd ht
  have d1 := last_notin hd.1 h1
  have d2 := last_notin hd.2.1.1 h2
  have d3 := last_notin hd.2.1.2.1.1 h3
  have c2 := head_notin ht.2.1.1 g2
  have c3 := head_notin ht.2.1.2.1.1 g3
  have c4 := head_notin ht.2.1.2.1.2.1 g4
  obtain ⟨_, ⟨_, ⟨_, _, q34⟩, q2⟩, q1⟩ := hd
  obtain ⟨_, ⟨_, ⟨_, _, r34⟩, r2⟩, r1⟩ := ht
  have s1 : ∀ x ∈ S1.dropLast, x ∈ S1 := fun x hx => List.dropLast_subset _ hx
  have s2 : ∀ x ∈ S2.dropLast, x ∈ S2 := fun x hx => List.dropLast_subset _ hx
  have s3 : ∀ x ∈ S3.dropLast, x ∈ S3 := fun x hx => List.dropLast_subset _ hx
  have t2 : ∀ x ∈ S2.tail, x ∈ S2 := fun x hx => List.mem_of_mem_tail hx
  have t3 : ∀ x ∈ S3.tail, x ∈ S3 := fun x hx => List.mem_of_mem_tail hx
  have t4 : ∀ x ∈ S4.tail, x ∈ S4 := fun x hx => List.mem_of_mem_tail hx
  have a12 : a1 ≠ a2 := fun e => q1 a1 m1 a2 (Or.inl m2) e
  have a13 : a1 ≠ a3 := fun e => q1 a1 m1 a3 (Or.inr (Or.inl m3)) e
  have a23 : a2 ≠ a3 := fun e => q2 a2 m2 a3 (Or.inl m3) e
  have b23 : b2 ≠ b3 := fun e => r2 b2 n2 b3 (Or.inl n3) e
  have b24 : b2 ≠ b4 := fun e => r2 b2 n2 b4 (Or.inr n4) e
  have b34 : b3 ≠ b4 := fun e => r34 b3 n3 b4 n4 e
  refine ⟨linked_frame l1 ?_ ?_, ⟨?_, ?_⟩, linked_frame l3 ?_ ?_, ⟨?_, ?_⟩, linked_frame l2 ?_ ?_, ⟨?_, ?_⟩, linked_frame l4 ?_ ?_⟩
  · intro x hx
    have := s1 x hx
    rw [hn, if_neg (nem hx d1), if_neg (fun e => q1 x this a3 (Or.inr (Or.inl m3)) e), if_neg (fun e => q1 x this a2 (Or.inl m2) e)]
  · intro x hx
    rw [hp, if_neg (fun e => r1 x hx b3 (Or.inr (Or.inl n3)) e), if_neg (fun e => r1 x hx b2 (Or.inl n2) e),
      if_neg (fun e => r1 x hx b4 (Or.inr (Or.inr n4)) e)]
  · rw [hn, if_pos rfl]
  · rw [hp, if_pos rfl]
  · intro x hx
    have := s3 x hx
    rw [hn, if_neg (fun e => q1 a1 m1 x (Or.inr (Or.inl this)) e.symm), if_neg (nem hx d3), if_neg (fun e => q2 a2 m2 x (Or.inl this) e.symm)]
  · intro x hx
    have := t3 x hx
    rw [hp, if_neg (nem hx c3), if_neg (fun e => r2 b2 n2 x (Or.inl this) e.symm), if_neg (fun e => r34 x this b4 n4 e)]
  · rw [hn, if_neg a13.symm, if_pos rfl]
  · rw [hp, if_neg b23, if_pos rfl]
  · intro x hx
    have := s2 x hx
    rw [hn, if_neg (fun e => q1 a1 m1 x (Or.inl this) e.symm), if_neg (fun e => q2 x this a3 (Or.inl m3) e), if_neg (nem hx d2)]
  · intro x hx
    have := t2 x hx
    rw [hp, if_neg (fun e => r2 x this b3 (Or.inl n3) e), if_neg (nem hx c2), if_neg (fun e => r2 x this b4 (Or.inr n4) e)]
  · rw [hn, if_neg a12.symm, if_neg a23, if_pos rfl]
  · rw [hp, if_neg b34.symm, if_neg b24.symm, if_pos rfl]
  · intro x hx
    rw [hn, if_neg (fun e => q1 a1 m1 x (Or.inr (Or.inr hx)) e.symm), if_neg (fun e => q34 a3 m3 x hx e.symm), if_neg (fun e => q2 a2 m2 x (Or.inr hx) e.symm)]
  · intro x hx
    have := t4 x hx
    rw [hp, if_neg (fun e => r34 b3 n3 x this e.symm), if_neg (fun e => r2 b2 n2 x (Or.inr this) e.symm), if_neg (nem hx c4)]

/-- Removing a middle segment. -/
theorem seg_remove {h h' : Heap} {S1 S2 S3 : List Nat} {a1 b3 : Nat} (hl : Linked h (S1 ++ (S2 ++ S3))) (hS2 : S2 ≠ [])
    (h1 : S1.getLast? = some a1) (g3 : S3.head? = some b3)
    (hd : (S1 ++ S3.dropLast).Nodup) (ht : (S1.tail ++ S3).Nodup)
    (hn : ∀ x, x ∈ S1 ++ S3.dropLast → h'.next x = if x = a1 then b3 else h.next x)
    (hp : ∀ x, x ∈ S1.tail ++ S3 → h'.prev x = if x = b3 then a1 else h.prev x) : Linked h' (S1 ++ S3) := by
  obtain ⟨b2, g2⟩ : ∃ b, S2.head? = some b := by cases S2 with | nil => exact absurd rfl hS2 | cons x l => exact ⟨x, rfl⟩
  obtain ⟨a2, h2⟩ : ∃ b, S2.getLast? = some b := ⟨S2.getLast hS2, List.getLast?_eq_some_getLast hS2⟩
  have m1 := List.mem_of_getLast? h1
  have n3 := List.mem_of_mem_head? (Option.mem_def.mpr g3)
  rw [linked_app h1 (show (S2 ++ S3).head? = some b2 by simp [g2]), linked_app h2 g3] at hl
  obtain ⟨l1, _, l2, _, l3⟩ := hl
  rw [linked_app h1 g3]
  rw [List.nodup_append] at hd ht
  have d1 := last_notin hd.1 h1
  have c3 := head_notin ht.2.1 g3
  refine ⟨linked_frame l1 ?_ ?_, ⟨?_, ?_⟩, linked_frame l3 ?_ ?_⟩
  · intro x hx
    rw [hn x (List.mem_append_left _ (List.dropLast_subset _ hx)), if_neg (nem hx d1)]
  · intro x hx
    rw [hp x (List.mem_append_left _ hx), if_neg (fun e => ht.2.2 x hx b3 n3 e)]
  · rw [hn a1 (List.mem_append_left _ m1), if_pos rfl]
  · rw [hp b3 (List.mem_append_right _ n3), if_pos rfl]
  · intro x hx
    rw [hn x (List.mem_append_right _ hx), if_neg (fun e => hd.2.2 a1 m1 x hx e.symm)]
  · intro x hx
    rw [hp x (List.mem_append_right _ (List.mem_of_mem_tail hx)), if_neg (nem hx c3)]

/-- Inserting a segment that is linked internally. -/
theorem seg_insert {h h' : Heap} {S1 S2 S3 : List Nat} {a1 a2 b2 b3 : Nat} (hl : Linked h (S1 ++ S3)) (hl2 : Linked h' S2)
    (h1 : S1.getLast? = some a1) (h2 : S2.getLast? = some a2) (g2 : S2.head? = some b2) (g3 : S3.head? = some b3)
    (hd : (S1 ++ S3.dropLast).Nodup) (ht : (S1.tail ++ S3).Nodup)
    (hn : ∀ x, x ∈ S1 ++ S3.dropLast → h'.next x = if x = a1 then b2 else h.next x)
    (hp : ∀ x, x ∈ S1.tail ++ S3 → h'.prev x = if x = b3 then a2 else h.prev x)
    (hn2 : h'.next a2 = b3) (hp2 : h'.prev b2 = a1) : Linked h' (S1 ++ (S2 ++ S3)) := by
  have m1 := List.mem_of_getLast? h1
  have n3 := List.mem_of_mem_head? (Option.mem_def.mpr g3)
  rw [linked_app h1 g3] at hl
  obtain ⟨l1, _, l3⟩ := hl
  rw [linked_app h1 (show (S2 ++ S3).head? = some b2 by simp [g2]), linked_app h2 g3]
  rw [List.nodup_append] at hd ht
  have d1 := last_notin hd.1 h1
  have c3 := head_notin ht.2.1 g3
  refine ⟨linked_frame l1 ?_ ?_, ⟨?_, hp2⟩, hl2, ⟨hn2, ?_⟩, linked_frame l3 ?_ ?_⟩
  · intro x hx
    rw [hn x (List.mem_append_left _ (List.dropLast_subset _ hx)), if_neg (nem hx d1)]
  · intro x hx
    rw [hp x (List.mem_append_left _ hx), if_neg (fun e => ht.2.2 x hx b3 n3 e)]
  · rw [hn a1 (List.mem_append_left _ m1), if_pos rfl]
  · rw [hp b3 (List.mem_append_right _ n3), if_pos rfl]
  · intro x hx
    rw [hn x (List.mem_append_right _ hx), if_neg (fun e => hd.2.2 a1 m1 x hx e.symm)]
  · intro x hx
    rw [hp x (List.mem_append_right _ (List.mem_of_mem_tail hx)), if_neg (nem hx c3)]

/-! #### The representation of a family of lists -/

/-- The links of the heap represent the family `F` of lists named by `T`: going round from the terminator visits
exactly the elements in order, in both directions; no node occurs twice. -/
structure Rep (T : List Nat) (F : Fam) (h : Heap) : Prop where
  ring : ∀ t ∈ T, Linked h (t :: (F t ++ [t]))
  nodup : ∀ t ∈ T, (t :: F t).Nodup
  disj : ∀ t ∈ T, ∀ u ∈ T, t ≠ u → ∀ n ∈ t :: F t, n ∉ u :: F u
  nz : ∀ t ∈ T, 0 ∉ t :: F t

variable {T : List Nat} {F : Fam} {h h' : Heap} {c : Cfg}

/-- One list changed. -/
theorem Rep.upd1 {t : Nat} {ys : List Nat} (hr : Rep T F h) (ht : t ∈ T) (hring : Linked h' (t :: (ys ++ [t])))
    (hfr : ∀ n, n ∉ t :: F t → (∃ u ∈ T, n ∈ u :: F u) → h'.next n = h.next n ∧ h'.prev n = h.prev n)
    (hnd : (t :: ys).Nodup) (hmem : ∀ n ∈ ys, n ∈ F t ∨ unlinked T F n) : Rep T (upd F t ys) h' := by
  have hm' : ∀ n ∈ t :: ys, n ∈ t :: F t ∨ unlinked T F n := by
    intro n hn; rcases List.mem_cons.mp hn with rfl | hn
    · exact Or.inl (by simp)
    · rcases hmem n hn with h1 | h1
      · exact Or.inl (by simp [h1])
      · exact Or.inr h1
  refine ⟨fun u hu => ?_, fun u hu => ?_, fun u hu w hw huw n hn => ?_, fun u hu => ?_⟩
  · by_cases hut : u = t
    · subst hut; rw [upd_same]; exact hring
    · rw [upd_ne _ _ hut]
      have hno : ∀ x ∈ u :: F u, x ∉ t :: F t := hr.disj u hu t ht hut
      refine linked_frame (hr.ring u hu) (fun x hx => (hfr x (hno x ?_) ⟨u, hu, ?_⟩).1) (fun x hx => (hfr x (hno x ?_) ⟨u, hu, ?_⟩).2)
      · rw [show u :: (F u ++ [u]) = (u :: F u) ++ [u] from rfl, List.dropLast_concat] at hx; exact hx
      · rw [show u :: (F u ++ [u]) = (u :: F u) ++ [u] from rfl, List.dropLast_concat] at hx; exact hx
      · simp at hx ⊢; grind
      · simp at hx ⊢; grind
  · by_cases hut : u = t
    · subst hut; rw [upd_same]; exact hnd
    · rw [upd_ne _ _ hut]; exact hr.nodup u hu
  · by_cases hut : u = t
    · subst hut
      rw [upd_ne _ _ (Ne.symm huw)]
      rw [upd_same] at hn
      rcases hm' n hn with h1 | h1
      · exact hr.disj _ hu w hw huw n h1
      · simp; exact h1.2 w hw
    · rw [upd_ne _ _ hut] at hn
      by_cases hwt : w = t
      · subst hwt; rw [upd_same]
        intro hx
        rcases hm' n hx with h1 | h1
        · exact hr.disj u hu _ hw huw n hn h1
        · have := h1.2 u hu
          simp at hn; grind
      · rw [upd_ne _ _ hwt]; exact hr.disj u hu w hw huw n hn
  · by_cases hut : u = t
    · subst hut; rw [upd_same]; intro hx
      rcases hm' 0 hx with h1 | h1
      · exact hr.nz _ hu h1
      · exact h1.1 rfl
    · rw [upd_ne _ _ hut]; exact hr.nz u hu

/-- Two lists changed, exchanging elements. -/
theorem Rep.upd2 {t x : Nat} {ys zs : List Nat} (hr : Rep T F h) (ht : t ∈ T) (hx : x ∈ T) (htx : t ≠ x)
    (hring : Linked h' (t :: (ys ++ [t]))) (hring2 : Linked h' (x :: (zs ++ [x])))
    (hfr : ∀ n, n ∉ t :: F t → n ∉ x :: F x → (∃ u ∈ T, n ∈ u :: F u) → h'.next n = h.next n ∧ h'.prev n = h.prev n)
    (hperm : (ys ++ zs).Perm (F t ++ F x)) : Rep T (upd (upd F x zs) t ys) h' := by
  have hmy : ∀ n ∈ ys, n ∈ F t ∨ n ∈ F x := fun n hn => List.mem_append.mp (hperm.mem_iff.mp (List.mem_append_left _ hn))
  have hmz : ∀ n ∈ zs, n ∈ F t ∨ n ∈ F x := fun n hn => List.mem_append.mp (hperm.mem_iff.mp (List.mem_append_right _ hn))
  have hnt := hr.nodup t ht
  have hnx := hr.nodup x hx
  have hdt := hr.disj t ht x hx htx
  have hdx := hr.disj x hx t ht (Ne.symm htx)
  have hnd : (ys ++ zs).Nodup := by
    rw [hperm.nodup_iff, List.nodup_append]
    refine ⟨(List.nodup_cons.mp hnt).2, (List.nodup_cons.mp hnx).2, ?_⟩
    rintro a ha b hb rfl
    exact hdt a (by simp [ha]) (by simp [hb])
  rw [List.nodup_append] at hnd
  have hty : t ∉ ys := fun hh => (hmy t hh).elim (List.nodup_cons.mp hnt).1 (fun h2 => hdt t (by simp) (by simp [h2]))
  have htz : t ∉ zs := fun hh => (hmz t hh).elim (List.nodup_cons.mp hnt).1 (fun h2 => hdt t (by simp) (by simp [h2]))
  have hxy : x ∉ ys := fun hh => (hmy x hh).elim (fun h2 => hdx x (by simp) (by simp [h2])) (List.nodup_cons.mp hnx).1
  have hxz : x ∉ zs := fun hh => (hmz x hh).elim (fun h2 => hdx x (by simp) (by simp [h2])) (List.nodup_cons.mp hnx).1
  have ft : upd (upd F x zs) t ys t = ys := upd_same _ _ _
  have fx : upd (upd F x zs) t ys x = zs := by rw [upd_ne _ _ (Ne.symm htx), upd_same]
  have fo : ∀ u, u ≠ t → u ≠ x → upd (upd F x zs) t ys u = F u := fun u h1 h2 => by rw [upd_ne _ _ h1, upd_ne _ _ h2]
  -- membership in the new lists
  have memy : ∀ n ∈ t :: ys, n ∈ t :: F t ∨ n ∈ x :: F x := fun n hn => by
    rcases List.mem_cons.mp hn with rfl | hn
    · simp
    · rcases hmy n hn with h1 | h1 <;> simp [h1]
  have memz : ∀ n ∈ x :: zs, n ∈ t :: F t ∨ n ∈ x :: F x := fun n hn => by
    rcases List.mem_cons.mp hn with rfl | hn
    · simp
    · rcases hmz n hn with h1 | h1 <;> simp [h1]
  have dis : ∀ n ∈ t :: ys, n ∉ x :: zs := by
    intro n hn hn2
    rcases List.mem_cons.mp hn with rfl | hn
    · rcases List.mem_cons.mp hn2 with rfl | hn2
      · exact htx rfl
      · exact htz hn2
    · rcases List.mem_cons.mp hn2 with rfl | hn2
      · exact hxy hn
      · exact hnd.2.2 n hn n hn2 rfl
  have out : ∀ u ∈ T, u ≠ t → u ≠ x → ∀ n ∈ u :: F u, n ∉ t :: F t ∧ n ∉ x :: F x := fun u hu h1 h2 n hn =>
    ⟨hr.disj u hu t ht h1 n hn, hr.disj u hu x hx h2 n hn⟩
  refine ⟨fun u hu => ?_, fun u hu => ?_, fun u hu w hw huw n hn => ?_, fun u hu => ?_⟩
  · by_cases hut : u = t
    · subst hut; rw [ft]; exact hring
    by_cases hux : u = x
    · subst hux; rw [fx]; exact hring2
    rw [fo u hut hux]
    have hno := out u hu hut hux
    refine linked_frame (hr.ring u hu) (fun n hn => ?_) (fun n hn => ?_)
    · rw [show u :: (F u ++ [u]) = (u :: F u) ++ [u] from rfl, List.dropLast_concat] at hn
      exact (hfr n (hno n hn).1 (hno n hn).2 ⟨u, hu, hn⟩).1
    · have hn : n ∈ u :: F u := by simp at hn ⊢; grind
      exact (hfr n (hno n hn).1 (hno n hn).2 ⟨u, hu, hn⟩).2
  · by_cases hut : u = t
    · subst hut; rw [ft]; exact List.nodup_cons.mpr ⟨hty, hnd.1⟩
    by_cases hux : u = x
    · subst hux; rw [fx]; exact List.nodup_cons.mpr ⟨hxz, hnd.2.1⟩
    rw [fo u hut hux]; exact hr.nodup u hu
  · by_cases hut : u = t
    · subst hut
      rw [ft] at hn
      by_cases hwx : w = x
      · subst hwx; rw [fx]; exact dis n hn
      · rw [fo w (Ne.symm huw) hwx]
        intro hw2
        have := out w hw (Ne.symm huw) hwx n hw2
        rcases memy n hn with h1 | h1
        · exact this.1 h1
        · exact this.2 h1
    by_cases hux : u = x
    · subst hux
      rw [fx] at hn
      by_cases hwt : w = t
      · subst hwt; rw [ft]; exact fun h2 => dis n h2 hn
      · rw [fo w hwt (Ne.symm huw)]
        intro hw2
        have := out w hw hwt (Ne.symm huw) n hw2
        rcases memz n hn with h1 | h1
        · exact this.1 h1
        · exact this.2 h1
    rw [fo u hut hux] at hn
    have ho := out u hu hut hux n hn
    by_cases hwt : w = t
    · subst hwt; rw [ft]; intro h2
      exact (memy n h2).elim ho.1 ho.2
    by_cases hwx : w = x
    · subst hwx; rw [fx]; intro h2
      exact (memz n h2).elim ho.1 ho.2
    rw [fo w hwt hwx]; exact hr.disj u hu w hw huw n hn
  · by_cases hut : u = t
    · subst hut; rw [ft]; intro h2
      exact (memy 0 h2).elim (hr.nz _ hu) (hr.nz x hx)
    by_cases hux : u = x
    · subst hux; rw [fx]; intro h2
      exact (memz 0 h2).elim (hr.nz t ht) (hr.nz _ hu)
    rw [fo u hut hux]; exact hr.nz u hu

end Verif.IL
