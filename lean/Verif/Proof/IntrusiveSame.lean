import Verif.Proof.IntrusiveOps
namespace Verif.IL
open Verif Cmd Spec.IList
variable {T : List Nat} {F : Fam} {h h' : Heap} {c : Cfg} {X : Exn → Heap → Prop}

theorem last_ex {U : List Nat} (hU : U ≠ []) : ∃ q, U.getLast? = some q := ⟨_, List.getLast?_eq_some_getLast hU⟩
theorem head_ex {U : List Nat} (hU : U ≠ []) : ∃ q, U.head? = some q := by
  cases U with
  | nil => exact absurd rfl hU
  | cons a l => exact ⟨a, rfl⟩

/-- The facts about the six nodes around two adjacent segments of one list. -/
theorem same_facts {t : Nat} {D U V C : List Nat} {u v p q : Nat} (hr : Rep T F h) (ht : t ∈ T)
    (hF : F t = D ++ (U ++ (V ++ C))) (hu : U.head? = some u) (hv : V.head? = some v) (hp : U.getLast? = some p) (hq : V.getLast? = some q) :
    h.prev u = lst t D ∧ h.prev v = p ∧ h.prev (hd t C) = q ∧ u ≠ 0 ∧ v ≠ 0 ∧ hd t C ≠ 0 ∧ lst t D ≠ 0 ∧ p ≠ 0 ∧ q ≠ 0 ∧
    u ≠ v ∧ v ≠ hd t C ∧ u ≠ hd t C ∧ lst t D ≠ p ∧ p ≠ q ∧ lst t D ≠ q ∧ u ≠ t ∧ v ≠ t := by
  obtain ⟨e1, e2, z1, z2, hl, hn, hp'⟩ := hr.split ht hF
  obtain ⟨e3, e4, z3, z4, _, _, _⟩ := hr.split ht (A := D ++ U) (B := V ++ C) (by rw [hF]; simp)
  obtain ⟨e5, e6, z5, z6, _, _, _⟩ := hr.split ht (A := D ++ (U ++ V)) (B := C) (by rw [hF]; simp)
  have k1 : hd t (U ++ (V ++ C)) = u := by simp [hd, List.head?_append, hu]
  have k2 : hd t (V ++ C) = v := by simp [hd, List.head?_append, hv]
  have k3 : lst t (D ++ U) = p := by simp [lst, List.getLast?_append, hp]
  have k4 : lst t (D ++ (U ++ V)) = q := by simp [lst, List.getLast?_append, hq]
  rw [k1] at e1 e2 z2
  rw [k2, k3] at e3 e4
  rw [k2] at z4
  rw [k3] at z3
  rw [k4] at e5 e6 z5
  have mu := List.mem_of_mem_head? (Option.mem_def.mpr hu)
  have mv := List.mem_of_mem_head? (Option.mem_def.mpr hv)
  have mp := List.mem_of_getLast? hp
  have mq := List.mem_of_getLast? hq
  have mD := lst_mem t D
  have mC := hd_mem t C
  have hnd : ((t :: D) ++ (U ++ (V ++ C))).Nodup := by have := hr.nodup t ht; rw [hF] at this; exact this
  have hnd2 : (D ++ (U ++ (V ++ (C ++ [t])))).Nodup := by simpa using hp'
  simp only [List.nodup_append, List.mem_append] at hnd hnd2
  obtain ⟨_, ⟨_, ⟨_, _, q34⟩, q2⟩, q1⟩ := hnd
  obtain ⟨_, ⟨_, ⟨_, _, r34⟩, r2⟩, r1⟩ := hnd2
  refine ⟨e2, e4, e6, z2, z4, z6, z1, z3, z5, ?_, ?_, ?_, ?_, ?_, ?_, ?_, ?_⟩
  · exact r2 u mu v (Or.inl mv)
  · exact r34 v mv _ (List.mem_append.mp mC)
  · exact r2 u mu _ (Or.inr (List.mem_append.mp mC))
  · exact q1 _ mD p (Or.inl mp)
  · exact q2 p mp q (Or.inl mq)
  · exact q1 _ mD q (Or.inr (Or.inl mq))
  · exact fun e => q1 t (by simp) u (Or.inl mu) e.symm
  · exact fun e => q1 t (by simp) v (Or.inr (Or.inl mv)) e.symm

/-- Exchanging two adjacent segments of one list. -/
theorem same_swap {t : Nat} {D U V C : List Nat} {u v p q : Nat} (hr : Rep T F h) (ht : t ∈ T)
    (hF : F t = D ++ (U ++ (V ++ C))) (hu : U.head? = some u) (hv : V.head? = some v) (hp : U.getLast? = some p) (hq : V.getLast? = some q)
    (hn : ∀ x, h'.next x = if x = lst t D then v else if x = q then u else if x = p then hd t C else h.next x)
    (hpv : ∀ x, h'.prev x = if x = v then lst t D else if x = u then q else if x = hd t C then p else h.prev x) :
    Rep T (upd F t (D ++ (V ++ (U ++ C)))) h' ∧ Same (fun n => n ∈ t :: F t) h h' := by
  obtain ⟨_, _, _, _, hl, hn', hp'⟩ := hr.split ht hF
  have mu := List.mem_of_mem_head? (Option.mem_def.mpr hu)
  have mv := List.mem_of_mem_head? (Option.mem_def.mpr hv)
  have mp := List.mem_of_getLast? hp
  have mq := List.mem_of_getLast? hq
  have mD := lst_mem t D
  have mC := hd_mem t C
  have iD : lst t D ∈ t :: F t := by rw [hF]; simp at mD ⊢; grind
  have iC : hd t C ∈ t :: F t := by rw [hF]; simp at mC ⊢; grind
  have iu : u ∈ t :: F t := by rw [hF]; simp [mu]
  have iv : v ∈ t :: F t := by rw [hF]; simp [mv]
  have ip : p ∈ t :: F t := by rw [hF]; simp [mp]
  have iq : q ∈ t :: F t := by rw [hF]; simp [mq]
  have hfr : Same (fun n => n ∈ t :: F t) h h' := by
    intro n hn0
    exact ⟨by rw [hn, if_neg (nem iD hn0).symm, if_neg (nem iq hn0).symm, if_neg (nem ip hn0).symm],
      by rw [hpv, if_neg (nem iv hn0).symm, if_neg (nem iu hn0).symm, if_neg (nem iC hn0).symm]⟩
  have hperm : (D ++ (V ++ (U ++ C))).Perm (F t) := by
    rw [hF]; exact List.Perm.append_left D (List.perm_append_comm_assoc _ _ _)
  refine ⟨hr.upd1 ht ?_ (fun n h1 _ => hfr n h1) ?_ ?_, hfr⟩
  · have := seg_swap (h' := h') (S1 := t :: D) (S2 := U) (S3 := V) (S4 := C ++ [t]) (by simpa using hl) (lst_last t D) hp hq hu hv (hd_head t C)
      (by rw [List.dropLast_concat]; have := hr.nodup t ht; rw [hF] at this; exact this) (by simpa using hp') hn hpv
    simpa using this
  · rw [(List.Perm.cons t hperm).nodup_iff]; exact hr.nodup t ht
  · intro n hn0; left; exact hperm.mem_iff.mp hn0

/-- Moving a range towards the front of its own list. -/
theorem splice_back {t : Nat} {D U V C : List Nat} (hr : Rep T F h) (ht : t ∈ T)
    (hF : F t = D ++ (U ++ (V ++ C))) (hU : U ≠ []) (hV : V ≠ []) {Q : Unit → Heap → Prop}
    (hQ : ∀ h', Rep T (upd F t (D ++ (V ++ (U ++ C)))) h' → Same (fun n => n ∈ t :: F t) h h' → Q () h') :
    wp (spliceRange c t (hd t (U ++ (V ++ C))) t (hd t (V ++ C)) (hd t C)) Q X h := by
  obtain ⟨u, hu⟩ := head_ex hU
  obtain ⟨v, hv⟩ := head_ex hV
  obtain ⟨p, hp⟩ := last_ex hU
  obtain ⟨q, hq⟩ := last_ex hV
  obtain ⟨e1, e2, e3, z1, z2, z3, z4, z5, z6, d1, d2, d3, d4, d5, d6, t1, t2⟩ := same_facts hr ht hF hu hv hp hq
  have k1 : hd t (U ++ (V ++ C)) = u := by simp [hd, List.head?_append, hu]
  have k2 : hd t (V ++ C) = v := by simp [hd, List.head?_append, hv]
  rw [k1, k2]
  refine spliceRange_run z1 z2 z3 (by rw [e1]; exact z4) (by rw [e2]; exact z5) (by rw [e3]; exact z6) t2 t2 d2 d3 d1.symm ?_
  have := same_swap (h' := relink h u v (hd t C)) hr ht hF hu hv hp hq ?_ ?_
  · exact hQ _ this.1 this.2
  · intro x; simp only [relink, e1, e2, e3, upd]
    by_cases h1 : x = q
    · subst h1; simp [Ne.symm d5]
    · simp [h1]
  · intro x; simp only [relink, e1, e2, e3, upd]
    by_cases h1 : x = u
    · subst h1; simp [d3]
    · simp [h1]

/-- Moving a range towards the end of its own list. -/
theorem splice_fwd {t : Nat} {D U V C : List Nat} (hr : Rep T F h) (ht : t ∈ T)
    (hF : F t = D ++ (U ++ (V ++ C))) (hU : U ≠ []) (hV : V ≠ []) {Q : Unit → Heap → Prop}
    (hQ : ∀ h', Rep T (upd F t (D ++ (V ++ (U ++ C)))) h' → Same (fun n => n ∈ t :: F t) h h' → Q () h') :
    wp (spliceRange c t (hd t C) t (hd t (U ++ (V ++ C))) (hd t (V ++ C))) Q X h := by
  obtain ⟨u, hu⟩ := head_ex hU
  obtain ⟨v, hv⟩ := head_ex hV
  obtain ⟨p, hp⟩ := last_ex hU
  obtain ⟨q, hq⟩ := last_ex hV
  obtain ⟨e1, e2, e3, z1, z2, z3, z4, z5, z6, d1, d2, d3, d4, d5, d6, t1, t2⟩ := same_facts hr ht hF hu hv hp hq
  have k1 : hd t (U ++ (V ++ C)) = u := by simp [hd, List.head?_append, hu]
  have k2 : hd t (V ++ C) = v := by simp [hd, List.head?_append, hv]
  rw [k1, k2]
  refine spliceRange_run z3 z1 z2 (by rw [e3]; exact z6) (by rw [e1]; exact z4) (by rw [e2]; exact z5) t1 t1 d1 d2.symm d3 ?_
  have := same_swap (h' := relink h (hd t C) u v) hr ht hF hu hv hp hq ?_ ?_
  · exact hQ _ this.1 this.2
  · intro x; simp only [relink, e1, e2, e3, upd]
    by_cases h1 : x = lst t D
    · subst h1; simp [d6]
    · simp [h1]
  · intro x; simp only [relink, e1, e2, e3, upd]
    by_cases h1 : x = v
    · subst h1; simp [Ne.symm d1]
    · simp [h1]

/-- Moving a range to another list. -/
theorem splice_other {t x : Nat} {A R C D E : List Nat} (hr : Rep T F h) (ht : t ∈ T) (hx : x ∈ T) (htx : t ≠ x)
    (hFx : F x = A ++ (R ++ C)) (hFt : F t = D ++ E) (hR : R ≠ []) {Q : Unit → Heap → Prop}
    (hQ : ∀ h', Rep T (upd (upd F x (A ++ C)) t (D ++ R ++ E)) h' → Same (fun n => n ∈ t :: F t ∨ n ∈ x :: F x) h h' → Q () h') :
    wp (spliceRange c t (hd t E) x (hd x (R ++ C)) (hd x C)) Q X h := by
  have key := splice_two hr ht hx htx hFx hFt hR
  obtain ⟨e1, e2, z1, z2, _, _, _⟩ := hr.split ht hFt
  obtain ⟨e3, e4, z3, z4, _, _, hp2⟩ := hr.split hx hFx
  obtain ⟨e5, e6, z5, z6, _, _, _⟩ := hr.split hx (A := A ++ R) (B := C) (by rw [hFx]; simp)
  obtain ⟨r, hr'⟩ := head_ex hR
  have k2 : hd x (R ++ C) = r := by simp [hd, List.head?_append, hr']
  have mr := List.mem_of_mem_head? (Option.mem_def.mpr hr')
  have mC := hd_mem x C
  have mE := hd_mem t E
  have hnx := hr.nodup x hx
  have hdt := hr.disj t ht x hx htx
  have iE : hd t E ∈ t :: F t := by rw [hFt]; simp at mE ⊢; grind
  have iC : hd x C ∈ x :: F x := by rw [hFx]; simp at mC ⊢; grind
  have ir : r ∈ x :: F x := by rw [hFx]; simp [mr]
  have hp3 : (A ++ (R ++ (C ++ [x]))).Nodup := by simpa using hp2
  simp only [List.nodup_append, List.mem_append] at hp3
  have nrx : r ≠ x := hp3.2.1.2.2 r mr x (Or.inr (by simp))
  have nrl : r ≠ hd x C := hp3.2.1.2.2 r mr _ (List.mem_append.mp mC)
  rw [k2] at key e4 z4 ⊢
  refine spliceRange_run z2 z4 z6 (by rw [e2]; exact z1) (by rw [e4]; exact z3) (by rw [e6]; exact z5)
    (nem (a := t) ir (hdt t (by simp))) nrx nrl (nem iC (hdt _ iE)).symm (nem ir (hdt _ iE)) (hQ _ key.1 key.2)

/-- Empty range, or a position equal to the range's end: nothing happens. -/
theorem splice_noop {t x pos first last : Nat} {Q : Unit → Heap → Prop} (h1 : pos ≠ 0) (h2 : first ≠ 0) (h3 : last ≠ 0)
    (h4 : first ≠ t) (h5 : first ≠ x) (h6 : first = last ∨ pos = last) (hQ : Q () h) :
    wp (spliceRange c t pos x first last) Q X h := by
  simp only [spliceRange, wp_bind, wp_dassert, wp_ite, wp_pure, end_]
  simp only [bne_iff_ne, ne_eq, h1, h2, h3, h4, h5, not_false_eq_true, bne_eq_false_iff_eq, and_false, false_implies, true_and, or_true,
    true_implies]
  exact ⟨fun _ => hQ, fun h7 => ⟨fun _ => hQ, fun h8 => (h6.elim h7 h8).elim⟩⟩

end Verif.IL
