import Verif.Proof.IntrusiveList
namespace Verif.IL
open Verif Cmd Spec.IList
variable {T : List Nat} {F : Fam} {h h' : Heap} {c : Cfg} {X : Exn → Heap → Prop}

@[simp] theorem wp_rdNext {p : Nat} {Q : Nat → Heap → Prop} : wp (rdNext p) Q X h ↔ p ≠ 0 ∧ Q (h.next p) h := by
  by_cases hp : p = 0 <;> simp [wp, rdNext, hp]
@[simp] theorem wp_rdPrev {p : Nat} {Q : Nat → Heap → Prop} : wp (rdPrev p) Q X h ↔ p ≠ 0 ∧ Q (h.prev p) h := by
  by_cases hp : p = 0 <;> simp [wp, rdPrev, hp]
@[simp] theorem wp_wrNext {p v : Nat} {Q : Unit → Heap → Prop} :
    wp (wrNext p v) Q X h ↔ p ≠ 0 ∧ Q () { h with next := upd h.next p v } := by
  by_cases hp : p = 0 <;> simp [wp, wrNext, hp]
@[simp] theorem wp_wrPrev {p v : Nat} {Q : Unit → Heap → Prop} :
    wp (wrPrev p v) Q X h ↔ p ≠ 0 ∧ Q () { h with prev := upd h.prev p v } := by
  by_cases hp : p = 0 <;> simp [wp, wrPrev, hp]
@[simp] theorem wp_dassert {b : Bool} {Q : Unit → Heap → Prop} :
    wp (dassert c b) Q X h ↔ (c.dbg = true ∧ b = false → X .assertFail h) ∧ (c.dbg = false ∨ b = true → Q () h) := by
  unfold wp dassert
  cases c.dbg <;> cases b <;> simp
theorem wp_itInc {p : Nat} {Q : Nat → Heap → Prop} (hp : p ≠ 0) (hQ : Q (h.next p) h) : wp (itInc c p) Q X h := by
  simp [itInc, hp, hQ]
theorem wp_itDec {p : Nat} {Q : Nat → Heap → Prop} (hp : p ≠ 0) (hQ : Q (h.prev p) h) : wp (itDec c p) Q X h := by
  simp [itDec, hp, hQ]
theorem wp_deref {p : Nat} {Q : Nat → Heap → Prop} (hp : p ≠ 0) (hQ : Q p h) : wp (deref c p) Q X h := by
  simp [deref, hp, hQ]

/-- Links outside a set of nodes are the same in both heaps. -/
def Same (P : Nat → Prop) (h h' : Heap) : Prop := ∀ n, ¬ P n → h'.next n = h.next n ∧ h'.prev n = h.prev n

theorem Same.refl (P : Nat → Prop) (h : Heap) : Same P h h := fun _ _ => ⟨rfl, rfl⟩

/-- Node before / at a split point of a list. -/
def lst (t : Nat) (A : List Nat) : Nat := A.getLast?.getD t
def hd (t : Nat) (B : List Nat) : Nat := B.head?.getD t

theorem lst_last (t : Nat) (A : List Nat) : (t :: A).getLast? = some (lst t A) := by
  cases A with
  | nil => rfl
  | cons a l => simp [lst, List.getLast?_cons]
theorem hd_head (t : Nat) (B : List Nat) : (B ++ [t]).head? = some (hd t B) := by
  cases B <;> simp [hd]
theorem hd_mem (t : Nat) (B : List Nat) : hd t B ∈ B ++ [t] := List.mem_of_mem_head? (Option.mem_def.mpr (hd_head t B))
theorem lst_mem (t : Nat) (A : List Nat) : lst t A ∈ t :: A := List.mem_of_getLast? (lst_last t A)

theorem hd_drop (F : Fam) (t k : Nat) : hd t ((F t).drop k) = elemAt F t k := by
  unfold hd elemAt; rw [List.head?_drop]

theorem Rep.split {t : Nat} {A B : List Nat} (hr : Rep T F h) (ht : t ∈ T) (hF : F t = A ++ B) :
    h.next (lst t A) = hd t B ∧ h.prev (hd t B) = lst t A ∧ lst t A ≠ 0 ∧ hd t B ≠ 0 ∧
    Linked h ((t :: A) ++ (B ++ [t])) ∧ ((t :: A) ++ (B ++ [t]).dropLast).Nodup ∧ ((t :: A).tail ++ (B ++ [t])).Nodup := by
  have h1 := hr.ring t ht
  have h2 := hr.nodup t ht
  have h3 := hr.nz t ht
  rw [hF] at h1 h2 h3
  have h4 : Linked h ((t :: A) ++ (B ++ [t])) := by simpa using h1
  have h5 := h4
  rw [linked_app (lst_last t A) (hd_head t B)] at h5
  have m1 := lst_mem t A
  have m2 := hd_mem t B
  refine ⟨h5.2.1.1, h5.2.1.2, ?_, ?_, h4, ?_, ?_⟩
  · rintro he; rw [he] at m1; apply h3; simp at m1 ⊢; grind
  · rintro he; rw [he] at m2; apply h3; simp at m2 ⊢; grind
  · simpa using h2
  · simp only [List.tail_cons, ← List.append_assoc]
    rw [List.nodup_append]
    obtain ⟨h6, h7⟩ := List.nodup_cons.mp h2
    refine ⟨h7, by simp, fun a ha b hb => ?_⟩
    simp at hb; subst hb
    exact fun e => h6 (e ▸ ha)

theorem insert_wp {t d : Nat} {A B : List Nat} {Q : Nat → Heap → Prop} (hr : Rep T F h) (ht : t ∈ T) (hF : F t = A ++ B)
    (hd' : unlinked T F d)
    (hQ : ∀ h', Rep T (upd F t (A ++ d :: B)) h' → Same (fun n => n ∈ d :: t :: F t) h h' → Q d h') :
    wp (insert c (hd t B) d) Q X h := by
  obtain ⟨e1, e2, z1, z2, hl, hn, hp⟩ := hr.split ht hF
  have hdt := hd'.2 t ht
  have m1 := lst_mem t A
  have m2 := hd_mem t B
  have hdA : d ∉ t :: (A ++ B) := by rw [← hF]; simp; exact hdt
  have nda : d ≠ lst t A := fun e => hdA (by rw [e]; simp at m1 ⊢; grind)
  have ndb : d ≠ hd t B := fun e => hdA (by rw [e]; simp at m2 ⊢; grind)
  simp only [insert, wp_bind, wp_dassert, wp_wrNext, wp_rdPrev, wp_wrPrev, wp_pure, bne_iff_ne, ne_eq]
  refine ⟨fun ⟨_, h2⟩ => absurd h2 (by simp [z2]), fun _ => ⟨hd'.1, z2, hd'.1, z2, hd'.1, ?_, ?_⟩⟩
  · rw [upd_ne _ _ ndb, upd_same, e2]; exact z1
  · have hq : upd (upd h.prev d (h.prev (hd t B))) (hd t B) d d = lst t A := by
      rw [upd_ne _ _ ndb, upd_same, e2]
    rw [hq, e2]
    have hfr : Same (fun n => n ∈ d :: t :: F t) h
        { next := upd (upd h.next d (hd t B)) (lst t A) d, prev := upd (upd h.prev d (lst t A)) (hd t B) d } := by
      intro n hn
      have h1 : n ≠ d := fun e => hn (by simp [e])
      have h2 : n ≠ lst t A := fun e => hn (by rw [e, hF]; simp at m1 ⊢; grind)
      have h3 : n ≠ hd t B := fun e => hn (by rw [e, hF]; simp at m2 ⊢; grind)
      exact ⟨by show upd _ _ _ _ = _; rw [upd_ne _ _ h2, upd_ne _ _ h1], by show upd _ _ _ _ = _; rw [upd_ne _ _ h3, upd_ne _ _ h1]⟩
    refine hQ _ (hr.upd1 ht ?_ ?_ ?_ ?_) hfr
    · have := seg_insert (h' := { next := upd (upd h.next d (hd t B)) (lst t A) d, prev := upd (upd h.prev d (lst t A)) (hd t B) d })
        (S2 := [d]) hl trivial (lst_last t A) (a2 := d) (b2 := d) rfl rfl (hd_head t B) hn hp ?_ ?_ ?_ ?_
      · simpa using this
      · intro x hx
        have : x ≠ d := fun e => hdA (by rw [← e]; simp at hx ⊢; grind)
        show upd _ _ _ _ = _
        unfold upd; simp [this]
      · intro x hx
        have : x ≠ d := fun e => hdA (by rw [← e]; simp at hx ⊢; grind)
        show upd _ _ _ _ = _
        unfold upd; simp [this]
      · show upd _ _ _ _ = _
        rw [upd_ne _ _ nda, upd_same]
      · show upd _ _ _ _ = _
        rw [upd_ne _ _ ndb, upd_same]
    · intro n h1 ⟨u, hu, h2⟩
      refine hfr n ?_
      have : n ≠ d := by rintro rfl; have := hd'.2 u hu; simp at h2; grind
      simp at h1 ⊢; grind
    · have h2 := hr.nodup t ht
      rw [hF] at h2
      have : (t :: (A ++ d :: B)).Perm (d :: t :: (A ++ B)) := by
        refine (List.Perm.cons t List.perm_middle).trans (List.Perm.swap _ _ _)
      rw [this.nodup_iff]
      exact List.nodup_cons.mpr ⟨hdA, h2⟩
    · intro n hn
      simp at hn
      rw [hF]
      rcases hn with h1 | rfl | h1
      · left; simp [h1]
      · right; exact hd'
      · left; simp [h1]

theorem empty_wp {t : Nat} {Q : Bool → Heap → Prop} (hr : Rep T F h) (ht : t ∈ T) (hQ : Q (decide (F t = [])) h) : wp (empty t) Q X h := by
  obtain ⟨e1, e2, z1, z2, hl, hn, hp⟩ := hr.split ht (A := []) (B := F t) rfl
  have ht0 : t ≠ 0 := fun e => hr.nz t ht (by simp [e])
  simp only [empty, wp_bind, wp_rdNext, wp_pure]
  refine ⟨ht0, ?_⟩
  have h2 := hr.nodup t ht
  simp only [lst, List.getLast?_nil, Option.getD_none] at e1
  rw [e1]
  have : (hd t (F t) == t) = decide (F t = []) := by
    rw [Bool.eq_iff_iff]
    cases hF : F t with
    | nil => simp [hd]
    | cons a l => simp [hd]; rintro rfl; rw [hF] at h2; simp at h2
  rw [this]; exact hQ

theorem erase_wp {t n : Nat} {A B : List Nat} {Q : Nat → Heap → Prop} (hr : Rep T F h) (ht : t ∈ T) (hF : F t = A ++ n :: B)
    (hQ : ∀ h', Rep T (upd F t (A ++ B)) h' → Same (fun m => m ∈ t :: F t) h h' → Q (hd t B) h') :
    wp (erase c t n) Q X h := by
  obtain ⟨e1, e2, z1, z2, hl, hn, hp⟩ := hr.split ht hF
  obtain ⟨e3, e4, z3, z4, _, _, _⟩ := hr.split ht (A := A ++ [n]) (B := B) (by rw [hF]; simp)
  have hn1 : lst t (A ++ [n]) = n := by simp [lst]
  have hn2 : hd t (n :: B) = n := rfl
  rw [hn1] at e3 e4 z3
  rw [hn2] at e1 e2 z2
  have h2 := hr.nodup t ht
  rw [hF] at h2
  have m1 := lst_mem t A
  have m2 := hd_mem t B
  have na : n ≠ lst t A := by
    rintro e; rw [← e] at m1; simp at h2 m1; grind [List.nodup_append]
  simp only [erase, wp_bind, wp_dassert, wp_wrNext, wp_rdPrev, wp_rdNext, wp_wrPrev, wp_pure]
  refine empty_wp hr ht ?_
  refine ⟨fun ⟨_, h2⟩ => by simp [hF] at h2, fun _ => ⟨fun ⟨_, h2⟩ => by simp [z2] at h2, fun _ => ?_⟩⟩
  refine ⟨z2, z2, z2, by rw [e2]; exact z1, z2, z2, ?_, ?_⟩
  · rw [e2, e3, upd_ne _ _ na, e3]; exact z4
  · rw [e2, e3, upd_ne _ _ na, e3]
    have hfr : Same (fun m => m ∈ t :: F t) h { next := upd h.next (lst t A) (hd t B), prev := upd h.prev (hd t B) (lst t A) } := by
      intro m hm
      have h2 : m ≠ lst t A := fun e => hm (by rw [e, hF]; simp at m1 ⊢; grind)
      have h3 : m ≠ hd t B := fun e => hm (by rw [e, hF]; simp at m2 ⊢; grind)
      exact ⟨upd_ne _ _ h2, upd_ne _ _ h3⟩
    refine hQ _ (hr.upd1 ht ?_ (fun m h1 _ => hfr m h1) ?_ ?_) hfr
    · have := seg_remove (h' := { next := upd h.next (lst t A) (hd t B), prev := upd h.prev (hd t B) (lst t A) })
        (S1 := t :: A) (S2 := [n]) (S3 := B ++ [t]) (by simpa using hl) (by simp) (lst_last t A) (hd_head t B) ?_ ?_
        (fun x _ => rfl) (fun x _ => rfl)
      · simpa using this
      · simp at hn ⊢; grind [List.nodup_append]
      · simp at hp ⊢; grind [List.nodup_append]
    · have : (t :: (A ++ n :: B)).Perm (n :: t :: (A ++ B)) :=
        (List.Perm.cons t List.perm_middle).trans (List.Perm.swap _ _ _)
      rw [this.nodup_iff] at h2
      exact (List.nodup_cons.mp h2).2
    · intro m hm; rw [hF]; simp at hm ⊢; grind

/-- The heap after relinking. -/
def relink (h : Heap) (pos first last : Nat) : Heap where
  next := upd (upd (upd h.next (h.prev last) pos) (h.prev first) last) (h.prev pos) first
  prev := upd (upd (upd h.prev pos (h.prev last)) last (h.prev first)) first (h.prev pos)

theorem spliceRange_run {t x pos first last : Nat} {Q : Unit → Heap → Prop}
    (z1 : pos ≠ 0) (z2 : first ≠ 0) (z3 : last ≠ 0) (w1 : h.prev pos ≠ 0) (w2 : h.prev first ≠ 0) (w3 : h.prev last ≠ 0)
    (n1 : first ≠ t) (n2 : first ≠ x) (d1 : first ≠ last) (d2 : pos ≠ last) (d3 : first ≠ pos)
    (hQ : Q () (relink h pos first last)) : wp (spliceRange c t pos x first last) Q X h := by
  simp only [spliceRange, wp_bind, wp_dassert, wp_ite, wp_pure, wp_rdPrev, wp_wrNext, wp_wrPrev, end_]
  simp only [bne_iff_ne, ne_eq, z1, z2, z3, n1, n2, d1, d2, not_false_eq_true, bne_eq_false_iff_eq, and_false, false_implies, true_and, or_true,
    true_implies, w1, w2, w3, upd_ne _ _ d3]
  exact hQ

/-- Splicing between different lists. -/
theorem splice_two {t x : Nat} {A R C D E : List Nat} (hr : Rep T F h) (ht : t ∈ T) (hx : x ∈ T) (htx : t ≠ x)
    (hFx : F x = A ++ (R ++ C)) (hFt : F t = D ++ E) (hR : R ≠ []) :
    Rep T (upd (upd F x (A ++ C)) t (D ++ R ++ E)) (relink h (hd t E) (hd x (R ++ C)) (hd x C)) ∧
    Same (fun n => n ∈ t :: F t ∨ n ∈ x :: F x) h (relink h (hd t E) (hd x (R ++ C)) (hd x C)) := by
  obtain ⟨e1, e2, z1, z2, hl, hn, hp⟩ := hr.split ht hFt
  obtain ⟨e3, e4, z3, z4, hl2, hn2, hp2⟩ := hr.split hx hFx
  obtain ⟨e5, e6, z5, z6, _, _, _⟩ := hr.split hx (A := A ++ R) (B := C) (by rw [hFx]; simp)
  obtain ⟨r, R', rfl⟩ := List.exists_cons_of_ne_nil hR
  have hlast : ∃ q, (r :: R').getLast? = some q := ⟨_, List.getLast?_eq_some_getLast hR⟩
  obtain ⟨q, hq⟩ := hlast
  have q1 : lst x (A ++ (r :: R')) = q := by simp only [lst, List.getLast?_append, hq]; rfl
  have r1 : hd x (r :: R' ++ C) = r := rfl
  rw [q1] at e5 e6 z5
  rw [r1] at e3 e4 z4 ⊢
  have hdx := hr.disj x hx t ht (Ne.symm htx)
  have hdt := hr.disj t ht x hx htx
  have mD := lst_mem t D
  have mE := hd_mem t E
  have mA := lst_mem x A
  have mC := hd_mem x C
  have mq : q ∈ r :: R' := List.mem_of_getLast? hq
  have iD : lst t D ∈ t :: F t := by rw [hFt]; simp at mD ⊢; grind
  have iE : hd t E ∈ t :: F t := by rw [hFt]; simp at mE ⊢; grind
  have iA : lst x A ∈ x :: F x := by rw [hFx]; simp at mA ⊢; grind
  have iC : hd x C ∈ x :: F x := by rw [hFx]; simp at mC ⊢; grind
  have iq : q ∈ x :: F x := by rw [hFx]; simp at mq ⊢; grind
  have ir : r ∈ x :: F x := by rw [hFx]; simp
  -- distinctness
  have nrp : r ≠ hd t E := fun e => hdt _ iE (e ▸ ir)
  have nlp : hd x C ≠ hd t E := fun e => hdt _ iE (e ▸ iC)
  have nrl : r ≠ hd x C := by
    intro e
    rw [e] at e4
    -- r would have predecessor both lst A and q; use nodup of the ring
    have := hr.nodup x hx
    rw [hFx] at this
    have mC2 := mC; rw [← e] at mC2
    simp at this mC2
    grind [List.nodup_append]
  have nqa : q ≠ lst x A := fun e => by rw [e, e3] at e5; exact nrl e5
  have nda : lst t D ≠ lst x A := fun e => hdt _ iD (e ▸ iA)
  have ndq : lst t D ≠ q := fun e => hdt _ iD (e ▸ iq)
  have hnext : ∀ y, (relink h (hd t E) r (hd x C)).next y =
      if y = lst t D then r else if y = lst x A then hd x C else if y = q then hd t E else h.next y := by
    intro y; simp only [relink, e2, e4, e6, upd]
  have hprev : ∀ y, (relink h (hd t E) r (hd x C)).prev y =
      if y = r then lst t D else if y = hd x C then lst x A else if y = hd t E then q else h.prev y := by
    intro y; simp only [relink, e2, e4, e6, upd]
  have hfr : Same (fun n => n ∈ t :: F t ∨ n ∈ x :: F x) h (relink h (hd t E) r (hd x C)) := by
    intro n hn
    have k1 : n ∉ t :: F t := fun e => hn (Or.inl e)
    have k2 : n ∉ x :: F x := fun e => hn (Or.inr e)
    constructor
    · rw [hnext, if_neg (nem iD k1).symm, if_neg (nem iA k2).symm, if_neg (nem iq k2).symm]
    · rw [hprev, if_neg (nem ir k2).symm, if_neg (nem iC k2).symm, if_neg (nem iE k1).symm]
  refine ⟨hr.upd2 ht hx htx ?_ ?_ (fun n k1 k2 _ => hfr n (by grind)) ?_, hfr⟩
  · have hlR : Linked h (r :: R') := by
      have := hl2
      rw [linked_app (lst_last x A) (hd_head x (r :: R' ++ C)), List.append_assoc,
        linked_app hq (hd_head x C)] at this
      exact this.2.2.1
    have hRn : (r :: R').Nodup := by
      have := hr.nodup x hx; rw [hFx] at this
      simp at this ⊢; grind [List.nodup_append]
    have inR : ∀ y ∈ r :: R', y ∈ x :: F x := fun y hy => by rw [hFx]; simp at hy ⊢; grind
    have := seg_insert (h' := relink h (hd t E) r (hd x C)) (S1 := t :: D) (S2 := r :: R') (S3 := E ++ [t]) hl ?_
      (lst_last t D) hq (b2 := r) rfl (hd_head t E) hn hp ?_ ?_ ?_ ?_
    · simpa using this
    · refine linked_frame hlR (fun y hy => ?_) (fun y hy => ?_)
      · have hyR := inR y (List.dropLast_subset _ hy)
        have hnq := last_notin hRn hq
        rw [hnext, if_neg (nem hyR (hdt _ iD)), if_neg ?_, if_neg (nem hy hnq)]
        have := hr.nodup x hx; rw [hFx] at this
        have hy2 := List.dropLast_subset _ hy
        intro e; rw [e] at hy2; simp at this mA hy2; grind [List.nodup_append]
      · have hyR := inR y (List.mem_of_mem_tail hy)
        have hnr := head_notin hRn (b := r) rfl
        rw [hprev, if_neg (nem hy hnr), if_neg ?_, if_neg (nem hyR (hdt _ iE))]
        have := hr.nodup x hx; rw [hFx] at this
        intro e; rw [e] at hy; simp at this mC hy; grind [List.nodup_append]
    · intro y hy
      have hyt : y ∈ t :: F t := by rw [hFt]; simp at hy ⊢; grind
      have hyx : y ∉ x :: F x := hdt y hyt
      rw [hnext]
      split
      · rfl
      · rw [if_neg (nem iA hyx).symm, if_neg (nem iq hyx).symm]
    · intro y hy
      have hyt : y ∈ t :: F t := by rw [hFt]; simp at hy ⊢; grind
      have hyx : y ∉ x :: F x := hdt y hyt
      rw [hprev, if_neg (nem ir hyx).symm, if_neg (nem iC hyx).symm]
    · rw [hnext, if_neg ndq.symm, if_neg nqa, if_pos rfl]
    · rw [hprev, if_pos rfl]
  · have hnx := hr.nodup x hx
    rw [hFx] at hnx
    have := seg_remove (h' := relink h (hd t E) r (hd x C)) (S1 := x :: A) (S2 := r :: R') (S3 := C ++ [x]) (by simpa using hl2)
      (by simp) (lst_last x A) (hd_head x C) ?_ ?_ ?_ ?_
    · simpa using this
    · rw [List.dropLast_concat]
      exact hnx.sublist (List.Sublist.cons_cons _ ((List.Sublist.refl A).append (List.sublist_append_right _ _)))
    · refine hp2.sublist ((List.Sublist.refl A).append ?_)
      rw [List.append_assoc]; exact List.sublist_append_right _ _
    · intro y hy
      have hyx : y ∈ x :: F x := by rw [hFx]; simp at hy ⊢; grind
      rw [hnext, if_neg (nem hyx (hdt _ iD))]
      split
      · rfl
      · rw [if_neg]
        intro e; rw [← e] at mq; simp at hy mq hnx; grind [List.nodup_append]
    · intro y hy
      have hyx : y ∈ x :: F x := by rw [hFx]; simp at hy ⊢; grind
      have : y ≠ r := by intro e; rw [e] at hy; simp at hy hnx; grind [List.nodup_append]
      rw [hprev, if_neg this]
      split
      · rfl
      · rw [if_neg (nem hyx (hdt _ iE))]
  · rw [hFx, hFt]
    have : (D ++ (r :: R') ++ E ++ (A ++ C)).Perm (D ++ E ++ (A ++ ((r :: R') ++ C))) := by
      simp only [List.append_assoc]
      refine List.Perm.append_left D ?_
      refine List.perm_append_comm_assoc _ _ _ |>.trans ?_
      refine List.Perm.append_left E ?_
      exact List.perm_append_comm_assoc _ _ _
    exact this

end Verif.IL
