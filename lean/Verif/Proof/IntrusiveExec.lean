import Verif.Proof.IntrusiveSame
namespace Verif.IL
open Verif Cmd Spec.IList
variable {T : List Nat} {F G : Fam} {h h' : Heap} {c : Cfg} {X : Exn → Heap → Prop}

theorem Rep.congr (hr : Rep T F h) (hFG : ∀ u ∈ T, F u = G u) : Rep T G h := by
  refine ⟨fun t ht => ?_, fun t ht => ?_, fun t ht u hu => ?_, fun t ht => ?_⟩
  · rw [← hFG t ht]; exact hr.ring t ht
  · rw [← hFG t ht]; exact hr.nodup t ht
  · rw [← hFG t ht, ← hFG u hu]; exact hr.disj t ht u hu
  · rw [← hFG t ht]; exact hr.nz t ht

theorem Rep.restrict {t : Nat} (hr : Rep (t :: T) F h) : Rep T F h :=
  ⟨fun u hu => hr.ring u (by simp [hu]), fun u hu => hr.nodup u (by simp [hu]),
   fun u hu v hv => hr.disj u (by simp [hu]) v (by simp [hv]), fun u hu => hr.nz u (by simp [hu])⟩

theorem upd_self (F : Fam) (t : Nat) : upd F t (F t) = F := by
  funext u; unfold upd; split
  · rename_i e; rw [e]
  · rfl

theorem Same.mono {P P' : Nat → Prop} (hs : Same P h h') (hp : ∀ n, P n → P' n) : Same P' h h' :=
  fun n hn => hs n (fun e => hn (hp n e))

theorem Same.trans {P : Nat → Prop} {h'' : Heap} (h1 : Same P h h') (h2 : Same P h' h'') : Same P h h'' :=
  fun n hn => ⟨((h2 n hn).1).trans (h1 n hn).1, ((h2 n hn).2).trans (h1 n hn).2⟩

/-- The constructor adds an empty list. -/
theorem ctor_wp {t : Nat} {Q : Unit → Heap → Prop} (hr : Rep T F h) (ht : unlinked T F t)
    (hQ : ∀ h', Rep (t :: T) (upd F t []) h' → Same (fun n => n = t) h h' → Q () h') : wp (ctor t) Q X h := by
  simp only [ctor, wp_bind, wp_wrNext, wp_wrPrev]
  refine ⟨ht.1, ht.1, ?_⟩
  have hfr : Same (fun n => n = t) h { next := upd h.next t t, prev := upd h.prev t t } :=
    fun n hn => ⟨upd_ne _ _ hn, upd_ne _ _ hn⟩
  refine hQ _ ?_ hfr
  have hne : ∀ u ∈ T, u ≠ t := fun u hu e => (ht.2 u hu).1 e.symm
  have hnm : ∀ u ∈ T, ∀ n ∈ u :: F u, n ≠ t := fun u hu n hn e => by
    have := ht.2 u hu; simp at hn; grind
  refine ⟨fun u hu => ?_, fun u hu => ?_, fun u hu w hw huw n hn => ?_, fun u hu => ?_⟩
  · rcases List.mem_cons.mp hu with rfl | hu
    · rw [upd_same]; simp [Linked]
    · rw [upd_ne _ _ (hne u hu)]
      refine linked_frame (hr.ring u hu) (fun x hx => (hfr x (hnm u hu x ?_)).1) (fun x hx => (hfr x (hnm u hu x ?_)).2)
      · rw [show u :: (F u ++ [u]) = (u :: F u) ++ [u] from rfl, List.dropLast_concat] at hx; exact hx
      · simp at hx ⊢; grind
  · rcases List.mem_cons.mp hu with rfl | hu
    · rw [upd_same]; simp
    · rw [upd_ne _ _ (hne u hu)]; exact hr.nodup u hu
  · rcases List.mem_cons.mp hu with hu1 | hu1
    · rcases List.mem_cons.mp hw with hw1 | hw1
      · exact absurd (hu1.trans hw1.symm) huw
      · rw [hu1, upd_same] at hn; rw [upd_ne _ _ (hne w hw1)]
        simp at hn
        intro hm; exact hnm w hw1 _ hm hn
    · rw [upd_ne _ _ (hne u hu1)] at hn
      rcases List.mem_cons.mp hw with hw1 | hw
      · rw [hw1, upd_same]; simp; exact hnm u hu1 n hn
      · have hu := hu1
        rw [upd_ne _ _ (hne w hw)]; exact hr.disj u hu w hw huw n hn
  · rcases List.mem_cons.mp hu with rfl | hu
    · rw [upd_same]; simp; exact fun e => ht.1 e.symm
    · rw [upd_ne _ _ (hne u hu)]; exact hr.nz u hu

theorem elemAt_ne_zero {t k : Nat} (hr : Rep T F h) (ht : t ∈ T) : elemAt F t k ≠ 0 := by
  rw [← hd_drop]
  exact (hr.split ht (A := (F t).take k) (B := (F t).drop k) (by simp)).2.2.2.1

/-- Iterator arithmetic reaches the element at that position. -/
theorem nth_wp {t : Nat} (hr : Rep T F h) (ht : t ∈ T) : ∀ {k : Nat} {Q : Nat → Heap → Prop}, k ≤ (F t).length → Q (elemAt F t k) h →
    wp (nth c t k) Q X h
  | 0, Q, _, hQ => by
    obtain ⟨e1, e2, z1, z2, _⟩ := hr.split ht (A := []) (B := F t) rfl
    simp only [nth, begin_, wp_rdNext]
    refine ⟨z1, ?_⟩
    have : h.next t = elemAt F t 0 := by
      rw [← hd_drop, List.drop_zero]; exact e1
    rw [this]; exact hQ
  | k+1, Q, hk, hQ => by
    simp only [nth, wp_bind]
    refine nth_wp hr ht (by omega) (wp_itInc (elemAt_ne_zero hr ht) ?_)
    obtain ⟨e1, _⟩ := hr.split ht (A := (F t).take (k+1)) (B := (F t).drop (k+1)) (by simp)
    rw [hd_drop] at e1
    have : lst t ((F t).take (k+1)) = elemAt F t k := by
      unfold lst elemAt
      rw [List.getLast?_take, if_neg (by omega)]
      simp
      rw [List.getElem?_eq_getElem (by omega)]; rfl
    rw [this] at e1
    rw [e1]; exact hQ

theorem take_drop3 (l : List Nat) {a b : Nat} (hab : a ≤ b) : l = l.take a ++ ((l.take b).drop a ++ l.drop b) := by
  rw [← List.append_assoc]
  have : l.take a ++ (l.take b).drop a = l.take b := by
    have h1 := List.take_append_drop a (l.take b)
    rw [List.take_take, Nat.min_eq_left hab] at h1
    exact h1
  rw [this, List.take_append_drop]

theorem move_nil (F : Fam) (t k x a : Nat) : move F t k x a a = F := by
  unfold move
  have h1 : ((F x).take a).drop a = [] := by apply List.drop_eq_nil_of_le; simp; omega
  simp only [h1, List.take_append_drop, upd_self, List.append_nil, Nat.sub_self, Nat.sub_zero, ite_self]

/-- Range splice. -/
theorem spliceRange_wp {t x k a b : Nat} (hr : Rep T F h) (ht : t ∈ T) (hx : x ∈ T) (hk : k ≤ (F t).length) (hab : a ≤ b)
    (hb : b ≤ (F x).length) (ha : a < (F x).length) (hno : ¬ (t = x ∧ a ≤ k ∧ k < b)) {Q : Unit → Heap → Prop}
    (hQ : ∀ h', Rep T (move F t k x a b) h' → Same (fun n => n ∈ t :: F t ∨ n ∈ x :: F x) h h' → Q () h') :
    wp (spliceRange c t (elemAt F t k) x (elemAt F x a) (elemAt F x b)) Q X h := by
  have e0 := elemAt_ne_zero (k := k) hr ht
  have e1 := elemAt_ne_zero (k := a) hr hx
  have e2 := elemAt_ne_zero (k := b) hr hx
  have hmem : elemAt F x a ∈ F x := by
    unfold elemAt; rw [List.getElem?_eq_getElem ha]; simp
  have hnx : elemAt F x a ≠ x := fun e => (List.nodup_cons.mp (hr.nodup x hx)).1 (by rw [e] at hmem; exact hmem)
  have hnt : elemAt F x a ≠ t := by
    by_cases htx : t = x
    · subst htx; exact hnx
    · intro e; exact hr.disj t ht x hx htx t (by simp) (by rw [← e]; simp [hmem])
  by_cases hab' : a = b
  · subst hab'
    exact splice_noop e0 e1 e2 hnt hnx (Or.inl rfl) (hQ h (by rw [move_nil]; exact hr) (Same.refl _ _))
  have hlt : a < b := by omega
  have hR : ((F x).take b).drop a ≠ [] := by
    intro e; have := congrArg List.length e; simp at this; omega
  have hFx := take_drop3 (F x) hab
  by_cases htx : t = x
  · subst htx
    by_cases hkb : b ≤ k
    · by_cases hbk : b = k
      · subst hbk
        refine splice_noop e0 e1 e2 hnt hnx (Or.inr rfl) (hQ h ?_ (Same.refl _ _))
        have : move F t b t a b = F := by
          unfold move
          simp only [upd_same, true_and, Nat.le_refl, if_true]
          have h3 : b - (b - a) = a := by omega
          rw [h3]
          have h4 : ((F t).take a ++ (F t).drop b).take a = (F t).take a := by
            rw [List.take_append_of_le_length (by simp only [List.length_take]; omega), List.take_take, Nat.min_self]
          have h5 : ((F t).take a ++ (F t).drop b).drop a = (F t).drop b := by
            rw [List.drop_append_of_le_length (by simp; omega)]; simp
          rw [h4, h5, List.append_assoc, ← hFx]
          funext u; unfold upd; split
          · rename_i e; rw [e]
          · rfl
        rw [this]; exact hr
      · have hFd : (F t).drop b = ((F t).drop b).take (k - b) ++ (F t).drop k := by
          have := (List.take_append_drop (k - b) ((F t).drop b)).symm
          rw [List.drop_drop, show b + (k - b) = k by omega] at this
          exact this
        have hF : F t = (F t).take a ++ (((F t).take b).drop a ++ (((F t).drop b).take (k - b) ++ (F t).drop k)) := by
          rw [← hFd]; exact hFx
        have hV : ((F t).drop b).take (k - b) ≠ [] := by
          intro e; have := congrArg List.length e; simp at this; omega
        have := splice_fwd (c := c) (X := X) hr ht hF hR hV (Q := Q) ?_
        · rw [← hFd] at this
          have h1 : ((F t).take b).drop a ++ (F t).drop b = (F t).drop a := by
            have h2 := congrArg (List.drop a) hFx
            rw [List.drop_append_of_le_length (by simp; omega)] at h2
            rw [h2]; simp
          rw [h1, hd_drop, hd_drop, hd_drop] at this
          exact this
        · intro h' r1 r2
          refine hQ h' ?_ (r2.mono (fun n hn => Or.inl hn))
          refine r1.congr (fun u _ => ?_)
          unfold move
          simp only [true_and, if_pos hkb]
          by_cases hu : u = t
          · subst hu
            simp only [upd_same]
            have h4 : ((F u).take a ++ (F u).drop b).take (k - (b - a)) = (F u).take a ++ ((F u).drop b).take (k - b) := by
              rw [List.take_append]; congr 1
              · rw [List.take_take]; congr 1; omega
              · congr 1; simp; omega
            have h5 : ((F u).take a ++ (F u).drop b).drop (k - (b - a)) = (F u).drop k := by
              rw [List.drop_append]
              rw [List.drop_eq_nil_of_le (by simp; omega)]
              rw [List.drop_drop]; simp; congr 1; omega
            rw [h4, h5]; simp
          · simp only [upd_ne _ _ hu]
    · have hka : k < a := by omega
      have hFd : (F t).take a = (F t).take k ++ ((F t).take a).drop k := by
        have := (List.take_append_drop k ((F t).take a)).symm
        rw [List.take_take, Nat.min_eq_left (by omega)] at this
        exact this
      have hF : F t = (F t).take k ++ (((F t).take a).drop k ++ (((F t).take b).drop a ++ (F t).drop b)) := by
        rw [← List.append_assoc, ← hFd]; exact hFx
      have hU : ((F t).take a).drop k ≠ [] := by
        intro e; have := congrArg List.length e; simp at this; omega
      have := splice_back (c := c) (X := X) hr ht hF hU hR (Q := Q) ?_
      · have h1 : ((F t).take b).drop a ++ (F t).drop b = (F t).drop a := by
          have h2 := congrArg (List.drop a) hFx
          rw [List.drop_append_of_le_length (by simp; omega)] at h2
          rw [h2]; simp
        have h2 : ((F t).take a).drop k ++ (F t).drop a = (F t).drop k := by
          have h3 := congrArg (List.drop k) (List.take_append_drop a (F t)).symm
          rw [List.drop_append_of_le_length (by simp; omega)] at h3
          rw [h3]
        rw [h1, h2, hd_drop, hd_drop, hd_drop] at this
        exact this
      · intro h' r1 r2
        refine hQ h' ?_ (r2.mono (fun n hn => Or.inl hn))
        refine r1.congr (fun u _ => ?_)
        unfold move
        simp only [true_and, if_neg hkb]
        by_cases hu : u = t
        · subst hu
          simp only [upd_same]
          have h4 : ((F u).take a ++ (F u).drop b).take k = (F u).take k := by
            rw [List.take_append_of_le_length (by simp; omega), List.take_take, Nat.min_eq_left (by omega)]
          have h5 : ((F u).take a ++ (F u).drop b).drop k = ((F u).take a).drop k ++ (F u).drop b := by
            rw [List.drop_append_of_le_length (by simp; omega)]
          rw [h4, h5]; simp
        · simp only [upd_ne _ _ hu]
  · have hFt : F t = (F t).take k ++ (F t).drop k := by simp
    have := splice_other (c := c) (X := X) hr ht hx htx hFx hFt hR (Q := Q) ?_
    · have h1 : ((F x).take b).drop a ++ (F x).drop b = (F x).drop a := by
        have h2 := congrArg (List.drop a) hFx
        rw [List.drop_append_of_le_length (by simp; omega)] at h2
        rw [h2]; simp
      rw [h1, hd_drop, hd_drop, hd_drop] at this
      exact this
    · intro h' r1 r2
      refine hQ h' (r1.congr (fun u _ => ?_)) r2
      unfold move
      have hf : ¬ (t = x ∧ b ≤ k) := fun e => htx e.1
      simp only [if_neg hf, upd_ne _ _ htx]

theorem move_one_here (F : Fam) {t i : Nat} (hi : i < (F t).length) : move F t i t i (i+1) = F := by
  unfold move
  have hf : ¬ (t = t ∧ i + 1 ≤ i) := by omega
  rw [if_neg hf]
  simp only [upd_same]
  rw [List.take_append_of_le_length (by simp; omega), List.drop_append_of_le_length (by simp; omega)]
  simp only [List.take_take, Nat.min_self]
  have : ((F t).take i).drop i = [] := List.drop_eq_nil_of_le (by simp; omega)
  rw [this, List.nil_append, List.append_assoc, ← take_drop3 (F t) (Nat.le_succ i)]
  funext u; unfold upd; split
  · rename_i e; rw [e]
  · rfl

theorem move_one_next (F : Fam) {t i : Nat} (hi : i < (F t).length) : move F t (i+1) t i (i+1) = F := by
  have := move_one_here F hi
  unfold move at this ⊢
  have hf : ¬ (t = t ∧ i + 1 ≤ i) := by omega
  rw [if_neg hf] at this
  rw [if_pos ⟨rfl, Nat.le_refl _⟩, show i + 1 - (i + 1 - i) = i by omega]
  exact this

theorem elemAt_inj {t x i k : Nat} (hr : Rep T F h) (ht : t ∈ T) (hx : x ∈ T) (hk : k ≤ (F t).length) (hi : i ≤ (F x).length)
    (he : elemAt F t k = elemAt F x i) : t = x ∧ k = i := by
  have m1 : elemAt F t k ∈ t :: F t := by
    have := hd_mem t ((F t).drop k); rw [hd_drop] at this
    simp at this ⊢
    rcases this with h1 | h1
    · exact Or.inr (List.mem_of_mem_drop h1)
    · exact Or.inl h1
  have m2 : elemAt F x i ∈ x :: F x := by
    have := hd_mem x ((F x).drop i); rw [hd_drop] at this
    simp at this ⊢
    rcases this with h1 | h1
    · exact Or.inr (List.mem_of_mem_drop h1)
    · exact Or.inl h1
  by_cases htx : t = x
  · subst htx
    refine ⟨rfl, ?_⟩
    have hnd := hr.nodup t ht
    -- positions in `F t ++ [t]`
    have hnd2 : (F t ++ [t]).Nodup := by
      have := (hr.split ht (A := []) (B := F t) rfl).2.2.2.2.2.2
      simpa using this
    have g : ∀ j, j ≤ (F t).length → (F t ++ [t])[j]? = some (elemAt F t j) := by
      intro j hj
      unfold elemAt
      by_cases hj' : j < (F t).length
      · rw [List.getElem?_append_left hj', List.getElem?_eq_getElem hj']; rfl
      · have : j = (F t).length := by omega
        subst this; simp
    have h1 := g k hk
    have h2 := g i hi
    rw [he] at h1
    have h3 : k < (F t ++ [t]).length := by simp; omega
    exact (List.getElem?_inj h3 hnd2).mp (h1.trans h2.symm)
  · exact absurd (he ▸ m2) (hr.disj t ht x hx htx _ m1)

theorem next_elemAt {t k : Nat} (hr : Rep T F h) (ht : t ∈ T) (hk : k < (F t).length) : h.next (elemAt F t k) = elemAt F t (k+1) := by
  obtain ⟨e1, _⟩ := hr.split ht (A := (F t).take (k+1)) (B := (F t).drop (k+1)) (by simp)
  rw [hd_drop] at e1
  have : lst t ((F t).take (k+1)) = elemAt F t k := by
    unfold lst elemAt
    rw [List.getLast?_take, if_neg (by omega)]
    simp
    rw [List.getElem?_eq_getElem (by omega)]; rfl
  rw [this] at e1
  exact e1

theorem prev_elemAt {t k : Nat} (hr : Rep T F h) (ht : t ∈ T) (hk : k < (F t).length) : h.prev (elemAt F t (k+1)) = elemAt F t k := by
  obtain ⟨_, e1, _⟩ := hr.split ht (A := (F t).take (k+1)) (B := (F t).drop (k+1)) (by simp)
  rw [hd_drop] at e1
  have : lst t ((F t).take (k+1)) = elemAt F t k := by
    unfold lst elemAt
    rw [List.getLast?_take, if_neg (by omega)]
    simp
    rw [List.getElem?_eq_getElem (by omega)]; rfl
  rw [this] at e1
  exact e1

theorem elemAt_mem {t k : Nat} (hk : k < (F t).length) : elemAt F t k ∈ F t := by
  unfold elemAt; rw [List.getElem?_eq_getElem hk]; simp

theorem elemAt_ne_end {t x k : Nat} (hr : Rep T F h) (ht : t ∈ T) (hx : x ∈ T) (hk : k < (F t).length) : elemAt F t k ≠ x := by
  have hm := elemAt_mem hk
  by_cases h1 : t = x
  · subst h1; exact fun e => (List.nodup_cons.mp (hr.nodup t ht)).1 (by rw [e] at hm; exact hm)
  · intro e; exact hr.disj t ht x hx h1 _ (List.mem_cons_of_mem _ hm) (by rw [e]; simp)

/-- Single-element splice. -/
theorem spliceOne_wp {t x k i : Nat} (hr : Rep T F h) (ht : t ∈ T) (hx : x ∈ T) (hk : k ≤ (F t).length) (hi : i < (F x).length)
    {Q : Unit → Heap → Prop}
    (hQ : ∀ h', Rep T (move F t k x i (i+1)) h' → Same (fun n => n ∈ t :: F t ∨ n ∈ x :: F x) h h' → Q () h') :
    wp (spliceOne c t (elemAt F t k) x (elemAt F x i)) Q X h := by
  have n1 := elemAt_ne_end hr hx ht hi
  have n2 := elemAt_ne_end hr hx hx hi
  simp only [spliceOne, wp_bind, wp_dassert, wp_ite, wp_pure, end_]
  simp only [bne_iff_ne, ne_eq, n1, n2, not_false_eq_true, bne_eq_false_iff_eq, and_false, false_implies, true_and, or_true, true_implies]
  refine ⟨fun he => ?_, fun hne => wp_itInc (elemAt_ne_zero hr hx) ?_⟩
  · obtain ⟨rfl, rfl⟩ := elemAt_inj hr ht hx hk (by omega) he
    exact hQ h (by rw [move_one_here F hi]; exact hr) (Same.refl _ _)
  · rw [next_elemAt hr hx hi]
    refine ⟨fun he => ?_, fun hne2 => ?_⟩
    · obtain ⟨rfl, rfl⟩ := elemAt_inj hr ht hx hk (by omega) he
      exact hQ h (by rw [move_one_next F hi]; exact hr) (Same.refl _ _)
    · refine spliceRange_wp hr ht hx hk (by omega) (by omega) hi ?_ hQ
      rintro ⟨rfl, h1, h2⟩
      exact hne (by rw [show k = i by omega])

/-- Whole-list splice. -/
theorem spliceAll_wp {t x k : Nat} (hr : Rep T F h) (ht : t ∈ T) (hx : x ∈ T) (htx : t ≠ x) (hk : k ≤ (F t).length)
    {Q : Unit → Heap → Prop}
    (hQ : ∀ h', Rep T (move F t k x 0 (F x).length) h' → Same (fun n => n ∈ t :: F t ∨ n ∈ x :: F x) h h' → Q () h') :
    wp (spliceAll c t (elemAt F t k) x) Q X h := by
  simp only [spliceAll, wp_bind, wp_dassert, end_]
  simp only [bne_iff_ne, ne_eq, htx, not_false_eq_true, bne_eq_false_iff_eq, and_false, false_implies, true_and, or_true, true_implies]
  refine empty_wp hr hx ?_
  simp only [wp_ite, wp_pure, wp_bind, decide_eq_true_eq]
  refine ⟨fun he => hQ h ?_ (Same.refl _ _), fun hne => ?_⟩
  · rw [he, List.length_nil, move_nil]; exact hr
  · have hl : 0 < (F x).length := List.length_pos_iff.mpr hne
    refine nth_wp (c := c) (k := 0) hr hx (by omega) ?_
    have hend : x = elemAt F x (F x).length := by simp [elemAt]
    have := spliceRange_wp (c := c) (X := X) (Q := Q) hr ht hx hk (a := 0) (b := (F x).length) (by omega) (by omega) hl (fun e => htx e.1) hQ
    rw [← hend] at this
    exact this

theorem move_all_end (F : Fam) {t x : Nat} (htx : t ≠ x) (ht : F t = []) :
    move F t 0 x 0 (F x).length = upd (upd F x []) t (F x) := by
  unfold move
  have hf : ¬ (t = x ∧ (F x).length ≤ 0) := fun e => htx e.1
  simp only [if_neg hf, upd_ne _ _ htx, ht]
  simp

/-- `swap`. -/
theorem swap_wp {t x tmp : Nat} (hr : Rep T F h) (ht : t ∈ T) (hx : x ∈ T) (htmp : unlinked T F tmp)
    {Q : Unit → Heap → Prop}
    (hQ : ∀ h', Rep T (upd (upd F t (F x)) x (F t)) h' → Same (fun n => n ∈ t :: F t ∨ n ∈ x :: F x ∨ n = tmp) h h' →
      (t = x → h' = h) → Q () h') :
    wp (swap c tmp t x) Q X h := by
  simp only [swap, wp_ite, wp_pure, wp_bind]
  refine ⟨fun he => ?_, fun htx => ?_⟩
  · subst he
    refine hQ h ?_ (Same.refl _ _) (fun _ => rfl)
    rw [upd_self, upd_self]; exact hr
  · refine ctor_wp hr htmp (fun h1 r1 s1 => ?_)
    have hmt : tmp ≠ t := (htmp.2 t ht).1
    have hmx : tmp ≠ x := (htmp.2 x hx).1
    have ht' : t ∈ tmp :: T := by simp [ht]
    have hx' : x ∈ tmp :: T := by simp [hx]
    have hm' : tmp ∈ tmp :: T := by simp
    let F1 := upd F tmp []
    have f1t : F1 t = F t := upd_ne _ _ hmt.symm
    have f1x : F1 x = F x := upd_ne _ _ hmx.symm
    have f1m : F1 tmp = [] := upd_same _ _ _
    have e1 : end_ tmp = elemAt F1 tmp 0 := by simp [elemAt, f1m, end_]
    rw [e1]
    refine spliceAll_wp r1 hm' hx' hmx (Nat.zero_le _) (fun h2 r2 s2 => ?_)
    change Rep (tmp :: T) (move F1 tmp 0 x 0 (F1 x).length) h2 at r2
    rw [move_all_end F1 hmx f1m] at r2
    let F2 := upd (upd F1 x []) tmp (F1 x)
    have f2t : F2 t = F t := by show upd _ _ _ _ = _; rw [upd_ne _ _ hmt.symm, upd_ne _ _ htx, f1t]
    have f2x : F2 x = [] := by show upd _ _ _ _ = _; rw [upd_ne _ _ hmx.symm, upd_same]
    have f2m : F2 tmp = F x := by show upd _ _ _ _ = _; rw [upd_same, f1x]
    have e2 : end_ x = elemAt F2 x 0 := by simp [elemAt, f2x, end_]
    rw [e2]
    refine spliceAll_wp r2 hx' ht' (Ne.symm htx) (Nat.zero_le _) (fun h3 r3 s3 => ?_)
    change Rep (tmp :: T) (move F2 x 0 t 0 (F2 t).length) h3 at r3
    rw [move_all_end F2 (Ne.symm htx) f2x] at r3
    let F3 := upd (upd F2 t []) x (F2 t)
    have f3t : F3 t = [] := by show upd _ _ _ _ = _; rw [upd_ne _ _ htx, upd_same]
    have f3x : F3 x = F t := by show upd _ _ _ _ = _; rw [upd_same, f2t]
    have f3m : F3 tmp = F x := by show upd _ _ _ _ = _; rw [upd_ne _ _ hmx, upd_ne _ _ hmt, f2m]
    have e3 : end_ t = elemAt F3 t 0 := by simp [elemAt, f3t, end_]
    rw [e3]
    refine spliceAll_wp r3 ht' hm' hmt.symm (Nat.zero_le _) (fun h4 r4 s4 => ?_)
    change Rep (tmp :: T) (move F3 t 0 tmp 0 (F3 tmp).length) h4 at r4
    rw [move_all_end F3 hmt.symm f3t] at r4
    refine hQ h4 (r4.restrict.congr (fun u hu => ?_)) ?_ (fun e => absurd e htx)
    · have hum : u ≠ tmp := fun e => (htmp.2 u hu).1 e.symm
      by_cases hut : u = t
      · subst hut; rw [upd_same, f3m, upd_ne _ _ htx, upd_same]
      · by_cases hux : u = x
        · subst hux; rw [upd_ne _ _ hut, upd_ne _ _ hum, f3x, upd_same]
        · rw [upd_ne _ _ hut, upd_ne _ _ hum, upd_ne _ _ hux, upd_ne _ _ hut]
          show upd _ _ _ _ = _
          rw [upd_ne _ _ hux, upd_ne _ _ hut]
          show upd _ _ _ _ = _
          rw [upd_ne _ _ hum, upd_ne _ _ hux]
          exact upd_ne _ _ hum
    · refine (s1.mono ?_).trans ((s2.mono ?_).trans ((s3.mono ?_).trans (s4.mono ?_)))
      · intro n hn; exact Or.inr (Or.inr hn)
      · intro n hn
        change n ∈ tmp :: F1 tmp ∨ n ∈ x :: F1 x at hn
        rw [f1m, f1x] at hn
        rcases hn with h1 | h1
        · simp at h1; exact Or.inr (Or.inr h1)
        · exact Or.inr (Or.inl h1)
      · intro n hn
        change n ∈ x :: F2 x ∨ n ∈ t :: F2 t at hn
        rw [f2x, f2t] at hn
        rcases hn with h1 | h1
        · simp at h1; subst h1; exact Or.inr (Or.inl (by simp))
        · exact Or.inl h1
      · intro n hn
        change n ∈ t :: F3 t ∨ n ∈ tmp :: F3 tmp at hn
        rw [f3t, f3m] at hn
        rcases hn with h1 | h1
        · simp at h1; subst h1; exact Or.inl (by simp)
        · rcases List.mem_cons.mp h1 with rfl | h1
          · exact Or.inr (Or.inr rfl)
          · exact Or.inr (Or.inl (by simp [h1]))

end Verif.IL
