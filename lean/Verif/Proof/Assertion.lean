import Verif.Model.Assertion
namespace Verif.Asrt
open Verif Cmd
variable {B : Nat} {m m' : Mem} {X : Exn → Mem → Prop}

theorem wp_wr {a : Arr} {i : Nat} {c : Char} {Q : Unit → Mem → Prop} (hi : i < asize B a)
    (hQ : Q () (fun b => if b = a then upd (m a) i (some c) else m b)) : wp (wr B a i c) Q X m := by
  simp [wp, wr, hi, hQ]
theorem wp_rd {a : Arr} {i : Nat} {c : Char} {Q : Char → Mem → Prop} (hi : i < asize B a) (hc : m a i = some c) (hQ : Q c m) :
    wp (rd B a i) Q X m := by
  simp [wp, rd, hi, hc, hQ]

/-- The source denotes the string `l` and is not array `a`. -/
def SrcIs (B : Nat) (m : Mem) (a : Arr) : Src → List Char → Prop
  | .str l', l => l' = l
  | .arr b, l => b ≠ a ∧ l.length < asize B b ∧ (∀ i (h : i < l.length), m b i = some l[i]) ∧ m b l.length = some nul

theorem srcRd_wp {a : Arr} {src : Src} {l : List Char} (hs : SrcIs B m a src l) {i : Nat} (hi : i ≤ l.length)
    {Q : Char → Mem → Prop} (hQ : Q (l.getD i nul) m) : wp (srcRd B src i) Q X m := by
  cases src with
  | str l' =>
    have : l' = l := hs
    subst this
    by_cases h : i < l'.length
    · simp [wp, srcRd, h]; simpa [h] using hQ
    · have : i = l'.length := by omega
      subst this
      simp [wp, srcRd]; simpa using hQ
  | arr b =>
    obtain ⟨_, h1, h2, h3⟩ := hs
    refine wp_rd (c := l.getD i nul) (by omega) ?_ hQ
    by_cases h : i < l.length
    · rw [h2 i h]; simp [h]
    · have : i = l.length := by omega
      subst this
      rw [h3]; simp

theorem SrcIs.other {a : Arr} {src : Src} {l : List Char} (hs : SrcIs B m a src l) (hm : ∀ b, b ≠ a → m' b = m b) : SrcIs B m' a src l := by
  cases src with
  | str l' => exact hs
  | arr b =>
    obtain ⟨h0, h1, h2, h3⟩ := hs
    exact ⟨h0, h1, by rw [hm b h0]; exact h2, by rw [hm b h0]; exact h3⟩

theorem copyLoop_wp {a : Arr} {to size : Nat} {src : Src} {l : List Char} {m0 : Mem} (hl : nul ∉ l) (hs0 : 0 < size) (hto : to + size ≤ asize B a)
    {Q : Nat → Mem → Prop}
    (hQ : ∀ m', (∀ b, b ≠ a → m' b = m0 b) → (∀ j, j < to → m' a j = m0 a j) →
      (∀ j (h : j < l.length), j < size - 1 → m' a (to + j) = some l[j]) → m' a (to + min l.length (size - 1)) = some nul →
      Q (min l.length (size - 1)) m') :
    ∀ n i m, i + n = size → i ≤ l.length → SrcIs B m a src l → (∀ b, b ≠ a → m b = m0 b) → (∀ j, j < to → m a j = m0 a j) →
      (∀ j (h : j < l.length), j < i → m a (to + j) = some l[j]) → wp (copyLoop B a to size src i n) Q X m := by
  intro n
  induction n with
  | zero =>
    intro i m hin hil hs h1 h2 h3
    simp only [copyLoop, wp_bind, wp_pure]
    refine wp_wr (by omega) ?_
    have hmin : min l.length (size - 1) = size - 1 := by omega
    have := hQ (fun b => if b = a then upd (m a) (to + size - 1) (some nul) else m b) ?_ ?_ ?_ ?_
    · rw [hmin] at this; exact this
    · intro b hb; simp [hb, h1 b hb]
    · intro j hj; simp only [if_pos]; rw [upd_ne _ _ (by omega), h2 j hj]
    · intro j hj hj2; simp only [if_pos]; rw [upd_ne _ _ (by omega), h3 j hj (by omega)]
    · rw [hmin, show to + (size - 1) = to + size - 1 by omega]; simp
  | succ n ih =>
    intro i m hin hil hs h1 h2 h3
    simp only [copyLoop, wp_bind]
    refine srcRd_wp hs hil ?_
    simp only [wp_ite, wp_bind, wp_pure]
    refine ⟨fun he => wp_wr (by omega) ?_, fun hne => wp_wr (by omega) ?_⟩
    · have hi : i = l.length := by
        rcases Nat.lt_or_ge i l.length with h | h
        · exfalso; apply hl; rw [← he]; simp [h]
        · omega
      subst hi
      have hmin : min l.length (size - 1) = l.length := by omega
      have := hQ (fun b => if b = a then upd (m a) (to + l.length) (some nul) else m b) ?_ ?_ ?_ ?_
      · rw [hmin] at this; exact this
      · intro b hb; simp [hb, h1 b hb]
      · intro j hj; simp only [if_pos]; rw [upd_ne _ _ (by omega), h2 j hj]
      · intro j hj hj2; simp only [if_pos]; rw [upd_ne _ _ (by omega), h3 j hj (by omega)]
      · rw [hmin]; simp
    · have hi : i < l.length := by
        rcases Nat.lt_or_ge i l.length with h | h
        · exact h
        · exfalso; apply hne; simp [h]
      refine ih (i+1) _ (by omega) (by omega) (hs.other (fun b hb => by simp [hb])) ?_ ?_ ?_
      · intro b hb; simp [hb, h1 b hb]
      · intro j hj; simp only [if_pos]; rw [upd_ne _ _ (by omega), h2 j hj]
      · intro j hj hj2
        simp only [if_pos]
        by_cases hji : j = i
        · subst hji; simp [hj]
        · rw [upd_ne _ _ (by omega), h3 j hj (by omega)]

/-- `m_buf` holds as much of `w` as fits; the write position and the remaining room match. -/
structure Filled (B : Nat) (m : Mem) (w : List Char) (p r : Nat) : Prop where
  hp : p = min w.length (B - 1)
  hr : p + r = B
  chars : ∀ j (h : j < w.length), j < B - 1 → m .buf j = some w[j]
  term : m .buf p = some nul

theorem concat_wp {w l : List Char} {p r : Nat} {src : Src} (hB : 1 ≤ B) (hl : nul ∉ l) (hf : Filled B m w p r) (hs : SrcIs B m .buf src l)
    {Q : Nat × Nat → Mem → Prop}
    (hQ : ∀ m' p' r', (∀ b, b ≠ .buf → m' b = m b) → Filled B m' (w ++ l) p' r' → Q (p', r') m') :
    wp (concatCString B .buf p r src) Q X m := by
  obtain ⟨hp, hr, hc, ht⟩ := hf
  unfold concatCString
  simp only [wp_ite, wp_pure, wp_bind]
  refine ⟨fun h => ?_, fun h => ?_⟩
  · refine hQ m p r (fun _ _ => rfl) ⟨by simp; omega, hr, ?_, ht⟩
    intro j hj hj2
    have : j < w.length := by omega
    rw [hc j this hj2, List.getElem_append_left this]
  · unfold copyCString
    rw [if_neg (by omega)]
    refine copyLoop_wp (m0 := m) hl (by omega) (by simp [asize]; omega) ?_ r 0 m (by omega) (by omega) hs (fun _ _ => rfl) (fun _ _ => rfl)
      (fun j _ hj => by omega)
    intro m' h1 h2 h3 h4
    have hpw : p = w.length := by omega
    refine hQ m' _ _ h1 ⟨?_, by omega, ?_, h4⟩
    · simp; omega
    · intro j hj hj2
      by_cases hjw : j < w.length
      · rw [h2 j (by omega), hc j hjw hj2, List.getElem_append_left hjw]
      · have h5 := h3 (j - w.length) (by simp at hj; omega) (by omega)
        rw [show p + (j - w.length) = j by omega] at h5
        rw [h5, List.getElem_append_right (by omega)]

theorem digLoop_wp {m0 : Mem} {Q : Nat → Mem → Prop} :
    ∀ n i val m, i + n = 15 → val < 10 ^ n → (∀ b, b ≠ .tmp → m b = m0 b) →
      (∀ (k : Nat) (m' : Mem) (ds : List Char), (∀ b, b ≠ .tmp → m' b = m0 b) → k = i + ds.length → k ≤ 15 → ds = (if val = 0 then [] else Nat.toDigits 10 val) →
        (∀ j, j < i → m' .tmp j = m .tmp j) → (∀ j (h : j < ds.length), m' .tmp (i + j) = some (ds[ds.length - 1 - j])) → Q k m') →
      wp (digLoop B i val n) Q X m := by
  intro n
  induction n with
  | zero =>
    intro i val m hin hv h1 hQ
    simp only [digLoop, wp_pure]
    have : val = 0 := by simpa using hv
    subst this
    exact hQ i m [] h1 (by simp) (by omega) (by simp) (fun _ _ => rfl) (fun j h => by simp at h)
  | succ n ih =>
    intro i val m hin hv h1 hQ
    simp only [digLoop, wp_ite, wp_pure, wp_bind]
    refine ⟨fun he => ?_, fun hne => wp_wr (by simp [asize]; omega) ?_⟩
    · subst he
      exact hQ i m [] h1 (by simp) (by omega) (by simp) (fun _ _ => rfl) (fun j h => by simp at h)
    · refine ih (i+1) (val / 10) _ (by omega) ?_ ?_ ?_
      · rw [Nat.div_lt_iff_lt_mul (by omega)]; rw [Nat.pow_succ] at hv; exact hv
      · intro b hb; simp [hb, h1 b hb]
      · intro k m' ds a1 a2 a3 a4 a5 a6
        have hds : Nat.toDigits 10 val = ds ++ [Nat.digitChar (val % 10)] := by
          rw [Nat.toDigits_eq_if (by omega)]
          by_cases hlt : val < 10
          · rw [if_pos hlt]
            have : val / 10 = 0 := by omega
            rw [this] at a4; simp at a4; subst a4
            rw [Nat.mod_eq_of_lt hlt]; rfl
          · rw [if_neg hlt]
            rw [if_neg (by omega)] at a4
            rw [a4]
        refine hQ k m' (ds ++ [Nat.digitChar (val % 10)]) a1 (by simp; omega) a3 (by rw [if_neg hne, hds]) ?_ ?_
        · intro j hj; rw [a5 j (by omega)]; simp only [if_pos]; rw [upd_ne _ _ (by omega)]
        · intro j hj
          cases j with
          | zero =>
            rw [a5 (i + 0) (by omega)]
            simp
          | succ j =>
            simp at hj
            have := a6 j hj
            rw [show i + (j+1) = i + 1 + j by omega, this]
            congr 1
            rw [List.getElem_append_left (by simp; omega)]
            congr 1; simp; omega

theorem outLoop_wp {tl : Nat} {ds : List Char} {m0 : Mem} (htl : tl = ds.length) (h15 : tl ≤ 15) {Q : Unit → Mem → Prop}
    (hQ : ∀ m', (∀ b, b ≠ .line → m' b = m0 b) → (∀ j (h : j < ds.length), m' .line j = some ds[j]) → m' .line ds.length = some nul → Q () m') :
    ∀ n i m, i + n = tl → (∀ b, b ≠ .line → m b = m0 b) → (∀ j (h : j < ds.length), m .tmp j = some (ds[ds.length - 1 - j])) →
      (∀ j (h : j < ds.length), j < i → m .line j = some ds[j]) → wp (outLoop B 16 tl i n) Q X m := by
  intro n
  induction n with
  | zero =>
    intro i m hin h1 h2 h3
    simp only [outLoop]
    refine wp_wr (by simp [asize]; omega) (hQ _ ?_ ?_ ?_)
    · intro b hb; simp [hb, h1 b hb]
    · intro j hj; simp only [if_pos]; rw [upd_ne _ _ (by omega)]; exact h3 j hj (by omega)
    · simp [htl]
  | succ n ih =>
    intro i m hin h1 h2 h3
    simp only [outLoop, wp_ite, wp_bind]
    refine ⟨fun _ => ?_, fun h => by omega⟩
    refine wp_rd (c := ds[i]) (by simp [asize]; omega) ?_ (wp_wr (by simp [asize]; omega) ?_)
    · rw [h2 (tl - i - 1) (by omega)]; congr 2; omega
    · refine ih (i+1) _ (by omega) ?_ ?_ ?_
      · intro b hb; simp [hb, h1 b hb]
      · intro j hj; simp; exact h2 j hj
      · intro j hj hj2
        simp only [if_pos]
        by_cases hji : j = i
        · subst hji; simp
        · rw [upd_ne _ _ hji]; exact h3 j hj (by omega)

theorem toCString_wp {val : Nat} (hv : val < 10 ^ 15) {Q : Unit → Mem → Prop}
    (hQ : ∀ m', m' .buf = m .buf → SrcIs B m' .buf (.arr .line) (if val = 0 then [] else Nat.toDigits 10 val) → Q () m') :
    wp (toCString B 16 val) Q X m := by
  unfold toCString
  rw [if_neg (by decide)]
  rw [wp_bind]
  refine digLoop_wp (m0 := m) 15 0 val m rfl hv (fun _ _ => rfl) ?_
  intro k m1 ds a1 a2 a3 a4 a5 a6
  refine outLoop_wp (m0 := m1) (ds := ds) (by omega) a3 ?_ k 0 m1 (by omega) (fun _ _ => rfl) ?_ (fun j _ hj => by omega)
  · intro m' b1 b2 b3
    refine hQ m' ?_ ?_
    · rw [b1 .buf (by decide), a1 .buf (by decide)]
    · rw [← a4]
      exact ⟨by decide, by simp [asize]; omega, b2, b3⟩
  · intro j hj; have := a6 j hj; simpa using this

theorem digits_no_nul (n : Nat) : nul ∉ (if n = 0 then [] else Nat.toDigits 10 n) := by
  split
  · simp
  · intro h
    have := Nat.isDigit_of_mem_toDigits (by omega) (by omega) h
    exact absurd this (by decide)

/-- The text to be shown. -/
def text (file : List Char) (val : Nat) (expr : List Char) : List Char :=
  file ++ "(".toList ++ (if val = 0 then [] else Nat.toDigits 10 val) ++ "): Assertion failed (".toList ++ expr ++ ")".toList

theorem construct_wp {W : Nat} {file expr : List Char} {line : Int} (hB : 1 ≤ B) (hf : nul ∉ file) (he : nul ∉ expr)
    (hv : toUnsigned W line < 10 ^ 15) :
    wp (construct B W file line expr) (fun _ m' => ∃ p r, Filled B m' (text file (toUnsigned W line) expr) p r) X m := by
  simp only [construct, wp_bind, wp_modify]
  have h0 : Filled B (fun b => if b = Arr.buf then fun _ => some nul else m b) [] 0 (asize B .buf) :=
    ⟨by simp, by simp [asize], fun j h => by simp at h, by simp⟩
  refine concat_wp hB hf h0 (src := .str file) (show SrcIs _ _ _ (.str file) file from rfl) (fun m1 p1 r1 _ f1 => ?_)
  refine concat_wp hB (by decide) f1 (src := .str "(".toList) (l := "(".toList) rfl (fun m2 p2 r2 _ f2 => ?_)
  refine toCString_wp hv (fun m3 hbuf hsrc => ?_)
  have f3 : Filled B m3 (([] ++ file) ++ "(".toList) p2 r2 :=
    ⟨f2.hp, f2.hr, by rw [hbuf]; exact f2.chars, by rw [hbuf]; exact f2.term⟩
  refine concat_wp hB (digits_no_nul _) f3 hsrc (fun m4 p4 r4 _ f4 => ?_)
  refine concat_wp hB (by decide) f4 (src := .str "): Assertion failed (".toList) (l := "): Assertion failed (".toList) rfl (fun m5 p5 r5 _ f5 => ?_)
  refine concat_wp hB he f5 (src := .str expr) (l := expr) rfl (fun m6 p6 r6 _ f6 => ?_)
  refine concat_wp hB (by decide) f6 (src := .str ")".toList) (l := ")".toList) rfl (fun m7 p7 r7 _ f7 => ?_)
  exact ⟨p7, r7, f7⟩

theorem readStr_filled {w : List Char} (hw : nul ∉ w) : ∀ n i, i + n = B → i ≤ min w.length (B - 1) → 1 ≤ B →
    (∀ j (h : j < w.length), j < B - 1 → m .buf j = some w[j]) → m .buf (min w.length (B-1)) = some nul →
    readStr B m i n = some ((w.take (B - 1)).drop i)
  | 0, i, hin, hi, hB, _, _ => by omega
  | n+1, i, hin, hi, hB, hc, ht => by
    simp only [readStr]
    by_cases h : i < min w.length (B - 1)
    · have h1 : i < w.length := by omega
      have hne : w[i] ≠ nul := fun e => hw (by rw [← e]; simp)
      rw [hc i h1 (by omega)]
      simp only [if_neg hne]
      rw [readStr_filled hw n (i+1) (by omega) (by omega) hB hc ht]
      simp only [Option.map_some]
      congr 1
      rw [List.drop_eq_getElem_cons (i := i) (by simp; omega)]
      simp
    · have hi' : i = min w.length (B - 1) := by omega
      rw [hi', ht]
      simp
      omega

theorem message_filled {w : List Char} {p r : Nat} (hB : 1 ≤ B) (hw : nul ∉ w) (hf : Filled B m w p r) : message B m = some (w.take (B - 1)) := by
  unfold message
  rw [readStr_filled hw B 0 (by omega) (by omega) hB hf.chars (by rw [← hf.hp]; exact hf.term)]
  simp

end Verif.Asrt
