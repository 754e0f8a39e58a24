import Verif.Proof.IntrusiveRel
/-
C26–C30: IntrusiveList.  The statements use the specification `Spec.IList` (a family of sequences) and the model's API
functions only; a reachable state is one obtained by constructing the lists and making in-contract calls.
-/
namespace Verif.Props.IntrusiveList
open Verif Cmd Spec.IList IL

/-- The heap `h` is obtained by constructing the lists `T` in an arbitrary initial memory and making a history of
in-contract calls after which, by the specification, the lists hold `F`.  Addresses are values of `size_t`. -/
def Reach (c : Cfg) (T : List Nat) (F : Fam) (h : Heap) : Prop :=
  T.Nodup ∧ 0 ∉ T ∧ (∀ t ∈ T, t < c.M) ∧ ∃ h0 h1 ops rs, ctorAll T h0 = .ok () h1 ∧
    (∀ o ∈ ops, ∀ d ∈ newElem o, d < c.M) ∧ applyAll T (fun _ => []) ops = some (F, rs) ∧ history c h1 ops = some (h, rs)

theorem Reach.rep {c : Cfg} {T : List Nat} {F : Fam} {h : Heap} (hR : Reach c T F h) :
    Rep T F h ∧ ∀ u n, n ∈ F u → n < c.M := by
  obtain ⟨hnd, hz, hT, h0, h1, ops, rs, hc, hn, ha, hh⟩ := hR
  obtain ⟨h1', hc', hr⟩ := ctorAll_ok (h0 := h0) hnd hz
  rw [hc] at hc'; cases hc'
  obtain ⟨h', k1, k2, k3⟩ := history_ok hr hT (fun u n hm => by simp at hm) hn ha
  rw [hh] at k1; cases k1
  exact ⟨k2, k3⟩

/-- One in-contract call from a reachable state. -/
theorem Reach.call {c : Cfg} {T : List Nat} {F G : Fam} {h : Heap} {o : Op} {r : Ret} (hR : Reach c T F h) (ha : apply T F o = some (G, r)) :
    ∃ h', exec c o h = .ok r h' ∧ Rep T G h' ∧ Same (foot F o) h h' := by
  obtain ⟨hr, hb⟩ := hR.rep
  rcases wp_cases (exec_wp (c := c) hr ha (length_lt hr hR.2.2.1 hb)) with ⟨a, s', he, rfl, h1, h2⟩ | ⟨_, _, _, hf⟩
  · exact ⟨s', he, h1, h2⟩
  · exact hf.elim

theorem Reach.out {c : Cfg} {T : List Nat} {F G : Fam} {h h' : Heap} {o : Op} {r r' : Ret} (hR : Reach c T F h)
    (ha : apply T F o = some (G, r)) (hn : ∀ d ∈ newElem o, d < c.M) (he : exec c o h = .ok r' h') : r' = r ∧ Reach c T G h' := by
  obtain ⟨h'', e1, _, _⟩ := hR.call ha
  rw [he] at e1; cases e1
  obtain ⟨hnd, hz, hT, h0, h1, ops, rs, hc, hn0, ha0, hh⟩ := hR
  refine ⟨rfl, hnd, hz, hT, h0, h1, ops ++ [o], rs ++ [r], hc, ?_, ?_, ?_⟩
  · intro o' ho'
    rcases List.mem_append.mp ho' with h2 | h2
    · exact hn0 o' h2
    · simp at h2; subst h2; exact hn
  · clear hc hh hn0
    generalize (fun _ => [] : Fam) = F0 at ha0
    induction ops generalizing F0 rs with
    | nil => simp [applyAll] at ha0 ⊢; obtain ⟨rfl, rfl⟩ := ha0; simp [ha]
    | cons p ps ih =>
      simp only [List.cons_append, applyAll] at ha0 ⊢
      cases h2 : apply T F0 p with
      | none => simp [h2] at ha0
      | some q =>
        simp only [h2, Option.bind_eq_bind, Option.bind_some] at ha0 ⊢
        cases h3 : applyAll T q.1 ps with
        | none => simp [h3] at ha0
        | some w =>
          simp [h3] at ha0
          obtain ⟨rfl, rfl⟩ := ha0
          have := ih w.2 q.1 h3
          simp [this]
  · clear hc ha0 hn0
    induction ops generalizing h1 rs with
    | nil => simp [history] at hh ⊢; obtain ⟨rfl, rfl⟩ := hh; simp [he]
    | cons p ps ih =>
      simp only [List.cons_append, history] at hh ⊢
      split at hh
      · rename_i r2 h2 e2
        cases h3 : history c h2 ps with
        | none => simp [h3] at hh
        | some w =>
          simp [h3] at hh
          obtain ⟨rfl, rfl⟩ := hh
          have := ih h2 w.2 h3
          simp [this]
      · simp at hh

/-! ### C26 -/

/-- **C26.** Construct any number of lists in any memory, then make any finite history of calls that the specification
accepts (including complete forward and backward traversals): every call returns, without undefined behaviour or
exception, exactly the result the specification gives.  Both build modes. -/
theorem C26_history (c : Cfg) (T : List Nat) (h0 : Heap) (ops : List Op) (F : Fam) (rs : List Ret) (hnd : T.Nodup) (hz : 0 ∉ T)
    (hT : ∀ t ∈ T, t < c.M) (hn : ∀ o ∈ ops, ∀ d ∈ newElem o, d < c.M) (ha : applyAll T (fun _ => []) ops = some (F, rs)) :
    ∃ h1 h, ctorAll T h0 = .ok () h1 ∧ history c h1 ops = some (h, rs) := by
  obtain ⟨h1, hc, hr⟩ := ctorAll_ok (h0 := h0) hnd hz
  obtain ⟨h', k1, _, _⟩ := history_ok hr hT (fun u n hm => by simp at hm) hn ha
  exact ⟨h1, h', hc, k1⟩

/-- **C26.** In every reachable state each list reports exactly its sequence: size, emptiness, ends, forward and backward
traversal; observers change no link. -/
theorem C26_observers (c : Cfg) (T : List Nat) (F : Fam) (h : Heap) (hR : Reach c T F h) (t : Nat) (ht : t ∈ T) :
    size c t h = .ok (F t).length h ∧ empty t h = .ok (F t).isEmpty h ∧ forward c t h = .ok (F t) h ∧ backward c t h = .ok (F t).reverse h ∧
    (∀ n l, F t = n :: l → front c t h = .ok n h) ∧ (∀ n l, F t = l ++ [n] → back c t h = .ok n h) := by
  obtain ⟨hr, hb⟩ := hR.rep
  have hM := length_lt hr hR.2.2.1 hb t ht
  have fin : ∀ {α : Type} (m : Cmd Heap α) (a : α), wp m (fun x s => x = a ∧ s = h) (fun _ _ => False) h → m h = .ok a h := by
    intro α m a hw
    rcases wp_cases hw with ⟨x, s', he, rfl, rfl⟩ | ⟨_, _, _, hf⟩
    · exact he
    · exact hf.elim
  refine ⟨fin _ _ (size_wp hr ht hM ⟨rfl, rfl⟩), fin _ _ (empty_wp hr ht ⟨?_, rfl⟩), fin _ _ (forward_wp hr ht hM ⟨rfl, rfl⟩),
    fin _ _ (backward_wp hr ht hM ⟨rfl, rfl⟩), fun n l hF => ?_, fun n l hF => ?_⟩
  · cases F t <;> simp
  · obtain ⟨h', e1, _, _⟩ := hR.call (o := .front t) (G := F) (r := .elem n) (by simp [apply, ht, hF])
    have hw := fin (front c t) n ?_
    · exact hw
    · simp only [front, wp_bind]
      refine empty_wp hr ht ?_
      simp only [wp_dassert]
      refine ⟨fun ⟨_, h2⟩ => by simp [hF] at h2, fun _ => begin_wp hr ht (wp_deref (elemAt_ne_zero hr ht) ?_)⟩
      simp [elemAt, hF]
  · have hne : F t ≠ [] := by simp [hF]
    refine fin (back c t) n ?_
    simp only [back, wp_bind]
    refine empty_wp hr ht ?_
    simp only [wp_dassert]
    refine ⟨fun ⟨_, h2⟩ => by simp [hne] at h2, fun _ => ?_⟩
    refine wp_itDec (fun e => hr.nz t ht (by simp [← e, end_])) ?_
    have e1 : h.prev (end_ t) = elemAt F t ((F t).length - 1) := by
      have := prev_elemAt (k := (F t).length - 1) hr ht (by simp [hF])
      rw [show (F t).length - 1 + 1 = (F t).length by simp [hF], elemAt_len] at this
      exact this
    rw [e1]
    refine wp_deref (elemAt_ne_zero hr ht) ⟨?_, rfl⟩
    simp [elemAt, hF]

/-- An initial memory for the examples. -/
def mem0 : Heap := ⟨fun _ => 7, fun _ => 9⟩
/-- Example configuration: debug build, 16-bit `size_t`. -/
def cfg : Cfg := ⟨true, 65536⟩
/-- Example history on two lists: inserts, removals, all kinds of splice, swap and traversals. -/
def ops1 : List Op :=
  [.pushBack 100 1, .pushBack 100 2, .pushBack 100 3, .pushFront 100 4, .pushBack 200 5, .insert 200 0 6,
   .spliceRange 100 1 100 2 4, .spliceOne 200 2 100 0, .spliceAll 100 1 200, .swap 100 200 50, .forward 200, .backward 200, .size 100,
   .erase 200 1, .popFront 200, .popBack 200, .forward 200, .front 200, .back 200, .empty 100]
/-- What the specification says about it. -/
def fam1 : Fam := fun u => if u = 200 then [5, 4, 3] else []

example : (applyAll [100, 200] (fun _ => []) ops1).map Prod.snd = some
    [.unit, .unit, .unit, .unit, .unit, .elem 6, .unit, .unit, .unit, .unit, .elems [2, 6, 5, 4, 3, 1], .elems [1, 3, 4, 5, 6, 2], .num 0,
     .elem 5, .unit, .unit, .elems [5, 4, 3], .elem 5, .elem 3, .flag true] := by decide

/-- The hypotheses of C26 are satisfiable by a non-trivial history. -/
example : ∃ h1 h, ctorAll [100, 200] mem0 = .ok () h1 ∧
    history cfg h1 ops1 = some (h, [.unit, .unit, .unit, .unit, .unit, .elem 6, .unit, .unit, .unit, .unit, .elems [2, 6, 5, 4, 3, 1], .elems [1, 3, 4, 5, 6, 2], .num 0,
     .elem 5, .unit, .unit, .elems [5, 4, 3], .elem 5, .elem 3, .flag true]) := by
  have hp : ∃ F, applyAll [100, 200] (fun _ => []) ops1 = some (F, [.unit, .unit, .unit, .unit, .unit, .elem 6, .unit, .unit, .unit, .unit, .elems [2, 6, 5, 4, 3, 1], .elems [1, 3, 4, 5, 6, 2], .num 0,
     .elem 5, .unit, .unit, .elems [5, 4, 3], .elem 5, .elem 3, .flag true]) := by
    have h1 : (applyAll [100, 200] (fun _ => []) ops1).map Prod.snd = some
      [.unit, .unit, .unit, .unit, .unit, .elem 6, .unit, .unit, .unit, .unit, .elems [2, 6, 5, 4, 3, 1], .elems [1, 3, 4, 5, 6, 2], .num 0,
       .elem 5, .unit, .unit, .elems [5, 4, 3], .elem 5, .elem 3, .flag true] := by decide
    rw [Option.map_eq_some_iff] at h1
    obtain ⟨⟨F, rs⟩, h2, h3⟩ := h1
    exact ⟨F, by rw [h2]; simp at h3; rw [h3]⟩
  obtain ⟨F, hF⟩ := hp
  exact C26_history cfg [100, 200] mem0 ops1 F _ (by decide) (by decide) (by decide) (by decide) hF

/-! ### C27 -/

/-- What the lists must hold after moving positions `[a,b)` of `x` before position `k` of `t`, written out for the three
geometric cases. -/
def Moved (F : Fam) (t k x a b : Nat) (G : Fam) : Prop :=
  (∀ u, u ≠ t → u ≠ x → G u = F u) ∧
  (t ≠ x → G t = (F t).take k ++ ((F x).take b).drop a ++ (F t).drop k ∧ G x = (F x).take a ++ (F x).drop b) ∧
  (t = x → k ≤ a → G t = (F t).take k ++ ((F t).take b).drop a ++ ((F t).take a).drop k ++ (F t).drop b) ∧
  (t = x → b ≤ k → G t = (F t).take a ++ ((F t).take k).drop b ++ ((F t).take b).drop a ++ (F t).drop k)

theorem move_moved {F : Fam} {t k x a b : Nat} (hk : k ≤ (F t).length) (hab : a ≤ b) (hb : b ≤ (F x).length) (hex : t = x → k = a → a = b ∨ b = a + 1) :
    Moved F t k x a b (move F t k x a b) := by
  unfold move
  refine ⟨fun u h1 h2 => ?_, fun h1 => ⟨?_, ?_⟩, fun h1 h2 => ?_, fun h1 h2 => ?_⟩
  · rw [upd_ne _ _ h1, upd_ne _ _ h2]
  · simp only [upd_same, upd_ne _ _ h1, if_neg (show ¬ (t = x ∧ b ≤ k) from fun e => h1 e.1)]
  · rw [upd_ne _ _ (Ne.symm h1), upd_same]
  · subst h1
    rw [upd_same, upd_same]
    by_cases h3 : b ≤ k
    · have hak : k = a := by omega
      have hba : a = b := by omega
      subst hak; subst hba
      simp [List.take_append_drop]
    · rw [if_neg (fun e => h3 e.2)]
      rw [List.take_append_of_le_length (by simp only [List.length_take]; omega), List.drop_append_of_le_length (by simp only [List.length_take]; omega),
        List.take_take, Nat.min_eq_left (by omega)]
      simp
  · subst h1
    rw [upd_same, upd_same, if_pos ⟨rfl, h2⟩]
    have h4 : ((F t).take a ++ (F t).drop b).take (k - (b - a)) = (F t).take a ++ ((F t).take k).drop b := by
      rw [List.take_append]; congr 1
      · rw [List.take_take]; congr 1; omega
      · rw [List.drop_take]; congr 1; simp only [List.length_take]; omega
    have h5 : ((F t).take a ++ (F t).drop b).drop (k - (b - a)) = (F t).drop k := by
      rw [List.drop_append, List.drop_eq_nil_of_le (by simp only [List.length_take]; omega), List.drop_drop, List.nil_append]
      congr 1; simp only [List.length_take]; omega
    rw [h4, h5]

/-- Observations after a call. -/
def Shows (c : Cfg) (T : List Nat) (h : Heap) (G : Fam) : Prop :=
  ∀ u ∈ T, forward c u h = .ok (G u) h ∧ backward c u h = .ok (G u).reverse h

theorem Reach.shows {c : Cfg} {T : List Nat} {F G : Fam} {h : Heap} {o : Op} {r : Ret} (hR : Reach c T F h) (ha : apply T F o = some (G, r))
    (hn : ∀ d ∈ newElem o, d < c.M) : ∃ h', exec c o h = .ok r h' ∧ Shows c T h' G := by
  obtain ⟨h', he, _, _⟩ := hR.call ha
  refine ⟨h', he, fun u hu => ?_⟩
  have := C26_observers c T G h' (hR.out ha hn he).2 u hu
  exact ⟨this.2.2.1, this.2.2.2.1⟩

/-- **C27.** Range splice: for every reachable state, lists `t` and `x` (equal or not), position `k` of `t` and non-reversed
range `[a,b)` of `x` beginning at an element, `k` not in the range: the call returns and afterwards all lists show exactly
the moved sequences, in both directions. -/
theorem C27_splice_range (c : Cfg) (T : List Nat) (F : Fam) (h : Heap) (hR : Reach c T F h) (t x k a b : Nat) (ht : t ∈ T) (hx : x ∈ T)
    (hk : k ≤ (F t).length) (hab : a ≤ b) (hb : b ≤ (F x).length) (ha : a < (F x).length) (hno : t = x → ¬ (a ≤ k ∧ k < b)) :
    ∃ h' G, exec c (.spliceRange t k x a b) h = .ok .unit h' ∧ Moved F t k x a b G ∧ Shows c T h' G := by
  obtain ⟨h', he, hs⟩ := hR.shows (o := .spliceRange t k x a b) (G := move F t k x a b) (r := .unit)
    (by simp only [apply]; rw [if_pos ⟨ht, hx, hk, hab, hb, ha, fun e => hno e.1 e.2⟩]) (by simp [newElem])
  refine ⟨h', _, he, move_moved hk hab hb (fun e1 e2 => ?_), hs⟩
  have := hno e1; omega

/-- **C27.** Splice of a single element (any position, including next to the element itself). -/
theorem C27_splice_one (c : Cfg) (T : List Nat) (F : Fam) (h : Heap) (hR : Reach c T F h) (t x k i : Nat) (ht : t ∈ T) (hx : x ∈ T)
    (hk : k ≤ (F t).length) (hi : i < (F x).length) :
    ∃ h' G, exec c (.spliceOne t k x i) h = .ok .unit h' ∧ Moved F t k x i (i+1) G ∧ Shows c T h' G := by
  obtain ⟨h', he, hs⟩ := hR.shows (o := .spliceOne t k x i) (G := move F t k x i (i+1)) (r := .unit)
    (by simp only [apply]; rw [if_pos ⟨ht, hx, hk, hi⟩]) (by simp [newElem])
  exact ⟨h', _, he, move_moved hk (by omega) (by omega) (fun _ _ => by omega), hs⟩

/-- **C27.** Splice of a whole other list: it becomes empty and its sequence appears before position `k`. -/
theorem C27_splice_all (c : Cfg) (T : List Nat) (F : Fam) (h : Heap) (hR : Reach c T F h) (t x k : Nat) (ht : t ∈ T) (hx : x ∈ T)
    (htx : t ≠ x) (hk : k ≤ (F t).length) :
    ∃ h' G, exec c (.spliceAll t k x) h = .ok .unit h' ∧ G t = (F t).take k ++ F x ++ (F t).drop k ∧ G x = [] ∧
      (∀ u, u ≠ t → u ≠ x → G u = F u) ∧ Shows c T h' G := by
  obtain ⟨h', he, hs⟩ := hR.shows (o := .spliceAll t k x) (G := move F t k x 0 (F x).length) (r := .unit)
    (by simp only [apply]; rw [if_pos ⟨ht, hx, htx, hk⟩]) (by simp [newElem])
  have hm := move_moved (F := F) (t := t) (x := x) (a := 0) hk (Nat.zero_le _) (Nat.le_refl _) (fun e => absurd e htx)
  refine ⟨h', _, he, ?_, ?_, hm.1, hs⟩
  · rw [(hm.2.1 htx).1]; simp
  · rw [(hm.2.1 htx).2]; simp

/-- A reachable state with two non-trivial lists, used below. -/
def ops2 : List Op := [.pushBack 100 1, .pushBack 100 2, .pushBack 100 3, .pushBack 200 4, .pushBack 200 5]
theorem reach2 : ∃ F h, Reach cfg [100, 200] F h ∧ F 100 = [1, 2, 3] ∧ F 200 = [4, 5] := by
  have h1 : (applyAll [100, 200] (fun _ => []) ops2).map (fun p => (p.2, p.1 100, p.1 200)) = some ([.unit, .unit, .unit, .unit, .unit], [1, 2, 3], [4, 5]) := by
    decide
  rw [Option.map_eq_some_iff] at h1
  obtain ⟨⟨F, rs⟩, h2, h3⟩ := h1
  simp at h3
  obtain ⟨h4, h, h5, h6⟩ := C26_history cfg [100, 200] mem0 ops2 F rs (by decide) (by decide) (by decide) (by decide) h2
  exact ⟨F, h, ⟨by decide, by decide, by decide, mem0, h4, ops2, rs, h5, by decide, h2, h6⟩, h3.2.1, h3.2.2⟩

/-- Instances of the hypotheses of C27: across lists, backwards and forwards within one list. -/
example : ∃ F h, Reach cfg [100, 200] F h ∧ (100 : Nat) ∈ [100, 200] ∧ 1 ≤ (F 100).length ∧ 0 < (F 200).length ∧ 2 ≤ (F 200).length ∧
    (100 = 100 → ¬ (1 ≤ 0 ∧ 0 < 3)) ∧ (100 = 100 → ¬ (0 ≤ 2 ∧ 2 < 2)) := by
  obtain ⟨F, h, hR, h1, h2⟩ := reach2
  exact ⟨F, h, hR, by decide, by simp [h1], by simp [h2], by simp [h2], by decide, by decide⟩

/-! ### C28 -/

/-- **C28.** `swap` exchanges the two sequences and nothing else (`tmp` is the address of the local object, which is not
part of any list). -/
theorem C28_swap (c : Cfg) (T : List Nat) (F : Fam) (h : Heap) (hR : Reach c T F h) (t x tmp : Nat) (ht : t ∈ T) (hx : x ∈ T)
    (htmp : unlinked T F tmp) :
    ∃ h' G, exec c (.swap t x tmp) h = .ok .unit h' ∧ G t = F x ∧ G x = F t ∧ (∀ u, u ≠ t → u ≠ x → G u = F u) ∧ Shows c T h' G := by
  obtain ⟨h', he, hs⟩ := hR.shows (o := .swap t x tmp) (G := upd (upd F t (F x)) x (F t)) (r := .unit)
    (by simp only [apply]; rw [if_pos ⟨ht, hx, htmp⟩]) (by simp [newElem])
  refine ⟨h', _, he, ?_, upd_same _ _ _, fun u h1 h2 => by rw [upd_ne _ _ h2, upd_ne _ _ h1], hs⟩
  by_cases h1 : t = x
  · subst h1; rw [upd_same]
  · rw [upd_ne _ _ h1, upd_same]

/-- **C28.** Self-swap writes nothing at all, in any state whatever. -/
theorem C28_self (c : Cfg) (h : Heap) (t tmp : Nat) : swap c tmp t t h = .ok () h := by
  simp [swap, pure, Cmd.pure]

example : ∃ F h, Reach cfg [100, 200] F h ∧ unlinked [100, 200] F 50 ∧ F 100 ≠ F 200 := by
  obtain ⟨F, h, hR, h1, h2⟩ := reach2
  refine ⟨F, h, hR, ⟨by decide, ?_⟩, by simp [h1, h2]⟩
  intro u hu
  simp at hu
  rcases hu with rfl | rfl <;> simp [h1, h2]

/-! ### C29 -/

/-- **C29.** Every in-contract call leaves the links of every node outside the lists it involves, the element it inserts
and its own local object untouched. -/
theorem C29_frame (c : Cfg) (T : List Nat) (F G : Fam) (h h' : Heap) (hR : Reach c T F h) (o : Op) (r r' : Ret) (ha : apply T F o = some (G, r))
    (he : exec c o h = .ok r' h') (n : Nat) (hinv : ∀ u ∈ involved o, n ≠ u ∧ n ∉ F u) (hnew : n ∉ newElem o) (hscr : n ∉ scratch o) :
    h'.next n = h.next n ∧ h'.prev n = h.prev n := by
  obtain ⟨h'', e1, _, hs⟩ := hR.call ha
  rw [he] at e1; cases e1
  refine hs n ?_
  rintro (⟨u, hu, hm⟩ | hm | hm)
  · rcases List.mem_cons.mp hm with rfl | hm
    · exact (hinv _ hu).1 rfl
    · exact (hinv u hu).2 hm
  · exact hnew hm
  · exact hscr hm

/-- **C29.** Lists not involved show the same sequence afterwards. -/
theorem C29_other_lists (c : Cfg) (T : List Nat) (F G : Fam) (h : Heap) (hR : Reach c T F h) (o : Op) (r : Ret) (ha : apply T F o = some (G, r))
    (hn : ∀ d ∈ newElem o, d < c.M) :
    ∃ h', exec c o h = .ok r h' ∧ ∀ u ∈ T, u ∉ involved o → forward c u h' = .ok (F u) h' ∧ backward c u h' = .ok (F u).reverse h' := by
  obtain ⟨h', he, hs⟩ := hR.shows ha hn
  refine ⟨h', he, fun u hu hni => ?_⟩
  have hG : G u = F u := by
    cases o <;> simp only [apply] at ha <;> split at ha <;> simp at ha <;> simp [involved] at hni
    case front | back => obtain ⟨_, _, rfl, _⟩ := ha; rfl
    case spliceAll | spliceOne | spliceRange =>
      obtain ⟨rfl, _⟩ := ha; unfold move; rw [upd_ne _ _ hni.1, upd_ne _ _ hni.2]
    case swap => obtain ⟨rfl, _⟩ := ha; rw [upd_ne _ _ hni.2, upd_ne _ _ hni.1]
    all_goals obtain ⟨rfl, _⟩ := ha
    all_goals first | rfl | (rw [upd_ne _ _ hni])
  have := hs u hu
  rw [hG] at this; exact this

/-- **C29.** Iterators are element addresses: after any call, an iterator to any element that is in a list (whatever list
it was in before) dereferences to that element and steps to its neighbours in that list; `end()` steps back to the last. -/
theorem C29_iterators (c : Cfg) (T : List Nat) (F : Fam) (h : Heap) (hR : Reach c T F h) (u : Nat) (hu : u ∈ T) (A B : List Nat) (e : Nat)
    (hF : F u = A ++ e :: B) :
    deref c e h = .ok e h ∧ itInc c e h = .ok (B.head?.getD u) h ∧ itDec c e h = .ok (A.getLast?.getD u) h ∧
    itDec c u h = .ok ((e :: B).getLast?.getD u) h := by
  obtain ⟨hr, hb⟩ := hR.rep
  obtain ⟨e1, e2, z1, z2, _⟩ := hr.split hu hF
  obtain ⟨e3, e4, z3, z4, _⟩ := hr.split hu (A := A ++ [e]) (B := B) (by simp [hF])
  obtain ⟨e5, e6, z5, z6, _⟩ := hr.split hu (A := A ++ e :: B) (B := []) (by simp [hF])
  have k1 : hd u (e :: B) = e := rfl
  have k2 : lst u (A ++ [e]) = e := by simp [lst]
  have k3 : hd u [] = u := rfl
  have k4 : lst u (A ++ e :: B) = (e :: B).getLast?.getD u := by
    simp [lst, List.getLast?_append, List.getLast?_cons]
  rw [k1] at e1 e2 z2
  rw [k2] at e3 e4
  rw [k3, k4] at e5 e6; rw [k3] at z6
  have b1 : ∀ p : Nat, p ≠ 0 → (!(p != 0)) = false := fun p hp => by simp [hp]
  refine ⟨?_, ?_, ?_, ?_⟩
  · simp only [deref, IL.dassert, bind, Cmd.bind, b1 e z2, Bool.and_false, Bool.false_eq_true, if_false, if_neg z2]; rfl
  · simp only [itInc, IL.dassert, rdNext, bind, Cmd.bind, b1 e z2, Bool.and_false, Bool.false_eq_true, if_false, if_neg z2, e3]; rfl
  · simp only [itDec, IL.dassert, rdPrev, bind, Cmd.bind, b1 e z2, Bool.and_false, Bool.false_eq_true, if_false, if_neg z2, e2]; rfl
  · simp only [itDec, IL.dassert, rdPrev, bind, Cmd.bind, b1 u z6, Bool.and_false, Bool.false_eq_true, if_false, if_neg z6, e6]

example : ∃ F h, Reach cfg [100, 200] F h ∧ F 100 = [1] ++ 2 :: [3] ∧ ∃ G r, apply [100, 200] F (.popBack 100) = some (G, r) ∧
    200 ∉ involved (.popBack 100) := by
  obtain ⟨F, h, hR, h1, h2⟩ := reach2
  exact ⟨F, h, hR, h1, upd F 100 [1, 2], .unit, by simp [apply, h1], by decide⟩

/-! ### C30 -/

/-- **C30.** Debug builds: on an empty list `front`, `back`, `pop_front`, `pop_back` and `erase` (of anything) fail the
assertion, and no link has changed. -/
theorem C30_empty (M : Nat) (T : List Nat) (F : Fam) (h : Heap) (hR : Reach ⟨true, M⟩ T F h) (t : Nat) (ht : t ∈ T) (he : F t = []) :
    front ⟨true, M⟩ t h = .exn .assertFail h ∧ back ⟨true, M⟩ t h = .exn .assertFail h ∧ popFront ⟨true, M⟩ t h = .exn .assertFail h ∧
    popBack ⟨true, M⟩ t h = .exn .assertFail h ∧ ∀ pos, erase ⟨true, M⟩ t pos h = .exn .assertFail h := by
  have h1 : empty t h = .ok true h := by
    have := (C26_observers _ T F h hR t ht).2.1
    rw [he] at this; exact this
  refine ⟨?_, ?_, ?_, ?_, fun pos => ?_⟩
  · unfold front; rw [Cmd.bind_ok h1]; rfl
  · unfold back; rw [Cmd.bind_ok h1]; rfl
  · unfold popFront; rw [Cmd.bind_ok h1]; rfl
  · unfold popBack; rw [Cmd.bind_ok h1]; rfl
  · unfold erase; rw [Cmd.bind_ok h1]; rfl

theorem das {M : Nat} {h : Heap} {α : Type} {b : Bool} {f : Unit → Cmd Heap α} (hh : b = true → f () h = .exn .assertFail h) :
    (IL.dassert ⟨true, M⟩ b >>= f) h = .exn .assertFail h := by
  cases b with
  | false => rfl
  | true => exact hh rfl

/-- **C30.** Debug builds, any memory: default-constructed (null) iterators are rejected by every operation taking one,
without touching memory. -/
theorem C30_null (M : Nat) (h : Heap) (t x d p q : Nat) :
    insert ⟨true, M⟩ 0 d h = .exn .assertFail h ∧ itInc ⟨true, M⟩ 0 h = .exn .assertFail h ∧ itDec ⟨true, M⟩ 0 h = .exn .assertFail h ∧
    deref ⟨true, M⟩ 0 h = .exn .assertFail h ∧ spliceRange ⟨true, M⟩ t 0 x p q h = .exn .assertFail h ∧
    spliceRange ⟨true, M⟩ t p x 0 q h = .exn .assertFail h ∧ spliceRange ⟨true, M⟩ t p x q 0 h = .exn .assertFail h ∧
    (t ≠ 0 → erase ⟨true, M⟩ t 0 h = .exn .assertFail h) ∧ (p ≠ 0 → spliceOne ⟨true, M⟩ t p x 0 h = .exn .assertFail h) := by
  refine ⟨rfl, rfl, rfl, rfl, rfl, ?_, ?_, fun ht => ?_, fun hp => ?_⟩
  · exact das (fun _ => das (fun e => by simp at e))
  · exact das (fun _ => das (fun _ => das (fun e => by simp at e)))
  · have h1 : empty t h = .ok (h.next t == t) h := by simp [empty, rdNext, bind, Cmd.bind, pure, Cmd.pure, if_neg ht]
    unfold erase; rw [Cmd.bind_ok h1]
    exact das (fun _ => das (fun e => by simp at e))
  · refine das (fun _ => das (fun _ => ?_))
    rw [if_neg hp]; rfl

/-- **C30.** Debug builds, any memory: `end()` of either list as the first (or only) element to move, and moving a list
into itself, are rejected without touching memory. -/
theorem C30_splice (M : Nat) (h : Heap) (t x p q : Nat) :
    spliceRange ⟨true, M⟩ t p x t q h = .exn .assertFail h ∧ spliceRange ⟨true, M⟩ t p x x q h = .exn .assertFail h ∧
    spliceOne ⟨true, M⟩ t p x t h = .exn .assertFail h ∧ spliceOne ⟨true, M⟩ t p x x h = .exn .assertFail h ∧
    spliceAll ⟨true, M⟩ t p t h = .exn .assertFail h := by
  refine ⟨?_, ?_, ?_, ?_, ?_⟩
  · exact das (fun _ => das (fun _ => das (fun _ => das (fun e => by simp [end_] at e))))
  · exact das (fun _ => das (fun _ => das (fun _ => das (fun _ => das (fun e => by simp [end_] at e)))))
  · exact das (fun e => by simp [end_] at e)
  · exact das (fun _ => das (fun e => by simp [end_] at e))
  · exact das (fun e => by simp at e)

/-- **C30.** The assertions only reject: whatever a call returns in a debug build it also returns, with the same memory,
in a release build (any call, any memory). -/
theorem C30_release_agrees (M : Nat) (o : Op) (h h' : Heap) (r : Ret) (he : exec ⟨true, M⟩ o h = .ok r h') : exec ⟨false, M⟩ o h = .ok r h' :=
  le_exec o h r h' he

/-- **C30.** In-contract calls never fail an assertion. -/
theorem C30_in_contract (c : Cfg) (T : List Nat) (F G : Fam) (h : Heap) (hR : Reach c T F h) (o : Op) (r : Ret) (ha : apply T F o = some (G, r)) :
    ∃ h', exec c o h = .ok r h' := by
  obtain ⟨h', e, _⟩ := hR.call ha
  exact ⟨h', e⟩

/-- The empty-list case is reachable. -/
example : ∃ F h, Reach cfg [100, 200] F h ∧ F 100 = [] := by
  obtain ⟨h1, hc, _⟩ := ctorAll_ok (T := [100, 200]) (h0 := mem0) (by decide) (by decide)
  exact ⟨fun _ => [], h1, ⟨by decide, by decide, by decide, mem0, h1, [], [], hc, by simp, rfl, rfl⟩, rfl⟩

/-- Release builds: a range splice whose position is the first element of its own range corrupts the list (this is why
the position must lie outside the range): here the terminator's successor becomes the wrong node and the list is no
longer a ring. -/
example : ∃ h h', forward ⟨false, 65536⟩ 100 h = .ok [1, 2] h ∧ spliceRange ⟨false, 65536⟩ 100 1 100 1 2 h = .ok () h' ∧ h'.next 1 = 1 := by
  refine ⟨⟨fun n => if n = 100 then 1 else if n = 1 then 2 else 100, fun n => if n = 100 then 2 else if n = 1 then 100 else 1⟩, _, by rfl, by rfl, ?_⟩
  simp [upd]

end Verif.Props.IntrusiveList
