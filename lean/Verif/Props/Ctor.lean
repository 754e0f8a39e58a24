import Verif.Props.Vector
import Verif.Props.Deque
/-
C87: constructors of FixedVector and FixedDeque that throw.  When a constructor throws, C++ does not run the destructor of the object under
construction; the storage of the container goes away.  So the elements that are alive when the exception leaves the constructor are never
destroyed.
-/
namespace Verif.Props.Ctor
open Verif Cmd
variable {V : Type}

/-- The number of element objects alive in the storage. -/
def alive (s : St V) : Nat := ((List.range s.nbuf).filter fun i => (s.slot i).isSome).length

theorem wp_and {σ α : Type} {m : Cmd σ α} {Q Q' : α → σ → Prop} {X X' : Exn → σ → Prop} {s : σ} (h : wp m Q X s) (h' : wp m Q' X' s) :
    wp m (fun a s => Q a s ∧ Q' a s) (fun e s => X e s ∧ X' e s) s := by
  unfold wp at *; cases hm : m s <;> simp_all

/-- Elements are counted from the beginning of the storage. -/
theorem alive_eq {s : St V} {xs : List V} (hle : xs.length ≤ s.nbuf) (h : ∀ k, k < s.nbuf → s.slot k = xs[k]?) : alive s = xs.length := by
  unfold alive
  have : (List.range s.nbuf).filter (fun i => (s.slot i).isSome) = (List.range s.nbuf).filter (fun i => decide (i < xs.length)) := by
    apply List.filter_congr
    intro i hi
    rw [h i (by simpa using hi)]
    by_cases e : i < xs.length <;> simp [e]
  rw [this, ← List.countP_eq_length_filter]
  have : ∀ n m : Nat, m ≤ n → (List.range n).countP (fun i => decide (i < m)) = m := by
    intro n
    induction n with
    | zero => intro m h; simp at h; simp [h]
    | succ n ih =>
      intro m hm
      rw [List.range_succ, List.countP_append]
      by_cases e : m = n + 1
      · subst e
        have : (List.range n).countP (fun i => decide (i < n + 1)) = n := by
          rw [List.countP_eq_length.mpr]
          · simp
          · intro a ha; simp at ha ⊢; omega
        rw [this]; simp
      · rw [ih m (by omega)]; simp; omega
  exact this _ _ hle

/-- A push_back performs one element construction. -/
def OneCopy (E : Env V) (m : Cmd (St V) Unit) : Prop := ∀ s, match m s with
  | .ok _ s' => s'.cnt = s.cnt + 1 ∧ E.thr s.cnt = false
  | .exn e s' => (e = .badAlloc ∧ s' = s) ∨ (e = .elemThrow ∧ E.thr s.cnt = true ∧ s'.cnt = s.cnt + 1)
  | _ => True

/-- One element construction, then the index is moved. -/
theorem one_construct (E : Env V) (i : Nat) (r : Ref V) (f : St V → St V) (hf : ∀ s, (f s).cnt = s.cnt) :
    OneCopy E (do construct E i r; modify f) := by
  intro s
  simp only [Bind.bind, Cmd.bind, Cmd.modify, construct]
  by_cases h1 : s.nbuf ≤ i
  · simp [h1]
  · cases h2 : s.slot i with
    | some x => simp [h1]
    | none =>
      cases h3 : r.get s with
      | none => simp [h1]
      | some v => cases h4 : E.thr s.cnt <;> simp [h1, hf]

theorem vec_one (E : Env V) (r : Ref V) : OneCopy E (Vec.pushBack E r) := by
  intro s
  unfold Vec.pushBack Vec.constructEnd Vec.deref
  cases h : Vec.full s
  · have := one_construct E (Vec.end_ s).toNat r (fun s => { s with e := uadd E.M s.e 1 }) (fun _ => rfl) s
    by_cases h2 : Vec.end_ s < 0
    · simp [Bind.bind, Cmd.bind, Cmd.gets, h, h2, Cmd.fault]
    · simpa [Bind.bind, Cmd.bind, Cmd.gets, h, h2] using this
  · simp [Bind.bind, Cmd.bind, Cmd.gets, h, Cmd.throw]

theorem deq_one (E : Env V) (r : Ref V) : OneCopy E (Deq.pushBack E r) := by
  intro s
  unfold Deq.pushBack Deq.constructEnd
  cases h : Deq.full E s
  · have := one_construct E s.e r (fun s => { s with e := Deq.nextIdx E.M s.nbuf s.e 1 }) (fun _ => rfl) s
    simpa [Bind.bind, Cmd.bind, Cmd.gets, h] using this
  · simp [Bind.bind, Cmd.bind, Cmd.gets, h, Cmd.throw]

/-- The element constructions `c`, `c+1`, ... up to `n` of them: none throws, or the first that throws is number `k`. -/
def Smooth (E : Env V) (c n : Nat) : Prop := ∀ j, j < n → E.thr (c + j) = false
def FirstThrow (E : Env V) (c n k : Nat) : Prop := k < n ∧ E.thr (c + k) = true ∧ ∀ j, j < k → E.thr (c + j) = false

/-- What a constructor does that makes the elements `src` one after the other in the empty container `s0`. -/
def Builds (E : Env V) (cap : Nat) (Holds : List V → St V → Prop) (src : List V) (s0 : St V) (o : Out (St V) Unit) : Prop :=
  (cap < src.length → o = .exn .badAlloc s0) ∧
  (src.length ≤ cap → Smooth E s0.cnt src.length → ∃ s', o = .ok () s' ∧ Holds src s') ∧
  (src.length ≤ cap → ∀ k, FirstThrow E s0.cnt src.length k → ∃ s', o = .exn .elemThrow s' ∧ Holds (src.take k) s')

/-- One push_back in the middle of a constructor. -/
theorem push_step {E : Env V} {m : Cmd (St V) Unit} {Rep : List V → St V → Prop} {src : List V} {c k : Nat} {s : St V} (hk : k < src.length)
    (hc : s.cnt = c + k) (hs : Smooth E c k) (h1 : OneCopy E m)
    (hw : wp m (fun _ s' => Rep (src.take (k+1)) s') (fun e s' => e = .elemThrow ∧ Rep (src.take k) s') s) :
    wp m (fun _ s' => Rep (src.take (k+1)) s' ∧ s'.cnt = c + (k + 1) ∧ Smooth E c (k + 1))
      (fun e s' => e = .elemThrow ∧ ∃ k, FirstThrow E c src.length k ∧ Rep (src.take k) s') s := by
  have h1 := h1 s
  unfold wp at *
  cases hm : m s with
  | ok a s' =>
    rw [hm] at hw h1
    refine ⟨hw, by rw [h1.1, hc]; omega, fun j hj => ?_⟩
    by_cases e : j = k
    · rw [e, ← hc]; exact h1.2
    · exact hs j (by omega)
  | exn e s' =>
    rw [hm] at hw h1
    rcases h1 with ⟨h1, _⟩ | ⟨h1, h2, h3⟩
    · rw [h1] at hw; simp at hw
    · exact ⟨h1, k, ⟨hk, by rw [← hc]; exact h2, hs⟩, hw.2⟩
  | ub f => rw [hm] at hw; exact hw
  | diverge => rw [hm] at hw; exact hw

theorem first_unique {E : Env V} {c n k k' : Nat} (h : FirstThrow E c n k) (h' : FirstThrow E c n k') : k = k' := by
  obtain ⟨_, h2, h3⟩ := h; obtain ⟨_, h2', h3'⟩ := h'
  rcases Nat.lt_trichotomy k k' with e | e | e
  · rw [h3' k e] at h2; simp at h2
  · exact e
  · rw [h3 k' e] at h2'; simp at h2'

theorem builds_of_wp {E : Env V} {cap : Nat} {Holds : List V → St V → Prop} {src : List V} {s0 : St V} {m : Cmd (St V) Unit}
    (h : wp m (fun _ s' => src.length ≤ cap ∧ Holds src s' ∧ Smooth E s0.cnt src.length)
      (fun e s' => (cap < src.length ∧ e = .badAlloc ∧ s' = s0) ∨ (src.length ≤ cap ∧ e = .elemThrow ∧ ∃ k, FirstThrow E s0.cnt src.length k ∧ Holds (src.take k) s')) s0) :
    Builds E cap Holds src s0 (m s0) := by
  rcases wp_cases h with ⟨a, s', e, h1, h2, h3⟩ | ⟨x, s', e, ⟨h1, rfl, rfl⟩ | ⟨h1, rfl, k, h2, h3⟩⟩
  · refine ⟨fun h => by omega, fun _ _ => ⟨s', e, h2⟩, fun _ k hk => ?_⟩
    have := h3 k hk.1; rw [hk.2.1] at this; simp at this
  · exact ⟨fun _ => e, fun h => by omega, fun h => by omega⟩
  · refine ⟨fun h => by omega, fun _ hs => ?_, fun _ k' hk' => ?_⟩
    · have := hs k h2.1; rw [h2.2.1] at this; simp at this
    · rw [first_unique hk' h2]; exact ⟨s', e, h3⟩

theorem vec_range (E : Env V) (cap c : Nat) (hF : Vec.Fits E cap) (src : List V) (hn : src.length < E.M) :
    Builds E cap (Props.Vector.Holds cap) src (Vec.fresh cap c) (Vec.ctorRange E src (Vec.fresh cap c)) := by
  apply builds_of_wp
  unfold Vec.ctorRange Vec.assignRange
  rw [wp_bind]
  refine Vec.countRange_wp hn ?_
  simp only [wp_bind, wp_gets, wp_ite, wp_throw]
  have hmx : Vec.maxSize (Vec.fresh cap c : St V) = cap := rfl
  rw [hmx]
  refine ⟨fun h => by simp [h], fun hnb => ?_⟩
  refine Vec.clear_wp hF (Vec.fresh_rep cap c) (fun s' h' hc => ?_)
  refine wp_forIter src.length id (fun k s' => Vec.VRep cap (src.take k) c s' ∧ s'.cnt = c + k ∧ Smooth E c k) ?_ rfl rfl ?_ (fun _ _ => rfl) ?_ ?_ ?_
  · unfold Env.fuel; omega
  · intro k hk; simp; omega
  · exact ⟨by simpa using h', by rw [hc]; rfl, fun j hj => by omega⟩
  · intro k s'' hk hs''
    simp only [wp_bind, wp_srcRead]
    refine ⟨src[k], by simp [hk], ?_⟩
    refine wp_mono (push_step (Rep := fun l s => Vec.VRep cap l c s) hk hs''.2.1 hs''.2.2 (vec_one E _) ?_) (fun _ _ h => h) ?_
    · refine Vec.pushBack_wp (v := src[k]) hF hs''.1 rfl (fun _ s3 h3 => ?_) (fun hf => ?_) (fun _ t s3 h3 => ⟨rfl, h3⟩)
      · rw [List.take_succ_eq_append_getElem hk]; exact h3
      · simp at hf; omega
    · rintro e s3 ⟨h1, k', h2, h3⟩
      exact Or.inr ⟨by omega, h1, k', h2, Props.Vector.Holds.of h3⟩
  · intro s'' hs''
    exact ⟨by omega, Props.Vector.Holds.of (by simpa using hs''.1), hs''.2.2⟩

theorem vec_n (E : Env V) (cap c : Nat) (hF : Vec.Fits E cap) (n : Nat) (v : V) (hn : n < E.M) :
    Builds E cap (Props.Vector.Holds cap) (List.replicate n v) (Vec.fresh cap c) (Vec.ctorN E n (.ext v) (Vec.fresh cap c)) := by
  apply builds_of_wp
  unfold Vec.ctorN Vec.assignN
  simp only [wp_bind, wp_gets, wp_ite, wp_throw]
  have hmx : Vec.maxSize (Vec.fresh cap c : St V) = cap := rfl
  rw [hmx]
  refine ⟨fun h => by simp [h], fun hnb => ?_⟩
  refine Vec.clear_wp hF (Vec.fresh_rep cap c) (fun s' h' hc => ?_)
  unfold Vec.resize
  have hsz : Vec.size s' = 0 := by simpa [Vec.size] using h'.sh.he
  have hmx' : Vec.maxSize s' = cap := h'.sh.nbuf
  simp only [wp_bind, wp_gets, wp_ite, wp_throw, wp_modify, hsz, hmx']
  refine ⟨fun h0 => ?_, fun h0 => ⟨fun h => by omega, fun _ => ?_⟩⟩
  · have h0 : n = 0 := by omega
    subst h0
    refine Vec.destroyRange_wp (lo := 0) (hi := 0) hF h'.sh rfl (by simp [Vec.end_, Vec.begin_, h'.sh.he]) (by omega) (by omega) (fun k _ hk => by omega) (fun s2 h2 _ => ?_)
    refine ⟨by simp, Props.Vector.Holds.of (c := c) ⟨(h2.setE 0).congr ?_, by simp⟩, fun j hj => by simp at hj⟩
    intro k _; simp
  · have hsub : usub E.M n 0 = n := by unfold usub; simp
    rw [hsub]
    refine wp_forN (fun k s' => Vec.VRep cap ((List.replicate n v).take k) c s' ∧ s'.cnt = c + k ∧ Smooth E c k) ?_ ?_ ?_ ?_
    · unfold Env.fuel; omega
    · exact ⟨by simpa using h', by rw [hc]; rfl, fun j hj => by omega⟩
    · intro k s'' hk hs''
      refine wp_mono (push_step (Rep := fun l s => Vec.VRep cap l c s) (by simpa using hk) hs''.2.1 hs''.2.2 (vec_one E _) ?_) (fun _ _ h => h) ?_
      · refine Vec.pushBack_wp (v := v) hF hs''.1 rfl (fun _ s3 h3 => ?_) (fun hf => ?_) (fun _ t s3 h3 => ⟨rfl, h3⟩)
        · rw [List.take_succ_eq_append_getElem (by simpa using hk)]; simpa using h3
        · simp at hf; omega
      · rintro e s3 ⟨h1, k', h2, h3⟩
        exact Or.inr ⟨by simp; omega, h1, k', h2, Props.Vector.Holds.of h3⟩
    · intro s'' hs''
      exact ⟨by simp; omega, Props.Vector.Holds.of (by simpa using hs''.1), by simpa [Vec.fresh] using hs''.2.2⟩

/-- The deque holds `xs`, from the first slot of its storage on. -/
def Packed (cap : Nat) (xs : List V) (s : St V) : Prop := Props.Deque.Holds cap xs s ∧ s.b = 0
theorem Packed.of {cap c : Nat} {xs : List V} {s : St V} (h : Deq.DSh (cap + 1) 0 0 xs c s) : Packed cap xs s := Props.Deque.Holds.of h

theorem deq_range (E : Env V) (cap c : Nat) (hF : Deq.Fits E.M (cap + 1)) (src : List V) (hn : src.length < E.M) :
    Builds E cap (Packed cap) src (Deq.fresh (cap + 1) c) (Deq.ctorRange E src (Deq.fresh (cap + 1) c)) := by
  apply builds_of_wp
  unfold Deq.ctorRange Deq.assignRange
  rw [wp_bind]
  refine Vec.countRange_wp hn ?_
  simp only [wp_bind, wp_gets, wp_ite, wp_throw]
  have h0 := Deq.fresh_rep (V := V) (cap + 1) c (by omega)
  rw [h0.maxSize]
  refine ⟨fun h => by simp at h; simp [h], fun hnb => ?_⟩
  refine Deq.clear_wp hF h0 (fun s' h' hc => ?_)
  refine wp_forIter src.length id (fun k s' => Deq.DSh (cap + 1) 0 0 (src.take k) c s' ∧ s'.cnt = c + k ∧ Smooth E c k) ?_ rfl rfl ?_ (fun _ _ => rfl) ?_ ?_ ?_
  · unfold Env.fuel; omega
  · intro k hk; simp; omega
  · exact ⟨by simpa using h', by rw [hc]; rfl, fun j hj => by omega⟩
  · intro k s'' hk hs''
    simp only [wp_bind, wp_srcRead]
    refine ⟨src[k], by simp [hk], ?_⟩
    refine wp_mono (push_step (Rep := fun l s => Deq.DSh (cap + 1) 0 0 l c s) hk hs''.2.1 hs''.2.2 (deq_one E _) ?_) (fun _ _ h => h) ?_
    · refine Deq.pushBack_wp (v := src[k]) hF hs''.1 rfl (fun _ s3 h3 => ?_) (fun hf => ?_) (fun _ t s3 h3 => ⟨rfl, h3⟩)
      · rw [List.take_succ_eq_append_getElem hk]; exact h3
      · simp at hf; omega
    · rintro e s3 ⟨h1, k', h2, h3⟩
      exact Or.inr ⟨by omega, h1, k', h2, Packed.of h3⟩
  · intro s'' hs''
    exact ⟨by omega, Packed.of (by simpa using hs''.1), hs''.2.2⟩

theorem deq_n (E : Env V) (cap c : Nat) (hF : Deq.Fits E.M (cap + 1)) (n : Nat) (v : V) (hn : n < E.M) :
    Builds E cap (Packed cap) (List.replicate n v) (Deq.fresh (cap + 1) c) (Deq.ctorN E n (.ext v) (Deq.fresh (cap + 1) c)) := by
  apply builds_of_wp
  unfold Deq.ctorN Deq.assignN
  simp only [wp_bind, wp_gets, wp_ite, wp_throw]
  have h0 := Deq.fresh_rep (V := V) (cap + 1) c (by omega)
  rw [h0.maxSize]
  refine ⟨fun h => by simp at h; simp [h], fun hnb => ?_⟩
  refine Deq.clear_wp hF h0 (fun s' h' hc => ?_)
  by_cases hz : n = 0
  · subst hz
    have ho := h'.ho
    have hv := h'.view0
    unfold Deq.resize
    simp only [wp_bind, wp_gets, wp_ite, wp_throw, wp_modify, h'.size hF, h'.maxSize]
    refine ⟨fun _ => ?_, fun h => absurd (Nat.zero_le _) h⟩
    rw [hv.nbuf]
    refine Deq.destroyRange_wp (lo := 0) (hi := 0) hF ho hv ?_ hv.he (by omega) (by omega) (by omega) (fun k _ hk => by omega) (fun s2 h2 hc => ?_)
    · rw [hv.hb]
      have := Deq.itAddU_ring (j := 0) (n := 0) hF ho (by omega)
      rwa [Deq.ring_zero ho] at this
    · have hd : Deq.DSh (cap + 1) 0 0 ([] : List V) c { s2 with e := Deq.prevIdx E.M s2.nbuf s2.e (usub E.M (Deq.size E s2) 0) } := by
        have hs2 : Deq.DSh (cap + 1) 0 0 ([] : List V) c s2 := Deq.DSh.of_view0 ho (by simp) ⟨h2.nbuf, fun k hk => by simpa using h2.view k hk, h2.hb, h2.he, h2.hc⟩
        have e1 : usub E.M (Deq.size E s2) 0 = 0 := by rw [hs2.size hF]; simp [usub]
        have e2 : Deq.prevIdx E.M s2.nbuf s2.e 0 = s2.e := by
          rw [h2.nbuf, h2.he]; simp [Deq.prevIdx, Deq.ring_zero ho, usub]
        rw [e1, e2]; exact hs2
      exact ⟨by simp, Packed.of hd, fun j hj => by simp at hj⟩
  · unfold Deq.resize
    simp only [wp_bind, wp_gets, wp_ite, wp_throw, wp_modify, h'.size hF, h'.maxSize]
    refine ⟨fun h0 => by simp at h0; omega, fun h0 => ⟨fun h => by omega, fun _ => ?_⟩⟩
    have hsub : usub E.M n 0 = n := by unfold usub; simp
    simp only [List.length_nil, hsub]
    refine wp_forN (fun k s' => Deq.DSh (cap + 1) 0 0 ((List.replicate n v).take k) c s' ∧ s'.cnt = c + k ∧ Smooth E c k) ?_ ?_ ?_ ?_
    · unfold Env.fuel; omega
    · exact ⟨by simpa using h', by rw [hc]; rfl, fun j hj => by omega⟩
    · intro k s'' hk hs''
      refine wp_mono (push_step (Rep := fun l s => Deq.DSh (cap + 1) 0 0 l c s) (by simpa using hk) hs''.2.1 hs''.2.2 (deq_one E _) ?_) (fun _ _ h => h) ?_
      · refine Deq.pushBack_wp (v := v) hF hs''.1 rfl (fun _ s3 h3 => ?_) (fun hf => ?_) (fun _ t s3 h3 => ⟨rfl, h3⟩)
        · rw [List.take_succ_eq_append_getElem (by simpa using hk)]; simpa using h3
        · simp at hf; omega
      · rintro e s3 ⟨h1, k', h2, h3⟩
        exact Or.inr ⟨by simp; omega, h1, k', h2, Packed.of h3⟩
    · intro s'' hs''
      exact ⟨by simp; omega, Packed.of (by simpa using hs''.1), by simpa [Deq.fresh] using hs''.2.2⟩

/-- **C87, vector.** `FixedVector(n, v)` and `FixedVector(first, last)`: too many elements: BadAlloc, and nothing is constructed; otherwise the
elements are those asked for, or, if the `k`-th element construction (from 0) is the first that throws, that exception leaves the constructor. -/
theorem C87_vector (E : Env V) (cap c : Nat) (hF : Vec.Fits E cap) :
    (∀ n v, n < E.M → Builds E cap (Props.Vector.Holds cap) (List.replicate n v) (Vec.fresh cap c) (Vec.ctorN E n (.ext v) (Vec.fresh cap c))) ∧
    (∀ src : List V, src.length < E.M → Builds E cap (Props.Vector.Holds cap) src (Vec.fresh cap c) (Vec.ctorRange E src (Vec.fresh cap c))) :=
  ⟨fun n v hn => vec_n E cap c hF n v hn, fun src hn => vec_range E cap c hF src hn⟩

/-- **C87, deque.** -/
theorem C87_deque (E : Env V) (cap c : Nat) (hF : Deq.Fits E.M (cap + 1)) :
    (∀ n v, n < E.M → Builds E cap (Packed cap) (List.replicate n v) (Deq.fresh (cap + 1) c) (Deq.ctorN E n (.ext v) (Deq.fresh (cap + 1) c))) ∧
    (∀ src : List V, src.length < E.M → Builds E cap (Packed cap) src (Deq.fresh (cap + 1) c) (Deq.ctorRange E src (Deq.fresh (cap + 1) c))) :=
  ⟨fun n v hn => deq_n E cap c hF n v hn, fun src hn => deq_range E cap c hF src hn⟩

theorem alive_vec {cap : Nat} {xs : List V} {s : St V} (h : Props.Vector.Holds cap xs s) : alive s = xs.length :=
  alive_eq (by rw [h.buf]; exact h.le) (by rw [h.buf]; exact h.elems)

theorem alive_deq {cap : Nat} {xs : List V} {s : St V} (h : Packed cap xs s) : alive s = xs.length := by
  refine alive_eq (by rw [h.1.buf]; have := h.1.le; omega) ?_
  rw [h.1.buf]
  intro k hk
  have := h.1.elems k (by omega)
  rwa [Props.Deque.slotOf, h.2, Nat.zero_add, Nat.mod_eq_of_lt hk] at this

theorem first_ex {E : Env V} {c : Nat} : ∀ {n}, ¬ Smooth E c n → ∃ k, FirstThrow E c n k
  | 0, h => absurd (fun j hj => by omega) h
  | n + 1, h => by
    by_cases hn : Smooth E c n
    · refine ⟨n, by omega, ?_, hn⟩
      cases ht : E.thr (c + n) with
      | true => rfl
      | false =>
        refine absurd (fun j hj => ?_) h
        by_cases e : j = n
        · rw [e]; exact ht
        · exact hn j (by omega)
    · obtain ⟨k, h1, h2, h3⟩ := first_ex hn; exact ⟨k, by omega, h2, h3⟩

theorem survivors {E : Env V} {cap : Nat} {Holds : List V → St V → Prop} {src : List V} {s0 s' : St V} {o : Out (St V) Unit} {e : Exn}
    (ha : ∀ xs s, Holds xs s → alive s = xs.length) (h0 : alive s0 = 0) (h : Builds E cap Holds src s0 o) (he : o = .exn e s') :
    (e = .badAlloc ∧ cap < src.length ∧ alive s' = 0) ∨ (e = .elemThrow ∧ src.length ≤ cap ∧ FirstThrow E s0.cnt src.length (alive s')) := by
  obtain ⟨h1, h2, h3⟩ := h
  by_cases hc : cap < src.length
  · rw [h1 hc] at he; simp at he; exact .inl ⟨he.1.symm, hc, by rw [← he.2]; exact h0⟩
  · by_cases hs : Smooth E s0.cnt src.length
    · obtain ⟨s2, h2, _⟩ := h2 (by omega) hs; rw [h2] at he; simp at he
    · obtain ⟨k, hk⟩ := first_ex hs
      obtain ⟨s2, h3, h4⟩ := h3 (by omega) k hk
      rw [h3] at he; simp at he
      obtain ⟨rfl, rfl⟩ := he
      refine .inr ⟨rfl, by omega, ?_⟩
      rw [ha _ _ h4, List.length_take, Nat.min_eq_left (by have := hk.1; omega)]; exact hk

/-- **C87, what survives.** A constructor that throws leaves no element alive if it threw BadAlloc or if its very first element construction
threw; if construction number `k` (from 0) threw, exactly the `k` elements made before are never destroyed.
Missing for the full property: `alive s' = 0` also for `k > 0`, which is false (`C87_counterexample`). -/
theorem C87_survivors_partial (E : Env V) (cap c : Nat) (src : List V) (hn : src.length < E.M) {e : Exn} {s' : St V}
    (h : (Vec.Fits E cap ∧ Vec.ctorRange E src (Vec.fresh cap c) = .exn e s') ∨
         (Deq.Fits E.M (cap + 1) ∧ Deq.ctorRange E src (Deq.fresh (cap + 1) c) = .exn e s')) :
    (e = .badAlloc ∧ cap < src.length ∧ alive s' = 0) ∨ (e = .elemThrow ∧ src.length ≤ cap ∧ FirstThrow E c src.length (alive s')) := by
  rcases h with ⟨hF, h⟩ | ⟨hF, h⟩
  · exact survivors (fun _ _ => alive_vec) (by simp [alive, Vec.fresh]) (vec_range E cap c hF src hn) h
  · exact survivors (fun _ _ => alive_deq) (by simp [alive, Deq.fresh]) (deq_range E cap c hF src hn) h

/-- The same for `(n, v)`. -/
theorem C87_survivors_n_partial (E : Env V) (cap c n : Nat) (v : V) (hn : n < E.M) {e : Exn} {s' : St V}
    (h : (Vec.Fits E cap ∧ Vec.ctorN E n (.ext v) (Vec.fresh cap c) = .exn e s') ∨
         (Deq.Fits E.M (cap + 1) ∧ Deq.ctorN E n (.ext v) (Deq.fresh (cap + 1) c) = .exn e s')) :
    (e = .badAlloc ∧ cap < n ∧ alive s' = 0) ∨ (e = .elemThrow ∧ n ≤ cap ∧ FirstThrow E c n (alive s')) := by
  rcases h with ⟨hF, h⟩ | ⟨hF, h⟩
  · simpa [Vec.fresh] using survivors (fun _ _ => alive_vec) (by simp [alive, Vec.fresh]) (vec_n E cap c hF n v hn) h
  · simpa [Deq.fresh] using survivors (fun _ _ => alive_deq) (by simp [alive, Deq.fresh]) (deq_n E cap c hF n v hn) h

/-- **C87 is false in full**, for every capacity and every number `n ≥ 2` of elements that fits: if the last construction throws, `n - 1`
elements leak. -/
theorem C87_counterexample (M cap n : Nat) (x : V) (hn : 2 ≤ n) (hc : n ≤ cap) (hM : 4 * (cap + 1) ≤ M) :
    ∃ E : Env V, E.M = M ∧ (∃ s', Vec.ctorN E n (.ext x) (Vec.fresh cap 0) = .exn .elemThrow s' ∧ alive s' = n - 1) ∧
      (∃ s', Deq.ctorN E n (.ext x) (Deq.fresh (cap + 1) 0) = .exn .elemThrow s' ∧ alive s' = n - 1) := by
  let E : Env V := { M := M, dbg := false, thr := fun k => k == n - 1, junk := fun _ v => v, dflt := x }
  have hf : FirstThrow E 0 (List.replicate n x).length (n - 1) := by
    refine ⟨by simp; omega, by simp [E], fun j hj => by simp [E]; omega⟩
  refine ⟨E, rfl, ?_, ?_⟩
  · obtain ⟨s', h1, h2⟩ := (vec_n E cap 0 (by simp only [Vec.Fits, E]; omega) n x (by simp only [E]; omega)).2.2 (by simpa using hc) _ hf
    exact ⟨s', h1, by rw [alive_vec h2]; simp⟩
  · obtain ⟨s', h1, h2⟩ := (deq_n E cap 0 (by simp only [Deq.Fits, E]; omega) n x (by simp only [E]; omega)).2.2 (by simpa using hc) _ hf
    exact ⟨s', h1, by rw [alive_deq h2]; simp⟩

/-- **C87.** Copy constructors: the same for the elements of the source. -/
theorem C87_copy (E : Env V) (cap c : Nat) :
    (Vec.Fits E cap → ∀ {cap' : Nat} {src : List V} {x : St V}, Props.Vector.Holds cap' src x → src.length < E.M →
      Builds E cap (Props.Vector.Holds cap) src (Vec.fresh cap c) (Vec.ctorCopy E x (Vec.fresh cap c))) ∧
    (Deq.Fits E.M (cap + 1) → ∀ {src : List V} {x : St V}, Props.Deque.Holds cap src x → src.length < E.M →
      Builds E cap (Packed cap) src (Deq.fresh (cap + 1) c) (Deq.ctorCopy E x (Deq.fresh (cap + 1) c))) := by
  constructor
  · intro hF cap' src x hx hn
    unfold Vec.ctorCopy
    rw [Vec.contents_eq hx.rep]
    exact vec_range E cap c hF src hn
  · intro hF src x hx hn
    unfold Deq.ctorCopy
    rw [Deq.contents_eq hF hx.rep]
    exact deq_range E cap c hF src hn

/-- The third element construction throws. -/
def exE : Env Nat := { M := 2^32, dbg := true, thr := fun k => k == 2, junk := fun _ v => v, dflt := 0 }

example : FirstThrow exE 0 4 2 ∧ Smooth exE 0 2 := by
  refine ⟨⟨by omega, rfl, fun j hj => ?_⟩, fun j hj => ?_⟩ <;> (simp [exE]; omega)
example : ∃ s', Vec.ctorN exE 2 (.ext 7) (Vec.fresh 4 0) = .ok () s' ∧ Props.Vector.Holds 4 [7, 7] s' :=
  ((C87_vector exE 4 0 (by simp [Vec.Fits, exE])).1 2 7 (by simp [exE])).2.1 (by simp) (fun j hj => by simp [exE, Vec.fresh] at hj ⊢; omega)
example : ∃ s', Deq.ctorRange exE [1, 2, 3, 4] (Deq.fresh 5 0) = .exn .elemThrow s' ∧ Packed 4 [1, 2] s' :=
  ((C87_deque exE 4 0 (by simp [Deq.Fits, exE])).2 [1, 2, 3, 4] (by simp [exE])).2.2 (by simp) 2 ⟨by simp, rfl, fun j hj => by simp [exE, Deq.fresh]; omega⟩
example : Vec.ctorRange exE [1, 2, 3] (Vec.fresh 2 0) = .exn .badAlloc (Vec.fresh 2 0) :=
  ((C87_vector exE 2 0 (by simp [Vec.Fits, exE])).2 [1, 2, 3] (by simp [exE])).1 (by simp)

end Verif.Props.Ctor
