import Verif.Proof.DequeErase
import Verif.Proof.NoCatch
import Verif.Proof.VectorApi
namespace Verif.Deq
open Verif Cmd Spec
variable {V : Type} {E : Env V} {nb o c : Nat} {xs : List V} {s : St V}

/-- Elements on the end side of the position are the ones moved by an insertion at `p`. -/
def insEnd (xs : List V) (p : Nat) : Prop := xs.length / 2 < p
/-- Elements on the end side are the ones moved by erasing `[a,b)`. -/
def eraEnd (xs : List V) (a b : Nat) : Prop := xs.length - b ≤ a
instance (p : Nat) : Decidable (insEnd xs p) := by unfold insEnd; infer_instance
instance (a b : Nat) : Decidable (eraEnd xs a b) := by unfold eraEnd; infer_instance

/-- Relation of the physical position `o` of `begin()` before a call and `o'` after it. -/
def Base (nb : Nat) (xs : List V) (o o' : Nat) : Op V → Prop
  | .pushFront _ => ring nb o' 1 = o
  | .popFront => o' = ring nb o 1
  | .insert p _ => if insEnd xs p then o' = o else ring nb o' 1 = o
  | .insertN p n _ => if insEnd xs p then o' = o else ring nb o' n = o
  | .insertInt p n _ => if insEnd xs p then o' = o else ring nb o' n.toNat = o
  | .insertRange p src => if insEnd xs p then o' = o else ring nb o' src.length = o
  | .erase p => if eraEnd xs p (p+1) then o' = o else o' = ring nb o 1
  | .eraseRange a b => if eraEnd xs a b then o' = o else o' = ring nb o (b - a)
  | _ => o' = o

/-- Indices of the elements a call keeps in place even if it is cut short by a throwing element operation. -/
def keptIdx (xs : List V) : Op V → Nat × Nat
  | .insert p _ | .insertN p _ _ | .insertInt p _ _ | .insertRange p _ => if insEnd xs p then (0, p) else (p, xs.length)
  | .erase p => if eraEnd xs p (p+1) then (0, p) else (p+1, xs.length)
  | .eraseRange a b => if eraEnd xs a b then (0, a) else (b, xs.length)
  | .assignN _ _ | .assignRange _ => (0, 0)
  | _ => (0, xs.length)

/-- Normal return agrees with the list. -/
def OkPost (nb o c : Nat) (xs : List V) (op : Op V) (r : Ret V) (s' : St V) : Prop :=
  ∃ ys o', DSh nb o' 0 ys c s' ∧ apply (nb - 1) xs op = some (ys, .ret r) ∧ Base nb xs o o' op

/-- Exceptional return. -/
def ExPost (E : Env V) (nb o c : Nat) (xs : List V) (op : Op V) (s : St V) (e : Exn) (s' : St V) : Prop :=
  (apply (nb - 1) xs op = some (xs, .threw e) ∧ s' = s) ∨
  (e = .elemThrow ∧ (∃ zs r, apply (nb - 1) xs op = some (zs, .ret r)) ∧ Thrown E c ∧ ∃ ys o', DSh nb o' 0 ys c s' ∧
    (∀ k, (keptIdx xs op).1 ≤ k → k < (keptIdx xs op).2 → s'.slot (ring nb o k) = xs[k]?) ∧
    (∀ v, op = .pushBack v ∨ op = .pushFront v → ys = xs ∧ o' = o))

theorem posOk_true {p : Nat} (hF : Fits E.M nb) (h : DSh nb o 0 xs c s) (hp : p ≤ xs.length) : posOk E (ring nb o p) s = true := by
  have hl := h.hl; have ho := h.ho
  unfold posOk itLe
  rw [h.sh.nbuf, h.sh.hb, h.sh.he, itLt_ring hF ho (by omega) (by omega) (by omega) (by omega) (by omega) (by omega),
    itLt_ring hF ho (by omega) (by omega) (by omega) (by omega) (by omega) (by omega)]
  simp; omega

theorem pos_eq {p : Nat} (hF : Fits E.M nb) (h : DSh nb o 0 xs c s) (hp : p ≤ nb) : itAddU E.M s.nbuf s.b p = ring nb o p := by
  rw [h.sh.nbuf, h.sh.hb, itAddU_ring hF h.ho (by omega), Nat.zero_add]

theorem ret_pos {p A : Nat} (hF : Fits E.M nb) (h : DSh nb o A xs c s) (hp : p ≤ xs.length) :
    (itDiff E.M s.nbuf s.b (ring nb o (A + p)) s.b).toNat = p := by
  have hl := h.hl; have ho := h.ho; have hA := h.hA
  rw [h.sh.nbuf, h.sh.hb, itDiff_ring hF ho (by omega) (by omega) (by omega) (by omega) (by omega) (by omega)]; omega

/-- What a throwing insert/erase on the end side leaves. -/
theorem exc_end {p : Nat} {ex : Exn} {s' : St V} (ho : o < nb) (hp : p ≤ nb)
    (h : DExc E nb c o (fun k => xs[k]?) (· < p) ex s') :
    ex = .elemThrow ∧ Thrown E c ∧ ∃ ys o', DSh nb o' 0 ys c s' ∧ ∀ k, 0 ≤ k → k < p → s'.slot (ring nb o k) = xs[k]? := by
  obtain ⟨h1, h2, ys, A', hd, hk⟩ := h.toList ho
  refine ⟨h1, h2, ys, _, hd.canon, fun k _ hkp => ?_⟩
  rw [hd.sh.view k (by omega)]
  exact hk k (by omega) hkp

/-- What a throwing insert/erase on the begin side leaves; `oa` is `begin()`, seen `A` slots after `o`. -/
theorem exc_begin {A p oa : Nat} {ex : Exn} {s' : St V} (ho : o < nb) (hA : A + xs.length ≤ nb) (hoa : ring nb o A = oa)
    (h : DExc E nb c o (LV A xs) (A + p ≤ ·) ex s') :
    ex = .elemThrow ∧ Thrown E c ∧ ∃ ys o', DSh nb o' 0 ys c s' ∧ ∀ k, p ≤ k → k < xs.length → s'.slot (ring nb oa k) = xs[k]? := by
  obtain ⟨h1, h2, ys, A', hd, hk⟩ := h.toList ho
  refine ⟨h1, h2, ys, _, hd.canon, fun k hkp hkl => ?_⟩
  rw [← hoa, ring_ring ho (by omega), hd.sh.view (A + k) (by omega)]
  have := hk (A + k) (by omega) (by omega)
  rw [this]
  unfold LV
  rw [if_neg (by omega)]; congr 1; omega

/-- `insert_n` from the canonical view: both sides. -/
theorem insertN_wp {p n : Nat} {v : V} {Q : Nat → St V → Prop} {X : Exn → St V → Prop} (hF : Fits E.M nb) (h : DSh nb o 0 xs c s)
    (hp : p ≤ xs.length)
    (hQ : xs.length + n < nb → ∀ s' o', DSh nb o' 0 (xs.take p ++ List.replicate n v ++ xs.drop p) c s' →
      (if insEnd xs p then o' = o else ring nb o' n = o) → Q (ring nb o' p) s')
    (hfull : nb ≤ xs.length + n → X .badAlloc s)
    (hX : xs.length + n < nb → ∀ s', Thrown E c → (∃ ys o', DSh nb o' 0 ys c s' ∧
      ∀ k, (if insEnd xs p then (0, p) else (p, xs.length)).1 ≤ k → k < (if insEnd xs p then (0, p) else (p, xs.length)).2 →
        s'.slot (ring nb o k) = xs[k]?) → X .elemThrow s') :
    wp (insertN_ E (ring nb o p) n (.ext v)) Q X s := by
  have ho := h.ho; have hl := h.hl
  by_cases hfit : xs.length + n < nb
  · by_cases hside : insEnd xs p
    · simp only [hside, if_true] at hQ hX
      refine insertN_end_wp (v := v) hF h hp hside hfit (stable_ext _ _).ins (fun s' h' => hQ hfit s' o h' rfl) (fun ex s' hx => ?_)
      obtain ⟨rfl, ht, hh⟩ := exc_end ho (by omega) hx
      exact hX hfit s' ht hh
    · simp only [hside, if_false] at hQ hX
      obtain ⟨oo, hoo, hsh⟩ := h.shift (A' := n + 1) (by omega)
      have hpos : ring nb o p = ring nb oo (n + 1 + p) := by rw [← hoo, ring_ring hsh.ho (by omega)]
      rw [hpos]
      refine insertN_begin_wp (v := v) hF hsh hp (by unfold insEnd at hside; omega) (fun _ _ => rfl) (fun s' h' => ?_) (fun ex s' hx => ?_)
      · have := hQ hfit s' _ h'.canon (by rw [ring_ring hsh.ho (by omega), ← hoo]; congr 1; omega)
        rw [ring_ring hsh.ho (by omega)] at this; exact this
      · obtain ⟨rfl, ht, hh⟩ := exc_begin hsh.ho (by omega) hoo hx
        exact hX hfit s' ht hh
  · exact insertN_full_wp hF h (by omega) (hfull (by omega))

theorem insertRange_wp {p : Nat} {src : List V} {Q : Unit → St V → Prop} {X : Exn → St V → Prop} (hF : Fits E.M nb) (h : DSh nb o 0 xs c s)
    (hn : src.length < E.M) (hp : p ≤ xs.length)
    (hQ : xs.length + src.length < nb → ∀ s' o', DSh nb o' 0 (xs.take p ++ src ++ xs.drop p) c s' →
      (if insEnd xs p then o' = o else ring nb o' src.length = o) → Q () s')
    (hfull : nb ≤ xs.length + src.length → X .badAlloc s)
    (hX : xs.length + src.length < nb → ∀ s', Thrown E c → (∃ ys o', DSh nb o' 0 ys c s' ∧
      ∀ k, (if insEnd xs p then (0, p) else (p, xs.length)).1 ≤ k → k < (if insEnd xs p then (0, p) else (p, xs.length)).2 →
        s'.slot (ring nb o k) = xs[k]?) → X .elemThrow s') :
    wp (insertRange_ E (ring nb o p) src) Q X s := by
  have ho := h.ho; have hl := h.hl
  by_cases hfit : xs.length + src.length < nb
  · by_cases hside : insEnd xs p
    · simp only [hside, if_true] at hQ hX
      refine insertRange_end_wp hF h hp hside hfit (fun s' h' => hQ hfit s' o h' rfl) (fun ex s' hx => ?_)
      obtain ⟨rfl, ht, hh⟩ := exc_end ho (by omega) hx
      exact hX hfit s' ht hh
    · simp only [hside, if_false] at hQ hX
      obtain ⟨oo, hoo, hsh⟩ := h.shift (A' := src.length + 1) (by omega)
      have hpos : ring nb o p = ring nb oo (src.length + 1 + p) := by rw [← hoo, ring_ring hsh.ho (by omega)]
      rw [hpos]
      refine insertRange_begin_wp hF rfl hsh hp (by unfold insEnd at hside; omega) (fun s' h' => ?_) (fun ex s' hx => ?_)
      · exact hQ hfit s' _ h'.canon (by rw [ring_ring hsh.ho (by omega), ← hoo]; congr 1; omega)
      · obtain ⟨rfl, ht, hh⟩ := exc_begin hsh.ho (by omega) hoo hx
        exact hX hfit s' ht hh
  · exact insertRange_full_wp hF h hn (by omega) (hfull (by omega))

theorem eraseRange_wp {a b : Nat} {Q : Nat → St V → Prop} {X : Exn → St V → Prop} (hF : Fits E.M nb) (h : DSh nb o 0 xs c s)
    (hab : a < b) (hb : b ≤ xs.length)
    (hQ : ∀ s' o', DSh nb o' 0 (xs.take a ++ xs.drop b) c s' →
      (if eraEnd xs a b then o' = o else o' = ring nb o (b - a)) → Q (ring nb o' a) s')
    (hX : ∀ s', Thrown E c → (∃ ys o', DSh nb o' 0 ys c s' ∧
      ∀ k, (if eraEnd xs a b then (0, a) else (b, xs.length)).1 ≤ k → k < (if eraEnd xs a b then (0, a) else (b, xs.length)).2 →
        s'.slot (ring nb o k) = xs[k]?) → X .elemThrow s') :
    wp (eraseRange E (ring nb o a) (ring nb o b)) Q X s := by
  have ho := h.ho; have hl := h.hl
  by_cases hside : eraEnd xs a b
  · simp only [hside, if_true] at hQ hX
    refine eraseRange_end_wp hF h hab hb hside (fun s' h' => hQ s' o h' rfl) (fun ex s' hx => ?_)
    obtain ⟨rfl, ht, hh⟩ := exc_end ho (by omega) hx
    exact hX s' ht hh
  · simp only [hside, if_false] at hQ hX
    obtain ⟨oo, hoo, hsh⟩ := h.shift (A' := 1) (by omega)
    have hpa : ring nb o a = ring nb oo (1 + a) := by rw [← hoo, ring_ring hsh.ho (by omega)]
    have hpb : ring nb o b = ring nb oo (1 + b) := by rw [← hoo, ring_ring hsh.ho (by omega)]
    rw [hpa, hpb]
    refine eraseRange_begin_wp hF hsh hab hb (by unfold eraEnd at hside; omega) (fun s' h' => ?_) (fun ex s' hx => ?_)
    · have := hQ s' _ h'.canon (by rw [← hoo, ring_ring hsh.ho (by omega)])
      rw [ring_ring hsh.ho (by omega)] at this
      have e : 1 + (b - a) + a = 1 + b := by omega
      rw [e] at this; exact this
    · obtain ⟨rfl, ht, hh⟩ := exc_begin hsh.ho (by omega) hoo hx
      exact hX s' ht hh

theorem exec_wp (hF : Fits E.M nb) (h : DSh nb o 0 xs c s) {op : Op V}
    (hr : op.representable E.M) (hin : (apply (nb - 1) xs op).isSome) :
    wp (exec E op) (OkPost nb o c xs op) (ExPost E nb o c xs op s) s := by
  have hlen := h.hl; have ho := h.ho
  have hF' := hF
  unfold Fits at hF'
  have hkeep : ∀ {ys : List V} {s' : St V}, DSh nb o 0 ys c s' → (∀ k, k < xs.length → ys[k]? = xs[k]?) →
      ∀ k, 0 ≤ k → k < xs.length → s'.slot (ring nb o k) = xs[k]? := by
    intro ys s' hd hy k _ hk
    rw [hd.view0.view k (by omega)]; exact hy k hk
  cases op with
  | pushBack v =>
    simp only [exec, wp_bind, wp_pure]
    refine pushBack_wp (v := v) hF h rfl (fun hlt s' h' => ⟨_, o, h', ?_, rfl⟩) (fun hf => Or.inl ⟨?_, rfl⟩)
      (fun hlt t s' h' => Or.inr ⟨rfl, ⟨_, _, by simp only [apply, grow]; rw [if_pos (by simp; omega)]⟩, t, xs, o, h', hkeep h' (fun _ _ => rfl), fun _ _ => ⟨rfl, rfl⟩⟩)
    · simp [apply, grow]; omega
    · simp [apply, grow]; omega
  | pushFront v =>
    simp only [exec, wp_bind, wp_pure]
    obtain ⟨oo, hoo, hsh⟩ := h.shift (A' := 1) (by omega)
    refine pushFront_wp (v := v) hF hsh rfl (fun hlt s' h' => ⟨_, oo, h', ?_, hoo⟩) (fun hf => Or.inl ⟨?_, rfl⟩)
      (fun hlt t s' h' => ?_)
    · simp [apply, grow]; omega
    · simp [apply, grow]; omega
    · have hc := h'.canon
      rw [hoo] at hc
      exact Or.inr ⟨rfl, ⟨_, _, by simp only [apply, grow]; rw [if_pos (by simp; omega)]⟩, t, xs, o, hc, hkeep hc (fun _ _ => rfl), fun _ _ => ⟨rfl, rfl⟩⟩
  | popBack =>
    simp only [exec, wp_bind, wp_pure]
    have hne : xs ≠ [] := by intro hh; simp [apply, hh] at hin
    exact popBack_wp hF h hne (fun s' h' _ => ⟨_, o, h', by simp [apply, hne], rfl⟩)
  | popFront =>
    simp only [exec, wp_bind, wp_pure]
    have hne : xs ≠ [] := by intro hh; simp [apply, hh] at hin
    exact popFront_wp hF h hne (fun s' h' _ => ⟨_, _, h'.canon, by simp [apply, hne], rfl⟩)
  | insert p v =>
    have hp : p ≤ xs.length := by
      by_cases hp : p ≤ xs.length
      · exact hp
      · simp [apply, hp] at hin
    simp only [exec, insert, wp_bind, wp_pure, wp_dassert, wp_gets, pos_eq hF h (show p ≤ nb by omega), posOk_true hF h hp]
    refine ⟨by simp, fun _ => ?_⟩
    refine insertN_wp (n := 1) (v := v) hF h hp (fun hl s' o' h' hbase => ⟨_, o', h', ?_, hbase⟩)
      (fun hf => Or.inl ⟨?_, rfl⟩) (fun hl s' ht hx => ?_)
    · have := ret_pos (p := p) hF h' (by simp; omega)
      rw [Nat.zero_add] at this
      rw [this]
      simp [apply, grow, ins, hp]; omega
    · simp [apply, grow, ins, hp]; omega
    · obtain ⟨ys, o', h3, h4⟩ := hx
      exact Or.inr ⟨rfl, ⟨_, _, by simp only [apply, if_pos hp]; rw [Vec.grow_ok (by simp [ins]; omega)]⟩, ht, ys, o', h3, h4, by simp⟩
  | insertN p n v =>
    have hp : p ≤ xs.length := by
      by_cases hp : p ≤ xs.length
      · exact hp
      · simp [apply, hp] at hin
    simp only [exec, insertN, wp_bind, wp_pure, wp_dassert, wp_gets, pos_eq hF h (show p ≤ nb by omega), posOk_true hF h hp]
    refine ⟨by simp, fun _ => ?_⟩
    refine insertN_wp (v := v) hF h hp (fun hl s' o' h' hbase => ⟨_, o', h', ?_, hbase⟩)
      (fun hf => Or.inl ⟨?_, rfl⟩) (fun hl s' ht hx => ?_)
    · simp [apply, grow, ins, hp]; omega
    · simp [apply, grow, ins, hp]; omega
    · obtain ⟨ys, o', h3, h4⟩ := hx
      exact Or.inr ⟨rfl, ⟨_, _, by simp only [apply, if_pos hp]; rw [Vec.grow_ok (by simp [ins]; omega)]⟩, ht, ys, o', h3, h4, by simp⟩
  | insertInt p n v =>
    have hp : p ≤ xs.length := by
      by_cases hp : p ≤ xs.length
      · exact hp
      · simp [apply, hp] at hin
    simp only [Op.representable] at hr
    simp only [exec, insertInteger, wp_bind, wp_pure, wp_dassert, wp_gets, pos_eq hF h (show p ≤ nb by omega), posOk_true hF h hp]
    refine ⟨by simp, fun _ => ?_⟩
    by_cases hneg : n < 0
    · have hbig : nb ≤ xs.length + toSize E.M n := by
        have : toSize E.M n = (n + E.M).toNat := by
          unfold toSize
          rw [← Int.add_emod_right, Int.emod_eq_of_lt (by omega) (by omega)]
        omega
      exact insertN_full_wp hF h hbig (Or.inl ⟨by simp [apply, hp, hneg], rfl⟩)
    · have htn : toSize E.M n = n.toNat := toSize_of_nonneg (by omega) hr.2
      rw [htn]
      refine insertN_wp (v := v) hF h hp (fun hl s' o' h' hbase => ⟨_, o', h', ?_, hbase⟩)
        (fun hf => Or.inl ⟨?_, rfl⟩) (fun hl s' ht hx => ?_)
      · simp [apply, grow, ins, hp, hneg]; omega
      · simp [apply, grow, ins, hp, hneg]; omega
      · obtain ⟨ys, o', h3, h4⟩ := hx
        exact Or.inr ⟨rfl, ⟨_, _, by simp only [apply, if_pos hp, if_neg hneg]; rw [Vec.grow_ok (by simp [ins]; omega)]⟩, ht, ys, o', h3, h4, by simp⟩
  | insertRange p src =>
    have hp : p ≤ xs.length := by
      by_cases hp : p ≤ xs.length
      · exact hp
      · simp [apply, hp] at hin
    simp only [exec, insertRange, wp_bind, wp_pure, wp_dassert, wp_gets, pos_eq hF h (show p ≤ nb by omega), posOk_true hF h hp]
    refine ⟨by simp, fun _ => ?_⟩
    refine insertRange_wp hF h hr hp (fun hl s' o' h' hbase => ⟨_, o', h', ?_, hbase⟩)
      (fun hf => Or.inl ⟨?_, rfl⟩) (fun hl s' ht hx => ?_)
    · simp [apply, grow, ins, hp]; omega
    · simp [apply, grow, ins, hp]; omega
    · obtain ⟨ys, o', h3, h4⟩ := hx
      exact Or.inr ⟨rfl, ⟨_, _, by simp only [apply, if_pos hp]; rw [Vec.grow_ok (by simp [ins]; omega)]⟩, ht, ys, o', h3, h4, by simp⟩
  | erase p =>
    have hp : p < xs.length := by
      by_cases hp : p < xs.length
      · exact hp
      · simp [apply, hp] at hin
    have hasr := erase_asserts hF h (show p < p + 1 by omega) (show p + 1 ≤ xs.length by omega)
    simp only [Nat.zero_add] at hasr
    have hnx : itAdd E.M s.nbuf (ring nb o p) 1 = ring nb o (p + 1) := by
      rw [h.sh.nbuf]; exact itAdd_ring (n := 1) hF ho (by omega)
    simp only [exec, erase, wp_bind, wp_pure, wp_dassert, wp_gets, pos_eq hF h (show p ≤ nb by omega), hasr.2.1, hnx]
    refine ⟨by simp, fun _ => ?_⟩
    refine eraseRange_wp hF h (by omega) (by omega) (fun s' o' h' hbase => ⟨_, o', h', ?_, ?_⟩) (fun s' ht hx => ?_)
    · have := ret_pos (p := p) hF h' (by simp; omega)
      rw [Nat.zero_add] at this
      rw [this]
      simp [apply, hp]
    · have e : p + 1 - p = 1 := by omega
      rw [e] at hbase; exact hbase
    · obtain ⟨ys, o', h3, h4⟩ := hx
      exact Or.inr ⟨rfl, ⟨_, _, by simp only [apply, if_pos hp]; rfl⟩, ht, ys, o', h3, h4, by simp⟩
  | eraseRange a b =>
    have hp : a < b ∧ b ≤ xs.length := by
      by_cases hp : a < b ∧ b ≤ xs.length
      · exact hp
      · simp [apply, hp] at hin
    simp only [exec, wp_bind, wp_pure, wp_gets, pos_eq hF h (show a ≤ nb by omega), pos_eq hF h (show b ≤ nb by omega)]
    refine eraseRange_wp hF h hp.1 hp.2 (fun s' o' h' hbase => ⟨_, o', h', ?_, hbase⟩) (fun s' ht hx => ?_)
    · have := ret_pos (p := a) hF h' (by simp; omega)
      rw [Nat.zero_add] at this
      rw [this]
      simp [apply, hp]
    · obtain ⟨ys, o', h3, h4⟩ := hx
      exact Or.inr ⟨rfl, ⟨_, _, by simp only [apply, if_pos hp]; rfl⟩, ht, ys, o', h3, h4, by simp⟩
  | resize n v =>
    simp only [exec, wp_bind, wp_pure]
    have hl2 : (xs.take n ++ List.replicate (n - xs.length) v).length = n := by simp; omega
    refine resize_wp (v := v) hF hr h (stable_ext _ _) (fun hn s' h' => ⟨_, o, h', ?_, rfl⟩) (fun hn => Or.inl ⟨?_, rfl⟩)
      (fun hn t s' k h' => Or.inr ⟨rfl, ⟨_, _, by simp only [apply, grow, hl2]; rw [if_pos (by omega)]⟩, t, _, o, h', hkeep h' (fun k hk => ?_), by simp⟩)
    · simp only [apply, grow, hl2]; rw [if_pos (by omega)]
    · simp only [apply, grow, hl2]; rw [if_neg (by omega)]
    · rw [List.getElem?_append_left hk]
  | assignN n v =>
    simp only [exec, wp_bind, wp_pure]
    refine assignN_wp (v := v) hF hr h (fun hn s' h' => ⟨_, o, h', ?_, rfl⟩) (fun hn => Or.inl ⟨?_, rfl⟩)
      (fun hn t s' k h' => Or.inr ⟨rfl, ⟨_, _, by simp only [apply, grow, List.length_replicate]; rw [if_pos (by omega)]⟩, t, _, o, h', by simp [keptIdx], by simp⟩)
    · simp only [apply, grow, List.length_replicate]; rw [if_pos (by omega)]
    · simp only [apply, grow, List.length_replicate]; rw [if_neg (by omega)]
  | assignRange src =>
    simp only [exec, wp_bind, wp_pure]
    refine assignRange_wp hF hr h (fun hn s' h' => ⟨_, o, h', ?_, rfl⟩) (fun hn => Or.inl ⟨?_, rfl⟩)
      (fun hn t s' k h' => Or.inr ⟨rfl, ⟨_, _, by simp only [apply, grow]; rw [if_pos (by omega)]⟩, t, _, o, h', by simp [keptIdx], by simp⟩)
    · simp only [apply, grow]; rw [if_pos (by omega)]
    · simp only [apply, grow]; rw [if_neg (by omega)]
  | clear =>
    simp only [exec, wp_bind, wp_pure]
    exact clear_wp hF h (fun s' h' _ => ⟨_, o, h', rfl, rfl⟩)
  | at_ i =>
    simp only [exec, wp_bind, wp_pure]
    refine at_wp hF h (fun hi => ⟨_, o, h, ?_, rfl⟩) (fun hi => Or.inl ⟨?_, rfl⟩)
    · simp [apply, hi]
    · simp [apply, hi]
  | index i =>
    have hi : i < xs.length := by
      by_cases hi : i < xs.length
      · exact hi
      · simp [apply] at hin; exact hin
    simp only [exec, wp_bind, wp_pure]
    exact index_wp hF h hi ⟨_, o, h, by simp [apply, hi], rfl⟩
  | front =>
    have hi : 0 < xs.length := by
      cases xs with
      | nil => simp [apply] at hin
      | cons a as => simp
    simp only [exec, wp_bind, wp_pure]
    refine front_wp h hi ⟨_, o, h, ?_, rfl⟩
    simp [apply, List.head?_eq_getElem?, hi]
  | back =>
    have hi : 0 < xs.length := by
      cases xs with
      | nil => simp [apply] at hin
      | cons a as => simp
    simp only [exec, wp_bind, wp_pure]
    refine back_wp hF h hi ⟨_, o, h, ?_, rfl⟩
    have : xs.length - 1 < xs.length := by omega
    simp [apply, List.getLast?_eq_getElem?, this]
  | size =>
    simp only [exec, wp_bind, wp_pure, wp_gets]
    exact ⟨_, o, h, by simp [apply, h.size hF], rfl⟩
  | empty =>
    simp only [exec, wp_bind, wp_pure, wp_gets]
    exact ⟨_, o, h, by simp only [apply, h.empty], rfl⟩
  | full =>
    simp only [exec, wp_bind, wp_pure, wp_gets]
    exact ⟨_, o, h, by simp only [apply, h.full hF], rfl⟩
  | availableSize =>
    simp only [exec, wp_bind, wp_pure, wp_gets]
    exact ⟨_, o, h, by simp [apply, h.available hF], rfl⟩
  | maxSize =>
    simp only [exec, wp_bind, wp_pure, wp_gets]
    exact ⟨_, o, h, by simp [apply, h.maxSize], rfl⟩

theorem fresh_rep (nb c : Nat) (hnb : 0 < nb) : DSh nb 0 0 ([] : List V) c (fresh nb c) :=
  DSh.of_view0 hnb (by simpa using hnb) ⟨rfl, fun k _ => rfl, rfl, by simp [ring_zero hnb, fresh], Nat.le_refl _⟩

theorem nc_exec (op : Op V) : NoCatch E (exec E op) := by
  have hce : ∀ r, NoCatch E (constructEnd E r) := fun r => by unfold constructEnd; nocatch
  have hcb : ∀ r, NoCatch E (constructBegin E r) := fun r => by unfold constructBegin; nocatch
  have hdr : ∀ nb a b, NoCatch E (destroyRange E nb a b) := fun nb a b => by
    unfold destroyRange; exact nc_forIter fun _ => nc_destroySlot _
  have hcl : NoCatch E (Deq.clear E) := by unfold Deq.clear; nocatch; exact hdr _ _ _
  have hpb : ∀ r, NoCatch E (pushBack E r) := fun r => by unfold pushBack; nocatch; exact hce _
  have hpf : ∀ r, NoCatch E (pushFront E r) := fun r => by unfold pushFront; nocatch; exact hcb _
  have hrs : ∀ n r, NoCatch E (Deq.resize E n r) := fun n r => by
    unfold Deq.resize; nocatch
    · exact hdr _ _ _
    · exact hpb _
  have hcr : ∀ src, NoCatch E (Vec.countRange E src) := fun src => by unfold Vec.countRange; nocatch
  have hca : ∀ nb src st it j, NoCatch E (copyAssignLoop E nb src st it j) := fun nb src st it j => by
    unfold copyAssignLoop; nocatch
  have hin : ∀ p n r, NoCatch E (insertN_ E p n r) := fun p n r => by
    unfold insertN_; nocatch
    all_goals first | exact hce _ | exact hcb _
  have hir : ∀ p src, NoCatch E (insertRange_ E p src) := fun p src => by
    unfold insertRange_; nocatch
    all_goals first | exact hcr _ | exact hce _ | exact hcb _ | exact hca _ _ _ _ _
  have her : ∀ a b, NoCatch E (Deq.eraseRange E a b) := fun a b => by
    unfold Deq.eraseRange; nocatch
    all_goals exact hdr _ _ _
  cases op with
  | pushBack v => unfold exec; nocatch; exact hpb _
  | pushFront v => unfold exec; nocatch; exact hpf _
  | popFront => unfold exec popFront; nocatch
  | popBack => unfold exec popBack; nocatch
  | insert p v => unfold exec Deq.insert; nocatch; exact hin _ _ _
  | insertN p n v => unfold exec Deq.insertN; nocatch; exact hin _ _ _
  | insertInt p n v => unfold exec insertInteger; nocatch; exact hin _ _ _
  | insertRange p src => unfold exec Deq.insertRange; nocatch; exact hir _ _
  | erase p => unfold exec Deq.erase; nocatch; exact her _ _
  | eraseRange a b => unfold exec; nocatch; exact her _ _
  | resize n v => unfold exec; nocatch; exact hrs _ _
  | assignN n v => unfold exec Deq.assignN; nocatch; exact hrs _ _
  | assignRange src =>
    unfold exec Deq.assignRange; nocatch
    · exact hcr _
    · exact hpb _
  | clear => unfold exec; nocatch
  | at_ i => unfold exec Deq.at_ Deq.index; nocatch
  | index i => unfold exec Deq.index; nocatch
  | front => unfold exec Deq.front; nocatch
  | back => unfold exec Deq.back; nocatch
  | size => unfold exec; nocatch
  | empty => unfold exec; nocatch
  | full => unfold exec; nocatch
  | availableSize => unfold exec; nocatch
  | maxSize => unfold exec; nocatch

end Verif.Deq
