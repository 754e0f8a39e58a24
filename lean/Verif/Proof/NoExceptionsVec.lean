import Verif.Proof.NoExceptions
import Verif.Props.Vector
/- The exception-free build when the assertion handler returns: every over-capacity or out-of-range vector call is undefined. -/
namespace Verif
open Cmd
variable {V α β : Type}

/-- A loop whose body is fine `K` times and then undefined. -/
theorem loop_ub {σ : Type} {cond : β → σ → Bool} {body : β → Cmd σ β} {fuel : Nat} {x : β} {s : σ} {f : Fault} (K : Nat)
    (Inv : Nat → β → σ → Prop) (hfuel : K < fuel) (h0 : Inv 0 x s)
    (hstep : ∀ k x s, k < K → Inv k x s → cond x s = true ∧ ∃ x' s', body x s = .ok x' s' ∧ Inv (k+1) x' s')
    (hub : ∀ x s, Inv K x s → cond x s = true ∧ body x s = .ub f) :
    Cmd.loop cond body fuel x s = .ub f := by
  have key : ∀ fuel k x s, k ≤ K → K - k < fuel → Inv k x s → Cmd.loop cond body fuel x s = .ub f := by
    intro fuel
    induction fuel with
    | zero => intro k x s _ h; omega
    | succ n ih =>
      intro k x s hk hf hI
      simp only [Cmd.loop]
      by_cases hkK : k < K
      · obtain ⟨hc, x', s', hb, hI'⟩ := hstep k x s hkK hI
        rw [if_pos hc, Cmd.bind_ok hb]
        exact ih (k+1) x' s' (by omega) (by omega) hI'
      · obtain rfl : k = K := by omega
        obtain ⟨hc, hb⟩ := hub x s hI
        rw [if_pos hc, Cmd.bind_ub hb]
  exact key fuel 0 x s (by omega) (by omega) h0

theorem forN_ub_at {σ : Type} {fuel n : Nat} {body : Nat → Cmd σ Unit} {s : σ} {f : Fault} (K : Nat) (Inv : Nat → σ → Prop)
    (hK : K < n) (hfuel : K < fuel) (h0 : Inv 0 s)
    (hstep : ∀ k s, k < K → Inv k s → ∃ s', body k s = .ok () s' ∧ Inv (k+1) s')
    (hub : ∀ s, Inv K s → body K s = .ub f) : forN fuel n body s = .ub f := by
  unfold forN
  apply Cmd.bind_ub
  refine loop_ub K (fun k x s => x = k ∧ Inv k s) hfuel ⟨rfl, h0⟩ ?_ ?_
  · rintro k x s hk ⟨rfl, hI⟩
    obtain ⟨s', hb, hI'⟩ := hstep x s hk hI
    exact ⟨by simp; omega, _, s', by rw [Cmd.bind_ok hb]; rfl, rfl, hI'⟩
  · rintro x s ⟨rfl, hI⟩
    exact ⟨by simpa using hK, Cmd.bind_ub (hub s hI)⟩

theorem forIter_ub_at {σ ι : Type} [BEq ι] [LawfulBEq ι] {fuel : Nat} {start stop : ι} {next : ι → ι} {body : ι → Cmd σ Unit} {s : σ} {f : Fault}
    (K : Nat) (p : Nat → ι) (Inv : Nat → σ → Prop) (hfuel : K < fuel) (hp0 : p 0 = start)
    (hne : ∀ k, k ≤ K → p k ≠ stop) (hnext : ∀ k, k < K → next (p k) = p (k+1)) (h0 : Inv 0 s)
    (hstep : ∀ k s, k < K → Inv k s → ∃ s', body (p k) s = .ok () s' ∧ Inv (k+1) s')
    (hub : ∀ s, Inv K s → body (p K) s = .ub f) : forIter fuel start stop next body s = .ub f := by
  unfold forIter
  apply Cmd.bind_ub
  refine loop_ub K (fun k x s => x = p k ∧ Inv k s) hfuel ⟨hp0.symm, h0⟩ ?_ ?_
  · rintro k x s hk ⟨rfl, hI⟩
    obtain ⟨s', hb, hI'⟩ := hstep k s hk hI
    exact ⟨by simpa using hne k (by omega), _, s', by rw [Cmd.bind_ok hb]; rfl, hnext k hk, hI'⟩
  · rintro x s ⟨rfl, hI⟩
    exact ⟨by simpa using hne K (by omega), Cmd.bind_ub (hub s hI)⟩

namespace VecM
open Vec Props.Vector Spec

/-- The first `n` slots hold objects, the others are raw. -/
structure Lin (cap n : Nat) (s : St V) : Prop where
  buf : s.nbuf = cap
  fin : s.e = n
  le : n ≤ cap
  live : ∀ j, j < n → (s.slot j).isSome = true
  raw : ∀ j, n ≤ j → j < cap → s.slot j = none

theorem lin_of_holds {cap : Nat} {xs : List V} {s : St V} (h : Holds cap xs s) : Lin cap xs.length s := by
  have hle := h.le
  refine ⟨h.buf, h.sz, h.le, fun j hj => ?_, fun j h1 h2 => ?_⟩
  · rw [h.elems j (by omega)]; simp [hj]
  · rw [h.elems j h2]; simp [h1]

theorem constructEnd_ok {E : Env V} {cap n : Nat} {s : St V} {r : Ref V} (hF : Props.Vector.Fits E cap) (hnt : ∀ k, E.thr k = false)
    (h : Lin cap n s) (hn : n < cap) (hr : (r.get s).isSome = true) :
    ∃ s', constructEnd E r s = .ok () s' ∧ Lin cap (n + 1) s' := by
  obtain ⟨v, hv⟩ := Option.isSome_iff_exists.mp hr
  have hraw := h.raw n (Nat.le_refl _) hn
  have hu : uadd E.M n 1 = n + 1 := by have : Vec.Fits E cap := hF; unfold Vec.Fits at this; unfold uadd; rw [if_pos (by omega)]
  have hnb : ¬ s.nbuf ≤ n := by rw [h.buf]; omega
  refine ⟨{ s with slot := upd s.slot n (some v), cnt := s.cnt + 1, e := n + 1 }, ?_, ?_⟩
  · unfold constructEnd
    have he : gets end_ s = .ok (n : Int) s := by simp [gets, end_, begin_, h.fin]
    have hc : deref (n : Int) (fun i => construct E i r) s = .ok () { s with slot := upd s.slot n (some v), cnt := s.cnt + 1 } := by
      have : ¬ ((n : Int) < 0) := by omega
      simp only [deref, if_neg this, Int.toNat_natCast, construct, if_neg hnb, hraw, hv, hnt]
      rfl
    rw [Cmd.bind_ok he, Cmd.bind_ok hc]
    simp [Cmd.modify, h.fin, hu]
  · refine ⟨h.buf, rfl, hn, fun j hj => ?_, fun j h1 h2 => ?_⟩
    · show (upd s.slot n (some v) j).isSome = true
      by_cases hj' : j = n
      · subst hj'; simp
      · rw [upd_ne _ _ hj']; exact h.live j (by omega)
    · show upd s.slot n (some v) j = none
      rw [upd_ne _ _ (by omega)]; exact h.raw j (by omega) h2

theorem constructEnd_ub {E : Env V} {cap : Nat} {s : St V} {r : Ref V} (h : Lin cap cap s) :
    constructEnd E r s = .ub .outOfBounds := by
  unfold constructEnd
  have he : gets end_ s = .ok (cap : Int) s := by simp [gets, end_, begin_, h.fin]
  rw [Cmd.bind_ok he]
  apply Cmd.bind_ub
  have : ¬ ((cap : Int) < 0) := by omega
  simp only [deref, if_neg this, Int.toNat_natCast, construct, h.buf]
  rw [if_pos (Nat.le_refl _)]

theorem pushBack_cont (E : Env V) (r : Ref V) (s : St V) : pushBack .cont E r s = constructEnd E r s := by
  unfold pushBack
  show (Cmd.bind _ _) s = _
  simp only [Cmd.bind, gets]
  cases full s <;> rfl

/-- Growing past the capacity, element by element. -/
theorem forN_grow_ub {E : Env V} {cap n N : Nat} {s : St V} {body : Nat → Cmd (St V) Unit} (hF : Props.Vector.Fits E cap) (hN : cap < n + N)
    (h : Lin cap n s)
    (hok : ∀ k s, n + k < cap → Lin cap (n + k) s → ∃ s', body k s = .ok () s' ∧ Lin cap (n + (k+1)) s')
    (hub : ∀ s k, Lin cap cap s → k < N → body k s = .ub .outOfBounds) : forN E.fuel N body s = .ub .outOfBounds := by
  have hF' : Vec.Fits E cap := hF
  unfold Vec.Fits at hF'
  have hle := h.le
  refine forN_ub_at (cap - n) (fun k s => Lin cap (n + k) s) (by omega) (by unfold Env.fuel; omega) h
    (fun k s hk hI => hok k s (by omega) hI) (fun s hI => hub s _ (by simpa [show n + (cap - n) = cap by omega] using hI) (by omega))

theorem clear_lin {E : Env V} {cap : Nat} {xs : List V} {s : St V} (hF : Props.Vector.Fits E cap) (h : Holds cap xs s) :
    ∃ s', clear E s = .ok () s' ∧ Lin cap 0 s' := by
  have hw := clear_wp (Q := fun _ s' => Lin cap 0 s') (X := fun _ _ => False) hF h.rep
    (fun s' h' _ => by simpa using lin_of_holds (Holds.of h'))
  rcases wp_cases hw with ⟨_, s', h1, h2⟩ | ⟨_, _, _, h2⟩
  · exact ⟨s', h1, h2⟩
  · exact h2.elim

theorem resize_ub {E : Env V} {cap n m : Nat} {s : St V} {v : V} (hF : Props.Vector.Fits E cap) (hnt : ∀ k, E.thr k = false)
    (h : Lin cap m s) (hn : cap < n) : resize .cont E n (.ext v) s = .ub .outOfBounds := by
  have hle := h.le
  unfold resize
  have h1 : gets size s = .ok m s := by simp [gets, size, h.fin]
  have h2 : (gets maxSize : Cmd (St V) Nat) s = .ok cap s := by simp [gets, maxSize, h.buf]
  rw [Cmd.bind_ok h1, if_neg (by omega), Cmd.bind_ok h2]
  have h3 : check (σ := St V) .cont .badAlloc (decide (cap < n)) s = .ok () s := by simp [check, hn]; rfl
  rw [Cmd.bind_ok h3, Cmd.bind_ok h1]
  have hu : usub E.M n m = n - m := by unfold usub; rw [if_pos (by omega)]
  rw [hu]
  refine forN_grow_ub hF (by omega) h (fun k s hk hI => ?_) (fun s k hI _ => ?_)
  · rw [pushBack_cont]; exact constructEnd_ok hF hnt hI hk rfl
  · rw [pushBack_cont]; exact constructEnd_ub hI

theorem countRange_run {E : Env V} {src : List V} (hl : src.length < E.M) (s : St V) : countRange E src s = .ok src.length s := by
  have hw := countRange_wp (E := E) (src := src) (s := s) (Q := fun n s' => n = src.length ∧ s' = s) (X := fun _ _ => False) hl ⟨rfl, rfl⟩
  rcases wp_cases hw with ⟨a, s', h1, rfl, rfl⟩ | ⟨_, _, _, h2⟩
  · exact h1
  · exact h2.elim

theorem check_cont {σ : Type} (e : Exn) (c : Bool) (s : σ) : check .cont e c s = .ok () s := by cases c <;> rfl

theorem constructElem {E : Env V} {cap n m q : Nat} {s : St V} (hF : Props.Vector.Fits E cap) (hnt : ∀ k, E.thr k = false)
    (h : Lin cap n s) (hn : n < cap) (hq : q < m) (hm : m ≤ n) :
    ∃ s', deref (q : Int) (fun j => constructEnd E (.elem j)) s = .ok () s' ∧ Lin cap (n + 1) s' := by
  have : ¬ ((q : Int) < 0) := by omega
  simp only [deref, if_neg this, Int.toNat_natCast]
  refine constructEnd_ok hF hnt h hn ?_
  have h3 := h.live q (by omega)
  simp only [Ref.get, h.buf, if_pos (show q < cap by omega), h3]

theorem avail_run {E : Env V} {cap m : Nat} {s : St V} (h : Lin cap m s) : availableSize E s = cap - m := by
  have := h.le
  simp only [availableSize, maxSize, size, h.buf, h.fin]
  unfold usub; rw [if_pos (by omega)]

/-- The tail of the elements is copied past the end (second loop of `insert_n` and `insert_range`). -/
theorem copyTail_ub {E : Env V} {cap m p n : Nat} {s : St V} (hF : Props.Vector.Fits E cap) (hnt : ∀ k, E.thr k = false)
    (h : Lin cap n s) (hp : p ≤ m) (hm : m ≤ n) (hN : cap < n + (m - p)) :
    forIter E.fuel (p : Int) ((p : Int) + ((m - p : Nat) : Int)) (· + 1) (fun it => deref it fun j => constructEnd E (.elem j)) s
      = .ub .outOfBounds := by
  have hF' : Vec.Fits E cap := hF
  unfold Vec.Fits at hF'
  have hle := h.le
  refine forIter_ub_at (cap - n) (fun k => ((p + k : Nat) : Int)) (fun k s => Lin cap (n + k) s) (by unfold Env.fuel; omega)
    rfl (fun k hk => by omega) (fun k hk => by omega) h (fun k s hk hI => ?_) (fun s hI => ?_)
  · exact constructElem (n := n + k) (m := m) hF hnt hI (by omega) (by omega) (by omega)
  · have hI' : Lin cap cap s := by simpa [show n + (cap - n) = cap by omega] using hI
    have : ¬ (((p + (cap - n) : Nat) : Int) < 0) := by omega
    simp only [deref, if_neg this]
    exact constructEnd_ub hI'

theorem insertN_ub {E : Env V} {cap n m p : Nat} {s : St V} {v : V} (hF : Props.Vector.Fits E cap) (hnt : ∀ k, E.thr k = false)
    (hnM : n < E.M) (h : Lin cap m s) (hp : p ≤ m) (hn : cap < m + n) : insertN_ .cont E (p : Int) n (.ext v) s = .ub .outOfBounds := by
  have hF' : Vec.Fits E cap := hF
  unfold Vec.Fits at hF'
  have hle := h.le
  unfold insertN_
  have h1 : gets (availableSize E) s = .ok (cap - m) s := by simp [gets, avail_run h]
  have h2 : gets end_ s = .ok (m : Int) s := by simp [gets, end_, begin_, h.fin]
  rw [Cmd.bind_ok h1, Cmd.bind_ok (check_cont _ _ _), Cmd.bind_ok h2]
  have hnum : toSize E.M ((m : Int) - (p : Int)) = m - p := by
    rw [toSize_of_nonneg (by omega) (by omega)]; omega
  simp only [hnum]
  by_cases hc : m - p > n
  · rw [if_pos hc]
    apply Cmd.bind_ub
    refine forN_grow_ub hF (by omega) h (fun k s hk hI => constructEnd_ok hF hnt hI hk rfl) (fun s k hI _ => constructEnd_ub hI)
  · rw [if_neg hc]
    have hu : usub E.M n (m - p) = n - (m - p) := by unfold usub; rw [if_pos (by omega)]
    rw [hu]
    by_cases hc2 : cap < m + (n - (m - p))
    · apply Cmd.bind_ub
      refine forN_grow_ub hF hc2 h (fun k s hk hI => constructEnd_ok hF hnt hI hk rfl) (fun s k hI _ => constructEnd_ub hI)
    · have hw : wp (forN E.fuel (n - (m - p)) (fun _ => constructEnd E (.ext v))) (fun _ s' => Lin cap (m + (n - (m - p))) s') (fun _ _ => False) s := by
        refine wp_forN (fun k s => Lin cap (m + k) s) (by unfold Env.fuel; omega) h (fun k s hk hI => ?_) (fun s hI => hI)
        obtain ⟨s', e1, e2⟩ := constructEnd_ok (r := .ext v) hF hnt hI (by omega) rfl
        unfold wp; rw [e1]; exact e2
      rcases wp_cases hw with ⟨_, s', e1, e2⟩ | ⟨_, _, _, e2⟩
      · rw [Cmd.bind_ok e1]
        apply Cmd.bind_ub
        exact copyTail_ub hF hnt e2 hp (by omega) (by omega)
      · exact e2.elim

theorem srcRead_run {src : List V} {j : Nat} (hj : j < src.length) (s : St V) : srcRead src j s = .ok src[j] s := by
  simp [srcRead, List.getElem?_eq_getElem hj]; rfl

theorem insertRange_ub {E : Env V} {cap m p : Nat} {src : List V} {s : St V} (hF : Props.Vector.Fits E cap) (hnt : ∀ k, E.thr k = false)
    (hnM : src.length < E.M) (h : Lin cap m s) (hp : p ≤ m) (hn : cap < m + src.length) :
    insertRange_ .cont E (p : Int) src s = .ub .outOfBounds := by
  have hF' : Vec.Fits E cap := hF
  unfold Vec.Fits at hF'
  have hle := h.le
  unfold insertRange_
  have h1 : gets (availableSize E) s = .ok (cap - m) s := by simp [gets, avail_run h]
  have h2 : gets end_ s = .ok (m : Int) s := by simp [gets, end_, begin_, h.fin]
  rw [Cmd.bind_ok (countRange_run hnM s), Cmd.bind_ok h1, Cmd.bind_ok (check_cont _ _ _), Cmd.bind_ok h2]
  have hnum : toSize E.M ((m : Int) - (p : Int)) = m - p := by
    rw [toSize_of_nonneg (by omega) (by omega)]; omega
  simp only [hnum]
  by_cases hc : m - p > src.length
  · rw [if_pos hc]
    apply Cmd.bind_ub
    refine forN_grow_ub hF (by omega) h (fun k s hk hI => constructEnd_ok hF hnt hI hk rfl) (fun s k hI _ => constructEnd_ub hI)
  · rw [if_neg hc]
    have hu : usub E.M src.length (m - p) = src.length - (m - p) := by unfold usub; rw [if_pos (by omega)]
    rw [hu]
    by_cases hc2 : cap < m + (src.length - (m - p))
    · apply Cmd.bind_ub
      refine forN_grow_ub hF hc2 h (fun k s hk hI => ?_) (fun s k hI hk => ?_)
      · rw [Cmd.bind_ok (srcRead_run (by omega) s)]
        exact constructEnd_ok hF hnt hI hk rfl
      · rw [Cmd.bind_ok (srcRead_run (by omega) s)]; exact constructEnd_ub hI
    · have hw : wp (forN E.fuel (src.length - (m - p)) (fun i => do let v ← srcRead src (m - p + i); constructEnd E (.ext v)))
          (fun _ s' => Lin cap (m + (src.length - (m - p))) s') (fun _ _ => False) s := by
        refine wp_forN (fun k s => Lin cap (m + k) s) (by unfold Env.fuel; omega) h (fun k s hk hI => ?_) (fun s hI => hI)
        obtain ⟨s', e1, e2⟩ := constructEnd_ok (r := .ext (src[m - p + k]'(by omega))) hF hnt hI (by omega) rfl
        unfold wp; rw [Cmd.bind_ok (srcRead_run (by omega) s), e1]; exact e2
      rcases wp_cases hw with ⟨_, s', e1, e2⟩ | ⟨_, _, _, e2⟩
      · rw [Cmd.bind_ok e1]
        apply Cmd.bind_ub
        exact copyTail_ub hF hnt e2 hp (by omega) (by omega)
      · exact e2.elim

theorem dassert_cont (E : Env V) (c : St V → Bool) : dassertM .cont E c = pure () := by
  funext s; unfold dassertM; split <;> rfl

theorem grow_threw {cap : Nat} {xs ys : List V} {r : Ret V} {e : Exn} (h : some (grow cap xs ys r) = some (xs, .threw e)) : cap < ys.length := by
  unfold grow at h
  split at h
  · simp at h
  · omega

theorem exec_cont_ub {E : Env V} {cap : Nat} {xs : List V} {s : St V} {o : Op V} {e : Exn} (hF : Props.Vector.Fits E cap)
    (hnt : ∀ k, E.thr k = false) (h : Holds cap xs s) (ho : Callable E o) (hap : apply cap xs o = some (xs, .threw e)) :
    ∃ f, VecM.exec .cont E o s = .ub f := by
  have hF' : Vec.Fits E cap := hF
  unfold Vec.Fits at hF'
  have hl := lin_of_holds h
  have hle := h.le
  obtain ⟨ho1, ho2⟩ := ho
  cases o with
  | pushBack v =>
    have := grow_threw hap
    simp at this
    refine ⟨.outOfBounds, Cmd.bind_ub ?_⟩
    rw [pushBack_cont]
    exact constructEnd_ub (by have : xs.length = cap := by omega
                              rwa [this] at hl)
  | insert p v =>
    simp only [apply] at hap
    split at hap
    · have := grow_threw hap
      simp [ins] at this
      refine ⟨.outOfBounds, Cmd.bind_ub ?_⟩
      show (dassertM .cont E _ >>= fun _ => _) s = _
      rw [dassert_cont]
      exact Cmd.bind_ub (m := insertN_ .cont E (p : Int) 1 (.ext v)) (insertN_ub hF hnt (by omega) hl (by assumption) (by omega))
    · cases hap
  | insertN p n v =>
    simp only [apply] at hap
    split at hap
    · have := grow_threw hap
      simp [ins] at this
      refine ⟨.outOfBounds, Cmd.bind_ub ?_⟩
      show (dassertM .cont E _ >>= fun _ => _) s = _
      rw [dassert_cont]
      exact insertN_ub hF hnt ho2 hl (by assumption) (by omega)
    · cases hap
  | insertInt p n v =>
    simp only [apply] at hap
    obtain ⟨hr1, hr2⟩ : -(E.M : Int) ≤ 2 * n ∧ n < E.M := ho2
    split at hap
    · refine ⟨.outOfBounds, Cmd.bind_ub ?_⟩
      show (dassertM .cont E _ >>= fun _ => _) s = _
      rw [dassert_cont]
      by_cases hn : n < 0
      · have h1 : toSize E.M n = (n + E.M).toNat := by
          unfold toSize
          rw [← Int.add_emod_right, Int.emod_eq_of_lt (by omega) (by omega)]
        exact insertN_ub hF hnt (by rw [h1]; omega) hl (by assumption) (by rw [h1]; omega)
      · rw [if_neg hn] at hap
        have := grow_threw hap
        simp [ins] at this
        have h1 : toSize E.M n = n.toNat := toSize_of_nonneg (by omega) (by omega)
        exact insertN_ub hF hnt (by rw [h1]; omega) hl (by assumption) (by rw [h1]; omega)
    · cases hap
  | insertRange p src =>
    simp only [apply] at hap
    split at hap
    · have := grow_threw hap
      simp [ins] at this
      refine ⟨.outOfBounds, Cmd.bind_ub ?_⟩
      show (dassertM .cont E _ >>= fun _ => _) s = _
      rw [dassert_cont]
      exact insertRange_ub hF hnt ho2 hl (by assumption) (by omega)
    · cases hap
  | resize n v =>
    have := grow_threw hap
    simp at this
    exact ⟨.outOfBounds, Cmd.bind_ub (resize_ub hF hnt hl (by omega))⟩
  | assignN n v =>
    have := grow_threw hap
    simp at this
    obtain ⟨s', e1, e2⟩ := clear_lin hF h
    refine ⟨.outOfBounds, Cmd.bind_ub ?_⟩
    unfold VecM.assignN
    rw [Cmd.bind_ok (show gets maxSize s = .ok cap s by simp [gets, maxSize, h.buf]), Cmd.bind_ok (check_cont _ _ _), Cmd.bind_ok e1]
    exact resize_ub hF hnt e2 this
  | assignRange src =>
    have hc := grow_threw hap
    have hs : src.length < E.M := ho2
    obtain ⟨s', e1, e2⟩ := clear_lin hF h
    refine ⟨.outOfBounds, Cmd.bind_ub ?_⟩
    unfold VecM.assignRange
    rw [Cmd.bind_ok (countRange_run hs s), Cmd.bind_ok (show gets maxSize s = .ok cap s by simp [gets, maxSize, h.buf]),
      Cmd.bind_ok (check_cont _ _ _), Cmd.bind_ok e1]
    refine forIter_ub_at cap (fun k => k) (fun k s => Lin cap k s) (by unfold Env.fuel; omega) rfl (fun k hk => by omega)
      (fun _ _ => rfl) e2 (fun k s hk hI => ?_) (fun s hI => ?_)
    · rw [Cmd.bind_ok (srcRead_run (by omega) s), pushBack_cont]
      exact constructEnd_ok hF hnt hI hk rfl
    · rw [Cmd.bind_ok (srcRead_run (by omega) s), pushBack_cont]; exact constructEnd_ub hI
  | at_ i =>
    have hi : xs.length ≤ i := by
      simp only [apply, Option.some.injEq, Prod.mk.injEq, true_and] at hap
      split at hap
      · cases hap
      · rename_i hh; simpa using hh
    have h1 : gets size s = .ok xs.length s := by simp [gets, h.sz]
    have h2 : ∃ f, deref (begin_ + (i : Int)) readSlot s = .ub f := by
      have : ¬ ((i : Int) < 0) := by omega
      simp only [begin_, Int.zero_add, deref, if_neg this, readSlot, Int.toNat_natCast, h.buf]
      by_cases hci : cap ≤ i
      · exact ⟨_, by rw [if_pos hci]⟩
      · exact ⟨.deadRead, by rw [if_neg hci, hl.raw i hi (by omega)]⟩
    obtain ⟨f, hf⟩ := h2
    refine ⟨f, Cmd.bind_ub ?_⟩
    unfold VecM.at_
    rw [Cmd.bind_ok h1, Cmd.bind_ok (check_cont _ _ _)]
    exact hf
  | pushFront v => cases ho1
  | popFront => cases ho1
  | popBack => simp only [apply] at hap; split at hap <;> simp at hap
  | erase p => simp only [apply] at hap; split at hap <;> simp at hap
  | eraseRange a b => simp only [apply] at hap; split at hap <;> simp at hap
  | index i => simp [apply] at hap
  | front => simp [apply] at hap
  | back => simp [apply] at hap
  | _ => cases hap
end VecM
end Verif
