import Verif.Proof.MessageQueue
/-
Properties C46–C50: `MessageQueue<T>` for every schedule of any number of threads, any message type and capacity, timeouts, platform
errors and throwing copies.  The specification is `Verif/Spec/MessageQueue.lean`.
-/
namespace Verif.Props.MessageQueue
open Verif
open _root_.Verif.Mtx (Tid Err)
open _root_.Verif.EvF (Tmo)
open MQ Spec Lts
variable {V : Type}
set_option linter.unusedSectionVars false

/-! #### Specification -/

/-- The message a call sends. -/
def msgOf : Call V → Option V
  | .send v | .trySend v | .timedSend v _ => some v
  | _ => none
/-- Whether a receive asks for the message. -/
def wants : Call V → Bool
  | .receive out | .tryReceive out | .timedReceive out _ => out
  | _ => false
/-- The timeout of a call. -/
def tmoOf : Call V → Tmo
  | .trySend _ | .tryReceive _ => .ms 0
  | .timedSend _ tm | .timedReceive _ tm => tm
  | _ => .forever

/-- The messages whose send succeeded, in the order the sends took effect. -/
def sent (tr : List (Ev V)) : List V :=
  tr.filterMap (fun | .lin _ c (.done .OK _) => msgOf c | _ => none)
/-- The receives that succeeded, in the order they took effect: whether the caller wanted the message, and what it got. -/
def received (tr : List (Ev V)) : List (Bool × Option V) :=
  tr.filterMap (fun | .lin _ c (.done .OK v) => if isRecv c then some (wants c, v) else none | _ => none)

/-- The calls that returned to `t`, with their results. -/
def returned (t : Tid) (tr : List (Ev V)) : List (Call V × Res V) :=
  tr.filterMap (fun | .ret u c r => if u = t then some (c, r) else none | _ => none)
/-- The calls of `t` that took effect. -/
def effectsOf (t : Tid) (tr : List (Ev V)) : List (Call V × Res V) :=
  tr.filterMap (fun | .lin u c r => if u = t then some (c, r) else none | _ => none)

/-- The messages stored in the ring buffer, oldest first. -/
def stored (s : MQ.St V) : List (Option V) := (List.range (size s)).map (fun i => s.buf ((s.b + i) % s.nb))

/-- `t` has called `c`, which has not taken effect yet. -/
def Pending (s : MQ.St V) (t : Tid) (c : Call V) : Prop :=
  match s.pc t with
  | .entry c' | .sLock c' _ _ | .sChkLock c' _ _ | .sChk c' _ _ | .sReset c' _ _ | .sChkUnl c' _ _ _ | .sWait c' _ _ | .sPushLock c' _
  | .sCons c' _ | .sAdv c' _ | .rLock c' _ _ | .rChkLock c' _ _ | .rChk c' _ _ | .rReset c' _ _ | .rChkUnl c' _ _ _ | .rWait c' _ _
  | .rPopLock c' _ | .rCopy c' _ | .rDes c' _ | .rAdv c' _ _ | .zLock c' | .zRead c' => c' = c
  | _ => False

/-- Between operations on the ring: no thread is between the two assignments of `push` or of `pop`. -/
def Settled (s : MQ.St V) : Prop := ∀ t, (∀ c v, s.pc t ≠ .sAdv c v) ∧ ∀ c g x, s.pc t ≠ .rAdv c g x

/-! #### From the specification's history to the lists -/
variable [DecidableEq V]

theorem msgOf_snd {c : Call V} {v : V} {tm : Tmo} (h : dispatch c = .snd v tm) : msgOf c = some v := by cases c <;> simp_all [dispatch, msgOf]
theorem msgOf_rcv {c : Call V} {o : Bool} {tm : Tmo} (h : dispatch c = .rcv o tm) : msgOf c = none := by cases c <;> simp_all [dispatch, msgOf]
theorem wants_rcv {c : Call V} {o : Bool} {tm : Tmo} (h : dispatch c = .rcv o tm) : wants c = o := by cases c <;> simp_all [dispatch, wants]
theorem tmo_rcv {c : Call V} {o : Bool} {tm : Tmo} (h : dispatch c = .rcv o tm) : tmoOf c = tm := by cases c <;> simp_all [dispatch, tmoOf]
theorem tmo_snd {c : Call V} {v : V} {tm : Tmo} (h : dispatch c = .snd v tm) : tmoOf c = tm := by cases c <;> simp_all [dispatch, tmoOf]
theorem isRecv_snd {c : Call V} {v : V} {tm : Tmo} (h : dispatch c = .snd v tm) : isRecv c = false := by cases c <;> simp_all [dispatch, isRecv]

def sentE : Eff V → Option V
  | .op c (.done .OK _) => msgOf c
  | _ => none
def receivedE : Eff V → Option (Bool × Option V)
  | .op c (.done .OK v) => if isRecv c then some (wants c, v) else none
  | _ => none

theorem sent_eff (tr : List (Ev V)) : sent tr = (effects tr).filterMap sentE := by
  unfold sent effects
  rw [List.filterMap_filterMap]
  congr 1; funext e
  cases e <;> simp [sentE]
  case lin t c r => cases r <;> (try rfl); next e _ => cases e <;> rfl

theorem received_eff (tr : List (Ev V)) : received tr = (effects tr).filterMap receivedE := by
  unfold received effects
  rw [List.filterMap_filterMap]
  congr 1; funext e
  cases e <;> simp [receivedE]
  case lin t c r => cases r <;> (try rfl); next e _ => cases e <;> rfl

/-- What receives should have got, given the messages they took. -/
def Got : List (Bool × Option V) → List V → Prop
  | [], [] => True
  | (w, o) :: rs, v :: vs => o = (if w then some v else none) ∧ Got rs vs
  | _, _ => False

theorem Got.snoc {rs : List (Bool × Option V)} {vs : List V} (h : Got rs vs) (w : Bool) (v : V) :
    Got (rs ++ [(w, if w then some v else none)]) (vs ++ [v]) := by
  induction rs generalizing vs with
  | nil => cases vs <;> simp_all [Got]
  | cons x rs ih =>
    cases vs with
    | nil => simp [Got] at h
    | cons y vs => obtain ⟨a, b⟩ := x; simp only [Got, List.cons_append] at h ⊢; exact ⟨h.1, ih h.2⟩

theorem hist_lists {cap : Nat} {h : List (Eff V)} {q : List V} (hh : Hist cap h q) :
    ∃ taken, h.filterMap sentE = taken ++ q ∧ Got (h.filterMap receivedE) taken := by
  induction hh with
  | nil => exact ⟨[], rfl, trivial⟩
  | @snoc h q x q' hh hl ih =>
    obtain ⟨taken, h1, h2⟩ := ih
    rw [List.filterMap_append, List.filterMap_append]
    cases x with
    | sawFull => obtain ⟨_, rfl⟩ := hl; exact ⟨taken, by simp [h1, sentE], by rw [show List.filterMap receivedE [Eff.sawFull (V := V)] = [] from rfl, List.append_nil]; exact h2⟩
    | sawEmpty => obtain ⟨_, rfl⟩ := hl; exact ⟨taken, by simp [h1, sentE], by rw [show List.filterMap receivedE [Eff.sawEmpty (V := V)] = [] from rfl, List.append_nil]; exact h2⟩
    | op c r =>
      rw [legal_iff] at hl
      have same : q' = q → sentE (.op c r) = none → receivedE (.op c r) = none →
          ∃ taken, List.filterMap sentE h ++ List.filterMap sentE [.op c r] = taken ++ q' ∧
            Got (List.filterMap receivedE h ++ List.filterMap receivedE [.op c r]) taken := by
        intro e1 e2 e3; exact ⟨taken, by simp [h1, e2, e1], by simpa [e3] using h2⟩
      have failed : ∀ r : Res V, Failed r → sentE (.op c r) = none ∧ receivedE (.op c r) = none := by
        rintro r (rfl | rfl | rfl) <;> exact ⟨rfl, rfl⟩
      cases hd : dispatch c with
      | size => rw [hd] at hl; obtain ⟨rfl, rfl⟩ := hl; exact same rfl rfl rfl
      | maxSize => rw [hd] at hl; obtain ⟨rfl, rfl⟩ := hl; exact same rfl rfl rfl
      | snd v tm =>
        rw [hd] at hl
        rcases hl with ⟨rfl, _, rfl⟩ | ⟨rfl, _, rfl⟩ | ⟨hf, rfl⟩
        · exact ⟨taken, by simp [h1, sentE, msgOf_snd hd], by simpa [receivedE, isRecv_snd hd] using h2⟩
        · exact same rfl rfl rfl
        · exact same rfl (failed r hf).1 (failed r hf).2
      | rcv o tm =>
        rw [hd] at hl
        rcases hl with ⟨v, rfl, rfl⟩ | ⟨rfl, _, rfl⟩ | ⟨hf, rfl⟩
        · refine ⟨taken ++ [v], by simp [h1, sentE, msgOf_rcv hd], ?_⟩
          have : receivedE (.op c (.done .OK (if o then some v else none))) = some (o, if o then some v else none) := by
            simp [receivedE, isRecv_of hd, wants_rcv hd]
          simp only [List.filterMap_cons, List.filterMap_nil, this]
          exact h2.snoc o v
        · exact same rfl rfl rfl
        · exact same rfl (failed r hf).1 (failed r hf).2

theorem hist_cap {cap : Nat} {h : List (Eff V)} {q : List V} (hh : Hist cap h q) : q.length ≤ cap := by
  induction hh with
  | nil => simp
  | @snoc h q x q' hh hl ih =>
    cases x with
    | sawFull => obtain ⟨_, rfl⟩ := hl; exact ih
    | sawEmpty => obtain ⟨_, rfl⟩ := hl; exact ih
    | op c r =>
      rw [legal_iff] at hl
      cases hd : dispatch c <;> rw [hd] at hl
      case size | maxSize => rw [hl.2]; exact ih
      case snd v tm =>
        rcases hl with ⟨_, h1, rfl⟩ | ⟨_, _, rfl⟩ | ⟨_, rfl⟩
        · simp; omega
        · exact ih
        · exact ih
      case rcv o tm =>
        rcases hl with ⟨v, rfl, _⟩ | ⟨_, _, rfl⟩ | ⟨_, rfl⟩
        · simp at ih; omega
        · exact ih
        · exact ih

theorem hist_at {cap : Nat} {h : List (Eff V)} {q : List V} (hh : Hist cap h q) {h1 h2 x} (e : h = h1 ++ x :: h2) :
    ∃ q1 q2, Hist cap h1 q1 ∧ Legal cap q1 x q2 := by
  induction hh generalizing h2 with
  | nil => simp at e
  | @snoc h' q c' q' hh hl ih =>
    rcases List.eq_nil_or_concat h2 with rfl | ⟨h3, y, rfl⟩
    · obtain ⟨rfl, e'⟩ := List.append_inj' e rfl
      rw [List.cons.injEq] at e'
      obtain ⟨rfl, _⟩ := e'
      exact ⟨q, q', hh, hl⟩
    · rw [List.concat_eq_append, ← List.cons_append, ← List.append_assoc] at e
      obtain ⟨e1, _⟩ := List.append_inj' e rfl
      exact ih e1

def pendingEff : Phase V → List (Call V × Res V)
  | .done c r => [(c, r)]
  | _ => []

theorem returned_effects (t : Tid) (tr : List (Ev V)) (h : phase t tr ≠ .bad) :
    effectsOf t tr = returned t tr ++ pendingEff (phase t tr) := by
  have bad : ∀ tr : List (Ev V), tr.foldl (Phase.next t) .bad = .bad := by
    intro tr
    induction tr with
    | nil => rfl
    | cons e tr ih =>
      rw [List.foldl_cons]
      have : Phase.next t .bad e = .bad := by cases e <;> simp [Phase.next]
      rw [this]; exact ih
  have key : ∀ (tr : List (Ev V)) (ph : Phase V), tr.foldl (Phase.next t) ph ≠ .bad →
      pendingEff ph ++ effectsOf t tr = returned t tr ++ pendingEff (tr.foldl (Phase.next t) ph) := by
    intro tr
    induction tr with
    | nil => intro ph _; simp [effectsOf, returned]
    | cons e tr ih =>
      intro ph hb
      rw [List.foldl_cons] at hb ⊢
      have h1 := ih _ hb
      have hnb : Phase.next t ph e ≠ .bad := fun e => by rw [e, bad] at hb; exact hb rfl
      have h2 : pendingEff ph ++ effectsOf t [e] = returned t [e] ++ pendingEff (Phase.next t ph e) := by
        cases e with
        | call u c =>
          by_cases hu : u = t
          · cases ph <;> simp [Phase.next, hu, effectsOf, returned, pendingEff] at hnb ⊢
          · simp [Phase.next, hu, effectsOf, returned]
        | busy u | sawFull u | sawEmpty u =>
          by_cases hu : u = t
          · cases ph <;> simp [Phase.next, hu, effectsOf, returned, pendingEff] at hnb ⊢ <;> (try split at hnb) <;> simp_all
          · simp [Phase.next, hu, effectsOf, returned]
        | lin u c r =>
          by_cases hu : u = t
          · cases ph <;> simp [Phase.next, hu, effectsOf, returned, pendingEff] at hnb ⊢ <;> (try split at hnb) <;> simp_all
          · simp [Phase.next, hu, effectsOf, returned]
        | ret u c r =>
          by_cases hu : u = t
          · by_cases hp : ph = .done c r
            · simp [Phase.next, hu, hp, effectsOf, returned, pendingEff]
            · simp [Phase.next, hu, hp] at hnb
          · simp [Phase.next, hu, effectsOf, returned]
      have e1 : effectsOf t (e :: tr) = effectsOf t [e] ++ effectsOf t tr := by
        rw [show e :: tr = [e] ++ tr from rfl]; simp only [effectsOf, List.filterMap_append]
      have e2 : returned t (e :: tr) = returned t [e] ++ returned t tr := by
        rw [show e :: tr = [e] ++ tr from rfl]; simp only [returned, List.filterMap_append]
      rw [e1, e2, ← List.append_assoc, h2, List.append_assoc, List.append_assoc, h1]
  simpa [pendingEff, phase] using key tr .out h

theorem loc_not_bad {cap : Nat} {s : MQ.St V} {l : List V} {ph : Phase V} {p : PC V} (h : Loc cap s l ph p) : ph ≠ .bad := by
  cases p <;> simp only [Loc, Called] at h <;> grind

theorem lin_reach {cap : Nat} {s : MQ.St V} {tr : List (Ev V)} {l : List V} {Qs Qr : Prop} (I : MQ.InvG Qs Qr cap s tr l) : Linearizable cap tr l :=
  ⟨I.hist, fun t => loc_not_bad (I.loc t)⟩

theorem ret_eff {cap : Nat} {tr : List (Ev V)} {q : List V} (h : Linearizable cap tr q) {t c r} (hr : Ev.ret t c r ∈ tr) :
    Eff.op c r ∈ effects tr := by
  have : (c, r) ∈ effectsOf t tr := by
    rw [returned_effects t tr (h.2 t)]
    apply List.mem_append_left
    simp only [returned, List.mem_filterMap]
    exact ⟨_, hr, by simp⟩
  simp only [effectsOf, effects, List.mem_filterMap] at this ⊢
  obtain ⟨e, he, hx⟩ := this
  refine ⟨e, he, ?_⟩
  cases e <;> simp at hx ⊢
  exact hx.2

/-! #### C46 -/

theorem inv_lin {Qs Qr : Prop} {cap : Nat} {s : MQ.St V} {tr : List (Ev V)} {l : List V} (I : MQ.InvG Qs Qr cap s tr l) :
    ∃ q, Linearizable cap tr q ∧ (Settled s → stored s = q.map some) := by
  refine ⟨l, lin_reach I, fun hset => ?_⟩
  have hR : R s.nb s.b s.e s.buf l := I.ring fun t => by
    have := hset t
    cases hp : s.pc t <;> simp_all [mid]
  unfold stored
  rw [hR.size_eq]
  apply List.ext_getElem?
  intro i
  have hl := hR.hl
  by_cases hi : i < l.length
  · simp [List.getElem?_map, List.getElem?_range hi, hR.hc i (by omega), List.getElem?_eq_getElem hi]
  · rw [List.getElem?_eq_none (by simp; omega), List.getElem?_eq_none (by simp; omega)]

/-- Every execution is linearizable with respect to the bounded FIFO queue, and the ring buffer stores exactly the queue. -/
theorem C46_linearizable {cap : Nat} {s : MQ.St V} {tr : List (Ev V)} (h : Reach MQ.step (MQ.init V cap) s tr) :
    ∃ q, Linearizable cap tr q ∧ (Settled s → stored s = q.map some) := by
  obtain ⟨l, I⟩ := MQ.Inv.reach h
  exact inv_lin I

/-- What was taken out followed by what is in the queue is what was sent, in order; each successful receive got exactly the message
it took (or nothing if it passed a null pointer). -/
theorem C46_fifo {cap : Nat} {s : MQ.St V} {tr : List (Ev V)} (h : Reach MQ.step (MQ.init V cap) s tr) :
    ∃ taken q, sent tr = taken ++ q ∧ Got (received tr) taken ∧ q.length ≤ cap ∧ (Settled s → stored s = q.map some) := by
  obtain ⟨q, hl, hs⟩ := C46_linearizable h
  obtain ⟨taken, h1, h2⟩ := hist_lists hl.1
  exact ⟨taken, q, by rw [sent_eff, h1], by rw [received_eff]; exact h2, hist_cap hl.1, hs⟩

/-- The results returned to a thread are those of its calls' effects, in the thread's order; at most one effect has not returned yet. -/
theorem C46_order {cap : Nat} {s : MQ.St V} {tr : List (Ev V)} (h : Reach MQ.step (MQ.init V cap) s tr) (t : Tid) :
    ∃ rest, effectsOf t tr = returned t tr ++ rest ∧ rest.length ≤ 1 := by
  obtain ⟨q, hl, _⟩ := C46_linearizable h
  refine ⟨_, returned_effects t tr (hl.2 t), ?_⟩
  cases phase t tr <;> simp [pendingEff]

/-! #### C47 -/

theorem inv_cap {Qs Qr : Prop} {cap : Nat} {s : MQ.St V} {tr : List (Ev V)} {l : List V} (I : MQ.InvG Qs Qr cap s tr l) :
    size s ≤ cap ∧ maxSize s = cap ∧
    (∀ t r, Ev.ret t .getSize r ∈ tr → ∃ n, n ≤ cap ∧ r = .num n) ∧ ∀ t r, Ev.ret t .getMaxSize r ∈ tr → r = .num cap := by
  have hlin := lin_reach I
  refine ⟨?_, by simp [maxSize, I.nb], fun t r hr => ?_, fun t r hr => ?_⟩
  · have hcap := hist_cap I.hist
    by_cases hm : ∀ t, mid (s.pc t) = false
    · rw [(I.ring hm).size_eq]; exact hcap
    · have ⟨t, ht⟩ : ∃ t, mid (s.pc t) = true := by
        apply Classical.byContradiction; intro hn; apply hm; intro t
        cases hx : mid (s.pc t)
        · rfl
        · exact absurd ⟨t, hx⟩ hn
      have hloc := I.loc t
      cases hp : s.pc t <;> rw [hp] at ht hloc <;> simp [mid] at ht <;> simp only [Loc] at hloc
      · obtain ⟨_, _, _, _, bf, hR, _⟩ := hloc
        have : size s = l.length := R.size_eq (s := { s with buf := bf }) hR
        omega
      · obtain ⟨_, _, _, bf, _, hR, _⟩ := hloc
        have : size s = l.length := R.size_eq (s := { s with buf := bf }) hR
        omega
  · obtain ⟨h1, h2, e⟩ := List.append_of_mem (ret_eff hlin hr)
    obtain ⟨q1, q2, hh, hl⟩ := hist_at hlin.1 e
    exact ⟨q1.length, hist_cap hh, hl.1⟩
  · obtain ⟨h1, h2, e⟩ := List.append_of_mem (ret_eff hlin hr)
    obtain ⟨q1, q2, hh, hl⟩ := hist_at hlin.1 e
    exact hl.1

/-- The number of messages never exceeds the capacity, and what getSize and getMaxSize returned is that. -/
theorem C47_capacity {cap : Nat} {s : MQ.St V} {tr : List (Ev V)} (h : Reach MQ.step (MQ.init V cap) s tr) :
    size s ≤ cap ∧ maxSize s = cap ∧
    (∀ t r, Ev.ret t .getSize r ∈ tr → ∃ n, n ≤ cap ∧ r = .num n) ∧ ∀ t r, Ev.ret t .getMaxSize r ∈ tr → r = .num cap := by
  obtain ⟨l, I⟩ := MQ.Inv.reach h
  exact inv_cap I

/-! #### C48 -/

theorem inv_ring {Qs Qr : Prop} {cap : Nat} {s : MQ.St V} {tr : List (Ev V)} {l : List V} (I : MQ.InvG Qs Qr cap s tr l) :
    s.ub = false ∧ s.b < s.nb ∧ s.e < s.nb ∧ s.nb = cap + 1 ∧
    (Settled s → ∀ i, i < s.nb → (s.buf ((s.b + i) % s.nb)).isSome = decide (i < size s)) := by
  have hbe : s.b < s.nb ∧ s.e < s.nb := by
    by_cases hm : ∀ t, mid (s.pc t) = false
    · exact ⟨(I.ring hm).hb, (I.ring hm).he_lt⟩
    · have ⟨t, ht⟩ : ∃ t, mid (s.pc t) = true := by
        apply Classical.byContradiction; intro hn; apply hm; intro t
        cases hx : mid (s.pc t)
        · rfl
        · exact absurd ⟨t, hx⟩ hn
      have hloc := I.loc t
      cases hp : s.pc t <;> rw [hp] at ht hloc <;> simp [mid] at ht <;> simp only [Loc] at hloc
      · obtain ⟨_, _, _, _, bf, hR, _⟩ := hloc; exact ⟨hR.hb, hR.he_lt⟩
      · obtain ⟨_, _, _, bf, _, hR, _⟩ := hloc; exact ⟨hR.hb, hR.he_lt⟩
  refine ⟨I.ub, hbe.1, hbe.2, I.nb, fun hset i hi => ?_⟩
  have hR : R s.nb s.b s.e s.buf l := I.ring fun t => by
    have := hset t
    cases hp : s.pc t <;> simp_all [mid]
  rw [hR.hc i hi, hR.size_eq]
  by_cases e : i < l.length <;> simp [e]

/-- No schedule constructs over a live message, reads or destroys a dead one, or leaves the buffer; what is alive in the buffer is
exactly the queue. -/
theorem C48_ring {cap : Nat} {s : MQ.St V} {tr : List (Ev V)} (h : Reach MQ.step (MQ.init V cap) s tr) :
    s.ub = false ∧ s.b < s.nb ∧ s.e < s.nb ∧ s.nb = cap + 1 ∧
    (Settled s → ∀ i, i < s.nb → (s.buf ((s.b + i) % s.nb)).isSome = decide (i < size s)) := by
  obtain ⟨l, I⟩ := MQ.Inv.reach h
  exact inv_ring I

/-! #### C49 -/

/-- An effect that is not a success: a timeout, an error, an exception; or a mere observation. -/
def isFailure : Eff V → Bool
  | .op _ (.done .OK _) | .op _ (.num _) => false
  | _ => true

/-- Leaving out every call that failed gives a history of the queue with the same contents at the end: failed calls have no effect. -/
theorem C49_no_effect {cap : Nat} {s : MQ.St V} {tr : List (Ev V)} (h : Reach MQ.step (MQ.init V cap) s tr) :
    ∃ q, Hist cap (effects tr) q ∧ Hist cap ((effects tr).filter (fun x => !isFailure x)) q ∧ (Settled s → stored s = q.map some) := by
  obtain ⟨q, hl, hs⟩ := C46_linearizable h
  refine ⟨q, hl.1, ?_, hs⟩
  have : ∀ h q, Hist cap h q → Hist cap (h.filter (fun x : Eff V => !isFailure x)) q := by
    intro h q hh
    induction hh with
    | nil => exact Hist.nil
    | @snoc h q x q' hh hl ih =>
      rw [List.filter_append]
      have skip : q' = q → isFailure x = true → Hist cap (List.filter (fun x => !isFailure x) h ++ List.filter (fun x => !isFailure x) [x]) q' := by
        intro e1 e2; simpa [e2, e1] using ih
      have keep : isFailure x = false → Hist cap (List.filter (fun x => !isFailure x) h ++ List.filter (fun x => !isFailure x) [x]) q' := by
        intro e; simp only [List.filter_cons, e, Bool.not_false, if_true, List.filter_nil]; exact Hist.snoc ih hl
      cases hx : isFailure x
      · exact keep hx
      · refine skip ?_ hx
        cases x with
        | sawFull => exact hl.2
        | sawEmpty => exact hl.2
        | op c r =>
          rw [legal_iff] at hl
          cases hd : dispatch c <;> rw [hd] at hl
          case size | maxSize => exact hl.2
          case snd v tm =>
            rcases hl with ⟨rfl, h1, rfl⟩ | ⟨_, _, e⟩ | ⟨_, e⟩
            · simp [isFailure] at hx
            · exact e
            · exact e
          case rcv o tm =>
            rcases hl with ⟨v, rfl, rfl⟩ | ⟨_, _, e⟩ | ⟨_, e⟩
            · simp [isFailure] at hx
            · exact e
            · exact e
  exact this _ _ hl.1

/-- Call and return events of a thread. -/
def boundary (t : Tid) : Ev V → Bool
  | .call u _ | .ret u _ _ => u == t
  | _ => false

/-- A reason to give up met by `t` in `evs`: the lock was busy, or the queue was full (send) / empty (receive). -/
def Reason (t : Tid) (c : Call V) (evs : List (Ev V)) : Prop :=
  Ev.busy t ∈ evs ∨ (isSend c = true ∧ Ev.sawFull t ∈ evs) ∨ (isRecv c = true ∧ Ev.sawEmpty t ∈ evs)

/-- The history of the current call of `t`, by phase. -/
def During (t : Tid) (tr : List (Ev V)) : Phase V → Prop
  | .out => True
  | .bad => True
  | .called c why => ∃ a b, tr = a ++ Ev.call t c :: b ∧ (∀ e, e ∈ b → boundary t e = false) ∧ (why = true → Reason t c b)
  | .done c r => ∃ a b, tr = a ++ Ev.call t c :: b ∧ (∀ e, e ∈ b → boundary t e = false) ∧ Ev.lin t c r ∈ b ∧
      (r = .done .TimedOut none → Reason t c b)

theorem Reason.mono {t : Tid} {c : Call V} {b b' : List (Ev V)} (h : Reason t c b) (hs : ∀ e, e ∈ b → e ∈ b') : Reason t c b' := by
  rcases h with h | ⟨h1, h⟩ | ⟨h1, h⟩
  · exact Or.inl (hs _ h)
  · exact Or.inr (Or.inl ⟨h1, hs _ h⟩)
  · exact Or.inr (Or.inr ⟨h1, hs _ h⟩)

theorem During.stay {t : Tid} {tr : List (Ev V)} {ph : Phase V} (h : During t tr ph) {e : Ev V} (he : boundary t e = false) :
    During t (tr ++ [e]) ph := by
  cases ph with
  | out => trivial
  | bad => trivial
  | called c why =>
    obtain ⟨a, b, rfl, h1, h2⟩ := h
    refine ⟨a, b ++ [e], by simp, ?_, fun hw => (h2 hw).mono (by simp +contextual)⟩
    intro x hx; simp only [List.mem_append, List.mem_singleton] at hx
    rcases hx with hx | rfl
    · exact h1 x hx
    · exact he
  | done c r =>
    obtain ⟨a, b, rfl, h1, h2, h3⟩ := h
    refine ⟨a, b ++ [e], by simp, ?_, by simp [h2], fun hw => (h3 hw).mono (by simp +contextual)⟩
    intro x hx; simp only [List.mem_append, List.mem_singleton] at hx
    rcases hx with hx | rfl
    · exact h1 x hx
    · exact he

theorem phase_snoc (t : Tid) (tr : List (Ev V)) (e : Ev V) : phase t (tr ++ [e]) = Phase.next t (phase t tr) e := by simp [phase]

theorem during_snoc {t : Tid} {tr : List (Ev V)} {e : Ev V} (h : During t tr (phase t tr)) : During t (tr ++ [e]) (phase t (tr ++ [e])) := by
  rw [phase_snoc]
  generalize phase t tr = ph at h ⊢
  -- an event with a reason
  have reason : ∀ c why, ph = .called c why → boundary t e = false → Reason t c [e] → During t (tr ++ [e]) (.called c true) := by
    rintro c why rfl he hr
    obtain ⟨a, b, h0, h1, h2⟩ := h.stay he
    obtain ⟨a', b', e0, e1, e2⟩ := h
    refine ⟨a', b' ++ [e], by simp [e0], ?_, fun _ => hr.mono (by simp)⟩
    intro x hx; simp only [List.mem_append, List.mem_singleton] at hx
    rcases hx with hx | rfl
    · exact e1 x hx
    · exact he
  cases e with
  | call u c =>
    simp only [Phase.next]
    split
    · next hu =>
      subst hu
      cases ph <;> simp only [During]
      exact ⟨tr, [], rfl, by simp, by simp⟩
    · next hu => exact h.stay (by simpa [boundary] using hu)
  | busy u =>
    simp only [Phase.next]
    split
    · next hu =>
      subst hu
      cases ph with
      | called c why => exact reason c why rfl rfl (Or.inl (by simp))
      | _ => trivial
    · exact h.stay rfl
  | sawFull u =>
    simp only [Phase.next]
    split
    · next hu =>
      subst hu
      cases ph with
      | called c why =>
        simp only
        split
        · next hs => exact reason c why rfl rfl (Or.inr (Or.inl ⟨hs, by simp⟩))
        · trivial
      | _ => trivial
    · exact h.stay rfl
  | sawEmpty u =>
    simp only [Phase.next]
    split
    · next hu =>
      subst hu
      cases ph with
      | called c why =>
        simp only
        split
        · next hs => exact reason c why rfl rfl (Or.inr (Or.inr ⟨hs, by simp⟩))
        · trivial
      | _ => trivial
    · exact h.stay rfl
  | lin u c r =>
    simp only [Phase.next]
    split
    · next hu =>
      subst hu
      cases ph with
      | called c' why =>
        simp only
        split
        · next hc =>
          obtain ⟨rfl, hw⟩ := hc
          obtain ⟨a, b, e0, e1, e2⟩ := h
          refine ⟨a, b ++ [.lin u c' r], by simp [e0], ?_, by simp, fun hr => (e2 (hw hr)).mono (by simp +contextual)⟩
          intro x hx; simp only [List.mem_append, List.mem_singleton] at hx
          rcases hx with hx | rfl
          · exact e1 x hx
          · rfl
        · trivial
      | _ => trivial
    · exact h.stay rfl
  | ret u c r =>
    simp only [Phase.next]
    split
    · split <;> trivial
    · next hu => exact h.stay (by simpa [boundary] using hu)

theorem during (t : Tid) (tr : List (Ev V)) : During t tr (phase t tr) := by
  have key : ∀ n (tr : List (Ev V)), tr.length = n → During t tr (phase t tr) := by
    intro n
    induction n with
    | zero => intro tr h; rw [List.length_eq_zero_iff.1 h]; trivial
    | succ n ih =>
      intro tr h
      rcases List.eq_nil_or_concat tr with rfl | ⟨tr, e, rfl⟩
      · simp at h
      · rw [List.concat_eq_append] at h ⊢
        exact during_snoc (ih tr (by simpa using h))
  exact key _ tr rfl

/-- A call that returned TimedOut had met, between its call and its return, a busy lock, or (sends) a full queue, or (receives) an
empty queue. -/
theorem C49_reason {cap : Nat} {s : MQ.St V} {tr : List (Ev V)} (h : Reach MQ.step (MQ.init V cap) s tr) {t c} {a b : List (Ev V)}
    (e : tr = a ++ Ev.ret t c (.done .TimedOut none) :: b) :
    tmoOf c ≠ .forever ∧
    ∃ a1 a2, a = a1 ++ Ev.call t c :: a2 ∧ (∀ x, x ∈ a2 → boundary t x = false) ∧ Reason t c a2 := by
  obtain ⟨q, hl, _⟩ := C46_linearizable h
  have hnb : phase t (a ++ [Ev.ret t c (.done .TimedOut none)]) ≠ .bad := by
    intro hb
    apply hl.2 t
    rw [e, show a ++ Ev.ret t c (.done .TimedOut none) :: b = (a ++ [Ev.ret t c (.done .TimedOut none)]) ++ b by simp, phase_app, hb]
    clear e
    induction b with
    | nil => rfl
    | cons x b ih => rw [List.foldl_cons, show Phase.next t .bad x = .bad by cases x <;> simp [Phase.next]]; exact ih
  have hd := during t a
  rw [phase_snoc] at hnb
  have hp : phase t a = .done c (.done .TimedOut none) := by
    apply Classical.byContradiction; intro hn; apply hnb; simp [Phase.next, hn]
  rw [hp] at hd
  obtain ⟨a1, a2, e1, e2, _, e3⟩ := hd
  refine ⟨?_, a1, a2, e1, e2, e3 rfl⟩
  have hm : Ev.ret t c (.done .TimedOut none) ∈ tr := by rw [e]; simp
  obtain ⟨h1, h2, e4⟩ := List.append_of_mem (ret_eff hl hm)
  obtain ⟨q1, q2, hh, hleg⟩ := hist_at hl.1 e4
  rw [legal_iff] at hleg
  cases hd : dispatch c <;> rw [hd] at hleg
  case size | maxSize => simp [PLegal] at hleg
  case snd v tm =>
    rcases hleg with ⟨h1, _⟩ | ⟨_, h1, _⟩ | ⟨h1, _⟩
    · simp at h1
    · rw [tmo_snd hd]; exact h1
    · rcases h1 with h1 | h1 | h1 <;> simp at h1
  case rcv v tm =>
    rcases hleg with ⟨_, _, h1⟩ | ⟨_, h1, _⟩ | ⟨h1, _⟩
    · simp at h1
    · rw [tmo_rcv hd]; exact h1
    · rcases h1 with h1 | h1 | h1 <;> simp at h1

/-- What the markers mean: at a `busy` another thread is inside a call holding the lock; at a `sawFull` the queue holds `cap`
messages; at a `sawEmpty` none. -/
theorem C49_markers {cap : Nat} {s : MQ.St V} {tr : List (Ev V)} (h : Reach MQ.step (MQ.init V cap) s tr) {act s' ev}
    (hs : MQ.step s act = some (s', ev)) (t : Tid) :
    (Ev.busy t ∈ ev → ∃ u, u ≠ t ∧ (s.ms = some u ∨ s.mr = some u) ∧ s.pc u ≠ .idle) ∧
    (Ev.sawFull t ∈ ev → size s = cap) ∧ (Ev.sawEmpty t ∈ ev → size s = 0) := by
  obtain ⟨l, I⟩ := MQ.Inv.reach h
  have hub := I.ub
  cases act with
  | call u c =>
    simp only [MQ.step, hub] at hs
    cases hp : s.pc u <;> simp [hp] at hs
    obtain ⟨_, rfl⟩ := hs; simp
  | go u =>
    simp only [MQ.step, hub] at hs
    cases hp : s.pc u
    case sChk c v tm =>
      have hR := I.ring_of (t := u) (by simp [hp, bHolds]) (by simp [hp, mid])
      simp only [hp] at hs
      by_cases hf : isFull s = true
      · simp [hf] at hs; obtain ⟨_, rfl⟩ := hs
        simp; intro _; rw [hR.size_eq]; exact (hR.isFull_iff I.nb).1 hf
      · simp [hf] at hs; obtain ⟨_, rfl⟩ := hs; simp
    case rChk c v tm =>
      have hR := I.ring_of (t := u) (by simp [hp, bHolds]) (by simp [hp, mid])
      simp only [hp] at hs
      by_cases hf : isEmpty s = true
      · simp [hf] at hs; obtain ⟨_, rfl⟩ := hs
        simp; intro _; rw [hR.size_eq, hR.isEmpty_iff.1 hf]; rfl
      · simp [hf] at hs; obtain ⟨_, rfl⟩ := hs; simp
    all_goals
      have hev : (∀ x, x ∈ ev → (∃ c r, x = Ev.lin u c r) ∨ ∃ c r, x = Ev.ret u c r) := by
        simp only [hp] at hs
        (repeat' split at hs) <;> simp at hs <;> (try (obtain ⟨_, rfl⟩ := hs; simp)) <;> (try (obtain ⟨_, _, rfl⟩ := hs; simp))
      refine ⟨fun hm => ?_, fun hm => ?_, fun hm => ?_⟩ <;> (rcases hev _ hm with ⟨_, _, h⟩ | ⟨_, _, h⟩ <;> simp at h)
  | expire u =>
    simp only [MQ.step, hub] at hs
    have lockS : ∀ c v tm, s.pc u = .sLock c v tm → s.ms ≠ none → ∃ u', u' ≠ u ∧ (s.ms = some u' ∨ s.mr = some u') ∧ s.pc u' ≠ .idle := by
      intro c v tm hp hm
      obtain ⟨u', hu'⟩ := Option.ne_none_iff_exists'.1 hm
      have := (I.hs u').1 hu'
      exact ⟨u', fun e => by rw [e, hp] at this; simp [sHolds] at this, Or.inl hu', fun e => by rw [e] at this; simp [sHolds] at this⟩
    have lockR : ∀ c v tm, s.pc u = .rLock c v tm → s.mr ≠ none → ∃ u', u' ≠ u ∧ (s.ms = some u' ∨ s.mr = some u') ∧ s.pc u' ≠ .idle := by
      intro c v tm hp hm
      obtain ⟨u', hu'⟩ := Option.ne_none_iff_exists'.1 hm
      have := (I.hr u').1 hu'
      exact ⟨u', fun e => by rw [e, hp] at this; simp [rHolds] at this, Or.inr hu', fun e => by rw [e] at this; simp [rHolds] at this⟩
    cases hp : s.pc u <;> simp [hp] at hs
    case sLock c v tm =>
      obtain ⟨⟨_, hm⟩, _, rfl⟩ := hs; simp; rintro rfl; simpa using lockS _ _ _ hp hm
    case rLock c v tm =>
      obtain ⟨⟨_, hm⟩, _, rfl⟩ := hs; simp; rintro rfl; simpa using lockR _ _ _ hp hm
    all_goals obtain ⟨_, _, rfl⟩ := hs; simp
  | raise u e =>
    simp only [MQ.step, hub] at hs
    cases hp : s.pc u <;> simp [hp] at hs <;> obtain ⟨_, _, rfl⟩ := hs <;> simp
  | throw u f =>
    simp only [MQ.step, hub] at hs
    cases hp : s.pc u <;> simp [hp] at hs
    · obtain ⟨_, rfl⟩ := hs; simp
    · obtain ⟨_, _, rfl⟩ := hs; simp

/-! #### C50 -/

/-- Nobody can take a step and no timeout can expire. -/
def Stuck (s : MQ.St V) : Prop := ∀ t, MQ.step s (.go t) = none ∧ MQ.step s (.expire t) = none

theorem inv_stuck {Qs Qr : Prop} {cap : Nat} {s : MQ.St V} {tr : List (Ev V)} {l : List V} (I : MQ.InvG Qs Qr cap s tr l) (hst : Stuck s) (t : Tid) :
    s.pc t = .idle ∨
    ∃ c, Pending s t c ∧ tmoOf c = .forever ∧ ((isSend c = true ∧ (Qs → size s = cap)) ∨ (isRecv c = true ∧ (Qr → size s = 0))) := by
  have hub := I.ub
  -- the ring's mutex is free
  have hB : s.mb = none := by
    apply Classical.byContradiction
    intro hm
    obtain ⟨u, hu⟩ := Option.ne_none_iff_exists'.1 hm
    have hb := (I.hb u).1 hu
    have := (hst u).1
    simp only [MQ.step, hub] at this
    cases hp : s.pc u <;> rw [hp] at hb <;> simp [bHolds] at hb <;> simp [hp] at this <;> grind
  have hnoB : ∀ u, bHolds (s.pc u) = false := by
    intro u
    cases hx : bHolds (s.pc u)
    · rfl
    · have := (I.hb u).2 hx; rw [hB] at this; simp at this
  have hR : R s.nb s.b s.e s.buf l := I.ring fun u => by
    cases hx : mid (s.pc u)
    · rfl
    · have := hnoB u; rw [mid_bHolds hx] at this; simp at this
  have hsz := hR.size_eq
  have waitS : ∀ u c v tm, s.pc u = .sWait c v tm → tm = .forever ∧ (Qs → size s = cap) := by
    intro u c v tm hp
    have h1 := (hst u).1
    have h2 := (hst u).2
    simp [MQ.step, hub, hp] at h1 h2
    refine ⟨Classical.byContradiction fun hn => by simp [h1] at h2; exact hn h2, fun hq => ?_⟩
    rcases I.ws hq u c v tm hp h1 with h3 | ⟨w, c', g, h3⟩
    · omega
    · have := hnoB w; rw [h3] at this; simp [bHolds] at this
  have waitR : ∀ u c v tm, s.pc u = .rWait c v tm → tm = .forever ∧ (Qr → size s = 0) := by
    intro u c v tm hp
    have h1 := (hst u).1
    have h2 := (hst u).2
    simp [MQ.step, hub, hp] at h1 h2
    refine ⟨Classical.byContradiction fun hn => by simp [h1] at h2; exact hn h2, fun hq => ?_⟩
    rcases I.wr hq u c v tm hp h1 with h3 | ⟨w, c', h3⟩
    · rw [hsz, h3]; rfl
    · have := hnoB w; rw [h3] at this; simp [bHolds] at this
  have holdS : ∀ u, s.ms = some u → ∃ c v tm, s.pc u = .sWait c v tm := by
    intro u hu
    have hh := (I.hs u).1 hu
    have hg := (hst u).1
    have hn := hnoB u
    simp only [MQ.step, hub] at hg
    cases hp : s.pc u <;> rw [hp] at hh hn <;> simp [sHolds] at hh <;> simp [bHolds] at hn <;> simp [hp, hB] at hg ⊢
  have holdR : ∀ u, s.mr = some u → ∃ c v tm, s.pc u = .rWait c v tm := by
    intro u hu
    have hh := (I.hr u).1 hu
    have hg := (hst u).1
    have hn := hnoB u
    simp only [MQ.step, hub] at hg
    cases hp : s.pc u <;> rw [hp] at hh hn <;> simp [rHolds] at hh <;> simp [bHolds] at hn <;> simp [hp, hB] at hg ⊢
  have hg := (hst t).1
  have hx := (hst t).2
  have hl := I.loc t
  have hn := hnoB t
  simp only [MQ.step, hub] at hg hx
  unfold Pending
  cases hp : s.pc t <;> rw [hp] at hn hl <;> simp [bHolds] at hn <;> simp [hp, hB] at hg hx <;> simp only [Loc] at hl
  case idle => simp
  case entry c => cases hd : dispatch c <;> simp [hd] at hg
  case sWait c v tm =>
    have := waitS t c v tm hp
    refine Or.inr ⟨c, rfl, ?_, Or.inl ⟨isSend_of hl.2.1, this.2⟩⟩
    rw [tmo_snd hl.2.1]; exact this.1
  case rWait c v tm =>
    have := waitR t c v tm hp
    refine Or.inr ⟨c, rfl, ?_, Or.inr ⟨isRecv_of hl.2.1, this.2⟩⟩
    rw [tmo_rcv hl.2.1]; exact this.1
  case sLock c v tm =>
    obtain ⟨u, hu⟩ := Option.ne_none_iff_exists'.1 hg
    obtain ⟨c', v', tm', hp'⟩ := holdS u hu
    have := waitS u c' v' tm' hp'
    refine Or.inr ⟨c, rfl, ?_, Or.inl ⟨isSend_of hl.2, this.2⟩⟩
    rw [tmo_snd hl.2]
    exact Classical.byContradiction fun hn => hg (hx hn)
  case rLock c v tm =>
    obtain ⟨u, hu⟩ := Option.ne_none_iff_exists'.1 hg
    obtain ⟨c', v', tm', hp'⟩ := holdR u hu
    have := waitR u c' v' tm' hp'
    refine Or.inr ⟨c, rfl, ?_, Or.inr ⟨isRecv_of hl.2, this.2⟩⟩
    rw [tmo_rcv hl.2]
    exact Classical.byContradiction fun hn => hg (hx hn)

/-- When nothing moves any more, every thread is outside, or its call is a FOREVER send and the queue is full, or a FOREVER receive
and the queue is empty. -/
theorem C50_stuck {cap : Nat} {s : MQ.St V} {tr : List (Ev V)} (h : Reach MQ.step (MQ.init V cap) s tr) (hst : Stuck s) (t : Tid) :
    s.pc t = .idle ∨
    ∃ c, Pending s t c ∧ tmoOf c = .forever ∧ ((isSend c = true ∧ size s = cap) ∨ (isRecv c = true ∧ size s = 0)) := by
  obtain ⟨l, I⟩ := MQ.Inv.reach h
  simpa using inv_stuck I hst t

/-- The thread an action belongs to. -/
def actor : Act V → Tid
  | .call t _ | .go t | .expire t | .raise t _ | .throw t _ => t
def isCall : Act V → Bool
  | .call .. => true
  | _ => false

/-- Steps a call can still take. -/
def rank : PC V → Nat
  | .idle => 0
  | .ret .. => 1
  | .sUnl .. | .rUnl .. | .zUnl .. => 2
  | .sPushUnl .. | .rPopUnl .. | .zRead .. => 3
  | .sSet .. | .rSet .. | .zLock .. => 4
  | .sAdv .. | .rAdv .. => 5
  | .sCons .. | .rDes .. => 6
  | .sPushLock .. | .rCopy .. => 7
  | .sWait .. | .rPopLock .. => 8
  | .sChkUnl .. | .rWait .. => 9
  | .sReset .. | .rChkUnl .. => 10
  | .sChk .. | .rReset .. => 11
  | .sChkLock .. | .rChk .. => 12
  | .sLock .. | .rChkLock .. => 13
  | .rLock .. => 14
  | .entry .. => 15

theorem rank_step {s s' : MQ.St V} {ev : List (Ev V)} {a : Act V} (hs : MQ.step s a = some (s', ev)) (hc : isCall a = false) (hu : s'.ub = false) :
    rank (s'.pc (actor a)) < rank (s.pc (actor a)) ∧ ∀ u, u ≠ actor a → s'.pc u = s.pc u := by
  have hub : s.ub = false := by
    cases h : s.ub
    · rfl
    · cases a <;> simp [MQ.step, h] at hs
  cases a with
  | call => simp [isCall] at hc
  | go t =>
    simp only [MQ.step, hub] at hs
    cases hp : s.pc t <;> simp only [hp] at hs <;> (repeat' split at hs) <;> simp [Prod.ext_iff] at hs <;>
      (try (obtain ⟨rfl, -⟩ := hs)) <;> (try (obtain ⟨_, rfl, -⟩ := hs)) <;> simp [St.at, actor, hp, rank, upd_same] at hu ⊢ <;>
      (intro u hu; exact upd_ne _ _ hu)
  | expire t =>
    simp only [MQ.step, hub] at hs
    cases hp : s.pc t <;> simp [hp] at hs <;> obtain ⟨_, rfl, -⟩ := hs <;> simp [St.at, actor, hp, rank, upd_same] <;>
      (intro u hu; exact upd_ne _ _ hu)
  | raise t e =>
    simp only [MQ.step, hub] at hs
    cases hp : s.pc t <;> simp [hp] at hs <;> obtain ⟨_, rfl, -⟩ := hs <;> simp [St.at, actor, hp, rank, upd_same] <;>
      (intro u hu; exact upd_ne _ _ hu)
  | throw t f =>
    simp only [MQ.step, hub] at hs
    cases hp : s.pc t <;> simp [hp] at hs
    · obtain ⟨rfl, -⟩ := hs; simp [St.at, actor, hp, rank, upd_same]; intro u hu; exact upd_ne _ _ hu
    · obtain ⟨_, rfl, -⟩ := hs; simp [St.at, actor, hp, rank, upd_same]; intro u hu; exact upd_ne _ _ hu

/-- Without new calls each thread takes at most 15 more steps: executions end, in a state described by `C50_stuck`. -/
theorem C50_terminates {cap : Nat} {s : MQ.St V} {tr : List (Ev V)} (h : Reach MQ.step (MQ.init V cap) s tr) (as : List (Act V))
    (hc : ∀ a, a ∈ as → isCall a = false) {s' ev} (hr : run MQ.step as s = some (s', ev)) (t : Tid) :
    (as.filter (fun a => actor a == t)).length ≤ 15 := by
  have key : ∀ (as : List (Act V)) s tr s' ev, Reach MQ.step (MQ.init V cap) s tr → (∀ a, a ∈ as → isCall a = false) →
      run MQ.step as s = some (s', ev) → (as.filter (fun a => actor a == t)).length ≤ rank (s.pc t) := by
    intro as
    induction as with
    | nil => intro s tr s' ev _ _ _; simp
    | cons a as ih =>
      intro s tr s' ev h hc hr
      simp only [run] at hr
      split at hr
      · simp at hr
      · next s1 ev1 h1 =>
        split at hr
        · simp at hr
        · next s2 ev2 h2 =>
          have hre := Reach.step h h1
          have hub := (C48_ring hre).1
          have := rank_step h1 (hc a (by simp)) hub
          have hi := ih s1 _ s2 ev2 hre (fun a ha => hc a (by simp [ha])) h2
          by_cases e : actor a = t
          · subst e
            simp only [List.filter_cons, BEq.rfl, if_true, List.length_cons]
            omega
          · simp only [List.filter_cons, beq_iff_eq, e, if_false]
            rw [this.2 t (fun x => e x.symm)] at hi
            exact hi
  have h1 := key as s tr s' ev h hc hr
  have h2 : ∀ p : PC V, rank p ≤ 15 := by intro p; cases p <;> simp [rank]
  exact Nat.le_trans h1 (h2 _)

/-- From every state, if only finitely many threads are inside calls and no new calls come, the queue reaches a state where nothing
moves. -/
theorem C50_reaches {cap : Nat} {s : MQ.St V} {tr : List (Ev V)} (h : Reach MQ.step (MQ.init V cap) s tr) (ts : List Tid)
    (hts : ∀ t, s.pc t ≠ .idle → t ∈ ts) : ∃ as s' ev, (∀ a, a ∈ as → isCall a = false) ∧ run MQ.step as s = some (s', ev) ∧ Stuck s' := by
  have key : ∀ n s tr, Reach MQ.step (MQ.init V cap) s tr → (∀ t, s.pc t ≠ .idle → t ∈ ts) → (ts.map (fun t => rank (s.pc t))).sum ≤ n →
      ∃ as s' ev, (∀ a, a ∈ as → isCall a = false) ∧ run MQ.step as s = some (s', ev) ∧ Stuck s' := by
    intro n
    induction n with
    | zero =>
      intro s tr h hts hn
      refine ⟨[], s, [], by simp, rfl, fun t => ?_⟩
      have hid : s.pc t = .idle := by
        apply Classical.byContradiction
        intro hp
        have hm := hts t hp
        have : rank (s.pc t) = 0 := by
          have : rank (s.pc t) ≤ _ := sum_mem_le (f := fun t => rank (s.pc t)) hm
          omega
        cases hq : s.pc t <;> rw [hq] at this <;> simp [rank] at this
        exact hp hq
      have hub := (C48_ring h).1
      simp [MQ.step, hub, hid]
    | succ n ih =>
      intro s tr h hts hn
      by_cases hst : Stuck s
      · exact ⟨[], s, [], by simp, rfl, hst⟩
      · have ⟨a, ha, s1, ev1, h1⟩ : ∃ a, isCall a = false ∧ ∃ s1 ev1, MQ.step s a = some (s1, ev1) := by
          apply Classical.byContradiction
          intro hn'
          apply hst
          intro t
          constructor
          · cases hx : MQ.step s (.go t) with
            | none => rfl
            | some p => exact absurd ⟨.go t, rfl, p.1, p.2, hx⟩ hn'
          · cases hx : MQ.step s (.expire t) with
            | none => rfl
            | some p => exact absurd ⟨.expire t, rfl, p.1, p.2, hx⟩ hn'
        have hre := Reach.step h h1
        obtain ⟨r1, r2⟩ := rank_step h1 ha (C48_ring hre).1
        have hin : actor a ∈ ts := by
          apply hts
          intro e; rw [e] at r1; simp [rank] at r1
        have hsum : (ts.map (fun t => rank (s1.pc t))).sum < (ts.map (fun t => rank (s.pc t))).sum := by
          have le : ∀ t, rank (s1.pc t) ≤ rank (s.pc t) := by
            intro t
            by_cases e : t = actor a
            · rw [e]; omega
            · rw [r2 t e]; exact Nat.le_refl _
          exact sum_lt le r1 hin
        have hts1 : ∀ t, s1.pc t ≠ .idle → t ∈ ts := by
          intro t ht
          by_cases e : t = actor a
          · rw [e]; exact hin
          · rw [r2 t e] at ht; exact hts t ht
        obtain ⟨as, s', ev, g1, g2, g3⟩ := ih s1 _ hre hts1 (by omega)
        refine ⟨a :: as, s', ev1 ++ ev, ?_, ?_, g3⟩
        · intro x hx; rcases List.mem_cons.1 hx with rfl | hx
          · exact ha
          · exact g1 x hx
        · simp [run, h1, g2]
  exact key _ s tr h hts (Nat.le_refl _)

/-! #### A concrete execution -/

/-- Capacity 1: thread 0 sends 5; thread 1 finds the queue full and waits; thread 2 receives; thread 1 is woken and sends 6; a
third sender polls and times out. -/
def demo : List (Act Nat) :=
  .call 0 (.send 5) :: List.replicate 12 (.go 0) ++
  .call 1 (.timedSend 6 (.ms 10)) :: List.replicate 6 (.go 1) ++
  [.call 3 (.trySend 7), .go 3, .expire 3, .go 3] ++
  .call 2 (.receive true) :: List.replicate 13 (.go 2) ++
  List.replicate 8 (.go 1)

/-- The hypotheses of the theorems above are met by a non-trivial execution, with this outcome. -/
example : ∃ (s : MQ.St Nat) (tr : List (Ev Nat)), Reach MQ.step (MQ.init Nat 1) s tr ∧
    decide (sent tr = [5, 6] ∧ received tr = [(true, some 5)] ∧ returned 3 tr = [(.trySend 7, .done .TimedOut none)] ∧
      returned 1 tr = [(.timedSend 6 (.ms 10), .done .OK none)] ∧ stored s = [some 6] ∧ size s = 1 ∧
      Ev.sawFull 1 ∈ tr ∧ Ev.busy 3 ∈ tr ∧ s.pc 0 = .idle ∧ s.pc 1 = .idle ∧ s.pc 2 = .idle) = true :=
  runSat_ex (as := demo) (P := fun (s : MQ.St Nat) tr => decide (sent tr = [5, 6] ∧ received tr = [(true, some 5)] ∧
      returned 3 tr = [(.trySend 7, .done .TimedOut none)] ∧
      returned 1 tr = [(.timedSend 6 (.ms 10), .done .OK none)] ∧ stored s = [some 6] ∧ size s = 1 ∧
      Ev.sawFull 1 ∈ tr ∧ Ev.busy 3 ∈ tr ∧ s.pc 0 = .idle ∧ s.pc 1 = .idle ∧ s.pc 2 = .idle)) (by decide)

def demo2 : List (Act Nat) :=
  .call 0 (.send 5) :: List.replicate 12 (.go 0) ++ .call 1 (.send 6) :: List.replicate 6 (.go 1) ++ [.call 2 (.send 7), .go 2]

/-- A state where threads really wait: a FOREVER send on a full queue and another one behind it. -/
example : ∃ (s : MQ.St Nat) (tr : List (Ev Nat)), Reach MQ.step (MQ.init Nat 1) s tr ∧
    decide (s.pc 1 = .sWait (.send 6) 6 .forever ∧ s.pc 2 = .sLock (.send 7) 7 .forever ∧ s.nf = false ∧ s.ms = some 1 ∧ s.mb = none) = true :=
  runSat_ex (as := demo2)
    (P := fun (s : MQ.St Nat) _ => decide (s.pc 1 = .sWait (.send 6) 6 .forever ∧ s.pc 2 = .sLock (.send 7) 7 .forever ∧ s.nf = false ∧ s.ms = some 1 ∧ s.mb = none))
    (by decide)

end Verif.Props.MessageQueue
