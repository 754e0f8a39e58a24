import Verif.Spec.MessageQueue
namespace Verif.MQ
open Verif
open _root_.Verif.Mtx (Tid Err)
open _root_.Verif.EvF (Tmo)
open MQ Spec Lts
variable {V : Type}
set_option linter.unusedSectionVars false

/-! #### The ring -/

/-- The slots from `b` hold `l`, the others are empty. -/
structure R (nb b e : Nat) (buf : Nat → Option V) (l : List V) : Prop where
  hb : b < nb
  hl : l.length < nb
  he : e = (b + l.length) % nb
  hc : ∀ i, i < nb → buf ((b + i) % nb) = l[i]?

theorem mod_lt_two {x nb : Nat} (h : nb ≤ x) (h2 : x < 2 * nb) : x % nb = x - nb := by
  rw [Nat.mod_eq_sub_mod h, Nat.mod_eq_of_lt (by omega)]

theorem idx_cases {b n nb : Nat} (hb : b < nb) (hn : n < nb) :
    ((b + n) % nb = b + n ∧ b + n < nb) ∨ ((b + n) % nb = b + n - nb ∧ nb ≤ b + n) := by
  by_cases h : b + n < nb
  · exact Or.inl ⟨Nat.mod_eq_of_lt h, h⟩
  · exact Or.inr ⟨mod_lt_two (by omega) (by omega), by omega⟩

theorem nextIdx_eq {nb i : Nat} (h : i < nb) : nextIdx nb i = (i + 1) % nb := by
  unfold nextIdx
  split
  · next h1 => rw [Nat.mod_eq_of_lt h1]
  · next h1 => rw [show i + 1 = nb by omega]; simp

theorem R.he_lt {nb b e : Nat} {buf : Nat → Option V} {l : List V} (h : R nb b e buf l) : e < nb := by
  rw [h.he]; exact Nat.mod_lt _ (by have := h.hb; omega)

theorem R.size_eq {s : St V} {l : List V} (h : R s.nb s.b s.e s.buf l) : size s = l.length := by
  have hb := h.hb; have hl := h.hl; have he := h.he
  unfold size
  rcases idx_cases hb hl with ⟨h1, h2⟩ | ⟨h1, h2⟩ <;> rw [he, h1]
  · rw [if_pos (by omega)]; omega
  · rw [if_neg (by omega)]; omega

theorem R.isEmpty_iff {s : St V} {l : List V} (h : R s.nb s.b s.e s.buf l) : isEmpty s = true ↔ l = [] := by
  have hb := h.hb; have hl := h.hl; have he := h.he
  unfold isEmpty
  rw [beq_iff_eq, ← List.length_eq_zero_iff]
  rcases idx_cases hb hl with ⟨h1, h2⟩ | ⟨h1, h2⟩ <;> rw [he, h1] <;> omega

theorem R.isFull_iff {s : St V} {l : List V} {cap : Nat} (h : R s.nb s.b s.e s.buf l) (hn : s.nb = cap + 1) : isFull s = true ↔ l.length = cap := by
  unfold isFull maxSize
  rw [h.size_eq, beq_iff_eq, hn]; omega

theorem R.none_at_e {nb b e : Nat} {buf : Nat → Option V} {l : List V} (h : R nb b e buf l) : buf e = none := by
  rw [h.he, h.hc _ h.hl]; simp

theorem R.front {nb b e : Nat} {buf : Nat → Option V} {l : List V} (h : R nb b e buf l) : buf b = l.head? := by
  have := h.hc 0 (by have := h.hb; omega)
  rw [Nat.add_zero, Nat.mod_eq_of_lt h.hb] at this
  rw [this]; cases l <;> rfl

theorem R.push {nb b e : Nat} {buf : Nat → Option V} {l : List V} (h : R nb b e buf l) (hn : l.length + 1 < nb) (v : V) :
    R nb b (nextIdx nb e) (upd buf e (some v)) (l ++ [v]) := by
  have hb := h.hb
  refine ⟨hb, by simpa using hn, ?_, fun i hi => ?_⟩
  · rw [nextIdx_eq h.he_lt, h.he]; simp [Nat.add_assoc]
  · have hc := h.hc i hi
    have he := h.he
    by_cases e1 : i = l.length
    · subst e1; rw [← he, upd_same]; simp
    · have hne : (b + i) % nb ≠ e := by
        rw [he]
        rcases idx_cases hb hi with ⟨h1, h2⟩ | ⟨h1, h2⟩ <;> rcases idx_cases hb h.hl with ⟨h3, h4⟩ | ⟨h3, h4⟩ <;> rw [h1, h3] <;> omega
      rw [upd_ne _ _ hne, hc]
      by_cases e2 : i < l.length
      · rw [List.getElem?_append_left e2]
      · rw [List.getElem?_eq_none (by omega), List.getElem?_eq_none (by simp; omega)]

theorem R.pop {nb b e : Nat} {buf : Nat → Option V} {x : V} {l : List V} (h : R nb b e buf (x :: l)) :
    R nb (nextIdx nb b) e (upd buf b none) l := by
  have hb := h.hb
  have hl := h.hl
  simp only [List.length_cons] at hl
  have hb' : nextIdx nb b < nb := by rw [nextIdx_eq hb]; exact Nat.mod_lt _ (by omega)
  refine ⟨hb', by omega, ?_, fun i hi => ?_⟩
  · rw [h.he, nextIdx_eq hb]; simp; congr 1; omega
  · rw [nextIdx_eq hb, Nat.mod_add_mod]
    by_cases e1 : i + 1 < nb
    · have hc := h.hc (i + 1) e1
      rw [show b + 1 + i = b + (i + 1) by omega]
      have hne : (b + (i + 1)) % nb ≠ b := by
        rcases idx_cases hb e1 with ⟨h1, h2⟩ | ⟨h1, h2⟩ <;> rw [h1] <;> omega
      rw [upd_ne _ _ hne, hc]; simp
    · rw [show b + 1 + i = b + nb by omega, Nat.add_mod_right, Nat.mod_eq_of_lt hb, upd_same, List.getElem?_eq_none (by omega)]

/-! #### Which locks a thread holds -/

def sHolds : PC V → Bool
  | .sChkLock .. | .sChk .. | .sReset .. | .sChkUnl .. | .sWait .. | .sPushLock .. | .sCons .. | .sAdv .. | .sSet .. | .sPushUnl .. | .sUnl .. => true
  | _ => false
def rHolds : PC V → Bool
  | .rChkLock .. | .rChk .. | .rReset .. | .rChkUnl .. | .rWait .. | .rPopLock .. | .rCopy .. | .rDes .. | .rAdv .. | .rSet .. | .rPopUnl .. | .rUnl .. => true
  | _ => false
def bHolds : PC V → Bool
  | .sChk .. | .sReset .. | .sChkUnl .. | .sCons .. | .sAdv .. | .sSet .. | .sPushUnl .. => true
  | .rChk .. | .rReset .. | .rChkUnl .. | .rCopy .. | .rDes .. | .rAdv .. | .rSet .. | .rPopUnl .. => true
  | .zRead .. | .zUnl .. => true
  | _ => false
/-- In the middle of changing the ring. -/
def mid : PC V → Bool
  | .sAdv .. | .rAdv .. => true
  | _ => false

theorem mid_bHolds {p : PC V} (h : mid p = true) : bHolds p = true := by cases p <;> simp_all [mid, bHolds]

variable [DecidableEq V]

theorem effects_app (tr ev : List (Ev V)) : effects (tr ++ ev) = effects tr ++ effects ev := by simp [effects]
theorem phase_app (t : Tid) (tr ev : List (Ev V)) : phase t (tr ++ ev) = ev.foldl (Phase.next t) (phase t tr) := by simp [phase]

def mine (t : Tid) : Ev V → Prop
  | .call u _ | .busy u | .sawFull u | .sawEmpty u | .lin u _ _ | .ret u _ _ => u = t

theorem phase_other {t u : Tid} (hne : u ≠ t) {ev : List (Ev V)} (h : ∀ e, e ∈ ev → mine t e) (ph : Phase V) :
    ev.foldl (Phase.next u) ph = ph := by
  induction ev generalizing ph with
  | nil => rfl
  | cons e ev ih =>
    have h1 := h e (by simp)
    rw [List.foldl_cons, show Phase.next u ph e = ph by cases e <;> simp only [mine] at h1 <;> subst h1 <;> simp [Phase.next, hne.symm]]
    exact ih (fun e he => h e (by simp [he])) ph

def Called (ph : Phase V) (c : Call V) : Prop := ∃ why, ph = .called c why

/-- What is true of a thread, by program counter. -/
def Loc (cap : Nat) (s : St V) (l : List V) (ph : Phase V) : PC V → Prop
  | .idle => ph = .out
  | .entry c => Called ph c
  | .sLock c v tm | .sChkLock c v tm | .sChk c v tm => Called ph c ∧ dispatch c = .snd v tm
  | .sReset c v tm => ph = .called c true ∧ dispatch c = .snd v tm ∧ l.length = cap
  | .sChkUnl c v tm full => Called ph c ∧ dispatch c = .snd v tm ∧
      (if full then ph = .called c true ∧ l.length = cap ∧ s.nf = false else l.length < cap)
  | .sWait c v tm => ph = .called c true ∧ dispatch c = .snd v tm ∧ (s.nf = true → l.length < cap)
  | .sPushLock c v | .sCons c v => Called ph c ∧ (∃ tm, dispatch c = .snd v tm) ∧ l.length < cap
  | .sAdv c v => Called ph c ∧ (∃ tm, dispatch c = .snd v tm) ∧ l.length < cap ∧
      s.e < s.nb ∧ ∃ bf, R s.nb s.b s.e bf l ∧ s.buf = upd bf s.e (some v)
  | .sSet c => ph = .done c (.done .OK none) ∧ isSend c = true ∧ 0 < l.length
  | .sPushUnl c r | .sUnl c r => ph = .done c r ∧ isSend c = true
  | .rLock c out tm | .rChkLock c out tm | .rChk c out tm => Called ph c ∧ dispatch c = .rcv out tm
  | .rReset c out tm => ph = .called c true ∧ dispatch c = .rcv out tm ∧ l = []
  | .rChkUnl c out tm empty => Called ph c ∧ dispatch c = .rcv out tm ∧
      (if empty then ph = .called c true ∧ l = [] ∧ s.ne = false else 0 < l.length)
  | .rWait c out tm => ph = .called c true ∧ dispatch c = .rcv out tm ∧ (s.ne = true → 0 < l.length)
  | .rPopLock c out | .rCopy c out => Called ph c ∧ (∃ tm, dispatch c = .rcv out tm) ∧ 0 < l.length
  | .rDes c got => Called ph c ∧ (∃ out tm, dispatch c = .rcv out tm ∧ got = if out then l.head? else none) ∧ 0 < l.length
  | .rAdv c got x => Called ph c ∧ (∃ out tm, dispatch c = .rcv out tm ∧ got = if out then some x else none) ∧
      ∃ l' bf, l = x :: l' ∧ R s.nb s.b s.e bf l ∧ s.buf = upd bf s.b none
  | .rSet c got => ph = .done c (.done .OK got) ∧ isRecv c = true ∧ l.length < cap
  | .rPopUnl c r | .rUnl c r => ph = .done c r ∧ isRecv c = true
  | .zLock c | .zRead c => Called ph c ∧ (dispatch c = .size ∨ dispatch c = .maxSize)
  | .zUnl c r | .ret c r => ph = .done c r

structure InvG (Qs Qr : Prop) (cap : Nat) (s : St V) (tr : List (Ev V)) (l : List V) : Prop where
  nb : s.nb = cap + 1
  ub : s.ub = false
  hist : Hist cap (effects tr) l
  ring : (∀ t, mid (s.pc t) = false) → R s.nb s.b s.e s.buf l
  loc : ∀ t, Loc cap s l (phase t tr) (s.pc t)
  hs : ∀ t, s.ms = some t ↔ sHolds (s.pc t) = true
  hr : ∀ t, s.mr = some t ↔ rHolds (s.pc t) = true
  hb : ∀ t, s.mb = some t ↔ bHolds (s.pc t) = true
  /-- Nobody waits in vain (`Qs`, `Qr`: the signals of that kind got through). -/
  ws : Qs → ∀ t c v tm, s.pc t = .sWait c v tm → s.nf = false → l.length = cap ∨ ∃ u c got, s.pc u = .rSet c got
  wr : Qr → ∀ t c out tm, s.pc t = .rWait c out tm → s.ne = false → l = [] ∨ ∃ u c, s.pc u = .sSet c

theorem InvG.init (Qs Qr : Prop) (cap : Nat) : InvG Qs Qr cap (init V cap) [] [] := by
  refine ⟨rfl, rfl, Hist.nil, fun _ => ⟨by simp [MQ.init], by simp [MQ.init], by simp [MQ.init], by simp [MQ.init]⟩, ?_, ?_, ?_, ?_, ?_, ?_⟩ <;>
    simp [MQ.init, Loc, phase, sHolds, rHolds, bHolds]

theorem Loc.frame {cap : Nat} {s s' : St V} {l l' : List V} {ph : Phase V} {p : PC V} (h : Loc cap s l ph p)
    (h1 : sHolds p = true → l'.length ≤ l.length ∧ (s'.nf = true → s.nf = true ∨ l'.length < cap))
    (h2 : rHolds p = true → l.length ≤ l'.length ∧ (s'.ne = true → s.ne = true ∨ 0 < l'.length))
    (h3 : bHolds p = true → l' = l ∧ s'.nf = s.nf ∧ s'.ne = s.ne ∧ s'.buf = s.buf ∧ s'.b = s.b ∧ s'.e = s.e ∧ s'.nb = s.nb) :
    Loc cap s' l' ph p := by
  cases p <;> simp only [Loc, sHolds, rHolds, bHolds] at * <;> grind

theorem hist0 {cap : Nat} {h : List (Eff V)} {q : List V} (hh : Hist cap h q) : Hist cap (h ++ []) q := by rwa [List.append_nil]

/-- The specification by primitive. -/
def PLegal (cap : Nat) (q : List V) : Prim V → Res V → List V → Prop
  | .snd v tm, r, q' => Snd cap v tm q r q'
  | .rcv out tm, r, q' => Rcv out tm q r q'
  | .size, r, q' => r = .num q.length ∧ q' = q
  | .maxSize, r, q' => r = .num cap ∧ q' = q

theorem legal_iff {cap : Nat} {q q' : List V} {c : Call V} {r : Res V} : Legal cap q (.op c r) q' ↔ PLegal cap q (dispatch c) r q' := by
  cases c <;> simp [Legal, PLegal, dispatch]

theorem Spec.Hist.go {cap : Nat} {h : List (Eff V)} {q q' : List V} {c : Call V} {r : Res V} (hh : Hist cap h q)
    (hl : PLegal cap q (dispatch c) r q') : Hist cap (h ++ [.op c r]) q' := Hist.snoc hh (legal_iff.2 hl)

theorem isSend_of {c : Call V} {v : V} {tm : Tmo} (h : dispatch c = .snd v tm) : isSend c = true := by cases c <;> simp_all [dispatch, isSend]
theorem isRecv_of {c : Call V} {out : Bool} {tm : Tmo} (h : dispatch c = .rcv out tm) : isRecv c = true := by cases c <;> simp_all [dispatch, isRecv]

/-- A step of thread `t`, everything about the other threads factored out. -/
theorem InvG.act {Ps Pr Qs Qr : Prop} {cap : Nat} {s s' : St V} {tr ev : List (Ev V)} {l l' : List V} (I : InvG Ps Pr cap s tr l) (t : Tid) (p' : PC V)
    (hpc : s'.pc = upd s.pc t p') (hmine : ∀ e, e ∈ ev → mine t e) (hnb : s'.nb = s.nb) (hub : s'.ub = false)
    (hh : Hist cap (effects tr ++ effects ev) l')
    (hring : (∀ u, u ≠ t → mid (s.pc u) = false) → mid p' = false → R s'.nb s'.b s'.e s'.buf l')
    (hloc : Loc cap s' l' (ev.foldl (Phase.next t) (phase t tr)) p')
    (h1 : ∀ u, u ≠ t → sHolds (s.pc u) = true → l'.length ≤ l.length ∧ (s'.nf = true → s.nf = true ∨ l'.length < cap))
    (h2 : ∀ u, u ≠ t → rHolds (s.pc u) = true → l.length ≤ l'.length ∧ (s'.ne = true → s.ne = true ∨ 0 < l'.length))
    (h3 : ∀ u, u ≠ t → bHolds (s.pc u) = true →
      l' = l ∧ s'.nf = s.nf ∧ s'.ne = s.ne ∧ s'.buf = s.buf ∧ s'.b = s.b ∧ s'.e = s.e ∧ s'.nb = s.nb)
    (hs : ∀ u, s'.ms = some u ↔ sHolds (s'.pc u) = true)
    (hr : ∀ u, s'.mr = some u ↔ rHolds (s'.pc u) = true)
    (hb : ∀ u, s'.mb = some u ↔ bHolds (s'.pc u) = true)
    (hws : Qs → ∀ u c v tm, s'.pc u = .sWait c v tm → s'.nf = false → l'.length = cap ∨ ∃ u c got, s'.pc u = .rSet c got)
    (hwr : Qr → ∀ u c out tm, s'.pc u = .rWait c out tm → s'.ne = false → l' = [] ∨ ∃ u c, s'.pc u = .sSet c) :
    InvG Qs Qr cap s' (tr ++ ev) l' := by
  refine ⟨by rw [hnb, I.nb], hub, by rw [effects_app]; exact hh, fun hm => ?_, fun u => ?_, hs, hr, hb, hws, hwr⟩
  · refine hring (fun u hu => ?_) ?_
    · have := hm u; rwa [hpc, upd_ne _ _ hu] at this
    · have := hm t; rwa [hpc, upd_same] at this
  · rw [phase_app, hpc]
    by_cases e : u = t
    · subst e; rw [upd_same]; exact hloc
    · rw [upd_ne _ _ e, phase_other e hmine]
      exact (I.loc u).frame (h1 u e) (h2 u e) (h3 u e)

theorem holder_upd {H : PC V → Bool} {m m' : Option Tid} {pc : Tid → PC V} {t : Tid} {p' : PC V} (h : ∀ u, m = some u ↔ H (pc u) = true)
    (hc : (m' = m ∧ H p' = H (pc t)) ∨ (m = none ∧ m' = some t ∧ H p' = true) ∨ (H (pc t) = true ∧ m' = none ∧ H p' = false)) :
    ∀ u, m' = some u ↔ H (upd pc t p' u) = true := by
  intro u
  have h0 := h u
  have h1 := h t
  by_cases e : u = t
  · subst e; rw [upd_same]; grind
  · rw [upd_ne _ _ e]; grind

/-- How a step changes a lock: not at all, acquire, release. -/
def LockStep (m m' : Option Tid) (t : Tid) (h h' : Bool) : Prop :=
  (m' = m ∧ h' = h) ∨ (m = none ∧ m' = some t ∧ h' = true) ∨ (h = true ∧ m' = none ∧ h' = false)

theorem InvG.ws_upd {Qs Qr : Prop} {cap : Nat} {s s' : St V} {tr : List (Ev V)} {l l' : List V} (I : InvG Qs Qr cap s tr l) {t : Tid} {p' : PC V}
    (hpc : s'.pc = upd s.pc t p') (h1 : ∀ c v tm, p' = .sWait c v tm → s'.nf = false → l'.length = cap)
    (h2 : s'.nf = true ∨ (∃ c got, p' = .rSet c got) ∨ sHolds (s.pc t) = true ∨
      (s'.nf = s.nf ∧ l'.length = l.length ∧ ∀ c got, s.pc t ≠ .rSet c got)) :
    Qs → ∀ u c v tm, s'.pc u = .sWait c v tm → s'.nf = false → l'.length = cap ∨ ∃ u c got, s'.pc u = .rSet c got := by
  intro hq u c v tm hu hn
  by_cases e : u = t
  · subst e; rw [hpc, upd_same] at hu; exact Or.inl (h1 _ _ _ hu hn)
  · rw [hpc, upd_ne _ _ e] at hu
    rcases h2 with h2 | ⟨c', g, h2⟩ | h2 | ⟨h2, h3, h4⟩
    · rw [hn] at h2; simp at h2
    · exact Or.inr ⟨t, c', g, by rw [hpc, upd_same, h2]⟩
    · have a := (I.hs u).2 (by rw [hu]; rfl)
      have b := (I.hs t).2 h2
      rw [a] at b; simp at b; exact absurd b e
    · rw [h3]
      rcases I.ws hq u c v tm hu (h2 ▸ hn) with a | ⟨w, c', g, a⟩
      · exact Or.inl a
      · refine Or.inr ⟨w, c', g, ?_⟩
        rw [hpc, upd_ne _ _ (fun e2 => h4 c' g (by rw [← e2]; exact a))]; exact a

theorem InvG.wr_upd {Qs Qr : Prop} {cap : Nat} {s s' : St V} {tr : List (Ev V)} {l l' : List V} (I : InvG Qs Qr cap s tr l) {t : Tid} {p' : PC V}
    (hpc : s'.pc = upd s.pc t p') (h1 : ∀ c v tm, p' = .rWait c v tm → s'.ne = false → l' = [])
    (h2 : s'.ne = true ∨ (∃ c, p' = .sSet c) ∨ rHolds (s.pc t) = true ∨
      (s'.ne = s.ne ∧ l' = l ∧ ∀ c, s.pc t ≠ .sSet c)) :
    Qr → ∀ u c v tm, s'.pc u = .rWait c v tm → s'.ne = false → l' = [] ∨ ∃ u c, s'.pc u = .sSet c := by
  intro hq u c v tm hu hn
  by_cases e : u = t
  · subst e; rw [hpc, upd_same] at hu; exact Or.inl (h1 _ _ _ hu hn)
  · rw [hpc, upd_ne _ _ e] at hu
    rcases h2 with h2 | ⟨c', h2⟩ | h2 | ⟨h2, h3, h4⟩
    · rw [hn] at h2; simp at h2
    · exact Or.inr ⟨t, c', by rw [hpc, upd_same, h2]⟩
    · have a := (I.hr u).2 (by rw [hu]; rfl)
      have b := (I.hr t).2 h2
      rw [a] at b; simp at b; exact absurd b e
    · rw [h3]
      rcases I.wr hq u c v tm hu (h2 ▸ hn) with a | ⟨w, c', a⟩
      · exact Or.inl a
      · refine Or.inr ⟨w, c', ?_⟩
        rw [hpc, upd_ne _ _ (fun e2 => h4 c' (by rw [← e2]; exact a))]; exact a

/-- Whoever holds a lock is alone. -/
theorem InvG.s_alone {Qs Qr : Prop} {cap : Nat} {s : St V} {tr : List (Ev V)} {l : List V} (I : InvG Qs Qr cap s tr l) {t u : Tid} (ht : sHolds (s.pc t) = true)
    (hu : sHolds (s.pc u) = true) : u = t := by
  have a := (I.hs u).2 hu; have b := (I.hs t).2 ht; rw [a] at b; simpa using b
theorem InvG.r_alone {Qs Qr : Prop} {cap : Nat} {s : St V} {tr : List (Ev V)} {l : List V} (I : InvG Qs Qr cap s tr l) {t u : Tid} (ht : rHolds (s.pc t) = true)
    (hu : rHolds (s.pc u) = true) : u = t := by
  have a := (I.hr u).2 hu; have b := (I.hr t).2 ht; rw [a] at b; simpa using b
theorem InvG.b_alone {Qs Qr : Prop} {cap : Nat} {s : St V} {tr : List (Ev V)} {l : List V} (I : InvG Qs Qr cap s tr l) {t u : Tid} (ht : bHolds (s.pc t) = true)
    (hu : bHolds (s.pc u) = true) : u = t := by
  have a := (I.hb u).2 hu; have b := (I.hb t).2 ht; rw [a] at b; simpa using b

/-- The ring as seen by whoever holds its lock between the operations. -/
theorem InvG.ring_of {Qs Qr : Prop} {cap : Nat} {s : St V} {tr : List (Ev V)} {l : List V} (I : InvG Qs Qr cap s tr l) {t : Tid} (ht : bHolds (s.pc t) = true)
    (hm : mid (s.pc t) = false) : R s.nb s.b s.e s.buf l := by
  apply I.ring
  intro u
  cases h : mid (s.pc u)
  · rfl
  · rw [I.b_alone ht (mid_bHolds h)] at h; rw [h] at hm; simp at hm

/-- A step that touches neither the ring nor the event bits. -/
theorem InvG.quiet {Qs Qr : Prop} {cap : Nat} {s s' : St V} {tr ev : List (Ev V)} {l : List V} (I : InvG Qs Qr cap s tr l) (t : Tid) (p' : PC V)
    (hpc : s'.pc = upd s.pc t p') (hmine : ∀ e, e ∈ ev → mine t e)
    (hsame : s'.nb = s.nb ∧ s'.b = s.b ∧ s'.e = s.e ∧ s'.buf = s.buf ∧ s'.nf = s.nf ∧ s'.ne = s.ne ∧ s'.ub = s.ub)
    (hh : Hist cap (effects tr ++ effects ev) l) (hm : mid (s.pc t) = false)
    (hloc : Loc cap s' l (ev.foldl (Phase.next t) (phase t tr)) p')
    (hs : LockStep s.ms s'.ms t (sHolds (s.pc t)) (sHolds p')) (hr : LockStep s.mr s'.mr t (rHolds (s.pc t)) (rHolds p'))
    (hb : LockStep s.mb s'.mb t (bHolds (s.pc t)) (bHolds p'))
    (hns : ∀ c got, s.pc t ≠ .rSet c got) (hnr : ∀ c, s.pc t ≠ .sSet c)
    (hws : ∀ c v tm, p' = .sWait c v tm → s'.nf = false → l.length = cap)
    (hwr : ∀ c v tm, p' = .rWait c v tm → s'.ne = false → l = []) : InvG Qs Qr cap s' (tr ++ ev) l := by
  obtain ⟨e1, e2, e3, e4, e5, e6, e7⟩ := hsame
  refine I.act t p' hpc hmine e1 (by rw [e7, I.ub]) hh ?_ hloc ?_ ?_ ?_ ?_ ?_ ?_ ?_ ?_
  · intro h1 _
    rw [e1, e2, e3, e4]
    apply I.ring
    intro u
    by_cases e : u = t
    · rw [e]; exact hm
    · exact h1 u e
  · intro u _ _; exact ⟨Nat.le_refl _, fun h => Or.inl (e5 ▸ h)⟩
  · intro u _ _; exact ⟨Nat.le_refl _, fun h => Or.inl (e6 ▸ h)⟩
  · intro u _ _; exact ⟨rfl, e5, e6, e4, e2, e3, e1⟩
  · rw [hpc]; exact holder_upd I.hs hs
  · rw [hpc]; exact holder_upd I.hr hr
  · rw [hpc]; exact holder_upd I.hb hb
  · exact I.ws_upd hpc hws (Or.inr (Or.inr (Or.inr ⟨e5, rfl, hns⟩)))
  · exact I.wr_upd hpc hwr (Or.inr (Or.inr (Or.inr ⟨e6, rfl, hnr⟩)))

theorem InvG.step {Qs Qr : Prop} {cap : Nat} {s s' : St V} {tr ev : List (Ev V)} {l : List V} {a : Act V} (I : InvG Qs Qr cap s tr l)
    (hstep : MQ.step s a = some (s', ev)) : ∃ l', InvG Qs Qr cap s' (tr ++ ev) l' := by
  have hub := I.ub
  cases a with
  | call t c =>
    simp only [MQ.step, hub] at hstep
    have ht := I.loc t
    cases hpc : s.pc t <;> simp [hpc] at hstep
    obtain ⟨rfl, rfl⟩ := hstep
    rw [hpc] at ht; simp only [Loc] at ht
    refine ⟨l, I.quiet t _ rfl (by simp [mine]) (by simp [St.at]) (hist0 I.hist) (by simp [hpc, mid]) ?_ ?_ ?_ ?_ (by simp [hpc]) (by simp [hpc]) (by simp) (by simp)⟩
    · simp [Loc, Called, Phase.next, ht]
    all_goals simp [LockStep, St.at, hpc, sHolds, rHolds, bHolds]
  | go t =>
    simp only [MQ.step, hub] at hstep
    have ht := I.loc t
    have b1 := I.hs t
    have b2 := I.hr t
    have b3 := I.hb t
    cases hpc : s.pc t <;> rw [hpc] at ht b1 b2 b3 <;> simp only [hpc] at hstep <;> simp only [Loc] at ht
    case idle => simp at hstep
    case entry c =>
      cases hd : dispatch c <;> simp [hd] at hstep <;> obtain ⟨rfl, rfl⟩ := hstep <;>
      refine ⟨l, I.quiet t _ rfl (by simp) (by simp [St.at]) (hist0 I.hist) (by simp [hpc, mid]) ?_ ?_ ?_ ?_ (by simp [hpc]) (by simp [hpc]) (by simp) (by simp)⟩ <;>
      simp [LockStep, St.at, hpc, sHolds, rHolds, bHolds, Loc, ht, hd]
    case sLock c v tm | rLock c v tm | sChkLock c v tm | rChkLock c v tm | sPushLock c v | rPopLock c out | zLock c =>
      simp at hstep; obtain ⟨hn, rfl, rfl⟩ := hstep
      refine ⟨l, I.quiet t _ rfl (by simp) (by simp [St.at]) (hist0 I.hist) (by simp [hpc, mid]) ?_ ?_ ?_ ?_ (by simp [hpc]) (by simp [hpc]) (by simp) (by simp)⟩ <;>
      simp [LockStep, St.at, hpc, sHolds, rHolds, bHolds, Loc, ht, hn]
    case sPushUnl c r | rPopUnl c r | sUnl c r | rUnl c r | zUnl c r =>
      simp at hstep; obtain ⟨rfl, rfl⟩ := hstep
      refine ⟨l, I.quiet t _ rfl (by simp) (by simp [St.at]) (hist0 I.hist) (by simp [hpc, mid]) ?_ ?_ ?_ ?_ (by simp [hpc]) (by simp [hpc]) (by simp) (by simp)⟩ <;>
      simp [LockStep, St.at, hpc, sHolds, rHolds, bHolds, Loc, ht]
    case ret c r =>
      simp at hstep; obtain ⟨rfl, rfl⟩ := hstep
      refine ⟨l, I.quiet t _ rfl (by simp [mine]) (by simp [St.at]) (hist0 I.hist) (by simp [hpc, mid]) ?_ ?_ ?_ ?_ (by simp [hpc]) (by simp [hpc]) (by simp) (by simp)⟩ <;>
      simp [LockStep, St.at, hpc, sHolds, rHolds, bHolds, Loc, ht, Phase.next]
    case zRead c =>
      have hR := I.ring_of (t := t) (by simp [hpc, bHolds]) (by simp [hpc, mid])
      obtain ⟨⟨why, hph⟩, hd⟩ := ht
      rcases hd with hd | hd <;> simp [hd] at hstep <;> obtain ⟨rfl, rfl⟩ := hstep
      · refine ⟨l, I.quiet t _ rfl (by simp [mine]) (by simp [St.at]) (I.hist.go ?_) (by simp [hpc, mid]) ?_ ?_ ?_ ?_ (by simp [hpc]) (by simp [hpc]) (by simp) (by simp)⟩
        · rw [hd]; simp [PLegal, hR.size_eq]
        all_goals simp [LockStep, St.at, hpc, sHolds, rHolds, bHolds, Loc, hph, Phase.next]
      · refine ⟨l, I.quiet t _ rfl (by simp [mine]) (by simp [St.at]) (I.hist.go ?_) (by simp [hpc, mid]) ?_ ?_ ?_ ?_ (by simp [hpc]) (by simp [hpc]) (by simp) (by simp)⟩
        · rw [hd]; simp [PLegal, maxSize, I.nb]
        all_goals simp [LockStep, St.at, hpc, sHolds, rHolds, bHolds, Loc, hph, Phase.next]
    case sChk c v tm =>
      have hR := I.ring_of (t := t) (by simp [hpc, bHolds]) (by simp [hpc, mid])
      have hL := hR.hl
      have hnb := I.nb
      obtain ⟨⟨why, hph⟩, hd⟩ := ht
      by_cases hf : isFull s = true
      · simp [hf] at hstep; obtain ⟨rfl, rfl⟩ := hstep
        have := (hR.isFull_iff I.nb).1 hf
        refine ⟨l, I.quiet t _ rfl (by simp [mine]) (by simp [St.at]) (I.hist.snoc (x := .sawFull) ⟨this, rfl⟩) (by simp [hpc, mid]) ?_ ?_ ?_ ?_ (by simp [hpc]) (by simp [hpc]) (by simp) (by simp)⟩ <;>
        simp [LockStep, St.at, hpc, sHolds, rHolds, bHolds, Loc, hph, Phase.next, isSend_of hd, hd, this]
      · simp [hf] at hstep; obtain ⟨rfl, rfl⟩ := hstep
        have : l.length < cap := by have := mt (hR.isFull_iff I.nb).2 hf; omega
        refine ⟨l, I.quiet t _ rfl (by simp) (by simp [St.at]) (hist0 I.hist) (by simp [hpc, mid]) ?_ ?_ ?_ ?_ (by simp [hpc]) (by simp [hpc]) (by simp) (by simp)⟩ <;>
        simp [LockStep, St.at, hpc, sHolds, rHolds, bHolds, Loc, hph, hd, this, Called]
    case rChk c v tm =>
      have hR := I.ring_of (t := t) (by simp [hpc, bHolds]) (by simp [hpc, mid])
      obtain ⟨⟨why, hph⟩, hd⟩ := ht
      by_cases hf : isEmpty s = true
      · simp [hf] at hstep; obtain ⟨rfl, rfl⟩ := hstep
        have := hR.isEmpty_iff.1 hf
        refine ⟨l, I.quiet t _ rfl (by simp [mine]) (by simp [St.at]) (I.hist.snoc (x := .sawEmpty) ⟨this, rfl⟩) (by simp [hpc, mid]) ?_ ?_ ?_ ?_ (by simp [hpc]) (by simp [hpc]) (by simp) (by simp)⟩ <;>
        simp [LockStep, St.at, hpc, sHolds, rHolds, bHolds, Loc, hph, Phase.next, isRecv_of hd, hd, this]
      · simp [hf] at hstep; obtain ⟨rfl, rfl⟩ := hstep
        have : 0 < l.length := by have := mt hR.isEmpty_iff.2 hf; cases l <;> simp_all
        refine ⟨l, I.quiet t _ rfl (by simp) (by simp [St.at]) (hist0 I.hist) (by simp [hpc, mid]) ?_ ?_ ?_ ?_ (by simp [hpc]) (by simp [hpc]) (by simp) (by simp)⟩ <;>
        simp [LockStep, St.at, hpc, sHolds, rHolds, bHolds, Loc, hph, hd, this, Called]
    case sChkUnl c v tm full =>
      cases full
      · simp at hstep ht; obtain ⟨rfl, rfl⟩ := hstep
        refine ⟨l, I.quiet t _ rfl (by simp) (by simp [St.at]) (hist0 I.hist) (by simp [hpc, mid]) ?_ ?_ ?_ ?_ (by simp [hpc]) (by simp [hpc]) (by simp) (by simp)⟩ <;>
        simp [LockStep, St.at, hpc, sHolds, rHolds, bHolds, Loc, ht]
      · simp at hstep ht; obtain ⟨rfl, rfl⟩ := hstep
        refine ⟨l, I.quiet t _ rfl (by simp) (by simp [St.at]) (hist0 I.hist) (by simp [hpc, mid]) ?_ ?_ ?_ ?_ (by simp [hpc]) (by simp [hpc]) (by simp [ht]) (by simp)⟩ <;>
        simp [LockStep, St.at, hpc, sHolds, rHolds, bHolds, Loc, ht]
    case rChkUnl c v tm full =>
      cases full
      · simp at hstep ht; obtain ⟨rfl, rfl⟩ := hstep
        refine ⟨l, I.quiet t _ rfl (by simp) (by simp [St.at]) (hist0 I.hist) (by simp [hpc, mid]) ?_ ?_ ?_ ?_ (by simp [hpc]) (by simp [hpc]) (by simp) (by simp)⟩ <;>
        simp [LockStep, St.at, hpc, sHolds, rHolds, bHolds, Loc, ht]
      · simp at hstep ht; obtain ⟨rfl, rfl⟩ := hstep
        refine ⟨l, I.quiet t _ rfl (by simp) (by simp [St.at]) (hist0 I.hist) (by simp [hpc, mid]) ?_ ?_ ?_ ?_ (by simp [hpc]) (by simp [hpc]) (by simp) (by simp [ht])⟩ <;>
        simp [LockStep, St.at, hpc, sHolds, rHolds, bHolds, Loc, ht]
    case sWait c v tm =>
      simp at hstep; obtain ⟨hn, rfl, rfl⟩ := hstep
      refine ⟨l, I.quiet t _ rfl (by simp) (by simp [St.at]) (hist0 I.hist) (by simp [hpc, mid]) ?_ ?_ ?_ ?_ (by simp [hpc]) (by simp [hpc]) (by simp) (by simp)⟩
      · simp [Loc, ht, hn, Called]
      all_goals simp [LockStep, St.at, hpc, sHolds, rHolds, bHolds]
    case rWait c v tm =>
      simp at hstep; obtain ⟨hn, rfl, rfl⟩ := hstep
      refine ⟨l, I.quiet t _ rfl (by simp) (by simp [St.at]) (hist0 I.hist) (by simp [hpc, mid]) ?_ ?_ ?_ ?_ (by simp [hpc]) (by simp [hpc]) (by simp) (by simp)⟩
      · simp [Loc, ht, hn, Called]
      all_goals simp [LockStep, St.at, hpc, sHolds, rHolds, bHolds]
    case rCopy c out =>
      have hR := I.ring_of (t := t) (by simp [hpc, bHolds]) (by simp [hpc, mid])
      obtain ⟨h1, ⟨tm, hd⟩, hp⟩ := ht
      obtain ⟨x, l1, rfl⟩ := List.exists_cons_of_length_pos hp
      have hf := hR.front
      simp only [List.head?_cons] at hf
      cases out <;> simp [hf] at hstep <;> obtain ⟨rfl, rfl⟩ := hstep <;>
      refine ⟨_, I.quiet t _ rfl (by simp) (by simp [St.at]) (hist0 I.hist) (by simp [hpc, mid]) ?_ ?_ ?_ ?_ (by simp [hpc]) (by simp [hpc]) (by simp) (by simp)⟩ <;>
      simp [LockStep, St.at, hpc, sHolds, rHolds, bHolds, Loc, h1, hd]
    case sReset c v tm =>
      simp at hstep; obtain ⟨rfl, rfl⟩ := hstep
      have hR := I.ring_of (t := t) (by simp [hpc, bHolds]) (by simp [hpc, mid])
      refine ⟨l, I.act t _ rfl (by simp) rfl (by simp [St.at, hub]) (hist0 I.hist) (fun _ _ => hR) ?_ ?_ ?_ ?_ (holder_upd I.hs ?_) (holder_upd I.hr ?_)
        (holder_upd I.hb ?_) (I.ws_upd rfl (by simp) ?_) (I.wr_upd rfl (by simp) ?_)⟩
      · simp [Loc, ht, Called]
      · intro u hu h; exact absurd (I.s_alone (t := t) (by simp [hpc, sHolds]) h) hu
      · intro u hu h; simp [St.at]; grind
      · intro u hu h; exact absurd (I.b_alone (t := t) (by simp [hpc, bHolds]) h) hu
      · left; simp [St.at, hpc, sHolds]
      · left; simp [St.at, hpc, rHolds]
      · left; simp [St.at, hpc, bHolds]
      · right; right; left; simp [hpc, sHolds]
      · right; right; right; simp [St.at, hpc]
    case rReset c v tm =>
      simp at hstep; obtain ⟨rfl, rfl⟩ := hstep
      have hR := I.ring_of (t := t) (by simp [hpc, bHolds]) (by simp [hpc, mid])
      refine ⟨l, I.act t _ rfl (by simp) rfl (by simp [St.at, hub]) (hist0 I.hist) (fun _ _ => hR) ?_ ?_ ?_ ?_ (holder_upd I.hs ?_) (holder_upd I.hr ?_)
        (holder_upd I.hb ?_) (I.ws_upd rfl (by simp) ?_) (I.wr_upd rfl (by simp) ?_)⟩
      · simp [Loc, ht, Called]
      · intro u hu h; simp [St.at]; grind
      · intro u hu h; exact absurd (I.r_alone (t := t) (by simp [hpc, rHolds]) h) hu
      · intro u hu h; exact absurd (I.b_alone (t := t) (by simp [hpc, bHolds]) h) hu
      · left; simp [St.at, hpc, sHolds]
      · left; simp [St.at, hpc, rHolds]
      · left; simp [St.at, hpc, bHolds]
      · right; right; right; simp [St.at, hpc]
      · right; right; left; simp [hpc, rHolds]
    case sSet c =>
      simp at hstep; obtain ⟨rfl, rfl⟩ := hstep
      have hR := I.ring_of (t := t) (by simp [hpc, bHolds]) (by simp [hpc, mid])
      refine ⟨l, I.act t _ rfl (by simp) rfl (by simp [St.at, hub]) (hist0 I.hist) (fun _ _ => hR) ?_ ?_ ?_ ?_ (holder_upd I.hs ?_) (holder_upd I.hr ?_)
        (holder_upd I.hb ?_) (I.ws_upd rfl (by simp) ?_) (I.wr_upd rfl (by simp) ?_)⟩
      · simp [Loc, ht]
      · intro u hu h; exact absurd (I.s_alone (t := t) (by simp [hpc, sHolds]) h) hu
      · intro u hu h; simp [St.at, ht]
      · intro u hu h; exact absurd (I.b_alone (t := t) (by simp [hpc, bHolds]) h) hu
      · left; simp [St.at, hpc, sHolds]
      · left; simp [St.at, hpc, rHolds]
      · left; simp [St.at, hpc, bHolds]
      · right; right; left; simp [hpc, sHolds]
      · left; rfl
    case rSet c got =>
      simp at hstep; obtain ⟨rfl, rfl⟩ := hstep
      have hR := I.ring_of (t := t) (by simp [hpc, bHolds]) (by simp [hpc, mid])
      refine ⟨l, I.act t _ rfl (by simp) rfl (by simp [St.at, hub]) (hist0 I.hist) (fun _ _ => hR) ?_ ?_ ?_ ?_ (holder_upd I.hs ?_) (holder_upd I.hr ?_)
        (holder_upd I.hb ?_) (I.ws_upd rfl (by simp) ?_) (I.wr_upd rfl (by simp) ?_)⟩
      · simp [Loc, ht]
      · intro u hu h; simp [St.at, ht]
      · intro u hu h; exact absurd (I.r_alone (t := t) (by simp [hpc, rHolds]) h) hu
      · intro u hu h; exact absurd (I.b_alone (t := t) (by simp [hpc, bHolds]) h) hu
      · left; simp [St.at, hpc, sHolds]
      · left; simp [St.at, hpc, rHolds]
      · left; simp [St.at, hpc, bHolds]
      · left; rfl
      · right; right; left; simp [hpc, rHolds]
    case sCons c v =>
      obtain ⟨h1, h2, h3⟩ := ht
      have hR := I.ring_of (t := t) (by simp [hpc, bHolds]) (by simp [hpc, mid])
      have he := hR.he_lt
      simp [he, hR.none_at_e] at hstep; obtain ⟨rfl, rfl⟩ := hstep
      refine ⟨l, I.act t _ rfl (by simp) rfl (by simp [St.at, hub]) (hist0 I.hist) (fun _ h => by simp [mid] at h) ?_ ?_ ?_ ?_ (holder_upd I.hs ?_) (holder_upd I.hr ?_)
        (holder_upd I.hb ?_) (I.ws_upd rfl (by simp) ?_) (I.wr_upd rfl (by simp) ?_)⟩
      · simp only [Loc, St.at]; exact ⟨h1, h2, h3, he, _, hR, rfl⟩
      · intro u hu h; exact absurd (I.s_alone (t := t) (by simp [hpc, sHolds]) h) hu
      · intro u hu h; simp [St.at]; grind
      · intro u hu h; exact absurd (I.b_alone (t := t) (by simp [hpc, bHolds]) h) hu
      · left; simp [St.at, hpc, sHolds]
      · left; simp [St.at, hpc, rHolds]
      · left; simp [St.at, hpc, bHolds]
      · right; right; left; simp [hpc, sHolds]
      · right; right; right; simp [St.at, hpc]
    case sAdv c v =>
      obtain ⟨⟨why, hph⟩, ⟨tm, hd⟩, h3, h4, bf, hR, hbuf⟩ := ht
      simp at hstep; obtain ⟨rfl, rfl⟩ := hstep
      refine ⟨l ++ [v], I.act t _ rfl (by simp [mine]) rfl (by simp [St.at, hub]) (I.hist.go ?_) (fun _ _ => ?_) ?_ ?_ ?_ ?_ (holder_upd I.hs ?_) (holder_upd I.hr ?_)
        (holder_upd I.hb ?_) (I.ws_upd rfl (by simp) ?_) (I.wr_upd rfl (by simp) ?_)⟩
      · rw [hd]; exact Or.inl ⟨rfl, h3, rfl⟩
      · simp only [St.at, hbuf]; exact hR.push (by have := I.nb; omega) v
      · simp [Loc, Phase.next, hph, isSend_of hd]
      · intro u hu h; exact absurd (I.s_alone (t := t) (by simp [hpc, sHolds]) h) hu
      · intro u hu h; simp [St.at]
      · intro u hu h; exact absurd (I.b_alone (t := t) (by simp [hpc, bHolds]) h) hu
      · left; simp [St.at, hpc, sHolds]
      · left; simp [St.at, hpc, rHolds]
      · left; simp [St.at, hpc, bHolds]
      · right; right; left; simp [hpc, sHolds]
      · right; left; simp
    case rDes c got =>
      obtain ⟨h1, ⟨out, tm, hd, hg⟩, hp⟩ := ht
      have hR := I.ring_of (t := t) (by simp [hpc, bHolds]) (by simp [hpc, mid])
      obtain ⟨x, l1, rfl⟩ := List.exists_cons_of_length_pos hp
      have hf := hR.front
      simp only [List.head?_cons] at hf hg
      simp [hf] at hstep; obtain ⟨rfl, rfl⟩ := hstep
      refine ⟨x :: l1, I.act t _ rfl (by simp) rfl (by simp [St.at, hub]) (hist0 I.hist) (fun _ h => by simp [mid] at h) ?_ ?_ ?_ ?_ (holder_upd I.hs ?_) (holder_upd I.hr ?_)
        (holder_upd I.hb ?_) (I.ws_upd rfl (by simp) ?_) (I.wr_upd rfl (by simp) ?_)⟩
      · simp only [Loc, St.at]; exact ⟨h1, ⟨out, tm, hd, hg⟩, l1, _, rfl, hR, rfl⟩
      · intro u hu h; simp [St.at]; grind
      · intro u hu h; exact absurd (I.r_alone (t := t) (by simp [hpc, rHolds]) h) hu
      · intro u hu h; exact absurd (I.b_alone (t := t) (by simp [hpc, bHolds]) h) hu
      · left; simp [St.at, hpc, sHolds]
      · left; simp [St.at, hpc, rHolds]
      · left; simp [St.at, hpc, bHolds]
      · right; right; right; simp [St.at, hpc]
      · right; right; left; simp [hpc, rHolds]
    case rAdv c got x =>
      obtain ⟨⟨why, hph⟩, ⟨out, tm, hd, hg⟩, l1, bf, rfl, hR, hbuf⟩ := ht
      simp at hstep; obtain ⟨rfl, rfl⟩ := hstep
      have hL := hR.hl
      have hnb := I.nb
      simp only [List.length_cons] at hL
      refine ⟨l1, I.act t _ rfl (by simp [mine]) rfl (by simp [St.at, hub]) (I.hist.go ?_) (fun _ _ => ?_) ?_ ?_ ?_ ?_ (holder_upd I.hs ?_) (holder_upd I.hr ?_)
        (holder_upd I.hb ?_) (I.ws_upd rfl (by simp) ?_) (I.wr_upd rfl (by simp) ?_)⟩
      · rw [hd]; exact Or.inl ⟨x, rfl, by rw [hg]⟩
      · simp only [St.at, hbuf]; exact hR.pop
      · simp [Loc, Phase.next, hph, isRecv_of hd]; omega
      · intro u hu h; simp [St.at]; omega
      · intro u hu h; exact absurd (I.r_alone (t := t) (by simp [hpc, rHolds]) h) hu
      · intro u hu h; exact absurd (I.b_alone (t := t) (by simp [hpc, bHolds]) h) hu
      · left; simp [St.at, hpc, sHolds]
      · left; simp [St.at, hpc, rHolds]
      · left; simp [St.at, hpc, bHolds]
      · right; left; simp
      · right; right; left; simp [hpc, rHolds]
  | expire t =>
    simp only [MQ.step, hub] at hstep
    have ht := I.loc t
    cases hpc : s.pc t <;> rw [hpc] at ht <;> simp only [hpc] at hstep <;> simp only [Loc] at ht
    case sLock c v tm =>
      simp at hstep; obtain ⟨⟨hn, hm⟩, rfl, rfl⟩ := hstep
      obtain ⟨⟨why, hph⟩, hd⟩ := ht
      refine ⟨l, I.quiet t _ rfl (by simp [mine]) (by simp [St.at]) (I.hist.go ?_) (by simp [hpc, mid]) ?_ ?_ ?_ ?_ (by simp [hpc]) (by simp [hpc]) (by simp) (by simp)⟩
      · rw [hd]; exact Or.inr (Or.inl ⟨rfl, hn, rfl⟩)
      all_goals simp [LockStep, St.at, hpc, sHolds, rHolds, bHolds, Loc, hph, Phase.next]
    case rLock c v tm =>
      simp at hstep; obtain ⟨⟨hn, hm⟩, rfl, rfl⟩ := hstep
      obtain ⟨⟨why, hph⟩, hd⟩ := ht
      refine ⟨l, I.quiet t _ rfl (by simp [mine]) (by simp [St.at]) (I.hist.go ?_) (by simp [hpc, mid]) ?_ ?_ ?_ ?_ (by simp [hpc]) (by simp [hpc]) (by simp) (by simp)⟩
      · rw [hd]; exact Or.inr (Or.inl ⟨rfl, hn, rfl⟩)
      all_goals simp [LockStep, St.at, hpc, sHolds, rHolds, bHolds, Loc, hph, Phase.next]
    case sWait c v tm =>
      simp at hstep; obtain ⟨⟨hn, hm⟩, rfl, rfl⟩ := hstep
      obtain ⟨hph, hd, _⟩ := ht
      refine ⟨l, I.quiet t _ rfl (by simp [mine]) (by simp [St.at]) (I.hist.go ?_) (by simp [hpc, mid]) ?_ ?_ ?_ ?_ (by simp [hpc]) (by simp [hpc]) (by simp) (by simp)⟩
      · rw [hd]; exact Or.inr (Or.inl ⟨rfl, hn, rfl⟩)
      all_goals simp [LockStep, St.at, hpc, sHolds, rHolds, bHolds, Loc, hph, Phase.next, isSend_of hd]
    case rWait c v tm =>
      simp at hstep; obtain ⟨⟨hn, hm⟩, rfl, rfl⟩ := hstep
      obtain ⟨hph, hd, _⟩ := ht
      refine ⟨l, I.quiet t _ rfl (by simp [mine]) (by simp [St.at]) (I.hist.go ?_) (by simp [hpc, mid]) ?_ ?_ ?_ ?_ (by simp [hpc]) (by simp [hpc]) (by simp) (by simp)⟩
      · rw [hd]; exact Or.inr (Or.inl ⟨rfl, hn, rfl⟩)
      all_goals simp [LockStep, St.at, hpc, sHolds, rHolds, bHolds, Loc, hph, Phase.next, isRecv_of hd]
    all_goals simp at hstep
  | raise t e =>
    simp only [MQ.step, hub] at hstep
    have ht := I.loc t
    simp only [Bool.false_eq_true, if_false] at hstep
    have he : e = .OtherError ∨ e = .CalledByNonThread := by
      apply Classical.byContradiction
      intro he
      rw [if_neg he] at hstep; simp at hstep
    rw [if_pos he] at hstep
    have hF : Failed (V := V) (.done e none) := by rcases he with rfl | rfl <;> simp [Failed]
    have hT : e ≠ .TimedOut := by rcases he with rfl | rfl <;> simp
    cases hpc : s.pc t <;> rw [hpc] at ht <;> simp only [hpc] at hstep <;> simp only [Loc] at ht
    case sLock c v tm =>
      simp at hstep; obtain ⟨rfl, rfl⟩ := hstep
      obtain ⟨⟨why, hph⟩, hd⟩ := ht
      refine ⟨l, I.quiet t _ rfl (by simp [mine]) (by simp [St.at]) (I.hist.go ?_) (by simp [hpc, mid]) ?_ ?_ ?_ ?_ (by simp [hpc]) (by simp [hpc]) (by simp) (by simp)⟩
      · rw [hd]; exact Or.inr (Or.inr ⟨hF, rfl⟩)
      all_goals simp [LockStep, St.at, hpc, sHolds, rHolds, bHolds, Loc, hph, Phase.next, hT]
    case rLock c v tm =>
      simp at hstep; obtain ⟨rfl, rfl⟩ := hstep
      obtain ⟨⟨why, hph⟩, hd⟩ := ht
      refine ⟨l, I.quiet t _ rfl (by simp [mine]) (by simp [St.at]) (I.hist.go ?_) (by simp [hpc, mid]) ?_ ?_ ?_ ?_ (by simp [hpc]) (by simp [hpc]) (by simp) (by simp)⟩
      · rw [hd]; exact Or.inr (Or.inr ⟨hF, rfl⟩)
      all_goals simp [LockStep, St.at, hpc, sHolds, rHolds, bHolds, Loc, hph, Phase.next, hT]
    case sWait c v tm =>
      simp at hstep; obtain ⟨rfl, rfl⟩ := hstep
      obtain ⟨hph, hd, _⟩ := ht
      refine ⟨l, I.quiet t _ rfl (by simp [mine]) (by simp [St.at]) (I.hist.go ?_) (by simp [hpc, mid]) ?_ ?_ ?_ ?_ (by simp [hpc]) (by simp [hpc]) (by simp) (by simp)⟩
      · rw [hd]; exact Or.inr (Or.inr ⟨hF, rfl⟩)
      all_goals simp [LockStep, St.at, hpc, sHolds, rHolds, bHolds, Loc, hph, Phase.next, hT, isSend_of hd]
    case rWait c v tm =>
      simp at hstep; obtain ⟨rfl, rfl⟩ := hstep
      obtain ⟨hph, hd, _⟩ := ht
      refine ⟨l, I.quiet t _ rfl (by simp [mine]) (by simp [St.at]) (I.hist.go ?_) (by simp [hpc, mid]) ?_ ?_ ?_ ?_ (by simp [hpc]) (by simp [hpc]) (by simp) (by simp)⟩
      · rw [hd]; exact Or.inr (Or.inr ⟨hF, rfl⟩)
      all_goals simp [LockStep, St.at, hpc, sHolds, rHolds, bHolds, Loc, hph, Phase.next, hT, isRecv_of hd]
    all_goals simp at hstep
  | throw t fail =>
    simp only [MQ.step, hub] at hstep
    simp only [Bool.false_eq_true, if_false] at hstep
    have ht := I.loc t
    generalize hr : (if fail then Res.failure else Res.done Err.OtherError none : Res V) = r at hstep
    have hF : Failed r := by subst hr; cases fail <;> simp [Failed]
    have hT : r ≠ .done .TimedOut none := by subst hr; cases fail <;> simp
    cases hpc : s.pc t <;> rw [hpc] at ht <;> simp only [hpc] at hstep <;> simp only [Loc] at ht
    case sCons c v =>
      simp at hstep; obtain ⟨rfl, rfl⟩ := hstep
      obtain ⟨⟨why, hph⟩, ⟨tm, hd⟩, _⟩ := ht
      refine ⟨l, I.quiet t _ rfl (by simp [mine]) (by simp [St.at]) (I.hist.go ?_) (by simp [hpc, mid]) ?_ ?_ ?_ ?_ (by simp [hpc]) (by simp [hpc]) (by simp) (by simp)⟩
      · rw [hd]; exact Or.inr (Or.inr ⟨hF, rfl⟩)
      all_goals simp [LockStep, St.at, hpc, sHolds, rHolds, bHolds, Loc, hph, Phase.next, hT, isSend_of hd]
    case rCopy c out =>
      cases out <;> simp at hstep; obtain ⟨rfl, rfl⟩ := hstep
      obtain ⟨⟨why, hph⟩, ⟨tm, hd⟩, _⟩ := ht
      refine ⟨l, I.quiet t _ rfl (by simp [mine]) (by simp [St.at]) (I.hist.go ?_) (by simp [hpc, mid]) ?_ ?_ ?_ ?_ (by simp [hpc]) (by simp [hpc]) (by simp) (by simp)⟩
      · rw [hd]; exact Or.inr (Or.inr ⟨hF, rfl⟩)
      all_goals simp [LockStep, St.at, hpc, sHolds, rHolds, bHolds, Loc, hph, Phase.next, hT, isRecv_of hd]
    all_goals simp at hstep

/-- The invariant of the queue when no signal is lost. -/
abbrev Inv (cap : Nat) (s : St V) (tr : List (Ev V)) (l : List V) : Prop := InvG True True cap s tr l

theorem Inv.reach {cap : Nat} {s : St V} {tr : List (Ev V)} (h : Reach MQ.step (MQ.init V cap) s tr) : ∃ l, Inv cap s tr l := by
  refine Reach.inv (I := fun s tr => ∃ l, Inv cap s tr l) ⟨[], InvG.init True True cap⟩ ?_ h
  rintro s tr a s' ev ⟨l, I⟩ e
  exact I.step e

end Verif.MQ
