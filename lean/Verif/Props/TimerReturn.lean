import Verif.Props.Timer
/-
C61, C62 for the one-shot timer of the StdCpp platform, as far as they are true: exactly when start() and stop() do not return.
-/
namespace Verif.Props.TimerReturn
open Verif
open _root_.Verif.Mtx (Tid)
open Tm Spec Lts Proto Timer
set_option linter.unusedSimpArgs false
set_option linter.unusedVariables false

theorem snocInd {α : Type} {motive : List α → Prop} (l : List α) (nil : motive []) (snoc : ∀ l x, motive l → motive (l ++ [x])) : motive l := by
  have : motive l.reverse.reverse := by
    induction l.reverse with
    | nil => exact nil
    | cons x l ih => rw [List.reverse_cons]; exact snoc _ _ ih
  rwa [List.reverse_reverse] at this

/-! #### start() -/

/-- While a callback is due, running or just over, and no stop() has taken effect since it became due, the timer is active. -/
theorem since_due {k : Kind} (tr : List Ev) : ∀ {a : A}, Hist k (effects tr) a → (a.ph = .due ∨ a.ph = .run ∨ a.ph = .over) →
    ∃ x y, tr = x ++ Ev.due :: y ∧ Ev.fin ∉ y ∧ ((∀ u, Ev.lin u .stop .stopped ∉ y) → a.active = true) := by
  induction tr using snocInd with
  | nil =>
    intro a h hp
    generalize he : effects [] = l at h
    cases h with
    | nil => simp at hp
    | snoc => simp [effects] at he
  | snoc tr e ih =>
    intro a h hp
    rw [effects_app] at h
    cases hev : eff e with
    | none =>
      rw [show effects [e] = [] by simp [effects, hev], List.append_nil] at h
      obtain ⟨x, y, h1, h2, h3⟩ := ih h hp
      refine ⟨x, y ++ [e], by simp [h1], ?_, fun hh => h3 fun u hu => hh u (by simp [hu])⟩
      intro hf
      rcases List.mem_append.1 hf with hf | hf
      · exact h2 hf
      · simp at hf; subst hf; simp [eff] at hev
    | some x =>
      rw [show effects [e] = [x] by simp [effects, hev]] at h
      generalize he : effects tr ++ [x] = l at h
      cases h with
      | nil => simp at he
      | @snoc h0 a0 x' _ hh hl =>
        obtain ⟨rfl, he2⟩ := List.append_inj' he rfl
        simp at he2; subst he2
        have keep : (a0.ph = .due ∨ a0.ph = .run ∨ a0.ph = .over) → e ≠ .fin →
            ((∀ u, e ≠ Ev.lin u .stop .stopped) → a0.active = true → a.active = true) →
            ∃ x y, tr ++ [e] = x ++ Ev.due :: y ∧ Ev.fin ∉ y ∧ ((∀ u, Ev.lin u .stop .stopped ∉ y) → a.active = true) := by
          intro g1 g2 g3
          obtain ⟨p, q, i1, i2, i3⟩ := ih hh g1
          refine ⟨p, q ++ [e], by simp [i1], by simp [i2, Ne.symm g2], fun g => g3 (fun u hu => g u (by simp [hu])) (i3 fun u hu => g u (by simp [hu]))⟩
        cases e <;> simp [eff] at hev
        case lin t c o =>
          subst hev
          cases hl
          case started g1 g2 => exact keep hp (by simp) (fun _ _ => rfl)
          case startIgnored => exact keep hp (by simp) (fun _ h => h)
          case stopped => exact keep hp (by simp) (fun h _ => absurd rfl (h t))
          case stopIgnored => exact keep hp (by simp) (fun _ h => h)
          case isStarted => exact keep hp (by simp) (fun _ h => h)
          case destroyed => simp at hp
        case arm => subst hev; cases hl; exact keep hp (by simp) (fun _ h => h)
        case due => subst hev; cases hl; exact ⟨tr, [], rfl, by simp, fun _ => by simpa⟩
        case cbBegin => subst hev; cases hl; next g => exact keep (Or.inl g) (by simp) (fun _ h => h)
        case cbEnd => subst hev; cases hl; next g => exact keep (Or.inr (Or.inl g)) (by simp) (fun _ h => h)
        case fin => subst hev; cases hl; simp at hp
        case ack => subst hev; cases hl; next _ _ g => simp [g] at hp
        case quit => subst hev; cases hl; simp at hp

theorem fin_post {d : Disc} {s s' : Tm.St} {a : Act} {ev : List Ev} (hs : Tm.step d s a = some (s', ev)) (hf : Ev.fin ∈ ev) : a = .wgo ∧ s.w = .post := by
  cases a with
  | call => simp only [Tm.step] at hs; split at hs <;> simp at hs; obtain ⟨_, rfl⟩ := hs; simp at hf
  | go t => cases hp : s.pc t <;> simp only [Tm.step, hp] at hs <;> (try split at hs) <;> (try split at hs) <;> simp [doStart, doStop] at hs <;> (obtain ⟨_, rfl⟩ := hs; simp at hf)
  | spur t => cases hp : s.pc t <;> simp [Tm.step, hp] at hs <;> (obtain ⟨_, rfl⟩ := hs; simp at hf)
  | wgo =>
    refine ⟨rfl, ?_⟩
    simp only [Tm.step] at hs
    cases hw : s.w <;> simp only [hw] at hs <;> (try split at hs) <;> (try split at hs) <;> (try split at hs) <;>
      simp [ackStep] at hs <;> (obtain ⟨_, rfl⟩ := hs; simp at hf)
    all_goals first | rfl | (split at hf <;> simp at hf)
  | expire => simp only [Tm.step] at hs; split at hs <;> simp at hs; obtain ⟨_, rfl⟩ := hs; simp at hf
  | wspur => simp only [Tm.step] at hs; split at hs <;> simp at hs <;> (obtain ⟨_, rfl⟩ := hs; simp at hf)

theorem ret_pc {d : Disc} {s s' : Tm.St} {a : Act} {ev : List Ev} {t : Tid} {c : Call} {o : Tm.Out} (hs : Tm.step d s a = some (s', ev)) (hf : Ev.ret t c o ∈ ev) :
    s.pc t = .ret c o := by
  cases a with
  | call => simp only [Tm.step] at hs; split at hs <;> simp at hs; obtain ⟨_, rfl⟩ := hs; simp at hf
  | go u =>
    cases hp : s.pc u <;> simp only [Tm.step, hp] at hs <;> (try split at hs) <;> (try split at hs) <;> simp [doStart, doStop] at hs <;> (obtain ⟨_, rfl⟩ := hs; simp at hf)
    obtain ⟨rfl, rfl, rfl⟩ := hf; exact hp
  | spur u => cases hp : s.pc u <;> simp [Tm.step, hp] at hs <;> (obtain ⟨_, rfl⟩ := hs; simp at hf)
  | wgo =>
    simp only [Tm.step] at hs
    cases hw : s.w <;> simp only [hw] at hs <;> (try split at hs) <;> (try split at hs) <;> (try split at hs) <;>
      simp [ackStep] at hs <;> (obtain ⟨_, rfl⟩ := hs; simp at hf)
    all_goals (split at hf <;> simp at hf)
  | expire => simp only [Tm.step] at hs; split at hs <;> simp at hs; obtain ⟨_, rfl⟩ := hs; simp at hf
  | wspur => simp only [Tm.step] at hs; split at hs <;> simp at hs <;> (obtain ⟨_, rfl⟩ := hs; simp at hf)

/-- start() on a one-shot timer returns, if the timer finishes during the call only after callbacks that no stop() has interfered with: whenever it
finishes, no stop() has taken effect since that callback became due. -/
theorem C61_oneShot_noLateStop_partial {p : Nat} {st : Nat → Tm.St} {act : Nat → Option Act} {ev : Nat → List Ev} {tr : List Ev} {t : Tid} {tm : Nat}
    (hx : InfExec (stut (Tm.step serial)) st act ev) (h0 : Exec .oneShot p serial (st 0) tr) (hcall : act 0 = some (.call t (.start tm)))
    (hspur : ∃ N, ∀ n, N ≤ n → act n ≠ some (.spur t))
    (hft : WeakFair (stut (Tm.step serial)) st act (some (.go t))) (hfw : WeakFair (stut (Tm.step serial)) st act (some .wgo))
    (hstop : ∀ n a b u, Ev.fin ∈ ev n → tr ++ upto ev n = a ++ Ev.due :: b → Ev.fin ∉ b → Ev.lin u .stop .stopped ∈ b →
      ∃ m o, m < n ∧ Ev.ret t (.start tm) o ∈ ev m) : ∃ n o, Ev.ret t (.start tm) o ∈ ev n := by
  refine returns_missed hx h0 hcall hspur hft hfw ?_
  intro hno _ n hJ hf
  rcases stut_cases (hx n) with ⟨_, _, h⟩ | ⟨a, _, hs⟩
  · rw [h] at hf; simp at hf
  have hr := stut_reach (hx.reach_upto (reach_stut h0) n)
  obtain ⟨rfl, hw⟩ := fin_post hs hf
  have I := Tm.Inv.reach hr
  obtain ⟨x, y, h1, h2, h3⟩ := since_due _ I.hist (Or.inr (Or.inr (by simp [Tm.abs, absPh, hw])))
  have hact : (st n).active = true := by
    refine h3 fun u hu => ?_
    obtain ⟨m, o, _, hm⟩ := hstop n x y u hf h1 h2 hu
    exact hno m o hm
  have jl := hJ.loc
  have jh := hJ.here
  cases hp : (st n).pc t <;> rw [hp] at jl jh <;> simp_all [missed, shape]

/-- In a start() / in a stop(). -/
def isS (q : PC) : Bool := sameKind (.start 0) q
def isP (q : PC) : Bool := sameKind .stop q

theorem isS_wakeS (pc : Tid → PC) (u : Tid) : isS (wakeS pc u) = isS (pc u) := by unfold wakeS; cases pc u <;> rfl
theorem isS_wakeP (pc : Tid → PC) (u : Tid) : isS (wakeP pc u) = isS (pc u) := by unfold wakeP; cases pc u <;> rfl
theorem sameKind_start (a b : Nat) (q : PC) : sameKind (.start a) q = sameKind (.start b) q := by
  cases q <;> first | rfl | (rename_i c o; cases c <;> rfl)

/-- In the serialized discipline only one client is inside start(). -/
theorem oneS {k : Kind} {p : Nat} {s : Tm.St} {tr : List Ev} (h : Exec k p serial s tr) : ∀ u v, isS (s.pc u) = true → isS (s.pc v) = true → u = v := by
  induction h with
  | init => intro u v h; simp [Tm.init, isS, sameKind] at h
  | @step s tr act s' ev hr hs ih =>
    have I := Tm.Inv.reach hr
    intro u v hu hv
    cases act with
    | call x c =>
      simp only [Tm.step] at hs
      split at hs
      case isFalse => simp at hs
      case isTrue hc =>
      simp only [Option.some.injEq, Prod.mk.injEq] at hs; obtain ⟨rfl, rfl⟩ := hs
      have key : ∀ y, y ≠ x → isS (entry c) = true → isS (s.pc y) = false := by
        intro y _ h1
        by_cases hy : s.pc y = .idle
        · rw [hy]; rfl
        · have := hc.2.2.2.2.1 rfl y ((I.ins y).2 hy)
          cases c <;> simp [entry, isS, sameKind] at h1
          rw [sameKind_start _ 0] at this; exact this
      simp only [St.at] at hu hv
      by_cases e1 : u = x <;> by_cases e2 : v = x
      · rw [e1, e2]
      · subst e1; rw [upd_same] at hu; rw [upd_ne _ _ e2] at hv; have := key v e2 hu; simp [this] at hv
      · subst e2; rw [upd_same] at hv; rw [upd_ne _ _ e1] at hu; have := key u e1 hv; simp [this] at hu
      · rw [upd_ne _ _ e1] at hu; rw [upd_ne _ _ e2] at hv; exact ih u v hu hv
    | _ =>
      have mono : ∀ y, isS (s'.pc y) = true → isS (s.pc y) = true := by
        intro y
        rename_i hact
        first
        | (cases hp : s.pc hact <;> simp only [Tm.step, hp] at hs <;> (try split at hs) <;> (try split at hs) <;> simp [doStart, doStop] at hs <;>
            (obtain ⟨rfl, rfl⟩ := hs; by_cases e : y = hact
             · subst e; simp [St.at, upd_same, hp, isS, sameKind]
             · simp [St.at, upd_ne _ _ e]))
        | (simp only [Tm.step] at hs
           cases hw : s.w <;> simp only [hw] at hs <;> (try split at hs) <;> (try split at hs) <;> (try split at hs) <;>
            simp [ackStep] at hs <;> (obtain ⟨rfl, rfl⟩ := hs; simp [isS_wakeP, isS_wakeS]))
      exact ih u v (mono u hu) (mono v hv)

/-- That is exact: if the timer finishes while the client is asleep in start(), the client does not return, unless it wakes up without notification. -/
theorem C61_missed {p : Nat} {st : Nat → Tm.St} {act : Nat → Option Act} {ev : Nat → List Ev} {tr : List Ev} {t : Tid} {tm n : Nat}
    (hx : InfExec (stut (Tm.step serial)) st act ev) (h0 : Exec .oneShot p serial (st 0) tr)
    (hf : Ev.fin ∈ ev n) (hp : (st n).pc t = .sWait tm) (hsp : ∀ m, n ≤ m → act m ≠ some (.spur t)) :
    ∀ m, n ≤ m → (st m).pc t = .sWait tm ∧ ∀ o, Ev.ret t (.start tm) o ∉ ev m := by
  have hex : ∀ m, Exec .oneShot p serial (st m) (tr ++ upto ev m) := fun m => stut_reach (hx.reach_upto (reach_stut h0) m)
  have H : ∀ j, (st (n + 1 + j)).pc t = .sWait tm ∧ in0 (st (n + 1 + j)).w = true ∧ (st (n + 1 + j)).active = false := by
    intro j
    induction j with
    | zero =>
      rcases stut_cases (hx n) with ⟨_, _, h⟩ | ⟨a, _, hs⟩
      · rw [h] at hf; simp at hf
      · obtain ⟨rfl, hw⟩ := fin_post hs hf
        simp only [Tm.step, hw, Option.some.injEq, Prod.mk.injEq] at hs
        simp only [Nat.add_zero]; rw [← hs.1]; exact ⟨hp, rfl, rfl⟩
    | succ j ih =>
      obtain ⟨i1, i2, i3⟩ := ih
      have I := Tm.Inv.reach (hex (n + 1 + j))
      have h1 := oneS (hex (n + 1 + j))
      have he : (st (n + 1 + j)).endReq = false := (I.noEnd (t := t) (by rw [i1]; simp) (by rw [i1]; rfl)).1
      have hns : ∀ u, u ≠ t → isS ((st (n + 1 + j)).pc u) = false := by
        intro u hu
        cases hh : isS ((st (n + 1 + j)).pc u) with
        | false => rfl
        | true => exact absurd (h1 u t hh (by rw [i1]; rfl)) hu
      have hin := (I.ins t).2 (by rw [i1]; simp)
      rcases stut_cases (hx (n + 1 + j)) with ⟨_, h, _⟩ | ⟨a, ha, hs⟩
      · rw [← Nat.add_assoc, h]; exact ⟨i1, i2, i3⟩
      · rw [← Nat.add_assoc]
        have hsp' := hsp (n + 1 + j) (by omega)
        rw [ha] at hsp'
        generalize st (n + 1 + j) = s at *
        generalize st (n + 1 + j + 1) = s' at *
        cases a with
        | call u c =>
          simp only [Tm.step] at hs
          split at hs
          case isFalse => simp at hs
          case isTrue hc =>
          simp only [Option.some.injEq, Prod.mk.injEq] at hs; obtain ⟨rfl, _⟩ := hs
          have e : t ≠ u := by rintro rfl; rw [i1] at hc; simp at hc
          simp only [St.at, upd_ne _ _ e]; exact ⟨i1, i2, i3⟩
        | go u =>
          have e : t ≠ u := by rintro rfl; simp [Tm.step, i1] at hs
          have hu := hns u e.symm
          cases hq : s.pc u <;> rw [hq] at hu <;> simp only [Tm.step, hq] at hs <;> (try split at hs) <;> (try split at hs) <;> simp [doStart, doStop] at hs <;>
            (try (simp [isS, sameKind] at hu; done)) <;> (obtain ⟨rfl, _⟩ := hs; simp only [St.at, upd_ne _ _ e, wakeW_0, i1, i2, i3, and_self])
          all_goals simp_all
        | spur u =>
          have e : t ≠ u := by rintro rfl; exact hsp' rfl
          cases hq : s.pc u <;> simp [Tm.step, hq] at hs <;> (obtain ⟨rfl, _⟩ := hs; simp only [St.at, upd_ne _ _ e, i1, i2, i3, and_self])
        | wgo =>
          simp only [Tm.step] at hs
          cases hw : s.w <;> simp [hw, in0] at i2 <;> simp [hw, i3, he] at hs
          obtain ⟨rfl, _⟩ := hs; exact ⟨i1, rfl, rfl⟩
        | expire => simp only [Tm.step] at hs; cases hw : s.w <;> simp [hw, in0] at i2 hs
        | wspur =>
          simp only [Tm.step] at hs; cases hw : s.w <;> simp [hw, in0] at i2 hs
          obtain ⟨rfl, _⟩ := hs; exact ⟨i1, rfl, i3⟩
  have hall : ∀ m, n ≤ m → (st m).pc t = .sWait tm := by
    intro m hm
    by_cases e : m = n
    · subst e; exact hp
    · obtain ⟨j, rfl⟩ : ∃ j, m = n + 1 + j := ⟨m - (n + 1), by omega⟩
      exact (H j).1
  intro m hm
  refine ⟨hall m hm, fun o ho => ?_⟩
  rcases stut_cases (hx m) with ⟨_, _, h⟩ | ⟨a, _, hs⟩
  · rw [h] at ho; simp at ho
  · have := ret_pc hs ho
    rw [hall m hm] at this; simp at this

/-! #### stop() -/

def inP : PC → Bool
  | .pWait | .pRetest => true
  | _ => false

theorem shape_of_inP {q : PC} (h : inP q = true) : shape q = .called .stop := by cases q <;> simp [inP] at h <;> rfl

/-- A stop() that has had to wait found the timer thread at the beginning of its loop; since then the timer thread has either stayed there or has
begun to wait for the time. -/
theorem armed_since {k : Kind} {s s' : Tm.St} {tr : List Ev} {a : Act} {ev : List Ev} {d : Disc} {t : Tid} {b : Prop} (hk : k = .oneShot)
    (I : Tm.Inv k s tr) (hs : Tm.step d s a = some (s', ev)) (ih : inP (s.pc t) = true → in0 s.w = true ∨ b) (h' : inP (s'.pc t) = true) :
    in0 s'.w = true ∨ b ∨ Ev.arm ∈ ev := by
  have I' := I.step hs
  have hti' : s'.pc t ≠ .idle := by intro h; rw [h] at h'; simp [inP] at h'
  have he' : s'.endReq = false := (I'.noEnd hti' (by rw [shape_of_inP h']; rfl)).1
  have hkd := I.knd
  subst hk
  obtain ⟨g, z, sl, ar, po, ta, de, go⟩ := I.sc
  clear I I'
  cases a with
  | call u c =>
    simp only [Tm.step] at hs
    split at hs
    · simp only [Option.some.injEq, Prod.mk.injEq] at hs; obtain ⟨rfl, rfl⟩ := hs
      by_cases e : t = u
      · subst e; simp only [St.at, upd_same] at h'; cases c <;> simp [entry, inP] at h'
      · simp only [St.at, upd_ne _ _ e] at h' ⊢; rcases ih h' with h | h <;> simp [h]
    · simp at hs
  | go u =>
    by_cases e : t = u
    · subst e
      cases hp : s.pc t <;> simp only [Tm.step, hp] at hs <;> (try split at hs) <;> (try split at hs) <;> simp [doStart, doStop] at hs <;>
        (obtain ⟨rfl, rfl⟩ := hs; simp [St.at, upd_same, inP] at h')
      all_goals (simp only [hp, inP, St.at] at ih ⊢; cases hw : s.w <;> simp_all [inG, in0, St.at])
    · have hw : ∀ w, in0 (wakeW w) = in0 w := wakeW_0
      cases hp : s.pc u <;> simp only [Tm.step, hp] at hs <;> (try split at hs) <;> (try split at hs) <;> simp [doStart, doStop] at hs <;>
        (obtain ⟨rfl, rfl⟩ := hs; simp only [St.at, upd_ne _ _ e] at h' ⊢; (try rw [hw]); rcases ih h' with h | h <;> simp [h])
  | spur u =>
    by_cases e : t = u
    · subst e
      cases hp : s.pc t <;> simp [Tm.step, hp] at hs <;>
        (obtain ⟨rfl, rfl⟩ := hs; simp [St.at, upd_same, inP, hp] at h' ih ⊢; try exact ih)
    · cases hp : s.pc u <;> simp [Tm.step, hp] at hs <;>
        (obtain ⟨rfl, rfl⟩ := hs; simp [St.at, upd_ne _ _ e] at h' ⊢; exact ih h')
  | wgo =>
    have hwP : inP (wakeP s.pc t) = inP (s.pc t) := by unfold wakeP; cases s.pc t <;> rfl
    have hwS : inP (wakeS s.pc t) = inP (s.pc t) := by unfold wakeS; cases s.pc t <;> rfl
    simp only [Tm.step] at hs
    cases hw : s.w <;> simp only [hw, hkd] at hs <;> (try split at hs) <;> (try split at hs) <;> (try split at hs) <;>
      simp [ackStep] at hs <;> (obtain ⟨rfl, rfl⟩ := hs) <;> simp_all [in0]
  | expire =>
    simp only [Tm.step] at hs; split at hs <;> simp at hs; obtain ⟨rfl, rfl⟩ := hs
    next hw => rcases ih h' with h | h <;> simp_all [in0]
  | wspur =>
    simp only [Tm.step] at hs; split at hs <;> simp at hs <;> (obtain ⟨rfl, rfl⟩ := hs; next hw => rcases ih h' with h | h <;> simp_all [in0])

/-- stop() on a one-shot timer returns, unless a whole run of the timer falls into the call: the timer thread begins to wait for the time during the call,
and the callback is made and is over before the call has returned. -/
theorem C62_oneShot_noRun_partial {p : Nat} {st : Nat → Tm.St} {act : Nat → Option Act} {ev : Nat → List Ev} {tr : List Ev} {t : Tid}
    (hx : InfExec (stut (Tm.step serial)) st act ev) (h0 : Exec .oneShot p serial (st 0) tr) (hcall : act 0 = some (.call t .stop))
    (hspur : ∃ N, ∀ n, N ≤ n → act n ≠ some (.spur t))
    (hft : WeakFair (stut (Tm.step serial)) st act (some (.go t))) (hfw : WeakFair (stut (Tm.step serial)) st act (some .wgo))
    (hrun : ∀ m n, m < n → Ev.arm ∈ ev m → Ev.fin ∈ ev n → ∃ i o, i < n ∧ Ev.ret t .stop o ∈ ev i) : ∃ n o, Ev.ret t .stop o ∈ ev n := by
  refine returns_missed hx h0 hcall hspur hft hfw ?_
  intro hno _ n hJ hf
  have key : ∀ n, inP ((st n).pc t) = true → in0 (st n).w = true ∨ Ev.arm ∈ upto ev n := by
    intro n
    induction n with
    | zero =>
      intro h
      have h1 : Tm.step serial (st 0) (.call t .stop) = some (st 1, ev 0) := by have := hx 0; rw [hcall] at this; exact this
      simp only [Tm.step] at h1
      split at h1
      · next hc => rw [hc.1] at h; simp [inP] at h
      · simp at h1
    | succ n ih =>
      intro h
      rcases stut_cases (hx n) with ⟨_, h1, _⟩ | ⟨a, _, hs⟩
      · rw [h1] at h ⊢
        rcases ih h with h | h
        · exact Or.inl h
        · exact Or.inr (by simp [upto, h])
      · have I := Tm.Inv.reach (stut_reach (hx.reach_upto (reach_stut h0) n))
        rcases armed_since rfl I hs ih h with h | h | h
        · exact Or.inl h
        · exact Or.inr (by simp [upto, h])
        · exact Or.inr (by simp [upto, h])
  rcases stut_cases (hx n) with ⟨_, _, h⟩ | ⟨a, _, hs⟩
  · rw [h] at hf; simp at hf
  obtain ⟨rfl, hw⟩ := fin_post hs hf
  have jh := hJ.here
  cases hp : (st n).pc t <;> rw [hp] at jh <;> simp [missed, shape] at jh ⊢
  exfalso
  rcases key n (by rw [hp]; rfl) with h | h
  · rw [hw] at h; simp [in0] at h
  · obtain ⟨m, h1, h2⟩ := mem_upto.1 h
    obtain ⟨i, o, _, h3⟩ := hrun m n h1 h2 hf
    exact hno i o h3

/-- That is exact too: if the timer finishes when the client in stop() has been notified but has not got the mutex yet, the client does not return, not
even after a spurious wake-up, unless another start() takes effect. -/
theorem C62_missed {p : Nat} {st : Nat → Tm.St} {act : Nat → Option Act} {ev : Nat → List Ev} {tr : List Ev} {t : Tid} {n : Nat}
    (hx : InfExec (stut (Tm.step serial)) st act ev) (h0 : Exec .oneShot p serial (st 0) tr)
    (hf : Ev.fin ∈ ev n) (hp : (st n).pc t = .pRetest) (hst : ∀ m e, n ≤ m → e ∈ ev m → isStart e = false) :
    ∀ m, n ≤ m → ((st m).pc t = .pWait ∨ (st m).pc t = .pRetest) ∧ ∀ o, Ev.ret t .stop o ∉ ev m := by
  have hex : ∀ m, Exec .oneShot p serial (st m) (tr ++ upto ev m) := fun m => stut_reach (hx.reach_upto (reach_stut h0) m)
  have H : ∀ j, inP ((st (n + 1 + j)).pc t) = true ∧ in0 (st (n + 1 + j)).w = true ∧ (st (n + 1 + j)).active = false := by
    intro j
    induction j with
    | zero =>
      rcases stut_cases (hx n) with ⟨_, _, h⟩ | ⟨a, _, hs⟩
      · rw [h] at hf; simp at hf
      · obtain ⟨rfl, hw⟩ := fin_post hs hf
        simp only [Tm.step, hw, Option.some.injEq, Prod.mk.injEq] at hs
        simp only [Nat.add_zero]; rw [← hs.1]; exact ⟨by simp only [hp, inP], rfl, rfl⟩
    | succ j ih =>
      obtain ⟨i1, i2, i3⟩ := ih
      have I := Tm.Inv.reach (hex (n + 1 + j))
      have hti : (st (n + 1 + j)).pc t ≠ .idle := by intro h; rw [h] at i1; simp [inP] at i1
      have he : (st (n + 1 + j)).endReq = false := (I.noEnd (t := t) hti (by rw [shape_of_inP i1]; rfl)).1
      have hz := (I.sc.z i2).1
      rcases stut_cases (hx (n + 1 + j)) with ⟨_, h, _⟩ | ⟨a, ha, hs⟩
      · rw [← Nat.add_assoc, h]; exact ⟨i1, i2, i3⟩
      · rw [← Nat.add_assoc]
        have hst' := fun e => hst (n + 1 + j) e (by omega)
        generalize st (n + 1 + j) = s at *
        generalize st (n + 1 + j + 1) = s' at *
        generalize ev (n + 1 + j) = evs at *
        cases a with
        | call u c =>
          simp only [Tm.step] at hs
          split at hs
          case isFalse => simp at hs
          case isTrue hc =>
          simp only [Option.some.injEq, Prod.mk.injEq] at hs; obtain ⟨rfl, _⟩ := hs
          have e : t ≠ u := by rintro rfl; exact hti hc.1
          simp only [St.at, upd_ne _ _ e]; exact ⟨i1, i2, i3⟩
        | go u =>
          by_cases e : t = u
          · subst e
            cases hq : s.pc t <;> rw [hq] at i1 <;> simp [inP] at i1 <;> simp [Tm.step, hq, hz] at hs
            obtain ⟨rfl, _⟩ := hs; simp only [St.at, upd_same]; exact ⟨rfl, i2, i3⟩
          · cases hq : s.pc u <;> simp only [Tm.step, hq] at hs <;> (try split at hs) <;> (try split at hs) <;> simp [doStart, doStop] at hs <;>
              (obtain ⟨rfl, rfl⟩ := hs; simp only [St.at, upd_ne _ _ e, wakeW_0, i1, i2, i3, and_self])
            all_goals (try (have := hst' _ (List.mem_singleton.2 rfl); simp [isStart] at this; done))
            all_goals simp_all
        | spur u =>
          by_cases e : t = u
          · subst e
            cases hq : s.pc t <;> simp [Tm.step, hq] at hs <;> (obtain ⟨rfl, _⟩ := hs; simp_all [St.at, upd_same, inP])
          · cases hq : s.pc u <;> simp [Tm.step, hq] at hs <;> (obtain ⟨rfl, _⟩ := hs; simp only [St.at, upd_ne _ _ e, i1, i2, i3, and_self])
        | wgo =>
          simp only [Tm.step] at hs
          cases hw : s.w <;> simp [hw, in0] at i2 <;> simp [hw, i3, he] at hs
          obtain ⟨rfl, _⟩ := hs; exact ⟨i1, rfl, rfl⟩
        | expire => simp only [Tm.step] at hs; cases hw : s.w <;> simp [hw, in0] at i2 hs
        | wspur =>
          simp only [Tm.step] at hs; cases hw : s.w <;> simp [hw, in0] at i2 hs
          obtain ⟨rfl, _⟩ := hs; exact ⟨i1, rfl, i3⟩
  have hall : ∀ m, n ≤ m → inP ((st m).pc t) = true := by
    intro m hm
    by_cases e : m = n
    · subst e; rw [hp]; rfl
    · obtain ⟨j, rfl⟩ : ∃ j, m = n + 1 + j := ⟨m - (n + 1), by omega⟩
      exact (H j).1
  intro m hm
  have hin := hall m hm
  refine ⟨by cases hq : (st m).pc t <;> rw [hq] at hin <;> simp [inP] at hin ⊢, fun o ho => ?_⟩
  rcases stut_cases (hx m) with ⟨_, _, h⟩ | ⟨a, _, hs⟩
  · rw [h] at ho; simp at ho
  · have := ret_pc hs ho
    rw [this] at hin; simp [inP] at hin

/-! #### The hypotheses are met -/

/-- A finite execution in two parts, followed by nothing. -/
theorem two_runs {pre main : List Act} (P : Tm.St → List Ev → Tm.St → List Ev → Bool)
    (h : (match run (Tm.step serial) pre (Tm.init .oneShot 0) with
      | some (s0, tr) => match run (Tm.step serial) main s0 with
        | some (s1, tr') => P s0 tr s1 tr' && (Tm.step serial s1 (.go 1)).isNone && (Tm.step serial s1 .wgo).isNone
        | none => false
      | none => false) = true) :
    ∃ st act ev tr, InfExec (stut (Tm.step serial)) st act ev ∧ Exec .oneShot 0 serial (st 0) tr ∧ (∀ n (h : n < main.length), act n = some main[n]) ∧
      (∀ n, main.length ≤ n → act n = none ∧ ev n = []) ∧ P (st 0) tr (st main.length) (upto ev main.length) = true ∧
      WeakFair (stut (Tm.step serial)) st act (some (.go 1)) ∧ WeakFair (stut (Tm.step serial)) st act (some .wgo) := by
  split at h
  · next s0 tr h1 =>
    split at h
    · next s1 tr' h2 =>
      simp only [Bool.and_eq_true, Option.isNone_iff_eq_none] at h
      obtain ⟨st, act, ev, g1, g2, g3, g4, g5⟩ := rests main h2
      refine ⟨st, act, ev, tr, g1, by rw [g2]; simpa using run_reach pre Reach.init h1, g3, fun n hn => ⟨(g4 n hn).2, ?_⟩, ?_, rests_fair g4 h.1.2, rests_fair g4 h.2⟩
      · have := g1 n; rw [(g4 n hn).2] at this; simp [stut] at this; exact this.2
      · rw [g5, g2, (g4 _ (Nat.le_refl _)).1]; exact h.1.1
    · simp at h
  · simp at h

theorem mem_end {ev : Nat → List Ev} {len n : Nat} {e : Ev} (h : ∀ n, len ≤ n → ev n = []) (he : e ∈ ev n) : e ∈ upto ev len := by
  by_cases hn : n < len
  · exact mem_upto.2 ⟨n, hn, he⟩
  · rw [h n (by omega)] at he; simp at he

def isStop : Ev → Bool
  | .lin _ .stop .stopped => true
  | _ => false

/-- C61: the timer finishes during the call of start(), which returns. -/
example : ∃ st act ev tr, InfExec (stut (Tm.step serial)) st act ev ∧ Exec .oneShot 0 serial (st 0) tr ∧ act 0 = some (.call 1 (.start 5)) ∧
    (∀ n, act n ≠ some (.spur 1)) ∧ WeakFair (stut (Tm.step serial)) st act (some (.go 1)) ∧ WeakFair (stut (Tm.step serial)) st act (some .wgo) ∧
    (∀ n u, Ev.lin u .stop .stopped ∉ tr ++ upto ev n) ∧
    upto ev 6 = [.call 1 (.start 5), .cbEnd, .fin, .lin 1 (.start 5) .started, .arm, .ret 1 (.start 5) .started] := by
  obtain ⟨st, act, ev, tr, g1, g2, g3, g4, g5, g6, g7⟩ := two_runs (pre := inCallback) (main := [.call 1 (.start 5), .wgo, .wgo, .go 1, .wgo, .go 1])
    (fun _ tr _ tr' => decide (tr.all (fun e => !isStop e) = true ∧
      tr' = [.call 1 (.start 5), .cbEnd, .fin, .lin 1 (.start 5) .started, .arm, .ret 1 (.start 5) .started])) (by decide)
  simp only [decide_eq_true_eq] at g5
  refine ⟨st, act, ev, tr, g1, g2, g3 0 (by decide), ?_, g6, g7, ?_, g5.2⟩
  · intro n hn
    by_cases h : n < 6
    · rw [g3 n h] at hn
      have hall : ∀ i (hi : i < 6), ([.call 1 (.start 5), .wgo, .wgo, .go 1, .wgo, .go 1] : List Act)[i] ≠ .spur 1 := by decide
      exact hall n h (by simpa using hn)
    · rw [(g4 n (by simp; omega)).1] at hn; simp at hn
  · intro n u h
    rcases List.mem_append.1 h with h | h
    · have := List.all_eq_true.1 g5.1 _ h; simp [isStop] at this
    · obtain ⟨m, _, h⟩ := mem_upto.1 h
      have := mem_end (fun n hn => (g4 n hn).2) h
      rw [g5.2] at this; simp at this

/-- C62: the timer finishes during the call of stop(), which returns. -/
example : ∃ st act ev tr, InfExec (stut (Tm.step serial)) st act ev ∧ Exec .oneShot 0 serial (st 0) tr ∧ act 0 = some (.call 1 .stop) ∧
    (∀ n, act n ≠ some (.spur 1)) ∧ WeakFair (stut (Tm.step serial)) st act (some (.go 1)) ∧ WeakFair (stut (Tm.step serial)) st act (some .wgo) ∧
    (∀ n, Ev.arm ∉ ev n) ∧ upto ev 6 = [.call 1 .stop, .cbEnd, .fin, .lin 1 .stop .ignored, .ret 1 .stop .ignored] := by
  obtain ⟨st, act, ev, tr, g1, g2, g3, g4, g5, g6, g7⟩ := two_runs (pre := inCallback) (main := [.call 1 .stop, .wgo, .wgo, .go 1, .wgo, .go 1])
    (fun _ tr _ tr' => decide (tr' = [.call 1 .stop, .cbEnd, .fin, .lin 1 .stop .ignored, .ret 1 .stop .ignored])) (by decide)
  simp only [decide_eq_true_eq] at g5
  refine ⟨st, act, ev, tr, g1, g2, g3 0 (by decide), ?_, g6, g7, ?_, g5⟩
  · intro n hn
    by_cases h : n < 6
    · rw [g3 n h] at hn
      have hall : ∀ i (hi : i < 6), ([.call 1 .stop, .wgo, .wgo, .go 1, .wgo, .go 1] : List Act)[i] ≠ .spur 1 := by decide
      exact hall n h (by simpa using hn)
    · rw [(g4 n (by simp; omega)).1] at hn; simp at hn
  · intro n h
    have := mem_end (fun n hn => (g4 n hn).2) h
    rw [g5] at this; simp at this

/-- The bad case of C61 (`startHang` in two parts): the timer finishes while client 1 is asleep in start(). -/
example : ∃ st act ev tr, InfExec (stut (Tm.step serial)) st act ev ∧ Exec .oneShot 0 serial (st 0) tr ∧ Ev.fin ∈ ev 0 ∧ (st 0).pc 1 = PC.sWait 5 ∧
    (∀ n, act n ≠ some (.spur 1)) ∧ (∀ m e, e ∈ ev m → isStart e = false) ∧
    WeakFair (stut (Tm.step serial)) st act (some (.go 1)) ∧ WeakFair (stut (Tm.step serial)) st act (some .wgo) := by
  obtain ⟨st, act, ev, tr, g1, g2, g3, g4, g5, g6, g7⟩ := two_runs (pre := inCallback ++ [.call 1 .stop, .go 1, .go 1, .call 1 (.start 5), .go 1, .wgo]) (main := [.wgo, .wgo])
    (fun s tr _ tr' => decide (s.pc 1 = PC.sWait 5 ∧ s.w = .post ∧ tr' = [.fin])) (by decide)
  simp only [decide_eq_true_eq] at g5
  have h0 := g1 0
  rw [g3 0 (by decide)] at h0
  simp only [stut, List.getElem_cons_zero, Tm.step, g5.2.1, Option.some.injEq, Prod.mk.injEq] at h0
  refine ⟨st, act, ev, tr, g1, g2, by rw [← h0.2]; simp, g5.1, ?_, ?_, g6, g7⟩
  · intro n hn
    by_cases h : n < 2
    · rw [g3 n h] at hn
      have hall : ∀ i (hi : i < 2), ([.wgo, .wgo] : List Act)[i] ≠ .spur 1 := by decide
      exact hall n h (by simpa using hn)
    · rw [(g4 n (by simp; omega)).1] at hn; simp at hn
  · intro m e he
    have := mem_end (fun n hn => (g4 n hn).2) he
    rw [g5.2.2] at this; simp at this; subst this; rfl

/-- The bad case of C62 (`stopHang` in two parts): the timer finishes when client 1 has been notified in stop(). -/
example : ∃ st act ev tr, InfExec (stut (Tm.step serial)) st act ev ∧ Exec .oneShot 0 serial (st 0) tr ∧ Ev.fin ∈ ev 0 ∧ (st 0).pc 1 = PC.pRetest ∧
    (∀ n, act n ≠ some (.spur 1)) ∧ (∀ m e, e ∈ ev m → isStart e = false) ∧
    WeakFair (stut (Tm.step serial)) st act (some (.go 1)) ∧ WeakFair (stut (Tm.step serial)) st act (some .wgo) := by
  obtain ⟨st, act, ev, tr, g1, g2, g3, g4, g5, g6, g7⟩ := two_runs (pre := [.call 1 (.start 5), .go 1, .go 1, .call 1 .stop, .go 1, .wgo, .expire, .wgo, .wgo, .wgo]) (main := [.wgo, .wgo, .go 1])
    (fun s tr _ tr' => decide (s.pc 1 = PC.pRetest ∧ s.w = .post ∧ tr' = [.fin])) (by decide)
  simp only [decide_eq_true_eq] at g5
  have h0 := g1 0
  rw [g3 0 (by decide)] at h0
  simp only [stut, List.getElem_cons_zero, Tm.step, g5.2.1, Option.some.injEq, Prod.mk.injEq] at h0
  refine ⟨st, act, ev, tr, g1, g2, by rw [← h0.2]; simp, g5.1, ?_, ?_, g6, g7⟩
  · intro n hn
    by_cases h : n < 3
    · rw [g3 n h] at hn
      have hall : ∀ i (hi : i < 3), ([.wgo, .wgo, .go 1] : List Act)[i] ≠ .spur 1 := by decide
      exact hall n h (by simpa using hn)
    · rw [(g4 n (by simp; omega)).1] at hn; simp at hn
  · intro m e he
    have := mem_end (fun n hn => (g4 n hn).2) he
    rw [g5.2.2] at this; simp at this; subst this; rfl

end Verif.Props.TimerReturn
