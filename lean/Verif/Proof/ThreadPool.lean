import Verif.Spec.ThreadPool
namespace Verif.TP
open Verif
open _root_.Verif.Mtx (Tid)
open _root_.Verif.EvF (Tmo)
open Spec Lts Proto
set_option linter.unusedSectionVars false
set_option linter.unusedSimpArgs false
set_option linter.unusedVariables false

/-- After the last thing a thread does for its task. -/
def late : W → Bool
  | .leave _ | .over | .finished => true
  | _ => false
def busyP : W → Bool
  | .pending | .inTask _ | .prio _ | .branch _ | .reset _ | .send _ => true
  | _ => false
def busyG : W → Bool
  | .pending | .inTask _ | .prio _ | .branch _ | .notify _ => true
  | _ => false
def early : W → Bool
  | .pending | .inTask _ => true
  | _ => false

def RShape (s : St) (i : Rid) : Prop := match s.own i with
  | .free => late (s.w i) = true ∧ s.ev i = false
  | .client _ => late (s.w i) = true ∧ s.ev i = false
  | .pool => busyP (s.w i) = true ∧ s.ev i = false ∧ s.needs i = false ∧ (s.w i = .pending → s.task i ≠ none)
  | .guard _ => ((busyG (s.w i) = true ∧ s.ev i = false) ∨ (late (s.w i) = true ∧ s.ev i = true)) ∧ s.needs i = true ∧ (s.w i = .pending → s.task i ≠ none)
  | .rel _ => late (s.w i) = true
  | .lost => late (s.w i) = true ∧ s.ev i = false
  | .dead => s.w i = .dead

/-- The thread a start holds / a release holds. -/
def hold : PC → Option Rid
  | .on _ (.sWait i) | .on _ (.sSet i) | .on _ (.sPrio i) | .on _ (.sGo i) => some i
  | _ => none
def rhold : PC → Option Rid
  | .on _ (.rReset i) | .on _ (.rSend i) => some i
  | _ => none

def usesG (p : PC) (g : Gid) : Prop := ∃ c q b, p = .on c q ∧ uses c = some (g, b)
def writesG (p : PC) (g : Gid) : Prop := ∃ c q, p = .on c q ∧ uses c = some (g, true)

/-- A start with guard `g` finds it invalid. -/
def gNone (s : St) : Option Gid → Prop
  | some g => s.guard g = none
  | none => True
def gOwn (s : St) (i : Rid) : Option Gid → Prop
  | some g => s.own i = .guard g
  | none => True

def CShape (s : St) (t : Tid) : PC → Prop
  | .idle => True
  | .on (.start k tm g p) .sEnter => gNone s g
  | .on (.start (some _) tm g p) .sRecv => gNone s g
  | .on (.start (some _) tm g p) (.sWait i) => gNone s g ∧ s.own i = .client t
  | .on (.start (some _) tm g p) (.sSet i) => gNone s g ∧ s.own i = .client t ∧ s.w i = .finished
  | .on (.start (some k) tm g p) (.sPrio i) => gNone s g ∧ s.own i = .client t ∧ s.w i = .finished ∧ s.task i = some k ∧ s.needs i = g.isSome
  | .on (.start (some k) tm g p) (.sGo i) => gNone s g ∧ s.own i = .client t ∧ s.w i = .finished ∧ s.task i = some k ∧ s.needs i = g.isSome ∧ s.prio i = p
  | .on (.start (some k) tm g p) (.sGuard i) => gNone s g ∧ gOwn s i g
  | .on (.start _ tm g p) (.ret o) => True
  | .on (.wait g tm) .wEnter => True
  | .on (.wait g tm) (.wWait i) => s.guard g = some i ∧ s.own i = .guard g
  | .on (.wait g tm) (.ret o) => True
  | .on (.release g) .rEnter => True
  | .on (.release g) (.rWait i) => s.guard g = some i ∧ s.own i = .guard g
  | .on (.release g) (.rReset i) => s.guard g = some i ∧ s.own i = .rel t ∧ s.ev i = true
  | .on (.release g) (.rSend i) => s.guard g = some i ∧ s.own i = .rel t ∧ s.ev i = false
  | .on (.release g) .rClear => ∀ j, s.own j ≠ .guard g
  | .on (.release g) (.ret o) => True
  | .on (.isValid g) .vEnter => True
  | .on (.isValid g) (.ret o) => True
  | .on .destroy (.dWait j) => ∀ i, i < j → i < s.n → s.w i = .finished
  | .on .destroy .dDrain => ∀ i, i < s.n → s.w i = .finished ∨ s.w i = .dead
  | .on .destroy (.ret o) => ∀ i, i < s.n → s.w i = .finished ∨ s.w i = .dead
  | _ => False

def shape : PC → Phase Call Out
  | .idle => .out
  | .on c (.ret o) => .done c o
  | .on c (.sGuard _) => .done c .ok
  | .on c .rClear => .done c .done
  | .on c _ => .called c

def gOf : Own → Option Gid
  | .guard g => some g
  | _ => none

def absR (s : St) (i : Rid) : RP := match s.w i with
  | .finished => .rest
  | .pending => (match s.task i with | some k => .accepted k (gOf (s.own i)) (s.prio i) | none => .bad)
  | .inTask k => .running k (gOf (s.own i))
  | .prio x => .ended (gOf (s.own i)) x
  | .branch x | .notify x | .reset x | .send x => .reset (gOf (s.own i)) x
  | .leave x => .told x
  | .over => .told false
  | .dead => .dead

structure Stat (n : Nat) (d : Int) (s : St) : Prop where
  cn : s.n = n
  cd : s.dflt = d
  fr : s.free.Nodup
  fo : ∀ i, i ∈ s.free ↔ s.own i = .free
  od : ∀ i, n ≤ i → s.own i = .dead
  rs : ∀ i, RShape s i
  ho : ∀ i t, s.own i = .client t → hold (s.pc t) = some i
  hr : ∀ i t, s.own i = .rel t → rhold (s.pc t) = some i
  cs : ∀ t, CShape s t (s.pc t)
  gs1 : ∀ g i, s.guard g = some i → s.own i = .guard g ∨ ∃ t, (rhold (s.pc t) = some i ∧ s.own i = .rel t ∧ ∃ q, s.pc t = .on (.release g) q) ∨ s.pc t = .on (.release g) .rClear
  gs2 : ∀ g i, s.own i = .guard g → s.guard g = some i ∨ ∃ t k tm p, s.pc t = .on (.start k tm (some g) p) (.sGuard i)
  ex : ∀ t u g, t ≠ u → writesG (s.pc t) g → ¬ usesG (s.pc u) g
  ins : ∀ t, t ∈ s.inside ↔ s.pc t ≠ .idle
  nodup : s.inside.Nodup
  dy : ∀ t q, s.pc t = .on .destroy q → s.dying = some t
  al : ∀ x, s.dying = some x → ∀ u, u ≠ x → s.pc u = .idle
  dd : s.dying = none → ∀ i, i < n → s.own i ≠ .dead

/-- What the trace says. -/
structure Trc (n : Nat) (d : Int) (s : St) (tr : List Ev) : Prop where
  rp : ∀ i, rphase n d i tr = absR s i
  g1 : ∀ g i, s.own i = .guard g → gphase g tr = if early (s.w i) then .busy i else .over i
  g2 : ∀ g i t q, s.own i = .rel t → s.pc t = .on (.release g) q → gphase g tr = .over i
  g3 : ∀ g, (∀ i, s.own i ≠ .guard g) → (∀ i t q, s.own i = .rel t → s.pc t ≠ .on (.release g) q) → gphase g tr = .free
  loc : ∀ t, phase t tr = shape (s.pc t)

theorem init_own {n : Nat} {d : Int} {i : Rid} : (init n d).own i = .free ∧ i < n ∨ (init n d).own i = .dead ∧ n ≤ i := by
  by_cases h : i < n <;> simp [TP.init, h]
  exact Nat.le_of_not_lt h

theorem Stat.init (n : Nat) (d : Int) : Stat n d (init n d) := by
  refine ⟨rfl, rfl, List.nodup_range, ?_, ?_, ?_, ?_, ?_, ?_, ?_, ?_, ?_, ?_, ?_, ?_, ?_, ?_⟩
  · intro i; simp [TP.init]
  · intro i h; simp [TP.init, Nat.not_lt.2 h]
  · intro i; by_cases h : i < n <;> simp [TP.init, RShape, h, late]
  · intro i t h; rcases init_own (n := n) (d := d) (i := i) with g | g <;> simp [g] at h
  · intro i t h; rcases init_own (n := n) (d := d) (i := i) with g | g <;> simp [g] at h
  · intro t; simp [TP.init, CShape]
  · intro g i; simp [TP.init]
  · intro g i h; rcases init_own (n := n) (d := d) (i := i) with g | g <;> simp [g] at h
  · intro t u g _ h; obtain ⟨_, _, h, _⟩ := h; simp [TP.init] at h
  · intro t; simp [TP.init]
  · simp [TP.init]
  · intro t q h; simp [TP.init] at h
  · intro x h; simp [TP.init] at h
  · intro _ i h; simp [TP.init, h]

theorem Trc.init (n : Nat) (d : Int) : Trc n d (init n d) [] := by
  constructor
  · intro i; by_cases h : i < n <;> simp [TP.init, rphase, absR, h]
  · intro g i; by_cases h : i < n <;> simp [TP.init, h]
  · intro g i; by_cases h : i < n <;> simp [TP.init, h]
  · intros; rfl
  · intros; rfl

theorem rphase_app (n : Nat) (d : Int) (i : Rid) (tr ev : List Ev) : rphase n d i (tr ++ ev) = ev.foldl (RP.next d i) (rphase n d i tr) := by simp [rphase]
theorem gphase_app (g : Gid) (tr ev : List Ev) : gphase g (tr ++ ev) = ev.foldl (GP.next g) (gphase g tr) := by simp [gphase]
theorem phase_app (t : Tid) (tr ev : List Ev) : phase t (tr ++ ev) = ev.foldl (Phase.next view t) (phase t tr) := Proto.phase_app t tr ev

theorem writes_uses {p : PC} {g : Gid} (h : writesG p g) : usesG p g := by
  obtain ⟨c, q, h1, h2⟩ := h; exact ⟨c, q, true, h1, h2⟩

theorem uses_on {c c' : Call} {q q' : Pos} {g : Gid} : uses c = uses c' → (usesG (.on c q) g ↔ usesG (.on c' q') g) := by
  intro h
  constructor <;> (rintro ⟨a, b, x, h1, h2⟩; simp at h1; obtain ⟨rfl, rfl⟩ := h1)
  · exact ⟨_, _, x, rfl, by rw [← h]; exact h2⟩
  · exact ⟨_, _, x, rfl, by rw [h]; exact h2⟩

/-- The other clients. -/
theorem CShape.frame {s s' : St} {u : Tid} {p : PC} (h : CShape s u p) (hn : s'.n = s.n)
    (h1 : ∀ j, s.own j = .client u ∨ s.own j = .rel u → s'.own j = s.own j ∧ s'.task j = s.task j ∧ s'.needs j = s.needs j ∧ s'.prio j = s.prio j ∧ s'.ev j = s.ev j ∧
      (s.w j = .finished → s'.w j = .finished))
    (h2 : ∀ j g, s.own j = .guard g → usesG p g → s'.own j = .guard g)
    (h3 : ∀ g, usesG p g → s'.guard g = s.guard g)
    (h5 : ∀ j g, usesG p g → s'.own j = .guard g → s.own j = .guard g)
    (h4 : ∀ q, p ≠ .on .destroy q) : CShape s' u p := by
  cases p with
  | idle => trivial
  | on c q =>
    cases c with
    | start k tm g pr =>
      have hg : gNone s g → gNone s' g := fun h => by
        cases g with
        | none => trivial
        | some g => simpa [gNone, h3 g ⟨_, _, _, rfl, rfl⟩] using h
      cases k with
      | none => cases q <;> simp only [CShape] at h ⊢ <;> exact hg h
      | some k =>
        cases q <;> simp only [CShape] at h ⊢
        case sEnter => exact hg h
        case sRecv => exact hg h
        case sWait i => have := h1 i (Or.inl h.2); exact ⟨hg h.1, by rw [this.1]; exact h.2⟩
        case sSet i => have := h1 i (Or.inl h.2.1); exact ⟨hg h.1, by rw [this.1]; exact h.2.1, this.2.2.2.2.2 h.2.2⟩
        case sPrio i =>
          have := h1 i (Or.inl h.2.1)
          exact ⟨hg h.1, by rw [this.1]; exact h.2.1, this.2.2.2.2.2 h.2.2.1, by rw [this.2.1]; exact h.2.2.2.1, by rw [this.2.2.1]; exact h.2.2.2.2⟩
        case sGo i =>
          have := h1 i (Or.inl h.2.1)
          exact ⟨hg h.1, by rw [this.1]; exact h.2.1, this.2.2.2.2.2 h.2.2.1, by rw [this.2.1]; exact h.2.2.2.1, by rw [this.2.2.1]; exact h.2.2.2.2.1,
            by rw [this.2.2.2.1]; exact h.2.2.2.2.2⟩
        case sGuard i =>
          refine ⟨hg h.1, ?_⟩
          cases g with
          | none => trivial
          | some g => exact h2 i g h.2 ⟨_, _, _, rfl, rfl⟩
    | wait g tm =>
      cases q <;> simp only [CShape] at h ⊢
      case wWait i => exact ⟨by rw [h3 g ⟨_, _, _, rfl, rfl⟩]; exact h.1, h2 i g h.2 ⟨_, _, _, rfl, rfl⟩⟩
    | release g =>
      cases q <;> simp only [CShape] at h ⊢
      case rWait i => exact ⟨by rw [h3 g ⟨_, _, _, rfl, rfl⟩]; exact h.1, h2 i g h.2 ⟨_, _, _, rfl, rfl⟩⟩
      case rClear => intro j hj; exact h j (h5 j g ⟨_, _, _, rfl, rfl⟩ hj)
      all_goals
        have := h1 _ (Or.inr h.2.1)
        exact ⟨by rw [h3 g ⟨_, _, _, rfl, rfl⟩]; exact h.1, by rw [this.1]; exact h.2.1, by rw [this.2.2.2.2.1]; exact h.2.2⟩
    | isValid g => cases q <;> simp only [CShape] at h ⊢
    | destroy => exact absurd rfl (h4 q)

/-- A step of pool thread `i`. -/
theorem Stat.pool {n : Nat} {d : Int} {s s' : St} (S : Stat n d s) (i : Rid)
    (hpc : s'.pc = s.pc) (hguard : s'.guard = s.guard) (hins : s'.inside = s.inside) (hdy : s'.dying = s.dying) (hn : s'.n = s.n) (hd : s'.dflt = s.dflt)
    (htask : s'.task = s.task) (hneeds : s'.needs = s.needs)
    (hj : ∀ j, j ≠ i → s'.w j = s.w j ∧ s'.own j = s.own j ∧ s'.ev j = s.ev j ∧ s'.prio j = s.prio j)
    (hw : s.w i ≠ .finished ∧ s.w i ≠ .dead)
    (hfree : (s'.free = s.free ∧ s'.own i = s.own i) ∨ (s.own i = .pool ∧ s'.own i = .free ∧ s'.free = s.free ++ [i]))
    (hlate : late (s.w i) = true → s'.ev i = s.ev i ∧ s'.prio i = s.prio i)
    (hrs : RShape s' i) : Stat n d s' := by
  have hown : ∀ j o, o ≠ .free → (s'.own j = o → s.own j = o) := by
    intro j o ho h
    by_cases e : j = i
    · subst e
      rcases hfree with ⟨_, g⟩ | ⟨_, g, _⟩
      · rw [← g]; exact h
      · rw [g] at h; exact absurd h.symm ho
    · rw [← (hj j e).2.1]; exact h
  have hown' : ∀ j o, o ≠ .pool → (s.own j = o → s'.own j = o) := by
    intro j o ho h
    by_cases e : j = i
    · subst e
      rcases hfree with ⟨_, g⟩ | ⟨g, _, _⟩
      · rw [g]; exact h
      · rw [g] at h; exact absurd h.symm ho
    · rw [(hj j e).2.1]; exact h
  have hfin : ∀ j, s.w j = .finished ∨ s.w j = .dead → s'.w j = s.w j := by
    intro j h
    by_cases e : j = i
    · subst e; rcases h with h | h
      · exact absurd h hw.1
      · exact absurd h hw.2
    · exact (hj j e).1
  refine ⟨hn.trans S.cn, hd.trans S.cd, ?_, ?_, ?_, ?_, ?_, ?_, ?_, ?_, ?_, ?_, ?_, ?_, ?_, ?_, ?_⟩
  · rcases hfree with ⟨g, _⟩ | ⟨h1, _, g⟩
    · rw [g]; exact S.fr
    · rw [g]; refine List.nodup_append.2 ⟨S.fr, by simp, ?_⟩
      intro a ha b hb e
      simp at hb; subst hb; subst e
      have := (S.fo a).1 ha; rw [h1] at this; simp at this
  · intro j
    by_cases e : j = i
    · subst e
      rcases hfree with ⟨g, g'⟩ | ⟨h1, g', g⟩
      · rw [g, g']; exact S.fo j
      · rw [g, g']; simp
    · rw [(hj j e).2.1, ← S.fo j]
      rcases hfree with ⟨g, _⟩ | ⟨_, _, g⟩ <;> rw [g]
      simp [e]
  · intro j h; exact hown' j _ (by simp) (S.od j h)
  · intro j
    by_cases e : j = i
    · subst e; exact hrs
    · have := S.rs j
      unfold RShape at this ⊢
      rw [(hj j e).2.1, (hj j e).1, (hj j e).2.2.1, htask, hneeds]; exact this
  · intro j t h; rw [hpc]; exact S.ho j t (hown j _ (by simp) h)
  · intro j t h; rw [hpc]; exact S.hr j t (hown j _ (by simp) h)
  · intro t
    rw [hpc]
    by_cases hde : ∃ q, s.pc t = .on .destroy q
    · obtain ⟨q, e⟩ := hde
      have := S.cs t
      rw [e] at this ⊢
      cases q <;> simp only [CShape] at this ⊢
      case dWait j => intro k h1 h2; rw [hn] at h2; have := this k h1 h2; rw [hfin k (Or.inl this)]; exact this
      all_goals (intro k h2; rw [hn] at h2; have := this k h2; rw [hfin k this]; exact this)
    · refine (S.cs t).frame hn ?_ ?_ ?_ ?_ ?_
      · intro j h
        by_cases e : j = i
        · subst e
          have hl : late (s.w j) = true := by
            have := S.rs j; unfold RShape at this
            rcases h with h | h <;> rw [h] at this
            · exact this.1
            · exact this
          have h2 := hlate hl
          refine ⟨?_, by rw [htask], by rw [hneeds], h2.2, h2.1, fun h => absurd h hw.1⟩
          rcases hfree with ⟨_, g⟩ | ⟨g, _, _⟩
          · exact g
          · rw [g] at h; simp at h
        · have := hj j e
          exact ⟨this.2.1, by rw [htask], by rw [hneeds], this.2.2.2, this.2.2.1, fun h => by rw [this.1]; exact h⟩
      · intro j g h _; exact hown' j _ (by simp) h
      · intro g _; rw [hguard]
      · intro j g _ h; exact hown j _ (by simp) h
      · intro q h; exact hde ⟨q, h⟩
  · intro g j h
    rw [hguard] at h
    rcases S.gs1 g j h with h | ⟨t, ⟨h1, h2, h3⟩ | h⟩
    · exact Or.inl (hown' j _ (by simp) h)
    · exact Or.inr ⟨t, Or.inl ⟨by rw [hpc]; exact h1, hown' j _ (by simp) h2, by rw [hpc]; exact h3⟩⟩
    · exact Or.inr ⟨t, Or.inr (by rw [hpc]; exact h)⟩
  · intro g j h; rw [hguard, hpc]; exact S.gs2 g j (hown j _ (by simp) h)
  · rw [hpc]; exact S.ex
  · rw [hpc, hins]; exact S.ins
  · rw [hins]; exact S.nodup
  · rw [hpc, hdy]; exact S.dy
  · rw [hpc, hdy]; exact S.al
  · rw [hdy]; intro h j hj h'; exact S.dd h j hj (hown j _ (by simp) h')

def aboutR (i : Rid) : Ev → Bool
  | .begin j _ _ | .ended j _ _ | .reprio j _ | .note j | .back j _ | .uncaught j | .fin j => j == i
  | _ => false

theorem aboutR_view {i : Rid} {e : Ev} (h : aboutR i e = true) : view e = none := by cases e <;> simp_all [aboutR, view]
theorem aboutR_other {d : Int} {i j : Rid} {e : Ev} {r : RP} (h : aboutR i e = true) (hne : j ≠ i) : RP.next d j r e = r := by
  cases e <;> simp [aboutR] at h <;> subst h <;> simp [RP.next, hne.symm]
  next i g => cases g <;> simp [RP.next, hne.symm]

theorem fold_same {α β : Type} {f : α → β → α} {a : α} : ∀ {l : List β}, (∀ e, e ∈ l → ∀ a, f a e = a) → l.foldl f a = a
  | [], _ => rfl
  | e :: l, h => by rw [List.foldl_cons, h e (by simp)]; exact fold_same fun x hx => h x (by simp [hx])

/-- A step of pool thread `i`. -/
theorem Trc.pool {n : Nat} {d : Int} {s s' : St} {tr ev : List Ev} (S : Stat n d s) (T : Trc n d s tr) (i : Rid)
    (hpc : s'.pc = s.pc) (htask : s'.task = s.task)
    (hj : ∀ j, j ≠ i → s'.w j = s.w j ∧ s'.own j = s.own j ∧ s'.prio j = s.prio j)
    (hown : s'.own i = s.own i ∨ (s.own i = .pool ∧ s'.own i = .free))
    (hev : ∀ e, e ∈ ev → aboutR i e = true)
    (hrp : ev.foldl (RP.next d i) (absR s i) = absR s' i)
    (hg : (early (s'.w i) = early (s.w i) ∧ ∀ e, e ∈ ev → ∀ g r, GP.next g r e = r) ∨
      (early (s.w i) = true ∧ early (s'.w i) = false ∧ ∃ k x, ev = [.ended i k x])) : Trc n d s' (tr ++ ev) := by
  have hown' : ∀ j o, o ≠ .free → (s'.own j = o → s.own j = o) := by
    intro j o ho h
    by_cases e : j = i
    · subst e
      rcases hown with g | ⟨_, g⟩
      · rw [← g]; exact h
      · rw [g] at h; exact absurd h.symm ho
    · rw [← (hj j e).2.1]; exact h
  have hown'' : ∀ j o, o ≠ .pool → (s.own j = o → s'.own j = o) := by
    intro j o ho h
    by_cases e : j = i
    · subst e
      rcases hown with g | ⟨g, _⟩
      · rw [g]; exact h
      · rw [g] at h; exact absurd h.symm ho
    · rw [(hj j e).2.1]; exact h
  have hgp : ∀ g, (∀ j, s.own j ≠ .guard g ∨ j ≠ i) → gphase g (tr ++ ev) = gphase g tr := by
    intro g hne
    rw [gphase_app]
    rcases hg with ⟨_, h⟩ | ⟨h1, h2, k, x, rfl⟩
    · exact fold_same fun e he r => h e he g r
    · simp only [List.foldl_cons, List.foldl_nil, GP.next]
      have : gphase g tr ≠ .busy i := by
        intro hb
        by_cases h : ∃ j, s.own j = .guard g
        · obtain ⟨j, h⟩ := h
          have g1 := T.g1 g j h
          rw [hb] at g1
          split at g1
          · simp at g1; subst g1
            rcases hne i with hh | hh
            · exact hh h
            · exact hh rfl
          · simp at g1
        · have h : ∀ j, s.own j ≠ .guard g := fun j hj => h ⟨j, hj⟩
          by_cases h' : ∃ j t q, s.own j = .rel t ∧ s.pc t = .on (.release g) q
          · obtain ⟨j, t, q, h3, h4⟩ := h'
            have := T.g2 g j t q h3 h4; rw [hb] at this; simp at this
          · have := T.g3 g h (fun j t q h3 h4 => h' ⟨j, t, q, h3, h4⟩)
            rw [hb] at this; simp at this
      simp [this]
  refine ⟨?_, ?_, ?_, ?_, ?_⟩
  · intro j
    rw [rphase_app, T.rp j]
    by_cases e : j = i
    · subst e; exact hrp
    · rw [fold_same fun x hx r => aboutR_other (hev x hx) e]
      unfold absR
      rw [(hj j e).1, (hj j e).2.1, (hj j e).2.2, htask]
  · intro g j h
    have h0 := hown' j _ (by simp) h
    by_cases e : j = i
    · subst e
      rcases hg with ⟨h1, h2⟩ | ⟨h1, h2, k, x, rfl⟩
      · rw [gphase_app, fold_same fun e he r => h2 e he g r, T.g1 g j h0, h1]
      · rw [gphase_app, T.g1 g j h0, h1, h2]; simp [GP.next]
    · rw [(hj j e).1, ← T.g1 g j h0]
      apply hgp
      intro k
      by_cases e' : k = i
      · subst e'
        left
        intro h'
        have a1 := T.g1 g j h0
        have a2 := T.g1 g k h'
        rw [a1] at a2
        split at a2 <;> split at a2 <;> simp at a2 <;> exact e a2
      · exact Or.inr e'
  · intro g j t q h1 h2
    rw [hpc] at h2
    have h0 := hown' j _ (by simp) h1
    rw [← T.g2 g j t q h0 h2]
    apply hgp
    intro k
    left
    intro h'
    have a1 := T.g1 g k h'
    rw [T.g2 g j t q h0 h2] at a1
    split at a1 <;> simp at a1
    subst a1; rw [h0] at h'; simp at h'
  · intro g h1 h2
    have h1' : ∀ j, s.own j ≠ .guard g := fun j h => h1 j (hown'' j _ (by simp) h)
    have h2' : ∀ j t q, s.own j = .rel t → s.pc t ≠ .on (.release g) q := fun j t q h => by
      have := h2 j t q (hown'' j _ (by simp) h); rwa [hpc] at this
    rw [hgp g (fun k => Or.inl (h1' k))]
    exact T.g3 g h1' h2'
  · intro t
    rw [phase_app, T.loc t, hpc]
    refine fold_same fun e he r => ?_
    simp [Phase.next, aboutR_view (hev e he)]

structure Inv (n : Nat) (d : Int) (s : St) (tr : List Ev) : Prop where
  st : Stat n d s
  tc : Trc n d s tr

/-- Steps of pool thread `i` that change only its program counter (and perhaps its priority). -/
theorem Inv.pstep {n : Nat} {d : Int} {s : St} {tr ev : List Ev} (I : Inv n d s tr) (i : Rid) (w' : W) (pr' : Int)
    (hw : s.w i ≠ .finished ∧ s.w i ≠ .dead) (hlate : late (s.w i) = true → pr' = s.prio i)
    (hrs : RShape { s.wAt i w' with prio := upd s.prio i pr' } i)
    (hev : ∀ e, e ∈ ev → aboutR i e = true)
    (hrp : ev.foldl (RP.next d i) (absR s i) = absR { s.wAt i w' with prio := upd s.prio i pr' } i)
    (hg : (early w' = early (s.w i) ∧ ∀ e, e ∈ ev → ∀ g r, GP.next g r e = r) ∨
      (early (s.w i) = true ∧ early w' = false ∧ ∃ k x, ev = [.ended i k x])) :
    Inv n d { s.wAt i w' with prio := upd s.prio i pr' } (tr ++ ev) := by
  have hj : ∀ j, j ≠ i → (upd s.w i w') j = s.w j ∧ s.own j = s.own j ∧ s.ev j = s.ev j ∧ upd s.prio i pr' j = s.prio j :=
    fun j h => ⟨upd_ne _ _ h, rfl, rfl, upd_ne _ _ h⟩
  refine ⟨I.st.pool i rfl rfl rfl rfl rfl rfl rfl rfl hj hw (Or.inl ⟨rfl, rfl⟩) (fun h => ⟨rfl, by simp [hlate h]⟩) hrs, ?_⟩
  refine I.tc.pool I.st i rfl rfl (fun j h => ⟨(hj j h).1, rfl, (hj j h).2.2.2⟩) (Or.inl rfl) hev hrp ?_
  simpa [St.wAt, upd_same] using hg

theorem upd_self {α : Type} (f : Nat → α) (i : Nat) : upd f i (f i) = f := by
  funext j; by_cases h : j = i
  · subst h; simp
  · rw [upd_ne _ _ h]

theorem Inv.pstep0 {n : Nat} {d : Int} {s : St} {tr ev : List Ev} (I : Inv n d s tr) (i : Rid) (w' : W)
    (hw : s.w i ≠ .finished ∧ s.w i ≠ .dead)
    (hrs : RShape (s.wAt i w') i)
    (hev : ∀ e, e ∈ ev → aboutR i e = true)
    (hrp : ev.foldl (RP.next d i) (absR s i) = absR (s.wAt i w') i)
    (hg : (early w' = early (s.w i) ∧ ∀ e, e ∈ ev → ∀ g r, GP.next g r e = r) ∨
      (early (s.w i) = true ∧ early w' = false ∧ ∃ k x, ev = [.ended i k x])) :
    Inv n d (s.wAt i w') (tr ++ ev) := by
  have e : s.wAt i w' = { s.wAt i w' with prio := upd s.prio i (s.prio i) } := by rw [upd_self]; rfl
  rw [e] at hrs hrp ⊢
  exact I.pstep i w' (s.prio i) hw (fun _ => rfl) hrs hev hrp hg

/-- RShape after a change of `w i` only. -/
theorem RShape.w {s : St} {i : Rid} {w' : W} (h : RShape s i) (hnd : s.w i ≠ .dead)
    (h1 : busyP (s.w i) = true → busyP w' = true ∧ w' ≠ .pending ∨ s.own i ≠ .pool)
    (h2 : busyG (s.w i) = true → busyG w' = true ∧ w' ≠ .pending ∨ ∀ g, s.own i ≠ .guard g)
    (h3 : late (s.w i) = true → late w' = true ∧ w' ≠ .pending) : RShape (s.wAt i w') i := by
  unfold RShape at h ⊢
  simp only [St.wAt, upd_same]
  cases ho : s.own i <;> simp only [ho] at h ⊢
  case free => exact ⟨(h3 h.1).1, h.2⟩
  case client => exact ⟨(h3 h.1).1, h.2⟩
  case pool =>
    rcases h1 h.1 with g | g
    · exact ⟨g.1, h.2.1, h.2.2.1, fun e => absurd e g.2⟩
    · exact absurd ho g
  case guard g =>
    rcases h.1 with ⟨a, b⟩ | ⟨a, b⟩
    · rcases h2 a with q | q
      · exact ⟨Or.inl ⟨q.1, b⟩, h.2.1, fun e => absurd e q.2⟩
      · exact absurd ho (q g)
    · exact ⟨Or.inr ⟨(h3 a).1, b⟩, h.2.1, fun e => absurd e (h3 a).2⟩
  case rel => exact (h3 h).1
  case lost => exact ⟨(h3 h.1).1, h.2⟩
  case dead => exact absurd h hnd

theorem Inv.step_pool {n : Nat} {d : Int} {s s' : St} {tr ev : List Ev} {i : Rid} (I : Inv n d s tr) (hs : TP.step s (.pgo i) = some (s', ev)) :
    Inv n d s' (tr ++ ev) := by
  have R := I.st.rs i
  cases hw : s.w i <;> simp only [TP.step, hw] at hs
  case finished => simp at hs
  case dead => simp at hs
  case pending =>
    split at hs
    · next k hk =>
      simp only [Option.some.injEq, Prod.mk.injEq] at hs; obtain ⟨rfl, rfl⟩ := hs
      refine I.pstep0 i _ (by simp [hw]) (R.w (by simp [hw]) ?_ ?_ ?_) (by simp [aboutR]) ?_ ?_
      · intro _; simp [busyP]
      · intro _; simp [busyG]
      · simp [hw, late]
      · simp [absR, hw, hk, RP.next, St.wAt]
      · left; simp [early, hw, GP.next]
    · next hk =>
      exfalso
      unfold RShape at R
      cases ho : s.own i <;> simp [ho, hw, late, hk] at R
  case inTask k =>
    simp only [Option.some.injEq, Prod.mk.injEq] at hs; obtain ⟨rfl, rfl⟩ := hs
    refine I.pstep0 i _ (by simp [hw]) (R.w (by simp [hw]) ?_ ?_ ?_) (by simp [aboutR]) ?_ ?_
    · intro _; simp [busyP]
    · intro _; simp [busyG]
    · simp [hw, late]
    · simp [absR, hw, RP.next, St.wAt]
    · right; simp [early, hw]
  case prio x =>
    simp only [Option.some.injEq, Prod.mk.injEq] at hs; obtain ⟨rfl, rfl⟩ := hs
    refine I.pstep i _ _ (by simp [hw]) (by simp [hw, late]) ?_ (by simp [aboutR]) ?_ ?_
    · have := R.w (w' := .branch x) (by simp [hw]) (by intro _; simp [busyP]) (by intro _; simp [busyG]) (by simp [hw, late])
      unfold RShape at this ⊢; exact this
    · simp [absR, hw, RP.next, St.wAt, I.st.cd]
    · left; simp [early, hw, GP.next]
  case branch x =>
    simp only [Option.some.injEq, Prod.mk.injEq] at hs; obtain ⟨rfl, rfl⟩ := hs
    refine I.pstep0 i _ (by simp [hw]) (R.w (by simp [hw]) ?_ ?_ ?_) (by simp) ?_ ?_
    · intro _
      by_cases ho : s.own i = .pool
      · unfold RShape at R; simp [ho] at R; simp [R, busyP]
      · exact Or.inr ho
    · intro _
      by_cases ho : ∃ g, s.own i = .guard g
      · obtain ⟨g, ho⟩ := ho
        unfold RShape at R; simp [ho] at R; simp [R, busyG]
      · right; intro g h; exact ho ⟨g, h⟩
    · simp [hw, late]
    · cases h : s.needs i <;> simp [absR, hw, St.wAt]
    · left; cases h : s.needs i <;> simp [early, hw]
  case notify x =>
    simp only [Option.some.injEq, Prod.mk.injEq] at hs; obtain ⟨rfl, rfl⟩ := hs
    obtain ⟨g, ho⟩ : ∃ g, s.own i = .guard g := by
      unfold RShape at R; cases ho : s.own i <;> simp [ho, hw, late, busyP] at R ⊢
    have hj : ∀ j, j ≠ i → upd s.w i (.leave x) j = s.w j ∧ s.own j = s.own j ∧ upd s.ev i true j = s.ev j ∧ s.prio j = s.prio j :=
      fun j h => ⟨upd_ne _ _ h, rfl, upd_ne _ _ h, rfl⟩
    refine ⟨I.st.pool i rfl rfl rfl rfl rfl rfl rfl rfl hj (by simp [hw]) (Or.inl ⟨rfl, rfl⟩) (by simp [hw, late]) ?_, ?_⟩
    · unfold RShape at R ⊢; simp [ho] at R; simp [St.wAt, St.evAt, ho, late, R]
    · refine I.tc.pool I.st i rfl rfl (fun j h => ⟨(hj j h).1, rfl, rfl⟩) (Or.inl rfl) (by simp [aboutR]) ?_ ?_
      · simp [absR, hw, ho, gOf, RP.next, St.wAt, St.evAt]
      · left; simp [early, hw, St.wAt, St.evAt, GP.next]
  case reset x =>
    simp only [Option.some.injEq, Prod.mk.injEq] at hs; obtain ⟨rfl, rfl⟩ := hs
    have ho : s.own i = .pool := by
      unfold RShape at R; cases ho : s.own i <;> simp [ho, hw, late, busyG] at R ⊢
    have hj : ∀ j, j ≠ i → upd s.w i (.send x) j = s.w j ∧ s.own j = s.own j ∧ upd s.ev i false j = s.ev j ∧ s.prio j = s.prio j :=
      fun j h => ⟨upd_ne _ _ h, rfl, upd_ne _ _ h, rfl⟩
    refine ⟨I.st.pool i rfl rfl rfl rfl rfl rfl rfl rfl hj (by simp [hw]) (Or.inl ⟨rfl, rfl⟩) (by simp [hw, late]) ?_, ?_⟩
    · unfold RShape at R ⊢; simp [ho] at R; simp [St.wAt, St.evAt, ho, busyP, R]
    · refine I.tc.pool I.st i rfl rfl (fun j h => ⟨(hj j h).1, rfl, rfl⟩) (Or.inl rfl) (by simp [aboutR]) ?_ ?_
      · simp [absR, hw, ho, gOf, RP.next, St.wAt, St.evAt]
      · left; simp [early, hw, St.wAt, St.evAt, GP.next]
  case send x =>
    split at hs
    case isFalse => simp at hs
    simp only [Option.some.injEq, Prod.mk.injEq] at hs; obtain ⟨rfl, rfl⟩ := hs
    have ho : s.own i = .pool := by
      unfold RShape at R; cases ho : s.own i <;> simp [ho, hw, late, busyG] at R ⊢
    have hj : ∀ j, j ≠ i → upd s.w i (.leave x) j = s.w j ∧ upd s.own i .free j = s.own j ∧ s.ev j = s.ev j ∧ s.prio j = s.prio j :=
      fun j h => ⟨upd_ne _ _ h, upd_ne _ _ h, rfl, rfl⟩
    refine ⟨I.st.pool i rfl rfl rfl rfl rfl rfl rfl rfl hj (by simp [hw]) (Or.inr ⟨ho, by simp [St.ownAt], rfl⟩) (by simp [hw, late]) ?_, ?_⟩
    · unfold RShape at R ⊢; simp [ho] at R; simp [St.wAt, St.ownAt, late, R]
    · refine I.tc.pool I.st i rfl rfl (fun j h => ⟨(hj j h).1, (hj j h).2.1, rfl⟩) (Or.inr ⟨ho, by simp [St.ownAt]⟩) (by simp [aboutR]) ?_ ?_
      · simp [absR, hw, ho, gOf, RP.next, St.wAt, St.ownAt]
      · left; simp [early, hw, St.wAt, St.ownAt, GP.next]
  case leave x =>
    simp only [Option.some.injEq, Prod.mk.injEq] at hs; obtain ⟨rfl, rfl⟩ := hs
    refine I.pstep0 i _ (by simp [hw]) (R.w (by simp [hw]) ?_ ?_ ?_) ?_ ?_ ?_
    · simp [hw, busyP]
    · simp [hw, busyG]
    · simp [late]
    · cases x <;> simp [aboutR]
    · cases x <;> simp [absR, hw, RP.next, St.wAt]
    · left; cases x <;> simp [early, hw, GP.next]
  case over =>
    simp only [Option.some.injEq, Prod.mk.injEq] at hs; obtain ⟨rfl, rfl⟩ := hs
    refine I.pstep0 i _ (by simp [hw]) (R.w (by simp [hw]) ?_ ?_ ?_) (by simp [aboutR]) ?_ ?_
    · simp [hw, busyP]
    · simp [hw, busyG]
    · simp [late]
    · simp [absR, hw, RP.next, St.wAt]
    · left; simp [early, hw, GP.next]

theorem Inv.step_throw {n : Nat} {d : Int} {s s' : St} {tr ev : List Ev} {i : Rid} (I : Inv n d s tr) (hs : TP.step s (.throw i) = some (s', ev)) :
    Inv n d s' (tr ++ ev) := by
  have R := I.st.rs i
  cases hw : s.w i <;> simp only [TP.step, hw] at hs
  case inTask k =>
    simp only [Option.some.injEq, Prod.mk.injEq] at hs; obtain ⟨rfl, rfl⟩ := hs
    refine I.pstep0 i _ (by simp [hw]) (R.w (by simp [hw]) ?_ ?_ ?_) (by simp [aboutR]) ?_ ?_
    · intro _; simp [busyP]
    · intro _; simp [busyG]
    · simp [hw, late]
    · simp [absR, hw, RP.next, St.wAt]
    · right; simp [early, hw]
  all_goals simp at hs

/-! Steps of clients -/

def Same (s s' : St) (j : Rid) : Prop :=
  s'.w j = s.w j ∧ s'.own j = s.own j ∧ s'.ev j = s.ev j ∧ s'.prio j = s.prio j ∧ s'.task j = s.task j ∧ s'.needs j = s.needs j

theorem Stat.noDestroy {n : Nat} {d : Int} {s : St} (S : Stat n d s) {t u : Tid} (hu : u ≠ t) (ht : s.pc t ≠ .idle) (q : Pos) : s.pc u ≠ .on .destroy q := by
  intro h; exact ht (S.al u (S.dy u q h) t (Ne.symm hu))

/-- Client `t` goes on within a call, touching at most pool thread `i`. -/
theorem Stat.client {n : Nat} {d : Int} {s s' : St} (S : Stat n d s) (t : Tid) (i : Rid) {c : Call} {q q' : Pos}
    (h0 : s.pc t = .on c q) (hpc : s'.pc = upd s.pc t (.on c q')) (hins : s'.inside = s.inside) (hdy : s'.dying = s.dying) (hn : s'.n = s.n) (hd : s'.dflt = s.dflt)
    (hj : ∀ j, Same s s' j ∨ (j = i ∧ (∀ u, u ≠ t → s.own j ≠ .client u ∧ s.own j ≠ .rel u ∧ s'.own j ≠ .client u ∧ s'.own j ≠ .rel u ∧
      ∀ g, s.own j = .guard g ∨ s'.own j = .guard g → ¬ usesG (s.pc u) g) ∧ RShape s' j ∧ (n ≤ j → s'.own j = .dead) ∧ (s.dying = none → s'.own j ≠ .dead)))
    (hguard : ∀ u, u ≠ t → ∀ g, usesG (s.pc u) g → s'.guard g = s.guard g)
    (hfr : s'.free.Nodup) (hfo : ∀ j, j ∈ s'.free ↔ s'.own j = .free)
    (hho : ∀ j, s'.own j = .client t → hold (.on c q') = some j) (hhr : ∀ j, s'.own j = .rel t → rhold (.on c q') = some j)
    (hcs : CShape s' t (.on c q'))
    (hg1 : ∀ g j, s'.guard g = some j → s'.own j = .guard g ∨ ∃ t, (rhold (s'.pc t) = some j ∧ s'.own j = .rel t ∧ ∃ q, s'.pc t = .on (.release g) q) ∨ s'.pc t = .on (.release g) .rClear)
    (hg2 : ∀ g j, s'.own j = .guard g → s'.guard g = some j ∨ ∃ t k tm p, s'.pc t = .on (.start k tm (some g) p) (.sGuard j)) : Stat n d s' := by
  have hne : s.pc t ≠ .idle := by rw [h0]; simp
  have hupd : ∀ u, u ≠ t → s'.pc u = s.pc u := fun u hu => by rw [hpc, upd_ne _ _ hu]
  have hsame : s'.pc t = .on c q' := by rw [hpc, upd_same]
  have huse : ∀ g, usesG (s'.pc t) g ↔ usesG (s.pc t) g := fun g => by rw [hsame, h0]; exact uses_on rfl
  have hwr : ∀ g, writesG (s'.pc t) g → writesG (s.pc t) g := fun g => by
    rw [hsame, h0]; rintro ⟨a, b, h1, h2⟩; simp at h1; obtain ⟨rfl, rfl⟩ := h1; exact ⟨_, _, rfl, h2⟩
  refine ⟨hn.trans S.cn, hd.trans S.cd, hfr, hfo, ?_, ?_, ?_, ?_, ?_, hg1, hg2, ?_, ?_, ?_, ?_, ?_, ?_⟩
  · intro j h
    rcases hj j with g | ⟨_, _, _, g, _⟩
    · rw [g.2.1]; exact S.od j h
    · exact g h
  · intro j
    rcases hj j with g | ⟨_, _, g, _⟩
    · have := S.rs j
      unfold RShape at this ⊢
      rw [g.1, g.2.1, g.2.2.1, g.2.2.2.2.1, g.2.2.2.2.2]; exact this
    · exact g
  · intro j u h
    by_cases e : u = t
    · subst e; rw [hsame]; exact hho j h
    · rw [hupd u e]
      rcases hj j with g | ⟨_, g, _⟩
      · rw [g.2.1] at h; exact S.ho j u h
      · exact absurd h (g u e).2.2.1
  · intro j u h
    by_cases e : u = t
    · subst e; rw [hsame]; exact hhr j h
    · rw [hupd u e]
      rcases hj j with g | ⟨_, g, _⟩
      · rw [g.2.1] at h; exact S.hr j u h
      · exact absurd h (g u e).2.2.2.1
  · intro u
    by_cases e : u = t
    · subst e; rw [hsame]; exact hcs
    · rw [hupd u e]
      refine (S.cs u).frame hn ?_ ?_ (hguard u e) ?_ (S.noDestroy e hne)
      · intro j h
        rcases hj j with g | ⟨_, g, _⟩
        · exact ⟨g.2.1, g.2.2.2.2.1, g.2.2.2.2.2, g.2.2.2.1, g.2.2.1, fun h => by rw [g.1]; exact h⟩
        · rcases h with h | h
          · exact absurd h (g u e).1
          · exact absurd h (g u e).2.1
      · intro j γ h hu
        rcases hj j with g | ⟨_, g, _⟩
        · rw [g.2.1]; exact h
        · exact absurd hu ((g u e).2.2.2.2 γ (Or.inl h))
      · intro j γ hu h
        rcases hj j with g | ⟨_, g, _⟩
        · rw [g.2.1] at h; exact h
        · exact absurd hu ((g u e).2.2.2.2 γ (Or.inr h))
  · intro x u g hxu hx hu
    by_cases e : x = t
    · subst e
      rw [hupd u (Ne.symm hxu)] at hu
      exact S.ex x u g hxu (hwr g hx) hu
    · rw [hupd x e] at hx
      by_cases e' : u = t
      · subst e'; exact S.ex x u g hxu hx ((huse g).1 hu)
      · rw [hupd u e'] at hu; exact S.ex x u g hxu hx hu
  · intro u
    rw [hins]
    by_cases e : u = t
    · subst e; rw [S.ins, hsame, h0]; simp
    · rw [S.ins, hupd u e]
  · rw [hins]; exact S.nodup
  · intro u q1 h
    rw [hdy]
    by_cases e : u = t
    · subst e; rw [hsame] at h; simp at h; exact S.dy u q (by rw [h0, h.1])
    · rw [hupd u e] at h; exact S.dy u q1 h
  · intro x hx u hu
    rw [hdy] at hx
    by_cases e : u = t
    · subst e; exact absurd (S.al x hx u hu) hne
    · rw [hupd u e]; exact S.al x hx u hu
  · intro h j hj' h'
    rw [hdy] at h
    rcases hj j with g | ⟨_, _, _, _, g⟩
    · rw [g.2.1] at h'; exact S.dd h j hj' h'
    · exact g h h'

def keepsG (q : Pos) : Bool := match q with
  | .sGuard _ | .rReset _ | .rSend _ | .rClear => false
  | _ => true

/-- If no guard and no guard's thread changes. -/
theorem Stat.gsame {n : Nat} {d : Int} {s s' : St} (S : Stat n d s) (t : Tid) {c : Call} {q q' : Pos}
    (h0 : s.pc t = .on c q) (hpc : s'.pc = upd s.pc t (.on c q')) (hk : keepsG q = true) (hguard : s'.guard = s.guard)
    (ho : ∀ j g, s'.own j = .guard g ↔ s.own j = .guard g) (hr : ∀ j u, s.own j = .rel u → s'.own j = .rel u) :
    (∀ g j, s'.guard g = some j → s'.own j = .guard g ∨ ∃ t, (rhold (s'.pc t) = some j ∧ s'.own j = .rel t ∧ ∃ q, s'.pc t = .on (.release g) q) ∨ s'.pc t = .on (.release g) .rClear) ∧
    (∀ g j, s'.own j = .guard g → s'.guard g = some j ∨ ∃ t k tm p, s'.pc t = .on (.start k tm (some g) p) (.sGuard j)) := by
  have hupd : ∀ u, u ≠ t → s'.pc u = s.pc u := fun u hu => by rw [hpc, upd_ne _ _ hu]
  constructor
  · intro g j h
    rw [hguard] at h
    rcases S.gs1 g j h with h | ⟨u, ⟨h1, h2, h3⟩ | h⟩
    · exact Or.inl ((ho j g).2 h)
    · have : u ≠ t := by
        rintro rfl; rw [h0] at h1; cases q <;> simp [rhold, keepsG] at h1 hk
      exact Or.inr ⟨u, Or.inl ⟨by rw [hupd u this]; exact h1, hr j u h2, by rw [hupd u this]; exact h3⟩⟩
    · have : u ≠ t := by
        rintro rfl; rw [h0] at h; simp at h; rw [h.2] at hk; simp [keepsG] at hk
      exact Or.inr ⟨u, Or.inr (by rw [hupd u this]; exact h)⟩
  · intro g j h
    rcases S.gs2 g j ((ho j g).1 h) with h | ⟨u, k, tm, p, h⟩
    · exact Or.inl (by rw [hguard]; exact h)
    · have : u ≠ t := by
        rintro rfl; rw [h0] at h; simp at h; rw [h.2] at hk; simp [keepsG] at hk
      exact Or.inr ⟨u, k, tm, p, by rw [hupd u this]; exact h⟩

/-- Only the program counter of `t` changes. -/
theorem Stat.local {n : Nat} {d : Int} {s : St} (S : Stat n d s) (t : Tid) {c : Call} {q q' : Pos} (gone' : Bool)
    (h0 : s.pc t = .on c q) (hk : keepsG q = true) (hh : hold (.on c q') = hold (.on c q))
    (hcs : CShape { s.at t c q' with gone := gone' } t (.on c q')) : Stat n d { s.at t c q' with gone := gone' } := by
  have hrq : rhold (.on c q) = none := by cases q <;> simp [rhold, keepsG] at hk ⊢
  obtain ⟨a, b⟩ := S.gsame (s' := { s.at t c q' with gone := gone' }) t h0 rfl hk rfl (fun _ _ => Iff.rfl) (fun _ _ h => h)
  refine S.client t 0 h0 rfl rfl rfl rfl rfl (fun j => Or.inl ⟨rfl, rfl, rfl, rfl, rfl, rfl⟩) (fun _ _ _ _ => rfl) S.fr S.fo ?_ ?_ hcs a b
  · intro j h; rw [hh, ← h0]; exact S.ho j t h
  · intro j h
    have := S.hr j t h
    rw [h0, hrq] at this; simp at this

/-- The guard clauses of `Trc`. -/
structure GRel (s : St) (g : Gid) (r : GP) : Prop where
  g1 : ∀ i, s.own i = .guard g → r = if early (s.w i) then .busy i else .over i
  g2 : ∀ i t q, s.own i = .rel t → s.pc t = .on (.release g) q → r = .over i
  g3 : (∀ i, s.own i ≠ .guard g) → (∀ i t q, s.own i = .rel t → s.pc t ≠ .on (.release g) q) → r = .free

theorem Trc.grel {n : Nat} {d : Int} {s : St} {tr : List Ev} (T : Trc n d s tr) (g : Gid) : GRel s g (gphase g tr) :=
  ⟨T.g1 g, T.g2 g, T.g3 g⟩
theorem Trc.of {n : Nat} {d : Int} {s : St} {tr : List Ev} (rp : ∀ i, rphase n d i tr = absR s i) (gr : ∀ g, GRel s g (gphase g tr))
    (loc : ∀ t, phase t tr = shape (s.pc t)) : Trc n d s tr := ⟨rp, fun g => (gr g).g1, fun g => (gr g).g2, fun g => (gr g).g3, loc⟩

abbrev mine (t : Tid) (e : Ev) : Prop := Proto.mine view t e

theorem Trc.client {n : Nat} {d : Int} {s s' : St} {tr ev : List Ev} (T : Trc n d s tr) (t : Tid) {p' : PC}
    (hpc : s'.pc = upd s.pc t p') (hmine : ∀ e, e ∈ ev → mine t e)
    (hrp : ∀ i, ev.foldl (RP.next d i) (absR s i) = absR s' i)
    (hg : ∀ g, GRel s' g (ev.foldl (GP.next g) (gphase g tr)))
    (hloc : ev.foldl (Phase.next view t) (shape (s.pc t)) = shape p') : Trc n d s' (tr ++ ev) := by
  refine Trc.of ?_ ?_ ?_
  · intro i; rw [rphase_app, T.rp i]; exact hrp i
  · intro g; rw [gphase_app]; exact hg g
  · intro u
    rw [phase_app, T.loc u]
    by_cases e : u = t
    · subst e; rw [hloc, hpc, upd_same]
    · rw [hpc, upd_ne _ _ e]; exact phase_other e hmine _

/-- Nothing happens to pool threads and guards. -/
theorem GRel.keep {s s' : St} {t : Tid} {g : Gid} {r : GP} {p' : PC} (G : GRel s g r) (hpc : s'.pc = upd s.pc t p')
    (hw : ∀ j g, s'.own j = .guard g → early (s'.w j) = early (s.w j))
    (ho : ∀ j g, s'.own j = .guard g ↔ s.own j = .guard g) (hr : ∀ j u, s'.own j = .rel u ↔ s.own j = .rel u)
    (hrel : (∃ c q q', s.pc t = .on c q ∧ p' = .on c q') ∨ ∀ j, s.own j ≠ .rel t) : GRel s' g r := by
  refine ⟨?_, ?_, ?_⟩
  · intro j h; rw [G.g1 j ((ho j g).1 h), hw j g h]
  · intro j u q h h2
    have h' := (hr j u).1 h
    by_cases e : u = t
    · subst e
      rw [hpc, upd_same] at h2
      rcases hrel with ⟨c, q1, q2, h3, h4⟩ | h3
      · rw [h2] at h4; simp at h4; exact G.g2 j u q1 h' (by rw [h3, ← h4.1])
      · exact absurd h' (h3 j)
    · rw [hpc, upd_ne _ _ e] at h2; exact G.g2 j u q h' h2
  · intro h1 h2
    refine G.g3 (fun j h => h1 j ((ho j g).2 h)) ?_
    intro j u q h h3
    have h' := (hr j u).2 h
    by_cases e : u = t
    · subst e
      rcases hrel with ⟨c, q1, q2, h4, h5⟩ | h4
      · rw [h3] at h4; simp at h4
        exact h2 j u q2 h' (by rw [hpc, upd_same, h5, ← h4.1])
      · exact absurd h (h4 j)
    · exact h2 j u q h' (by rw [hpc, upd_ne _ _ e]; exact h3)

/-- Events of calls only. -/
def plain : Ev → Bool
  | .call .. | .lin .. | .ret .. | .drop .. => true
  | _ => false
theorem plain_R {e : Ev} (h : plain e = true) (d : Int) (i : Rid) (r : RP) : RP.next d i r e = r := by cases e <;> simp_all [plain, RP.next]
theorem plain_G {e : Ev} (h : plain e = true) (g : Gid) (r : GP) : GP.next g r e = r := by cases e <;> simp_all [plain, GP.next]

theorem absR_same {s s' : St} {j : Rid} (h : Same s s' j) : absR s' j = absR s j := by
  unfold absR; rw [h.1, h.2.1, h.2.2.2.1, h.2.2.2.2.1]

/-- Only the program counter of `t` changes. -/
theorem Inv.local {n : Nat} {d : Int} {s : St} {tr ev : List Ev} (I : Inv n d s tr) (t : Tid) {c : Call} {q q' : Pos} (gone' : Bool)
    (h0 : s.pc t = .on c q) (hk : keepsG q = true) (hh : hold (.on c q') = hold (.on c q))
    (hcs : CShape { s.at t c q' with gone := gone' } t (.on c q'))
    (hev : ∀ e, e ∈ ev → mine t e ∧ plain e = true)
    (hloc : ev.foldl (Phase.next view t) (shape (.on c q)) = shape (.on c q')) : Inv n d { s.at t c q' with gone := gone' } (tr ++ ev) := by
  refine ⟨I.st.local t gone' h0 hk hh hcs, I.tc.client t rfl (fun e he => (hev e he).1) ?_ ?_ (by rw [h0]; exact hloc)⟩
  · intro i; rw [fold_same fun e he r => plain_R (hev e he).2 d i r]; exact (absR_same ⟨rfl, rfl, rfl, rfl, rfl, rfl⟩).symm
  · intro g; rw [fold_same fun e he r => plain_G (hev e he).2 g r]
    exact (I.tc.grel g).keep rfl (fun _ _ _ => rfl) (fun _ _ => Iff.rfl) (fun _ _ => Iff.rfl) (Or.inl ⟨c, q, q', h0, rfl⟩)

theorem Inv.local' {n : Nat} {d : Int} {s : St} {tr ev : List Ev} (I : Inv n d s tr) (t : Tid) {c : Call} {q q' : Pos}
    (h0 : s.pc t = .on c q) (hk : keepsG q = true) (hh : hold (.on c q') = hold (.on c q))
    (hcs : CShape (s.at t c q') t (.on c q'))
    (hev : ∀ e, e ∈ ev → mine t e ∧ plain e = true)
    (hloc : ev.foldl (Phase.next view t) (shape (.on c q)) = shape (.on c q')) : Inv n d (s.at t c q') (tr ++ ev) :=
  I.local t s.gone h0 hk hh hcs hev hloc

/-- Client `t` goes on within a call, touching pool thread `i`, without events about pool threads. -/
theorem Inv.touch {n : Nat} {d : Int} {s s' : St} {tr ev : List Ev} (I : Inv n d s tr) (t : Tid) (i : Rid) {c : Call} {q q' : Pos}
    (S' : Stat n d s') (h0 : s.pc t = .on c q) (hpc : s'.pc = upd s.pc t (.on c q'))
    (hj : ∀ j, j ≠ i → Same s s' j) (habs : absR s' i = absR s i)
    (hg : (∀ g, s.own i ≠ .guard g ∧ s'.own i ≠ .guard g) ∧ (∀ u, s'.own i = .rel u ↔ s.own i = .rel u))
    (hev : ∀ e, e ∈ ev → mine t e ∧ plain e = true)
    (hloc : ev.foldl (Phase.next view t) (shape (.on c q)) = shape (.on c q')) : Inv n d s' (tr ++ ev) := by
  refine ⟨S', I.tc.client t hpc (fun e he => (hev e he).1) ?_ ?_ (by rw [h0]; exact hloc)⟩
  · intro j; rw [fold_same fun e he r => plain_R (hev e he).2 d j r]
    by_cases e : j = i
    · subst e; exact habs.symm
    · exact (absR_same (hj j e)).symm
  · intro g; rw [fold_same fun e he r => plain_G (hev e he).2 g r]
    refine (I.tc.grel g).keep hpc ?_ ?_ ?_ (Or.inl ⟨c, q, q', h0, rfl⟩)
    · intro j γ h
      by_cases e : j = i
      · subst e; exact absurd h (hg.1 γ).2
      · rw [(hj j e).1]
    · intro j γ
      by_cases e : j = i
      · subst e; exact ⟨fun h => absurd h (hg.1 γ).2, fun h => absurd h (hg.1 γ).1⟩
      · rw [(hj j e).2.1]
    · intro j u
      by_cases e : j = i
      · subst e; exact hg.2 u
      · rw [(hj j e).2.1]

end Verif.TP
