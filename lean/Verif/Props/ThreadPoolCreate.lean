import Verif.Model.ThreadPoolCreate
/-
C69: ThreadPool::create and destroy acquire and release in a disciplined way, whatever fails.
-/
namespace Verif.Props.ThreadPoolCreate
open Verif Verif.TPC
open _root_.Verif.Res (Disciplined live disciplined_nil)

/-! #### Specification -/

/-- What lives on what: blocks on their pool, objects in their block, the members of the ThreadPool object on that object, a thread
on the runner it runs. -/
def parent : Rsrc → Option Rsrc
  | .objPool => none
  | .objBlk => some .objPool
  | .tpObj => some .objBlk
  | .queue => some .tpObj
  | .tmPool => some .tpObj
  | .tmBlk => some .tmPool
  | .runnerPool => some .tpObj
  | .runBlk _ => some .runnerPool
  | .event _ => some .tpObj
  | .runner i => some (.runBlk i)
  | .thread i => some (.runner i)

/-- The number of the runner a resource belongs to. -/
def idx : Rsrc → Option Nat
  | .runBlk i => some i
  | .event i => some i
  | .runner i => some i
  | .thread i => some i
  | _ => none

/-- What a complete pool with `n` threads holds. -/
def complete (n : Nat) (r : Rsrc) : Bool :=
  match idx r with
  | some i => decide (i < n)
  | none => true

/-- What can fail (constructing an object in memory that was obtained cannot). -/
def canFail : Rsrc → Bool
  | .tpObj => false
  | .runner _ => false
  | _ => true

/-! #### Lemmas -/

/-- The log is disciplined and leaves exactly `X` held. -/
def I (X : Rsrc → Bool) (s : St) : Prop := Disciplined parent s.log ∧ live s.log = X

def upd (X : Rsrc → Bool) (r : Rsrc) (b : Bool) : Rsrc → Bool := fun x => if x = r then b else X x

variable {X : Rsrc → Bool} {s : St} {α : Type} {Q : Unit → St → Prop} {E : Exn → St → Prop}

def St.ev (s : St) (e : Ev) : St := { s with log := s.log ++ [e] }

theorem wp_emit (e : Ev) : Cmd.wp (emit e) Q E s ↔ Q () (St.ev s e) := Iff.rfl

theorem wp_hang {Q : α → St → Prop} : Cmd.wp (hang : Prog α) Q E s ↔ False := Iff.rfl

theorem I.acq (h : I X s) {r : Rsrc} (h1 : X r = false) (h2 : ∀ p, parent r = some p → X p = true) : I (upd X r true) (St.ev s (.acq r)) := by
  refine ⟨h.1.snoc ⟨by rw [h.2]; exact h1, fun p hp => by rw [h.2]; exact h2 p hp⟩, ?_⟩
  simp only [St.ev, Res.live_snoc, h.2]
  funext x; simp [Res.Ev.apply, upd]

theorem I.fail (h : I X s) {r : Rsrc} (h2 : ∀ p, parent r = some p → X p = true) : I X (St.ev s (.fail r)) := by
  refine ⟨h.1.snoc (fun p hp => by rw [h.2]; exact h2 p hp), ?_⟩
  simp only [St.ev, Res.live_snoc, h.2]
  funext x; simp [Res.Ev.apply]

theorem I.use (h : I X s) {r : Rsrc} (h1 : X r = true) : I X (St.ev s (.use r)) := by
  refine ⟨h.1.snoc (show live s.log r = true by rw [h.2]; exact h1), ?_⟩
  simp only [St.ev, Res.live_snoc, h.2]
  funext x; simp [Res.Ev.apply]

theorem I.rel (h : I X s) {r : Rsrc} (h1 : X r = true) (h2 : ∀ c, parent c = some r → X c = false) : I (upd X r false) (St.ev s (.rel r)) := by
  refine ⟨h.1.snoc ⟨by rw [h.2]; exact h1, fun p hp => by rw [h.2]; exact h2 p hp⟩, ?_⟩
  simp only [St.ev, Res.live_snoc, h.2]
  funext x; simp [Res.Ev.apply, upd]

theorem wp_request {Q : Bool → St → Prop} (c : Cfg) (r : Rsrc) :
    Cmd.wp (request c r) Q E s ↔ (c.ok r = true → Q true (St.ev s (.acq r))) ∧ (c.ok r = false → Q false (St.ev s (.fail r))) := by
  unfold request
  cases h : c.ok r <;> simp [wp_emit]

/-- What is held when the base objects are, the four members are as in `s`, and the runners in `S` are complete. -/
def held (s : St) (S : Nat → Bool) : Rsrc → Bool
  | .objPool => true
  | .objBlk => true
  | .tpObj => true
  | .queue => s.mQueue
  | .tmPool => s.mTmPool
  | .tmBlk => s.mTmMem
  | .runnerPool => s.mRunnerPool
  | .runBlk i => S i
  | .event i => S i
  | .runner i => S i
  | .thread i => S i

/-- The pointers of the object. -/
structure Same (s s' : St) : Prop where
  q : s'.mQueue = s.mQueue
  t : s'.mTmPool = s.mTmPool
  m : s'.mTmMem = s.mTmMem
  r : s'.mRunnerPool = s.mRunnerPool

theorem drain_ok : ∀ (fuel : Nat) (s : St) (S : Nat → Bool), s.q.length < fuel → s.q.Nodup → (∀ i, S i = decide (i ∈ s.q)) → s.mRunnerPool = true →
    (∀ i ∈ s.q, s.run i = ⟨i, some i⟩) → I (held s S) s →
    Cmd.wp (drain fuel) (fun _ s' => I (held s (fun _ => false)) s' ∧ Same s s') (fun _ _ => False) s
  | 0, s, S, h, _, _, _, _, _ => by omega
  | fuel + 1, s, S, hf, hn, hS, hr, hrun, hI => by
    unfold drain
    simp only [Cmd.wp_bind, Cmd.wp_gets]
    cases hq : s.q with
    | nil =>
      simp only [Cmd.wp_pure]
      refine ⟨?_, ⟨rfl, rfl, rfl, rfl⟩⟩
      have : S = fun _ => false := by funext i; simp [hS, hq]
      rw [← this]; exact hI
    | cons r tl =>
      have hrr : s.run r = ⟨r, some r⟩ := hrun r (by simp [hq])
      rw [hq] at hn
      obtain ⟨hnr, hntl⟩ := List.nodup_cons.mp hn
      have hSr : S r = true := by simp [hS, hq]
      simp only [Cmd.wp_bind, Cmd.wp_modify, Cmd.wp_gets, wp_emit, hrr]
      have hI0 : I (held s S) { s with q := tl } := hI
      have h1 := hI0.use (r := .runner r) (by simp [held, hSr])
      have h2 := h1.rel (r := .event r) (by simp [held, hSr]) (by intro c; cases c <;> simp [parent])
      have h3 := h2.rel (r := .thread r) (by simp [held, upd, hSr]) (by intro c; cases c <;> simp [parent])
      have h4 := h3.rel (r := .runner r) (by simp [held, upd, hSr]) (by intro c; cases c <;> simp +contextual [parent, upd])
      have h5 := h4.rel (r := .runBlk r) (by simp [held, upd, hSr]) (by intro c; cases c <;> simp +contextual [parent, upd])
      refine Cmd.wp_mono (drain_ok fuel _ (fun i => decide (i ∈ tl)) ?_ ?_ ?_ ?_ ?_ ?_) ?_ (fun _ _ h => h)
      · simp only [St.ev]; rw [hq] at hf; simp at hf; omega
      · exact hntl
      · intro i; rfl
      · exact hr
      · intro i hi; exact hrun i (by rw [hq]; exact List.mem_cons_of_mem _ hi)
      · have : upd (upd (upd (upd (held s S) (.event r) false) (.thread r) false) (.runner r) false) (.runBlk r) false
            = held { s with q := tl } (fun i => decide (i ∈ tl)) := by
          funext x
          have key : ∀ i, i ≠ r → S i = decide (i ∈ tl) := by intro i hi; simp [hS, hq, hi]
          cases x <;> simp only [upd, held, reduceCtorEq, if_false, Rsrc.runBlk.injEq, Rsrc.event.injEq, Rsrc.runner.injEq, Rsrc.thread.injEq] <;>
            (rename_i i; by_cases hi : i = r <;> simp [hi, hnr, key])
        rw [this] at h5
        exact h5
      · rintro _ s' ⟨h, hs⟩
        exact ⟨h, ⟨hs.q, hs.t, hs.m, hs.r⟩⟩


/-- Only the object itself is left. -/
def base : Rsrc → Bool
  | .objPool => true
  | .objBlk => true
  | .tpObj => true
  | _ => false

theorem upd_self {r : Rsrc} {b : Bool} (h : X r = b) : upd X r b = X := by
  funext x; unfold upd; split <;> simp_all

theorem destroyIf_ok {p : Bool} {r : Rsrc} (h : I X s) (hp : X r = p) (h2 : p = true → ∀ c, parent c = some r → X c = false) :
    Cmd.wp (destroyIf p r) (fun _ s' => I (upd X r false) s') (fun _ _ => False) s := by
  unfold destroyIf
  cases p
  · simp only [Bool.false_eq_true, if_false, Cmd.wp_pure]
    rw [upd_self hp]; exact h
  · simp only [if_true, wp_emit]
    exact h.rel hp (h2 rfl)

/-- A state of the members that destroyMembers can deal with. -/
structure Members (s : St) : Prop where
  nodup : s.q.Nodup
  run : ∀ i ∈ s.q, s.run i = ⟨i, some i⟩
  inv : I (held s (fun i => decide (i ∈ s.q))) s
  mem : s.mTmMem = true → s.mTmPool = true
  qr : s.q ≠ [] → s.mQueue = true ∧ s.mRunnerPool = true

theorem destroyMembers_ok (h : Members s) : Cmd.wp destroyMembers (fun _ s' => I base s') (fun _ _ => False) s := by
  have key : Cmd.wp destroyRunners (fun _ s' => I (held s (fun _ => false)) s' ∧ Same s s') (fun _ _ => False) s := by
    unfold destroyRunners
    simp only [Cmd.wp_bind, Cmd.wp_gets, Cmd.wp_ite, Cmd.wp_pure, id]
    have hemp : s.q = [] → I (held s (fun _ => false)) s ∧ Same s s := by
      intro hq
      have := h.inv
      simp only [hq, List.not_mem_nil, decide_false] at this
      exact ⟨this, ⟨rfl, rfl, rfl, rfl⟩⟩
    refine ⟨fun hm => hemp ?_, fun _ => ⟨fun hm => hemp ?_, fun hr => ?_⟩⟩
    · apply Classical.byContradiction; intro hne; have := (h.qr hne).1; simp_all
    · apply Classical.byContradiction; intro hne; have := (h.qr hne).2; simp_all
    · exact drain_ok _ s _ (by omega) h.nodup (fun _ => rfl) (by simpa using hr) h.run h.inv
  have key2 : ∀ s1, I (held s (fun _ => false)) s1 → Same s s1 →
      Cmd.wp destroyThreads (fun _ s' => I (upd (held s (fun _ => false)) .tmBlk false) s' ∧ Same s s') (fun _ _ => False) s1 := by
    intro s1 hI hs
    unfold destroyThreads
    simp only [Cmd.wp_bind, Cmd.wp_gets, Cmd.wp_ite, Cmd.wp_pure, id, wp_emit]
    have hfalse : s.mTmMem = false → I (upd (held s (fun _ => false)) .tmBlk false) s1 := by
      intro hm; rw [upd_self (by simpa [held] using hm)]; exact hI
    refine ⟨fun hm => ⟨hfalse ?_, hs⟩, fun _ => ⟨fun hm => ⟨hfalse ?_, hs⟩, fun hm => ⟨?_, ⟨hs.q, hs.t, hs.m, hs.r⟩⟩⟩⟩
    · have := h.mem; rw [hs.t] at hm; simp_all
    · rw [← hs.m]; exact hm
    · rw [hs.m] at hm
      exact hI.rel (by simpa [held] using hm) (by intro c; cases c <;> simp [parent])
  unfold destroyMembers
  rw [Cmd.wp_bind]
  refine Cmd.wp_mono key ?_ (fun _ _ h => h)
  rintro _ s1 ⟨hI1, hs1⟩
  rw [Cmd.wp_bind]
  refine Cmd.wp_mono (key2 s1 hI1 hs1) ?_ (fun _ _ h => h)
  rintro _ s2 ⟨hI2, hs2⟩
  simp only [Cmd.wp_bind, Cmd.wp_gets, id]
  refine Cmd.wp_mono (destroyIf_ok hI2 (by simp [upd, held, hs2.r]) (by intro _ c; cases c <;> simp [parent, upd, held])) ?_ (fun _ _ h => h)
  intro _ s3 hI3
  refine Cmd.wp_mono (destroyIf_ok hI3 (by simp [upd, held, hs2.t]) (by intro _ c; cases c <;> simp [parent, upd, held])) ?_ (fun _ _ h => h)
  intro _ s4 hI4
  refine Cmd.wp_mono (destroyIf_ok hI4 (by simp [upd, held, hs2.q]) (by intro _ c; cases c <;> simp [parent, upd, held])) ?_ (fun _ _ h => h)
  intro _ s5 hI5
  have : upd (upd (upd (upd (held s fun _ => false) Rsrc.tmBlk false) Rsrc.runnerPool false) Rsrc.tmPool false) Rsrc.queue false = base := by
    funext r; cases r <;> simp [upd, held, base]
  rwa [this] at hI5

/-- The table and the queue have room for what is still to come. -/
structure Room (s : St) (k i : Nat) : Prop where
  q : s.q = List.range i
  th : s.threads = List.range i
  qCap : i + k ≤ s.qCap
  thCap : i + k ≤ s.thCap
  ptrs : s.mQueue = true ∧ s.mTmPool = true ∧ s.mTmMem = true ∧ s.mRunnerPool = true

/-- Nothing of the runners `i .. i+k-1` fails. -/
def runnersOk (c : Cfg) (k i : Nat) : Prop := ∀ j, i ≤ j → j < i + k → c.ok (.runBlk j) = true ∧ c.ok (.event j) = true ∧ c.ok (.thread j) = true

theorem makeRunners_ok (c : Cfg) : ∀ (k i : Nat) (s : St), Members s → Room s k i →
    Cmd.wp (makeRunners c k i) (fun b s' => Members s' ∧ (b = true ↔ runnersOk c k i) ∧ (b = true → Room s' 0 (i + k))) (fun _ _ => False) s
  | 0, i, s, hm, hr => by
    unfold makeRunners
    simp only [Cmd.wp_pure]
    exact ⟨hm, by simp only [true_iff]; intro j; omega, fun _ => hr⟩
  | k + 1, i, s, hm, hr => by
    have hnot : ∀ {j}, i ≤ j → j ∉ s.q := by intro j hj; rw [hr.q]; simp; omega
    have hni : decide (i ∈ s.q) = false := by simpa using hnot (Nat.le_refl i)
    have hneg : ∀ r : Prop, (runnersOk c (k+1) i → r) → ¬ r → (False ↔ runnersOk c (k+1) i) := by
      intro r h1 h2; simp only [false_iff]; exact fun h => h2 (h1 h)
    have huse : runnersOk c (k+1) i → c.ok (.runBlk i) = true ∧ c.ok (.event i) = true ∧ c.ok (.thread i) = true :=
      fun h => h i (Nat.le_refl _) (by omega)
    have hI := hm.inv
    obtain ⟨p1, p2, p3, p4⟩ := hr.ptrs
    unfold makeRunners
    simp only [Cmd.wp_bind, wp_request, Cmd.wp_ite, Cmd.wp_pure, Cmd.wp_modify, Cmd.wp_gets, wp_emit, id, true_implies, reduceCtorEq, not_true, not_false_iff,
      false_implies, Cmd.wp_throw, wp_hang, true_and, and_true]
    constructor
    · intro ok1
      have I1 := hI.acq (r := .runBlk i) (by simpa [held] using hni) (by intro p hp; simp [parent] at hp; subst hp; simp [held, p4])
      constructor
      · intro ok2
        have I2 := I1.acq (r := .event i) (by simpa [held, upd] using hni) (by intro p hp; simp [parent] at hp; subst hp; simp [held, upd])
        have I3 := I2.acq (r := .runner i) (by simpa [held, upd] using hni) (by intro p hp; simp [parent] at hp; subst hp; simp [upd])
        constructor
        · intro ok3
          have I4 := I3.acq (r := .thread i) (by simpa [held, upd] using hni) (by intro p hp; simp [parent] at hp; subst hp; simp [upd])
          refine ⟨fun _ => ⟨fun _ => ?_, ?_⟩, ?_⟩
          · refine Cmd.wp_mono (makeRunners_ok c k (i+1) _ ?_ ?_) ?_ (fun _ _ h => h)
            · refine ⟨?_, ?_, ?_, hm.mem, fun _ => ⟨p1, p4⟩⟩
              · show (s.q ++ [i]).Nodup
                rw [hr.q, ← List.range_succ]; exact List.nodup_range
              · intro j hj
                by_cases hji : j = i
                · subst hji; simp [St.ev]
                · have hj' : j ∈ s.q := by
                    have : j ∈ s.q ++ [i] := hj
                    simpa [hji] using this
                  simpa [St.ev, hji] using hm.run j hj'
              · have : upd (upd (upd (upd (held s fun j => decide (j ∈ s.q)) (.runBlk i) true) (.event i) true) (.runner i) true) (.thread i) true
                    = held s (fun j => decide (j ∈ s.q ++ [i])) := by
                  funext x
                  cases x <;> simp only [upd, held, reduceCtorEq, if_false, Rsrc.runBlk.injEq, Rsrc.event.injEq, Rsrc.runner.injEq, Rsrc.thread.injEq] <;>
                    (rename_i j; by_cases hi : j = i <;> simp [hi])
                rw [this] at I4
                exact I4
            · refine ⟨?_, ?_, ?_, ?_, ⟨p1, p2, p3, p4⟩⟩
              · show s.q ++ [i] = _; rw [hr.q, ← List.range_succ]
              · show s.threads ++ [i] = _; rw [hr.th, ← List.range_succ]
              · show i + 1 + k ≤ s.qCap; have := hr.qCap; omega
              · show i + 1 + k ≤ s.thCap; have := hr.thCap; omega
            · rintro b s' ⟨h1, h2, h3⟩
              refine ⟨h1, h2.trans ⟨?_, ?_⟩, fun hb => ?_⟩
              · intro h j h1 h2
                by_cases hj : j = i
                · subst hj; exact ⟨ok1, ok2, ok3⟩
                · exact h j (by omega) (by omega)
              · intro h j h1 h2; exact h j (by omega) (by omega)
              · have := h3 hb
                rwa [show i + 1 + k = i + (k + 1) by omega] at this
          · intro h; exfalso; apply h; simp [St.ev, hr.q]; have := hr.qCap; omega
          · intro h; apply h; simp [St.ev, hr.th]; have := hr.thCap; omega
        · intro ok3
          have I4 := I3.fail (r := .thread i) (by intro p hp; simp [parent] at hp; subst hp; simp [upd])
          have I5 := I4.rel (r := .event i) (by simp [upd]) (by intro c; cases c <;> simp [parent])
          have I6 := I5.rel (r := .runner i) (by simp [upd]) (by intro c; cases c <;> simp +contextual [parent, upd, held, hnot (Nat.le_refl i)])
          have I7 := I6.rel (r := .runBlk i) (by simp [upd]) (by intro c; cases c <;> simp +contextual [parent, upd])
          have : upd (upd (upd (upd (upd (upd (held s fun j => decide (j ∈ s.q)) (.runBlk i) true) (.event i) true) (.runner i) true) (.event i) false)
              (.runner i) false) (.runBlk i) false = held s (fun j => decide (j ∈ s.q)) := by
            funext x
            cases x <;> simp only [upd, held, reduceCtorEq, if_false, Rsrc.runBlk.injEq, Rsrc.event.injEq, Rsrc.runner.injEq] <;>
              (rename_i j; by_cases hi : j = i <;> simp [hi, hnot])
          rw [this] at I7
          refine ⟨⟨hm.nodup, ?_, I7, hm.mem, hm.qr⟩, hneg (c.ok (.thread i) = true) (fun h => (huse h).2.2) (by simp [ok3])⟩
          intro j hj
          have hji : j ≠ i := by rintro rfl; exact hnot (Nat.le_refl _) hj
          simpa [St.ev, hji] using hm.run j hj
      · intro ok2
        have I2 := I1.fail (r := .event i) (by intro p hp; simp [parent] at hp; subst hp; simp [upd, held])
        have I3 := I2.rel (r := .runBlk i) (by simp [upd]) (by intro c; cases c <;> simp +contextual [parent, upd, held, hnot (Nat.le_refl i)])
        have : upd (upd (held s fun j => decide (j ∈ s.q)) (.runBlk i) true) (.runBlk i) false = held s (fun j => decide (j ∈ s.q)) := by
          funext x
          cases x <;> simp only [upd, held, reduceCtorEq, if_false, Rsrc.runBlk.injEq] <;>
            (rename_i j; by_cases hi : j = i <;> simp [hi, hnot])
        rw [this] at I3
        exact ⟨⟨hm.nodup, hm.run, I3, hm.mem, hm.qr⟩, hneg (c.ok (.event i) = true) (fun h => (huse h).2.1) (by simp [ok2])⟩
    · intro ok1
      have I1 := hI.fail (r := .runBlk i) (by intro p hp; simp [parent] at hp; subst hp; simp [held, p4])
      exact ⟨⟨hm.nodup, hm.run, I1, hm.mem, hm.qr⟩, hneg (c.ok (.runBlk i) = true) (fun h => (huse h).1) (by simp [ok1])⟩

/-- The size of the thread table does not overflow. -/
def Fits (c : Cfg) (n : Nat) : Prop := 0 < c.ptr ∧ c.ptr * n < c.M

/-- Every request of a pool with `n` threads can be met. -/
def allOk (c : Cfg) (n : Nat) : Prop := 0 < n ∧ ∀ r, canFail r = true → complete n r = true → c.ok r = true

theorem constructMembers_ok (c : Cfg) (n : Nat) (hfit : Fits c n) (hs : s.mQueue = false ∧ s.q = [] ∧ s.mTmPool = false ∧ s.mTmMem = false ∧ s.threads = [] ∧ s.mRunnerPool = false)
    (hI : I base s) :
    Cmd.wp (constructMembers c n) (fun b s' => (b = false → I base s') ∧ (b = true → Members s' ∧ Room s' 0 n) ∧
      (b = true ↔ 0 < n ∧ c.ok .queue = true ∧ c.ok .tmPool = true ∧ c.ok .tmBlk = true ∧ c.ok .runnerPool = true ∧ runnersOk c n 0)) (fun _ _ => False) s := by
  obtain ⟨h1, h2, h3, h4, h5, h6⟩ := hs
  have hmod : c.ptr * n % c.M = c.ptr * n := Nat.mod_eq_of_lt hfit.2
  have hdiv : c.ptr * n / c.ptr = n := Nat.mul_div_cancel_left n hfit.1
  have hz : c.ptr * n = 0 ↔ n = 0 := by have := hfit.1; rw [Nat.mul_eq_zero]; omega
  have hF : ∀ {s' : St} (Y : Rsrc → Bool) {P : Prop}, s'.q = [] → I Y s' → (∀ r, Y r = held s' (fun _ => false) r) → (s'.mTmMem = true → s'.mTmPool = true) → ¬ P →
      Cmd.wp destroyMembers (fun _ s' => I base s' ∧ (False ↔ P)) (fun _ _ => False) s' := by
    intro s' Y P hq hY hYh hmem hP
    have e : Y = held s' (fun _ => false) := funext hYh
    subst e
    refine Cmd.wp_mono (destroyMembers_ok ⟨?_, ?_, ?_, hmem, ?_⟩) (fun _ s' h => ⟨h, by simpa using hP⟩) (fun _ _ h => h)
    · simp [hq]
    · simp [hq]
    · simpa [hq] using hY
    · simp [hq]
  unfold constructMembers
  simp only [Cmd.wp_bind, wp_request, createPool, Cmd.wp_ite, Cmd.wp_pure, Cmd.wp_modify, wp_emit, true_implies, reduceCtorEq, not_true, not_false_iff,
      false_implies, true_and, and_true, hmod, hdiv, hz]
  constructor
  · intro ok1
    have I1 := hI.acq (r := .queue) (by simp [base]) (by intro p hp; simp [parent] at hp; subst hp; simp [base])
    constructor
    · intro hn
      have I2 := I1.fail (r := .tmPool) (by intro p hp; simp [parent] at hp; subst hp; simp [base, upd])
      refine hF _ ?_ I2 ?_ ?_ ?_ <;> first | exact h2 | skip
      · intro r; cases r <;> simp [upd, base, held, St.ev, h4, h6]
      · simp [St.ev, h4]
      · omega
    · intro hn
      constructor
      · intro ok2
        have I2 := I1.acq (r := .tmPool) (by simp [base, upd]) (by intro p hp; simp [parent] at hp; subst hp; simp [base, upd])
        constructor
        · intro ok3
          have I3 := I2.acq (r := .tmBlk) (by simp [base, upd]) (by intro p hp; simp [parent] at hp; subst hp; simp [upd])
          constructor
          · intro ok4
            have I4 := I3.acq (r := .runnerPool) (by simp [base, upd]) (by intro p hp; simp [parent] at hp; subst hp; simp [base, upd])
            refine Cmd.wp_mono (makeRunners_ok c n 0 _ ⟨?_, ?_, ?_, ?_, ?_⟩ ⟨?_, ?_, ?_, ?_, ?_⟩) ?_ (fun _ _ h => h)
            · simp [St.ev, h2]
            · simp [St.ev, h2]
            · refine ⟨I4.1, I4.2.trans ?_⟩
              funext r; cases r <;> simp [upd, base, held, St.ev, h2]
            · intro _; rfl
            · intro _; exact ⟨rfl, rfl⟩
            · simp [St.ev, h2]
            · simp [St.ev, h5]
            · simp [St.ev]
            · simp [St.ev]
            · exact ⟨rfl, rfl, rfl, rfl⟩
            · rintro b s' ⟨hm, hb, hr⟩
              refine ⟨?_, ?_⟩
              · rintro rfl
                refine ⟨⟨hm, by simpa using hr rfl⟩, ?_⟩
                have := hb.mp rfl
                simp only [ok1, ok2, ok3, ok4, this, and_true, true_iff]
                omega
              · intro hbf
                refine Cmd.wp_mono (destroyMembers_ok hm) (fun _ s' h => ⟨h, ?_⟩) (fun _ _ h => h)
                simp only [false_iff]
                rintro ⟨_, _, _, _, _, h⟩
                exact hbf (hb.mpr h)
          · intro ok4
            have I4 := I3.fail (r := .runnerPool) (by intro p hp; simp [parent] at hp; subst hp; simp [base, upd])
            refine hF _ ?_ I4 ?_ ?_ ?_ <;> first | exact h2 | skip
            · intro r; cases r <;> simp [upd, base, held, St.ev]
            · simp [St.ev]
            · simp [ok4]
        · intro ok3
          have I3 := I2.fail (r := .tmBlk) (by intro p hp; simp [parent] at hp; subst hp; simp [upd])
          refine hF _ ?_ I3 ?_ ?_ ?_ <;> first | exact h2 | skip
          · intro r; cases r <;> simp [upd, base, held, St.ev, h6]
          · simp [St.ev]
          · simp [ok3]
      · intro ok2
        have I2 := I1.fail (r := .tmPool) (by intro p hp; simp [parent] at hp; subst hp; simp [base, upd])
        refine hF _ ?_ I2 ?_ ?_ ?_ <;> first | exact h2 | skip
        · intro r; cases r <;> simp [upd, base, held, St.ev, h4, h6]
        · simp [St.ev, h4]
        · simp [ok2]
  · intro ok1
    have I1 := hI.fail (r := .queue) (by intro p hp; simp [parent] at hp; subst hp; simp [base])
    refine hF _ ?_ I1 ?_ ?_ ?_ <;> first | exact h2 | skip
    · intro r; cases r <;> simp [base, held, St.ev, h3, h4, h6]
    · simp [St.ev, h4]
    · simp [ok1]

theorem complete_idx (n : Nat) (c : Cfg) : allOk c n ↔ 0 < n ∧ c.ok .objPool = true ∧ c.ok .objBlk = true ∧
    c.ok .queue = true ∧ c.ok .tmPool = true ∧ c.ok .tmBlk = true ∧ c.ok .runnerPool = true ∧ runnersOk c n 0 := by
  constructor
  · rintro ⟨h0, h⟩
    refine ⟨h0, h _ rfl rfl, h _ rfl rfl, h _ rfl rfl, h _ rfl rfl, h _ rfl rfl, h _ rfl rfl, fun j _ hj => ⟨?_, ?_, ?_⟩⟩ <;>
      exact h _ rfl (by simpa [complete, idx] using hj)
  · rintro ⟨h0, h1, h2, h3, h4, h5, h6, h7⟩
    refine ⟨h0, ?_⟩
    intro r hc hr
    cases r <;> simp only [canFail, Bool.false_eq_true] at hc <;> first | assumption | skip
    all_goals
      rename_i i
      simp only [complete, idx, decide_eq_true_eq] at hr
      have := h7 i (Nat.zero_le _) (by omega)
      first | exact this.1 | exact this.2.1 | exact this.2.2

/-- What create establishes. -/
theorem create_wp (c : Cfg) (n : Nat) (hfit : Fits c n) :
    Cmd.wp (create c n) (fun b s' => (b = false → I (fun _ => false) s') ∧ (b = true → Members s' ∧ Room s' 0 n) ∧ (b = true ↔ allOk c n)) (fun _ _ => False) St.init := by
  have hI : I (fun _ => false) St.init := ⟨disciplined_nil _, rfl⟩
  unfold create
  simp only [Cmd.wp_bind, wp_request, Cmd.wp_ite, Cmd.wp_pure, wp_emit, true_implies, reduceCtorEq, not_true, not_false_iff,
      false_implies, true_and, and_true]
  rw [complete_idx]
  constructor
  · intro ok1
    have I1 := hI.acq (r := .objPool) rfl (by intro p hp; simp [parent] at hp)
    constructor
    · intro ok2
      have I2 := I1.acq (r := .objBlk) (by simp [upd]) (by intro p hp; simp [parent] at hp; subst hp; simp [upd])
      have I3 := I2.acq (r := .tpObj) (by simp [upd]) (by intro p hp; simp [parent] at hp; subst hp; simp [upd])
      have e : upd (upd (upd (fun _ => false) Rsrc.objPool true) Rsrc.objBlk true) Rsrc.tpObj true = base := by
        funext r; cases r <;> simp [upd, base]
      rw [e] at I3
      refine Cmd.wp_mono (constructMembers_ok c n hfit ⟨rfl, rfl, rfl, rfl, rfl, rfl⟩ I3) ?_ (fun _ _ h => h)
      rintro b s' ⟨h1, h2, h3⟩
      refine ⟨?_, ?_⟩
      · rintro rfl
        have J1 := (h1 rfl).rel (r := .tpObj) (by simp [base]) (by intro c; cases c <;> simp [parent, base])
        have J2 := J1.rel (r := .objBlk) (by simp [base, upd]) (by intro c; cases c <;> simp [parent, upd])
        have J3 := J2.rel (r := .objPool) (by simp [base, upd]) (by intro c; cases c <;> simp [parent, upd])
        have e2 : upd (upd (upd base Rsrc.tpObj false) Rsrc.objBlk false) Rsrc.objPool false = fun _ => false := by
          funext r; cases r <;> simp [upd, base]
        rw [e2] at J3
        refine ⟨J3, ?_⟩
        simp only [ok1, ok2, true_and]
        simpa using h3
      · intro hb
        have hb : b = true := by simpa using hb
        subst hb
        refine ⟨h2 rfl, ?_⟩
        simp only [ok1, ok2, true_and]
        simpa using h3
    · intro ok2
      have I2 := I1.fail (r := .objBlk) (by intro p hp; simp [parent] at hp; subst hp; simp [upd])
      have I3 := I2.rel (r := .objPool) (by simp [upd]) (by intro c; cases c <;> simp [parent, upd])
      have e2 : upd (upd (fun _ => false) Rsrc.objPool true) Rsrc.objPool false = fun _ => false := by
        funext r; cases r <;> simp [upd]
      rw [e2] at I3
      exact ⟨I3, by simp [ok2]⟩
  · intro ok1
    have I1 := hI.fail (r := .objPool) (by intro p hp; simp [parent] at hp)
    exact ⟨I1, by simp [ok1]⟩

theorem waitThreads_ok : ∀ (l : List Nat) (s : St), I X s → (∀ t ∈ l, X (.thread t) = true) →
    Cmd.wp (waitThreads l) (fun _ s' => I X s' ∧ s'.q = s.q ∧ s'.run = s.run ∧ Same s s') (fun _ _ => False) s
  | [], s, h, _ => by show _ ∧ _; exact ⟨h, rfl, rfl, ⟨rfl, rfl, rfl, rfl⟩⟩
  | t :: tl, s, h, ht => by
    simp only [waitThreads, Cmd.wp_bind, wp_emit]
    refine Cmd.wp_mono (waitThreads_ok tl _ (h.use (ht t (by simp))) (fun t' h' => ht t' (by simp [h']))) ?_ (fun _ _ h => h)
    rintro _ s' ⟨h1, h2, h3, h4⟩
    exact ⟨h1, h2, h3, ⟨h4.q, h4.t, h4.m, h4.r⟩⟩

/-! #### The property -/

/-- create never faults, throws or blocks. -/
theorem C69_create_returns_partial (c : Cfg) (n : Nat) (hfit : Fits c n) : ∃ b s, create c n St.init = .ok b s := by
  rcases Cmd.wp_cases (create_wp c n hfit) with ⟨b, s, h, _⟩ | ⟨_, _, _, h⟩
  · exact ⟨b, s, h⟩
  · exact h.elim

theorem create_post (c : Cfg) (n : Nat) (hfit : Fits c n) {b : Bool} {s : St} (h : create c n St.init = .ok b s) :
    (b = false → I (fun _ => false) s) ∧ (b = true → Members s ∧ Room s 0 n) ∧ (b = true ↔ allOk c n) := by
  have := create_wp c n hfit
  unfold Cmd.wp at this
  rw [h] at this
  exact this

/-- create returns null exactly when one of the requests it may have to make cannot be met (or no threads are asked for). -/
theorem C69_null_iff_partial (c : Cfg) (n : Nat) (hfit : Fits c n) {b : Bool} {s : St} (h : create c n St.init = .ok b s) :
    b = false ↔ n = 0 ∨ ∃ r, canFail r = true ∧ complete n r = true ∧ c.ok r = false := by
  have := (create_post c n hfit h).2.2
  rw [← Bool.not_eq_true, this]
  unfold allOk
  constructor
  · intro hna
    apply Classical.byContradiction
    intro hno
    apply hna
    refine ⟨by omega, fun r h1 h2 => ?_⟩
    apply Classical.byContradiction
    intro h3
    exact hno (Or.inr ⟨r, h1, h2, by simpa using h3⟩)
  · rintro (rfl | ⟨r, h1, h2, h3⟩) ⟨h0, ha⟩
    · omega
    · have := ha r h1 h2; simp_all

/-- When create fails, the log of what it did is disciplined and nothing is held any more: every resource obtained has been released
exactly once, in an order that never leaves a block without its pool, an object without its block, a thread without its runner. -/
theorem C69_create_fails_partial (c : Cfg) (n : Nat) (hfit : Fits c n) {s : St} (h : create c n St.init = .ok false s) :
    Disciplined parent s.log ∧ ∀ r, live s.log r = false := by
  have := (create_post c n hfit h).1 rfl
  exact ⟨this.1, fun r => by rw [this.2]⟩

/-- When create succeeds, exactly a complete pool is held. -/
theorem C69_create_succeeds_partial (c : Cfg) (n : Nat) (hfit : Fits c n) {s : St} (h : create c n St.init = .ok true s) :
    Disciplined parent s.log ∧ ∀ r, live s.log r = complete n r := by
  obtain ⟨hm, hr⟩ := (create_post c n hfit h).2.1 rfl
  refine ⟨hm.inv.1, fun r => ?_⟩
  rw [hm.inv.2]
  obtain ⟨p1, p2, p3, p4⟩ := hr.ptrs
  cases r <;> simp [held, complete, idx, p1, p2, p3, p4, hr.q]

/-- Destroying the pool later, when every thread is back in the queue of free threads (in whatever order), releases everything exactly
once. -/
theorem C69_destroy_partial (c : Cfg) (n : Nat) (hfit : Fits c n) {s : St} (h : create c n St.init = .ok true s) (q : List Nat)
    (hq : q.Perm s.q) :
    ∃ s', destroy true { s with q := q } = .ok () s' ∧ Disciplined parent s'.log ∧ ∀ r, live s'.log r = false := by
  obtain ⟨hm, hr⟩ := (create_post c n hfit h).2.1 rfl
  have hmem : ∀ i, (i ∈ q) = (i ∈ s.q) := fun i => propext hq.mem_iff
  have hw : Cmd.wp (destroy true) (fun _ s' => I (fun _ => false) s') (fun _ _ => False) { s with q := q } := by
    unfold destroy
    simp only [reduceCtorEq, if_false, Cmd.wp_bind, Cmd.wp_gets]
    have hI : I (held s (fun i => decide (i ∈ s.q))) { s with q := q } := hm.inv
    refine Cmd.wp_mono (waitThreads_ok s.threads _ hI ?_) ?_ (fun _ _ h => h)
    · intro t ht; rw [hr.th] at ht; simp only [held, hr.q]; simpa using ht
    · rintro _ s1 ⟨h1, h2, h3, h4⟩
      have hM : Members s1 := by
        refine ⟨?_, ?_, ?_, ?_, ?_⟩
        · rw [h2]; exact hq.nodup_iff.mpr hm.nodup
        · intro i hi
          rw [h2] at hi
          rw [h3]
          exact hm.run i (hq.mem_iff.mp hi)
        · have : held s1 (fun i => decide (i ∈ s1.q)) = held s (fun i => decide (i ∈ s.q)) := by
            funext r
            have hmm : ∀ i, (i ∈ s1.q) = (i ∈ s.q) := by intro i; rw [h2]; exact hmem i
            cases r <;> simp [held, h4.q, h4.t, h4.m, h4.r, hmm]
          rw [this]; exact h1
        · rw [h4.m, h4.t]; exact hm.mem
        · intro hne
          rw [h4.q, h4.r]
          exact ⟨hr.ptrs.1, hr.ptrs.2.2.2⟩
      refine Cmd.wp_mono (destroyMembers_ok hM) ?_ (fun _ _ h => h)
      intro _ s2 h
      simp only [wp_emit]
      have J1 := h.rel (r := .tpObj) (by simp [base]) (by intro c; cases c <;> simp [parent, base])
      have J2 := J1.rel (r := .objBlk) (by simp [base, upd]) (by intro c; cases c <;> simp [parent, upd])
      have J3 := J2.rel (r := .objPool) (by simp [base, upd]) (by intro c; cases c <;> simp [parent, upd])
      have e2 : upd (upd (upd base Rsrc.tpObj false) Rsrc.objBlk false) Rsrc.objPool false = fun _ => false := by
        funext r; cases r <;> simp [upd, base]
      rw [e2] at J3
      exact J3
  rcases Cmd.wp_cases hw with ⟨_, s', h1, h2⟩ | ⟨_, _, _, h⟩
  · exact ⟨s', h1, h2.1, fun r => by rw [h2.2]⟩
  · exact h.elim

/-- destroy of a null pointer does nothing. -/
theorem C69_destroy_null (s : St) : destroy false s = .ok () s := rfl

/-! #### The hypotheses are met, and what happens without them -/

/-- A 64-bit machine and the failure of one request only. -/
def failing (r : Rsrc) : Cfg := ⟨fun x => decide (x ≠ r), 2 ^ 64, 8⟩

example : Fits (failing (.thread 1)) 3 := ⟨by decide, by decide⟩

/-- Three threads, the second thread cannot be created. -/
example : (match create (failing (.thread 1)) 3 St.init with | .ok b s => (b, s.log) | _ => (true, [])) =
    (false, [.acq .objPool, .acq .objBlk, .acq .tpObj, .acq .queue, .acq .tmPool, .acq .tmBlk, .acq .runnerPool,
      .acq (.runBlk 0), .acq (.event 0), .acq (.runner 0), .acq (.thread 0),
      .acq (.runBlk 1), .acq (.event 1), .acq (.runner 1), .fail (.thread 1), .rel (.event 1), .rel (.runner 1), .rel (.runBlk 1),
      .use (.runner 0), .rel (.event 0), .rel (.thread 0), .rel (.runner 0), .rel (.runBlk 0),
      .rel .tmBlk, .rel .runnerPool, .rel .tmPool, .rel .queue, .rel .tpObj, .rel .objBlk, .rel .objPool]) := by decide

/-- Nothing fails; the pool is used and the threads come back in another order; destroy is reached with a permuted queue. -/
example : ∃ s, create (failing (.thread 7)) 2 St.init = .ok true s ∧ [1, 0].Perm s.q ∧
    (match destroy true { s with q := [1, 0] } with | .ok _ s' => s'.log.length | _ => 0) = 15 + 2 + 10 + 7 := by
  refine ⟨_, rfl, ?_, ?_⟩
  · exact List.Perm.swap 0 1 []
  · decide

/-- Without the hypothesis that the thread table fits: on an 8-bit machine with 8-byte pointers, 33 threads need 264 = 8 (mod 256) bytes;
the second push_back throws out of create and everything obtained so far is lost. -/
theorem C69_counterexample : ∃ c n s, create c n St.init = .exn .badAlloc s ∧ (∀ r, c.ok r = true) ∧ live s.log .objPool = true := by
  refine ⟨⟨fun _ => true, 256, 8⟩, 33, _, rfl, fun _ => rfl, ?_⟩
  decide

/-- A pool that has lost a thread (C67) is not released completely: destroy gives the pool of runners back while a runner is still in it. -/
theorem C69_lost_thread : ∃ s s', create (failing (.thread 7)) 2 St.init = .ok true s ∧ destroy true { s with q := [0] } = .ok () s' ∧
    live s'.log .runnerPool = false ∧ live s'.log (.runBlk 1) = true ∧ live s'.log (.thread 1) = true := by
  refine ⟨_, _, rfl, rfl, ?_⟩
  decide

end Verif.Props.ThreadPoolCreate
