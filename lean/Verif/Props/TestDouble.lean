import Verif.Proof.TestDouble
/-
C99: `MessageQueue` and the runner queue of `ThreadPool` used by one thread on test doubles.
-/
namespace Verif.Props.TestDouble
open Verif Cmd TD
open _root_.Verif.Mtx (Err)
open _root_.Verif.Props.Deque (Holds)
variable {V : Type} {cap : Nat} {q : List V} {t : QSt V}

theorem fresh_holds : Holds cap ([] : List V) (QSt.fresh cap).mem :=
  ⟨rfl, Nat.succ_pos _, by simp [QSt.fresh], by simp, fun k _ => by simp [QSt.fresh]⟩

/-- Whatever the doubles answer, whatever the memory contains and whatever copy throws: every mutex a call locks is unlocked again, in reverse
order, when the call returns and when an exception leaves it; no mutex is locked twice; no wait happens while the buffer mutex is held. -/
theorem C99_lock_discipline (P : Plat) (E : Env V) (o : Op V) (t : QSt V) :
    (∀ r t', exec P E o t = .ok r t' → ∃ l, t'.log = t.log ++ l ∧ held [] l = some []) ∧
    (∀ e t', exec P E o t = .exn e t' → ∃ l, t'.log = t.log ++ l ∧ held [] l = some []) := by
  have h := Bal.exec (P := P) (E := E) (o := o) t
  exact ⟨fun r t' hx => by rw [hx] at h; exact h, fun r t' hx => by rw [hx] at h; exact h⟩

/-- A successful call tells the other side: `send` sets the "not empty" bit, `receive` the "not full" bit. -/
theorem C99_signals (P : Plat) (E : Env V) (t t' : QSt V) :
    (∀ v, send P E v t = .ok .OK t' → ∃ l, t'.log = t.log ++ l ∧ .set .notEmpty ∈ l) ∧
    (∀ want r, receive P E want t = .ok (.OK, r) t' → ∃ l, t'.log = t.log ++ l ∧ .set .notFull ∈ l) :=
  ⟨fun _ hx => (Says.send t _ _ hx).imp fun _ h => ⟨h.1, h.2 rfl⟩, fun _ _ hx => (Says.receive t _ _ hx).imp fun _ h => ⟨h.1, h.2 rfl⟩⟩

/-- `send` that cannot lock: the error, and nothing else happens. -/
theorem C99_send_not_locked (P : Plat) (E : Env V) (v : V) (t : QSt V) (h : P t.log (.lock .send) ≠ .OK) :
    send P E v t = .ok (P t.log (.lock .send)) ⟨t.mem, t.log ++ [.lock .send (P t.log (.lock .send))]⟩ := send_unlocked h
/-- `send` with room: the message becomes the last one, or its copy threw, the result is OtherError and the queue is unchanged. -/
theorem C99_send_room (P : Plat) (E : Env V) (v : V) (h : Holds cap q t.mem) (hl : P t.log (.lock .send) = .OK) (hr : q.length < cap) :
    ∃ t', (E.thr t.mem.cnt = false → send P E v t = .ok .OK t' ∧ Holds cap (q ++ [v]) t'.mem) ∧
      (E.thr t.mem.cnt = true → send P E v t = .ok .OtherError t' ∧ Holds cap q t'.mem) := by
  rcases send_cases (E := E) (v := v) h hl with ⟨hf, _⟩ | ⟨_, l, hx⟩
  · omega
  · cases ht : E.thr t.mem.cnt <;> rw [ht] at hx
    · exact ⟨_, fun _ => ⟨hx, TD.Holds.pushed h hr⟩, fun hc => by cases hc⟩
    · exact ⟨_, fun hc => (by cases hc), fun _ => ⟨hx, TD.Holds.cnt h⟩⟩
/-- `send` on a full queue whose wait is not answered OK: that answer, and the queue is unchanged. -/
theorem C99_send_full (P : Plat) (E : Env V) (v : V) (h : Holds cap q t.mem) (hl : P t.log (.lock .send) = .OK) (hf : q.length = cap)
    (hw : ∀ l, P l (.wait .notFull) ≠ .OK) :
    ∃ l1 t', send P E v t = .ok (P (t.log ++ l1) (.wait .notFull)) t' ∧ t'.mem = t.mem := by
  rcases send_cases (E := E) (v := v) h hl with ⟨_, l1, l2, _, hx⟩ | ⟨hh, _⟩
  · exact ⟨l1, _, hx, rfl⟩
  · obtain ⟨l1, h1⟩ := hh hf; exact absurd h1 (hw _)
theorem C99_receive_not_locked (P : Plat) (E : Env V) (want : Bool) (t : QSt V) (h : P t.log (.lock .recv) ≠ .OK) :
    receive P E want t = .ok (P t.log (.lock .recv), none) ⟨t.mem, t.log ++ [.lock .recv (P t.log (.lock .recv))]⟩ := receive_unlocked h
/-- `receive` with a message: the oldest one is taken, and assigned to `*msg` unless `msg` is null; if that assignment throws, the result is
OtherError and the message stays. -/
theorem C99_receive_message (P : Plat) (E : Env V) (want : Bool) {x : V} (h : Holds cap (x :: q) t.mem) (hl : P t.log (.lock .recv) = .OK) :
    ∃ t', ((want && E.thr t.mem.cnt) = false → receive P E want t = .ok (.OK, if want then some x else none) t' ∧ Holds cap q t'.mem) ∧
      ((want && E.thr t.mem.cnt) = true → receive P E want t = .ok (.OtherError, none) t' ∧ Holds cap (x :: q) t'.mem) := by
  rcases receive_cases (E := E) (want := want) h hl with ⟨hf, _⟩ | ⟨hf, _⟩ | ⟨x', q', hq, l, hx⟩
  · cases hf
  · cases hf
  · cases hq
    cases ht : (want && E.thr t.mem.cnt) <;> rw [ht] at hx
    · exact ⟨_, fun _ => ⟨hx, TD.Holds.popped h⟩, fun hc => by cases hc⟩
    · exact ⟨_, fun hc => (by cases hc), fun _ => ⟨hx, TD.Holds.cnt h⟩⟩
theorem C99_receive_empty (P : Plat) (E : Env V) (want : Bool) (h : Holds cap ([] : List V) t.mem) (hl : P t.log (.lock .recv) = .OK)
    (hw : ∀ l, P l (.wait .notEmpty) ≠ .OK) :
    ∃ l1 t', receive P E want t = .ok (P (t.log ++ l1) (.wait .notEmpty), none) t' ∧ t'.mem = t.mem := by
  rcases receive_cases (E := E) (want := want) h hl with ⟨_, l1, l2, _, hx⟩ | ⟨_, ⟨l1, h1⟩, _⟩ | ⟨_, _, hq, _⟩
  · exact ⟨l1, _, hx, rfl⟩
  · exact absurd h1 (hw _)
  · cases hq
theorem C99_getSize (P : Plat) (h : Holds cap q t.mem) : ∃ t', getSize P t = .ok q.length t' ∧ t'.mem = t.mem := by
  obtain ⟨l, hl⟩ := getSize_run (P := P) (t := t) (TD.Holds.size' h)
  exact ⟨_, hl, rfl⟩

theorem step_explains {P : Plat} (hP : Truthful P) (E : Env V) (h : Holds cap q t.mem) (o : Op V) :
    ∃ r t' q', exec P E o t = .ok r t' ∧ Holds cap q' t'.mem ∧ ∀ hist q'', Explains q' hist q'' → Explains q ((o, r) :: hist) q'' := by
  cases o with
  | send v =>
    by_cases hl : P t.log (.lock .send) = .OK
    · by_cases hr : q.length < cap
      · obtain ⟨t', h1, h2⟩ := C99_send_room P E v h hl hr
        cases ht : E.thr t.mem.cnt
        · obtain ⟨hx, hh⟩ := h1 ht
          exact ⟨_, t', _, Cmd.bind_ok hx, hh, fun hist q'' he => by simpa [Explains] using he⟩
        · obtain ⟨hx, hh⟩ := h2 ht
          exact ⟨_, t', _, Cmd.bind_ok hx, hh, fun hist q'' he => by simpa [Explains] using he⟩
      · obtain ⟨l1, t', hx, hm⟩ := C99_send_full P E v h hl (by have := h.le; omega) (fun l => hP l _)
        have hne := hP (t.log ++ l1) .notFull
        exact ⟨_, t', q, Cmd.bind_ok hx, hm ▸ h, fun hist q'' he => by simpa [Explains, hne] using he⟩
    · exact ⟨_, _, q, Cmd.bind_ok (C99_send_not_locked P E v t hl), h, fun hist q'' he => by simpa [Explains, hl] using he⟩
  | receive want =>
    by_cases hl : P t.log (.lock .recv) = .OK
    · cases q with
      | nil =>
        obtain ⟨l1, t', hx, hm⟩ := C99_receive_empty P E want h hl (fun l => hP l _)
        have hne := hP (t.log ++ l1) .notEmpty
        exact ⟨_, t', [], Cmd.bind_ok hx, hm ▸ h, fun hist q'' he => by simpa [Explains, hne] using he⟩
      | cons x q' =>
        obtain ⟨t', h1, h2⟩ := C99_receive_message P E want h hl
        cases ht : (want && E.thr t.mem.cnt)
        · obtain ⟨hx, hh⟩ := h1 ht
          exact ⟨_, t', _, Cmd.bind_ok hx, hh, fun hist q'' he => by rw [Explains, if_pos rfl]; exact ⟨x, q', rfl, rfl, he⟩⟩
        · obtain ⟨hx, hh⟩ := h2 ht
          exact ⟨_, t', _, Cmd.bind_ok hx, hh, fun hist q'' he => by simpa [Explains] using he⟩
    · exact ⟨_, _, q, Cmd.bind_ok (C99_receive_not_locked P E want t hl), h, fun hist q'' he => by simpa [Explains, hl] using he⟩
  | getSize =>
    obtain ⟨t', hx, hm⟩ := C99_getSize P h
    exact ⟨_, t', q, Cmd.bind_ok hx, hm ▸ h, fun hist q'' he => by simpa [Explains] using he⟩

/-- C99 (partial: with doubles whose waits never say OK): every history of calls of one thread is free of undefined behaviour and is a history
of a bounded first-in first-out queue. -/
theorem C99_history_partial (P : Plat) (hP : Truthful P) (E : Env V) (os : List (Op V)) (h : Holds cap q t.mem) :
    ∃ t' rs q', run P E os t = some (t', rs) ∧ rs.length = os.length ∧ Holds cap q' t'.mem ∧ Explains q (os.zip rs) q' := by
  induction os generalizing q t with
  | nil => exact ⟨t, [], q, rfl, rfl, h, rfl⟩
  | cons o os ih =>
    obtain ⟨r, t1, q1, hx, h1, hex⟩ := step_explains hP E h o
    obtain ⟨t', rs, q', hr, hlen, hh, he⟩ := ih h1
    exact ⟨t', r :: rs, q', by rw [run, hx]; simp [hr], by simp [hlen], hh, hex _ _ he⟩

/-- C99 (partial: locks succeed and waits time out, as with `trySend` / `tryReceive` of one thread on any real platform): the exact results. -/
theorem C99_exact_partial (P : Plat) (hP : Ideal P) (E : Env V) (hnt : ∀ k, E.thr k = false) (os : List (Op V)) (h : Holds cap q t.mem) :
    ∃ t', run P E os t = some (t', (queueRun cap q os).2) ∧ Holds cap (queueRun cap q os).1 t'.mem := by
  induction os generalizing q t with
  | nil => exact ⟨t, rfl, h⟩
  | cons o os ih =>
    have key : ∃ t1, exec P E o t = .ok (queue cap q o).2 t1 ∧ Holds cap (queue cap q o).1 t1.mem := by
      cases o with
      | send v =>
        by_cases hr : q.length < cap
        · obtain ⟨t', h1, _⟩ := C99_send_room P E v h (hP.1 _ _) hr
          obtain ⟨hx, hh⟩ := h1 (hnt _)
          exact ⟨t', by rw [show (queue cap q (.send v)).2 = .err .OK by simp [queue, hr]]; exact Cmd.bind_ok hx, by simpa [queue, hr] using hh⟩
        · obtain ⟨l1, t', hx, hm⟩ := C99_send_full P E v h (hP.1 _ _) (by have := h.le; omega) (fun l => by rw [hP.2]; simp)
          rw [hP.2] at hx
          exact ⟨t', by rw [show (queue cap q (.send v)).2 = .err .TimedOut by simp [queue, hr]]; exact Cmd.bind_ok hx, by simpa [queue, hr, hm] using h⟩
      | receive want =>
        cases q with
        | nil =>
          obtain ⟨l1, t', hx, hm⟩ := C99_receive_empty P E want h (hP.1 _ _) (fun l => by rw [hP.2]; simp)
          rw [hP.2] at hx
          exact ⟨t', Cmd.bind_ok hx, by simpa [queue, hm] using h⟩
        | cons x q' =>
          obtain ⟨t', h1, _⟩ := C99_receive_message P E want h (hP.1 _ _)
          obtain ⟨hx, hh⟩ := h1 (by simp [hnt])
          exact ⟨t', Cmd.bind_ok hx, hh⟩
      | getSize =>
        obtain ⟨t', hx, hm⟩ := C99_getSize P h
        exact ⟨t', Cmd.bind_ok hx, by simpa [queue, hm] using h⟩
    obtain ⟨t1, hx, h1⟩ := key
    obtain ⟨t', hr, hh⟩ := ih h1
    exact ⟨t', by rw [run, hx]; simp [hr, queueRun], hh⟩

/-! ### The doubles as shipped -/

theorem send_live {E : Env V} {w : V} {m : St V} (hm : t.mem = m) (he : m.e < m.nbuf) (hl : (m.slot m.e).isSome = true) :
    send stub E w t = .ub .liveConstruct := by
  subst hm
  have hp : ∀ l, push stub E w (more t t.mem l) = .ub .liveConstruct := by
    intro l
    refine push_ub ?_
    show rbPush E w t.mem = _
    unfold rbPush; rw [gets_bind]
    refine Cmd.bind_ub ?_
    unfold construct; rw [if_neg (by omega)]
    cases hh : t.mem.slot t.mem.e with
    | none => rw [hh] at hl; cases hl
    | some x => rfl
  rw [send_locked rfl]
  refine guarded_ub ?_
  unfold sendBody
  obtain ⟨l, hf⟩ : ∃ l, isFull stub (more t t.mem [.lock .send .OK]) = .ok (rbFull t.mem) (more t t.mem l) := by
    obtain ⟨l, hl⟩ := isFull_any (P := stub) (t := more t t.mem [.lock .send .OK])
    exact ⟨_, by rw [hl, more_more]; rfl⟩
  rw [Cmd.bind_ok hf]
  have hc : ∀ l, (do let r ← catching (push stub E w); pure r.1 : Cmd (QSt V) Err) (more t t.mem l) = .ub .liveConstruct :=
    fun l => Cmd.bind_ub (by unfold catching; rw [hp])
  cases rbFull t.mem
  · simp only [Bool.false_eq_true, if_false]; rw [pure_bind']; exact hc _
  · simp only [if_true]; rw [Cmd.bind_ok wait_run, more_more]; exact hc _

/-- `send` on a full queue answers OK, and from then on `getSize` is 0 although `cap + 1` messages are stored; the next `send` constructs a
message on top of a living one. -/
theorem C99_stub_full (E : Env V) (v w : V) (h : Holds cap q t.mem) (hf : q.length = cap) (hnt : E.thr t.mem.cnt = false) :
    ∃ t', send stub E v t = .ok .OK t' ∧ (∃ t'', getSize stub t' = .ok 0 t'') ∧ (∀ i, i < cap + 1 → (t'.mem.slot i).isSome = true) ∧
      send stub E w t' = .ub .liveConstruct := by
  rcases send_cases (P := stub) (E := E) (v := v) h rfl with ⟨_, l1, l2, hw, _⟩ | ⟨_, l, hx⟩
  · exact absurd rfl hw
  · rw [hnt] at hx
    have hb := h.inb; have hbuf := h.buf
    have hring : (t.mem.e + 1) % (cap + 1) = t.mem.b := by
      rw [h.fin, hf, Nat.mod_add_mod, show t.mem.b + cap + 1 = t.mem.b + (cap + 1) by omega, Nat.add_mod_right, Nat.mod_eq_of_lt hb]
    have hlive : ∀ i, i < cap + 1 → (upd t.mem.slot t.mem.e (some v) i).isSome = true := by
      intro i hi
      by_cases hie : i = t.mem.e
      · subst hie; simp
      · rw [upd_ne _ _ hie]
        -- `i` is the slot of some logical position below `cap`
        obtain ⟨k, hk, hik⟩ : ∃ k, k ≤ cap ∧ i = (t.mem.b + k) % (cap + 1) := by
          by_cases hge : t.mem.b ≤ i
          · exact ⟨i - t.mem.b, by omega, by rw [show t.mem.b + (i - t.mem.b) = i by omega, Nat.mod_eq_of_lt hi]⟩
          · exact ⟨i + (cap + 1) - t.mem.b, by omega, by rw [show t.mem.b + (i + (cap + 1) - t.mem.b) = i + (cap + 1) by omega, Nat.add_mod_right, Nat.mod_eq_of_lt hi]⟩
        have hkc : k < cap := by
          rcases Nat.lt_or_ge k cap with h' | h'
          · exact h'
          · have : k = cap := by omega
            subst this; exact absurd (by rw [h.fin, hf]; exact hik) hie
        have := h.elems k hk
        unfold Deque.slotOf at this
        rw [hik, this]; simp; omega
    refine ⟨_, hx, ?_, hlive, ?_⟩
    · obtain ⟨l', hl'⟩ := getSize_run (P := stub) (n := 0)
        (t := more t { t.mem with slot := upd t.mem.slot t.mem.e (some v), cnt := t.mem.cnt + 1, e := (t.mem.e + 1) % (cap + 1) } l)
        (by simp [more, rbSize, hring])
      exact ⟨_, hl'⟩
    · refine send_live rfl ?_ ?_
      · show (t.mem.e + 1) % (cap + 1) < t.mem.nbuf
        rw [hbuf]; exact Nat.mod_lt _ (by omega)
      · exact hlive _ (Nat.mod_lt _ (by omega))

/-- `receive` on an empty queue reads (or destroys) an object that does not exist. -/
theorem C99_stub_empty (E : Env V) (want : Bool) (h : Holds cap ([] : List V) t.mem) :
    receive stub E want t = .ub (if want then .deadRead else .deadDestroy) := by
  rcases receive_cases (P := stub) (E := E) (want := want) h rfl with ⟨_, l1, _, hw, _⟩ | ⟨_, _, hx⟩ | ⟨_, _, hq, _⟩
  · exact absurd rfl hw
  · exact hx
  · cases hq

/-- Enough rounds for the loop of `destroyRunners`. -/
theorem destroyLoop_ideal {P : Plat} (hP : Ideal P) {E : Env V} (hnt : ∀ k, E.thr k = false) {fuel : Nat} (acc : List V) (hf : q.length + 1 < fuel)
    (h : Holds cap q t.mem) :
    ∃ t', Cmd.loop (fun (p : Bool × List V) (_ : QSt V) => p.1) (destroyStep P E) fuel (true, acc) t = .ok (false, acc ++ q) t' ∧ Holds cap [] t'.mem := by
  induction q generalizing fuel acc t with
  | nil =>
    obtain ⟨l1, t', hx, hm⟩ := C99_receive_empty P E true h (hP.1 _ _) (fun l => by rw [hP.2]; simp)
    rw [hP.2] at hx
    obtain ⟨f, rfl⟩ : ∃ f, fuel = f + 2 := ⟨fuel - 2, by simp at hf; omega⟩
    refine ⟨t', ?_, hm ▸ h⟩
    have hs : destroyStep P E (true, acc) t = .ok (false, acc) t' := by unfold destroyStep; rw [Cmd.bind_ok hx]; rfl
    rw [Cmd.loop]; simp only [if_true]
    rw [Cmd.bind_ok hs, Cmd.loop]; simp
  | cons x q' ih =>
    obtain ⟨t1, h1, _⟩ := C99_receive_message P E true h (hP.1 _ _)
    obtain ⟨hx, hh⟩ := h1 (by simp [hnt])
    obtain ⟨f, rfl⟩ : ∃ f, fuel = f + 1 := ⟨fuel - 1, by omega⟩
    have hs : destroyStep P E (true, acc) t = .ok (true, acc ++ [x]) t1 := by unfold destroyStep; rw [Cmd.bind_ok hx]; rfl
    obtain ⟨t', hr, hfin⟩ := ih (acc ++ [x]) (fuel := f) (by simp at hf; omega) hh
    refine ⟨t', ?_, hfin⟩
    rw [Cmd.loop]; simp only [if_true]
    rw [Cmd.bind_ok hs, hr]; simp
theorem destroyLoop_stub {E : Env V} (hnt : ∀ k, E.thr k = false) {fuel : Nat} (acc : List V) (hf : q.length < fuel) (h : Holds cap q t.mem) :
    Cmd.loop (fun (p : Bool × List V) (_ : QSt V) => p.1) (destroyStep stub E) fuel (true, acc) t = .ub .deadRead := by
  induction q generalizing fuel acc t with
  | nil =>
    obtain ⟨f, rfl⟩ : ∃ f, fuel = f + 1 := ⟨fuel - 1, by simp at hf; omega⟩
    rw [Cmd.loop]; simp only [if_true]
    exact Cmd.bind_ub (Cmd.bind_ub (C99_stub_empty E true h))
  | cons x q' ih =>
    obtain ⟨t1, h1, _⟩ := C99_receive_message stub E true h rfl
    obtain ⟨hx, hh⟩ := h1 (by simp [hnt])
    obtain ⟨f, rfl⟩ : ∃ f, fuel = f + 1 := ⟨fuel - 1, by omega⟩
    have hs : destroyStep stub E (true, acc) t = .ok (true, acc ++ [x]) t1 := by unfold destroyStep; rw [Cmd.bind_ok hx]; rfl
    rw [Cmd.loop]; simp only [if_true]
    rw [Cmd.bind_ok hs]; exact ih _ (by simp at hf; omega) hh
theorem sendAll_run {P : Plat} (hP : ∀ l m, P l (.lock m) = .OK) {E : Env V} (hnt : ∀ k, E.thr k = false) (vs : List V) (hl : q.length + vs.length ≤ cap)
    (h : Holds cap q t.mem) : ∃ t', sendAll P E vs t = .ok () t' ∧ Holds cap (q ++ vs) t'.mem := by
  induction vs generalizing q t with
  | nil => exact ⟨t, rfl, by simpa using h⟩
  | cons v vs ih =>
    simp at hl
    obtain ⟨t1, h1, _⟩ := C99_send_room P E v h (hP _ _) (by omega)
    obtain ⟨hx, hh⟩ := h1 (hnt _)
    obtain ⟨t', hr, hfin⟩ := ih (q := q ++ [v]) (by simp; omega) hh
    exact ⟨t', by rw [sendAll, Cmd.bind_ok hx]; exact hr, by simpa using hfin⟩

/-- What `create` and then `destroy` of a thread pool do with its runners: with waits that time out, every runner is taken exactly once, in the
order of creation, and the queue ends empty. -/
theorem C99_pool_destroy_partial (P : Plat) (hP : Ideal P) (E : Env V) (hnt : ∀ k, E.thr k = false) (runners : List V) (fuel : Nat)
    (hf : runners.length + 1 < fuel) :
    ∃ t1 t2, sendAll P E runners (QSt.fresh runners.length) = .ok () t1 ∧ destroyRunners P E fuel t1 = .ok runners t2 ∧
      Holds runners.length [] t2.mem := by
  obtain ⟨t1, h1, hh⟩ := sendAll_run (cap := runners.length) hP.1 hnt runners (q := []) (by simp) fresh_holds
  obtain ⟨t2, h2, he⟩ := destroyLoop_ideal hP hnt (fuel := fuel) [] (by simpa using hf) hh
  exact ⟨t1, t2, h1, by unfold destroyRunners; rw [Cmd.bind_ok h2]; simp; rfl, he⟩
/-- With the doubles as shipped it is undefined behaviour, for every number of runners: after the last one the loop goes on with a runner
pointer read from a slot that holds none. -/
theorem C99_pool_destroy_undefined (E : Env V) (hnt : ∀ k, E.thr k = false) (runners : List V) (fuel : Nat) (hf : runners.length < fuel) :
    ∃ t1, sendAll stub E runners (QSt.fresh runners.length) = .ok () t1 ∧ destroyRunners stub E fuel t1 = .ub .deadRead := by
  obtain ⟨t1, h1, hh⟩ := sendAll_run (cap := runners.length) (P := stub) (fun _ _ => rfl) hnt runners (q := []) (by simp) fresh_holds
  exact ⟨t1, h1, Cmd.bind_ub (destroyLoop_stub hnt [] (by simpa using hf) hh)⟩

/-! Non-vacuity: a queue of two with a double whose waits time out, a failed send and a failed receive included; and with the shipped double. -/
def polite : Plat := fun _ r => match r with | .lock _ => .OK | .wait _ => .TimedOut
def calm : Env Nat := { M := 2 ^ 32, dbg := true, thr := fun _ => false, junk := fun _ v => v, dflt := 0 }
example : Ideal polite ∧ Truthful polite := ⟨⟨fun _ _ => rfl, fun _ _ => rfl⟩, fun _ _ => by simp [polite]⟩
example : (run polite calm [.send 7, .send 8, .send 9, .getSize, .receive true, .receive false, .receive true, .getSize] (QSt.fresh 2)).map (·.2)
    = some [.err .OK, .err .OK, .err .TimedOut, .num 2, .got .OK (some 7), .got .OK none, .got .TimedOut none, .num 0] := by decide
example : Holds 2 ([] : List Nat) (QSt.fresh 2).mem := fresh_holds
example : (run stub calm [.send 7, .send 8, .send 9, .getSize] (QSt.fresh 2)).map (·.2) = some [.err .OK, .err .OK, .err .OK, .num 0] := by decide
example : (run stub calm [.send 7, .send 8, .send 9, .send 10] (QSt.fresh 2)).isNone = true := by decide

end Verif.Props.TestDouble
