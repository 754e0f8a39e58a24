import Verif.Model.ItronThreadTable
/-
C74: the ITRON thread factory's table, for every history of create, destroy, runs and getCurrentThread and every behaviour of the kernel
within its contract.
-/
namespace Verif.Props.ItronThreadTable
open Verif Verif.ITT
open _root_.Verif.Lts (Reach)
open _root_.Verif.TTab (Call Who live running)

variable {c : Cfg} {s s' : TSt} {tr : List Call}

abbrev Reachable (c : Cfg) (s : TSt) (tr : List Call) : Prop := Reach (step c) TSt.init s tr

def T (s : TSt) (o : Nat) : Nat := ((s.obj o).map (·.taskId)).getD 0
def F (s : TSt) (o : Nat) : Nat := ((s.obj o).map (·.evWait)).getD 0
def M (s : TSt) (o : Nat) : Nat := ((s.obj o).map (·.mtxId)).getD 0

def ourTsk (s : TSt) : List Nat := (s.tsk.filter (·.ours)).map (·.id)
def ourObj (l : List KObj) : List Nat := (l.filter (·.ours)).map (·.id)

structure Inv (c : Cfg) (s : TSt) (L R : List Nat) : Prop where
  blk : s.blk = L
  map : s.map = L.reverse.map fun o => (T s o, o)
  tsk : ourTsk s = L.map (T s)
  flg : ourObj s.flg = L.map (F s)
  mtx : ourObj s.mtx = L.map (M s)
  obj : ∀ o, (s.obj o).isSome = true ↔ o ∈ L
  nd : L.Nodup
  tnd : (s.tsk.map (·.id)).Nodup
  fnd : (s.flg.map (·.id)).Nodup
  mnd : (s.mtx.map (·.id)).Nodup
  pos : ∀ o ∈ L, 0 < T s o
  dorm : ∀ t ∈ s.tsk, t.job = .dormant → t.ours = true
  entry : ∀ t ∈ s.tsk, ∀ o, t.job = .entry o → t.ours = true ∧ o ∈ L ∧ T s o = t.id
  forgn : ∀ t ∈ s.tsk, t.job = .foreign → t.ours = false
  len : L.length ≤ c.N
  run : ∀ o, o ∈ R ↔ ∃ t ∈ s.tsk, t.job = .entry o

theorem Inv.init (c : Cfg) : Inv c TSt.init [] [] := by
  constructor <;> simp [TSt.init, ourTsk, ourObj]

theorem inj_of_nodup {α β : Type} {f : α → β} : ∀ {l : List α}, (l.map f).Nodup → ∀ {a b : α}, a ∈ l → b ∈ l → f a = f b → a = b
  | [], _, a, b, ha, _, _ => by simp at ha
  | x :: l, h, a, b, ha, hb, e => by
    simp only [List.map_cons, List.nodup_cons, List.mem_map, not_exists, not_and] at h
    simp only [List.mem_cons] at ha hb
    rcases ha with rfl | ha <;> rcases hb with rfl | hb
    · rfl
    · exact absurd e.symm (h.1 b hb)
    · exact absurd e (h.1 a ha)
    · exact inj_of_nodup h.2 ha hb e

theorem drop_map {L A : List Nat} {f : Nat → Nat} (h : A = L.map f) (hn : A.Nodup) {o : Nat} (ho : o ∈ L) :
    A.filter (· ≠ f o) = (L.filter (· ≠ o)).map f := by
  subst h
  rw [List.filter_map]
  congr 1
  apply List.filter_congr
  intro a ha
  have : f a = f o → a = o := by
    intro e; exact inj_of_nodup hn ha ho e
  by_cases e : a = o
  · simp [e]
  · have : f a ≠ f o := fun h => e (this h)
    simp [this, e]

theorem nodup_sub {l : List Task} (h : (l.map (·.id)).Nodup) (p : Task → Bool) : ((l.filter p).map (·.id)).Nodup :=
  h.sublist (List.Sublist.map _ List.filter_sublist)
theorem nodup_subK {l : List KObj} (h : (l.map (·.id)).Nodup) (p : KObj → Bool) : ((l.filter p).map (·.id)).Nodup :=
  h.sublist (List.Sublist.map _ List.filter_sublist)

theorem id_inj {l : List Task} (h : (l.map (·.id)).Nodup) {a b : Task} (ha : a ∈ l) (hb : b ∈ l) (e : a.id = b.id) : a = b :=
  inj_of_nodup h ha hb e

theorem find_eq {m : List (Nat × Nat)} {L : List Nat} {f : Nat → Nat} (h : m = L.map fun o => (f o, o)) (tid : Nat) :
    find m tid = L.find? fun o => f o == tid := by
  subst h
  simp only [find, List.find?_map, Option.map_map]
  generalize hq : L.find? _ = q
  have : L.find? (fun o => f o == tid) = q := by rw [← hq]; rfl
  rw [this]; cases q <;> rfl

theorem Inv.T_inj {L R} (h : Inv c s L R) {a b : Nat} (ha : a ∈ L) (hb : b ∈ L) (e : T s a = T s b) : a = b := by
  have hn : (ourTsk s).Nodup := nodup_sub h.tnd _
  rw [h.tsk] at hn
  exact inj_of_nodup hn ha hb e

/-- The entry of a thread object is found. -/
theorem Inv.find_mem {L R} (h : Inv c s L R) {o : Nat} (ho : o ∈ L) : find s.map (T s o) = some o := by
  rw [find_eq h.map]
  cases hq : L.reverse.find? (fun o' => T s o' == T s o) with
  | none =>
    rw [List.find?_eq_none] at hq
    exact absurd (by simp) (hq o (by simpa using ho))
  | some o' =>
    have h1 := List.find?_some hq
    have h2 := List.mem_of_find?_eq_some hq
    have := h.T_inj (by simpa using h2) ho (by simpa using h1)
    rw [this]

theorem Inv.find_not {L R} (h : Inv c s L R) {tid : Nat} (ht : ∀ o ∈ L, T s o ≠ tid) : find s.map tid = none := by
  rw [find_eq h.map, List.find?_eq_none]
  intro o ho
  simpa using ht o (by simpa using ho)

theorem fresh_iff {l : List KObj} {id : Nat} : fresh l id = true ↔ 0 < id ∧ id ∉ l.map (·.id) := by
  simp only [fresh, Bool.and_eq_true, decide_eq_true_eq, List.all_eq_true, bne_iff_ne, List.mem_map, not_exists, not_and]
theorem freshTsk_iff {id : Nat} : freshTsk s id = true ↔ 0 < id ∧ id ∉ s.tsk.map (·.id) := by
  simp only [freshTsk, Bool.and_eq_true, decide_eq_true_eq, List.all_eq_true, bne_iff_ne, List.mem_map, not_exists, not_and]

theorem filter_fresh {l : List KObj} {id : Nat} (h : id ∉ l.map (·.id)) : l.filter (fun x => x.id ≠ id) = l := by
  rw [List.filter_eq_self]
  intro a ha
  simp only [ne_eq, decide_not, Bool.not_eq_eq_eq_not, Bool.not_true, decide_eq_false_iff_not]
  intro e; exact h (by rw [← e]; exact List.mem_map_of_mem ha)
theorem filter_freshT {l : List Task} {id : Nat} (h : id ∉ l.map (·.id)) : l.filter (fun x => ¬ (x.id = id ∧ x.job = .dormant)) = l := by
  rw [List.filter_eq_self]
  intro a ha
  simp only [decide_eq_true_eq, not_and]
  intro e; exact absurd (by rw [← e]; exact List.mem_map_of_mem ha) h

/-- A constructor that does not get all three kernel objects leaves the kernel as it was. -/
theorem ctor_fail {a : Ans} {x : Obj} (h : ctor s a = some (s', x)) (hx : ¬ 0 < x.taskId) : s' = s ∧ x = ⟨0, 0, 0⟩ ∧ (a.tsk = none ∨ a.flg = none ∨ a.mtx = none) := by
  obtain ⟨b, t, f, m⟩ := a
  cases t with
  | none => simp [ctor] at h; obtain ⟨rfl, rfl⟩ := h; simp
  | some t =>
    simp only [ctor, Option.ite_none_right_eq_some] at h
    obtain ⟨ht, h⟩ := h
    rw [freshTsk_iff] at ht
    have h1 := filter_freshT ht.2
    cases f with
    | none =>
      simp only [Option.some.injEq, Prod.mk.injEq] at h
      obtain ⟨rfl, rfl⟩ := h
      refine ⟨?_, rfl, by simp⟩
      simp only [ITT.delTsk]
      rw [List.filter_cons_of_neg (by simp), h1]
    | some f =>
      simp only [Option.ite_none_right_eq_some] at h
      obtain ⟨hf, h⟩ := h
      rw [fresh_iff] at hf
      have h2 := filter_fresh hf.2
      cases m with
      | none =>
        simp only [Option.some.injEq, Prod.mk.injEq] at h
        obtain ⟨rfl, rfl⟩ := h
        refine ⟨?_, rfl, by simp⟩
        simp only [ITT.delTsk, ITT.delFlg]
        rw [List.filter_cons_of_neg (by simp), List.filter_cons_of_neg (by simp), h1, h2]
      | some m =>
        simp only [Option.ite_none_right_eq_some, Option.some.injEq, Prod.mk.injEq] at h
        obtain ⟨_, rfl, rfl⟩ := h
        exact absurd ht.1 hx

theorem ctor_ok {a : Ans} {x : Obj} (h : ctor s a = some (s', x)) (hx : 0 < x.taskId) :
    s' = { s with tsk := ⟨x.taskId, true, .dormant⟩ :: s.tsk, flg := ⟨x.evWait, true⟩ :: s.flg, mtx := ⟨x.mtxId, true⟩ :: s.mtx } ∧
    x.taskId ∉ s.tsk.map (·.id) ∧ x.evWait ∉ s.flg.map (·.id) ∧ x.mtxId ∉ s.mtx.map (·.id) := by
  obtain ⟨b, t, f, m⟩ := a
  cases t with
  | none => simp [ctor] at h; obtain ⟨rfl, rfl⟩ := h; simp at hx
  | some t =>
    simp only [ctor, Option.ite_none_right_eq_some] at h
    obtain ⟨ht, h⟩ := h
    rw [freshTsk_iff] at ht
    cases f with
    | none =>
      simp only [Option.some.injEq, Prod.mk.injEq] at h
      obtain ⟨rfl, rfl⟩ := h
      simp at hx
    | some f =>
      simp only [Option.ite_none_right_eq_some] at h
      obtain ⟨hf, h⟩ := h
      rw [fresh_iff] at hf
      cases m with
      | none =>
        simp only [Option.some.injEq, Prod.mk.injEq] at h
        obtain ⟨rfl, rfl⟩ := h
        simp at hx
      | some m =>
        simp only [Option.ite_none_right_eq_some, Option.some.injEq, Prod.mk.injEq] at h
        obtain ⟨hm, rfl, rfl⟩ := h
        rw [fresh_iff] at hm
        exact ⟨rfl, ht.2, hf.2, hm.2⟩

/-- The lists of live and running threads after one more event. -/
def nextL (L : List Nat) : Call → List Nat
  | .create (some o) => o :: L
  | .destroy o => L.filter (· ≠ o)
  | _ => L
def nextR (R : List Nat) : Call → List Nat
  | .begins o => o :: R
  | .ends o => R.filter (· ≠ o)
  | _ => R

theorem live_append (tr ev : List Call) : live (tr ++ ev) = ev.foldl nextL (live tr) := by
  simp only [live, List.foldl_append]
  generalize List.foldl _ [] tr = l
  induction ev generalizing l with
  | nil => rfl
  | cons e ev ih =>
    simp only [List.foldl_cons]
    rw [← ih]
    congr 1

theorem running_append (tr ev : List Call) : running (tr ++ ev) = ev.foldl nextR (running tr) := by
  simp only [running, List.foldl_append]
  generalize List.foldl _ [] tr = l
  induction ev generalizing l with
  | nil => rfl
  | cons e ev ih =>
    simp only [List.foldl_cons]
    rw [← ih]
    congr 1

theorem map_congr' {L : List Nat} {f g : Nat → Nat} (h : ∀ o ∈ L, f o = g o) : L.map f = L.map g := List.map_congr_left h

theorem ours_cons {l : List KObj} {id : Nat} : ourObj (⟨id, true⟩ :: l) = id :: ourObj l := by simp [ourObj]
theorem ours_consF {l : List KObj} {id : Nat} : ourObj (⟨id, false⟩ :: l) = ourObj l := by simp [ourObj]

theorem Inv.created {L R} (h : Inv c s L R) {p : Nat} {x : Obj} (hp : p ∉ L) (hl : L.length < c.N) (hx : 0 < x.taskId)
    (h1 : x.taskId ∉ s.tsk.map (·.id)) (h2 : x.evWait ∉ s.flg.map (·.id)) (h3 : x.mtxId ∉ s.mtx.map (·.id)) :
    Inv c { s with blk := p :: s.blk, tsk := ⟨x.taskId, true, .dormant⟩ :: s.tsk, flg := ⟨x.evWait, true⟩ :: s.flg, mtx := ⟨x.mtxId, true⟩ :: s.mtx,
                   obj := put s.obj p (some x), map := s.map ++ [(x.taskId, p)] } (p :: L) R := by
  have hne : ∀ o ∈ L, o ≠ p := fun o ho e => hp (e ▸ ho)
  have ho : ∀ o ∈ L, put s.obj p (some x) o = s.obj o := fun o ho => by simp [put, hne o ho]
  have hT : ∀ {f : Obj → Nat}, L.map (fun o => ((put s.obj p (some x) o).map f).getD 0) = L.map (fun o => ((s.obj o).map f).getD 0) := by
    intro f; apply List.map_congr_left; intro o h; simp only [ho o h]
  constructor
  · simp [h.blk]
  · simp only [List.reverse_cons, List.map_append, h.map]
    congr 1
    · apply List.map_congr_left; intro o h'; simp only [T]; rw [ho o (by simpa using h')]
    · simp [T, put]
  · simp only [ourTsk, List.filter_cons, if_true, List.map_cons]
    congr 1
    · simp [T, put]
    · exact h.tsk.trans hT.symm
  · rw [ours_cons, List.map_cons]
    congr 1
    · simp [F, put]
    · exact h.flg.trans hT.symm
  · rw [ours_cons, List.map_cons]
    congr 1
    · simp [M, put]
    · exact h.mtx.trans hT.symm
  · intro o
    by_cases e : o = p
    · simp [put, e]
    · simp [put, e, h.obj o]
  · exact List.nodup_cons.2 ⟨hp, h.nd⟩
  · simpa using ⟨by simpa using h1, h.tnd⟩
  · simpa using ⟨by simpa using h2, h.fnd⟩
  · simpa using ⟨by simpa using h3, h.mnd⟩
  · intro o hoL
    simp only [List.mem_cons] at hoL
    rcases hoL with rfl | hoL
    · simpa [T, put] using hx
    · have := h.pos o hoL; simpa [T, ho o hoL] using this
  · intro t ht hj
    simp only [List.mem_cons] at ht
    rcases ht with rfl | ht
    · rfl
    · exact h.dorm t ht hj
  · intro t ht o hj
    simp only [List.mem_cons] at ht
    rcases ht with rfl | ht
    · simp at hj
    · obtain ⟨a, b, d⟩ := h.entry t ht o hj
      exact ⟨a, by simp [b], by simpa [T, ho o b] using d⟩
  · intro t ht hj
    simp only [List.mem_cons] at ht
    rcases ht with rfl | ht
    · simp at hj
    · exact h.forgn t ht hj
  · simp; omega
  · intro o
    rw [h.run o]
    simp

theorem eraseId_eq {m : List (Nat × Nat)} {tid : Nat} (h : (m.map (·.1)).Nodup) : eraseId m tid = m.filter fun e => e.1 ≠ tid := by
  unfold eraseId
  induction m with
  | nil => rfl
  | cons e m ih =>
    simp only [List.map_cons, List.nodup_cons] at h
    by_cases he : e.1 = tid
    · rw [List.eraseP_cons_of_pos (by simpa using he), List.filter_cons_of_neg (by simpa using he)]
      symm
      rw [List.filter_eq_self]
      intro a ha
      have : a.1 ≠ tid := by
        intro e'
        exact h.1 (by rw [he, ← e']; exact List.mem_map_of_mem ha)
      simpa using this
    · rw [List.eraseP_cons_of_neg (by simpa using he), List.filter_cons_of_pos (by simpa using he), ih h.2]

theorem ours_filter (l : List KObj) (p : Nat → Bool) : ourObj (l.filter (fun x => p x.id)) = (ourObj l).filter p := by
  simp only [ourObj, List.filter_map, List.filter_filter]
  congr 1
  apply List.filter_congr
  intro a _
  simp [Bool.and_comm]

theorem ours_filterF (l : List KObj) (id : Nat) : ourObj (l.filter (fun x => ¬ (x.id = id ∧ x.ours = false))) = ourObj l := by
  induction l with
  | nil => rfl
  | cons a l ih =>
    simp only [ourObj, List.filter_cons] at *
    cases ha : a.ours <;> by_cases hp : a.id = id <;> simp_all

theorem Inv.destroyed {L R} (h : Inv c s L R) {o : Nat} {x : Obj} (ho : s.obj o = some x) (hd : ∃ t ∈ s.tsk, t.id = x.taskId ∧ t.job = .dormant) :
    Inv c (relBlk (dtor { s with map := eraseId s.map x.taskId } x) o) (L.filter (· ≠ o)) R := by
  have hoL : o ∈ L := (h.obj o).1 (by simp [ho])
  have eT : T s o = x.taskId := by simp [T, ho]
  have eF : F s o = x.evWait := by simp [F, ho]
  have eM : M s o = x.mtxId := by simp [M, ho]
  have hpos : 0 < x.taskId := eT ▸ h.pos o hoL
  have ht0 : (ourTsk s).Nodup := nodup_sub h.tnd _
  have hf0 : (ourObj s.flg).Nodup := nodup_subK h.fnd _
  have hm0 : (ourObj s.mtx).Nodup := nodup_subK h.mnd _
  have hk : ∀ {f : Obj → Nat}, (L.filter (· ≠ o)).map (fun o' => ((put s.obj o none o').map f).getD 0) = (L.filter (· ≠ o)).map (fun o => ((s.obj o).map f).getD 0) := by
    intro f; apply List.map_congr_left; intro o' h'
    have : o' ≠ o := by simpa using (List.mem_filter.1 h').2
    simp [put, this]
  have hTo : ∀ o' ∈ L, o' ≠ o → T s o' ≠ x.taskId := fun o' h1 h2 e => h2 (h.T_inj h1 hoL (by rw [e, eT]))
  obtain ⟨t0, ht0m, ht0i, ht0j⟩ := hd
  have hids : ∀ t ∈ s.tsk, (t.id = x.taskId ∧ t.job = .dormant) ↔ t.id = x.taskId := by
    intro t ht
    constructor
    · exact fun h => h.1
    · intro e
      have := id_inj h.tnd ht ht0m (e.trans ht0i.symm)
      subst this; exact ⟨e, ht0j⟩
  simp only [relBlk, dtor, hpos, if_true, ITT.delTsk, ITT.delFlg, ITT.delMtx]
  have htk : s.tsk.filter (fun t => ¬ (t.id = x.taskId ∧ t.job = .dormant)) = s.tsk.filter (fun t => t.id ≠ x.taskId) := by
    apply List.filter_congr
    intro t ht
    have := hids t ht
    by_cases e : t.id = x.taskId <;> simp_all
  rw [htk]
  constructor
  · simp only [h.blk]
  · have hn : (s.map.map (·.1)).Nodup := by
      rw [h.map, List.map_map]
      have := ht0
      rw [h.tsk, ← (List.reverse_perm _).nodup_iff, ← List.map_reverse] at this
      exact this
    rw [eraseId_eq hn, h.map, List.filter_map, ← List.filter_reverse]
    have e1 : List.filter ((fun e => decide (e.fst ≠ x.taskId)) ∘ fun o => (T s o, o)) L.reverse = List.filter (· ≠ o) L.reverse := by
      apply List.filter_congr
      intro o' h'
      by_cases e : o' = o
      · simp [e, eT]
      · have := hTo o' (by simpa using h') e
        simp [e, this]
    rw [e1]
    apply List.map_congr_left
    intro o' h'
    have : o' ≠ o := by simpa using (List.mem_filter.1 h').2
    simp [T, put, this]
  · have e1 : ourTsk { s with tsk := s.tsk.filter (fun t => t.id ≠ x.taskId) } = (ourTsk s).filter (· ≠ T s o) := by
      rw [eT]
      simp only [ourTsk]
      generalize s.tsk = l
      induction l with
      | nil => rfl
      | cons a l ih =>
        simp only [List.filter_cons] at *
        cases ha : a.ours <;> by_cases hp : a.id = x.taskId <;> simp_all
    have := e1.trans (drop_map h.tsk ht0 hoL)
    exact this.trans hk.symm
  · have := (ours_filter s.flg (· ≠ x.evWait)).trans (eF ▸ drop_map h.flg hf0 hoL)
    exact this.trans hk.symm
  · have := (ours_filter s.mtx (· ≠ x.mtxId)).trans (eM ▸ drop_map h.mtx hm0 hoL)
    exact this.trans hk.symm
  · intro o'
    by_cases e : o' = o
    · simp [put, e]
    · simp [put, e, h.obj o']
  · exact h.nd.filter _
  · exact nodup_sub h.tnd _
  · exact nodup_subK h.fnd _
  · exact nodup_subK h.mnd _
  · intro o' h'
    have h2 := List.mem_filter.1 h'
    have : o' ≠ o := by simpa using h2.2
    simpa [T, put, this] using h.pos o' h2.1
  · intro t ht hj; exact h.dorm t ((List.mem_filter.1 ht).1) hj
  · intro t ht o' hj
    obtain ⟨a, b, d⟩ := h.entry t ((List.mem_filter.1 ht).1) o' hj
    have hne : o' ≠ o := by
      rintro rfl
      have : t.id = x.taskId := by rw [← d, eT]
      have h3 := (List.mem_filter.1 ht).2
      simp [this] at h3
    refine ⟨a, by simp [b, hne], ?_⟩
    simpa [T, put, hne] using d
  · intro t ht hj; exact h.forgn t ((List.mem_filter.1 ht).1) hj
  · exact Nat.le_trans (List.length_filter_le _ _) h.len
  · intro o'
    rw [h.run o']
    constructor
    · rintro ⟨t, ht, hj⟩
      refine ⟨t, ?_, hj⟩
      simp only [List.mem_filter, ht, true_and, decide_eq_true_eq]
      intro e
      have := ((hids t ht).2 e).2
      rw [this] at hj; simp at hj
    · rintro ⟨t, ht, hj⟩
      exact ⟨t, (List.mem_filter.1 ht).1, hj⟩

theorem find_task {l : List Task} {tid : Nat} {t : Task} (h : l.find? (fun t => t.id == tid) = some t) : t ∈ l ∧ t.id = tid :=
  ⟨List.mem_of_find?_eq_some h, by simpa using List.find?_some h⟩

theorem any_dorm {l : List Task} {tid : Nat} (h : l.any (fun t => t.id == tid && t.job == .dormant) = true) : ∃ t ∈ l, t.id = tid ∧ t.job = .dormant := by
  simpa [List.any_eq_true] using h

/-- Only the job of one of the factory's tasks changes. -/
theorem Inv.job {L R R'} (h : Inv c s L R) {tid : Nat} {j : Job}
    (ho : ∀ t ∈ s.tsk, t.id = tid → t.ours = true) (hj : j ≠ .foreign) (he : ∀ o, j = .entry o → o ∈ L ∧ T s o = tid)
    (hr : ∀ o, o ∈ R' ↔ ∃ t ∈ s.tsk.map (fun t => if t.id = tid then { t with job := j } else t), t.job = .entry o) :
    Inv c { s with tsk := s.tsk.map fun t => if t.id = tid then { t with job := j } else t } L R' := by
  have hid : (s.tsk.map (fun t => if t.id = tid then { t with job := j } else t)).map (·.id) = s.tsk.map (·.id) := by
    rw [List.map_map]; apply List.map_congr_left; intro t _; simp only [Function.comp]; split <;> rfl
  have hou : ourTsk { s with tsk := s.tsk.map fun t => if t.id = tid then { t with job := j } else t } = ourTsk s := by
    simp only [ourTsk]
    generalize s.tsk = l
    induction l with
    | nil => rfl
    | cons a l ih =>
      simp only [List.map_cons, List.filter_cons]
      by_cases e : a.id = tid <;> cases ha : a.ours <;> simp [e, ha] <;> simpa using ih
  have hmem : ∀ t ∈ s.tsk.map (fun t => if t.id = tid then { t with job := j } else t),
      (∃ t' ∈ s.tsk, t'.id = tid ∧ t = { t' with job := j }) ∨ (t ∈ s.tsk ∧ t.id ≠ tid) := by
    intro t ht
    obtain ⟨t', h1, h2⟩ := List.mem_map.1 ht
    by_cases e : t'.id = tid
    · left; exact ⟨t', h1, e, by rw [if_pos e] at h2; exact h2.symm⟩
    · right; rw [if_neg e] at h2; subst h2; exact ⟨h1, e⟩
  refine ⟨h.blk, h.map, hou.trans h.tsk, h.flg, h.mtx, h.obj, h.nd, ?_, h.fnd, h.mnd, h.pos, ?_, ?_, ?_, h.len, hr⟩
  · simp only; rw [hid]; exact h.tnd
  · intro t ht hd
    rcases hmem t ht with ⟨t', h1, h2, rfl⟩ | ⟨h1, h2⟩
    · exact ho t' h1 h2
    · exact h.dorm t h1 hd
  · intro t ht o hd
    rcases hmem t ht with ⟨t', h1, h2, rfl⟩ | ⟨h1, h2⟩
    · obtain ⟨a, b⟩ := he o hd
      exact ⟨ho t' h1 h2, a, b.trans h2.symm⟩
    · exact h.entry t h1 o hd
  · intro t ht hd
    rcases hmem t ht with ⟨t', h1, h2, rfl⟩ | ⟨h1, h2⟩
    · exact absurd hd hj
    · exact h.forgn t h1 hd

theorem roll {L R} (h : Inv c s L R) {p : Nat} (hb : p ∉ s.blk) : relBlk (dtor { s with blk := p :: s.blk } ⟨0, 0, 0⟩) p = s := by
  have hbl : List.filter (· ≠ p) (p :: s.blk) = s.blk := by
    rw [List.filter_cons_of_neg (by simp), List.filter_eq_self]
    intro a ha
    have : a ≠ p := fun e => hb (e ▸ ha)
    simpa using this
  have hob : put s.obj p none = s.obj := by
    funext o
    simp only [put]
    split
    · next e =>
      subst e
      have : ¬ (s.obj o).isSome = true := by rw [h.obj o, ← h.blk]; exact hb
      cases hq : s.obj o <;> simp_all
    · rfl
  simp only [relBlk, dtor]
  rw [if_neg (by simp)]
  simp only [hbl, hob]

theorem setJob {l : List Task} {tid : Nat} {j : Job} (h : ∀ t ∈ l, t.id = tid → t.ours = true) :
    (l.map fun t => if t.id = tid then { t with job := j } else t).filter (fun t => t.ours = false) = l.filter (fun t => t.ours = false) := by
  induction l with
  | nil => rfl
  | cons a l ih =>
    have ih := ih fun t ht => h t (by simp [ht])
    by_cases e : a.id = tid
    · have := h a (by simp) e
      simp only [List.map_cons, e, if_true, List.filter_cons, this]
      simpa using ih
    · simp only [List.map_cons, e, if_false, List.filter_cons, ih]

theorem ctor_got {a : Ans} {x : Obj} (h : ctor s a = some (s', x)) (hx : 0 < x.taskId) : a.tsk.isSome ∧ a.flg.isSome ∧ a.mtx.isSome := by
  obtain ⟨b, t, f, m⟩ := a
  cases t <;> cases f <;> cases m <;> simp [ctor] at h <;> first | (simp; done) | (obtain ⟨_, rfl⟩ := h; simp at hx; done) | (obtain ⟨_, _, rfl⟩ := h; simp at hx; done) | (obtain ⟨_, _, _, rfl⟩ := h; simp at hx)

theorem Inv.step {L R} (h : Inv c s L R) {a : Act} {ev : List Call} (hs : step c s a = some (s', ev)) :
    Inv c s' (ev.foldl nextL L) (ev.foldl nextR R) := by
  cases a with
  | create a =>
    simp only [ITT.step] at hs
    split at hs
    · simp at hs; obtain ⟨rfl, rfl⟩ := hs; exact h
    · split at hs
      · simp at hs; obtain ⟨rfl, rfl⟩ := hs; exact h
      · next hfull =>
        split at hs
        · split at hs
          · simp at hs; obtain ⟨rfl, rfl⟩ := hs; exact h
          · simp at hs
        · next p hp =>
          split at hs
          · next hb =>
            split at hs
            · simp at hs
            · next s1 x hc =>
              have hlen : L.length < c.N := by rw [← h.blk]; exact hb.2.2
              split at hs
              · next hx =>
                obtain ⟨rfl, h1, h2, h3⟩ := ctor_ok hc hx
                simp only [Option.some.injEq, Prod.mk.injEq] at hs
                obtain ⟨rfl, rfl⟩ := hs
                exact h.created (h.blk ▸ hb.2.1) hlen hx h1 h2 h3
              · next hx =>
                obtain ⟨rfl, rfl, _⟩ := ctor_fail hc hx
                simp only [Option.some.injEq, Prod.mk.injEq] at hs
                obtain ⟨rfl, rfl⟩ := hs
                rw [roll h hb.2.1]; exact h
          · simp at hs
  | destroy o =>
    simp only [ITT.step] at hs
    split at hs
    · simp at hs
    · next x hx =>
      split at hs
      · next hd =>
        simp only [Option.some.injEq, Prod.mk.injEq] at hs
        obtain ⟨rfl, rfl⟩ := hs
        exact h.destroyed hx (any_dorm hd)
      · simp at hs
  | start o =>
    simp only [ITT.step] at hs
    split at hs
    · simp at hs
    · next x hx =>
      split at hs
      · next hd =>
        simp only [Option.some.injEq, Prod.mk.injEq] at hs
        obtain ⟨rfl, rfl⟩ := hs
        obtain ⟨t0, h1, h2, h3⟩ := any_dorm hd
        have hoL : o ∈ L := (h.obj o).1 (by simp [hx])
        have eT : T s o = x.taskId := by simp [T, hx]
        apply h.job
        · intro t ht e
          have := id_inj h.tnd ht h1 (e.trans h2.symm)
          subst this; exact h.dorm t ht h3
        · simp
        · intro o' e; simp at e; subst e; exact ⟨hoL, eT⟩
        · intro o'
          simp only [List.foldl_cons, List.foldl_nil, nextR, List.mem_cons, h.run o']
          constructor
          · rintro (rfl | ⟨t, ht, hj⟩)
            · exact ⟨_, List.mem_map_of_mem h1, by simp [h2]⟩
            · refine ⟨_, List.mem_map_of_mem ht, ?_⟩
              have : t.id ≠ x.taskId := by
                intro e
                have := id_inj h.tnd ht h1 (e.trans h2.symm)
                subst this; rw [h3] at hj; simp at hj
              simp [this, hj]
          · rintro ⟨t, ht, hj⟩
            obtain ⟨t', h4, h5⟩ := List.mem_map.1 ht
            by_cases e : t'.id = x.taskId
            · rw [if_pos e] at h5; subst h5; simp at hj; exact Or.inl hj.symm
            · rw [if_neg e] at h5; subst h5; exact Or.inr ⟨t', h4, hj⟩
      · simp at hs
  | finish tid =>
    simp only [ITT.step] at hs
    split at hs
    · next i ou o hf =>
      simp only [Option.some.injEq, Prod.mk.injEq] at hs
      obtain ⟨rfl, rfl⟩ := hs
      obtain ⟨h1, h2⟩ := find_task hf
      obtain ⟨h4, h5, h6⟩ := h.entry _ h1 o rfl
      have hu : ∀ t ∈ s.tsk, t.id = tid → t = ⟨i, ou, .entry o⟩ := fun t ht e => id_inj h.tnd ht h1 (e.trans h2.symm)
      apply h.job
      · intro t ht e; rw [hu t ht e]; exact h4
      · simp
      · intro o' e; simp at e
      · intro o'
        simp only [List.foldl_cons, List.foldl_nil, nextR, List.mem_filter, h.run o', ne_eq, decide_not, Bool.not_eq_eq_eq_not, Bool.not_true, decide_eq_false_iff_not]
        constructor
        · rintro ⟨⟨t, ht, hj⟩, hne⟩
          refine ⟨_, List.mem_map_of_mem ht, ?_⟩
          have : t.id ≠ tid := by
            intro e
            rw [hu t ht e] at hj; simp at hj; exact hne hj.symm
          simp [this, hj]
        · rintro ⟨t, ht, hj⟩
          obtain ⟨t', h7, h8⟩ := List.mem_map.1 ht
          by_cases e : t'.id = tid
          · rw [if_pos e] at h8; subst h8; simp at hj
          · rw [if_neg e] at h8; subst h8
            refine ⟨⟨t', h7, hj⟩, ?_⟩
            rintro rfl
            have := h.entry t' h7 o' hj
            simp only at h2 h6
            exact e (by rw [← this.2.2, h6, h2])
    · simp at hs
  | current tid =>
    cases tid with
    | none => simp [ITT.step] at hs; obtain ⟨rfl, rfl⟩ := hs; exact h
    | some tid =>
      simp only [ITT.step] at hs
      split at hs
      · simp at hs
      · split at hs
        · simp at hs
        · simp at hs; obtain ⟨rfl, rfl⟩ := hs; exact h
  | newTsk id =>
    simp only [ITT.step, Option.ite_none_right_eq_some, Option.some.injEq, Prod.mk.injEq, freshTsk_iff] at hs
    obtain ⟨hf, rfl, rfl⟩ := hs
    refine ⟨h.blk, h.map, ?_, h.flg, h.mtx, h.obj, h.nd, ?_, h.fnd, h.mnd, h.pos, ?_, ?_, ?_, h.len, ?_⟩
    · exact h.tsk
    · simpa using ⟨by simpa using hf.2, h.tnd⟩
    · intro t ht hj
      rcases List.mem_cons.1 ht with rfl | ht
      · simp at hj
      · exact h.dorm t ht hj
    · intro t ht o hj
      rcases List.mem_cons.1 ht with rfl | ht
      · simp at hj
      · exact h.entry t ht o hj
    · intro t ht hj
      rcases List.mem_cons.1 ht with rfl | ht
      · rfl
      · exact h.forgn t ht hj
    · intro o; simp [h.run o]
  | newFlg id =>
    simp only [ITT.step, Option.ite_none_right_eq_some, Option.some.injEq, Prod.mk.injEq, fresh_iff] at hs
    obtain ⟨hf, rfl, rfl⟩ := hs
    exact ⟨h.blk, h.map, h.tsk, h.flg, h.mtx, h.obj, h.nd, h.tnd, by simpa using ⟨by simpa using hf.2, h.fnd⟩, h.mnd, h.pos, h.dorm, h.entry, h.forgn, h.len, h.run⟩
  | newMtx id =>
    simp only [ITT.step, Option.ite_none_right_eq_some, Option.some.injEq, Prod.mk.injEq, fresh_iff] at hs
    obtain ⟨hf, rfl, rfl⟩ := hs
    exact ⟨h.blk, h.map, h.tsk, h.flg, h.mtx, h.obj, h.nd, h.tnd, h.fnd, by simpa using ⟨by simpa using hf.2, h.mnd⟩, h.pos, h.dorm, h.entry, h.forgn, h.len, h.run⟩
  | delTsk id =>
    simp only [ITT.step, Option.some.injEq, Prod.mk.injEq] at hs
    obtain ⟨rfl, rfl⟩ := hs
    have hk : ∀ t ∈ s.tsk, t.ours = true → t ∈ s.tsk.filter fun x => ¬ (x.id = id ∧ x.ours = false) := by
      intro t ht e; simp [ht, e]
    refine ⟨h.blk, h.map, ?_, h.flg, h.mtx, h.obj, h.nd, nodup_sub h.tnd _, h.fnd, h.mnd, h.pos, ?_, ?_, ?_, h.len, ?_⟩
    · refine Eq.trans ?_ h.tsk
      simp only [ourTsk, List.filter_filter]
      congr 1
      apply List.filter_congr
      intro t _
      cases t.ours <;> simp
    · intro t ht hj; exact h.dorm t (List.mem_filter.1 ht).1 hj
    · intro t ht o hj; exact h.entry t (List.mem_filter.1 ht).1 o hj
    · intro t ht hj; exact h.forgn t (List.mem_filter.1 ht).1 hj
    · intro o
      simp only [List.foldl_nil, h.run o]
      constructor
      · rintro ⟨t, ht, hj⟩; exact ⟨t, hk t ht (h.entry t ht o hj).1, hj⟩
      · rintro ⟨t, ht, hj⟩; exact ⟨t, (List.mem_filter.1 ht).1, hj⟩
  | delFlg id =>
    simp only [ITT.step, Option.some.injEq, Prod.mk.injEq] at hs
    obtain ⟨rfl, rfl⟩ := hs
    exact ⟨h.blk, h.map, h.tsk, (ours_filterF _ _).trans h.flg, h.mtx, h.obj, h.nd, h.tnd, nodup_subK h.fnd _, h.mnd, h.pos, h.dorm, h.entry, h.forgn, h.len, h.run⟩
  | delMtx id =>
    simp only [ITT.step, Option.some.injEq, Prod.mk.injEq] at hs
    obtain ⟨rfl, rfl⟩ := hs
    exact ⟨h.blk, h.map, h.tsk, h.flg, (ours_filterF _ _).trans h.mtx, h.obj, h.nd, h.tnd, h.fnd, nodup_subK h.mnd _, h.pos, h.dorm, h.entry, h.forgn, h.len, h.run⟩

theorem Inv.reach (h : Reachable c s tr) : Inv c s (live tr) (running tr) := by
  induction h with
  | init => exact Inv.init c
  | step _ hs ih => rw [live_append, running_append]; exact ih.step hs

theorem one_event {a : Act} {ev : List Call} (hs : step c s a = some (s', ev)) : ev = [] ∨ ∃ e, ev = [e] := by
  cases a with
  | current tid =>
    cases tid with
    | none => simp [ITT.step] at hs; simp [← hs.2]
    | some tid => simp only [ITT.step] at hs; (repeat' split at hs); all_goals simp at hs; try simp [← hs.2]
  | _ => simp only [ITT.step] at hs; (repeat' split at hs); all_goals simp at hs; try simp [← hs.2]

/-- Every event of a history was made by one step from a state reached by the history before it. -/
theorem event_at (h : Reachable c s tr) : ∀ {a b : List Call} {e : Call}, tr = a ++ e :: b → ∃ s0 s1 act, Reachable c s0 a ∧ step c s0 act = some (s1, [e]) := by
  induction h with
  | init => intro a b e h; cases a <;> simp at h
  | @step s tr act s' ev hr hs ih =>
    intro a b e heq
    rcases one_event hs with rfl | ⟨e', rfl⟩
    · exact ih (by simpa using heq)
    · rcases List.eq_nil_or_concat b with rfl | ⟨l, x, rfl⟩
      · obtain ⟨rfl, h2⟩ := List.append_inj' heq (by simp)
        simp only [List.cons.injEq, and_true] at h2; subst h2
        exact ⟨s, s', act, hr, hs⟩
      · have h2 : tr ++ [e'] = (a ++ e :: l) ++ [x] := by simpa using heq
        exact ih (List.append_inj' h2 (by simp)).1

/-! #### C74 -/

/-- getCurrentThread returns the thread object that runs the caller, and that object exists; null for every other caller. -/
theorem C74_current (h : Reachable c s tr) {a b : List Call} {w : Who} {r : Option Nat} (e : tr = a ++ .current w r :: b) :
    match w with
    | .run o => r = some o ∧ o ∈ live a ∧ o ∈ running a
    | .other => r = none
    | .isr => r = none := by
  obtain ⟨s0, s1, act, h0, hs⟩ := event_at h e
  have I := Inv.reach h0
  cases act with
  | current tid =>
    cases tid with
    | none => simp [ITT.step] at hs; obtain ⟨_, rfl, rfl⟩ := hs; rfl
    | some tid =>
      simp only [ITT.step] at hs
      split at hs
      · simp at hs
      · next t ht =>
        obtain ⟨hm, hi⟩ := find_task ht
        split at hs
        · simp at hs
        · next w' hw =>
          simp only [Option.some.injEq, Prod.mk.injEq, List.cons.injEq, Call.current.injEq, and_true] at hs
          obtain ⟨rfl, rfl, rfl⟩ := hs
          cases hj : t.job with
          | dormant => simp [hj, who] at hw
          | entry o =>
            simp [hj, who] at hw; subst hw
            obtain ⟨_, h2, h3⟩ := I.entry t hm o hj
            refine ⟨?_, h2, (I.run o).2 ⟨t, hm, hj⟩⟩
            rw [← hi, ← h3]; exact I.find_mem h2
          | foreign =>
            simp [hj, who] at hw; subst hw
            apply I.find_not
            intro o ho e
            have h1 : T s0 o ∈ ourTsk s0 := by rw [I.tsk]; exact List.mem_map_of_mem ho
            obtain ⟨t', h2, h3⟩ := List.mem_map.1 h1
            obtain ⟨h4, h5⟩ := List.mem_filter.1 h2
            have := id_inj I.tnd h4 hm (by rw [h3, e, hi])
            subst this
            rw [I.forgn t' hm hj] at h5; simp at h5
  | _ => simp only [ITT.step] at hs; (repeat' split at hs); all_goals simp at hs

/-- create gives an object that does not exist yet. -/
theorem C74_fresh (h : Reachable c s tr) {a b : List Call} {o : Nat} (e : tr = a ++ .create (some o) :: b) : o ∉ live a ∧ (live a).length < c.N := by
  obtain ⟨s0, s1, act, h0, hs⟩ := event_at h e
  have I := Inv.reach h0
  cases act with
  | create an =>
    simp only [ITT.step] at hs
    (repeat' split at hs)
    all_goals simp at hs
    next hb _ _ _ _ _ =>
      obtain ⟨_, rfl⟩ := hs
      exact ⟨I.blk ▸ hb.2.1, I.blk ▸ hb.2.2⟩
  | current tid => cases tid <;> simp only [ITT.step] at hs <;> (try (repeat' split at hs)); all_goals simp at hs
  | _ => simp only [ITT.step] at hs; (repeat' split at hs); all_goals simp at hs

/-- At most MAX_THREADS threads exist, all different; only an existing thread runs. -/
theorem C74_capacity (h : Reachable c s tr) : (live tr).length ≤ c.N ∧ (live tr).Nodup ∧ ∀ o ∈ running tr, o ∈ live tr := by
  have I := Inv.reach h
  refine ⟨I.len, I.nd, ?_⟩
  intro o ho
  obtain ⟨t, h1, h2⟩ := (I.run o).1 ho
  exact (I.entry t h1 o h2).2.1

/-- A thread that is destroyed exists and is not running (its wait has returned). -/
theorem C74_destroy (h : Reachable c s tr) {a b : List Call} {o : Nat} (e : tr = a ++ .destroy o :: b) : o ∈ live a ∧ o ∉ running a := by
  obtain ⟨s0, s1, act, h0, hs⟩ := event_at h e
  have I := Inv.reach h0
  cases act with
  | destroy o' =>
    simp only [ITT.step] at hs
    split at hs
    · simp at hs
    · next x hx =>
      split at hs
      · next hd =>
        simp at hs
        obtain ⟨_, rfl⟩ := hs
        obtain ⟨t0, h1, h2, h3⟩ := any_dorm hd
        refine ⟨(I.obj o').1 (by simp [hx]), ?_⟩
        intro hr
        obtain ⟨t, h4, h5⟩ := (I.run o').1 hr
        have h6 := (I.entry t h4 o' h5).2.2
        have := id_inj I.tnd h4 h1 (by rw [← h6, h2]; simp [T, hx])
        subst this; rw [h3] at h5; simp at h5
      · simp at hs
  | current tid => cases tid <;> simp only [ITT.step] at hs <;> (try (repeat' split at hs)); all_goals simp at hs
  | _ => simp only [ITT.step] at hs; (repeat' split at hs); all_goals simp at hs

/-- No leak and nothing given back twice: the factory's tasks, event flags, mutexes and memory blocks are one for each existing thread. -/
theorem C74_no_leak (h : Reachable c s tr) :
    (s.tsk.filter (·.ours)).length = (live tr).length ∧ (s.flg.filter (·.ours)).length = (live tr).length ∧
    (s.mtx.filter (·.ours)).length = (live tr).length ∧ s.blk.length = (live tr).length := by
  have I := Inv.reach h
  have h1 := congrArg List.length I.tsk
  have h2 := congrArg List.length I.flg
  have h3 := congrArg List.length I.mtx
  simp only [ourTsk, ourObj, List.length_map] at h1 h2 h3
  exact ⟨h1, h2, h3, by rw [I.blk]⟩

/-- The steps of this library (the rest of the system makes the others). -/
def api : Act → Bool
  | .create _ | .destroy _ | .start _ | .finish _ | .current _ => true
  | _ => false

theorem keepF {l : List KObj} {id : Nat} (hn : (l.map (·.id)).Nodup) (h : id ∈ ourObj l) :
    (l.filter (fun x => x.id ≠ id)).filter (fun t => t.ours = false) = l.filter (fun t => t.ours = false) := by
  rw [List.filter_filter]
  apply List.filter_congr
  intro t ht
  obtain ⟨t', h2, h3⟩ := List.mem_map.1 h
  obtain ⟨h4, h5⟩ := List.mem_filter.1 h2
  by_cases e : t.id = id
  · have := inj_of_nodup hn ht h4 (e.trans h3.symm)
    subst this; simp [h5]
  · simp [e]

/-- No call touches a kernel object that does not belong to the factory. -/
theorem C74_foreign (h : Reachable c s tr) {a : Act} {ev : List Call} (ha : api a = true) (hs : step c s a = some (s', ev)) :
    s'.tsk.filter (fun t => t.ours = false) = s.tsk.filter (fun t => t.ours = false) ∧
    s'.flg.filter (fun t => t.ours = false) = s.flg.filter (fun t => t.ours = false) ∧
    s'.mtx.filter (fun t => t.ours = false) = s.mtx.filter (fun t => t.ours = false) := by
  have I := Inv.reach h
  cases a with
  | create a =>
    simp only [ITT.step] at hs
    split at hs
    · simp at hs; obtain ⟨rfl, rfl⟩ := hs; simp
    · split at hs
      · simp at hs; obtain ⟨rfl, rfl⟩ := hs; simp
      · split at hs
        · split at hs
          · simp at hs; obtain ⟨rfl, rfl⟩ := hs; simp
          · simp at hs
        · next p hp =>
          split at hs
          · split at hs
            · simp at hs
            · next s1 x hc =>
              split at hs
              · next hx =>
                obtain ⟨rfl, h1, h2, h3⟩ := ctor_ok hc hx
                simp only [Option.some.injEq, Prod.mk.injEq] at hs
                obtain ⟨rfl, rfl⟩ := hs
                simp
              · next hx =>
                obtain ⟨rfl, rfl, _⟩ := ctor_fail hc hx
                simp only [Option.some.injEq, Prod.mk.injEq] at hs
                obtain ⟨rfl, rfl⟩ := hs
                simp [relBlk, dtor]
          · simp at hs
  | destroy o =>
    simp only [ITT.step] at hs
    split at hs
    · simp at hs
    · next x hx =>
      split at hs
      · next hd =>
        simp only [Option.some.injEq, Prod.mk.injEq] at hs
        obtain ⟨rfl, rfl⟩ := hs
        have hoL : o ∈ live tr := (I.obj o).1 (by simp [hx])
        have eT : T s o = x.taskId := by simp [T, hx]
        have eF : F s o = x.evWait := by simp [F, hx]
        have eM : M s o = x.mtxId := by simp [M, hx]
        have hpos : 0 < x.taskId := eT ▸ I.pos o hoL
        simp only [relBlk, dtor, hpos, if_true, ITT.delTsk, ITT.delFlg, ITT.delMtx]
        refine ⟨?_, ?_, ?_⟩
        · rw [List.filter_filter]
          apply List.filter_congr
          intro t ht
          cases ho : t.ours with
          | true => simp
          | false =>
            have : t.job ≠ .dormant := by
              intro e; rw [I.dorm t ht e] at ho; simp at ho
            simp [this]
        · exact keepF I.fnd (by rw [I.flg, ← eF]; exact List.mem_map_of_mem hoL)
        · exact keepF I.mnd (by rw [I.mtx, ← eM]; exact List.mem_map_of_mem hoL)
      · simp at hs
  | start o =>
    simp only [ITT.step] at hs
    split at hs
    · simp at hs
    · next x hx =>
      split at hs
      · next hd =>
        simp only [Option.some.injEq, Prod.mk.injEq] at hs
        obtain ⟨rfl, rfl⟩ := hs
        obtain ⟨t0, h1, h2, h3⟩ := any_dorm hd
        refine ⟨setJob fun t ht e => ?_, rfl, rfl⟩
        have := id_inj I.tnd ht h1 (e.trans h2.symm)
        subst this; exact I.dorm t ht h3
      · simp at hs
  | finish tid =>
    simp only [ITT.step] at hs
    split at hs
    · next i ou o hf =>
      simp only [Option.some.injEq, Prod.mk.injEq] at hs
      obtain ⟨rfl, rfl⟩ := hs
      obtain ⟨h1, h2⟩ := find_task hf
      refine ⟨setJob fun t ht e => ?_, rfl, rfl⟩
      rw [id_inj I.tnd ht h1 (e.trans h2.symm)]
      exact (I.entry _ h1 o rfl).1
    · simp at hs
  | current tid =>
    cases tid with
    | none => simp [ITT.step] at hs; obtain ⟨rfl, rfl⟩ := hs; simp
    | some tid =>
      simp only [ITT.step] at hs
      (repeat' split at hs)
      all_goals simp at hs
      obtain ⟨rfl, rfl⟩ := hs; simp
  | _ => simp [api] at ha

/-- A create that the kernel refuses gives null and leaves the kernel and the factory as they were (roll-back). -/
theorem C74_create_rollback (h : Reachable c s tr) {a : Ans} (hs : step c s (.create a) = some (s', [.create none])) : s' = s := by
  have I := Inv.reach h
  simp only [ITT.step] at hs
  split at hs
  · simp at hs; exact hs.symm
  · split at hs
    · simp at hs; exact hs.symm
    · split at hs
      · split at hs
        · simp at hs; exact hs.symm
        · simp at hs
      · next p hp =>
        split at hs
        · next hb =>
          split at hs
          · simp at hs
          · next s1 x hc =>
            split at hs
            · simp at hs
            · next hx =>
              obtain ⟨rfl, rfl, _⟩ := ctor_fail hc hx
              simp only [Option.some.injEq, Prod.mk.injEq] at hs
              rw [← hs.1]
              exact roll I hb.2.1
        · simp at hs

/-- create succeeds when the factory has its pool, fewer than MAX_THREADS threads exist and the kernel grants what is asked for;
otherwise it returns null. -/
theorem C74_create_iff (h : Reachable c s tr) {a : Ans} {r : Option Nat} (hs : step c s (.create a) = some (s', [.create r])) :
    r.isSome ↔ c.pool = true ∧ (live tr).length < c.N ∧ a.tsk.isSome ∧ a.flg.isSome ∧ a.mtx.isSome := by
  have I := Inv.reach h
  have hl : s.map.length = (live tr).length := by rw [I.map]; simp
  have hb : s.blk.length = (live tr).length := by rw [I.blk]
  simp only [ITT.step] at hs
  split at hs
  · next hp => simp at hs; obtain ⟨_, rfl⟩ := hs; simp [hp]
  · next hp =>
    have hp : c.pool = true := by simpa using hp
    split at hs
    · next hf => simp at hs; obtain ⟨_, rfl⟩ := hs; simp; intros; omega
    · next hf =>
      split at hs
      · split at hs
        · next hk => omega
        · simp at hs
      · next p hpb =>
        split at hs
        · split at hs
          · simp at hs
          · next s1 x hc =>
            split at hs
            · next hx =>
              simp at hs
              obtain ⟨_, rfl⟩ := hs
              have := ctor_got hc hx
              simp [this, hp]; omega
            · next hx =>
              obtain ⟨_, _, h3⟩ := ctor_fail hc hx
              simp at hs
              obtain ⟨_, rfl⟩ := hs
              rcases h3 with h3 | h3 | h3 <;> simp [h3]
        · simp at hs

/-! #### Examples -/

/-- Two threads (ids 7 and 9 given by the kernel), a foreign task 3; both run and ask; the first is destroyed, its id and block are used again. -/
def demo : List Act := [.newTsk 3, .create ⟨some 100, some 7, some 1, some 1⟩, .create ⟨some 200, some 9, none, some 2⟩,
  .create ⟨some 200, some 9, some 2, some 2⟩, .start 100, .start 200, .current (some 9), .current (some 7), .current (some 3), .current none,
  .finish 7, .destroy 100, .create ⟨some 100, some 7, some 5, some 5⟩, .start 100, .current (some 7)]

example : ∃ s tr, Reachable ⟨256, true⟩ s tr ∧ tr = [.create (some 100), .create none, .create (some 200), .begins 100, .begins 200,
    .current (.run 200) (some 200), .current (.run 100) (some 100), .current .other none, .current .isr none, .ends 100, .destroy 100,
    .create (some 100), .begins 100, .current (.run 100) (some 100)] ∧ live tr = [100, 200] := by
  obtain ⟨s, tr, h, hp⟩ := Lts.runSat_ex (step := step ⟨256, true⟩) (init := TSt.init) (as := demo)
    (P := fun _ tr => decide (tr = [.create (some 100), .create none, .create (some 200), .begins 100, .begins 200,
    .current (.run 200) (some 200), .current (.run 100) (some 100), .current .other none, .current .isr none, .ends 100, .destroy 100,
    .create (some 100), .begins 100, .current (.run 100) (some 100)] ∧ live tr = [100, 200])) (by decide)
  exact ⟨s, tr, h, by simpa using hp⟩

end Verif.Props.ItronThreadTable
