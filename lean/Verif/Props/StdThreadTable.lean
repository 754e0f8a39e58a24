import Verif.Model.StdThreadTable
/-
C79: the thread table of the StdCpp, Posix and Windows thread factories, for every history of create, destroy, runs and getCurrentThread by
any number of clients, every overlap of the calls and every behaviour of the operating system within its contract on thread ids.
-/
namespace Verif.Props.StdThreadTable
open Verif Verif.STT
open _root_.Verif.Lts (Reach)
open _root_.Verif.TTab (Call Who live running)

variable {c : Cfg} {s s' : TSt} {tr : List Call}

abbrev Reachable (c : Cfg) (s : TSt) (tr : List Call) : Prop := Reach (step c) TSt.init s tr

def jobOf (x : OsT) (o : Nat) : Prop := x.job = .idle o ∨ x.job = .busy o
def target (p : PC) (o : Nat) : Prop := p = .inserting o ∨ p = .joining o ∨ p = .erasing o

structure Inv (s : TSt) (L R : List Nat) : Prop where
  mapObj : ∀ e ∈ s.map, s.obj e.2 = some e.1 ∧ e.2 ∈ L
  keys : (s.map.map (·.1)).Nodup
  lobj : ∀ o ∈ L, (s.obj o).isSome = true
  objL : ∀ o, (s.obj o).isSome = true → o ∈ L ∨ ∃ t, s.pc t = .inserting o
  osnd : (s.os.map (·.id)).Nodup
  osobj : ∀ x ∈ s.os, ∀ o, jobOf x o → s.obj o = some x.id
  alive : ∀ o id, s.obj o = some id → (∀ t, s.pc t ≠ .erasing o) → ∃ x ∈ s.os, x.id = id ∧ jobOf x o
  dead : ∀ t o, s.pc t = .erasing o → ∀ x ∈ s.os, ¬ jobOf x o
  ins : ∀ t o, s.pc t = .inserting o → (s.obj o).isSome = true ∧ o ∉ L ∧ ∀ x ∈ s.os, x.job ≠ .busy o
  des : ∀ t o, s.pc t = .joining o ∨ s.pc t = .erasing o → o ∈ L
  uniq : ∀ t t' o, target (s.pc t) o → target (s.pc t') o → t = t'
  bz : ∀ t, t ∈ s.busy ↔ s.pc t ≠ .out
  bnd : s.busy.Nodup
  run : ∀ o, o ∈ R ↔ ∃ x ∈ s.os, x.job = .busy o

/-- What needs the assumptions. -/
structure InvK (s : TSt) (L : List Nat) : Prop where
  fresh : ∀ t o id, s.pc t = .inserting o → s.obj o = some id → ∀ e ∈ s.map, e.1 ≠ id
  there : ∀ o ∈ L, ∀ id, s.obj o = some id → (id, o) ∈ s.map
/-- What needs that ids are not reused. -/
def InvF (s : TSt) : Prop := ∀ x ∈ s.os, x.job = .foreign → ∀ e ∈ s.map, e.1 ≠ x.id

theorem inj_of_nodup {α β : Type} {f : α → β} : ∀ {l : List α}, (l.map f).Nodup → ∀ {a b : α}, a ∈ l → b ∈ l → f a = f b → a = b
  | [], _, a, b, ha, _, _ => by simp at ha
  | x :: l, h, a, b, ha, hb, e => by
    simp only [List.map_cons, List.nodup_cons, List.mem_map, not_exists, not_and] at h
    simp only [List.mem_cons] at ha hb
    rcases ha with rfl | ha <;> rcases hb with rfl | hb
    · rfl
    · exact absurd e.symm (h.1 b hb)
    · exact absurd e (h.1 a ha)
    · exact inj_of_nodup h.2 ha hb e

theorem Inv.init : Inv TSt.init [] [] := by constructor <;> simp [TSt.init, target]
theorem InvK.init : InvK TSt.init [] := by constructor <;> simp [TSt.init]
theorem InvF.init : InvF TSt.init := by simp [InvF, TSt.init]

theorem owned_iff {L R} (h : Inv s L R) {o : Nat} : owned s o = true ↔ ∀ t, ¬ target (s.pc t) o := by
  simp only [owned, List.all_eq_true]
  constructor
  · intro h1 t ht
    have hb : t ∈ s.busy := (h.bz t).2 (by rcases ht with e | e | e <;> simp [e])
    have := h1 t hb
    rcases ht with e | e | e <;> simp [e] at this
  · intro h1 t _
    have := h1 t
    cases hp : s.pc t <;> simp [hp, target] at this ⊢ <;> exact this

def nextL (L : List Nat) : Call → List Nat
  | .create (some o) => o :: L
  | .destroy o => L.filter (· ≠ o)
  | _ => L
def nextR (R : List Nat) : Call → List Nat
  | .begins o => o :: R
  | .ends o => R.filter (· ≠ o)
  | _ => R

theorem live_append (tr ev : List Call) : live (tr ++ ev) = ev.foldl nextL (live tr) := by
  simp only [live, List.foldl_append]
  generalize List.foldl _ [] tr = l
  induction ev generalizing l with
  | nil => rfl
  | cons e ev ih =>
    simp only [List.foldl_cons]
    rw [← ih]
    congr 1
theorem running_append (tr ev : List Call) : running (tr ++ ev) = ev.foldl nextR (running tr) := by
  simp only [running, List.foldl_append]
  generalize List.foldl _ [] tr = l
  induction ev generalizing l with
  | nil => rfl
  | cons e ev ih =>
    simp only [List.foldl_cons]
    rw [← ih]
    congr 1

theorem put_same {α : Type} (f : Nat → α) (i : Nat) (x : α) : put f i x i = x := by simp [put]
theorem put_other {α : Type} (f : Nat → α) {i j : Nat} (x : α) (h : j ≠ i) : put f i x j = f j := by simp [put, h]

theorem freshId_iff {id : Nat} : freshId s id = true ↔ ∀ x ∈ s.os, x.id ≠ id := by simp [freshId]

theorem Inv.create {L R} (h : Inv s L R) {t o id : Nat} (hp : s.pc t = .out) (ho : s.obj o = none) (hf : ∀ x ∈ s.os, x.id ≠ id) :
    Inv { s with pc := put s.pc t (.inserting o), busy := t :: s.busy, obj := put s.obj o (some id), os := ⟨id, .idle o⟩ :: s.os } L R := by
  have hoL : o ∉ L := fun e => by have := h.lobj o e; simp [ho] at this
  have hnt : ∀ t', ¬ target (s.pc t') o := by
    intro t' ht
    rcases ht with e | e | e
    · have := (h.ins t' o e).1; simp [ho] at this
    · exact hoL (h.des t' o (Or.inl e))
    · exact hoL (h.des t' o (Or.inr e))
  have hnj : ∀ x ∈ s.os, ¬ jobOf x o := fun x hx hj => by have := h.osobj x hx o hj; simp [ho] at this
  constructor
  · intro e he
    obtain ⟨h1, h2⟩ := h.mapObj e he
    have : e.2 ≠ o := fun h' => hoL (h' ▸ h2)
    exact ⟨by simp [put, this, h1], h2⟩
  · exact h.keys
  · intro o' h'
    have : o' ≠ o := fun e => hoL (e ▸ h')
    simpa [put, this] using h.lobj o' h'
  · intro o' h'
    by_cases e : o' = o
    · exact Or.inr ⟨t, by simp [put, e]⟩
    · simp only [put, e, if_false] at h'
      rcases h.objL o' h' with h1 | ⟨t', h1⟩
      · exact Or.inl h1
      · refine Or.inr ⟨t', ?_⟩
        have : t' ≠ t := by rintro rfl; rw [hp] at h1; simp at h1
        simp [put, this, h1]
  · simpa using ⟨fun x hx e => hf x hx e, h.osnd⟩
  · intro x hx o' hj
    rcases List.mem_cons.1 hx with rfl | hx
    · have : o' = o := by rcases hj with e | e <;> simp at e; exact e.symm
      simp [put, this]
    · have := h.osobj x hx o' hj
      have hne : o' ≠ o := by rintro rfl; simp [ho] at this
      simpa [put, hne] using this
  · intro o' id' h1 h2
    by_cases e : o' = o
    · subst e
      simp [put] at h1; subst h1
      exact ⟨_, List.mem_cons_self, rfl, Or.inl rfl⟩
    · simp only [put, e, if_false] at h1
      obtain ⟨x, a, b, d⟩ := h.alive o' id' h1 (fun t' e' => by
        have := h2 t'
        by_cases ht : t' = t
        · subst ht; rw [hp] at e'; simp at e'
        · simp [put, ht] at this; exact this e')
      exact ⟨x, by simp [a], b, d⟩
  · intro t' o' h1 x hx hj
    have ht : t' ≠ t := by rintro rfl; simp [put] at h1
    simp only [put, ht, if_false] at h1
    rcases List.mem_cons.1 hx with rfl | hx
    · have : o' = o := by rcases hj with e | e <;> simp at e; exact e.symm
      subst this; exact hnt t' (Or.inr (Or.inr h1))
    · exact h.dead t' o' h1 x hx hj
  · intro t' o' h1
    by_cases ht : t' = t
    · subst ht
      simp [put] at h1; subst h1
      refine ⟨by simp [put], hoL, ?_⟩
      intro x hx
      rcases List.mem_cons.1 hx with rfl | hx
      · simp
      · exact fun e => hnj x hx (Or.inr e)
    · simp only [put, ht, if_false] at h1
      obtain ⟨a, b, d⟩ := h.ins t' o' h1
      have hne : o' ≠ o := by rintro rfl; simp [ho] at a
      refine ⟨by simpa [put, hne] using a, b, ?_⟩
      intro x hx
      rcases List.mem_cons.1 hx with rfl | hx
      · simp
      · exact d x hx
  · intro t' o' h1
    have ht : t' ≠ t := by rintro rfl; simp [put] at h1
    simp only [put, ht, if_false] at h1
    exact h.des t' o' h1
  · intro t1 t2 o' h1 h2
    by_cases e1 : t1 = t <;> by_cases e2 : t2 = t
    · rw [e1, e2]
    · subst e1
      simp [put, target] at h1; subst h1
      simp only [put, e2, if_false] at h2
      exact absurd h2 (hnt t2)
    · subst e2
      simp [put, target] at h2; subst h2
      simp only [put, e1, if_false] at h1
      exact absurd h1 (hnt t1)
    · simp only [put, e1, e2, if_false] at h1 h2
      exact h.uniq t1 t2 o' h1 h2
  · intro t'
    by_cases e : t' = t
    · simp [put, e]
    · simp [put, e, h.bz t']
  · refine List.nodup_cons.2 ⟨fun e => ?_, h.bnd⟩
    exact (h.bz t).1 e hp
  · intro o'
    rw [h.run o']
    simp

theorem keys_insert {m : List (Nat × Nat)} {k v : Nat} (h : (m.map (·.1)).Nodup) : ((mapInsert m k v).map (·.1)).Nodup := by
  unfold mapInsert
  split
  · exact h
  · next hn =>
    rw [List.map_append, List.nodup_append]
    refine ⟨h, by simp, ?_⟩
    intro a ha b hb
    simp at hb; subst hb
    rintro rfl
    obtain ⟨e, he, rfl⟩ := List.mem_map.1 ha
    exact hn (by simp only [List.any_eq_true]; exact ⟨e, he, by simp⟩)

theorem mem_insert {m : List (Nat × Nat)} {k v : Nat} {e : Nat × Nat} (h : e ∈ mapInsert m k v) : e ∈ m ∨ e = (k, v) := by
  unfold mapInsert at h
  split at h
  · exact Or.inl h
  · simpa using h

/-- A client leaves create or destroy. -/
theorem busy_out (h1 : ∀ t, t ∈ s.busy ↔ s.pc t ≠ .out) (h2 : s.busy.Nodup) (t : Tid) : ∀ t', t' ∈ s.busy.erase t ↔ put s.pc t .out t' ≠ .out := by
  intro t'
  by_cases e : t' = t
  · subst e; simp [put, h2.mem_erase_iff]
  · simp [put, e, h2.mem_erase_iff, h1 t']

theorem Inv.inserted {L R} (h : Inv s L R) {t o id : Nat} (hp : s.pc t = .inserting o) (ho : s.obj o = some id) :
    Inv { s with pc := put s.pc t .out, busy := s.busy.erase t, map := mapInsert s.map id o } (o :: L) R := by
  obtain ⟨_, hoL, hnb⟩ := h.ins t o hp
  have hne : ∀ {t' o'}, put s.pc t .out t' = PC.inserting o' → t' ≠ t ∧ s.pc t' = .inserting o' := by
    intro t' o' e; by_cases ht : t' = t
    · simp [put, ht] at e
    · simpa [put, ht] using e
  have hpc : ∀ {t' p}, p ≠ PC.out → put s.pc t .out t' = p → t' ≠ t ∧ s.pc t' = p := by
    intro t' p hpo e; by_cases ht : t' = t
    · simp [put, ht] at e; exact absurd e.symm hpo
    · exact ⟨ht, by simpa [put, ht] using e⟩
  have htg : ∀ {t' o'}, target (put s.pc t .out t') o' → target (s.pc t') o' := by
    intro t' o' e; by_cases ht : t' = t
    · simp [put, ht, target] at e
    · simpa [put, ht] using e
  constructor
  · intro e he
    rcases mem_insert he with he | rfl
    · exact ⟨(h.mapObj e he).1, by simp [(h.mapObj e he).2]⟩
    · exact ⟨ho, by simp⟩
  · exact keys_insert h.keys
  · intro o' h'
    rcases List.mem_cons.1 h' with rfl | h'
    · simp [ho]
    · exact h.lobj o' h'
  · intro o' h'
    rcases h.objL o' h' with h1 | ⟨t', h1⟩
    · exact Or.inl (by simp [h1])
    · by_cases e : t' = t
      · subst e; rw [hp] at h1; simp at h1; exact Or.inl (by simp [h1])
      · exact Or.inr ⟨t', by simp [put, e, h1]⟩
  · exact h.osnd
  · exact h.osobj
  · intro o' id' h1 h2
    apply h.alive o' id' h1
    intro t' e
    have := h2 t'
    by_cases ht : t' = t
    · subst ht; rw [hp] at e; simp at e
    · simp [put, ht] at this; exact this e
  · intro t' o' h1
    exact h.dead t' o' (hpc (by simp) h1).2
  · intro t' o' h1
    obtain ⟨a, b⟩ := hne h1
    obtain ⟨h2, h3, h4⟩ := h.ins t' o' b
    refine ⟨h2, ?_, h4⟩
    simp only [List.mem_cons, not_or]
    refine ⟨?_, h3⟩
    rintro rfl
    exact a (h.uniq t' t o' (Or.inl b) (Or.inl hp))
  · intro t' o' h1
    rcases h1 with h1 | h1
    · exact List.mem_cons_of_mem _ (h.des t' o' (Or.inl (hpc (by simp) h1).2))
    · exact List.mem_cons_of_mem _ (h.des t' o' (Or.inr (hpc (by simp) h1).2))
  · intro t1 t2 o' h1 h2; exact h.uniq t1 t2 o' (htg h1) (htg h2)
  · exact busy_out h.bz h.bnd t
  · exact h.bnd.erase t
  · exact h.run

theorem nodup_sub {l : List OsT} (h : (l.map (·.id)).Nodup) (p : OsT → Bool) : ((l.filter p).map (·.id)).Nodup :=
  h.sublist (List.Sublist.map _ List.filter_sublist)

/-- The operating system thread of the object is joined. -/
theorem mem_join {L R} (h : Inv s L R) {o id : Nat} (ho : s.obj o = some id) (ha : ∀ t, s.pc t ≠ .erasing o) {x : OsT} :
    x ∈ s.os.filter (fun x => x.id ≠ id) ↔ x ∈ s.os ∧ ¬ jobOf x o := by
  simp only [List.mem_filter, ne_eq, decide_eq_true_eq]
  constructor
  · rintro ⟨h1, h2⟩
    refine ⟨h1, fun hj => h2 ?_⟩
    have := h.osobj x h1 o hj
    rw [ho] at this; simpa using this.symm
  · rintro ⟨h1, h2⟩
    refine ⟨h1, fun e => h2 ?_⟩
    obtain ⟨y, hy, hyi, hyj⟩ := h.alive o id ho ha
    have := inj_of_nodup h.osnd h1 hy (e.trans hyi.symm)
    subst this; exact hyj

theorem jobOf_inj {x : OsT} {o o' : Nat} (h : jobOf x o) (h' : jobOf x o') : o = o' := by
  rcases h with h | h <;> rcases h' with h' | h' <;> rw [h] at h' <;> simp at h' <;> exact h'

theorem Inv.failed {L R} (h : Inv s L R) {t o id : Nat} (hp : s.pc t = .inserting o) (ho : s.obj o = some id) :
    Inv { s with pc := put s.pc t .out, busy := s.busy.erase t, obj := put s.obj o none, os := s.os.filter fun x => x.id ≠ id } L R := by
  obtain ⟨_, hoL, hnb⟩ := h.ins t o hp
  have hpc : ∀ {t' p}, p ≠ PC.out → put s.pc t .out t' = p → t' ≠ t ∧ s.pc t' = p := by
    intro t' p hpo e; by_cases ht : t' = t
    · simp [put, ht] at e; exact absurd e.symm hpo
    · exact ⟨ht, by simpa [put, ht] using e⟩
  have htg : ∀ {t' o'}, target (put s.pc t .out t') o' → target (s.pc t') o' := by
    intro t' o' e; by_cases ht : t' = t
    · simp [put, ht, target] at e
    · simpa [put, ht] using e
  have hne : ∀ {t' o'}, t' ≠ t → target (s.pc t') o' → o' ≠ o := by
    rintro t' o' h1 h2 rfl; exact h1 (h.uniq t' t o' h2 (Or.inl hp))
  have ha : ∀ t', s.pc t' ≠ .erasing o := fun t' e => hoL (h.des t' o (Or.inr e))
  have hmem := fun x => mem_join h ho ha (x := x)
  constructor
  · intro e he
    obtain ⟨h1, h2⟩ := h.mapObj e he
    have : e.2 ≠ o := fun h' => hoL (h' ▸ h2)
    exact ⟨by simp [put, this, h1], h2⟩
  · exact h.keys
  · intro o' h'
    have : o' ≠ o := fun e => hoL (e ▸ h')
    simpa [put, this] using h.lobj o' h'
  · intro o' h'
    by_cases e : o' = o
    · simp [put, e] at h'
    · simp only [put, e, if_false] at h'
      rcases h.objL o' h' with h1 | ⟨t', h1⟩
      · exact Or.inl h1
      · refine Or.inr ⟨t', ?_⟩
        have : t' ≠ t := by rintro rfl; rw [hp] at h1; simp at h1; exact e h1.symm
        simp [put, this, h1]
  · exact nodup_sub h.osnd _
  · intro x hx o' hj
    obtain ⟨h1, h2⟩ := (hmem x).1 hx
    have hne : o' ≠ o := by rintro rfl; exact h2 hj
    simpa [put, hne] using h.osobj x h1 o' hj
  · intro o' id' h1 h2
    by_cases e : o' = o
    · simp [put, e] at h1
    · simp only [put, e, if_false] at h1
      obtain ⟨x, a, b, d⟩ := h.alive o' id' h1 (fun t' e' => by
        have := h2 t'
        by_cases ht : t' = t
        · subst ht; rw [hp] at e'; simp at e'
        · simp [put, ht] at this; exact this e')
      exact ⟨x, (hmem x).2 ⟨a, fun hj => e (jobOf_inj d hj)⟩, b, d⟩
  · intro t' o' h1 x hx
    exact h.dead t' o' (hpc (by simp) h1).2 x ((hmem x).1 hx).1
  · intro t' o' h1
    obtain ⟨a, b⟩ := hpc (by simp) h1
    obtain ⟨h2, h3, h4⟩ := h.ins t' o' b
    have := hne a (Or.inl b)
    exact ⟨by simpa [put, this] using h2, h3, fun x hx => h4 x ((hmem x).1 hx).1⟩
  · intro t' o' h1
    rcases h1 with h1 | h1
    · exact h.des t' o' (Or.inl (hpc (by simp) h1).2)
    · exact h.des t' o' (Or.inr (hpc (by simp) h1).2)
  · intro t1 t2 o' h1 h2; exact h.uniq t1 t2 o' (htg h1) (htg h2)
  · exact busy_out h.bz h.bnd t
  · exact h.bnd.erase t
  · intro o'
    rw [h.run o']
    constructor
    · rintro ⟨x, hx, hj⟩
      refine ⟨x, (hmem x).2 ⟨hx, ?_⟩, hj⟩
      intro hj'
      have := jobOf_inj (Or.inr hj) hj'
      subst this; exact hnb x hx hj
    · rintro ⟨x, hx, hj⟩; exact ⟨x, ((hmem x).1 hx).1, hj⟩

theorem Inv.destroy {L R} (h : Inv s L R) {t o : Nat} (hp : s.pc t = .out) (ho : (s.obj o).isSome = true) (hw : ∀ t', ¬ target (s.pc t') o) :
    Inv { s with pc := put s.pc t (.joining o), busy := t :: s.busy } L R := by
  have hoL : o ∈ L := by
    rcases h.objL o ho with h1 | ⟨t', h1⟩
    · exact h1
    · exact absurd (Or.inl h1) (hw t')
  have hpc : ∀ {t' p}, p ≠ PC.joining o → put s.pc t (.joining o) t' = p → t' ≠ t ∧ s.pc t' = p := by
    intro t' p hpo e; by_cases ht : t' = t
    · simp [put, ht] at e; exact absurd e.symm hpo
    · exact ⟨ht, by simpa [put, ht] using e⟩
  have hbk : ∀ {t' p}, p ≠ PC.out → s.pc t' = p → put s.pc t (.joining o) t' = p := by
    intro t' p hpo e
    have : t' ≠ t := by rintro rfl; rw [hp] at e; exact hpo e.symm
    simp [put, this, e]
  constructor
  · exact h.mapObj
  · exact h.keys
  · exact h.lobj
  · intro o' h'
    rcases h.objL o' h' with h1 | ⟨t', h1⟩
    · exact Or.inl h1
    · exact Or.inr ⟨t', hbk (by simp) h1⟩
  · exact h.osnd
  · exact h.osobj
  · intro o' id' h1 h2
    exact h.alive o' id' h1 (fun t' e => h2 t' (hbk (by simp) e))
  · intro t' o' h1; exact h.dead t' o' (hpc (by simp) h1).2
  · intro t' o' h1; exact h.ins t' o' (hpc (by simp) h1).2
  · intro t' o' h1
    by_cases e : t' = t
    · subst e
      simp [put] at h1; subst h1; exact hoL
    · simp only [put, e, if_false] at h1; exact h.des t' o' h1
  · intro t1 t2 o' h1 h2
    by_cases e1 : t1 = t <;> by_cases e2 : t2 = t
    · rw [e1, e2]
    · subst e1
      simp [put, target] at h1; subst h1
      simp only [put, e2, if_false] at h2
      exact absurd h2 (hw t2)
    · subst e2
      simp [put, target] at h2; subst h2
      simp only [put, e1, if_false] at h1
      exact absurd h1 (hw t1)
    · simp only [put, e1, e2, if_false] at h1 h2
      exact h.uniq t1 t2 o' h1 h2
  · intro t'
    by_cases e : t' = t
    · simp [put, e]
    · simp [put, e, h.bz t']
  · refine List.nodup_cons.2 ⟨fun e => ?_, h.bnd⟩
    exact (h.bz t).1 e hp
  · exact h.run

theorem Inv.join {L R} (h : Inv s L R) {t o id : Nat} (hp : s.pc t = .joining o) (ho : s.obj o = some id) (hi : ∃ x ∈ s.os, x.id = id ∧ x.job = .idle o) :
    Inv { s with pc := put s.pc t (.erasing o), os := s.os.filter fun x => x.id ≠ id } L R := by
  have hoL := h.des t o (Or.inl hp)
  have hpc : ∀ {t' p}, p ≠ PC.erasing o → put s.pc t (.erasing o) t' = p → t' ≠ t ∧ s.pc t' = p := by
    intro t' p hpo e; by_cases ht : t' = t
    · simp [put, ht] at e; exact absurd e.symm hpo
    · exact ⟨ht, by simpa [put, ht] using e⟩
  have hbk : ∀ {t' p}, p ≠ PC.joining o → s.pc t' = p → put s.pc t (.erasing o) t' = p := by
    intro t' p hpo e
    have : t' ≠ t := by rintro rfl; rw [hp] at e; exact hpo e.symm
    simp [put, this, e]
  have htg : ∀ {t' o'}, target (put s.pc t (.erasing o) t') o' → target (s.pc t') o' := by
    intro t' o' e; by_cases ht : t' = t
    · subst ht; simp [put, target] at e; subst e; exact Or.inr (Or.inl hp)
    · simpa [put, ht] using e
  have ha : ∀ t', s.pc t' ≠ .erasing o := by
    intro t' e
    have := h.uniq t' t o (Or.inr (Or.inr e)) (Or.inr (Or.inl hp))
    subst this; rw [hp] at e; simp at e
  have hmem := fun x => mem_join h ho ha (x := x)
  have hnb : ∀ x ∈ s.os, x.job ≠ .busy o := by
    intro x hx e
    obtain ⟨y, hy, hyi, hyj⟩ := hi
    have h1 := h.osobj x hx o (Or.inr e)
    rw [ho] at h1
    have := inj_of_nodup h.osnd hx hy (by simp at h1; rw [hyi, h1])
    subst this; rw [hyj] at e; simp at e
  constructor
  · exact h.mapObj
  · exact h.keys
  · exact h.lobj
  · intro o' h'
    rcases h.objL o' h' with h1 | ⟨t', h1⟩
    · exact Or.inl h1
    · exact Or.inr ⟨t', hbk (by simp) h1⟩
  · exact nodup_sub h.osnd _
  · intro x hx o' hj; exact h.osobj x ((hmem x).1 hx).1 o' hj
  · intro o' id' h1 h2
    have hne : o' ≠ o := by rintro rfl; exact h2 t (by simp [put])
    obtain ⟨x, a, b, d⟩ := h.alive o' id' h1 (fun t' e => h2 t' (hbk (by simp) e))
    exact ⟨x, (hmem x).2 ⟨a, fun hj => hne (jobOf_inj d hj)⟩, b, d⟩
  · intro t' o' h1 x hx hj
    by_cases e : o' = o
    · subst e; exact ((hmem x).1 hx).2 hj
    · exact h.dead t' o' (hpc (by simp; exact e) h1).2 x ((hmem x).1 hx).1 hj
  · intro t' o' h1
    obtain ⟨a, b, d⟩ := h.ins t' o' (hpc (by simp) h1).2
    exact ⟨a, b, fun x hx => d x ((hmem x).1 hx).1⟩
  · intro t' o' h1
    by_cases e : t' = t
    · subst e; simp [put] at h1; subst h1; exact hoL
    · simp only [put, e, if_false] at h1; exact h.des t' o' h1
  · intro t1 t2 o' h1 h2; exact h.uniq t1 t2 o' (htg h1) (htg h2)
  · intro t'
    by_cases e : t' = t
    · subst e; simp [put, h.bz t', hp]
    · simp [put, e, h.bz t']
  · exact h.bnd
  · intro o'
    rw [h.run o']
    constructor
    · rintro ⟨x, hx, hj⟩
      refine ⟨x, (hmem x).2 ⟨hx, ?_⟩, hj⟩
      intro hj'
      have := jobOf_inj (Or.inr hj) hj'
      subst this; exact hnb x hx hj
    · rintro ⟨x, hx, hj⟩; exact ⟨x, ((hmem x).1 hx).1, hj⟩

theorem Inv.erase {L R} (h : Inv s L R) {t o id : Nat} (hp : s.pc t = .erasing o) (ho : s.obj o = some id) :
    Inv { s with pc := put s.pc t .out, busy := s.busy.erase t, map := mapErase s.map id, obj := put s.obj o none } (L.filter (· ≠ o)) R := by
  have hoL := h.des t o (Or.inr hp)
  have hd := h.dead t o hp
  have hpc : ∀ {t' p}, p ≠ PC.out → put s.pc t .out t' = p → t' ≠ t ∧ s.pc t' = p := by
    intro t' p hpo e; by_cases ht : t' = t
    · simp [put, ht] at e; exact absurd e.symm hpo
    · exact ⟨ht, by simpa [put, ht] using e⟩
  have htg : ∀ {t' o'}, target (put s.pc t .out t') o' → target (s.pc t') o' := by
    intro t' o' e; by_cases ht : t' = t
    · simp [put, ht, target] at e
    · simpa [put, ht] using e
  have hne : ∀ {t' o'}, t' ≠ t → target (s.pc t') o' → o' ≠ o := by
    rintro t' o' h1 h2 rfl; exact h1 (h.uniq t' t o' h2 (Or.inr (Or.inr hp)))
  constructor
  · intro e he
    obtain ⟨he, hk⟩ := List.mem_filter.1 he
    obtain ⟨h1, h2⟩ := h.mapObj e he
    have : e.2 ≠ o := by
      intro e'
      rw [e', ho] at h1
      simp at h1 hk; exact hk h1.symm
    exact ⟨by simp [put, this, h1], by simp [h2, this]⟩
  · exact h.keys.sublist (List.Sublist.map _ List.filter_sublist)
  · intro o' h'
    have h2 := List.mem_filter.1 h'
    have : o' ≠ o := by simpa using h2.2
    simpa [put, this] using h.lobj o' h2.1
  · intro o' h'
    by_cases e : o' = o
    · simp [put, e] at h'
    · simp only [put, e, if_false] at h'
      rcases h.objL o' h' with h1 | ⟨t', h1⟩
      · exact Or.inl (by simp [h1, e])
      · refine Or.inr ⟨t', ?_⟩
        have : t' ≠ t := by rintro rfl; rw [hp] at h1; simp at h1
        simp [put, this, h1]
  · exact h.osnd
  · intro x hx o' hj
    have hne : o' ≠ o := by rintro rfl; exact hd x hx hj
    simpa [put, hne] using h.osobj x hx o' hj
  · intro o' id' h1 h2
    by_cases e : o' = o
    · simp [put, e] at h1
    · simp only [put, e, if_false] at h1
      apply h.alive o' id' h1
      intro t' e'
      have := h2 t'
      by_cases ht : t' = t
      · subst ht; rw [hp] at e'; simp at e'; exact e e'.symm
      · simp [put, ht] at this; exact this e'
  · intro t' o' h1; exact h.dead t' o' (hpc (by simp) h1).2
  · intro t' o' h1
    obtain ⟨a, b⟩ := hpc (by simp) h1
    obtain ⟨h2, h3, h4⟩ := h.ins t' o' b
    have := hne a (Or.inl b)
    exact ⟨by simpa [put, this] using h2, by simp [h3], h4⟩
  · intro t' o' h1
    have h2 : t' ≠ t ∧ (s.pc t' = .joining o' ∨ s.pc t' = .erasing o') := by
      rcases h1 with h1 | h1
      · exact ⟨(hpc (by simp) h1).1, Or.inl (hpc (by simp) h1).2⟩
      · exact ⟨(hpc (by simp) h1).1, Or.inr (hpc (by simp) h1).2⟩
    have := hne h2.1 (Or.inr h2.2)
    simp [h.des t' o' h2.2, this]
  · intro t1 t2 o' h1 h2; exact h.uniq t1 t2 o' (htg h1) (htg h2)
  · exact busy_out h.bz h.bnd t
  · exact h.bnd.erase t
  · exact h.run

/-- The run of one thread object begins or ends. -/
theorem Inv.job {L R R'} (h : Inv s L R) {o : Nat} {j j' : Job} (hj : j = .idle o ∨ j = .busy o) (hj' : j' = .idle o ∨ j' = .busy o)
    (hi : ∀ t, j' = .busy o → s.pc t ≠ .inserting o)
    (hr : ∀ o', o' ∈ R' ↔ ∃ x ∈ s.os.map (fun x => if x.job = j then { x with job := j' } else x), x.job = .busy o') :
    Inv { s with os := s.os.map fun x => if x.job = j then { x with job := j' } else x } L R' := by
  have hid : (s.os.map (fun x => if x.job = j then { x with job := j' } else x)).map (·.id) = s.os.map (·.id) := by
    rw [List.map_map]; apply List.map_congr_left; intro x _; simp only [Function.comp]; split <;> rfl
  have hmem : ∀ x ∈ s.os.map (fun x => if x.job = j then { x with job := j' } else x), ∃ y ∈ s.os, y.id = x.id ∧ (∀ o', jobOf x o' ↔ jobOf y o') ∧
      (x.job = y.job ∨ x.job = j') := by
    intro x hx
    obtain ⟨y, hy, e⟩ := List.mem_map.1 hx
    refine ⟨y, hy, ?_⟩
    by_cases hyj : y.job = j
    · rw [if_pos hyj] at e; subst e
      refine ⟨rfl, ?_, Or.inr rfl⟩
      intro o'
      simp only [jobOf, hyj]
      rcases hj with rfl | rfl <;> rcases hj' with rfl | rfl <;> simp
    · rw [if_neg hyj] at e; subst e; exact ⟨rfl, fun _ => Iff.rfl, Or.inl rfl⟩
  have hto : ∀ y ∈ s.os, ∃ x ∈ s.os.map (fun x => if x.job = j then { x with job := j' } else x), x.id = y.id ∧ ∀ o', jobOf x o' ↔ jobOf y o' := by
    intro y hy
    refine ⟨_, List.mem_map_of_mem hy, ?_⟩
    by_cases hyj : y.job = j
    · rw [if_pos hyj]
      refine ⟨rfl, ?_⟩
      intro o'
      simp only [jobOf, hyj]
      rcases hj with rfl | rfl <;> rcases hj' with rfl | rfl <;> simp
    · rw [if_neg hyj]; exact ⟨rfl, fun _ => Iff.rfl⟩
  refine ⟨h.mapObj, h.keys, h.lobj, h.objL, ?_, ?_, ?_, ?_, ?_, h.des, h.uniq, h.bz, h.bnd, hr⟩
  · simp only; rw [hid]; exact h.osnd
  · intro x hx o' hjo
    obtain ⟨y, hy, h1, h2, _⟩ := hmem x hx
    rw [← h1]; exact h.osobj y hy o' ((h2 o').1 hjo)
  · intro o' id' h1 h2
    obtain ⟨y, hy, h3, h4⟩ := h.alive o' id' h1 h2
    obtain ⟨x, hx, h5, h6⟩ := hto y hy
    exact ⟨x, hx, h5.trans h3, (h6 o').2 h4⟩
  · intro t o' h1 x hx hjo
    obtain ⟨y, hy, _, h2, _⟩ := hmem x hx
    exact h.dead t o' h1 y hy ((h2 o').1 hjo)
  · intro t o' h1
    obtain ⟨a, b, d⟩ := h.ins t o' h1
    refine ⟨a, b, ?_⟩
    intro x hx e
    obtain ⟨y, hy, _, _, h4⟩ := hmem x hx
    rcases h4 with h4 | h4
    · exact d y hy (h4 ▸ e)
    · rw [h4] at e
      rcases hj' with rfl | rfl
      · simp at e
      · simp at e; subst e; exact hi t rfl h1

theorem Inv.newOs {L R} (h : Inv s L R) {id : Nat} (hf : ∀ x ∈ s.os, x.id ≠ id) : Inv { s with os := ⟨id, .foreign⟩ :: s.os } L R := by
  have hj : ∀ o, ¬ jobOf ⟨id, .foreign⟩ o := by intro o; simp [jobOf]
  refine ⟨h.mapObj, h.keys, h.lobj, h.objL, ?_, ?_, ?_, ?_, ?_, h.des, h.uniq, h.bz, h.bnd, ?_⟩
  · simpa using ⟨fun x hx e => hf x hx e, h.osnd⟩
  · intro x hx o hjo
    rcases List.mem_cons.1 hx with rfl | hx
    · exact absurd hjo (hj o)
    · exact h.osobj x hx o hjo
  · intro o id' h1 h2
    obtain ⟨x, a, b, d⟩ := h.alive o id' h1 h2
    exact ⟨x, by simp [a], b, d⟩
  · intro t o h1 x hx hjo
    rcases List.mem_cons.1 hx with rfl | hx
    · exact hj o hjo
    · exact h.dead t o h1 x hx hjo
  · intro t o h1
    obtain ⟨a, b, d⟩ := h.ins t o h1
    refine ⟨a, b, ?_⟩
    intro x hx
    rcases List.mem_cons.1 hx with rfl | hx
    · simp
    · exact d x hx
  · intro o; rw [h.run o]; simp

theorem Inv.delOs {L R} (h : Inv s L R) {id : Nat} : Inv { s with os := s.os.filter fun x => ¬ (x.id = id ∧ x.job = .foreign) } L R := by
  have hk : ∀ x ∈ s.os, ∀ o, jobOf x o → x ∈ s.os.filter fun x => ¬ (x.id = id ∧ x.job = .foreign) := by
    intro x hx o hj
    refine List.mem_filter.2 ⟨hx, ?_⟩
    rcases hj with e | e <;> simp [e]
  refine ⟨h.mapObj, h.keys, h.lobj, h.objL, nodup_sub h.osnd _, ?_, ?_, ?_, ?_, h.des, h.uniq, h.bz, h.bnd, ?_⟩
  · intro x hx; exact h.osobj x (List.mem_filter.1 hx).1
  · intro o id' h1 h2
    obtain ⟨x, a, b, d⟩ := h.alive o id' h1 h2
    exact ⟨x, hk x a o d, b, d⟩
  · intro t o h1 x hx; exact h.dead t o h1 x (List.mem_filter.1 hx).1
  · intro t o h1
    obtain ⟨a, b, d⟩ := h.ins t o h1
    exact ⟨a, b, fun x hx => d x (List.mem_filter.1 hx).1⟩
  · intro o; rw [h.run o]
    constructor
    · rintro ⟨x, hx, e⟩; exact ⟨x, hk x hx o (Or.inr e), e⟩
    · rintro ⟨x, hx, e⟩; exact ⟨x, (List.mem_filter.1 hx).1, e⟩

theorem idOk_fresh {id : Nat} (h : idOk c s id = true) : (∀ x ∈ s.os, x.id ≠ id) ∧ (c.reuse = false → ∀ e ∈ s.map, e.1 ≠ id) := by
  simp only [idOk, Bool.and_eq_true, freshId_iff] at h
  refine ⟨h.1, ?_⟩
  intro hr
  have h2 := h.2
  simp only [hr, Bool.false_or, Bool.not_eq_true', List.any_eq_false, beq_iff_eq] at h2
  exact h2

theorem Inv.step {L R} (h : Inv s L R) {a : Act} {ev : List Call} (hs : step c s a = some (s', ev)) :
    Inv s' (ev.foldl nextL L) (ev.foldl nextR R) := by
  cases a with
  | create t ans =>
    cases ans with
    | none =>
      simp only [STT.step, Option.ite_none_right_eq_some, Option.some.injEq, Prod.mk.injEq] at hs
      obtain ⟨_, rfl, rfl⟩ := hs; exact h
    | some p =>
      obtain ⟨o, id⟩ := p
      simp only [STT.step, Option.ite_none_right_eq_some, Option.some.injEq, Prod.mk.injEq, Bool.and_eq_true, Option.isNone_iff_eq_none] at hs
      obtain ⟨⟨hp, _⟩, ⟨ho, hi⟩, rfl, rfl⟩ := hs
      exact h.create hp ho (idOk_fresh hi).1
  | insert t ok =>
    simp only [STT.step] at hs
    split at hs
    · next o hp =>
      split at hs
      · simp at hs
      · next id ho =>
        split at hs
        · simp only [Option.some.injEq, Prod.mk.injEq] at hs
          obtain ⟨rfl, rfl⟩ := hs; exact h.inserted hp ho
        · simp only [Option.some.injEq, Prod.mk.injEq] at hs
          obtain ⟨rfl, rfl⟩ := hs; exact h.failed hp ho
    · simp at hs
  | destroy t o =>
    simp only [STT.step, Option.ite_none_right_eq_some, Option.some.injEq, Prod.mk.injEq] at hs
    obtain ⟨⟨hp, _, ho, hw⟩, rfl, rfl⟩ := hs
    exact h.destroy hp ho ((owned_iff h).1 hw)
  | join t =>
    simp only [STT.step] at hs
    split at hs
    · next o hp =>
      split at hs
      · simp at hs
      · next id ho =>
        simp only [Option.ite_none_right_eq_some, Option.some.injEq, Prod.mk.injEq, List.any_eq_true, Bool.and_eq_true, beq_iff_eq] at hs
        obtain ⟨hi, rfl, rfl⟩ := hs
        exact h.join hp ho hi
    · simp at hs
  | erase t =>
    simp only [STT.step] at hs
    split at hs
    · next o hp =>
      split at hs
      · simp at hs
      · next id ho =>
        simp only [Option.some.injEq, Prod.mk.injEq] at hs
        obtain ⟨rfl, rfl⟩ := hs
        exact h.erase hp ho
    · simp at hs
  | begins o =>
    simp only [STT.step, Option.ite_none_right_eq_some, Option.some.injEq, Prod.mk.injEq, List.any_eq_true, beq_iff_eq] at hs
    obtain ⟨⟨hw, x, hx, hj⟩, rfl, rfl⟩ := hs
    apply h.job (Or.inl rfl) (Or.inr rfl)
    · intro t _ e; exact (owned_iff h).1 hw t (Or.inl e)
    · intro o'
      simp only [List.foldl_cons, List.foldl_nil, nextR, List.mem_cons, h.run o']
      constructor
      · rintro (rfl | ⟨y, hy, hyj⟩)
        · exact ⟨_, List.mem_map_of_mem hx, by simp [hj]⟩
        · exact ⟨_, List.mem_map_of_mem hy, by simp [hyj]⟩
      · rintro ⟨y, hy, hyj⟩
        obtain ⟨z, hz, e⟩ := List.mem_map.1 hy
        by_cases hzj : z.job = .idle o
        · rw [if_pos hzj] at e; subst e; simp at hyj; exact Or.inl hyj.symm
        · rw [if_neg hzj] at e; subst e; exact Or.inr ⟨z, hz, hyj⟩
  | ends o =>
    simp only [STT.step, Option.ite_none_right_eq_some, Option.some.injEq, Prod.mk.injEq, List.any_eq_true, beq_iff_eq] at hs
    obtain ⟨⟨x, hx, hj⟩, rfl, rfl⟩ := hs
    apply h.job (Or.inr rfl) (Or.inl rfl)
    · intro t e; simp at e
    · intro o'
      simp only [List.foldl_cons, List.foldl_nil, nextR, List.mem_filter, h.run o', decide_eq_true_eq, ne_eq]
      constructor
      · rintro ⟨⟨y, hy, hyj⟩, hne⟩
        refine ⟨_, List.mem_map_of_mem hy, ?_⟩
        have : y.job ≠ .busy o := by rw [hyj]; simpa using hne
        simp [hyj, hne]
      · rintro ⟨y, hy, hyj⟩
        obtain ⟨z, hz, e⟩ := List.mem_map.1 hy
        by_cases hzj : z.job = .busy o
        · rw [if_pos hzj] at e; subst e; simp at hyj
        · rw [if_neg hzj] at e; subst e
          refine ⟨⟨z, hz, hyj⟩, ?_⟩
          rintro rfl; exact hzj hyj
  | current id =>
    simp only [STT.step] at hs
    split at hs
    · simp at hs
    · split at hs
      · simp at hs
      · simp only [Option.some.injEq, Prod.mk.injEq] at hs
        obtain ⟨rfl, rfl⟩ := hs; exact h
  | newOs id =>
    simp only [STT.step, Option.ite_none_right_eq_some, Option.some.injEq, Prod.mk.injEq] at hs
    obtain ⟨hi, rfl, rfl⟩ := hs
    exact h.newOs (idOk_fresh hi).1
  | delOs id =>
    simp only [STT.step, Option.some.injEq, Prod.mk.injEq] at hs
    obtain ⟨rfl, rfl⟩ := hs
    exact h.delOs

theorem Inv.reach (h : Reachable c s tr) : Inv s (live tr) (running tr) := by
  induction h with
  | init => exact Inv.init
  | step _ hs ih => rw [live_append, running_append]; exact ih.step hs

theorem pc_out {t t' : Tid} {p : PC} (hpo : p ≠ PC.out) (e : put s.pc t .out t' = p) : t' ≠ t ∧ s.pc t' = p := by
  by_cases ht : t' = t
  · simp [put, ht] at e; exact absurd e.symm hpo
  · exact ⟨ht, by simpa [put, ht] using e⟩

theorem insert_fresh {m : List (Nat × Nat)} {k v : Nat} (h : ∀ e ∈ m, e.1 ≠ k) : mapInsert m k v = m ++ [(k, v)] := by
  unfold mapInsert
  rw [if_neg]
  simp only [Bool.not_eq_true, List.any_eq_false, beq_iff_eq]
  exact h

/-- With the assumptions, every table entry is there. -/
theorem InvK.step {L R} (hc : c.reuse = false ∨ c.serial = true) (h : Inv s L R) (k : InvK s L) {a : Act} {ev : List Call}
    (hs : step c s a = some (s', ev)) : InvK s' (ev.foldl nextL L) := by
  cases a with
  | create t ans =>
    cases ans with
    | none =>
      simp only [STT.step, Option.ite_none_right_eq_some, Option.some.injEq, Prod.mk.injEq] at hs
      obtain ⟨_, rfl, rfl⟩ := hs; exact k
    | some p =>
      obtain ⟨o, id⟩ := p
      simp only [STT.step, Option.ite_none_right_eq_some, Option.some.injEq, Prod.mk.injEq, Bool.and_eq_true, Option.isNone_iff_eq_none] at hs
      obtain ⟨⟨hp, hb⟩, ⟨ho, hi⟩, rfl, rfl⟩ := hs
      have hoL : o ∉ L := fun e => by have := h.lobj o e; simp [ho] at this
      constructor
      · intro t' o' id' h1 h2 e he
        by_cases ht : t' = t
        · subst ht
          simp [put] at h1; subst h1
          simp [put] at h2; subst h2
          rcases hc with hc | hc
          · exact (idOk_fresh hi).2 hc e he
          · have hbz := hb hc
            obtain ⟨m1, m2⟩ := h.mapObj e he
            obtain ⟨x, hx, hxi, _⟩ := h.alive e.2 e.1 m1 (by
              intro t'' e''
              have := (h.bz t'').2 (by rw [e'']; simp)
              simp [hbz] at this)
            rw [← hxi]; exact (idOk_fresh hi).1 x hx
        · simp only [put, ht, if_false] at h1
          have hne : o' ≠ o := by
            rintro rfl
            have := (h.ins t' o' h1).1; simp [ho] at this
          simp only [put, hne, if_false] at h2
          exact k.fresh t' o' id' h1 h2 e he
      · intro o' h1 id' h2
        have hne : o' ≠ o := fun e => hoL (e ▸ h1)
        simp only [put, hne, if_false] at h2
        exact k.there o' h1 id' h2
  | insert t ok =>
    simp only [STT.step] at hs
    split at hs
    · next o hp =>
      split at hs
      · simp at hs
      · next id ho =>
        have hn : ∀ {t' o'}, t' ≠ t → s.pc t' = .inserting o' → o' ≠ o := by
          rintro t' o' a b rfl; exact a (h.uniq t' t o' (Or.inl b) (Or.inl hp))
        split at hs
        · simp only [Option.some.injEq, Prod.mk.injEq] at hs
          obtain ⟨rfl, rfl⟩ := hs
          have hins := insert_fresh (v := o) (k.fresh t o id hp ho)
          constructor
          · intro t' o' id' h1 h2 e he
            obtain ⟨a, b⟩ := pc_out (by simp) h1
            simp only [hins, List.mem_append, List.mem_singleton] at he
            rcases he with he | rfl
            · exact k.fresh t' o' id' b h2 e he
            · intro e
              simp only at e h2
              subst e
              obtain ⟨x, hx, hxi, hxj⟩ := h.alive o id ho (fun t'' e'' => (h.ins t o hp).2.1 (h.des t'' o (Or.inr e'')))
              obtain ⟨y, hy, hyi, hyj⟩ := h.alive o' id h2 (fun t'' e'' => (h.ins t' o' b).2.1 (h.des t'' o' (Or.inr e'')))
              have := inj_of_nodup h.osnd hx hy (hxi.trans hyi.symm)
              subst this
              exact hn a b (jobOf_inj hyj hxj)
          · intro o' h1 id' h2
            simp only [List.foldl_cons, List.foldl_nil, nextL, List.mem_cons] at h1
            simp only [hins, List.mem_append, List.mem_singleton]
            rcases h1 with rfl | h1
            · rw [ho] at h2; simp at h2; subst h2; exact Or.inr rfl
            · exact Or.inl (k.there o' h1 id' h2)
        · simp only [Option.some.injEq, Prod.mk.injEq] at hs
          obtain ⟨rfl, rfl⟩ := hs
          constructor
          · intro t' o' id' h1 h2 e he
            obtain ⟨a, b⟩ := pc_out (by simp) h1
            simp only [put, hn a b, if_false] at h2
            exact k.fresh t' o' id' b h2 e he
          · intro o' h1 id' h2
            have hne : o' ≠ o := by rintro rfl; simp [put] at h2
            simp only [put, hne, if_false] at h2
            exact k.there o' h1 id' h2
    · simp at hs
  | destroy t o =>
    simp only [STT.step, Option.ite_none_right_eq_some, Option.some.injEq, Prod.mk.injEq] at hs
    obtain ⟨⟨hp, _, ho, hw⟩, rfl, rfl⟩ := hs
    refine ⟨?_, k.there⟩
    intro t' o' id' h1 h2
    have ht : t' ≠ t := by rintro rfl; simp [put] at h1
    simp only [put, ht, if_false] at h1
    exact k.fresh t' o' id' h1 h2
  | join t =>
    simp only [STT.step] at hs
    split at hs
    · next o hp =>
      split at hs
      · simp at hs
      · next id ho =>
        simp only [Option.ite_none_right_eq_some, Option.some.injEq, Prod.mk.injEq, List.any_eq_true, Bool.and_eq_true, beq_iff_eq] at hs
        obtain ⟨hi, rfl, rfl⟩ := hs
        refine ⟨?_, k.there⟩
        intro t' o' id' h1 h2
        have ht : t' ≠ t := by rintro rfl; simp [put] at h1
        simp only [put, ht, if_false] at h1
        exact k.fresh t' o' id' h1 h2
    · simp at hs
  | erase t =>
    simp only [STT.step] at hs
    split at hs
    · next o hp =>
      split at hs
      · simp at hs
      · next id ho =>
        simp only [Option.some.injEq, Prod.mk.injEq] at hs
        obtain ⟨rfl, rfl⟩ := hs
        constructor
        · intro t' o' id' h1 h2 e he
          obtain ⟨a, b⟩ := pc_out (by simp) h1
          have hne : o' ≠ o := by
            rintro rfl; exact a (h.uniq t' t o' (Or.inl b) (Or.inr (Or.inr hp)))
          simp only [put, hne, if_false] at h2
          exact k.fresh t' o' id' b h2 e (List.mem_filter.1 he).1
        · intro o' h1 id' h2
          have h3 := List.mem_filter.1 h1
          have hne : o' ≠ o := by simpa using h3.2
          simp only [put, hne, if_false] at h2
          have h4 := k.there o' h3.1 id' h2
          refine List.mem_filter.2 ⟨h4, ?_⟩
          simp only [decide_eq_true_eq]
          intro e
          subst e
          have h5 := k.there o (h.des t o (Or.inr hp)) id' ho
          have h6 := inj_of_nodup h.keys h4 h5 rfl
          simp at h6; exact hne h6
    · simp at hs
  | begins o =>
    simp only [STT.step, Option.ite_none_right_eq_some, Option.some.injEq, Prod.mk.injEq] at hs
    obtain ⟨_, rfl, rfl⟩ := hs; exact ⟨k.fresh, k.there⟩
  | ends o =>
    simp only [STT.step, Option.ite_none_right_eq_some, Option.some.injEq, Prod.mk.injEq] at hs
    obtain ⟨_, rfl, rfl⟩ := hs; exact ⟨k.fresh, k.there⟩
  | current id =>
    simp only [STT.step] at hs
    split at hs
    · simp at hs
    · split at hs
      · simp at hs
      · simp only [Option.some.injEq, Prod.mk.injEq] at hs
        obtain ⟨rfl, rfl⟩ := hs; exact k
  | newOs id =>
    simp only [STT.step, Option.ite_none_right_eq_some, Option.some.injEq, Prod.mk.injEq] at hs
    obtain ⟨_, rfl, rfl⟩ := hs; exact ⟨k.fresh, k.there⟩
  | delOs id =>
    simp only [STT.step, Option.some.injEq, Prod.mk.injEq] at hs
    obtain ⟨rfl, rfl⟩ := hs; exact ⟨k.fresh, k.there⟩

theorem InvK.reach (hc : c.reuse = false ∨ c.serial = true) (h : Reachable c s tr) : InvK s (live tr) := by
  induction h with
  | init => exact InvK.init
  | step hr hs ih => rw [live_append]; exact InvK.step hc (Inv.reach hr) ih hs

theorem InvF.step {L R} (hc : c.reuse = false) (h : Inv s L R) (k : InvF s) {a : Act} {ev : List Call} (hs : step c s a = some (s', ev)) : InvF s' := by
  cases a with
  | create t ans =>
    cases ans with
    | none =>
      simp only [STT.step, Option.ite_none_right_eq_some, Option.some.injEq, Prod.mk.injEq] at hs
      obtain ⟨_, rfl, rfl⟩ := hs; exact k
    | some p =>
      obtain ⟨o, id⟩ := p
      simp only [STT.step, Option.ite_none_right_eq_some, Option.some.injEq, Prod.mk.injEq, Bool.and_eq_true, Option.isNone_iff_eq_none] at hs
      obtain ⟨⟨hp, hb⟩, ⟨ho, hi⟩, rfl, rfl⟩ := hs
      intro x hx hj
      rcases List.mem_cons.1 hx with rfl | hx
      · simp at hj
      · exact k x hx hj
  | insert t ok =>
    simp only [STT.step] at hs
    split at hs
    · next o hp =>
      split at hs
      · simp at hs
      · next id ho =>
        split at hs
        · simp only [Option.some.injEq, Prod.mk.injEq] at hs
          obtain ⟨rfl, rfl⟩ := hs
          intro x hx hj e he
          rcases mem_insert he with he | rfl
          · exact k x hx hj e he
          · intro e
            simp only at e
            obtain ⟨y, hy, hyi, hyj⟩ := h.alive o id ho (fun t'' e'' => (h.ins t o hp).2.1 (h.des t'' o (Or.inr e'')))
            have := inj_of_nodup h.osnd hx hy (by rw [← e, hyi])
            subst this
            rcases hyj with e | e <;> rw [hj] at e <;> simp at e
        · simp only [Option.some.injEq, Prod.mk.injEq] at hs
          obtain ⟨rfl, rfl⟩ := hs
          intro x hx; exact k x (List.mem_filter.1 hx).1
    · simp at hs
  | destroy t o =>
    simp only [STT.step, Option.ite_none_right_eq_some, Option.some.injEq, Prod.mk.injEq] at hs
    obtain ⟨_, rfl, rfl⟩ := hs; exact k
  | join t =>
    simp only [STT.step] at hs
    split at hs
    · split at hs
      · simp at hs
      · simp only [Option.ite_none_right_eq_some, Option.some.injEq, Prod.mk.injEq] at hs
        obtain ⟨_, rfl, rfl⟩ := hs
        intro x hx; exact k x (List.mem_filter.1 hx).1
    · simp at hs
  | erase t =>
    simp only [STT.step] at hs
    split at hs
    · split at hs
      · simp at hs
      · simp only [Option.some.injEq, Prod.mk.injEq] at hs
        obtain ⟨rfl, rfl⟩ := hs
        intro x hx hj e he; exact k x hx hj e (List.mem_filter.1 he).1
    · simp at hs
  | begins o =>
    simp only [STT.step, Option.ite_none_right_eq_some, Option.some.injEq, Prod.mk.injEq] at hs
    obtain ⟨_, rfl, rfl⟩ := hs
    intro x hx hj
    obtain ⟨z, hz, e⟩ := List.mem_map.1 hx
    split at e
    · subst e; simp at hj
    · subst e; exact k z hz hj
  | ends o =>
    simp only [STT.step, Option.ite_none_right_eq_some, Option.some.injEq, Prod.mk.injEq] at hs
    obtain ⟨_, rfl, rfl⟩ := hs
    intro x hx hj
    obtain ⟨z, hz, e⟩ := List.mem_map.1 hx
    split at e
    · subst e; simp at hj
    · subst e; exact k z hz hj
  | current id =>
    simp only [STT.step] at hs
    split at hs
    · simp at hs
    · split at hs
      · simp at hs
      · simp only [Option.some.injEq, Prod.mk.injEq] at hs
        obtain ⟨rfl, rfl⟩ := hs; exact k
  | newOs id =>
    simp only [STT.step, Option.ite_none_right_eq_some, Option.some.injEq, Prod.mk.injEq] at hs
    obtain ⟨hi, rfl, rfl⟩ := hs
    intro x hx hj
    rcases List.mem_cons.1 hx with rfl | hx
    · exact (idOk_fresh hi).2 hc
    · exact k x hx hj
  | delOs id =>
    simp only [STT.step, Option.some.injEq, Prod.mk.injEq] at hs
    obtain ⟨rfl, rfl⟩ := hs
    intro x hx; exact k x (List.mem_filter.1 hx).1

theorem InvF.reach (hc : c.reuse = false) (h : Reachable c s tr) : InvF s := by
  induction h with
  | init => exact InvF.init
  | step hr hs ih => exact InvF.step hc (Inv.reach hr) ih hs

theorem one_event {a : Act} {ev : List Call} (hs : step c s a = some (s', ev)) : ev = [] ∨ ∃ e, ev = [e] := by
  cases a with
  | create t ans => cases ans <;> simp only [STT.step] at hs <;> (repeat' split at hs) <;> simp at hs <;> try simp [← hs.2]
  | _ => simp only [STT.step] at hs; (repeat' split at hs); all_goals simp at hs; try simp [← hs.2]

/-- Every event of a history was made by one step from a state reached by the history before it. -/
theorem event_at (h : Reachable c s tr) : ∀ {a b : List Call} {e : Call}, tr = a ++ e :: b → ∃ s0 s1 act, Reachable c s0 a ∧ step c s0 act = some (s1, [e]) := by
  induction h with
  | init => intro a b e h; cases a <;> simp at h
  | @step s tr act s' ev hr hs ih =>
    intro a b e heq
    rcases one_event hs with rfl | ⟨e', rfl⟩
    · exact ih (by simpa using heq)
    · rcases List.eq_nil_or_concat b with rfl | ⟨l, x, rfl⟩
      · obtain ⟨rfl, h2⟩ := List.append_inj' heq (by simp)
        simp only [List.cons.injEq, and_true] at h2; subst h2
        exact ⟨s, s', act, hr, hs⟩
      · have h2 : tr ++ [e'] = (a ++ e :: l) ++ [x] := by simpa using heq
        exact ih (List.append_inj' h2 (by simp)).1

theorem find_some {m : List (Nat × Nat)} {k v : Nat} (h : mapFind m k = some v) : (k, v) ∈ m := by
  simp only [mapFind, Option.map_eq_some_iff] at h
  obtain ⟨⟨a, b⟩, h1, rfl⟩ := h
  have h2 := List.find?_some h1
  have h3 := List.mem_of_find?_eq_some h1
  simp at h2; subst h2; exact h3
theorem find_mem {m : List (Nat × Nat)} {k v : Nat} (hn : (m.map (·.1)).Nodup) (h : (k, v) ∈ m) : mapFind m k = some v := by
  simp only [mapFind, Option.map_eq_some_iff]
  cases hq : m.find? (fun e => e.1 == k) with
  | none =>
    rw [List.find?_eq_none] at hq
    exact absurd (by simp) (hq _ h)
  | some e =>
    have h2 := List.find?_some hq
    have h3 := List.mem_of_find?_eq_some hq
    have := inj_of_nodup hn h3 h (by simpa using h2)
    exact ⟨e, rfl, by rw [this]⟩
theorem find_not {m : List (Nat × Nat)} {k : Nat} (h : ∀ e ∈ m, e.1 ≠ k) : mapFind m k = none := by
  cases hq : mapFind m k with
  | none => rfl
  | some v => exact absurd rfl (h _ (find_some hq))

/-- What a step that reports a getCurrentThread was. -/
theorem current_step {act : Act} {w : Who} {r : Option Nat} (hs : step c s act = some (s', [.current w r])) :
    ∃ x ∈ s.os, (∀ o, x.job ≠ .idle o) ∧ w = who x.job ∧ r = mapFind s.map x.id := by
  cases act with
  | create t ans => cases ans <;> simp only [STT.step] at hs <;> (repeat' split at hs) <;> simp at hs
  | current id =>
    simp only [STT.step] at hs
    split at hs
    · simp at hs
    · next x hx =>
      have h1 := List.find?_some hx
      have h2 := List.mem_of_find?_eq_some hx
      simp at h1; subst h1
      split at hs
      · simp at hs
      · next j hj =>
        simp at hs
        refine ⟨x, h2, fun o e => hj o e, hs.2.1.symm, hs.2.2.symm⟩
  | _ => simp only [STT.step] at hs; (repeat' split at hs); all_goals simp at hs

/-! #### C79 -/

/-- Whatever the surroundings do, getCurrentThread never returns an object that does not exist: only null or a thread object that create has
returned and that no destroy has deleted. -/
theorem C79_alive (h : Reachable c s tr) {a b : List Call} {w : Who} {o : Nat} (e : tr = a ++ .current w (some o) :: b) : o ∈ live a := by
  obtain ⟨s0, s1, act, h0, hs⟩ := event_at h e
  obtain ⟨x, _, _, _, hr⟩ := current_step hs
  exact ((Inv.reach h0).mapObj _ (find_some hr.symm)).2

/-- Code run by a thread object gets that object, if no new thread gets the id of a thread object being destroyed, or if no create overlaps a
destroy.  Missing: neither holds; then the claim is false, `C79_lost`. -/
theorem C79_run_partial (hc : c.reuse = false ∨ c.serial = true) (h : Reachable c s tr) {a b : List Call} {o : Nat} {r : Option Nat}
    (e : tr = a ++ .current (.run o) r :: b) : r = some o ∧ o ∈ live a ∧ o ∈ running a := by
  obtain ⟨s0, s1, act, h0, hs⟩ := event_at h e
  have I := Inv.reach h0
  have K := InvK.reach hc h0
  obtain ⟨x, hx, _, hw, hr⟩ := current_step hs
  have hj : x.job = .busy o := by
    cases hxj : x.job <;> simp [hxj, who] at hw
    rw [hw]
  have ho := I.osobj x hx o (Or.inr hj)
  have hL : o ∈ live a := by
    rcases I.objL o (by simp [ho]) with h1 | ⟨t, h1⟩
    · exact h1
    · exact absurd hj ((I.ins t o h1).2.2 x hx)
  refine ⟨?_, hL, (I.run o).2 ⟨x, hx, hj⟩⟩
  rw [hr]; exact find_mem I.keys (K.there o hL x.id ho)

/-- Any other thread gets null, if no new thread gets the id of a thread object being destroyed.  Missing: with reuse the claim is false,
`C79_mistaken`. -/
theorem C79_other_partial (hc : c.reuse = false) (h : Reachable c s tr) {a b : List Call} {r : Option Nat}
    (e : tr = a ++ .current .other r :: b) : r = none := by
  obtain ⟨s0, s1, act, h0, hs⟩ := event_at h e
  obtain ⟨x, hx, hi, hw, hr⟩ := current_step hs
  have hj : x.job = .foreign := by
    cases hxj : x.job with
    | idle o => exact absurd hxj (hi o)
    | busy o => simp [hxj, who] at hw
    | foreign => rfl
  rw [hr]; exact find_not (InvF.reach hc h0 x hx hj)

/-- create gives an object that does not exist yet. -/
theorem C79_fresh (h : Reachable c s tr) {a b : List Call} {o : Nat} (e : tr = a ++ .create (some o) :: b) : o ∉ live a := by
  obtain ⟨s0, s1, act, h0, hs⟩ := event_at h e
  have I := Inv.reach h0
  cases act with
  | create t ans => cases ans <;> simp only [STT.step] at hs <;> (repeat' split at hs) <;> simp at hs
  | insert t ok =>
    simp only [STT.step] at hs
    split at hs
    · next o' hp =>
      split at hs
      · simp at hs
      · split at hs <;> simp at hs
        obtain ⟨_, rfl⟩ := hs
        exact (I.ins t o' hp).2.1
    · simp at hs
  | _ => simp only [STT.step] at hs; (repeat' split at hs); all_goals simp at hs

/-- A thread that is destroyed existed and is not running. -/
theorem C79_destroy (h : Reachable c s tr) {a b : List Call} {o : Nat} (e : tr = a ++ .destroy o :: b) : o ∈ live a ∧ o ∉ running a := by
  obtain ⟨s0, s1, act, h0, hs⟩ := event_at h e
  have I := Inv.reach h0
  cases act with
  | create t ans => cases ans <;> simp only [STT.step] at hs <;> (repeat' split at hs) <;> simp at hs
  | erase t =>
    simp only [STT.step] at hs
    split at hs
    · next o' hp =>
      split at hs
      · simp at hs
      · simp at hs
        obtain ⟨_, rfl⟩ := hs
        refine ⟨I.des t o' (Or.inr hp), ?_⟩
        intro hr
        obtain ⟨x, hx, hj⟩ := (I.run o').1 hr
        exact I.dead t o' hp x hx (Or.inr hj)
    · simp at hs
  | _ => simp only [STT.step] at hs; (repeat' split at hs); all_goals simp at hs

/-- When no call is in progress, there is exactly one operating system thread per existing object: nothing is leaked. -/
theorem C79_no_leak (h : Reachable c s tr) (hq : s.busy = []) (o : Nat) : o ∈ live tr ↔ ∃ x ∈ s.os, x.job = .idle o ∨ x.job = .busy o := by
  have I := Inv.reach h
  have hno : ∀ t, s.pc t = .out := by
    intro t
    apply Classical.byContradiction
    intro e
    have := (I.bz t).2 e; simp [hq] at this
  constructor
  · intro ho
    obtain ⟨id, hid⟩ := Option.isSome_iff_exists.1 (I.lobj o ho)
    obtain ⟨x, hx, _, hj⟩ := I.alive o id hid (fun t e => by rw [hno t] at e; simp at e)
    exact ⟨x, hx, hj⟩
  · rintro ⟨x, hx, hj⟩
    have := I.osobj x hx o hj
    rcases I.objL o (by simp [this]) with h1 | ⟨t, h1⟩
    · exact h1
    · rw [hno t] at h1; simp at h1

/-- A destroy joins its thread, whose id is then given to a thread that another client creates; its entry is not inserted because the old one
is still there, and the destroy takes the old one away: the code run by the new thread object gets null from getCurrentThread, for ever. -/
def lostRun : List Act := [.create 1 (some (100, 7)), .insert 1 true, .destroy 1 100, .join 1, .create 2 (some (200, 7)), .insert 2 true, .begins 200,
  .current 7, .erase 1, .current 7]
theorem C79_lost : ∃ s tr, Reachable ⟨true, false⟩ s tr ∧
    tr = [.create (some 100), .create (some 200), .begins 200, .current (.run 200) (some 100), .destroy 100, .current (.run 200) none] := by
  obtain ⟨s, tr, h, hp⟩ := Lts.runSat_ex (step := step ⟨true, false⟩) (init := TSt.init) (as := lostRun)
    (P := fun (s : TSt) tr => decide (tr = [.create (some 100), .create (some 200), .begins 200, .current (.run 200) (some 100), .destroy 100, .current (.run 200) none])) (by decide)
  exact ⟨s, tr, h, by simpa using hp⟩

/-- A thread of the program that starts during a destroy and gets the id of the joined thread is told that it is the object being destroyed,
although clients use the factory one at a time. -/
theorem C79_mistaken : ∃ s tr, Reachable ⟨true, true⟩ s tr ∧ tr = [.create (some 100), .current .other (some 100), .destroy 100] := by
  obtain ⟨s, tr, h, hp⟩ := Lts.runSat_ex (step := step ⟨true, true⟩) (init := TSt.init)
    (as := [.create 1 (some (100, 7)), .insert 1 true, .destroy 1 100, .join 1, .newOs 7, .current 7, .erase 1])
    (P := fun (s : TSt) tr => decide (tr = [.create (some 100), .current .other (some 100), .destroy 100])) (by decide)
  exact ⟨s, tr, h, by simpa using hp⟩

/-- The hypotheses are met: two clients, two threads and a foreign thread, an id that is used again after the destroy, overlapping calls. -/
example : ∃ s tr, Reachable ⟨false, false⟩ s tr ∧ tr = [.create (some 100), .create none, .create (some 200), .begins 100, .begins 200,
    .current (.run 100) (some 100), .current .other none, .current (.run 200) (some 200), .ends 100, .create none, .destroy 100, .create (some 100),
    .begins 100, .current (.run 100) (some 100)] ∧ live tr = [100, 200] := by
  obtain ⟨s, tr, h, hp⟩ := Lts.runSat_ex (step := step ⟨false, false⟩) (init := TSt.init)
    (as := [.create 1 (some (100, 7)), .create 2 (some (200, 8)), .newOs 9, .insert 1 true, .create 3 none, .insert 2 true, .begins 100, .begins 200,
      .current 7, .current 9, .current 8, .destroy 1 100, .create 2 (some (300, 10)), .ends 100, .join 1, .insert 2 false, .erase 1,
      .create 1 (some (100, 7)), .insert 1 true, .begins 100, .current 7])
    (P := fun (s : TSt) tr => decide (tr = [.create (some 100), .create none, .create (some 200), .begins 100, .begins 200,
    .current (.run 100) (some 100), .current .other none, .current (.run 200) (some 200), .ends 100, .create none, .destroy 100, .create (some 100),
    .begins 100, .current (.run 100) (some 100)])) (by decide)
  have hp := of_decide_eq_true hp
  exact ⟨s, tr, h, hp, by rw [hp]; decide⟩

end Verif.Props.StdThreadTable
