import Verif.Model.P2P
import Verif.Proof.ExecLevels
import Mathlib.Order.WellFounded
import Mathlib.Data.Fintype.Order
import Mathlib.Data.Fintype.EquivFin

/-! Point-to-point solvers: every execution gives the solution, and none gets stuck. -/

namespace Verif.P2P
open Res Exec Relation

variable {V : Type} {A : Arith V} {m : Mat V}

/-- Coarse steps of a thread: wait for a task, compute a row, set a flag. -/
inductive Atom where
  | W (p : Nat)
  | R (i : Nat)
  | N (t : Nat)
deriving DecidableEq

/-- The threads, tasks, parents and rows of a task graph. -/
structure Plan where
  T : Nat
  ntasks : Nat
  tasks : Nat → List Nat
  parents : Nat → List Nat
  rows : Nat → List Nat

namespace Plan

/-- Coarse steps of a task. -/
def taskAtoms (P : Plan) (t : Nat) : List Atom :=
  (P.parents t).map .W ++ (P.rows t).map .R ++ [.N t]

/-- Coarse steps of a thread. -/
def atoms (P : Plan) (t : Nat) : List Atom := (P.tasks t).flatMap P.taskAtoms

/-- Order of the tasks. -/
inductive Bef (P : Plan) : Nat → Nat → Prop
  | thread {t a b : Nat} {pre post : List Nat} : t < P.T → P.tasks t = pre ++ b :: post → a ∈ pre →
      Bef P a b
  | parent {a b : Nat} : a ∈ P.parents b → Bef P a b

/-- Correct plans. -/
structure Good (P : Plan) (n : Nat) (dep : Nat → Nat → Prop) : Prop where
  uniq : ∀ t t' a, t < P.T → t' < P.T → a ∈ P.tasks t → a ∈ P.tasks t' → t = t'
  nodup : ∀ t, t < P.T → (P.tasks t).Nodup
  cover : ∀ a, a < P.ntasks ↔ ∃ t, t < P.T ∧ a ∈ P.tasks t
  rows : ((List.range P.ntasks).flatMap P.rows).Perm (List.range n)
  par : ∀ t, t < P.ntasks → ∀ p ∈ P.parents t, p < P.ntasks
  dep : ∀ t, t < P.ntasks → ∀ pre v post, P.rows t = pre ++ v :: post → ∀ u, dep u v →
    u ∈ pre ∨ ∃ s, s < P.ntasks ∧ u ∈ P.rows s ∧ TransGen P.Bef s t
  acyclic : ∀ t, t < P.ntasks → ¬ TransGen P.Bef t t

end Plan

theorem flatMap_split {α β : Type} (f : α → List β) : ∀ (l : List α) (a : List β) (x : β) (b : List β),
    l.flatMap f = a ++ x :: b → ∃ l1 y l2 p q, l = l1 ++ y :: l2 ∧ f y = p ++ x :: q ∧
      a = l1.flatMap f ++ p ∧ b = q ++ l2.flatMap f := by
  intro l
  induction l with
  | nil => intro a x b h; simp at h
  | cons y l ih =>
    intro a x b h
    rw [List.flatMap_cons, List.append_eq_append_iff] at h
    rcases h with ⟨as, h1, h2⟩ | ⟨bs, h1, h2⟩
    · obtain ⟨l1, z, l2, p, q, e1, e2, e3, e4⟩ := ih as x b h2
      exact ⟨y :: l1, z, l2, p, q, by rw [e1]; rfl, e2, by
        rw [h1, e3, List.flatMap_cons, List.append_assoc], e4⟩
    · cases bs with
      | nil =>
        rw [List.nil_append] at h2
        obtain ⟨l1, z, l2, p, q, e1, e2, e3, e4⟩ := ih [] x b h2.symm
        exact ⟨y :: l1, z, l2, p, q, by rw [e1]; rfl, e2, by
          rw [List.append_nil] at h1
          rw [List.flatMap_cons, List.append_assoc, ← e3, List.append_nil, h1], e4⟩
      | cons z bs =>
        rw [List.cons_append, List.cons.injEq] at h2
        obtain ⟨rfl, rfl⟩ := h2
        exact ⟨[], y, l, a, bs, rfl, h1, rfl, rfl⟩

namespace Plan.Good
variable {P : Plan} {n : Nat} {dep : Nat → Nat → Prop}

theorem mem_row_lt (h : P.Good n dep) {t i : Nat} (ht : t < P.ntasks) (hi : i ∈ P.rows t) : i < n :=
  List.mem_range.1 (h.rows.mem_iff.1 (List.mem_flatMap.2 ⟨t, List.mem_range.2 ht, hi⟩))

theorem exists_task (h : P.Good n dep) {i : Nat} (hi : i < n) : ∃ t, t < P.ntasks ∧ i ∈ P.rows t := by
  obtain ⟨t, ht, hi⟩ := List.mem_flatMap.1 (h.rows.mem_iff.2 (List.mem_range.2 hi))
  exact ⟨t, List.mem_range.1 ht, hi⟩

theorem rows_nodup (h : P.Good n dep) : ((List.range P.ntasks).flatMap P.rows).Nodup :=
  h.rows.nodup_iff.2 List.nodup_range

theorem row_nodup (h : P.Good n dep) {t : Nat} (ht : t < P.ntasks) : (P.rows t).Nodup :=
  (List.nodup_flatMap.1 h.rows_nodup).1 t (List.mem_range.2 ht)

theorem row_task (h : P.Good n dep) {t t' i : Nat} (ht : t < P.ntasks) (ht' : t' < P.ntasks)
    (hi : i ∈ P.rows t) (hi' : i ∈ P.rows t') : t = t' := by
  by_contra hc
  have := (List.nodup_flatMap.1 h.rows_nodup).2
  rw [List.pairwise_iff_getElem] at this
  rcases Nat.lt_or_gt_of_ne hc with hlt | hlt
  · have := this t t' (by simpa) (by simpa) hlt
    simp only [List.getElem_range] at this
    exact this hi hi'
  · have := this t' t (by simpa) (by simpa) hlt
    simp only [List.getElem_range] at this
    exact this hi' hi

/-- The wait for `p` is part of a task with parent `p`. -/
theorem mem_W {t p : Nat} (h : Atom.W p ∈ P.taskAtoms t) : p ∈ P.parents t := by
  unfold Plan.taskAtoms at h
  simpa using h

theorem mem_R {t i : Nat} (h : Atom.R i ∈ P.taskAtoms t) : i ∈ P.rows t := by
  unfold Plan.taskAtoms at h
  simpa using h

theorem mem_N {t a : Nat} (h : Atom.N a ∈ P.taskAtoms t) : a = t := by
  unfold Plan.taskAtoms at h
  simpa using h

theorem task_lt (h : P.Good n dep) {t a : Nat} (ht : t < P.T) (ha : a ∈ P.tasks t) : a < P.ntasks :=
  (h.cover a).2 ⟨t, ht, ha⟩

/-- Each row is computed by one thread. -/
theorem row_thread (h : P.Good n dep) {t t' i : Nat} (ht : t < P.T) (ht' : t' < P.T)
    (hi : Atom.R i ∈ P.atoms t) (hi' : Atom.R i ∈ P.atoms t') : t = t' := by
  obtain ⟨a, ha, h1⟩ := List.mem_flatMap.1 hi
  obtain ⟨b, hb, h2⟩ := List.mem_flatMap.1 hi'
  have := h.row_task (h.task_lt ht ha) (h.task_lt ht' hb) (mem_R h1) (mem_R h2)
  subst this
  exact h.uniq t t' a ht ht' ha hb

theorem taskAtoms_rows {a : Nat} :
    ∀ i pre post, P.taskAtoms a = pre ++ Atom.R i :: post →
      ∃ rp rq, P.rows a = rp ++ i :: rq ∧ pre = (P.parents a).map .W ++ rp.map .R ∧
        post = rq.map .R ++ [.N a] := by
  intro i pre post hp
  unfold Plan.taskAtoms at hp
  rw [List.append_assoc, List.append_eq_append_iff] at hp
  rcases hp with ⟨as, h1, h2⟩ | ⟨bs, h1, h2⟩
  · rw [List.append_eq_append_iff] at h2
    rcases h2 with ⟨as', h3, h4⟩ | ⟨bs', h3, h4⟩
    · cases as' with
      | nil => simp at h4
      | cons z as' => simp at h4
    · cases bs' with
      | nil => simp at h4
      | cons z bs' =>
        rw [List.cons_append, List.cons.injEq] at h4
        obtain ⟨rfl, rfl⟩ := h4
        rw [List.map_eq_append_iff] at h3
        obtain ⟨rp, r2, e1, e2, e3⟩ := h3
        rw [List.map_eq_cons_iff] at e3
        obtain ⟨i', rq, e4, e5, e6⟩ := e3
        cases e5
        exact ⟨rp, rq, by rw [e1, e4], by rw [h1, e2], by rw [e6]⟩
  · cases bs with
    | nil =>
      rw [List.nil_append] at h2
      rw [List.append_nil] at h1
      cases hr : P.rows a with
      | nil => rw [hr] at h2; simp at h2
      | cons r rs =>
        rw [hr] at h2
        simp at h2
        obtain ⟨rfl, rfl⟩ := h2
        exact ⟨[], rs, rfl, by simp [h1], by simp⟩
    | cons z bs =>
      rw [List.cons_append, List.cons.injEq] at h2
      have : Atom.R i ∈ (P.parents a).map Atom.W := by rw [h1, ← h2.1]; simp
      simp at this

/-- Each row occurs once in its thread. -/
theorem row_once (h : P.Good n dep) {t i : Nat} (ht : t < P.T) {pre post : List Atom}
    (hp : P.atoms t = pre ++ Atom.R i :: post) : Atom.R i ∉ pre ∧ Atom.R i ∉ post := by
  obtain ⟨l1, a, l2, p, q, e1, e2, e3, e4⟩ := flatMap_split _ _ _ _ _ hp
  have ha : a ∈ P.tasks t := by rw [e1]; simp
  have hal := h.task_lt ht ha
  obtain ⟨rp, rq, f1, f2, f3⟩ := taskAtoms_rows i p q e2
  have hnd := h.row_nodup hal
  rw [f1] at hnd
  have hi : i ∈ P.rows a := by rw [f1]; simp
  have hnt := h.nodup t ht
  rw [e1] at hnt
  have hout : ∀ l : List Nat, (∀ b ∈ l, b ∈ P.tasks t) → a ∉ l → Atom.R i ∉ l.flatMap P.taskAtoms := by
    intro l hl hal' hc
    obtain ⟨b, hb, hb'⟩ := List.mem_flatMap.1 hc
    have := h.row_task hal (h.task_lt ht (hl b hb)) hi (mem_R hb')
    subst this
    exact hal' hb
  rw [List.nodup_append] at hnt hnd
  constructor
  · rw [e3, List.mem_append]
    rintro (hc | hc)
    · refine hout l1 (fun b hb => by rw [e1]; simp [hb]) ?_ hc
      intro hc'
      exact hnt.2.2 a hc' a (by simp) rfl
    · rw [f2] at hc
      simp at hc
      exact hnd.2.2 i hc i (by simp) rfl
  · rw [e4, List.mem_append]
    rintro (hc | hc)
    · rw [f3] at hc
      simp at hc
      exact (List.nodup_cons.1 hnd.2.1).1 hc
    · refine hout l2 (fun b hb => by rw [e1]; simp [hb]) ?_ hc
      exact (List.nodup_cons.1 hnt.2.1).1

end Plan.Good

/-! ### What has happened -/

/-- Task `a` has set its flag. -/
def Fin' (P : Plan) (done : Nat → List Atom) (a : Nat) : Prop := ∃ t, t < P.T ∧ Atom.N a ∈ done t

/-- Row `i` is computed. -/
def RowDone (P : Plan) (done : Nat → List Atom) (i : Nat) : Prop := ∃ t, t < P.T ∧ Atom.R i ∈ done t

/-- Task `a` has begun: all tasks before it in its thread are finished, and it has waited for all its
parents. -/
def Started (P : Plan) (done : Nat → List Atom) (a : Nat) : Prop :=
  ∃ t pre post, t < P.T ∧ P.tasks t = pre ++ a :: post ∧
    (∀ b ∈ pre, ∀ x ∈ P.taskAtoms b, x ∈ done t) ∧ ∀ p ∈ P.parents a, Atom.W p ∈ done t

/-- All steps of task `a` are made. -/
def Full (P : Plan) (done : Nat → List Atom) (a : Nat) : Prop :=
  Started P done a ∧ ∃ t, t < P.T ∧ ∀ x ∈ P.taskAtoms a, x ∈ done t

/-- The steps made so far. -/
structure Hist (P : Plan) (done : Nat → List Atom) : Prop where
  pre : ∀ t, t < P.T → done t <+: P.atoms t
  waited : ∀ t, t < P.T → ∀ p, Atom.W p ∈ done t → Fin' P done p

theorem Hist.full {P : Plan} {done : Nat → List Atom} (h : Hist P done) {a : Nat}
    (ha : Fin' P done a) : Full P done a := by
  obtain ⟨t, ht, hN⟩ := ha
  obtain ⟨x, y, hxy⟩ := List.append_of_mem hN
  obtain ⟨rest, hr⟩ := h.pre t ht
  rw [hxy, List.append_assoc, List.cons_append] at hr
  obtain ⟨l1, b, l2, p, q, e1, e2, e3, e4⟩ := flatMap_split _ _ _ _ _ hr.symm
  have hb : a = b := Plan.Good.mem_N (by rw [e2]; simp)
  subst hb
  have hq : ∀ z ∈ P.taskAtoms a, z ∈ p ∨ z = Atom.N a := by
    intro z hz
    unfold Plan.taskAtoms at e2 hz
    rw [List.append_eq_append_iff] at e2
    rcases e2 with ⟨as, h1, h2⟩ | ⟨bs, h1, h2⟩
    · rw [List.mem_append] at hz
      rcases hz with hz | hz
      · exact .inl (by rw [h1]; exact List.mem_append_left _ hz)
      · exact .inr (by simpa using hz)
    · cases bs with
      | nil =>
        rw [List.append_nil] at h1
        rw [List.mem_append, h1] at hz
        rcases hz with hz | hz
        · exact .inl hz
        · exact .inr (by simpa using hz)
      | cons w bs =>
        rw [List.cons_append, List.cons.injEq] at h2
        have : Atom.N a ∈ (P.parents a).map Atom.W ++ (P.rows a).map Atom.R := by
          rw [h1, ← h2.1]; simp
        simp at this
  have hall : ∀ z ∈ P.taskAtoms a, z ∈ done t := by
    intro z hz
    rw [hxy, e3]
    rcases hq z hz with hz | hz
    · simp [hz]
    · simp [hz]
  refine ⟨⟨t, l1, l2, ht, e1, ?_, ?_⟩, t, ht, hall⟩
  · intro b hb x hx
    rw [hxy, e3]
    exact List.mem_append_left _ (List.mem_append_left _ (List.mem_flatMap.2 ⟨b, hb, hx⟩))
  · intro p hp
    exact hall _ (by unfold Plan.taskAtoms; simp [hp])

/-- If a task has begun, all tasks that come before it are finished. -/
theorem Hist.before {P : Plan} {n : Nat} {dep : Nat → Nat → Prop} (hP : P.Good n dep)
    {done : Nat → List Atom} (h : Hist P done) {a b : Nat}
    (hb : Started P done b) (hab : P.Bef a b) : Full P done a := by
  obtain ⟨t, pre, post, ht, e1, e2, e3⟩ := hb
  cases hab with
  | @thread t' _ _ pre' post' ht' f1 f2 =>
    have : t = t' := hP.uniq t t' b ht ht' (by rw [e1]; simp) (by rw [f1]; simp)
    subst this
    have hnd := hP.nodup t ht
    have hpp : pre = pre' := by
      rw [e1] at hnd f1
      have hn1 : b ∉ pre := fun hc => (List.nodup_append.1 hnd).2.2 b hc b (by simp) rfl
      have hn2 : b ∉ pre' := by
        rw [f1] at hnd
        exact fun hc => (List.nodup_append.1 hnd).2.2 b hc b (by simp) rfl
      rw [List.append_eq_append_iff] at f1
      rcases f1 with ⟨as, g1, g2⟩ | ⟨bs, g1, g2⟩
      · cases as with
        | nil => simpa using g1.symm
        | cons z as =>
          rw [List.cons_append, List.cons.injEq] at g2
          exact absurd (by rw [g1, ← g2.1]; simp) hn2
      · cases bs with
        | nil => simpa using g1
        | cons z bs =>
          rw [List.cons_append, List.cons.injEq] at g2
          exact absurd (by rw [g1, ← g2.1]; simp) hn1
    subst hpp
    exact h.full ⟨t, ht, e2 a f2 _ (by unfold Plan.taskAtoms; simp)⟩
  | parent hp => exact h.full (h.waited t ht a (e3 a hp))

theorem Hist.before_trans {P : Plan} {n : Nat} {dep : Nat → Nat → Prop} (hP : P.Good n dep)
    {done : Nat → List Atom} (h : Hist P done) {a b : Nat}
    (hb : Started P done b) (hab : TransGen P.Bef a b) : Full P done a := by
  induction hab using TransGen.head_induction_on with
  | single h1 => exact h.before hP hb h1
  | head h1 _ ih => exact h.before hP ih.1 h1

/-- Before a row is computed, all rows it uses are computed. -/
theorem Hist.deps {P : Plan} {n : Nat} {dep : Nat → Nat → Prop} (hP : P.Good n dep)
    {done : Nat → List Atom} (h : Hist P done) {t i : Nat} (ht : t < P.T) {rest : List Atom}
    (hr : P.atoms t = done t ++ Atom.R i :: rest) {u : Nat} (hu : dep u i) : RowDone P done u := by
  obtain ⟨l1, a, l2, p, q, e1, e2, e3, e4⟩ := flatMap_split _ _ _ _ _ hr
  have ha : a ∈ P.tasks t := by rw [e1]; simp
  have hal := hP.task_lt ht ha
  obtain ⟨rp, rq, f1, f2, f3⟩ := Plan.Good.taskAtoms_rows i p q e2
  rcases hP.dep a hal rp i rq f1 u hu with hd | ⟨s, hs, hus, hd⟩
  · exact ⟨t, ht, by rw [e3, f2]; simp [hd]⟩
  · have hst : Started P done a := by
      refine ⟨t, l1, l2, ht, e1, ?_, ?_⟩
      · intro b hb x hx
        rw [e3]
        exact List.mem_append_left _ (List.mem_flatMap.2 ⟨b, hb, hx⟩)
      · intro p hp
        rw [e3, f2]
        simp [hp]
    obtain ⟨_, t', ht', hall⟩ := h.before_trans hP hst hd
    exact ⟨t', ht', hall _ (by unfold Plan.taskAtoms; simp [hus])⟩

end Verif.P2P
