import Verif.Proof.CCRun
import Verif.Proof.Graph

/-! # Connected components of a window: the calls -/

namespace Verif.CC
open Res Setup

theorem forEach_filter {α : Type} (l : List α) (p : α → Bool) (f : α → List α → Res (List α))
    (hf : ∀ a acc, a ∈ l → f a acc = ok (if p a then acc ++ [a] else acc)) (acc : List α) :
    forEach l f acc = ok (acc ++ l.filter p) := by
  induction l generalizing acc with
  | nil => simp [forEach]
  | cons a l ih =>
    simp only [forEach]
    rw [hf a acc (by simp)]
    simp only [ok_bind]
    rw [ih (fun a acc h => hf a acc (by simp [h]))]
    by_cases h : p a <;> simp [h]

theorem forEach_map {α β : Type} (l : List α) (g : α → β) (f : α → List β → Res (List β))
    (hf : ∀ a acc, a ∈ l → f a acc = ok (acc ++ [g a])) (acc : List β) :
    forEach l f acc = ok (acc ++ l.map g) := by
  induction l generalizing acc with
  | nil => simp [forEach]
  | cons a l ih =>
    simp only [forEach]
    rw [hf a acc (by simp)]
    simp only [ok_bind]
    rw [ih (fun a acc h => hf a acc (by simp [h]))]
    simp

/-- `nodes` lists the nodes with level in `lb .. ub-1` once. -/
structure Window (g : Csc) (lvl : List Nat) (lb ub : Nat) (nodes : List Nat) : Prop where
  lvlLen : lvl.length = g.n
  nodup : nodes.Nodup
  mem : ∀ v, v ∈ nodes ↔ v < g.n ∧ lb ≤ lvl.getD v 0 ∧ lvl.getD v 0 < ub

/-- Neighbours inside the window. -/
def winAdj (g : Csc) (lvl : List Nat) (lb ub u : Nat) : List Nat :=
  (g.col u).filter (fun v => decide (lb ≤ lvl.getD v 0 ∧ lvl.getD v 0 < ub))

theorem hookThread_eq {g : Csc} (hwf : g.WF) {lvl : List Nat} (hl : lvl.length = g.n)
    (lb ub : Nat) {u : Nat} (hu : u < g.n) :
    hookThread g.p g.i lvl lb ub u = ok (.hNext u (winAdj g lvl lb ub u)) := by
  unfold hookThread
  have hp := hwf.plen
  rw [rd_getD 0 (by omega), rd_getD 0 (by omega)]
  simp only [ok_bind]
  have hb : g.ptr u ≤ g.ptr (u + 1) := hwf.mono u hu
  have hb2 : g.ptr (u + 1) ≤ g.i.length := hwf.ptr_le (by omega)
  unfold forRange
  rw [forN_slice g.i _ (fun v vs => do
      let level ← rd lvl v
      if level < lb ∨ ub ≤ level then ok vs else ok (vs ++ [v]))]
  · rw [forEach_filter (p := fun v => decide (lb ≤ lvl.getD v 0 ∧ lvl.getD v 0 < ub))]
    · rfl
    · intro v acc hv
      have hv' : v < g.n := hwf.range u hu v hv
      rw [rd_getD 0 (by omega)]
      simp only [ok_bind]
      by_cases hc : lvl.getD v 0 < lb ∨ ub ≤ lvl.getD v 0
      · rw [if_pos hc, if_neg]
        simp only [decide_eq_true_eq]
        omega
      · rw [if_neg hc, if_pos]
        simp only [decide_eq_true_eq]
        omega
  · unfold Csc.ptr at hb hb2; omega
  · intro j a s _ _ ha
    rw [rd, ha]
    rfl

/-- Setting of a call. -/
def mkSetup (g : Csc) (lvl : List Nat) (lb ub : Nat) (nodes : List Nat) : Setup where
  e := ⟨nodes, nodes.map (fun u => .hNext u (winAdj g lvl lb ub u))⟩
  n := g.n
  adj := winAdj g lvl lb ub

variable {g : Csc} {lvl : List Nat} {lb ub : Nat} {nodes : List Nat}

theorem mkEnv_eq (hwf : g.WF) (hW : Window g lvl lb ub nodes) :
    mkEnv g.p g.i lvl lb ub nodes = ok (mkSetup g lvl lb ub nodes).e := by
  unfold mkEnv hookThreads
  rw [forEach_map (g := fun u => Thr.hNext u (winAdj g lvl lb ub u))]
  · rfl
  · intro u acc hu
    rw [hookThread_eq hwf hW.lvlLen lb ub ((hW.mem u).1 hu).1]
    rfl

theorem mkSetup_ok (hwf : g.WF) (hW : Window g lvl lb ub nodes) :
    (mkSetup g lvl lb ub nodes).Ok where
  nodup := hW.nodup
  lt := fun u hu => ((hW.mem u).1 hu).1
  hooks := rfl
  adjIn := by
    intro u hu v hv
    obtain ⟨h1, h2⟩ := List.mem_filter.1 hv
    simp only [decide_eq_true_eq] at h2
    exact (hW.mem v).2 ⟨hwf.range u ((hW.mem u).1 hu).1 v h1, h2⟩

theorem C_iff (hwf : g.WF) (hW : Window g lvl lb ub nodes) {u v : Nat} :
    (mkSetup g lvl lb ub nodes).C u v ↔ g.Connected (· ∈ nodes) u v := by
  constructor
  · intro h
    induction h with
    | rel u v hE =>
      obtain ⟨hu, hv⟩ := hE
      have hv' := (mkSetup_ok hwf hW).adjIn u hu v hv
      by_cases he : u = v
      · subst he; exact Relation.EqvGen.refl _
      · exact Relation.EqvGen.rel _ _ ⟨hu, hv', ((hW.mem u).1 hu).1, (List.mem_filter.1 hv).1, he⟩
    | refl => exact Relation.EqvGen.refl _
    | symm _ _ _ ih => exact Relation.EqvGen.symm _ _ ih
    | trans _ _ _ _ _ ih1 ih2 => exact Relation.EqvGen.trans _ _ _ ih1 ih2
  · intro h
    induction h with
    | rel u v hE =>
      obtain ⟨hu, hv, hd⟩ := hE
      refine Relation.EqvGen.rel _ _ ⟨hu, List.mem_filter.2 ⟨hd.2.1, ?_⟩⟩
      simp only [decide_eq_true_eq]
      exact ((hW.mem v).1 hv).2
    | refl => exact Relation.EqvGen.refl _
    | symm _ _ _ ih => exact Relation.EqvGen.symm _ _ ih
    | trans _ _ _ _ _ ih1 ih2 => exact Relation.EqvGen.trans _ _ _ ih1 ih2

/-- Exact labels of the nodes `nodes`: labels are positions, roots label themselves, and two nodes
have the same label iff they are connected. -/
structure Labels (g : Csc) (nodes : List Nat) (lab : List Int) : Prop where
  len : lab.length = g.n
  range : ∀ k, k < nodes.length → 0 ≤ lab.getD (nodes.getD k 0) 0 ∧
    lab.getD (nodes.getD k 0) 0 ≤ k
  root : ∀ k, k < nodes.length →
    lab.getD (nodes.getD (lab.getD (nodes.getD k 0) 0).toNat 0) 0 = lab.getD (nodes.getD k 0) 0
  conn : ∀ u ∈ nodes, ∀ v ∈ nodes,
    lab.getD u 0 = lab.getD v 0 ↔ g.Connected (· ∈ nodes) u v

theorem labels_of_done (hwf : g.WF) (hW : Window g lvl lb ub nodes) {F : List Int} {s : State}
    (hD : (mkSetup g lvl lb ub nodes).DoneInv F s) : Labels g nodes s.lab where
  len := hD.ok.len
  range := fun k hk => ⟨(hD.ok.good k hk).1, (hD.ok.good k hk).2.1⟩
  root := hD.star
  conn := fun _ hu _ hv => ⟨fun h => (C_iff hwf hW).1 (hD.C_of_eq hu hv h),
    fun h => hD.eq_of_C ((C_iff hwf hW).2 h)⟩

theorem ccStart_inv {lab : List Int} (hl : lab.length = g.n) :
    (mkSetup g lvl lb ub nodes).InitInv lab 0 (ccStart nodes lab) where
  phase := rfl
  len := hl
  mle := Nat.zero_le _
  old := by intro k hk; omega
  frame := fun _ _ => rfl
  tlen := by simp [ccStart, N, mkSetup]
  thr := by
    intro j t ht
    simp only [ccStart, List.getElem?_map, List.getElem?_zipIdx] at ht
    obtain ⟨⟨u, i⟩, h1, rfl⟩ := Option.map_eq_some_iff.1 ht
    obtain ⟨w, h2, h3⟩ := Option.map_eq_some_iff.1 h1
    simp only [Prod.mk.injEq] at h3
    obtain ⟨rfl, rfl⟩ := h3
    refine ⟨?_, rfl⟩
    simp [nd, mkSetup, h2]

theorem parallelCC_spec (hwf : g.WF) (hW : Window g lvl lb ub nodes) {lab : List Int}
    (hl : lab.length = g.n) :
    (∀ sch, wpl (parallelCC g.p g.i lb ub lvl nodes lab sch) (fun lab' =>
      Labels g nodes lab' ∧ ∀ v, v ∉ nodes → lab'.getD v 0 = lab.getD v 0)) ∧
    ∃ sch lab', parallelCC g.p g.i lb ub lvl nodes lab sch = ok lab' := by
  have hI := ccStart_inv (lvl := lvl) (lb := lb) (ub := ub) (nodes := nodes) hl
  constructor
  · intro sch
    unfold parallelCC
    rw [mkEnv_eq hwf hW]
    simp only [ok_bind, wpl_bind]
    refine wpl_mono (run_spec (mkSetup_ok hwf hW) (.init hI) sch) ?_
    intro s hD
    simp only [wpl_ok]
    exact ⟨labels_of_done hwf hW hD, hD.frame⟩
  · obtain ⟨sch, s, hs⟩ := run_complete (mkSetup_ok hwf hW) _ _ (.init hI)
    refine ⟨sch, s.lab, ?_⟩
    unfold parallelCC
    rw [mkEnv_eq hwf hW]
    simp only [ok_bind, hs]

theorem Connected.mono {g : Csc} {W W' : Nat → Prop} (h : ∀ v, W v → W' v) {u v : Nat}
    (hc : g.Connected W u v) : g.Connected W' u v := by
  induction hc with
  | rel u v hE => exact Relation.EqvGen.rel _ _ ⟨h _ hE.1, h _ hE.2.1, hE.2.2⟩
  | refl => exact Relation.EqvGen.refl _
  | symm _ _ _ ih => exact Relation.EqvGen.symm _ _ ih
  | trans _ _ _ _ _ ih1 ih2 => exact Relation.EqvGen.trans _ _ _ ih1 ih2

theorem incStart_inv {old new : List Nat} (hwf : g.WF) (hW : Window g lvl lb ub (old ++ new))
    {lab : List Int} (ho : Labels g old lab) (hn : ∀ v ∈ new, lab.getD v 0 = -1) :
    (mkSetup g lvl lb ub (old ++ new)).InitInv lab old.length
      (incStart (old ++ new) old.length lab) where
  phase := rfl
  len := ho.len
  mle := by simp [N, mkSetup]
  old := by
    intro k hk
    have e : ∀ j, j < old.length → (mkSetup g lvl lb ub (old ++ new)).nd j = old.getD j 0 := by
      intro j hj
      simp [nd, mkSetup, hj, List.getElem?_append_left]
    have hr := ho.range k hk
    have hroot := ho.root k hk
    have hlt : (lab.getD (old.getD k 0) 0).toNat < old.length := by omega
    have e1 : (mkSetup g lvl lb ub (old ++ new)).L lab k = lab.getD (old.getD k 0) 0 := by
      unfold L; rw [e k hk]
    have hm : ∀ j, j < old.length → old.getD j 0 ∈ old := by intro j hj; simp [hj]
    simp only [incStart]
    rw [e1]
    refine ⟨⟨hr.1, hr.2, ?_⟩, ?_⟩
    · rw [e _ hlt, e k hk, C_iff hwf hW]
      have := (ho.conn _ (hm _ hlt) _ (hm k hk)).1 hroot
      exact Connected.mono (fun v hv => List.mem_append_left _ hv) this
    · unfold L
      rw [e _ hlt]
      exact hroot
  frame := fun _ _ => rfl
  tlen := by simp [incStart, N, mkSetup]
  thr := by
    intro j t ht
    simp only [incStart, List.getElem?_map, List.getElem?_drop, List.getElem?_zipIdx] at ht
    obtain ⟨⟨u, i⟩, h1, rfl⟩ := Option.map_eq_some_iff.1 ht
    obtain ⟨w, h2, h3⟩ := Option.map_eq_some_iff.1 h1
    simp only [Prod.mk.injEq] at h3
    obtain ⟨rfl, rfl⟩ := h3
    have e : (mkSetup g lvl lb ub (old ++ new)).nd (old.length + j) = w := by
      unfold nd mkSetup
      rw [List.getD_eq_getElem?_getD, h2]; rfl
    refine ⟨e.symm, by omega, ?_⟩
    unfold L
    rw [e]
    apply hn
    rw [List.getElem?_append_right (by omega)] at h2
    exact List.mem_of_getElem? h2

theorem incrementalCC_spec {old new : List Nat} (hwf : g.WF)
    (hW : Window g lvl lb ub (old ++ new))
    {lab : List Int} (ho : Labels g old lab) (hn : ∀ v ∈ new, lab.getD v 0 = -1) :
    (∀ sch, wpl (incrementalCC g.p g.i lb ub lvl (old ++ new) old.length lab sch) (fun lab' =>
      Labels g (old ++ new) lab' ∧ ∀ v, v ∉ old ++ new → lab'.getD v 0 = lab.getD v 0)) ∧
    ∃ sch lab', incrementalCC g.p g.i lb ub lvl (old ++ new) old.length lab sch = ok lab' := by
  have hI := incStart_inv hwf hW ho hn
  constructor
  · intro sch
    unfold incrementalCC
    rw [mkEnv_eq hwf hW]
    simp only [ok_bind, wpl_bind]
    refine wpl_mono (run_spec (mkSetup_ok hwf hW) (.init hI) sch) ?_
    intro s hD
    simp only [wpl_ok]
    exact ⟨labels_of_done hwf hW hD, hD.frame⟩
  · obtain ⟨sch, s, hs⟩ := run_complete (mkSetup_ok hwf hW) _ _ (.init hI)
    refine ⟨sch, s.lab, ?_⟩
    unfold incrementalCC
    rw [mkEnv_eq hwf hW]
    simp only [ok_bind, hs]

end Verif.CC
