import Verif.Proof.RunGroup
import Verif.Proof.Pipeline
import Verif.Proof.Extend
import Verif.Proof.ExecGroup
import Verif.Spec.Mat

/-! # Schedules made of a level set of groups, and graphs made of lists -/

namespace Verif
open Res Relation Verif.Group Exec

/-- A level set of groups in which the groups come after the groups they depend on gives a valid
schedule of the rows, if the rows inside each group are in a suitable order `R`. -/
theorem levels_expand_valid {g : Csc} (hg : g.WF) {G : Grouping} (hP : G.Partition g.n)
    {L : Nat} {lp ls : List Nat} (hlen : ls.length = G.num) (hp : PtrOk lp L G.num)
    (hperm : ls.Perm (List.range G.num))
    (hlev : ∀ a c l l', G.Dep g a c → l < L → l' < L → InLevel lp ls l a → InLevel lp ls l' c →
      l < l') {R : Nat → Nat → Prop} (hR : ∀ u v, g.Dep u v → ¬ R v u)
    (hs : ∀ j, j < G.num → (groupRows G.ptr G.set j).Pairwise R) :
    ((Sched.ofLevels L lp ls).expand G.ptr G.set).Valid g.n g.Dep := by
  have hpart : PtrOk (Sched.ofLevels L lp ls).partPtr G.num G.num := by
    refine PtrOk.mk' (by simp [Sched.ofLevels, hlen]) (by simp [Sched.ofLevels]) ?_ ?_
    · simp [Sched.ofLevels, hlen]
    · intro t ht
      simp only [Sched.ofLevels, hlen]
      rw [getD_range (by omega), getD_range (by omega)]
      omega
  have hpt : ∀ t, t ≤ G.num → (Sched.ofLevels L lp ls).partPtr.getD t 0 = t := by
    intro t ht
    simp only [Sched.ofLevels, hlen]
    rw [getD_range (by omega)]
  have hcomp : (Sched.ofLevels L lp ls).Complete G.num := by
    show (ls.take G.num).Perm _
    rw [List.take_of_length_le hlen.le]
    exact hperm
  have hexp : (Sched.ofLevels L lp ls).expand G.ptr G.set
      = ⟨L, lp, unpackPtr (Sched.ofLevels L lp ls) G G.num,
        unpackedTo (Sched.ofLevels L lp ls) G G.num⟩ := by
    unfold Sched.expand unpackPtr
    congr 1
    · simp only [Sched.ofLevels, hlen]
      apply List.map_congr_left
      intro k hk
      rw [List.mem_range] at hk
      rw [getD_range (by omega)]
      rfl
    · show _ = (ls.take G.num).flatMap _
      rw [List.take_of_length_le hlen.le]
      rfl
  rw [hexp]
  refine regroup_valid (g := g) (G := G) (s := Sched.ofLevels L lp ls) (parts := G.num) (R := R)
    (l := unpackedTo (Sched.ofLevels L lp ls) G G.num) hg hP hp hpart hcomp ?_ (.refl _) ?_ hR
  · intro a c hac l q k l' q' k' hx hy
    left
    have hin : ∀ a l q k, (Sched.ofLevels L lp ls).At a l q k → InLevel lp ls l a := by
      rintro a l q k ⟨hl, hq, hk, ha⟩
      refine ⟨k, ?_, ha⟩
      have hq : InBlock lp l q := hq
      have hl : l < L := hl
      rw [hp.inBlock_iff hl] at hq
      have hqn : q < G.num := by have := hp.dle (b := l + 1) hl; omega
      rw [hpart.inBlock_iff hqn, hpt q (by omega), hpt (q + 1) (by omega)] at hk
      rw [show k = q by omega]
      exact (hp.inBlock_iff hl).2 hq
    exact hlev a c l l' hac hx.1 hy.1 (hin _ _ _ _ hx) (hin _ _ _ _ hy)
  · intro t ht
    refine ⟨.refl _, ?_⟩
    rw [unpackPtr_getD _ _ ht.le, unpackPtr_getD _ _ ht, hpt t ht.le, hpt (t + 1) ht,
      unpackedTo_slice _ _ (Nat.le_succ t) ht]
    have hgt := getElem?_getD (l := ls) 0 (j := t) (by omega)
    rw [show slice (Sched.ofLevels L lp ls).nodes t (t + 1) = [ls.getD t 0] from by
        show slice ls t (t + 1) = _
        unfold slice
        rw [Nat.add_sub_cancel_left, List.take_one, List.head?_drop, hgt]
        rfl, List.flatMap_singleton]
    exact hs _ (List.mem_range.1 (hperm.mem_iff.1 (List.mem_of_getElem? hgt)))

/-- The graph whose columns are the given lists. -/
def Csc.ofCols (cols : List (List Nat)) : Csc where
  n := cols.length
  p := (List.range (cols.length + 1)).map fun k => (cols.take k).flatten.length
  i := cols.flatten

namespace Csc

theorem ofCols_ptr (cols : List (List Nat)) {k : Nat} (h : k ≤ cols.length) :
    (ofCols cols).ptr k = (cols.take k).flatten.length := by
  unfold ptr ofCols
  dsimp only
  rw [List.getD_eq_getElem?_getD, List.getElem?_map, List.getElem?_range (by omega)]
  rfl

theorem ofCols_col (cols : List (List Nat)) {u : Nat} (h : u < cols.length) :
    (ofCols cols).col u = cols.getD u [] := by
  unfold col
  rw [ofCols_ptr cols (by omega), ofCols_ptr cols (by omega)]
  exact Group.slice_flatten cols h

theorem ofCols_wf {cols : List (List Nat)} (h : ∀ c ∈ cols, ∀ v ∈ c, v < cols.length) :
    (ofCols cols).WF := by
  refine ⟨by simp [ofCols], by rw [ofCols_ptr _ (Nat.zero_le _)]; rfl, ?_, ?_, ?_⟩
  · intro u hu
    have hu : u < cols.length := hu
    rw [ofCols_ptr cols (by omega), ofCols_ptr cols (by omega)]
    exact Group.flatten_take_le cols (by omega)
  · show (ofCols cols).ptr cols.length ≤ cols.flatten.length
    rw [ofCols_ptr cols (Nat.le_refl _), List.take_length]
  · intro u hu v hv
    have hu : u < cols.length := hu
    rw [ofCols_col cols hu] at hv
    refine h _ ?_ v hv
    rw [List.getD_eq_getElem?_getD, List.getElem?_eq_getElem hu]
    exact List.getElem_mem hu

end Csc

namespace Mat
variable {V : Type _}

/-- The dependence graph of the rows in compressed column form. -/
def depGraph (m : Mat V) : Csc :=
  Csc.ofCols ((List.range m.n).map fun u =>
    (List.range m.n).filter fun v => (m.off v).any fun e => e.1 == u)

theorem depGraph_n (m : Mat V) : m.depGraph.n = m.n := by simp [depGraph, Csc.ofCols]

theorem depGraph_col (m : Mat V) {u : Nat} (h : u < m.n) :
    m.depGraph.col u = (List.range m.n).filter fun v => (m.off v).any fun e => e.1 == u := by
  unfold depGraph
  rw [Csc.ofCols_col _ (by simpa using h), List.getD_eq_getElem?_getD, List.getElem?_map,
    List.getElem?_range h]
  rfl

theorem depGraph_wf (m : Mat V) : m.depGraph.WF := by
  refine Csc.ofCols_wf ?_
  intro c hc v hv
  rw [List.mem_map] at hc
  obtain ⟨u, _, rfl⟩ := hc
  rw [List.mem_filter, List.mem_range] at hv
  simpa using hv.1

theorem depGraph_dep {m : Mat V} (h : m.LowerCsr) {u v : Nat} :
    m.depGraph.Dep u v ↔ m.RowDep u v := by
  unfold Csc.Dep RowDep
  rw [depGraph_n]
  constructor
  · rintro ⟨h1, h2, h3⟩
    rw [depGraph_col m h1, List.mem_filter, List.mem_range, List.any_eq_true] at h2
    obtain ⟨h4, ⟨c, l⟩, h5, h6⟩ := h2
    simp only [beq_iff_eq] at h6
    subst h6
    exact ⟨h4, l, h5⟩
  · rintro ⟨h1, l, h2⟩
    have h3 := h.lower v h1 _ h2
    dsimp only at h3
    refine ⟨by omega, ?_, by omega⟩
    rw [depGraph_col m (by omega), List.mem_filter, List.mem_range, List.any_eq_true]
    exact ⟨h1, ⟨u, l⟩, h2, by simp⟩

end Mat
end Verif
