import Verif.Proof.Ungroup
import Verif.Props.GroupDag
import Verif.Props.PostOrder

/-!
# C25: un-grouping a schedule

`ungroup debug n s gp gs dag sortOrder postOrder` is the model of
`ungroupingScheduleAndApplyOrdering`.
-/

namespace Verif
open Res Group

/-- A schedule of the groups of `G`: well-formed pointers, every group listed once, every
dependence between groups goes to a later coarse level or stays inside a part. -/
structure GroupSchedOk (s : Sched) (G : Grouping) (g : Csc) : Prop where
  ptrs : s.PtrsOk G.num
  complete : s.Complete G.num
  together : s.Together (G.Dep g)

/-- A schedule that respects the dependences between groups is one. -/
theorem GroupSchedOk.of_valid {s : Sched} {G : Grouping} {g : Csc} (h : s.Valid G.num (G.Dep g)) :
    GroupSchedOk s G g := by
  refine ⟨h.ptrs, h.complete, ?_⟩
  intro u v huv l q k l' q' k' h1 h2
  rcases h.respects u v huv l q k l' q' k' h1 h2 with h | ⟨h3, h4, _⟩
  · exact .inl h
  · exact .inr ⟨h3, h4⟩

private theorem pre {s : Sched} {G : Grouping} {g : Csc} (hg : g.WF) (hG : G.Partition g.n)
    (hs : GroupSchedOk s G g) : ∃ parts, UngroupPre s G g parts := by
  obtain ⟨parts, h1, h2⟩ := hs.ptrs
  exact ⟨parts, hg, hG, h1, h2, hs.complete, hs.together⟩

/-- **C25, order by node number.**  For a lower triangular graph the un-grouped schedule lists every
node once and respects every dependence.  The groups of a part may be in any order. -/
theorem C25_ungroup_sorted {g : Csc} (hg : g.WF) (hlow : g.Lower) {G : Grouping}
    (hG : G.Partition g.n) {s : Sched} (hs : GroupSchedOk s G g) (debug : Bool)
    (dag : Option (List Nat × List Nat)) :
    ∃ r, ungroup debug g.n s G.ptr G.set dag true false = ok r ∧ r.Valid g.n g.Dep := by
  obtain ⟨parts, h⟩ := pre hg hG hs
  have hpo := unpackPtr_ok hG h.pt h.complete
  rw [← h.len] at hpo
  obtain ⟨l, e1, e2, e3⟩ := wp_iff.1 (overParts_sort h.lv hpo)
  refine ⟨⟨s.levels, s.levelPtr, unpackPtr s G parts, l⟩, ?_, ?_⟩
  · unfold ungroup
    rw [if_neg (by simp), h.unpack, ok_bind, if_neg (by simp), h.asserts, ok_bind, if_pos rfl]
    dsimp only
    rw [e1, ok_bind]
  · refine regroup_valid hg hG h.lv h.pt h.complete h.tog e2 e3 ?_
    intro u v huv hvu
    have := hlow u huv.1 v huv.2.1
    exact huv.2.2 (by omega)

/-- **C25, post order.**  If `d` is a graph with the diagonal first whose paths include all
dependences of `g` (the graph itself, or a sparsified one), the schedule ordered by the post order of
`d` lists every node once and respects every dependence of `g`. -/
theorem C25_ungroup_post_order {g d : Csc} (hg : g.WF) (hd : d.WF) (hn : d.n = g.n)
    (hf : d.DiagFirst) (ho : d.OneDiag) (ha : d.Acyclic)
    (hcov : ∀ u v, g.Dep u v → Relation.TransGen d.Dep u v) {G : Grouping} (hG : G.Partition g.n)
    {s : Sched} (hs : GroupSchedOk s G g) (debug : Bool) :
    ∃ r, ungroup debug g.n s G.ptr G.set (some (d.p, d.i)) false true = ok r ∧
      r.Valid g.n g.Dep := by
  obtain ⟨parts, h⟩ := pre hg hG hs
  have hpo := unpackPtr_ok hG h.pt h.complete
  rw [← h.len] at hpo
  obtain ⟨post, p1, p2⟩ := wp_iff.1 (PostOrder.computePostOrder_spec hd hf ho ha)
  obtain ⟨inv, i1, i2⟩ := wp_iff.1 (Hdagg.postInv_spec p2.perm)
  rw [hn] at p1 i1 i2
  have hperm := unpackedTo_perm hG h.complete
  obtain ⟨l, e1, e2, e3⟩ := wp_iff.1 (overParts_post (n := g.n) h.lv i2 hpo (by simp [unpackPtr])
    (fun u hu => List.mem_range.1 (hperm.mem_iff.1 hu)) (le_of_eq h.len))
  refine ⟨⟨s.levels, s.levelPtr, unpackPtr s G parts, l⟩, ?_, ?_⟩
  · unfold ungroup
    rw [if_neg (by simp), h.unpack, ok_bind, if_neg (by simp), h.asserts, ok_bind,
      if_neg (by simp), if_pos rfl]
    dsimp only
    rw [p1, ok_bind, i1, ok_bind, e1, ok_bind]
  · refine regroup_valid hg hG h.lv h.pt h.complete h.tog e2 e3 ?_
    have hord : ∀ u v, d.Dep u v → inv.getD u 0 < inv.getD v 0 := by
      intro u v huv
      have hb := hd.dep_lt huv
      exact p2.topo u v _ _ huv (i2.right u (by omega)) (i2.right v (by omega))
    intro u v huv
    have : ∀ v, Relation.TransGen d.Dep u v → inv.getD u 0 < inv.getD v 0 := by
      intro v hv
      induction hv with
      | single h => exact hord _ _ h
      | tail _ h ih => exact lt_trans ih (hord _ _ h)
    have := this v (hcov u v huv)
    omega

theorem unpack_valid {g : Csc} {G : Grouping} {s : Sched} {parts : Nat} (h : UngroupPre s G g parts)
    (hin : ∀ j, j < G.num → (groupRows G.ptr G.set j).Pairwise (fun x y => ¬ g.Dep y x))
    (hs : s.Respects (G.Dep g)) :
    (⟨s.levels, s.levelPtr, unpackPtr s G parts, unpackedTo s G G.num⟩ : Sched).Valid g.n g.Dep := by
  refine regroup_valid (R := fun x y => ¬ g.Dep y x) h.wf h.part h.lv h.pt h.complete h.tog (.refl _)
    (fun t ht => ⟨.refl _, ?_⟩) (fun u v huv hc => hc huv)
  have hle := h.pt.dle (b := t + 1) ht
  rw [unpackPtr_getD s G (by omega), unpackPtr_getD s G (by omega),
    unpackedTo_slice s G (h.pt.dmono ht) hle, List.pairwise_flatMap]
  have hnum : ∀ k a, k < G.num → s.nodes[k]? = some a → a < G.num := fun k a hk ha =>
    List.mem_range.1 (h.complete.mem_iff.1 (List.mem_of_getElem? (i := k)
      (by rw [List.getElem?_take, if_pos hk]; exact ha)))
  refine ⟨?_, ?_⟩
  · intro a ha
    obtain ⟨k, k1, k2, k3⟩ := mem_slice.1 ha
    exact hin a (hnum k a (by omega) k3)
  · -- the level of part `t`
    have htp : t < parts := ht
    obtain ⟨lv, l1, l2, l3⟩ := h.lv.exists_block htp
    rw [List.pairwise_iff_getElem]
    intro i j hi hj hij x hx y hy hyx
    have gi := List.getElem?_eq_getElem hi
    have gj := List.getElem?_eq_getElem hj
    rw [getElem?_slice] at gi gj
    split at gi
    · split at gj
      · have ha := hnum _ _ (by omega) gi
        have hb := hnum _ _ (by omega) gj
        have hAt : ∀ k a, s.partPtr.getD t 0 ≤ k → k < s.partPtr.getD (t + 1) 0 →
            s.nodes[k]? = some a → s.At a lv t k := fun k a e1 e2 e3 =>
          ⟨l1, (h.lv.inBlock_iff l1).2 ⟨l2, l3⟩, (h.pt.inBlock_iff ht).2 ⟨e1, e2⟩, e3⟩
        have A := hAt _ _ (by omega) (by omega) gi
        have B := hAt _ _ (by omega) (by omega) gj
        by_cases hab : (slice s.nodes (s.partPtr.getD t 0) (s.partPtr.getD (t + 1) 0))[i]
            = (slice s.nodes (s.partPtr.getD t 0) (s.partPtr.getD (t + 1) 0))[j]
        · have hndg : (s.nodes.take G.num).Nodup := h.complete.nodup_iff.2 List.nodup_range
          rw [hab] at gi
          have := nodup_getElem?_inj hndg (i := s.partPtr.getD t 0 + i)
            (j := s.partPtr.getD t 0 + j)
            (by rw [List.getElem?_take, if_pos (by omega)]; exact gi)
            (by rw [List.getElem?_take, if_pos (by omega)]; exact gj)
          omega
        · rcases hs _ _ ⟨fun e => hab e.symm, y, x, ⟨hb, hy⟩, ⟨ha, hx⟩, hyx⟩
            _ _ _ _ _ _ B A with h5 | ⟨_, _, h5⟩
          · omega
          · omega
      · cases gj
    · cases gi

/-- **C25, no re-ordering.**  If the group schedule respects the dependences also inside its parts
and every group lists its nodes in an order compatible with the dependences, plain unpacking keeps
the schedule valid. -/
theorem C25_ungroup_plain {g : Csc} (hg : g.WF) {G : Grouping} (hG : G.Partition g.n)
    (hin : ∀ j, j < G.num → (groupRows G.ptr G.set j).Pairwise (fun x y => ¬ g.Dep y x))
    {s : Sched} (hs : s.Valid G.num (G.Dep g)) (debug : Bool)
    (dag : Option (List Nat × List Nat)) :
    ∃ r, ungroup debug g.n s G.ptr G.set dag false false = ok r ∧ r.Valid g.n g.Dep := by
  obtain ⟨parts, h⟩ := pre hg hG (GroupSchedOk.of_valid hs)
  refine ⟨⟨s.levels, s.levelPtr, unpackPtr s G parts, unpackedTo s G G.num⟩, ?_, ?_⟩
  · unfold ungroup
    rw [if_neg (by simp), h.unpack, ok_bind, if_neg (by simp), h.asserts, ok_bind,
      if_neg (by simp), if_neg (by simp)]
  · exact unpack_valid h hin hs.respects

/-- Limits: post order needs the graph, and the two orders exclude each other. -/
theorem C25_ungroup_exceptions (debug : Bool) (n : Nat) (s : Sched) (gp gs : List Nat)
    (sortOrder : Bool) (dag : Option (List Nat × List Nat)) :
    ungroup debug n s gp gs none sortOrder true = exn ∧
    (∀ u, unpack s gp gs = ok u → ungroup debug n s gp gs dag true true = exn) := by
  refine ⟨by simp [ungroup], ?_⟩
  intro u hu
  unfold ungroup
  split
  · rfl
  · rw [hu, ok_bind, if_pos (by simp)]

/-! ### Non-vacuity -/

/-- Group 1, then the groups 0 and 2 in one part, in the "wrong" order. -/
def exGroupSched : Sched := ⟨2, [0, 1, 2], [0, 1, 3], [1, 2, 0]⟩

theorem exGrouping_dep : ∀ a b, exGrouping.Dep exGraph a b → (a = 0 ∧ b = 2) ∨ (a = 1 ∧ b = 0) := by
  rintro a b ⟨hab, u, v, ⟨ha, hu⟩, ⟨hb, hv⟩, h1, h2, h3⟩
  have ha' : a < 3 := ha
  have hb' : b < 3 := hb
  have : a = 0 ∨ a = 1 ∨ a = 2 := by omega
  have : b = 0 ∨ b = 1 ∨ b = 2 := by omega
  rcases ‹a = 0 ∨ a = 1 ∨ a = 2› with rfl | rfl | rfl <;>
    rcases ‹b = 0 ∨ b = 1 ∨ b = 2› with rfl | rfl | rfl <;>
    simp [exGrouping, groupRows, exGraph, Csc.col, Csc.ptr] at hu hv h2 hab h3 ⊢ <;>
    (rcases hu with rfl | rfl <;> simp at h2 h3 <;> omega) <;> omega

/-- Positions of a schedule with two levels of one part each, for the groups `1 | x, y`. -/
theorem exAt {x y a l q k : Nat}
    (h : (⟨2, [0, 1, 2], [0, 1, 3], [1, x, y]⟩ : Sched).At a l q k) :
    (a = 1 ∧ l = 0 ∧ q = 0 ∧ k = 0) ∨ (a = x ∧ l = 1 ∧ q = 1 ∧ k = 1) ∨
      (a = y ∧ l = 1 ∧ q = 1 ∧ k = 2) := by
  obtain ⟨h1, h2, h3, h4⟩ := h
  have hlv : PtrOk [0, 1, 2] 2 2 :=
    PtrOk.mk' (by decide) (by decide) (by decide) (by decide)
  have hpt : PtrOk [0, 1, 3] 2 3 :=
    PtrOk.mk' (by decide) (by decide) (by decide) (by decide)
  have h1 : l < 2 := h1
  rw [hlv.inBlock_iff h1] at h2
  have : l = 0 ∨ l = 1 := by omega
  rcases this with rfl | rfl
  · have : q = 0 := by simp at h2; omega
    subst this
    rw [hpt.inBlock_iff (by omega)] at h3
    have : k = 0 := by simp at h3; omega
    subst this
    simp at h4
    left; exact ⟨h4.symm, rfl, rfl, rfl⟩
  · have : q = 1 := by simp at h2; omega
    subst this
    rw [hpt.inBlock_iff (by omega)] at h3
    have : k = 1 ∨ k = 2 := by simp at h3; omega
    right
    rcases this with rfl | rfl <;> simp at h4
    · left; exact ⟨h4.symm, rfl, rfl, rfl⟩
    · right; exact ⟨h4.symm, rfl, rfl, rfl⟩

theorem exGroupSched_ok : GroupSchedOk exGroupSched exGrouping exGraph := by
  refine ⟨⟨2, PtrOk.mk' (by decide) (by decide) (by decide) (by decide),
    PtrOk.mk' (by decide) (by decide) (by decide) (by decide)⟩, by
      unfold Sched.Complete; decide, ?_⟩
  intro a b hab l q k l' q' k' hA hB
  have := exGrouping_dep a b hab
  have := exAt hA
  have := exAt hB
  omega

/-- The same groups in an order that respects the dependences. -/
def exGroupSched' : Sched := ⟨2, [0, 1, 2], [0, 1, 3], [1, 0, 2]⟩

example : exGroupSched'.Valid exGrouping.num (exGrouping.Dep exGraph) ∧
    (∀ j, j < exGrouping.num →
      (groupRows exGrouping.ptr exGrouping.set j).Pairwise (fun x y => ¬ exGraph.Dep y x)) ∧
    ungroup true 4 exGroupSched' exGrouping.ptr exGrouping.set none false false
      = ok ⟨2, [0, 1, 2], [0, 1, 4], [1, 0, 2, 3]⟩ := by
  refine ⟨⟨⟨2, PtrOk.mk' (by decide) (by decide) (by decide) (by decide),
    PtrOk.mk' (by decide) (by decide) (by decide) (by decide)⟩, by
      unfold Sched.Complete; decide, ?_⟩, ?_, by decide⟩
  · intro a b hab l q k l' q' k' hA hB
    have := exGrouping_dep a b hab
    have := exAt hA
    have := exAt hB
    omega
  · unfold Csc.Dep; decide

example : exGraph.WF ∧ exGraph.Lower ∧ exGraph.DiagFirst ∧ exGraph.OneDiag ∧
    exGrouping.Partition exGraph.n ∧ GroupSchedOk exGroupSched exGrouping exGraph ∧
    ungroup true 4 exGroupSched exGrouping.ptr exGrouping.set none true false
      = ok ⟨2, [0, 1, 2], [0, 1, 4], [1, 0, 2, 3]⟩ ∧
    ungroup true 4 exGroupSched exGrouping.ptr exGrouping.set (some (exGraph.p, exGraph.i)) false true
      = ok ⟨2, [0, 1, 2], [0, 1, 4], [1, 0, 2, 3]⟩ ∧
    ungroup true 4 exGroupSched exGrouping.ptr exGrouping.set none false false
      = ok ⟨2, [0, 1, 2], [0, 1, 4], [1, 3, 0, 2]⟩ := by
  refine ⟨exGraph_wf, by unfold Csc.Lower; decide, by unfold Csc.DiagFirst; decide,
    exGraph_oneDiag, exGrouping_partition, exGroupSched_ok, by decide, by decide, by decide⟩

end Verif
