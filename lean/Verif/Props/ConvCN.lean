import Verif.Proof.ConvCN
import Verif.Props.Final

/-! # C77: a schedule of groups as a schedule of supernodes -/

namespace Verif.Final
open Res
open Verif.Group

/-- **C77.** Let every group be a sequence of whole, non-empty supernodes.  Then
`convertCNScheduleToSuperNode` turns every schedule of groups into a schedule of supernodes that
stands for the same schedule of rows: same levels, same parts, same order.  In particular it is
valid for every dependence relation for which the schedule of groups is valid.  `order` is the
order of the parallel loop. -/
theorem C77_supernode_schedule {G : Grouping} {n : Nat} (hG : G.Partition n) {sp : List Nat} {ns : Nat}
    (hsp : PtrOk sp ns n)
    (hw : ∀ j, j < G.num → ∃ cs : List Nat,
      groupRows G.ptr G.set j = cs.flatMap (groupRows sp (List.range n)) ∧
      ∀ c ∈ cs, c < ns ∧ groupRows sp (List.range n) c ≠ [])
    {order : List Nat} (ho : order.Perm (List.range ns))
    {s : Sched} {parts : Nat} (h1 : PtrOk s.levelPtr s.levels parts)
    (h2 : PtrOk s.partPtr parts s.nodes.length) (h3 : s.partPtr.length = parts + 1)
    (hmem : ∀ v ∈ s.nodes, v < G.num) :
    ∃ s', convertCN order n G.ptr G.set sp s = ok s' ∧
      s'.expand sp (List.range n) = s.expand G.ptr G.set ∧
      ∀ dep, (s.expand G.ptr G.set).Valid n dep → (s'.expand sp (List.range n)).Valid n dep := by
  classical
  let C : Nat → List Nat := fun j => if h : j < G.num then (hw j h).choose else []
  have hC : ∀ j, j < G.num → WholeSupernodes G sp ns j (C j) := by
    intro j hj
    obtain ⟨w1, w2⟩ := (hw j hj).choose_spec
    have hcj : C j = (hw j hj).choose := dif_pos hj
    rw [hcj]
    refine ⟨w1.trans (List.flatMap_congr fun c hc => groupRows_range hsp (w2 c hc).1), ?_⟩
    intro c hc
    exact ⟨(w2 c hc).1, by rw [← groupRows_range hsp (w2 c hc).1]; exact (w2 c hc).2⟩
  obtain ⟨s', hs', e1, e2, e3, e4, e5⟩ := wp_iff.1 (convertCN_wp hG hsp ho hC h1 h2 (le_refl _) hmem)
  rw [List.take_of_length_le (le_refl _)] at e4
  have hrows : ∀ l : List Nat, (∀ v ∈ l, v < G.num) →
      (l.flatMap C).flatMap (groupRows sp (List.range n)) = l.flatMap (groupRows G.ptr G.set) := by
    intro l hl
    rw [List.flatMap_assoc]
    refine List.flatMap_congr fun j hj => ?_
    rw [(hC j (hl j hj)).1]
    exact List.flatMap_congr fun c hc => groupRows_range hsp ((hC j (hl j hj)).2 c hc).1
  have heq : s'.expand sp (List.range n) = s.expand G.ptr G.set := by
    unfold Sched.expand
    rw [e1, e2]
    congr 1
    · apply List.ext_getElem?
      intro q
      rw [List.getElem?_map, List.getElem?_map]
      rcases Nat.lt_or_ge q (parts + 1) with hq | hq
      · rw [getElem?_getD (l := s'.partPtr) 0 (by omega), getElem?_getD (l := s.partPtr) 0 (by omega),
          Option.map_some, Option.map_some, e5 q (by omega), e4]
        have ht : s.nodes.flatMap C = (s.nodes.take (s.partPtr.getD q 0)).flatMap C ++
            (s.nodes.drop (s.partPtr.getD q 0)).flatMap C := by
          rw [← List.flatMap_append, List.take_append_drop]
        rw [ht, List.take_left' rfl, hrows _ (fun v hv => hmem v (List.mem_of_mem_take hv))]
      · rw [List.getElem?_eq_none (by omega), List.getElem?_eq_none (by omega)]; rfl
    · rw [e4]; exact hrows _ hmem
  exact ⟨s', hs', heq, fun dep hv => by rw [heq]; exact hv⟩

/-- A supernode that is split over two groups is listed twice: the condition on the groups is
needed. -/
theorem C77_split_listed_twice :
    convertCN [0] 2 [0, 1, 2] [0, 1] [0, 2] ⟨1, [0, 1], [0, 2], [0, 1]⟩ =
      ok ⟨1, [0, 1], [0, 2], [0, 0]⟩ := by decide

/-! ### Non-vacuity -/

/-- Supernodes `{0,1}`, `{2}`, `{3,4,5}`; groups `{3,4,5,0,1}` and `{2}`, in two levels. -/
example : (⟨2, [0, 5, 6], [3, 4, 5, 0, 1, 2]⟩ : Grouping).Partition 6 ∧ PtrOk [0, 2, 3, 6] 3 6 ∧
    (∀ j, j < 2 → ∃ cs : List Nat,
      groupRows [0, 5, 6] [3, 4, 5, 0, 1, 2] j = cs.flatMap (groupRows [0, 2, 3, 6] (List.range 6)) ∧
      ∀ c ∈ cs, c < 3 ∧ groupRows [0, 2, 3, 6] (List.range 6) c ≠ []) ∧
    convertCN [2, 0, 1] 6 [0, 5, 6] [3, 4, 5, 0, 1, 2] [0, 2, 3, 6] ⟨2, [0, 1, 2], [0, 1, 2], [1, 0]⟩ =
      ok ⟨2, [0, 1, 2], [0, 1, 3], [1, 2, 0]⟩ := by
  refine ⟨⟨PtrOk.mk' (by decide) (by decide) (by decide) (by decide), by decide⟩,
    PtrOk.mk' (by decide) (by decide) (by decide) (by decide), ?_, by decide⟩
  intro j hj
  have : j = 0 ∨ j = 1 := by omega
  rcases this with rfl | rfl
  · exact ⟨[2, 0], by decide, by decide⟩
  · exact ⟨[1], by decide, by decide⟩

end Verif.Final
