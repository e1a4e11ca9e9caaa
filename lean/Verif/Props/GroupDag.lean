import Verif.Proof.GroupDag
import Verif.Props.LevelSet

/-!
# C23: `buildGroupDAG` builds the quotient graph
-/

namespace Verif
open Res Group

/-- The graph with the arrays returned by `buildGroupDAG`. -/
def groupGraph (num : Nat) (r : List Nat × List Nat) : Csc := ⟨num, r.1, r.2⟩

/-- **C23.** For every graph and every partition of its nodes, `buildGroupDAG` returns a well-formed
graph of the groups: column `a` lists, in increasing order and without repetition, exactly the
groups that contain an entry of a column of a member of `a`.  `order` and `order'` are the
orders in which the two parallel loops run. -/
theorem C23_group_graph {g : Csc} (hg : g.WF) {G : Grouping} (hG : G.Partition g.n)
    {order order' : List Nat} (ho : order.Perm (List.range G.num))
    (ho' : order'.Perm (List.range G.num)) :
    ∃ r, buildGroupDAG order order' g.n G.num G.ptr G.set g.p g.i = ok r ∧
      (groupGraph G.num r).WF ∧
      ∀ a, a < G.num → ((groupGraph G.num r).col a).Pairwise (· < ·) ∧
        ∀ b, b ∈ (groupGraph G.num r).col a ↔ ∃ u v, G.Mem u a ∧ G.Mem v b ∧ v ∈ g.col u := by
  obtain ⟨r, hr, inv, hi, h1, h2, h3⟩ := wp_iff.1 (buildGroupDAG_wp hg hG ho ho')
  refine ⟨r, hr, ?_⟩
  have hlen : ((List.range G.num).map (succList G g inv)).length = G.num := by simp
  have hcol : ∀ a, a < G.num → (groupGraph G.num r).col a = succList G g inv a := by
    intro a ha
    show slice r.2 (r.1.getD a 0) (r.1.getD (a + 1) 0) = _
    rw [h2 a (by omega), h2 (a + 1) (by omega), h3, slice_flatten _ (by omega)]
    simp [List.getD_eq_getElem?_getD, ha]
  refine ⟨⟨h1, ?_, ?_, ?_, ?_⟩, ?_⟩
  · show r.1.getD 0 0 = 0
    rw [h2 0 (by omega)]; simp
  · intro a ha
    show r.1.getD a 0 ≤ r.1.getD (a + 1) 0
    have ha : a < G.num := ha
    rw [h2 a (by omega), h2 (a + 1) (by omega)]
    exact flatten_take_le _ (by omega)
  · show r.1.getD G.num 0 ≤ r.2.length
    rw [h2 _ (le_refl _), h3]
    rw [List.take_of_length_le (by simp)]
  · intro a ha b hb
    rw [hcol a ha, mem_succList hg hG hi ha] at hb
    obtain ⟨u, v, _, hv, _⟩ := hb
    exact hv.1
  · intro a ha
    rw [hcol a ha]
    exact ⟨succList_sorted G g inv a, fun b => mem_succList hg hG hi ha⟩

/-- **C23, dependences.** If in addition every column has its diagonal entry and no group is empty,
the dependences of the returned graph are exactly the dependences between groups, and every
group is listed once in its own column; it comes first when all dependences between groups go
to larger group numbers. -/
theorem C23_group_dependences {g : Csc} (hg : g.WF) (hd : g.OneDiag) {G : Grouping}
    (hG : G.Partition g.n) (hne : G.NonEmpty) {order order' : List Nat}
    (ho : order.Perm (List.range G.num)) (ho' : order'.Perm (List.range G.num)) :
    ∃ r, buildGroupDAG order order' g.n G.num G.ptr G.set g.p g.i = ok r ∧
      (groupGraph G.num r).WF ∧ (groupGraph G.num r).OneDiag ∧
      (∀ a b, (groupGraph G.num r).Dep a b ↔ G.Dep g a b) ∧
      ((∀ a b, G.Dep g a b → a < b) → (groupGraph G.num r).DiagFirst ∧
        (groupGraph G.num r).Lower) := by
  obtain ⟨r, h1, h2, h3⟩ := C23_group_graph hg hG ho ho'
  refine ⟨r, h1, h2, ?_⟩
  have hself : ∀ a, a < G.num → a ∈ (groupGraph G.num r).col a := by
    intro a ha
    obtain ⟨u, hu⟩ := List.exists_mem_of_ne_nil _ (hne a ha)
    have hun := hG.mem_lt ⟨ha, hu⟩
    refine ((h3 a ha).2 a).2 ⟨u, u, ⟨ha, hu⟩, ⟨ha, hu⟩, ?_⟩
    exact List.count_pos_iff.1 (by rw [hd u hun]; omega)
  have hdep : ∀ a b, (groupGraph G.num r).Dep a b ↔ G.Dep g a b := by
    intro a b
    constructor
    · rintro ⟨ha, hb, hab⟩
      obtain ⟨u, v, hu, hv, huv⟩ := ((h3 a ha).2 b).1 hb
      refine ⟨hab, u, v, hu, hv, hG.mem_lt hu, huv, ?_⟩
      rintro rfl
      exact hab (hG.unique hu hv)
    · rintro ⟨hab, u, v, hu, hv, _, huv, _⟩
      exact ⟨hu.1, ((h3 a hu.1).2 b).2 ⟨u, v, hu, hv, huv⟩, hab⟩
  refine ⟨?_, hdep, ?_⟩
  · intro a ha
    exact List.count_eq_one_of_mem ((h3 a ha).1.imp (fun h => Nat.ne_of_lt h)) (hself a ha)
  · intro hup
    have hlow : (groupGraph G.num r).Lower := by
      intro a ha b hb
      by_cases hab : a = b
      · omega
      · exact Nat.le_of_lt (hup a b ((hdep a b).1 ⟨ha, hb, hab⟩))
    refine ⟨?_, hlow⟩
    intro a ha
    have hm := hself a ha
    have hs := (h3 a ha).1
    have hl := hlow a ha
    cases hc : (groupGraph G.num r).col a with
    | nil => rw [hc] at hm; cases hm
    | cons b l =>
      rw [hc] at hm hs hl
      rcases List.mem_cons.1 hm with rfl | hm
      · rfl
      · have h5 := (List.pairwise_cons.1 hs).1 a hm
        have h6 := hl b (by simp)
        omega

/-! ### Non-vacuity -/

/-- Groups `{0,2}`, `{1}`, `{3}` of `exGraph`. -/
def exGrouping : Grouping := ⟨3, [0, 2, 3, 4], [0, 2, 1, 3]⟩

theorem exGrouping_partition : exGrouping.Partition exGraph.n :=
  ⟨PtrOk.mk' (by decide) (by decide) (by decide) (by decide), by decide⟩

example : exGraph.WF ∧ exGraph.OneDiag ∧ exGrouping.Partition exGraph.n ∧ exGrouping.NonEmpty ∧
    buildGroupDAG [2, 0, 1] [1, 2, 0] exGraph.n exGrouping.num exGrouping.ptr exGrouping.set
      exGraph.p exGraph.i = ok ([0, 2, 4, 5], [0, 2, 0, 1, 2]) :=
  ⟨exGraph_wf, exGraph_oneDiag, exGrouping_partition,
    by unfold Grouping.NonEmpty; decide, by decide⟩

/-- Here group 0 depends on group 1, so group 1 is not first in its own column. -/
example : exGrouping.Dep exGraph 1 0 ∧
    (groupGraph 3 ([0, 2, 4, 5], [0, 2, 0, 1, 2])).col 1 = [0, 1] := by
  refine ⟨⟨by decide, 1, 2, ⟨by decide, by decide⟩, ⟨by decide, by decide⟩, by decide, by decide,
    by decide⟩, by decide⟩

end Verif
