import Verif.Proof.TreeBfs
import Verif.Proof.Renumber

/-!
# C24, C46: tree-based grouping

`C46`: `treeBasedGrouping` and `treeBasedGroupingBFS` partition the nodes into groups with an acyclic
quotient.  `C24` asked in addition that all dependences between groups go to larger group
numbers and that the nodes of a group are in increasing order; both fail (`C24_numbers_not_lower`,
`C24_members_not_sorted`), although the comment at hdagg.cpp:1457 promises the first.
-/

namespace Verif
open Res
open Verif.Group

namespace Group
variable {g : Csc}

theorem TravOk.setLen {L : Nat} {G : Grouping} (h : TravOk g L G) : G.set.length = g.n := by
  simpa using h.perm.length_eq

theorem TravOk.partition {L : Nat} {G : Grouping} (h : TravOk g L G) :
    G.Partition g.n ∧ G.NonEmpty ∧ G.Limited L := by
  have hP : PtrOk G.ptr G.num g.n := by
    refine PtrOk.mk' (by have := h.num; omega) h.blocks.first ?_ ?_
    · rw [← h.last]; unfold lastPtr; congr 1; have := h.num; omega
    · intro b hb
      exact le_of_lt (h.blocks.step b (by have := h.num; omega)).1
  have hlen : ∀ j, j < G.num → (groupRows G.ptr G.set j).length =
      G.ptr.getD (j + 1) 0 - G.ptr.getD j 0 := by
    intro j hj
    rw [Grouping.rows_eq, slice_length]
    exact (h.blocks.step j (by have := h.num; omega)).2.1
  refine ⟨⟨hP, ?_⟩, ?_, ?_⟩
  · rw [List.take_of_length_le (by rw [h.setLen])]; exact h.perm
  · intro j hj he
    have h1 := hlen j hj
    have h2 := (h.blocks.step j (by have := h.num; omega)).1
    rw [he] at h1
    simp only [List.length_nil] at h1
    omega
  · intro j hj
    rw [hlen j hj]
    exact (h.blocks.step j (by have := h.num; omega)).2.2.1

theorem checkMarks_ok {debug : Bool} {n : Nat} {gs : List Nat} (h : gs.Perm (List.range n)) :
    checkMarks debug n gs = ok () := by
  cases debug with
  | false => rfl
  | true =>
    have : wp (checkMarks true n gs) fun _ => True := by
      unfold checkMarks
      simp only [if_true, wp_bind]
      have hm := forEach_wp (f := fun v m => wr m v true)
        (fun pre (m : List Bool) => m.length = n ∧ ∀ v ∈ pre, m.getD v false = true) gs []
        (List.replicate n false) ⟨by simp, by simp⟩ (by
          rintro p a q m he ⟨h1, h2⟩
          have ha : a < m.length := by
            rw [h1]
            exact List.mem_range.1 (h.mem_iff.1 (by rw [List.nil_append] at he; rw [he]; simp))
          rw [wr_eq ha, wp_ok]
          refine ⟨by simpa using h1, ?_⟩
          intro v hv
          rw [getD_set]
          by_cases hav : a = v
          · rw [if_pos ⟨hav, ha⟩]
          · rw [if_neg (fun h => hav h.1)]
            rcases List.mem_append.1 hv with h3 | h3
            · exact h2 v h3
            · simp at h3; exact absurd h3.symm hav)
      refine wp_mono hm ?_
      rintro m ⟨h1, h2⟩
      rw [if_pos]
      · trivial
      · rw [List.all_eq_true]
        intro b hb
        obtain ⟨k, hk, rfl⟩ := List.getElem_of_mem hb
        have := h2 k (by rw [List.nil_append, h.mem_iff, List.mem_range]; omega)
        rw [List.getD_eq_getElem?_getD, List.getElem?_eq_getElem hk] at this
        exact this
    obtain ⟨u, hu, _⟩ := wp_iff.1 this
    rw [hu]

/-- What the grouping functions establish. -/
theorem TravOk.result (hg : g.WF) (hd : g.OneDiag) (hl : g.Lower) {L : Nat} {G : Grouping}
    (h : TravOk g L G) {order : List Nat} (ho : order.Perm (List.range G.num)) :
    ∃ r, renumber order g.n G.ptr G.set = ok r ∧
      (⟨G.num, r.1, r.2⟩ : Grouping).Partition g.n ∧ (⟨G.num, r.1, r.2⟩ : Grouping).NonEmpty ∧
      (⟨G.num, r.1, r.2⟩ : Grouping).AcyclicQuotient g ∧
      (⟨G.num, r.1, r.2⟩ : Grouping).ByLeast ∧ (⟨G.num, r.1, r.2⟩ : Grouping).Limited L ∧
      (⟨G.num, r.1, r.2⟩ : Grouping).TreeLike g ∧ r.2.length = g.n := by
  obtain ⟨hP, hne, hlim⟩ := h.partition
  obtain ⟨r, hr, hP', hlen, hplen, f, hf1, hf2, hf3⟩ :=
    wp_iff.1 (renumber_wp hP hne h.setLen ho)
  refine ⟨r, hr, hP', ?_⟩
  obtain ⟨G', hG'⟩ : ∃ G' : Grouping, G' = ⟨G.num, r.1, r.2⟩ := ⟨_, rfl⟩
  rw [← hG'] at hP' ⊢
  have hnum : G'.num = G.num := by rw [hG']
  have hrow : ∀ j, j < G.num → groupRows G'.ptr G'.set j = groupRows G.ptr G.set (f j) := by
    rw [hG']; exact hf3
  have hmem : ∀ v j, G'.Mem v j ↔ j < G.num ∧ G.Mem v (f j) := by
    intro v j
    unfold Grouping.Mem
    rw [hnum]
    constructor
    · rintro ⟨h1, h2⟩
      rw [hrow j h1] at h2
      exact ⟨h1, hf1 j h1, h2⟩
    · rintro ⟨h1, h2, h3⟩
      refine ⟨h1, ?_⟩
      rw [hrow j h1]; exact h3
  have hrt : ∀ i u v, G.Mem u i → G.Mem v i → treeRoot g u = treeRoot g v := by
    rintro i u v ⟨hi, hu⟩ ⟨_, hv⟩
    exact (h.blocks.step i (by have := h.num; omega)).2.2.2 u hu v hv
  refine ⟨?_, ?_, ?_, ?_, ?_, hlen⟩
  · intro j hj
    rw [hnum] at hj
    rw [hrow j hj]; exact hne _ (hf1 j hj)
  · -- the quotient is acyclic
    have hinj : ∀ a b, a < G.num → b < G.num → f a = f b → a = b := by
      intro a b ha hb hab
      by_contra hne'
      rcases Nat.lt_or_gt_of_ne hne' with h1 | h1
      · have := hf2 a b h1 hb; rw [hab] at this; omega
      · have := hf2 b a h1 ha; rw [hab] at this; omega
    obtain ⟨R, hR⟩ : ∃ R : Nat → Nat, R = fun j => treeRoot g (leader G g.n (f j)) := ⟨_, rfl⟩
    have hRm : ∀ u j, G'.Mem u j → treeRoot g u = R j := by
      intro u j hu
      obtain ⟨h1, h2⟩ := (hmem u j).1 hu
      rw [hR]
      exact hrt (f j) _ _ h2 (leader_mem hP hne (hf1 j h1))
    have key : ∀ a b, G'.Dep g a b → R a < R b ∨ (R a = R b ∧ f b < f a) := by
      rintro a b ⟨hab, u, v, hu, hv, huv⟩
      obtain ⟨ha, hu'⟩ := (hmem u a).1 hu
      obtain ⟨hb, hv'⟩ := (hmem v b).1 hv
      rw [← hRm u a hu, ← hRm v b hv]
      by_cases h2 : (g.col u).length = 2
      · right
        refine ⟨treeRoot_step hg hd hl h2 huv, ?_⟩
        obtain ⟨hfa, hu2⟩ := hu'
        obtain ⟨hfb, hv2⟩ := hv'
        rw [Grouping.rows_eq, mem_slice] at hu2 hv2
        obtain ⟨k, k1, k2, k3⟩ := hu2
        obtain ⟨k', k1', k2', k3'⟩ := hv2
        have hkl : k < G.set.length := by
          by_contra hc; rw [List.getElem?_eq_none (by omega)] at k3; cases k3
        have hsplit : G.set = G.set.take k ++ u :: G.set.drop (k + 1) := by
          rw [List.getElem?_eq_getElem hkl, Option.some.injEq] at k3
          rw [← k3]; simp
        have hvp := h.ord _ u _ v hsplit h2 huv
        obtain ⟨p, hp⟩ := List.mem_iff_getElem?.1 hvp
        rw [List.getElem?_take] at hp
        split at hp
        · next hpk =>
          have hnd : G.set.Nodup := h.perm.nodup_iff.2 List.nodup_range
          have hpe := nodup_getElem?_inj hnd hp k3'
          subst hpe
          by_contra hc
          have hne' : f a ≠ f b := fun e => hab (hinj a b ha hb e)
          have := hP.ptr.dmono_le (a := f a + 1) (b := f b) (by omega) (by omega)
          omega
        · cases hp
      · left
        rw [treeRoot_self h2]
        have := Dep_lt hl huv
        have := le_treeRoot g (g.n - v) v (le_refl _)
        omega
    have key2 : ∀ a b, Relation.TransGen (G'.Dep g) a b → R a < R b ∨ (R a = R b ∧ f b < f a) := by
      intro a b hab
      induction hab with
      | single h => exact key _ _ h
      | tail _ h ih =>
        have := key _ _ h
        omega
    intro a ha
    have := key2 a a ha
    omega
  · intro i j hij hj
    rw [hnum] at hj
    refine ⟨leader G g.n (f i), (hmem _ _).2 ⟨by omega, leader_mem hP hne (hf1 i (by omega))⟩, ?_⟩
    intro v hv
    have h1 := hf2 i j hij hj
    have h2 := leader_le G g.n ((hmem v j).1 hv).2.2
    omega
  · intro j hj
    rw [hnum] at hj
    rw [hrow j hj]; exact hlim _ (hf1 j hj)
  · intro j hj
    rw [hnum] at hj
    refine ⟨treeRoot g (leader G g.n (f j)), ?_⟩
    intro u hu
    obtain ⟨_, hu'⟩ := (hmem u j).1 hu
    rw [← hrt (f j) _ _ hu' (leader_mem hP hne (hf1 j hj))]
    exact onlyWay_treeRoot hd (g.n - u) u (hP.mem_lt hu') le_rfl

end Group

/-- The input of the grouping functions: a lower triangular graph with at least one node, one
diagonal entry per column and no unused space in the index array. -/
structure GroupInput (g : Csc) : Prop where
  wf : g.WF
  oneDiag : g.OneDiag
  lower : g.Lower
  pos : 0 < g.n
  exact : g.i.length = g.ptr g.n

theorem sizeLimit_pos {limited : Bool} {q n : Nat} (h : 0 < n) : 0 < sizeLimit limited q n := by
  unfold sizeLimit
  split
  · split <;> omega
  · exact h

/-- **C46.** `treeBasedGrouping` always returns, and puts every node into exactly one group; no
group is empty or larger than the size limit; no group depends on itself through others; all
members of a group lead to the same node along nodes with exactly one successor; the groups are numbered by their
smallest nodes; and the node array has exactly `n` elements.  `order` are the orders of the parallel loop, `q` the rounded size limit;
in a debug build no assertion fails. -/
theorem C46_tree_grouping {g : Csc} (h : GroupInput g) (debug limited : Bool) (q : Nat)
    {order : Nat → List Nat} (ho : ∀ k, (order k).Perm (List.range k)) :
    ∃ G, treeBasedGrouping debug limited q order g.n g.p g.i = ok G ∧
      G.Partition g.n ∧ G.NonEmpty ∧ G.AcyclicQuotient g ∧ G.ByLeast ∧
      G.Limited (sizeLimit limited q g.n) ∧ G.TreeLike g ∧ G.set.length = g.n := by
  obtain ⟨B, h1, h2⟩ := wp_iff.1 (inverseDag_wp h.wf h.oneDiag h.lower h.pos h.exact)
  obtain ⟨G, h3, h4⟩ := wp_iff.1 (treeTraverse_wp h.wf h.oneDiag h.lower h2
    (sizeLimit_pos (limited := limited) (q := q) h.pos))
  obtain ⟨r, h5, h6⟩ := h4.result h.wf h.oneDiag h.lower (ho G.num)
  refine ⟨⟨G.num, r.1, r.2⟩, ?_, h6⟩
  unfold treeBasedGrouping
  rw [h1, ok_bind, h3, ok_bind, checkMarks_ok h4.perm, ok_bind, h5, ok_bind]

/-- **C46.** The same for `treeBasedGroupingBFS`. -/
theorem C46_tree_grouping_bfs {g : Csc} (h : GroupInput g) (debug limited : Bool) (q : Nat) :
    ∃ G, treeBasedGroupingBFS debug limited q g.n g.p g.i = ok G ∧
      G.Partition g.n ∧ G.NonEmpty ∧ G.AcyclicQuotient g ∧ G.ByLeast ∧
      G.Limited (sizeLimit limited q g.n) ∧ G.TreeLike g ∧ G.set.length = g.n := by
  obtain ⟨B, h1, h2⟩ := wp_iff.1 (inverseDag_wp h.wf h.oneDiag h.lower h.pos h.exact)
  obtain ⟨G, h3, h4⟩ := wp_iff.1 (bfsTraverse_wp h.wf h.oneDiag h.lower h2 h.pos
    (sizeLimit_pos (limited := limited) (q := q) h.pos))
  obtain ⟨r, h5, h6⟩ := h4.result h.wf h.oneDiag h.lower (List.Perm.refl (List.range G.num))
  refine ⟨⟨G.num, r.1, r.2⟩, ?_, h6⟩
  unfold treeBasedGroupingBFS
  rw [h1, ok_bind, h3, ok_bind, checkMarks_ok h4.perm, ok_bind, h5, ok_bind]

/-- **C24, what holds.** Every node is in exactly one group and the groups can be executed in some
order.  Missing from C24: the group numbers are not such an order, and the members of a group are
not sorted (both refuted below). -/
theorem C24_tree_grouping_partial {g : Csc} (h : GroupInput g) (debug limited : Bool) (q : Nat)
    {order : Nat → List Nat} (ho : ∀ k, (order k).Perm (List.range k)) :
    ∃ G, treeBasedGrouping debug limited q order g.n g.p g.i = ok G ∧
      G.Partition g.n ∧ G.AcyclicQuotient g := by
  obtain ⟨G, h1, h2, _, h3, _⟩ := C46_tree_grouping h debug limited q ho
  exact ⟨G, h1, h2, h3⟩

/-- The graph with the dependences 0→2, 1→2 and 1→3. -/
def exTree : Csc := ⟨4, [0, 2, 5, 6, 7], [0, 2, 1, 2, 3, 2, 3]⟩

theorem exTree_input : GroupInput exTree where
  wf := ⟨by decide, by decide, by decide, by decide, by decide⟩
  oneDiag := by unfold Csc.OneDiag; decide
  lower := by unfold Csc.Lower; decide
  pos := by decide
  exact := by decide

/-- The grouping of `exTree`: node 1 is alone, its successors 2 and 3 are in groups 0 and 2. -/
theorem exTree_grouping :
    treeBasedGrouping true false 0 List.range exTree.n exTree.p exTree.i
      = ok ⟨3, [0, 2, 3, 4], [2, 0, 1, 3]⟩ := by decide +kernel

/-- **C24 fails**: a dependence can go from a group to a group with a smaller number. -/
theorem C24_numbers_not_lower :
    ∃ G, treeBasedGrouping true false 0 List.range exTree.n exTree.p exTree.i = ok G ∧
      ∃ a b, G.Dep exTree a b ∧ b < a := by
  refine ⟨_, exTree_grouping, 1, 0, ⟨by decide, 1, 2, ?_, ?_, ?_⟩, by decide⟩
  · unfold Grouping.Mem groupRows; decide
  · unfold Grouping.Mem groupRows; decide
  · unfold Csc.Dep; decide

/-- **C24 fails**: the members of a group are not sorted. -/
theorem C24_members_not_sorted :
    ∃ G, treeBasedGrouping true false 0 List.range exTree.n exTree.p exTree.i = ok G ∧
      ¬ (groupRows G.ptr G.set 0).Pairwise (· < ·) :=
  ⟨_, exTree_grouping, by unfold groupRows; decide⟩

/-- With a size limit the groups are chunks of trees. -/
example : treeBasedGrouping true true 0 List.range exTree.n exTree.p exTree.i
    = ok ⟨4, [0, 1, 2, 3, 4], [0, 1, 2, 3]⟩ := by decide +kernel

/-- The BFS variant starts a new group at node 0, because node 1 becomes a root. -/
example : treeBasedGroupingBFS true false 0 exTree.n exTree.p exTree.i
    = ok ⟨4, [0, 1, 2, 3, 4], [0, 1, 2, 3]⟩ := by decide +kernel

/-- Unused space at the end of the index array is written past the end of the copy. -/
theorem C46_unused_space_overflows :
    treeBasedGrouping false false 0 List.range 1 [0, 1] [0, 0] = Res.ub := by decide

end Verif
