import Verif.Proof.PostGroup
import Verif.Props.PostOrder
import Verif.Props.GroupDag

/-!
# C94: `computePostOrderAndGroup`: a post order in which every chain is contiguous, the chains as groups, and the graph
of the groups
-/

namespace Verif
open Res PostGroup

/-- **C20** In the post order of `computePostOrder` the nodes of a chain follow each other: the successor of a link is
right behind its predecessor. -/
theorem C20_chains_contiguous {g : Csc} (hwf : g.WF) (hf : g.DiagFirst) (ho : g.OneDiag) (ha : g.Acyclic) :
    ∃ post, PostOrder.computePostOrder false g.n g.p g.i = ok post ∧
      ∀ u v (a b : Nat), g.Link u v → post[a]? = some u → post[b]? = some v → b = a + 1 := by
  obtain ⟨post, h, h1⟩ := wp_iff.1 (PostOrder.computePostOrder_spec hwf hf ho ha)
  exact ⟨post, h, h1.adj⟩

namespace PostGroup

theorem main_wp {g : Csc} (hwf : g.WF) (hf : g.DiagFirst) (hs : ∀ u, u < g.n → (g.col u).Nodup) (ha : g.Acyclic)
    (debug : Bool) (junk : Nat) :
    wp (computePostOrderAndGroup debug false false junk g.n g.p g.i) (fun r => ∃ s, Facts g r.post s ∧ r.num = s.num ∧
      r.ptr = s.ptr ∧ r.gptr.length = s.num + 1 ∧
      (∀ j, j ≤ s.num → r.gptr.getD j 0
        = ((((List.range s.num).map (row g r.post s)).take j).flatten).length) ∧
      r.gset = ((List.range s.num).map (row g r.post s)).flatten) := by
  have ho := PostGroup.oneDiag hwf hf hs
  unfold computePostOrderAndGroup
  rw [wp_bind]
  refine wp_mono (inDegree_count hwf hf hs) ?_
  rintro deg ⟨hdl, hd⟩
  rw [wp_bind]
  refine wp_mono (PostOrder.leaves_spec hdl) ?_
  rintro lv ⟨hlnd, hlv⟩
  rw [wp_bind]
  refine wp_mono (PostOrder.dfsAll_spec hwf hf ho ha hlnd ?_) ?_
  · intro v
    rw [hlv]
    constructor
    · rintro ⟨h1, h2⟩
      refine ⟨h1, fun u hu => ?_⟩
      rw [hd v h1, List.length_eq_zero_iff] at h2
      have := (PostGroup.mem_preds hwf hf hs).2 hu
      rw [h2] at this
      simp at this
    · rintro ⟨h1, h2⟩
      refine ⟨h1, ?_⟩
      rw [hd v h1, List.length_eq_zero_iff, List.eq_nil_iff_forall_not_mem]
      intro u hu
      exact h2 u ((PostGroup.mem_preds hwf hf hs).1 hu)
  rintro d ⟨hT, hvl, hvis⟩
  rw [check_ok, ok_bind, wp_bind]
  rotate_left
  · rw [Bool.not_eq_true', ← Bool.not_eq_true, List.contains_iff_mem]
    intro hm
    obtain ⟨k, hk, e⟩ := List.getElem_of_mem hm
    have := hvis k (by omega)
    rw [List.getD_eq_getElem?_getD, List.getElem?_eq_getElem hk, Option.getD_some, e] at this
    cases this
  refine wp_mono (forRange_wp' (Inv g d.post) (Nat.zero_le _) ?_ ?_ (fun _ h => h)) ?_
  · refine ⟨rfl, rfl, List.pairwise_singleton _ _, rfl, le_refl _, fun _ => rfl, by simp, ?_, ?_, ?_⟩
    · intro k hk; omega
    · intro q hq h1
      rw [List.mem_singleton] at hq
      omega
    · intro q h1 h2; omega
  · intro i s _ hi hI
    exact groupStep_wp hwf hf hs junk hdl hd hT hi hI
  intro s hI
  have hF : Facts g d.post s := ⟨hwf, hf, hs, hT, hI⟩
  have hspl := hI.plen
  have hbk : back s.ptr = ok g.n := by
    unfold back
    have := hI.full rfl
    rw [List.getLast?_eq_getElem?, hspl, show s.num + 1 - 1 = s.num by omega, getElem?_getD 0 (by omega), this]
  rw [hbk, ok_bind, check_ok (by simp), ok_bind, hF.checkChains debug hdl hd, ok_bind, hwf.rd_p (le_refl _), ok_bind,
    wp_bind]
  refine wp_mono (groupGraph_wp hwf hI hT) ?_
  rintro q ⟨h1, h2, h3⟩
  have hbk2 : back q.1 = ok q.2.length := by
    unfold back
    rw [List.getLast?_eq_getElem?, h1, show s.num + 1 - 1 = s.num by omega, getElem?_getD 0 (by omega), h2 _ (le_refl _),
      h3, List.take_of_length_le (by simp)]
  rw [hbk2, ok_bind, check_ok (by simp), ok_bind, check_ok (by simp [h1]), ok_bind, hF.checkGraph debug h1 h2 h3, ok_bind,
    wp_ok]
  exact ⟨s, hF, rfl, rfl, h1, h2, h3⟩

/-- **C94.** For every acyclic graph whose columns start with the diagonal entry and have no repeated entries,
`computePostOrderAndGroup` terminates and passes all its assertions.
* `post_order` lists every node once, each before the nodes that depend on it;
* the groups (`groupPtr` into `post_order`) partition the nodes, none is empty, two nodes are in the same group exactly if
  they are on the same chain, and the nodes of a group are listed along the chain;
* the graph of the groups is well formed, has the diagonal entry first in each column and no repeated entries, its
  dependences are exactly those between the groups, and all of them go to larger group numbers.
(`strictBack = false`, `strictRead = false`: the values read behind the end of `stack` and `DAG_set`, which are never used,
are unspecified instead of undefined.) -/
theorem C94_post_order_and_group {g : Csc} (hwf : g.WF) (hf : g.DiagFirst) (hs : ∀ u, u < g.n → (g.col u).Nodup)
    (ha : g.Acyclic) (debug : Bool) (junk : Nat) :
    ∃ r, computePostOrderAndGroup debug false false junk g.n g.p g.i = ok r ∧
      r.post.Perm (List.range g.n) ∧
      (∀ u v (a b : Nat), g.Dep u v → r.post[a]? = some u → r.post[b]? = some v → a < b) ∧
      (⟨r.num, r.ptr, r.post⟩ : Grouping).Partition g.n ∧ (⟨r.num, r.ptr, r.post⟩ : Grouping).NonEmpty ∧
      (∀ u v, u < g.n → v < g.n →
        ((∃ j, (⟨r.num, r.ptr, r.post⟩ : Grouping).Mem u j ∧ (⟨r.num, r.ptr, r.post⟩ : Grouping).Mem v j) ↔
          g.SameChain u v)) ∧
      (∀ j, j < r.num → (groupRows r.ptr r.post j).IsChain g.Link) ∧
      (⟨r.num, r.gptr, r.gset⟩ : Csc).WF ∧ (⟨r.num, r.gptr, r.gset⟩ : Csc).DiagFirst ∧
      (∀ a, a < r.num → ((⟨r.num, r.gptr, r.gset⟩ : Csc).col a).Nodup) ∧
      (∀ a b, (⟨r.num, r.gptr, r.gset⟩ : Csc).Dep a b ↔ (⟨r.num, r.ptr, r.post⟩ : Grouping).Dep g a b) ∧
      ∀ a b, (⟨r.num, r.ptr, r.post⟩ : Grouping).Dep g a b → a < b := by
  obtain ⟨r, hr, s, hF, e1, e2, h1, h2, h3⟩ := wp_iff.1 (main_wp hwf hf hs ha debug junk)
  refine ⟨r, hr, hF.topo.perm, hF.topo.topo, ?_⟩
  rw [e1, e2]
  have hD := hF.done
  have hP := hF.part
  have hreach : ∀ u v, u < g.n → Relation.ReflTransGen g.Link u v →
      ∃ j, (⟨s.num, s.ptr, r.post⟩ : Grouping).Mem u j ∧ (⟨s.num, s.ptr, r.post⟩ : Grouping).Mem v j := by
    intro u v hu h
    induction h with
    | refl =>
      obtain ⟨j, hj⟩ := hP.exists hu
      exact ⟨j, hj, hj⟩
    | tail _ h ih =>
      obtain ⟨j, h1, h2⟩ := ih
      obtain ⟨j', h3, h4⟩ := hD.same h (hwf.dep_lt h.1).2
      have := hP.unique h2 h3
      subst this
      exact ⟨j, h1, h4⟩
  have hcol : ∀ a, a < s.num → (⟨s.num, r.gptr, r.gset⟩ : Csc).col a = row g r.post s a := by
    intro a ha
    show slice r.gset (r.gptr.getD a 0) (r.gptr.getD (a + 1) 0) = _
    rw [h2 a (by omega), h2 (a + 1) (by omega), h3, Group.slice_flatten _ (by simpa using ha)]
    simp [List.getD_eq_getElem?_getD, ha]
  have hlt : ∀ a b, (⟨s.num, s.ptr, r.post⟩ : Grouping).Dep g a b → a < b := by
    intro a b hd
    have ha : a < s.num := by obtain ⟨-, u, v, hu, -, -⟩ := hd; exact hu.1
    have hm := (hF.mem_row ha hd.1).2 hd
    rw [hF.row_eq ha, List.mem_cons, List.mem_map] at hm
    rcases hm with e | ⟨v, hv, rfl⟩
    · exact absurd e.symm hd.1
    · exact (hF.kid_group ha hv).1
  refine ⟨hP, hD.partition.2, ?_, ?_, ?_, ?_, ?_, ?_, hlt⟩
  · intro u v hu hv
    constructor
    · rintro ⟨j, m1, m2⟩
      obtain ⟨hj, a, a1, a2, a3⟩ := hF.mem_iff.1 m1
      obtain ⟨-, b, b1, b2, b3⟩ := hF.mem_iff.1 m2
      have hb := hF.bounds hj
      have g1 := hF.get (k := a) (by omega)
      have g2 := hF.get (k := b) (by omega)
      rw [a3] at g1
      rw [b3] at g2
      rcases Nat.le_total a b with hab | hab
      · exact .inl (hD.reach (j := j) hj a1 g1 (b - a) v (show a + (b - a) < s.ptr.getD (j + 1) 0 by omega)
          (by rw [show a + (b - a) = b by omega]; exact g2)).1
      · exact .inr (hD.reach (j := j) hj b1 g2 (a - b) u (show b + (a - b) < s.ptr.getD (j + 1) 0 by omega)
          (by rw [show b + (a - b) = a by omega]; exact g1)).1
    · rintro (h | h)
      · exact hreach u v hu h
      · obtain ⟨j, m1, m2⟩ := hreach v u hv h
        exact ⟨j, m2, m1⟩
  · intro j hj
    have hb := hF.bounds hj
    have hpl := hF.pl
    have e : groupRows s.ptr r.post j = slice r.post (s.ptr.getD j 0) (s.ptr.getD (j + 1) 0) :=
      Grouping.rows_eq ⟨s.num, s.ptr, r.post⟩ j
    rw [e, List.isChain_iff_getElem]
    intro i hi
    rw [slice_length (by omega)] at hi
    have q1 : (slice r.post (s.ptr.getD j 0) (s.ptr.getD (j + 1) 0))[i]? = some (r.post.getD (s.ptr.getD j 0 + i) 0) := by
      rw [getElem?_slice, if_pos (by omega), hF.get (by omega)]
    have q2 : (slice r.post (s.ptr.getD j 0) (s.ptr.getD (j + 1) 0))[i + 1]?
        = some (r.post.getD (s.ptr.getD j 0 + i + 1) 0) := by
      rw [getElem?_slice, if_pos (by omega), show s.ptr.getD j 0 + (i + 1) = s.ptr.getD j 0 + i + 1 by omega,
        hF.get (by omega)]
    rw [(List.getElem?_eq_some_iff.1 q1).2, (List.getElem?_eq_some_iff.1 q2).2]
    exact hF.link hj (by omega) (by omega)
  · refine ⟨h1, ?_, ?_, ?_, ?_⟩
    · show r.gptr.getD 0 0 = 0
      rw [h2 0 (by omega)]; simp
    · intro a ha
      show r.gptr.getD a 0 ≤ r.gptr.getD (a + 1) 0
      have ha : a < s.num := ha
      rw [h2 a (by omega), h2 (a + 1) (by omega)]
      exact Group.flatten_take_le _ (by omega)
    · show r.gptr.getD s.num 0 ≤ r.gset.length
      rw [h2 _ (le_refl _), h3, List.take_of_length_le (by simp)]
    · intro a ha b hb
      have ha : a < s.num := ha
      show b < s.num
      rw [hcol a ha, hF.row_eq ha, List.mem_cons, List.mem_map] at hb
      rcases hb with rfl | ⟨v, hv, rfl⟩
      · exact ha
      · exact (hF.kid_group ha hv).2
  · intro a ha
    rw [hcol a ha, hF.row_eq ha]
    rfl
  · intro a ha
    rw [hcol a ha]
    exact hF.row_nodup ha
  · intro a b
    constructor
    · rintro ⟨ha, hm, hne⟩
      have ha : a < s.num := ha
      rw [hcol a ha] at hm
      exact (hF.mem_row ha hne).1 hm
    · intro hd
      have ha : a < s.num := by obtain ⟨-, u, v, hu, -, -⟩ := hd; exact hu.1
      refine ⟨ha, ?_, hd.1⟩
      rw [hcol a ha]
      exact (hF.mem_row ha hd.1).2 hd

/-- Finding: read strictly, `DAG_set[DAG_ptr[curr] + 1]` (line 137) is behind the end of the vector if the last column has
no other entry than the diagonal and is not the last in the post order.  Here 0 → 2 is the only edge. -/
theorem C94_read_past_end_ub (debug : Bool) (junk : Nat) :
    computePostOrderAndGroup debug false true junk 3 [0, 2, 3, 4] [0, 2, 1, 2] = ub := by
  cases debug <;> rfl

/-- Finding: repeated entries are not noticed: the edge 0 → 1, stored twice, counts as two, so the chain is split, and the
group graph has a repeated entry; the assertions pass. -/
theorem C94_repeated_entries (debug : Bool) (junk : Nat) :
    computePostOrderAndGroup debug false false junk 2 [0, 3, 4] [0, 1, 1, 1] =
      ok ⟨[0, 1], 2, [0, 1, 2], [0, 3, 4], [0, 1, 1, 1]⟩ := by
  cases debug <;> rfl

/-! ### Non-vacuity -/

/-- Edges `0→2`, `1→3`, `2→4`, `3→5`, `3→6`, `4→5`. -/
def postEx : Csc := ⟨7, [0, 2, 4, 6, 9, 11, 12, 13], [0, 2, 1, 3, 2, 4, 3, 5, 6, 4, 5, 5, 6]⟩

theorem postEx_hyps : postEx.WF ∧ postEx.DiagFirst ∧ (∀ u, u < postEx.n → (postEx.col u).Nodup) ∧ postEx.Acyclic := by
  refine ⟨⟨by decide, by decide, by decide, by decide, by decide⟩, ?_, by decide, ?_⟩
  · unfold Csc.DiagFirst; decide
  · apply Csc.Lower.acyclic
    rintro u v ⟨hu, hv, hne⟩
    have : ∀ u, u < postEx.n → ∀ v ∈ postEx.col u, u ≤ v := by decide
    have := this u hu v hv
    omega

/-- The chain 0, 2, 4 becomes one group. -/
example : computePostOrderAndGroup true false false 9 postEx.n postEx.p postEx.i
    = ok ⟨[0, 2, 4, 1, 3, 5, 6], 4, [0, 3, 5, 6, 7], [0, 2, 5, 6, 7], [0, 2, 1, 2, 3, 2, 3]⟩ := by decide

end PostGroup
end Verif
