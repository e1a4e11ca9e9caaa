import Verif.Proof.Chain
import Verif.Props.TreeGroup

/-!
# C74: `chainGrouping` finds exactly the chains of the graph
-/

namespace Verif
open Res
open Verif.Group Verif.Chain

namespace Chain
variable {g : Csc}

theorem Done.setLen {G : Grouping} (h : Done g G) : G.set.length = g.n := by
  simpa using h.perm.length_eq

theorem Done.strict {G : Grouping} (h : Done g G) {a b : Nat} (hab : a < b) (hb : b ≤ G.num) :
    G.ptr.getD a 0 < G.ptr.getD b 0 := by
  have hl := h.plen
  have := List.pairwise_iff_getElem.1 h.psort a b (by omega) (by omega) hab
  rw [List.getD_eq_getElem?_getD, List.getD_eq_getElem?_getD, List.getElem?_eq_getElem (by omega),
    List.getElem?_eq_getElem (by omega)]
  exact this

theorem Done.partition {G : Grouping} (h : Done g G) : G.Partition g.n ∧ G.NonEmpty := by
  have hP : PtrOk G.ptr G.num g.n :=
    PtrOk.mk' (by have := h.plen; omega) h.first h.last
      (fun b hb => le_of_lt (h.strict (by omega) (by omega)))
  refine ⟨⟨hP, ?_⟩, ?_⟩
  · rw [List.take_of_length_le (by rw [h.setLen])]; exact h.perm
  · intro j hj he
    have h1 := h.strict (a := j) (b := j + 1) (by omega) (by omega)
    have h2 := hP.dle (b := j + 1) (by omega)
    rw [Grouping.rows_eq] at he
    have h3 : (slice G.set (G.ptr.getD j 0) (G.ptr.getD (j + 1) 0)).length = _ :=
      slice_length (by rw [h.setLen]; exact h2)
    rw [he] at h3
    simp only [List.length_nil] at h3
    omega

theorem Done.inner {G : Grouping} (h : Done g G) {j k : Nat} (hj : j < G.num)
    (h1 : G.ptr.getD j 0 < k) (h2 : k < G.ptr.getD (j + 1) 0) : k ∉ G.ptr := by
  intro hk
  obtain ⟨i, hi, he⟩ := List.getElem_of_mem hk
  have hl := h.plen
  have he' : G.ptr.getD i 0 = k := by
    rw [List.getD_eq_getElem?_getD, List.getElem?_eq_getElem hi]; exact he
  rcases Nat.lt_or_ge j i with h3 | h3
  · rcases Nat.lt_or_ge (j + 1) i with h4 | h4
    · have := h.strict h4 (by omega); omega
    · have : i = j + 1 := by omega
      subst this; omega
  · rcases Nat.lt_or_ge i j with h4 | h4
    · have := h.strict h4 (by omega); omega
    · have : i = j := by omega
      subst this; omega

theorem Done.link {G : Grouping} (h : Done g G) {j k : Nat} (hj : j < G.num)
    (h1 : G.ptr.getD j 0 ≤ k) (h2 : k + 1 < G.ptr.getD (j + 1) 0) {x y : Nat}
    (hx : G.set[k]? = some x) (hy : G.set[k + 1]? = some y) : g.Link x y := by
  obtain ⟨k', x', h3, h4, h5⟩ := h.links (k + 1) y hy (h.inner hj (by omega) h2)
  have : k' = k := by omega
  subst this
  rw [hx, Option.some.injEq] at h4
  rw [h4]; exact h5

/-- Inside a group links lead from each node to the later ones. -/
theorem Done.reach {G : Grouping} (h : Done g G) {j a : Nat} (hj : j < G.num)
    (h1 : G.ptr.getD j 0 ≤ a) {x : Nat} (hx : G.set[a]? = some x) : ∀ (d y : Nat),
    a + d < G.ptr.getD (j + 1) 0 → G.set[a + d]? = some y →
    Relation.ReflTransGen g.Link x y ∧ (0 < d → Relation.TransGen g.Link x y) := by
  intro d
  induction d with
  | zero =>
    intro y _ hy
    rw [Nat.add_zero, hx, Option.some.injEq] at hy
    subst hy
    exact ⟨.refl, fun h => absurd h (by omega)⟩
  | succ d ih =>
    intro y h2 hy
    have hlen := h.partition.1.ptr.dle (b := j + 1) hj
    have hz : G.set[a + d]? = some (G.set.getD (a + d) 0) :=
      getElem?_getD 0 (by rw [h.setLen]; omega)
    have hl := h.link hj (k := a + d) (by omega) (by omega) hz hy
    have := (ih _ (by omega) hz).1
    exact ⟨this.tail hl, fun _ => Relation.TransGen.tail' this hl⟩

theorem link_lt (hwf : g.WF) (hf : g.DiagFirst) (hs : g.Sorted) {x y : Nat}
    (h : Relation.TransGen g.Link x y) : x < y := by
  induction h with
  | single h => exact dep_lt hwf hf hs h.1
  | tail _ h ih => exact lt_trans ih (dep_lt hwf hf hs h.1)

/-- A link stays in a group. -/
theorem Done.same {G : Grouping} (h : Done g G) {u v : Nat} (hl : g.Link u v) (hv : v < g.n) :
    ∃ j, G.Mem u j ∧ G.Mem v j := by
  obtain ⟨j, hj, hm⟩ := h.partition.1.exists hv
  refine ⟨j, ?_, hj, hm⟩
  rw [Grouping.rows_eq, mem_slice] at hm
  obtain ⟨k, h1, h2, h3⟩ := hm
  have hk : k ∉ G.ptr := fun hc => h.starts k hc v h3 u hl
  obtain ⟨k', x, h4, h5, h6⟩ := h.links k v h3 hk
  have hne : k ≠ G.ptr.getD j 0 := by
    rintro rfl
    apply hk
    have := h.plen
    rw [List.getD_eq_getElem?_getD, List.getElem?_eq_getElem (by omega)]
    exact List.getElem_mem _
  have := h6.2.2 u hl.1
  subst this
  refine ⟨hj, ?_⟩
  rw [Grouping.rows_eq, mem_slice]
  exact ⟨k', by omega, by omega, h5⟩

end Chain

/-- **C74.** For every non-empty graph whose columns start with the diagonal entry and are
strictly ascending, `chainGrouping` terminates within its arrays and without failing an
assertion.  The groups partition the nodes, none is empty; two nodes are in the same group
exactly if they are on the same chain; the nodes of a group are in ascending order, which is
the order of the chain; and every dependence between groups goes to a larger group
number. -/
theorem C74_chain_grouping {g : Csc} (hwf : g.WF) (hf : g.DiagFirst) (hs : g.Sorted) (hn : 0 < g.n)
    (debug : Bool) :
    ∃ G, chainGrouping debug g.n g.p g.i = ok G ∧ G.Partition g.n ∧ G.NonEmpty ∧
      (∀ u v, u < g.n → v < g.n → ((∃ j, G.Mem u j ∧ G.Mem v j) ↔ g.SameChain u v)) ∧
      (∀ j, j < G.num → (groupRows G.ptr G.set j).Pairwise (· < ·) ∧
        (groupRows G.ptr G.set j).IsChain g.Link) ∧
      ∀ a b, G.Dep g a b → a < b := by
  obtain ⟨G, hG, hD⟩ := wp_iff.1 (chainTraverse_wp hwf hf hs debug hn)
  obtain ⟨hP, hne⟩ := hD.partition
  obtain ⟨r, hr, hP', hlen, hplen, f, hf1, hf2, hf3⟩ :=
    wp_iff.1 (renumber_wp hP hne hD.setLen (List.Perm.refl (List.range G.num)))
  refine ⟨⟨G.num, r.1, r.2⟩, ?_, hP', ?_⟩
  · unfold chainGrouping
    rw [hG, ok_bind, checkMarks_ok hD.perm, ok_bind, hr, ok_bind]
  obtain ⟨G', hG'⟩ : ∃ G' : Grouping, G' = ⟨G.num, r.1, r.2⟩ := ⟨_, rfl⟩
  rw [← hG'] at hP'
  have hrow : ∀ j, j < G.num → groupRows G'.ptr G'.set j = groupRows G.ptr G.set (f j) := by
    rw [hG']; exact hf3
  have hnum : G'.num = G.num := by rw [hG']
  have hmem : ∀ v j, G'.Mem v j ↔ j < G.num ∧ G.Mem v (f j) := by
    intro v j
    unfold Grouping.Mem
    rw [hnum]
    constructor
    · rintro ⟨h1, h2⟩
      rw [hrow j h1] at h2
      exact ⟨h1, hf1 j h1, h2⟩
    · rintro ⟨h1, h2, h3⟩
      refine ⟨h1, ?_⟩
      rw [hrow j h1]; exact h3
  -- rows of a group of the traversal
  have hasc : ∀ i, i < G.num → (groupRows G.ptr G.set i).Pairwise (· < ·) ∧
      (groupRows G.ptr G.set i).IsChain g.Link := by
    intro i hi
    have hb := hP.ptr.dle (b := i + 1) hi
    have hsl := hD.setLen
    have hget : ∀ a, a < (groupRows G.ptr G.set i).length →
        G.ptr.getD i 0 + a < G.ptr.getD (i + 1) 0 ∧
        ∀ x, (groupRows G.ptr G.set i)[a]? = some x → G.set[G.ptr.getD i 0 + a]? = some x := by
      intro a ha
      rw [Grouping.rows_eq, slice_length (by omega)] at ha
      refine ⟨by omega, fun x hx => ?_⟩
      rw [Grouping.rows_eq, getElem?_slice, if_pos (by omega)] at hx
      exact hx
    constructor
    · rw [List.pairwise_iff_getElem]
      intro a b ha hb' hab
      obtain ⟨h1, h2⟩ := hget a ha
      obtain ⟨h3, h4⟩ := hget b hb'
      have h5 := h2 _ (List.getElem?_eq_getElem ha)
      have h6 := h4 _ (List.getElem?_eq_getElem hb')
      have := hD.reach hi (by omega) h5 (b - a) _ (by omega)
        (by rw [show G.ptr.getD i 0 + a + (b - a) = G.ptr.getD i 0 + b by omega]; exact h6)
      exact link_lt hwf hf hs (this.2 (by omega))
    · rw [List.isChain_iff_getElem]
      intro a ha
      obtain ⟨h1, h2⟩ := hget a (by omega)
      obtain ⟨h3, h4⟩ := hget (a + 1) (by omega)
      have h5 := h2 _ (List.getElem?_eq_getElem (by omega))
      have h6 := h4 _ (List.getElem?_eq_getElem ha)
      exact hD.link hi (by omega) (by omega) h5 h6
  have hsame : ∀ u v, g.Link u v → ∃ j, G'.Mem u j ∧ G'.Mem v j := by
    intro u v hl
    obtain ⟨i, h1, h2⟩ := hD.same hl (hwf.dep_lt hl.1).2
    have hvn := (hwf.dep_lt hl.1).2
    obtain ⟨j, hj⟩ := hP'.exists hvn
    have h3 := ((hmem v j).1 hj)
    have h4 := hP.unique h3.2 h2
    exact ⟨j, (hmem u j).2 ⟨h3.1, by rw [h4]; exact h1⟩, hj⟩
  have hreach : ∀ u v, u < g.n → Relation.ReflTransGen g.Link u v → ∃ j, G'.Mem u j ∧ G'.Mem v j := by
    intro u v hu h
    induction h with
    | refl =>
      obtain ⟨j, hj⟩ := hP'.exists hu
      exact ⟨j, hj, hj⟩
    | tail _ h ih =>
      obtain ⟨j, h1, h2⟩ := ih
      obtain ⟨j', h3, h4⟩ := hsame _ _ h
      have := hP'.unique h2 h3
      subst this
      exact ⟨j, h1, h4⟩
  rw [← hG']
  refine ⟨?_, ?_, ?_, ?_⟩
  · intro j hj
    rw [hnum] at hj
    rw [hrow j hj]; exact hne _ (hf1 j hj)
  · intro u v hu hv
    constructor
    · rintro ⟨j, h1, h2⟩
      obtain ⟨hj, _, h1⟩ := (hmem u j).1 h1
      obtain ⟨_, _, h2⟩ := (hmem v j).1 h2
      rw [Grouping.rows_eq, mem_slice] at h1 h2
      obtain ⟨a, a1, a2, a3⟩ := h1
      obtain ⟨b, b1, b2, b3⟩ := h2
      rcases Nat.le_total a b with hab | hab
      · exact .inl (hD.reach (hf1 j hj) a1 a3 (b - a) v (by omega)
          (by rw [show a + (b - a) = b by omega]; exact b3)).1
      · exact .inr (hD.reach (hf1 j hj) b1 b3 (a - b) u (by omega)
          (by rw [show b + (a - b) = a by omega]; exact a3)).1
    · rintro (h | h)
      · exact hreach u v hu h
      · obtain ⟨j, h1, h2⟩ := hreach v u hv h
        exact ⟨j, h2, h1⟩
  · intro j hj
    rw [hnum] at hj
    rw [hrow j hj]; exact hasc _ (hf1 j hj)
  · rintro a b ⟨hab, u, v, hu, hv, huv⟩
    obtain ⟨ha, hu'⟩ := (hmem u a).1 hu
    obtain ⟨hb, hv'⟩ := (hmem v b).1 hv
    have h1 : leader G g.n (f a) ≤ u := leader_le G g.n hu'.2
    have h2 := dep_lt hwf hf hs huv
    have h3 : v ≤ leader G g.n (f b) := by
      have hlm := leader_mem hP hne (hf1 b hb)
      by_contra hc
      -- a smaller node of the group links to `v`
      have hm1 := hlm.2
      have hm2 := hv'.2
      rw [Grouping.rows_eq, mem_slice] at hm1 hm2
      obtain ⟨p, p1, p2, p3⟩ := hm1
      obtain ⟨q, q1, q2, q3⟩ := hm2
      have hpq : p ≤ q := by
        by_contra hpq
        have := hD.reach (hf1 b hb) q1 q3 (p - q) (leader G g.n (f b)) (by omega)
          (by rw [show q + (p - q) = p by omega]; exact p3)
        have := link_lt hwf hf hs (this.2 (by omega))
        omega
      have hne' : p ≠ q := by
        rintro rfl
        rw [p3, Option.some.injEq] at q3
        omega
      have hz : G.set[q - 1]? = some (G.set.getD (q - 1) 0) :=
        getElem?_getD 0 (by
          have := hP.ptr.dle (b := f b + 1) (hf1 b hb)
          rw [hD.setLen]; omega)
      have hl := hD.link (hf1 b hb) (k := q - 1) (by omega) (by omega) hz
        (by rw [show q - 1 + 1 = q by omega]; exact q3)
      have := hl.2.2 u huv
      have hmu : G.Mem u (f b) := by
        refine ⟨hf1 b hb, ?_⟩
        rw [Grouping.rows_eq, mem_slice]
        exact ⟨q - 1, by omega, by omega, by rw [this]; exact hz⟩
      exact hab (hP'.unique hu ((hmem u b).2 ⟨hb, hmu⟩))
    by_contra hc
    rcases Nat.lt_or_ge b a with h4 | h4
    · have := hf2 b a h4 ha; omega
    · exact hab (by omega)

/-- Finding: if the entries of a column are not ascending, a node can be on `root_id` twice and is
listed twice; the second time `group_set` is written past its end.  Here column 0 has the
entries `0, 2, 1` and column 1 the entries `1, 2`. -/
theorem C74_unsorted_ub (debug : Bool) : chainGrouping debug 3 [0, 3, 5, 6] [0, 2, 1, 1, 2, 2] = ub := by
  cases debug <;> decide

/-- Finding: for an empty graph `group_ptr.back()` is read although `group_ptr` is empty. -/
theorem C74_empty_ub (debug : Bool) : chainGrouping debug 0 [0] [] = ub := by
  cases debug <;> decide

/-! ### Non-vacuity -/

/-- Edges `0→2`, `1→3`, `2→4`, `3→5`, `3→6`, `4→5`. -/
def chainEx : Csc := ⟨7, [0, 2, 4, 6, 9, 11, 12, 13], [0, 2, 1, 3, 2, 4, 3, 5, 6, 4, 5, 5, 6]⟩

theorem chainEx_hyps : chainEx.WF ∧ chainEx.DiagFirst ∧ chainEx.Sorted := by
  refine ⟨⟨by decide, by decide, by decide, by decide, by decide⟩, ?_, ?_⟩
  · unfold Csc.DiagFirst; decide
  · unfold Csc.Sorted; decide

example : chainEx.WF ∧ chainEx.DiagFirst ∧ chainEx.Sorted ∧ 0 < chainEx.n ∧
    chainGrouping true chainEx.n chainEx.p chainEx.i
      = ok ⟨4, [0, 3, 5, 6, 7], [0, 2, 4, 1, 3, 5, 6]⟩ :=
  ⟨chainEx_hyps.1, chainEx_hyps.2.1, chainEx_hyps.2.2, by decide, by decide⟩

end Verif
