import Verif.Proof.GreedyMerge

/-!
# C103, C104: `GreedyGrouping` (src/Group/Group.cpp)
-/

namespace Verif.Greedy
open Res Csc Super

variable {g : Csc} {S : Int}

/-- **C103**: `startGrouping` ends for every matrix and every search space and makes the greedy groups: each column
is in exactly one group, groups are intervals, column `v + 1` joins the group of column `v` exactly if a column of
that group has an entry in row `v + 1` within the search space.  `node_group_idx` has the groups of the columns,
`group_children` the sorted lists of the group itself and the later groups with entries, `group_nnz` their total
length. -/
theorem C103_greedy (hwf : g.WF) (S : Int) :
    ∃ o, startGrouping g.n S g.p g.i = ok o ∧ IsGreedy g S o.set ∧
      (rangeGrouping g.n o.set).Partition g.n ∧
      (∀ j, j < o.set.length - 1 → ∃ v, (rangeGrouping g.n o.set).Mem v j) ∧
      (∀ v, v < g.n → ∃ j, o.ngi[v]? = some j ∧ (rangeGrouping g.n o.set).Mem v j) ∧
      o.kids.length = o.set.length - 1 ∧ o.nnz = (o.kids.map List.length).sum ∧
      ∀ j, j < o.set.length - 1 → (o.kids.getD j []).Pairwise (· < ·) ∧ ∀ t, t ∈ o.kids.getD j [] ↔
        t = j ∨ j < t ∧ ∃ c r, (rangeGrouping g.n o.set).Mem c j ∧ (rangeGrouping g.n o.set).Mem r t ∧
          r ∈ g.col c := by
  obtain ⟨r, r1, r2, r3, r4⟩ := wp_iff.1 (groups_spec (S := S) hwf)
  have hG : Groups g.n r.1 r.2 := ⟨r2.ptr, r2.strict, r3, r4⟩
  obtain ⟨f, f1, f2, f3, f4⟩ := wp_iff.1 (finalize_spec hwf hG)
  refine ⟨⟨r.1, r.2, f.1, f.2⟩, ?_, r2, rangeGrouping_partition r2.ptr, ?_, ?_, f2, f3, f4⟩
  · unfold startGrouping
    rw [r1, ok_bind, f1, ok_bind]
  · intro j hj
    dsimp only at hj ⊢
    have hs := List.pairwise_iff_getElem.1 r2.strict j (j + 1) (by omega) (by omega) (by omega)
    rw [← List.getD_eq_getElem _ 0 (by omega), ← List.getD_eq_getElem _ 0 (by omega)] at hs
    exact ⟨r.1.getD j 0, (rangeGrouping_mem r2.ptr).2 ⟨hj, le_refl _, hs⟩⟩
  · intro v hv
    dsimp only
    obtain ⟨j, j1, j2, j3⟩ := r2.ptr.exists_block hv
    refine ⟨j, ?_, (rangeGrouping_mem r2.ptr).2 ⟨j1, j2, j3⟩⟩
    have := r4 j v (by omega) j2 j3
    rw [List.getD_eq_getElem _ _ (by omega)] at this
    rw [List.getElem?_eq_getElem (by omega), this]

/-- The specification of the greedy groups determines them. -/
theorem C103_unique {a b : List Nat} (ha : IsGreedy g S a) (hb : IsGreedy g S b) : a = b := by
  have h0 : ∀ {l : List Nat}, IsGreedy g S l → 0 ∈ l := fun h => List.mem_of_getElem? h.ptr.first
  have hn : ∀ {l : List Nat}, IsGreedy g S l → g.n ∈ l := fun h => List.mem_of_getElem? h.ptr.last
  have hle : ∀ {l : List Nat}, IsGreedy g S l → ∀ x ∈ l, x ≤ g.n := by
    intro l h x hx
    obtain ⟨k, hk, rfl⟩ := List.mem_iff_getElem.1 hx
    have := h.ptr.dle (b := k) (by omega)
    rwa [List.getD_eq_getElem _ _ hk] at this
  have key : ∀ v, v < g.n → (v ∈ a ↔ v ∈ b) := by
    intro v
    induction v using Nat.strong_induction_on with
    | _ v ih =>
      intro hv
      cases v with
      | zero => exact ⟨fun _ => h0 hb, fun _ => h0 ha⟩
      | succ v =>
        have ht : ∀ u, Together a u v ↔ Together b u v := by
          intro u
          unfold Together
          refine and_congr_right (fun huv => ?_)
          constructor
          · intro h x hx hc
            exact h x ((ih x (by omega) (by omega)).2 hx) hc
          · intro h x hx hc
            exact h x ((ih x (by omega) (by omega)).1 hx) hc
        rw [ha.join v hv, hb.join v hv]
        refine not_congr ?_
        constructor
        · rintro ⟨u, h1, h2⟩; exact ⟨u, (ht u).1 h1, h2⟩
        · rintro ⟨u, h1, h2⟩; exact ⟨u, (ht u).2 h1, h2⟩
  refine ha.strict.eq_of_mem_iff hb.strict (fun {x} => ?_)
  constructor
  · intro hx
    by_cases e : x = g.n
    · rw [e]; exact hn hb
    · have := hle ha x hx
      exact (key x (by omega)).1 hx
  · intro hx
    by_cases e : x = g.n
    · rw [e]; exact hn ha
    · have := hle hb x hx
      exact (key x (by omega)).2 hx

/-- **C103**: `getGroupedCSCFormat` with arrays of the required sizes gives a well-formed graph of the groups; for a
graph whose edges go to later nodes the column of group `j` has `j` itself first and then exactly the groups that
depend on it, in increasing order, so that it has no cycle. -/
theorem C103_grouped_graph (hwf : g.WF) (hlow : ∀ u v, g.Dep u v → u < v) (S : Int) :
    ∃ o, startGrouping g.n S g.p g.i = ok o ∧
      ∀ gp gi : List Nat, gp.length = o.set.length → gi.length = o.nnz →
      ∃ p' i', groupedCsc o.kids gp gi = ok (p', i') ∧ Csc.WF ⟨o.set.length - 1, p', i'⟩ ∧
        (∀ j, j < o.set.length - 1 → ∃ l, Csc.col ⟨o.set.length - 1, p', i'⟩ j = j :: l ∧
          (j :: l).Pairwise (· < ·) ∧ ∀ t, t ∈ l ↔ (rangeGrouping g.n o.set).Dep g j t) ∧
        (rangeGrouping g.n o.set).AcyclicQuotient g := by
  obtain ⟨o, o1, o2, o3, o4, o5, o6, o7, o8⟩ := C103_greedy hwf S
  refine ⟨o, o1, fun gp gi hgp hgi => ?_⟩
  have hpos := o2.ptr.len
  have hkid : ∀ j, j < o.set.length - 1 → ∀ t, t ∈ o.kids.getD j [] → t = j ∨ j < t ∧ t < o.set.length - 1 := by
    intro j hj t ht
    rcases ((o8 j hj).2 t).1 ht with h | ⟨h, _, _, _, h3, _⟩
    · exact .inl h
    · exact .inr ⟨h, h3.1⟩
  obtain ⟨⟨p', i'⟩, r1, r2, r3, r4⟩ := wp_iff.1 (groupedCsc_spec (kids := o.kids) (gp := gp) (gi := gi) (by omega)
    (by omega) (by
      intro l hl t ht
      obtain ⟨j, hj, rfl⟩ := List.mem_iff_getElem.1 hl
      rw [← List.getD_eq_getElem _ [] hj] at ht
      rcases hkid j (by omega) t ht with h | h <;> omega))
  rw [o6] at r2 r3 r4
  dsimp only at r2 r3 r4
  have hdep : ∀ j t, (rangeGrouping g.n o.set).Dep g j t → j < t := by
    rintro j t ⟨hne, u, v, hu, hv, huv⟩
    have hlt := hlow u v huv
    rw [rangeGrouping_mem o2.ptr] at hu hv
    by_contra hh
    have := o2.ptr.dmono_le (a := t + 1) (b := j) (by omega) (by omega)
    omega
  refine ⟨p', i', r1, r2, fun j hj => ?_, ?_⟩
  · rw [r4 j hj]
    obtain ⟨k1, k2⟩ := o8 j hj
    have hjm := (k2 j).2 (.inl rfl)
    obtain ⟨x, l, hl⟩ : ∃ x l, o.kids.getD j [] = x :: l := by
      cases h : o.kids.getD j [] with
      | nil => rw [h] at hjm; cases hjm
      | cons x l => exact ⟨x, l, rfl⟩
    have hx : x = j := by
      rw [hl] at hjm k1
      rcases List.mem_cons.1 hjm with h | h
      · exact h.symm
      · have h1 := (List.pairwise_cons.1 k1).1 j h
        rcases hkid j hj x (by rw [hl]; simp) with h2 | h2 <;> omega
    subst hx
    refine ⟨l, hl, hl ▸ k1, fun t => ?_⟩
    rw [hl] at k1 k2
    have hk2 := k2 t
    rw [List.mem_cons] at hk2
    constructor
    · intro ht
      have h1 := (List.pairwise_cons.1 k1).1 t ht
      rcases hk2.1 (.inr ht) with h | ⟨_, c, r, hc, hr, hrc⟩
      · omega
      · refine ⟨by omega, c, r, hc, hr, o3.mem_lt hc, hrc, ?_⟩
        rintro rfl
        have := o3.unique hc hr
        omega
    · intro ht
      have h1 := hdep _ _ ht
      obtain ⟨_, u, v, hu, hv, huv⟩ := ht
      rcases hk2.2 (.inr ⟨h1, u, v, hu, hv, huv.2.1⟩) with h | h
      · omega
      · exact h
  · intro a ha
    have : ∀ x y, Relation.TransGen ((rangeGrouping g.n o.set).Dep g) x y → x < y := by
      intro x y h
      induction h with
      | single h => exact hdep _ _ h
      | tail _ h ih => exact Nat.lt_trans ih (hdep _ _ h)
    exact Nat.lt_irrefl _ (this a a ha)

/-- The matrix of the examples: column 0 has rows 1 and 2, column 1 nothing below the diagonal, column 3 row 4. -/
def exG : Csc := ⟨5, [0, 3, 4, 5, 7, 8], [0, 1, 2, 1, 2, 3, 4, 4]⟩

theorem exG_wf : exG.WF := ⟨by decide, by decide, by decide, by decide, by decide⟩

/-- Column 2 joins the group of columns 0 and 1 because of column 0. -/
example : startGrouping 5 2 exG.p exG.i = ok ⟨[0, 3, 5], [0, 0, 0, 1, 1], [[0], [1]], 2⟩ := by decide

/-- The comment of the header says that the candidates are those before `group_head + max_search_space_size`; the
code also takes the one at this distance. -/
example : startGrouping 5 1 exG.p exG.i = ok ⟨[0, 2, 3, 5], [0, 0, 1, 2, 2], [[0, 1], [1], [2]], 4⟩ := by decide

example : groupedCsc [[0, 1], [1], [2]] [9, 9, 9, 9] [9, 9, 9, 9] = ok ([0, 2, 3, 4], [0, 1, 1, 2]) := by decide

example : ∀ u v, exG.Dep u v → u < v := by
  rintro u v ⟨h1, h2, h3⟩
  have : u = 0 ∨ u = 1 ∨ u = 2 ∨ u = 3 ∨ u = 4 := by
    have : u < 5 := h1
    omega
  rcases this with rfl | rfl | rfl | rfl | rfl <;> (simp [exG, Csc.col, Csc.ptr] at h2; omega)

/-! ## Small groups -/

/-- The cost of group `j`: the number of entries of its columns. -/
def groupCost (g : Csc) (set : List Nat) (j : Nat) : Nat := g.ptr (set.getD (j + 1) 0) - g.ptr (set.getD j 0)

theorem costs_of_wf (hwf : g.WF) : Costs g.p g.n :=
  ⟨by rw [hwf.plen]; omega, fun _ _ h1 h2 => hwf.mono_le h1 h2⟩

/-- **C104**: `mergeSmallGroups` after `startGrouping`, for a threshold that is at most the number of entries of
the matrix: the groups are still non-empty intervals that cover all columns, every boundary is a boundary of the
old groups (so that every old group is in one new group), `node_group_idx` is that of the new groups, and every
group costs at least the threshold. -/
theorem C104_merge (hwf : g.WF) (S th : Int) (hth : th ≤ g.ptr g.n) :
    ∃ set ngi set' ngi', groups g.n S g.p g.i = ok (set, ngi) ∧ mergeSmall g.p th set ngi = ok (set', ngi') ∧
      PtrOk set' (set'.length - 1) g.n ∧ set'.Pairwise (· < ·) ∧ (∀ b ∈ set', b ∈ set) ∧
      (∀ v, v < g.n → ∃ j, ngi'[v]? = some j ∧ (rangeGrouping g.n set').Mem v j) ∧
      ∀ j, j < set'.length - 1 → th ≤ groupCost g set' j := by
  obtain ⟨⟨set, ngi⟩, r1, r2, r3, r4⟩ := wp_iff.1 (groups_spec (S := S) hwf)
  dsimp only at r2 r3 r4
  have hp0 : g.p.getD 0 0 = 0 := hwf.p0
  obtain ⟨⟨set', ngi'⟩, m1, m2, m3, m4⟩ := wp_iff.1 (mergeSmall_spec (th := th) (costs_of_wf hwf)
    (⟨r2.ptr, r2.strict, r3, r4⟩ : Groups g.n set ngi) (by
      rw [hp0]
      show th ≤ (g.ptr g.n : Int) - 0
      omega))
  dsimp only at m2 m3 m4
  refine ⟨set, ngi, set', ngi', r1, m1, m2.ptr, m2.strict, m3, fun v hv => ?_, fun j hj => ?_⟩
  · obtain ⟨j, j1, j2, j3⟩ := m2.ptr.exists_block hv
    refine ⟨j, ?_, (rangeGrouping_mem m2.ptr).2 ⟨j1, j2, j3⟩⟩
    have := m2.inv j v (by omega) j2 j3
    have hl := m2.len
    rw [List.getD_eq_getElem _ _ (by omega)] at this
    rw [List.getElem?_eq_getElem (by omega), this]
  · rcases m4 with h | h
    · omega
    · have := chain_getD h (j := j) (by omega)
      have h2 := this.2
      have h3 := hwf.mono_le (Nat.le_of_lt this.1) (m2.ptr.dle (b := j + 1) (by omega))
      unfold groupCost
      change th ≤ (g.ptr (set'.getD (j + 1) 0) : Int) - g.ptr (set'.getD j 0) at h2
      omega

/-- **C104**, negative: with a threshold above the number of entries of the matrix and at least two groups, all
groups disappear: `group_set` becomes `[0]` and no column is in a group. -/
theorem C104_all_lost (hwf : g.WF) (S th : Int) (hth : (g.ptr g.n : Int) < th) {set ngi : List Nat}
    (hg : groups g.n S g.p g.i = ok (set, ngi)) (h2 : 3 ≤ set.length) :
    mergeSmall g.p th set ngi = ok ([0], ngi) := by
  obtain ⟨r, r1, r2, r3, r4⟩ := wp_iff.1 (groups_spec (S := S) hwf)
  rw [hg] at r1
  cases r1
  have hp0 : g.p.getD 0 0 = 0 := hwf.p0
  refine mergeSmall_lost (costs_of_wf hwf) ⟨r2.ptr, r2.strict, r3, r4⟩ ?_ h2
  rw [hp0]
  show (g.ptr g.n : Int) - 0 < th
  omega

/-- Groups with 4, 1 and 3 entries: with threshold 2 the second one goes into the third, with threshold 9 all
columns are lost. -/
example : groups 5 1 exG.p exG.i = ok ([0, 2, 3, 5], [0, 0, 1, 2, 2]) ∧
    mergeSmall exG.p 2 [0, 2, 3, 5] [0, 0, 1, 2, 2] = ok ([0, 2, 5], [0, 0, 1, 1, 1]) ∧
    mergeSmall exG.p 9 [0, 2, 3, 5] [0, 0, 1, 2, 2] = ok ([0], [0, 0, 1, 2, 2]) := by decide

end Verif.Greedy
