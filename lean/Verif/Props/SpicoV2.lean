import Verif.Proof.SpicoV2
import Verif.Props.RunGroup
import Verif.Props.RunGroupV2
import Verif.Spec.Reduce

/-!
# C107: `inspection_spicocsc_v2`

The groups of this function are not runs of consecutive columns: a group is a run of columns, with columns that come
earlier inserted before their first successor.  If the last column gets into a group, `child[ncol]` is read, which is
after the end of the array.
-/

namespace Verif
open Res Csc RunGroup SpicoV2

/-- Groups in which the columns can be processed in the listed order, one group after the other. -/
structure ChainGroups (g : Csc) (o : Out) : Prop where
  /-- every column is in exactly one group -/
  part : o.grouping.Partition g.n
  nonEmpty : o.grouping.NonEmpty
  /-- `groupInv[v]` is the group of `v` -/
  inv : ∀ v, v < g.n → ∃ j, o.inv[v]? = some j ∧ o.grouping.Mem v j
  /-- a column is not listed before a column it depends on -/
  order : ∀ j, j < o.num → (groupRows o.ptr o.set j).Pairwise (fun a b => ¬ g.Dep b a)
  /-- a column outside of a group that depends on the group is larger than all columns of the group -/
  out : ∀ j u v w, o.grouping.Mem u j → o.grouping.Mem w j → ¬ o.grouping.Mem v j → g.Dep u v → w < v
  /-- no group depends on itself through other groups -/
  acyclic : o.grouping.AcyclicQuotient g
  /-- a column with a successor is not alone -/
  grouped : ∀ u v, g.Dep u v → ∃ w, w ≠ u ∧ Out.Same o u w

variable {g : Csc}

theorem col_second (h : g.WF) (hd : g.DiagFirst) (hs : g.Sorted) {a b : Nat} (hab : g.Dep a b) :
    g.ptr a + 1 < g.ptr (a + 1) ∧ g.idx (g.ptr a + 1) ≤ b ∧ a < b := by
  obtain ⟨h1, h2, h3⟩ := hab
  have hl := h.col_length h1
  have hle := h.ptr_le (a := a + 1) (by omega)
  have hm := h.mono a h1
  obtain ⟨k, hk1, hk2, hk3⟩ := (h.mem_col h1).1 h2
  have h0 := hd a h1
  have hsort := hs a h1
  have hcol : ∀ q, q < g.ptr (a + 1) - g.ptr a → (g.col a)[q]? = some (g.idx (g.ptr a + q)) := by
    intro q hq
    unfold col
    rw [List.getElem?_take, if_pos hq, List.getElem?_drop, getElem?_getD 0 (by omega)]
    rfl
  have ha : g.idx (g.ptr a) = a := by
    have := hcol 0 (by omega)
    rw [List.head?_eq_getElem?, this] at h0
    simpa using h0
  have hka : k ≠ g.ptr a := by
    rintro rfl
    exact h3 (ha.symm.trans hk3)
  have hget : ∀ q, q < g.ptr (a + 1) - g.ptr a → ∃ hq : q < (g.col a).length, (g.col a)[q] = g.idx (g.ptr a + q) :=
    fun q hq => List.getElem?_eq_some_iff.1 (hcol q hq)
  rw [List.pairwise_iff_getElem] at hsort
  refine ⟨by omega, ?_, ?_⟩
  · by_cases hk : k = g.ptr a + 1
    · rw [← hk, hk3]
    · obtain ⟨p1, e1⟩ := hget 1 (by omega)
      obtain ⟨p2, e2⟩ := hget (k - g.ptr a) (by omega)
      have := hsort 1 (k - g.ptr a) p1 p2 (by omega)
      rw [e1, e2, show g.ptr a + (k - g.ptr a) = k by omega, hk3] at this
      omega
  · obtain ⟨p1, e1⟩ := hget 0 (by omega)
    obtain ⟨p2, e2⟩ := hget (k - g.ptr a) (by omega)
    have := hsort 0 (k - g.ptr a) p1 p2 (by omega)
    rw [e1, e2, show g.ptr a + (k - g.ptr a) = k by omega, hk3, Nat.add_zero, ha] at this
    exact this

theorem second_dep (h : g.WF) (hd : g.DiagFirst) (hs : g.Sorted) {a : Nat} (ha : a < g.n)
    (hlt : g.ptr a + 1 < g.ptr (a + 1)) : g.Dep a (g.idx (g.ptr a + 1)) := by
  have hl := h.col_length ha
  have hle := h.ptr_le (a := a + 1) (by omega)
  have hcol : ∀ q, q < g.ptr (a + 1) - g.ptr a → (g.col a)[q]? = some (g.idx (g.ptr a + q)) := by
    intro q hq
    unfold col
    rw [List.getElem?_take, if_pos hq, List.getElem?_drop, getElem?_getD 0 (by omega)]
    rfl
  refine ⟨ha, (h.mem_col ha).2 ⟨g.ptr a + 1, by omega, hlt, rfl⟩, fun he => ?_⟩
  have h0 := hd a ha
  rw [List.head?_eq_getElem?, hcol 0 (by omega)] at h0
  have hsort := hs a ha
  rw [List.pairwise_iff_getElem] at hsort
  obtain ⟨p1, e1⟩ := List.getElem?_eq_some_iff.1 (hcol 0 (by omega))
  obtain ⟨p2, e2⟩ := List.getElem?_eq_some_iff.1 (hcol 1 (by omega))
  have := hsort 0 1 p1 p2 (by omega)
  rw [e1, e2, ← he] at this
  simp only [Nat.add_zero, Option.some.injEq] at h0 this
  omega

/-- The array `child`. -/
theorem kid_wp (h : g.WF) (hd : g.DiagFirst) (hs : g.Sorted) :
    wp (childCsc g.n g.p g.i) (fun c => c.length = g.n ∧ (∀ extra, Kid g.n (c ++ extra) g.Dep) ∧
      (∀ a k : Nat, a < g.n → c.getD a 0 = (k : Int) → g.Dep a k ∧ ∀ b, g.Dep a b → k ≤ b) ∧
      (∀ a, a < g.n → c.getD a 0 = -1 → ∀ b, ¬ g.Dep a b)) := by
  refine wp_mono (childCsc_wp h) ?_
  rintro c ⟨h1, h2⟩
  have happ : ∀ (extra : List Int) a, a < g.n → (c ++ extra).getD a 0 = c.getD a 0 := by
    intro extra a ha
    rw [List.getD_append _ _ _ _ (by omega)]
  refine ⟨h1, fun extra => ⟨by rw [List.length_append]; omega, ?_, ?_, ?_⟩, ?_, ?_⟩
  · intro a ha
    rw [happ extra a ha, h2 a ha]
    split
    · rename_i hlt
      have hdep := second_dep h hd hs ha hlt
      exact .inr ⟨_, rfl, (col_second h hd hs hdep).2.2, (h.dep_lt hdep).2⟩
    · exact .inl rfl
  · intro a b hab
    have ha := hab.1
    have := col_second h hd hs hab
    rw [happ extra a ha, h2 a ha, if_pos this.1]
    exact ⟨_, rfl, this.2.1⟩
  · intro a b hab
    exact ⟨(col_second h hd hs hab).2.2, (h.dep_lt hab).2⟩
  · intro a k ha hk
    rw [h2 a ha] at hk
    split at hk
    · rename_i hlt
      have hk' : g.idx (g.ptr a + 1) = k := by omega
      rw [← hk']
      exact ⟨second_dep h hd hs ha hlt, fun b hb => (col_second h hd hs hb).2.1⟩
    · omega
  · intro a ha hk b hb
    rw [h2 a ha, if_pos (col_second h hd hs hb).1] at hk
    omega

theorem SpicoV2.Good.groups {child : List Int} {s : Arr} (hk : Kid g.n child g.Dep) (hG : SpicoV2.Good g.n child g.Dep g.n s)
    (hnone : ∀ a, a < g.n → child.getD a 0 = -1 → ∀ b, ¬ g.Dep a b)
    {ptr set inv : List Nat} (hp : g.n < ptr.length) (hs : g.n ≤ set.length) (hi : g.n ≤ inv.length) :
    wp (collect g.n s.next ptr set inv) (ChainGroups g) := by
  obtain ⟨G, hI, hS, hT⟩ := hG
  refine wp_mono (collect_chains hI.chains hp hs hi) ?_
  rintro o ⟨D, hD, hL⟩
  have hrow : ∀ j, j < o.num → groupRows o.ptr o.set j ∈ D := fun j hj => List.mem_of_getElem? (hL.rows hj)
  have hP := hL.partition
  have hmem : ∀ {v j}, o.grouping.Mem v j ↔ j < o.num ∧ v ∈ groupRows o.ptr o.set j := Iff.rfl
  have hout : ∀ j u v w, o.grouping.Mem u j → o.grouping.Mem w j → ¬ o.grouping.Mem v j → g.Dep u v → w < v := by
    intro j u v w hu hw hv huv
    rw [hmem] at hu hw hv
    have hlow := hk.low u v huv
    rcases hD _ (hrow j hu.1) with ⟨C, hC, e⟩ | ⟨x, _, _, e⟩
    · rw [← e] at hu hw hv
      have hok := hI.ok C hC
      have hwe := hok.lt hw.2
      have hvc : C.c ≤ v := by
        rcases hok.mem u hu.2 with h1 | ⟨h1, h2, k, h3, h4, h5⟩
        · omega
        · obtain ⟨k', e1, e2⟩ := hk.first u v huv
          rw [h3] at e1
          omega
      by_contra hlt
      exact hv ⟨hu.1, hok.core v hvc (by omega)⟩
    · rw [e, List.mem_singleton] at hu hw
      omega
  refine ⟨hP, ?_, ?_, ?_, hout, ?_, ?_⟩
  · intro j hj
    rcases hD _ (hrow j hj) with ⟨C, hC, e⟩ | ⟨x, _, _, e⟩
    · change groupRows o.ptr o.set j ≠ []
      obtain ⟨a, T, e1, _⟩ := (hI.ok C hC).head
      rw [← e, e1]; simp
    · change groupRows o.ptr o.set j ≠ []
      rw [e]; simp
  · intro v hv
    obtain ⟨j, hj⟩ := hP.exists hv
    refine ⟨j, ?_, hj⟩
    have hli := hL.lenInv
    rw [getElem?_getD 0 (by omega), hL.inv j _ (hL.rows hj.1) v hj.2]
  · intro j hj
    rcases hD _ (hrow j hj) with ⟨C, hC, e⟩ | ⟨x, _, _, e⟩
    · rw [← e]
      exact (hI.ok C hC).ord.imp (fun hh => hh.2)
    · rw [e]; simp
  · -- the largest columns of the groups on a path increase
    intro a ha
    have hstep : ∀ a b, o.grouping.Dep g a b → ∀ w, o.grouping.Mem w a → ∃ v, o.grouping.Mem v b ∧ w < v := by
      rintro a b ⟨hab, u, v, hu, hv, huv⟩ w hw
      refine ⟨v, hv, hout a u v w hu hw (fun hc => hab (hP.unique hc hv)) huv⟩
    have hpath : ∀ {a b}, Relation.TransGen (o.grouping.Dep g) a b → ∀ w, o.grouping.Mem w a → ∃ v, o.grouping.Mem v b ∧ w < v := by
      intro a b hab
      induction hab with
      | single h => exact hstep _ _ h
      | tail _ h ih =>
        intro w hw
        obtain ⟨v, hv, hlt⟩ := ih w hw
        obtain ⟨v', hv', hlt'⟩ := hstep _ _ h v hv
        exact ⟨v', hv', by omega⟩
    obtain ⟨w, hw⟩ : ∃ w, o.grouping.Mem w a := by
      rcases Relation.TransGen.head'_iff.1 ha with ⟨b, ⟨_, u, _, hu, _⟩, _⟩
      exact ⟨u, hu⟩
    have hall : ∀ q, ∃ v, o.grouping.Mem v a ∧ q ≤ v := by
      intro q
      induction q with
      | zero => exact ⟨w, hw, Nat.zero_le _⟩
      | succ q ih =>
        obtain ⟨v, hv, hq⟩ := ih
        obtain ⟨v', hv', hlt⟩ := hpath ha v hv
        exact ⟨v', hv', by omega⟩
    obtain ⟨v, hv, hq⟩ := hall g.n
    have := hP.mem_lt hv
    omega
  · intro u v huv
    have hu := huv.1
    obtain ⟨C, hC, huC⟩ := hS u hu hu (fun hc => hnone u hu hc v huv)
    obtain ⟨j, hj⟩ := hP.exists hu
    have hCj : groupRows o.ptr o.set j = C.L := by
      rcases hD _ (hrow j hj.1) with ⟨C', hC', e⟩ | ⟨x, _, hno, e⟩
      · have hx : u ∈ C'.L := by rw [e]; exact hj.2
        rw [← e, hI.disj C' C u hC' hC hx huC]
      · have := hj.2
        change u ∈ groupRows o.ptr o.set j at this
        rw [e, List.mem_singleton] at this
        subst this
        exact absurd ⟨C, hC, huC⟩ hno
    have hok := hI.ok C hC
    obtain ⟨a, T, e1, e2, _⟩ := hok.head
    have haL : a ∈ C.L := by rw [e1]; simp
    have hcL := hok.core C.c (Nat.le_refl _) hok.ce
    by_cases hua : u = a
    · exact ⟨C.c, by omega, j, hj, hj.1, by show _ ∈ groupRows o.ptr o.set j; rw [hCj]; exact hcL⟩
    · exact ⟨a, fun hc => hua hc.symm, j, hj, hj.1, by show _ ∈ groupRows o.ptr o.set j; rw [hCj]; exact haL⟩

theorem spicoCscV2_wp (h : g.WF) (hd : g.DiagFirst) (hs : g.Sorted) (extra : List Int)
    {ptr set inv : List Nat} (hp : g.n < ptr.length) (hse : g.n ≤ set.length) (hi : g.n ≤ inv.length) :
    ubIf (¬ ∃ x r, extra = x :: r ∧ x ≠ -1) (spicoCscV2 extra g.n g.p g.i ptr set inv) (ChainGroups g) := by
  unfold spicoCscV2
  refine ubIf.bind (.inr (kid_wp h hd hs)) ?_
  rintro c ⟨h1, h2, h3, h4⟩
  have hbad : Bad g.n (c ++ extra) → ¬ ∃ x r, extra = x :: r ∧ x ≠ -1 := by
    rintro hb ⟨x, r, rfl, hx⟩
    refine hb ⟨x, ?_, hx⟩
    rw [List.getElem?_append_right (by omega), h1, Nat.sub_self]
    rfl
  have := chains_wp (h2 extra)
  refine ubIf.bind (R := SpicoV2.Good g.n (c ++ extra) g.Dep g.n) ?_ ?_
  · rcases this with ⟨hb, e⟩ | hw
    · exact .inl ⟨hbad hb, e⟩
    · exact .inr hw
  · intro s hG
    refine .inr (hG.groups (h2 extra) ?_ hp hse hi)
    intro a ha hc
    rw [List.getD_append _ _ _ _ (by omega)] at hc
    exact h4 a ha hc

/-- **C107, groups.** Whatever follows the array `child` in memory: if the function ends, its groups can be processed in
the listed order. -/
theorem C107_groups (h : g.WF) (hd : g.DiagFirst) (hs : g.Sorted) (extra : List Int)
    {ptr set inv : List Nat} (hp : g.n < ptr.length) (hse : g.n ≤ set.length) (hi : g.n ≤ inv.length) {o : Out}
    (ho : spicoCscV2 extra g.n g.p g.i ptr set inv = ok o) : ChainGroups g o := by
  rcases spicoCscV2_wp h hd hs extra hp hse hi with ⟨_, e⟩ | hw
  · rw [ho] at e; cases e
  · rw [ho] at hw; exact hw

/-- **C107, the read after the end is harmless unless it gives -1.** -/
theorem C107_extra (h : g.WF) (hd : g.DiagFirst) (hs : g.Sorted) {x : Int} (hx : x ≠ -1) (r : List Int)
    {ptr set inv : List Nat} (hp : g.n < ptr.length) (hse : g.n ≤ set.length) (hi : g.n ≤ inv.length) :
    ∃ o, spicoCscV2 (x :: r) g.n g.p g.i ptr set inv = ok o ∧ ChainGroups g o := by
  rcases spicoCscV2_wp h hd hs (x :: r) hp hse hi with ⟨hc, _⟩ | hw
  · exact absurd ⟨x, r, rfl, hx⟩ hc
  · exact wp_iff.1 hw

/-- The run is undefined if a column whose first successor is the last column gets into a chain or is not in the middle of
one. -/
theorem spicoCscV2_ub (h : g.WF) (hd : g.DiagFirst) (hs : g.Sorted) {j : Nat} (hj : g.Dep j (g.n - 1))
    (hfirst : ∀ v, g.Dep j v → v = g.n - 1)
    (hcore : j + 1 = g.n - 1 ∨ ∀ u, g.Dep u j → ∃ w, g.Dep u w ∧ w < j)
    (ptr set inv : List Nat) : spicoCscV2 [] g.n g.p g.i ptr set inv = ub := by
  unfold spicoCscV2
  obtain ⟨c, e1, h1, h2, h3, h4⟩ := wp_iff.1 (kid_wp h hd hs)
  rw [e1, ok_bind]
  have hk := h2 []
  rw [List.append_nil] at hk ⊢
  rcases chains_wp hk with ⟨_, e⟩ | hw
  · rw [e]; rfl
  · exfalso
    obtain ⟨s, -, G, hI, hS, hT⟩ := wp_iff.1 hw
    have hjn := hj.1
    have hlow := hk.low _ _ hj
    have hb : Bad g.n c := by
      rintro ⟨x, hx, _⟩
      rw [List.getElem?_eq_none (by omega)] at hx
      cases hx
    have hcj : c.getD j 0 = ((g.n - 1 : Nat) : Int) := by
      rcases hk.val j hjn with e | ⟨k, e, _⟩
      · exact absurd hj (h4 j hjn e _)
      · rw [e]
        have := hfirst k (h3 j k hjn e).1
        omega
    obtain ⟨C, hC, hx⟩ := hS j hjn hjn (by rw [hcj]; omega)
    have hstop := hT C hC
    have hen := hstop.2 hb
    have hok := hI.ok C hC
    -- the last column is in no chain
    have hlast : s.visited.getD (g.n - 1) false = true → False := by
      intro hv
      obtain ⟨D, hD, hxD⟩ := (hI.vis (g.n - 1) (by omega)).1 hv
      have e1 := (hT D hD).2 hb
      have e2 := (hI.ok D hD).lt hxD
      omega
    rcases hok.mem j hx with ⟨m1, m2⟩ | ⟨m1, m2, k, m3, m4, m5⟩
    · -- a column of the middle part
      rcases hcore with hcore | hcore
      · have he : C.e = j := by omega
        refine hlast ?_
        have := hstop.1 (by rw [he, hcj]; omega)
        rwa [he, hcore] at this
      · rcases hok.why j m1 m2 with e | ⟨u, hu, e⟩
        · rw [hcj] at e; omega
        · obtain ⟨w1, w2⟩ := h3 u j hu e
          obtain ⟨w, hw1, hw2⟩ := hcore u w1
          have := w2 w hw1
          omega
    · rw [hcj] at m3
      omega

/-- **C107, undefined.** If the last column depends on the last but one, the function reads after the end of `child`. -/
theorem C107_ub (h : g.WF) (hd : g.DiagFirst) (hs : g.Sorted) (h2 : 2 ≤ g.n) (hj : g.Dep (g.n - 2) (g.n - 1))
    (ptr set inv : List Nat) : spicoCscV2 [] g.n g.p g.i ptr set inv = ub := by
  refine spicoCscV2_ub h hd hs hj ?_ (.inl (by omega)) ptr set inv
  intro v hv
  have h1 := (col_second h hd hs hv).2.2
  have h2 := h.dep_lt hv
  omega

/-- **C107, undefined.** The same if a column on which only the last one depends is the first successor of no column. -/
theorem C107_ub_feeder (h : g.WF) (hd : g.DiagFirst) (hs : g.Sorted) {j : Nat} (hj : g.Dep j (g.n - 1))
    (honly : ∀ v, g.Dep j v → v = g.n - 1) (hno : ∀ u, g.Dep u j → ∃ w, g.Dep u w ∧ w < j)
    (ptr set inv : List Nat) : spicoCscV2 [] g.n g.p g.i ptr set inv = ub :=
  spicoCscV2_ub h hd hs hj honly (.inr hno) ptr set inv

/-! ### Examples -/

/-- Columns 0 and 1 have the first successor 3, column 2 the first successor 4, column 3 is followed by 4; 5 is alone. -/
def exChains : Csc := ⟨6, [0, 2, 5, 7, 9, 10, 11], [0, 3, 1, 3, 4, 2, 4, 3, 4, 4, 5]⟩

example : exChains.WF ∧ exChains.DiagFirst ∧ exChains.Sorted ∧
    spicoCscV2 [] exChains.n exChains.p exChains.i [0, 0, 0, 0, 0, 0, 0] [0, 0, 0, 0, 0, 0] [0, 0, 0, 0, 0, 0]
      = ok ⟨2, [0, 5, 6, 0, 0, 0, 0], [0, 1, 3, 2, 4, 5], [0, 0, 0, 0, 0, 1]⟩ :=
  ⟨⟨by decide, by decide, by decide, by decide, by decide⟩, by unfold Csc.DiagFirst; decide, by unfold Csc.Sorted; decide,
    by decide +kernel⟩

/-- A chain of three columns: undefined, and what happens if the value after the end is 0 or -1. -/
example : exGraph.WF ∧ exGraph.DiagFirst ∧ exGraph.Sorted ∧ exGraph.Dep 2 3 ∧
    spicoCscV2 [] exGraph.n exGraph.p exGraph.i [0, 0, 0, 0, 0] [0, 0, 0, 0] [0, 0, 0, 0] = ub ∧
    spicoCscV2 [0] exGraph.n exGraph.p exGraph.i [0, 0, 0, 0, 0] [0, 0, 0, 0] [0, 0, 0, 0]
      = ok ⟨1, [0, 4, 0, 0, 0], [0, 1, 2, 3], [0, 0, 0, 0]⟩ ∧
    spicoCscV2 [-1] exGraph.n exGraph.p exGraph.i [0, 0, 0, 0, 0] [0, 0, 0, 0] [0, 0, 0, 0] = ub :=
  ⟨exGraph_wf, by unfold Csc.DiagFirst; decide, by unfold Csc.Sorted; decide, by unfold Csc.Dep; decide, by decide +kernel,
    by decide +kernel, by decide +kernel⟩

/-- Column 0 has only the successor 2, column 1 none: the hypotheses of `C107_ub_feeder`. -/
def exFeeder : Csc := ⟨3, [0, 2, 3, 4], [0, 2, 1, 2]⟩

example : exFeeder.WF ∧ exFeeder.DiagFirst ∧ exFeeder.Sorted ∧ exFeeder.Dep 0 (exFeeder.n - 1) ∧
    (∀ v, v < 3 → exFeeder.Dep 0 v → v = exFeeder.n - 1) ∧ (∀ u, u < 3 → ¬ exFeeder.Dep u 0) ∧
    spicoCscV2 [] exFeeder.n exFeeder.p exFeeder.i [0, 0, 0, 0] [0, 0, 0] [0, 0, 0] = ub :=
  ⟨⟨by decide, by decide, by decide, by decide, by decide⟩, by unfold Csc.DiagFirst; decide, by unfold Csc.Sorted; decide,
    by unfold Csc.Dep; decide, by unfold Csc.Dep; decide, by unfold Csc.Dep; decide, by decide +kernel⟩

end Verif
