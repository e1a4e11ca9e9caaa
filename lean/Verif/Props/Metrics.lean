import Verif.Proof.Metrics
import Verif.Props.Prepare
import Verif.Props.Cost
import Verif.Proof.Ungroup
import Verif.Props.MtxText

/-!
# C119: the measures of a schedule

`Verif.Spec.Metrics`: parts, costs and numbers of busy parts of the levels.
-/

namespace Verif
open Res SchedStat Sp Finset

variable {K : Type} [Field K] [LinearOrder K]

namespace SchedStat

omit [Field K] in
theorem foldl_max (l : List K) (a : K) :
    a ≤ l.foldl max a ∧ (∀ x ∈ l, x ≤ l.foldl max a) ∧ (l.foldl max a = a ∨ l.foldl max a ∈ l) := by
  induction l generalizing a with
  | nil => simp
  | cons y l ih =>
    obtain ⟨h1, h2, h3⟩ := ih (max a y)
    rw [List.foldl_cons]
    refine ⟨le_trans (le_max_left _ _) h1, ?_, ?_⟩
    · intro x hx
      rcases List.mem_cons.1 hx with rfl | hx
      · exact le_trans (le_max_right _ _) h1
      · exact h2 x hx
    · rcases h3 with h3 | h3
      · rcases max_choice a y with h | h
        · left; rw [h3, h]
        · right; rw [h3, h]; simp
      · right; exact List.mem_cons_of_mem _ h3

variable {s : Sched} {n parts : Nat}

section
variable [IsStrictOrderedRing K]

theorem partCost_nonneg (h : Shape s n parts) {c : Nat → K} (hc : ∀ v, v < n → 0 ≤ c v) {q : Nat} (hq : q < parts) :
    0 ≤ s.partCost c q := by
  refine List.sum_nonneg fun x hx => ?_
  obtain ⟨v, hv, rfl⟩ := List.mem_map.1 hx
  exact hc v (h.part_lt hq v hv)

theorem maxOf_isMax (h : Shape s n parts) {c : Nat → K} (hc : ∀ v, v < n → 0 ≤ c v) {l : Nat} (hl : l < s.levels) :
    Sched.IsMax ((s.partsOf l).map (s.partCost c)) (maxOf s c l) := by
  obtain ⟨_, h2, h3⟩ := foldl_max ((s.partsOf l).map (s.partCost c)) 0
  refine isMax_of ?_ h2 h3
  intro x hx
  obtain ⟨q, hq, rfl⟩ := List.mem_map.1 hx
  exact partCost_nonneg h hc (h.partsOf_lt hl hq)

theorem sum_le_of {xs : List Nat} {f : Nat → K} {p : Nat → Prop} [DecidablePred p] {M : K} (h0 : ∀ q ∈ xs, ¬ p q → f q = 0)
    (hM : ∀ q ∈ xs, f q ≤ M) : (xs.map f).sum ≤ ((xs.filter fun q => p q).length : Nat) * M := by
  induction xs with
  | nil => simp
  | cons q xs ih =>
    have := ih (fun q hq => h0 q (by simp [hq])) (fun q hq => hM q (by simp [hq]))
    rw [List.map_cons, List.sum_cons, List.filter_cons]
    by_cases hp : p q
    · simp only [hp, decide_true, if_true, List.length_cons, Nat.cast_add, Nat.cast_one]
      have := hM q (by simp)
      linarith
    · simp only [hp, decide_false, Bool.false_eq_true, if_false]
      rw [h0 q (by simp) hp]
      linarith

/-- A level costs at most as much as its busy parts would at the largest cost. -/
theorem levelCost_le {c : Nat → K} {l : Nat} {M : K}
    (hM : Sched.IsMax ((s.partsOf l).map (s.partCost c)) M) : s.levelCost c l ≤ (s.busy l : Nat) * M := by
  refine sum_le_of (p := fun q => s.part q ≠ []) ?_ ?_
  · intro q _ hp
    unfold Sched.partCost
    rw [not_not.1 hp]; rfl
  · intro q hq
    exact hM.1 _ (List.mem_map.2 ⟨q, hq, rfl⟩)

end

end SchedStat

/-- The number of nodes of a part. -/
def Sched.partLen (s : Sched) (q : Nat) : K := ((s.part q).length : Nat)

/-- **C119.** `computeCharacteristics` of a complete schedule: the assertion holds, and the numbers are the share of
the largest part in each of the first three levels, if there are so many, and the sum of the largest parts over `n`. -/
theorem C119_characteristics [IsStrictOrderedRing K] {s : Sched} {n : Nat} (hp : s.PtrsOk n) (hcm : s.Complete n)
    (debug : Bool) (r : Chars K) :
    ∃ mx : Nat → K, (∀ l, l < s.levels → Sched.IsMax ((s.partsOf l).map s.partLen) (mx l)) ∧
      characteristics debug n s r = ok
        ⟨if 0 < s.levels then mx 0 / (s.width 0 : Nat) else r.first,
          if 1 < s.levels then mx 1 / (s.width 1 : Nat) else r.second,
          if 2 < s.levels then mx 2 / (s.width 2 : Nat) else r.third, (∑ l ∈ range s.levels, mx l) / n⟩ := by
  obtain ⟨parts, h⟩ := Shape.of hp hcm
  have hz : ∀ l, ∀ q ∈ s.partsOf l, 0 ≤ (s.partLen q : K) := fun l q _ => Nat.cast_nonneg _
  have hw : ∀ l, (levelOf n s (s.partLen : Nat → K) l).total = (s.width l : Nat) := by
    intro l
    rw [(levelOf_spec n s (hz l)).1]
    unfold Sched.width Sched.partLen
    induction s.partsOf l with
    | nil => simp
    | cons q t ih => simp only [List.map_cons, List.sum_cons, Nat.cast_add, ih]
  refine ⟨fun l => (levelOf n s s.partLen l).max, fun l _ => (levelOf_spec n s (hz l)).2.1, ?_⟩
  unfold characteristics
  rw [levels_eq h (z := s.partLen) (fun w hw => partSize_eq h hw), ok_bind]
  have hsum : (((List.range s.levels).map (levelOf n s (s.partLen : Nat → K))).map Level.total).sum = (n : K) := by
    rw [List.map_map, sum_range_list]
    conv_rhs => rw [← h.width]
    rw [Nat.cast_sum]
    exact Finset.sum_congr rfl fun l _ => hw l
  dsimp only
  rw [if_neg (by rw [hsum]; simp)]
  have hshare : ∀ (k : Nat) (x : K), share k ((List.range s.levels).map (levelOf n s (s.partLen : Nat → K))) x
      = if k < s.levels then (levelOf n s (s.partLen : Nat → K) k).max / (s.width k : Nat) else x := by
    intro k x
    unfold share
    by_cases hk : k < s.levels
    · rw [if_pos hk, List.getElem?_map, List.getElem?_range hk, Option.map_some]
      dsimp only
      rw [hw]
    · rw [if_neg hk, List.getElem?_eq_none (by simp; omega)]
  rw [hshare, hshare, hshare, List.map_map, sum_range_list]
  rfl

/-- A largest part is not larger than the level: all shares and the average are at most one. -/
theorem C119_shares_at_most_one [IsStrictOrderedRing K] {s : Sched} {n : Nat} (hp : s.PtrsOk n) (hcm : s.Complete n)
    (hn : 0 < n) {mx : Nat → K} (hmx : ∀ l, l < s.levels → Sched.IsMax ((s.partsOf l).map s.partLen) (mx l)) :
    (∀ l, l < s.levels → 0 < s.width l → 0 < mx l / (s.width l : Nat) ∧ mx l / (s.width l : Nat) ≤ 1) ∧
      0 < (∑ l ∈ range s.levels, mx l) / n ∧ (∑ l ∈ range s.levels, mx l) / n ≤ 1 := by
  obtain ⟨parts, h⟩ := Shape.of hp hcm
  have hle : ∀ l, l < s.levels → mx l ≤ (s.width l : Nat) := by
    intro l hl
    rcases (hmx l hl).2 with hm | ⟨_, hm⟩
    · obtain ⟨q, hq, hq'⟩ := List.mem_map.1 hm
      rw [← hq']
      unfold Sched.partLen Sched.width
      rw [Nat.cast_le]
      exact List.single_le_sum (by simp) _ (List.mem_map.2 ⟨q, hq, rfl⟩)
    · rw [hm]; exact Nat.cast_nonneg _
  have hpos : ∀ l, l < s.levels → 0 < s.width l → 0 < mx l := by
    intro l hl hw
    unfold Sched.width at hw
    obtain ⟨x, hx, hx0⟩ : ∃ x ∈ (s.partsOf l).map fun q => (s.part q).length, 0 < x := by
      by_contra hcon
      have : ((s.partsOf l).map fun q => (s.part q).length).sum = 0 :=
        List.sum_eq_zero fun x hx => by
          by_contra h0
          exact hcon ⟨x, hx, Nat.pos_of_ne_zero h0⟩
      omega
    obtain ⟨q, hq, rfl⟩ := List.mem_map.1 hx
    refine lt_of_lt_of_le ?_ ((hmx l hl).1 _ (List.mem_map.2 ⟨q, hq, rfl⟩))
    exact Nat.cast_pos.2 hx0
  have hnn : ∀ l, l < s.levels → 0 ≤ mx l := by
    intro l hl
    rcases (hmx l hl).2 with hm | ⟨_, hm⟩
    · obtain ⟨q, _, hq'⟩ := List.mem_map.1 hm
      rw [← hq']; exact Nat.cast_nonneg _
    · rw [hm]
  have hnK : (0 : K) < n := Nat.cast_pos.2 hn
  refine ⟨fun l hl hw => ?_, ?_, ?_⟩
  · have : (0 : K) < (s.width l : Nat) := Nat.cast_pos.2 hw
    exact ⟨div_pos (hpos l hl hw) this, (div_le_one this).2 (hle l hl)⟩
  · refine div_pos ?_ hnK
    have : ∃ l ∈ range s.levels, 0 < s.width l := by
      by_contra hcon
      have : ∑ l ∈ range s.levels, s.width l = 0 := Finset.sum_eq_zero fun l hl => by
        by_contra h0
        exact hcon ⟨l, hl, Nat.pos_of_ne_zero h0⟩
      rw [h.width] at this
      omega
    obtain ⟨l, hl, hw⟩ := this
    exact Finset.sum_pos' (fun i hi => hnn i (Finset.mem_range.1 hi)) ⟨l, hl, hpos l (Finset.mem_range.1 hl) hw⟩
  · rw [div_le_one hnK]
    calc ∑ l ∈ range s.levels, mx l ≤ ∑ l ∈ range s.levels, ((s.width l : Nat) : K) :=
          Finset.sum_le_sum fun l hl => hle l (Finset.mem_range.1 hl)
      _ = n := by rw [← Nat.cast_sum, h.width]

/-- The number of entries of row `v`. -/
def Mat.rowSize {V : Type} (m : Mat V) (v : Nat) : K := ((m.pat.col v).length : Nat)

namespace SchedStat
variable {V : Type} {m : Mat V} {g : Csc}

omit [LinearOrder K] in
theorem rowSize_sum (hm : m.pat.WF) : ∑ v ∈ range m.n, (m.rowSize v : K) = (m.p.getD m.n 0 : Nat) := by
  have key : ∀ k, k ≤ m.n → ∑ v ∈ range k, (m.rowSize v : K) = (m.p.getD k 0 : Nat) := by
    intro k
    induction k with
    | zero =>
      intro _
      have : m.p.getD 0 0 = 0 := hm.p0
      rw [this]; simp
    | succ k ih =>
      intro hk
      rw [Finset.sum_range_succ, ih (by omega)]
      unfold Mat.rowSize
      rw [hm.col_length (by exact hk)]
      have : m.p.getD k 0 ≤ m.p.getD (k + 1) 0 := hm.mono k hk
      show ((m.p.getD k 0 : Nat) : K) + ((m.p.getD (k + 1) 0 - m.p.getD k 0 : Nat) : K) = _
      rw [Nat.cast_sub this]
      ring
  exact key m.n (Nat.le_refl _)

omit [LinearOrder K] in
theorem nodeCosts_eq {csc csr : Csc} (hc : csc.WF) (hr : csr.WF) (hn : csr.n = csc.n) (hpos : 0 < csc.n) (k : Kernel)
    {order : List Nat} (ho : order.Perm (List.range csc.n)) :
    (nodeCosts order csc.n csc.p csc.i csr.p csr.i k : Res (List K))
      = ok ((List.range csc.n).map fun v => ((k.work csc csr v : Nat) : K)) := by
  unfold nodeCosts
  rw [C48_node_costs hc hr hn k ho [] [] (by intro h; simp at h; omega), ok_bind, List.map_map]
  rfl

omit [Field K] [LinearOrder K] in
theorem costs_range (n : Nat) (c : Nat → K) : Costs n ((List.range n).map c) c :=
  ⟨fun v hv => by rw [List.getElem?_map, List.getElem?_range hv]; rfl⟩

end SchedStat

/-- **C119.** `getPotentialGain` of a complete schedule: one minus the ideal time of the work (the entries of the
matrix divided by the threads) over the sum of the largest parts of the levels. -/
theorem C119_potential_gain [IsStrictOrderedRing K] {V : Type} {m : Mat V} {g : Csc} (hi : SolverInput m g) {s : Sched}
    (hp : s.PtrsOk m.n) (hcm : s.Complete m.n) {order : List Nat} (ho : order.Perm (List.range m.n)) (threads : Nat) :
    ∃ mx : Nat → K, (∀ l, l < s.levels → Sched.IsMax ((s.partsOf l).map (s.partCost m.rowSize)) (mx l)) ∧
      potentialGain order m.n threads g.p g.i m.p m.i s
        = ok (1 - ((m.p.getD m.n 0 : Nat) / threads) / ∑ l ∈ range s.levels, mx l) := by
  obtain ⟨parts, h⟩ := Shape.of hp hcm
  refine ⟨maxOf s m.rowSize, fun l hl => maxOf_isMax h (fun v _ => Nat.cast_nonneg _) hl, ?_⟩
  have hgn : g.n = m.n := hi.same.1
  have hcost := nodeCosts_eq (K := K) hi.wf hi.lower.wf.pat hgn.symm (by have := hi.pos; omega) .spTrSvLL
    (order := order) (by rw [hgn]; exact ho)
  rw [hgn] at hcost
  have hcost' : (nodeCosts order m.n g.p g.i m.p m.i .spTrSvLL : Res (List K)) = ok ((List.range m.n).map m.rowSize) := hcost
  obtain ⟨r, h1, h2, h3, _⟩ := gainLoop_eq h (costs_range m.n (m.rowSize : Nat → K))
  unfold potentialGain
  rw [hcost', ok_bind, h1, ok_bind, h2, h3, rowSize_sum hi.lower.wf.pat]

/-- **C119.** With at most as many busy parts per level as threads, the gain is between 0 and 1, and it is 0 exactly if
all threads are fully used in all levels. -/
theorem C119_gain_bounds [IsStrictOrderedRing K] {V : Type} {m : Mat V} {g : Csc} (hi : SolverInput m g) {s : Sched}
    (hp : s.PtrsOk m.n) (hcm : s.Complete m.n) {threads : Nat} (ht : 0 < threads)
    (hb : ∀ l, l < s.levels → s.busy l ≤ threads) {mx : Nat → K}
    (hmx : ∀ l, l < s.levels → Sched.IsMax ((s.partsOf l).map (s.partCost m.rowSize)) (mx l)) {pg : K}
    (hpg : pg = 1 - ((m.p.getD m.n 0 : Nat) / threads) / ∑ l ∈ range s.levels, mx l) :
    0 ≤ pg ∧ pg < 1 ∧ (pg = 0 ↔ ∀ l, l < s.levels → s.levelCost m.rowSize l = threads * mx l) := by
  obtain ⟨parts, h⟩ := Shape.of hp hcm
  have htK : (0 : K) < threads := Nat.cast_pos.2 ht
  have hnn : ∀ l, l < s.levels → 0 ≤ mx l := by
    intro l hl
    rcases (hmx l hl).2 with hm | ⟨_, hm⟩
    · obtain ⟨q, hq, hq'⟩ := List.mem_map.1 hm
      rw [← hq']
      exact partCost_nonneg h (fun v _ => Nat.cast_nonneg _) (h.partsOf_lt hl hq)
    · rw [hm]
  have hle : ∀ l ∈ range s.levels, s.levelCost m.rowSize l ≤ threads * mx l := by
    intro l hl
    have hl := Finset.mem_range.1 hl
    refine le_trans (levelCost_le (hmx l hl)) ?_
    exact mul_le_mul_of_nonneg_right (Nat.cast_le.2 (hb l hl)) (hnn l hl)
  have hW : ∑ l ∈ range s.levels, s.levelCost (m.rowSize : Nat → K) l = (m.p.getD m.n 0 : Nat) := by
    rw [h.total, rowSize_sum hi.lower.wf.pat]
  have hWpos : (0 : K) < (m.p.getD m.n 0 : Nat) := by
    rw [← rowSize_sum hi.lower.wf.pat]
    refine Finset.sum_pos (fun v hv => ?_) ⟨0, Finset.mem_range.2 hi.pos⟩
    exact Nat.cast_pos.2 (List.length_pos_iff.2 (hi.rowNe (Finset.mem_range.1 hv)))
  have hsum : ((m.p.getD m.n 0 : Nat) : K) ≤ threads * ∑ l ∈ range s.levels, mx l := by
    rw [← hW, Finset.mul_sum]
    exact Finset.sum_le_sum hle
  have hcp : 0 < ∑ l ∈ range s.levels, mx l := by
    by_contra hc
    have : threads * ∑ l ∈ range s.levels, mx l ≤ 0 := mul_nonpos_of_nonneg_of_nonpos (le_of_lt htK) (not_lt.1 hc)
    linarith
  have hdiv : ((m.p.getD m.n 0 : Nat) : K) / threads / ∑ l ∈ range s.levels, mx l
      = (m.p.getD m.n 0 : Nat) / (threads * ∑ l ∈ range s.levels, mx l) := div_div _ _ _
  have hprod : 0 < threads * ∑ l ∈ range s.levels, mx l := mul_pos htK hcp
  subst hpg
  rw [hdiv]
  refine ⟨?_, ?_, ?_⟩
  · have := (div_le_one hprod).2 hsum
    linarith
  · have := div_pos hWpos hprod
    linarith
  · rw [sub_eq_zero, eq_comm, div_eq_one_iff_eq (ne_of_gt hprod), ← hW, Finset.mul_sum, Finset.sum_eq_sum_iff_of_le hle]
    exact ⟨fun h l hl => h l (Finset.mem_range.2 hl), fun h l hl => h l (Finset.mem_range.1 hl)⟩

namespace SchedStat
variable {s : Sched} {n parts : Nat}

theorem Shape.partsOf_all (h : Shape s n parts) : (List.range s.levels).flatMap s.partsOf = List.range parts := by
  have : (List.range s.levels).flatMap s.partsOf = (List.range s.levels).flatMap fun l =>
      slice (List.range parts) (s.levelPtr.getD l 0) (s.levelPtr.getD (l + 1) 0) :=
    List.flatMap_congr fun l hl => by
      rw [slice_range (h.lev.dle (by have := List.mem_range.1 hl; omega))]
      rfl
  rw [this, flatMap_slices _ _ _ h.lev.d0 (fun b hb => h.lev.dmono hb), h.lev.dlast, List.take_of_length_le (by simp)]

omit [LinearOrder K] in
theorem countParts_eq (h : Shape s n parts) (hlen : s.partPtr.length = parts + 1) :
    countParts s = ok ((∑ l ∈ range s.levels, s.busy l : Nat) : K) := by
  have hb : ∑ l ∈ range s.levels, s.busy l = ((List.range parts).filter fun q => s.part q ≠ []).length := by
    rw [← h.partsOf_all, List.filter_flatMap, List.length_flatMap, sum_range_list]
    rfl
  unfold countParts
  rw [if_neg (by intro h0; rw [h0] at hlen; simp at hlen), hlen, Nat.add_sub_cancel, hb]
  obtain ⟨x, h1, h2⟩ := wp_iff.1 (forRange_wp (I := fun k (x : K) =>
    x = (((List.range k).filter fun q => s.part q ≠ []).length : Nat)) (f := fun i c => (do
      let b ← rd s.partPtr (i + 1)
      let a ← rd s.partPtr i
      ok (if b ≠ a then c + 1 else c) : Res K)) (s := 0) (Nat.zero_le parts) (by simp) (by
    intro q x _ hq hx
    rw [rd_getD 0 (by omega), ok_bind, rd_getD 0 (by omega), ok_bind, wp_ok, hx, List.range_succ, List.filter_append]
    have h1 := h.part_len hq
    have h2 := h.prt.dmono hq
    have hne : s.partPtr.getD (q + 1) 0 ≠ s.partPtr.getD q 0 ↔ s.part q ≠ [] := by
      rw [ne_eq, ne_eq, ← List.length_eq_zero_iff]
      omega
    by_cases he : s.part q ≠ []
    · rw [if_pos (hne.2 he)]
      simp [he]
    · rw [if_neg fun h => he (hne.1 h)]
      simp only [ne_eq, not_not] at he
      simp [he]))
  rw [h1, h2]

theorem forRange_okub {σ : Type} {f : Nat → σ → Res σ} {lo hi : Nat} (hle : lo ≤ hi)
    (hok : ∀ k, lo ≤ k → k < hi → ∀ t, f k t = ub ∨ ∃ t', f k t = ok t') (t : σ) :
    forRange lo hi f t = ub ∨ ∃ t', forRange lo hi f t = ok t' := by
  obtain ⟨k, rfl⟩ := Nat.exists_eq_add_of_le hle
  clear hle
  induction k with
  | zero => right; exact ⟨t, by rw [Nat.add_zero, forRange_empty _ _ (Nat.le_refl _)]⟩
  | succ k ih =>
    have hs := forRange_split f (show lo ≤ lo + k by omega) (show lo + k ≤ lo + (k + 1) by omega) t
    rcases ih (fun j h1 h2 => hok j h1 (by omega)) with h | ⟨t', h⟩
    · left; rw [hs, h]; rfl
    · rw [hs, h, ok_bind]
      have h1 : forRange (lo + k) (lo + (k + 1)) f t' = f (lo + k) t' := by
        unfold forRange
        rw [show lo + (k + 1) - (lo + k) = 0 + 1 by omega]
        show (f (lo + k) t' >>= fun x => ok x) = _
        cases f (lo + k) t' <;> rfl
      rw [h1]
      exact hok _ (by omega) (by omega) t'

theorem forRange_ub {σ : Type} {f : Nat → σ → Res σ} {lo hi w : Nat} (h1 : lo ≤ w) (h2 : w < hi)
    (hok : ∀ k, lo ≤ k → k < hi → ∀ t, f k t = ub ∨ ∃ t', f k t = ok t') (hub : ∀ t, f w t = ub) (t : σ) :
    forRange lo hi f t = ub := by
  rw [forRange_split f h1 (Nat.le_of_lt h2) t]
  rcases forRange_okub h1 (fun k a b => hok k a (by omega)) t with h | ⟨t', h⟩
  · rw [h]; rfl
  · rw [h, ok_bind]
    unfold forRange
    rw [show hi - w = (hi - (w + 1)) + 1 by omega]
    show (f w t' >>= _) = ub
    rw [hub]; rfl

theorem rd_okub {α : Type} (l : List α) (k : Nat) : rd l k = ub ∨ ∃ a, rd l k = ok a := by
  unfold rd
  cases l[k]? with
  | none => exact .inl rfl
  | some a => exact .inr ⟨a, rfl⟩

end SchedStat

/-- **C119.** `computeStatistic` of a complete schedule with costs for all its nodes: the number of busy parts, their
average over the levels, and the average over the levels, weighted by cost, of the differences between the largest and
the smallest part, where the smallest is never taken above `n`. -/
theorem C119_statistic [IsStrictOrderedRing K] {s : Sched} {n : Nat} (hp : s.PtrsOk n) (hcm : s.Complete n)
    (hlen : s.partPtr.length = s.levelPtr.getD s.levels 0 + 1) {cost : List K} (hc : cost.length = n)
    (h0 : ∀ x ∈ cost, 0 ≤ x) :
    ∃ mx mn : Nat → K,
      (∀ l, l < s.levels → Sched.IsMax ((s.partsOf l).map (s.partCost (cost.getD · 0))) (mx l) ∧
        Sched.IsMin (n : K) ((n : K) :: (s.partsOf l).map (s.partCost (cost.getD · 0))) (mn l)) ∧
      statistic n cost s = ok ⟨(∑ l ∈ range s.levels, s.busy l : Nat),
        ((∑ l ∈ range s.levels, s.busy l : Nat) : K) / s.levels,
        (∑ l ∈ range s.levels, s.levelCost (cost.getD · 0) l * (mx l - mn l)) / cost.sum⟩ := by
  obtain ⟨parts, h⟩ := Shape.of hp hcm
  rw [h.lev.dlast] at hlen
  have hcs : Costs n cost (cost.getD · 0) := ⟨fun v hv => by
    rw [List.getElem?_eq_getElem (by omega), List.getD_eq_getElem _ _ (by omega)]⟩
  have hnn : ∀ l, l < s.levels → ∀ q ∈ s.partsOf l, 0 ≤ s.partCost (cost.getD · 0) q := fun l hl q hq =>
    partCost_nonneg h (fun v hv => by
      rw [List.getD_eq_getElem _ _ (by omega)]; exact h0 _ (List.getElem_mem _)) (h.partsOf_lt hl hq)
  refine ⟨fun l => (levelOf n s (s.partCost (cost.getD · 0)) l).max, fun l => (levelOf n s (s.partCost (cost.getD · 0)) l).min,
    fun l hl => (levelOf_spec n s (hnn l hl)).2, ?_⟩
  unfold statistic
  rw [countParts_eq h hlen, ok_bind, levels_eq h (fun w hw => partCost_eq h hcs hw), ok_bind]
  congr 2
  unfold maxDiff
  rw [List.map_map, List.map_map, sum_range_list, sum_range_list]
  have ht : ∑ l ∈ range s.levels, s.levelCost (cost.getD · 0) l = cost.sum := by
    rw [h.total, ← sum_range_list]
    congr 1
    apply List.ext_getElem (by simp [hc])
    intro i h1 h2
    simp [List.getElem?_eq_getElem h2]
  congr 1
  · refine Finset.sum_congr rfl fun l hl => ?_
    show (levelOf n s _ l).total * _ = _
    rw [(levelOf_spec n s (hnn l (Finset.mem_range.1 hl))).1]
    rfl
  · rw [← ht]
    refine Finset.sum_congr rfl fun l hl => ?_
    exact (levelOf_spec n s (hnn l (Finset.mem_range.1 hl))).1

/-- **C119** (finding): if all parts cost the same, more than `n`, then `max_diff` is not 0 but the cost minus `n`. -/
theorem C119_balanced_not_zero [IsStrictOrderedRing K] {s : Sched} {n : Nat} (hp : s.PtrsOk n) (hcm : s.Complete n)
    (hlen : s.partPtr.length = s.levelPtr.getD s.levels 0 + 1) {cost : List K} (hc : cost.length = n)
    (h0 : ∀ x ∈ cost, 0 ≤ x) (hl : 0 < s.levels) (hne : ∀ l, l < s.levels → s.partsOf l ≠ []) {x : K} (hx : (n : K) < x)
    (heq : ∀ l, l < s.levels → ∀ q ∈ s.partsOf l, s.partCost (cost.getD · 0) q = x) :
    ∃ st, statistic n cost s = ok st ∧ st.maxDiff = x - n := by
  obtain ⟨parts, h⟩ := Shape.of hp hcm
  obtain ⟨mx, mn, h1, h2⟩ := C119_statistic hp hcm hlen hc h0
  refine ⟨_, h2, ?_⟩
  dsimp only
  have hx0 : 0 < x := lt_of_le_of_lt (Nat.cast_nonneg n) hx
  have hmx : ∀ l, l < s.levels → mx l = x ∧ mn l = n := by
    intro l hl
    obtain ⟨a, b⟩ := h1 l hl
    have hall : ∀ y ∈ (s.partsOf l).map (s.partCost (cost.getD · 0)), y = x := by
      intro y hy
      obtain ⟨q, hq, rfl⟩ := List.mem_map.1 hy
      exact heq l hl q hq
    constructor
    · rcases a.2 with ha | ⟨ha, _⟩
      · exact hall _ ha
      · exact absurd (List.map_eq_nil_iff.1 ha) (hne l hl)
    · rcases b.2 with hb | ⟨hb, _⟩
      · rcases List.mem_cons.1 hb with hb | hb
        · exact hb
        · have := b.1 n (by simp)
          rw [hall _ hb] at this
          exact absurd hx (not_lt.2 this)
      · cases hb
  have hsum : ∑ l ∈ range s.levels, s.levelCost (cost.getD · 0) l * (mx l - mn l)
      = (∑ l ∈ range s.levels, s.levelCost (cost.getD · 0) l) * (x - n) := by
    rw [Finset.sum_mul]
    refine Finset.sum_congr rfl fun l hl => ?_
    rw [(hmx l (Finset.mem_range.1 hl)).1, (hmx l (Finset.mem_range.1 hl)).2]
  have ht : ∑ l ∈ range s.levels, s.levelCost (cost.getD · 0) l = cost.sum := by
    rw [h.total, ← sum_range_list]
    congr 1
    apply List.ext_getElem (by simp [hc])
    intro i h1 h2
    simp [List.getElem?_eq_getElem h2]
  have hpos : 0 < cost.sum := by
    rw [← ht]
    refine Finset.sum_pos (fun l hl => ?_) ⟨0, Finset.mem_range.2 hl⟩
    have hl := Finset.mem_range.1 hl
    unfold Sched.levelCost
    refine List.sum_pos _ ?_ (by simpa using hne l hl)
    intro y hy
    obtain ⟨q, hq, rfl⟩ := List.mem_map.1 hy
    rw [heq l hl q hq]
    exact hx0
  rw [hsum, ht, mul_comm, mul_div_assoc, div_self (ne_of_gt hpos), mul_one]

/-- **C119** (finding): `computeStatistic` after the schedule of the groups was replaced by one of the rows: `cost` has
one element per group, so with fewer groups than rows it is read out of bounds. -/
theorem C119_statistic_out_of_bounds {s : Sched} {n : Nat} (hp : s.PtrsOk n) (hcm : s.Complete n) {cost : List K}
    (hc : cost.length < n) : statistic n cost s = ub := by
  obtain ⟨parts, h⟩ := Shape.of hp hcm
  have hlp := h.prt.len
  have hll := h.lev.len
  obtain ⟨k, hk⟩ : ∃ k, (s.nodes.take n)[k]? = some cost.length :=
    List.mem_iff_getElem?.1 (h.perm.mem_iff.2 (List.mem_range.2 hc))
  rw [List.getElem?_take] at hk
  have hkn : k < n := by
    by_contra hcon
    rw [if_neg hcon] at hk; cases hk
  rw [if_pos hkn] at hk
  obtain ⟨q, hq, hqb⟩ := h.prt.exists_block hkn
  obtain ⟨l, hl, hlb⟩ := h.lev.exists_block hq
  have hpart : ∀ w, w < parts → partCost cost s w = ub ∨ ∃ x, partCost cost s w = ok x := by
    intro w hw
    have hle : s.partPtr.getD (w + 1) 0 ≤ n := h.prt.dle (by omega)
    have hn := h.len
    unfold partCost
    rw [rd_getD 0 (by omega), ok_bind, rd_getD 0 (by omega), ok_bind]
    refine forRange_okub (h.prt.dmono hw) (fun i h1 h2 t => ?_) 0
    rw [rd_getD 0 (by omega), ok_bind]
    rcases rd_okub cost (s.nodes.getD i 0) with h | ⟨a, h⟩
    · left; rw [h]; rfl
    · right; rw [h]; exact ⟨_, rfl⟩
  have hub : partCost cost s q = ub := by
    have hle : s.partPtr.getD (q + 1) 0 ≤ n := h.prt.dle (by omega)
    have hn := h.len
    unfold partCost
    rw [rd_getD 0 (by omega), ok_bind, rd_getD 0 (by omega), ok_bind]
    refine forRange_ub hqb.1 hqb.2 (fun i h1 h2 t => ?_) (fun t => ?_) 0
    · rw [rd_getD 0 (by omega), ok_bind]
      rcases rd_okub cost (s.nodes.getD i 0) with h | ⟨a, h⟩
      · left; rw [h]; rfl
      · right; rw [h]; exact ⟨_, rfl⟩
    · have : rd s.nodes k = ok cost.length := by unfold rd; rw [hk]
      rw [this, ok_bind]
      have : rd cost cost.length = ub := by unfold rd; rw [List.getElem?_eq_none (Nat.le_refl _)]
      rw [this]; rfl
  have hlev : ∀ j, j < s.levels → levelLoop n (partCost cost s) s j = ub ∨ ∃ x, levelLoop n (partCost cost s) s j = ok x := by
    intro j hj
    unfold levelLoop
    rw [rd_getD 0 (by omega), ok_bind, rd_getD 0 (by omega), ok_bind]
    refine forRange_okub (h.lev.dmono hj) (fun w h1 h2 t => ?_) _
    have : s.levelPtr.getD (j + 1) 0 ≤ parts := h.lev.dle (by omega)
    rcases hpart w (by omega) with h | ⟨a, h⟩
    · left; rw [h]; rfl
    · right; rw [h]; exact ⟨_, rfl⟩
  have hlub : levelLoop n (partCost cost s) s l = ub := by
    unfold levelLoop
    rw [rd_getD 0 (by omega), ok_bind, rd_getD 0 (by omega), ok_bind]
    refine forRange_ub hlb.1 hlb.2 (fun w h1 h2 t => ?_) (fun t => ?_) _
    · have : s.levelPtr.getD (l + 1) 0 ≤ parts := h.lev.dle (by omega)
      rcases hpart w (by omega) with h | ⟨a, h⟩
      · left; rw [h]; rfl
      · right; rw [h]; exact ⟨_, rfl⟩
    · rw [hub]; rfl
  have hall : levels n (partCost cost s) s = ub := by
    unfold levels
    refine forRange_ub (Nat.zero_le l) hl (fun j _ hj t => ?_) (fun t => ?_) _
    · rcases hlev j hj with h | ⟨a, h⟩
      · left; rw [h]; rfl
      · right; rw [h]; exact ⟨_, rfl⟩
    · rw [hlub]; rfl
  have hcount : (countParts s : Res K) = ub ∨ ∃ x, (countParts s : Res K) = ok x := by
    unfold countParts
    split
    · exact .inl rfl
    · refine forRange_okub (Nat.zero_le _) (fun i _ h2 t => ?_) _
      rw [rd_getD 0 (by omega), ok_bind, rd_getD 0 (by omega), ok_bind]
      exact .inr ⟨_, rfl⟩
  unfold statistic
  rcases hcount with h | ⟨x, h⟩
  · rw [h]; rfl
  · rw [h, ok_bind, hall]; rfl

/-- **C119.** `computeStatistic` of the class with dagP, where the size of a part is its number of nodes, at most `n`:
here the smallest part is what it should be. -/
theorem C119_statistic_dagp [IsStrictOrderedRing K] {s : Sched} {n : Nat} (hp : s.PtrsOk n) (hcm : s.Complete n) :
    ∃ mx mn : Nat → K,
      (∀ l, l < s.levels → Sched.IsMax ((s.partsOf l).map s.partLen) (mx l) ∧
        Sched.IsMin (n : K) ((s.partsOf l).map s.partLen) (mn l)) ∧
      statisticDagp n s = ok ⟨((s.levelPtr.getD s.levels 0 : Nat) : K), ((s.levelPtr.getD s.levels 0 : Nat) : K) / s.levels,
        (∑ l ∈ range s.levels, (s.width l : Nat) * (mx l - mn l)) / n⟩ := by
  obtain ⟨parts, h⟩ := Shape.of hp hcm
  have hll := h.lev.len
  have hz : ∀ l, ∀ q ∈ s.partsOf l, 0 ≤ (s.partLen q : K) := fun l q _ => Nat.cast_nonneg _
  have hw : ∀ l, (levelOf n s (s.partLen : Nat → K) l).total = (s.width l : Nat) := by
    intro l
    rw [(levelOf_spec n s (hz l)).1]
    unfold Sched.width Sched.partLen
    induction s.partsOf l with
    | nil => simp
    | cons q t ih => simp only [List.map_cons, List.sum_cons, Nat.cast_add, ih]
  refine ⟨fun l => (levelOf n s s.partLen l).max, fun l => (levelOf n s s.partLen l).min,
    fun l hl => ⟨(levelOf_spec n s (hz l)).2.1, ?_⟩, ?_⟩
  · obtain ⟨a, b⟩ := (levelOf_spec n s (hz l)).2.2
    refine ⟨fun x hx => a x (List.mem_cons_of_mem _ hx), ?_⟩
    rcases b with b | ⟨b, _⟩
    · rcases List.mem_cons.1 b with b | b
      · cases hps : s.partsOf l with
        | nil => exact .inr ⟨rfl, b⟩
        | cons q t =>
          left
          have hq : q ∈ s.partsOf l := by rw [hps]; simp
          have h1 := a (s.partLen q) (List.mem_cons_of_mem _ (List.mem_map.2 ⟨q, hq, rfl⟩))
          have h2 : (s.partLen q : K) ≤ n := by
            unfold Sched.partLen
            rw [Nat.cast_le, h.part_len (h.partsOf_lt hl hq)]
            have : s.partPtr.getD (q + 1) 0 ≤ n := h.prt.dle (by have := h.partsOf_lt hl hq; omega)
            omega
          have : (levelOf n s (s.partLen : Nat → K) l).min = s.partLen q := le_antisymm h1 (by rw [b]; exact h2)
          show (levelOf n s (s.partLen : Nat → K) l).min ∈ _
          rw [this, ← hps]
          exact List.mem_map.2 ⟨q, hq, rfl⟩
      · exact .inl b
    · cases b
  · unfold statisticDagp
    rw [rd_getD 0 hll, ok_bind, levels_eq h (z := s.partLen) (fun w hw => partSize_eq h hw), ok_bind]
    congr 2
    unfold maxDiff
    rw [List.map_map, List.map_map, sum_range_list, sum_range_list]
    congr 1
    · refine Finset.sum_congr rfl fun l _ => ?_
      show (levelOf n s _ l).total * _ = _
      rw [hw]
    · conv_rhs => rw [← h.width]
      rw [Nat.cast_sum]
      exact Finset.sum_congr rfl fun l _ => hw l

/-- **C119.** `computeMetrics` of a complete schedule of a matrix `A` by columns and `B` by rows.  `F` is the full
matrix by rows.  The cost of a row is its number of entries; for the factorisations it is the sum of the sizes of the
rows that its entries name.  `avgParallelism` is the average number of busy parts, the other two weigh it by nodes and
by cost -- but they start from what the caller left in them. -/
theorem C119_metrics [IsStrictOrderedRing K] {V : Type} [Zero V] {A B : Sp V} (hA : A.WF) (hsq : A.rows = A.cols)
    (hpos : 0 < A.cols) (hB : Converted A B) {nnz : Nat} (hnz : nnz = A.p.getD A.cols 0) {s : Sched}
    (hp : s.PtrsOk A.cols) (hcm : s.Complete A.cols) {order order₂ order₃ : List Nat}
    (ho : order.Perm (List.range A.cols)) (ho₂ : order₂.Perm (List.range A.cols))
    (ho₃ : order₃.Perm (List.range A.cols)) (threads : Nat) (r : Metrics K) :
    ∃ (F : Sp V) (mx : Nat → K), F.WF ∧ (F.entries.map swapEntry).Perm (A.entries.flatMap mirrored) ∧
      (∀ l, l < s.levels → Sched.IsMax ((s.partsOf l).map (s.partCost B.toMat.rowSize)) (mx l)) ∧
      computeMetrics order order₂ order₃ A false nnz threads B.p B.i s r = ok
        { avgParallelism := (∑ l ∈ range s.levels, (s.busy l : K)) / s.levels
          weightedAvgParallelism :=
            (r.weightedAvgParallelism + ∑ l ∈ range s.levels, (s.busy l : K) * (s.width l : K)) / A.cols
          costAvgParallelism :=
            (r.costAvgParallelism + ∑ l ∈ range s.levels, (s.busy l : K) * s.levelCost B.toMat.rowSize l) / nnz
          perVertexTrsv := nnz / A.cols
          perNnzTrsv := nnz / nnz
          perVertexIlu := (∑ v ∈ range A.cols, ((Kernel.spICh0UL.work F.graph F.graph v : Nat) : K)) / A.cols
          perNnzIlu := (∑ v ∈ range A.cols, ((Kernel.spICh0UL.work F.graph F.graph v : Nat) : K)) / nnz
          perVertexIc := (∑ v ∈ range A.cols, ((Kernel.spICh0UL.work A.graph B.graph v : Nat) : K)) / A.cols
          perNnzIc := (∑ v ∈ range A.cols, ((Kernel.spICh0UL.work A.graph B.graph v : Nat) : K)) / nnz
          gain := 1 - ((nnz : K) / threads) / ∑ l ∈ range s.levels, mx l } := by
  obtain ⟨parts, h⟩ := Shape.of hp hcm
  have hbn : B.cols = A.cols := hB.cols.trans hsq
  have hBg : B.graph.WF := hB.wf.graph (by rw [hB.rows, hbn])
  have hAg : A.graph.WF := hA.graph hsq
  have hsum : ∑ v ∈ range A.cols, (B.toMat.rowSize v : K) = nnz := by
    have h1 := rowSize_sum (K := K) (m := B.toMat) hBg
    have h2 : B.p.getD B.cols 0 = nnz := by
      rw [hnz, ← entries_count hB.wf, ← entries_count hA, ← hB.entries.length_eq, List.length_map]
    rw [← hbn]
    refine h1.trans ?_
    rw [← h2]; rfl
  obtain ⟨F₀, f1, f2, f3, f4, f5⟩ := C29_make_full hA hsq hpos (Nat.le_of_eq hnz.symm)
  obtain ⟨F, e1, e2⟩ := C26_csc_to_csr_keeps_matrix f2 (by omega) (Nat.le_refl (F₀.p.getD F₀.cols 0))
  have hfull : fullRows A false nnz = ok F := by
    unfold fullRows
    rw [f1, ok_bind]
    dsimp only
    have := f2.plen
    rw [rd_getD 0 (by omega), ok_bind, e1]
  have hFn : F.cols = A.cols := by rw [e2.cols, f3, hsq]
  have hFg : F.graph.WF := e2.wf.graph (by rw [hFn, e2.rows, f4])
  refine ⟨F, maxOf s B.toMat.rowSize, e2.wf, e2.entries.trans f5,
    fun l hl => maxOf_isMax h (fun v _ => Nat.cast_nonneg _) hl, ?_⟩
  have c1 : (nodeCosts order A.cols A.p A.i B.p B.i .spTrSvLL : Res (List K)) = ok ((List.range A.cols).map B.toMat.rowSize) :=
    nodeCosts_eq (csc := A.graph) (csr := B.graph) hAg hBg hbn hpos .spTrSvLL ho
  have c2 : (nodeCosts order₂ A.cols A.p A.i B.p B.i .spICh0UL : Res (List K))
      = ok ((List.range A.cols).map fun v => ((Kernel.spICh0UL.work A.graph B.graph v : Nat) : K)) :=
    nodeCosts_eq (csc := A.graph) (csr := B.graph) hAg hBg hbn hpos .spICh0UL ho₂
  have c3 : (nodeCosts order₃ A.cols [] [] F.p F.i .spICh0UL : Res (List K))
      = ok ((List.range A.cols).map fun v => ((Kernel.spICh0UL.work F.graph F.graph v : Nat) : K)) := by
    have := nodeCosts_eq (K := K) (csc := F.graph) (csr := F.graph) hFg hFg rfl (by show 0 < F.cols; omega) .spICh0UL
      (order := order₃) (by show order₃.Perm (List.range F.cols); rw [hFn]; exact ho₃)
    rw [show F.graph.n = A.cols from hFn] at this
    exact this
  obtain ⟨g, h1, h2, h3, h4⟩ := gainLoop_eq h (costs_range A.cols (B.toMat.rowSize : Nat → K))
  unfold computeMetrics
  rw [c1, ok_bind, h1, ok_bind, c2, ok_bind, hfull, ok_bind, c3, ok_bind, h2, h3, h4, hsum, sum_range_list, sum_range_list]
  simp only [List.map_map, sum_range_list, Function.comp_def]

/-- **C119** (finding): the third and fourth number of `computeMetrics` are right only if the caller cleared them; a
second call with the same variables adds to the old values. -/
theorem C119_metrics_accumulate [IsStrictOrderedRing K] {V : Type} [Zero V] {A B : Sp V} (hA : A.WF)
    (hsq : A.rows = A.cols) (hpos : 0 < A.cols) (hB : Converted A B) {nnz : Nat} (hnz : nnz = A.p.getD A.cols 0) {s : Sched}
    (hp : s.PtrsOk A.cols) (hcm : s.Complete A.cols) {order order₂ order₃ : List Nat}
    (ho : order.Perm (List.range A.cols)) (ho₂ : order₂.Perm (List.range A.cols))
    (ho₃ : order₃.Perm (List.range A.cols)) (threads : Nat) (r : Metrics K) (hr : r.weightedAvgParallelism = 0) :
    ∃ r₁ r₂, computeMetrics order order₂ order₃ A false nnz threads B.p B.i s r = ok r₁ ∧
      computeMetrics order order₂ order₃ A false nnz threads B.p B.i s r₁ = ok r₂ ∧
      r₂.weightedAvgParallelism - r₁.weightedAvgParallelism = r₁.weightedAvgParallelism / A.cols := by
  have key : ∀ r : Metrics K, ∃ r₁, computeMetrics order order₂ order₃ A false nnz threads B.p B.i s r = ok r₁ ∧
      r₁.weightedAvgParallelism
        = (r.weightedAvgParallelism + ∑ l ∈ range s.levels, (s.busy l : K) * (s.width l : K)) / A.cols := by
    intro r
    obtain ⟨_, _, _, _, _, h1⟩ := C119_metrics hA hsq hpos hB hnz hp hcm ho ho₂ ho₃ threads r
    exact ⟨_, h1, rfl⟩
  obtain ⟨r₁, h1, e1⟩ := key r
  obtain ⟨r₂, h2, e2⟩ := key r₁
  refine ⟨r₁, r₂, h1, h2, ?_⟩
  rw [e2, add_div, add_sub_assoc]
  conv_lhs => arg 2; rw [e1, hr, zero_add, sub_self]
  rw [add_zero]

/-! ### A case: a lower triangular matrix with 4 rows and 7 entries, two levels of two parts, one part empty -/

/-- By columns. -/
def exMetA : Sp ℚ := ⟨4, 4, [0, 3, 5, 6, 7], [0, 1, 3, 1, 2, 2, 3], [1, 1, 1, 1, 1, 1, 1]⟩

/-- By rows. -/
def exMetB : Sp ℚ := ⟨4, 4, [0, 1, 3, 5, 7], [0, 0, 1, 1, 2, 0, 3], [1, 1, 1, 1, 1, 1, 1]⟩

theorem exMetA_wf : exMetA.WF where
  plen := rfl
  p0 := rfl
  mono := by decide
  bound := by decide
  range := by decide
  xlen := by decide

theorem exMetB_converted : Converted exMetA exMetB := by
  obtain ⟨B, h1, h2⟩ := C26_csc_to_csr_keeps_matrix (nnz := 7) exMetA_wf (by decide) (by decide)
  have h3 : cscToCsr exMetA 7 false = ok exMetB := by rfl
  rw [h3] at h1
  cases h1
  exact h2

/-- Level 0 has the parts `{0}` and `{}`, level 1 the parts `{1, 2}` and `{3}`. -/
def exMetS : Sched := ⟨2, [0, 2, 4], [0, 1, 1, 3, 4], [0, 1, 2, 3]⟩

theorem exMetS_ok : exMetS.PtrsOk 4 :=
  ⟨4, ⟨rfl, rfl, fun b hb lo hi h1 h2 => by
    have : b = 0 ∨ b = 1 := by have : b < 2 := hb; omega
    rcases this with rfl | rfl <;> cases h1 <;> cases h2 <;> decide⟩,
    ⟨rfl, rfl, fun b hb lo hi h1 h2 => by
      have : b = 0 ∨ b = 1 ∨ b = 2 ∨ b = 3 := by omega
      rcases this with rfl | rfl | rfl | rfl <;> cases h1 <;> cases h2 <;> decide⟩⟩

theorem exMetS_complete : exMetS.Complete 4 := by
  show List.Perm _ _
  decide

theorem exMet_input : SolverInput exMetB.toMat exMetA.graph := by
  refine Sp.LowerCsc.solverInput ⟨exMetA_wf, rfl, ?_, ?_, ?_⟩ ?_ exMetB_converted (by decide)
  · have : exMetA.entries = [(0, 0, 1), (1, 0, 1), (3, 0, 1), (1, 1, 1), (2, 1, 1), (2, 2, 1), (3, 3, 1)] := by rfl
    unfold Sp.Lower
    rw [this]
    simp
  · unfold NoDup; decide
  · have : exMetA.entries = [(0, 0, 1), (1, 0, 1), (3, 0, 1), (1, 1, 1), (2, 1, 1), (2, 2, 1), (3, 3, 1)] := by rfl
    rw [this]
    intro c hc
    have : c = 0 ∨ c = 1 ∨ c = 2 ∨ c = 3 := by have : c < 4 := hc; omega
    rcases this with rfl | rfl | rfl | rfl <;> simp
  · unfold ColsSorted; decide

theorem exMet_rowSize : (exMetB.toMat.rowSize 0 : ℚ) = 1 ∧ (exMetB.toMat.rowSize 1 : ℚ) = 2 ∧
    (exMetB.toMat.rowSize 2 : ℚ) = 2 ∧ (exMetB.toMat.rowSize 3 : ℚ) = 2 :=
  ⟨Nat.cast_one, rfl, rfl, rfl⟩

theorem exMet_costs : (exMetS.partsOf 0).map (exMetS.partCost (exMetB.toMat.rowSize : Nat → ℚ)) = [1, 0] ∧
    (exMetS.partsOf 1).map (exMetS.partCost (exMetB.toMat.rowSize : Nat → ℚ)) = [4, 2] := by
  obtain ⟨h0, h1, h2, h3⟩ := exMet_rowSize
  constructor
  · show [([0].map (exMetB.toMat.rowSize : Nat → ℚ)).sum, (List.map (exMetB.toMat.rowSize : Nat → ℚ) []).sum] = _
    simp [h0]
  · show [([1, 2].map (exMetB.toMat.rowSize : Nat → ℚ)).sum, ([3].map (exMetB.toMat.rowSize : Nat → ℚ)).sum] = _
    simp [h1, h2, h3]
    norm_num

theorem exMet_gain (threads : Nat) :
    potentialGain [0, 1, 2, 3] 4 threads exMetA.p exMetA.i exMetB.p exMetB.i exMetS = (ok (1 - (7 / threads) / 5) : Res ℚ) := by
  obtain ⟨mx, h1, h2⟩ := C119_potential_gain (K := ℚ) exMet_input (s := exMetS) exMetS_ok exMetS_complete
    (order := [0, 1, 2, 3]) (by decide) threads
  have e0 : mx 0 = 1 := by
    have h := h1 0 (by decide)
    rw [exMet_costs.1] at h
    have := h.1 1 (by simp)
    rcases h.2 with h | ⟨h, _⟩
    · simp at h
      rcases h with h | h
      · exact h
      · rw [h] at this; norm_num at this
    · cases h
  have e1 : mx 1 = 4 := by
    have h := h1 1 (by decide)
    rw [exMet_costs.2] at h
    have := h.1 4 (by simp)
    rcases h.2 with h | ⟨h, _⟩
    · simp at h
      rcases h with h | h
      · exact h
      · rw [h] at this; norm_num at this
    · cases h
  have e2 : ∑ l ∈ range exMetS.levels, mx l = 5 := by
    show ∑ l ∈ range 2, mx l = 5
    rw [Finset.sum_range_succ, Finset.sum_range_one, e0, e1]
    norm_num
  rw [e2] at h2
  exact h2

/-- **C119** (finding): with one thread for the two busy parts of the last level the "gain" is negative. -/
theorem C119_gain_negative :
    potentialGain [0, 1, 2, 3] 4 1 exMetA.p exMetA.i exMetB.p exMetB.i exMetS = (ok (-2 / 5) : Res ℚ) ∧
      potentialGain [0, 1, 2, 3] 4 2 exMetA.p exMetA.i exMetB.p exMetB.i exMetS = (ok (3 / 10) : Res ℚ) := by
  constructor <;> rw [exMet_gain] <;> norm_num

example : ∃ mx : Nat → ℚ, (∀ l, l < 2 → Sched.IsMax ((exMetS.partsOf l).map exMetS.partLen) (mx l)) ∧
    characteristics true 4 exMetS ⟨7, 7, 7, 7⟩ = ok ⟨mx 0 / (1 : Nat), mx 1 / (3 : Nat), 7, (∑ l ∈ range 2, mx l) / (4 : Nat)⟩ :=
  C119_characteristics exMetS_ok exMetS_complete true ⟨7, 7, 7, 7⟩

example : ∃ mx mn : Nat → ℚ,
    (∀ l, l < 2 → Sched.IsMax ((exMetS.partsOf l).map (exMetS.partCost (([1, 2, 2, 2] : List ℚ).getD · 0))) (mx l) ∧
      Sched.IsMin ((4 : Nat) : ℚ) (((4 : Nat) : ℚ) :: (exMetS.partsOf l).map
        (exMetS.partCost (([1, 2, 2, 2] : List ℚ).getD · 0))) (mn l)) ∧
    statistic 4 [1, 2, 2, 2] exMetS = ok ⟨((3 : Nat) : ℚ), ((3 : Nat) : ℚ) / (2 : Nat),
      (∑ l ∈ range 2, exMetS.levelCost (([1, 2, 2, 2] : List ℚ).getD · 0) l * (mx l - mn l)) / ([1, 2, 2, 2] : List ℚ).sum⟩ :=
  C119_statistic exMetS_ok exMetS_complete rfl (cost := ([1, 2, 2, 2] : List ℚ)) rfl
    (by intro x hx; simp at hx; rcases hx with rfl | rfl <;> norm_num)

example : ∃ mx mn : Nat → ℚ, (∀ l, l < 2 → Sched.IsMax ((exMetS.partsOf l).map exMetS.partLen) (mx l) ∧
      Sched.IsMin ((4 : Nat) : ℚ) ((exMetS.partsOf l).map exMetS.partLen) (mn l)) ∧
    statisticDagp 4 exMetS = ok ⟨((4 : Nat) : ℚ), ((4 : Nat) : ℚ) / (2 : Nat),
      (∑ l ∈ range 2, (exMetS.width l : Nat) * (mx l - mn l)) / (4 : Nat)⟩ :=
  C119_statistic_dagp exMetS_ok exMetS_complete

example : ∃ (F : Sp ℚ) (mx : Metrics ℚ), F.WF ∧ (F.entries.map swapEntry).Perm (exMetA.entries.flatMap mirrored) ∧
    computeMetrics [3, 2, 1, 0] [0, 1, 2, 3] [1, 0, 3, 2] exMetA false 7 2 exMetB.p exMetB.i exMetS
      ⟨0, 0, 0, 0, 0, 0, 0, 0, 0, 0⟩ = ok mx ∧ mx.perNnzTrsv = ((7 : Nat) : ℚ) / (7 : Nat) := by
  obtain ⟨F, mx, h1, h2, _, h3⟩ := C119_metrics (K := ℚ) exMetA_wf rfl (by decide) exMetB_converted (nnz := 7) rfl exMetS_ok
    exMetS_complete (order := [3, 2, 1, 0]) (order₂ := [0, 1, 2, 3]) (order₃ := [1, 0, 3, 2]) (by decide) (by decide)
    (by decide) 2 ⟨0, 0, 0, 0, 0, 0, 0, 0, 0, 0⟩
  exact ⟨F, _, h1, h2, h3, rfl⟩

/-- Two parts with one node each, both of cost 5: the code reports a difference of 3. -/
def exMetBal : Sched := ⟨1, [0, 2], [0, 1, 2], [0, 1]⟩

example : ∃ st : Stat ℚ, statistic 2 [5, 5] exMetBal = ok st ∧ st.maxDiff = 5 - (2 : Nat) := by
  refine C119_balanced_not_zero (s := exMetBal) ⟨2, ⟨rfl, rfl, fun b hb lo hi h1 h2 => ?_⟩, ⟨rfl, rfl, fun b hb lo hi h1 h2 => ?_⟩⟩
    (by show List.Perm _ _; decide) rfl rfl (by intro x hx; simp at hx; rw [hx]; norm_num) (by decide) ?_ (by norm_num) ?_
  · have : b = 0 := by have : b < 1 := hb; omega
    subst this
    cases h1; cases h2; decide
  · have : b = 0 ∨ b = 1 := by omega
    rcases this with rfl | rfl <;> cases h1 <;> cases h2 <;> decide
  · intro l hl
    have : l = 0 := by have : l < 1 := hl; omega
    subst this
    decide
  · intro l hl q hq
    have : l = 0 := by have : l < 1 := hl; omega
    subst this
    have : q ∈ [0, 1] := hq
    simp at this
    rcases this with rfl | rfl
    · show ((5 : ℚ) + 0) = 5
      norm_num
    · show ((5 : ℚ) + 0) = 5
      norm_num

example : statistic 4 [1, 2, 2] exMetS = (Res.ub : Res (Stat ℚ)) :=
  C119_statistic_out_of_bounds exMetS_ok exMetS_complete (by decide)

end Verif
