import Verif.ResLemmas
import Verif.Model.LbcUtils
import Verif.Spec.Bins
import Mathlib.Algebra.Order.Monoid.Defs
import Mathlib.Algebra.Order.Group.Nat
import Mathlib.Algebra.Order.BigOperators.Group.List
import Mathlib.Data.List.Induction

/-!
# C34: bin packing

`worst_fit_bin_pack` (src/lbc_utils.cpp 162-186).
-/

namespace Verif.Lbc
open Res

section
variable {K : Type} [Add K] [LT K] [DecidableLT K]

omit [Add K] in
theorem findMin_spec {big : K} {cost : List K} {size : Nat} (hs : 0 < size)
    (hl : size ≤ cost.length) : wp (findMin big cost size) (fun b => b < size) := by
  unfold findMin
  rw [wp_bind]
  refine forRange_wp' (fun _ (s : K × Nat) => s.2 < size) (by omega) hs ?_ (fun s h => h)
  intro i s _ h2 h
  rw [rd_eq (by omega)]
  simp only [ok_bind, wp_ok]
  split
  · exact h2
  · exact h

omit [Add K] [LT K] [DecidableLT K] in
theorem partList_eq {parts : List (List Nat)} {inCost : List K}
    (h : parts.length ≤ inCost.length) :
    partList parts inCost = ok (inCost.zip parts) := by
  unfold partList
  have hw := forRange_wp (fun k (r : List (K × List Nat)) => r = (inCost.zip parts).take k)
    (lo := 0) (hi := parts.length)
    (f := fun i acc => do
      let c ← rd inCost i
      let l ← rd parts i
      ok (acc ++ [(c, l)])) (s := []) (by omega) (by simp) ?_
  · obtain ⟨r, h1, h2⟩ := wp_iff.1 hw
    rw [h1, h2, List.take_of_length_le (by simp)]
  · rintro i s _ h2 rfl
    rw [rd_eq (by omega : i < inCost.length), rd_eq h2]
    simp only [ok_bind, wp_ok]
    rw [List.take_add_one, List.getElem?_eq_getElem (by simp; omega)]
    simp

omit [Add K] [LT K] [DecidableLT K] in
theorem inBin_snoc (bin : List Nat) (l : List (K × List Nat)) (b : Nat) (t : K × List Nat)
    (b' : Nat) (h : bin.length = l.length) :
    inBin (bin ++ [b]) (l ++ [t]) b' = inBin bin l b' ++ (if b = b' then [t] else []) := by
  unfold inBin
  rw [List.zip_append h.symm, List.filter_append, List.map_append]
  by_cases hb : b = b' <;> simp [hb]

omit [LT K] [DecidableLT K] in
theorem packed_nil (bins : Nat) (merged : List (List Nat)) (cost : List K) :
    Packed [] bins merged cost merged cost :=
  ⟨rfl, rfl, [], rfl, by simp, by simp [inBin], by simp [inBin]⟩

omit [LT K] [DecidableLT K] in
theorem packed_snoc {l : List (K × List Nat)} {bins : Nat} {merged : List (List Nat)}
    {cost : List K} {m c} (h : Packed l bins merged cost m c) (t : K × List Nat) {b : Nat}
    (hb : b < bins) (hm : b < m.length) (hc : b < c.length) :
    Packed (l ++ [t]) bins merged cost (m.set b (m[b] ++ t.2)) (c.set b (c[b] + t.1)) := by
  obtain ⟨h1, h2, bin, h3, h4, h5, h6⟩ := h
  refine ⟨by simpa using h1, by simpa using h2, bin ++ [b], by simp [h3], ?_, ?_, ?_⟩
  · intro x hx
    rcases List.mem_append.1 hx with hx | hx
    · exact h4 x hx
    · simp at hx; omega
  · intro b' m' hm'
    have h' := h5 b' m' hm'
    rw [inBin_snoc _ _ _ _ _ h3, List.getElem?_set]
    by_cases hbb : b = b'
    · subst hbb
      rw [List.getElem?_eq_getElem hm] at h'
      simp only [Option.some.injEq] at h'
      simp [h', hm]
    · simp [hbb, h']
  · intro b' c' hc'
    have h' := h6 b' c' hc'
    rw [inBin_snoc _ _ _ _ _ h3, List.getElem?_set]
    by_cases hbb : b = b'
    · subst hbb
      rw [List.getElem?_eq_getElem hc] at h'
      simp only [Option.some.injEq] at h'
      simp [h', hc]
    · simp [hbb, h']

/-- **C34.**  `worst_fit_bin_pack` succeeds, returns the number of bins, and packs the components, in
the order chosen by the sorting, into the bins: every component is appended as one block to one bin,
and its cost is added to the cost of that bin.  This holds for every type of costs, also for
floating-point numbers (costs are added one by one), and for every behaviour of the sorting that
permutes its input. -/
theorem C34_worst_fit (big : K) {sort : List (K × List Nat) → List (K × List Nat)}
    (hsort : ∀ l, (sort l).Perm l) {parts : List (List Nat)} {inCost outCost : List K}
    {merged : List (List Nat)} {bins : Nat} (hin : parts.length ≤ inCost.length)
    (hb : 0 < bins) (hm : bins ≤ merged.length) (hc : bins ≤ outCost.length) :
    ∃ cost' merged' order,
      worstFit big sort parts inCost merged outCost bins = ok (bins, cost', merged') ∧
      order.Perm (inCost.zip parts) ∧ Packed order bins merged outCost merged' cost' := by
  have hw : wp (worstFit big sort parts inCost merged outCost bins) (fun r => r.1 = bins ∧
      Packed (sort (inCost.zip parts)) bins merged outCost r.2.2 r.2.1) := by
    unfold worstFit
    rw [partList_eq hin]
    simp only [ok_bind, wp_bind, wp_ok]
    have h := forEach_wp (fun pre (s : List K × List (List Nat)) =>
      Packed pre bins merged outCost s.2 s.1) (f := packOne big bins)
      (sort (inCost.zip parts)) [] (outCost, merged) (packed_nil _ _ _) ?_
    · refine wp_mono h ?_
      intro s hs
      exact ⟨trivial, by simpa using hs⟩
    · intro p t q s _ hI
      have h1 := hI.mlen
      have h2 := hI.clen
      unfold packOne
      rw [wp_bind]
      refine wp_mono (findMin_spec hb (by omega)) ?_
      intro b hb'
      rw [rd_eq (by omega : b < s.1.length)]
      simp only [ok_bind]
      rw [wr_eq (by omega), rd_eq (by omega : b < s.2.length)]
      simp only [ok_bind]
      rw [wr_eq (by omega)]
      simp only [ok_bind, wp_ok]
      exact packed_snoc hI t hb' _ _
  obtain ⟨⟨r, cost', merged'⟩, h1, h2, h3⟩ := wp_iff.1 hw
  exact ⟨cost', merged', _, by rw [h1]; simp only [ok.injEq, Prod.mk.injEq, and_true]; exact h2,
    hsort _, h3⟩

end

/-! ### No node is lost -/

theorem flatten_set {l : List (List Nat)} {b : Nat} (t : List Nat) (hb : b < l.length) :
    (l.set b (l[b] ++ t)).flatten.Perm (l.flatten ++ t) := by
  induction l generalizing b with
  | nil => simp at hb
  | cons a l ih =>
    cases b with
    | zero =>
      simp only [List.set_cons_zero, List.getElem_cons_zero, List.flatten_cons, List.append_assoc]
      exact List.Perm.append_left _ List.perm_append_comm
    | succ b =>
      simp only [List.set_cons_succ, List.getElem_cons_succ, List.flatten_cons, List.append_assoc]
      exact List.Perm.append_left _ (ih (by simpa using hb))

/-- The nodes of the bins after packing are the nodes that were there before and those of the
packed components. -/
theorem _root_.Verif.Packed.flatten {K : Type} [Add K] {l : List (K × List Nat)} {bins : Nat}
    {merged : List (List Nat)} {cost : List K} {m c} (h : Packed l bins merged cost m c)
    (hm : bins ≤ merged.length) :
    m.flatten.Perm (merged.flatten ++ l.flatMap Prod.snd) := by
  obtain ⟨h1, -, bin, h3, h4, h5, -⟩ := h
  clear cost c
  induction l using List.reverseRecOn generalizing bin m with
  | nil =>
    have : m = merged := by
      apply List.ext_getElem? 
      intro b
      by_cases hb : b < merged.length
      · rw [h5 b _ (List.getElem?_eq_getElem hb), List.getElem?_eq_getElem hb]
        simp [inBin]
      · rw [List.getElem?_eq_none (by omega), List.getElem?_eq_none (by omega)]
    simp [this]
  | append_singleton l t ih =>
    obtain ⟨bin', b, rfl⟩ : ∃ bin' b, bin = bin' ++ [b] := by
      refine ⟨bin.dropLast, bin.getLast (by intro h; simp [h] at h3), ?_⟩
      rw [List.dropLast_append_getLast]
    have h3' : bin'.length = l.length := by simpa using h3
    have hb : b < bins := h4 b (by simp)
    let m' : List (List Nat) := (List.range merged.length).map (fun k =>
      merged.getD k [] ++ (inBin bin' l k).flatMap Prod.snd)
    have hm' : ∀ k, k < merged.length → m'[k]? =
        some (merged.getD k [] ++ (inBin bin' l k).flatMap Prod.snd) := by
      intro k hk
      simp [m', hk]
    have hlen : m'.length = merged.length := by simp [m']
    have hbm : b < m'.length := by omega
    have h0 := ih (m := m') hlen bin' h3' (fun x hx => h4 x (by simp [hx])) (by
      intro k x hx
      have hk : k < merged.length := by
        by_contra hc
        rw [List.getElem?_eq_none (by omega)] at hx
        exact absurd hx (by simp)
      rw [hm' k hk, List.getD_eq_getElem?_getD, hx]
      rfl)
    have hme : m = m'.set b (m'[b] ++ t.2) := by
      apply List.ext_getElem?
      intro k
      by_cases hk : k < merged.length
      · rw [h5 k _ (List.getElem?_eq_getElem hk), inBin_snoc _ _ _ _ _ h3', List.getElem?_set]
        have hmk := hm' k hk
        by_cases hbk : b = k
        · subst hbk
          rw [List.getElem?_eq_getElem hbm] at hmk
          simp only [Option.some.injEq] at hmk
          simp [hmk, hlen, hk, List.getD_eq_getElem?_getD]
        · simp only [hbk, if_false, hmk]
          simp [List.getD_eq_getElem?_getD, hk]
      · rw [List.getElem?_eq_none (by omega), List.getElem?_eq_none (by simp; omega)]
    rw [hme]
    refine (flatten_set t.2 hbm).trans ?_
    rw [List.flatMap_append]
    simp only [List.flatMap_cons, List.flatMap_nil, List.append_nil]
    rw [← List.append_assoc]
    exact List.Perm.append_right _ h0

/-- **C34, no node is lost.**  With empty bins every node of the input components appears exactly as
often as in the input. -/
theorem C34_no_node_lost {K : Type} [Add K] [LT K] [DecidableLT K] (big : K)
    {sort : List (K × List Nat) → List (K × List Nat)}
    (hsort : ∀ l, (sort l).Perm l) {parts : List (List Nat)} {inCost outCost : List K}
    {bins : Nat} (hin : parts.length ≤ inCost.length) (hb : 0 < bins)
    (hc : bins ≤ outCost.length) :
    ∃ cost' merged',
      worstFit big sort parts inCost (List.replicate bins []) outCost bins
        = ok (bins, cost', merged') ∧
      merged'.length = bins ∧ merged'.flatten.Perm parts.flatten := by
  obtain ⟨c, m, o, h1, h2, h3⟩ := C34_worst_fit big hsort hin hb
    (merged := List.replicate bins []) (by simp) hc
  refine ⟨c, m, h1, by rw [h3.mlen]; simp, (h3.flatten (by simp)).trans ?_⟩
  have h4 : (List.replicate bins ([] : List Nat)).flatten = [] := by simp
  rw [h4, List.nil_append]
  refine (h2.flatMap_right _).trans ?_
  have : (inCost.zip parts).map Prod.snd = parts := List.map_snd_zip hin
  rw [List.flatMap_def, this]

/-! ### Balance -/

section
variable {K : Type} [AddCommMonoid K] [LinearOrder K] [IsOrderedAddMonoid K]

omit [AddCommMonoid K] [IsOrderedAddMonoid K] in
theorem findMin_min {big : K} {cost : List K} {size : Nat} (hs : 0 < size)
    (hl : size ≤ cost.length) (hbig : ∀ c ∈ cost, c < big) :
    wp (findMin big cost size) (fun b => b < size ∧ ∀ i x y, i < size → cost[b]? = some x →
      cost[i]? = some y → x ≤ y) := by
  unfold findMin
  rw [wp_bind]
  refine forRange_wp' (fun i (s : K × Nat) => (i = 0 ∧ s = (big, 0)) ∨
    (0 < i ∧ s.2 < i ∧ cost[s.2]? = some s.1 ∧ ∀ j y, j < i → cost[j]? = some y → s.1 ≤ y))
    (by omega) (Or.inl ⟨rfl, rfl⟩) ?_ ?_
  · intro i s _ h2 h
    have hi : i < cost.length := by omega
    rw [rd_eq hi]
    simp only [ok_bind, wp_ok]
    right
    rcases h with ⟨rfl, rfl⟩ | ⟨h0, h3, h4, h5⟩
    · rw [if_pos (hbig _ (List.getElem_mem hi))]
      refine ⟨by omega, by dsimp only; omega, List.getElem?_eq_getElem hi, ?_⟩
      intro j y hj hy
      obtain rfl : j = 0 := by omega
      rw [List.getElem?_eq_getElem hi] at hy
      exact le_of_eq (Option.some.inj hy)
    · split
      · rename_i hlt
        refine ⟨by omega, by dsimp only; omega, List.getElem?_eq_getElem hi, ?_⟩
        intro j y hj hy
        by_cases hji : j = i
        · subst hji
          rw [List.getElem?_eq_getElem hi] at hy
          exact le_of_eq (Option.some.inj hy)
        · exact le_trans (le_of_lt hlt) (h5 j y (by omega) hy)
      · rename_i hlt
        refine ⟨by omega, by omega, h4, ?_⟩
        intro j y hj hy
        by_cases hji : j = i
        · subst hji
          rw [List.getElem?_eq_getElem hi] at hy
          rw [← Option.some.inj hy]
          exact not_lt.1 hlt
        · exact h5 j y (by omega) hy
  · rintro s (⟨h, _⟩ | ⟨_, h3, h4, h5⟩)
    · omega
    · refine ⟨h3, ?_⟩
      intro i x y hi hx hy
      rw [h4] at hx
      rw [← Option.some.inj hx]
      exact h5 i y hi hy

/-- **C34, balance.**  If all costs are nonnegative and stay below `INT_MAX`, the bins start with cost
zero and no component costs more than `M`, then no two bins differ by more than `M`. -/
theorem C34_balance (big M : K) {sort : List (K × List Nat) → List (K × List Nat)}
    (hsort : ∀ l, (sort l).Perm l) {parts : List (List Nat)} {inCost : List K} {bins extra : Nat}
    (hin : parts.length ≤ inCost.length) (hb : 0 < bins)
    (hM0 : 0 ≤ M) (hpos : ∀ c ∈ inCost, 0 ≤ c) (hM : ∀ c ∈ inCost, c ≤ M)
    (hbig : (inCost.take parts.length).sum < big) :
    ∃ cost' merged',
      worstFit big sort parts inCost (List.replicate bins []) (List.replicate (bins + extra) 0) bins
        = ok (bins, cost', merged') ∧
      ∀ b b' x y, b < bins → b' < bins → cost'[b]? = some x → cost'[b']? = some y → x ≤ y + M := by
  have hsub : ∀ t ∈ sort (inCost.zip parts), t.1 ∈ inCost := by
    intro t ht
    have := (hsort _).mem_iff.1 ht
    exact (List.of_mem_zip this).1
  have hsum : ((sort (inCost.zip parts)).map Prod.fst).sum < big := by
    have h : (inCost.zip parts).map Prod.fst = inCost.take parts.length := by
      apply List.ext_getElem
      · simp [Nat.min_comm]
      · intro i h1 h2
        simp
    rw [((hsort (inCost.zip parts)).map Prod.fst).sum_eq, h]
    exact hbig
  have hw : wp (worstFit big sort parts inCost (List.replicate bins [])
      (List.replicate (bins + extra) 0) bins) (fun r => r.1 = bins ∧ ∀ b b' x y, b < bins →
        b' < bins → r.2.1[b]? = some x → r.2.1[b']? = some y → x ≤ y + M) := by
    unfold worstFit
    rw [partList_eq hin]
    simp only [ok_bind, wp_bind, wp_ok]
    have h := forEach_wp (fun pre (s : List K × List (List Nat)) =>
      s.1.length = bins + extra ∧ s.2.length = bins ∧
      (∀ c ∈ s.1, 0 ≤ c ∧ c ≤ (pre.map Prod.fst).sum) ∧
      ∀ b b' x y, b < bins → b' < bins → s.1[b]? = some x → s.1[b']? = some y →
        x ≤ y + M) (f := packOne big bins)
      (sort (inCost.zip parts)) [] (List.replicate (bins + extra) 0, List.replicate bins []) ?_ ?_
    · refine wp_mono h ?_
      intro s hs
      exact ⟨trivial, hs.2.2.2⟩
    · refine ⟨by simp, by simp, ?_, ?_⟩
      · intro c hc
        simp only [List.mem_replicate] at hc
        simp [hc.2]
      · intro b b' x y _ _ hx hy
        have hx' := List.mem_of_getElem? hx
        have hy' := List.mem_of_getElem? hy
        simp only [List.mem_replicate] at hx' hy'
        rw [hx'.2, hy'.2]
        simpa using hM0
    · rintro p t q s heq ⟨h1, h2, h3, h4⟩
      rw [List.nil_append] at heq
      have ht : t.1 ∈ inCost := hsub t (by rw [heq]; simp)
      have ht0 := hpos _ ht
      have htM := hM _ ht
      have hp : (p.map Prod.fst).sum ≤ ((sort (inCost.zip parts)).map Prod.fst).sum := by
        rw [heq, List.map_append, List.sum_append]
        refine le_add_of_nonneg_right (List.sum_nonneg ?_)
        intro c hc
        obtain ⟨t', ht', rfl⟩ := List.mem_map.1 hc
        exact hpos _ (hsub t' (by rw [heq]; exact List.mem_append_right _ ht'))
      unfold packOne
      rw [wp_bind]
      refine wp_mono (findMin_min hb (by omega)
        (fun c hc => lt_of_le_of_lt ((h3 c hc).2.trans hp) hsum)) ?_
      rintro b ⟨hb', hmin⟩
      have hbl : b < s.1.length := by omega
      rw [rd_eq hbl]
      simp only [ok_bind]
      rw [wr_eq (by omega), rd_eq (by omega : b < s.2.length)]
      simp only [ok_bind]
      rw [wr_eq (by omega)]
      simp only [ok_bind, wp_ok]
      refine ⟨by simpa using h1, by simpa using h2, ?_, ?_⟩
      · intro c hc
        rw [List.map_append, List.sum_append]
        simp only [List.map_cons, List.map_nil, List.sum_cons, List.sum_nil, add_zero]
        rcases List.mem_or_eq_of_mem_set hc with hc | rfl
        · exact ⟨(h3 c hc).1, (h3 c hc).2.trans (le_add_of_nonneg_right ht0)⟩
        · have := h3 _ (List.getElem_mem hbl)
          exact ⟨add_nonneg this.1 ht0, add_le_add_left this.2 _⟩
      · intro i j x y hi hj hx hy
        rw [List.getElem?_set] at hx hy
        have hbx := List.getElem?_eq_getElem hbl
        by_cases hib : b = i
        · subst hib
          simp only [if_true, hbl, Option.some.injEq] at hx
          by_cases hjb : b = j
          · subst hjb
            simp only [if_true, hbl, Option.some.injEq] at hy
            rw [← hx, ← hy]
            exact le_add_of_nonneg_right hM0
          · simp only [hjb, if_false] at hy
            rw [← hx]
            exact add_le_add (hmin j _ _ hj hbx hy) htM
        · simp only [hib, if_false] at hx
          by_cases hjb : b = j
          · subst hjb
            simp only [if_true, hbl, Option.some.injEq] at hy
            rw [← hy]
            exact (h4 i b x _ hi hb' hx hbx).trans
              (add_le_add_left (le_add_of_nonneg_right ht0) _)
          · simp only [hjb, if_false] at hy
            exact h4 i j x y hi hj hx hy
  obtain ⟨⟨r, cost', merged'⟩, h1, h2, h3⟩ := wp_iff.1 hw
  exact ⟨cost', merged', by rw [h1]; simp only [ok.injEq, Prod.mk.injEq, and_true]; exact h2, h3⟩

end

/-- Three components in two bins, with the costs 5, 4, 3: the last goes to the bin with cost 4. -/
example : worstFit 2147483647 (fun l => l) [[0, 3], [1], [2, 4]] [5, 4, 3] [[], []] [0, 0, 0] 2
    = ok (2, [5, 7, 0], [[0, 3], [1, 2, 4]]) := by decide +kernel

/-- The hypotheses of `C34_balance` hold for this call. -/
example : (∀ c ∈ [5, 4, 3], c ≤ 5) ∧ (([5, 4, 3] : List Nat).take 3).sum < 2147483647 := by decide

/-- **C34, violation beyond `INT_MAX`.**  The bound on the total cost is needed: once no bin costs
less than `INT_MAX`, `find_min` returns bin 0 for every further component, so the bins differ by
more than the cost of any component. -/
theorem C34_unbalanced_beyond_intmax :
    let c : Nat := 2 ^ 31
    worstFit 2147483647 (fun l => l) [[0], [1], [2], [3], [4]] [c, c, c, c, c]
      (List.replicate 2 []) (List.replicate 2 0) 2 = ok (2, [4 * c, c], [[0, 2, 3, 4], [1]]) := by
  decide +kernel

end Verif.Lbc
