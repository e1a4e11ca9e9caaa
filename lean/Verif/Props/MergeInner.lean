import Verif.Model.MergeInner
import Verif.Props.RunGroupV2
import Verif.Proof.Slices
import Mathlib.Data.List.GetD

/-!
# C108: `merge_inner_part` packs consecutive parts into clusters
-/

namespace Verif
open Res

/-- Specification: `ptr` cuts the parts `0..n-1` into `k` clusters of consecutive parts; a cluster takes parts until
its cost reaches the threshold: no proper beginning of a cluster reaches it, and every cluster but the last does. -/
structure IsPacking (cost : List Int) (th : Int) (n k : Nat) (ptr : List Nat) : Prop where
  cuts : PtrOk ptr k n
  pos : ∀ j, j < k → ptr.getD j 0 < ptr.getD (j + 1) 0
  least : ∀ j e, j < k → ptr.getD j 0 ≤ e → e < ptr.getD (j + 1) 0 → (slice cost (ptr.getD j 0) e).sum < th
  full : ∀ j, j + 1 < k → th ≤ (slice cost (ptr.getD j 0) (ptr.getD (j + 1) 0)).sum

namespace Inner

variable {parts : List (List Nat)} {cost : List Int} {merged : List (List Nat)} {out : List Int} {th : Int}

theorem fill_wp (hc : parts.length ≤ cost.length) {cnt i : Nat} (hi : i < parts.length)
    (hcnt : cnt < merged.length) (hth : 0 < th) :
    wp (fill parts cost th cnt (i, 0, merged)) (fun t => i < t.1 ∧ t.1 ≤ parts.length ∧
      t.2.1 = (slice cost i t.1).sum ∧ t.2.2 = merged.set cnt (merged.getD cnt [] ++ (slice parts i t.1).flatten) ∧
      (∀ e, i ≤ e → e < t.1 → (slice cost i e).sum < th) ∧ (t.1 < parts.length → th ≤ t.2.1)) := by
  unfold fill
  refine whileF_wp (fun t : Nat × Int × List (List Nat) => i ≤ t.1 ∧ t.1 ≤ parts.length ∧
      t.2.1 = (slice cost i t.1).sum ∧ t.2.2 = merged.set cnt (merged.getD cnt [] ++ (slice parts i t.1).flatten) ∧
      (∀ e, i ≤ e → e < t.1 → (slice cost i e).sum < th)) (fun t => parts.length - t.1) ?_ _ _ ?_ ?_
  · rintro ⟨j, c, m⟩ ⟨h1, h2, h3, h4, h5⟩
    dsimp only at *
    rw [wp_ok]
    by_cases hb : c < th ∧ j < parts.length
    · rw [decide_eq_true hb, if_pos rfl]
      refine ⟨by omega, ?_⟩
      have hm : cnt < m.length := by rw [h4, List.length_set]; exact hcnt
      rw [rd_eq (show j < cost.length by omega), ok_bind, rd_getD [] hm, ok_bind, rd_eq hb.2, ok_bind,
        wr_eq hm, ok_bind, wp_ok]
      refine ⟨⟨by omega, hb.2, ?_, ?_, ?_⟩, by dsimp only; omega⟩
      · rw [← slice_append h1 (Nat.le_succ j), List.sum_append, slice_one (show j < cost.length by omega), ← h3]; simp
      · dsimp only
        rw [h4, getD_set, if_pos ⟨rfl, hcnt⟩, List.set_set, ← slice_append h1 (Nat.le_succ j), slice_one hb.2]
        simp
      · intro e he1 he2
        dsimp only at he2
        rcases Nat.lt_succ_iff_lt_or_eq.1 he2 with h | rfl
        · exact h5 e he1 h
        · rw [← h3]; exact hb.1
    · rw [decide_eq_false hb, if_neg (by simp)]
      refine ⟨?_, h2, h3, h4, h5, fun h => by omega⟩
      rcases Nat.lt_or_eq_of_le h1 with h | h
      · exact h
      · exfalso
        subst h
        rw [slice_self] at h3
        simp only [List.sum_nil] at h3
        omega
  · dsimp only; omega
  · refine ⟨Nat.le_refl _, by omega, ?_, ?_, fun e h1 h2 => by dsimp only at h2; omega⟩
    · rw [slice_self]; rfl
    · dsimp only
      rw [slice_self, List.flatten_nil, List.append_nil]
      refine List.ext_getElem? (fun k => ?_)
      rw [List.getElem?_set]
      split_ifs with h1
      · subst h1; rw [List.getD_eq_getElem _ _ hcnt, List.getElem?_eq_getElem hcnt]
      · rfl

/-- **C108**: for a positive threshold, one cost per part, at least as many lists for the clusters as parts and one
more place for their costs, `merge_inner_part` ends and packs the parts in their order: cluster `j` gets the nodes of
its parts appended, `outCost[j + 1]` is its cost; `outCost[0]` is never written. -/
theorem C108_merge (hth : 0 < th) (hc : parts.length ≤ cost.length) (hm : parts.length ≤ merged.length)
    (ho : parts.length < out.length) {fuel : Nat} (hf : parts.length ≤ fuel) :
    ∃ s ptr, mergeInner fuel parts cost merged out th = ok s ∧ IsPacking cost th parts.length s.cnt ptr ∧
      (∀ j, j < s.cnt → s.merged[j]? = some (merged.getD j [] ++
        (slice parts (ptr.getD j 0) (ptr.getD (j + 1) 0)).flatten)) ∧
      (∀ j, s.cnt ≤ j → s.merged[j]? = merged[j]?) ∧
      (∀ j, j < s.cnt → s.out[j + 1]? = some (slice cost (ptr.getD j 0) (ptr.getD (j + 1) 0)).sum) ∧
      s.out[0]? = out[0]? := by
  suffices h : wp (mergeInner fuel parts cost merged out th) (fun s => ∃ ptr,
      IsPacking cost th parts.length s.cnt ptr ∧
      (∀ j, j < s.cnt → s.merged[j]? = some (merged.getD j [] ++
        (slice parts (ptr.getD j 0) (ptr.getD (j + 1) 0)).flatten)) ∧
      (∀ j, s.cnt ≤ j → s.merged[j]? = merged[j]?) ∧
      (∀ j, j < s.cnt → s.out[j + 1]? = some (slice cost (ptr.getD j 0) (ptr.getD (j + 1) 0)).sum) ∧
      s.out[0]? = out[0]?) by
    obtain ⟨s, h1, ptr, h2⟩ := wp_iff.1 h
    exact ⟨s, ptr, h1, h2⟩
  unfold mergeInner
  refine whileF_wp (fun s : St => s.merged.length = merged.length ∧ s.out.length = out.length ∧ ∃ ptr,
      ptr.length = s.cnt + 1 ∧ IsPacking cost th s.i s.cnt ptr ∧ s.cnt ≤ s.i ∧ s.i ≤ parts.length ∧
      (s.i < parts.length → ∀ j, j < s.cnt → th ≤ (slice cost (ptr.getD j 0) (ptr.getD (j + 1) 0)).sum) ∧
      (∀ j, j < s.cnt → s.merged[j]? = some (merged.getD j [] ++
        (slice parts (ptr.getD j 0) (ptr.getD (j + 1) 0)).flatten)) ∧
      (∀ j, s.cnt ≤ j → s.merged[j]? = merged[j]?) ∧
      (∀ j, j < s.cnt → s.out[j + 1]? = some (slice cost (ptr.getD j 0) (ptr.getD (j + 1) 0)).sum) ∧
      s.out[0]? = out[0]?) (fun s => parts.length - s.i) ?_ _ _ ?_ ?_
  · rintro ⟨i, cnt, m, o⟩ ⟨hml, hol, ptr, hpl, h1, h2, h3, h4, h5, h6, h7, h8⟩
    dsimp only at *
    rw [wp_ok]
    by_cases hb : i < parts.length
    · rw [decide_eq_true hb, if_pos rfl]
      refine ⟨by omega, ?_⟩
      unfold cluster
      dsimp only
      rw [wp_bind]
      refine wp_mono (fill_wp hc hb (show cnt < m.length by omega) hth) ?_
      rintro ⟨i', c', m'⟩ ⟨k1, k2, k3, k4, k5, k6⟩
      dsimp only at *
      rw [wr_eq (by omega), ok_bind, wp_ok]
      dsimp only
      have hlast := h1.cuts.dlast
      have hg : ∀ j, j ≤ cnt → (ptr ++ [i']).getD j 0 = ptr.getD j 0 := by
        intro j hj
        rw [List.getD_append _ _ _ _ (by omega)]
      have hg' : (ptr ++ [i']).getD (cnt + 1) 0 = i' := by
        rw [List.getD_append_right _ _ _ _ (by omega), hpl, Nat.sub_self]; rfl
      have hcase : ∀ {P : Nat → Prop}, (∀ j, j < cnt → P j) → P cnt → ∀ j, j < cnt + 1 → P j := by
        intro P ha hb j hj
        rcases Nat.lt_succ_iff_lt_or_eq.1 hj with h | rfl
        · exact ha j h
        · exact hb
      refine ⟨⟨?_, ?_, ptr ++ [i'], ?_, ⟨?_, ?_, ?_, ?_⟩, by omega, k2, ?_, ?_, ?_, ?_, ?_⟩, by omega⟩
      · rw [k4, List.length_set, hml]
      · rw [List.length_set, hol]
      · rw [List.length_append, hpl]; rfl
      · refine PtrOk.mk' (by rw [List.length_append, hpl]; simp) ?_ hg' ?_
        · rw [hg 0 (Nat.zero_le _)]; exact h1.cuts.d0
        · refine hcase (fun j hj => ?_) ?_
          · rw [hg j (by omega), hg (j + 1) (by omega)]; exact h1.cuts.dmono hj
          · rw [hg cnt (by omega), hg', hlast]; omega
      · refine hcase (fun j hj => ?_) ?_
        · rw [hg j (by omega), hg (j + 1) (by omega)]; exact h1.pos j hj
        · rw [hg cnt (by omega), hg', hlast]; omega
      · intro j e hj
        refine hcase (P := fun j => (ptr ++ [i']).getD j 0 ≤ e → e < (ptr ++ [i']).getD (j + 1) 0 →
          (slice cost ((ptr ++ [i']).getD j 0) e).sum < th) (fun j hj => ?_) ?_ j hj
        · rw [hg j (by omega), hg (j + 1) (by omega)]; exact h1.least j e hj
        · rw [hg cnt (by omega), hg', hlast]; exact k5 e
      · intro j hj
        rw [hg j (by omega), hg (j + 1) (by omega)]; exact h4 hb j (by omega)
      · intro hlt
        refine hcase (fun j hj => ?_) ?_
        · rw [hg j (by omega), hg (j + 1) (by omega)]; exact h4 hb j hj
        · rw [hg cnt (by omega), hg', hlast, ← k3]; exact k6 hlt
      · refine hcase (fun j hj => ?_) ?_
        · rw [hg j (by omega), hg (j + 1) (by omega), k4, List.getElem?_set_ne (by omega)]; exact h5 j hj
        · rw [hg cnt (by omega), hg', hlast, k4, List.getElem?_set_self (by omega), List.getD_eq_getElem?_getD,
            h6 cnt (Nat.le_refl _), ← List.getD_eq_getElem?_getD]
      · intro j hj
        rw [k4, List.getElem?_set_ne (by omega)]; exact h6 j (by omega)
      · refine hcase (fun j hj => ?_) ?_
        · rw [hg j (by omega), hg (j + 1) (by omega), List.getElem?_set_ne (by omega)]; exact h7 j hj
        · rw [hg cnt (by omega), hg', hlast, List.getElem?_set_self (by omega), k3]
      · rw [List.getElem?_set_ne (by omega)]; exact h8
    · rw [decide_eq_false hb, if_neg (by simp)]
      have : i = parts.length := by omega
      subst this
      exact ⟨ptr, h1, h5, h6, h7, h8⟩
  · dsimp only; omega
  · exact ⟨rfl, rfl, [0], rfl, ⟨⟨rfl, rfl, fun b hb => absurd hb (Nat.not_lt_zero _)⟩,
      fun j hj => absurd hj (Nat.not_lt_zero _), fun j _ hj => absurd hj (Nat.not_lt_zero _),
      fun j hj => absurd hj (Nat.not_lt_zero _)⟩, Nat.le_refl _, Nat.zero_le _,
      fun _ j hj => absurd hj (Nat.not_lt_zero _), fun j hj => absurd hj (Nat.not_lt_zero _), fun _ _ => rfl,
      fun j hj => absurd hj (Nat.not_lt_zero _), rfl⟩

/-- **C108**, negative: if every part reaches the threshold alone, the cost of the last cluster is written at
`outCost[partNo]`, which is outside of an array with one place per part. -/
theorem C108_out_too_short (hth : 0 < th) (hn : 0 < parts.length) (hc : parts.length ≤ cost.length)
    (hbig : ∀ c ∈ cost, th ≤ c) (ho : out.length ≤ parts.length) {fuel : Nat} (hf : parts.length ≤ fuel) :
    mergeInner fuel parts cost merged out th = ub := by
  suffices h : ubOr (mergeInner fuel parts cost merged out th) (fun _ => False) by
    rcases h with h | h
    · exact h
    · obtain ⟨_, _, h⟩ := wp_iff.1 h
      exact h.elim
  unfold mergeInner
  refine whileF_ubOr (fun s : St => s.cnt = s.i ∧ s.i ≤ parts.length ∧ s.merged.length = merged.length ∧
    s.out.length = out.length ∧ (0 < s.i → s.i < out.length)) (fun s => parts.length - s.i) ?_ _ _ (by dsimp only; omega)
    ⟨rfl, Nat.zero_le _, rfl, rfl, fun h => absurd h (Nat.lt_irrefl _)⟩
  rintro ⟨i, cnt, m, o⟩ ⟨h1, h2, h3, h4, h5⟩
  dsimp only at *
  subst h1
  refine .inr ?_
  rw [wp_ok]
  by_cases hb : cnt < parts.length
  · rw [decide_eq_true hb, if_pos rfl]
    refine ⟨by omega, ?_⟩
    unfold cluster
    dsimp only
    by_cases hm : cnt < m.length
    · refine ubOr.bind (.inr (fill_wp hc hb hm hth)) ?_
      rintro ⟨i', c', m'⟩ ⟨k1, k2, k3, k4, k5, k6⟩
      dsimp only at *
      have hi' : i' = cnt + 1 := by
        by_contra hne
        have := k5 (cnt + 1) (by omega) (by omega)
        rw [slice_one (by omega)] at this
        simp only [List.sum_cons, List.sum_nil] at this
        have := hbig _ (List.getElem_mem (show cnt < cost.length by omega))
        omega
      by_cases hw : cnt + 1 < o.length
      · rw [wr_eq hw, ok_bind]
        refine .inr ?_
        rw [wp_ok]
        dsimp only
        refine ⟨⟨by omega, by omega, ?_, by rw [List.length_set, h4], fun _ => by omega⟩, by omega⟩
        rw [k4, List.length_set, h3]
      · refine .inl ?_
        unfold wr
        rw [if_neg hw]
        rfl
    · refine .inl ?_
      unfold fill
      obtain ⟨q, hq⟩ : ∃ q, parts.length = q + 1 := ⟨parts.length - 1, by omega⟩
      have : ∀ b : Res (Nat × Int × List (List Nat)), b = ub → (b >>= fun t => do
          let out ← wr o (cnt + 1) t.2.1
          ok (⟨t.1, cnt + 1, t.2.2, out⟩ : St)) = ub := by rintro _ rfl; rfl
      refine this _ ?_
      conv_lhs => arg 1; rw [hq]
      unfold whileF
      rw [ok_bind, decide_eq_true (show _ from ⟨hth, hb⟩), if_pos rfl]
      dsimp only
      rw [rd_eq (show cnt < cost.length by omega), ok_bind]
      unfold rd
      rw [List.getElem?_eq_none (by omega)]
      rfl
  · rw [decide_eq_false hb, if_neg (by simp)]
    have := h5 (by omega)
    omega

/-- **C108**, negative: for a threshold that is not positive and at least one part no part is ever taken; the loop
goes on until it writes outside of `outCost`. -/
theorem C108_no_progress (hth : th ≤ 0) (hn : 0 < parts.length) {fuel : Nat} (hf : out.length < fuel) :
    mergeInner fuel parts cost merged out th = ub := by
  suffices h : ubOr (mergeInner fuel parts cost merged out th) (fun _ => False) by
    rcases h with h | h
    · exact h
    · obtain ⟨_, _, h⟩ := wp_iff.1 h
      exact h.elim
  unfold mergeInner
  refine whileF_ubOr (fun s : St => s.i = 0 ∧ s.out.length = out.length ∧ s.cnt ≤ out.length)
    (fun s => out.length + 1 - s.cnt) ?_ _ _ (by dsimp only; omega) ⟨rfl, rfl, by dsimp only; omega⟩
  rintro ⟨i, cnt, m, o⟩ ⟨h1, h2, h3⟩
  dsimp only at *
  subst h1
  refine .inr ?_
  rw [wp_ok, decide_eq_true hn, if_pos rfl]
  refine ⟨by omega, ?_⟩
  unfold cluster fill
  obtain ⟨q, hq⟩ : ∃ q, parts.length = q + 1 := ⟨parts.length - 1, by omega⟩
  rw [hq]
  unfold whileF
  dsimp only
  rw [ok_bind, decide_eq_false (by omega), if_neg (by simp), ok_bind]
  dsimp only
  by_cases hw : cnt + 1 < o.length
  · rw [wr_eq hw, ok_bind]
    refine .inr ?_
    rw [wp_ok]
    dsimp only
    exact ⟨⟨rfl, by rw [List.length_set, h2], by omega⟩, by omega⟩
  · refine .inl ?_
    unfold wr
    rw [if_neg hw]
    rfl

/-- Four parts of cost 3 and a threshold of 5: two clusters. -/
example : mergeInner 4 [[0], [1, 2], [3], [4]] [3, 3, 3, 3] [[], [], [], []] [9, 9, 9, 9, 9] 5 =
    ok ⟨4, 2, [[0, 1, 2], [3, 4], [], []], [9, 6, 6, 9, 9]⟩ := by decide

/-- The same with a threshold of 3 and a place for every part. -/
example : mergeInner 4 [[0], [1, 2], [3], [4]] [3, 3, 3, 3] [[], [], [], []] [9, 9, 9, 9] 3 = ub := by decide

end Inner
end Verif
