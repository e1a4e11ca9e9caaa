import Verif.Props.RunGroup
import Verif.Proof.Counts

/-!
# C53: `inspection_sptrsvcsr_v2`

The function (src/group.cpp 200-266) reads `rCnt[-1]` on every lower triangular matrix.
-/

namespace Verif
open Res Csc RunGroup

namespace Res

/-- Undefined behaviour, or a result that satisfies `Q`. -/
def ubOr {α : Type _} (x : Res α) (Q : α → Prop) : Prop := x = ub ∨ wp x Q

variable {α β : Type _}

theorem ubOr.bind {x : Res α} {f : α → Res β} {P : α → Prop} {Q : β → Prop} (h : ubOr x P)
    (hf : ∀ a, P a → ubOr (f a) Q) : ubOr (x >>= f) Q := by
  rcases h with rfl | h
  · exact .inl rfl
  · obtain ⟨a, rfl, ha⟩ := wp_iff.1 h
    exact hf a ha

end Res

theorem forN_ubOr {σ : Type _} (I : Nat → σ → Prop) {f : Nat → σ → Res σ} :
    ∀ (c lo : Nat) (s : σ), I lo s →
      (∀ i s, lo ≤ i → i < lo + c → I i s → ubOr (f i s) (I (i + 1))) →
      ubOr (forN c lo f s) (I (lo + c))
  | 0, lo, s, h0, _ => .inr h0
  | c + 1, lo, s, h0, h => by
    refine ubOr.bind (h lo s (Nat.le_refl _) (by omega) h0) ?_
    intro s' hs'
    have := forN_ubOr I c (lo + 1) s' hs' (fun i s h1 h2 => h i s (by omega) (by omega))
    rwa [show lo + (c + 1) = lo + 1 + c by omega]

theorem whileF_ubOr {σ : Type _} (I : σ → Prop) (m : σ → Nat) {cond : σ → Res Bool}
    {body : σ → Res σ} {Q : σ → Prop}
    (h : ∀ s, I s → ubOr (cond s) (fun b => if b then
      0 < m s ∧ ubOr (body s) (fun s' => I s' ∧ m s' < m s) else Q s)) :
    ∀ (fuel : Nat) (s : σ), m s ≤ fuel → I s → ubOr (whileF fuel cond body s) Q
  | 0, s, hm, hI => by
    refine ubOr.bind (h s hI) ?_
    intro b hb
    cases b
    · exact .inr hb
    · simp only [if_true] at hb; omega
  | k + 1, s, hm, hI => by
    refine ubOr.bind (h s hI) ?_
    intro b hb
    cases b
    · exact .inr hb
    · simp only [if_true] at hb
      simp only [if_true]
      refine ubOr.bind hb.2 ?_
      intro s' hs'
      exact whileF_ubOr I m h k s' (by omega) hs'.1

variable {g : Csc}

theorem childV2_wp (h : g.WF) (hpos : 0 < g.n)
    (hlow : ∀ r, r < g.n → ∀ c ∈ (g.col r).dropLast, c < r) :
    wp (childV2 g.n g.p g.i) (fun s => s.1.length = g.n ∧ s.2.length = g.n ∧
      s.1.getD (g.n - 1) 0 = -1 ∧ ∀ v, v < g.n → s.1.getD v 0 < g.n) := by
  unfold childV2
  refine forRange_wp (fun _ (s : List Int × List Bool) => s.1.length = g.n ∧ s.2.length = g.n ∧
      s.1.getD (g.n - 1) 0 = -1 ∧ ∀ v, v < g.n → s.1.getD v 0 < g.n) (Nat.zero_le _) ?_ ?_
  · refine ⟨by simp, by simp, ?_, ?_⟩
    · dsimp only; rw [getD_replicate _ _ _ _ (by omega)]
    · intro v hv; dsimp only; rw [getD_replicate _ _ _ _ hv]; omega
  · rintro i ⟨child, rCnt⟩ _ hi ⟨h1, h2, h3, h4⟩
    dsimp only at h1 h2 h3 h4 ⊢
    have hm := h.mono i hi
    have hle := h.ptr_le (a := i + 1) (by omega)
    have hcl := h.col_length hi
    rw [h.rd_p (by omega), ok_bind, h.rd_p (by omega), ok_bind, wp_bind]
    have hr : wp (if (g.ptr (i + 1) : Int) - g.ptr i = 1 then wr rCnt i true else ok rCnt)
        (fun r => r.length = g.n) := by
      split
      · rw [wr_eq (by omega), wp_ok]; simpa using h2
      · exact h2
    refine wp_mono hr ?_
    intro r hr
    by_cases hc : g.ptr i + 1 < g.ptr (i + 1)
    · rw [if_pos (by omega), rdZ_sub2 (by omega) (by omega), ok_bind]
      have ht : g.idx (g.ptr (i + 1) - 2) < i := by
        apply hlow i hi
        rw [List.dropLast_eq_take, List.mem_iff_getElem?]
        refine ⟨g.ptr (i + 1) - 2 - g.ptr i, ?_⟩
        rw [List.getElem?_take, if_pos (by omega)]
        unfold col
        rw [List.getElem?_take, if_pos (by omega), List.getElem?_drop, getElem?_getD 0 (by omega)]
        rw [show g.ptr i + (g.ptr (i + 1) - 2 - g.ptr i) = g.ptr (i + 1) - 2 by omega]
        rfl
      have ht' : g.i.getD (g.ptr (i + 1) - 2) 0 = g.idx (g.ptr (i + 1) - 2) := rfl
      rw [ht', rd_getD 0 (by omega), ok_bind]
      split
      · rw [wr_eq (by omega), ok_bind, wp_ok]
        refine ⟨by simpa using h1, hr, ?_, fun v hv => ?_⟩
        · dsimp only; rw [getD_set, if_neg (by omega)]; exact h3
        · dsimp only; rw [getD_set]
          split
          · omega
          · exact h4 v hv
      · exact ⟨h1, hr, h3, h4⟩
    · rw [if_neg (by omega)]
      exact ⟨h1, hr, h3, h4⟩

/-- **C53.**  For every non-empty matrix in compressed row form whose entries before the last of each
row are left of the diagonal (in particular for every lower triangular matrix of the solvers), and
whatever the output arrays, `inspection_sptrsvcsr_v2` reads outside its arrays (`rCnt[-1]`). -/
theorem C53_csr_v2_ub (hwf : g.WF) (hpos : 0 < g.n)
    (hlow : ∀ r, r < g.n → ∀ c ∈ (g.col r).dropLast, c < r) (ptr set inv : List Nat) :
    sptrsvCsrV2 g.n g.p g.i ptr set inv = ub := by
  obtain ⟨⟨child, rCnt⟩, h1, h2, h3, h4, h5⟩ := wp_iff.1 (childV2_wp hwf hpos hlow)
  dsimp only at h2 h3 h4 h5
  unfold sptrsvCsrV2
  rw [h1, ok_bind]
  dsimp only
  suffices h : nextV2 g.n child rCnt = ub by rw [h]; rfl
  have hub : ∀ s : V2, s.cur = g.n - 1 → s.ch = -1 → condV2 rCnt s = ub := by
    intro s hc hch
    unfold condV2
    rw [if_neg (by omega), hch]
    rfl
  have hmain : ubOr (nextV2 g.n child rCnt) (fun _ => False) := by
    unfold nextV2 forRange
    have := forN_ubOr (fun i (s : List Bool × List Nat) => i < g.n ∧ s.1.length = g.n ∧
      s.2.length = g.n ∧ s.1.getD (g.n - 1) true = false)
      (f := fun i s => do
        let v ← rd s.1 i
        if v then ok s else do
          let visited ← wr s.1 i true
          let ch ← rd child i
          let t ← whileF (g.n + 1) (condV2 rCnt) (bodyV2 child) ⟨visited, s.2, i, ch⟩
          ok (t.visited, t.next)) (g.n - 0) 0 (List.replicate g.n false, List.replicate g.n 0)
      ⟨hpos, by simp, by simp, by dsimp only; rw [getD_replicate _ _ _ _ (by omega)]⟩ ?_
    · rcases this with h | h
      · exact .inl h
      · obtain ⟨s, _, h6, _⟩ := wp_iff.1 h
        omega
    · rintro i ⟨vis, next⟩ _ hi ⟨h0, h6, h7, h8⟩
      dsimp only at h6 h7 h8 ⊢
      rw [rd_getD true (by omega), ok_bind]
      by_cases hlast : i = g.n - 1
      · -- the last row has no successor
        left
        rw [hlast, h8, if_neg (by simp), wr_eq (by omega), ok_bind, rd_getD 0 (by omega), ok_bind, h4]
        rw [whileF, hub _ rfl rfl]
        rfl
      · by_cases hv : vis.getD i true = true
        · rw [hv, if_pos rfl]
          exact .inr ⟨by omega, h6, h7, h8⟩
        · rw [if_neg hv, wr_eq (by omega), ok_bind, rd_getD 0 (by omega), ok_bind]
          refine ubOr.bind (P := fun t : V2 => t.visited.length = g.n ∧ t.next.length = g.n ∧
            t.visited.getD (g.n - 1) true = false) ?_ ?_
          · refine whileF_ubOr (fun t : V2 => t.visited.length = g.n ∧ t.next.length = g.n ∧
                t.cur < g.n ∧ t.ch = child.getD t.cur 0 ∧
                (t.cur = g.n - 1 ∨ t.visited.getD (g.n - 1) true = false))
              (fun t => t.visited.count false) ?_ _ _ ?_ ?_
            · rintro t ⟨t1, t2, t3, t4, t5⟩
              rcases t5 with t5 | t5
              · left
                exact hub t t5 (by rw [t4, t5, h4])
              · by_cases hneg : t.ch < 0
                · left
                  unfold condV2
                  rw [if_neg (by omega)]
                  unfold rdZ
                  rw [if_pos hneg]
                  rfl
                · have hb : t.ch < g.n := by rw [t4]; exact h5 _ t3
                  right
                  obtain ⟨c, hc⟩ : ∃ c : Nat, t.ch = c := ⟨t.ch.toNat, by omega⟩
                  have hrz : ∀ l : List Bool, l.length = g.n → rdZ l t.ch = ok (l.getD c true) := by
                    intro l hl
                    unfold rdZ
                    rw [if_neg hneg, hc, Int.toNat_natCast, rd_getD true (by omega)]
                  have hbody : t.visited.getD c true = false →
                      ubOr (bodyV2 child t) (fun s' => (s'.visited.length = g.n ∧
                        s'.next.length = g.n ∧ s'.cur < g.n ∧ s'.ch = child.getD s'.cur 0 ∧
                        (s'.cur = g.n - 1 ∨ s'.visited.getD (g.n - 1) true = false)) ∧
                        s'.visited.count false < t.visited.count false) := by
                    intro hf
                    right
                    unfold bodyV2 wrZ rdZ
                    rw [if_neg hneg, hc, Int.toNat_natCast, wr_eq (by omega), ok_bind,
                      wr_eq (by omega), ok_bind, if_neg (by omega), rd_getD 0 (by omega), ok_bind,
                      wp_ok]
                    refine ⟨⟨by simpa using t1, by simpa using t2, by dsimp only; omega, rfl, ?_⟩,
                      count_set_true (by omega) hf⟩
                    dsimp only
                    by_cases hcn : c = g.n - 1
                    · exact .inl hcn
                    · right
                      rw [getD_set, if_neg (fun hc => hcn hc.1)]
                      exact t5
                  have hfin : ∀ a : Bool, wp (if a then do
                        let v ← rdZ t.visited t.ch
                        ok (!v)
                      else ok false) (fun b => if b then
                        0 < t.visited.count false ∧ ubOr (bodyV2 child t) (fun s' =>
                          (s'.visited.length = g.n ∧ s'.next.length = g.n ∧ s'.cur < g.n ∧
                            s'.ch = child.getD s'.cur 0 ∧
                            (s'.cur = g.n - 1 ∨ s'.visited.getD (g.n - 1) true = false)) ∧
                          s'.visited.count false < t.visited.count false)
                        else t.visited.length = g.n ∧ t.next.length = g.n ∧
                          t.visited.getD (g.n - 1) true = false) := by
                    intro a
                    cases a
                    · exact ⟨t1, t2, t5⟩
                    · rw [if_pos rfl, hrz _ t1, ok_bind, wp_ok]
                      by_cases hvc : t.visited.getD c true = true
                      · rw [hvc]; exact ⟨t1, t2, t5⟩
                      · have hf : t.visited.getD c true = false := by simpa using hvc
                        rw [hf]
                        refine ⟨?_, hbody hf⟩
                        have := count_set_true (l := t.visited) (k := c) (by omega) hf
                        omega
                  unfold condV2
                  split
                  · rw [ok_bind]; exact hfin true
                  · rw [hrz _ h3, ok_bind]; exact hfin _
            · dsimp only
              have := List.count_le_length (a := false) (l := vis.set i true)
              rw [List.length_set] at this
              omega
            · refine ⟨by simpa using h6, h7, by dsimp only; omega, rfl, .inr ?_⟩
              dsimp only
              rw [getD_set, if_neg (fun hc => hlast hc.1)]
              exact h8
          · rintro t ⟨t1, t2, t3⟩
            exact .inr ⟨by omega, t1, t2, t3⟩
  rcases hmain with h | h
  · exact h
  · obtain ⟨_, _, hf⟩ := wp_iff.1 h
    exact hf.elim

/-- The hypotheses hold for `exRuns`. -/
example : exRuns.WF ∧ 0 < exRuns.n ∧
    (∀ r, r < exRuns.n → ∀ c ∈ (exRuns.col r).dropLast, c < r) :=
  ⟨exRuns_wf, by decide, by decide⟩

end Verif
