import Verif.Model.Hdagg
import Verif.Spec.Pack
import Verif.Proof.Slices
import Verif.ResLemmas
import Mathlib.Algebra.Order.BigOperators.Group.List
import Mathlib.Tactic.Abel

/-! # The packing loop of `HDAGG` -/

namespace Verif.Hdagg
open Res

variable {K : Type} [AddCommGroup K] [LinearOrder K] [IsOrderedAddMonoid K]

/-- Sum of the costs of the components `a .. b-1`. -/
def S (pc : List K) (a b : Nat) : K := (slice pc a b).sum

omit [LinearOrder K] [IsOrderedAddMonoid K] in
theorem S_self (pc : List K) (a : Nat) : S pc a a = 0 := by simp [S, slice_self]

omit [LinearOrder K] [IsOrderedAddMonoid K] in
theorem S_add {pc : List K} {a b c : Nat} (h1 : a ≤ b) (h2 : b ≤ c) :
    S pc a b + S pc b c = S pc a c := by
  rw [S, S, S, ← List.sum_append, slice_append h1 h2]

omit [LinearOrder K] [IsOrderedAddMonoid K] in
theorem S_succ {pc : List K} {a b : Nat} (h : a ≤ b) (hb : b < pc.length) :
    S pc a (b + 1) = S pc a b + pc.getD b 0 := by
  rw [S, slice_succ h (List.getElem?_eq_getElem hb), List.sum_append, S,
    List.getD_eq_getElem?_getD, List.getElem?_eq_getElem hb]
  simp

theorem S_pos {pc : List K} {a b : Nat} (h : a < b) (hb : b ≤ pc.length)
    (hp : ∀ q, q < b → 0 < pc.getD q 0) : 0 < S pc a b := by
  induction b with
  | zero => omega
  | succ b ih =>
    rw [S_succ (by omega) (by omega)]
    by_cases hab : a < b
    · exact add_pos (ih hab (by omega) (fun q hq => hp q (by omega))) (hp b (by omega))
    · have : a = b := by omega
      subst this
      rw [S_self, zero_add]
      exact hp a (by omega)

variable {rdiv : K → Nat → K} {cores cnt : Nat} {pc : List K}

/-- Invariant of the greedy loop. -/
structure PInv (rdiv : K → Nat → K) (cores cnt : Nat) (pc : List K) (s : PackSt K) : Prop where
  tid1 : 1 ≤ s.tid
  tidc : s.tid < cores ∨ (s.tid = 1 ∧ cores = 1)
  part : s.part ≤ cnt
  clen : s.chunk.length = cores + 1
  klen : s.cost.length = cores
  c0 : s.chunk.getD 0 0 = 0
  mono : ∀ t, t + 1 < s.tid → s.chunk.getD t 0 ≤ s.chunk.getD (t + 1) 0
  cur : s.chunk.getD (s.tid - 1) 0 ≤ s.part
  curLt : s.chunk.getD (s.tid - 1) 0 < cnt
  old : ∀ t, t + 1 < s.tid → s.cost.getD t 0 = S pc (s.chunk.getD t 0) (s.chunk.getD (t + 1) 0)
  now : s.cost.getD (s.tid - 1) 0 = S pc (s.chunk.getD (s.tid - 1) 0) s.part
  new : ∀ t, s.tid ≤ t → t < cores → s.cost.getD t 0 = 0
  set : s.chunk.getD (s.tid - 1) 0 < s.part → s.chunk.getD s.tid 0 = s.part
  costTo : s.costTo = S pc 0 (s.chunk.getD (s.tid - 1) 0)
  per : s.perCore = rdiv (S pc (s.chunk.getD (s.tid - 1) 0) cnt) (cores - s.tid + 1)

/-- State after the loop. -/
structure PFin (cores cnt : Nat) (pc : List K) (s : PackSt K) : Prop where
  tidc : s.tid ≤ cores
  clen : s.chunk.length = cores + 1
  klen : s.cost.length = cores
  c0 : s.chunk.getD 0 0 = 0
  mono : ∀ t, t < s.tid → s.chunk.getD t 0 ≤ s.chunk.getD (t + 1) 0
  last : s.chunk.getD s.tid 0 = cnt
  old : ∀ t, t < s.tid → s.cost.getD t 0 = S pc (s.chunk.getD t 0) (s.chunk.getD (t + 1) 0)
  new : ∀ t, s.tid ≤ t → t < cores → s.cost.getD t 0 = 0

theorem packStep_spec (debug : Bool) (hr : RDivOk rdiv) (hlen : cnt ≤ pc.length)
    (hpos : ∀ q, q < cnt → 0 < pc.getD q 0) {total : K} (ht : total = S pc 0 cnt) {s : PackSt K}
    (hI : PInv rdiv cores cnt pc s) :
    wp (packStep debug rdiv cores cnt pc total s) (Ctl.post
      (fun s' => PInv rdiv cores cnt pc s' ∧
        (cnt - s'.part) + (cores - s'.tid) < (cnt - s.part) + (cores - s.tid))
      (PFin cores cnt pc)) := by
  have t1 := hI.tid1
  have htc : s.tid ≤ cores := by rcases hI.tidc with h | h <;> omega
  unfold packStep
  by_cases hp : s.part < cnt
  · rw [if_pos hp]
    unfold rdZ
    rw [if_neg (by omega), show ((s.tid : Int) - 1).toNat = s.tid - 1 by omega,
      rd_getD 0 (by rw [hI.klen]; omega)]
    simp only [ok_bind]
    by_cases hc : s.cost.getD (s.tid - 1) 0 < s.perCore
    · rw [if_pos hc, rd_getD 0 (by omega)]
      simp only [ok_bind]
      unfold wrZ
      rw [if_neg (by omega), show ((s.tid : Int) - 1).toNat = s.tid - 1 by omega,
        wr_eq (by rw [hI.klen]; omega)]
      simp only [ok_bind]
      rw [wr_eq (by rw [hI.clen]; omega)]
      simp only [ok_bind]
      rw [if_neg (by rintro ⟨_, h⟩; omega)]
      simp only [wp_ok, Ctl.post_next]
      have hc1 : ∀ t, t < s.tid → (s.chunk.set s.tid (s.part + 1)).getD t 0 = s.chunk.getD t 0 := by
        intro t h; rw [getD_set, if_neg (by omega)]
      have hk1 : ∀ t v, t ≠ s.tid - 1 → (s.cost.set (s.tid - 1) v).getD t 0 = s.cost.getD t 0 := by
        intro t v h; rw [getD_set, if_neg (by omega)]
      refine ⟨⟨t1, hI.tidc, by dsimp only; omega, by simpa using hI.clen, by simpa using hI.klen,
        ?_, ?_, ?_, ?_, ?_, ?_, ?_, ?_, ?_, ?_⟩, by omega⟩
      · simp only; rw [hc1 _ (by omega)]; exact hI.c0
      · intro t h
        simp only at h ⊢
        rw [hc1 _ (by omega), hc1 _ (by omega)]; exact hI.mono t h
      · simp only; rw [hc1 _ (by omega)]; have := hI.cur; omega
      · simp only; rw [hc1 _ (by omega)]; exact hI.curLt
      · intro t h
        simp only at h ⊢
        rw [hc1 _ (by omega), hc1 _ (by omega), hk1 _ _ (by omega)]; exact hI.old t h
      · simp only
        rw [hc1 _ (by omega), getD_set, if_pos ⟨rfl, by rw [hI.klen]; omega⟩,
          S_succ hI.cur (by omega), hI.now]
      · intro t h h'
        simp only at h ⊢
        rw [hk1 _ _ (by omega)]; exact hI.new t h h'
      · intro _
        simp only
        rw [getD_set, if_pos ⟨rfl, by rw [hI.clen]; omega⟩]
      · simp only; rw [hc1 _ (by omega)]; exact hI.costTo
      · simp only; rw [hc1 _ (by omega)]; exact hI.per
    · rw [if_neg hc]
      -- something was assigned to this core
      have hcur : s.chunk.getD (s.tid - 1) 0 < s.part := by
        rcases Nat.lt_or_ge (s.chunk.getD (s.tid - 1) 0) s.part with h | h
        · exact h
        · exfalso
          have he : s.chunk.getD (s.tid - 1) 0 = s.part := by have := hI.cur; omega
          apply hc
          rw [hI.now, he, S_self, hI.per]
          exact hr.pos _ _ (S_pos hI.curLt hlen (fun q hq => hpos q hq)) (by omega)
      have hset := hI.set hcur
      have htid : s.tid < cores := by
        rcases hI.tidc with h | ⟨h1, h2⟩
        · exact h
        · exfalso
          apply hc
          rw [hI.now, hI.per, h1, h2, hr.one]
          simp only [Nat.sub_self]
          rw [← S_add (b := s.part) (by have := hI.cur; rw [h1] at this; simpa using this)
            (by omega : s.part ≤ cnt)]
          have := S_pos hp hlen hpos
          exact lt_add_of_pos_right _ this
      have hcost : s.costTo + s.cost.getD (s.tid - 1) 0 = S pc 0 s.part := by
        rw [hI.costTo, hI.now, S_add (Nat.zero_le _) hI.cur]
      have hrest : total - S pc 0 s.part = S pc s.part cnt := by
        rw [ht, ← S_add (Nat.zero_le s.part) (by omega : s.part ≤ cnt)]; abel
      have hsp := S_pos hp hlen hpos
      have hper : 0 < rdiv (S pc s.part cnt) (cores - s.tid) := hr.pos _ _ hsp (by omega)
      simp only [hcost, hrest]
      rw [if_neg (ne_of_gt hper)]
      by_cases hlast : s.tid + 1 = cores
      · rw [if_pos hlast, wr_eq (by rw [hI.clen]; omega)]
        simp only [ok_bind]
        unfold wrZ
        rw [if_neg (by omega), wr_eq (by rw [hI.klen]; omega)]
        simp only [ok_bind, wp_ok, Ctl.post_brk]
        have hc1 : ∀ t, t < cores → (s.chunk.set cores cnt).getD t 0 = s.chunk.getD t 0 := by
          intro t h; rw [getD_set, if_neg (by omega)]
        have hci : ((cores : Int) - 1).toNat = s.tid := by omega
        rw [hci]
        have hk1 : ∀ t v, t ≠ s.tid → (s.cost.set s.tid v).getD t 0 = s.cost.getD t 0 := by
          intro t v h; rw [getD_set, if_neg (by omega)]
        have hcl : (s.chunk.set cores cnt).getD (s.tid + 1) 0 = cnt := by
          rw [getD_set, if_pos ⟨hlast.symm, by rw [hI.clen]; omega⟩]
        refine ⟨by dsimp only; omega, by simpa using hI.clen, by simpa using hI.klen, ?_, ?_, hcl,
          ?_, ?_⟩
        · simp only; rw [hc1 _ (by omega)]; exact hI.c0
        · intro t h
          simp only at h ⊢
          by_cases h1 : t = s.tid
          · subst h1; rw [hcl, hc1 _ (by omega), hset]; omega
          · rw [hc1 _ (by omega), hc1 _ (by omega)]
            by_cases h2 : t + 1 = s.tid
            · rw [h2, hset, show t = s.tid - 1 by omega]; exact hI.cur
            · exact hI.mono t (by omega)
        · intro t h
          simp only at h ⊢
          by_cases h1 : t = s.tid
          · subst h1
            rw [hcl, hc1 _ (by omega), hset, getD_set, if_pos ⟨rfl, by rw [hI.klen]; omega⟩]
          · rw [hc1 _ (by omega), hc1 _ (by omega), hk1 _ _ h1]
            by_cases h2 : t + 1 = s.tid
            · rw [h2, hset, show t = s.tid - 1 by omega]; exact hI.now
            · exact hI.old t (by omega)
        · intro t h h'
          simp only at h
          omega
      · rw [if_neg hlast]
        simp only [wp_ok, Ctl.post_next]
        refine ⟨⟨by dsimp only; omega, .inl (by dsimp only; omega), by dsimp only; omega, hI.clen,
          hI.klen, hI.c0, ?_, ?_, ?_, ?_, ?_, ?_, ?_, ?_, ?_⟩, by omega⟩
        · intro t h
          simp only at h ⊢
          by_cases h2 : t + 1 = s.tid
          · rw [h2, hset, show t = s.tid - 1 by omega]; exact hI.cur
          · exact hI.mono t (by omega)
        · simp only [Nat.add_sub_cancel]; rw [hset]
        · simp only [Nat.add_sub_cancel]; rw [hset]; exact hp
        · intro t h
          simp only at h ⊢
          by_cases h2 : t + 1 = s.tid
          · rw [h2, hset, show t = s.tid - 1 by omega]; exact hI.now
          · exact hI.old t (by omega)
        · simp only [Nat.add_sub_cancel]
          rw [hset, S_self]; exact hI.new s.tid (le_refl _) htid
        · intro t h h'
          simp only at h
          exact hI.new t (by omega) h'
        · simp only [Nat.add_sub_cancel]; intro h; omega
        · simp only [Nat.add_sub_cancel]; rw [hset]
        · simp only [Nat.add_sub_cancel]; rw [hset]
          congr 1; omega
  · rw [if_neg hp]
    simp only [wp_ok, Ctl.post_brk]
    have hpe : s.part = cnt := by have := hI.part; omega
    have hset := hI.set (by rw [hpe]; exact hI.curLt)
    refine ⟨htc, hI.clen, hI.klen, hI.c0, ?_, by rw [hset, hpe], ?_, hI.new⟩
    · intro t h
      by_cases h2 : t + 1 = s.tid
      · rw [h2, hset, show t = s.tid - 1 by omega]; exact hI.cur
      · exact hI.mono t (by omega)
    · intro t h
      by_cases h2 : t + 1 = s.tid
      · rw [h2, hset, show t = s.tid - 1 by omega]; exact hI.now
      · exact hI.old t (by omega)

/-- Result of the packing: chunk boundaries and the cost of each core. -/
structure PackOk (cores cnt : Nat) (pc : List K) (chunk : List Nat) (cost : List K) : Prop where
  chunkOk : ChunkOk cores cnt chunk
  klen : cost.length = cores
  costs : ∀ t, t < cores → cost.getD t 0 = S pc (chunk.getD t 0) (chunk.getD (t + 1) 0)

omit [LinearOrder K] [IsOrderedAddMonoid K] in
theorem pack_tail (s : PackSt K) (hF : PFin cores cnt pc s) :
    wp (do let chunk ← forRange s.tid cores (fun i chunk => wr chunk (i + 1) cnt) s.chunk
           ok (chunk, s.cost)) (fun r => PackOk cores cnt pc r.1 r.2) := by
  rw [wp_bind]
  refine forRange_wp' (fun k (c : List Nat) => c.length = cores + 1 ∧
    (∀ t, t ≤ s.tid → c.getD t 0 = s.chunk.getD t 0) ∧
    (∀ t, s.tid ≤ t → t ≤ k → c.getD t 0 = cnt)) hF.tidc ?_ ?_ ?_
  · refine ⟨hF.clen, fun _ _ => rfl, ?_⟩
    intro t h1 h2
    have : t = s.tid := by omega
    rw [this]; exact hF.last
  · intro k c h1 h2 ⟨h3, h4, h5⟩
    rw [wr_eq (by omega)]
    simp only [wp_ok]
    refine ⟨by simpa using h3, ?_, ?_⟩
    · intro t h
      rw [getD_set, if_neg (by omega)]; exact h4 t h
    · intro t h h'
      rw [getD_set, h3]
      by_cases he : k + 1 = t
      · rw [if_pos ⟨he, by omega⟩]
      · rw [if_neg (by omega)]; exact h5 t h (by omega)
  · rintro c ⟨h3, h4, h5⟩
    simp only [wp_ok]
    have hg : ∀ t, t ≤ cores → c[t]? = some (c.getD t 0) := by
      intro t h
      rw [List.getD_eq_getElem?_getD, List.getElem?_eq_getElem (by omega)]; rfl
    have htc := hF.tidc
    refine ⟨⟨h3, ?_, ?_, ?_⟩, hF.klen, ?_⟩
    · rw [hg 0 (by omega), h4 0 (by omega), hF.c0]
    · rw [hg cores (le_refl _), h5 cores htc (le_refl _)]
    · intro t h a b ha hb
      rw [hg t (by omega), Option.some.injEq] at ha
      rw [hg (t + 1) (by omega), Option.some.injEq] at hb
      rw [← ha, ← hb]
      rcases Nat.lt_or_ge t s.tid with h6 | h6
      · rw [h4 t (by omega), h4 (t + 1) (by omega)]; exact hF.mono t h6
      · rw [h5 t h6 (by omega), h5 (t + 1) (by omega) (by omega)]
    · intro t h
      rcases Nat.lt_or_ge t s.tid with h6 | h6
      · rw [h4 t (by omega), h4 (t + 1) (by omega)]; exact hF.old t h6
      · rw [h5 t h6 (by omega), h5 (t + 1) (by omega) (by omega), S_self]; exact hF.new t h6 h

theorem pack_spec (debug : Bool) (hr : RDivOk rdiv) (hcores : 1 ≤ cores) (hlen : cnt ≤ pc.length)
    (hpos : ∀ q, q < cnt → 0 < pc.getD q 0) {total : K} (ht : total = S pc 0 cnt)
    {chunk : List Nat} (hcl : chunk.length = cores + 1) (h0 : chunk.getD 0 0 = 0) :
    wp (pack debug rdiv cores cnt pc total chunk) (fun r => PackOk cores cnt pc r.1 r.2) := by
  unfold pack
  by_cases hc : cnt < cores
  · rw [if_pos hc]
    rw [wp_bind]
    refine forRange_wp' (fun k (r : List Nat × List K) => r.1.length = cores + 1 ∧
      r.2.length = cores ∧ (∀ t, t ≤ k → r.1.getD t 0 = t) ∧
      (∀ t, t < k → r.2.getD t 0 = pc.getD t 0) ∧ (∀ t, k ≤ t → t < cores → r.2.getD t 0 = 0))
      (Nat.zero_le _) ?_ ?_ ?_
    · refine ⟨hcl, by simp, ?_, by intro t h; omega, ?_⟩
      · intro t h
        have : t = 0 := by omega
        rw [this]; exact h0
      · intro t _ h; exact getD_replicate _ _ _ _ h
    · rintro k ⟨c, w⟩ _ hk ⟨h1, h2, h3, h4, h5⟩
      simp only at h1 h2 h3 h4 h5
      simp only
      rw [wr_eq (by omega)]
      simp only [ok_bind]
      rw [rd_getD 0 (by omega)]
      simp only [ok_bind]
      rw [wr_eq (by omega)]
      simp only [ok_bind, wp_ok]
      refine ⟨by simpa using h1, by simpa using h2, ?_, ?_, ?_⟩
      · intro t h
        rw [getD_set, h1]
        by_cases he : k + 1 = t
        · rw [if_pos ⟨he, by omega⟩, he]
        · rw [if_neg (by omega)]; exact h3 t (by omega)
      · intro t h
        rw [getD_set, h2]
        by_cases he : k = t
        · rw [if_pos ⟨he, by omega⟩, he]
        · rw [if_neg (by omega)]; exact h4 t (by omega)
      · intro t h h'
        rw [getD_set, if_neg (by omega)]; exact h5 t (by omega) h'
    · rintro ⟨c, w⟩ ⟨h1, h2, h3, h4, h5⟩
      simp only at h1 h2 h3 h4 h5
      simp only [ok_bind]
      refine pack_tail (pc := pc) ⟨cnt, cnt, c, w, 0, 0⟩ ?_
      refine ⟨by dsimp only; omega, h1, h2, h3 0 (by omega), ?_, h3 cnt (le_refl _), ?_, h5⟩
      · intro t h
        simp only at h ⊢
        rw [h3 t (by omega), h3 (t + 1) (by omega)]; omega
      · intro t h
        simp only at h ⊢
        rw [h3 t (by omega), h3 (t + 1) (by omega), h4 t h, S_succ (le_refl _) (by omega), S_self,
          zero_add]
  · rw [if_neg hc]
    rw [wp_bind]
    refine wp_mono (Q := PFin cores cnt pc) ?_ (fun s hs => pack_tail s hs)
    refine loopF_wp (PInv rdiv cores cnt pc) (fun s => (cnt - s.part) + (cores - s.tid))
      (fun s hI => packStep_spec debug hr hlen hpos ht hI) _ _ (by dsimp only; omega) ?_
    refine ⟨by simp, ?_, by simp, hcl, by simp, h0, ?_, ?_, ?_, ?_, ?_, ?_, ?_, ?_, ?_⟩
    · rcases Nat.lt_or_ge 1 cores with h | h
      · exact .inl h
      · exact .inr ⟨rfl, by omega⟩
    · intro t h; simp only at h; omega
    · simp only [Nat.sub_self]; rw [h0]
    · simp only [Nat.sub_self]; rw [h0]; exact by omega
    · intro t h; simp only at h; omega
    · simp only [Nat.sub_self]; rw [h0, S_self]; exact getD_replicate _ _ _ _ (by omega)
    · intro t _ h; exact getD_replicate _ _ _ _ h
    · simp only [Nat.sub_self]; rw [h0]; intro h; omega
    · simp only [Nat.sub_self]; rw [h0, S_self]
    · simp only [Nat.sub_self]; rw [h0, ht]; congr 1; omega

end Verif.Hdagg
