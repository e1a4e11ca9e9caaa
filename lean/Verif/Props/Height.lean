import Verif.ResLemmas
import Verif.Model.LbcUtils
import Verif.Spec.Cuts

/-!
# C35: height partitioning

`height_partitioning_DAG_trng` (src/lbc_utils.cpp 189-260).
-/

namespace Verif.Lbc
open Res

/-! ### The windows contain every level once -/

theorem _root_.Verif.LevelCuts.mono {L cnt : Nat} {bound : List Int} (h : LevelCuts L cnt bound)
    {a b : Nat} (hab : a ≤ b) (hb : b ≤ cnt) : bound.getD a 0 ≤ bound.getD b 0 := by
  induction b with
  | zero => obtain rfl : a = 0 := by omega
            omega
  | succ b ih =>
    rcases Nat.lt_or_ge a (b + 1) with h' | h'
    · have h1 := ih (by omega) (by omega)
      have h2 := h.inc b (by omega)
      omega
    · obtain rfl : a = b + 1 := by omega
      omega

/-- Cuts put every level into exactly one window. -/
theorem _root_.Verif.LevelCuts.cover {L cnt : Nat} {bound : List Int} (h : LevelCuts L cnt bound)
    {l : Nat} (hl : l < L) :
    ∃! w, w < cnt ∧ bound.getD w 0 ≤ l ∧ (l : Int) < bound.getD (w + 1) 0 := by
  have key : ∀ k, k ≤ cnt → (l : Int) < bound.getD k 0 →
      ∃ w, w < k ∧ bound.getD w 0 ≤ l ∧ (l : Int) < bound.getD (w + 1) 0 := by
    intro k
    induction k with
    | zero => intro _ h0; have := h.first; omega
    | succ k ih =>
      intro hk h1
      rcases Int.lt_or_le (l : Int) (bound.getD k 0) with h2 | h2
      · obtain ⟨w, h3, h4⟩ := ih (by omega) h2
        exact ⟨w, by omega, h4⟩
      · exact ⟨k, by omega, h2, h1⟩
  have hlast := h.last
  obtain ⟨w, h1, h2, h3⟩ := key cnt (by omega) (by omega)
  refine ⟨w, ⟨h1, h2, h3⟩, ?_⟩
  rintro w' ⟨h4, h5, h6⟩
  rcases Nat.lt_trichotomy w' w with h7 | h7 | h7
  · have := h.mono (a := w' + 1) (b := w) (by omega) (by omega); omega
  · exact h7
  · have := h.mono (a := w + 1) (b := w') (by omega) (by omega); omega

/-! ### The parts of the function -/

theorem rdZ_cast {α : Type} (l : List α) (i : Nat) : rdZ l (i : Int) = rd l i := by
  simp [rdZ]

/-- The number of nodes of a level. -/
def levelSize (ptr : List Nat) (l : Nat) : Int := (ptr.getD (l + 1) 0 : Int) - ptr.getD l 0

theorem lastLevel_spec {L : Nat} {ptr : List Nat} (hlen : L < ptr.length) :
    wp (lastLevel L ptr) (fun l => l ≤ L ∧ (0 < l → levelSize ptr (l - 1) ≠ 1)) := by
  unfold lastLevel
  rw [wp_bind]
  refine wp_mono (forRangeB_wp (fun _ _ => True)
    (fun l => l ≤ L ∧ (0 < l → levelSize ptr (l - 1) ≠ 1)) (by omega) trivial ?_) ?_
  · intro k s _ hk _
    rw [rd_getD 0 (by omega : L - 1 - k + 1 < ptr.length), rd_getD 0 (by omega : L - 1 - k < ptr.length)]
    simp only [ok_bind]
    split
    · simp [Ctl.post]
    · rename_i h
      simp only [wp_ok, Ctl.post]
      exact ⟨by omega, fun _ => h⟩
  · intro r hr
    cases r with
    | next _ => simp
    | brk l => simpa [Ctl.post] using hr

theorem levelSizes_spec {L : Nat} {ptr : List Nat} (debug : Bool) (hlen : L < ptr.length)
    (hmono : ∀ i, i < L → ptr.getD i 0 ≤ ptr.getD (i + 1) 0) :
    wp (levelSizes debug L ptr) (fun a => a.length = L ∧ ∀ l, l < L → a.getD l 0 = levelSize ptr l) := by
  unfold levelSizes
  refine forRange_wp' (fun k (a : List Int) => a.length = k ∧ ∀ l, l < k → a.getD l 0 = levelSize ptr l)
    (by omega) ⟨rfl, by intro l hl; omega⟩ ?_ (fun _ h => h)
  rintro i a _ hi ⟨ha, hag⟩
  rw [rd_getD 0 (by omega : i + 1 < ptr.length), rd_getD 0 (by omega : i < ptr.length)]
  simp only [ok_bind]
  have := hmono i hi
  rw [if_neg (by rintro ⟨_, h⟩; omega), wp_ok]
  refine ⟨by simp [ha], ?_⟩
  intro l hl
  rw [List.getD_eq_getElem?_getD]
  rcases Nat.lt_or_ge l i with h1 | h1
  · rw [List.getElem?_append_left (by omega), ← List.getD_eq_getElem?_getD]
    exact hag l h1
  · obtain rfl : l = i := by omega
    rw [List.getElem?_append_right (by omega), ha]
    simp [levelSize]

theorem partSize_pos (threads size : Int) (ht : 1 ≤ threads) : 1 ≤ partSize threads size := by
  unfold partSize
  split
  · omega
  · split <;> omega

/-- Invariant of the loop. -/
structure HInv (L : Nat) (divRate : Int) (s : HSt) : Prop where
  len : s.bound.length = L + 1
  first : s.bound.getD 0 0 = 0
  inc : ∀ w, w < s.cnt → s.bound.getD w 0 < s.bound.getD (w + 1) 0
  inner : ∀ w, w ≤ s.cnt → s.bound.getD w 0 < L
  cnt : (s.cnt : Int) ≤ s.bound.getD s.cnt 0
  tmp : s.bound.getD s.cnt 0 < s.tmp
  slen : s.sizes.length = s.cnt
  spos : ∀ x ∈ s.sizes, 1 ≤ x

/-- What is known of the last boundary and of the first one. -/
structure HTail (ptr : List Nat) (last : Nat) (threads minDist : Int) (s : HSt) : Prop where
  top : s.cnt = 0 ∨ s.bound.getD s.cnt 0 < last ∨ (s.cnt = 1 ∧ s.bound.getD 1 0 = minDist ∧
    s.sizes = [partSize threads (levelSize ptr (minDist - 1).toNat / 2)])
  one : 1 ≤ minDist → 1 ≤ s.cnt ∧ s.bound.getD 1 0 = minDist

theorem heightStep_spec {L : Nat} {threads divRate : Int} {accu : List Int} {s : HSt} {last : Nat}
    {ptr : List Nat} {minDist : Int} (h : HInv L divRate s) (hT : HTail ptr last threads minDist s)
    (ha : accu.length = L) (hlast : last ≤ L) (hc : s.tmp < last) (hd : 1 ≤ divRate)
    (ht : 1 ≤ threads) :
    wp (heightStep threads divRate accu s) (fun s' => HInv L divRate s' ∧
      HTail ptr last threads minDist s' ∧ s'.tmp = s.tmp + divRate) := by
  have h0 := h.cnt
  have h1 := h.tmp
  have h2 := h.len
  obtain ⟨t, htmp⟩ : ∃ t : Nat, s.tmp = t := ⟨s.tmp.toNat, by omega⟩
  unfold heightStep
  rw [show s.tmp - 1 = ((t - 1 : Nat) : Int) by omega, rdZ_cast, rd_eq (by omega : t - 1 < accu.length)]
  simp only [ok_bind]
  rw [wr_eq (by omega)]
  simp only [ok_bind, wp_ok]
  have htail : HTail ptr last threads minDist
      ⟨s.bound.set (s.cnt + 1) s.tmp, s.sizes ++ [partSize threads accu[t - 1]], s.cnt + 1,
        s.tmp + divRate⟩ := by
    refine ⟨.inr (.inl ?_), ?_⟩
    · dsimp only
      rw [getD_set, if_pos (by omega)]
      exact hc
    · intro h3
      obtain ⟨h4, h5⟩ := hT.one h3
      refine ⟨by dsimp only; omega, ?_⟩
      dsimp only
      rw [getD_set, if_neg (by omega)]
      exact h5
  refine ⟨⟨by simp [h2], ?_, ?_, ?_, ?_, ?_, by simp [h.slen], ?_⟩, htail, trivial⟩
  · rw [getD_set, if_neg (by omega)]; exact h.first
  · intro w hw
    dsimp only at hw ⊢
    rw [getD_set, getD_set, if_neg (by omega)]
    by_cases hw' : w = s.cnt
    · subst hw'
      rw [if_pos (by omega)]
      omega
    · rw [if_neg (by omega)]
      exact h.inc w (by omega)
  · intro w hw
    dsimp only at hw ⊢
    rw [getD_set]
    by_cases hw' : w = s.cnt + 1
    · rw [if_pos (by omega)]; omega
    · rw [if_neg (by omega)]; exact h.inner w (by omega)
  · dsimp only
    rw [getD_set, if_pos (by omega)]
    omega
  · dsimp only
    rw [getD_set, if_pos (by omega)]
    omega
  · intro x hx
    rcases List.mem_append.1 hx with hx | hx
    · exact h.spos x hx
    · simp only [List.mem_singleton] at hx
      rw [hx]
      exact partSize_pos _ _ ht

/-- The windows, with what is needed to count the parts: the last window has size 1; if there are
more windows, then a level from the last boundary on has not exactly one node, or there are two
windows and the first one gets at most half as many parts as its last level has nodes. -/
structure HPost (L : Nat) (ptr : List Nat) (threads minDist : Int) (cnt : Nat) (bound : List Int)
    (sizes : List Nat) : Prop where
  cuts : LevelCuts L cnt bound
  len : bound.length = L + 1
  top : bound.getD cnt 0 ≤ L + 1
  slen : sizes.length = cnt
  spos : ∀ x ∈ sizes, 1 ≤ x
  slast : sizes.getD (cnt - 1) 0 = 1
  tail : cnt = 1 ∨ (∃ l : Nat, bound.getD (cnt - 1) 0 ≤ l ∧ l < L ∧ levelSize ptr l ≠ 1) ∨
    (cnt = 2 ∧ bound.getD 1 0 = minDist ∧
      sizes = [partSize threads (levelSize ptr (minDist - 1).toNat / 2), 1])
  one : 1 ≤ minDist → min minDist L ≤ bound.getD 1 0

theorem heightPartition_wp {L : Nat} {ptr : List Nat} (debug : Bool) (innerParts : Int)
    {minDist divRate : Int} {fuel : Nat} (hL : 0 < L) (hlen : L < ptr.length)
    (hmono : ∀ i, i < L → ptr.getD i 0 ≤ ptr.getD (i + 1) 0)
    (hpar : (L : Int) ≤ minDist ∨ (1 ≤ divRate ∧ 1 ≤ minDist + divRate)) (hfuel : L ≤ fuel) :
    wp (heightPartition fuel debug L ptr innerParts minDist divRate) (fun r =>
      HPost L ptr (if innerParts > 1 then innerParts else 6) minDist r.1 r.2.1 r.2.2) := by
  unfold heightPartition
  rw [if_neg (by omega), Int.toNat_natCast, wp_bind]
  refine wp_mono (lastLevel_spec hlen) ?_
  rintro last ⟨hlast, hlast1⟩
  dsimp only
  split
  · rw [wr_eq (by simp)]
    simp only [ok_bind]
    rw [wr_eq (by simp; omega)]
    simp only [ok_bind, wp_ok]
    have e0 : ((((List.replicate (L + 1) (0 : Int)).set 0 0).set 1 (L : Int)).getD 0 0) = 0 := by
      rw [getD_set, getD_set]; simp
    have e1 : ((((List.replicate (L + 1) (0 : Int)).set 0 0).set 1 (L : Int)).getD 1 0) = L := by
      rw [getD_set, if_pos (by simp; omega)]
    refine ⟨⟨by omega, by simp; omega, e0, ?_, ?_, by rw [e1]⟩, by simp, by rw [e1]; omega,
      rfl, by simp, rfl, .inl rfl, fun _ => by rw [e1]; omega⟩
    · intro w hw
      obtain rfl : w = 0 := by omega
      rw [e0, e1]; omega
    · intro w hw
      obtain rfl : w = 0 := by omega
      rw [e0]; omega
  · rename_i hmd
    obtain ⟨hd1, hd2⟩ : 1 ≤ divRate ∧ 1 ≤ minDist + divRate := by
      rcases hpar with h | h
      · exact absurd h hmd
      · exact h
    rw [wp_bind]
    refine wp_mono (levelSizes_spec debug hlen hmono) ?_
    rintro accu ⟨haccu, hag⟩
    generalize hth : (if innerParts > 1 then innerParts else 6) = threads
    have ht : 1 ≤ threads := by split at hth <;> omega
    rw [wr_eq (by simp)]
    simp only [ok_bind]
    rw [wp_bind]
    have hfirst : wp ((if minDist > 0 ∧ minDist < L then do
        let bound ← wr ((List.replicate (L + 1) (0 : Int)).set 0 0) 1 minDist
        let a ← rdZ accu (minDist - 1)
        ok ⟨bound, [partSize threads (a / 2)], 1, minDist⟩
      else ok ⟨(List.replicate (L + 1) (0 : Int)).set 0 0, [], 0, minDist⟩ : Res HSt))
        (fun s => HInv L divRate { s with tmp := s.tmp + divRate } ∧
          HTail ptr last threads minDist { s with tmp := s.tmp + divRate }) := by
      split
      · rename_i hh
        obtain ⟨m, hm⟩ : ∃ m : Nat, minDist = m := ⟨minDist.toNat, by omega⟩
        subst hm
        rw [wr_eq (by simp; omega)]
        simp only [ok_bind]
        rw [show ((m : Int) - 1) = ((m - 1 : Nat) : Int) by omega, rdZ_cast,
          rd_eq (by omega : m - 1 < accu.length)]
        simp only [ok_bind, wp_ok]
        have e0 : ((((List.replicate (L + 1) (0 : Int)).set 0 0).set 1 (m : Int)).getD 0 0) = 0 := by
          rw [getD_set, getD_set]; simp
        have e1 : ((((List.replicate (L + 1) (0 : Int)).set 0 0).set 1 (m : Int)).getD 1 0) = m := by
          rw [getD_set, if_pos (by simp; omega)]
        refine ⟨⟨by simp, e0, ?_, ?_, ?_, ?_, rfl, ?_⟩, .inr (.inr ⟨rfl, e1, ?_⟩), fun _ => ⟨Nat.le_refl _, e1⟩⟩
        · intro w hw
          dsimp only at hw ⊢
          obtain rfl : w = 0 := by omega
          rw [e0, e1]; omega
        · intro w hw
          dsimp only at hw ⊢
          rcases (by omega : w = 0 ∨ w = 1) with rfl | rfl
          · rw [e0]; omega
          · rw [e1]; omega
        · dsimp only; rw [e1]; omega
        · dsimp only; rw [e1]; omega
        · intro x hx
          simp only [List.mem_singleton] at hx
          rw [hx]; exact partSize_pos _ _ ht
        · dsimp only
          rw [show ((m : Int) - 1).toNat = m - 1 by omega, ← hag (m - 1) (by omega)]
          simp [List.getD_eq_getElem?_getD, (by omega : m - 1 < accu.length)]
      · rename_i hh
        simp only [wp_ok]
        have e0 : (((List.replicate (L + 1) (0 : Int)).set 0 0).getD 0 0) = 0 := by
          rw [getD_set]; simp
        refine ⟨⟨by simp, e0, by intro w hw; dsimp only at hw; omega, ?_, ?_, ?_, rfl, by simp⟩, .inl rfl,
          fun h => absurd ⟨by omega, by omega⟩ hh⟩
        · intro w hw
          dsimp only at hw ⊢
          obtain rfl : w = 0 := by omega
          rw [e0]; omega
        · dsimp only; rw [e0]; omega
        · dsimp only; rw [e0]; omega
    refine wp_mono hfirst ?_
    rintro s hs
    rw [wp_bind]
    refine whileF_wp (fun s => HInv L divRate s ∧ HTail ptr last threads minDist s) (fun s => ((L : Int) - s.tmp).toNat) ?_ fuel _ ?_ hs
    · rintro s ⟨hs, hsT⟩
      simp only [wp_ok]
      by_cases hc : s.tmp < (last : Int)
      · simp only [hc, decide_true, if_true]
        refine ⟨by omega, wp_mono (heightStep_spec hs hsT haccu hlast hc hd1 ht) ?_⟩
        rintro s' ⟨h1, h1', h2⟩
        refine ⟨⟨h1, h1'⟩, ?_⟩
        rw [h2]; omega
      · simp only [hc, decide_false, Bool.false_eq_true, if_false]
        have h0 := hs.cnt
        have h1 := hs.inner s.cnt (Nat.le_refl _)
        have h2 := hs.len
        rw [wr_eq (by omega)]
        simp only [ok_bind, wp_ok]
        have e : ∀ w, (s.bound.set (s.cnt + 1) ((L : Int) + 1)).getD w 0
            = if w = s.cnt + 1 then (L : Int) + 1 else s.bound.getD w 0 := by
          intro w
          rw [getD_set]
          by_cases hw : w = s.cnt + 1
          · rw [if_pos (by omega), if_pos hw]
          · rw [if_neg (by omega), if_neg hw]
        refine ⟨⟨by omega, by simp [h2]; omega, ?_, ?_, ?_, ?_⟩, by simp [h2], ?_, by simp [hs.slen], ?_, ?_, ?_, ?_⟩
        · rw [e, if_neg (by omega)]; exact hs.first
        · intro w hw
          rw [e, e, if_neg (by omega)]
          by_cases hw' : w = s.cnt
          · subst hw'; rw [if_pos rfl]; omega
          · rw [if_neg (by omega)]; exact hs.inc w (by omega)
        · intro w hw
          rw [e, if_neg (by omega)]
          exact hs.inner w (by omega)
        · rw [e, if_pos rfl]; omega
        · rw [e, if_pos rfl]
        · intro x hx
          rcases List.mem_append.1 hx with hx | hx
          · exact hs.spos x hx
          · simp at hx; omega
        · rw [List.getD_eq_getElem?_getD, List.getElem?_append_right (by rw [hs.slen]; omega), hs.slen]
          simp
        · rw [Nat.add_sub_cancel, e, if_neg (by omega)]
          rcases hsT.top with h3 | h3 | ⟨h3, h4, h5⟩
          · exact .inl (by omega)
          · refine .inr (.inl ⟨last - 1, by omega, by omega, hlast1 (by omega)⟩)
          · refine .inr (.inr ⟨by omega, ?_, by rw [h5]; rfl⟩)
            rw [e, if_neg (by omega)]
            exact h4
        · intro h3
          obtain ⟨h4, h5⟩ := hsT.one h3
          rw [e]
          by_cases h6 : 1 = s.cnt + 1
          · rw [if_pos h6]; omega
          · rw [if_neg h6, h5]; omega
    · have h0 := hs.1.tmp
      have h1 := hs.1.cnt
      dsimp only at h0 h1 ⊢
      omega

/-- **C35.**  For every level set with at least one level and non-decreasing pointers, and every
pair of tuning parameters such that the distance covers all levels or both steps are positive,
`height_partitioning_DAG_trng` terminates without an out-of-bounds access, and its boundaries cut
the levels into non-empty windows: every level belongs to exactly one window (`LevelCuts.cover`).
The number of windows is at most the number of levels, and every window has a number of parts that
is at least 1. -/
theorem C35_height_partition {L : Nat} {ptr : List Nat} (debug : Bool) (innerParts : Int)
    {minDist divRate : Int} {fuel : Nat} (hL : 0 < L) (hlen : L < ptr.length)
    (hmono : ∀ i, i < L → ptr.getD i 0 ≤ ptr.getD (i + 1) 0)
    (hpar : (L : Int) ≤ minDist ∨ (1 ≤ divRate ∧ 1 ≤ minDist + divRate)) (hfuel : L ≤ fuel) :
    ∃ cnt bound sizes,
      heightPartition fuel debug L ptr innerParts minDist divRate = ok (cnt, bound, sizes) ∧
      LevelCuts L cnt bound ∧ bound.length = L + 1 ∧ bound.getD cnt 0 ≤ L + 1 ∧
      sizes.length = cnt ∧ ∀ x ∈ sizes, 1 ≤ x := by

  obtain ⟨⟨cnt, bound, sizes⟩, h1, h2⟩ := wp_iff.1 (heightPartition_wp debug innerParts hL hlen hmono
    hpar hfuel)
  exact ⟨cnt, bound, sizes, h1, h2.cuts, h2.len, h2.top, h2.slen, h2.spos⟩

/-- Levels of the sizes 4, 3, 2, 2, 1, 1, the tuning parameters 2 and 1: the windows are the levels
0-1, 2, 3-5. -/
example : heightPartition 6 true 6 [0, 4, 7, 9, 11, 12, 13] 2 2 1
    = ok (3, [0, 2, 3, 7, 0, 0, 0], [1, 2, 1]) := by decide +kernel

/-- **C35, violation without a level**: an empty level set is written out of bounds. -/
theorem C35_no_level_ub : heightPartition 0 false 0 [0] 4 2 1 = Res.ub := by decide +kernel

/-- **C35, violation with both parameters zero** (the default of `lbc_config` for a shallow graph
is 0 for both): level -1 is read. -/
theorem C35_zero_parameters_ub : heightPartition 9 false 3 [0, 2, 4, 6] 4 0 0 = Res.ub := by
  decide +kernel

/-- **C35, violation with step zero**: the loop writes the same boundary again and again until it
leaves `partition2Level`. -/
theorem C35_zero_step_ub : heightPartition 9 false 4 [0, 2, 4, 6, 8] 4 2 0 = Res.ub := by
  decide +kernel

end Verif.Lbc
