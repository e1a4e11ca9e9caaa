import Verif.Model.LbcTree
import Verif.Props.Height
import Verif.Proof.TreeUtil

/-! # The windows of LBC for forests -/

namespace Verif.LbcTree
open Res Lbc

theorem cut_wp {L : Nat} (hL : 0 < L) {accu : List Int} (ha : accu.length = L) (parts : Int) :
    wp (loopF (L + 1) (cutStep L accu parts) 0) (fun cut => cut ≤ L ∧
      ∀ i, i < cut → accu.getD (L - 1 - i) 0 ≤ parts) := by
  refine loopF_wp (fun cut => cut < L ∧ ∀ i, i < cut → accu.getD (L - 1 - i) 0 ≤ parts)
    (fun cut => L - cut) ?_ (L + 1) 0 (by omega) ⟨hL, by intro i hi; omega⟩
  rintro cut ⟨hc, hall⟩
  unfold cutStep
  have hidx : (L : Int) - cut - 1 = ((L - 1 - cut : Nat) : Int) := by omega
  rw [hidx, Verif.Tree.rdZ_nat, rd_getD 0 (by omega), ok_bind]
  split
  · rename_i h
    have hall' : ∀ i, i < cut + 1 → accu.getD (L - 1 - i) 0 ≤ parts := by
      intro i hi
      rcases Nat.lt_or_ge i cut with h1 | h1
      · exact hall i h1
      · obtain rfl : i = cut := by omega
        exact h.1
    split
    · rw [wp_ok, Ctl.post_brk]
      exact ⟨by omega, hall'⟩
    · rw [wp_ok, Ctl.post_next]
      exact ⟨⟨by omega, hall'⟩, by omega⟩
  · rw [wp_ok, Ctl.post_brk]
    exact ⟨by omega, hall⟩

/-- The state after some rounds. -/
structure HInv (L : Nat) (minDist inner : Int) (s : HSt) : Prop where
  len : s.bound.length = L + 1
  first : s.bound.getD 0 0 = 0
  inc : ∀ w, w < s.cnt → s.bound.getD w 0 < s.bound.getD (w + 1) 0
  lt : s.bound.getD s.cnt 0 < L
  cnt : (s.cnt : Int) ≤ s.bound.getD s.cnt 0
  dist : 0 < s.cnt → s.bound.getD s.cnt 0 ≤ L - minDist
  slen : s.cnt ≤ s.sizes.length
  spos : ∀ x ∈ s.sizes, 1 < x ∧ (x : Int) ≤ inner
  parts : s.parts ≤ inner
  cnt0 : inner ≤ 1 → s.cnt = 0

/-- The windows. -/
structure HOut (L : Nat) (minDist inner : Int) (cnt : Nat) (bound : List Int) (sizes : List Nat) : Prop where
  cuts : LevelCuts L cnt bound
  len : bound.length = L + 1
  top : bound.getD cnt 0 ≤ L + 1
  slen : cnt ≤ sizes.length
  spos : ∀ x ∈ sizes, 1 ≤ x ∧ (x : Int) ≤ max 1 inner
  dist : 1 < cnt → bound.getD (cnt - 1) 0 ≤ L - minDist
  small : L ≤ 2 → cnt = 1 ∧ sizes = [1]
  one : inner ≤ 1 → cnt = 1
  over : 2 < L → bound.getD cnt 0 = (L : Int) + 1
  flat : L ≤ 2 → bound.getD 1 0 = L

theorem round_wp {L : Nat} (hL : 0 < L) {accu : List Int} (ha : accu.length = L) {minDist divRate inner : Int}
    (hd : 1 < divRate) {s : HSt} (h : HInv L minDist inner s) (hp : s.parts > 1) :
    wp (roundStep L accu minDist divRate s) (fun s' => HInv L minDist inner s' ∧ s'.parts.toNat < s.parts.toNat) := by
  obtain ⟨h1, h2, h3, h4, h5, h6, h7, h8, h9, h10⟩ := h
  unfold roundStep
  rw [wp_bind]
  refine wp_mono (cut_wp hL ha s.parts) ?_
  rintro cut ⟨hcut, -⟩
  dsimp only
  rw [rd_getD 0 (by omega), ok_bind]
  have hdiv : s.parts.tdiv divRate < s.parts ∧ 0 ≤ s.parts.tdiv divRate := by
    rw [Int.tdiv_eq_ediv_of_nonneg (by omega)]
    exact ⟨Int.ediv_lt_self_of_pos_of_ne_one (by omega) (by omega), Int.ediv_nonneg (by omega) (by omega)⟩
  have hsz : ∀ x ∈ s.sizes ++ [s.parts.toNat], 1 < x ∧ (x : Int) ≤ inner := by
    intro x hx
    rcases List.mem_append.1 hx with hx | hx
    · exact h8 x hx
    · obtain rfl : x = s.parts.toNat := by simpa using hx
      omega
  split
  · rename_i hc
    rw [wr_eq (by omega), ok_bind, ok_bind, wp_ok]
    have hg : ∀ w, (s.bound.set (s.cnt + 1) ((L : Int) - cut - minDist)).getD w 0
        = if w = s.cnt + 1 then (L : Int) - cut - minDist else s.bound.getD w 0 := by
      intro w
      rw [getD_set]
      by_cases hw : w = s.cnt + 1
      · rw [if_pos ⟨hw.symm, by omega⟩, if_pos hw]
      · rw [if_neg (by omega), if_neg hw]
    refine ⟨⟨by simpa using h1, ?_, ?_, ?_, ?_, ?_, ?_, hsz, by dsimp only; omega, by omega⟩, by dsimp only; omega⟩
    · dsimp only; rw [hg, if_neg (by omega)]; exact h2
    · intro w hw
      dsimp only at hw ⊢
      rw [hg, hg, if_neg (by omega)]
      split
      · rename_i he
        obtain rfl : w = s.cnt := by omega
        omega
      · exact h3 w (by omega)
    · dsimp only; rw [hg, if_pos rfl]; omega
    · dsimp only; rw [hg, if_pos rfl]; omega
    · intro _; dsimp only; rw [hg, if_pos rfl]; omega
    · simp; omega
  · rw [ok_bind, wp_ok]
    refine ⟨⟨h1, h2, h3, h4, h5, h6, ?_, hsz, by dsimp only; omega, by omega⟩, by dsimp only; omega⟩
    simp; omega

theorem heightPartition_wp {L : Nat} {ptr : List Nat} (debug : Bool) (inner minDist divRate : Int) (hL : 0 < L)
    (hlen : L < ptr.length) (hmono : ∀ i, i < L → ptr.getD i 0 ≤ ptr.getD (i + 1) 0) :
    wp (heightPartition debug L ptr inner minDist divRate) (fun r => HOut L minDist inner r.1 r.2.1 r.2.2) := by
  unfold heightPartition
  dsimp only
  have hdr : 1 < (if divRate ≤ 1 then 10 else divRate) := by split <;> omega
  generalize (if divRate ≤ 1 then 10 else divRate) = dr at hdr ⊢
  split
  · rename_i h2
    rw [wr_eq (by simp), ok_bind, wr_eq (by simp; omega), ok_bind, wp_ok]
    have e : ∀ w, (((List.replicate (L + 1) (0 : Int)).set 0 0).set 1 (L : Int)).getD w 0
        = if w = 1 then (L : Int) else 0 := by
      intro w
      rw [getD_set]
      by_cases hw : w = 1
      · rw [if_pos ⟨hw.symm, by simp; omega⟩, if_pos hw]
      · rw [if_neg (by omega), if_neg hw, getD_set]
        split
        · rfl
        · rw [List.getD_eq_getElem?_getD, List.getElem?_replicate]
          split <;> rfl
    refine ⟨⟨by omega, by simp; omega, by rw [e]; rfl, ?_, ?_, ?_⟩, by simp, ?_, by simp, ?_, by simp,
      fun _ => ⟨rfl, rfl⟩, fun _ => rfl, by omega,
      fun _ => by rw [e, if_pos rfl]⟩
    · intro w hw
      obtain rfl : w = 0 := by dsimp only at hw; omega
      rw [e, e, if_neg (by omega), if_pos (by omega)]; omega
    · intro w hw
      obtain rfl : w = 0 := by dsimp only at hw; omega
      rw [e, if_neg (by omega)]; omega
    · rw [e, if_pos rfl]
    · rw [e, if_pos rfl]; omega
    · intro x hx
      obtain rfl : x = 1 := by simpa using hx
      omega
  · rename_i h2
    rw [wp_bind]
    refine wp_mono (levelSizes_spec debug hlen hmono) ?_
    rintro accu ⟨ha, -⟩
    rw [wr_eq (by simp), ok_bind, wp_bind]
    have hb0 : ∀ w, ((List.replicate (L + 1) (0 : Int)).set 0 0).getD w 0 = 0 := by
      intro w
      rw [getD_set]
      split
      · rfl
      · rw [List.getD_eq_getElem?_getD, List.getElem?_replicate]
        split <;> rfl
    refine wp_mono (whileF_wp (Q := HInv L minDist inner) (HInv L minDist inner) (fun s => s.parts.toNat) ?_ _ _
      (by dsimp only; omega) ?_) ?_
    · intro s hs
      rw [wp_ok]
      by_cases hp : s.parts > 1
      · rw [if_pos (by simpa using hp)]
        exact ⟨by omega, round_wp hL ha hdr hs hp⟩
      · rw [if_neg (by simpa using hp)]
        exact hs
    · refine ⟨by simp, hb0 0, by intro w hw; dsimp only at hw; omega, ?_, ?_, by intro h; dsimp only at h; omega,
        by simp, by simp, by dsimp only; omega, fun _ => rfl⟩
      · dsimp only; rw [hb0]; omega
      · dsimp only; rw [hb0]; omega
    · rintro s ⟨h1, h3, h4, h5, h6, h7, h8, h9, h10, h11⟩
      rw [wr_eq (by omega), ok_bind, wp_ok]
      have hg : ∀ w, (s.bound.set (s.cnt + 1) ((L : Int) + 1)).getD w 0
          = if w = s.cnt + 1 then (L : Int) + 1 else s.bound.getD w 0 := by
        intro w
        rw [getD_set]
        by_cases hw : w = s.cnt + 1
        · rw [if_pos ⟨hw.symm, by omega⟩, if_pos hw]
        · rw [if_neg (by omega), if_neg hw]
      refine ⟨⟨by omega, by simp; omega, ?_, ?_, ?_, ?_⟩, by simpa using h1, ?_, by simp; omega, ?_, ?_,
        by omega, fun hi => by have := h11 hi; dsimp only; omega, fun _ => by dsimp only; rw [hg, if_pos rfl],
        fun h => absurd h h2⟩
      · dsimp only; rw [hg, if_neg (by omega)]; exact h3
      · intro w hw
        dsimp only at hw ⊢
        rw [hg, hg, if_neg (by omega)]
        split
        · rename_i he
          obtain rfl : w = s.cnt := by omega
          omega
        · exact h4 w (by omega)
      · intro w hw
        dsimp only at hw ⊢
        rw [hg, if_neg (by omega)]
        have hmon : ∀ k, w + k ≤ s.cnt → s.bound.getD w 0 ≤ s.bound.getD (w + k) 0 := by
          intro k
          induction k with
          | zero => intro _; exact Int.le_refl _
          | succ k ih =>
            intro hk
            have := ih (by omega)
            have := h4 (w + k) (by omega)
            rw [show w + (k + 1) = w + k + 1 by omega]
            omega
        have := hmon (s.cnt - w) (by omega)
        rw [show w + (s.cnt - w) = s.cnt by omega] at this
        omega
      · dsimp only; rw [hg, if_pos rfl]; omega
      · dsimp only; rw [hg, if_pos rfl]
      · intro x hx
        rcases List.mem_append.1 hx with hx | hx
        · have := h9 x hx
          omega
        · obtain rfl : x = 1 := by simpa using hx
          omega
      · intro hc
        dsimp only at hc ⊢
        rw [hg, Nat.add_sub_cancel, if_neg (by omega)]
        exact h7 (by omega)

theorem bindOk {α β : Type} {x : Res α} {f : α → Res β} {b : β} (h : (x >>= f) = ok b) :
    ∃ a, x = ok a ∧ f a = ok b := by
  cases x with
  | ok a => exact ⟨a, rfl, h⟩
  | ub => cases h
  | exn => cases h
  | nofuel => cases h

theorem whileF_inv {σ : Type} {I : σ → Prop} {cond : σ → Bool} {body : σ → Res σ}
    (hstep : ∀ a b, I a → cond a = true → body a = ok b → I b) : ∀ {fuel : Nat} {s s' : σ},
    whileF fuel (fun s => ok (cond s)) body s = ok s' → I s → I s' := by
  intro fuel
  induction fuel with
  | zero =>
    intro s s' h hI
    unfold whileF at h
    rw [ok_bind] at h
    split at h
    · cases h
    · cases h; exact hI
  | succ k ih =>
    intro s s' h hI
    unfold whileF at h
    rw [ok_bind] at h
    split at h
    · rename_i hc
      obtain ⟨a, h1, h2⟩ := bindOk h
      exact ih h2 (hstep _ _ hI hc h1)
    · cases h; exact hI

/-- The divisor that is used, lbc_utils.cpp:271-274. -/
def rate (divRate : Int) : Int := if divRate ≤ 1 then 10 else divRate

theorem one_lt_rate (divRate : Int) : 1 < rate divRate := by unfold rate; split <;> omega

/-- The number of windows after some rounds, if `inner < 2 * dr ^ q`. -/
structure CInv (dr : Int) (q : Nat) (s : HSt) : Prop where
  cnt : s.cnt ≤ q
  parts : s.parts < 2 * dr ^ (q - s.cnt)

theorem round_count {L : Nat} {accu : List Int} {minDist dr : Int} (hd : 1 < dr) {q : Nat} {s s' : HSt}
    (h : CInv dr q s) (hp : s.parts > 1) (hr : roundStep L accu minDist dr s = ok s') : CInv dr q s' := by
  obtain ⟨h1, h2⟩ := h
  have hq : s.cnt < q := by
    rcases Nat.lt_or_ge s.cnt q with h | h
    · exact h
    · rw [show q - s.cnt = 0 by omega] at h2
      simp at h2
      omega
  have hdiv : s.parts.tdiv dr < s.parts ∧ s.parts.tdiv dr < 2 * dr ^ (q - (s.cnt + 1)) := by
    rw [Int.tdiv_eq_ediv_of_nonneg (by omega)]
    refine ⟨Int.ediv_lt_self_of_pos_of_ne_one (by omega) (by omega), ?_⟩
    refine Int.ediv_lt_of_lt_mul (by omega) ?_
    rw [show q - s.cnt = q - (s.cnt + 1) + 1 by omega, pow_succ] at h2
    rw [Int.mul_assoc]
    exact h2
  unfold roundStep at hr
  obtain ⟨cut, -, hr⟩ := bindOk hr
  dsimp only at hr
  obtain ⟨b, -, hr⟩ := bindOk hr
  split at hr
  · obtain ⟨r, h3, hr⟩ := bindOk hr
    obtain ⟨bd, -, h3⟩ := bindOk h3
    cases h3
    cases hr
    exact ⟨hq, hdiv.2⟩
  · rw [ok_bind] at hr
    cases hr
    exact ⟨h1, by dsimp only; omega⟩

theorem heightPartition_count {L : Nat} {ptr : List Nat} (debug : Bool) {inner minDist divRate : Int}
    {r : Nat × List Int × List Nat} (h : heightPartition debug L ptr inner minDist divRate = ok r) {q : Nat}
    (hq : inner < 2 * rate divRate ^ q) : r.1 ≤ q + 1 := by
  unfold heightPartition at h
  dsimp only at h
  have hdr := one_lt_rate divRate
  change 1 < rate divRate at hdr
  split at h
  · obtain ⟨b, -, h⟩ := bindOk h
    obtain ⟨b', -, h⟩ := bindOk h
    cases h
    dsimp only
    omega
  · obtain ⟨accu, -, h⟩ := bindOk h
    obtain ⟨b, -, h⟩ := bindOk h
    obtain ⟨s, hw, h⟩ := bindOk h
    obtain ⟨b', -, h⟩ := bindOk h
    cases h
    have := whileF_inv (I := CInv (rate divRate) q) (fun a b ha hb hr => by
      refine round_count hdr ha ?_ hr
      simpa using hb) hw ⟨Nat.zero_le _, by simpa using hq⟩
    have := this.cnt
    dsimp only
    omega

end Verif.LbcTree
