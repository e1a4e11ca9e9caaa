import Verif.Model.Super
import Verif.Spec.Super
import Verif.Proof.GroupDag
import Verif.Proof.SchedLoop
import Verif.Proof.Graph

/-!
# Lemmas about supernodes
-/

namespace Verif.Super
open Res

theorem slices_eq_iff {l : List Nat} {a b cnt : Nat} :
    slice l a (a + cnt) = slice l b (b + cnt) ↔ ∀ t, t < cnt → l[a + t]? = l[b + t]? := by
  constructor
  · intro h t ht
    have := congrArg (fun x => x[t]?) h
    simpa only [getElem?_slice, if_pos (show a + t < a + cnt by omega),
      if_pos (show b + t < b + cnt by omega)] using this
  · intro h
    apply List.ext_getElem?
    intro t
    rw [getElem?_slice, getElem?_slice]
    by_cases ht : t < cnt
    · rw [if_pos (by omega), if_pos (by omega)]; exact h t ht
    · rw [if_neg (by omega), if_neg (by omega)]

theorem sameIdx_wp {ix : List Nat} {a b cnt : Nat} (ha : a + cnt ≤ ix.length) (hb : b + cnt ≤ ix.length) :
    wp (sameIdx ix a b cnt) (fun r => r = true ↔ slice ix a (a + cnt) = slice ix b (b + cnt)) := by
  unfold sameIdx
  simp only [wp_bind]
  refine wp_mono (forRangeB_wp (fun t _ => ∀ k, k < t → ix[a + k]? = ix[b + k]?)
    (fun _ => ¬ slice ix a (a + cnt) = slice ix b (b + cnt)) (by omega) (by intro k hk; omega) ?_) ?_
  · intro t _ _ ht hI
    have h1 : a + t < ix.length := by omega
    have h2 : b + t < ix.length := by omega
    rw [rd_eq h1, rd_eq h2]
    simp only [ok_bind]
    split
    · next hne =>
      simp only [wp_ok, Ctl.post_brk]
      rw [slices_eq_iff]
      intro h
      have := h t ht
      rw [List.getElem?_eq_getElem h1, List.getElem?_eq_getElem h2] at this
      exact hne (Option.some.inj this)
    · next he =>
      simp only [wp_ok, Ctl.post_next]
      intro k hk
      rcases Nat.lt_succ_iff_lt_or_eq.1 hk with hk | rfl
      · exact hI k hk
      · rw [List.getElem?_eq_getElem h1, List.getElem?_eq_getElem h2]
        simpa using he
  · intro r hr
    cases r with
    | next _ =>
      simp only [Ctl.post_next] at hr
      simp only [wp_ok, true_iff]
      exact (slices_eq_iff).2 hr
    | brk _ =>
      simp only [Ctl.post_brk] at hr
      simp only [wp_ok, Bool.false_eq_true, false_iff]
      exact hr

section Same

variable {g : Csc}

theorem col_eq_slice (u : Nat) : g.col u = slice g.i (g.ptr u) (g.ptr (u + 1)) := rfl

theorem nestedCols_iff (h : g.WF) {a c : Nat} (hac : a < c) (hc : c < g.n) :
    NestedCols g a c ↔ g.ptr (a + 1) - g.ptr a = g.ptr (c + 1) - g.ptr c + (c - a) ∧
      slice g.i (g.ptr a + (c - a)) (g.ptr (a + 1)) = g.col c := by
  have hm := h.mono a (by omega)
  have hl := h.col_length (show a < g.n by omega)
  have hl' := h.col_length hc
  constructor
  · rintro ⟨l, hlen, he⟩
    have h1 : (g.col a).length = l.length + (g.col c).length := by rw [he, List.length_append]
    refine ⟨by omega, ?_⟩
    have h2 : (g.col a).drop (c - a) = g.col c := by rw [he, ← hlen, List.drop_left]
    rw [← h2, col_eq_slice, slice, slice, List.drop_take, List.drop_drop]
    congr 1; omega
  · rintro ⟨h1, h2⟩
    refine ⟨slice g.i (g.ptr a) (g.ptr a + (c - a)), ?_, ?_⟩
    · rw [slice_length]
      · omega
      · have := h.ptr_le (show a + 1 ≤ g.n by omega); omega
    · rw [← h2, slice_append (by omega) (by omega)]; rfl

theorem nestedRows_iff (h : g.WF) {a c : Nat} (hac : a < c) (hc : c < g.n) :
    NestedRows g a c ↔ g.ptr (c + 1) - g.ptr c = g.ptr (a + 1) - g.ptr a + (c - a) ∧
      slice g.i (g.ptr c) (g.ptr (c + 1) - (c - a)) = g.col a := by
  have hm := h.mono a (by omega)
  have hm' := h.mono c hc
  have hl := h.col_length (show a < g.n by omega)
  have hl' := h.col_length hc
  constructor
  · rintro ⟨l, hlen, he⟩
    have h1 : (g.col c).length = (g.col a).length + l.length := by rw [he, List.length_append]
    refine ⟨by omega, ?_⟩
    have h2 : (g.col c).take (g.col a).length = g.col a := by rw [he, List.take_left]
    rw [← h2, col_eq_slice c, slice, slice, List.take_take]
    congr 1; omega
  · rintro ⟨h1, h2⟩
    refine ⟨slice g.i (g.ptr (c + 1) - (c - a)) (g.ptr (c + 1)), ?_, ?_⟩
    · rw [slice_length (h.ptr_le (by omega))]; omega
    · rw [← h2, slice_append (by omega) (by omega)]; rfl

theorem nestedUpper_iff (h : g.WF) {a c : Nat} (hac : c < a) (hc : a < g.n) :
    NestedUpper g a c ↔ g.ptr (a + 1) - g.ptr a = g.ptr (c + 1) - g.ptr c + (a - c) ∧
      slice g.i (g.ptr a) (g.ptr (a + 1) - (a - c)) = g.col c := by
  have hm := h.mono a (by omega)
  have hm' := h.mono c (by omega)
  have hl := h.col_length (show a < g.n by omega)
  have hl' := h.col_length (show c < g.n by omega)
  constructor
  · rintro ⟨l, hlen, he⟩
    have h1 : (g.col a).length = (g.col c).length + l.length := by rw [he, List.length_append]
    refine ⟨by omega, ?_⟩
    have h2 : (g.col a).take (g.col c).length = g.col c := by rw [he, List.take_left]
    rw [← h2, col_eq_slice a, slice, slice, List.take_take]
    congr 1; omega
  · rintro ⟨h1, h2⟩
    refine ⟨slice g.i (g.ptr (a + 1) - (a - c)) (g.ptr (a + 1)), ?_, ?_⟩
    · rw [slice_length (h.ptr_le (by omega))]; omega
    · rw [← h2, slice_append (by omega) (by omega)]; rfl

theorem sameCsc_wp {debug : Bool} (h : g.WF) (hd : debug = true → ∀ u, u < g.n → g.col u ≠ []) {a c : Nat}
    (hac : a < c) (hc : c < g.n) :
    wp (sameCsc debug g.p g.i a c) (fun r => r = true ↔ NestedCols g a c) := by
  unfold sameCsc
  rw [h.rd_p (show c + 1 ≤ g.n by omega), h.rd_p (show c ≤ g.n by omega), h.rd_p (show a + 1 ≤ g.n by omega),
    h.rd_p (show a ≤ g.n by omega)]
  simp only [ok_bind]
  have hm := h.mono a (by omega)
  have hm' := h.mono c hc
  have hb := h.ptr_le (show a + 1 ≤ g.n by omega)
  have hb' := h.ptr_le (show c + 1 ≤ g.n by omega)
  rw [nestedCols_iff h hac hc]
  split
  · next hne =>
    simp only [wp_ok, Bool.false_eq_true, false_iff]
    intro hh; omega
  · next he =>
    have he : (g.ptr (a + 1) : Int) - g.ptr a - (c - a : Nat) = g.ptr (c + 1) - g.ptr c := by
      simpa using he
    rw [if_neg]
    · refine wp_mono (sameIdx_wp (by omega) (by omega)) ?_
      intro r hr
      rw [hr, col_eq_slice]
      rw [show g.ptr a + (c - a) + ((g.ptr (a + 1) : Int) - g.ptr a - (c - a : Nat)).toNat = g.ptr (a + 1) by omega,
        show g.ptr c + ((g.ptr (a + 1) : Int) - g.ptr a - (c - a : Nat)).toNat = g.ptr (c + 1) by omega]
      constructor
      · intro hh; exact ⟨by omega, hh⟩
      · intro hh; exact hh.2
    · rintro ⟨hdb, hh⟩
      have := hd hdb c hc
      have hl := h.col_length hc
      have : 0 < (g.col c).length := List.length_pos_of_ne_nil this
      omega

theorem sameCsr_wp {debug : Bool} (h : g.WF) (hd : debug = true → ∀ u, u < g.n → g.col u ≠ []) {a c : Nat}
    (hac : a < c) (hc : c < g.n) :
    wp (sameCsr debug g.p g.i a c) (fun r => r = true ↔ NestedRows g a c) := by
  unfold sameCsr
  rw [h.rd_p (show c + 1 ≤ g.n by omega), h.rd_p (show c ≤ g.n by omega), h.rd_p (show a + 1 ≤ g.n by omega),
    h.rd_p (show a ≤ g.n by omega)]
  simp only [ok_bind]
  have hm := h.mono a (by omega)
  have hm' := h.mono c hc
  have hb := h.ptr_le (show a + 1 ≤ g.n by omega)
  have hb' := h.ptr_le (show c + 1 ≤ g.n by omega)
  rw [nestedRows_iff h hac hc]
  split
  · next hne =>
    simp only [wp_ok, Bool.false_eq_true, false_iff]
    intro hh; omega
  · next he =>
    have he : (g.ptr (a + 1) : Int) - g.ptr a = g.ptr (c + 1) - g.ptr c - (c - a : Nat) := by
      simpa using he
    rw [if_neg]
    · refine wp_mono (sameIdx_wp (by omega) (by omega)) ?_
      intro r hr
      rw [hr, col_eq_slice]
      rw [show g.ptr a + ((g.ptr (a + 1) : Int) - g.ptr a).toNat = g.ptr (a + 1) by omega,
        show g.ptr c + ((g.ptr (a + 1) : Int) - g.ptr a).toNat = g.ptr (c + 1) - (c - a) by omega]
      constructor
      · intro hh; exact ⟨by omega, hh.symm⟩
      · intro hh; exact hh.2.symm
    · rintro ⟨hdb, hh⟩
      have := hd hdb a (by omega)
      have hl := h.col_length (show a < g.n by omega)
      have : 0 < (g.col a).length := List.length_pos_of_ne_nil this
      omega

theorem blockSame_wp (h : g.WF) {a c : Nat} (hac : a < c) (hc : c < g.n) :
    wp (blockSame g.p g.i a c) (fun r => r = true ↔ NestedCols g a c) := by
  unfold blockSame
  rw [h.rd_p (show c + 1 ≤ g.n by omega), h.rd_p (show c ≤ g.n by omega), h.rd_p (show a + 1 ≤ g.n by omega),
    h.rd_p (show a ≤ g.n by omega)]
  simp only [ok_bind]
  have hm := h.mono a (by omega)
  have hm' := h.mono c hc
  have hb := h.ptr_le (show a + 1 ≤ g.n by omega)
  have hb' := h.ptr_le (show c + 1 ≤ g.n by omega)
  rw [nestedCols_iff h hac hc]
  split
  · next hne =>
    simp only [wp_ok, Bool.false_eq_true, false_iff]
    intro hh; omega
  · next he =>
    have he : (g.ptr (a + 1) : Int) - g.ptr a - (c - a : Nat) = g.ptr (c + 1) - g.ptr c := by
      simpa using he
    refine wp_mono (sameIdx_wp (by omega) (by omega)) ?_
    intro r hr
    rw [hr, col_eq_slice]
    rw [show g.ptr a + (c - a) + (g.ptr (c + 1) - g.ptr c) = g.ptr (a + 1) by omega,
      show g.ptr c + (g.ptr (c + 1) - g.ptr c) = g.ptr (c + 1) by omega]
    constructor
    · intro hh; exact ⟨by omega, hh⟩
    · intro hh; exact hh.2

theorem slices_rev_iff {l : List Nat} {a b cnt : Nat} :
    slice l a (a + cnt) = slice l b (b + cnt) ↔
      ∀ t, t < cnt → l[a + cnt - t - 1]? = l[b + cnt - t - 1]? := by
  rw [slices_eq_iff]
  constructor
  · intro h t ht
    have := h (cnt - t - 1) (by omega)
    rwa [show a + (cnt - t - 1) = a + cnt - t - 1 by omega,
      show b + (cnt - t - 1) = b + cnt - t - 1 by omega] at this
  · intro h t ht
    have := h (cnt - t - 1) (by omega)
    rwa [show a + cnt - (cnt - t - 1) - 1 = a + t by omega,
      show b + cnt - (cnt - t - 1) - 1 = b + t by omega] at this

theorem rdZ_sub {l : List Nat} {z : Int} {k : Nat} (hz : z = k) (hk : k < l.length) : rdZ l z = ok l[k] := by
  subst hz
  unfold rdZ
  rw [if_neg (by omega), Int.toNat_natCast, rd_eq hk]

theorem blockSameUp_wp (h : g.WF) {a c : Nat} (hac : c < a) (hc : a < g.n) :
    wp (blockSameUp g.p g.i a c) (fun r => r = true ↔ NestedUpper g a c) := by
  unfold blockSameUp
  rw [h.rd_p (show c + 1 ≤ g.n by omega), h.rd_p (show c ≤ g.n by omega), h.rd_p (show a + 1 ≤ g.n by omega),
    h.rd_p (show a ≤ g.n by omega)]
  simp only [ok_bind]
  have hm := h.mono a (by omega)
  have hm' := h.mono c (by omega)
  have hb := h.ptr_le (show a + 1 ≤ g.n by omega)
  have hb' := h.ptr_le (show c + 1 ≤ g.n by omega)
  rw [nestedUpper_iff h hac hc]
  split
  · next hne =>
    simp only [wp_ok, Bool.false_eq_true, false_iff]
    intro hh; omega
  · next he =>
    have he : (g.ptr (a + 1) : Int) - g.ptr a - (a - c : Nat) = g.ptr (c + 1) - g.ptr c := by
      simpa using he
    have hiff := slices_rev_iff (l := g.i) (a := g.ptr a) (b := g.ptr c) (cnt := g.ptr (c + 1) - g.ptr c)
    rw [show g.ptr a + (g.ptr (c + 1) - g.ptr c) = g.ptr (a + 1) - (a - c) by omega,
      show g.ptr c + (g.ptr (c + 1) - g.ptr c) = g.ptr (c + 1) by omega, ← col_eq_slice] at hiff
    have hres : (g.ptr (a + 1) - g.ptr a = g.ptr (c + 1) - g.ptr c + (a - c) ∧
        slice g.i (g.ptr a) (g.ptr (a + 1) - (a - c)) = g.col c) ↔ ∀ t, t < g.ptr (c + 1) - g.ptr c →
          g.i[g.ptr (a + 1) - (a - c) - t - 1]? = g.i[g.ptr (c + 1) - t - 1]? := by
      rw [← hiff]
      constructor
      · exact fun hh => hh.2
      · exact fun hh => ⟨by omega, hh⟩
    rw [hres]
    simp only [wp_bind]
    refine wp_mono (forRangeB_wp (fun t _ => ∀ k, k < t →
        g.i[g.ptr (a + 1) - (a - c) - k - 1]? = g.i[g.ptr (c + 1) - k - 1]?)
      (fun _ => ¬ ∀ t, t < g.ptr (c + 1) - g.ptr c →
          g.i[g.ptr (a + 1) - (a - c) - t - 1]? = g.i[g.ptr (c + 1) - t - 1]?)
      (by omega) (by intro k hk; omega) ?_) ?_
    · intro t _ _ ht hI
      have h1 : g.ptr (a + 1) - (a - c) - t - 1 < g.i.length := by omega
      have h2 : g.ptr (c + 1) - t - 1 < g.i.length := by omega
      rw [rdZ_sub (k := g.ptr (a + 1) - (a - c) - t - 1) (by omega) h1,
        rdZ_sub (k := g.ptr (c + 1) - t - 1) (by omega) h2]
      simp only [ok_bind]
      split
      · next hne =>
        simp only [wp_ok, Ctl.post_brk]
        intro hh
        have := hh t ht
        rw [List.getElem?_eq_getElem h1, List.getElem?_eq_getElem h2] at this
        exact hne (Option.some.inj this)
      · next he =>
        simp only [wp_ok, Ctl.post_next]
        intro k hk
        rcases Nat.lt_succ_iff_lt_or_eq.1 hk with hk | rfl
        · exact hI k hk
        · rw [List.getElem?_eq_getElem h1, List.getElem?_eq_getElem h2]
          simpa using he
    · intro r hr
      cases r with
      | next _ =>
        simp only [Ctl.post_next] at hr
        simp only [wp_ok, true_iff]
        exact hr
      | brk _ =>
        simp only [Ctl.post_brk] at hr
        simp only [wp_ok, Bool.false_eq_true, false_iff]
        exact hr

end Same

/-! ## Runs -/

section Runs

variable {n limit : Nat} {Same : Nat → Nat → Prop}

theorem runWidth_wp {same : Nat → Nat → Res Bool} (hl : 1 ≤ limit)
    (hs : ∀ a c, a < c → c < n → wp (same a c) (fun r => r = true ↔ Same a c)) {a : Nat} (ha : a < n) :
    wp (runWidth n limit same a) (fun w => 1 ≤ w ∧ a + w ≤ n ∧ w ≤ limit ∧
      (∀ c, a < c → c < a + w → Same a c) ∧ (a + w < n → w < limit → ¬ Same a (a + w))) := by
  unfold runWidth
  refine loopF_wp (fun w => 1 ≤ w ∧ a + w ≤ n ∧ w ≤ limit ∧ ∀ c, a < c → c < a + w → Same a c)
    (fun w => n - w) ?_ (n + 1) 1 (by omega) ⟨le_refl _, by omega, hl, fun c h1 h2 => by omega⟩
  rintro w ⟨h1, h2, h3, h4⟩
  split
  · next hc =>
    simp only [wp_bind]
    refine wp_mono (hs a (a + w) (by omega) hc.1) ?_
    intro r hr
    cases r with
    | true =>
      simp only [if_true, wp_ok, Ctl.post_next]
      refine ⟨⟨by omega, by omega, by omega, ?_⟩, by omega⟩
      intro c hc1 hc2
      by_cases hcw : c = a + w
      · subst hcw; exact hr.1 rfl
      · exact h4 c hc1 (by omega)
    | false =>
      simp only [Bool.false_eq_true, if_false, wp_ok, Ctl.post_brk]
      exact ⟨h1, h2, h3, h4, fun _ _ hh => by simpa using hr.2 hh⟩
  · next hc =>
    simp only [wp_ok, Ctl.post_brk]
    exact ⟨h1, h2, h3, h4, fun hh1 hh2 => absurd ⟨hh1, hh2⟩ hc⟩

/-- The part of the result that is known when the ranges up to `col` have been found. -/
structure RunInv (Same : Nat → Nat → Prop) (n limit : Nat) (offV : Nat → Nat → Int) (col : Nat) (r : Runs) :
    Prop where
  len : r.ptr.length = r.off.length + 1
  first : r.ptr[0]? = some 0
  last : r.ptr[r.ptr.length - 1]? = some col
  le : col ≤ n
  range : ∀ s a b, r.ptr[s]? = some a → r.ptr[s + 1]? = some b →
    a < b ∧ b - a ≤ limit ∧ (∀ c, a < c → c < b → Same a c) ∧ (b < n → b - a < limit → ¬ Same a b) ∧
    r.off[s]? = some (offV a (b - a))

theorem runs_wp {debug : Bool} {same : Nat → Nat → Res Bool} {offOf : Nat → Nat → Res (Int × Int)}
    {offV : Nat → Nat → Int} (hl : 0 < n → 1 ≤ limit)
    (hs : ∀ a c, a < c → c < n → wp (same a c) (fun r => r = true ↔ Same a c))
    (ho : ∀ a w, 1 ≤ w → a + w ≤ n → (∀ c, a < c → c < a + w → Same a c) →
      wp (offOf a w) (fun o => o.1 = offV a w ∧ (debug = true → 0 ≤ o.2))) :
    wp (runs debug n limit same offOf) (RunInv Same n limit offV n) := by
  unfold runs
  simp only [wp_bind]
  refine wp_mono (Q := fun s => s.1 = n ∧ RunInv Same n limit offV n s.2)
    (whileF_wp (fun (s : Nat × Runs) => RunInv Same n limit offV s.1 s.2)
    (fun s => n - s.1) ?_ n _ (by simp) ?_) ?_
  · rintro ⟨col, r⟩ hI
    dsimp only at hI ⊢
    rw [wp_ok]
    by_cases hc : col < n
    · rw [if_pos (by simpa using hc)]
      refine ⟨by omega, ?_⟩
      simp only [wp_bind]
      refine wp_mono (runWidth_wp (hl (by omega)) hs hc) ?_
      rintro w ⟨h1, h2, h3, h4, h5⟩
      rw [if_neg (fun hh => hh.2 h2)]
      simp only [wp_bind]
      refine wp_mono (ho col w h1 h2 h4) ?_
      rintro o ⟨ho1, ho2⟩
      rw [if_neg (fun hh => hh.2 (ho2 hh.1)), wp_ok]
      have hlen := hI.len
      have hlast := hI.last
      refine ⟨⟨?_, ?_, ?_, h2, ?_⟩, by dsimp only; omega⟩
      · simp [hlen]
      · dsimp only
        rw [List.getElem?_append_left (by omega)]; exact hI.first
      · dsimp only; simp
      · intro s a b ha hb
        dsimp only at ha hb ⊢
        rcases Nat.lt_trichotomy (s + 1) r.ptr.length with hs1 | hs1 | hs1
        · rw [List.getElem?_append_left (by omega)] at ha hb
          rw [List.getElem?_append_left (by omega)]
          exact hI.range s a b ha hb
        · rw [List.getElem?_append_left (by omega)] at ha
          rw [show r.ptr.length - 1 = s by omega, ha] at hlast
          obtain rfl := Option.some.inj hlast
          rw [List.getElem?_append_right (by omega), show s + 1 - r.ptr.length = 0 by omega] at hb
          obtain rfl : a + w = b := by simpa using hb
          refine ⟨by omega, by omega, h4, ?_, ?_⟩
          · intro hb1 hb2; exact h5 hb1 (by omega)
          · rw [List.getElem?_append_right (by omega), show s - r.off.length = 0 by omega, ho1]
            simp
        · rw [List.getElem?_eq_none (by simp; omega)] at hb
          cases hb
    · rw [if_neg (by simpa using hc)]
      have := hI.le
      obtain rfl : col = n := by omega
      exact ⟨rfl, hI⟩
  · exact ⟨by simp, by simp, by simp, by omega, by intro s a b ha hb; simp at hb⟩
  · rintro ⟨col, r⟩ ⟨hc, hI⟩
    dsimp only at hc hI ⊢
    have hb : back r.ptr = ok n := by
      unfold back
      rw [List.getLast?_eq_getElem?, hI.last]
    rw [hb, wp_ok, if_neg (fun hh => hh.2 rfl), wp_ok]
    exact hI

theorem RunInv.supernodes {offV : Nat → Nat → Int} {r : Runs} (h : RunInv Same n limit offV n r) :
    IsSupernodes Same n limit r.ptr :=
  ⟨h.first, h.last, fun s a b ha hb => by
    obtain ⟨h1, h2, h3, h4, _⟩ := h.range s a b ha hb
    exact ⟨h1, h2, h3, h4⟩⟩

end Runs

section Wrap

variable {g : Csc} {limit : Nat} {debug : Bool}

theorem csrRuns_wp (h : g.WF) (hd : debug = true → ∀ u, u < g.n → g.col u ≠ [])
    (hl : 0 < g.n → 1 ≤ limit) :
    wp (csrRuns debug g.n limit g.p g.i)
      (RunInv (NestedRows g) g.n limit (fun a _ => ((g.col a).length : Int) - 1) g.n) := by
  unfold csrRuns
  refine runs_wp hl (fun a c hac hc => sameCsr_wp h hd hac hc) ?_
  intro a w h1 h2 _
  rw [h.rd_p (show a + 1 ≤ g.n by omega), h.rd_p (show a ≤ g.n by omega)]
  simp only [ok_bind, wp_ok]
  have hm := h.mono a (by omega)
  rw [h.col_length (by omega)]
  refine ⟨by omega, fun hdb => ?_⟩
  have hl := h.col_length (show a < g.n by omega)
  have := List.length_pos_of_ne_nil (hd hdb a (by omega))
  omega

theorem cscRuns_wp (h : g.WF) (hd : debug = true → ∀ u, u < g.n → g.col u ≠ [])
    (hl : 0 < g.n → 1 ≤ limit) :
    wp (cscRuns debug g.n limit g.p g.i)
      (RunInv (NestedCols g) g.n limit (fun a w => ((g.col a).length : Int) - w - 1) g.n) := by
  unfold cscRuns
  refine runs_wp hl (fun a c hac hc => sameCsc_wp h hd hac hc) ?_
  intro a w h1 h2 hs
  rw [h.rd_p (show a + 1 ≤ g.n by omega), h.rd_p (show a ≤ g.n by omega)]
  simp only [ok_bind, wp_ok]
  have hm := h.mono a (by omega)
  rw [h.col_length (by omega)]
  refine ⟨by omega, fun hdb => ?_⟩
  have hl := h.col_length (show a < g.n by omega)
  rcases Nat.lt_or_ge 1 w with hw | hw
  · obtain ⟨l, hll, he⟩ := hs (a + w - 1) (by omega) (by omega)
    have := List.length_pos_of_ne_nil (hd hdb (a + w - 1) (by omega))
    have e := congrArg List.length he
    rw [List.length_append] at e
    omega
  · have := List.length_pos_of_ne_nil (hd hdb a (by omega))
    omega

end Wrap

end Verif.Super
