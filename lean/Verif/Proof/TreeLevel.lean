import Verif.Proof.TreeUtil

/-! # Level sets of forests -/

namespace Verif

variable {n : Nat} {par : Nat → Option Nat}

theorem Chain.lt (hf : Forest n par) {k v : Nat} (h : Chain n par k v) : k ≤ v ∧ v < n := by
  induction h with
  | nil hv => exact ⟨Nat.zero_le _, hv⟩
  | snoc _ hc ih =>
    have := hf _ _ hc.1 hc.2
    omega

theorem Chain.shorten (hf : Forest n par) {k v : Nat} (h : Chain n par k v) {m : Nat} (hm : m ≤ k) :
    Chain n par m v := by
  induction h generalizing m with
  | nil hv => obtain rfl : m = 0 := by omega
              exact .nil hv
  | snoc hu hc ih =>
    cases m with
    | zero => exact .nil (hf _ _ hc.1 hc.2).2
    | succ m => exact .snoc (ih (by omega)) hc

end Verif

namespace Verif.Tree
open Res

variable {n : Nat} {t : List Int}

/-! ### The climb -/

/-- Node `v` has no children. -/
def Leaf (n : Nat) (t : List Int) (v : Nat) : Prop := ∀ c, ¬ ChildOf n (parentOf t) c v

theorem Leaf.chain {k v : Nat} (h : Leaf n t v) (hc : Chain n (parentOf t) k v) : k = 0 := by
  cases hc with
  | nil => rfl
  | snoc _ hd => exact absurd hd (h _)

/-- The levels while the leaves of `D` have been processed; `e` is a node whose parent may be too
low. -/
structure LevInv (n : Nat) (t : List Int) (D : Nat → Prop) (e : Option Nat) (m : Nat) (n2l : List Nat) :
    Prop where
  len : n2l.length = n
  chain : ∀ v, v < n → Chain n (parentOf t) (n2l.getD v 0) v
  up : ∀ c p, c < n → (0 < n2l.getD c 0 ∨ (Leaf n t c ∧ D c)) → parentOf t c = some p → some c ≠ e →
    n2l.getD c 0 + 1 ≤ n2l.getD p 0
  max : ∀ v, v < n → n2l.getD v 0 ≤ m

theorem climb_wp (hl : t.length = n) (hf : Forest n (parentOf t)) {D : Nat → Prop} {m0 i : Nat}
    (hi : i < n) {n2l : List Nat} (h : LevInv n t D (some i) m0 n2l) (hz : n2l.getD i 0 = 0) :
    wp (loopF (n + 1) (climb t) (i, 0, n2l)) (fun r => LevInv n t D none (max m0 r.1) r.2 ∧
      ∃ v, v < n ∧ Chain n (parentOf t) r.1 v) := by
  refine loopF_wp (fun s : Nat × Nat × List Nat => s.1 < n ∧ LevInv n t D (some s.1) (max m0 s.2.1) s.2.2 ∧
    s.2.2.getD s.1 0 = s.2.1) (fun s => n - s.1) ?_ (n + 1) (i, 0, n2l) (by dsimp only; omega)
    ⟨hi, by simpa using h, hz⟩
  rintro ⟨v, lev, a⟩ ⟨h1, h2, h3⟩
  dsimp only at h1 h2 h3
  unfold climb
  dsimp only
  rw [rd_tree (by omega), ok_bind]
  rcases parent_cases (t := t) v with ⟨h4, h5⟩ | ⟨p, h4, h5⟩
  · rw [if_neg (by omega), wp_ok, Ctl.post_brk]
    refine ⟨⟨h2.len, h2.chain, ?_, h2.max⟩, v, h1, h3 ▸ h2.chain v h1⟩
    intro c p hc ht hp _
    refine h2.up c p hc ht hp ?_
    rintro e
    obtain rfl : c = v := by simpa using e
    rw [h5] at hp
    cases hp
  · obtain ⟨hvp, hpn⟩ := hf v p h1 h5
    have hch : Chain n (parentOf t) (lev + 1) p := .snoc (h3 ▸ h2.chain v h1) ⟨h1, h5⟩
    have h2l := h2.len
    rw [h4, if_pos (by omega), Int.toNat_natCast, rd_getD 0 (by omega), ok_bind]
    split
    · rename_i hlt
      rw [wp_ok, Ctl.post_brk]
      refine ⟨⟨h2.len, h2.chain, ?_, fun v hv => (h2.max v hv).trans (by dsimp only; omega)⟩, p, hpn, hch⟩
      intro c q hc ht hq _
      by_cases hcv : c = v
      · subst hcv
        rw [h5] at hq
        obtain rfl : p = q := by simpa using hq
        dsimp only
        omega
      · exact h2.up c q hc ht hq (by simpa using hcv)
    · rename_i hge
      rw [wr_eq (by omega), ok_bind, wp_ok, Ctl.post_next]
      have hg : ∀ x, (a.set p (lev + 1)).getD x 0 = if x = p then lev + 1 else a.getD x 0 := by
        intro x
        rw [getD_set]
        by_cases hx : x = p
        · rw [if_pos ⟨hx.symm, by omega⟩, if_pos hx]
        · rw [if_neg (by omega), if_neg hx]
      refine ⟨⟨hpn, ⟨by simpa using h2.len, ?_, ?_, ?_⟩, ?_⟩, by dsimp only; omega⟩
      · intro x hx
        dsimp only
        rw [hg]
        split
        · rename_i hxp; rw [hxp]; exact hch
        · exact h2.chain x hx
      · intro c q hc ht hq hne
        dsimp only at ht hq hne ⊢
        have hcp : c ≠ p := fun h => hne (by rw [h])
        rw [hg c, if_neg hcp] at ht ⊢
        rw [hg q]
        by_cases hcv : c = v
        · subst hcv
          rw [h5] at hq
          obtain rfl : p = q := by simpa using hq
          rw [if_pos rfl, h3]
        · have := h2.up c q hc ht hq (by simpa using hcv)
          split
          · rename_i hqp; subst hqp; omega
          · exact this
      · intro x hx
        dsimp only
        rw [hg]
        split
        · omega
        · exact (h2.max x hx).trans (by omega)
      · dsimp only
        rw [hg, if_pos rfl]

/-! ### The loop over the leaves -/

/-- The leaves among the first `k` nodes. -/
def leavesUpTo (n : Nat) (t : List Int) (k : Nat) : List Nat :=
  (List.range k).filter (fun v => decide (kids n t v = []))

theorem kids_nil {v : Nat} : kids n t v = [] ↔ Leaf n t v := by
  rw [List.eq_nil_iff_forall_not_mem]
  simp only [mem_kids]
  rfl

theorem leavesUpTo_length_le (k : Nat) : (leavesUpTo n t k).length ≤ k := by
  unfold leavesUpTo
  exact (List.length_filter_le _ _).trans (by simp)

/-- The state of the loop over the leaves. -/
structure LeafInv (n : Nat) (t : List Int) (k : Nat) (s : Lev) : Prop where
  ptrLen : s.ptr.length = n + 1
  setLen : s.set.length = n
  ptr1 : s.ptr.getD 1 0 = (leavesUpTo n t k).length
  other : ∀ j, j ≠ 1 → s.ptr.getD j 0 = 0
  set : s.set.take (leavesUpTo n t k).length = leavesUpTo n t k
  lev : LevInv n t (fun v => v < k) none s.maxLen s.n2l
  real : 0 < n → ∃ v, v < n ∧ Chain n (parentOf t) s.maxLen v

theorem leafStep_wp (hl : t.length = n) (hf : Forest n (parentOf t)) {nChild : List Nat}
    (hc : nChild.length = n) (hcnt : ∀ v, v < n → nChild.getD v 0 = (kids n t v).length) {i : Nat}
    (hi : i < n) {s : Lev} (h : LeafInv n t i s) :
    wp (leafStep n t nChild i s) (LeafInv n t (i + 1)) := by
  have hp := h.ptrLen
  have hs := h.setLen
  unfold leafStep
  rw [rd_getD 0 (by omega), ok_bind, hcnt i hi]
  by_cases hk : kids n t i = []
  · have hleaf : leavesUpTo n t (i + 1) = leavesUpTo n t i ++ [i] := by
      unfold leavesUpTo
      rw [List.range_succ, List.filter_append]
      simp [hk]
    have hlen := leavesUpTo_length_le (n := n) (t := t) i
    rw [hk, List.length_nil, if_pos rfl, rd_getD 0 (by omega), ok_bind, h.ptr1, wr_eq (by omega), ok_bind,
      wr_eq (by omega), ok_bind, wp_bind]
    have hL : Leaf n t i := kids_nil.1 hk
    have hz : s.n2l.getD i 0 = 0 := hL.chain (h.lev.chain i hi)
    have hstart : LevInv n t (fun v => v < i + 1) (some i) s.maxLen s.n2l := by
      refine ⟨h.lev.len, h.lev.chain, ?_, h.lev.max⟩
      intro c p hc ht hp hne
      refine h.lev.up c p hc ?_ hp (by simp)
      rcases ht with ht | ⟨h1, h2⟩
      · exact .inl ht
      · refine .inr ⟨h1, ?_⟩
        have : c ≠ i := fun h => hne (by rw [h])
        omega
    refine wp_mono (climb_wp hl hf hi hstart hz) ?_
    rintro ⟨lev, a⟩ ⟨h1, v, h2, h3⟩
    dsimp only at h1 h2 h3 ⊢
    have hmax : (if lev > s.maxLen then lev else s.maxLen) = max s.maxLen lev := by
      split <;> omega
    rw [wp_ok, hmax]
    refine ⟨by simpa using hp, by simpa using hs, ?_, ?_, ?_, h1, ?_⟩
    · dsimp only
      rw [getD_set, if_pos ⟨rfl, by omega⟩, hleaf]
      simp
    · intro j hj
      dsimp only
      rw [getD_set, if_neg (by omega)]
      exact h.other j hj
    · dsimp only
      rw [hleaf, List.length_append, List.length_singleton, List.take_add_one,
        List.take_set_of_le (Nat.le_refl _), h.set, List.getElem?_set_self (by omega)]
      rfl
    · intro hn
      dsimp only
      rcases Nat.le_total s.maxLen lev with hle | hle
      · rw [Nat.max_eq_right hle]
        exact ⟨v, h2, h3⟩
      · rw [Nat.max_eq_left hle]
        exact h.real hn
  · have hleaf : leavesUpTo n t (i + 1) = leavesUpTo n t i := by
      unfold leavesUpTo
      rw [List.range_succ, List.filter_append]
      simp [hk]
    have hkl : ¬ (kids n t i).length = 0 := by
      intro h; exact hk (List.length_eq_zero_iff.1 h)
    rw [if_neg hkl, wp_ok]
    refine ⟨hp, hs, by rw [hleaf]; exact h.ptr1, h.other, by rw [hleaf]; exact h.set, ?_, h.real⟩
    refine ⟨h.lev.len, h.lev.chain, ?_, h.lev.max⟩
    intro c p hc ht hp hne
    refine h.lev.up c p hc ?_ hp (by simp)
    rcases ht with ht | ⟨h1, h2⟩
    · exact .inl ht
    · refine .inr ⟨h1, ?_⟩
      have : c ≠ i := by
        rintro rfl
        exact hk (kids_nil.2 h1)
      omega

/-- When all leaves are processed, the levels are the heights. -/
theorem LevInv.heights (hf : Forest n (parentOf t)) {m : Nat} {n2l : List Nat}
    (h : LevInv n t (fun v => v < n) none m n2l) (v : Nat) (hv : v < n) :
    IsHeight n (parentOf t) v (n2l.getD v 0) := by
  have htouch : ∀ v, v < n → 0 < n2l.getD v 0 ∨ (Leaf n t v ∧ v < n) := by
    intro v
    induction v using Nat.strongRecOn with
    | _ v ih =>
      intro hv
      by_cases hL : Leaf n t v
      · exact .inr ⟨hL, hv⟩
      · unfold Leaf at hL
        push Not at hL
        obtain ⟨c, hc⟩ := hL
        have h1 := hf c v hc.1 hc.2
        have h2 := h.up c v hc.1 (ih c h1.1 hc.1) hc.2 (by simp)
        exact .inl (by omega)
  have hle : ∀ m v, Chain n (parentOf t) m v → m ≤ n2l.getD v 0 := by
    intro m v hc
    induction hc with
    | nil => exact Nat.zero_le _
    | snoc _ hd ih =>
      have := h.up _ _ hd.1 (htouch _ hd.1) hd.2 (by simp)
      omega
  exact ⟨h.chain v hv, fun m hm => hle m v hm⟩

/-! ### Sorting by level -/

/-- The nodes in the order in which they are placed. -/
def placed (n : Nat) (n2l : List Nat) : List Nat :=
  (List.range n).filter (fun v => decide (n2l.getD v 0 = 0)) ++
    (List.range n).filter (fun v => !decide (n2l.getD v 0 = 0))

theorem placed_perm (n2l : List Nat) : (placed n n2l).Perm (List.range n) := by
  unfold placed
  exact List.filter_append_perm _ _

theorem countLevels_wp {n2l : List Nat} (hl : n2l.length = n) (hlt : ∀ v, v < n → n2l.getD v 0 < n) :
    wp (countLevels n n2l) (fun cnt => cnt.length = n ∧
      ∀ k, k < n → cnt.getD k 0 = cntKey (fun v => n2l.getD v 0) (List.range n) k) := by
  unfold countLevels
  refine forRange_wp' (fun j (cnt : List Nat) => cnt.length = n ∧
    ∀ k, k < n → cnt.getD k 0 = cntKey (fun v => n2l.getD v 0) (List.range j) k) (Nat.zero_le _) ?_ ?_
    (fun _ h => h)
  · refine ⟨by simp, fun k hk => ?_⟩
    rw [getD_replicate _ _ _ _ hk]; rfl
  · rintro j cnt _ hj ⟨h1, h2⟩
    have hj' := hlt j hj
    rw [rd_getD 0 (by omega), ok_bind, rd_getD 0 (by omega), ok_bind, wr_eq (by omega), wp_ok]
    refine ⟨by simpa using h1, fun k hk => ?_⟩
    rw [List.range_succ, cntKey_concat, getD_set]
    by_cases hkj : k = n2l.getD j 0
    · subst hkj
      rw [if_pos ⟨rfl, by omega⟩, if_pos rfl, h2 _ hk]
    · rw [if_neg (by omega), if_neg (fun h => hkj h.symm), h2 k hk, Nat.add_zero]

theorem cntKey_perm {α : Type} (key : α → Nat) {l l' : List α} (h : l.Perm l') (k : Nat) :
    cntKey key l k = cntKey key l' k := h.countP_eq _

theorem below_perm {α : Type} (key : α → Nat) {l l' : List α} (h : l.Perm l') (k : Nat) :
    below key l k = below key l' k := h.countP_eq _

/-- What `build_level_set_tree_efficient` gives. -/
structure LevelsOk (n : Nat) (t : List Int) (L : Nat) (ptr set n2l : List Nat) : Prop where
  ptrLen : ptr.length = n + 1
  setLen : set.length = n
  n2lLen : n2l.length = n
  height : ∀ v, v < n → IsHeight n (parentOf t) v (n2l.getD v 0)
  lt : ∀ v, v < n → n2l.getD v 0 < L
  top : ∃ v, v < n ∧ n2l.getD v 0 + 1 = L
  start : ∀ k, k ≤ L → ptr.getD k 0 = below (fun v => n2l.getD v 0) (List.range n) k
  beyond : ∀ k, L < k → ptr.getD k 0 = 0
  block : ∀ k, k < L → slice set (ptr.getD k 0) (ptr.getD (k + 1) 0)
    = (List.range n).filter (fun v => decide (n2l.getD v 0 = k))
  perm : set.Perm (List.range n)

theorem placed_filter (n2l : List Nat) (k : Nat) :
    (placed n n2l).filter (fun v => decide (n2l.getD v 0 = k))
      = (List.range n).filter (fun v => decide (n2l.getD v 0 = k)) := by
  unfold placed
  rw [List.filter_append, List.filter_filter, List.filter_filter]
  by_cases hk : k = 0
  · subst hk
    have : (List.range n).filter (fun a => decide (n2l.getD a 0 = 0) && !decide (n2l.getD a 0 = 0)) = [] := by
      rw [List.filter_eq_nil_iff]; intro a _; simp
    rw [this, List.append_nil]
    apply List.filter_congr; intro a _; simp
  · have : (List.range n).filter (fun a => decide (n2l.getD a 0 = k) && decide (n2l.getD a 0 = 0)) = [] := by
      rw [List.filter_eq_nil_iff]; intro a _
      simp only [Bool.and_eq_true, decide_eq_true_eq]
      omega
    rw [this, List.nil_append]
    apply List.filter_congr; intro a _
    by_cases h : n2l.getD a 0 = k
    · have : ¬ n2l.getD a 0 = 0 := by omega
      rw [decide_eq_true h, decide_eq_false this]; rfl
    · rw [decide_eq_false h]; rfl

theorem levelSetEff_wp (hl : t.length = n) (hf : Forest n (parentOf t)) (hn : 1 < n) {nChild : List Nat}
    (hc : nChild.length = n) (hcnt : ∀ v, v < n → nChild.getD v 0 = (kids n t v).length) (debug : Bool) :
    wp (levelSetEff debug n t nChild) (fun r => LevelsOk n t r.1 r.2.1 r.2.2.1 r.2.2.2) := by
  unfold levelSetEff
  rw [wp_bind]
  refine wp_mono (forRange_wp' (fun k s => LeafInv n t k s) (Nat.zero_le n) ?_
    (fun i s _ hi h => leafStep_wp hl hf hc hcnt hi h) (fun _ h => h)) ?_
  · refine ⟨by simp, by simp, ?_, ?_, by simp [leavesUpTo], ⟨by simp, ?_, ?_, ?_⟩, fun _ => ⟨0, by omega, .nil (by omega)⟩⟩
    · rw [getD_replicate _ _ _ _ (by omega)]; simp [leavesUpTo]
    · intro j _
      rcases Nat.lt_or_ge j (n + 1) with h | h
      · exact getD_replicate _ _ _ _ h
      · rw [List.getD_eq_getElem?_getD, List.getElem?_eq_none (by simpa using h)]; rfl
    · intro v hv
      rw [getD_replicate _ _ _ _ hv]; exact .nil hv
    · intro c p hc ht
      rw [getD_replicate _ _ _ _ hc] at ht
      rcases ht with ht | ⟨-, ht⟩ <;> omega
    · intro v hv
      rw [getD_replicate _ _ _ _ hv]
  rintro ⟨ptr0, set0, n2l, m⟩ hI
  obtain ⟨a1, a2, a3, a4, a5, a6, a7⟩ := hI
  dsimp only at a1 a2 a3 a4 a5 a6 a7 ⊢
  have hH := a6.heights hf
  have hlen := a6.len
  have hlt : ∀ v, v < n → n2l.getD v 0 < n := fun v hv => by
    have := ((hH v hv).1.lt hf); omega
  have hm : ∃ v, v < n ∧ n2l.getD v 0 = m := by
    obtain ⟨v, hv, hch⟩ := a7 (by omega)
    have h1 := (hH v hv).2 m hch
    have h2 := a6.max v hv
    exact ⟨v, hv, by omega⟩
  obtain ⟨v0, hv0, hv0m⟩ := hm
  have hmn := hlt v0 hv0
  have hzero : ∀ v, v < n → (n2l.getD v 0 = 0 ↔ kids n t v = []) := by
    intro v hv
    rw [kids_nil]
    constructor
    · intro h0 c hcv
      have := (hH v hv).2 1 (.snoc (.nil hcv.1) hcv)
      omega
    · intro hL
      exact hL.chain (hH v hv).1
  have hleaves : leavesUpTo n t n = (List.range n).filter (fun v => decide (n2l.getD v 0 = 0)) := by
    unfold leavesUpTo
    apply List.filter_congr
    intro v hv
    rw [decide_eq_decide]
    exact (hzero v (List.mem_range.1 hv)).symm
  have hcnt0 : cntKey (fun v => n2l.getD v 0) (List.range n) 0 = (leavesUpTo n t n).length := by
    rw [hleaves, ← filter_length]
  rw [wp_bind]
  refine wp_mono (countLevels_wp hlen hlt) ?_
  rintro cnt ⟨b1, b2⟩
  rw [wp_bind]
  have hassert : wp (if debug = true then do
      let c ← rd cnt 0
      let p ← rd ptr0 1
      if c = p then ok () else exn
    else ok () : Res Unit) (fun _ => True) := by
    cases debug
    · simp
    · rw [if_pos rfl, rd_getD 0 (by omega), ok_bind, rd_getD 0 (by omega), ok_bind, b2 0 (by omega), hcnt0, a3,
        if_pos rfl, wp_ok]
      trivial
  refine wp_mono hassert ?_
  intro _ _
  rw [wp_bind]
  refine wp_mono (forRange_wp' (fun k (s : List Nat × List Nat) => s.1.length = n + 1 ∧ s.2.length = n ∧
      (∀ j, j < k → s.1.getD j 0 = below (fun v => n2l.getD v 0) (List.range n) j) ∧
      (∀ j, k ≤ j → s.1.getD j 0 = 0) ∧
      (∀ j, 0 < j → j + 1 < k → s.2.getD j 0 = 0) ∧
      (∀ j, k ≤ j + 1 → j < n → s.2.getD j 0 = cntKey (fun v => n2l.getD v 0) (List.range n) j))
    (by omega : 2 ≤ m + 1 + 1) ?_ ?_ (fun _ h => h)) ?_
  · refine ⟨a1, b1, ?_, ?_, ?_, fun j _ hj => b2 j hj⟩
    · intro j hj
      rcases Nat.lt_or_ge j 1 with h | h
      · obtain rfl : j = 0 := by omega
        rw [a4 0 (by omega), below_zero]
      · obtain rfl : j = 1 := by omega
        dsimp only
        rw [a3, below_succ, below_zero, hcnt0, Nat.zero_add]
    · intro j hj; exact a4 j (by omega)
    · intro j h1 h2; omega
  · rintro k ⟨p, c⟩ hk1 hk2 ⟨c1, c2, c3, c4, c5, c6⟩
    dsimp only at c1 c2 c3 c4 c5 c6
    unfold levelPtrStep
    dsimp only
    rw [rd_getD 0 (by omega), ok_bind, rd_getD 0 (by omega), ok_bind, wr_eq (by omega), ok_bind,
      wr_eq (by omega), ok_bind, wp_ok]
    refine ⟨by simpa using c1, by simpa using c2, ?_, ?_, ?_, ?_⟩
    · intro j hj
      dsimp only
      rw [getD_set]
      by_cases hjk : j = k
      · subst hjk
        rw [if_pos ⟨rfl, by omega⟩, c3 _ (by omega), c6 _ (by omega) (by omega), ← below_succ,
          Nat.sub_add_cancel (by omega)]
      · rw [if_neg (by omega), c3 j (by omega)]
    · intro j hj
      dsimp only
      rw [getD_set, if_neg (by omega), c4 j (by omega)]
    · intro j h1 h2
      dsimp only
      rw [getD_set]
      by_cases hjk : j = k - 1
      · rw [if_pos ⟨hjk.symm, by omega⟩]
      · rw [if_neg (by omega), c5 j h1 (by omega)]
    · intro j h1 h2
      dsimp only
      rw [getD_set, if_neg (by omega), c6 j (by omega) h2]
  rintro ⟨ptr, cnt'⟩ ⟨c1, c2, c3, c4, c5, c6⟩
  dsimp only at c1 c2 c3 c4 c5 c6 ⊢
  rw [wr_eq (by omega), ok_bind, wp_bind]
  have hperm := placed_perm (n := n) n2l
  let key : Nat → Nat := fun v => n2l.getD v 0
  let zs := (List.range n).filter (fun v => decide (n2l.getD v 0 = 0))
  let nz := fun k => (List.range k).filter (fun v => !decide (n2l.getD v 0 = 0))
  have hzs : zs = leavesUpTo n t n := hleaves.symm
  have hnz : ∀ k, nz (k + 1) = if n2l.getD k 0 = 0 then nz k else nz k ++ [k] := by
    intro k
    show (List.range (k + 1)).filter _ = if _ then (List.range k).filter _ else (List.range k).filter _ ++ [k]
    rw [List.range_succ, List.filter_append]
    by_cases h : n2l.getD k 0 = 0
    · rw [if_pos h, List.filter_cons, decide_eq_true h]; simp
    · rw [if_neg h, List.filter_cons, decide_eq_false h]; simp
  have hpl : placed n n2l = zs ++ nz n := rfl
  have hkz : ∀ k, 0 < k → cntKey key zs k = 0 := by
    intro k hk
    rw [cntKey, List.countP_eq_zero]
    intro v hv
    have : n2l.getD v 0 = 0 := by simpa [zs] using (List.mem_filter.1 hv).2
    simp only [key, decide_eq_true_eq]
    omega
  refine wp_mono (forRange_wp' (fun k (s : List Nat × List Nat) => s.2.length = n ∧
      (∀ j, 0 < j → j < m + 1 → s.2.getD j 0 = cntKey key (zs ++ nz k) j) ∧
      Filled key id (placed n n2l) (zs ++ nz k) s.1) (Nat.zero_le n) ?_ ?_ (fun _ h => h)) ?_
  · refine ⟨by simpa using c2, ?_, ?_, ?_⟩
    · intro j h1 h2
      have e : nz 0 = [] := rfl
      rw [e, List.append_nil, hkz j h1]
      dsimp only
      rw [getD_set]
      split
      · rfl
      · exact c5 j h1 (by omega)
    · dsimp only
      rw [hperm.length_eq, a2, List.length_range]
    · intro k j hj
      have e : nz 0 = [] := rfl
      rw [e, List.append_nil] at hj ⊢
      rcases Nat.eq_zero_or_pos k with rfl | hk
      · have hall : zs.filter (fun a => decide (key a = 0)) = zs := by
          rw [List.filter_eq_self]
          intro a ha
          exact (List.mem_filter.1 ha).2
        rw [below_zero, Nat.zero_add, hall, List.map_id]
        rw [← filter_length, hall] at hj
        rw [← hzs] at a5
        dsimp only
        rw [← List.getElem?_take_of_lt hj, a5]
      · rw [hkz k hk] at hj; omega
  · rintro k ⟨st, cn⟩ _ hk ⟨d1, d2, d3⟩
    dsimp only at d1 d2 d3
    unfold placeNode
    rw [rd_getD 0 (by omega), ok_bind]
    by_cases hz : n2l.getD k 0 = 0
    · rw [if_pos hz, wp_ok, hnz k, if_pos hz]
      exact ⟨d1, d2, d3⟩
    · have hkm : n2l.getD k 0 ≤ m := a6.max k hk
      have hsp : ∃ post, placed n n2l = (zs ++ nz k) ++ k :: post := by
        obtain ⟨q, hq⟩ : ∃ q, n = (k + 1) + q := ⟨n - (k + 1), by omega⟩
        refine ⟨((List.range q).map (k + 1 + ·)).filter (fun v => !decide (n2l.getD v 0 = 0)), ?_⟩
        rw [hpl, List.append_assoc]
        congr 1
        have : nz n = (List.range (k + 1 + q)).filter (fun v => !decide (n2l.getD v 0 = 0)) := by rw [← hq]
        rw [this, List.range_add, List.filter_append]
        have e := hnz k
        rw [if_neg hz] at e
        change nz (k + 1) ++ _ = _
        rw [e]
        simp
      obtain ⟨post, hsp⟩ := hsp
      have hposlt := posOf_lt_length key hsp
      have hpos : ptr.getD (n2l.getD k 0) 0 + cn.getD (n2l.getD k 0) 0
          = posOf key (placed n n2l) (zs ++ nz k) (key k) := by
        rw [c3 _ (by omega), d2 _ (by omega) (by omega)]
        unfold posOf
        rw [below_perm key hperm]
      have hstl := d3.len
      rw [if_neg hz, rd_getD 0 (by omega), ok_bind]
      dsimp only
      rw [rd_getD 0 (by omega), ok_bind, hpos, wr_eq (by omega), ok_bind, wr_eq (by omega), ok_bind, wp_ok]
      have e := hnz k
      rw [if_neg hz] at e
      rw [e, ← List.append_assoc]
      refine ⟨by simpa using d1, ?_, d3.step hsp⟩
      intro j h1 h2
      dsimp only
      rw [cntKey_concat, getD_set]
      by_cases hjk : j = n2l.getD k 0
      · subst hjk
        rw [if_pos ⟨rfl, by omega⟩, if_pos rfl, d2 _ h1 h2]
      · rw [if_neg (by omega), if_neg (fun h => hjk h.symm), d2 j h1 h2, Nat.add_zero]
  rintro ⟨st, cn⟩ ⟨d1, d2, d3⟩
  dsimp only at d1 d2 d3
  rw [wp_ok]
  dsimp only
  rw [← hpl] at d3
  have hdone := d3.done (m := m + 1) (fun a ha => by
    have : a < n := List.mem_range.1 (hperm.mem_iff.1 ha)
    have := a6.max a this
    show n2l.getD a 0 < m + 1
    omega)
  rw [List.map_id] at hdone
  have hset : st.Perm (placed n n2l) := by
    rw [hdone]
    exact bucket_perm (fun a ha => by
      have : a < n := List.mem_range.1 (hperm.mem_iff.1 ha)
      have := a6.max a this
      show n2l.getD a 0 < m + 1
      omega)
  refine ⟨c1, ?_, hlen, hH, fun v hv => ?_, ⟨v0, hv0, by omega⟩, fun k hk => c3 k (by omega), fun k hk => c4 k (by omega),
    ?_, hset.trans hperm⟩
  · rw [hset.length_eq, hperm.length_eq, List.length_range]
  · have := a6.max v hv
    omega
  · intro k hk
    rw [c3 k (by omega), c3 (k + 1) (by omega), hdone, ← placed_filter,
      ← below_perm key hperm, ← below_perm key hperm]
    exact bucket_slice key (placed n n2l) hk

end Verif.Tree
