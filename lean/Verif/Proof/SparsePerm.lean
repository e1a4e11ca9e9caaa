import Verif.Proof.SparseHalf

/-! # permute_general and copy_sparse -/

namespace Verif.Sp
open Res

variable {V : Type} {A : Sp V}

/-- An optional renaming. -/
def ren (f : Option (List Nat)) (k : Nat) : Nat :=
  match f with
  | some l => l.getD k 0
  | none => k

theorem renRd_eq {f : Option (List Nat)} {k : Nat} (h : ∀ l, f = some l → k < l.length) :
    renRd f k = ok (ren f k) := by
  cases f with
  | none => rfl
  | some l => exact rd_getD 0 (h l rfl)

/-- Length of the first `k` blocks. -/
def tot {α : Type} (R : Nat → List α) (k : Nat) : Nat := ((List.range k).flatMap R).length

theorem tot_succ {α : Type} (R : Nat → List α) (k : Nat) : tot R (k + 1) = tot R k + (R k).length := by
  simp [tot, List.range_succ]

theorem flatMap_range_succ {α : Type} (R : Nat → List α) (k : Nat) :
    (List.range (k + 1)).flatMap R = (List.range k).flatMap R ++ R k := by
  simp [List.range_succ]

theorem tot_mono {α : Type} (R : Nat → List α) {a b : Nat} (h : a ≤ b) : tot R a ≤ tot R b := by
  induction b with
  | zero => rw [show a = 0 by omega]
  | succ b ih =>
    by_cases hab : a ≤ b
    · rw [tot_succ]; exact (ih hab).trans (Nat.le_add_right _ _)
    · rw [show a = b + 1 by omega]

theorem flatMap_range_prefix {α : Type} (R : Nat → List α) {a b : Nat} (h : a ≤ b) :
    (List.range a).flatMap R <+: (List.range b).flatMap R := by
  induction b with
  | zero => rw [show a = 0 by omega]; exact List.prefix_refl _
  | succ b ih =>
    by_cases hab : a ≤ b
    · exact (ih hab).trans (by rw [flatMap_range_succ]; exact List.prefix_append _ _)
    · rw [show a = b + 1 by omega]; exact List.prefix_refl _

/-- Block `k` of a concatenation. -/
theorem slice_flatMap {α : Type} (R : Nat → List α) {k n : Nat} (h : k < n) {l : List α}
    (hl : l.take (tot R n) = (List.range n).flatMap R) :
    slice l (tot R k) (tot R (k + 1)) = R k := by
  rw [FromItems.slice_take l (tot_mono R (show k + 1 ≤ n from h)), hl]
  obtain ⟨t, ht⟩ := flatMap_range_prefix R (show k + 1 ≤ n from h)
  rw [← ht, flatMap_range_succ]
  unfold slice
  rw [show tot R (k + 1) - tot R k = (R k).length by rw [tot_succ]; omega, List.append_assoc,
    show tot R k = ((List.range k).flatMap R).length from rfl, List.drop_left, List.take_left]

variable [Zero V]

theorem permuteGeneral_wp {nnz : Nat} {pinv q : Option (List Nat)} (h : A.WF) (hc0 : 0 < A.cols)
    (hpl : ∀ f, pinv = some f → A.rows ≤ f.length)
    (hql : ∀ f, q = some f → A.cols ≤ f.length)
    (hq : ∀ k, k < A.cols → ren q k < A.cols)
    (hcap : tot (fun k => A.colRows (ren q k)) A.cols ≤ nnz) :
    wp (permuteGeneral A nnz pinv q) fun C => C.rows = A.rows ∧ C.cols = A.cols ∧
      C.p = (List.range (A.cols + 1)).map (tot fun k => A.colRows (ren q k)) ∧
      (∀ k, k < A.cols → C.colRows k = (A.colRows (ren q k)).map (ren pinv)) ∧
      (∀ k, k < A.cols → C.colVals k = A.colVals (ren q k)) ∧
      C.i.length = nnz ∧ C.x.length = nnz := by
  have hp := h.toPatWF
  have hplen := hp.plen
  let R : Nat → List Nat := fun k => (A.colRows (ren q k)).map (ren pinv)
  let X : Nat → List V := fun k => A.colVals (ren q k)
  have hlenR : ∀ k, (R k).length = (A.colRows (ren q k)).length := fun k => List.length_map _
  have htR : ∀ k, tot R k = tot (fun k => A.colRows (ren q k)) k := by
    intro k
    induction k with
    | zero => rfl
    | succ k ih => rw [tot_succ, tot_succ, ih, hlenR]
  have hlc : ∀ c, c < A.cols → (A.colRows c).length = A.p.getD (c + 1) 0 - A.p.getD c 0 := by
    intro c hc
    rw [colRows_eq, slice_length (hp.le_len (by omega))]
  have hxle : ∀ c, c < A.cols → A.p.getD (c + 1) 0 ≤ A.x.length := fun c hc =>
    (hp.mono_le (show c + 1 ≤ A.cols from hc) (le_refl _)).trans h.xlen
  have hlx : ∀ c, c < A.cols → (A.colVals c).length = A.p.getD (c + 1) 0 - A.p.getD c 0 := by
    intro c hc
    rw [colVals_eq, slice_length (hxle c hc)]
  have htX : ∀ k, k ≤ A.cols → tot X k = tot R k := by
    intro k
    induction k with
    | zero => intro _; rfl
    | succ k ih =>
      intro hk
      have e1 : (X k).length = A.p.getD (ren q k + 1) 0 - A.p.getD (ren q k) 0 :=
        hlx _ (hq k (by omega))
      rw [tot_succ, tot_succ, ih (by omega), hlenR, hlc _ (hq k (by omega)), e1]
  have hcap' : tot R A.cols ≤ nnz := by rw [htR]; exact hcap
  have hnp : newPtrLen A.cols = A.cols + 1 := by unfold newPtrLen; rw [if_neg (by omega)]
  unfold permuteGeneral
  rw [wp_bind]
  refine forRange_wp' (fun k (s : List Nat × List Nat × List V × Nat) =>
      s.1.length = A.cols + 1 ∧ (∀ m, m < k → s.1.getD m 0 = tot R m) ∧
      s.2.1.length = nnz ∧ s.2.2.1.length = nnz ∧ s.2.2.2 = tot R k ∧
      s.2.1.take s.2.2.2 = (List.range k).flatMap R ∧
      s.2.2.1.take s.2.2.2 = (List.range k).flatMap X) (Nat.zero_le _) ?_ ?_ ?_
  · refine ⟨by simp [hnp], by omega, by simp, by simp, rfl, rfl, rfl⟩
  · rintro k ⟨p, i, x, cnt⟩ - hk ⟨h1, h2, h3, h4, h5, h6, h7⟩
    dsimp only at h1 h2 h3 h4 h5 h6 h7 ⊢
    have hqk := hq k hk
    have hqe : renRd q k = ok (ren q k) := renRd_eq fun f hf => by have := hql f hf; omega
    rw [wr_eq (by omega), ok_bind, hqe, ok_bind, rd_getD 0 (by omega), ok_bind, rd_getD 0 (by omega),
      ok_bind, wp_bind]
    have htk := tot_succ R k
    rw [hlenR, hlc _ hqk] at htk
    have hmono := hp.mono _ hqk
    have hle := hp.le_len (a := ren q k + 1) (by omega)
    have htm := tot_mono R (show k + 1 ≤ A.cols from hk)
    refine forRange_wp' (fun t (s : List Nat × List V × Nat) =>
      s.1.length = nnz ∧ s.2.1.length = nnz ∧
      s.2.2 = tot R k + (t - A.p.getD (ren q k) 0) ∧
      s.1.take s.2.2 = (List.range k).flatMap R ++
        (slice A.i (A.p.getD (ren q k) 0) t).map (ren pinv) ∧
      s.2.1.take s.2.2 = (List.range k).flatMap X ++ slice A.x (A.p.getD (ren q k) 0) t)
      hmono ?_ ?_ ?_
    · refine ⟨h3, h4, by dsimp only; omega, ?_, ?_⟩
      · rw [slice_self, h6]; simp
      · rw [slice_self, h7]; simp
    · rintro t ⟨i', x', cnt'⟩ ht1 ht2 ⟨g1, g2, g3, g4, g5⟩
      dsimp only at g1 g2 g3 g4 g5 ⊢
      have hcl : cnt' < nnz := by omega
      have htx : t < A.x.length := by have := hxle _ hqk; omega
      have hti : t < A.i.length := by omega
      have hrow : A.i.getD t 0 < A.rows := by
        refine hp.range _ hqk _ ?_
        rw [colRows_eq, mem_slice]
        exact ⟨t, ht1, ht2, getElem?_getD 0 hti⟩
      rw [if_pos (by omega), rd_getD 0 htx, ok_bind, wr_eq (by omega), ok_bind, rd_getD 0 hti,
        ok_bind]
      have hpe : renRd pinv (A.i.getD t 0) = ok (ren pinv (A.i.getD t 0)) :=
        renRd_eq fun f hf => by have := hpl f hf; omega
      rw [hpe, ok_bind, wr_eq (by omega), ok_bind, wp_ok]
      refine ⟨by simpa using g1, by simpa using g2, by dsimp only; omega, ?_, ?_⟩
      · dsimp only
        rw [take_set_succ _ (by omega), g4, slice_succ ht1 (getElem?_getD 0 hti), List.map_append,
          List.append_assoc]; rfl
      · dsimp only
        rw [take_set_succ _ (by omega), g5, slice_succ ht1 (getElem?_getD 0 htx),
          List.append_assoc]
    · rintro ⟨i', x', cnt'⟩ ⟨g1, g2, g3, g4, g5⟩
      dsimp only at g1 g2 g3 g4 g5 ⊢
      rw [wp_ok]
      refine ⟨by simpa using h1, ?_, g1, g2, by dsimp only; omega, ?_, ?_⟩
      · intro m hm
        dsimp only
        rw [getD_set]
        by_cases e : k = m
        · rw [if_pos ⟨e, by omega⟩, h5, e]
        · rw [if_neg (by omega), h2 m (by omega)]
      · rw [flatMap_range_succ]; exact g4
      · rw [flatMap_range_succ]; exact g5
  · rintro ⟨p, i, x, cnt⟩ ⟨h1, h2, h3, h4, h5, h6, h7⟩
    dsimp only at h1 h2 h3 h4 h5 h6 h7 ⊢
    rw [wr_eq (by omega), ok_bind, wp_ok]
    have hpp : p.set A.cols cnt = (List.range (A.cols + 1)).map (tot R) := by
      refine ext_getD 0 (by simpa using h1) ?_
      intro m hm
      rw [List.length_set] at hm
      have e : ((List.range (A.cols + 1)).map (tot R)).getD m 0 = tot R m := by
        simp [List.getD_eq_getElem?_getD, show m < A.cols + 1 by omega]
      rw [getD_set, e]
      by_cases e : A.cols = m
      · rw [if_pos ⟨e, by omega⟩, h5, e]
      · rw [if_neg (by omega), h2 m (by omega)]
    have hpg : ∀ m, m ≤ A.cols → (p.set A.cols cnt).getD m 0 = tot R m := by
      intro m hm
      rw [hpp]
      simp [List.getD_eq_getElem?_getD, show m < A.cols + 1 by omega]
    refine ⟨rfl, rfl, ?_, ?_, ?_, h3, h4⟩
    · dsimp only
      rw [hpp]
      exact List.map_congr_left fun k _ => htR k
    · intro k hk
      rw [colRows_eq]
      dsimp only
      rw [hpg k (by omega), hpg (k + 1) (by omega)]
      exact slice_flatMap R hk (by rw [← h5, h6])
    · intro k hk
      rw [colVals_eq]
      dsimp only
      rw [hpg k (by omega), hpg (k + 1) (by omega), ← htX k (by omega), ← htX (k + 1) (by omega)]
      exact slice_flatMap X hk (by rw [htX _ (le_refl _), ← h5, h7])

end Verif.Sp
