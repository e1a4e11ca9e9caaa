import Verif.Spec.Sparse
import Verif.Proof.Bucket
import Verif.Proof.Blocks

/-! # Loops over the entries of a sparse matrix -/

namespace Verif.Sp
open Res

variable {V : Type} {A : Sp V}

theorem _root_.Verif.getElem?_getD {α : Type _} {l : List α} {j : Nat} (d : α)
    (h : j < l.length) : l[j]? = some (l.getD j d) := by
  rw [List.getD_eq_getElem?_getD, List.getElem?_eq_getElem h]; rfl

/-- Row of a tagged entry. -/
abbrev eRow (e : (Nat × Nat) × Nat) : Nat := e.1.1
/-- Column of a tagged entry. -/
abbrev eCol (e : (Nat × Nat) × Nat) : Nat := e.1.2

/-- Stored entries with their storage position. -/
def tagged (A : Sp V) : List ((Nat × Nat) × Nat) := A.coords.zipIdx

theorem PatWF.mono_le (h : PatWF A) {a b : Nat} (hab : a ≤ b) (hb : b ≤ A.cols) :
    A.p.getD a 0 ≤ A.p.getD b 0 := by
  induction b with
  | zero => have : a = 0 := by omega
            rw [this]
  | succ b ih =>
    by_cases hab' : a ≤ b
    · exact (ih hab' (by omega)).trans (h.mono b (by omega))
    · rw [show a = b + 1 by omega]

theorem PatWF.le_len (h : PatWF A) {a : Nat} (ha : a ≤ A.cols) : A.p.getD a 0 ≤ A.i.length :=
  (h.mono_le ha (le_refl _)).trans h.bound

theorem colRows_eq (A : Sp V) (c : Nat) :
    A.colRows c = slice A.i (A.p.getD c 0) (A.p.getD (c + 1) 0) := rfl

theorem colVals_eq (A : Sp V) (c : Nat) :
    A.colVals c = slice A.x (A.p.getD c 0) (A.p.getD (c + 1) 0) := rfl

/-- The coordinates of the first `c` columns. -/
def coordsTo (A : Sp V) (c : Nat) : List (Nat × Nat) :=
  (List.range c).flatMap fun c => (A.colRows c).map fun r => (r, c)

theorem coordsTo_succ (A : Sp V) (c : Nat) :
    A.coordsTo (c + 1) = A.coordsTo c ++ (A.colRows c).map fun r => (r, c) := by
  simp [coordsTo, List.range_succ]

theorem coordsTo_length (h : PatWF A) {c : Nat} (hc : c ≤ A.cols) :
    (A.coordsTo c).length = A.p.getD c 0 := by
  induction c with
  | zero => rw [h.p0]; rfl
  | succ c ih =>
    rw [coordsTo_succ, List.length_append, ih (by omega), List.length_map, colRows_eq,
      slice_length (h.le_len hc)]
    have := h.mono c (by omega)
    omega

theorem coordsTo_cols (A : Sp V) : A.coordsTo A.cols = A.coords := rfl

theorem coordsTo_prefix (A : Sp V) {a b : Nat} (h : a ≤ b) : A.coordsTo a <+: A.coordsTo b := by
  induction b with
  | zero => have : a = 0 := by omega
            rw [this]; exact List.prefix_refl _
  | succ b ih =>
    by_cases hab : a ≤ b
    · exact (ih hab).trans (by rw [coordsTo_succ]; exact List.prefix_append _ _)
    · rw [show a = b + 1 by omega]; exact List.prefix_refl _

theorem tagged_length (h : PatWF A) : A.tagged.length = A.p.getD A.cols 0 := by
  unfold tagged
  rw [List.length_zipIdx, ← coordsTo_cols, coordsTo_length h (le_refl _)]

/-- The entry at storage position `j` of column `c`. -/
theorem tagged_get (h : PatWF A) {c j : Nat} (hc : c < A.cols) (h1 : A.p.getD c 0 ≤ j)
    (h2 : j < A.p.getD (c + 1) 0) : A.tagged[j]? = some ((A.i.getD j 0, c), j) := by
  have hlen := h.le_len (a := c + 1) (by omega)
  have hl := coordsTo_length h (c := c) (by omega)
  have e : A.coords[j]? = some (A.i.getD j 0, c) := by
    obtain ⟨t, ht⟩ := coordsTo_prefix A (a := c + 1) (b := A.cols) (by omega)
    rw [← coordsTo_cols, ← ht, List.getElem?_append_left (by
      rw [coordsTo_length h (by omega)]; exact h2), coordsTo_succ,
      List.getElem?_append_right (by omega), hl, List.getElem?_map, colRows_eq, getElem?_slice,
      if_pos (by omega), show A.p.getD c 0 + (j - A.p.getD c 0) = j by omega,
      List.getElem?_eq_getElem (by omega), List.getD_eq_getElem?_getD,
      List.getElem?_eq_getElem (by omega)]
    rfl
  unfold tagged
  rw [List.getElem?_zipIdx, e]
  simp

/-- Every stored entry comes from a column. -/
theorem tagged_inv (h : PatWF A) {j : Nat} {e : (Nat × Nat) × Nat} (he : A.tagged[j]? = some e) :
    e.2 = j ∧ eCol e < A.cols ∧ eRow e = A.i.getD j 0 ∧ A.p.getD (eCol e) 0 ≤ j ∧
      j < A.p.getD (eCol e + 1) 0 ∧ eRow e < A.rows := by
  have hj : j < A.p.getD A.cols 0 := by
    rw [← tagged_length h]; exact (List.getElem?_eq_some_iff.1 he).1
  have hex : ∃ c, c < A.cols ∧ A.p.getD c 0 ≤ j ∧ j < A.p.getD (c + 1) 0 := by
    have : ∀ m, m ≤ A.cols → j < A.p.getD m 0 → ∃ c, c < m ∧ A.p.getD c 0 ≤ j ∧
        j < A.p.getD (c + 1) 0 := by
      intro m
      induction m with
      | zero => intro _ hm; rw [h.p0] at hm; omega
      | succ m ih =>
        intro hm hjm
        by_cases hlt : j < A.p.getD m 0
        · obtain ⟨c, h1, h2⟩ := ih (by omega) hlt
          exact ⟨c, by omega, h2⟩
        · exact ⟨m, by omega, by omega, hjm⟩
    exact this A.cols (le_refl _) hj
  obtain ⟨c, hc, h1, h2⟩ := hex
  rw [tagged_get h hc h1 h2] at he
  cases he
  refine ⟨rfl, hc, rfl, h1, h2, ?_⟩
  refine h.range c hc _ ?_
  rw [colRows_eq]
  have := h.le_len (a := c + 1) (by omega)
  rw [mem_slice]
  refine ⟨j, h1, h2, ?_⟩
  rw [List.getElem?_eq_getElem (by omega), List.getD_eq_getElem?_getD,
    List.getElem?_eq_getElem (by omega)]
  rfl

/-- Invariant rule for `for c { for j in column c { ... } }`: the invariant sees the entries already
processed. -/
theorem forCols_wp (h : PatWF A) {σ : Type} (I : List ((Nat × Nat) × Nat) → σ → Prop)
    {body : Nat → Nat → σ → Res σ} {s : σ} (h0 : I [] s)
    (hstep : ∀ pre post r c j s, A.tagged = pre ++ ((r, c), j) :: post → pre.length = j →
      c < A.cols → A.i[j]? = some r → I pre s → wp (body c j s) (I (pre ++ [((r, c), j)]))) :
    wp (forRange 0 A.cols (fun c s => do
      let lo ← rd A.p c
      let hi ← rd A.p (c + 1)
      forRange lo hi (body c) s) s) (I A.tagged) := by
  have hpl := h.plen
  refine forRange_wp' (fun c s => I (A.tagged.take (A.p.getD c 0)) s) (Nat.zero_le _) ?_ ?_ ?_
  · rw [h.p0]; simpa using h0
  · intro c s _ hc hI
    rw [rd_getD 0 (by omega), rd_getD 0 (by omega)]
    simp only [ok_bind]
    refine forRange_wp' (fun j s => I (A.tagged.take j) s) (h.mono c hc) hI ?_ (fun _ h => h)
    intro j s h1 h2 hI
    have hg := tagged_get h hc h1 h2
    have hlt := (List.getElem?_eq_some_iff.1 hg).1
    have hlen := h.le_len (a := c + 1) (by omega)
    have he : A.tagged = A.tagged.take j ++ ((A.i.getD j 0, c), j) :: A.tagged.drop (j + 1) := by
      have := (List.getElem?_eq_some_iff.1 hg).2
      conv_lhs => rw [← List.take_append_drop j A.tagged, List.drop_eq_getElem_cons hlt, this]
    have := hstep _ _ _ c j s he (by rw [List.length_take]; omega) hc (by
      rw [List.getElem?_eq_getElem (by omega), List.getD_eq_getElem?_getD,
        List.getElem?_eq_getElem (by omega)]; rfl) hI
    refine wp_mono this ?_
    intro s' hs'
    rw [List.take_add_one, hg]
    exact hs'
  · intro s hs
    rwa [← tagged_length h, List.take_length] at hs

/-- Entries in terms of tagged coordinates. -/
theorem entries_eq [Zero V] (h : WF A) :
    A.entries = A.tagged.map fun e => (e.1.1, e.1.2, A.x.getD e.2 0) := by
  have hp := h.toPatWF
  have key : ∀ c, c ≤ A.cols → (List.range c).flatMap (fun c =>
      ((A.colRows c).zip (A.colVals c)).map fun e => (e.1, c, e.2))
      = (A.tagged.take (A.p.getD c 0)).map fun e => (e.1.1, e.1.2, A.x.getD e.2 0) := by
    intro c
    induction c with
    | zero => intro _; rw [hp.p0]; rfl
    | succ c ih =>
      intro hc
      have hmono := hp.mono c (by omega)
      have hle := hp.le_len (a := c + 1) hc
      have hxl : A.p.getD (c + 1) 0 ≤ A.x.length := (hp.mono_le hc (le_refl _)).trans h.xlen
      rw [List.range_succ, List.flatMap_append, ih (by omega)]
      simp only [List.flatMap_cons, List.flatMap_nil, List.append_nil]
      have e : A.tagged.take (A.p.getD (c + 1) 0) = A.tagged.take (A.p.getD c 0) ++
          slice A.tagged (A.p.getD c 0) (A.p.getD (c + 1) 0) := by
        rw [← slice_zero, ← slice_zero, slice_append (Nat.zero_le _) hmono]
      rw [e, List.map_append]
      congr 1
      apply List.ext_getElem?
      intro k
      rw [List.getElem?_map, List.getElem?_map, getElem?_slice, colRows_eq, colVals_eq,
        List.zip_eq_zipWith, List.getElem?_zipWith, getElem?_slice, getElem?_slice]
      by_cases hk : A.p.getD c 0 + k < A.p.getD (c + 1) 0
      · rw [if_pos hk, if_pos hk, if_pos hk, tagged_get hp (by omega) (by omega) hk,
          getElem?_getD 0 (by omega), getElem?_getD 0 (by omega)]
        rfl
      · rw [if_neg hk, if_neg hk, if_neg hk]; rfl
  have := key A.cols (le_refl _)
  rwa [← tagged_length hp, List.take_length] at this

end Verif.Sp
