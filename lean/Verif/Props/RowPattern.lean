import Verif.Proof.RowPattern
import Verif.Props.LFactor

/-!
# C79: the non-zeros of a row of the Cholesky factor, found with the elimination tree

`computeNoneZeroPatternOfRowK` of hdagg.  The matrix is given by the rows of its lower triangle; `Fill`
is the fill-in of the Cholesky factor and `IsEtree` its elimination tree.
-/

namespace Verif
open Res RowPat Relation

variable {g : Csc} {parent : List (Option Nat)}

/-- **C79.** Given the elimination tree, `computeNoneZeroPatternOfRowK` leaves in `s[top], …, s[n-1]`
the columns of the non-zeros of row `k` of the Cholesky factor, each of them once, then the diagonal
`k`; a column comes before the columns that depend on it.  The marks are clear afterwards and the last
entry of `s` is a node, which is what the next call needs.  No access is out of bounds when the
entry `s[n-1]` left from before is a node, and no assertion fails unless `n = 1`. -/
theorem C79_row (hg : g.WF) (hE : IsEtree g.RowEntry g.n fun j => parent.getD j none)
    (hpl : g.n ≤ parent.length) {k : Nat} (hk : k < g.n) (hlow : ∀ i ∈ g.col k, i ≤ k) {s : List Nat}
    (hs : g.n ≤ s.length) {debug : Bool} (hd : debug = false ∨ g.n ≠ 1)
    (hst : s.getD (g.n - 1) 0 < g.n) :
    ∃ top s' S, pattern debug g.n g.p g.i k parent s (List.replicate g.n false) =
        ok (top, s', List.replicate g.n false) ∧ s'.length = s.length ∧ top < g.n ∧
      slice s' top g.n = S ++ [k] ∧ s'.getD (g.n - 1) 0 = k ∧ S.Nodup ∧
      (∀ j, j ∈ S ↔ Fill g.RowEntry k j) ∧
      ∀ x y, x ∈ S → y ∈ S → Fill g.RowEntry y x → [x, y].Sublist S := by
  obtain ⟨top, s', S, h1, h2, h3, h4, h5, h6, h7⟩ := pattern_wp hg hE hpl hk hlow hs hd hst
  refine ⟨top, s', S, h1, h2, h3, h4, ?_, h5, h6, ?_⟩
  · have hl : (slice s' top g.n).length = g.n - top := slice_length (by omega)
    have hl' := hl
    rw [h4, List.length_append, List.length_singleton] at hl'
    have : (slice s' top g.n)[S.length]? = some k := by rw [h4]; simp
    rw [getElem?_slice, if_pos (by omega), show top + S.length = g.n - 1 by omega] at this
    rw [List.getD_eq_getElem?_getD, this]; rfl
  · intro x y hx hy hf
    obtain ⟨a, b, hab⟩ := List.append_of_mem hx
    have hyb := topo_order hE hk (fun j hj => (h6 j).1 hj) h7 hy _ a x b rfl hab hf
    rw [hab]
    refine List.Sublist.trans ?_ (List.sublist_append_right a (x :: b))
    exact (List.singleton_sublist.2 hyb).cons_cons x

/-- Calling the function for a list of rows, with the same `s` and `w`: the patterns. -/
def rowPatterns (debug : Bool) (g : Csc) (parent : List (Option Nat)) (rows s : List Nat) :
    Res (List (List Nat)) := do
  let r ← forEach rows (fun k (r : List (List Nat) × List Nat × List Bool) => do
    let t ← pattern debug g.n g.p g.i k parent r.2.1 r.2.2
    ok (r.1 ++ [slice t.2.1 t.1 g.n], t.2.1, t.2.2)) ([], s, List.replicate g.n false)
  ok r.1

/-- **C79**, for any sequence of rows with the same work arrays: all calls succeed, and the pattern of
each row is found. -/
theorem C79_rows (hg : g.WF) (hE : IsEtree g.RowEntry g.n fun j => parent.getD j none)
    (hpl : g.n ≤ parent.length) (hlow : ∀ k, k < g.n → ∀ i ∈ g.col k, i ≤ k) {s : List Nat}
    (hs : g.n ≤ s.length) {debug : Bool} (hd : debug = false ∨ g.n ≠ 1)
    (hst : s.getD (g.n - 1) 0 < g.n) {rows : List Nat} (hr : ∀ k ∈ rows, k < g.n) :
    ∃ out, rowPatterns debug g parent rows s = ok out ∧ out.length = rows.length ∧
      ∀ (q k : Nat), rows[q]? = some k → ∃ S, out[q]? = some (S ++ [k]) ∧ S.Nodup ∧
        ∀ j, j ∈ S ↔ Fill g.RowEntry k j := by
  have := forEach_wp (I := fun pre (r : List (List Nat) × List Nat × List Bool) =>
        r.1.length = pre.length ∧ g.n ≤ r.2.1.length ∧ r.2.1.getD (g.n - 1) 0 < g.n ∧
        r.2.2 = List.replicate g.n false ∧
        ∀ (q k : Nat), pre[q]? = some k → ∃ S, r.1[q]? = some (S ++ [k]) ∧ S.Nodup ∧
          ∀ j, j ∈ S ↔ Fill g.RowEntry k j)
      (f := fun k (r : List (List Nat) × List Nat × List Bool) => do
        let t ← pattern debug g.n g.p g.i k parent r.2.1 r.2.2
        ok (r.1 ++ [slice t.2.1 t.1 g.n], t.2.1, t.2.2)) rows [] ([], s, List.replicate g.n false) ?_ ?_
  · obtain ⟨⟨out, s', w'⟩, h1, h2, _, _, _, h3⟩ := wp_iff.1 this
    refine ⟨out, by unfold rowPatterns; rw [h1]; rfl, by simpa using h2, by simpa using h3⟩
  · exact ⟨rfl, hs, hst, rfl, by simp⟩
  · rintro p k q ⟨out, s1, w1⟩ he ⟨g1, g2, g3, g4, g5⟩
    dsimp only at g1 g2 g3 g4 g5 ⊢
    have hk : k < g.n := hr k (by rw [List.nil_append] at he; rw [he]; simp)
    obtain ⟨top, s', S, h1, h2, h3, h4, h5, h6, h7, _⟩ := C79_row hg hE hpl hk (hlow k hk) g2 hd g3
    rw [g4, h1, ok_bind, wp_ok]
    refine ⟨by simp [g1], by dsimp only; omega, by dsimp only; omega, rfl, ?_⟩
    intro r k' hr'
    dsimp only
    rcases Nat.lt_trichotomy r p.length with h | h | h
    · rw [List.getElem?_append_left h] at hr'
      rw [List.getElem?_append_left (by omega)]
      exact g5 r k' hr'
    · subst h
      rw [List.getElem?_append_right (Nat.le_refl _), Nat.sub_self] at hr'
      obtain rfl : k = k' := by simpa using hr'
      rw [List.getElem?_append_right (by omega), g1, Nat.sub_self]
      exact ⟨S, by rw [h4]; rfl, h6, h7⟩
    · rw [List.getElem?_append_right (by omega), List.getElem?_eq_none (by simp; omega)] at hr'
      cases hr'

/-- The elimination tree of `exRows`. -/
theorem exRows_etree : IsEtree exRows.RowEntry 4 fun j => [some 1, some 2, some 3, none].getD j none := by
  obtain ⟨r, h1, _, _, h4⟩ := C47_etree (g := exRows)
    ⟨by decide, by decide, by decide, by decide, by decide⟩ (by decide) true
  have h1' : Etree.buildETree true 4 exRows.p exRows.i = ok ([0, 2, 4, 6, 7], [0, 1, 1, 2, 2, 3, 3]) := by decide
  obtain rfl : _ = r := Res.ok.inj (h1'.symm.trans h1)
  intro j hj
  obtain ⟨q, hq, hd⟩ := h4 j hj
  have : q = [some 1, some 2, some 3, none].getD j none := by
    have hdep : ∀ j, j < 4 → ∀ v, v < 5 →
        ((treeGraph 4 ([0, 2, 4, 6, 7], [0, 1, 1, 2, 2, 3, 3])).Dep j v ↔
          [some 1, some 2, some 3, none].getD j none = some v) := by
      unfold Csc.Dep; decide
    cases q with
    | none =>
      have hj' : j < 4 := hj
      interval_cases j
      · exact absurd ((hd 1).1 ((hdep 0 (by decide) 1 (by decide)).2 rfl)) (by simp)
      · exact absurd ((hd 2).1 ((hdep 1 (by decide) 2 (by decide)).2 rfl)) (by simp)
      · exact absurd ((hd 3).1 ((hdep 2 (by decide) 3 (by decide)).2 rfl)) (by simp)
      · rfl
    | some v =>
      have hv : v < 5 := by
        have h : v < exRows.n := by have := hq.1; omega
        exact Nat.lt_succ_of_lt h
      exact ((hdep j hj v hv).1 ((hd v).2 rfl)).symm
  show IsEtreeParent exRows.RowEntry 4 j ([some 1, some 2, some 3, none].getD j none)
  rw [← this]
  exact hq

/-- Row 3 of the factor: column 1 is an entry of the matrix, column 2 is fill-in. -/
example : ∃ top s' S, pattern true 4 exRows.p exRows.i 3 [some 1, some 2, some 3, none] [0, 0, 0, 0]
        (List.replicate 4 false) = ok (top, s', List.replicate 4 false) ∧
      slice s' top 4 = S ++ [3] ∧ S = [1, 2] :=
  ⟨1, [1, 1, 2, 3], _, by decide +kernel, by decide, rfl⟩

example := C79_row (g := exRows) (parent := [some 1, some 2, some 3, none])
  ⟨by decide, by decide, by decide, by decide, by decide⟩ exRows_etree (by decide) (k := 3) (by decide)
  (by decide) (s := [0, 0, 0, 0]) (by decide) (debug := true) (.inr (by decide)) (by decide)

example := C79_rows (g := exRows) (parent := [some 1, some 2, some 3, none])
  ⟨by decide, by decide, by decide, by decide, by decide⟩ exRows_etree (by decide)
  (by decide) (s := [0, 0, 0, 0]) (by decide) (debug := true) (.inr (by decide)) (by decide)
  (rows := [3, 0, 2, 1]) (by decide)

/-- The entry `s[n-1]` is read before it is written: an uninitialised work array makes the function
access `w` out of bounds. -/
theorem C79_stale : pattern false 4 exRows.p exRows.i 3 [some 1, some 2, some 3, none] [0, 0, 0, 77]
    (List.replicate 4 false) = ub := by decide +kernel

/-- The assertion rejects matrices with one row. -/
theorem C79_one_row : pattern true 1 [0, 1] [0] 0 [none] [0] [false] = exn := by decide

/-- With an entry above the diagonal, the climb leaves the tree. -/
theorem C79_upper : pattern false 2 [0, 2, 3] [0, 1, 1] 0 [none, none] [0, 0] [false, false] = ub := by
  decide +kernel

end Verif
