import Verif.Proof.LPattern
import Verif.Props.Etree

/-!
# C61, C62: rows and columns of the symbolic factor
-/

namespace Verif
open Res LFactor Relation

variable {V : Type} {A : Sp V} {parent : List (Option Nat)}

/-- In a list where each node is followed by its parent, a node of column `x` of the factor follows
`x`. -/
theorem topo_order {E : Nat → Nat → Prop} {n k : Nat} {par : Nat → Option Nat} (hE : IsEtree E n par)
    (hk : k < n) {S : List Nat} (hS : ∀ j ∈ S, Fill E k j) (ht : Topo par k S) {y : Nat} (hy : y ∈ S) :
    ∀ d a x b, k - x = d → S = a ++ x :: b → Fill E y x → y ∈ b := by
  have hyk := (hS y hy).lt
  intro d
  induction d using Nat.strongRecOn with
  | ind d ih =>
    intro a x b hd hab hf
    obtain ⟨p, hp, hpy, hpf⟩ := hE.step (Nat.lt_trans hyk hk) hf
    obtain ⟨p', hp', hm⟩ := ht a x b hab
    rw [hp] at hp'
    obtain rfl := Option.some.inj hp'
    have hxp := (hE.forest x p (by have := hf.lt; omega) hp).1
    have hpb : p ∈ b := hm.resolve_left (by omega)
    by_cases e : p = y
    · exact e ▸ hpb
    · obtain ⟨b1, b2, hb⟩ := List.append_of_mem hpb
      have := ih (k - p) (by omega) (a ++ x :: b1) p b2 rfl (by rw [hab, hb]; simp) (hpf e)
      rw [hb]; simp [this]

/-- **C61.** For a symmetric matrix of which the upper triangle is stored and its elimination tree,
`ereach` returns the pattern of row `k` of the Cholesky factor in `s[top..n-1]`: every column exactly
once, and in an order in which a triangular solve can use them (if column `x` updates column `y`, then
`x` comes first).  The marks `w` are as before, so that the next row can be computed. -/
theorem C61_ereach (hA : A.PatWF)
    (hE : IsEtree A.UpperEntry A.cols fun j => parent.getD j none) (hpl : A.cols ≤ parent.length)
    {k : Nat} (hk : k < A.cols) {s : List Nat} {w : List Int} (hs : A.cols ≤ s.length)
    (hw : A.cols ≤ w.length) (hw0 : ∀ x, x < A.cols → 0 ≤ w.getD x 0) :
    ∃ top s', ereach A.cols A.p A.i k parent s w = ok (top, s', w) ∧ s'.length = s.length ∧
      top ≤ A.cols ∧ (slice s' top A.cols).Nodup ∧
      (∀ j, j ∈ slice s' top A.cols ↔ Fill A.UpperEntry k j) ∧
      ∀ x y, x ∈ slice s' top A.cols → y ∈ slice s' top A.cols → Fill A.UpperEntry y x →
        [x, y].Sublist (slice s' top A.cols) := by
  obtain ⟨top, s', h1, h2, h3, h4, h5, h6⟩ := ereach_wp hA hE hpl hk hs hw hw0
  refine ⟨top, s', h1, h2, h3, h4, h5, ?_⟩
  intro x y hx hy hf
  obtain ⟨a, b, hab⟩ := List.append_of_mem hx
  have hyb := topo_order hE hk (fun j hj => (h5 j).1 hj) h6 hy _ a x b rfl hab hf
  rw [hab]
  refine List.Sublist.trans ?_ (List.sublist_append_right a (x :: b))
  exact (List.singleton_sublist.2 hyb).cons_cons x

/-- **C61**, with the elimination tree computed by `compute_etree`. -/
theorem C61_after_etree (hA : A.PatWF) (hsq : A.rows = A.cols) {stype : Int} (hst : 0 < stype)
    {buf : List (Option Nat)} (hb : A.cols ≤ buf.length)
    {k : Nat} (hk : k < A.cols) :
    ∃ par top s, Etree.computeEtree stype A.rows A.cols A.p A.i buf = ok (true, par) ∧
      ereach A.cols A.p A.i k par (List.replicate A.cols 0) (List.replicate A.cols 0)
        = ok (top, s, List.replicate A.cols 0) ∧
      (slice s top A.cols).Nodup ∧ ∀ j, j ∈ slice s top A.cols ↔ Fill A.UpperEntry k j := by
  obtain ⟨par, h1, h2, h3, _⟩ := C32_compute_etree hA hsq hst hb
  obtain ⟨top, s, g1, _, _, g4, g5, _⟩ := C61_ereach hA (parent := par) h2 (by omega) hk
    (s := List.replicate A.cols 0) (w := List.replicate A.cols 0) (by simp) (by simp)
    (fun x hx => by rw [getD_replicate _ _ _ _ hx])
  exact ⟨par, top, s, h1, g1, g4, g5⟩

/-- **C62.** Given the elimination tree and the column counts of the Cholesky factor,
`build_L_pattern_from_col_counts` returns its pattern: column `j` consists of exactly the rows of the
non-zeros of column `j` of the factor, with the diagonal, in ascending order.  No array is accessed out
of bounds, no assertion fails, and every index of `L` is written whatever the new array contained.
`accessed_nnz[k]` is the number of entries of `A` in the columns of row `k` of the factor. -/
theorem C62_pattern (hA : A.PatWF) (debug : Bool)
    (hE : IsEtree A.UpperEntry A.cols fun j => parent.getD j none) (hpl : A.cols ≤ parent.length)
    {count acc : List Nat} (hcl : A.cols ≤ count.length) (hal : A.cols ≤ acc.length)
    (hcount : ∀ j, j < A.cols → count.getD j 0 = (factorCol A.UpperEntry A.cols j).length)
    (garbage : Nat → Nat) (x : List V) :
    ∃ lp li acc', buildPattern debug A.cols A.p A.i count parent acc garbage = ok (lp, li, acc') ∧
      (⟨A.cols, A.cols, lp, li, x⟩ : Sp V).PatWF ∧ li.length = lp.getD A.cols 0 ∧
      (∀ j, j < A.cols →
        (⟨A.cols, A.cols, lp, li, x⟩ : Sp V).colRows j = factorCol A.UpperEntry A.cols j) ∧
      ∀ k, k < A.cols → acc'.getD k 0
        = ((factorRow A.UpperEntry A.cols k).map fun j => (A.colRows j).length).sum := by
  obtain ⟨lp, li, acc', h1, h2, h3, h4, _, h6, _⟩ :=
    buildPattern_wp hA debug hE hpl hcl hal hcount garbage
  refine ⟨lp, li, acc', h1, ⟨h2.len, h2.zero, ?_, ?_, ?_⟩, h3, h4, h6⟩
  · intro c hc
    rw [h2.succ c hc]
    exact Nat.le_add_right _ _
  · exact h3.symm.le
  · intro c hc r hr
    have := h4 c hc
    change r ∈ slice li (lp.getD c 0) (lp.getD (c + 1) 0) at hr
    rw [this] at hr
    exact (mem_factorCol.1 hr).1

/-- The elimination tree of `exUpper`. -/
theorem exUpper_etree : IsEtree exUpper.UpperEntry 4
    fun j => [some 1, some 2, some 3, none].getD j none := by
  obtain ⟨par, h1, h2, _⟩ := C32_compute_etree (A := exUpper)
    (by refine ⟨?_, ?_, ?_, ?_, ?_⟩ <;> decide) rfl (stype := 1) (by decide)
    (parent := List.replicate 4 none) (by decide)
  have : Etree.computeEtree 1 exUpper.rows exUpper.cols exUpper.p exUpper.i (List.replicate 4 none)
      = ok (true, [some 1, some 2, some 3, none]) := by decide +kernel
  rw [this] at h1
  obtain ⟨_, rfl⟩ := Prod.mk.inj (Res.ok.inj h1)
  exact h2

/-- Row 2 of the factor of the arrow matrix has the fill-in `(2,1)`; row 3 is `{1, 2}`. -/
example : (ereach 4 exUpper.p exUpper.i 2 [some 1, some 2, some 3, none] [9, 9, 9, 9] [0, 0, 0, 0]
      = ok (2, [0, 1, 0, 1], [0, 0, 0, 0])) ∧
    ereach 4 exUpper.p exUpper.i 3 [some 1, some 2, some 3, none] [9, 9, 9, 9] [0, 0, 0, 0]
      = ok (2, [1, 2, 1, 2], [0, 0, 0, 0]) := by
  decide +kernel

/-- C61 applies to it. -/
example := C61_ereach (A := exUpper) (parent := [some 1, some 2, some 3, none])
  (by refine ⟨?_, ?_, ?_, ?_, ?_⟩ <;> decide) exUpper_etree (by decide) (k := 2) (by decide)
  (s := [9, 9, 9, 9]) (w := [0, 0, 0, 0]) (by decide) (by decide) (by decide)

/-- The pattern of the factor of the arrow matrix, with the fill-in `(2,1)` and `(3,2)`. -/
example : buildPattern true 4 exUpper.p exUpper.i [3, 3, 2, 1] [some 1, some 2, some 3, none]
      [0, 0, 0, 0] (fun k => k + 77)
    = ok ([0, 3, 6, 8, 9], [0, 1, 2, 1, 2, 3, 2, 3, 3], [1, 3, 5, 6]) := by
  decide +kernel

end Verif
