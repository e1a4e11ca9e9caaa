import Verif.Proof.Counts3
import Verif.Props.LFactor
import Verif.Props.TreePost

/-!
# C63: row and column counts of the factor
-/

namespace Verif
open Res LFactor Relation

variable {V : Type} {A : Sp V} {parent : List (Option Nat)} {post : List Nat}

theorem height_depth {n : Nat} {par : Nat → Option Nat} (hf : Forest n par) {x : Nat} (hx : x < n) :
    ∃ d : Nat, Depth par x d ∧ height n par x - 1 = d := by
  generalize hm : n - x = m
  induction m using Nat.strongRecOn generalizing x with
  | ind m ih =>
    cases hp : par x with
    | none => exact ⟨0, Depth.root hp, by rw [height_root hx hp]; rfl⟩
    | some p =>
      have h := hf x p hx hp
      obtain ⟨d, h1, h2⟩ := ih (n - p) (by omega) h.2 rfl
      exact ⟨d + 1, Depth.child hp h1, by rw [height_par hf hx hp]; push_cast; omega⟩

theorem IsPostOrder.range_getD {n : Nat} {par : Nat → Option Nat} {before : Nat → Nat → Prop}
    (h : IsPostOrder n par before (post.take n)) :
    ∃ first, n ≤ post.length ∧ (Forest n par →
      PO n par (fun k => post.getD k 0) (fun x => (post.take n).idxOf x) first) := by
  have hlen : (post.take n).length = n := by have := h.perm.length_eq; simpa using this
  have hn : n ≤ post.length := by rw [List.length_take] at hlen; omega
  by_cases hf : Forest n par
  · obtain ⟨first, hPO⟩ := h.po hf
    refine ⟨first, hn, fun _ => ?_⟩
    have hget : ∀ k, k < n → (post.take n).getD k 0 = post.getD k 0 := by
      intro k hk
      rw [List.getD_eq_getElem?_getD, List.getElem?_take, if_pos hk, ← List.getD_eq_getElem?_getD]
    refine ⟨hPO.forest, ?_, hPO.pos_lt, ?_, ?_, hPO.sub⟩
    · intro k hk
      have := hPO.node_lt k hk
      rw [hget k hk] at this
      exact this
    · intro k hk
      have := hPO.pos_node k hk
      rw [hget k hk] at this
      exact this
    · intro x hx
      have := hPO.node_pos x hx
      rw [hget _ (hPO.pos_lt x hx)] at this
      exact this
  · exact ⟨fun _ => 0, hn, fun h => absurd h hf⟩

/-- **C63.** For a symmetric matrix of which the lower triangle is stored, its elimination tree and any
post order of it, `row_col_counts_symmetric` returns true and
* `ColCount[j]` is the number of non-zeros of column `j` of the Cholesky factor with the diagonal,
* `RowCount[i]` is the number of non-zeros of row `i` with the diagonal (it may be a null pointer),
* `First[i]` is the first position in the post order of a descendant of `i`,
* `Level[i]` is the distance of `i` from its root,
* `fl` is the sum of the squares of the column counts. -/
theorem C63_counts (hA : A.PatWF) (hsq : A.rows = A.cols) {stype : Int} (hst : stype < 0)
    (hE : IsEtree A.LowerEntry A.cols fun j => parent.getD j none) (hpl : A.cols ≤ parent.length)
    {before : Nat → Nat → Prop}
    (hpost : IsPostOrder A.cols (fun j => parent.getD j none) before (post.take A.cols))
    {row : Option (List Int)} (hrow : ∀ r, row = some r → A.cols ≤ r.length)
    {col : List Int} (hcol : A.cols ≤ col.length)
    {first : List (Option Nat)} (hfirst : A.cols ≤ first.length)
    {level : List Int} (hlevel : A.cols ≤ level.length) :
    ∃ r, rowColCounts A.cols stype A.p A.i parent post row col first level = ok (some r) ∧
      (∀ j, j < A.cols → r.col.getD j 0 = (factorCol A.LowerEntry A.cols j).length) ∧
      (r.row = none ↔ row = none) ∧
      (∀ rc, r.row = some rc → ∀ i, i < A.cols →
        rc.getD i 0 = (factorRow A.LowerEntry A.cols i).length) ∧
      (∀ i, i < A.cols → ∃ f x, r.first.getD i none = some f ∧ (post.take A.cols)[f]? = some x ∧
        ReflTransGen (ChildOf A.cols fun j => parent.getD j none) x i ∧
        ∀ g y, (post.take A.cols)[g]? = some y →
          ReflTransGen (ChildOf A.cols fun j => parent.getD j none) y i → f ≤ g) ∧
      (∀ i, i < A.cols → ∃ d : Nat, r.level.getD i 0 = d ∧ Depth (fun j => parent.getD j none) i d) ∧
      r.fl = ((List.range A.cols).map fun j =>
        ((factorCol A.LowerEntry A.cols j).length : Int) ^ 2).sum := by
  have hf := hE.forest
  obtain ⟨fst, hn, hPO⟩ := hpost.range_getD
  have hPO := hPO hf
  obtain ⟨r, h1, _, h3, h4, h5, h6, h7, h8⟩ := rowColCounts_wp (parent := parent) hA hsq hst hPO hE hpl hn hrow hcol
    hfirst hlevel
  refine ⟨r, h1, h3, ?_, fun rc hrc => (h5 rc hrc).2, ?_, ?_, ?_⟩
  · rw [← Option.not_isSome_iff_eq_none, h4, Option.not_isSome_iff_eq_none]
  · intro i hi
    have hfi := hPO.first_le hi
    have hpi := hPO.pos_lt i hi
    have hget : ∀ k, k < A.cols → (post.take A.cols)[k]? = some (post.getD k 0) := by
      intro k hk
      rw [List.getElem?_take, if_pos hk, getElem?_getD 0 (by omega)]
    refine ⟨fst i, post.getD (fst i) 0, h6 i hi, hget _ (by omega), hPO.first_sub hi, ?_⟩
    intro g y hg hy
    have hg' : g < A.cols := by
      have := (List.getElem?_eq_some_iff.1 hg).1
      rw [List.length_take] at this
      omega
    rw [hget g hg'] at hg
    obtain rfl := Option.some.inj hg
    have h9 := hPO.le_pos hy hi
    have h10 := hPO.pos_node g hg'
    omega
  · intro i hi
    obtain ⟨d, g1, g2⟩ := height_depth hf hi
    exact ⟨d, (h7 i hi).trans g2, g1⟩
  · rw [h8, ← List.sum_toFinset _ List.nodup_range]
    refine Finset.sum_congr ?_ ?_
    · ext x; simp
    · intro x _; ring

/-- **C63.** Other matrices are refused. -/
theorem C63_not_lower (n : Nat) {stype : Int} (hst : 0 ≤ stype) (ap ai : List Nat)
    (parent : List (Option Nat)) (post : List Nat) (row : Option (List Int)) (col : List Int)
    (first : List (Option Nat)) (level : List Int) :
    rowColCounts n stype ap ai parent post row col first level = ok none := if_pos hst

/-- The lower triangle of the arrow matrix of `exUpper`. -/
def exLower : Sp Unit := ⟨4, 4, [0, 3, 5, 6, 7], [0, 1, 2, 1, 3, 2, 3], []⟩

theorem exLower_etree : IsEtree exLower.LowerEntry 4
    fun j => [some 1, some 2, some 3, none].getD j none := by
  have : exLower.LowerEntry = exUpper.UpperEntry := by
    funext k i
    apply propext
    unfold Sp.LowerEntry Sp.UpperEntry
    constructor
    · rintro ⟨h1, h2⟩
      change i < 4 at h1
      change k < 4 ∧ _
      interval_cases i <;> simp [exLower, Sp.colRows] at h2 <;>
        (try rcases h2 with rfl | rfl | rfl) <;>
        simp [exUpper, Sp.colRows]
    · rintro ⟨h1, h2⟩
      change k < 4 at h1
      change i < 4 ∧ _
      interval_cases k <;> simp [exUpper, Sp.colRows] at h2 <;>
        (try rcases h2 with rfl | rfl | rfl) <;>
        simp [exLower, Sp.colRows]
  rw [this]
  exact exUpper_etree

theorem exLower_post : IsPostOrder 4 (fun j => [some 1, some 2, some 3, none].getD j none) (· < ·)
    ([0, 1, 2, 3].take 4) := by
  obtain ⟨post', h1, _, h2⟩ := C43_tree_post_order (debug := true) (n := 4) (by decide)
    (parent := [some 1, some 2, some 3, none]) (by decide) exLower_etree.forest
    (post := List.replicate 4 0) (by decide)
  have : TreePost.treePostOrder true 4 [some 1, some 2, some 3, none] none (List.replicate 4 0)
      = ok (4, [0, 1, 2, 3]) := by decide
  rw [this] at h1
  obtain ⟨_, rfl⟩ := Prod.mk.inj (Res.ok.inj h1)
  exact h2

/-- C63 applies to the arrow matrix. -/
example := C63_counts (A := exLower) (parent := [some 1, some 2, some 3, none]) (post := [0, 1, 2, 3])
  (by refine ⟨?_, ?_, ?_, ?_, ?_⟩ <;> decide) rfl (stype := -1) (by decide) exLower_etree (by decide)
  exLower_post (row := some [0, 0, 0, 0]) (by rintro r ⟨⟩; decide) (col := [0, 0, 0, 0]) (by decide)
  (first := [none, none, none, none]) (by decide) (level := [0, 0, 0, 0]) (by decide)

/-- The counts of the arrow matrix, with the fill-in `(2,1)` and `(3,2)`. -/
example : rowColCounts 4 (-1) exLower.p exLower.i [some 1, some 2, some 3, none] [0, 1, 2, 3]
      (some [0, 0, 0, 0]) [9, 9, 9, 9] [none, none, none, none] [9, 9, 9, 9]
    = ok (some ⟨[3, 3, 2, 1], some [1, 2, 3, 3], [some 0, some 0, some 0, some 0], [3, 2, 1, 0], 23⟩) := by
  decide +kernel

/-- A matrix with a branching elimination tree, where the union-find structure is used: the entries
below the diagonal are `(2,0)`, `(2,1)`, `(4,0)`, `(4,1)`, `(4,3)` and `(5,2)`. -/
def exBranch : Sp Unit := ⟨6, 6, [0, 3, 6, 8, 10, 11, 12],
  [0, 2, 4, 1, 2, 4, 2, 5, 3, 4, 4, 5], []⟩

example : rowColCounts 6 (-1) exBranch.p exBranch.i
      [some 2, some 2, some 4, some 4, some 5, none] [0, 1, 2, 3, 4, 5]
      (some (List.replicate 6 0)) (List.replicate 6 9) (List.replicate 6 none) (List.replicate 6 9)
    = ok (some ⟨[3, 3, 3, 2, 2, 1], some [1, 1, 3, 1, 5, 3],
        [some 0, some 1, some 0, some 3, some 0, some 0], [3, 3, 2, 2, 1, 0], 36⟩) := by
  decide +kernel

end Verif
