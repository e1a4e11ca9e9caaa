import Verif.Proof.TransSym
import Verif.Props.SparsePerm

/-!
# Property C60: `transpose_symmetric`
-/

namespace Verif
open Res Sp TransSym

/-- The coordinate lies in the stored triangle: the upper one for a positive `stype`, else the
lower one. -/
def inTriangle (stype : Int) (r c : Nat) : Bool := if 0 < stype then decide (r ≤ c) else decide (c ≤ r)

/-- The two indices of an entry of a symmetric matrix, after renumbering by `π`, as a coordinate of
the triangle `stype` does not describe. -/
def otherTriangle (stype : Int) (π : Nat → Nat) (r c : Nat) : Nat × Nat :=
  if 0 < stype then (max (π r) (π c), min (π r) (π c)) else (min (π r) (π c), max (π r) (π c))

theorem keep_eq (stype : Int) (r c : Nat) : keep (!decide (0 < stype)) r c = inTriangle stype r c := by
  unfold keep inTriangle
  by_cases h : 0 < stype <;> simp [h]

variable {V : Type}

theorem IsPerm.inverse {perm : Option (List Nat)} {n : Nat} (h : IsPerm perm n) {π : Nat → Nat}
    (hπ : ∀ j, j < n → π (app perm j) = j) : ∀ i, i < n → π i < n := by
  intro i hi
  have := (IsPerm.map_range h).mem_iff.2 (List.mem_range.2 hi)
  obtain ⟨j, hj, rfl⟩ := List.mem_map.1 this
  rw [List.mem_range] at hj
  rw [hπ j hj]; exact hj

/-- The inverse permutation as the code reads it. -/
theorem pinv_spec {perm : Option (List Nat)} {n : Nat} (h : IsPerm perm n) {π : Nat → Nat}
    (hπ : ∀ j, j < n → π (app perm j) = j) :
    ∃ pinv, buildPinv n perm = ok (Ctl.next pinv) ∧ ∀ i, i < n → newRow pinv i = ok (π i) := by
  cases perm with
  | none =>
    refine ⟨none, rfl, ?_⟩
    intro i hi
    have := hπ i hi
    show ok i = ok (π i)
    rw [show π i = i from this]
  | some l =>
    obtain ⟨pinv, h1, h2, h3⟩ := buildPinv_ok h
    refine ⟨some pinv, h1, ?_⟩
    intro i hi
    have := (IsPerm.map_range h).mem_iff.2 (List.mem_range.2 hi)
    obtain ⟨j, hj, rfl⟩ := List.mem_map.1 this
    rw [List.mem_range] at hj
    unfold newRow
    dsimp only
    rw [rd_getD none (by rw [h2]; exact hi), ok_bind, show app (some l) j = l.getD j 0 from rfl,
      h3 j hj]
    have := hπ j hj
    rw [show app (some l) j = l.getD j 0 from rfl] at this
    rw [this]

theorem target_other {permute : Bool} {stype : Int} {π : Nat → Nat} {r c : Nat}
    (hp : permute = false → π r = r ∧ π c = c) (hk : inTriangle stype r c = true) :
    ((target permute (decide (0 < stype)) (π r) (π c)).2,
      (target permute (decide (0 < stype)) (π r) (π c)).1) = otherTriangle stype π r c := by
  unfold target otherTriangle
  unfold inTriangle at hk
  cases permute with
  | true =>
    by_cases h : 0 < stype
    · simp only [h, decide_true, if_true]
      split <;> simp <;> omega
    · simp only [h, decide_false, if_true, Bool.false_eq_true, if_false]
      split <;> simp <;> omega
  | false =>
    obtain ⟨h1, h2⟩ := hp rfl
    by_cases h : 0 < stype
    · simp [h] at hk
      simp [h, h1, h2]; omega
    · simp [h] at hk
      simp [h, h1, h2]; omega

/-- What the call does, with the sorted items. -/
theorem C60_call [Zero V] {A : Sp V} {stype : Int} {nnz : Nat} {pat : Bool}
    {perm : Option (List Nat)} {π : Nat → Nat} (h : A.PatWF)
    (hx : pat = false → A.p.getD A.cols 0 ≤ A.x.length) (hsq : A.rows = A.cols) (hc : 0 < A.cols)
    (hs : stype ≠ 0) (hn : A.p.getD A.cols 0 ≤ nnz) (hq : IsPerm perm A.cols)
    (hπ : ∀ j, j < A.cols → π (app perm j) = j) :
    ∃ F, transposeSymmetric A stype nnz pat perm = ok (some (F, -stype)) ∧
      F.rows = A.cols ∧ F.cols = A.cols ∧ F.i.length = nnz ∧ F.x.length = nnz ∧
      FromItems pat F (tKey perm.isSome (decide (0 < stype)))
        (tRow perm.isSome (decide (0 < stype))) A.eVal
        (items A A.cols (ren perm) (decide (0 < stype)) π) ∧
      (items A A.cols (ren perm) (decide (0 < stype)) π).Perm
        ((A.tagged.filter fun e => inTriangle stype (eRow e) (eCol e)).map
          fun e => ((π (eRow e), π (eCol e)), e.2)) := by
  obtain ⟨pinv, hb, hpi⟩ := pinv_spec hq hπ
  have hip := items_perm h (upper := decide (0 < stype)) (IsPerm.map_range hq) hπ
  simp only [keep_eq] at hip
  have hlen : (items A A.cols (ren perm) (decide (0 < stype)) π).length ≤ nnz := by
    rw [hip.length_eq, List.length_map]
    refine (List.length_filter_le _ _).trans ?_
    rw [tagged_length h]; exact hn
  have hlen' := IsPerm.len hq
  obtain ⟨F, h1, h2, h3, h4, h5, h6⟩ := transposeSymmetric_wp (pat := pat) h hsq hc hs hx hb
    (fun j hj => renRd_eq fun l hl => by have := hlen' l hl; omega)
    (fun j hj => IsPerm.lt hq hj) hpi (IsPerm.inverse hq hπ) hlen
  exact ⟨F, h1, h2, h3, h4, h5, h6, hip⟩

theorem unpermuted {perm : Option (List Nat)} {n : Nat} {π : Nat → Nat}
    (hπ : ∀ j, j < n → π (app perm j) = j) {r c : Nat} (hr : r < n) (hc : c < n) :
    perm.isSome = false → π r = r ∧ π c = c := by
  intro hp
  cases perm with
  | some l => cases hp
  | none => exact ⟨hπ r hr, hπ c hc⟩

/-- **C60.** `transpose_symmetric` on a symmetric matrix of which one triangle is stored (entries of
the other triangle are ignored), with an optional permutation `perm` (`π` is its inverse): the
result is the symmetrically permuted matrix, every entry exactly once and with its value, stored as
the other triangle, and the `stype` is negated.  Without permutation the columns of the result are
sorted. -/
theorem C60_transpose_symmetric [Zero V] {A : Sp V} {stype : Int} {nnz : Nat}
    {perm : Option (List Nat)} {π : Nat → Nat} (h : A.WF) (hsq : A.rows = A.cols) (hc : 0 < A.cols)
    (hs : stype ≠ 0) (hn : A.p.getD A.cols 0 ≤ nnz) (hq : IsPerm perm A.cols)
    (hπ : ∀ j, j < A.cols → π (app perm j) = j) :
    ∃ F, transposeSymmetric A stype nnz false perm = ok (some (F, -stype)) ∧ F.WF ∧
      F.rows = A.cols ∧ F.cols = A.cols ∧ F.p.getD F.cols 0 ≤ nnz ∧
      F.entries.Perm ((A.entries.filter fun e => inTriangle stype e.1 e.2.1).map fun e =>
        ((otherTriangle stype π e.1 e.2.1).1, (otherTriangle stype π e.1 e.2.1).2, e.2.2)) ∧
      (perm = none → F.ColsSorted) := by
  have hp := h.toPatWF
  obtain ⟨F, h1, h2, h3, h4, h5, h6, h7⟩ := C60_call (pat := false) hp (fun _ => h.xlen) hsq hc hs hn
    hq hπ
  refine ⟨F, h1, h6.wf, h2, h3, ?_, ?_, ?_⟩
  · rw [← h4]; exact h6.patWF.bound
  · rw [h6.entries_items]
    refine ((bucket_perm h6.keys).map _).trans ((h7.map _).trans (List.Perm.of_eq ?_))
    rw [entries_eq h, List.filter_map, List.map_map, List.map_map]
    refine List.map_congr_left ?_
    intro e he
    obtain ⟨he, hk⟩ := List.mem_filter.1 he
    have hr := tagged_rows hp e he
    have hcl := tagged_cols hp e he
    have := target_other (π := π) (unpermuted hπ (r := eRow e) (c := eCol e) (hsq ▸ hr) hcl) hk
    simp only [Function.comp]
    rw [← this]
  · rintro rfl c hc'
    rw [h3] at hc'
    rw [h6.colRows_items (by omega), List.pairwise_map]
    have : ∀ l : List Item, l.Pairwise (fun a b => a.1.2 ≤ b.1.2) →
        (l.filter fun a => tKey (Option.isSome (none : Option (List Nat))) (decide (0 < stype)) a = c).Pairwise
          fun a b => tRow (Option.isSome (none : Option (List Nat))) (decide (0 < stype)) a ≤
            tRow (Option.isSome (none : Option (List Nat))) (decide (0 < stype)) b := by
      intro l hl
      refine (hl.filter _).imp ?_
      intro a b hab
      exact hab
    refine this _ ?_
    unfold items
    rw [List.pairwise_flatMap]
    constructor
    · intro j _
      unfold colItems
      rw [List.pairwise_map]
      exact List.pairwise_iff_getElem.2 fun _ _ _ _ _ => Nat.le_refl _
    · refine List.pairwise_lt_range.imp ?_
      intro a b hab x hx y hy
      unfold colItems at hx hy
      rw [List.mem_map] at hx hy
      obtain ⟨_, _, rfl⟩ := hx
      obtain ⟨_, _, rfl⟩ := hy
      exact Nat.le_of_lt hab

/-- **C60**, index structure: the same for patterns (`pat`), whose values are not read. -/
theorem C60_pattern [Zero V] {A : Sp V} {stype : Int} {nnz : Nat} {pat : Bool}
    {perm : Option (List Nat)} {π : Nat → Nat} (h : A.PatWF)
    (hx : pat = false → A.p.getD A.cols 0 ≤ A.x.length) (hsq : A.rows = A.cols) (hc : 0 < A.cols)
    (hs : stype ≠ 0) (hn : A.p.getD A.cols 0 ≤ nnz) (hq : IsPerm perm A.cols)
    (hπ : ∀ j, j < A.cols → π (app perm j) = j) :
    ∃ F, transposeSymmetric A stype nnz pat perm = ok (some (F, -stype)) ∧ F.PatWF ∧
      F.rows = A.cols ∧ F.cols = A.cols ∧ F.i.length = nnz ∧ F.x.length = nnz ∧
      F.coords.Perm ((A.coords.filter fun e => inTriangle stype e.1 e.2).map fun e =>
        otherTriangle stype π e.1 e.2) := by
  obtain ⟨F, h1, h2, h3, h4, h5, h6, h7⟩ := C60_call h hx hsq hc hs hn hq hπ
  refine ⟨F, h1, h6.patWF, h2, h3, h4, h5, ?_⟩
  rw [h6.coords_eq]
  refine ((bucket_perm h6.keys).map _).trans ((h7.map _).trans (List.Perm.of_eq ?_))
  rw [← tagged_fst A, List.filter_map, List.map_map, List.map_map]
  refine List.map_congr_left ?_
  intro e he
  obtain ⟨he, hk⟩ := List.mem_filter.1 he
  have hr := tagged_rows h e he
  have hcl := tagged_cols h e he
  have := target_other (π := π) (unpermuted hπ (r := eRow e) (c := eCol e) (hsq ▸ hr) hcl) hk
  simp only [Function.comp]
  rw [← this]

theorem inTriangle_other {stype : Int} (hs : stype ≠ 0) (π : Nat → Nat) (r c : Nat) :
    inTriangle (-stype) (otherTriangle stype π r c).1 (otherTriangle stype π r c).2 = true := by
  unfold inTriangle otherTriangle
  by_cases h : 0 < stype
  · simp [h, show ¬ stype < 0 by omega]
  · simp [h, show stype < 0 by omega]

/-- The two indices, after renumbering by `π`, as a coordinate of the triangle `stype` describes. -/
def sameTriangle (stype : Int) (π : Nat → Nat) (r c : Nat) : Nat × Nat :=
  if 0 < stype then (min (π r) (π c), max (π r) (π c)) else (max (π r) (π c), min (π r) (π c))

/-- **C60**, as used by all demos: `transpose_symmetric(A, perm)` followed by
`transpose_symmetric(_, NULL)` gives the symmetrically permuted matrix, in the same triangle as the
input, with sorted columns. -/
theorem C60_reordered [Zero V] {A : Sp V} {stype : Int} {nnz : Nat} {perm : Option (List Nat)}
    {π : Nat → Nat} (h : A.WF) (hsq : A.rows = A.cols) (hc : 0 < A.cols) (hs : stype ≠ 0)
    (hn : A.p.getD A.cols 0 ≤ nnz) (hq : IsPerm perm A.cols)
    (hπ : ∀ j, j < A.cols → π (app perm j) = j) :
    ∃ F G, transposeSymmetric A stype nnz false perm = ok (some (F, -stype)) ∧
      transposeSymmetric F (-stype) nnz false none = ok (some (G, stype)) ∧
      G.WF ∧ G.rows = A.cols ∧ G.cols = A.cols ∧ G.ColsSorted ∧
      (∀ e ∈ G.entries, inTriangle stype e.1 e.2.1 = true) ∧
      G.entries.Perm ((A.entries.filter fun e => inTriangle stype e.1 e.2.1).map fun e =>
        ((sameTriangle stype π e.1 e.2.1).1, (sameTriangle stype π e.1 e.2.1).2, e.2.2)) := by
  obtain ⟨F, f1, f2, f3, f4, f5, f6, -⟩ := C60_transpose_symmetric h hsq hc hs hn hq hπ
  obtain ⟨G, g1, g2, g3, g4, g5, g6, g7⟩ := C60_transpose_symmetric (A := F) (stype := -stype)
    (nnz := nnz) (perm := none) (π := id) f2 (by omega) (by omega) (by omega) f5 trivial
    (fun _ _ => rfl)
  have hp : G.entries.Perm ((A.entries.filter fun e => inTriangle stype e.1 e.2.1).map fun e =>
        ((sameTriangle stype π e.1 e.2.1).1, (sameTriangle stype π e.1 e.2.1).2, e.2.2)) := by
    refine g6.trans (((f6.filter _).map _).trans (List.Perm.of_eq ?_))
    rw [List.filter_eq_self.2, List.map_map]
    · refine List.map_congr_left ?_
      intro e _
      simp only [Function.comp, otherTriangle, sameTriangle, id]
      by_cases h0 : 0 < stype
      · simp [h0, show ¬ stype < 0 by omega]
      · simp [h0, show stype < 0 by omega]
    · intro e he
      rw [List.mem_map] at he
      obtain ⟨a, -, rfl⟩ := he
      exact inTriangle_other hs π _ _
  refine ⟨F, G, f1, by rw [g1, neg_neg], g2, by omega, by omega, g7 rfl, ?_, hp⟩
  intro e he
  obtain ⟨a, -, rfl⟩ := List.mem_map.1 (hp.mem_iff.1 he)
  unfold inTriangle sameTriangle
  by_cases h0 : 0 < stype <;> simp [h0]

/-- The arrays of the reordered matrix have `nnz` elements. -/
theorem C60_reordered_length [Zero V] {A F G : Sp V} {stype t t' : Int} {nnz : Nat} {perm : Option (List Nat)}
    {π : Nat → Nat} (h : A.WF) (hsq : A.rows = A.cols) (hc : 0 < A.cols) (hs : stype ≠ 0)
    (hn : A.p.getD A.cols 0 ≤ nnz) (hq : IsPerm perm A.cols) (hπ : ∀ j, j < A.cols → π (app perm j) = j)
    (hF : transposeSymmetric A stype nnz false perm = ok (some (F, t)))
    (hG : transposeSymmetric F t nnz false none = ok (some (G, t'))) : G.i.length = nnz ∧ G.x.length = nnz := by
  obtain ⟨F', f1, f2, f3, f4, f5, -⟩ := C60_transpose_symmetric h hsq hc hs hn hq hπ
  rw [f1] at hF
  cases hF
  obtain ⟨G', g1, -, -, g4, g5, -⟩ := C60_call (A := F) (stype := -stype) (nnz := nnz) (pat := false) (perm := none)
    (π := id) f2.toPatWF (fun _ => f2.xlen) (by omega) (by omega) (by omega) f5 trivial (fun _ _ => rfl)
  rw [g1] at hG
  cases hG
  exact ⟨g4, g5⟩

/-- **C60**: a matrix without symmetry flag, or one that is not square, is refused. -/
theorem C60_not_symmetric [Zero V] (A : Sp V) (stype : Int) (nnz : Nat) (pat : Bool)
    (perm : Option (List Nat)) (h : stype = 0 ∨ A.rows ≠ A.cols) :
    transposeSymmetric A stype nnz pat perm = ok none := by
  unfold transposeSymmetric
  rw [if_pos h]

/-- **C60**: an array that is not a permutation is refused, provided that it does not contain the
number `n`. -/
theorem C60_bad_permutation [Zero V] (A : Sp V) (stype : Int) (nnz : Nat) (pat : Bool)
    {perm : List Nat} (hl : perm.length = A.rows) (hn : A.rows ∉ perm)
    (h : ¬ perm.Perm (List.range A.rows)) :
    transposeSymmetric A stype nnz pat (some perm) = ok none := by
  unfold transposeSymmetric
  by_cases h0 : stype = 0 ∨ A.rows ≠ A.cols
  · rw [if_pos h0]
  · rw [if_neg h0]
    dsimp only
    rw [buildPinv_rejects hl hn h]
    rfl

/-- **C60** (finding): the check is `i > n` where `i >= n` is meant, so the invalid index `n` is
used: an access outside of `Pinv`. -/
theorem C60_index_n_ub : transposeSymmetric (⟨1, 1, [0, 1], [0], [5]⟩ : Sp Int) (-1) 1 false (some [1])
    = ub := by decide

/-- The lower triangle of a symmetric 3 x 3 matrix, with an entry of the upper triangle that is
ignored. -/
def exSym : Sp Int := ⟨3, 3, [0, 3, 5, 7], [0, 1, 2, 1, 2, 0, 2], [1, 2, 3, 4, 5, 9, 6]⟩

example : exSym.WF ∧ IsPerm (some [2, 0, 1]) 3 ∧
    (∀ j, j < 3 → [1, 2, 0].getD (app (some [2, 0, 1]) j) 0 = j) ∧
    transposeSymmetric exSym (-1) 7 false (some [2, 0, 1]) = ok (some
      (⟨3, 3, [0, 1, 3, 6], [0, 1, 0, 1, 2, 0, 0], [6, 1, 3, 2, 4, 5, 0]⟩, 1)) := by
  refine ⟨⟨⟨by decide, by decide, by decide, by decide, by decide⟩, by decide⟩,
    by unfold IsPerm; decide, by decide, ?_⟩
  decide

end Verif
