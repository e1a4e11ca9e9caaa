import Verif.Proof.SymFactor

/-!
# C64: the symbolic factorization
-/

namespace Verif
open Res Sp TransSym LFactor Relation

variable {V : Type}

/-- **C64.** `build_symbolic_simplicial_lfactor` for a symmetric matrix of which the lower triangle is
stored; `q` is the fill-reducing permutation of METIS, or none.  No array is accessed out of bounds and
no assertion fails, and for the permutation `r.perm` that is returned
* `r.perm` is `q` followed by a post order of the elimination tree of the matrix renumbered by `q`, in
  which siblings are ordered by their column counts; `r.iperm` and `r.ipost` are the inverses,
* `r.parent` is the elimination tree of the matrix renumbered by `r.perm`, and it is post-ordered: the
  subtree of each node is an interval that ends with the node,
* `r.col` are the column counts of its Cholesky factor and `r.flops` the sum of their squares,
* `L` is the pattern of its Cholesky factor: column `j` lists the rows of the non-zeros in ascending
  order,
* `r.acc[k]` is the number of entries of the matrix in the columns of row `k` of the factor. -/
theorem C64_symbolic_factor [Zero V] {A : Sp V} {stype : Int} {nnz : Nat} {pat : Bool}
    {q : Option (List Nat)} (hA : A.PatWF) (debug : Bool)
    (hx : pat = false → A.p.getD A.cols 0 ≤ A.x.length) (hsq : A.rows = A.cols) (hc : 0 < A.cols)
    (hs : stype < 0) (hn : A.p.getD A.cols 0 ≤ nnz) (hq : IsPerm q A.cols) (garbage : Nat → Nat) :
    ∃ r par, symbolicFactor debug A stype nnz pat q garbage = ok r ∧
      IsEtree (A.PermEntry (app q)) A.cols par ∧
      IsPostOrder A.cols par
        (ByWeight A.cols fun j => (factorCol (A.PermEntry (app q)) A.cols j).length) r.post ∧
      r.perm = r.post.map (app q) ∧ r.perm.Perm (List.range A.cols) ∧
      Util.Inverse A.cols r.perm r.iperm ∧ Util.Inverse A.cols r.post r.ipost ∧
      IsEtree (A.PermEntry fun k => r.perm.getD k 0) A.cols (fun j => r.parent.getD j none) ∧
      (∀ j, j < A.cols → ∃ f, ∀ x, x < A.cols →
        (ReflTransGen (ChildOf A.cols fun j => r.parent.getD j none) x j ↔ f ≤ x ∧ x ≤ j)) ∧
      (∀ j, j < A.cols →
        r.col.getD j 0 = (factorCol (A.PermEntry fun k => r.perm.getD k 0) A.cols j).length) ∧
      r.flops = ((List.range A.cols).map fun j => r.col.getD j 0 ^ 2).sum ∧
      (∀ x : List V, (⟨A.cols, A.cols, r.lp, r.li, x⟩ : Sp V).PatWF) ∧
      r.li.length = r.lp.getD A.cols 0 ∧
      (∀ (x : List V) j, j < A.cols → (⟨A.cols, A.cols, r.lp, r.li, x⟩ : Sp V).colRows j
        = factorCol (A.PermEntry fun k => r.perm.getD k 0) A.cols j) ∧
      ∀ k, k < A.cols → r.acc.getD k 0 = ((factorRow (A.PermEntry fun k => r.perm.getD k 0) A.cols k).map
          (A.upperCount fun v => r.iperm.getD v 0)).sum := by
  obtain ⟨r, par, h1, h2, h3, h4, h5, h6, h7, h8, h9, h10, h11, h12, h13, h14, h15⟩ :=
    symbolicFactor_wp (V := V) hA debug hx hsq hc hs hn hq garbage
  exact ⟨r, par, h1, h2, h3, h4, h5, h6, h7, h8, h9, h10, h14, h11, h12, h13, h15⟩

/-- **C64** (finding): a matrix without symmetry flag makes `transpose_symmetric` return `NULL`, which is
dereferenced. -/
theorem C64_unsymmetric_ub [Zero V] (debug : Bool) (A : Sp V) (nnz : Nat) (pat : Bool)
    (q : Option (List Nat)) (garbage : Nat → Nat) :
    symbolicFactor debug A 0 nnz pat q garbage = ub := by
  unfold symbolicFactor
  rw [C60_not_symmetric A 0 nnz pat q (Or.inl rfl)]
  rfl

theorem etree_none {E : Nat → Nat → Prop} {n : Nat} (h : ∀ k i, i < k → k < n → ¬ E k i) :
    IsEtree E n fun _ => none := by
  intro j hj k hk hf
  have : ∀ k i, Fill E k i → k < n → False := by
    intro k i hf
    induction hf with
    | entry h1 h2 => intro hk; exact h _ _ h1 hk h2
    | fill _ _ _ _ ih => intro hk; exact ih hk
  exact this k j hf hk

/-- **C64** (finding): with the upper triangle stored (`stype > 0`) the elimination tree and the column
counts are not computed, all counts are 0, and the first write to the empty array `Li` is out of
bounds. -/
theorem C64_upper_ub [Zero V] {A : Sp V} {stype : Int} {nnz : Nat} {pat : Bool}
    {q : Option (List Nat)} (hA : A.PatWF) (debug : Bool)
    (hx : pat = false → A.p.getD A.cols 0 ≤ A.x.length) (hsq : A.rows = A.cols) (hc : 0 < A.cols)
    (hs : 0 < stype) (hn : A.p.getD A.cols 0 ≤ nnz) (hq : IsPerm q A.cols) (garbage : Nat → Nat) :
    symbolicFactor debug A stype nnz pat q garbage = ub := by
  obtain ⟨π, hπ⟩ := exists_inverse hq
  obtain ⟨F, f1, f2, f3, f4, f5, f6, _⟩ := C60_pattern (π := π) hA hx hsq hc (by omega : stype ≠ 0) hn hq hπ
  have fb := f2.bound
  rw [f5] at fb
  obtain ⟨G, g1, g2, g3, g4, _, _, _⟩ := C60_pattern (π := id) (pat := false) f2 (fun _ => by omega)
    (by omega) (by omega) (by omega : -stype ≠ 0) fb (perm := none) trivial (fun _ _ => rfl)
  -- no tree, no counts
  have hE : Etree.computeEtree (-stype) F.rows F.cols F.p F.i (List.replicate A.cols (some 0))
      = ok (false, List.replicate A.cols none) := by
    unfold Etree.computeEtree
    rw [if_neg (by omega), if_neg (by omega), f4]
    simp
  have hnone : ∀ j, (List.replicate A.cols (none : Option Nat)).getD j none = none := by
    intro j
    rw [List.getD_eq_getElem?_getD, List.getElem?_replicate]
    split <;> rfl
  have hfor : Forest A.cols fun j => (List.replicate A.cols (none : Option Nat)).getD j none := by
    intro j p _ hp
    dsimp only at hp
    rw [hnone] at hp
    cases hp
  obtain ⟨post, p1, p2, p3⟩ := C43_tree_post_order (debug := debug) hc (by simp) hfor
    (post := List.replicate A.cols 0) (by simp)
  obtain ⟨post', q1, q2, q3⟩ := C43_tree_post_order_weight (debug := debug) hc (by simp) hfor
    (weight := List.replicate A.cols 0) (by simp) (post := post) (by simp [p2])
  rw [List.length_replicate] at p2
  have hpost' : post'.take A.cols = post' := List.take_of_length_le (by omega)
  rw [hpost'] at q3
  have ha : analyse debug A.cols (F, -stype) (G, - -stype)
      = ok (List.replicate A.cols none, List.replicate A.cols 0, post', 0) := by
    unfold analyse
    dsimp only
    rw [hE, ok_bind]
    dsimp only
    rw [p1, ok_bind, if_neg (by simp), C63_not_lower _ (by omega), ok_bind]
    dsimp only
    rw [q1, ok_bind, if_neg (by simp)]
  -- the permutations
  have hq0 : (q.getD (List.range A.cols)).Perm (List.range A.cols) := by
    cases q with
    | none => exact List.Perm.refl _
    | some l => exact hq
  have hql : (q.getD (List.range A.cols)).length = A.cols := by simpa using hq0.length_eq
  have hqg : ∀ k, k < A.cols → (q.getD (List.range A.cols)).getD k 0 = app q k := by
    intro k hk
    cases q with
    | none =>
      show (List.range A.cols).getD k 0 = k
      rw [List.getD_eq_getElem?_getD, List.getElem?_range hk]; rfl
    | some l => rfl
  obtain ⟨perm, ws1, b1, b2, _, b4, _⟩ := Util.C30_reorder_array (arr := q.getD (List.range A.cols))
    (ws := List.replicate A.cols 0) q3.perm (by omega) (by simp)
  have hperm : perm = post'.map (app q) := by
    refine List.ext_getElem? ?_
    intro k
    by_cases hk : k < A.cols
    · have hlt := Util.perm_getD_lt q3.perm hk
      rw [b4 k hk, getElem?_getD 0 (by omega), hqg _ hlt, List.getElem?_map,
        getElem?_getD 0 (by omega)]
      rfl
    · rw [List.getElem?_eq_none (by omega), List.getElem?_eq_none (by rw [List.length_map]; omega)]
  have hpermP : perm.Perm (List.range A.cols) := by
    rw [hperm]
    exact (q3.perm.map _).trans (IsPerm.map_range hq)
  obtain ⟨col', ws2, e1, e2, _, e4, _⟩ := Util.C30_reorder_array (V := Int) (arr := List.replicate A.cols 0)
    (ws := List.replicate A.cols 0) q3.perm (by simp) (by simp)
  rw [List.length_replicate] at e2
  obtain ⟨ipost, i1, i2, i3⟩ := Util.C30_inv_perm (ip0 := List.replicate A.cols 0) q3.perm (by simp)
  obtain ⟨iperm, j1, j2, j3⟩ := Util.C30_inv_perm (ip0 := List.replicate A.cols 0) hpermP (by simp)
  rw [List.length_replicate] at i2
  obtain ⟨pr, k1, k2, k3⟩ := reorderTree_wp (parent := List.replicate A.cols none) (post := post')
    (ipost := ipost) (wi := List.replicate A.cols none) (by simp) q3.perm i2
    (fun j p hj hp => (hfor j p hj hp).2) (by simp)
  obtain ⟨U, u1, u2, u3, u4, u5, u6, u7⟩ := C60_pattern (π := fun v => iperm.getD v 0)
    (perm := some perm) hA hx hsq hc (by omega : stype ≠ 0) hn hpermP j3.left
  have hcol : ∀ j, j < A.cols → col'.getD j 0 = 0 := by
    intro j hj
    have hlt := Util.perm_getD_lt q3.perm hj
    have := e4 j hj
    rw [getElem?_getD 0 (by omega), List.getElem?_replicate, if_pos hlt] at this
    exact Option.some.inj this
  have hsizes : sizes A.cols col' = ok (col'.map Int.toNat) := by
    unfold sizes
    rw [if_pos]
    intro c hc'
    obtain ⟨k, hk, rfl⟩ := List.getElem_of_mem hc'
    rw [List.length_take] at hk
    have h1 := hcol k (by omega)
    rw [List.getD_eq_getElem?_getD, List.getElem?_eq_getElem (by omega), Option.getD_some] at h1
    rw [List.getElem_take, h1]
  -- the pattern
  have hpr : ∀ j, j < A.cols → pr.1.getD j none = none := by
    intro j hj
    rw [k3 j hj, hnone]; rfl
  have hEU : IsEtree U.UpperEntry U.cols fun j => pr.1.getD j none := by
    have : IsEtree U.UpperEntry A.cols fun _ => none := by
      refine etree_none ?_
      intro k i hik hk he
      have he : (i, k) ∈ U.coords := Group.mem_coords.2 he
      obtain ⟨e, _, h⟩ := List.mem_map.1 (u7.mem_iff.1 he)
      unfold otherTriangle at h
      rw [if_pos hs, Prod.mk.injEq] at h
      omega
    rw [u4]
    intro j hj
    dsimp only
    rw [hpr j hj]
    exact this j hj
  obtain ⟨lp, l1, l2⟩ := ptr_wp (n := A.cols) (cc := col'.map Int.toNat) (by rw [List.length_map]; omega)
  have hlp : ∀ k, k ≤ A.cols → lp.getD k 0 = 0 := by
    intro k
    induction k with
    | zero => intro _; exact l2.zero
    | succ k ih =>
      intro hk
      rw [l2.succ k (by omega), ih (by omega), List.getD_eq_getElem?_getD, List.getElem?_map,
        getElem?_getD 0 (by omega), hcol k (by omega)]
      rfl
  obtain ⟨top, s', c1, _⟩ := costPerCol_wp (A := U) (parent := pr.1) u2 hEU (by omega) (k := 0) (by omega)
    (s := List.replicate A.cols 0) (w := List.replicate A.cols 0) (by rw [List.length_replicate]; omega)
    (by rw [List.length_replicate]; omega) (by
      intro x hx'; rw [getD_replicate _ _ _ _ (by omega)])
  rw [u4] at c1
  have hb : buildPattern debug A.cols U.p U.i (col'.map Int.toNat) pr.1 (List.replicate A.cols 0) garbage
      = ub := by
    unfold buildPattern
    rw [l1, ok_bind, rd_getD 0 (by rw [l2.len]; omega), ok_bind, hlp _ (le_refl _)]
    obtain ⟨m, hm⟩ : ∃ m, A.cols = m + 1 := ⟨A.cols - 1, by omega⟩
    have : ∀ b, b.li = [] → b.s = List.replicate A.cols 0 → b.w = List.replicate A.cols 0 →
        A.cols ≤ b.acc.length →
        buildRow debug A.cols 0 U.p U.i lp pr.1 0 b = ub := by
      intro b hb1 hb2 hb3 hb4
      unfold buildRow
      rw [hb1, hb2, hb3, c1, ok_bind, wr_eq (by omega), ok_bind, rd_getD 0 (by rw [l2.len]; omega),
        ok_bind]
      rfl
    unfold forRange
    rw [Nat.sub_zero]
    have hf : ∀ (f : Nat → Build → Res Build) b, f 0 b = ub → forN A.cols 0 f b = ub := by
      intro f b hfb
      rw [hm]
      unfold forN
      rw [hfb]; rfl
    rw [hf _ _ (this _ rfl rfl rfl (by rw [List.length_replicate]))]
    rfl
  unfold symbolicFactor
  simp only [f1, g1, ha, b1, e1, i1, j1, k1, u1, hsizes, hb, ok_bind, deref]
  rfl

/-- The matrix of `exBranch` with values. -/
def exSymFactor : Sp Int := ⟨6, 6, [0, 3, 6, 8, 10, 11, 12],
  [0, 2, 4, 1, 2, 4, 2, 5, 3, 4, 4, 5], List.replicate 12 1⟩

theorem exSymFactor_wf : exSymFactor.PatWF := by refine ⟨?_, ?_, ?_, ?_, ?_⟩ <;> decide

/-- C64 applies to it, without and with an initial permutation. -/
example := C64_symbolic_factor (A := exSymFactor) (stype := -1) (nnz := 12) (pat := false) (q := none)
  exSymFactor_wf true (by decide) rfl (by decide) (by decide) (by decide) trivial (fun k => k + 100)

example := C64_symbolic_factor (A := exSymFactor) (stype := -1) (nnz := 12) (pat := false)
  (q := some [5, 3, 1, 0, 2, 4]) exSymFactor_wf true (by decide) rfl (by decide) (by decide) (by decide)
  (by unfold IsPerm; decide) (fun k => k + 100)

/-- The result: node 3 has the smallest count and comes first. -/
example : symbolicFactor true exSymFactor (-1) 12 false none (fun k => k + 100) = ok
    { col := [2, 3, 3, 3, 2, 1],
      perm := [3, 0, 1, 2, 4, 5],
      iperm := [1, 2, 3, 0, 4, 5],
      post := [3, 0, 1, 2, 4, 5],
      ipost := [1, 2, 3, 0, 4, 5],
      parent := [some 4, some 3, some 3, some 4, some 5, none],
      acc := [1, 1, 1, 5, 10, 9],
      lp := [0, 2, 5, 8, 11, 13, 14],
      li := [0, 4, 1, 3, 4, 2, 3, 4, 3, 4, 5, 4, 5, 5],
      flops := 36 } := by
  decide +kernel

end Verif
