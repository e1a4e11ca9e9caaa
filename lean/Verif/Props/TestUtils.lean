import Verif.Proof.TestUtils
import Verif.Props.Prepare
import Mathlib.Algebra.Order.Group.Abs

/-!
# C91: random matrices and the comparisons of the tests

utils/test_utils.cpp, include/aggregation/test_utils.h.  Vocabulary: `Uniform`, `blockedTerms`
(Verif/Spec/TestUtils.lean), `Sp` (Verif/Spec/Sparse.lean).
-/

namespace Verif.TestU
open Res Sp Prepare

variable {V : Type} [Zero V]

/-- **C91** `random_square_sparse`, whatever the shuffles and values are: `perCol n k` entries in every column, sorted
and distinct, the diagonal among them (`k` is `density * n + 1`, positive for every density that is not negative). -/
theorem C91_random_square {shuf : Nat → List Nat → List Nat} {val : Nat → V} {n : Nat} {k : Int}
    (hs : ∀ i, i < n → (shuf i (List.range n)).Perm (List.range n)) (hn : 0 < n) (hk : 0 < k)
    (hmax : n * min k.toNat n ≤ 2147483647) :
    ∃ A : Sp V, randomSquare shuf val n k = ok (some A) ∧ Uniform n (min k.toNat n) A ∧
      ∀ j, j < n * min k.toNat n → A.x.getD j 0 = val j := by
  have hpc : perCol n k = min k.toNat n := by unfold perCol; split <;> omega
  obtain ⟨r, hr, A, rfl, h1, -, h3⟩ := wp_iff.1 (randomSquare_wp (val := val) hs hn (Int.ne_of_gt hk)
    (by rw [hpc]; exact hmax))
  rw [hpc] at h1 h3
  exact ⟨A, hr, h1, h3⟩

/-- **C91** A null pointer is returned if there are more entries than an `int` can count. -/
theorem C91_random_null {shuf : Nat → List Nat → List Nat} {val : Nat → V} {n : Nat} {k : Int} (hk : 0 ≤ k)
    (hmax : 2147483647 < n * min k.toNat n) : randomSquare shuf val n k = ok none := by
  have hpc : perCol n k = min k.toNat n := by unfold perCol; split <;> omega
  unfold randomSquare
  rw [hpc]
  dsimp only
  rw [if_pos (show int32Max < _ from hmax)]

/-- **C91** A density that truncates to no entry per column (`density * n + 1` between -1 and 1)
writes `rand_vec[0]` of an empty vector. -/
theorem C91_random_none_ub {shuf : Nat → List Nat → List Nat} {val : Nat → V} {n : Nat} (hn : 0 < n) :
    randomSquare shuf val n 0 = ub := by
  have hpc : perCol n 0 = 0 := by unfold perCol; rw [if_neg (by omega)]; rfl
  obtain ⟨m, rfl⟩ : ∃ m, n = m + 1 := ⟨n - 1, by omega⟩
  have hr : randCol (shuf 0) 0 (m + 1) 0 = ub := by
    unfold randCol uniqRand
    have h1 : ∃ l, forRange 0 (m + 1) (fun i (l : List Nat) => ok (l ++ [i])) [] = ok l := by
      have : wp (forRange 0 (m + 1) (fun i (l : List Nat) => ok (l ++ [i])) []) fun _ => True :=
        forRange_wp' (fun _ _ => True) (Nat.zero_le _) trivial (fun _ _ _ _ _ => trivial) (fun _ h => h)
      obtain ⟨l, h, _⟩ := wp_iff.1 this
      exact ⟨l, h⟩
    obtain ⟨l, h1⟩ := h1
    rw [h1, ok_bind, forRange_empty _ _ (by omega), ok_bind]
    rfl
  unfold randomSquare
  rw [hpc]
  dsimp only
  rw [if_neg (by unfold int32Max; omega), wr_eq (by simp [newPtrLen]), ok_bind]
  unfold forRange
  rw [show m + 1 - 0 = m + 1 by omega, forN]
  dsimp only
  rw [rd_getD 0 (by simp [newPtrLen]), ok_bind, wr_eq (by simp [newPtrLen]), ok_bind, hr]
  rfl

/-- **C91** `n = 0` writes through the null pointer `p`. -/
theorem C91_random_empty_ub {shuf : Nat → List Nat → List Nat} {val : Nat → V} {k : Int} :
    randomSquare shuf val 0 k = ub := by
  unfold randomSquare
  dsimp only
  rw [if_neg (by unfold int32Max; omega)]
  rfl

/-- **C91** With a fixed seed (the default is 1) the engine is started anew for every column, so all columns are
shuffled alike: there are `q` rows that make up every column, except that the diagonal takes the place of the first of
them where it is missing. -/
theorem C91_random_fixed_seed {shuf : List Nat → List Nat} {val : Nat → V} {n : Nat} {k : Int}
    (hs : (shuf (List.range n)).Perm (List.range n)) (hn : 0 < n) (hk : 0 < k)
    (hmax : n * min k.toNat n ≤ 2147483647) :
    ∃ (A : Sp V) (S : List Nat) (r : Nat), randomSquare (fun _ => shuf) val n k = ok (some A) ∧
      S.Nodup ∧ S.length = min k.toNat n ∧ r ∈ S ∧
      ∀ c, c < n → (c ∈ S → (A.colRows c).Perm S) ∧ (c ∉ S → (A.colRows c).Perm (c :: S.erase r)) := by
  have hpc : perCol n k = min k.toNat n := by unfold perCol; split <;> omega
  obtain ⟨o, hr, A, rfl, -, h2, -⟩ := wp_iff.1 (randomSquare_wp (val := val) (shuf := fun _ => shuf)
    (fun _ _ => hs) hn (Int.ne_of_gt hk) (by rw [hpc]; exact hmax))
  rw [hpc] at h2
  have hlen : (shuf (List.range n)).length = n := by rw [hs.length_eq, List.length_range]
  have hnd : (shuf (List.range n)).Nodup := hs.nodup_iff.2 List.nodup_range
  obtain ⟨r, t, hrt⟩ : ∃ r t, (shuf (List.range n)).take (min k.toNat n) = r :: t := by
    cases h : (shuf (List.range n)).take (min k.toNat n) with
    | nil =>
      have := congrArg List.length h
      rw [List.length_take, List.length_nil] at this
      omega
    | cons r t => exact ⟨r, t, rfl⟩
  refine ⟨A, r :: t, r, hr, ?_, ?_, by simp, ?_⟩
  · rw [← hrt]; exact hnd.sublist (List.take_sublist _ _)
  · rw [← hrt, List.length_take]; omega
  · intro c hc
    rw [h2 c hc]
    unfold cols picked
    rw [hrt]
    constructor
    · intro hm
      rw [if_pos hm]
      exact List.mergeSort_perm _ _
    · intro hm
      rw [if_neg hm, List.erase_cons_head]
      exact List.mergeSort_perm _ _

/-- **C91** The example programs take the lower half of a random matrix and convert it: the result is a valid input of
every solver and inspector (`SolverInput`), for every shuffle. -/
theorem C91_random_prepared {shuf : Nat → List Nat → List Nat} {val : Nat → V} {n : Nat} {k : Int}
    (hs : ∀ i, i < n → (shuf i (List.range n)).Perm (List.range n)) (hn : 0 < n) (hk : 0 < k)
    (hmax : n * min k.toNat n ≤ 2147483647) :
    ∃ A H B : Sp V, randomSquare shuf val n k = ok (some A) ∧ prepareHalf A = ok (H, B) ∧ H.LowerCsc ∧ H.cols = n ∧
      H.entries = A.entries.filter (fun e => e.2.1 ≤ e.1) ∧ Converted H B ∧ SolverInput B.toMat H.graph := by
  obtain ⟨A, h1, h2, -⟩ := C91_random_square (val := val) hs hn hk hmax
  have hc := h2.cols
  obtain ⟨H, B, k1, k2, k3, k4, k5, k6⟩ := C85_without_metis h2.wf (by rw [h2.rows, h2.cols]) (by omega)
    (fun c hc' => by
      rw [hc] at hc'
      rw [List.nodup_iff_pairwise_ne]
      exact (h2.sorted c hc').imp fun h => Nat.ne_of_lt h)
    (fun c hc' => by rw [hc] at hc'; exact (h2.sorted c hc').imp fun h => Nat.le_of_lt h)
    (fun c hc' => (h2.wf.mem_colRows hc').1 (h2.diag c (by omega)))
  exact ⟨A, H, B, h1, k1, k2, by omega, k4, k5, k6⟩

end Verif.TestU

namespace Verif.TestU
open Res Sp Prepare

/-! ### The comparisons -/

variable {V : Type}

/-- **C91** `is_equal(n, vec, val)`: true exactly if no element is further than `eps` from the value. -/
theorem C91_equal_value (C : Cmp V) {n : Nat} {vec : List V} (h : n ≤ vec.length) (v eps : V) :
    ∃ b, equalVal C n vec v eps = ok b ∧
      (b = true ↔ ∀ i a, i < n → vec[i]? = some a → C.far eps a v = false) := by
  obtain ⟨b, h1, h2⟩ := checkAll_eq (lo := 0) (hi := n) (bad := fun i => do
    let a ← rd vec i
    ok (C.far eps a v)) (f := fun i => C.far eps (vec.getD i v) v) (fun i _ hi => by
      rw [rd_getD v (by omega), ok_bind])
  refine ⟨b, h1, h2.trans ⟨fun h i a hi ha => ?_, fun h' i _ hi => ?_⟩⟩
  · have := h i (Nat.zero_le _) hi
    rwa [List.getD_eq_getElem?_getD, ha] at this
  · exact h' i _ hi (getElem?_getD v (by omega))

/-- **C91** `is_equal(beg, end, vec1, vec2)`: true exactly if no element is a NaN or further than `eps` apart. -/
theorem C91_equal_range [Zero V] (C : Cmp V) {lo hi : Nat} {v w : List V} (hv : hi ≤ v.length) (hw : hi ≤ w.length)
    (eps : V) : ∃ b, equalRange C lo hi v w eps = ok b ∧
      (b = true ↔ ∀ i, lo ≤ i → i < hi → ∀ a b, v[i]? = some a → w[i]? = some b →
        C.isnan a = false ∧ C.isnan b = false ∧ C.far eps a b = false) := by
  obtain ⟨b, h1, h2⟩ := checkAll_eq (lo := lo) (hi := hi) (bad := fun i => do
    let a ← rd v i
    let b ← rd w i
    ok (C.isnan a || C.isnan b || C.far eps a b)) (f := fun i => C.isnan (v.getD i 0) || C.isnan (w.getD i 0)
      || C.far eps (v.getD i 0) (w.getD i 0)) (fun i _ hi => by
      rw [rd_getD 0 (by omega), ok_bind, rd_getD 0 (by omega), ok_bind])
  refine ⟨b, h1, h2.trans ⟨fun h i h1 h2 a b ha hb => ?_, fun h' i h1 h2 => ?_⟩⟩
  · have := h i h1 h2
    rw [List.getD_eq_getElem?_getD, ha, List.getD_eq_getElem?_getD, hb] at this
    simpa [Bool.or_eq_false_iff, and_assoc] using this
  · have := h' i h1 h2 _ _ (getElem?_getD 0 (by omega)) (getElem?_getD 0 (by omega))
    simp only [Bool.or_eq_false_iff]
    exact ⟨⟨this.1, this.2.1⟩, this.2.2⟩

/-- **C91** `is_equal(A, B)` for matrices whose arrays have at least `nnz` elements: true exactly if the number of
columns, `nnz`, the pointers and the row indices agree and no value is further than `eps` away.  The number of rows is
not looked at. -/
theorem C91_equal_csc [Zero V] (C : Cmp V) {A B : Sp V} {na nb : Nat} (hA : A.WF) (hB : B.WF)
    (a1 : na ≤ A.i.length) (a2 : na ≤ A.x.length) (b1 : nb ≤ B.i.length) (b2 : nb ≤ B.x.length) (eps : V) :
    ∃ b, equalCsc C A B na nb eps = ok b ∧
      (b = true ↔ A.cols = B.cols ∧ na = nb ∧ A.p = B.p ∧ A.i.take na = B.i.take na ∧
        ∀ j, j < na → C.far eps (A.x.getD j 0) (B.x.getD j 0) = false) := by
  have ap := hA.plen
  have bp := hB.plen
  unfold equalCsc
  by_cases h0 : A.cols ≠ B.cols ∨ na ≠ nb
  · rw [if_pos h0]
    exact ⟨false, rfl, ⟨fun h => (by cases h), fun h => absurd h0 (by rw [not_or]; exact ⟨not_not.2 h.1, not_not.2 h.2.1⟩)⟩⟩
  rw [if_neg h0]
  have e1 : A.cols = B.cols := by tauto
  have e2 : na = nb := by tauto
  obtain ⟨r1, p1, p2⟩ := checkAll_eq (lo := 0) (hi := A.cols + 1) (bad := fun j => do
      let a ← rd A.p j
      let b ← rd B.p j
      ok (decide (a ≠ b))) (f := fun j => decide (A.p.getD j 0 ≠ B.p.getD j 0)) (fun i _ hi => by
      rw [rd_getD 0 (by omega), ok_bind, rd_getD 0 (by omega), ok_bind])
  obtain ⟨r2, q1, q2⟩ := checkAll_eq (lo := 0) (hi := na) (bad := fun j => do
      let a ← rd A.i j
      let b ← rd B.i j
      ok (decide (a ≠ b))) (f := fun j => decide (A.i.getD j 0 ≠ B.i.getD j 0)) (fun i _ hi => by
      rw [rd_getD 0 (by omega), ok_bind, rd_getD 0 (by omega), ok_bind])
  obtain ⟨r3, x1, x2⟩ := checkAll_eq (lo := 0) (hi := na) (bad := fun j => do
      let a ← rd A.x j
      let b ← rd B.x j
      ok (C.far eps a b)) (f := fun j => C.far eps (A.x.getD j 0) (B.x.getD j 0)) (fun i _ hi => by
      rw [rd_getD 0 (by omega), ok_bind, rd_getD 0 (by omega), ok_bind])
  have hp : r1 = true ↔ A.p = B.p := by
    rw [p2]
    constructor
    · intro h
      refine ext_getD 0 (by omega) fun j hj => ?_
      simpa using h j (Nat.zero_le _) (by omega)
    · intro h j _ _
      rw [h]; simp
  have hq : r2 = true ↔ A.i.take na = B.i.take na := by
    rw [q2]
    constructor
    · intro h
      refine ext_getD 0 (by rw [List.length_take, List.length_take]; omega) fun j hj => ?_
      rw [List.length_take] at hj
      have := h j (Nat.zero_le _) (by omega)
      rw [List.getD_eq_getElem?_getD, List.getD_eq_getElem?_getD, List.getElem?_take_of_lt (by omega),
        List.getElem?_take_of_lt (by omega), ← List.getD_eq_getElem?_getD, ← List.getD_eq_getElem?_getD]
      simpa using this
    · intro h j _ hj
      have := congrArg (fun l => l.getD j 0) h
      simp only [List.getD_eq_getElem?_getD] at this
      rw [List.getElem?_take_of_lt hj, List.getElem?_take_of_lt hj] at this
      simpa [List.getD_eq_getElem?_getD] using this
  have hx : r3 = true ↔ ∀ j, j < na → C.far eps (A.x.getD j 0) (B.x.getD j 0) = false := by
    rw [x2]
    exact ⟨fun h j hj => h j (Nat.zero_le _) hj, fun h j _ hj => h j hj⟩
  rw [p1, ok_bind]
  cases r1 with
  | false => exact ⟨false, rfl, ⟨fun h => (by cases h), fun h => hp.2 h.2.2.1⟩⟩
  | true =>
    rw [if_pos rfl, q1, ok_bind]
    cases r2 with
    | false => exact ⟨false, rfl, ⟨fun h => (by cases h), fun h => hq.2 h.2.2.2.1⟩⟩
    | true =>
      rw [if_pos rfl, x1]
      exact ⟨r3, rfl, hx.trans ⟨fun h => ⟨e1, e2, hp.1 rfl, hq.1 rfl, h⟩, fun h => h.2.2.2.2⟩⟩

/-- Exact arithmetic: `|a - b| > eps`, and there is no NaN. -/
def exactCmp (K : Type) [AddCommGroup K] [LinearOrder K] : Cmp K where
  far eps a b := decide (eps < |a - b|)
  isnan _ := false

/-- **C91** In exact arithmetic with `eps = 0`, two matrices without spare space and with equally many rows are equal
for `is_equal` exactly if they are the same. -/
theorem C91_equal_exact {K : Type} [AddCommGroup K] [LinearOrder K] [IsOrderedAddMonoid K] {A B : Sp K}
    (hA : A.WF) (hB : B.WF) (eA : A.Exact) (eB : B.Exact) (hr : A.rows = B.rows) :
    ∃ b, equalCsc (exactCmp K) A B (A.p.getD A.cols 0) (B.p.getD B.cols 0) 0 = ok b ∧ (b = true ↔ A = B) := by
  obtain ⟨b, h1, h2⟩ := C91_equal_csc (exactCmp K) hA hB (Nat.le_of_eq eA.1.symm) (Nat.le_of_eq eA.2.symm)
    (Nat.le_of_eq eB.1.symm) (Nat.le_of_eq eB.2.symm) 0
  refine ⟨b, h1, h2.trans ⟨?_, ?_⟩⟩
  · rintro ⟨k1, k2, k3, k4, k5⟩
    have hi : A.i = B.i := by
      rw [List.take_of_length_le (Nat.le_of_eq eA.1), List.take_of_length_le (by rw [eB.1]; omega)] at k4
      exact k4
    have hx : A.x = B.x := by
      refine ext_getD 0 (by rw [eA.2, eB.2, k2]) fun j hj => ?_
      have := k5 j (by rw [← eA.2]; exact hj)
      simp only [exactCmp, decide_eq_false_iff_not, not_lt] at this
      exact sub_eq_zero.1 (abs_nonpos_iff.1 this)
    cases A; cases B
    dsimp only at *
    subst k1 k3 hi hx hr
    rfl
  · rintro rfl
    refine ⟨rfl, rfl, rfl, rfl, fun j _ => ?_⟩
    simp [exactCmp]

/-- An arithmetic with a NaN: every comparison with it is false. -/
def nanCmp : Cmp (Option Int) where
  far eps a b := match eps, a, b with
    | some e, some a, some b => decide (e < |a - b|)
    | _, _, _ => false
  isnan a := a.isNone

/-- **C91** A matrix with a NaN is "equal" to a matrix with any other value in its place (unlike vectors, which are
checked for NaN), and so is a matrix with fewer rows. -/
theorem C91_equal_csc_nan :
    equalCsc nanCmp ⟨1, 1, [0, 1], [0], [none]⟩ ⟨1, 1, [0, 1], [0], [some 5]⟩ 1 1 (some 0) = ok true ∧
    equalCsc nanCmp ⟨1, 1, [0, 1], [0], [some 5]⟩ ⟨7, 1, [0, 1], [0], [some 5]⟩ 1 1 (some 0) = ok true ∧
    equalRange nanCmp 0 1 [none] [some 5] (some 0) = ok false := by decide +kernel

/-- **C91** `rhs_init_blocked` stores in `b[r]` the sum of the values of row `r`, added in storage order. -/
theorem C91_rhs_blocked [Zero V] [Add V] {n : Nat} {Ap Ai AiP : List Nat} {Ax b : List V}
    (hp : n + 1 ≤ Ap.length) (hq : n ≤ AiP.length) (hm : ∀ c, c < n → Ap.getD c 0 ≤ Ap.getD (c + 1) 0)
    (hx : ∀ c, c < n → Ap.getD (c + 1) 0 ≤ Ax.length)
    (hi : ∀ c, c < n → AiP.getD c 0 + (Ap.getD (c + 1) 0 - Ap.getD c 0) ≤ Ai.length)
    (hr : ∀ e ∈ blockedTerms n Ap Ai AiP Ax, e.1 < n) (hb : b.length = n) :
    ∃ b', rhsBlocked n Ap Ai AiP Ax b = ok b' ∧ b'.length = n ∧ ∀ r, r < n → b'.getD r 0
      = (((blockedTerms n Ap Ai AiP Ax).filter fun e => e.1 = r).map Prod.snd).foldl (· + ·) 0 :=
  wp_iff.1 (rhsBlocked_wp hp hq hm hx hi hr hb)

/-! ### Concrete cases -/

/-- Two columns that share their row indices, as in a block: rows 0 1 3 of columns 0 and 1 (the second from its
diagonal), then single columns. -/
example : blockedTerms 4 [0, 3, 5, 6, 7] [0, 1, 3, 2, 3] [0, 1, 3, 4] [1, 2, 3, 4, 5, 6, (7 : Int)]
    = [(0, 1), (1, 2), (3, 3), (1, 4), (3, 5), (2, 6), (3, 7)] := by decide

example : rhsBlocked 4 [0, 3, 5, 6, 7] [0, 1, 3, 2, 3] [0, 1, 3, 4] [1, 2, 3, 4, 5, 6, (7 : Int)] [9, 9, 9, 9]
    = ok [1, 6, 6, 15] := by decide

/-- Backwards and shifted shuffles. -/
example : ∀ i, i < 4 → ((List.range 4).rotate i).reverse.Perm (List.range 4) :=
  fun _ _ => (List.reverse_perm _).trans (List.rotate_perm _ _)

example : (4 : Nat) * min (2 : Int).toNat 4 ≤ 2147483647 := by decide

example : picked [3, 1, 0, 2] 2 0 = [0, 1] ∧ picked [3, 1, 0, 2] 2 1 = [3, 1] := by decide

end Verif.TestU
