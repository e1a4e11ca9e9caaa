import Verif.Proof.ComputeEtree
import Verif.Proof.Sparsify
import Verif.Props.TreeGroup
import Verif.Spec.Reduce
import Mathlib.Tactic.IntervalCases

/-!
# C32, C47: elimination trees
-/

namespace Verif
open Res Relation Etree Sparsify

/-- Entries above the diagonal, read as a symmetric matrix: `k` is a column of the stored upper
triangle, hence a row of the lower one. -/
def Sp.UpperEntry {V : Type} (A : Sp V) (k i : Nat) : Prop := k < A.cols ∧ i ∈ A.colRows k

/-- Entries of `Aᵀ A`, without cancellation: the columns `k` and `i` of `A` have a common row. -/
def Sp.GramEntry {V : Type} (A : Sp V) (k i : Nat) : Prop :=
  k < A.cols ∧ i < A.cols ∧ ∃ r, r ∈ A.colRows k ∧ r ∈ A.colRows i

theorem getD_init {n x : Nat} {l : List (Option Nat)} (h : x < n) :
    (List.replicate n none ++ l.drop n).getD x none = none := by
  rw [List.getD_eq_getElem?_getD, List.getElem?_append_left (by simpa using h)]
  simp [h]

/-- **C32.** For a symmetric matrix stored as its upper triangle (the lower entries are ignored),
`compute_etree` returns true, and the parent of each column is the first row below the diagonal of
the column of the symbolic factor, if there is one.  Nothing is written after the first `n` elements
of `Parent`. -/
theorem C32_compute_etree {V : Type} {A : Sp V} (hA : A.PatWF) (hsq : A.rows = A.cols) {stype : Int}
    (hs : 0 < stype) {parent : List (Option Nat)} (hp : A.cols ≤ parent.length) :
    ∃ par, computeEtree stype A.rows A.cols A.p A.i parent = ok (true, par) ∧
      (∀ j, j < A.cols → IsEtreeParent A.UpperEntry A.cols j (par.getD j none)) ∧
      par.length = parent.length ∧
      ∀ x, A.cols ≤ x → par.getD x none = parent.getD x none := by
  obtain ⟨s, h1, h2, h3⟩ := wp_iff.1 (etreeSym_wp hA
    (s₀ := ⟨List.replicate A.cols none ++ parent.drop A.cols, List.replicate A.cols none⟩)
    (by simp) (by simp) (fun x _ hx => ⟨getD_init hx, getD_replicate _ _ _ _ hx⟩))
  refine ⟨s.par, ?_, (etree_of_forest (P := fun x => s.par.getD x none)
    (fun x p hx hp => h2.edge x p ⟨hx, hp⟩) h2.cov).1, ?_, ?_⟩
  · unfold computeEtree
    rw [if_pos hs, if_neg (by omega), if_neg (by omega), h1]; rfl
  · rw [h3.plen]; simp; omega
  · intro x hx
    rw [(h3.same x hx).1]
    dsimp only
    rw [List.getD_eq_getElem?_getD, List.getElem?_append_right (by simpa using hx),
      List.getElem?_drop, List.length_replicate, show A.cols + (x - A.cols) = x by omega,
      ← List.getD_eq_getElem?_getD]

/-- **C32**, unsymmetric case: `compute_etree` returns the elimination tree of `Aᵀ A`, provided that
no column lists a row twice. -/
theorem C32_compute_etree_unsym {V : Type} {A : Sp V} (hA : A.PatWF) (hd : A.NoDup)
    {parent : List (Option Nat)} (hp : A.cols ≤ parent.length) :
    ∃ par, computeEtree 0 A.rows A.cols A.p A.i parent = ok (true, par) ∧
      (∀ j, j < A.cols → IsEtreeParent A.GramEntry A.cols j (par.getD j none)) ∧
      par.length = parent.length := by
  obtain ⟨s, h1, h2, h3⟩ := wp_iff.1 (etreeUnsym_wp hA hd
    (s₀ := ⟨List.replicate A.cols none ++ parent.drop A.cols, List.replicate A.cols none⟩)
    (by simp) (by simp) (fun x _ hx => ⟨getD_init hx, getD_replicate _ _ _ _ hx⟩))
  refine ⟨s.par, ?_, (etree_of_forest (P := fun x => s.par.getD x none)
    (fun x p hx hp => h2.edge x p ⟨hx, hp⟩) h2.cov).1, ?_⟩
  · unfold computeEtree
    rw [if_neg (by omega), if_pos rfl, if_neg (by omega), h1]; rfl
  · rw [h3.plen]; simp; omega

/-- **C32**, lower triangle: `compute_etree` gives up, with every parent set to -1. -/
theorem C32_lower_not_supported (stype : Int) (hs : stype < 0) (m n : Nat) (p ix : List Nat)
    (parent : List (Option Nat)) :
    ∃ par, computeEtree stype m n p ix parent = ok (false, par) ∧
      ∀ j, j < n → par.getD j none = none := by
  refine ⟨_, ?_, fun j hj => getD_init (l := parent) hj⟩
  unfold computeEtree
  rw [if_neg (by omega), if_neg (by omega)]

/-- The upper triangle of the arrow matrix with entries in the first row: `(0,1)`, `(0,2)` and
`(1,3)`. -/
def exUpper : Sp Unit := ⟨4, 4, [0, 1, 3, 5, 7], [0, 0, 1, 0, 2, 1, 3], []⟩

/-- The fill-in `(2,1)` and then `(3,2)` makes the tree a path; a tree of the entries alone would
not have the edge from 2 to 3. -/
example : exUpper.PatWF ∧ computeEtree 1 4 4 exUpper.p exUpper.i (List.replicate 5 (some 7))
    = ok (true, [some 1, some 2, some 3, none, some 7]) :=
  ⟨⟨by decide, by decide, by decide, by decide, by decide⟩, by decide⟩

/-- A matrix with 3 rows and 3 columns; columns 0 and 1 share row 0, columns 1 and 2 row 2. -/
def exGram : Sp Unit := ⟨3, 3, [0, 2, 4, 5], [0, 1, 0, 2, 2], []⟩

example : exGram.PatWF ∧ exGram.NoDup ∧
    computeEtree 0 3 3 exGram.p exGram.i (List.replicate 3 none)
      = ok (true, [some 1, some 2, none]) :=
  ⟨⟨by decide, by decide, by decide, by decide, by decide⟩, by unfold Sp.NoDup; decide, by decide⟩

/-- Without the condition the statement fails: a row listed twice in a column makes the column its
own parent. -/
theorem C32_duplicate_makes_loop :
    computeEtree 0 1 1 [0, 2] [0, 0] [none] = ok (true, [some 0]) := by decide

/-! ### `buildETree` -/

/-- The tree with the arrays returned by `buildETree`. -/
def treeGraph (n : Nat) (r : List Nat × List Nat) : Csc := ⟨n, r.1, r.2⟩

/-- Entries of a matrix in row form. -/
def Csc.RowEntry (g : Csc) (k i : Nat) : Prop := k < g.n ∧ i ∈ g.col k

theorem buildETree_wp (debug : Bool) {g : Csc} (hg : g.WF) :
    ∃ par r, computeParents debug g.n g.p g.i = ok par ∧
      Done g.RowEntry g.n par ∧
      buildETree debug g.n g.p g.i = ok r ∧
      Stored (fun i => i :: (par.getD i none).toList) (treeGraph g.n r) := by
  obtain ⟨par, h1, h2, h3⟩ := wp_iff.1 (computeParents_wp debug hg.plen hg.mono
    (fun u hu => hg.ptr_le hu))
  have key := forRange_wp (f := fun i (s : List Nat × List Nat) => do
    let q ← rd par i
    match q with
    | none => ok (s.1 ++ [s.2.length], s.2 ++ [i])
    | some q =>
      if debug = true ∧ ¬ i < q then exn
      else ok (s.1 ++ [s.2.length], s.2 ++ [i, q])) (s := (([], []) : List Nat × List Nat))
    (fun k s => s.1 = (List.range k).map (off (fun i => i :: (par.getD i none).toList)) ∧
      s.2 = (List.range k).flatMap (fun i => i :: (par.getD i none).toList))
    (Nat.zero_le g.n) ⟨rfl, rfl⟩ ?_
  · obtain ⟨s, k1, k2, k3⟩ := wp_iff.1 key
    refine ⟨par, (s.1 ++ [s.2.length], s.2), h1, h3, ?_, ?_⟩
    · unfold buildETree
      rw [h1, ok_bind]
      exact congrArg (· >>= fun s => ok (s.1 ++ [s.2.length], s.2)) k1
    · have hp : s.1 ++ [s.2.length]
          = (List.range (g.n + 1)).map (off (fun i => i :: (par.getD i none).toList)) := by
        rw [List.range_succ, List.map_append, k2, k3]; rfl
      refine ⟨?_, ?_, k3⟩
      · show (s.1 ++ [s.2.length]).length = g.n + 1
        rw [hp]; simp
      · intro k hk
        show (s.1 ++ [s.2.length]).getD k 0 = _
        change k ≤ g.n at hk
        rw [hp, List.getD_eq_getElem?_getD, List.getElem?_map, List.getElem?_range (by omega)]
        rfl
  · rintro k ⟨a, b⟩ - hk ⟨hs1, hs2⟩
    dsimp only at hs1 hs2 ⊢
    rw [rd_getD none (by omega), ok_bind]
    have hb : b.length = off (fun i => i :: (par.getD i none).toList) k := by rw [hs2]; rfl
    cases hq : par.getD k none with
    | none =>
      simp only [wp_ok]
      rw [List.range_succ, List.map_append, List.flatMap_append, ← hs1, ← hs2, hb]
      refine ⟨rfl, ?_⟩
      rw [List.flatMap_singleton, hq]; rfl
    | some q =>
      have := (h3.edge k q ⟨hk, hq⟩).1
      simp only [if_neg (show ¬ (debug = true ∧ ¬ k < q) from fun h => h.2 this), wp_ok]
      rw [List.range_succ, List.map_append, List.flatMap_append, ← hs1, ← hs2, hb]
      refine ⟨rfl, ?_⟩
      rw [List.flatMap_singleton, hq]; rfl

/-- **C47.** `buildETree` always returns a tree in compressed form, with one diagonal entry stored
first in each column and at most one edge from each node, to its parent in the elimination tree of
the symmetric matrix whose lower triangle is the input (row form, entries after the diagonal are
ignored).  It is a valid input of the tree-based grouping. -/
theorem C47_etree {g : Csc} (hg : g.WF) (hpos : 0 < g.n) (debug : Bool) :
    ∃ r, buildETree debug g.n g.p g.i = ok r ∧ GroupInput (treeGraph g.n r) ∧
      (treeGraph g.n r).DiagFirst ∧
      ∀ j, j < g.n → ∃ q, IsEtreeParent g.RowEntry g.n j q ∧
        ∀ v, (treeGraph g.n r).Dep j v ↔ q = some v := by
  obtain ⟨par, r, h1, h2, h3, h4⟩ := buildETree_wp debug hg
  have hlt : ∀ k, k < g.n → ∀ v ∈ (par.getD k none).toList, k < v ∧ v < g.n := by
    intro k hk v hv
    rw [Option.mem_toList] at hv
    have := h2.edge k v ⟨hk, hv⟩
    exact ⟨this.1, this.2.1⟩
  have hcol : ∀ k, k < g.n → (treeGraph g.n r).col k = k :: (par.getD k none).toList :=
    fun k hk => h4.col hk
  refine ⟨r, h3, ⟨?_, ?_, ?_, hpos, h4.exact⟩, ?_, ?_⟩
  · apply h4.wf
    intro k hk v hv
    rcases List.mem_cons.1 hv with rfl | hv
    · exact hk
    · exact (hlt k hk v hv).2
  · intro k hk
    rw [hcol k hk, List.count_cons_self, List.count_eq_zero_of_not_mem]
    intro h
    have := (hlt k hk k h).1
    omega
  · intro k hk v hv
    rw [hcol k hk] at hv
    rcases List.mem_cons.1 hv with rfl | hv
    · exact Nat.le_refl _
    · exact Nat.le_of_lt (hlt k hk v hv).1
  · intro k hk
    rw [hcol k hk]; rfl
  · intro j hj
    refine ⟨par.getD j none, (etree_of_forest (P := fun x => par.getD x none)
      (fun x p hx hp => h2.edge x p ⟨hx, hp⟩) h2.cov).1 j hj, ?_⟩
    intro v
    unfold Csc.Dep
    rw [hcol j hj, List.mem_cons, Option.mem_toList]
    constructor
    · rintro ⟨_, h | h, h'⟩
      · exact absurd h.symm h'
      · exact h
    · intro h
      have := (hlt j hj v (by rw [Option.mem_toList]; exact h)).1
      exact ⟨hj, Or.inr h, by omega⟩

/-- **C47.** Every dependence of the matrix, also one filled in by the factorization, follows from
the edges of the tree. -/
theorem C47_etree_covers {g : Csc} (hg : g.WF) (debug : Bool) :
    ∃ r, buildETree debug g.n g.p g.i = ok r ∧
      ∀ k i, Fill g.RowEntry k i → TransGen (treeGraph g.n r).Dep i k := by
  obtain ⟨par, r, h1, h2, h3, h4⟩ := buildETree_wp debug hg
  refine ⟨r, h3, ?_⟩
  intro k i hf
  have := (etree_of_forest (P := fun x => par.getD x none)
      (fun x p hx hp => h2.edge x p ⟨hx, hp⟩) h2.cov).2 k i hf
  apply TransGen.mono _ _ _ this
  rintro x y ⟨hx, hxy⟩
  refine ⟨hx, ?_, ?_⟩
  · rw [h4.col hx]
    have : y ∈ (par.getD x none).toList := Option.mem_toList.2 hxy
    exact List.mem_cons_of_mem _ this
  · have := (h2.edge x y ⟨hx, hxy⟩).1
    omega

/-- **C47.** For a matrix that has its fill-in stored, such as a factor, the tree has only edges of
the matrix: it is a sparsification with the same reachability. -/
theorem C47_factor_same_reach {g : Csc} (hg : g.WF) (debug : Bool)
    (hfac : ∀ k i, Fill g.RowEntry k i → g.RowEntry k i) :
    ∃ r, buildETree debug g.n g.p g.i = ok r ∧
      (∀ i k, (treeGraph g.n r).Dep i k → i < k ∧ g.RowEntry k i) ∧
      ∀ i k, TransGen (treeGraph g.n r).Dep i k ↔ TransGen (fun i k => i < k ∧ g.RowEntry k i) i k := by
  obtain ⟨par, r, h1, h2, h3, h4⟩ := buildETree_wp debug hg
  obtain ⟨r', h3', hc⟩ := C47_etree_covers hg debug
  obtain rfl : r = r' := Res.ok.inj (h3.symm.trans h3')
  have hsub : ∀ i k, (treeGraph g.n r).Dep i k → i < k ∧ g.RowEntry k i := by
    rintro i k ⟨hi, hk, hne⟩
    rw [h4.col hi] at hk
    have hik : par.getD i none = some k := by
      rcases List.mem_cons.1 hk with hk | hk
      · exact absurd hk.symm hne
      · exact Option.mem_toList.1 hk
    have hp := (etree_of_forest (P := fun x => par.getD x none)
      (fun x p hx hp => h2.edge x p ⟨hx, hp⟩) h2.cov).1 i hi
    rw [hik] at hp
    exact ⟨(h2.edge i k ⟨hi, hik⟩).1, hfac _ _ hp.2.1⟩
  refine ⟨r, h3, hsub, ?_⟩
  intro i k
  constructor
  · exact TransGen.mono hsub i k
  · intro h
    induction h with
    | single hd => exact hc _ _ (Fill.entry hd.1 hd.2)
    | tail _ hd ih => exact TransGen.trans ih (hc _ _ (Fill.entry hd.1 hd.2))

/-- The rows of a lower triangular matrix with the entries `(1,0)`, `(2,0)` and `(3,1)`. -/
def exRows : Csc := ⟨4, [0, 1, 3, 5, 7], [0, 0, 1, 0, 2, 1, 3]⟩

example : exRows.WF ∧ 0 < exRows.n ∧
    buildETree true 4 exRows.p exRows.i = ok ([0, 2, 4, 6, 7], [0, 1, 1, 2, 2, 3, 3]) :=
  ⟨⟨by decide, by decide, by decide, by decide, by decide⟩, by decide, by decide⟩

/-- A matrix with its fill-in stored: the entries `(2,0)`, `(2,1)`. -/
def exFactor : Csc := ⟨3, [0, 1, 2, 5], [0, 1, 0, 1, 2]⟩

example : exFactor.WF ∧ (∀ k i, Fill exFactor.RowEntry k i → exFactor.RowEntry k i) := by
  refine ⟨⟨by decide, by decide, by decide, by decide, by decide⟩, ?_⟩
  intro k i h
  have hk : ∀ k i, Fill exFactor.RowEntry k i → k = 2 := by
    intro k i h
    induction h with
    | entry h1 h2 =>
      obtain ⟨hn, h2⟩ := h2
      revert h1 h2
      rename_i k i
      have hk : k < 3 := hn
      interval_cases k <;> simp [exFactor, Csc.col, Csc.ptr]; omega
    | fill _ _ _ _ ih _ => exact ih
  have hk2 := hk k i h
  subst hk2
  refine ⟨by decide, ?_⟩
  have : i < 2 := by cases h <;> assumption
  interval_cases i <;> decide

end Verif
