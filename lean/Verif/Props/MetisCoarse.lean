import Verif.Props.Metis
import Verif.Proof.Ungroup

/-!
# C84: the partition of the joined nodes

`metis_partition_coarsened` joins `c` consecutive nodes, has the joined nodes partitioned, and gives the
part of block `i` to the nodes from `i` (not from `i * c`).  What it returns is stated exactly.
-/

namespace Verif
open Res Sp Metis

variable {V : Type}

theorem inner_expand {n v : Nat} {i c : Nat} {part : List Nat} (hl : part.length = n) (hic : i + c ≤ n) :
    wp (forRange i (i + c) (fun j part => wr part j v) part) fun out =>
      out.length = n ∧ ∀ j, out.getD j 0 = if i ≤ j ∧ j < i + c then v else part.getD j 0 := by
  refine forRange_wp' (I := fun t (out : List Nat) => out.length = n ∧
    ∀ j, out.getD j 0 = if i ≤ j ∧ j < t then v else part.getD j 0) (by omega) ?_ ?_ ?_
  · exact ⟨hl, fun j => by rw [if_neg (by omega)]⟩
  · rintro t out ht1 ht2 ⟨h1, h2⟩
    rw [wr_eq (by omega), wp_ok]
    refine ⟨by simpa using h1, fun j => ?_⟩
    rw [getD_set, h2 j]
    by_cases hj : t = j
    · subst hj; rw [if_pos ⟨rfl, by omega⟩, if_pos (by omega)]
    · rw [if_neg (fun h => hj h.1)]
      by_cases h3 : i ≤ j ∧ j < t
      · rw [if_pos h3, if_pos (by omega)]
      · rw [if_neg h3, if_neg (by omega)]
  · rintro out h; exact h

theorem expand_wp {n m c : Nat} {pc : List Nat} (hp : pc.length = m) (hm : 0 < m) (hc : 0 < c)
    (hn : m - 1 + c ≤ n) :
    wp (expand n m c pc) fun part => part.length = n ∧
      ∀ j, part.getD j 0 = if j < m - 1 + c then pc.getD (min j (m - 1)) 0 else 0 := by
  unfold expand
  refine forRange_wp' (I := fun i (part : List Nat) => part.length = n ∧
    ∀ j, part.getD j 0 = if 0 < i ∧ j < i - 1 + c then pc.getD (min j (i - 1)) 0 else 0) (by omega)
    ?_ ?_ ?_
  · refine ⟨by simp, fun j => ?_⟩
    rw [if_neg (by omega)]
    by_cases hj : j < n
    · exact getD_replicate _ _ _ _ hj
    · rw [List.getD_eq_getElem?_getD, List.getElem?_eq_none (by simp; omega)]; rfl
  · rintro i part hi1 hi2 ⟨h1, h2⟩
    rw [rd_getD 0 (by omega), ok_bind]
    refine wp_mono (inner_expand h1 (by omega)) ?_
    rintro out ⟨h3, h4⟩
    refine ⟨h3, fun j => ?_⟩
    rw [h4 j, h2 j]
    rcases Nat.lt_or_ge j i with hj | hj
    · rw [if_neg (by omega), if_pos (by omega), if_pos (by omega)]
      congr 1; omega
    · by_cases hj2 : j < i + c
      · rw [if_pos ⟨hj, hj2⟩, if_pos (by omega)]
        congr 1; omega
      · rw [if_neg (by omega), if_neg (by omega), if_neg (by omega)]
  · rintro part ⟨h1, h2⟩
    refine ⟨h1, fun j => ?_⟩
    rw [h2 j]
    by_cases hj : j < m - 1 + c
    · rw [if_pos ⟨hm, hj⟩, if_pos hj]
    · rw [if_neg (by omega), if_neg hj]

theorem expand_ub {n c : Nat} {pc : List Nat} (hp : pc.length = 1) (hn : n < c) :
    expand n 1 c pc = ub := by
  obtain ⟨out, e, h1, -⟩ := wp_iff.1 (inner_expand (n := n) (v := pc.getD 0 0) (i := 0) (c := n)
    (part := List.replicate n 0) (by simp) (by omega))
  rw [Nat.zero_add] at e
  have e2 : forRange 0 c (fun j part => wr part j (pc.getD 0 0)) (List.replicate n 0) = ub := by
    rw [forRange_split _ (Nat.zero_le n) (by omega), e, ok_bind, forRange_split _ (Nat.le_succ n) hn]
    have : forRange n (n + 1) (fun j part => wr part j (pc.getD 0 0)) out = ub := by
      unfold forRange
      rw [show n + 1 - n = 1 by omega]
      simp [forN, wr, h1]
      rfl
    rw [this]; rfl
  unfold expand forRange
  simp only [forN, Nat.sub_zero]
  rw [rd_getD 0 (by omega)]
  simp only [ok_bind, Nat.zero_add]
  have e3 : forN c 0 (fun j part => wr part j (pc.getD 0 0)) (List.replicate n 0) = ub := e2
  rw [e3]; rfl

/-- The matrix of the joined nodes. -/
def coarseMat [Zero V] (h : Csc) (nnz : Nat) : Sp V := ⟨h.n, h.n, h.p, h.i, List.replicate nnz 0⟩

/-- Number of blocks: with fewer than `c` nodes there is one; otherwise the blocks, written one node apart,
fit. -/
theorem blocks_fit {n c : Nat} (hn : 0 < n) (hc : 0 < c) :
    0 < (n + c - 1) / c ∧ (n < c → (n + c - 1) / c = 1) ∧ (c ≤ n → (n + c - 1) / c - 1 + c ≤ n) := by
  have h1 := Nat.div_add_mod (n + c - 1) c
  have h2 := Nat.mod_lt (n + c - 1) hc
  generalize hq : (n + c - 1) / c = q at h1
  have h3 : 0 < q := hq ▸ Nat.div_pos (by omega) hc
  refine ⟨h3, fun h => ?_, fun h => ?_⟩
  · rw [← hq, Nat.div_eq_iff hc]; omega
  · obtain ⟨d, hd⟩ : ∃ d, q = d + 1 := ⟨q - 1, by omega⟩
    obtain ⟨e, he⟩ : ∃ e, c = e + 1 := ⟨c - 1, by omega⟩
    rw [hd] at h1 ⊢
    generalize (n + c - 1) % c = r at h1 h2
    subst he
    have : (e + 1) * (d + 1) = e * d + e + d + 1 := by ring
    rcases Nat.eq_zero_or_pos d with rfl | hd0
    · omega
    · have : e ≤ e * d := Nat.le_mul_of_pos_right _ hd0
      omega

/-- **C84.** For a matrix that is not marked as lower triangular, with symmetric pattern and at least `c`
nodes: the blocks of `c` consecutive nodes are joined (`h`), METIS partitions the joined nodes (`pc`), and
node `j` gets the part of the block with number `j`, not `j / c`: that of the last block if there are
fewer blocks, and part 0 beyond the nodes the loop reaches. -/
theorem C84_coarsened [Zero V] {A : Sp V} {nnz k c : Nat} (hA : A.PatWF) (hsq : A.rows = A.cols)
    (hn0 : 0 < A.cols) (hn : A.p.getD A.cols 0 ≤ nnz) (hs : A.SymPattern) {stype : Int}
    (hst : 0 ≤ stype) (hk : 0 < k) (hc : 0 < c) {pk : PartKway} (hpk : Partitions pk) (debug : Bool) :
    ∃ h pc, h.WF ∧ IsCoarse c A.graph h ∧
      partGeneral pk debug (coarseMat h nnz : Sp V) (h.ptr h.n) false k = ok pc ∧
      pc.length = h.n ∧ (∀ x ∈ pc, x < k) ∧
      (A.cols < c → partCoarsened pk debug A nnz stype k c = ub) ∧
      (c ≤ A.cols → ∃ part, partCoarsened pk debug A nnz stype k c = ok part ∧
        part.length = A.cols ∧ (∀ x ∈ part, x < k) ∧
        ∀ j, part.getD j 0 = if j < h.n - 1 + c then pc.getD (min j (h.n - 1)) 0 else 0) := by
  have hg : A.graph.WF := ⟨hA.plen, hA.p0, hA.mono, hA.bound, fun u hu v hv => by
    have := hA.range u hu v hv
    rw [hsq] at this; exact this⟩
  obtain ⟨h, h1, h2, h3, h4, -⟩ := C80_coarsen (nnz := nnz) hg hn0 hc hn debug
  have h1' : Merge.coarsen debug A.cols nnz A.p A.i c = ok (h.n, h.p, h.i, h.ptr h.n) := h1
  have hnb : h.n = (A.cols + c - 1) / c := h4.nodes
  obtain ⟨f1, f2, f3⟩ := blocks_fit hn0 hc
  rw [← hnb] at f1 f2 f3
  have hT : (coarseMat h nnz : Sp V).PatWF := ⟨h2.plen, h2.p0, h2.mono, h2.bound, h2.range⟩
  have hcol : ∀ b, (coarseMat h nnz : Sp V).colRows b = h.col b := fun b => rfl
  obtain ⟨g, pc, -, p1, p2, p3, -⟩ := C82_partition (A := (coarseMat h nnz : Sp V)) (nnz := h.ptr h.n)
    (k := k) (pat := false) hT (fun _ => by
      have := h2.bound
      show h.ptr h.n ≤ (List.replicate nnz (0 : V)).length
      rw [List.length_replicate]; omega) rfl f1 (Nat.le_refl _)
    (fun b hb => h4.nodup b hb) (by
      intro r b hrb
      obtain ⟨hb, hr⟩ := mem_coords.1 hrb
      obtain ⟨u, v, h5, h6, rfl, rfl⟩ := (h4.edge b hb r).1 hr
      have hvu : (v, u) ∈ A.coords := mem_coords.2 ⟨h5, h6⟩
      obtain ⟨h7, h8⟩ := mem_coords.1 (hs v u hvu)
      have hlt : v / c < h.n := by
        rw [hnb, ← blocks_eq hc]; exact Merge.div_lt_blocks hc h7
      exact mem_coords.2 ⟨hlt, (h4.edge _ hlt _).2 ⟨v, u, h7, h8, rfl, rfl⟩⟩) hk hpk debug
  have hcall : partCoarsened pk debug A nnz stype k c = expand A.cols h.n c pc := by
    unfold partCoarsened
    rw [h1', ok_bind]
    dsimp only
    rw [if_neg (by omega)]
    have p1' : partGeneral pk debug (⟨h.n, h.n, h.p, h.i, List.replicate nnz 0⟩ : Sp V) (h.ptr h.n) false k
      = ok pc := p1
    rw [p1', ok_bind]
  refine ⟨h, pc, h2, h4, p1, p2, p3, ?_, ?_⟩
  · intro hlt
    rw [hcall, f2 hlt]
    exact expand_ub (by rw [p2]; exact f2 hlt) hlt
  · intro hle
    obtain ⟨part, e, q1, q2⟩ := wp_iff.1 (expand_wp (pc := pc) (m := h.n) p2 f1 hc (f3 hle))
    refine ⟨part, by rw [hcall, e], q1, ?_, q2⟩
    intro x hx
    obtain ⟨j, hj, rfl⟩ := List.getElem_of_mem hx
    have := q2 j
    rw [List.getD_eq_getElem _ _ hj] at this
    rw [this]
    split
    · have hlt : min j (h.n - 1) < pc.length := by
        rw [p2]
        show _ < h.n
        omega
      rw [List.getD_eq_getElem _ _ hlt]
      exact p3 _ (List.getElem_mem hlt)
    · exact hk

/-- **C84** (finding): the nodes of a block are not kept together: if there are at least two blocks of at
least two nodes and METIS separates the first two blocks, then nodes 0 and 1 of the first block are
separated. -/
theorem C84_not_blocks {m c : Nat} {pc part : List Nat} (hc : 2 ≤ c) (hm : 2 ≤ m)
    (hpart : ∀ j, part.getD j 0 = if j < m - 1 + c then pc.getD (min j (m - 1)) 0 else 0)
    (hne : pc.getD 0 0 ≠ pc.getD 1 0) :
    0 / c = 1 / c ∧ part.getD 0 0 ≠ part.getD 1 0 := by
  refine ⟨by rw [Nat.div_eq_of_lt (by omega), Nat.div_eq_of_lt (by omega)], ?_⟩
  rw [hpart 0, hpart 1, if_pos (by omega), if_pos (by omega),
    show min 0 (m - 1) = 0 by omega, show min 1 (m - 1) = 1 by omega]
  exact hne

/-- **C84.** The nodes get the part of their own block if the blocks have one node, or if there is one
block of all nodes. -/
theorem C84_own_block {n m c : Nat} {pc part : List Nat} (hc : 0 < c) (hn : 0 < n)
    (hm : m = (n + c - 1) / c)
    (hpart : ∀ j, part.getD j 0 = if j < m - 1 + c then pc.getD (min j (m - 1)) 0 else 0)
    (h : c = 1 ∨ n = c) : ∀ j, j < n → part.getD j 0 = pc.getD (j / c) 0 := by
  intro j hj
  rw [hpart j]
  rcases h with rfl | rfl
  · rw [Nat.div_one] at hm ⊢
    rw [if_pos (by omega)]
    congr 1; omega
  · have : m = 1 := by rw [hm, Nat.div_eq_iff hc]; omega
    subst this
    rw [if_pos (by omega), Nat.div_eq_of_lt hj]
    congr 1; omega

/-! ### The hypotheses can hold -/

/-- The matrix of the path 0 - 1 - 2 - 3, with diagonal. -/
def exPath : Sp Int := ⟨4, 4, [0, 2, 5, 8, 10], [0, 1, 0, 1, 2, 1, 2, 3, 2, 3], [2, 1, 1, 2, 1, 1, 2, 1, 1, 2]⟩

/-- Its lower triangle. -/
def exPathLow : Sp Int := ⟨4, 4, [0, 2, 4, 6, 7], [0, 1, 1, 2, 2, 3, 3], [2, 1, 2, 1, 2, 1, 2]⟩

/-- A METIS that numbers backwards, and one that makes two parts 1 and 2 of three. -/
def exND : NodeND := fun n _ _ => (1, (List.range n).reverse)
def exPK : PartKway := fun n _ _ _ k => (1, (List.range n).map fun i => min (1 + i % 2) (k - 1))

example : OrdersNodes exND := fun _ _ _ => ⟨rfl, List.reverse_perm _⟩

example : Partitions exPK := fun g w k _ hk _ _ => ⟨rfl, by simp [exPK], by
  intro x hx
  obtain ⟨i, _, rfl⟩ := List.mem_map.1 hx
  omega⟩

example : exPath.PatWF ∧ exPath.rows = exPath.cols ∧ 0 < exPath.cols ∧ exPath.p.getD exPath.cols 0 ≤ 10 ∧
    exPath.NoDup ∧ exPath.SymPattern := by
  refine ⟨⟨by decide, by decide, by decide, by decide, by decide⟩, rfl, by decide, by decide,
    by unfold Sp.NoDup; decide, ?_⟩
  have : ∀ e ∈ exPath.coords, (e.2, e.1) ∈ exPath.coords := by decide
  exact fun r c h => this (r, c) h

example : permGeneral exND true exPath 10 false = ok (1, [3, 2, 1, 0]) := by decide +kernel
example : partGeneral exPK true exPath 10 false 3 = ok [0, 1, 0, 1] := by decide +kernel

example : exPathLow.PatWF ∧ exPathLow.rows = exPathLow.cols ∧ exPathLow.FullDiag ∧
    exPathLow.p.getD exPathLow.cols 0 ≤ 7 := by
  refine ⟨⟨by decide, by decide, by decide, by decide, by decide⟩, rfl, by unfold Sp.FullDiag; decide,
    by decide⟩

/-- The graph handed to METIS: node 0 is in every list, in its own as well. -/
example : fullSym exPathLow 7 = ok ([0, 2, 5, 8, 10], [1, 0, 0, 2, 0, 1, 3, 0, 2, 0]) := by decide +kernel

/-- Two blocks of two nodes, in the parts 0 and 1: the nodes are in the parts 0, 1, 1, 0. -/
example : partCoarsened exPK true exPath 10 1 3 2 = ok [0, 1, 1, 0] := by decide +kernel

end Verif
