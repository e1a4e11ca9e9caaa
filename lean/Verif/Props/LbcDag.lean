import Verif.Props.Symm
import Verif.Props.Etree
import Verif.Props.LbcTree
import Verif.Props.Cost
import Verif.Props.LbcSeq
import Verif.Proof.RowTree
import Verif.Proof.Relabel

/-!
# Properties C72, C73: LBC on the elimination tree of a matrix
-/

namespace Verif
open Res Sp Symm Lbc Relation

/-- The symmetric matrix that is described by the lower triangle (`stype < 0`), the upper triangle
(`0 < stype`) or all entries (`stype = 0`) of a pattern: an entry in row `k`, column `i`. -/
def SymEntry (g : Csc) (stype : Int) (k i : Nat) : Prop :=
  (stype ≤ 0 ∧ g.Dep i k) ∨ (0 ≤ stype ∧ g.Dep k i)

theorem parentOf_map {par : List (Option Nat)} (v : Nat) :
    parentOf (par.map parInt) v = par.getD v none := by
  unfold parentOf
  by_cases hv : v < par.length
  · have e : (par.map parInt).getD v (-1) = parInt (par.getD v none) := by
      rw [List.getD_eq_getElem?_getD, List.getElem?_map, getElem?_getD none hv]
      rfl
    rw [e]
    cases par.getD v none with
    | none => rw [if_neg (by simp [parInt])]
    | some p => rw [if_pos (by simp [parInt])]; simp [parInt]
  · have e : (par.map parInt).getD v (-1) = -1 := by
      rw [List.getD_eq_getElem?_getD, List.getElem?_eq_none (by simp; omega)]
      rfl
    rw [e, if_neg (by omega), List.getD_eq_getElem?_getD, List.getElem?_eq_none (by omega)]
    rfl

/-- **C72.** The first step: the elimination tree of the symmetric matrix. -/
theorem C72_dag_etree {g : Csc} (dbg : Bool) (hg : g.WF) (hn : 0 < g.n) {stype : Int} (hs : stype ≤ 1) :
    ∃ t, dagEtree dbg g.n g.p g.i stype = ok t ∧ t.length = g.n ∧ IsEtree (SymEntry g stype) g.n (parentOf t) := by
  have hA : (⟨g.n, g.n, g.p, g.i, []⟩ : Sp Nat).PatWF := ⟨hg.plen, hg.p0, hg.mono, hg.bound, hg.range⟩
  have hpl := hg.plen
  have hco : ∀ r c, (r, c) ∈ (⟨g.n, g.n, g.p, g.i, []⟩ : Sp Nat).coords ↔ c < g.n ∧ r ∈ g.col c :=
    fun r c => Group.mem_coords
  have hdep : ∀ i k, i ≠ k → ((k, i) ∈ (⟨g.n, g.n, g.p, g.i, []⟩ : Sp Nat).coords ↔ g.Dep i k) := by
    intro i k hik
    rw [hco]
    unfold Csc.Dep
    tauto
  -- the tree, given the matrix
  have fin : ∀ (H : Sp Nat) (st : Int), H.PatWF → H.rows = g.n → H.cols = g.n → 0 < st →
      (∀ k i, i < k → k < g.n → ((i, k) ∈ H.coords ↔ SymEntry g stype k i)) →
      ∃ par, Etree.computeEtree st H.rows H.cols H.p H.i (List.replicate g.n (some 0)) = ok (true, par) ∧
        (par.map parInt).length = g.n ∧ IsEtree (SymEntry g stype) g.n (parentOf (par.map parInt)) := by
    intro H st h1 h2 h3 h4 h5
    obtain ⟨par, p1, p2, p3, -⟩ := C32_compute_etree (A := H) h1 (by omega) h4 (parent := List.replicate g.n (some 0))
      (by rw [List.length_replicate]; omega)
    refine ⟨par, p1, by rw [List.length_map, p3, List.length_replicate], ?_⟩
    have : IsEtree H.UpperEntry g.n (parentOf (par.map parInt)) := by
      intro j hj
      rw [parentOf_map, ← h3]
      exact p2 j (by omega)
    refine this.congr ?_
    intro k i hik hk
    rw [← h5 k i hik hk, Group.mem_coords]
    rfl
  unfold dagEtree
  rw [rd_getD 0 (by omega), ok_bind]
  rcases lt_trichotomy stype 0 with h0 | h0 | h0
  · obtain ⟨F, f1, f2, f3, f4, -, -, f5⟩ := C60_pattern (A := (⟨g.n, g.n, g.p, g.i, []⟩ : Sp Nat)) (stype := stype)
      (nnz := g.p.getD g.n 0) (pat := true) (perm := none) (π := id) hA (fun h => by cases h) rfl hn (by omega)
      (Nat.le_refl _) trivial (fun _ _ => rfl)
    obtain ⟨par, p1, p2, p3⟩ := fin F (-stype) f2 f3 f4 (by omega) (by
      intro k i hik hk
      rw [f5.mem_iff, List.mem_map]
      unfold SymEntry
      have hne : ¬ 0 < stype := by omega
      constructor
      · rintro ⟨⟨r, c⟩, he, heq⟩
        rw [List.mem_filter] at he
        obtain ⟨he1, he2⟩ := he
        simp only [inTriangle, if_neg hne, decide_eq_true_eq] at he2
        simp only [otherTriangle, if_neg hne, id, Prod.mk.injEq] at heq
        obtain ⟨rfl, rfl⟩ : c = i ∧ r = k := by omega
        exact .inl ⟨by omega, (hdep _ _ (by omega)).1 he1⟩
      · rintro (⟨-, hd⟩ | ⟨h, -⟩)
        · refine ⟨(k, i), List.mem_filter.2 ⟨(hdep _ _ (by omega)).2 hd, ?_⟩, ?_⟩
          · simp only [inTriangle, if_neg hne, decide_eq_true_eq]; omega
          · simp only [otherTriangle, if_neg hne, id, Prod.mk.injEq]; omega
        · omega)
    refine ⟨par.map parInt, ?_, p2, p3⟩
    dsimp only
    rw [if_pos (by omega)]
    unfold makeSymmetric
    rw [if_neg (by simp; omega), if_pos (.inl ⟨h0, rfl⟩), f1]
    simp only [ok_bind, deref, p1]
    rw [if_neg (by omega)]
    rfl
  · subst h0
    obtain ⟨H, f1, f2, f3, f4, f5⟩ := C71_unsymmetric_pattern dbg 0 (A := (⟨g.n, g.n, g.p, g.i, []⟩ : Sp Nat))
      (nnz := g.p.getD g.n 0) hA rfl hn (Nat.le_refl _) false
    obtain ⟨par, p1, p2, p3⟩ := fin H 1 f2 f3 f4 (by omega) (by
      intro k i hik hk
      rw [f5, hdep _ _ (by omega), hdep _ _ (by omega)]
      unfold SymEntry
      simp
      have : i ≤ k := by omega
      tauto)
    refine ⟨par.map parInt, ?_, p2, p3⟩
    dsimp only
    rw [if_pos (by omega), f1]
    simp only [ok_bind, deref, Bool.false_eq_true, if_false, p1]
    rw [if_neg (by omega)]
    rfl
  · obtain rfl : stype = 1 := by omega
    obtain ⟨par, p1, p2, p3⟩ := fin ⟨g.n, g.n, g.p, g.i, []⟩ 1 hA rfl rfl (by omega) (by
      intro k i hik hk
      rw [hdep _ _ (by omega)]
      unfold SymEntry
      simp)
    refine ⟨par.map parInt, ?_, p2, p3⟩
    dsimp only at p1 ⊢
    rw [if_neg (by simp), p1]
    rfl

/-- A longest chain visits every node. -/
theorem Chain.full {n : Nat} {par : Nat → Option Nat} (hf : Forest n par) {k v : Nat} (h : Chain n par k v) :
    k ≤ v ∧ (k = v → ∀ j, j < v → par j = some (j + 1)) := by
  induction h with
  | nil _ => exact ⟨Nat.zero_le _, fun h j hj => by omega⟩
  | snoc h hc ih =>
    have := hf _ _ hc.1 hc.2
    refine ⟨by omega, ?_⟩
    intro hkv j hj
    rename_i k u v
    obtain rfl : k = u := by omega
    subst hkv
    by_cases hjk : j = k
    · subst hjk; exact hc.2
    · exact ih.2 rfl j (by omega)

/-- **C72.** `get_coarse_levelSet_DAG_CSC_tree` returns a schedule of all columns in which every column of the
symbolic factor comes after all columns it needs.  The elimination tree must not be a chain (some
column `j` has no fill in row `j + 1`), and the read of `levelCost` behind its end is allowed.  The distance is at
least 2, or there is only one round of cutting, as with the default parameters of the demo. -/
theorem C72_tree_lbc {K : Type} [Add K] [LT K] [DecidableLT K] {g : Csc} (hg : g.WF) {stype : Int} (hs : stype ≤ 1)
    (hchain : ∃ j, j + 1 < g.n ∧ ¬ Fill (SymEntry g stype) (j + 1) j) {P : Params K} (hsort : ∀ l, (P.sort l).Perm l)
    {minDist : Int} (divRate : Int) (hd : 2 ≤ minDist ∨ P.innerParts < 2 * LbcTree.rate divRate) {nodeCost : List K}
    (hc : nodeCost.length = g.n) (zero : K) :
    ∃ s, coarsenDagTree P true g.n g.p g.i stype minDist divRate nodeCost zero = ok s ∧
      s.Valid g.n (fun u v => v < g.n ∧ Fill (SymEntry g stype) v u) ∧ s.nodes.length = g.n := by
  obtain ⟨j, hj, hnf⟩ := hchain
  obtain ⟨t, t1, t2, t3⟩ := C72_dag_etree P.debug hg (by omega) hs
  have hf := t3.forest
  obtain ⟨s, s1, s2, s3⟩ := LbcTree.C69_forest_lbc t2 hf (by omega) (by
      intro v hv
      have hlt := (hv.1.lt hf).2
      have hfull := Chain.full hf hv.1
      have : parentOf t j = some (j + 1) := hfull.2 (by omega) j (by omega)
      exact hnf (t3.fill (by omega) this)) hsort (minDist := minDist) divRate
    (by
      rcases hd with h | h
      · exact .inl h
      · by_cases h2 : ∃ v k, IsHeight g.n (parentOf t) v k ∧ 1 < k
        · obtain ⟨v, k, h3, h4⟩ := h2
          exact .inr (.inr (.inr ⟨1, v, k, by rw [pow_one]; exact h, h3, h4⟩))
        · exact .inr (.inr (.inl fun v k hv => by
            rcases Nat.lt_or_ge k 2 with h3 | h3
            · exact h3
            · exact absurd ⟨v, k, hv, h3⟩ h2))) hc zero
  refine ⟨s, ?_, s2.mono ?_, s3⟩
  · unfold coarsenDagTree
    rw [t1, ok_bind, s1]
  · rintro u v ⟨hv, hfl⟩
    rcases ReflTransGen.cases_tail_iff _ _ _ |>.1 (t3.sub hv hfl) with h | ⟨w, h1, h2⟩
    · have := hfl.lt
      omega
    · exact TransGen.tail' h1 h2

/-- **C72.** For a lower triangular pattern whose `stype` is negative or 0, this is a schedule of the
dependences. -/
theorem C72_lower {K : Type} [Add K] [LT K] [DecidableLT K] {g : Csc} (hg : g.WF) (hlow : g.Lower) {stype : Int}
    (hs : stype ≤ 0) (hchain : ∃ j, j + 1 < g.n ∧ ¬ Fill (fun k i => g.Dep i k) (j + 1) j) {P : Params K}
    (hsort : ∀ l, (P.sort l).Perm l) {minDist : Int} (divRate : Int) (hd : 2 ≤ minDist ∨ P.innerParts < 2 * LbcTree.rate divRate)
    {nodeCost : List K} (hc : nodeCost.length = g.n) (zero : K) :
    ∃ s, coarsenDagTree P true g.n g.p g.i stype minDist divRate nodeCost zero = ok s ∧ s.Valid g.n g.Dep := by
  have hlt : ∀ u v, g.Dep u v → u < v := by
    intro u v h
    have := hlow u h.1 v h.2.1
    have := h.2.2
    omega
  have hfill : ∀ k i, Fill (SymEntry g stype) k i → Fill (fun k i => g.Dep i k) k i := by
    intro k i h
    induction h with
    | entry h1 h2 =>
      refine .entry h1 ?_
      rcases h2 with ⟨-, h⟩ | ⟨-, h⟩
      · exact h
      · have := hlt _ _ h; omega
    | fill h1 h2 _ _ ih1 ih2 => exact .fill h1 h2 ih1 ih2
  obtain ⟨j, hj, hnf⟩ := hchain
  obtain ⟨s, s1, s2, -⟩ := C72_tree_lbc hg (by omega : stype ≤ 1) ⟨j, hj, fun h => hnf (hfill _ _ h)⟩ hsort divRate hd hc zero
  refine ⟨s, s1, s2.mono ?_⟩
  intro u v h
  exact ⟨hg.range u h.1 v h.2.1, .entry (hlt _ _ h) (.inl ⟨hs, h⟩)⟩

/-- **C72, finding.** If the elimination tree is a chain, the inspector reads behind the end of its arrays. -/
theorem C72_chain_fails {K : Type} [Add K] [LT K] [DecidableLT K] {g : Csc} (hg : g.WF) {stype : Int} (hs : stype ≤ 1)
    (hn : 2 < g.n) (hchain : ∀ j, j + 1 < g.n → Fill (SymEntry g stype) (j + 1) j) (P : Params K) (past : Bool)
    (minDist divRate : Int) {nodeCost : List K} (hc : nodeCost.length = g.n) (zero : K) (s : Sched) :
    coarsenDagTree P past g.n g.p g.i stype minDist divRate nodeCost zero ≠ ok s := by
  obtain ⟨t, t1, t2, t3⟩ := C72_dag_etree P.debug hg (by omega) hs
  have hpar : ∀ j, j + 1 < g.n → parentOf t j = some (j + 1) := by
    intro j hj
    obtain ⟨p, h1, h2, -⟩ := t3.step hj (hchain j hj)
    have := (t3.forest j p (by omega) h1).1
    rw [h1]
    congr 1
    omega
  have hch : ∀ k, k < g.n → Chain g.n (parentOf t) k k := by
    intro k
    induction k with
    | zero => exact fun h => .nil h
    | succ k ih => exact fun h => .snoc (ih (by omega)) ⟨by omega, hpar k h⟩
  unfold coarsenDagTree
  rw [t1, ok_bind]
  refine LbcTree.C69_chain_fails t2 t3.forest hn (v := g.n - 1) ⟨hch _ (by omega), ?_⟩ P past minDist divRate hc zero s
  intro k hk
  have := (Chain.full t3.forest hk).1
  omega

/-- **C72, finding.** `stype` greater than 1: the matrix is deleted twice. -/
theorem C72_double_delete {K : Type} [Add K] [LT K] [DecidableLT K] {stype : Int} (hs : 1 < stype) (n : Nat)
    (lC lR : List Nat) (P : Params K) (past : Bool) (minDist divRate : Int) (nodeCost : List K) (zero : K)
    (s : Sched) : coarsenDagTree P past n lC lR stype minDist divRate nodeCost zero ≠ ok s := by
  intro h
  unfold coarsenDagTree at h
  obtain ⟨t, h1, -⟩ := LbcTree.bind_ok h
  unfold dagEtree at h1
  obtain ⟨nnz, -, h2⟩ := LbcTree.bind_ok h1
  obtain ⟨r, h3, -⟩ := LbcTree.bind_ok h2
  rw [if_pos (by omega)] at h3
  obtain ⟨s', -, h4⟩ := LbcTree.bind_ok h3
  obtain ⟨r', -, h5⟩ := LbcTree.bind_ok h4
  rw [if_pos (by omega)] at h5
  cases h5

/-- **C73.** `L` is a lower triangular matrix, given by rows (`m`) and by columns (`g`, the same
dependences), whose elimination tree is not a chain.  Then the set-up of `SptrsvLBC` ends normally with
a valid schedule (if the read of `levelCost` behind its end is allowed), and the parallel solve
`sptrsv_csr_lbc` with this schedule gives the values of the serial solve, for every interleaving
and every arithmetic. -/
theorem C73_lbc_tree_demo {K : Type} [Add K] [LT K] [DecidableLT K] {F : Type} (A : Arith F) {m : Mat F}
    (hm : m.LowerCsr) {g : Csc} (hwf : g.WF) (hg : Mat.SameDeps g m)
    (hchain : ∃ j, j + 1 < m.n ∧ ¬ Fill (fun k i => m.RowDep i k) (j + 1) j)
    {stype : Int} (hs : stype ≤ 0) {P : Params K}
    (hsort : ∀ l, (P.sort l).Perm l) {minDist : Int} (divRate : Int) (hd : 2 ≤ minDist ∨ P.innerParts < 2 * LbcTree.rate divRate)
    (conv : Int → K) (zero : K) {b : List F} (hb : b.length = m.n) :
    ∃ s xs, lbcTreeDemo P true conv zero m.n m.p g.p g.i stype minDist divRate = ok s ∧
      s.Valid m.n m.RowDep ∧ Exec.sptrsvCsr A m.n m.p m.i m.x b = ok xs ∧
      AlwaysGives (fun sch => Exec.sptrsvLbc A m.p m.i m.x s sch b) xs := by
  obtain ⟨hgn, hgd⟩ := hg
  have hlow : g.Lower := by
    intro u hu v hv
    by_cases huv : u = v
    · omega
    · obtain ⟨hv', l, hl⟩ := (hgd u v).1 ⟨hu, hv, huv⟩
      exact Nat.le_of_lt (hm.lower v hv' _ hl)
  have he : (fun k i => m.RowDep i k) = fun k i => g.Dep i k := by
    funext k i
    exact propext (hgd i k).symm
  rw [he, ← hgn] at hchain
  obtain ⟨cost, c1, c2⟩ := wp_iff.1 (rowCosts_wp conv zero (n := m.n) (p := m.p)
    (by have : m.p.length = m.n + 1 := hm.wf.pat.plen
        omega))
  obtain ⟨s, s1, s2⟩ := C72_lower hwf hlow hs hchain hsort divRate hd (nodeCost := cost) (by omega) zero
  have hv : s.Valid m.n m.RowDep := hgn ▸ s2.mono (fun u v h => (hgd u v).2 h)
  obtain ⟨xs, x1, x2⟩ := C06_lbc_solve_eq_serial A hm hv hb
  refine ⟨s, xs, ?_, hv, x1, x2⟩
  unfold lbcTreeDemo
  rw [c1, ok_bind, ← hgn, s1]

/-- **C73.** The same for the set-up of `SpTrSv_LL_LBC`, whose costs are computed in a parallel loop. -/
theorem C73_lbc_tree_runtime {K : Type} [Add K] [LT K] [DecidableLT K] {F : Type} (A : Arith F) {m : Mat F}
    (hm : m.LowerCsr) {g : Csc} (hwf : g.WF) (hg : Mat.SameDeps g m)
    (hchain : ∃ j, j + 1 < m.n ∧ ¬ Fill (fun k i => m.RowDep i k) (j + 1) j) {P : Params K}
    (hsort : ∀ l, (P.sort l).Perm l) {minDist : Int} (divRate : Int) (hd : 2 ≤ minDist ∨ P.innerParts < 2 * LbcTree.rate divRate)
    (conv : Nat → K) (zero : K) {order : List Nat} (ho : order.Perm (List.range m.n)) {b : List F}
    (hb : b.length = m.n) :
    ∃ s xs, lbcTreeRuntime P true conv zero order m.n g.p g.i m.p m.i minDist divRate = ok s ∧
      s.Valid m.n m.RowDep ∧ Exec.sptrsvCsr A m.n m.p m.i m.x b = ok xs ∧
      AlwaysGives (fun sch => Exec.sptrsvLbc A m.p m.i m.x s sch b) xs := by
  obtain ⟨hgn, hgd⟩ := hg
  have hlow : g.Lower := by
    intro u hu v hv
    by_cases huv : u = v
    · omega
    · obtain ⟨hv', l, hl⟩ := (hgd u v).1 ⟨hu, hv, huv⟩
      exact Nat.le_of_lt (hm.lower v hv' _ hl)
  have he : (fun k i => m.RowDep i k) = fun k i => g.Dep i k := by
    funext k i
    exact propext (hgd i k).symm
  rw [he, ← hgn] at hchain
  have c1 := C48_node_costs (csc := g) (csr := ⟨m.n, m.p, m.i⟩) hwf hm.wf.pat hgn.symm .spTrSvLL (order := order)
    (by rw [hgn]; exact ho) [] [] (cost0 := List.replicate m.n 0) (by
      obtain ⟨j, hj, -⟩ := hchain
      intro h
      have := congrArg List.length h
      rw [List.length_replicate, List.length_nil] at this
      omega)
  obtain ⟨s, s1, s2⟩ := C72_lower hwf hlow (stype := -1) (by omega) hchain hsort divRate hd
    (nodeCost := ((List.range g.n).map (Kernel.work .spTrSvLL g ⟨m.n, m.p, m.i⟩)).map conv) (by simp) zero
  have hv : s.Valid m.n m.RowDep := hgn ▸ s2.mono (fun u v h => (hgd u v).2 h)
  obtain ⟨xs, x1, x2⟩ := C06_lbc_solve_eq_serial A hm hv hb
  refine ⟨s, xs, ?_, hv, x1, x2⟩
  unfold lbcTreeRuntime
  dsimp only at c1
  rw [hgn] at c1 s1
  rw [c1, ok_bind, s1]

/-! ### Examples -/

/-- A lower triangular pattern with 10 columns.  The elimination tree is `exForest10`. -/
def dagEx : Csc := ⟨10, [0, 2, 4, 6, 8, 10, 12, 13, 15, 17, 18],
  [0, 2, 1, 2, 2, 6, 3, 5, 4, 5, 5, 6, 6, 7, 9, 8, 9, 9]⟩

theorem dagEx_wf : dagEx.WF := ⟨rfl, rfl, by decide, by decide, by decide⟩

theorem dagEx_chain : ¬ Fill (fun k i => dagEx.Dep i k) (0 + 1) 0 := by
  intro h
  cases h with
  | entry _ h => exact absurd h.2.1 (by decide)
  | fill h _ _ _ => omega

example : dagEtree false 10 dagEx.p dagEx.i (-1) = ok LbcTree.exForest10 := by decide +kernel
example : dagEtree false 10 dagEx.p dagEx.i 0 = ok LbcTree.exForest10 := by decide +kernel

example : ∃ s, coarsenDagTree Lbc.exParams true 10 dagEx.p dagEx.i (-1) 2 2 [1, 1, 1, 1, 1, 1, 1, 1, 1, 1] 0 = ok s ∧
    s.Valid 10 dagEx.Dep :=
  C72_lower (g := dagEx) dagEx_wf (by unfold Csc.Lower; decide) (stype := -1) (by decide)
    ⟨0, by decide, dagEx_chain⟩ (P := Lbc.exParams) (fun _ => .refl _) (minDist := 2) 2 (.inl (by decide)) rfl 0

/-- What it returns: two parts. -/
example : coarsenDagTree Lbc.exParams true 10 dagEx.p dagEx.i (-1) 2 2 [1, 1, 1, 1, 1, 1, 1, 1, 1, 1] 0
    = ok ⟨1, [0, 2, 0, 0, 0, 0, 0, 0, 0, 0, 0], [0, 7, 10, 0, 0, 0, 0, 0, 0, 0], [0, 1, 2, 3, 4, 5, 6, 7, 8, 9]⟩ := by
  decide +kernel

theorem exMat_fill : ¬ Fill (fun k i => exMat.RowDep i k) (0 + 1) 0 := by
  intro h
  cases h with
  | entry _ h => have := exMat_rowDep h; omega
  | fill h _ _ _ => omega

example : ∃ s xs, lbcTreeDemo Lbc.exParams true (fun i => i.toNat) 0 exMat.n exMat.p exGraph.p exGraph.i (-1) 2 1 = ok s ∧
      s.Valid exMat.n exMat.RowDep ∧
      Exec.sptrsvCsr exArith exMat.n exMat.p exMat.i exMat.x [2, 3, 6, 11] = ok xs ∧
      AlwaysGives (fun sch => Exec.sptrsvLbc exArith exMat.p exMat.i exMat.x s sch [2, 3, 6, 11]) xs :=
  C73_lbc_tree_demo exArith exMat_lower exGraph_wf exGraph_sameDeps ⟨0, by decide, exMat_fill⟩ (by decide)
    (P := Lbc.exParams) (fun _ => .refl _) 1 (.inl (by decide)) _ 0 rfl

example : ∃ s xs, lbcTreeRuntime Lbc.exParams true (fun i => i) 0 [3, 1, 0, 2] exMat.n exGraph.p exGraph.i exMat.p
      exMat.i 2 1 = ok s ∧ s.Valid exMat.n exMat.RowDep ∧
      Exec.sptrsvCsr exArith exMat.n exMat.p exMat.i exMat.x [2, 3, 6, 11] = ok xs ∧
      AlwaysGives (fun sch => Exec.sptrsvLbc exArith exMat.p exMat.i exMat.x s sch [2, 3, 6, 11]) xs :=
  C73_lbc_tree_runtime exArith exMat_lower exGraph_wf exGraph_sameDeps ⟨0, by decide, exMat_fill⟩
    (P := Lbc.exParams) (fun _ => .refl _) 1 (.inl (by decide)) _ 0 (by decide) rfl

/-- A chain of three columns satisfies the hypotheses of `C72_chain_fails`. -/
example (s : Sched) : coarsenDagTree Lbc.exParams true 3 [0, 2, 4, 5] [0, 1, 1, 2, 2] (-1) 2 2 [1, 1, 1] 0 ≠ ok s := by
  refine C72_chain_fails (g := ⟨3, [0, 2, 4, 5], [0, 1, 1, 2, 2]⟩) ⟨rfl, rfl, by decide, by decide, by decide⟩
    (by decide) (by decide) ?_ Lbc.exParams true 2 2 rfl 0 s
  intro j hj
  refine .entry (by omega) (.inl ⟨by decide, ?_⟩)
  obtain rfl | rfl : j = 0 ∨ j = 1 := by dsimp only at hj; omega
  · exact ⟨by decide, by decide, by decide⟩
  · exact ⟨by decide, by decide, by decide⟩

end Verif
