import Verif.Proof.DagpSched
import Verif.Proof.P2PPlan
import Verif.Props.SmallUtil
import Verif.Props.Pipeline

/-!
# C114: the solver with a partition by dagP

Specification: Verif/Spec/Dagp.lean (graphs and partitions of dagP), `Sched.Valid`, `AlwaysGives`.
-/

namespace Verif.Dagp
open Res Exec Relation

variable {W : Type} [Zero W] [Add W] {nz : W → Bool} {pos : W → Prop}

/-- What is assumed of dagP.  The stored rows of a column are the *origins* of edges to it; this is how `loadFromCSC`
has to read the arrays for the rest to work (see `C114_other_direction`). -/
def LibOk (lib : Lib W) (pos : W → Prop) : Prop :=
  ∀ n nnz p i k, 0 < n → 0 < k → OneBased n nnz p i →
    (lib n nnz p i k).1.WF n ∧ (lib n nnz p i k).1.Positive pos ∧
    (∀ u v, u ≠ v → ((lib n nnz p i k).1.Out u v ↔ 1 ≤ v ∧ v ≤ n ∧ InCol p i v u)) ∧
    PartsOk n k (lib n nnz p i k).2 ∧ AcyclicParts (lib n nnz p i k).1 (lib n nnz p i k).2

/-! ### The pieces -/

/-- **C114** `build_levelSet_CSC_pgraph`: the call always ends.  It returns `-1` exactly for graphs with a cycle;
otherwise every node is listed once, at the level that is the length of the longest path to it. -/
theorem C114_levels {g : Csc} (h : g.WF) : ∃ r, buildLevelSet g.n g.p g.i = ok r ∧
    (¬ g.Acyclic → r.1 = -1) ∧
    (g.Acyclic → ∃ L : Nat, r.1 = L ∧ PtrOk r.2.1 L g.n ∧ r.2.2.Perm (List.range g.n) ∧
      ∀ l v, l < L → (InLevel r.2.1 r.2.2 l v ↔ v < g.n ∧ g.IsDepth v l)) := by
  obtain ⟨⟨ret, ptr, ls⟩, hr, hp⟩ := wp_iff.1 (buildLevelSet_wp h)
  refine ⟨_, hr, ?_, ?_⟩
  · intro hc
    rcases hp with ⟨L, ntl, -, -, hok⟩ | ⟨h1, -⟩
    · exfalso
      apply hc
      intro v hv
      obtain ⟨m, h1, h2⟩ := Csc.exists_long_of_cycle hv L
      exact hok.noPath v (h2.le h h1)
    · exact h1
  · intro hac
    rcases hp with ⟨L, ntl, h1, h2, hok⟩ | ⟨-, v, hv⟩
    · dsimp only at h1 h2 hok ⊢
      have hP : PtrOk ptr L g.n := PtrOk.mk' hok.ptrLen hok.ptr0 hok.ptrL fun b hb => (hok.strict b hb).le
      refine ⟨L, h1, hP, hok.perm, fun l v hl => ?_⟩
      constructor
      · rintro ⟨q, hq, hqv⟩
        rw [hP.inBlock_iff hl] at hq
        have hqn : q < g.n := by have := hP.dle (b := l + 1) hl; omega
        have hlv := hok.lvl l q hl hq.1 hq.2
        have hv : ls.getD q 0 = v := by rw [List.getD_eq_getElem?_getD, hqv]; rfl
        rw [hv] at hlv
        have hvn : v < g.n := hv ▸ hok.set_lt hqn
        exact ⟨hvn, hlv ▸ hok.isDepth h hvn⟩
      · rintro ⟨hvn, hd⟩
        obtain ⟨q, hq, hqv⟩ := hok.exists_pos hvn
        have hb := hok.pos_block hq
        rw [hqv] at hb
        have hd' := hok.isDepth h hvn
        have e : ntl.getD v 0 = l := Nat.le_antisymm (hd.2 _ hd'.1) (hd'.2 _ hd.1)
        rw [e] at hb
        refine ⟨q, (hP.inBlock_iff hl).2 hb.2, ?_⟩
        rw [hok.get_set hq, hqv]
    · exact absurd (hv.lt_n h hac) (lt_irrefl _)

/-- **C114** `convert_to_pgraph`: the graph has one node for each part number up to the largest one in use, and
column `b` lists exactly the other parts `a` with an edge from `a` to `b`: the edges are turned round. -/
theorem C114_pgraph (hw : Weights W nz pos) (dbg : Bool) {n k : Nat} {G : DGraph W} {parts : List Nat}
    (hn : 0 < n) (hG : G.WF n) (hpos : G.Positive pos) (hp : PartsOk n k parts) :
    ∃ B, convertToPgraph dbg nz G parts = ok B ∧ B.cols ≤ k ∧
      (∀ v, 1 ≤ v → v ≤ n → ∃ a, parts[v]? = some a ∧ a < B.cols) ∧
      (∃ v, 1 ≤ v ∧ v ≤ n ∧ parts[v]? = some (B.cols - 1)) ∧ (⟨B.cols, B.p, B.i⟩ : Csc).WF ∧
      ∀ b a, (⟨B.cols, B.p, B.i⟩ : Csc).Dep b a ↔ PartEdge G parts a b := by
  obtain ⟨B, hB, -, h1, h2, h3, h4, h5⟩ := wp_iff.1 (convertToPgraph_wp hw dbg hn hG hpos hp)
  exact ⟨B, hB, h1, h2, h3, h4, h5⟩

/-- **C114** `get_h_level_set` for parts that form no cycle: a complete schedule in which every dependence stays inside
a part or goes to a later level. -/
theorem C114_schedule (dbg : Bool) {g pg : Csc} (hg : g.WF) (hlow : ∀ u v, g.Dep u v → u < v) (hpg : pg.WF)
    {k : Nat} (hk : pg.n ≤ k) {parts : List Nat} (hp : PartsOk g.n pg.n parts)
    (hcov : ∀ u v a b, g.Dep u v → parts[u + 1]? = some a → parts[v + 1]? = some b → a ≠ b → pg.Dep a b)
    (hac : pg.Acyclic) :
    ∃ o L, getHLevelSet dbg g.n pg.n pg.p pg.i k parts = ok o ∧ o.levels = ((L : Nat) : Int) ∧
      (⟨L, o.levelPtr, o.partPtr, o.nodes⟩ : Sched).Valid g.n g.Dep ∧
      o.levelPtr.length = L + 1 ∧ o.partPtr.length = k + 1 ∧ o.nodes.length = g.n := by
  obtain ⟨o, ho, L, h1, h2, h3, h4, h5⟩ := wp_iff.1 (getHLevelSet_wp dbg hg hlow hpg hk hp hcov hac)
  exact ⟨o, L, ho, h1, h2, h5, h4, h3⟩

/-- **C114** Parts that form a cycle: with assertions the call stops.  Without, it
returns -1 levels and lists nothing, and its return value does not tell. -/
theorem C114_cyclic {pg : Csc} {n : Nat} (hn : 0 < n) (hpg : pg.WF) {k : Nat} {parts : List Nat} (hp : PartsOk n k parts)
    (hc : ¬ pg.Acyclic) :
    getHLevelSet true n pg.n pg.p pg.i k parts = exn ∧
    getHLevelSet false n pg.n pg.p pg.i k parts
      = ok ⟨-1, [], List.replicate (k + 1) 0, List.replicate n 0⟩ := by
  obtain ⟨⟨ret, ptr, ls⟩, hr, h1, -⟩ := C114_levels hpg
  have h1 : ret = -1 := h1 hc
  subst h1
  obtain ⟨ps, hps, -⟩ := wp_iff.1 (collectParts_wp hp)
  constructor
  · unfold getHLevelSet
    rw [hr, ok_bind, hps, ok_bind, forRange_empty _ _ (by simp), ok_bind]
    exact if_pos ⟨rfl, by dsimp only; omega⟩
  · unfold getHLevelSet
    rw [hr, ok_bind, hps, ok_bind, forRange_empty _ _ (by simp), ok_bind]
    exact if_neg (fun h => by cases h.1)

/-! ### The whole solver -/

section
variable {V : Type} [Zero V] {g : Csc}

/-- The columns of the arrays made by `convert_to_one_based`. -/
theorem inCol_oneBased (hg : g.WF) {c r : Nat} (h1 : 1 ≤ c) (h2 : c ≤ g.n) :
    InCol (0 :: g.p) ((g.i.take (g.ptr g.n)).map (· + 1)) c r ↔ ∃ r', r = r' + 1 ∧ r' ∈ g.col (c - 1) := by
  obtain ⟨c, rfl⟩ : ∃ c', c = c' + 1 := ⟨c - 1, by omega⟩
  have hpl := hg.plen
  have e1 : (0 :: g.p)[c + 1]? = some (g.ptr c) := by
    rw [List.getElem?_cons_succ, getElem?_getD 0 (by omega)]; rfl
  have e2 : (0 :: g.p)[c + 1 + 1]? = some (g.ptr (c + 1)) := by
    rw [List.getElem?_cons_succ, getElem?_getD 0 (by omega)]; rfl
  have hle : g.ptr (c + 1) ≤ g.ptr g.n := hg.mono_le (by omega) (Nat.le_refl _)
  rw [Nat.add_sub_cancel]
  unfold InCol
  constructor
  · rintro ⟨lo, hi, j, k1, k2, k3, k4, k5⟩
    rw [e1] at k1
    rw [e2] at k2
    obtain rfl := Option.some.inj k1
    obtain rfl := Option.some.inj k2
    rw [List.getElem?_map, List.getElem?_take, if_pos (by omega)] at k5
    rcases hj : g.i[j]? with _ | r'
    · rw [hj] at k5; cases k5
    · rw [hj] at k5
      refine ⟨r', (Option.some.inj k5).symm, ?_⟩
      exact mem_slice.2 ⟨j, k3, k4, hj⟩
  · rintro ⟨r', rfl, hr⟩
    obtain ⟨j, k3, k4, hj⟩ := mem_slice.1 hr
    refine ⟨_, _, j, e1, e2, k3, k4, ?_⟩
    rw [List.getElem?_map, List.getElem?_take, if_pos (by omega), hj]
    rfl

/-- The arrays handed to dagP are as they should be. -/
theorem oneBased_ok (hg : g.WF) (hlow : ∀ u v, g.Dep u v → u < v) :
    OneBased g.n (g.ptr g.n) (0 :: g.p) ((g.i.take (g.ptr g.n)).map (· + 1)) := by
  have hpl := hg.plen
  refine ⟨by simp [hpl], ?_, ?_, ?_, ?_, ?_, ?_⟩
  · rw [List.getElem?_cons_succ, getElem?_getD 0 (by omega)]
    exact congrArg some hg.p0
  · rw [List.getElem?_cons_succ, getElem?_getD 0 (by omega)]; rfl
  · have := hg.bound
    simp only [List.length_map, List.length_take]
    omega
  · intro c h1 h2 a b ha hb
    obtain ⟨c, rfl⟩ : ∃ c', c = c' + 1 := ⟨c - 1, by omega⟩
    rw [List.getElem?_cons_succ, getElem?_getD 0 (by omega)] at ha hb
    have := hg.mono c (by omega)
    obtain rfl := Option.some.inj ha
    obtain rfl := Option.some.inj hb
    exact this
  · intro c r h1 h2 hc
    obtain ⟨r', rfl, hr⟩ := (inCol_oneBased hg h1 h2).1 hc
    have := hg.range (c - 1) (by omega) r' hr
    omega
  · intro v hv
    have key : ∀ a b, TransGen (fun c r => 1 ≤ c ∧ c ≤ g.n ∧ c ≠ r ∧
        InCol (0 :: g.p) ((g.i.take (g.ptr g.n)).map (· + 1)) c r) a b → a < b := by
      intro a b hab
      have step : ∀ c r, (1 ≤ c ∧ c ≤ g.n ∧ c ≠ r ∧
          InCol (0 :: g.p) ((g.i.take (g.ptr g.n)).map (· + 1)) c r) → c < r := by
        rintro c r ⟨h1, h2, h3, h4⟩
        obtain ⟨r', rfl, hr⟩ := (inCol_oneBased hg h1 h2).1 h4
        have := hlow (c - 1) r' ⟨by omega, hr, by omega⟩
        omega
      induction hab with
      | single h => exact step _ _ h
      | tail _ h ih => exact ih.trans (step _ _ h)
    exact absurd (key v v hv) (lt_irrefl _)

/-- **C114** `SpTrSv_LL_DAGP`: `m` is a lower triangular matrix stored by rows and `g`, `lx` the same matrix stored by
columns.  If dagP keeps its promises then `build_set` ends normally, with assertions or without, its schedule
lists every row once and respects all dependences, and `fused_code` gives the values of the serial solve for every
interleaving of the threads, for any arithmetic. -/
theorem C114_dagp_solver {F : Type} (A : Arith F) {m : Mat F} (hm : SolverInput m g) (lx : List V)
    (hw : Weights W nz pos) {lib : Lib W} (hlib : LibOk lib pos) (dbg : Bool) {k : Nat} (hk : 0 < k)
    {b : List F} (hb : b.length = m.n) :
    ∃ o L xs, buildSet dbg nz lib (⟨g.n, g.n, g.p, g.i, lx⟩ : Sp V) (g.ptr g.n) k = ok o ∧
      o.levels = ((L : Nat) : Int) ∧
      (⟨L, o.levelPtr, o.partPtr, o.nodes⟩ : Sched).Valid m.n m.RowDep ∧
      sptrsvCsr A m.n m.p m.i m.x b = ok xs ∧
      AlwaysGives (fun sch => sptrsvLbc A m.p m.i m.x ⟨L, o.levelPtr, o.partPtr, o.nodes⟩ sch b) xs := by
  have hg := hm.wf
  have hlow : ∀ u v, g.Dep u v → u < v := fun u v => hm.dep_lt
  have hn : 0 < g.n := by rw [hm.same.1]; exact hm.pos
  have hpat : (⟨g.n, g.n, g.p, g.i, lx⟩ : Sp V).PatWF := ⟨hg.plen, hg.p0, hg.mono, hg.bound, hg.range⟩
  obtain ⟨G, parts, hGp⟩ : ∃ G parts, lib g.n (g.ptr g.n) (0 :: g.p) ((g.i.take (g.ptr g.n)).map (· + 1)) k
    = (G, parts) := ⟨_, _, rfl⟩
  obtain ⟨q1, q2, q3, q4, q5⟩ := hlib _ _ _ _ _ hn hk (oneBased_ok hg hlow)
  rw [hGp] at q1 q2 q3 q4 q5
  dsimp only at q1 q2 q3 q4 q5
  obtain ⟨B, hB, -, h1, h2, -, h4, h5⟩ := wp_iff.1 (convertToPgraph_wp hw dbg hn q1 q2 q4)
  have hcov : ∀ u v a c, g.Dep u v → parts[u + 1]? = some a → parts[v + 1]? = some c → a ≠ c →
      (⟨B.cols, B.p, B.i⟩ : Csc).Dep a c := by
    intro u v a c hd ha hc hne
    rw [h5]
    have huv := hlow u v hd
    have hu := hd.1
    refine ⟨fun h => hne h.symm, v + 1, u + 1, ?_, hc, ha⟩
    rw [q3 _ _ (by omega)]
    exact ⟨by omega, by omega, (inCol_oneBased hg (by omega) (by omega)).2 ⟨v, rfl, hd.2.1⟩⟩
  have hac : (⟨B.cols, B.p, B.i⟩ : Csc).Acyclic := by
    intro v hv
    refine q5 v ?_
    rw [← Relation.transGen_swap]
    exact P2P.transGen_mono (fun a b hab => (h5 a b).1 hab) hv
  obtain ⟨o, L, ho, hL, hv, y1, y2, y3⟩ := C114_schedule dbg hg hlow h4 h1 h2 hcov hac
  have hv : (⟨L, o.levelPtr, o.partPtr, o.nodes⟩ : Sched).Valid m.n m.RowDep := by
    obtain ⟨hn', hs⟩ := hm.same
    rw [← hn']
    exact ⟨hv.ptrs, hv.complete, fun u v huv => hv.respects u v ((hs u v).2 huv)⟩
  obtain ⟨xs, x1, x2⟩ := C06_lbc_solve_eq_serial A hm.lower hv hb
  refine ⟨o, L, xs, ?_, hL, hv, x1, x2⟩
  unfold buildSet
  rw [SmallU.C92_one_based hpat hg.bound, ok_bind]
  dsimp only
  rw [hGp]
  dsimp only
  rw [hB, ok_bind, ho, ok_bind]
  exact if_neg (by rw [y1, y2, y3, hL]; omega)

end

/-! ### The direction of the edges -/

/-- The matrix with the rows `[2]`, `[1 3]`, given to dagP by columns. -/
def exPairCsc : Sp Int := ⟨2, 2, [0, 2, 3], [0, 1, 1], [2, 1, 3]⟩

/-- A library that reads the columns the other way round: the edge from 1 to 2 means that row 2 uses row 1.  It makes
two parts. -/
def otherWay : Lib Nat := fun _ _ _ _ _ => (⟨2, [0, 0, 1], [0, 0, 0], [2], [1]⟩, [0, 0, 1])

/-- **C114** With a library that reads columns as lists of successors, the parts come out in reverse order:
the row that depends on the other one is listed first, and the solver gives a wrong result (row `[1 3]` is solved with
the right-hand side in place of the first unknown). -/
theorem C114_other_direction :
    (otherWay 2 3 [0, 0, 2, 3] [1, 2, 2] 2).1.Out 1 2 ∧
    buildSet true (fun w => decide (w ≠ 0)) otherWay exPairCsc 3 2 = ok ⟨2, [0, 1, 2], [0, 1, 2], [1, 0]⟩ ∧
    sptrsvCsr (⟨fun a l y => a - l * y, fun a d => a / d⟩ : Arith Int) 2 [0, 1, 3] [0, 0, 1] [2, 1, 3] [4, 5]
      = ok [2, 1] ∧
    sptrsvLbcSeq (⟨fun a l y => a - l * y, fun a d => a / d⟩ : Arith Int) [0, 1, 3] [0, 0, 1] [2, 1, 3]
      ⟨2, [0, 1, 2], [0, 1, 2], [1, 0]⟩ [4, 5] = ok [2, 0] := by
  refine ⟨⟨by decide, by decide, 0, 1, 0, 0, rfl, rfl, by decide, by decide, rfl, rfl⟩, ?_, ?_, ?_⟩
  · decide +kernel
  · decide +kernel
  · decide +kernel

/-! ### A library that keeps the promises -/

theorem natWeights : Weights Nat (fun w => decide (w ≠ 0)) (0 < ·) :=
  ⟨rfl, fun w h => by simp; omega, fun w h => by omega, fun a w h1 h2 => by omega⟩

/-- The targets of the edges from `u`: the columns in which `u` is stored. -/
def toyOuts (n : Nat) (p i : List Nat) (u : Nat) : List Nat :=
  ((List.range n).map (· + 1)).filter fun v => decide (u ∈ (⟨n + 1, p, i⟩ : Csc).col v)

/-- The last position before `e`. -/
def lastBefore (e : Nat) : Int := (e : Int) - 1

/-- The graph of the columns. -/
def toyGraph (n : Nat) (p i : List Nat) : DGraph Nat :=
  let C := Csc.ofCols ((List.range (n + 1)).map (toyOuts n p i))
  ⟨n, C.p, C.p.tail.map lastBefore, C.i, C.i.map fun _ => 1⟩

theorem toyGraph_edge {n : Nat} {p i : List Nat} {u j v w : Nat} (hu : u ≤ n)
    (h : (toyGraph n p i).EdgeAt u j v w) : w = 1 ∧ v ∈ toyOuts n p i u := by
  obtain ⟨C, hC⟩ : ∃ C, C = Csc.ofCols ((List.range (n + 1)).map (toyOuts n p i)) := ⟨_, rfl⟩
  obtain ⟨s, e, h1, h2, h3, h4, h5, h6⟩ := h
  have hpl : C.p.length = n + 2 := by rw [hC]; simp [Csc.ofCols]
  have h1 : C.p[u]? = some s := by rw [hC]; exact h1
  have h2 : (C.p.tail.map lastBefore)[u]? = some e := by rw [hC]; exact h2
  have h5 : C.i[j]? = some v := by rw [hC]; exact h5
  have h6 : (C.i.map fun _ => 1)[j]? = some w := by rw [hC]; exact h6
  rw [List.getElem?_map, List.getElem?_tail, getElem?_getD 0 (by omega)] at h2
  rw [List.getElem?_map, h5] at h6
  rw [getElem?_getD 0 (by omega)] at h1
  have e1 := Option.some.inj h1
  have e2 : (C.p.getD (u + 1) 0 : Int) - 1 = e := Option.some.inj h2
  refine ⟨(Option.some.inj h6).symm, ?_⟩
  have hcol : C.col u = toyOuts n p i u := by
    rw [hC, Csc.ofCols_col _ (by simp; omega), List.getD_eq_getElem?_getD, List.getElem?_map,
      List.getElem?_range (by omega)]
    rfl
  rw [← hcol]
  refine mem_slice.2 ⟨j, ?_, ?_, h5⟩
  · show C.p.getD u 0 ≤ j
    omega
  · show j < C.p.getD (u + 1) 0
    omega

theorem toyGraph_wf {n nnz : Nat} {p i : List Nat} (h : OneBased n nnz p i) :
    (toyGraph n p i).WF n ∧ (toyGraph n p i).Positive (0 < ·) ∧
      ∀ u v, u ≠ v → ((toyGraph n p i).Out u v ↔ 1 ≤ v ∧ v ≤ n ∧ InCol p i v u) := by
  obtain ⟨C, hC⟩ : ∃ C, C = Csc.ofCols ((List.range (n + 1)).map (toyOuts n p i)) := ⟨_, rfl⟩
  have hpl : C.p.length = n + 2 := by rw [hC]; simp [Csc.ofCols]
  have hcol : ∀ u, u ≤ n → C.col u = toyOuts n p i u := by
    intro u hu
    rw [hC, Csc.ofCols_col _ (by simp; omega), List.getD_eq_getElem?_getD, List.getElem?_map,
      List.getElem?_range (by omega)]
    rfl
  have hil : ∀ u, u ≤ n → C.p.getD (u + 1) 0 ≤ C.i.length := by
    intro u hu
    have := Csc.ofCols_ptr ((List.range (n + 1)).map (toyOuts n p i)) (k := u + 1) (by simp; omega)
    rw [← hC] at this
    show C.ptr (u + 1) ≤ _
    rw [this, hC]
    show _ ≤ (((List.range (n + 1)).map (toyOuts n p i))).flatten.length
    have := Group.flatten_take_le ((List.range (n + 1)).map (toyOuts n p i)) (a := u + 1) (b := n + 1) (by omega)
    rwa [List.take_of_length_le (l := (List.range (n + 1)).map (toyOuts n p i)) (i := n + 1) (by simp)] at this
  have hmem : ∀ u v, v ∈ toyOuts n p i u ↔ 1 ≤ v ∧ v ≤ n ∧ u ∈ (⟨n + 1, p, i⟩ : Csc).col v := by
    intro u v
    simp only [toyOuts, List.mem_filter, List.mem_map, List.mem_range, decide_eq_true_eq]
    constructor
    · rintro ⟨⟨a, ha, rfl⟩, hb⟩
      exact ⟨by omega, by omega, hb⟩
    · rintro ⟨h1, h2, h3⟩
      exact ⟨⟨v - 1, by omega, by omega⟩, h3⟩
  have hin : ∀ u v, 1 ≤ v → v ≤ n → (u ∈ (⟨n + 1, p, i⟩ : Csc).col v ↔ InCol p i v u) := by
    intro u v h1 h2
    have hp := h.plen
    have e1 := getElem?_getD (l := p) 0 (show v < p.length by omega)
    have e2 := getElem?_getD (l := p) 0 (show v + 1 < p.length by omega)
    constructor
    · intro hu
      obtain ⟨j, a, b, c⟩ := mem_slice.1 hu
      exact ⟨_, _, j, e1, e2, a, b, c⟩
    · rintro ⟨lo, hi, j, a1, a2, a3, a4, a5⟩
      rw [e1] at a1
      rw [e2] at a2
      obtain rfl := Option.some.inj a1
      obtain rfl := Option.some.inj a2
      exact mem_slice.2 ⟨j, a3, a4, a5⟩
  have hedge : ∀ u j, u ≤ n → C.p.getD u 0 ≤ j → j < C.p.getD (u + 1) 0 →
      ∃ v, C.i[j]? = some v ∧ (toyGraph n p i).EdgeAt u j v 1 := by
    intro u j hu h1 h2
    have hj := hil u hu
    refine ⟨C.i.getD j 0, getElem?_getD 0 (by omega), C.p.getD u 0, (C.p.getD (u + 1) 0 : Int) - 1, ?_, ?_, h1, by omega,
      ?_, ?_⟩
    · show (Csc.ofCols ((List.range (n + 1)).map (toyOuts n p i))).p[u]? = _
      rw [← hC]
      exact getElem?_getD 0 (by omega)
    · show ((Csc.ofCols ((List.range (n + 1)).map (toyOuts n p i))).p.tail.map lastBefore)[u]? = _
      rw [← hC, List.getElem?_map, List.getElem?_tail, getElem?_getD 0 (by omega)]
      rfl
    · show (Csc.ofCols ((List.range (n + 1)).map (toyOuts n p i))).i[j]? = _
      rw [← hC]
      exact getElem?_getD 0 (by omega)
    · show ((Csc.ofCols ((List.range (n + 1)).map (toyOuts n p i))).i.map fun _ => 1)[j]? = _
      rw [← hC, List.getElem?_map, getElem?_getD 0 (by omega)]
      rfl
  refine ⟨⟨rfl, ?_⟩, ?_, ?_⟩
  · intro u h1 h2
    refine ⟨C.p.getD u 0, (C.p.getD (u + 1) 0 : Int) - 1, ?_, ?_, ?_⟩
    · show (Csc.ofCols ((List.range (n + 1)).map (toyOuts n p i))).p[u]? = _
      rw [← hC]
      exact getElem?_getD 0 (by omega)
    · show ((Csc.ofCols ((List.range (n + 1)).map (toyOuts n p i))).p.tail.map lastBefore)[u]? = _
      rw [← hC, List.getElem?_map, List.getElem?_tail, getElem?_getD 0 (by omega)]
      rfl
    · intro j k1 k2
      obtain ⟨v, -, hE⟩ := hedge u j h2 k1 (by omega)
      have hv := (toyGraph_edge h2 hE).2
      obtain ⟨s, e, -, -, -, -, h5, h6⟩ := hE
      exact ⟨v, 1, h5, h6, ((hmem u v).1 hv).1, ((hmem u v).1 hv).2.1⟩
  · intro u j v w _ h2 hE
    rw [(toyGraph_edge h2 hE).1]
    decide
  · intro u v _
    constructor
    · rintro ⟨h1, h2, j, w, hE⟩
      obtain ⟨k1, k2, k3⟩ := (hmem u v).1 (toyGraph_edge h2 hE).2
      exact ⟨k1, k2, (hin u v k1 k2).1 k3⟩
    · rintro ⟨h1, h2, h3⟩
      obtain ⟨k1, k2⟩ := h.range v u h1 h2 h3
      have hm : v ∈ C.col u := by
        rw [hcol u k2]
        exact (hmem u v).2 ⟨h1, h2, (hin u v h1 h2).2 h3⟩
      obtain ⟨j, a, b, c⟩ := mem_slice.1 hm
      obtain ⟨v', hv', hE⟩ := hedge u j k2 a b
      rw [c] at hv'
      obtain rfl := Option.some.inj hv'
      exact ⟨k1, k2, j, 1, hE⟩

/-- A library: the graph of the columns; the parts are numbered backwards if there is a part for each vertex and the
rows of the columns are in increasing order, otherwise all vertices are in part 0. -/
def toyLib : Lib Nat := fun n _ p i k => (toyGraph n p i,
  if n ≤ k ∧ ∀ c ∈ List.range (n + 1), ∀ r ∈ (⟨n + 1, p, i⟩ : Csc).col c, c ≤ r
    then (List.range (n + 1)).map (fun v => n - v) else List.replicate (n + 1) 0)

theorem toyLib_ok : LibOk toyLib (0 < ·) := by
  intro n nnz p i k hn hk h
  obtain ⟨h1, h2, h3⟩ := toyGraph_wf h
  refine ⟨h1, h2, h3, ?_, ?_⟩
  · intro v hv1 hv2
    unfold toyLib
    dsimp only
    split
    · rename_i hc
      refine ⟨n - v, ?_, by omega⟩
      rw [List.getElem?_map, List.getElem?_range (by omega)]
      rfl
    · refine ⟨0, ?_, hk⟩
      rw [List.getElem?_replicate, if_pos (by omega)]
  · intro a ha
    have step : ∀ a b, PartEdge (toyLib n nnz p i k).1 (toyLib n nnz p i k).2 a b → a < b := by
      rintro a b ⟨hne, u, v, hout, hu, hv⟩
      have hou := hout
      unfold toyLib at hu hv
      dsimp only at hu hv
      split at hu
      · rename_i hc
        rw [if_pos hc] at hv
        have hul := (List.getElem?_eq_some_iff.1 hu).1
        have hvl := (List.getElem?_eq_some_iff.1 hv).1
        simp only [List.length_map, List.length_range] at hul hvl
        rw [List.getElem?_map, List.getElem?_range hul] at hu
        rw [List.getElem?_map, List.getElem?_range hvl] at hv
        have e1 := Option.some.inj hu
        have e2 := Option.some.inj hv
        dsimp only at e1 e2
        have huv : u ≠ v := by rintro rfl; exact hne (by omega)
        obtain ⟨k1, k2, lo, hi, j, a1, a2, a3, a4, a5⟩ := (h3 u v huv).1 hou
        have := hc.2 v (List.mem_range.2 (by omega)) u (by
          refine mem_slice.2 ⟨j, ?_, ?_, a5⟩
          · show p.getD v 0 ≤ j
            rw [List.getD_eq_getElem?_getD, a1]; exact a3
          · show j < p.getD (v + 1) 0
            rw [List.getD_eq_getElem?_getD, a2]; exact a4)
        omega
      · rename_i hc
        rw [if_neg hc] at hv
        rw [List.getElem?_replicate] at hu hv
        split at hu
        · split at hv
          · exact absurd ((Option.some.inj hu).symm.trans (Option.some.inj hv)) hne
          · cases hv
        · cases hu
    have key : ∀ a b, TransGen (PartEdge (toyLib n nnz p i k).1 (toyLib n nnz p i k).2) a b → a < b := by
      intro a b hab
      induction hab with
      | single h => exact step _ _ h
      | tail _ h ih => exact ih.trans (step _ _ h)
    exact absurd (key a a ha) (lt_irrefl _)

/-- The matrix `exTreeMat` with four parts: two levels. -/
example : buildSet true (fun w => decide (w ≠ 0)) toyLib (⟨4, 4, exTree.p, exTree.i, [2, 1, 3, 1, 5, 4, 6]⟩ : Sp Int) 7 4
    = ok ⟨2, [0, 2, 4], [0, 1, 2, 3, 4], [1, 0, 3, 2]⟩ := by decide +kernel

/-- The same matrix with two parts: the library puts everything in part 0. -/
example : buildSet true (fun w => decide (w ≠ 0)) toyLib (⟨4, 4, exTree.p, exTree.i, [2, 1, 3, 1, 5, 4, 6]⟩ : Sp Int) 7 2
    = ok ⟨1, [0, 1], [0, 4, 0], [0, 1, 2, 3]⟩ := by decide +kernel

example (dbg : Bool) : ∃ o L xs,
    buildSet dbg (fun w => decide (w ≠ 0)) toyLib (⟨4, 4, exTree.p, exTree.i, [2, 1, 3, 1, 5, 4, 6]⟩ : Sp Int) 7 4 = ok o ∧
      o.levels = ((L : Nat) : Int) ∧
      (⟨L, o.levelPtr, o.partPtr, o.nodes⟩ : Sched).Valid 4 exTreeMat.RowDep ∧
      sptrsvCsr exArith 4 exTreeMat.p exTreeMat.i exTreeMat.x [2, 3, 6, 11] = ok xs ∧
      AlwaysGives (fun sch => sptrsvLbc exArith exTreeMat.p exTreeMat.i exTreeMat.x
        ⟨L, o.levelPtr, o.partPtr, o.nodes⟩ sch [2, 3, 6, 11]) xs :=
  C114_dagp_solver exArith exTree_solver _ natWeights toyLib_ok dbg (by decide) rfl

/-- Two parts in a cycle. -/
example : ¬ (⟨2, [0, 1, 2], [1, 0]⟩ : Csc).Acyclic := fun h =>
  h 0 (.tail (.single ⟨by decide, by decide, by decide⟩) (⟨by decide, by decide, by decide⟩ : Csc.Dep _ 1 0))

example : getHLevelSet false 3 2 [0, 1, 2] [1, 0] 2 [0, 0, 1, 0] = ok ⟨-1, [], [0, 0, 0], [0, 0, 0]⟩ := by decide

example : buildLevelSet 3 [0, 1, 2, 2] [1, 2] = ok (3, [0, 1, 2, 3], [0, 1, 2]) := by decide

end Verif.Dagp
