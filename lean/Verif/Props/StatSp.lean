import Mathlib.Algebra.BigOperators.Group.List.Basic
import Mathlib.Data.Rat.Cast.Defs
import Mathlib.Tactic.Ring
import Verif.Model.StatSp
import Verif.Props.Stat
import Verif.Props.RunGroup
import Verif.Props.GroupGraph
import Verif.Props.QueueLevels
import Verif.Proof.Ic0Demo

/-!
# C133: what the class `StatSpMat` reports

profiler/old/StatSpMat.cpp.  Vocabulary: `load`, `Spread`, `block` (Verif/Spec/Stat.lean), `RunPartition`
(Verif/Props/RunGroup.lean), `PtrOk`, `groupRows` (Verif/Spec/Sched.lean), `Csc.IsDepth` (Verif/Spec/Graph.lean).
-/

namespace Verif.StatSp
open Res Csc RunGroup Stat GGraph

/-- The rows of a lower triangular matrix, no entry stored twice, the diagonal last. -/
structure LowerRows (g : Csc) : Prop where
  wf : g.WF
  last : ∀ i, i < g.n → (g.col i).getLast? = some i
  nodup : ∀ i, i < g.n → (g.col i).Nodup
  le : ∀ i, i < g.n → ∀ v ∈ g.col i, v ≤ i

/-- The counts of a solve with the rows of `g`. -/
structure Counted (g : Csc) (nnz : Nat) (r : Stats) : Prop where
  n : r.n = g.n
  perRow : r.nnzPerRow = some ((nnz : ℚ) / g.n)
  nnz : r.nnz = nnz
  /-- two operations for an entry beside the diagonal, one for the diagonal -/
  flops : r.nFlops + g.n = 2 * g.ptr g.n
  access : r.nnzAccess + g.n = 3 * g.ptr g.n
  /-- the rows that depend on the row before -/
  reuse : r.nnzReuse = ((List.range' 1 (g.n - 1)).filter (fun i => decide (i - 1 ∈ g.col i))).length

/-- The numbers derived from `levels` levels, `units` units of work and the loads `C l t` of the threads `t < m` in
level `l`: `diff` holds the largest difference of the loads in each level. -/
structure Levelled (m levels units nnz : Nat) (C : Nat → Nat → Int) (r : Stats) : Prop where
  sys : r.numSys = levels
  perLevel : r.nnzPerLevels = some ((nnz : ℚ) / levels)
  parallelism : r.averParallelism = some ((units : ℚ) / levels)
  balance : ∃ diff : List Int, diff.length = levels ∧ (∀ l, l < levels → Spread m (C l) (diff.getD l 0)) ∧
    r.sumMaxDiff = diff.sum ∧ r.averageMaxDiff = some ((diff.sum : ℚ) / levels) ∧
    -- one level: the quotient 0/0
    (levels = 1 → r.varianceSq = none) ∧
    -- the variance of a sample
    (levels ≠ 1 → r.varianceSq
      = some ((diff.map (fun (d : Int) => ((d : ℚ) - (diff.sum : ℚ) / levels) ^ 2)).sum / ((levels : ℚ) - 1)))

theorem sumOf_eq (l : List Int) : sumOf l = l.sum := by
  unfold sumOf
  rw [List.sum_eq_foldl]

theorem ratio_eq {a : Int} {b : Nat} (h : 0 < b) : ratio a b = some ((a : ℚ) / b) := if_neg (by omega)

theorem foldl_squares (a : ℚ) : ∀ (l : List Int) (s : ℚ),
    l.foldl (fun s (d : Int) => s + ((d : ℚ) - a) * ((d : ℚ) - a)) s
      = s + (l.map (fun (d : Int) => ((d : ℚ) - a) ^ 2)).sum := by
  intro l
  induction l with
  | nil => intro s; simp
  | cons d l ih =>
    intro s
    rw [List.foldl_cons, ih, List.map_cons, List.sum_cons, pow_two]
    ring

theorem levelled {m levels units nnz : Nat} {C : Nat → Nat → Int} {r : Stats} {diff : List Int} (h0 : 0 < levels)
    (hl : diff.length = levels) (hs : ∀ l, l < levels → Spread m (C l) (diff.getD l 0))
    (h1 : r.numSys = levels) (h2 : r.nnzPerLevels = ratio nnz levels) (h3 : r.averParallelism = ratio units levels)
    (h4 : r.sumMaxDiff = sumOf diff) (h5 : r.averageMaxDiff = ratio (sumOf diff) diff.length)
    (h6 : r.varianceSq = variance diff) : Levelled m levels units nnz C r := by
  have hr : ratio (sumOf diff) diff.length = some ((diff.sum : ℚ) / levels) := by
    rw [hl, ratio_eq h0, sumOf_eq]
  refine ⟨h1, ?_, ?_, diff, hl, hs, by rw [h4, sumOf_eq], by rw [h5, hr], ?_, ?_⟩
  · rw [h2, ratio_eq h0, Int.cast_natCast]
  · rw [h3, ratio_eq h0, Int.cast_natCast]
  · intro h
    rw [h6, variance, hr]
    dsimp only
    rw [if_pos (by omega)]
  · intro h
    rw [h6, variance, hr]
    dsimp only
    rw [if_neg (by omega), foldl_squares, zero_add, hl]

variable {g : Csc}

theorem LowerRows.off (h : LowerRows g) {x y : Nat} (hy : y < g.n) :
    x ∈ (g.col y).dropLast ↔ x < y ∧ x ∈ g.col y := by
  have h1 := h.last y hy
  have hne : g.col y ≠ [] := by
    intro hc; rw [hc] at h1; simp at h1
  have h2 := List.dropLast_append_getLast hne
  rw [List.getLast?_eq_some_getLast hne] at h1
  rw [Option.some.inj h1] at h2
  have hnd := h.nodup y hy
  have hle := h.le y hy
  constructor
  · intro hx
    have hm : x ∈ g.col y := List.mem_of_mem_dropLast hx
    refine ⟨?_, hm⟩
    have := hle x hm
    rw [← h2, List.nodup_append] at hnd
    have := hnd.2.2 x hx y (by simp)
    omega
  · rintro ⟨hlt, hx⟩
    rw [← h2, List.mem_append] at hx
    rcases hx with hx | hx
    · exact hx
    · simp at hx; omega

theorem LowerRows.counts (h : LowerRows g) : ∃ st, fsCsr g.n g.p g.i = ok st ∧ st.1 + g.n = 2 * g.ptr g.n ∧
    st.2.1 + g.n = 3 * g.ptr g.n ∧
    st.2.2 = ((List.range' 1 (g.n - 1)).filter (fun i => decide (i - 1 ∈ g.col i))).length := by
  obtain ⟨a, b, c, h1, h2⟩ := C90_csr_reuse h.wf h.last h.nodup
  have hne : ∀ i, i < g.n → g.ptr i < g.ptr (i + 1) := by
    intro i hi
    have h1 := h.last i hi
    have h2 := h.wf.col_length hi
    by_contra hc
    have : (g.col i).length = 0 := by omega
    rw [List.length_eq_zero_iff] at this
    rw [this] at h1
    simp at h1
  obtain ⟨a', b', c', h3, h4, h5⟩ := C90_csr_counts h.wf hne
  rw [h1] at h3
  cases h3
  exact ⟨(a, b, c), h1, h4, h5, h2⟩

/-- The report `r` for level sets of groups of the rows of `g`.  There are groups `o` (runs of rows, joined where row
`i + 1` ends with the entries `i, i + 1`), the graph `gg` of the groups, in which a group depends on another one exactly
if a row of it depends on a row of the other one, and its `L` level sets `lp, ls`, such that level `l` consists of the
groups whose longest chain of dependences has `l` steps.  The numbers of parts and groups are the number of the groups, the
number of levels is `L`; the counts are those of the solve, and the differences of the loads are those of the threads in
these levels. -/
def LevelReport (T : Threads) (g : Csc) (nnz : Nat) (r : Stats) : Prop :=
  ∃ (o : Out) (gg : Csc) (L : Nat) (lp ls : List Nat), RunPartition o g.n ∧
    (∀ i, i + 1 < g.n → (Out.Same o i (i + 1) ↔ ∃ pre d, g.col (i + 1) = pre ++ [i, d])) ∧
    gg.n = o.num ∧ (∀ a c, gg.Dep a c ↔
      a ≠ c ∧ ∃ u v, o.grouping.Mem u a ∧ o.grouping.Mem v c ∧ u < v ∧ u ∈ g.col v) ∧ gg.Acyclic ∧
    r.npart = some o.num ∧ r.ngroup = o.num ∧ r.nlevels = L ∧
    0 < L ∧ PtrOk lp L o.num ∧ (∀ l, l < L → lp.getD l 0 < lp.getD (l + 1) 0) ∧
    (∀ l v, l < L → (InLevel lp ls l v ↔ gg.IsDepth v l)) ∧ (∀ l v, gg.IsDepth v l → l < L) ∧
    Counted g nnz r ∧
    Levelled T.len L o.num nnz (fun l => load g.p (fun k => groupRows o.ptr o.set (ls.getD k 0)) (T.tid l)
      (lp.getD l 0) (lp.getD (l + 1) 0)) r

/-- **C133, level sets of groups.**  For every lower triangular matrix with a row, all numbers of threads and
assignments, the constructor ends normally with the report described above. -/
theorem C133_levels {T : Threads} (hT : T.Ok) (h : LowerRows g) (hn : 0 < g.n) (nnz : Nat) :
    ∃ r, fromMatrix T g.n g.p g.i nnz = ok r ∧ LevelReport T g nnz r := by
  obtain ⟨st, s1, s2, s3, s4⟩ := h.counts
  obtain ⟨o, o1, o2⟩ := wp_iff.1 (sptrsvCsrV1_wp h.wf (ptr := List.replicate (g.n + 1) 0)
    (set := List.replicate g.n 0) (inv := List.replicate g.n 0) (by simp) (by simp) (by simp))
  have op := o2.runPartition
  obtain ⟨rows, d, r1, r2, r3, r4, r5, -⟩ := C102_consecutive (G := o.grouping) (inv := o.inv) h.wf
    (fun i hi v hv => ((h.off hi).1 hv).1) op.part op.convex op.inv
  have hnum : o.num ≤ g.n := by
    rw [o2.num]; exact runs_le _
  have hedge : ∀ a c, a < o.num → (c ∈ d.getD a [] ↔
      a ≠ c ∧ ∃ u v, o.grouping.Mem u a ∧ o.grouping.Mem v c ∧ u < v ∧ u ∈ g.col v) := by
    intro a c ha
    rw [r4 a c ha]
    constructor
    · rintro ⟨hne, u, v, hu, hv, hx⟩
      exact ⟨hne, u, v, hu, hv, (h.off (op.part.mem_lt hv)).1 hx⟩
    · rintro ⟨hne, u, v, hu, hv, hx⟩
      exact ⟨hne, u, v, hu, hv, (h.off (op.part.mem_lt hv)).2 hx⟩
  obtain ⟨gv, gedg, gg, f1, f2, f3, f4, f5, f6⟩ := Ic0Demo.flatGraph (n := g.n) (num := o.num) (dag := d) hnum r3 (by
    intro c hc v hv
    obtain ⟨hne, _, y, _, hy, _⟩ := (hedge c v hc).1 hv
    exact ⟨hy.1, hne⟩)
  have hgn : gg.n = o.num := by rw [f2]
  have hac : gg.Acyclic := by
    intro v hv
    have : ∀ a c, Relation.TransGen gg.Dep a c → Relation.TransGen (fun i j => j ∈ d.getD i []) a c := by
      intro a c hc
      induction hc with
      | single e => exact .single ((f6 _ _).1 e).2
      | tail _ e ih => exact ih.tail ((f6 _ _).1 e).2
    exact r5 v (this v v hv)
  obtain ⟨L, lp, ls, k, l1, l2, l3, l4, l5, l6, l7, l8⟩ := C45_queue_levels f3 f5 f4
    (ptr := List.replicate (g.n + 1) 0) (set := List.replicate g.n 0)
    (by rw [hgn, List.length_replicate]; omega) (by rw [getD_replicate _ _ _ _ (by omega)])
    (by rw [hgn, List.length_replicate]; exact hnum)
  obtain ⟨L', lp', ls', l1', l2', l3', l4', l5'⟩ := C45_queue_levels_acyclic f3 f5 f4 hac
    (ptr := List.replicate (g.n + 1) 0) (set := List.replicate g.n 0)
    (by rw [hgn, List.length_replicate]; omega) (by rw [getD_replicate _ _ _ _ (by omega)])
    (by rw [hgn, List.length_replicate]; exact hnum)
  rw [l1] at l1'
  cases l1'
  have k1' : QLevel.build o.num gv gedg (List.replicate (g.n + 1) 0) (List.replicate g.n 0)
      = ok (L, lp, ls) := by
    refine (QLevel.build_ext o.num gv gedg (List.replicate (g.n + 1) 0) (List.replicate g.n 0) (o.num + 1)).eq_ok ?_
    rw [← l1, f2]
  rw [hgn] at l2' l4' l5
  have hset : o.set = List.range g.n := by
    have := o2.set
    have hl := o2.lenSet.1
    rw [List.length_replicate] at hl
    rwa [List.take_of_length_le (by omega)] at this
  obtain ⟨lc, c1, c2, c3⟩ := C90_levelset_load hT (Lp := g.p) (levelSet := ls) (ngroup := o.num) (n := g.n)
    (groupPtr := o.ptr) (groupSet := o.set) (lcost := List.replicate L 0) l2' l5
    (fun x hx => List.mem_range.1 (l4'.subset hx)) o2.ptrOk (by rw [hset]; simp)
    (fun x hx => by
      rw [hset] at hx
      have := List.mem_range.1 hx
      have := h.wf.plen
      omega) (by simp)
  rw [List.length_replicate] at c2
  have hpos : 0 < o.num := by
    obtain ⟨j, _, hj⟩ := op.inv 0 hn
    have := hj.1
    show 0 < o.grouping.num
    omega
  have hL : 0 < L := by
    by_contra hc
    have hL0 : L = 0 := by omega
    subst hL0
    obtain ⟨b, hb, _⟩ := l2'.exists_block hpos
    omega
  obtain ⟨r, hr⟩ : ∃ r : Stats, r = ⟨g.n, nnz, ratio nnz g.n, some o.num, o.num, st.1, st.2.1, st.2.2, L, L, ratio nnz L,
    ratio o.num L, sumOf lc, ratio (sumOf lc) lc.length, variance lc⟩ := ⟨_, rfl⟩
  refine ⟨r, ?_, o, gg, L, lp, ls, op, fun i hi => (o2.same_iff hi).trans (linkCsr_iff h.wf hi), hgn, ?_, hac, ?_⟩
  · unfold fromMatrix
    rw [r1, ok_bind]
    unfold fromDag
    rw [s1, ok_bind, o1, ok_bind]
    have r2' : GGraph.groupDag rows o.ptr o.set o.inv o.num = ok d := r2
    rw [r2', ok_bind, f1, ok_bind]
    dsimp only
    rw [k1', ok_bind]
    dsimp only
    rw [c1, ok_bind, hr]
  · intro a c
    rw [f6]
    constructor
    · rintro ⟨ha, hc⟩
      exact (hedge a c ha).1 hc
    · rintro ⟨hne, u, v, hu, hv⟩
      exact ⟨hu.1, (hedge a c hu.1).2 ⟨hne, u, v, hu, hv⟩⟩
  · subst hr
    exact ⟨rfl, rfl, rfl, hL, l2', l3, l7, l8,
      ⟨rfl, by rw [ratio_eq hn, Int.cast_natCast], rfl, s2, s3, s4⟩,
      levelled hL c2 c3 rfl rfl rfl rfl rfl rfl⟩

/-- **C133, schedules.**  For every schedule of the rows with at least one level, the constructor ends normally; the
counts are those of the solve, and the differences of the loads are those of the threads that run the parts.  The
numbers of parts and levels that the caller passes are reported as groups and levels; the member `npart` is not
assigned. -/
theorem C133_sched {T : Threads} (hT : T.Ok) (h : LowerRows g) (hn : 0 < g.n) {s : Sched} {parts m : Nat}
    (hlp : PtrOk s.levelPtr s.levels parts) (hpp : PtrOk s.partPtr parts m) (hm : m ≤ s.nodes.length)
    (hnodes : ∀ x ∈ s.nodes.take m, x < g.n) (hl : 0 < s.levels) (nnz partNo : Nat) (levelNo : Int) :
    ∃ r, fromSched T g.n g.p g.i nnz s partNo levelNo = ok r ∧ r.npart = none ∧ r.ngroup = partNo ∧
      r.nlevels = levelNo ∧ Counted g nnz r ∧
      Levelled T.len s.levels partNo nnz (fun l => load g.p (block s.partPtr s.nodes) (T.tid l)
        (s.levelPtr.getD l 0) (s.levelPtr.getD (l + 1) 0)) r := by
  obtain ⟨st, s1, s2, s3, s4⟩ := h.counts
  have hpl := h.wf.plen
  obtain ⟨lc, c1, c2, c3⟩ := C90_lbc_load hT (Lp := g.p) (lcost := List.replicate s.levels 0) hlp hpp hm
    (fun x hx => by have := hnodes x hx; omega) (by simp)
  rw [List.length_replicate] at c2
  refine ⟨⟨g.n, nnz, ratio nnz g.n, none, partNo, st.1, st.2.1, st.2.2, levelNo, s.levels, ratio nnz s.levels,
    ratio partNo s.levels, sumOf lc, ratio (sumOf lc) lc.length, variance lc⟩, ?_, ?_⟩
  · unfold fromSched; rw [s1, ok_bind, c1, ok_bind]
  exact ⟨rfl, rfl, rfl, ⟨rfl, by rw [ratio_eq hn, Int.cast_natCast], rfl, s2, s3, s4⟩,
    levelled hl c2 c3 rfl rfl rfl rfl rfl rfl⟩

/-- **C133, schedules of groups.** -/
theorem C133_group_sched {T : Threads} (hT : T.Ok) (h : LowerRows g) (hn : 0 < g.n) {s : Sched} {parts m ngroup k : Nat}
    {groupPtr groupSet : List Nat}
    (hlp : PtrOk s.levelPtr s.levels parts) (hpp : PtrOk s.partPtr parts m) (hm : m ≤ s.nodes.length)
    (hnodes : ∀ x ∈ s.nodes.take m, x < ngroup) (hgp : PtrOk groupPtr ngroup k) (hk : k ≤ groupSet.length)
    (hrows : ∀ x ∈ groupSet, x < g.n) (hl : 0 < s.levels) (nnz : Nat) (levelNo : Int)
    (groupNo : Nat) :
    ∃ r, fromGroupSched T g.n g.p g.i nnz s groupPtr groupSet levelNo groupNo = ok r ∧ r.npart = some parts ∧
      r.ngroup = groupNo ∧ r.nlevels = levelNo ∧ Counted g nnz r ∧
      Levelled T.len s.levels parts nnz
        (fun l => load g.p (fun q => (block s.partPtr s.nodes q).flatMap (groupRows groupPtr groupSet)) (T.tid l)
          (s.levelPtr.getD l 0) (s.levelPtr.getD (l + 1) 0)) r := by
  obtain ⟨st, s1, s2, s3, s4⟩ := h.counts
  have hpl := h.wf.plen
  obtain ⟨lc, c1, c2, c3⟩ := C90_group_load hT (Lp := g.p) (lcost := List.replicate s.levels 0) hlp hpp hm
    hnodes hgp hk (fun x hx => by have := hrows x hx; omega) (by simp)
  rw [List.length_replicate] at c2
  have hll := hlp.len
  have hlast : s.levelPtr.getD s.levels 0 = parts := by
    rw [List.getD_eq_getElem?_getD, hlp.last]
    rfl
  refine ⟨⟨g.n, nnz, ratio nnz g.n, some parts, groupNo, st.1, st.2.1, st.2.2, levelNo, s.levels, ratio nnz s.levels,
    ratio parts s.levels, sumOf lc, ratio (sumOf lc) lc.length, variance lc⟩, ?_, ?_⟩
  · unfold fromGroupSched; rw [rd_getD 0 (by omega), hlast, ok_bind, s1, ok_bind, c1, ok_bind]
  exact ⟨rfl, rfl, rfl, ⟨rfl, by rw [ratio_eq hn, Int.cast_natCast], rfl, s2, s3, s4⟩,
    levelled hl c2 c3 rfl rfl rfl rfl rfl rfl⟩

/-! ### Concrete cases -/

/-- Four rows of which the first two form a group; the other rows are groups of their own. -/
def exRows : Csc := ⟨4, [0, 1, 3, 5, 8], [0, 0, 1, 0, 2, 0, 1, 3]⟩

theorem exRows_lower : LowerRows exRows := by
  refine ⟨⟨rfl, rfl, ?_, by decide, ?_⟩, ?_, ?_, ?_⟩ <;> decide

theorem exThreads_ok : exThreads.Ok := by
  refine ⟨by decide, ?_, ?_⟩
  · intro l j; exact Nat.mod_lt _ (by decide)
  · intro l a b; exact List.reverse_perm _

/-- The groups `{0, 1}`, `{2}` and `{3}`. -/
example : (match sptrsvCsrV1 4 exRows.p exRows.i (List.replicate 5 0) (List.replicate 4 0) (List.replicate 4 0) with
    | ok o => some (o.num, o.ptr.take 4, o.inv)
    | _ => none) = some (3, [0, 2, 3, 4], [0, 0, 1, 2]) := by decide +kernel

/-- 8 entries in 4 rows: 12 operations, 20 accesses, and row 1 uses row 0. -/
example : ∃ r, fromMatrix exThreads 4 exRows.p exRows.i 8 = ok r ∧ r.nFlops = 12 ∧ r.nnzAccess = 20 ∧ r.nnzReuse = 1 ∧
    r.nnzPerRow = some (((8 : ℕ) : ℚ) / ((4 : ℕ) : ℚ)) := by
  obtain ⟨r, h1, o, gg, L, lp, ls, -, -, -, -, -, -, -, -, -, -, -, -, -, h2, -⟩ :=
    C133_levels exThreads_ok exRows_lower (by decide) 8
  have h3 : exRows.ptr exRows.n = 8 := rfl
  have h4 : exRows.n = 4 := rfl
  have f := h2.flops
  have a := h2.access
  have u := h2.reuse
  rw [h3, h4] at f a
  refine ⟨r, h1, by omega, by omega, ?_, h2.perRow⟩
  rw [u]
  decide

example : ∃ r, fromSched exThreads 4 exRows.p exRows.i 8 exSched 3 2 = ok r ∧ r.npart = none := by
  obtain ⟨r, h1, h2, -⟩ := C133_sched (g := exRows) (T := exThreads)
    exThreads_ok exRows_lower (by decide) (s := exSched) (parts := 3) (m := 4)
    exSched_ok.1 exSched_ok.2.1 (by decide) (by decide) (by decide) 8 3 2
  exact ⟨r, h1, h2⟩

/-- Groups of two rows in two levels of one part each. -/
example : PtrOk [0, 1, 2] 2 2 ∧ PtrOk [0, 1, 2] 2 2 ∧ (∀ x ∈ [0, 1], x < 2) ∧ PtrOk [0, 2, 4] 2 4 ∧
    (∀ x ∈ [0, 1, 2, 3], x < exRows.n) := by
  refine ⟨PtrOk.mk' (by decide) rfl rfl (by decide), PtrOk.mk' (by decide) rfl rfl (by decide), by decide,
    PtrOk.mk' (by decide) rfl rfl (by decide), by decide⟩

end Verif.StatSp
