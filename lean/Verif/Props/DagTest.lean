import Verif.Model.DagTest
import Verif.Props.DemoFile
import Verif.Props.LbcSeq
import Verif.Props.Measure

/-!
# C132: what example/old/sptrsv_dag_test.cpp measures

Vocabulary: `LbcMain.Uses` (row `v` has an entry in column `u`), `Sched.Valid` (Verif/Spec/Sched.lean), `Csc.IsDepth`
(Verif/Spec/Graph.lean), `MtxText` and `LowerList` (the file of C115/C122).
-/

namespace Verif.DagTest
open Res Sp Mtx Prepare Metis LbcMain

variable {V K T : Type} [Zero V] [Add K] [LT K] [DecidableLT K] [LinearOrder T]

/-- `t` is an upper median of the times: one of them, more than half are not above it, at least half not below. -/
def IsMedian (ts : List T) (t : T) : Prop :=
  t ∈ ts ∧ ts.length < 2 * ts.countP (fun a => decide (a ≤ t)) ∧ ts.length ≤ 2 * ts.countP (fun a => decide (t ≤ a))

/-- The lower triangle the program works with: that of the file, or with METIS that of the matrix with new numbers. -/
def Numbered (n : Nat) (metis : Option NodeND) (es es' : List (Nat × Nat × V)) : Prop :=
  match metis with
  | none => es' = es
  | some _ => ∃ perm π, perm.Perm (List.range n) ∧ InverseOf perm π n ∧ es' = renamedLower π es

/-- What the program may rely on: a sorting function for the times. -/
def Sorts (E : Env K T) : Prop := ∀ ts, (E.srt ts).Perm ts ∧ (E.srt ts).Pairwise (· ≤ ·)

/-- Parameters of LBC: threads not 0, positive steps (as the default values -1 and 4000), bin packing (the default of
the inspector), new arrays of the size of the matrix, each window given to one thread, in increasing order. -/
structure Tuned (E : Env K T) (n : Nat) : Prop where
  threads : ∀ r, (E.P r).innerParts ≠ 0
  p3 : 1 ≤ E.p3
  p23 : 1 ≤ E.p2 + E.p3
  binPack : ∀ r, (E.P r).binPack = true
  sort : ∀ r l, ((E.P r).sort l).Perm l
  lost : ∀ r l c, ((E.P r).lost l c).length = c.length
  xi0 : ∀ r, (E.xi0 r).length = n
  ps0 : ∀ r, (E.ps0 r).length = n
  lab0 : ∀ r, (E.lab0 r).length = n
  assign : ∀ r ws, (E.assign r ws).flatten.Perm ws ∧ ∀ ts ∈ E.assign r ws, ts.Sublist ws

omit [LinearOrder T] in
/-- The ten runs. -/
theorem loop_wpm {t : Bool} {f : Nat → Res Product} {time : Nat → T} {Q : Product → Prop}
    (h : ∀ r, r < 10 → wpm t (f r) Q) :
    wpm t (forRange 0 10 (fun r (acc : List Product × List T) => do
      let x ← f r
      ok (acc.1 ++ [x], acc.2 ++ [time r])) ([], []))
      (fun acc => acc.1.length = 10 ∧ (∀ x ∈ acc.1, Q x) ∧ acc.2 = (List.range 10).map time) := by
  refine forRange_wpm (fun r (acc : List Product × List T) => acc.1.length = r ∧ (∀ x ∈ acc.1, Q x) ∧
    acc.2 = (List.range r).map time) (Nat.zero_le _) (by simp) ?_ (fun _ h => h)
  rintro r acc - hr ⟨h1, h2, h3⟩
  rw [wpm_bind]
  refine wpm_mono (h r hr) fun x hx => ?_
  rw [wpm_ok]
  refine ⟨by simp [h1], fun y hy => ?_, ?_⟩
  · rcases List.mem_append.1 hy with hy | hy
    · exact h2 y hy
    · rw [List.mem_singleton] at hy
      rw [hy]
      exact hx
  · rw [h3, List.range_succ, List.map_append]
    rfl

/-- The part after the matrix: only the runs can fail. -/
theorem measure_wpm (E : Env K T) (hS : Sorts E) {L : Sp V} (hL : L.LowerCsc) (hpos : 0 < L.cols) {nnz : Nat}
    (hn : L.p.getD L.cols 0 ≤ nnz) :
    ∃ cost : List K, cost.length = L.cols ∧ ∀ (E' : Env K T) (mode : Int), E'.conv = E.conv → E'.zero = E.zero →
      E'.time = E.time → E'.srt = E.srt → ∀ (t : Bool) (Q : Product → Prop),
      (∀ r, r < 10 → wpm t (inspect E' mode L cost r) Q) →
      wpm t (measure E' mode L nnz) (fun rep => rep.products.length = 10 ∧ (∀ x ∈ rep.products, Q x) ∧
        IsMedian ((List.range 10).map E.time) rep.median) := by
  have hsq := hL.square
  obtain ⟨B, b1, b2⟩ := C26_csc_to_csr_keeps_matrix hL.wf (by omega) hn
  have hBp : B.p.length = L.cols + 1 := by
    have h1 := b2.wf.plen
    have h2 := b2.cols
    omega
  obtain ⟨cost, c1, c2⟩ := wp_iff.1 (Lbc.rowCosts_wp E.conv E.zero (n := L.cols) (p := B.p) (by omega))
  refine ⟨cost, c2, fun E' mode e1 e2 e3 e4 t Q h => ?_⟩
  unfold measure
  rw [b1, ok_bind, e1, e2, c1, ok_bind, wpm_bind]
  refine wpm_mono (loop_wpm h) fun acc ⟨h1, h2, h3⟩ => ?_
  obtain ⟨med, m1, m2, m3, m4⟩ := Measure.C93_time_median (hS ((List.range 10).map E.time)).1
    (hS ((List.range 10).map E.time)).2 E'.minusOne (by simp)
  rw [h3, e3, e4, m1, ok_bind, wpm_ok]
  exact ⟨h1, h2, m2, m3, m4⟩

omit [LinearOrder T] in
/-- The part up to the matrix. -/
theorem prepared {W : V → Text → Prop} {scanVal : Text → Scan V} (hW : ScanOk W scanVal) {n : Nat} (hn : 0 < n)
    {es : List (Nat × Nat × V)} (hes : LowerList n es) {txt : Text} (htxt : MtxText W true n n es txt) (fuel : Nat)
    {metis : Option NodeND} (hm : ∀ nd, metis = some nd → OrdersNodes nd) (debug : Bool) :
    ∃ es' L nnz, Numbered n metis es es' ∧ L.LowerCsc ∧ L.cols = n ∧ L.entries.Perm es' ∧ L.p.getD L.cols 0 ≤ nnz ∧
      ∀ (E : Env K T) (mode : Int), program E mode metis debug scanVal fuel txt
        = (measure E mode L nnz >>= fun rep => ok (some rep)) := by
  obtain ⟨M, r1, r2, r3, r4, r5, r6⟩ := C115_read_mtx hW htxt hn (fun e he => ⟨(hes.range e he).2, by
    have := hes.range e he; omega⟩) hes.order (fun c hc => by
      obtain ⟨d, hd⟩ := hes.diag c hc
      exact ⟨_, hd, rfl⟩) fuel
  rw [if_pos rfl] at r1
  have hL := lowerCsc_of_list hes r2 r4 r5 r6
  cases metis with
  | none =>
    refine ⟨es, M, M.i.length, rfl, hL, r5, by rw [r6], r3.1.ge, fun E mode => ?_⟩
    unfold program
    rw [r1, ok_bind]
    rfl
  | some nd =>
    obtain ⟨perm, π, G, gnz, g1, g2, g3, g4, g5⟩ := C85_reorder hL (by omega) r3.1.ge (stype := -1) (by decide)
      (hm nd rfl) debug
    rw [r5] at g3 g4
    have hGc := g5.cols
    have hent : G.entries.Perm (renamedLower π es) := by
      have := g5.entries
      rw [r6] at this
      exact this
    refine ⟨renamedLower π es, G, gnz, ⟨perm, π, g3, g4, rfl⟩, g5.lower, by omega, hent, g2.le, fun E mode => ?_⟩
    unfold program
    rw [r1, ok_bind]
    dsimp only
    rw [g1, ok_bind]

omit [Zero V] in
theorem uses_iff {L : Sp V} (hL : L.LowerCsc) {es : List (Nat × Nat × V)} (h : L.entries.Perm es) {u v : Nat} :
    L.graph.Dep u v ↔ Uses es u v := by
  rw [dep_iff hL]
  unfold Uses
  simp only [h.mem_iff]

omit [Zero V] in
/-- A path visits all rows of a lower triangular matrix exactly if every row uses the row before it. -/
theorem chain_iff {L : Sp V} (hL : L.LowerCsc) (hpos : 0 < L.cols) :
    (∃ v, L.graph.IsDepth v (L.graph.n - 1)) ↔ ∀ j, j + 1 < L.cols → L.graph.Dep j (j + 1) := by
  have hwf := hL.wf.graph hL.square
  have hgn : L.graph.n = L.cols := rfl
  constructor
  · rintro ⟨v, hv, -⟩ j hj
    have hvl := UnitTest.path_lt hwf hv
    exact DemoMain.path_consecutive hL.lowerG hv (by omega) j (by omega)
  · intro h
    have hp : ∀ k, k < L.cols → L.graph.PathTo k k := by
      intro k
      induction k with
      | zero => intro hk; exact .nil hk
      | succ k ih => intro hk; exact .snoc (ih (by omega)) (h k hk)
    refine ⟨L.cols - 1, hp _ (by omega), fun m hm => ?_⟩
    have := hm.lt_n hwf hL.acyclic
    omega

omit [Zero V] in
theorem no_chain {L : Sp V} (hL : L.LowerCsc) {es : List (Nat × Nat × V)} (h : L.entries.Perm es)
    (hch : ∃ j, j + 1 < L.cols ∧ ¬ Uses es j (j + 1)) : ¬ ∃ v, L.graph.IsDepth v (L.graph.n - 1) := by
  obtain ⟨j, hj, hn⟩ := hch
  intro hc
  exact hn ((uses_iff hL h).1 ((chain_iff hL (by omega)).1 hc j hj))

omit [Zero V] in
theorem valid_uses {L : Sp V} (hL : L.LowerCsc) {es : List (Nat × Nat × V)} (h : L.entries.Perm es) {s : Sched}
    (hs : s.Valid L.graph.n L.graph.Dep) : s.Valid L.cols (Uses es) :=
  ⟨hs.ptrs, hs.complete, fun u v huv => hs.respects u v ((uses_iff hL h).2 huv)⟩

/-- All ten runs gave a valid schedule, and the printed time is a median of the ten times. -/
def AllValid (n : Nat) (dep : Nat → Nat → Prop) (times : List T) (r : Option (Report T)) : Prop :=
  ∃ rep, r = some rep ∧ rep.products.length = 10 ∧ (∀ x ∈ rep.products, ∃ s, x = .sched s ∧ s.Valid n dep) ∧
    IsMedian times rep.median

/-- **C132, mode 1.** With a file that has the lower triangle of a symmetric matrix with full diagonal, with METIS or
without: unless every row uses the row before it, the program ends, each of the ten runs of the sequential inspector gives
a valid schedule of the triangle, and the time printed is a median of the ten times. -/
theorem C132_sequential {W : V → Text → Prop} {scanVal : Text → Scan V} (hW : ScanOk W scanVal) {n : Nat} (hn : 0 < n)
    (hmax : n ≤ 2147483647) {es : List (Nat × Nat × V)} (hes : LowerList n es) {txt : Text}
    (htxt : MtxText W true n n es txt) (fuel : Nat) {metis : Option NodeND}
    (hm : ∀ nd, metis = some nd → OrdersNodes nd) (debug : Bool) {E : Env K T} (hS : Sorts E) (hE : Tuned E n) :
    ∃ es', Numbered n metis es es' ∧ ((∃ j, j + 1 < n ∧ ¬ Uses es' j (j + 1)) →
      ∃ r, program E 1 metis debug scanVal fuel txt = ok r ∧ AllValid n (Uses es') ((List.range 10).map E.time) r) := by
  obtain ⟨es', L, nnz, h1, hL, hc, hent, hnn, hp⟩ := prepared (K := K) (T := T) hW hn hes htxt fuel hm debug
  refine ⟨es', h1, fun hch => ?_⟩
  subst hc
  obtain ⟨cost, c1, c2⟩ := measure_wpm E hS hL hn hnn
  have hwf := hL.wf.graph hL.square
  have := c2 E 1 rfl rfl rfl rfl true (fun x => ∃ s, x = .sched s ∧ s.Valid L.cols (Uses es')) (fun r _ => by
    obtain ⟨s, s1, s2⟩ := Lbc.C55_seq_lbc_valid (g := L.graph) (P := E.P r) (minDist := E.p2) (divRate := E.p3)
      (nodeCost := cost) (xi0 := E.xi0 r) (ps0 := E.ps0 r)
      ⟨hwf, hL.oneDiag, hL.acyclic, hn, hmax, no_chain hL hent hch, c1, hE.xi0 r, hE.ps0 r, hE.threads r,
        .inl ⟨hE.p3, hE.p23⟩, hE.sort r⟩ E.zero
    have s1' : Lbc.coarsenSeq (E.P r) L.cols L.p L.i E.p2 E.p3 cost E.zero (E.xi0 r) (E.ps0 r) = ok s := s1
    unfold inspect
    rw [if_neg (by decide), if_pos rfl, s1', ok_bind, wpm_ok]
    exact ⟨s, rfl, valid_uses hL hent s2⟩)
  rw [wpm_true] at this
  obtain ⟨rep, m1, m2⟩ := wp_iff.1 this
  exact ⟨some rep, by rw [hp, m1]; rfl, rep, rfl, m2⟩

/-- **C132, the default mode and every mode except 1 and 2.** The same with the parallel inspector: in every execution
that ends, whatever the interleavings of the ten runs are; and some execution ends. -/
theorem C132_parallel {W : V → Text → Prop} {scanVal : Text → Scan V} (hW : ScanOk W scanVal) {n : Nat} (hn : 0 < n)
    {es : List (Nat × Nat × V)} (hes : LowerList n es) {txt : Text}
    (htxt : MtxText W true n n es txt) (fuel : Nat) {metis : Option NodeND}
    (hm : ∀ nd, metis = some nd → OrdersNodes nd) (debug : Bool) {E : Env K T} (hS : Sorts E) (hE : Tuned E n)
    {mode : Int} (h1 : mode ≠ 1) (h2 : mode ≠ 2) :
    ∃ es', Numbered n metis es es' ∧ ((∃ j, j + 1 < n ∧ ¬ Uses es' j (j + 1)) →
      wpl (program E mode metis debug scanVal fuel txt) (AllValid n (Uses es') ((List.range 10).map E.time)) ∧
      ∃ sched : Nat → Nat → List Int → List Nat, ∃ r,
        program { E with P := fun k => { E.P k with sched := sched k } } mode metis debug scanVal fuel txt = ok r) := by
  obtain ⟨es', L, nnz, hnum, hL, hc, hent, hnn, hp⟩ := prepared (K := K) (T := T) hW hn hes htxt fuel hm debug
  refine ⟨es', hnum, fun hch => ?_⟩
  subst hc
  obtain ⟨cost, c1, c2⟩ := measure_wpm E hS hL hn hnn
  have hwf := hL.wf.graph hL.square
  have hall : ∀ r, Lbc.LbcHyp L.graph (E.P r) E.p2 E.p3 cost (E.lab0 r) (E.assign r) := fun r =>
    ⟨hwf, hL.oneDiag, hL.acyclic, hn, no_chain hL hent hch, c1, hE.lab0 r, hE.threads r,
        .inl ⟨hE.p3, hE.p23⟩, .inl (hE.binPack r), hE.sort r, hE.lost r, hE.assign r⟩
  constructor
  · have := c2 E mode rfl rfl rfl rfl false (fun x => ∃ s, x = .sched s ∧ s.Valid L.cols (Uses es')) (fun r _ => by
      have s1 := (Lbc.C36_lbc_valid (hall r) E.zero).1
      rw [← wpm_false] at s1
      unfold inspect
      rw [if_neg h2, if_neg h1, wpm_bind]
      refine wpm_mono s1 fun s hs => ?_
      rw [wpm_ok]
      exact ⟨s, rfl, valid_uses hL hent hs⟩)
    rw [hp, ← wpm_false, wpm_bind]
    refine wpm_mono this fun rep hrep => ?_
    rw [wpm_ok]
    exact ⟨rep, rfl, hrep⟩
  · have hex := fun r => (Lbc.C36_lbc_valid (hall r) E.zero).2
    choose sched s hs using hex
    have := c2 { E with P := fun k => { E.P k with sched := sched k } } mode rfl rfl rfl rfl true (fun _ => True)
      (fun r _ => by
        have s1 : Lbc.coarsenParallel { E.P r with sched := sched r } L.cols L.p L.i E.p2 E.p3 cost E.zero (E.lab0 r)
          (E.assign r) = ok (s r) := hs r
        unfold inspect
        rw [if_neg h2, if_neg h1]
        dsimp only
        rw [s1, ok_bind, wpm_ok]
        trivial)
    rw [wpm_true] at this
    obtain ⟨rep, m1, -⟩ := wp_iff.1 this
    exact ⟨sched, some rep, by rw [hp, m1]; rfl⟩

/-- **C132, mode 2.** The program ends in every case, and all ten runs give the same.  Unless every row uses the row
before it, this is the sets of rows by the length of a longest path of dependences that ends in them; otherwise
`build_levelSet_CSC` returned its code for cycles, which the program does not notice. -/
theorem C132_level_sets {W : V → Text → Prop} {scanVal : Text → Scan V} (hW : ScanOk W scanVal) {n : Nat} (hn : 0 < n)
    {es : List (Nat × Nat × V)} (hes : LowerList n es) {txt : Text}
    (htxt : MtxText W true n n es txt) (fuel : Nat) {metis : Option NodeND}
    (hm : ∀ nd, metis = some nd → OrdersNodes nd) (debug : Bool) {E : Env K T} (hS : Sorts E) :
    ∃ es', ∃ L : Sp V, ∃ o t, Numbered n metis es es' ∧ L.LowerCsc ∧ L.cols = n ∧ L.entries.Perm es' ∧
      program E 2 metis debug scanVal fuel txt = ok (some ⟨List.replicate 10 (.levels o), t⟩) ∧
      IsMedian ((List.range 10).map E.time) t ∧
      ((∃ j, j + 1 < n ∧ ¬ Uses es' j (j + 1)) → ∃ h : Nat, o.ret = h ∧ o.levelSet.Perm (List.range n) ∧
        ∀ l v, l < h → v < n → (InLevel o.levelPtr o.levelSet l v ↔ L.graph.IsDepth v l)) ∧
      ((∀ j, j + 1 < n → Uses es' j (j + 1)) → o.ret = -1) := by
  obtain ⟨es', L, nnz, hnum, hL, hc, hent, hnn, hp⟩ := prepared (K := K) (T := T) hW hn hes htxt fuel hm debug
  subst hc
  obtain ⟨cost, c1, c2⟩ := measure_wpm E hS hL hn hnn
  have hwf := hL.wf.graph hL.square
  obtain ⟨o, o1, o2, o3⟩ := C04_error_code_exact hwf hL.oneDiag
  have o1' : LevelSet.buildLevelSet L.cols L.p L.i = ok o := o1
  have := c2 E 2 rfl rfl rfl rfl true (fun x => x = .levels o) (fun r _ => by
    unfold inspect
    rw [if_pos rfl, o1', ok_bind, wpm_ok])
  rw [wpm_true] at this
  obtain ⟨rep, m1, m2, m3, m4⟩ := wp_iff.1 this
  have hrep : rep = ⟨List.replicate 10 (.levels o), rep.median⟩ := by
    obtain ⟨ps, t⟩ := rep
    have : ps = List.replicate 10 (.levels o) := List.eq_replicate_iff.2 ⟨m2, m3⟩
    rw [this]
  refine ⟨es', L, o, rep.median, hnum, hL, rfl, hent, ?_, m4, fun hch => ?_, fun hch => ?_⟩
  · rw [hp, m1, ok_bind, ← hrep]
  · have hne : o.ret ≠ -1 := by
      intro h
      rcases o2.1 h with h | h
      · exact h hL.acyclic
      · exact no_chain hL hent hch h
    have h0 := (o3 hne).1
    obtain ⟨o', a1, a2⟩ := C01_levelset_permutation hwf hL.oneDiag
    obtain ⟨o'', b1, b2⟩ := C02_levels_respect_dependences hwf hL.oneDiag
    obtain ⟨o3', d1, d2⟩ := C03_levels_longest_path hwf hL.oneDiag
    rw [o1] at a1 b1 d1
    cases a1
    cases b1
    cases d1
    obtain ⟨h, e1, -, -, -, e5⟩ := a2 h0
    obtain ⟨h', e1', f2, -⟩ := b2 h0
    obtain ⟨h'', e1'', g2, -, -⟩ := d2 h0
    have hh : h' = h := by omega
    subst hh
    refine ⟨h', e1, e5, fun l v hl hv => ?_⟩
    obtain ⟨k, k1, k2, k3⟩ := f2 v hv
    obtain ⟨k', k1', k4⟩ := g2 v hv
    rw [k1] at k1'
    cases k1'
    rw [k3 l hl]
    constructor
    · rintro rfl
      exact k4
    · intro hd
      exact Nat.le_antisymm (k4.2 l hd.1) (hd.2 k k4.1)
  · exact o2.2 (.inr ((chain_iff hL hn).2 fun j hj => (uses_iff hL hent).2 (hch j hj)))

omit [LinearOrder T] in
/-- **C132, limit.** If every row uses the row before it, as in a tridiagonal matrix, the program ends with an exception in
every mode except 2. -/
theorem C132_throws {W : V → Text → Prop} {scanVal : Text → Scan V} (hW : ScanOk W scanVal) {n : Nat}
    (hn : 0 < n) {es : List (Nat × Nat × V)} (hes : LowerList n es) {txt : Text}
    (htxt : MtxText W true n n es txt) (fuel : Nat) {metis : Option NodeND}
    (hm : ∀ nd, metis = some nd → OrdersNodes nd) (debug : Bool) (E : Env K T) {mode : Int} (h2 : mode ≠ 2) :
    ∃ es', Numbered n metis es es' ∧ ((∀ j, j + 1 < n → Uses es' j (j + 1)) →
      program E mode metis debug scanVal fuel txt = exn) := by
  obtain ⟨es', L, nnz, hnum, hL, hc, hent, hnn, hp⟩ := prepared (K := K) (T := T) hW hn hes htxt fuel hm debug
  refine ⟨es', hnum, fun hch => ?_⟩
  subst hc
  have hwf := hL.wf.graph hL.square
  have hbad : ¬ L.graph.Acyclic ∨ ∃ v, L.graph.IsDepth v (L.graph.n - 1) :=
    .inr ((chain_iff hL hn).2 fun j hj => (uses_iff hL hent).2 (hch j hj))
  have hsq := hL.square
  obtain ⟨B, b1, b2⟩ := C26_csc_to_csr_keeps_matrix hL.wf (by omega) hnn
  have hBp : B.p.length = L.cols + 1 := by
    have h1 := b2.wf.plen
    have h2 := b2.cols
    omega
  obtain ⟨cost, c1, c2⟩ := wp_iff.1 (Lbc.rowCosts_wp E.conv E.zero (n := L.cols) (p := B.p) (by omega))
  have hi : inspect E mode L cost 0 = exn := by
    have s1 : Lbc.coarsenSeq (E.P 0) L.cols L.p L.i E.p2 E.p3 cost E.zero (E.xi0 0) (E.ps0 0) = exn :=
      Lbc.C55_throws_on_chains hwf hL.oneDiag hbad (E.P 0) E.p2 E.p3 cost E.zero (E.xi0 0) (E.ps0 0)
    have s2 : Lbc.coarsenParallel (E.P 0) L.cols L.p L.i E.p2 E.p3 cost E.zero (E.lab0 0) (E.assign 0) = exn :=
      Lbc.C36_throws_on_chains hwf hL.oneDiag hbad (E.P 0) E.p2 E.p3 cost E.zero (E.lab0 0) (E.assign 0)
    unfold inspect
    rw [if_neg h2, s1, s2]
    split <;> rfl
  rw [hp]
  unfold measure
  rw [b1, ok_bind, c1, ok_bind]
  have : ∀ f : Nat → List Product × List T → Res (List Product × List T), f 0 ([], []) = exn →
      forRange 0 10 f ([], []) = exn := by
    intro f hf
    show (f 0 ([], []) >>= forN 9 1 f) = exn
    rw [hf]
    rfl
  rw [this _ (by rw [hi]; rfl)]
  rfl

/-! ### Examples -/

/-- The parameters of the command line have their default values. -/
def exEnv : Env Nat Nat where
  P := fun _ => { Lbc.exParams with innerParts := 6 }
  conv := Int.toNat
  zero := 0
  p2 := -1
  p3 := 4000
  xi0 := fun _ => [5, 5, 5]
  ps0 := fun _ => [7, 7, 7]
  lab0 := fun _ => [0, 0, 0]
  assign := fun _ ws => [ws]
  time := fun r => 20 - r
  srt := fun l => l.mergeSort
  minusOne := 0

theorem exEnv_sorts : Sorts exEnv := DemoMain.Env.Ok.srt exDemoEnv_ok

theorem exEnv_tuned : Tuned exEnv 3 where
  threads := fun _ => show (6 : Int) ≠ 0 by decide
  p3 := by decide
  p23 := by decide
  binPack := fun _ => rfl
  sort := fun _ _ => .refl _
  lost := fun _ _ _ => rfl
  xi0 := fun _ => rfl
  ps0 := fun _ => rfl
  lab0 := fun _ => rfl
  assign := fun _ ws => ⟨by simp [exEnv], by simp [exEnv]⟩

/-- In the file of C122 row 1 does not use row 0. -/
theorem exTwoParts_gap : ∃ j, j + 1 < 3 ∧ ¬ Uses [(0, 0, (4 : ℚ)), (2, 0, -5), (1, 1, 6), (2, 2, 3)] j (j + 1) :=
  ⟨0, by decide, by rintro ⟨-, x, hx⟩; simp at hx⟩

/-- The modes 1, 0 and 2 for this file, without METIS. -/
example : ∃ r, program exEnv 1 none true scanRat 0 exTwoParts = ok r ∧
    AllValid 3 (Uses [(0, 0, (4 : ℚ)), (2, 0, -5), (1, 1, 6), (2, 2, 3)]) ((List.range 10).map exEnv.time) r := by
  obtain ⟨es', h1, h2⟩ := C132_sequential scanRat_ok (by decide) (by decide) exTwoParts_ok exTwoParts_rat 0
    (metis := none) (by simp) true exEnv_sorts exEnv_tuned
  cases h1
  exact h2 exTwoParts_gap

example : wpl (program exEnv 0 none true scanRat 0 exTwoParts)
    (AllValid 3 (Uses [(0, 0, (4 : ℚ)), (2, 0, -5), (1, 1, 6), (2, 2, 3)]) ((List.range 10).map exEnv.time)) := by
  have h := C132_parallel scanRat_ok (by decide) exTwoParts_ok exTwoParts_rat 0
    (metis := none) (by simp) true exEnv_sorts exEnv_tuned (mode := 0) (by decide) (by decide)
  generalize program exEnv 0 none true scanRat 0 exTwoParts = r at h ⊢
  obtain ⟨es', h1, h2⟩ := h
  cases h1
  exact (h2 exTwoParts_gap).1

example {nd : NodeND} (hnd : OrdersNodes nd) :=
  C132_level_sets scanRat_ok (by decide) exTwoParts_ok exTwoParts_rat 0 (metis := some nd)
    (by rintro _ ⟨⟩; exact hnd) true exEnv_sorts

/-- The median of the ten times 20, 19, ..., 11. -/
example : IsMedian ((List.range 10).map exEnv.time) 16 := by
  unfold IsMedian
  decide

/-- In the file of C115 row 1 uses row 0: the program throws in its default mode. -/
example : program exEnv 0 none true scanRat 0 exMtx = exn := by
  obtain ⟨es', h1, h2⟩ := C132_throws scanRat_ok (by decide) exRat_ok exRat_text 0 (metis := none) (by simp) true exEnv
    (mode := 0) (by decide)
  cases h1
  refine h2 fun j hj => ?_
  obtain rfl : j = 0 := by omega
  exact ⟨by decide, -5, by simp⟩

end Verif.DagTest
