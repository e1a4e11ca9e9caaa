import Verif.Model.Ic0CsrMain
import Verif.Props.Ic0Csr
import Verif.Props.Ic0Main
import Verif.Proof.Bcsc
import Verif.Proof.Greedy

/-!
# C125: the demo program for the incomplete Cholesky kernels for rows

`RowsScaled` (Verif/Props/Ic0Csr.lean): what the kernels compute, every row divided by the root of its diagonal entry;
`Converted`: the same matrix stored by rows; `IsChain` (Verif/Props/UnitTest.lean): a path of dependences visits all
columns; `Agrees`, `Reports`: see Verif/Props/Ic0Main.lean.
-/

namespace Verif
open Res TestU Harness Measure Exec Sp Prepare Relation Metis TransSym Mtx

variable {V S T K : Type} [Zero V] [One V]

namespace Ic0CsrMain
open Ic0Main

omit [Zero V] [One V] in
/-- The scaled rows are determined. -/
theorem rowsScaled_unique {A : IcArith V} {a : Mat V} (hm : a.LowerCsr) (he : a.x.length = a.pat.ptr a.n) {x y : List V}
    (hx : Ic0r.RowsScaled A a x) (hy : Ic0r.RowsScaled A a y) : x = y := by
  refine List.ext_getElem? fun k => ?_
  by_cases hk : k < a.pat.ptr a.n
  · obtain ⟨r, r1, r2, r3⟩ := Greedy.col_of_pos hm.wf.pat (k := k) hk
    obtain ⟨d, hd⟩ := hm.diag r r1
    have e := (hx.2 r r d r1 hd).trans (hy.2 r r d r1 hd).symm
    have wx : (a.withX x).WF := ⟨hm.wf.pat, by show a.pat.ptr a.n ≤ x.length; rw [hx.1, he]⟩
    have wy : (a.withX y).WF := ⟨hm.wf.pat, by show a.pat.ptr a.n ≤ y.length; rw [hy.1, he]⟩
    obtain ⟨i1, v1, -, g1, q1⟩ := Bcsc.row_get wx (j := r) (k := k) r1 r2 r3
    obtain ⟨i2, v2, -, g2, q2⟩ := Bcsc.row_get wy (j := r) (k := k) r1 r2 r3
    rw [e] at q1
    change ((a.withX y).row r)[k - a.pat.ptr r]? = _ at q1
    change ((a.withX y).row r)[k - a.pat.ptr r]? = _ at q2
    rw [q1] at q2
    injection q2 with q2
    injection q2 with _ q2
    change x[k]? = _ at g1
    change y[k]? = _ at g2
    rw [g1, g2, q2]
  · have l1 := hx.1
    have l2 := hy.1
    rw [List.getElem?_eq_none (by omega), List.getElem?_eq_none (by omega)]

/-- The parameters, as with the default values -3, 4000, 6. -/
structure EnvOk [LinearOrder T] (E : Env V T K) : Prop where
  cmp : SelfEqual E.C E.eps
  srt : Sorts E.srt
  perm : ∀ l, (E.P.sort l).Perm l
  threads : E.P.innerParts ≠ 0
  p3 : 1 ≤ E.p3
  p23 : 1 ≤ E.p2 + E.p3
  xi0 : ∀ n, (E.xi0 n).length = n
  ps0 : ∀ n, (E.ps0 n).length = n

/-- All three objects have found `xs`, and the only possible cause of a message are elements that are not numbers. -/
structure AllAgree [LinearOrder T] (E : Env V T K) (xs : List V) (r : Report V T) : Prop where
  serial : r.serial.solution = xs ∧ r.serial.alarm = false
  levelset : Agrees E.C 5 (E.time 1) xs r.levelset
  lbc : Agrees E.C 5 (E.time 2) xs r.lbc

omit [Zero V] [One V] in
theorem entry_iff {L R : Sp V} (hR : Converted L R) (r c : Nat) (d : V) : (c, r, d) ∈ R.entries ↔ (r, c, d) ∈ L.entries := by
  rw [← hR.entries.mem_iff, List.mem_map]
  constructor
  · intro hm; exact ⟨_, hm, rfl⟩
  · rintro ⟨⟨a, b, e⟩, hm, he⟩
    simp only [swapEntry, Prod.mk.injEq] at he
    obtain ⟨rfl, rfl, rfl⟩ := he
    exact hm

omit [One V] in
theorem last_iff {L R : Sp V} (hL : L.LowerCsc) (hR : Converted L R) {r : Nat} {d : V} :
    (r < R.toMat.n ∧ (R.toMat.row r).getLast? = some (r, d)) ↔ (r, r, d) ∈ L.entries := by
  have hm := hL.lowerCsr hR
  constructor
  · rintro ⟨h1, h2⟩
    exact (entry_iff hR r r d).1 (mem_entries.2 ⟨h1, List.mem_of_getLast? h2⟩)
  · intro h
    obtain ⟨h1, h2⟩ := mem_entries.1 ((entry_iff hR r r d).2 h)
    refine ⟨h1, ?_⟩
    obtain ⟨d', hd'⟩ := hm.diag r h1
    have hne : R.toMat.row r ≠ [] := List.ne_nil_of_mem h2
    have h3 : (r, d) ∈ (R.toMat.row r).dropLast ++ [(R.toMat.row r).getLast hne] := by
      rw [List.dropLast_append_getLast]; exact h2
    rw [List.getLast?_eq_getLast_of_ne_nil hne] at hd' ⊢
    rw [List.mem_append, List.mem_singleton] at h3
    rcases h3 with h3 | h3
    · have := hm.lower r h1 _ h3
      dsimp only at this
      omega
    · rw [h3]

end Ic0CsrMain

open Ic0Main in
open Ic0CsrMain hiding Report program classes in
variable [LinearOrder T] [Add K] [LT K] [DecidableLT K] in
/-- **C125.** The objects of the demo for the lower triangle `L`, stored by columns.  `R` is the same matrix stored by
rows and `xs` are its values, every row divided by the root of its diagonal entry.  If the diagonal entries are positive
and no path of dependences visits all columns, all three objects report `xs`.  If a diagonal entry is not positive, the
assertion stops the program; if a path visits all columns, it never ends normally. -/
theorem C125_demo {E : Env V T K} (hE : Ic0CsrMain.EnvOk E) (pos : V → Bool) {L : Sp V} (hL : L.LowerCsc) (hX : L.Exact)
    (hc : 0 < L.cols) (hmax : L.cols ≤ 2147483647) :
    ∃ R xs, cscToCsr L (L.p.getD L.cols 0) false = ok R ∧ Converted L R ∧ Ic0r.RowsScaled E.A R.toMat xs ∧
      ((∀ r d, (r, r, d) ∈ L.entries → pos d = true) → ¬ L.IsChain →
        Reports (Ic0CsrMain.classes E pos L (L.p.getD L.cols 0)) (Ic0CsrMain.AllAgree E xs)) ∧
      ((∃ r d, (r, r, d) ∈ L.entries ∧ pos d = false) → ∀ sch, Ic0CsrMain.classes E pos L (L.p.getD L.cols 0) sch = exn) ∧
      (L.IsChain → ∀ sch r, Ic0CsrMain.classes E pos L (L.p.getD L.cols 0) sch ≠ ok r) := by
  have hsq := hL.square
  have hw := hL.wf.graph hL.square
  obtain ⟨R, h2, hR, hRX⟩ := C26_csc_to_csr_arrays_keeps_matrix hL.wf
  have hcsr : cscToCsr L (L.p.getD L.cols 0) false = ok R := by
    rw [← h2]
    unfold cscToCsr cscToCsrArrays
    rw [rd_getD 0 (by rw [hL.wf.plen]; omega), ok_bind, ok_bind]
    unfold newPtrLen newVals
    rw [if_neg (by omega)]
    rfl
  have hRr : R.rows = L.cols := hR.rows
  have hRc : R.cols = L.cols := by have := hR.cols; omega
  have hm := hL.lowerCsr hR
  have hso : R.toMat.pat.Sorted := hR.strict hL.noDup
  have hlenR : R.x.length = R.p.getD R.cols 0 := hRX.2
  have hnn : R.x.length = L.p.getD L.cols 0 := by
    have := hR.entries.length_eq
    rw [List.length_map, entries_count hR.wf, entries_count hL.wf] at this
    omega
  have hcopy := C51_copy_sparse hL.wf hX hc
  obtain ⟨xs, -, x2⟩ := (Ic0r.C111_serial E.A (fun _ => true) hm hso).1 (fun _ _ _ _ => rfl)
  have hxl : xs.length = R.x.length := x2.1
  have huniq : ∀ {y}, Ic0r.RowsScaled E.A R.toMat y → y = xs := fun hy => rowsScaled_unique hm hlenR hy x2
  have hb : ∀ {S : Type} {ins : Res S} {s : S}, ins = ok s → withRows L (L.p.getD L.cols 0) ins = ok (R, s) := by
    intro S ins s h
    unfold withRows
    rw [hcsr, ok_bind, h, ok_bind]
  refine ⟨R, xs, hcsr, hR, x2, fun hpos hch => ?_, fun hneg sch => ?_, fun hch sch r hr => ?_⟩
  · obtain ⟨y, y1, y2⟩ := (Ic0r.C111_serial E.A pos hm hso).1
      (fun r d h1 h2 => hpos r d ((last_iff hL hR).1 ⟨h1, h2⟩))
    rw [huniq y2] at y1
    have y1' : Ic0r.ic0Csr E.A pos R.rows R.p R.i R.x = ok xs := by
      rw [hRr, ← hRc]
      exact y1
    obtain ⟨os, s1, s2, s3, -⟩ := C124_evaluate E.C E.eps hE.srt E.minusOne
      (D := serialR E pos R L R (L.p.getD L.cols 0)) hR.wf hRX (hb rfl)
      (by show 0 < 5; decide) (y := fun _ => xs) (fun k _ => ⟨y1', hxl⟩) (fun c hc => by cases hc)
    have salarm : os.alarm = false := by
      rw [← Bool.not_eq_true]
      intro ha
      obtain ⟨c, hc, _⟩ := s3.1 ha
      cases hc
    have hrun : ∀ sch, Ic0CsrMain.classes E pos L (L.p.getD L.cols 0) sch = (do
        let o1 ← evaluateF E.C E.eps E.srt E.minusOne (levelsetR E R L L R (L.p.getD L.cols 0) xs (sch 1))
        let o2 ← evaluateF E.C E.eps E.srt E.minusOne (lbcR E R L L R (L.p.getD L.cols 0) xs (sch 2))
        ok ⟨os, o1, o2⟩) := by
      intro sch
      unfold Ic0CsrMain.classes
      rw [hcsr, ok_bind, hcopy, ok_bind, hcsr, ok_bind, s1, ok_bind, s2,
        copyVector_eq (by rw [hxl, hnn]) (by simp), ok_bind]
    obtain ⟨ol, l1, l2⟩ := LevelSet.buildLevelSet_ok hw hL.oneDiag
    have l1' : LevelSet.buildLevelSet L.cols L.p L.i = ok ol := l1
    have hret : 0 ≤ ol.ret := by
      obtain ⟨c1, c2⟩ := UnitTest.chain_iff hL l1'
      exact c2 fun h => hch (c1.1 h)
    have r1 : Reports (fun sch : Nat → Nat → List Nat => evaluateF E.C E.eps E.srt E.minusOne
        (levelsetR E R L L R (L.p.getD L.cols 0) xs sch)) (Agrees E.C 5 (E.time 1) xs) := by
      rcases l2 with ⟨N, hN, hlv⟩ | ⟨hr, _⟩
      · have hp : PtrOk ol.levelPtr N R.toMat.n := by
          show PtrOk ol.levelPtr N R.cols
          rw [hRc]
          exact PtrOk.mk' hlv.ptrLen hlv.ptr0 hlv.ptrL (fun b hb => le_of_lt (hlv.strict b hb))
        have hperm : ol.levelSet.Perm (List.range R.toMat.n) := by
          show ol.levelSet.Perm (List.range R.cols)
          rw [hRc]
          exact hlv.perm
        obtain ⟨y, q1, q2⟩ := Ic0r.C111_levelset E.A hm hso hp hperm
        rw [huniq q1] at q2
        refine reportsF hE.cmp hE.srt E.minusOne hR.wf hRX hxl R.rows (hb l1') (N := 5) (by decide) (E.time 1)
          (f := fun sch o f => Ic0r.levelset E.A f.p f.i o.ret.toNat o.levelPtr o.levelSet sch f.x) ?_
        rw [hN, Int.toNat_natCast]
        exact q2
      · omega
    have r2 : Reports (fun sch : Nat → Nat → List Nat => evaluateF E.C E.eps E.srt E.minusOne
        (lbcR E R L L R (L.p.getD L.cols 0) xs sch)) (Agrees E.C 5 (E.time 2) xs) := by
      obtain ⟨cost, c1, c2⟩ := wp_iff.1 (Lbc.rowCosts_wp E.conv E.zero (n := R.rows) (p := R.p)
        (by rw [hR.wf.plen]; omega))
      obtain ⟨s, s1, s2, -⟩ := wp_iff.1 (Lbc.coarsenSeq_wp hw hL.oneDiag (show 0 < L.graph.n from hc)
        (fun v hv => hch ⟨v, hv⟩) hE.threads hE.perm hmax (.inl ⟨hE.p3, hE.p23⟩)
        (nodeCost := cost) (by rw [c2, hRr]; rfl) E.zero (xi0 := E.xi0 R.rows) (ps0 := E.ps0 R.rows)
        (by rw [hE.xi0, hRr]; rfl) (by rw [hE.ps0, hRr]; rfl))
      have hins : inspectLbc E R L = ok s := by
        unfold inspectLbc
        rw [c1, ok_bind, hRr]
        rw [hRr] at s1
        exact s1
      have e : L.graph.n = R.toMat.n := hRc.symm
      obtain ⟨y, q1, q2⟩ := Ic0r.C111_lbc E.A hm hso (s := s) (e ▸ s2.ptrs) (e ▸ s2.complete)
      rw [huniq q1] at q2
      exact reportsF hE.cmp hE.srt E.minusOne hR.wf hRX hxl R.rows (hb hins) (N := 5) (by decide) (E.time 2)
        (f := fun sch s f => Ic0r.lbc E.A f.p f.i s sch f.x) q2
    refine ⟨fun sch => ?_, ?_⟩
    · have key : wpl (Ic0CsrMain.classes E pos L (L.p.getD L.cols 0) sch) (Ic0CsrMain.AllAgree E xs) := by
        rw [hrun, wpl_bind]
        refine wpl_mono (wpl_iff.2 (Or.symm (r1.1 (sch 1)))) fun o1 a1 => ?_
        rw [wpl_bind]
        refine wpl_mono (wpl_iff.2 (Or.symm (r2.1 (sch 2)))) fun o2 a2 => ?_
        rw [wpl_ok]
        exact ⟨⟨s2, salarm⟩, a1, a2⟩
      exact (wpl_iff.1 key).symm
    · obtain ⟨c1, o1, e1, a1⟩ := r1.2
      obtain ⟨c2, o2, e2, a2⟩ := r2.2
      refine ⟨fun | 1 => c1 | _ => c2, ⟨os, o1, o2⟩, ?_, ⟨s2, salarm⟩, a1, a2⟩
      rw [hrun]
      exact Bench.bind_eq e1 (Bench.bind_eq e2 rfl)
  · obtain ⟨r, d, h1, h2⟩ := hneg
    obtain ⟨h3, h4⟩ := (last_iff hL hR).2 h1
    have y1 := (Ic0r.C111_serial E.A pos hm hso).2 ⟨r, d, h3, h4, h2⟩
    have y1' : Ic0r.ic0Csr E.A pos R.rows R.p R.i R.x = exn := by
      rw [hRr, ← hRc]
      exact y1
    unfold Ic0CsrMain.classes
    rw [hcsr, ok_bind, hcopy, ok_bind, hcsr, ok_bind]
    have hev : evaluateF E.C E.eps E.srt E.minusOne (serialR E pos R L R (L.p.getD L.cols 0)) = exn := by
      have h1run : oneRunF (serialR E pos R L R (L.p.getD L.cols 0)) () 0
          ⟨R, List.replicate (serialR E pos R L R (L.p.getD L.cols 0)).n 0, []⟩ = _ :=
        oneRunF_eq (D := serialR E pos R L R (L.p.getD L.cols 0)) hR.wf hRX (z := R.x) rfl List.length_replicate
      unfold evaluateF
      rw [show (serialR E pos R L R (L.p.getD L.cols 0)).build = ok (R, ()) from hb rfl, ok_bind]
      dsimp only
      rw [rd_getD 0 (by rw [hR.wf.plen]; omega), ok_bind, forRange_step (by show 0 < 5; decide),
        h1run]
      rw [show (serialR E pos R L R (L.p.getD L.cols 0)).fused 0 ()
        (serialR E pos R L R (L.p.getD L.cols 0)).A = exn from y1']
      rfl
    rw [hev]
    rfl
  · unfold Ic0CsrMain.classes at hr
    rw [hcsr, ok_bind, hcopy, ok_bind, hcsr, ok_bind] at hr
    obtain ⟨o, _, hr⟩ := LbcTree.bindOk hr
    obtain ⟨c, _, hr⟩ := LbcTree.bindOk hr
    obtain ⟨o1, _, hr⟩ := LbcTree.bindOk hr
    obtain ⟨o2, e2, _⟩ := LbcTree.bindOk hr
    unfold evaluateF at e2
    obtain ⟨b, h9, -⟩ := LbcTree.bindOk e2
    change withRows L _ (inspectLbc E R L) = ok b at h9
    unfold withRows at h9
    obtain ⟨f, _, h9⟩ := LbcTree.bindOk h9
    obtain ⟨s, h9, _⟩ := LbcTree.bindOk h9
    unfold inspectLbc at h9
    obtain ⟨cost, _, h9⟩ := LbcTree.bindOk h9
    obtain ⟨ol, l1, l2, -⟩ := C04_error_code_exact hw hL.oneDiag
    have hd := l2.1 ((UnitTest.chain_iff hL l1).1.2 hch)
    rcases hd with hd | hd
    · exact hd hL.acyclic
    · have := coarsenSeq_chain hw hL.oneDiag hd E.P E.p2 E.p3 cost E.zero (E.xi0 R.rows) (E.ps0 R.rows)
      rw [hRr] at h9 this
      rw [show Lbc.coarsenSeq E.P L.cols L.p L.i E.p2 E.p3 cost E.zero (E.xi0 L.cols) (E.ps0 L.cols) = exn from this] at h9
      cases h9

/-! ### From the file to the objects -/

section
variable [LinearOrder T] [Add K] [LT K] [DecidableLT K]

omit [LinearOrder T] in
/-- The file is read and reordered, whatever the objects are. -/
theorem Ic0CsrMain.program_eq {W : V → Mtx.Text → Prop} {scanVal : Mtx.Text → Scan V} (hW : ScanOk W scanVal) {n : Nat}
    (hn : 0 < n) {es : List (Nat × Nat × V)} (hes : LowerList n es) {txt : Mtx.Text} (htxt : MtxText W true n n es txt)
    (fuel : Nat) {nd : NodeND} (hnd : OrdersNodes nd) (debug : Bool) :
    ∃ perm π G, perm.Perm (List.range n) ∧ InverseOf perm π n ∧ G.cols = n ∧ G.LowerCsc ∧ G.Exact ∧
      G.entries.Perm (renamedLower π es) ∧
      ∀ (E : Ic0Main.Env V T K) pos sch, Ic0CsrMain.program E pos scanVal fuel nd debug txt sch
        = (Ic0CsrMain.classes E pos G (G.p.getD G.cols 0) sch >>= fun rep => ok (some rep)) := by
  obtain ⟨M, r1, r2, r3, r4, r5, r6⟩ := C115_read_mtx hW htxt hn (fun e he => ⟨(hes.range e he).2, by
    have := hes.range e he; omega⟩) hes.order (fun c hc => by
      obtain ⟨d, hd⟩ := hes.diag c hc
      exact ⟨_, hd, rfl⟩) fuel
  rw [if_pos rfl] at r1
  have hL := lowerCsc_of_list hes r2 r4 r5 r6
  obtain ⟨perm, π, G, gnz, g1, g2, g3, g4, g5⟩ := C85_reorder hL (by omega) r3.1.ge (stype := -1) (by decide) hnd debug
  have hGc := g5.cols
  rw [r5] at g3 g4
  refine ⟨perm, π, G, g3, g4, by omega, g5.lower, g5.exact, ?_, fun E pos sch => ?_⟩
  · have := g5.entries
    rw [r6] at this
    exact this
  · subst g2
    unfold Ic0CsrMain.program
    rw [r1, ok_bind]
    dsimp only
    rw [g1, ok_bind]

omit [Zero V] [One V] in
theorem Ic0CsrMain.renamed_diag {n : Nat} {es : List (Nat × Nat × V)} {π : Nat → Nat} {perm : List Nat}
    (h2 : InverseOf perm π n) (hes : LowerList n es) {P : V → Prop} (h : ∀ r d, (r, r, d) ∈ es → P d)
    {r : Nat} {d : V} (hm : (r, r, d) ∈ renamedLower π es) : P d := by
  obtain ⟨⟨a, b, x⟩, e1, e2⟩ := List.mem_map.1 hm
  simp only [Prod.mk.injEq] at e2
  obtain ⟨e3, e4, rfl⟩ := e2
  have hr := hes.range _ e1
  dsimp only at hr
  have : π a = π b := by omega
  have hab : a = b := by
    have q1 := (h2.2 a (by omega)).2
    have q2 := (h2.2 b (by omega)).2
    rw [this, q2] at q1
    exact q1.symm
  subst hab
  exact h a x e1

/-- **C125.** The demo with a file that has the lower triangle of a symmetric matrix with full diagonal, built with
METIS.  METIS chooses a numbering `π`, `G` is the renumbered lower triangle and `R` the same matrix by rows. -/
theorem C125_program {E : Ic0Main.Env V T K} (hE : Ic0CsrMain.EnvOk E) (pos : V → Bool) {W : V → Mtx.Text → Prop}
    {scanVal : Mtx.Text → Scan V} (hW : ScanOk W scanVal) {n : Nat} (hn : 0 < n) (hmax : n ≤ 2147483647)
    {es : List (Nat × Nat × V)} (hes : LowerList n es) {txt : Mtx.Text} (htxt : MtxText W true n n es txt) (fuel : Nat)
    {nd : NodeND} (hnd : OrdersNodes nd) (debug : Bool) :
    ∃ perm π, ∃ G R : Sp V, ∃ xs, perm.Perm (List.range n) ∧ InverseOf perm π n ∧ G.cols = n ∧
      G.entries.Perm (renamedLower π es) ∧ Converted G R ∧ Ic0r.RowsScaled E.A R.toMat xs ∧
      ((∀ r d, (r, r, d) ∈ es → pos d = true) → ¬ G.IsChain →
        Reports (Ic0CsrMain.program E pos scanVal fuel nd debug txt)
          (fun r => ∃ rep, r = some rep ∧ Ic0CsrMain.AllAgree E xs rep)) ∧
      ((∃ r d, (r, r, d) ∈ es ∧ pos d = false) → ∀ sch, Ic0CsrMain.program E pos scanVal fuel nd debug txt sch = exn) ∧
      (G.IsChain → ∀ sch r, Ic0CsrMain.program E pos scanVal fuel nd debug txt sch ≠ ok r) := by
  obtain ⟨perm, π, G, k1, k2, k3, k4, k6, k7, k8⟩ :=
    Ic0CsrMain.program_eq (T := T) (K := K) hW hn hes htxt fuel hnd debug
  obtain ⟨R, xs, -, x1, x2, h1, h2, h3⟩ := C125_demo hE pos k4 k6 (by omega) (by omega)
  refine ⟨perm, π, G, R, xs, k1, k2, k3, k7, x1, x2, fun hp hch => ?_, fun hneg sch => ?_, fun hch sch r hr => ?_⟩
  · obtain ⟨e2, X, rep, e3, e4⟩ := h1 (fun r d hm => Ic0CsrMain.renamed_diag (P := fun d => pos d = true) k2 hes hp
      (k7.mem_iff.1 hm)) hch
    refine ⟨fun X => ?_, X, some rep, by rw [k8, e3]; rfl, rep, rfl, e4⟩
    rcases e2 X with ⟨rep, q1, q2⟩ | q
    · exact .inl ⟨some rep, by rw [k8, q1]; rfl, rep, rfl, q2⟩
    · exact .inr (by rw [k8, q]; rfl)
  · obtain ⟨r, d, hm, hd⟩ := hneg
    rw [k8, h2 ⟨π r, d, k7.mem_iff.2 (List.mem_map.2 ⟨_, hm, by simp⟩), hd⟩ sch]
    rfl
  · rw [k8] at hr
    obtain ⟨rep, hr, -⟩ := LbcTree.bindOk hr
    exact h3 hch sch rep hr

end

/-- **C125** (finding): the values that all three objects agree on are not a Cholesky factor.  In exact arithmetic, if a
row of the matrix has a nonzero entry besides its positive diagonal entry, the sum of the squares of the reported values
of this row, the diagonal entry of the product of the factor with its transpose, is larger than the diagonal entry. -/
theorem C125_not_factor {L R : Sp ℝ} (hL : L.LowerCsc) (hR : Converted L R) {xs : List ℝ}
    (hx : Ic0r.RowsScaled Ic0.realIc R.toMat xs) {r c : Nat} {v d : ℝ} (hv : (r, c, v) ∈ L.entries) (hrc : c < r)
    (hv0 : v ≠ 0) (hd : (r, r, d) ∈ L.entries) (hpos : 0 < d) :
    d < (((R.toMat.withX xs).row r).map (fun e => e.2 * e.2)).sum := by
  obtain ⟨h1, h2⟩ := (Ic0CsrMain.last_iff hL hR).2 hd
  refine Ic0r.C111_not_factor hx h1 h2 hpos ⟨(c, v), ?_, hv0⟩
  have hm := (mem_entries.1 ((Ic0CsrMain.entry_iff hR r c v).2 hv)).2
  have hne : R.toMat.row r ≠ [] := List.ne_nil_of_mem hm
  have h3 : (c, v) ∈ (R.toMat.row r).dropLast ++ [(R.toMat.row r).getLast hne] := by
    rw [List.dropLast_append_getLast]; exact hm
  rw [List.getLast?_eq_getLast_of_ne_nil hne] at h2
  injection h2 with h2
  rw [h2, List.mem_append, List.mem_singleton] at h3
  rcases h3 with h3 | h3
  · exact h3
  · injection h3 with h3 _
    omega

/-! ### Cases -/

theorem exIc0Env_rows : Ic0CsrMain.EnvOk exIc0Env where
  cmp := exIc0Env_ok.cmp
  srt := exIc0Env_ok.srt
  perm := exIc0Env_ok.perm
  threads := exIc0Env_ok.threads
  p3 := exIc0Env_ok.p3
  p23 := exIc0Env_ok.p23
  xi0 := exIc0Env_ok.xi0
  ps0 := exIc0Env_ok.ps0

example {nd : NodeND} (hnd : OrdersNodes nd) :=
  C125_program exIc0Env_rows (fun d => decide (0 < d)) scanRat_ok (by decide) (by decide) exTwoParts_ok exTwoParts_rat 0
    hnd true

/-- Three columns of which the first is needed by the other two: no path visits all of them, and all three objects
agree, other than in the demo with groups (C124). -/
example : ∃ xs, Reports (Ic0CsrMain.classes exIc0Env (fun d => decide (0 < d)) exStar 5)
    (Ic0CsrMain.AllAgree exIc0Env xs) := by
  obtain ⟨R, xs, -, -, -, h, -⟩ := C125_demo exIc0Env_rows (fun d => decide (0 < d)) exStar_lower ⟨rfl, rfl⟩
    (by decide) (by decide)
  refine ⟨xs, h ?_ ?_⟩
  · intro r d hm
    have : exStar.entries = [(0, 0, 1), (1, 0, 1), (2, 0, 1), (1, 1, 1), (2, 2, 1)] := by decide
    rw [this] at hm
    have : d = 1 := by
      simp only [List.mem_cons, Prod.mk.injEq, List.not_mem_nil, or_false] at hm
      rcases hm with h | h | h | h | h <;> exact h.2.2
    subst this
    decide
  · have hdep : ∀ u v, exStar.graph.Dep u v → u = 0 ∧ v ≠ 0 := by
      rintro u v ⟨h1, h2, h3⟩
      have : u = 0 ∨ u = 1 ∨ u = 2 := by have : u < 3 := h1; omega
      rcases this with rfl | rfl | rfl
      · exact ⟨rfl, fun h => h3 h.symm⟩
      · rw [show exStar.graph.col 1 = [1] by decide, List.mem_singleton] at h2
        exact absurd h2.symm h3
      · rw [show exStar.graph.col 2 = [2] by decide, List.mem_singleton] at h2
        exact absurd h2.symm h3
    rintro ⟨v, hv⟩
    change exStar.graph.PathTo 2 v at hv
    cases hv with
    | snoc hu hd =>
      cases hu with
      | snoc _ hd' => exact (hdep _ _ hd').2 (hdep _ _ hd).1

/-- A matrix with the columns (4, 2) and (-, 2). -/
def exTwoCols : Sp ℝ := ⟨2, 2, [0, 2, 3], [0, 1, 1], [4, 2, 2]⟩

theorem exTwoCols_entries : exTwoCols.entries = [(0, 0, 4), (1, 0, 2), (1, 1, 2)] := rfl

theorem exTwoCols_lower : exTwoCols.LowerCsc where
  wf := ⟨⟨rfl, rfl, by decide, by decide, by decide⟩, by decide⟩
  square := rfl
  lower := by unfold Sp.Lower; rw [exTwoCols_entries]; simp
  noDup := by unfold NoDup; decide
  diag := by
    intro c hc
    have : c = 0 ∨ c = 1 := by have : c < 2 := hc; omega
    rw [exTwoCols_entries]
    rcases this with rfl | rfl
    · exact ⟨4, by simp⟩
    · exact ⟨2, by simp⟩

/-- `C125_not_factor` for the second row of this matrix. -/
example : ∃ R xs, Converted exTwoCols R ∧ Ic0r.RowsScaled Ic0.realIc R.toMat xs ∧
    (2 : ℝ) < (((R.toMat.withX xs).row 1).map (fun e => e.2 * e.2)).sum := by
  obtain ⟨R, -, hR, -⟩ := C26_csc_to_csr_arrays_keeps_matrix exTwoCols_lower.wf
  obtain ⟨xs, -, hx⟩ := (Ic0r.C111_serial Ic0.realIc (fun _ => true) (exTwoCols_lower.lowerCsr hR)
    (hR.strict exTwoCols_lower.noDup)).1 (fun _ _ _ _ => rfl)
  exact ⟨R, xs, hR, hx, C125_not_factor exTwoCols_lower hR hx (r := 1) (c := 0) (v := 2) (d := 2)
    (by rw [exTwoCols_entries]; simp) (by decide) (by norm_num) (by rw [exTwoCols_entries]; simp) (by norm_num)⟩

end Verif
