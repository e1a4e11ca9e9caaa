import Verif.Props.Harness
import Verif.Props.MtxText
import Verif.Props.Prepare
import Verif.Props.Rhs

/-!
# C118: the benchmark program, from the file to the checked solution

example/SpTRSV_runtime.cpp with METIS, for a file that holds the lower triangle of a symmetric matrix.
-/

namespace Verif
open Res Harness TestU Exec Mtx Sp Metis Pipeline

/-- The entries of a lower triangular matrix of size `n`: the diagonal is full, no entry is repeated, the entries are in
the order of the columns. -/
structure LowerList {V : Type} (n : Nat) (es : List (Nat × Nat × V)) : Prop where
  range : ∀ e ∈ es, e.2.1 ≤ e.1 ∧ e.1 < n
  order : es.Pairwise fun a b => a.2.1 ≤ b.2.1
  diag : ∀ c, c < n → ∃ d, (c, c, d) ∈ es
  nodup : (es.map fun e => (e.1, e.2.1)).Nodup

/-- The lower triangle of the symmetric matrix with the lower triangle `es` after its rows and columns were renamed. -/
def renamedLower {V : Type} (π : Nat → Nat) (es : List (Nat × Nat × V)) : List (Nat × Nat × V) :=
  es.map fun e => (max (π e.1) (π e.2.1), min (π e.1) (π e.2.1), e.2.2)

/-- Row `r` of the product of a matrix, given by its entries, with a vector. -/
def rowProduct {K : Type} [Field K] (es : List (Nat × Nat × K)) (xs : List K) (r : Nat) : K :=
  ((es.filter fun e => e.1 = r).map fun e => e.2.2 * xs.getD e.2.1 0).sum

theorem mulRow_entries {K : Type} [Field K] {A B : Sp K} (hB : Converted A B) {r : Nat} (hr : r < B.cols)
    (xs : List K) : B.toMat.mulRow xs r = rowProduct A.entries xs r := by
  have hp := ((hB.row_perm hr).map fun e : Nat × Nat × K => e.2.2 * xs.getD e.2.1 0).sum_eq
  unfold rowProduct Mat.mulRow
  rw [← hp, List.map_map]
  rfl

theorem lowerCsc_of_list {V : Type} [Zero V] {n : Nat} {es : List (Nat × Nat × V)} (h : LowerList n es) {A : Sp V} (hw : A.WF)
    (h1 : A.rows = n) (h2 : A.cols = n) (h3 : A.entries = es) : A.LowerCsc where
  wf := hw
  square := by omega
  lower := by intro e he; rw [h3] at he; exact (h.range e he).1
  noDup := noDup_of_coords (by
    have := coords_entries hw
    rw [← this, h3]
    exact h.nodup)
  diag := by rw [h2, h3]; exact h.diag

variable {V T : Type} [Zero V] [One V] [LinearOrder T]

/-- **C118.** The benchmark with METIS: the file is read and reordered, and the serial class ends without a message.
With `π` the numbering chosen by METIS, its solution is computed from the reordered lower triangle.  The matrix in
both forms is an input for all solvers. -/
theorem C118_serial (A : Arith V) (C : Cmp V) (eps : V) {srt : List T → List T} (hs : Sorts srt) (minusOne : T)
    {W : V → Mtx.Text → Prop} {scanVal : Mtx.Text → Scan V} (hW : ScanOk W scanVal) {n : Nat} (hn : 0 < n)
    {es : List (Nat × Nat × V)} (hes : LowerList n es) {txt : Mtx.Text} (htxt : MtxText W true n n es txt) (fuel : Nat)
    {nd : NodeND} (hnd : OrdersNodes nd) (debug : Bool) {N : Nat} (hN : 0 < N) (time : Nat → T) :
    ∃ M perm π G B xs o, readMtxText scanVal fuel txt = ok (.matrix M (-1)) ∧
      Prepare.prepareMetis nd debug M (-1) es.length = ok (G, B) ∧
      perm.Perm (List.range n) ∧ InverseOf perm π n ∧ G.entries.Perm (renamedLower π es) ∧ Converted G B ∧
      SolverInput B.toMat G.graph ∧ B.toMat.n = n ∧
      sptrsvCsr A n B.p B.i B.x (ones V n) = ok xs ∧
      evaluate C eps srt minusOne (serial A B.toMat N none time) = ok o ∧ o.solution = xs ∧ o.alarm = false := by
  obtain ⟨M, r1, r2, r3, r4, r5, r6⟩ := C115_read_mtx hW htxt hn (fun e he => ⟨(hes.range e he).2, by
    have := hes.range e he; omega⟩) hes.order (fun c hc => by
      obtain ⟨d, hd⟩ := hes.diag c hc
      exact ⟨_, hd, rfl⟩) fuel
  rw [if_pos rfl] at r1
  have hL := lowerCsc_of_list hes r2 r4 r5 r6
  have hnz : M.p.getD M.cols 0 ≤ es.length := by
    rw [← r6, entries_count r2]
  obtain ⟨perm, π, G, B, p1, p2, p3, p4, p5, p6⟩ := C85_with_metis hL (by omega) hnz (stype := -1) (by decide) hnd debug
  have hBn : B.toMat.n = n := by
    show B.cols = n
    rw [p5.cols, p4.lower.square, p4.cols, r5]
  obtain ⟨xs, o, e1, _, e3, e4, e5⟩ := C117_serial A C eps hs minusOne p6.lower hN time
  rw [r5] at p2 p3
  refine ⟨M, perm, π, G, B, xs, o, r1, p1, p2, p3, ?_, p5, p6, hBn, ?_, e3, e4, e5⟩
  · have := p4.entries
    rw [r6] at this
    exact this
  · rw [hBn] at e1
    exact e1

omit [Zero V] [One V] in
theorem renamedLower_diag {n : Nat} {es : List (Nat × Nat × V)} (hes : LowerList n es) {perm : List Nat} {π : Nat → Nat}
    (hinv : InverseOf perm π n) {c : Nat} {d : V} (h : (c, c, d) ∈ renamedLower π es) : ∃ k, (k, k, d) ∈ es := by
  obtain ⟨⟨r, k, v⟩, he, heq⟩ := List.mem_map.1 h
  dsimp only at heq
  injection heq with e1 e2
  injection e2 with e2 e3
  subst e3
  have hr := hes.range _ he
  dsimp only at hr
  have : π r = π k := by omega
  have hk : r = k := by
    have a := hinv.2 r (by omega)
    have b := hinv.2 k (by omega)
    exact a.2.symm.trans (this ▸ b.2)
  subst hk
  exact ⟨r, he⟩

/-- **C118.** In exact arithmetic the vector found is the solution of the renamed system with right-hand side one. -/
theorem C118_exact {K : Type} [Field K] (C : Cmp K) (eps : K) {srt : List T → List T} (hs : Sorts srt) (minusOne : T)
    {W : K → Mtx.Text → Prop} {scanVal : Mtx.Text → Scan K} (hW : ScanOk W scanVal) {n : Nat} (hn : 0 < n)
    {es : List (Nat × Nat × K)} (hes : LowerList n es) (hd : ∀ c d, (c, c, d) ∈ es → d ≠ 0) {txt : Mtx.Text}
    (htxt : MtxText W true n n es txt) (fuel : Nat) {nd : NodeND} (hnd : OrdersNodes nd) (debug : Bool) {N : Nat}
    (hN : 0 < N) (time : Nat → T) :
    ∃ M perm π G B o, readMtxText scanVal fuel txt = ok (.matrix M (-1)) ∧
      Prepare.prepareMetis nd debug M (-1) es.length = ok (G, B) ∧ perm.Perm (List.range n) ∧ InverseOf perm π n ∧
      evaluate C eps srt minusOne (serial (fieldArith K) B.toMat N none time) = ok o ∧
      ∀ r, r < n → rowProduct (renamedLower π es) o.solution r = 1 := by
  obtain ⟨M, perm, π, G, B, xs, o, h1, h2, h3, h4, h5, h6, h7, h8, _, h10, _, _⟩ :=
    C118_serial (fieldArith K) C eps hs minusOne hW hn hes htxt fuel hnd debug hN time
  have hdiag : ∀ r d, r < B.toMat.n → (B.toMat.row r).getLast? = some (r, d) → d ≠ 0 := by
    intro r d hr hl
    have hm : (r, d) ∈ B.toMat.row r := List.mem_of_getLast? hl
    have := (h6.row_perm hr).mem_iff.1 (List.mem_map.2 ⟨_, hm, rfl⟩)
    obtain ⟨k, hk⟩ := renamedLower_diag hes h4 (h5.mem_iff.1 (List.mem_filter.1 this).1)
    exact hd k d hk
  obtain ⟨o', e1, e2⟩ := C117_serial_exact C eps hs minusOne h7.lower hdiag hN time
  rw [h10] at e1
  cases e1
  refine ⟨M, perm, π, G, B, o, h1, h2, h3, h4, h10, fun r hr => ?_⟩
  have hr' : r < B.toMat.n := by omega
  rw [← e2 r hr', mulRow_entries h6 hr']
  unfold rowProduct
  exact (((h5.filter _).map _).sum_eq).symm

/-- **C118.** The same run of the program, the classes with tree grouping and HDAGG: `build_set` throws if one path of
dependences visits all groups.  Otherwise every schedule it can make gives, however the threads interleave in each of
the runs, the solution of the serial class bit for bit; only elements that are not numbers cause a message. -/
theorem C118_tree_hdagg {K : Type} [Ring K] [LinearOrder K] [IsStrictOrderedRing K] (A : Arith V) {C : Cmp V} {eps : V}
    (hC : SelfEqual C eps) {srt : List T → List T} (hs : Sorts srt) (minusOne : T)
    {W : V → Mtx.Text → Prop} {scanVal : Mtx.Text → Scan V} (hW : ScanOk W scanVal) {n : Nat} (hn : 0 < n)
    {es : List (Nat × Nat × V)} (hes : LowerList n es) {txt : Mtx.Text} (htxt : MtxText W true n n es txt) (fuel : Nat)
    {nd : NodeND} (hnd : OrdersNodes nd) (debug : Bool) {e : Env K} (he : EnvOk e) (isLfactor bfs binPack : Bool)
    {cores : Nat} (hcores : 1 ≤ cores) {N : Nat} (hN : 0 < N) (time time' : Nat → T) :
    ∃ M G B o d Gr, readMtxText scanVal fuel txt = ok (.matrix M (-1)) ∧
      Prepare.prepareMetis nd debug M (-1) es.length = ok (G, B) ∧
      evaluate C eps srt minusOne (serial A B.toMat N none time') = ok o ∧
      groups false isLfactor bfs e n es.length G.p G.i B.p B.i = ok (d, Gr) ∧
      (Gr.OnOnePath (dagOf n d) → ∀ cc cc' sch,
        evaluate C eps srt minusOne (scheduled A B.toMat
          (treeHdagg false isLfactor bfs binPack e cc cc' cores n es.length G.p G.i B.p B.i)
          N (some o.solution) sch time) = exn) ∧
      (¬ Gr.OnOnePath (dagOf n d) →
        (∀ cc cc' s, treeHdagg false isLfactor bfs binPack e cc cc' cores n es.length G.p G.i B.p B.i = ok s →
          ∀ sch, (∀ k, k < N → sptrsvLbc A B.p B.i B.x s (sch k) (ones V n) ≠ nofuel) →
            ∃ r, evaluate C eps srt minusOne (scheduled A B.toMat
                (treeHdagg false isLfactor bfs binPack e cc cc' cores n es.length G.p G.i B.p B.i)
                N (some o.solution) sch time) = ok r ∧ Agrees C N time o.solution r) ∧
        ∃ cc cc' s, ∃ sch : Nat → Nat → List Nat, treeHdagg false isLfactor bfs binPack e cc cc' cores n es.length G.p G.i B.p B.i = ok s ∧
          ∀ k : Nat, sptrsvLbc A B.p B.i B.x s (sch k) (ones V n) ≠ nofuel) := by
  obtain ⟨M, perm, π, G, B, xs, o, h1, h2, h3, h4, h5, h6, h7, h8, h9, h10, h11, _⟩ :=
    C118_serial A C eps hs minusOne hW hn hes htxt fuel hnd debug hN time'
  obtain ⟨d, Gr, xs', g1, g2, g3, g4, g5⟩ := C49_tree_hdagg A h7 he isLfactor bfs binPack hcores es.length
    (b := ones V n) (by rw [h8]; simp [ones])
  have hgn : G.graph.n = n := h7.same.1.trans h8
  rw [h8] at g1 g3 g4 g5
  rw [hgn] at g4 g5
  have hx : xs' = xs := by
    have := h9.symm.trans g3
    cases this
    rfl
  subst hx
  have hlen : o.solution.length = n := by
    obtain ⟨xs2, hS⟩ := exists_solution (A := A) h7.lower (b := ones V B.toMat.n) (by simp [ones])
    have h9' : sptrsvCsr A B.toMat.n B.toMat.p B.toMat.i B.toMat.x (ones V B.toMat.n) = ok xs' := by
      rw [h8]; exact h9
    rw [sptrsvCsr_spec h7.lower (by simp [ones]) hS] at h9'
    cases h9'
    rw [h11, ← h8]
    exact hS.1
  subst h11
  refine ⟨M, G, B, o, d, Gr, h1, h2, h10, g1, fun hp cc cc' sch => ?_, fun hp => ⟨fun cc cc' s hb sch hne => ?_, ?_⟩⟩
  · unfold evaluate
    have := g4 hp cc cc'
    show (treeHdagg false isLfactor bfs binPack e cc cc' cores n es.length G.p G.i B.p B.i >>= _) = exn
    have h' : treeHdagg false isLfactor bfs binPack e cc cc' cores n es.length G.p G.i B.p B.i = exn := this
    rw [h']
    rfl
  · have hv : wpl (treeHdagg false isLfactor bfs binPack e cc cc' cores n es.length G.p G.i B.p B.i)
      (fun s => s.Valid n B.toMat.RowDep ∧ AlwaysGives (fun sch => sptrsvLbc A B.p B.i B.x s sch (ones V n)) o.solution) :=
      (g5 hp).1 cc cc'
    rw [hb, wpl_ok] at hv
    refine C117_agrees hC hs minusOne (D := scheduled A B.toMat _ N (some o.solution) sch time)
      (hlen.trans h8.symm) rfl hb hN fun k hk => ?_
    show sptrsvLbc A B.p B.i B.x s (sch k) (ones V B.toMat.n) = ok o.solution
    rw [h8]
    exact (hv.2.1 (sch k)).resolve_right (hne k hk)
  · obtain ⟨cc, cc', s, hb⟩ := (g5 hp).2
    have hv : wpl (treeHdagg false isLfactor bfs binPack e cc cc' cores n es.length G.p G.i B.p B.i)
      (fun s => s.Valid n B.toMat.RowDep ∧ AlwaysGives (fun sch => sptrsvLbc A B.p B.i B.x s sch (ones V n)) o.solution) :=
      (g5 hp).1 cc cc'
    have hb' : treeHdagg false isLfactor bfs binPack e cc cc' cores n es.length G.p G.i B.p B.i = ok s := hb
    rw [hb', wpl_ok] at hv
    obtain ⟨sch, hsch⟩ := hv.2.2
    exact ⟨cc, cc', s, fun _ => sch, hb', fun _ h => by have := hsch.symm.trans h; cases this⟩

/-! ### The hypotheses can hold -/

theorem exList_ok : LowerList 2 [(0, 0, (4 : Int)), (1, 0, -5), (1, 1, 6)] where
  range := by decide
  order := by decide
  diag := by
    intro c hc
    have : c = 0 ∨ c = 1 := by omega
    rcases this with rfl | rfl
    · exact ⟨4, by decide⟩
    · exact ⟨6, by decide⟩
  nodup := by decide

/-- The file `exMtx` of C115, a METIS that numbers backwards: the lower triangle is now 6, -5, 4.
For whole numbers the division is replaced by a product. -/
example : ∃ o, (do
    let A ← readMtxText scanInt 0 exMtx
    match A with
    | .matrix M st => do
      let GB ← Prepare.prepareMetis (fun n _ _ => (1, (List.range n).reverse)) true M st 3
      evaluate exCmp 0 (fun l : List Nat => l) 0
        (serial ⟨fun a l b => a - l * b, fun a d => a * d⟩ GB.2.toMat 1 none (fun _ => 7))
    | _ => exn) = ok o ∧ o.solution = [6, 124] ∧ o.alarm = false := ⟨_, rfl, by decide +kernel, by decide +kernel⟩

/-- Whole numbers in a text, as elements of a field. -/
def ratText (q : ℚ) (t : Mtx.Text) : Prop := ∃ v : Int, q = v ∧ IntText v t

/-- `%d` for a field. -/
def scanRat (t : Mtx.Text) : Scan ℚ :=
  match scanInt t with
  | .ok v r => .ok (v : ℚ) r
  | .bad r => .bad r
  | .eof => .eof

theorem scanRat_ok : ScanOk ratText scanRat := by
  rintro q t g rest ⟨v, rfl, hv⟩ hg hr
  unfold scanRat
  rw [scanInt_ok v t g rest hv hg hr]

theorem exRat_ok : LowerList 2 [(0, 0, (4 : ℚ)), (1, 0, -5), (1, 1, 6)] where
  range := by simp
  order := by simp
  diag := by
    intro c hc
    have : c = 0 ∨ c = 1 := by omega
    rcases this with rfl | rfl
    · exact ⟨4, by simp⟩
    · exact ⟨6, by simp⟩
  nodup := by decide

theorem Body.rat {rest : Mtx.Text} {es : List (Nat × Nat × Int)} {s : Mtx.Text} (h : Body IntText rest es s) :
    Body ratText rest (es.map fun e => (e.1, e.2.1, (e.2.2 : ℚ))) s := by
  induction h with
  | nil => exact .nil
  | cons hw h₁ hg₁ h₂ hg₂ hv he _ ih => exact .cons hw h₁ hg₁ h₂ hg₂ ⟨_, rfl, hv⟩ he ih

/-- The file `exMtx` read with rational numbers. -/
theorem exRat_text : MtxText ratText true 2 2 [(0, 0, (4 : ℚ)), (1, 0, -5), (1, 1, 6)] exMtx := by
  obtain ⟨ty, body, tail, h1, h2, h3⟩ := exMtx_text
  refine ⟨ty, body, tail, h1, h2, ?_⟩
  have := Body.rat h3
  simpa using this

theorem exSorts : Sorts (fun l : List Nat => l.mergeSort) := fun ts =>
  ⟨List.mergeSort_perm _ _, (List.pairwise_mergeSort (le := fun a b : Nat => decide (a ≤ b)) (by
      intro a b c; simp only [decide_eq_true_eq]; omega) (by
      intro a b; simp only [Bool.or_eq_true, decide_eq_true_eq]; omega) ts).imp (by
      intro a b h; simpa using h)⟩

/-- `C118_exact` for this file. -/
example {nd : NodeND} (hnd : OrdersNodes nd) :
    ∃ (M : Sp ℚ) (perm : List Nat) (π : Nat → Nat) (G B : Sp ℚ) (o : Outcome ℚ Nat),
      readMtxText scanRat 0 exMtx = ok (.matrix M (-1)) ∧
      Prepare.prepareMetis nd true M (-1) 3 = ok (G, B) ∧ perm.Perm (List.range 2) ∧ InverseOf perm π 2 ∧
      evaluate ⟨fun _ _ _ => false, fun _ => false⟩ 0 (fun l : List Nat => l.mergeSort) 0
        (serial (fieldArith ℚ) B.toMat 1 none (fun _ => 7)) = ok o ∧
      ∀ r, r < 2 → rowProduct (renamedLower π [(0, 0, (4 : ℚ)), (1, 0, -5), (1, 1, 6)]) o.solution r = 1 :=
  C118_exact _ _ exSorts _ scanRat_ok (by decide) exRat_ok (by
    intro c d h
    simp only [List.mem_cons, Prod.mk.injEq, List.not_mem_nil, or_false] at h
    rcases h with ⟨_, _, rfl⟩ | ⟨_, _, rfl⟩ | ⟨_, _, rfl⟩ <;> norm_num) exRat_text 0 hnd true (by decide) _

/-- `C118_tree_hdagg` for the file with whole numbers. -/
example {nd : NodeND} (hnd : OrdersNodes nd) :=
  C118_tree_hdagg ⟨fun a l b => a - l * b, fun a d => a * d⟩ (C := exCmp) (eps := 0) (by intro a _; simp [exCmp])
    exSorts 0 scanInt_ok (by decide) exList_ok exMtx_text 0 hnd true exEnv_ok false true true (cores := 2) (by decide)
    (N := 3) (by decide) (fun k => k) (fun k => k)

end Verif
