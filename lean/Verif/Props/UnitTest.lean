import Verif.Model.UnitTest
import Verif.Props.Harness

/-!
# C120: the unit test of the project

`Agrees`, `Differ`, `SelfEqual`: Verif/Props/Harness.lean.
-/

namespace Verif
open Res TestU Harness Exec Sp UnitTest Prepare

variable {V : Type} [Zero V] [One V]

/-- In every execution that ends the test gives `b`, and there is an execution that ends. -/
def TestGives (run : (Nat → List Nat) → Res Bool) (b : Bool) : Prop :=
  (∀ sch, run sch = ok b ∨ run sch = nofuel) ∧ ∃ sch, run sch = ok b

/-- Dependences form a chain through all rows. -/
def Sp.IsChain (L : Sp V) : Prop := ∃ v, L.graph.PathTo (L.cols - 1) v

namespace UnitTest

omit [Zero V] [One V] in
/-- In a lower triangular graph no path has more than `n - 1` edges. -/
theorem path_le {g : Csc} (hl : g.Lower) {k v : Nat} (h : g.PathTo k v) : k ≤ v := by
  induction h with
  | nil _ => exact Nat.zero_le _
  | snoc _ hd ih =>
    have h1 := hl _ hd.1 _ hd.2.1
    have h2 := hd.2.2
    omega

omit [Zero V] [One V] in
theorem path_lt {g : Csc} (hw : g.WF) {k v : Nat} (h : g.PathTo k v) : v < g.n := by
  cases h with
  | nil h => exact h
  | snoc _ hd => exact hw.range _ hd.1 _ hd.2.1

omit [Zero V] [One V] in
theorem chain_iff {L : Sp V} (hL : L.LowerCsc) {o : LevelSet.Out} (ho : LevelSet.buildLevelSet L.cols L.p L.i = ok o) :
    (o.ret = -1 ↔ L.IsChain) ∧ (o.ret ≠ -1 → 0 ≤ o.ret) := by
  have hw := hL.wf.graph hL.square
  obtain ⟨o', h1, h2, h3⟩ := C04_error_code_exact hw hL.oneDiag
  rw [show LevelSet.buildLevelSet L.graph.n L.graph.p L.graph.i = ok o from ho] at h1
  cases h1
  refine ⟨h2.trans ⟨?_, ?_⟩, fun h => (h3 h).1⟩
  · rintro (h | ⟨v, hv⟩)
    · exact absurd hL.acyclic h
    · exact ⟨v, hv.1⟩
  · rintro ⟨v, hv⟩
    refine .inr ⟨v, hv, fun m hm => ?_⟩
    have h1 := path_le hL.lowerG hm
    have h2 := path_lt hw hm
    have h3 : L.graph.n = L.cols := rfl
    omega

omit [One V] in
theorem equal_iff {C : Cmp V} {eps : V} {n : Nat} {c y : List V} (hc : c.length = n) (hy : y.length = n) :
    ∃ b, equalRange C 0 n c y eps = ok b ∧ (b = true ↔ ¬ Differ C eps n c y) := by
  obtain ⟨b, h1, h2⟩ := C91_equal_range C (lo := 0) (hi := n) (v := c) (w := y) (by omega) (by omega) eps
  refine ⟨b, h1, h2.trans ⟨?_, ?_⟩⟩
  · rintro h ⟨i, a, b', hi, ha, hb, hor⟩
    obtain ⟨e1, e2, e3⟩ := h i (Nat.zero_le _) hi a b' ha hb
    rw [e1, e2, e3] at hor
    simp at hor
  · intro h i _ hi a b' ha hb
    refine ⟨?_, ?_, ?_⟩ <;> rw [← Bool.not_eq_true] <;> intro hh
    · exact h ⟨i, a, b', hi, ha, hb, .inl hh⟩
    · exact h ⟨i, a, b', hi, ha, hb, .inr (.inl hh)⟩
    · exact h ⟨i, a, b', hi, ha, hb, .inr (.inr hh)⟩

omit [Zero V] [One V] in
theorem differ_self {C : Cmp V} {eps : V} (hC : SelfEqual C eps) {n : Nat} {xs : List V} (hx : xs.length = n) :
    ¬ Differ C eps n xs xs ↔ ∀ a ∈ xs, C.isnan a = false := by
  constructor
  · intro h a ha
    obtain ⟨i, hi, rfl⟩ := List.getElem_of_mem ha
    rw [← Bool.not_eq_true]
    intro hn
    exact h ⟨i, _, _, by omega, List.getElem?_eq_getElem hi, List.getElem?_eq_getElem hi, .inl hn⟩
  · rintro h ⟨i, a, b, hi, ha, hb, hor⟩
    rw [ha] at hb
    cases hb
    have h1 := h a (List.mem_of_getElem? ha)
    have h2 := hC a h1
    rw [h1, h2] at hor
    simp at hor

/-- The parts of the test before the parallel solve. -/
theorem test_start (A : Arith V) (C : Cmp V) (eps : V) {L : Sp V} (hL : L.LowerCsc) (hpos : 0 < L.cols) {nnz : Nat}
    (hn : L.p.getD L.cols 0 ≤ nnz) :
    ∃ B o xs, Converted L B ∧ LevelSet.buildLevelSet L.cols L.p L.i = ok o ∧
      sptrsvCsr A L.cols B.p B.i B.x (ones V L.cols) = ok xs ∧ xs.length = L.cols ∧
      (0 ≤ o.ret → AlwaysGives (fun sch =>
        sptrsvLevelset A B.p B.i B.x o.ret.toNat o.levelPtr o.levelSet sch (ones V L.cols)) xs) ∧
      ∀ sch, testSptrsvCsr A C eps L nnz sch = (do
        let yp ← sptrsvLevelset A B.p B.i B.x o.ret.toNat o.levelPtr o.levelSet sch (ones V L.cols)
        equalRange C 0 L.cols xs yp eps) := by
  have hsq := hL.square
  obtain ⟨B, h1, h2⟩ := C26_csc_to_csr_keeps_matrix hL.wf (by omega) hn
  have hbn : B.cols = L.cols := h2.cols.trans hsq
  have hlow := hL.lowerCsr h2
  have hBn : B.toMat.n = L.cols := hbn
  obtain ⟨o, xs, h3, h4, h5⟩ := C05_levelset_solve_end_to_end A hlow (hL.wf.graph hsq) hL.oneDiag (hL.sameDeps h2)
    (b := ones V L.cols) (by simp [ones, hBn])
  have h3' : LevelSet.buildLevelSet L.cols L.p L.i = ok o := h3
  rw [hBn] at h4
  have h4' : sptrsvCsr A L.cols B.p B.i B.x (ones V L.cols) = ok xs := h4
  have hlen : xs.length = L.cols := by
    obtain ⟨xs', hS⟩ := exists_solution (A := A) hlow (b := ones V L.cols) (by simp [ones, hBn])
    have := sptrsvCsr_spec hlow (by simp [ones, hBn]) hS
    rw [hBn] at this
    have h6 : sptrsvCsr A L.cols B.p B.i B.x (ones V L.cols) = ok xs' := this
    rw [h4'] at h6
    cases h6
    rw [hS.1, hBn]
  refine ⟨B, o, xs, h2, h3', h4', hlen, h5, fun sch => ?_⟩
  unfold testSptrsvCsr
  rw [h3', ok_bind, h1, ok_bind, fillN_eq (by simp), ok_bind, hbn]
  rw [show (List.replicate L.cols (1 : V)) = ones V L.cols from rfl, h4', ok_bind, ok_bind]

end UnitTest

/-- **C120.** The test of the project, for every lower triangular matrix with full diagonal that is not a chain: in
every interleaving that ends the result is the same, and it is `true` exactly if the serial solution consists of
numbers. -/
theorem C120_test (A : Arith V) {C : Cmp V} {eps : V} (hC : SelfEqual C eps) {L : Sp V} (hL : L.LowerCsc)
    (hpos : 0 < L.cols) {nnz : Nat} (hn : L.p.getD L.cols 0 ≤ nnz) (hch : ¬ L.IsChain) :
    ∃ B xs b, Converted L B ∧ sptrsvCsr A L.cols B.p B.i B.x (ones V L.cols) = ok xs ∧
      TestGives (testSptrsvCsr A C eps L nnz) b ∧ (b = true ↔ ∀ a ∈ xs, C.isnan a = false) := by
  obtain ⟨B, o, xs, h1, h2, h3, h4, h5, h6⟩ := test_start A C eps hL hpos hn
  obtain ⟨c1, c2⟩ := chain_iff hL h2
  obtain ⟨g1, sch, g2⟩ := h5 (c2 fun h => hch (c1.1 h))
  obtain ⟨b, e1, e2⟩ := equal_iff (C := C) (eps := eps) h4 h4
  refine ⟨B, xs, b, h1, h3, ⟨fun sch => ?_, sch, ?_⟩, e2.trans (differ_self hC h4)⟩
  · rw [h6]
    rcases g1 sch with h | h <;> dsimp only at h
    · left; rw [h, ok_bind, e1]
    · right; rw [h]; rfl
  · dsimp only at g2
    rw [h6, g2, ok_bind, e1]

/-- **C120** (finding): for a chain the level sets are refused, the parallel solve does nothing, and the test compares
the solution with the right-hand side: it fails although all solvers are right. -/
theorem C120_test_chain (A : Arith V) (C : Cmp V) (eps : V) {L : Sp V} (hL : L.LowerCsc)
    (hpos : 0 < L.cols) {nnz : Nat} (hn : L.p.getD L.cols 0 ≤ nnz) (hch : L.IsChain) :
    ∃ B xs b, Converted L B ∧ sptrsvCsr A L.cols B.p B.i B.x (ones V L.cols) = ok xs ∧
      (∀ sch, testSptrsvCsr A C eps L nnz sch = ok b) ∧ (b = true ↔ ¬ Differ C eps L.cols xs (ones V L.cols)) := by
  obtain ⟨B, o, xs, h1, h2, h3, h4, h5, h6⟩ := test_start A C eps hL hpos hn
  have hr := (chain_iff hL h2).1.2 hch
  obtain ⟨b, e1, e2⟩ := equal_iff (C := C) (eps := eps) h4 (y := ones V L.cols) (by simp [ones])
  refine ⟨B, xs, b, h1, h3, fun sch => ?_, e2⟩
  rw [h6, hr]
  show (ok (ones V L.cols) >>= _) = _
  rw [ok_bind, e1]

/-- **C120.** The random section, whatever the shuffles and the values are. -/
theorem C120_random (A : Arith V) {C : Cmp V} {eps : V} (hC : SelfEqual C eps) {shuf : Nat → List Nat → List Nat}
    {val : Nat → V} {n : Nat} {k : Int} (hs : ∀ i, i < n → (shuf i (List.range n)).Perm (List.range n)) (hn : 0 < n)
    (hk : 0 < k) (hmax : n * min k.toNat n ≤ 2147483647) :
    ∃ M L : Sp V, randomSquare shuf val n k = ok (some M) ∧ L.LowerCsc ∧ L.cols = n ∧
      L.entries = M.entries.filter (fun e => e.2.1 ≤ e.1) ∧
      (¬ L.IsChain → ∃ B xs b, Converted L B ∧ sptrsvCsr A n B.p B.i B.x (ones V n) = ok xs ∧
        TestGives (randomTest A C eps shuf val n k) b ∧ (b = true ↔ ∀ a ∈ xs, C.isnan a = false)) := by
  obtain ⟨M, L, B, h1, h2, h3, h4, h5, h6, h7⟩ := C91_random_prepared (val := val) hs hn hk hmax
  refine ⟨M, L, h1, h3, h4, h5, fun hch => ?_⟩
  have hmk : makeHalf M false true = ok L := by
    unfold prepareHalf at h2
    cases h : makeHalf M false true with
    | ok H =>
      rw [h, ok_bind] at h2
      cases h' : rd H.p H.cols with
      | ok z =>
        rw [h', ok_bind] at h2
        cases h'' : cscToCsr H z false with
        | ok B' => rw [h'', ok_bind] at h2; cases h2; rfl
        | ub => rw [h''] at h2; cases h2
        | exn => rw [h''] at h2; cases h2
        | nofuel => rw [h''] at h2; cases h2
      | ub => rw [h'] at h2; cases h2
      | exn => rw [h'] at h2; cases h2
      | nofuel => rw [h'] at h2; cases h2
    | ub => rw [h] at h2; cases h2
    | exn => rw [h] at h2; cases h2
    | nofuel => rw [h] at h2; cases h2
  obtain ⟨B', xs, b, g1, g2, g3, g4⟩ := C120_test A hC h3 (by omega) (Nat.le_refl _) hch
  rw [h4] at g2
  refine ⟨B', xs, b, g1, g2, ?_, g4⟩
  have he : ∀ sch, randomTest A C eps shuf val n k sch = testSptrsvCsr A C eps L (L.p.getD L.cols 0) sch := by
    intro sch
    unfold randomTest
    rw [h1, ok_bind]
    dsimp only
    have := h3.wf.plen
    rw [hmk, ok_bind, rd_getD 0 (by omega), ok_bind]
  exact ⟨fun sch => by rw [he]; exact g3.1 sch, by obtain ⟨sch, h⟩ := g3.2; exact ⟨sch, by rw [he]; exact h⟩⟩

namespace UnitTest

omit [Zero V] [One V] in
/-- If every row that depends on another is in `S`, then no path has more edges than `S` elements. -/
theorem path_count {g : Csc} (hl : g.Lower) {S : List Nat} (hS : ∀ u v, g.Dep u v → v ∈ S) {k v : Nat} (h : g.PathTo k v) :
    k ≤ (S.filter fun w => w ≤ v).length := by
  induction h with
  | nil _ => exact Nat.zero_le _
  | @snoc k u v hp hd ih =>
    have h1 := hl _ hd.1 _ hd.2.1
    have h2 := hd.2.2
    have h3 := hS _ _ hd
    have : (S.filter fun w => w ≤ u).length < (S.filter fun w => w ≤ v).length := by
      clear ih hS
      induction S with
      | nil => cases h3
      | cons a S ih =>
        have hmono : (S.filter fun w => w ≤ u).length ≤ (S.filter fun w => w ≤ v).length := by
          rw [← List.countP_eq_length_filter, ← List.countP_eq_length_filter]
          exact List.countP_mono_left fun w _ hw => by simp only [decide_eq_true_eq] at hw ⊢; omega
        rw [List.filter_cons, List.filter_cons]
        rcases List.mem_cons.1 h3 with rfl | h3
        · simp only [Nat.le_refl, decide_true, if_true, List.length_cons]
          rw [if_neg (by simp; omega)]
          omega
        · have := ih h3
          by_cases ha : a ≤ u
          · have : a ≤ v := by omega
            simp only [ha, this, decide_true, if_true, List.length_cons]
            omega
          · simp only [ha, decide_false, Bool.false_eq_true, if_false]
            split
            · rw [List.length_cons]; omega
            · omega
    omega

end UnitTest

/-- **C120.** With the default seed, which shuffles all columns alike: all rows that depend on others are among `k`
rows, so there are at most `k + 1` levels and, for `k + 1 < n`, no chain: the test passes for every shuffle, all
values and every interleaving, unless the serial solution has an element that is not a number. -/
theorem C120_default_seed (A : Arith V) {C : Cmp V} {eps : V} (hC : SelfEqual C eps) {shuf : List Nat → List Nat}
    {val : Nat → V} {n k : Nat} (hs : (shuf (List.range n)).Perm (List.range n)) (hk : 0 < k) (hkn : k + 1 < n)
    (hmax : n * k ≤ 2147483647) :
    ∃ L B xs b, L.LowerCsc ∧ L.cols = n ∧ (∀ d v, L.graph.PathTo d v → d ≤ k) ∧ Converted L B ∧
      sptrsvCsr A n B.p B.i B.x (ones V n) = ok xs ∧
      TestGives (randomTest A C eps (fun _ => shuf) val n k) b ∧ (b = true ↔ ∀ a ∈ xs, C.isnan a = false) := by
  have hmin : min (k : Int).toNat n = k := by simp; omega
  obtain ⟨M, L, h1, h2, h3, h4, h5⟩ := C120_random A hC (shuf := fun _ => shuf) (val := val) (k := (k : Int)) (fun _ _ => hs)
    (by omega) (by omega) (by rw [hmin]; exact hmax)
  obtain ⟨M', S, r, g1, g2, g3, g4, g5⟩ := C91_random_fixed_seed (shuf := shuf) (val := val) (k := (k : Int)) hs
    (by omega) (by omega) (by rw [hmin]; exact hmax)
  obtain ⟨M'', f1, f2, _⟩ := C91_random_square (shuf := fun _ => shuf) (val := val) (k := (k : Int)) (fun _ _ => hs)
    (by omega) (by omega) (by rw [hmin]; exact hmax)
  rw [h1] at g1 f1
  cases g1
  cases f1
  rw [hmin] at g3
  have hS : ∀ u v, L.graph.Dep u v → v ∈ S := by
    rintro u v ⟨hu, hv, hne⟩
    have hu' : u < n := by rw [← h3]; exact hu
    obtain ⟨d, hd⟩ := (h2.wf.mem_colRows (show u < L.cols from hu)).1 hv
    rw [h4] at hd
    have hm := (f2.wf.mem_colRows (show u < M.cols by rw [f2.cols]; exact hu')).2 ⟨d, (List.mem_filter.1 hd).1⟩
    by_cases hmem : u ∈ S
    · exact ((g5 u hu').1 hmem).mem_iff.1 hm
    · have := ((g5 u hu').2 hmem).mem_iff.1 hm
      rcases List.mem_cons.1 this with h | h
      · exact absurd h.symm hne
      · exact List.mem_of_mem_erase h
  have hpath : ∀ d v, L.graph.PathTo d v → d ≤ k := fun d v h => by
    have h1 := path_count h2.lowerG hS h
    have h2 : (S.filter fun w => w ≤ v).length ≤ S.length := List.length_filter_le _ _
    omega
  obtain ⟨B, xs, b, e1, e2, e3, e4⟩ := h5 (by
    rintro ⟨v, hv⟩
    have := hpath _ _ hv
    omega)
  exact ⟨L, B, xs, b, h2, h3, hpath, e1, e2, e3, e4⟩

omit [One V] in
/-- **C120** (finding): with one entry per column -- the fourth configuration, 1000 rows with density 0.0005 -- and the
default seed the matrix is diagonal: nothing depends on anything. -/
theorem C120_one_per_column {shuf : List Nat → List Nat} {val : Nat → V} {n : Nat}
    (hs : (shuf (List.range n)).Perm (List.range n)) (hn : 0 < n) (hmax : n ≤ 2147483647) :
    ∃ M : Sp V, randomSquare (fun _ => shuf) val n 1 = ok (some M) ∧ ∀ c, c < n → M.colRows c = [c] := by
  have hmin : min (1 : Int).toNat n = 1 := by simp; omega
  obtain ⟨M, S, r, g1, g2, g3, g4, g5⟩ := C91_random_fixed_seed (shuf := shuf) (val := val) (k := 1) hs hn (by omega)
    (by rw [hmin, Nat.mul_one]; exact hmax)
  refine ⟨M, g1, fun c hc => ?_⟩
  rw [hmin] at g3
  obtain ⟨a, rfl⟩ := List.length_eq_one_iff.1 g3
  by_cases hm : c ∈ [a]
  · have h := (g5 c hc).1 hm
    rw [List.mem_singleton.1 hm]
    rw [List.mem_singleton.1 hm] at h
    exact List.perm_singleton.1 h
  · have h := (g5 c hc).2 hm
    rw [List.mem_singleton.1 g4, List.erase_cons_head] at h
    exact List.perm_singleton.1 h

/-! ### Cases -/

/-- Numbers that are compared exactly. -/
def exactCmp : Cmp ℚ := ⟨fun _ a b => decide (a ≠ b), fun _ => false⟩

theorem exactCmp_self : SelfEqual exactCmp 0 := fun a _ => by simp [exactCmp]

/-- The configurations of the test, for every shuffle and all values. -/
example (val : Nat → ℚ) (shuf : List Nat → List Nat) (hs : ∀ n, (shuf (List.range n)).Perm (List.range n)) :
    ∀ c ∈ [(10, 3), (100, 4), (500, 3), (1000, 1), (10000, 2)],
      TestGives (randomTest (fieldArith ℚ) exactCmp 0 (fun _ => shuf) val c.1 (c.2 : Nat)) true := by
  intro c hc
  obtain ⟨_, _, xs, b, _, _, _, _, _, h, hb⟩ := C120_default_seed (fieldArith ℚ) exactCmp_self (val := val) (n := c.1) (k := c.2)
    (hs c.1) (by simp at hc; rcases hc with rfl | rfl | rfl | rfl | rfl <;> decide)
    (by simp at hc; rcases hc with rfl | rfl | rfl | rfl | rfl <;> decide)
    (by simp at hc; rcases hc with rfl | rfl | rfl | rfl | rfl <;> decide)
  have : b = true := hb.2 fun _ _ => rfl
  rw [this] at h
  exact h

/-- Two rows, the second depends on the first: the solution for the right-hand side `(1, 1)` is `(1, 0)`. -/
def exTestChain : Sp Int := ⟨2, 2, [0, 2, 3], [0, 1, 1], [1, 1, 1]⟩

/-- **C120** (finding): a matrix for which the test fails although both solvers are right. -/
theorem C120_chain_fails : exTestChain.IsChain ∧
    ∀ sch, testSptrsvCsr ⟨fun a l y => a - l * y, fun a d => a / d⟩ exCmp 0 exTestChain 3 sch = ok false := by
  refine ⟨⟨1, .snoc (u := 0) (.nil (by decide)) ⟨by decide, by decide, by decide⟩⟩, fun sch => by rfl⟩

example : exTestChain.LowerCsc where
  wf := ⟨⟨rfl, rfl, by decide, by decide, by decide⟩, by decide⟩
  square := rfl
  lower := by unfold Sp.Lower; decide
  noDup := by unfold NoDup; decide
  diag := by
    intro c hc
    have : c = 0 ∨ c = 1 := by have : c < 2 := hc; omega
    rcases this with rfl | rfl
    · exact ⟨1, by decide⟩
    · exact ⟨1, by decide⟩

end Verif
