import Verif.Model.DemoMain
import Verif.Props.LbcDag
import Verif.Props.UnitTest
import Verif.Props.Program

/-!
# C121: the demo program for LBC

`Agrees`, `SelfEqual`, `Sorts`: Verif/Props/Harness.lean.
-/

namespace Verif
open Res TestU Harness Exec Sp Prepare Relation Metis TransSym

variable {V S T K : Type} [Zero V] [One V]

/-- In every execution that ends an object reports something that satisfies `Q`, and there is an execution that
ends. -/
def Reports {X I : Type} (run : I → Res X) (Q : X → Prop) : Prop :=
  (∀ sch, (∃ r, run sch = ok r ∧ Q r) ∨ run sch = nofuel) ∧ ∃ sch r, run sch = ok r ∧ Q r

namespace DemoMain

/-- `evaluate` for kernels that give the serial solution or do not end. -/
theorem evaluate_ends [LinearOrder T] {C : Cmp V} {eps : V} (hC : SelfEqual C eps) {srt : List T → List T}
    (hs : Sorts srt) (minusOne : T) {xs : List V} {D : Demo V S T} (hx : xs.length = D.n) (hcor : D.correct = some xs)
    {s : S} (hb : D.build = ok s) (hN : 0 < D.numTest)
    (hf : ∀ k, D.fused k s (ones V D.n) = ok xs ∨ D.fused k s (ones V D.n) = nofuel) :
    (∃ o, evaluate C eps srt minusOne D = ok o ∧ Agrees C D.numTest D.time xs o) ∨
      evaluate C eps srt minusOne D = nofuel := by
  by_cases h : ∃ k, k < D.numTest ∧ D.fused k s (ones V D.n) = nofuel
  · classical
    right
    have hk := Nat.find_spec h
    have hmin := fun j => Nat.find_min h (m := j)
    generalize Nat.find h = k at hk hmin
    obtain ⟨xin, h1, h2⟩ := runs_eq (D := { D with numTest := k }) (s := s) (y := fun _ => xs) (fun j hj => by
      refine ⟨?_, hx⟩
      rcases hf j with h | h
      · exact h
      · exact absurd ⟨Nat.lt_trans hj hk.1, h⟩ (hmin j hj)) (Nat.le_refl k)
    have h3 : forRange 0 k (oneRun D s) ⟨List.replicate D.n 0, List.replicate D.n 0, []⟩
      = ok ⟨xin, if k = 0 then List.replicate D.n 0 else xs, (List.range k).map D.time⟩ := h2
    unfold evaluate
    rw [hb, ok_bind, forRange_split _ (Nat.zero_le k) (Nat.le_of_lt hk.1), h3, ok_bind, forRange_step hk.1]
    have h4 : oneRun D s k ⟨xin, if k = 0 then List.replicate D.n 0 else xs, (List.range k).map D.time⟩ = nofuel := by
      unfold oneRun
      dsimp only
      rw [fillN_eq h1, ok_bind, fillN_eq (by split <;> simp [hx]), ok_bind]
      have := hk.2
      unfold ones at this
      rw [this]
      rfl
    rw [h4]
    rfl
  · left
    refine C117_agrees hC hs minusOne hx hcor hb hN fun k hk => ?_
    rcases hf k with h' | h'
    · exact h'
    · exact absurd ⟨k, hk, h'⟩ h

theorem evaluate_reports [LinearOrder T] {C : Cmp V} {eps : V} (hC : SelfEqual C eps) {srt : List T → List T}
    (hs : Sorts srt) (minusOne : T) {xs : List V} {n N : Nat} (hx : xs.length = n)
    {build : Res S} {s : S} (hb : build = ok s) (hN : 0 < N) (time : Nat → T)
    {f : (Nat → List Nat) → S → List V → Res (List V)} (hf : AlwaysGives (fun sch => f sch s (ones V n)) xs) :
    Reports (fun sch : Nat → Nat → List Nat =>
      evaluate C eps srt minusOne ⟨n, N, some xs, build, fun k => f (sch k), time⟩) (Agrees C N time xs) := by
  obtain ⟨h1, sch, h2⟩ := hf
  refine ⟨fun sch => ?_, fun _ => sch, ?_⟩
  · exact evaluate_ends hC hs minusOne (D := ⟨n, N, some xs, build, fun k => f (sch k), time⟩) hx rfl hb hN
      (fun k => h1 (sch k))
  · exact C117_agrees hC hs minusOne (D := ⟨n, N, some xs, build, fun _ => f sch, time⟩) hx rfl hb hN (fun _ _ => h2)

/-- The parameters: positive `p3` and `p2 + p3`, at least one thread, and either `p2` is at least 2 or the windows are
cut in one round, as with the default values 20 threads, -1, 4000. -/
structure Env.Ok [LinearOrder T] (E : Env V T K) : Prop where
  cmp : SelfEqual E.C E.eps
  srt : Sorts E.srt
  perm : ∀ l, (E.P.sort l).Perm l
  threads : E.P.innerParts ≠ 0
  p3 : 1 ≤ E.p3
  p23 : 1 ≤ E.p2 + E.p3
  dist : 2 ≤ E.p2 ∨ E.P.innerParts < 2 * LbcTree.rate E.p3
  xi0 : ∀ n, (E.xi0 n).length = n
  ps0 : ∀ n, (E.ps0 n).length = n
  y0 : ∀ n, (E.y0 n).length = n

/-- All four objects have found `xs`, and the only possible cause of a message are elements that are not numbers. -/
structure AllAgree [LinearOrder T] (E : Env V T K) (xs : List V) (r : Report V T) : Prop where
  serial : r.serial.solution = xs ∧ r.serial.alarm = false
  levelset : Agrees E.C 5 (E.time 1) xs r.levelset
  tree : Agrees E.C 5 (E.time 2) xs r.tree
  sorted : Agrees E.C 5 (E.time 3) xs r.sorted

omit [Zero V] [One V] in
/-- If two neighbours in the order of elimination are not linked, neither depends on the other. -/
theorem independent_of_fill {m : Mat V} (hm : m.LowerCsr) {j : Nat} (h : ¬ Fill (fun k i => m.RowDep i k) (j + 1) j) :
    ¬ TransGen m.RowDep j (j + 1) ∧ ¬ TransGen m.RowDep (j + 1) j := by
  have hlt : ∀ u v, m.RowDep u v → u < v := fun u v ⟨hv, l, hl⟩ => hm.lower v hv _ hl
  have hlt' : ∀ u v, TransGen m.RowDep u v → u < v := by
    intro u v h
    induction h with
    | single h => exact hlt _ _ h
    | tail _ h ih => have := hlt _ _ h; omega
  constructor
  · intro ht
    rcases (TransGen.tail'_iff).1 ht with ⟨w, h1, h2⟩
    have hw := hlt _ _ h2
    rcases ReflTransGen.cases_tail_iff _ _ _ |>.1 h1 with h3 | ⟨x, h3, h4⟩
    · subst h3
      exact h (.entry (by omega) h2)
    · have := hlt' _ _ (TransGen.tail' h3 h4)
      omega
  · intro ht
    have := hlt' _ _ ht
    omega

omit [Zero V] [One V] in
theorem path_consecutive {g : Csc} (hl : g.Lower) {k v : Nat} (h : g.PathTo k v) (hk : v ≤ k) :
    ∀ j, j < k → g.Dep j (j + 1) := by
  induction h with
  | nil _ => intro j hj; omega
  | @snoc k u v hp hd ih =>
    have h1 := hl _ hd.1 _ hd.2.1
    have h2 := hd.2.2
    have h3 := UnitTest.path_le hl hp
    intro j hj
    rcases Nat.lt_or_ge j k with h | h
    · exact ih (by omega) j h
    · have e1 : u = j := by omega
      have e2 : v = j + 1 := by omega
      rw [e1, e2] at hd
      exact hd

theorem classes_eq [LinearOrder T] [Add K] [LT K] [DecidableLT K] {E : Env V T K} {L B : Sp V} {stype : Int} {o : Outcome V T}
    (ho : evaluate E.C E.eps E.srt E.minusOne (serial E.A B.toMat 5 none (E.time 0)) = ok o)
    (hl : o.solution.length = L.cols) (hy : (E.y0 L.cols).length = L.cols) (sch : Nat → Nat → Nat → List Nat) :
    classes E L stype B sch = (do
      let o1 ← evaluate E.C E.eps E.srt E.minusOne (wavefront E.A B.toMat L.p L.i 5 (some o.solution) (sch 1) (E.time 1))
      let o2 ← evaluate E.C E.eps E.srt E.minusOne (treeDemo E B.toMat L stype o.solution (sch 2))
      let o3 ← evaluate E.C E.eps E.srt E.minusOne (sortedDemo E B.toMat L o.solution (sch 3))
      ok ⟨o, o1, o2, o3⟩) := by
  unfold classes
  dsimp only
  rw [ho, ok_bind, copyVector_eq hl hy, ok_bind]

end DemoMain

/-- The elimination tree of the matrix is a chain: in the factor every row has an entry next to the diagonal. -/
def Sp.EtreeChain (L : Sp V) : Prop := ∀ j, j + 1 < L.cols → Fill (fun k i => L.graph.Dep i k) (j + 1) j

open DemoMain

variable [LinearOrder T] [Add K] [LT K] [DecidableLT K]

/-- **C121.** The demo without METIS, for every lower triangular matrix with full diagonal (`stype` not positive) whose
elimination tree is not a chain: in every execution that ends all four objects report the serial solution, and the only
possible cause of a message are elements that are not numbers. -/
theorem C121_demo {E : Env V T K} (hE : E.Ok) {L : Sp V} (hL : L.LowerCsc) {nnz : Nat} (hn : L.p.getD L.cols 0 ≤ nnz)
    (hmax : L.cols ≤ 2147483647) {stype : Int} (hs : stype ≤ 0) (hch : ¬ L.EtreeChain) (debug : Bool) :
    ∃ B xs, Converted L B ∧ sptrsvCsr E.A L.cols B.p B.i B.x (ones V L.cols) = ok xs ∧
      Reports (run E none debug L stype nnz) (AllAgree E xs) := by
  obtain ⟨j, hj, hnf⟩ : ∃ j, j + 1 < L.cols ∧ ¬ Fill (fun k i => L.graph.Dep i k) (j + 1) j := by
    by_contra h
    exact hch fun j hj => by
      by_contra h'
      exact h ⟨j, hj, h'⟩
  have hsq := hL.square
  obtain ⟨B, b1, b2⟩ := C26_csc_to_csr_keeps_matrix hL.wf (by omega) hn
  have hlow := hL.lowerCsr b2
  have hsame := hL.sameDeps b2
  have hwf := hL.wf.graph hsq
  have hBn : B.toMat.n = L.cols := b2.cols.trans hsq
  have hfe : (fun k i => L.graph.Dep i k) = fun k i => B.toMat.RowDep i k := by
    funext k i
    exact propext (hsame.2 i k)
  have hnf' := hnf
  rw [hfe] at hnf'
  obtain ⟨xs, o, x1, x2, x3, x4, x5⟩ := C117_serial E.A E.C E.eps hE.srt E.minusOne hlow (numTest := 5) (by decide) (E.time 0)
  -- the level sets
  obtain ⟨ol, xs1, l1, l2, l3⟩ := C05_levelset_solve_end_to_end E.A hlow hwf hL.oneDiag hsame (b := ones V B.toMat.n)
    (by simp [ones])
  rw [x1] at l2
  cases l2
  have hret : 0 ≤ ol.ret := by
    obtain ⟨c1, c2⟩ := UnitTest.chain_iff hL l1
    refine c2 fun h => ?_
    obtain ⟨v, hv⟩ := c1.1 h
    have hvl := UnitTest.path_lt hwf hv
    have hvl' : v < L.cols := hvl
    have := path_consecutive hL.lowerG hv (by omega) j (by omega)
    exact hnf (.entry (by omega) this)
  -- the tree
  obtain ⟨s2, xs2, t1, -, t3, t4⟩ := C73_lbc_tree_demo E.A hlow hwf hsame ⟨j, by omega, hnf'⟩ hs hE.perm E.p3 hE.dist E.conv
    E.zero (b := ones V B.toMat.n) (by simp [ones])
  rw [x1] at t3
  cases t3
  obtain ⟨i1, i2⟩ := independent_of_fill hlow hnf'
  obtain ⟨s3, xs3, w1, -, w3, w4⟩ := Lbc.C56_lbc_demo_solver E.A hlow hwf hL.oneDiag hsame
    ⟨j, j + 1, by omega, by omega, by omega, i1, i2⟩ (by rw [hBn]; exact hmax) hE.threads hE.perm hE.p3 hE.p23
    (hE.xi0 _) (hE.ps0 _) E.conv E.zero true (b := ones V B.toMat.n) (by simp [ones])
  rw [x1] at w3
  cases w3
  have r1 := evaluate_reports hE.cmp hE.srt E.minusOne x2 (build := LevelSet.buildLevelSet B.toMat.n L.p L.i) (N := 5)
    (by rw [hBn]; exact l1) (by decide) (E.time 1)
    (f := fun sch o x => sptrsvLevelset E.A B.toMat.p B.toMat.i B.toMat.x o.ret.toNat o.levelPtr o.levelSet sch x) (l3 hret)
  have r2 := evaluate_reports hE.cmp hE.srt E.minusOne x2 (N := 5) t1 (by decide) (E.time 2)
    (f := fun sch s x => sptrsvLbc E.A B.toMat.p B.toMat.i B.toMat.x s sch x) t4
  have r3 := evaluate_reports hE.cmp hE.srt E.minusOne x2 (N := 5) w1 (by decide) (E.time 3)
    (f := fun sch s x => sptrsvLbc E.A B.toMat.p B.toMat.i B.toMat.x s sch x) w4
  have hrun : ∀ sch, run E none debug L stype nnz sch = (do
      let o1 ← evaluate E.C E.eps E.srt E.minusOne (wavefront E.A B.toMat L.p L.i 5 (some xs) (sch 1) (E.time 1))
      let o2 ← evaluate E.C E.eps E.srt E.minusOne (treeDemo E B.toMat L stype xs (sch 2))
      let o3 ← evaluate E.C E.eps E.srt E.minusOne (sortedDemo E B.toMat L xs (sch 3))
      ok ⟨o, o1, o2, o3⟩) := by
    intro sch
    unfold run
    dsimp only
    rw [ok_bind, b1, ok_bind, classes_eq x3 (by rw [x4, x2, hBn]) (hE.y0 _), x4]
  refine ⟨B, xs, b2, by rw [← hBn]; exact x1, fun sch => ?_, ?_⟩
  · rw [hrun]
    rcases r1.1 (sch 1) with ⟨o1, e1, e1'⟩ | e1
    · rw [show evaluate E.C E.eps E.srt E.minusOne (wavefront E.A B.toMat L.p L.i 5 (some xs) (sch 1) (E.time 1)) = ok o1
        from e1, ok_bind]
      rcases r2.1 (sch 2) with ⟨o2, e2, e2'⟩ | e2
      · rw [show evaluate E.C E.eps E.srt E.minusOne (treeDemo E B.toMat L stype xs (sch 2)) = ok o2 from e2, ok_bind]
        rcases r3.1 (sch 3) with ⟨o3, e3, e3'⟩ | e3
        · rw [show evaluate E.C E.eps E.srt E.minusOne (sortedDemo E B.toMat L xs (sch 3)) = ok o3 from e3, ok_bind]
          exact .inl ⟨_, rfl, ⟨x4, x5⟩, e1', e2', e3'⟩
        · rw [show evaluate E.C E.eps E.srt E.minusOne (sortedDemo E B.toMat L xs (sch 3)) = nofuel from e3]
          exact .inr rfl
      · rw [show evaluate E.C E.eps E.srt E.minusOne (treeDemo E B.toMat L stype xs (sch 2)) = nofuel from e2]
        exact .inr rfl
    · rw [show evaluate E.C E.eps E.srt E.minusOne (wavefront E.A B.toMat L.p L.i 5 (some xs) (sch 1) (E.time 1)) = nofuel
        from e1]
      exact .inr rfl
  · obtain ⟨c1, o1, e1, e1'⟩ := r1.2
    obtain ⟨c2, o2, e2, e2'⟩ := r2.2
    obtain ⟨c3, o3, e3, e3'⟩ := r3.2
    refine ⟨fun i => if i = 1 then c1 else if i = 2 then c2 else c3, ⟨o, o1, o2, o3⟩, ?_, ⟨x4, x5⟩, e1', e2', e3'⟩
    rw [hrun, if_pos rfl, if_neg (by decide), if_pos rfl, if_neg (by decide), if_neg (by decide)]
    rw [show evaluate E.C E.eps E.srt E.minusOne (wavefront E.A B.toMat L.p L.i 5 (some xs) c1 (E.time 1)) = ok o1
        from e1, ok_bind,
      show evaluate E.C E.eps E.srt E.minusOne (treeDemo E B.toMat L stype xs c2) = ok o2 from e2, ok_bind,
      show evaluate E.C E.eps E.srt E.minusOne (sortedDemo E B.toMat L xs c3) = ok o3 from e3, ok_bind]

/-- **C121.** The demo with METIS: whatever numbering METIS chooses, the same holds for the renumbered matrix, if its
elimination tree is not a chain. -/
theorem C121_demo_metis {E : Env V T K} (hE : E.Ok) {L : Sp V} (hL : L.LowerCsc) {nnz : Nat} (hpos : 0 < L.cols)
    (hn : L.p.getD L.cols 0 ≤ nnz) (hmax : L.cols ≤ 2147483647) {stype : Int} (hs : stype ≠ 0) {nd : Metis.NodeND}
    (hnd : OrdersNodes nd) (debug : Bool) :
    ∃ perm π G, perm.Perm (List.range L.cols) ∧ InverseOf perm π L.cols ∧ Reordered π L G ∧
      (¬ G.EtreeChain → ∃ B xs, Converted G B ∧ sptrsvCsr E.A L.cols B.p B.i B.x (ones V L.cols) = ok xs ∧
        Reports (run E (some nd) debug L stype nnz) (AllAgree E xs)) := by
  obtain ⟨perm, π, G, gnz, h1, h2, h3, h4, h5⟩ := C85_reorder hL hpos hn hs hnd debug
  refine ⟨perm, π, G, h3, h4, h5, fun hch => ?_⟩
  have hc := h5.cols
  obtain ⟨B, xs, e1, e2, e3⟩ := C121_demo hE h5.lower h2.le (by omega) (stype := -1) (by decide) hch debug
  rw [hc] at e2
  refine ⟨B, xs, e1, e2, ?_⟩
  have : run E (some nd) debug L stype nnz = run E none debug G (-1) gnz := by
    funext sch
    unfold run
    dsimp only
    rw [h1]
  rw [this]
  exact e3

omit [LinearOrder T] in
/-- **C121** (finding): if the elimination tree is a chain, the demo reads behind the end of an array and never ends
normally, even if many rows are independent of each other. -/
theorem C121_etree_chain {E : Env V T K} {L : Sp V} (hL : L.LowerCsc) (hn : 2 < L.cols) (hch : L.EtreeChain) (debug : Bool)
    {nnz : Nat} (hnz : L.p.getD L.cols 0 ≤ nnz) (sch : Nat → Nat → Nat → List Nat) (r : Report V T) : run E none debug L (-1) nnz sch ≠ ok r := by
  intro h
  unfold run at h
  dsimp only at h
  rw [ok_bind] at h
  obtain ⟨B, hB, h⟩ := LbcTree.bindOk h
  unfold classes at h
  dsimp only at h
  obtain ⟨o, _, h⟩ := LbcTree.bindOk h
  obtain ⟨yc, _, h⟩ := LbcTree.bindOk h
  obtain ⟨o1, _, h⟩ := LbcTree.bindOk h
  obtain ⟨o2, h2, h⟩ := LbcTree.bindOk h
  unfold evaluate at h2
  obtain ⟨s, h3, -⟩ := LbcTree.bindOk h2
  change Symm.lbcTreeDemo E.P true E.conv E.zero B.toMat.n B.toMat.p L.p L.i (-1) E.p2 E.p3 = ok s at h3
  unfold Symm.lbcTreeDemo at h3
  obtain ⟨cost, h4, h5⟩ := LbcTree.bindOk h3
  have hwf := hL.wf.graph hL.square
  have hsq := hL.square
  obtain ⟨B', b1, b2⟩ := C26_csc_to_csr_keeps_matrix hL.wf (by omega) hnz
  rw [hB] at b1
  cases b1
  have hBn : B.toMat.n = L.cols := b2.cols.trans hsq
  rw [hBn] at h4 h5
  have hcl : cost.length = L.cols := by
    have hpl : B.toMat.p.length = B.toMat.n + 1 := (hL.lowerCsr b2).wf.pat.plen
    obtain ⟨c, c1, c2⟩ := wp_iff.1 (Lbc.rowCosts_wp E.conv E.zero (n := L.cols) (p := B.toMat.p) (by omega))
    rw [h4] at c1
    cases c1
    exact c2
  refine C72_chain_fails (g := L.graph) hwf (stype := -1) (by decide) hn ?_ E.P true E.p2 E.p3 hcl E.zero s h5
  intro j hj
  have key : ∀ k i, Fill (fun k i => L.graph.Dep i k) k i → Fill (SymEntry L.graph (-1)) k i := by
    intro k i h
    induction h with
    | entry h1 h2 => exact .entry h1 (.inl ⟨by decide, h2⟩)
    | fill h1 h2 _ _ ih1 ih2 => exact .fill h1 h2 ih1 ih2
  exact key _ _ (hch j hj)

omit [Zero V] [One V] in
/-- A row without entries left of the diagonal gets none by fill. -/
theorem DemoMain.fill_row {E : Nat → Nat → Prop} {k i : Nat} (h : Fill E k i) : ∃ l, l < k ∧ E k l := by
  induction h with
  | entry h1 h2 => exact ⟨_, h1, h2⟩
  | fill _ _ _ _ ih _ => exact ih

omit [One V] in
/-- The lower triangle of the random matrix of the demo programs: its elimination tree is not a chain. -/
theorem DemoMain.random_half {shuf : List Nat → List Nat} {val : Nat → V} {n k : Nat}
    (hs : (shuf (List.range n)).Perm (List.range n)) (hk : 0 < k) (hkn : k + 1 < n) (hmax : n * k ≤ 2147483647) :
    ∃ M L z, randomSquare (fun _ => shuf) val n (k : Int) = ok (some M) ∧ makeHalf M false true = ok L ∧ rd L.p L.cols = ok z ∧
      L.p.getD L.cols 0 ≤ z ∧ L.LowerCsc ∧ L.cols = n ∧ ¬ L.EtreeChain := by
  have hmin : min (k : Int).toNat n = k := by simp; omega
  obtain ⟨M, L, B, h1, h2, h3, h4, h5, h6, h7⟩ := C91_random_prepared (shuf := fun _ => shuf) (val := val) (k := (k : Int))
    (fun _ _ => hs) (by omega) (by omega) (by rw [hmin]; exact hmax)
  obtain ⟨M', S, r, g1, g2, g3, g4, g5⟩ := C91_random_fixed_seed (shuf := shuf) (val := val) (k := (k : Int)) hs
    (by omega) (by omega) (by rw [hmin]; exact hmax)
  obtain ⟨M'', f1, f2, _⟩ := C91_random_square (shuf := fun _ => shuf) (val := val) (k := (k : Int)) (fun _ _ => hs)
    (by omega) (by omega) (by rw [hmin]; exact hmax)
  have hR := h1
  rw [h1] at g1 f1
  cases g1
  cases f1
  rw [hmin] at g3
  have hS : ∀ u v, L.graph.Dep u v → v ∈ S := by
    rintro u v ⟨hu, hv, hne⟩
    have hu' : u < n := by rw [← h4]; exact hu
    obtain ⟨d, hd⟩ := (h3.wf.mem_colRows (show u < L.cols from hu)).1 hv
    rw [h5] at hd
    have hm := (f2.wf.mem_colRows (show u < M.cols by rw [f2.cols]; exact hu')).2 ⟨d, (List.mem_filter.1 hd).1⟩
    by_cases hmem : u ∈ S
    · exact ((g5 u hu').1 hmem).mem_iff.1 hm
    · have := ((g5 u hu').2 hmem).mem_iff.1 hm
      rcases List.mem_cons.1 this with h | h
      · exact absurd h.symm hne
      · exact List.mem_of_mem_erase h
  -- a row that was not drawn
  obtain ⟨v, hv0, hvn, hvS⟩ : ∃ v, 0 < v ∧ v < n ∧ v ∉ S := by
    by_contra h
    have hsub : (List.range n).tail ⊆ S := by
      intro v hv
      have hv' : 0 < v ∧ v < n := by
        rw [List.range_eq_range', List.tail_range', List.mem_range'_1] at hv
        omega
      by_contra hS'
      exact h ⟨v, hv'.1, hv'.2, hS'⟩
    have hnd : ((List.range n).tail).Nodup := List.nodup_range.tail
    have := (List.subperm_of_subset hnd hsub).length_le
    rw [List.length_tail, List.length_range] at this
    omega
  have hch : ¬ L.EtreeChain := by
    intro h
    have := h (v - 1) (by omega)
    rw [show v - 1 + 1 = v by omega] at this
    obtain ⟨l, -, hl⟩ := fill_row this
    exact hvS (hS _ _ hl)
  have hmk : makeHalf M false true = ok L ∧ ∃ z, rd L.p L.cols = ok z := by
    unfold prepareHalf at h2
    obtain ⟨H, e1, h2⟩ := LbcTree.bindOk h2
    obtain ⟨z, e2, h2⟩ := LbcTree.bindOk h2
    obtain ⟨B', e3, h2⟩ := LbcTree.bindOk h2
    cases h2
    exact ⟨e1, z, e2⟩
  obtain ⟨m1, z, m2⟩ := hmk
  have hz : L.p.getD L.cols 0 ≤ z := by
    have hpl : L.p.length = L.cols + 1 := h3.wf.plen
    rw [rd_getD 0 (by omega)] at m2
    cases m2
    exact Nat.le_refl _
  exact ⟨M, L, z, hR, m1, m2, hz, h3, h4, hch⟩

/-- **C121.** The demo without arguments and without METIS (16 rows, `k = 4`): with the default seed, for every shuffle and
all values, all four objects report the serial solution. -/
theorem C121_random {E : Env V T K} (hE : E.Ok) {shuf : List Nat → List Nat} {val : Nat → V} {n k : Nat}
    (hs : (shuf (List.range n)).Perm (List.range n)) (hk : 0 < k) (hkn : k + 1 < n) (hmax : n * k ≤ 2147483647)
    (debug : Bool) :
    ∃ L B xs, L.LowerCsc ∧ L.cols = n ∧ Converted L B ∧ sptrsvCsr E.A n B.p B.i B.x (ones V n) = ok xs ∧
      Reports (runRandom E none debug (fun _ => shuf) val n k) (fun r => ∃ rep, r = some rep ∧ AllAgree E xs rep) := by
  obtain ⟨M, L, z, hR, m1, m2, hz, h3, h4, hch⟩ := random_half (val := val) hs hk hkn hmax
  have hnk : n ≤ n * k := Nat.le_mul_of_pos_right n hk
  obtain ⟨B', xs, e1, e2, e3, e4⟩ := C121_demo hE h3 hz (by omega) (stype := -1) (by decide) hch debug
  rw [h4] at e2
  have hrun : ∀ sch, runRandom E none debug (fun _ => shuf) val n k sch
      = (run E none debug L (-1) z sch >>= fun o => ok (some o)) := by
    intro sch
    unfold runRandom
    rw [hR, ok_bind]
    dsimp only
    rw [m1, ok_bind, m2, ok_bind]
  refine ⟨L, B', xs, h3, h4, e1, e2, fun sch => ?_, ?_⟩
  · rw [hrun]
    rcases e3 sch with ⟨rep, q1, q2⟩ | q
    · rw [q1]; exact .inl ⟨_, rfl, rep, rfl, q2⟩
    · rw [q]; exact .inr rfl
  · obtain ⟨sch, rep, q1, q2⟩ := e4
    exact ⟨sch, some rep, by rw [hrun, q1]; rfl, rep, rfl, q2⟩

/-! ### Cases -/

/-- The default parameters of the program: 20 threads, -1, 4000. -/
def exDemoEnv : Env ℚ Nat Nat where
  A := ⟨fun a l y => a - l * y, fun a d => a / d⟩
  C := exactCmp
  eps := 0
  srt := fun l => l.mergeSort
  minusOne := 0
  P := { Lbc.exParams with innerParts := 20 }
  conv := Int.toNat
  zero := 0
  p2 := -1
  p3 := 4000
  xi0 := fun n => List.replicate n 0
  ps0 := fun n => List.replicate n 0
  y0 := fun n => List.replicate n 7
  time := fun i k => i + k

theorem exDemoEnv_ok : exDemoEnv.Ok where
  cmp := fun a _ => by simp [exDemoEnv, exactCmp]
  srt := fun l => ⟨List.mergeSort_perm _ _, by
    have := List.pairwise_mergeSort (le := fun a b : Nat => decide (a ≤ b)) (fun a b c h1 h2 => by simp at *; omega)
      (fun a b => by simp; omega) l
    simpa [exDemoEnv] using this⟩
  perm := fun l => .refl _
  threads := by decide
  p3 := by decide
  p23 := by decide
  dist := .inr (by decide)
  xi0 := fun n => by simp [exDemoEnv]
  ps0 := fun n => by simp [exDemoEnv]
  y0 := fun n => by simp [exDemoEnv]

/-- The program as it is called without arguments: 16 rows, four entries per column, whatever the shuffle is. -/
example {shuf : List Nat → List Nat} (hs : (shuf (List.range 16)).Perm (List.range 16)) (val : Nat → ℚ) :
    ∃ L B xs, L.LowerCsc ∧ L.cols = 16 ∧ Converted L B ∧ sptrsvCsr exDemoEnv.A 16 B.p B.i B.x (ones ℚ 16) = ok xs ∧
      Reports (runRandom exDemoEnv none true (fun _ => shuf) val 16 (4 : Nat))
        (fun r => ∃ rep, r = some rep ∧ AllAgree exDemoEnv xs rep) :=
  C121_random exDemoEnv_ok hs (by decide) (by decide) (by decide) true

/-- Two rows that depend on the first one, but not on each other. -/
def exStar : Sp ℚ := ⟨3, 3, [0, 3, 4, 5], [0, 1, 2, 1, 2], [1, 1, 1, 1, 1]⟩

theorem exStar_lower : exStar.LowerCsc where
  wf := ⟨⟨rfl, rfl, by decide, by decide, by decide⟩, by decide⟩
  square := rfl
  lower := by unfold Sp.Lower; decide
  noDup := by unfold NoDup; decide
  diag := by
    intro c hc
    have : c = 0 ∨ c = 1 ∨ c = 2 := by have : c < 3 := hc; omega
    rcases this with rfl | rfl | rfl
    · exact ⟨1, by decide⟩
    · exact ⟨1, by decide⟩
    · exact ⟨1, by decide⟩

theorem exStar_chain : exStar.EtreeChain := by
  have h1 : exStar.graph.Dep 0 1 := ⟨by decide, by decide, by decide⟩
  have h2 : exStar.graph.Dep 0 2 := ⟨by decide, by decide, by decide⟩
  intro j hj
  have : j = 0 ∨ j = 1 := by have : j + 1 < 3 := hj; omega
  rcases this with rfl | rfl
  · exact .entry (by decide) h1
  · exact .fill (m := 0) (by decide) (by decide) (.entry (by decide) h2) (.entry (by decide) h1)

/-- **C121** (finding): three rows, two of which are independent: the demo does not end normally. -/
theorem C121_star_fails (sch : Nat → Nat → Nat → List Nat) (r : Report ℚ Nat) :
    run exDemoEnv none true exStar (-1) 5 sch ≠ ok r :=
  C121_etree_chain exStar_lower (by decide) exStar_chain true (by decide) sch r

end Verif
