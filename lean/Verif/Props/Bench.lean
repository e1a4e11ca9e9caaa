import Verif.Model.Bench
import Verif.Props.DemoMain

/-!
# C122: the benchmark program

`Reports`: Verif/Props/DemoMain.lean; `Agrees`, `SelfEqual`, `Sorts`: Verif/Props/Harness.lean; `LowerList`,
`renamedLower`: Verif/Props/Program.lean; `EnvOk`, `dagOf`: Verif/Props/Pipeline.lean.
-/

namespace Verif
open Res TestU Harness Exec Sp Prepare Relation Metis TransSym Pipeline Mtx

variable {V S T K : Type} [Zero V] [One V]

namespace Bench

/-- `evaluate` for a class whose inspector depends on the interleavings `i` too. -/
theorem evaluate_reports [LinearOrder T] {C : Cmp V} {eps : V} (hC : SelfEqual C eps) {srt : List T → List T}
    (hs : Sorts srt) (minusOne : T) {xs : List V} {n N : Nat} (hx : xs.length = n) {I : Type}
    {build : I → Res S} (hN : 0 < N) (time : Nat → T)
    {f : (Nat → List Nat) → S → List V → Res (List V)}
    (hb : ∀ i, wpl (build i) fun s => AlwaysGives (fun sch => f sch s (ones V n)) xs) (he : ∃ i s, build i = ok s) :
    Reports (fun i : I × (Nat → Nat → List Nat) =>
      evaluate C eps srt minusOne ⟨n, N, some xs, build i.1, fun k => f (i.2 k), time⟩) (Agrees C N time xs) := by
  refine ⟨fun i => ?_, ?_⟩
  · rcases wpl_iff.1 (hb i.1) with h | ⟨s, h, hf⟩
    · right
      unfold evaluate
      dsimp only
      rw [h]
      rfl
    · exact (DemoMain.evaluate_reports hC hs minusOne hx h hN time hf).1 i.2
  · obtain ⟨i, s, h⟩ := he
    have hf := hb i
    rw [h, wpl_ok] at hf
    obtain ⟨sch, h'⟩ := (DemoMain.evaluate_reports hC hs minusOne hx h hN time hf).2
    exact ⟨(i, sch), h'⟩

omit [Zero V] [One V] in
theorem bind_eq {X Y : Type} {x : Res X} {a : X} {f : X → Res Y} {y : Res Y} (h : x = ok a) (h' : f a = y) :
    (x >>= f) = y := by rw [h, ok_bind, h']

/-- The part of the arrays that is used. -/
def trim (g : Csc) : Csc := ⟨g.n, g.p, g.i.take (g.ptr g.n)⟩

theorem trim_col {g : Csc} (h : g.WF) {u : Nat} (hu : u < g.n) : (trim g).col u = g.col u := by
  have h1 : g.ptr (u + 1) ≤ g.ptr g.n := by
    have : ∀ k, u + 1 + k ≤ g.n → g.ptr (u + 1) ≤ g.ptr (u + 1 + k) := by
      intro k
      induction k with
      | zero => intro _; exact Nat.le_refl _
      | succ k ih =>
        intro hk
        exact (ih (by omega)).trans (h.mono (u + 1 + k) (by omega))
    have := this (g.n - (u + 1)) (by omega)
    rwa [show u + 1 + (g.n - (u + 1)) = g.n by omega] at this
  have h2 := h.mono u hu
  unfold Csc.col trim
  dsimp only
  show ((g.i.take (g.ptr g.n)).drop (g.ptr u)).take (g.ptr (u + 1) - g.ptr u) = _
  rw [List.drop_take, List.take_take]
  congr 1
  omega

theorem trim_dep {g : Csc} (h : g.WF) (u v : Nat) : (trim g).Dep u v ↔ g.Dep u v := by
  constructor
  · rintro ⟨a, b, c⟩
    rw [trim_col h a] at b
    exact ⟨a, b, c⟩
  · rintro ⟨a, b, c⟩
    rw [← trim_col h a] at b
    exact ⟨a, b, c⟩

omit [Zero V] [One V] in
theorem trim_input {m : Mat V} {g : Csc} (h : SolverInput m g) : SolverInput m (trim g) where
  lower := h.lower
  same := ⟨h.same.1, fun u v => (trim_dep h.wf u v).trans (h.same.2 u v)⟩
  wf := by
    refine ⟨h.wf.plen, h.wf.p0, h.wf.mono, ?_, ?_⟩
    · have := h.wf.bound
      show g.ptr g.n ≤ (g.i.take (g.ptr g.n)).length
      rw [List.length_take]
      omega
    · intro u hu
      rw [trim_col h.wf hu]
      exact h.wf.range u hu
  oneDiag := by
    intro u hu
    rw [trim_col h.wf hu]
    exact h.oneDiag u hu
  diagFirst := by
    intro u hu
    rw [trim_col h.wf hu]
    exact h.diagFirst u hu
  pos := h.pos

section
variable [Ring K] [LinearOrder K] [IsStrictOrderedRing K]

omit [Zero V] in
/-- `SpTrSv_LL_HDAGG`: if two neighbours are not linked by a dependence, no run of `build_set` fails, some run
completes, and every schedule gives the serial solution. -/
theorem plainHdagg_spec (A : Arith V) {m : Mat V} {g : Csc} (h : SolverInput m g) {e : Pipeline.Env K} (he : EnvOk e)
    {cores : Nat} (hcores : 1 ≤ cores) {j : Nat} (hj : j + 1 < m.n) (hnd : ¬ m.RowDep j (j + 1)) {xs : List V}
    (hx : sptrsvCsr A m.n m.p m.i m.x (ones V m.n) = ok xs) :
    (∀ cc cc', wpl (plainHdagg true e cc cc' cores m.n (g.ptr g.n) g.p g.i m.p m.i) fun s =>
      AlwaysGives (fun sch => sptrsvLbc A m.p m.i m.x s sch (ones V m.n)) xs) ∧
    ∃ cc cc' s, plainHdagg true e cc cc' cores m.n (g.ptr g.n) g.p g.i m.p m.i = ok s := by
  have hn : g.n = m.n := h.same.1
  have ht := trim_input h
  have hcost := C48_node_costs h.wf h.lower.wf.pat hn.symm .spTrSvLL (order := e.order₅ g.n) (he.order₅ _) [] []
    (cost0 := List.replicate m.n 0) (by intro hc; simp at hc; omega)
  obtain ⟨cost, hce⟩ : ∃ cost, cost = (List.range g.n).map (Kernel.spTrSvLL.work g m.pat) := ⟨_, rfl⟩
  rw [← hce] at hcost
  have hH : HdaggHyp (trim g) e.rdiv
      ⟨m.n, g.p, g.i.take (g.ptr g.n), cost.map (fun c : Nat => (c : K)), cores, false, true⟩ := by
    refine ⟨by rw [← hn]; rfl, ht.wf, ht.oneDiag, ht.acyclic, ?_, ?_, ?_, hcores, he.rdiv, fun h => by cases h⟩
    · rintro ⟨v, hv, -⟩
      have hvl := UnitTest.path_lt ht.wf hv
      have hvl' : v < g.n := hvl
      have := DemoMain.path_consecutive ht.lowerG hv (by show v ≤ g.n - 1; omega) j (by show j < g.n - 1; omega)
      exact hnd ((ht.same.2 _ _).1 this)
    · simp [hce]; rfl
    · intro c hc
      dsimp only at hc
      obtain ⟨w, hw, rfl⟩ := List.mem_map.1 hc
      rw [hce] at hw
      obtain ⟨v, hv, rfl⟩ := List.mem_map.1 hw
      exact Nat.cast_pos.2 (C48_work_pos h.wf h.lower.wf.pat hn.symm (fun u hu => h.colNe hu)
        (fun u hu => h.rowNe hu) .spTrSvLL (List.mem_range.1 hv))
  have hrun : ∀ cc cc', plainHdagg true e cc cc' cores m.n (g.ptr g.n) g.p g.i m.p m.i
      = (Hdagg.hdagg false e.rdiv e.accept cc cc'
          ⟨m.n, g.p, g.i.take (g.ptr g.n), cost.map (fun c : Nat => (c : K)), cores, false, true⟩ >>= fun s => ok s.2) := by
    intro cc cc'
    unfold plainHdagg
    rw [← hn] at hcost ⊢
    change (Cost.costComputation (e.order₅ g.n) g.n g.p g.i m.pat.p m.pat.i _ _ _ _ _ >>= _) = _
    rw [hcost, ok_bind]
    unfold copyFirst
    rw [if_pos (by rw [h.wf.plen]), ok_bind, if_pos h.wf.bound, ok_bind,
      List.take_of_length_le (by rw [h.wf.plen])]
  obtain ⟨xs', x1, x2⟩ := C16_hdagg_end_to_end A h.lower ht.same hH (b := ones V m.n) (by simp [ones])
  rw [hx] at x1
  cases x1
  refine ⟨fun cc cc' => ?_, ?_⟩
  · rw [hrun, wpl_bind]
    exact wpl_mono (x2 e.accept cc cc') fun r hr => by rw [wpl_ok]; exact hr
  · obtain ⟨cc, cc', r, hr⟩ := (C14_hdagg_complete hH e.accept).2
    exact ⟨cc, cc', r.2, by rw [hrun, hr]; rfl⟩

end

/-- The environment: at least one core and fewer than 10000. -/
structure Env.Ok [LinearOrder T] [Ring K] [LinearOrder K] (E : Env V T K) : Prop where
  cmp : SelfEqual E.C E.eps
  srt : Sorts E.srt
  cores : 1 ≤ E.cores ∧ E.cores < 10000
  pipe : ∀ i, EnvOk (E.pipe i)
  perm : ∀ l, (E.P.sort l).Perm l
  y0 : ∀ n, (E.y0 n).length = n

/-- All seven objects have found `xs`, and the only possible cause of a message are elements that are not numbers. -/
structure AllAgree [LinearOrder T] (E : Env V T K) (xs : List V) (r : Report V T) : Prop where
  serial : r.serial.solution = xs ∧ r.serial.alarm = false
  wavefront : Agrees E.C 5 (E.time 1) xs r.wavefront
  treeWavefront : Agrees E.C 5 (E.time 2) xs r.treeWavefront
  hdagg : Agrees E.C 5 (E.time 3) xs r.hdagg
  treeHdagg : Agrees E.C 5 (E.time 4) xs r.treeHdagg
  treeHdaggBfs : Agrees E.C 5 (E.time 5) xs r.treeHdaggBfs
  lbc : Agrees E.C 5 (E.time 6) xs r.lbc

/-- One path of dependences visits all the groups that object `i` forms. -/
def GroupsOnOnePath (E : Env V T K) (G B : Sp V) (nnz i : Nat) (bfs : Bool) : Prop :=
  ∃ d Gr, groups false false bfs (E.pipe i) G.cols nnz G.p G.i B.p B.i = ok (d, Gr) ∧ Gr.OnOnePath (dagOf G.cols d)

end Bench

open Bench

section
variable [LinearOrder T] [Ring K] [LinearOrder K] [IsStrictOrderedRing K]

omit [IsStrictOrderedRing K] [LinearOrder T] in
theorem Bench.classes_eq {E : Env V T K} {L B : Sp V} {nnz : Nat} {o : Outcome V T}
    (ho : evaluate E.C E.eps E.srt E.minusOne (serial E.A B.toMat 5 none (E.time 0)) = ok o)
    (hl : o.solution.length = L.cols) (hy : (E.y0 L.cols).length = L.cols) (X : Execution) :
    classes E L nnz B X = (do
      let o1 ← evaluate E.C E.eps E.srt E.minusOne (wavefront E.A B.toMat L.p L.i 5 (some o.solution) (X.sch 1) (E.time 1))
      let o2 ← evaluate E.C E.eps E.srt E.minusOne (treeWave E.A B.toMat
        (Pipeline.treeWavefront false (E.pipe 2) B.toMat.n nnz L.p L.i B.toMat.p B.toMat.i) 5 (some o.solution) (X.sch 2) (E.time 2))
      let o3 ← evaluate E.C E.eps E.srt E.minusOne (scheduled E.A B.toMat
        (plainHdagg true (E.pipe 3) (X.cc 3) (X.cc' 3) E.cores B.toMat.n nnz L.p L.i B.toMat.p B.toMat.i) 5 (some o.solution) (X.sch 3) (E.time 3))
      let o4 ← evaluate E.C E.eps E.srt E.minusOne (scheduled E.A B.toMat
        (Pipeline.treeHdagg false false false true (E.pipe 4) (X.cc 4) (X.cc' 4) E.cores B.toMat.n nnz L.p L.i B.toMat.p B.toMat.i) 5 (some o.solution)
        (X.sch 4) (E.time 4))
      let o5 ← evaluate E.C E.eps E.srt E.minusOne (scheduled E.A B.toMat
        (Pipeline.treeHdagg false false true true (E.pipe 5) (X.cc 5) (X.cc' 5) E.cores B.toMat.n nnz L.p L.i B.toMat.p B.toMat.i) 5 (some o.solution)
        (X.sch 5) (E.time 5))
      let o6 ← evaluate E.C E.eps E.srt E.minusOne (scheduled E.A B.toMat
        (Symm.lbcTreeRuntime { E.P with innerParts := (E.cores : Int) } true (fun c : Nat => (c : K)) 0 ((E.pipe 6).order₅ B.toMat.n) B.toMat.n
          L.p L.i B.toMat.p B.toMat.i (-1) 5000) 5 (some o.solution) (X.sch 6) (E.time 6))
      ok ⟨o, o1, o2, o3, o4, o5, o6⟩) := by
  unfold classes
  dsimp only
  rw [ho, ok_bind, copyVector_eq hl hy, ok_bind]

/-- The seven objects. -/
theorem Bench.classes_reports {E : Env V T K} (hE : E.Ok) {G B : Sp V} (hG : G.LowerCsc) (hB : Converted G B)
    (hI : SolverInput B.toMat G.graph) (hch : ¬ G.EtreeChain)
    (h2 : ¬ GroupsOnOnePath E G B (G.p.getD G.cols 0) 2 false) (h4 : ¬ GroupsOnOnePath E G B (G.p.getD G.cols 0) 4 false)
    (h5 : ¬ GroupsOnOnePath E G B (G.p.getD G.cols 0) 5 true) :
    ∃ xs, sptrsvCsr E.A G.cols B.p B.i B.x (ones V G.cols) = ok xs ∧
      Reports (classes E G (G.p.getD G.cols 0) B) (AllAgree E xs) := by
  obtain ⟨j, hj, hnf⟩ : ∃ j, j + 1 < G.cols ∧ ¬ Fill (fun k i => G.graph.Dep i k) (j + 1) j := by
    by_contra h
    exact hch fun j hj => by
      by_contra h'
      exact h ⟨j, hj, h'⟩
  have hsq := hG.square
  have hlow := hI.lower
  have hsame := hI.same
  have hBn : B.toMat.n = G.cols := hB.cols.trans hsq
  have hgn : G.graph.n = G.cols := rfl
  have hz : G.graph.ptr G.graph.n = G.p.getD G.cols 0 := rfl
  have hfe : (fun k i => G.graph.Dep i k) = fun k i => B.toMat.RowDep i k := by
    funext k i
    exact propext (hsame.2 i k)
  have hnf' := hnf
  rw [hfe] at hnf'
  have hnd : ¬ B.toMat.RowDep j (j + 1) := fun h => hnf' (.entry (by omega) h)
  obtain ⟨xs, o, x1, x2, x3, x4, x5⟩ := C117_serial E.A E.C E.eps hE.srt E.minusOne hlow (numTest := 5) (by decide) (E.time 0)
  -- the level sets
  obtain ⟨ol, xs1, l1, l2, l3⟩ := C05_levelset_solve_end_to_end E.A hlow hI.wf hI.oneDiag hsame (b := ones V B.toMat.n)
    (by simp [ones])
  rw [x1] at l2
  cases l2
  have hret : 0 ≤ ol.ret := by
    obtain ⟨c1, c2⟩ := UnitTest.chain_iff hG l1
    refine c2 fun h => ?_
    obtain ⟨v, hv⟩ := c1.1 h
    have hvl := UnitTest.path_lt hI.wf hv
    have hvl' : v < G.cols := hvl
    have := DemoMain.path_consecutive hG.lowerG hv (by omega) j (by omega)
    exact hnf (.entry (by omega) this)
  have r1 := DemoMain.evaluate_reports hE.cmp hE.srt E.minusOne x2 (build := LevelSet.buildLevelSet B.toMat.n G.p G.i) (N := 5)
    (by rw [hBn]; exact l1) (by decide) (E.time 1)
    (f := fun sch o x => sptrsvLevelset E.A B.toMat.p B.toMat.i B.toMat.x o.ret.toNat o.levelPtr o.levelSet sch x) (l3 hret)
  -- groups and level sets
  obtain ⟨d2, G2, xs2, w, g1, -, g3, g4, g5, -⟩ := C50_tree_wavefront_partial E.A hI (hE.pipe 2) false (G.p.getD G.cols 0)
    (b := ones V B.toMat.n) (by simp [ones])
  rw [x1] at g3
  cases g3
  have r2 := DemoMain.evaluate_reports hE.cmp hE.srt E.minusOne x2 (N := 5) g4 (by decide) (E.time 2)
    (f := fun sch w x => sptrsvGroupLevelset E.A B.toMat.p B.toMat.i B.toMat.x w.nlevels.toNat w.levelPtr w.levelSet
      w.groupPtr w.groupSet sch x) (g5 fun hp => h2 ⟨d2, G2, by rw [← hBn]; exact g1, hp⟩)
  -- HDAGG
  obtain ⟨p1, cc3, cc3', s3, p2⟩ := plainHdagg_spec E.A hI (hE.pipe 3) hE.cores.1 (j := j) (by omega) hnd x1
  have r3 := evaluate_reports hE.cmp hE.srt E.minusOne x2 (N := 5) (by decide) (E.time 3)
    (build := fun c : Hdagg.Orac × Hdagg.Orac => plainHdagg true (E.pipe 3) c.1 c.2 E.cores B.toMat.n (G.p.getD G.cols 0) G.p
      G.i B.toMat.p B.toMat.i) (f := fun sch s x => sptrsvLbc E.A B.toMat.p B.toMat.i B.toMat.x s sch x)
    (fun c => p1 c.1 c.2) ⟨(cc3, cc3'), s3, p2⟩
  -- groups and HDAGG
  have tree : ∀ i bfs, ¬ GroupsOnOnePath E G B (G.p.getD G.cols 0) i bfs →
      Reports (fun c : (Hdagg.Orac × Hdagg.Orac) × (Nat → Nat → List Nat) =>
        evaluate E.C E.eps E.srt E.minusOne (scheduled E.A B.toMat (Pipeline.treeHdagg false false bfs true (E.pipe i) c.1.1 c.1.2
          E.cores B.toMat.n (G.p.getD G.cols 0) G.p G.i B.toMat.p B.toMat.i) 5 (some xs) c.2 (E.time i)))
        (Agrees E.C 5 (E.time i) xs) := by
    intro i bfs hp
    obtain ⟨d, Gr, xs4, t1, -, t3, -, t5⟩ := C49_tree_hdagg E.A hI (hE.pipe i) false bfs true hE.cores.1 (G.p.getD G.cols 0)
      (b := ones V B.toMat.n) (by simp [ones])
    rw [x1] at t3
    cases t3
    obtain ⟨q1, c, c', s, q2⟩ := t5 fun hp' => hp ⟨d, Gr, by rw [← hBn]; exact t1, hp'⟩
    exact evaluate_reports hE.cmp hE.srt E.minusOne x2 (N := 5) (by decide) (E.time i)
      (build := fun c : Hdagg.Orac × Hdagg.Orac => Pipeline.treeHdagg false false bfs true (E.pipe i) c.1 c.2
        E.cores B.toMat.n (G.p.getD G.cols 0) G.p G.i B.toMat.p B.toMat.i)
      (f := fun sch s x => sptrsvLbc E.A B.toMat.p B.toMat.i B.toMat.x s sch x)
      (fun c => wpl_mono (q1 c.1 c.2) fun s hs => hs.2) ⟨(c, c'), s, q2⟩
  have r4 := tree 4 false h4
  have r5 := tree 5 true h5
  -- LBC
  obtain ⟨s6, xs6, b1, -, b3, b4⟩ := C73_lbc_tree_runtime E.A hlow hI.wf hsame ⟨j, by omega, hnf'⟩
    (P := { E.P with innerParts := (E.cores : Int) }) hE.perm (minDist := -1) 5000 (.inr (by
      have := hE.cores.2
      unfold LbcTree.rate
      dsimp only
      rw [if_neg (by decide)]
      omega)) (fun c : Nat => (c : K)) 0 (order := (E.pipe 6).order₅ B.toMat.n) ((hE.pipe 6).order₅ _) (b := ones V B.toMat.n)
    (by simp [ones])
  rw [x1] at b3
  cases b3
  have r6 := DemoMain.evaluate_reports hE.cmp hE.srt E.minusOne x2 (N := 5) b1 (by decide) (E.time 6)
    (f := fun sch s x => sptrsvLbc E.A B.toMat.p B.toMat.i B.toMat.x s sch x) b4
  subst x4
  have hrun := classes_eq (E := E) (L := G) (nnz := G.p.getD G.cols 0) x3 (by rw [x2, hBn]) (hE.y0 _)
  refine ⟨o.solution, by rw [← hBn]; exact x1, fun X => ?_, ?_⟩
  · have key : wpl (classes E G (G.p.getD G.cols 0) B X) (AllAgree E o.solution) := by
      rw [hrun, wpl_bind]
      refine wpl_mono (wpl_iff.2 (Or.symm (r1.1 (X.sch 1)))) fun o1 a1 => ?_
      rw [wpl_bind]
      refine wpl_mono (wpl_iff.2 (Or.symm (r2.1 (X.sch 2)))) fun o2 a2 => ?_
      rw [wpl_bind]
      refine wpl_mono (wpl_iff.2 (Or.symm (r3.1 ((X.cc 3, X.cc' 3), X.sch 3)))) fun o3 a3 => ?_
      rw [wpl_bind]
      refine wpl_mono (wpl_iff.2 (Or.symm (r4.1 ((X.cc 4, X.cc' 4), X.sch 4)))) fun o4 a4 => ?_
      rw [wpl_bind]
      refine wpl_mono (wpl_iff.2 (Or.symm (r5.1 ((X.cc 5, X.cc' 5), X.sch 5)))) fun o5 a5 => ?_
      rw [wpl_bind]
      refine wpl_mono (wpl_iff.2 (Or.symm (r6.1 (X.sch 6)))) fun o6 a6 => ?_
      rw [wpl_ok]
      exact ⟨⟨rfl, x5⟩, a1, a2, a3, a4, a5, a6⟩
    exact (wpl_iff.1 key).symm
  · obtain ⟨c1, o1, e1, a1⟩ := r1.2
    obtain ⟨c2, o2, e2, a2⟩ := r2.2
    obtain ⟨⟨⟨d3, d3'⟩, c3⟩, o3, e3, a3⟩ := r3.2
    obtain ⟨⟨⟨d4, d4'⟩, c4⟩, o4, e4, a4⟩ := r4.2
    obtain ⟨⟨⟨d5, d5'⟩, c5⟩, o5, e5, a5⟩ := r5.2
    obtain ⟨c6, o6, e6, a6⟩ := r6.2
    refine ⟨⟨fun | 1 => c1 | 2 => c2 | 3 => c3 | 4 => c4 | 5 => c5 | _ => c6, fun | 3 => d3 | 4 => d4 | _ => d5,
      fun | 3 => d3' | 4 => d4' | _ => d5'⟩, ⟨o, o1, o2, o3, o4, o5, o6⟩, ?_, ⟨rfl, x5⟩, a1, a2, a3, a4, a5, a6⟩
    rw [hrun]
    exact bind_eq e1 (bind_eq e2 (bind_eq e3 (bind_eq e4 (bind_eq e5 (bind_eq e6 rfl)))))

/-! ### Two last rows -/

omit [Zero V] [One V] [LinearOrder T] [Ring K] [LinearOrder K] [IsStrictOrderedRing K] in
theorem OnlyWay.trans {g : Csc} {a b c : Nat} (h : g.OnlyWay a b) (h' : g.OnlyWay b c) : g.OnlyWay a c := by
  induction h with
  | refl => exact h'
  | step h1 h2 _ ih => exact .step h1 h2 (ih h')

theorem OnlyWay.to_sink {g : Csc} {x r u : Nat} (hu : ∀ w, ¬ g.Dep u w) (h : g.OnlyWay x r) :
    g.OnlyWay x u → g.OnlyWay r u := by
  induction h with
  | refl => exact id
  | step h1 h2 _ ih =>
    intro h
    cases h with
    | refl => exact absurd h1 (hu _)
    | step h3 h4 h5 => rw [h2 _ h3] at h5; exact ih h5

theorem OnlyWay.of_sink {g : Csc} {u r : Nat} (hu : ∀ w, ¬ g.Dep u w) (h : g.OnlyWay u r) : r = u := by
  cases h with
  | refl => rfl
  | step h1 _ _ => exact absurd h1 (hu _)

theorem groups_to_sink {g : Csc} {Gr : Grouping} (ht : Gr.TreeLike g) {u a c : Nat} (hu : ∀ w, ¬ g.Dep u w)
    (ha : Gr.Mem u a) (h : ReflTransGen (Gr.Dep g) a c) : ∀ y, Gr.Mem y c → g.OnlyWay y u := by
  induction h with
  | refl =>
    intro y hy
    obtain ⟨r, hr⟩ := ht a ha.1
    have := OnlyWay.of_sink hu (hr u ha)
    subst this
    exact hr y hy
  | tail _ hd ih =>
    obtain ⟨-, w, x, hw, hx, hwx⟩ := hd
    intro y hy
    have h1 := ih w hw
    obtain ⟨r, hr⟩ := ht _ hx.1
    have h2 : g.OnlyWay x u := by
      cases h1 with
      | refl => exact absurd hwx (hu _)
      | step h3 h4 h5 => rw [h4 _ hwx]; exact h5
    exact OnlyWay.trans (hr y hy) (OnlyWay.to_sink hu (hr x hx) h2)

/-- If two nodes have no successor, no path visits all the groups. -/
theorem not_onOnePath {g : Csc} {Gr : Grouping} (hp : Gr.Partition g.n) (ht : Gr.TreeLike g) {u v : Nat} (hun : u < g.n)
    (hvn : v < g.n) (huv : u ≠ v) (hu : ∀ w, ¬ g.Dep u w) (hv : ∀ w, ¬ g.Dep v w) : ¬ Gr.OnOnePath g := by
  rintro ⟨l, hl, hc⟩
  obtain ⟨a, ha⟩ := hp.exists hun
  obtain ⟨b, hb⟩ := hp.exists hvn
  have hpw : l.Pairwise fun x y => ReflTransGen (Gr.Dep g) x y ∨ ReflTransGen (Gr.Dep g) y x := by
    have h1 : l.IsChain (TransGen (Gr.Dep g)) := hc.imp fun _ _ h => .single h
    exact (List.isChain_iff_pairwise.1 h1).imp fun h => .inl h.to_reflTransGen
  have : Std.Symm fun x y => ReflTransGen (Gr.Dep g) x y ∨ ReflTransGen (Gr.Dep g) y x := ⟨fun _ _ h => h.symm⟩
  have := hpw.forall_of_forall (fun x _ => .inl .refl) (hl.mem_iff.2 (List.mem_range.2 ha.1))
    (hl.mem_iff.2 (List.mem_range.2 hb.1))
  rcases this with h | h
  · exact huv (OnlyWay.of_sink hv (groups_to_sink ht hu ha h v hb))
  · exact huv.symm (OnlyWay.of_sink hu (groups_to_sink ht hv hb h u ha))

omit [Zero V] [One V] [LinearOrder T] [IsStrictOrderedRing K] in
/-- Two rows that no other row uses: no object has all its groups on one path. -/
theorem Bench.groups_of_two_last {E : Env V T K} {G B : Sp V} (hI : SolverInput B.toMat G.graph) {i : Nat} (he : EnvOk (E.pipe i))
    {nnz : Nat} {bfs : Bool} {u v : Nat} (hun : u < G.cols) (hvn : v < G.cols) (huv : u ≠ v) (hu : ∀ w, ¬ G.graph.Dep u w)
    (hv : ∀ w, ¬ G.graph.Dep v w) : ¬ GroupsOnOnePath E G B nnz i bfs := by
  rintro ⟨d, Gr, h1, h2⟩
  have hn : G.graph.n = B.toMat.n := hI.same.1
  have hn' : G.graph.n = G.cols := rfl
  obtain ⟨d', Gr', h3, h4⟩ := C49_groups hI he false false bfs nnz
  have h3' : groups false false bfs (E.pipe i) G.cols nnz G.p G.i B.p B.i = ok (d', Gr') := by
    rw [← hn', hn]; exact h3
  rw [h1] at h3'
  cases h3'
  have hs : SparsifyHyp G.graph (E.pipe i).bins (E.pipe i).writes ((E.pipe i).order G.graph.n) [] :=
    ⟨hI.wf, hI.oneDiag, hI.diagFirst, hI.acyclic, by omega, he.bins, he.writes, he.order _, rfl⟩
  obtain ⟨r, s1, -, -, -, s2, -⟩ := C22_sparsification_removes hs false true (nnz := nnz) (fun h => by cases h)
  have hr : r = d := by
    unfold groups at h1
    obtain ⟨d', g1, g2⟩ := LbcTree.bindOk h1
    obtain ⟨G', g3, g4⟩ := LbcTree.bindOk g2
    cases g4
    rw [if_neg (by decide)] at g1
    exact Res.ok.inj (s1.symm.trans g1)
  subst hr
  have hsub : ∀ a b, (dagOf G.cols r).Dep a b → G.graph.Dep a b := by
    rintro a b ⟨a1, a2, a3⟩
    exact ⟨a1, (s2 a a1).subset a2, a3⟩
  exact not_onOnePath (g := dagOf G.cols r) h4.part h4.tree hun hvn huv (fun w h => hu w (hsub _ _ h)) (fun w h => hv w (hsub _ _ h)) h2

/-! ### From the file to the objects -/

omit [LinearOrder T] [IsStrictOrderedRing K] in
/-- The file is read and reordered, whatever the objects are. -/
theorem Bench.program_eq {W : V → Mtx.Text → Prop} {scanVal : Mtx.Text → Scan V} (hW : ScanOk W scanVal) {n : Nat} (hn : 0 < n)
    {es : List (Nat × Nat × V)} (hes : LowerList n es) {txt : Mtx.Text} (htxt : MtxText W true n n es txt) (fuel : Nat)
    {nd : NodeND} (hnd : OrdersNodes nd) (debug : Bool) :
    ∃ perm π G B, perm.Perm (List.range n) ∧ InverseOf perm π n ∧ G.cols = n ∧ G.LowerCsc ∧
      G.entries.Perm (renamedLower π es) ∧ Converted G B ∧ SolverInput B.toMat G.graph ∧
      ∀ (E : Env V T K) X, program E scanVal fuel nd debug txt X
        = (classes E G (G.p.getD G.cols 0) B X >>= fun rep => ok (some rep)) := by
  obtain ⟨M, r1, r2, r3, r4, r5, r6⟩ := C115_read_mtx hW htxt hn (fun e he => ⟨(hes.range e he).2, by
    have := hes.range e he; omega⟩) hes.order (fun c hc => by
      obtain ⟨d, hd⟩ := hes.diag c hc
      exact ⟨_, hd, rfl⟩) fuel
  rw [if_pos rfl] at r1
  have hL := lowerCsc_of_list hes r2 r4 r5 r6
  obtain ⟨perm, π, G, gnz, g1, g2, g3, g4, g5⟩ := C85_reorder hL (by omega) r3.1.ge (stype := -1) (by decide) hnd debug
  have hG := g5.lower
  have hsq := hG.square
  have hGc := g5.cols
  obtain ⟨B, b1, b2⟩ := C26_csc_to_csr_keeps_matrix hG.wf (by omega) g2.le
  obtain ⟨F, f1, f2, f3, f4, -⟩ := C29_make_full hG.wf hsq (by omega) g2.le
  obtain ⟨F', f6, -⟩ := C26_csc_to_csr_keeps_matrix f2 (by omega) (Nat.le_refl (F.p.getD F.cols 0))
  rw [r5] at g3 g4
  refine ⟨perm, π, G, B, g3, g4, by omega, hG, ?_, b2, hG.solverInput g5.sorted b2 (by omega), fun E X => ?_⟩
  · have := g5.entries
    rw [r6] at this
    exact this
  · subst g2
    unfold program
    rw [r1, ok_bind]
    dsimp only
    unfold run
    rw [g1, ok_bind]
    dsimp only
    rw [b1, ok_bind, show decide ((-1 : Int) = 0) = false from rfl, f1, ok_bind]
    dsimp only
    rw [rd_getD 0 (by rw [f2.plen]; omega), ok_bind, f6, ok_bind]

/-- **C122.** The benchmark with a file that has the lower triangle of a symmetric matrix with full diagonal.  METIS
chooses a numbering `π`, and `G` and `B` are the two forms of the renumbered lower triangle.  If the elimination tree is
not a chain and no grouping object has all its groups on one path, every execution that ends reports the serial solution
for all seven objects, with no other cause of a message than elements that are not numbers; and executions end. -/
theorem C122_benchmark {E : Env V T K} (hE : E.Ok) {W : V → Mtx.Text → Prop} {scanVal : Mtx.Text → Scan V}
    (hW : ScanOk W scanVal) {n : Nat} (hn : 0 < n) {es : List (Nat × Nat × V)} (hes : LowerList n es) {txt : Mtx.Text}
    (htxt : MtxText W true n n es txt) (fuel : Nat) {nd : NodeND} (hnd : OrdersNodes nd) (debug : Bool) :
    ∃ perm π G B, perm.Perm (List.range n) ∧ InverseOf perm π n ∧ G.cols = n ∧ G.entries.Perm (renamedLower π es) ∧
      Converted G B ∧
      (¬ G.EtreeChain → (∀ i bfs, (i, bfs) ∈ [(2, false), (4, false), (5, true)] → ¬ GroupsOnOnePath E G B es.length i bfs) →
        ∃ xs, sptrsvCsr E.A n B.p B.i B.x (ones V n) = ok xs ∧
          Reports (program E scanVal fuel nd debug txt) (fun r => ∃ rep, r = some rep ∧ AllAgree E xs rep)) ∧
      (G.EtreeChain ∧ 2 < n ∨ GroupsOnOnePath E G B es.length 4 false ∨ GroupsOnOnePath E G B es.length 5 true →
        ∀ X r, program E scanVal fuel nd debug txt X ≠ ok r) := by
  obtain ⟨perm, π, G, B, h1, h2, h3, h4, h5, h6, h7, h8⟩ := program_eq (T := T) (K := K) hW hn hes htxt fuel hnd debug
  have hnz : G.p.getD G.cols 0 = es.length := by
    rw [← entries_count h4.wf, h5.length_eq]
    simp [renamedLower]
  have hBn : B.toMat.n = G.cols := h6.cols.trans h4.square
  refine ⟨perm, π, G, B, h1, h2, h3, h5, h6, fun hch hp => ?_, fun hbad X r hr => ?_⟩
  · rw [← hnz] at hp
    obtain ⟨xs, e1, e2, X, rep, e3, e4⟩ := classes_reports hE h4 h6 h7 hch (hp 2 false (by decide)) (hp 4 false (by decide))
      (hp 5 true (by decide))
    rw [h3] at e1
    refine ⟨xs, e1, fun X => ?_, X, some rep, by rw [h8, e3]; rfl, rep, rfl, e4⟩
    rcases e2 X with ⟨rep, q1, q2⟩ | q
    · exact .inl ⟨some rep, by rw [h8, q1]; rfl, rep, rfl, q2⟩
    · exact .inr (by rw [h8, q]; rfl)
  · rw [h8] at hr
    obtain ⟨rep, hr, -⟩ := LbcTree.bindOk hr
    unfold classes at hr
    dsimp only at hr
    obtain ⟨o, _, hr⟩ := LbcTree.bindOk hr
    obtain ⟨yc, _, hr⟩ := LbcTree.bindOk hr
    obtain ⟨o1, _, hr⟩ := LbcTree.bindOk hr
    obtain ⟨o2, _, hr⟩ := LbcTree.bindOk hr
    obtain ⟨o3, _, hr⟩ := LbcTree.bindOk hr
    obtain ⟨o4, e4, hr⟩ := LbcTree.bindOk hr
    obtain ⟨o5, e5, hr⟩ := LbcTree.bindOk hr
    obtain ⟨o6, e6, hr⟩ := LbcTree.bindOk hr
    have tree : ∀ i bfs c c' s, GroupsOnOnePath E G B es.length i bfs →
        Pipeline.treeHdagg false false bfs true (E.pipe i) c c' E.cores B.toMat.n (G.p.getD G.cols 0) G.p G.i B.toMat.p
          B.toMat.i ≠ ok s := by
      rintro i bfs c c' s ⟨d, Gr, t1, t2⟩ hs
      obtain ⟨d', Gr', xs, t3, -, -, t4, -⟩ := C49_tree_hdagg E.A h7 (hE.pipe i) false bfs true hE.cores.1
        (G.p.getD G.cols 0) (b := ones V B.toMat.n) (by simp [ones])
      have t5 : groups false false bfs (E.pipe i) G.cols es.length G.p G.i B.p B.i = ok (d', Gr') := by
        rw [← hnz, ← hBn]
        exact t3
      rw [t1] at t5
      cases t5
      have := t4 t2 c c'
      have hs' := hs.symm.trans this
      cases hs'
    rcases hbad with ⟨hch, h2n⟩ | hp | hp
    · unfold evaluate at e6
      obtain ⟨s, h9, -⟩ := LbcTree.bindOk e6
      change Symm.lbcTreeRuntime _ true _ 0 _ B.toMat.n G.p G.i B.toMat.p B.toMat.i (-1) 5000 = ok s at h9
      unfold Symm.lbcTreeRuntime at h9
      obtain ⟨cost, c1, c2⟩ := LbcTree.bindOk h9
      have hgn : G.graph.n = B.toMat.n := hBn.symm
      have hcost := C48_node_costs h7.wf h7.lower.wf.pat hBn .spTrSvLL (order := (E.pipe 6).order₅ G.graph.n)
        ((hE.pipe 6).order₅ _) [] [] (cost0 := List.replicate G.graph.n 0) (by
          intro hc
          have h0 : G.graph.n = 0 := by simpa using hc
          have : G.graph.n = n := h3
          omega)
      have hce : cost = (List.range G.graph.n).map (Kernel.spTrSvLL.work G.graph B.toMat.pat) := by
        rw [← hgn] at c1
        exact Res.ok.inj (c1.symm.trans hcost)
      rw [← hgn] at c2
      refine C72_chain_fails (g := G.graph) h7.wf (stype := -1) (by decide) (by show 2 < G.cols; omega) ?_ _ true (-1) 5000
        (nodeCost := cost.map fun c : Nat => (c : K)) (by simp [hce]) 0 s c2
      intro j hj
      have key : ∀ k i, Fill (fun k i => G.graph.Dep i k) k i → Fill (SymEntry G.graph (-1)) k i := by
        intro k i h
        induction h with
        | entry h1 h2 => exact .entry h1 (.inl ⟨by decide, h2⟩)
        | fill h1 h2 _ _ ih1 ih2 => exact .fill h1 h2 ih1 ih2
      exact key _ _ (hch j hj)
    · unfold evaluate at e4
      obtain ⟨s, h9, -⟩ := LbcTree.bindOk e4
      exact tree 4 false _ _ s hp h9
    · unfold evaluate at e5
      obtain ⟨s, h9, -⟩ := LbcTree.bindOk e5
      exact tree 5 true _ _ s hp h9

/-- **C122.** Whatever numbering METIS chooses: if the unknowns fall into two parts that no entry connects, all seven
objects report the serial solution. -/
theorem C122_disconnected {E : Env V T K} (hE : E.Ok) {W : V → Mtx.Text → Prop} {scanVal : Mtx.Text → Scan V}
    (hW : ScanOk W scanVal) {n : Nat} {es : List (Nat × Nat × V)} (hes : LowerList n es) {txt : Mtx.Text}
    (htxt : MtxText W true n n es txt) (fuel : Nat) {nd : NodeND} (hnd : OrdersNodes nd) (debug : Bool)
    {part : Nat → Bool} (hpart : ∀ e ∈ es, part e.1 = part e.2.1) (h1 : ∃ a, a < n ∧ part a = true)
    (h0 : ∃ a, a < n ∧ part a = false) :
    ∃ perm π G B xs, perm.Perm (List.range n) ∧ InverseOf perm π n ∧ G.cols = n ∧ G.entries.Perm (renamedLower π es) ∧
      Converted G B ∧ sptrsvCsr E.A n B.p B.i B.x (ones V n) = ok xs ∧
      Reports (program E scanVal fuel nd debug txt) (fun r => ∃ rep, r = some rep ∧ AllAgree E xs rep) := by
  have hn : 0 < n := by obtain ⟨a, ha, -⟩ := h1; omega
  obtain ⟨perm, π, G, B, k1, k2, k3, k4, k5, k6, k7, k8⟩ := program_eq (T := T) (K := K) hW hn hes htxt fuel hnd debug
  obtain ⟨q, hq⟩ : ∃ q : Nat → Bool, q = fun r => part (perm.getD r 0) := ⟨_, rfl⟩
  have hqπ : ∀ r, r < n → q (π r) = part r := by
    intro r hr
    rw [hq]
    dsimp only
    rw [(k2.2 r hr).2]
  have hdep : ∀ {u v}, G.graph.Dep u v → u < v ∧ v < n ∧ q u = q v := by
    intro u v huv
    have hlt := k7.dep_lt huv
    have hvn := (k7.wf.dep_lt huv).2
    have hvn' : v < G.cols := hvn
    obtain ⟨d, hd⟩ := (k4.wf.mem_colRows (show u < G.cols from huv.1)).1 huv.2.1
    obtain ⟨⟨r, c, x⟩, e1, e2⟩ := List.mem_map.1 (k5.mem_iff.1 hd)
    have hr := hes.range _ e1
    have hp := hpart _ e1
    dsimp only at e2 hr hp
    rw [← hqπ r hr.2, ← hqπ c (by omega)] at hp
    injection e2 with e2 e3
    injection e3 with e3 e4
    refine ⟨hlt, by omega, ?_⟩
    rcases Nat.le_total (π r) (π c) with hle | hle
    · rw [Nat.max_eq_right hle] at e2
      rw [Nat.min_eq_left hle] at e3
      rw [← e2, ← e3, hp]
    · rw [Nat.max_eq_left hle] at e2
      rw [Nat.min_eq_right hle] at e3
      rw [← e2, ← e3, hp]
  have hex : ∀ b, ∃ a, a < n ∧ q a = b := by
    intro b
    obtain ⟨a, a1, a2⟩ : ∃ a, a < n ∧ part a = b := by cases b; exacts [h0, h1]
    exact ⟨π a, (k2.2 a a1).1, by rw [hqπ a a1, a2]⟩
  have hlast : ∀ b, ∃ u, u < n ∧ q u = b ∧ ∀ w, ¬ G.graph.Dep u w := by
    intro b
    have key : ∀ k a, n - a ≤ k → a < n → q a = b → ∃ u, u < n ∧ q u = b ∧ ∀ w, ¬ G.graph.Dep u w := by
      intro k
      induction k with
      | zero => intro a h1 h2; omega
      | succ k ih =>
        intro a h1 h2 h3
        by_cases h : ∃ w, G.graph.Dep a w
        · obtain ⟨w, hw⟩ := h
          have := hdep hw
          exact ih w (by omega) this.2.1 (by rw [← this.2.2, h3])
        · exact ⟨a, h2, h3, fun w hw => h ⟨w, hw⟩⟩
    obtain ⟨a, a1, a2⟩ := hex b
    exact key _ a le_rfl a1 a2
  obtain ⟨u, u1, u2, u3⟩ := hlast true
  obtain ⟨v, v1, v2, v3⟩ := hlast false
  have huv : u ≠ v := by
    rintro rfl
    rw [u2] at v2
    cases v2
  have hch : ¬ G.EtreeChain := by
    intro h
    have hf : ∀ k i, Fill (fun k i => G.graph.Dep i k) k i → q k = q i := by
      intro k i hk
      induction hk with
      | entry _ h => exact (hdep h).2.2.symm
      | fill _ _ _ _ ih1 ih2 => rw [ih1, ih2]
    have hall : ∀ j, j < n → q j = q 0 := by
      intro j
      induction j with
      | zero => intro _; rfl
      | succ j ih =>
        intro hj
        rw [hf _ _ (h j (by omega)), ih (by omega)]
    have := hall u u1
    have := hall v v1
    simp_all
  have hp : ∀ i bfs, ¬ GroupsOnOnePath E G B (G.p.getD G.cols 0) i bfs := fun i bfs =>
    groups_of_two_last k7 (hE.pipe i) (by omega) (by omega) huv u3 v3
  obtain ⟨xs, e1, e2, X, rep, e3, e4⟩ := classes_reports hE k4 k6 k7 hch (hp _ _) (hp _ _) (hp _ _)
  rw [k3] at e1
  refine ⟨perm, π, G, B, xs, k1, k2, k3, k5, k6, e1, fun X => ?_, X, some rep, by rw [k8, e3]; rfl, rep, rfl, e4⟩
  rcases e2 X with ⟨rep, q1, q2⟩ | q
  · exact .inl ⟨some rep, by rw [k8, q1]; rfl, rep, rfl, q2⟩
  · exact .inr (by rw [k8, q]; rfl)

/-- **C122** (finding): if the matrix has three or more rows and every two unknowns are coupled, the benchmark never ends
normally, whatever numbering METIS chooses. -/
theorem C122_full_fails {E : Env V T K} (hE : E.Ok) {W : V → Mtx.Text → Prop} {scanVal : Mtx.Text → Scan V}
    (hW : ScanOk W scanVal) {n : Nat} (hn : 2 < n) {es : List (Nat × Nat × V)} (hes : LowerList n es)
    (hfull : ∀ c r, c < r → r < n → ∃ d, (r, c, d) ∈ es) {txt : Mtx.Text}
    (htxt : MtxText W true n n es txt) (fuel : Nat) {nd : NodeND} (hnd : OrdersNodes nd) (debug : Bool) (X : Execution)
    (r : Option (Report V T)) : program E scanVal fuel nd debug txt X ≠ ok r := by
  obtain ⟨perm, π, G, B, h1, h2, h3, h5, h6, -, h7⟩ := C122_benchmark hE hW (by omega) hes htxt fuel hnd debug
  refine h7 (.inl ⟨?_, hn⟩) X r
  intro j hj
  rw [h3] at hj
  have hperm : ∀ j, j < n → perm.getD j 0 < n := by
    intro j hj
    have hl : perm.length = n := by rw [h1.length_eq, List.length_range]
    rw [List.getD_eq_getElem?_getD, List.getElem?_eq_getElem (by omega)]
    exact List.mem_range.1 (h1.mem_iff.1 (List.getElem_mem _))
  obtain ⟨a, ha⟩ : ∃ a, a = perm.getD j 0 := ⟨_, rfl⟩
  obtain ⟨b, hb⟩ : ∃ b, b = perm.getD (j + 1) 0 := ⟨_, rfl⟩
  have ea : π a = j := by rw [ha]; exact h2.1 j (by omega)
  have eb : π b = j + 1 := by rw [hb]; exact h2.1 (j + 1) hj
  have han : a < n := by rw [ha]; exact hperm j (by omega)
  have hbn : b < n := by rw [hb]; exact hperm (j + 1) hj
  have hm : ∃ d, (j + 1, j, d) ∈ G.entries := by
    rcases Nat.lt_trichotomy a b with h | h | h
    · obtain ⟨d, hd⟩ := hfull a b h hbn
      refine ⟨d, h5.mem_iff.2 (List.mem_map.2 ⟨_, hd, ?_⟩)⟩
      dsimp only
      rw [ea, eb, Nat.max_eq_left (by omega), Nat.min_eq_right (by omega)]
    · rw [h, eb] at ea
      omega
    · obtain ⟨d, hd⟩ := hfull b a h han
      refine ⟨d, h5.mem_iff.2 (List.mem_map.2 ⟨_, hd, ?_⟩)⟩
      dsimp only
      rw [ea, eb, Nat.max_eq_right (by omega), Nat.min_eq_left (by omega)]
  obtain ⟨d, hd⟩ := hm
  refine .entry (by omega) ⟨by show j < G.cols; omega, ?_, by omega⟩
  unfold entries at hd
  obtain ⟨c, hc, hd⟩ := List.mem_flatMap.1 hd
  obtain ⟨x, hx, e⟩ := List.mem_map.1 hd
  injection e with e1 e
  injection e with e2 e3
  subst e2
  have := (List.of_mem_zip hx).1
  rw [e1] at this
  exact this

/-! ### Cases -/

/-- One thread in the inspectors, 20 cores. -/
def exBenchEnv : Env ℚ Nat Int where
  A := ⟨fun a l y => a - l * y, fun a d => a / d⟩
  C := exactCmp
  eps := 0
  srt := fun l => l.mergeSort
  minusOne := 0
  cores := 20
  pipe := fun _ => exEnv
  P := ⟨true, 20, true, 1000, id, fun _ _ => (List.range 200).map (· % 4), fun _ c => c⟩
  y0 := fun n => List.replicate n 7
  time := fun i k => i + k

theorem exBenchEnv_ok : exBenchEnv.Ok where
  cmp := fun a _ => by simp [exBenchEnv, exactCmp]
  srt := exSorts
  cores := by decide
  pipe := fun _ => exEnv_ok
  perm := fun l => .refl _
  y0 := fun n => by simp [exBenchEnv]

/-- The rows `[4]`, `[. 6]`, `[-5 . 3]`: the second unknown is alone. -/
def exTwoParts : Mtx.Text := "%%MatrixMarket matrix coordinate real symmetric\n3 3 4\n1 1 4\n3 1 -5\n2 2 6\n3 3 3\n".toList

theorem exTwoParts_text : MtxText IntText true 3 3 [(0, 0, 4), (2, 0, -5), (1, 1, 6), (2, 2, 3)] exTwoParts := by
  refine ⟨"real".toList, "1 1 4\n3 1 -5\n2 2 6\n3 3 3\n".toList, "\n".toList, .inl rfl,
    ⟨"%%MatrixMarket matrix coordinate real symmetric".toList, [], "3 3 4".toList, by decide,
      by unfold OneLine; decide, ?_, by unfold OneLine; decide, by unfold OneLine; decide, ?_⟩, ?_⟩
  · exact ⟨"matrix".toList, "coordinate".toList, "real".toList, "symmetric".toList,
      ⟨[], " ".toList, " ".toList, " ".toList, " ".toList, [], by decide, Blanks.nil,
        gap_space, gap_space, gap_space, gap_space, Ends.nil⟩, by decide, by decide, by decide, by decide⟩
  · exact ⟨[], "3".toList, " ".toList, "3".toList, " ".toList, "4".toList, [], by decide,
      Blanks.nil, num _ (by decide), gap_space, num _ (by decide), gap_space, num _ (by decide), Ends.nil⟩
  · have h4 : Body IntText "\n".toList [(2, 2, 3)] "\n3 3 3\n".toList :=
      Body.cons (w := "\n".toList) (s₁ := "3".toList) (g₁ := " ".toList) (s₂ := "3".toList) (g₂ := " ".toList)
        (t := "3".toList) gap_newline.2 (num _ (by decide)) gap_space (num _ (by decide)) gap_space
        (.inl ⟨3, rfl, num _ (by decide)⟩) (Ends.cons rfl _) .nil
    have h3 : Body IntText "\n".toList [(1, 1, 6), (2, 2, 3)] "\n2 2 6\n3 3 3\n".toList :=
      Body.cons (w := "\n".toList) (s₁ := "2".toList) (g₁ := " ".toList) (s₂ := "2".toList) (g₂ := " ".toList)
        (t := "6".toList) gap_newline.2 (num _ (by decide)) gap_space (num _ (by decide)) gap_space
        (.inl ⟨6, rfl, num _ (by decide)⟩) (Ends.cons rfl _) h4
    have h2 : Body IntText "\n".toList [(2, 0, -5), (1, 1, 6), (2, 2, 3)] "\n3 1 -5\n2 2 6\n3 3 3\n".toList :=
      Body.cons (w := "\n".toList) (s₁ := "3".toList) (g₁ := " ".toList) (s₂ := "1".toList) (g₂ := " ".toList)
        (t := "-5".toList) gap_newline.2 (num _ (by decide)) gap_space (num _ (by decide)) gap_space
        (.inr ⟨5, "5".toList, rfl, rfl, num _ (by decide)⟩) (Ends.cons rfl _) h3
    exact Body.cons (w := []) (s₁ := "1".toList) (g₁ := " ".toList) (s₂ := "1".toList) (g₂ := " ".toList)
      (t := "4".toList) Blanks.nil (num _ (by decide)) gap_space (num _ (by decide)) gap_space
      (.inl ⟨4, rfl, num _ (by decide)⟩) (Ends.cons rfl _) h2

theorem exTwoParts_rat :
    MtxText ratText true 3 3 [(0, 0, (4 : ℚ)), (2, 0, -5), (1, 1, 6), (2, 2, 3)] exTwoParts := by
  obtain ⟨ty, body, tail, h1, h2, h3⟩ := exTwoParts_text
  refine ⟨ty, body, tail, h1, h2, ?_⟩
  have := Body.rat h3
  simpa using this

theorem exTwoParts_ok : LowerList 3 [(0, 0, (4 : ℚ)), (2, 0, -5), (1, 1, 6), (2, 2, 3)] where
  range := by simp
  order := by simp
  diag := by
    intro c hc
    have : c = 0 ∨ c = 1 ∨ c = 2 := by omega
    rcases this with rfl | rfl | rfl
    · exact ⟨4, by simp⟩
    · exact ⟨6, by simp⟩
    · exact ⟨3, by simp⟩
  nodup := by decide

/-- `C122_disconnected` for this file and any METIS. -/
example {nd : NodeND} (hnd : OrdersNodes nd) :=
  C122_disconnected exBenchEnv_ok scanRat_ok exTwoParts_ok exTwoParts_rat 0 hnd true (part := fun r => r == 1)
    (by simp) ⟨1, by decide, rfl⟩ ⟨0, by decide, rfl⟩

/-- `C122_benchmark` for this file and the file of C118. -/
example {nd : NodeND} (hnd : OrdersNodes nd) :=
  C122_benchmark exBenchEnv_ok scanRat_ok (by decide) exTwoParts_ok exTwoParts_rat 0 hnd true

/-- A full matrix. -/
def exFullMtx : Mtx.Text := "%%MatrixMarket matrix coordinate real symmetric\n3 3 6\n1 1 4\n2 1 5\n3 1 1\n2 2 6\n3 2 1\n3 3 3\n".toList

theorem exFullMtx_text : MtxText IntText true 3 3 [(0, 0, 4), (1, 0, 5), (2, 0, 1), (1, 1, 6), (2, 1, 1), (2, 2, 3)] exFullMtx := by
  refine ⟨"real".toList, "1 1 4\n2 1 5\n3 1 1\n2 2 6\n3 2 1\n3 3 3\n".toList, "\n".toList, .inl rfl,
    ⟨"%%MatrixMarket matrix coordinate real symmetric".toList, [], "3 3 6".toList, by decide,
      by unfold OneLine; decide, ?_, by unfold OneLine; decide, by unfold OneLine; decide, ?_⟩, ?_⟩
  · exact ⟨"matrix".toList, "coordinate".toList, "real".toList, "symmetric".toList,
      ⟨[], " ".toList, " ".toList, " ".toList, " ".toList, [], by decide, Blanks.nil,
        gap_space, gap_space, gap_space, gap_space, Ends.nil⟩, by decide, by decide, by decide, by decide⟩
  · exact ⟨[], "3".toList, " ".toList, "3".toList, " ".toList, "6".toList, [], by decide,
      Blanks.nil, num _ (by decide), gap_space, num _ (by decide), gap_space, num _ (by decide), Ends.nil⟩
  · have h5 : Body IntText "\n".toList [(2, 2, 3)] "\n3 3 3\n".toList :=
      Body.cons (w := "\n".toList) (s₁ := "3".toList) (g₁ := " ".toList) (s₂ := "3".toList) (g₂ := " ".toList)
        (t := "3".toList) gap_newline.2 (num _ (by decide)) gap_space (num _ (by decide)) gap_space
        (.inl ⟨3, rfl, num _ (by decide)⟩) (Ends.cons rfl _) .nil
    have h4 : Body IntText "\n".toList [(2, 1, 1), (2, 2, 3)] "\n3 2 1\n3 3 3\n".toList :=
      Body.cons (w := "\n".toList) (s₁ := "3".toList) (g₁ := " ".toList) (s₂ := "2".toList) (g₂ := " ".toList)
        (t := "1".toList) gap_newline.2 (num _ (by decide)) gap_space (num _ (by decide)) gap_space
        (.inl ⟨1, rfl, num _ (by decide)⟩) (Ends.cons rfl _) h5
    have h3 : Body IntText "\n".toList [(1, 1, 6), (2, 1, 1), (2, 2, 3)] "\n2 2 6\n3 2 1\n3 3 3\n".toList :=
      Body.cons (w := "\n".toList) (s₁ := "2".toList) (g₁ := " ".toList) (s₂ := "2".toList) (g₂ := " ".toList)
        (t := "6".toList) gap_newline.2 (num _ (by decide)) gap_space (num _ (by decide)) gap_space
        (.inl ⟨6, rfl, num _ (by decide)⟩) (Ends.cons rfl _) h4
    have h2 : Body IntText "\n".toList [(2, 0, 1), (1, 1, 6), (2, 1, 1), (2, 2, 3)] "\n3 1 1\n2 2 6\n3 2 1\n3 3 3\n".toList :=
      Body.cons (w := "\n".toList) (s₁ := "3".toList) (g₁ := " ".toList) (s₂ := "1".toList) (g₂ := " ".toList)
        (t := "1".toList) gap_newline.2 (num _ (by decide)) gap_space (num _ (by decide)) gap_space
        (.inl ⟨1, rfl, num _ (by decide)⟩) (Ends.cons rfl _) h3
    have h1 : Body IntText "\n".toList [(1, 0, 5), (2, 0, 1), (1, 1, 6), (2, 1, 1), (2, 2, 3)] "\n2 1 5\n3 1 1\n2 2 6\n3 2 1\n3 3 3\n".toList :=
      Body.cons (w := "\n".toList) (s₁ := "2".toList) (g₁ := " ".toList) (s₂ := "1".toList) (g₂ := " ".toList)
        (t := "5".toList) gap_newline.2 (num _ (by decide)) gap_space (num _ (by decide)) gap_space
        (.inl ⟨5, rfl, num _ (by decide)⟩) (Ends.cons rfl _) h2
    exact Body.cons (w := []) (s₁ := "1".toList) (g₁ := " ".toList) (s₂ := "1".toList) (g₂ := " ".toList)
        (t := "4".toList) Blanks.nil (num _ (by decide)) gap_space (num _ (by decide)) gap_space
        (.inl ⟨4, rfl, num _ (by decide)⟩) (Ends.cons rfl _) h1

theorem exFullMtx_rat : MtxText ratText true 3 3 [(0, 0, (4 : ℚ)), (1, 0, 5), (2, 0, 1), (1, 1, 6), (2, 1, 1), (2, 2, 3)] exFullMtx := by
  obtain ⟨ty, body, tail, h1, h2, h3⟩ := exFullMtx_text
  refine ⟨ty, body, tail, h1, h2, ?_⟩
  have := Body.rat h3
  simpa using this

theorem exFullMtx_ok : LowerList 3 [(0, 0, (4 : ℚ)), (1, 0, 5), (2, 0, 1), (1, 1, 6), (2, 1, 1), (2, 2, 3)] where
  range := by simp
  order := by simp
  diag := by
    intro c hc
    have : c = 0 ∨ c = 1 ∨ c = 2 := by omega
    rcases this with rfl | rfl | rfl
    · exact ⟨4, by simp⟩
    · exact ⟨6, by simp⟩
    · exact ⟨3, by simp⟩
  nodup := by decide

/-- `C122_full_fails` for this file. -/
example {nd : NodeND} (hnd : OrdersNodes nd) (X : Execution) (r : Option (Report ℚ Nat)) :
    program exBenchEnv scanRat 0 nd true exFullMtx X ≠ ok r :=
  C122_full_fails exBenchEnv_ok scanRat_ok (by decide) exFullMtx_ok (by
    intro c r hc hr
    have : (c = 0 ∧ r = 1) ∨ (c = 0 ∧ r = 2) ∨ (c = 1 ∧ r = 2) := by omega
    rcases this with ⟨rfl, rfl⟩ | ⟨rfl, rfl⟩ | ⟨rfl, rfl⟩
    · exact ⟨5, by simp⟩
    · exact ⟨1, by simp⟩
    · exact ⟨1, by simp⟩) exFullMtx_rat 0 hnd true X r

end
end Verif
