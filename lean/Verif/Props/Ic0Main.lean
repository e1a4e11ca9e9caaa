import Verif.Model.Ic0Main
import Verif.Props.Ic0Demo
import Verif.Props.Copy
import Verif.Props.Bench

/-!
# C124: the demo program for incomplete Cholesky factorisations

`Agrees`, `Differ`, `SelfEqual`, `Sorts`: Verif/Props/Harness.lean; `Reports`: Verif/Props/DemoMain.lean; `OnOnePath`:
Verif/Spec/Group.lean; `LowerList`, `MtxText`: the file (Verif/Props/ReadMtx.lean).
-/

namespace Verif
open Res TestU Harness Measure Exec Sp Prepare Relation Metis TransSym Mtx

variable {V S T K : Type} [Zero V] [One V]

namespace Ic0Main

/-- The matrix with other values. -/
def withVal (A : Sp V) (x : List V) : Sp V := { A with x := x }

omit [Zero V] in
theorem oneRunF_eq {D : FDemo V S T} (hA : D.A.WF) (hE : D.A.Exact) {s : S} {k : Nat} {z xx : List V} {ts : List T}
    (hz : z.length = D.A.x.length) (hxx : xx.length = D.n) :
    oneRunF D s k ⟨withVal D.A z, xx, ts⟩
      = (D.fused k s D.A >>= fun v => ok ⟨withVal D.A v, List.replicate D.n 1, ts ++ [D.time k]⟩) := by
  unfold oneRunF
  dsimp only
  rw [fillN_eq hxx, ok_bind, C51_copy_from_to_same_pointers (dst := withVal D.A z) hA hE rfl rfl rfl rfl hz, ok_bind]
  rfl

theorem runsF_eq {D : FDemo V S T} (hA : D.A.WF) (hE : D.A.Exact) {s : S} {y : Nat → List V}
    (hy : ∀ k, k < D.numTest → D.fused k s D.A = ok (y k) ∧ (y k).length = D.A.x.length) {N : Nat} (hN : N ≤ D.numTest) :
    ∃ xx, xx.length = D.n ∧ forRange 0 N (oneRunF D s) ⟨D.A, List.replicate D.n 0, []⟩
      = ok ⟨withVal D.A (if N = 0 then D.A.x else y (N - 1)), xx, (List.range N).map D.time⟩ := by
  have h : wp (forRange 0 N (oneRunF D s) ⟨D.A, List.replicate D.n 0, []⟩)
      (fun (m : FMem V T) => m.x.length = D.n ∧ m.factor = withVal D.A (if N = 0 then D.A.x else y (N - 1)) ∧
        m.times = (List.range N).map D.time) := by
    refine forRange_wp (fun k (m : FMem V T) => m.x.length = D.n ∧
        m.factor = withVal D.A (if k = 0 then D.A.x else y (k - 1)) ∧
        m.times = (List.range k).map D.time) (Nat.zero_le _) ⟨by simp, rfl, rfl⟩ ?_
    rintro k ⟨f, xx, ts⟩ _ hk ⟨h1, h2, h3⟩
    dsimp only at h1 h2 h3
    obtain ⟨y1, y2⟩ := hy k (by omega)
    rw [h2, oneRunF_eq hA hE (by
      split
      · rfl
      · exact (hy (k - 1) (by omega)).2) h1, y1, ok_bind, wp_ok]
    refine ⟨by simp, by rw [if_neg (by omega), Nat.add_sub_cancel], ?_⟩
    dsimp only
    rw [h3, List.range_succ, List.map_append, List.map_singleton]
  obtain ⟨m, h1, h2, h3, h4⟩ := wp_iff.1 h
  refine ⟨m.x, h2, ?_⟩
  rw [h1, ← h3, ← h4]

end Ic0Main

open Ic0Main

/-- **C124.** `evaluate` for the classes of the factorisations: each run starts with the values of the matrix, whatever
the runs before have made of the factor; the factor is that of the last run, the message is printed exactly if it differs
from the reference, and the time is a median of the times of all runs. -/
theorem C124_evaluate [LinearOrder T] (C : Cmp V) (eps : V) {srt : List T → List T} (hs : Sorts srt) (minusOne : T)
    {D : FDemo V S T} (hA : D.A.WF) (hE : D.A.Exact) {s : S} (hb : D.build = ok (D.A, s)) (hN : 0 < D.numTest)
    {y : Nat → List V} (hy : ∀ k, k < D.numTest → D.fused k s D.A = ok (y k) ∧ (y k).length = D.A.x.length)
    (hc : ∀ c, D.correct = some c → c.length = D.A.x.length) :
    ∃ o, evaluateF C eps srt minusOne D = ok o ∧ o.solution = y (D.numTest - 1) ∧
      (o.alarm = true ↔ ∃ c, D.correct = some c ∧ Differ C eps D.A.x.length c (y (D.numTest - 1))) ∧
      IsMedian o.time ((List.range D.numTest).map D.time) := by
  obtain ⟨xx, _, h2⟩ := runsF_eq hA hE hy (Nat.le_refl _)
  rw [if_neg (by omega)] at h2
  obtain ⟨a, h3, h4⟩ := testing_eq (C := C) (eps := eps) (D := (⟨D.A.x.length, D.numTest, D.correct, ok (), fun _ _ x => ok x,
    D.time⟩ : Demo V Unit T)) (hy (D.numTest - 1) (by omega)).2 hc
  obtain ⟨t, h5, h6⟩ := C93_time_median (hs ((List.range D.numTest).map D.time)).1
    (hs ((List.range D.numTest).map D.time)).2 minusOne (by
      intro h; rw [List.map_eq_nil_iff, List.range_eq_nil] at h; omega)
  refine ⟨⟨y (D.numTest - 1), a, t⟩, ?_, rfl, h4, h6⟩
  have h3' : testingF C eps D (D.A.p.getD D.A.cols 0) (withVal D.A (y (D.numTest - 1))) = ok a := by
    rw [← hE.2]
    exact h3
  unfold evaluateF
  rw [hb, ok_bind]
  dsimp only
  rw [rd_getD 0 (by rw [hA.plen]; omega), ok_bind, h2, ok_bind]
  dsimp only
  rw [h3', ok_bind, h5, ok_bind]
  rfl

namespace Ic0Main

/-- `evaluateF` for kernels that give the serial factor. -/
theorem agreesF [LinearOrder T] {C : Cmp V} {eps : V} (hC : SelfEqual C eps) {srt : List T → List T} (hs : Sorts srt)
    (minusOne : T) {D : FDemo V S T} (hA : D.A.WF) (hE : D.A.Exact) {xs : List V} (hx : xs.length = D.A.x.length)
    (hcor : D.correct = some xs) {s : S} (hb : D.build = ok (D.A, s)) (hN : 0 < D.numTest)
    (hf : ∀ k, k < D.numTest → D.fused k s D.A = ok xs) :
    ∃ o, evaluateF C eps srt minusOne D = ok o ∧ Agrees C D.numTest D.time xs o := by
  obtain ⟨o, h1, h2, h3, h4⟩ := C124_evaluate C eps hs minusOne hA hE hb hN (y := fun _ => xs) (fun k hk => ⟨hf k hk, hx⟩)
    (fun c hc => by rw [hcor] at hc; cases hc; exact hx)
  refine ⟨o, h1, h2, h3.trans ?_, h4⟩
  constructor
  · rintro ⟨c, hc, i, a, b, hi, ha, hb', hor⟩
    rw [hcor] at hc
    cases hc
    rw [ha] at hb'
    cases hb'
    refine ⟨a, List.mem_of_getElem? ha, ?_⟩
    rcases hor with h | h | h
    · exact h
    · exact h
    · by_contra hn
      rw [Bool.not_eq_true] at hn
      rw [hC a hn] at h
      exact Bool.noConfusion h
  · rintro ⟨a, ha, hna⟩
    obtain ⟨i, hi, rfl⟩ := List.getElem_of_mem ha
    exact ⟨xs, hcor, i, _, _, by omega, List.getElem?_eq_getElem hi, List.getElem?_eq_getElem hi, .inl hna⟩

theorem endsF [LinearOrder T] {C : Cmp V} {eps : V} (hC : SelfEqual C eps) {srt : List T → List T} (hs : Sorts srt)
    (minusOne : T) {D : FDemo V S T} (hA : D.A.WF) (hE : D.A.Exact) {xs : List V} (hx : xs.length = D.A.x.length)
    (hcor : D.correct = some xs) {s : S} (hb : D.build = ok (D.A, s)) (hN : 0 < D.numTest)
    (hf : ∀ k, D.fused k s D.A = ok xs ∨ D.fused k s D.A = nofuel) :
    (∃ o, evaluateF C eps srt minusOne D = ok o ∧ Agrees C D.numTest D.time xs o) ∨
      evaluateF C eps srt minusOne D = nofuel := by
  by_cases h : ∃ k, k < D.numTest ∧ D.fused k s D.A = nofuel
  · classical
    right
    have hk := Nat.find_spec h
    have hmin := fun j => Nat.find_min h (m := j)
    generalize Nat.find h = k at hk hmin
    obtain ⟨xx, h1, h2⟩ := runsF_eq (D := { D with numTest := k }) hA hE (s := s) (y := fun _ => xs) (fun j hj => by
      refine ⟨?_, hx⟩
      rcases hf j with h | h
      · exact h
      · exact absurd ⟨Nat.lt_trans hj hk.1, h⟩ (hmin j hj)) (Nat.le_refl k)
    have h3 : forRange 0 k (oneRunF D s) ⟨D.A, List.replicate D.n 0, []⟩
      = ok ⟨withVal D.A (if k = 0 then D.A.x else xs), xx, (List.range k).map D.time⟩ := h2
    unfold evaluateF
    rw [hb, ok_bind]
    dsimp only
    rw [rd_getD 0 (by rw [hA.plen]; omega), ok_bind,
      forRange_split _ (Nat.zero_le k) (Nat.le_of_lt hk.1), h3, ok_bind, forRange_step hk.1,
      oneRunF_eq hA hE (by split <;> simp [hx]) h1, hk.2]
    rfl
  · left
    refine agreesF hC hs minusOne hA hE hx hcor hb hN fun k hk => ?_
    rcases hf k with h' | h'
    · exact h'
    · exact absurd ⟨k, hk, h'⟩ h

theorem reportsF [LinearOrder T] {C : Cmp V} {eps : V} (hC : SelfEqual C eps) {srt : List T → List T} (hs : Sorts srt)
    (minusOne : T) {A : Sp V} (hA : A.WF) (hE : A.Exact) {xs : List V} (hx : xs.length = A.x.length) (n : Nat)
    {build : Res (Sp V × S)} {s : S} (hb : build = ok (A, s)) {N : Nat} (hN : 0 < N) (time : Nat → T)
    {f : (Nat → List Nat) → S → Sp V → Res (List V)} (hf : AlwaysGives (fun sch => f sch s A) xs) :
    Reports (fun sch : Nat → Nat → List Nat =>
      evaluateF C eps srt minusOne ⟨n, N, some xs, A, build, fun k => f (sch k), time⟩) (Agrees C N time xs) := by
  obtain ⟨h1, sch, h2⟩ := hf
  refine ⟨fun sch => ?_, fun _ => sch, ?_⟩
  · exact endsF hC hs minusOne (D := ⟨n, N, some xs, A, build, fun k => f (sch k), time⟩) hA hE hx rfl hb hN
      (fun k => h1 (sch k))
  · exact agreesF hC hs minusOne (D := ⟨n, N, some xs, A, build, fun _ => f sch, time⟩) hA hE hx rfl hb hN (fun _ _ => h2)

/-- The parameters: positive `p3` and `p2 + p3` and at least one thread, as with the default values -3, 4, 6; the
subtractions of the factorisation commute (C110: without that the parallel factors depend on the interleaving). -/
structure Env.Ok [LinearOrder T] (E : Env V T K) : Prop where
  cmp : SelfEqual E.C E.eps
  srt : Sorts E.srt
  comm : E.A.Comm
  perm : ∀ l, (E.P.sort l).Perm l
  threads : E.P.innerParts ≠ 0
  p3 : 1 ≤ E.p3
  p23 : 1 ≤ E.p2 + E.p3
  order : ∀ i, Ic0Demo.Order (E.order i)
  xi0 : ∀ n, (E.xi0 n).length = n
  ps0 : ∀ n, (E.ps0 n).length = n

/-- All seven objects have found `xs`, and the only possible cause of a message are elements that are not numbers. -/
structure AllAgree [LinearOrder T] (E : Env V T K) (xs : List V) (r : Report V T) : Prop where
  serial : r.serial.solution = xs ∧ r.serial.alarm = false
  levelset : Agrees E.C 5 (E.time 1) xs r.levelset
  grouping : Agrees E.C 5 (E.time 2) xs r.grouping
  lbc : Agrees E.C 5 (E.time 3) xs r.lbc
  lbcSorted : Agrees E.C 5 (E.time 4) xs r.lbcSorted
  groupLbc : Agrees E.C 5 (E.time 5) xs r.groupLbc
  groupLbcSorted : Agrees E.C 5 (E.time 6) xs r.groupLbcSorted

/-- The groups of columns of `inspection_spicocsc_v1` (C44). -/
def Groups (L : Sp V) (o : RunGroup.Out) : Prop :=
  RunGroup.spicoCscV1 L.cols L.p L.i (List.replicate (L.cols + 1) 0) (List.replicate L.cols 0) (List.replicate L.cols 0) = ok o

omit [Zero V] [One V] in
theorem sorted_graph {L : Sp V} (hL : L.LowerCsc) (hs : L.ColsSorted) : L.toMat.pat.Sorted := by
  intro u hu
  have h1 := hs u hu
  have h2 := hL.noDup u hu
  exact (h1.and h2).imp fun h => lt_of_le_of_ne h.1 h.2

omit [Zero V] [One V] in
theorem toMat_wf {L : Sp V} (hL : L.LowerCsc) : L.toMat.WF := ⟨hL.wf.graph hL.square, hL.wf.xlen⟩

/-- Of columns that depend on each other, the groups do, too. -/
theorem group_path {g : Csc} {Gr : Grouping} (hp : Gr.Partition g.n) {u v : Nat} (h : TransGen g.Dep u v) :
    ∀ a b, Gr.Mem u a → Gr.Mem v b → ReflTransGen (Gr.Dep g) a b := by
  have one : ∀ {x y a b}, Gr.Mem x a → Gr.Mem y b → g.Dep x y → ReflTransGen (Gr.Dep g) a b := by
    intro x y a b hx hy hd
    by_cases e : a = b
    · subst e; exact .refl
    · exact .single ⟨e, x, y, hx, hy, hd⟩
  induction h with
  | single h => exact fun a b ha hb => one ha hb h
  | tail _ h ih =>
    intro a b ha hb
    obtain ⟨c, hc⟩ := hp.exists h.1
    exact (ih a c ha hc).trans (one hc hb h)

/-- In a path through all groups, any two groups depend on each other. -/
theorem groups_comparable {g : Csc} {Gr : Grouping} (h : Gr.OnOnePath g) {a b : Nat} (ha : a < Gr.num) (hb : b < Gr.num) :
    ReflTransGen (Gr.Dep g) a b ∨ ReflTransGen (Gr.Dep g) b a := by
  obtain ⟨l, hl, hc⟩ := h
  have hpw : l.Pairwise fun x y => ReflTransGen (Gr.Dep g) x y ∨ ReflTransGen (Gr.Dep g) y x := by
    have h1 : l.IsChain (TransGen (Gr.Dep g)) := hc.imp fun _ _ h => .single h
    exact (List.isChain_iff_pairwise.1 h1).imp fun h => .inl h.to_reflTransGen
  have : Std.Symm fun x y => ReflTransGen (Gr.Dep g) x y ∨ ReflTransGen (Gr.Dep g) y x := ⟨fun _ _ h => h.symm⟩
  exact hpw.forall_of_forall (fun x _ => .inl .refl) (hl.mem_iff.2 (List.mem_range.2 ha)) (hl.mem_iff.2 (List.mem_range.2 hb))

/-- If no path visits all groups, there are two groups, and two columns, of which neither depends on the other. -/
theorem independent_groups {g : Csc} {Gr : Grouping} (hp : Gr.Partition g.n) (hne : Gr.NonEmpty)
    (hlow : ∀ a b, Gr.Dep g a b → a < b) (h : ¬ Gr.OnOnePath g) :
    (∃ a b, a < Gr.num ∧ b < Gr.num ∧ a ≠ b ∧ ¬ TransGen (Gr.Dep g) a b ∧ ¬ TransGen (Gr.Dep g) b a) ∧
    (∃ u v, u < g.n ∧ v < g.n ∧ u ≠ v ∧ ¬ TransGen g.Dep u v ∧ ¬ TransGen g.Dep v u) := by
  obtain ⟨j, hj, hnd⟩ : ∃ j, j + 1 < Gr.num ∧ ¬ Gr.Dep g j (j + 1) := by
    by_contra hn
    refine h ⟨List.range Gr.num, .refl _, ?_⟩
    rw [List.isChain_iff_getElem]
    intro i hi
    rw [List.length_range] at hi
    rw [List.getElem_range, List.getElem_range]
    by_contra hc
    exact hn ⟨i, hi, hc⟩
  have hlt : ∀ a b, TransGen (Gr.Dep g) a b → a < b := by
    intro a b h
    induction h with
    | single h => exact hlow _ _ h
    | tail _ h ih => have := hlow _ _ h; omega
  have n1 : ¬ TransGen (Gr.Dep g) j (j + 1) := by
    intro ht
    obtain ⟨w, h1, h2⟩ := TransGen.tail'_iff.1 ht
    have hw := hlow _ _ h2
    rcases reflTransGen_iff_eq_or_transGen.1 h1 with h3 | h3
    · subst h3; exact hnd h2
    · have := hlt _ _ h3; omega
  have n2 : ¬ TransGen (Gr.Dep g) (j + 1) j := fun ht => by have := hlt _ _ ht; omega
  have hneq : j ≠ j + 1 := by omega
  refine ⟨⟨j, j + 1, by omega, hj, hneq, n1, n2⟩, ?_⟩
  have hex : ∀ k, k < Gr.num → ∃ x, Gr.Mem x k := by
    intro k hk
    obtain ⟨x, hx⟩ := List.exists_mem_of_ne_nil _ (hne k hk)
    exact ⟨x, hk, hx⟩
  obtain ⟨u, hu⟩ := hex j (by omega)
  obtain ⟨v, hv⟩ := hex (j + 1) hj
  have key : ∀ {x y a b}, Gr.Mem x a → Gr.Mem y b → a ≠ b → ¬ TransGen (Gr.Dep g) a b → ¬ TransGen g.Dep x y := by
    intro x y a b hx hy hab hn ht
    rcases reflTransGen_iff_eq_or_transGen.1 (group_path hp ht a b hx hy) with h3 | h3
    · exact hab h3.symm
    · exact hn h3
  refine ⟨u, v, hp.mem_lt hu, hp.mem_lt hv, ?_, key hu hv hneq n1, key hv hu hneq.symm n2⟩
  rintro rfl
  exact hneq (hp.unique hu hv)

theorem coarsenSeq_chain [Add K] [LT K] [DecidableLT K] {g : Csc} (hwf : g.WF) (hd : g.OneDiag)
    (hbad : ∃ v, g.IsDepth v (g.n - 1)) (P : Lbc.Params K) (minDist divRate : Int) (nodeCost : List K) (zero : K)
    (xi0 ps0 : List Nat) : Lbc.coarsenSeq P g.n g.p g.i minDist divRate nodeCost zero xi0 ps0 = exn := by
  obtain ⟨o, ho, h4, -⟩ := C04_error_code_exact hwf hd
  have hr := h4.2 (.inr hbad)
  unfold Lbc.coarsenSeq Lbc.windows
  rw [ho, ok_bind, hr]
  have h1 : ∀ a b : List Nat, Lbc.nodeLevels (-1 : Int).toNat a b g.n = ok (List.replicate g.n 0) := by
    intro a b
    rfl
  rw [h1, ok_bind]
  rfl

omit [Zero V] [One V] in
/-- `SpicoCSC_Grouping_H2` throws an exception if a path visits all groups. -/
theorem buildSetH2_chain [Add K] [LT K] [DecidableLT K] {a : Mat V} (hwf : a.WF) (hd : a.pat.DiagFirst) (hs : a.pat.Sorted)
    (h0 : 0 < a.n) {order : List (List Nat) → List (Nat × Nat)} (hor : Ic0Demo.Order order) {o : RunGroup.Out}
    (ho : RunGroup.spicoCscV1 a.n a.p a.i (List.replicate (a.n + 1) 0) (List.replicate a.n 0) (List.replicate a.n 0) = ok o)
    (h : o.grouping.OnOnePath a.pat) (P : Lbc.Params K) (conv : Int → K) (zero : K) (fsort : Bool) (p2 p3 : Int)
    (xi0 ps0 : Nat → List Nat) (r : RunGroup.Out × Sched) :
    Ic0Demo.buildSetH2 order P conv zero fsort a.n a.p a.i p2 p3 xi0 ps0 ≠ ok r := by
  obtain ⟨o', gv, gedg, gg, G⟩ := Ic0Demo.exists_groupGraphOk (Ic0.tri hwf hd hs) hor
  have hoo : o' = o := Res.ok.inj (G.runs.symm.trans ho)
  subst hoo
  have hnum : 0 < gg.n := by
    rw [G.gn]
    obtain ⟨j, hj⟩ := G.done.partition.exists h0
    have : j < o'.num := hj.1
    omega
  have hdepth : ∃ v, gg.IsDepth v (gg.n - 1) := by
    rw [Csc.isDepth_last_iff G.wf G.acyclic hnum]
    obtain ⟨l, h1, h2⟩ := h
    exact ⟨l, by rw [G.gn]; exact h1, h2.imp fun x y => (G.dep x y).2⟩
  intro hr
  unfold Ic0Demo.buildSetH2 at hr
  have e1 : Ic0Demo.groupGraph order a.n a.p a.i = ok (o', gv, gedg) := G.eq
  rw [e1, ok_bind] at hr
  dsimp only at hr
  obtain ⟨cost, _, hr⟩ := LbcTree.bindOk hr
  obtain ⟨s, hs', _⟩ := LbcTree.bindOk hr
  have := coarsenSeq_chain G.wf G.oneDiag hdepth P p2 p3 cost zero (xi0 o'.num) (ps0 o'.num)
  rw [G.graph] at this
  dsimp only at this
  rcases Lbc.coarsenSeq_ext P o'.num gv gedg p2 p3 cost zero (xi0 o'.num) (ps0 o'.num) (o'.num + 1) with e | e
  · rw [this] at e; cases e
  · rw [this, hs'] at e; cases e

omit [One V] in
/-- Converting to compressed rows and back restores the matrix. -/
theorem round_trip {L : Sp V} (hL : L.LowerCsc) (hs : L.ColsSorted) (hX : L.Exact) (hc : 0 < L.cols) :
    ∃ B, cscToCsr L (L.p.getD L.cols 0) false = ok B ∧
      ∀ {S : Type} {inspect : Res S} {s : S}, inspect = ok s → withFactor B inspect = ok (L, s) := by
  have hsq := hL.square
  have h1 := C26_round_trip hL.wf hs hX
  obtain ⟨B, h2, h3⟩ := LbcTree.bindOk h1
  obtain ⟨B', h4, h5, -⟩ := C26_csc_to_csr_arrays_keeps_matrix hL.wf
  rw [h2] at h4
  cases h4
  have hcsr : cscToCsr L (L.p.getD L.cols 0) false = cscToCsrArrays L := by
    unfold cscToCsr cscToCsrArrays
    rw [rd_getD 0 (by rw [hL.wf.plen]; omega), ok_bind, ok_bind]
    unfold newPtrLen newVals
    rw [if_neg (by omega)]
    rfl
  refine ⟨B, by rw [hcsr, h2], fun h => ?_⟩
  have hB : csrToCsc B = ok L := by
    unfold csrToCsc
    have e1 := h5.rows
    have e2 := h5.cols
    rw [← h3]
    unfold csrToCscArrays
    congr 1
    obtain ⟨r, c, p, i, x⟩ := B
    dsimp only at e1 e2 ⊢
    rw [e1, e2, hsq]
  unfold withFactor
  rw [hB, ok_bind, h, ok_bind]

end Ic0Main

variable [LinearOrder T] [Add K] [LT K] [DecidableLT K]

/-- **C124.** The demo without METIS, for every lower triangular matrix with full diagonal and sorted columns.  If no
path of dependences visits all groups of columns, every execution that ends reports the incomplete Cholesky factor for
all seven objects, with no other cause of a message than elements that are not numbers, and executions end; otherwise the
program never ends normally. -/
theorem C124_demo {E : Env V T K} (hE : E.Ok) {L : Sp V} (hL : L.LowerCsc) (hs : L.ColsSorted) (hX : L.Exact)
    (hc : 0 < L.cols) (hmax : L.cols ≤ 2147483647) :
    ∃ o xs, Groups L o ∧ RunPartition o L.cols ∧
      (∀ i, i + 1 < L.cols → (Out.Same o i (i + 1) ↔ L.graph.Dep i (i + 1))) ∧
      Ic0.ic0Csc E.A L.cols L.p L.i L.x = ok xs ∧ L.toMat.IsIC0 E.A xs ∧
      (¬ o.grouping.OnOnePath L.graph → Reports (classes E L (L.p.getD L.cols 0)) (AllAgree E xs)) ∧
      (o.grouping.OnOnePath L.graph → ∀ sch r, classes E L (L.p.getD L.cols 0) sch ≠ ok r) := by
  have hwf := toMat_wf hL
  have hd : L.toMat.pat.DiagFirst := hL.diagFirst hs
  have hso := sorted_graph hL hs
  obtain ⟨o, o1, o2, o3⟩ := C44_csc_runs (g := L.graph) (hL.wf.graph hL.square)
    (ptr := List.replicate (L.cols + 1) 0) (set := List.replicate L.cols 0) (inv := List.replicate L.cols 0)
    (by rw [List.length_replicate]; exact Nat.lt_succ_self _) (by rw [List.length_replicate]; exact Nat.le_refl _)
    (by rw [List.length_replicate]; exact Nat.le_refl _)
  have hlow : ∀ a b, o.grouping.Dep L.graph a b → a < b := by
    obtain ⟨o', gv, gedg, gg, G⟩ := Ic0Demo.exists_groupGraphOk (Ic0.tri hwf hd hso) (hE.order 0)
    have hoo : o' = o := Res.ok.inj (G.runs.symm.trans o1)
    subst hoo
    exact fun a b h => G.low a b ((G.dep a b).2 h)
  obtain ⟨xs, x1, x2, -⟩ := Ic0.C109_serial E.A hwf hd hso
  have x1' : Ic0.ic0Csc E.A L.cols L.p L.i L.x = ok xs := x1
  have hxl : xs.length = L.x.length := x2.len
  obtain ⟨B, b1, b2⟩ := round_trip hL hs hX hc
  have hcopy := C51_copy_sparse hL.wf hX hc
  obtain ⟨os, s1, s2, s3, -⟩ := C124_evaluate E.C E.eps hE.srt E.minusOne (D := serialF E L L B) hL.wf hX (b2 rfl)
    (by show 0 < 5; decide) (y := fun _ => xs) (fun k _ => ⟨x1, hxl⟩) (fun c hc => by cases hc)
  have salarm : os.alarm = false := by
    rw [← Bool.not_eq_true]
    intro ha
    obtain ⟨c, hc, _⟩ := s3.1 ha
    cases hc
  have hrun : ∀ sch, classes E L (L.p.getD L.cols 0) sch = (do
      let o1 ← evaluateF E.C E.eps E.srt E.minusOne (levelsetF E L L B xs (sch 1))
      let o2 ← evaluateF E.C E.eps E.srt E.minusOne (groupingF E L L B xs (sch 2))
      let o3 ← evaluateF E.C E.eps E.srt E.minusOne (lbcF E L L B xs false 3 (sch 3))
      let o4 ← evaluateF E.C E.eps E.srt E.minusOne (lbcF E L L B xs true 4 (sch 4))
      let o5 ← evaluateF E.C E.eps E.srt E.minusOne (groupLbcF E L L B xs false 5 (sch 5))
      let o6 ← evaluateF E.C E.eps E.srt E.minusOne (groupLbcF E L L B xs true 6 (sch 6))
      ok ⟨os, o1, o2, o3, o4, o5, o6⟩) := by
    intro sch
    unfold classes
    rw [b1, ok_bind, hcopy, ok_bind, b1, ok_bind, s1, ok_bind, s2,
      copyVector_eq (by rw [hxl, hX.2]) (by simp), ok_bind]
  refine ⟨o, xs, o1, o2, ?_, x1, x2, fun hp => ?_, fun hp sch r hr => ?_⟩
  · intro i hi
    refine (o3 i hi).trans ?_
    have h1 := hd i (by exact Nat.lt_of_succ_lt hi)
    have h2 := hso i (by exact Nat.lt_of_succ_lt hi)
    change (L.graph.col i).head? = some i at h1
    change (L.graph.col i).Pairwise (· < ·) at h2
    unfold Csc.Dep
    cases hcol : L.graph.col i with
    | nil => rw [hcol] at h1; cases h1
    | cons d rest =>
      rw [hcol] at h1 h2
      simp only [List.head?_cons, Option.some.injEq] at h1
      subst h1
      constructor
      · rintro ⟨d', rest', e⟩
        injection e with _ e
        exact ⟨Nat.lt_of_succ_lt hi, by rw [e]; simp, by omega⟩
      · rintro ⟨-, h, -⟩
        rw [List.mem_cons] at h
        rcases h with h | h
        · omega
        · cases rest with
          | nil => cases h
          | cons e rest =>
            refine ⟨d, rest, ?_⟩
            rw [List.pairwise_cons] at h2
            have h3 := h2.1 e (by simp)
            rcases List.mem_cons.1 h with h4 | h4
            · rw [h4]
            · have h5 := (List.pairwise_cons.1 h2.2).1 _ h4
              omega
  · obtain ⟨hig, hic⟩ := independent_groups o2.part o2.nonEmpty hlow hp
    obtain ⟨ol, xs1, l1, l2, -, l3⟩ := Ic0.C110_levelset_end_to_end hE.comm hwf hd hso
    rw [x1] at l2
    cases l2
    have hret : 0 ≤ ol.ret := by
      obtain ⟨c1, c2⟩ := UnitTest.chain_iff hL l1
      refine c2 fun h => ?_
      obtain ⟨v, hv⟩ := c1.1 h
      obtain ⟨a, b, ha, hb, hab, n1, n2⟩ := hic
      rcases Lbc.comparable_of_path (hL.wf.graph hL.square) hL.acyclic hv ha hb hab with h | h
      · exact n1 h
      · exact n2 h
    have r1 := reportsF hE.cmp hE.srt E.minusOne hL.wf hX hxl L.cols (b2 l1) (N := 5) (by decide) (E.time 1)
      (f := fun sch o f => Ic0.levelset E.A f.p f.i o.ret.toNat o.levelPtr o.levelSet sch f.x) (l3 hret)
    obtain ⟨g, xs2, g1, -, -, -, -, g2, -, g3⟩ := Ic0Demo.C112_grouping hE.comm hwf hd hso (hE.order 2)
    rw [x1] at g2
    cases g2
    have r2 := reportsF hE.cmp hE.srt E.minusOne hL.wf hX hxl L.cols (b2 g1) (N := 5) (by decide) (E.time 2)
      (f := fun sch s f => Ic0Demo.fusedCode E.A f.p f.i s sch f.x) g3
    have rl : ∀ fsort i, Reports (fun sch : Nat → Nat → List Nat =>
        evaluateF E.C E.eps E.srt E.minusOne (lbcF E L L B xs fsort i sch)) (Agrees E.C 5 (E.time i) xs) := by
      intro fsort i
      obtain ⟨s, xs3, w1, -, w2, -, w3⟩ := Ic0Demo.C112_lbc hE.comm hwf hd hso hic hmax hE.threads hE.perm hE.p3 hE.p23
        (hE.xi0 _) (hE.ps0 _) E.conv E.zero fsort
      rw [x1] at w2
      cases w2
      exact reportsF hE.cmp hE.srt E.minusOne hL.wf hX hxl L.cols (b2 w1) (N := 5) (by decide) (E.time i)
        (f := fun sch s f => Ic0.lbc E.A f.p f.i s sch f.x) w3
    have rg : ∀ fsort i, Reports (fun sch : Nat → Nat → List Nat =>
        evaluateF E.C E.eps E.srt E.minusOne (groupLbcF E L L B xs fsort i sch)) (Agrees E.C 5 (E.time i) xs) := by
      intro fsort i
      obtain ⟨s, xs3, w1, -, w2, -, w3⟩ := Ic0Demo.C112_grouping_lbc hE.comm hwf hd hso (hE.order i) o1 hig hmax hE.threads
        hE.perm hE.p3 hE.p23 hE.xi0 hE.ps0 E.conv E.zero fsort
      rw [x1] at w2
      cases w2
      exact reportsF hE.cmp hE.srt E.minusOne hL.wf hX hxl L.cols (b2 w1) (N := 5) (by decide) (E.time i)
        (f := fun sch s f => Ic0.groupLbc E.A f.p f.i s.2 s.1.ptr s.1.set sch f.x) w3
    have r3 := rl false 3
    have r4 := rl true 4
    have r5 := rg false 5
    have r6 := rg true 6
    refine ⟨fun sch => ?_, ?_⟩
    · have key : wpl (classes E L (L.p.getD L.cols 0) sch) (AllAgree E xs) := by
        rw [hrun, wpl_bind]
        refine wpl_mono (wpl_iff.2 (Or.symm (r1.1 (sch 1)))) fun o1 a1 => ?_
        rw [wpl_bind]
        refine wpl_mono (wpl_iff.2 (Or.symm (r2.1 (sch 2)))) fun o2 a2 => ?_
        rw [wpl_bind]
        refine wpl_mono (wpl_iff.2 (Or.symm (r3.1 (sch 3)))) fun o3 a3 => ?_
        rw [wpl_bind]
        refine wpl_mono (wpl_iff.2 (Or.symm (r4.1 (sch 4)))) fun o4 a4 => ?_
        rw [wpl_bind]
        refine wpl_mono (wpl_iff.2 (Or.symm (r5.1 (sch 5)))) fun o5 a5 => ?_
        rw [wpl_bind]
        refine wpl_mono (wpl_iff.2 (Or.symm (r6.1 (sch 6)))) fun o6 a6 => ?_
        rw [wpl_ok]
        exact ⟨⟨s2, salarm⟩, a1, a2, a3, a4, a5, a6⟩
      exact (wpl_iff.1 key).symm
    · obtain ⟨c1, o1, e1, a1⟩ := r1.2
      obtain ⟨c2, o2, e2, a2⟩ := r2.2
      obtain ⟨c3, o3, e3, a3⟩ := r3.2
      obtain ⟨c4, o4, e4, a4⟩ := r4.2
      obtain ⟨c5, o5, e5, a5⟩ := r5.2
      obtain ⟨c6, o6, e6, a6⟩ := r6.2
      refine ⟨fun | 1 => c1 | 2 => c2 | 3 => c3 | 4 => c4 | 5 => c5 | _ => c6, ⟨os, o1, o2, o3, o4, o5, o6⟩, ?_,
        ⟨s2, salarm⟩, a1, a2, a3, a4, a5, a6⟩
      rw [hrun]
      exact Bench.bind_eq e1 (Bench.bind_eq e2 (Bench.bind_eq e3 (Bench.bind_eq e4 (Bench.bind_eq e5 (Bench.bind_eq e6 rfl)))))
  · rw [hrun] at hr
    obtain ⟨o1', _, hr⟩ := LbcTree.bindOk hr
    obtain ⟨o2', _, hr⟩ := LbcTree.bindOk hr
    obtain ⟨o3', _, hr⟩ := LbcTree.bindOk hr
    obtain ⟨o4', _, hr⟩ := LbcTree.bindOk hr
    obtain ⟨o5', e5, hr⟩ := LbcTree.bindOk hr
    unfold evaluateF at e5
    obtain ⟨b, h9, -⟩ := LbcTree.bindOk e5
    change withFactor B (Ic0Demo.buildSetH2 _ _ _ _ _ _ _ _ _ _ _ _) = ok b at h9
    unfold withFactor at h9
    obtain ⟨f, _, h9⟩ := LbcTree.bindOk h9
    obtain ⟨s, h9, _⟩ := LbcTree.bindOk h9
    exact buildSetH2_chain hwf hd hso hc (hE.order 5) o1 hp _ _ _ _ _ _ _ _ s h9

/-! ### From the file to the objects -/

omit [LinearOrder T] in
/-- The file is read and reordered, whatever the objects are. -/
theorem Ic0Main.program_eq {W : V → Mtx.Text → Prop} {scanVal : Mtx.Text → Scan V} (hW : ScanOk W scanVal) {n : Nat}
    (hn : 0 < n) {es : List (Nat × Nat × V)} (hes : LowerList n es) {txt : Mtx.Text} (htxt : MtxText W true n n es txt)
    (fuel : Nat) {nd : NodeND} (hnd : OrdersNodes nd) (debug : Bool) :
    ∃ perm π G, perm.Perm (List.range n) ∧ InverseOf perm π n ∧ G.cols = n ∧ G.LowerCsc ∧ G.ColsSorted ∧ G.Exact ∧
      G.entries.Perm (renamedLower π es) ∧
      ∀ (E : Env V T K) sch, program E scanVal fuel nd debug txt sch
        = (classes E G (G.p.getD G.cols 0) sch >>= fun rep => ok (some rep)) := by
  obtain ⟨M, r1, r2, r3, r4, r5, r6⟩ := C115_read_mtx hW htxt hn (fun e he => ⟨(hes.range e he).2, by
    have := hes.range e he; omega⟩) hes.order (fun c hc => by
      obtain ⟨d, hd⟩ := hes.diag c hc
      exact ⟨_, hd, rfl⟩) fuel
  rw [if_pos rfl] at r1
  have hL := lowerCsc_of_list hes r2 r4 r5 r6
  obtain ⟨perm, π, G, gnz, g1, g2, g3, g4, g5⟩ := C85_reorder hL (by omega) r3.1.ge (stype := -1) (by decide) hnd debug
  have hGc := g5.cols
  rw [r5] at g3 g4
  refine ⟨perm, π, G, g3, g4, by omega, g5.lower, g5.sorted, g5.exact, ?_, fun E sch => ?_⟩
  · have := g5.entries
    rw [r6] at this
    exact this
  · subst g2
    unfold program
    rw [r1, ok_bind]
    dsimp only
    unfold run
    rw [g1, ok_bind]

/-- **C124.** The demo with a file that has the lower triangle of a symmetric matrix with full diagonal, built with
METIS.  METIS chooses a numbering `π`, and `G` is the renumbered lower triangle.  If no path of dependences visits all
groups of columns of `G`, every execution that ends reports the incomplete Cholesky factor of `G` for all seven objects;
otherwise the program never ends normally. -/
theorem C124_program {E : Env V T K} (hE : E.Ok) {W : V → Mtx.Text → Prop} {scanVal : Mtx.Text → Scan V}
    (hW : ScanOk W scanVal) {n : Nat} (hn : 0 < n) (hmax : n ≤ 2147483647) {es : List (Nat × Nat × V)}
    (hes : LowerList n es) {txt : Mtx.Text} (htxt : MtxText W true n n es txt) (fuel : Nat) {nd : NodeND}
    (hnd : OrdersNodes nd) (debug : Bool) :
    ∃ perm π G o xs, perm.Perm (List.range n) ∧ InverseOf perm π n ∧ G.cols = n ∧ G.entries.Perm (renamedLower π es) ∧
      Groups G o ∧ Ic0.ic0Csc E.A n G.p G.i G.x = ok xs ∧ G.toMat.IsIC0 E.A xs ∧
      (¬ o.grouping.OnOnePath G.graph →
        Reports (program E scanVal fuel nd debug txt) (fun r => ∃ rep, r = some rep ∧ AllAgree E xs rep)) ∧
      (o.grouping.OnOnePath G.graph → ∀ sch r, program E scanVal fuel nd debug txt sch ≠ ok r) := by
  obtain ⟨perm, π, G, k1, k2, k3, k4, k5, k6, k7, k8⟩ := program_eq (T := T) (K := K) hW hn hes htxt fuel hnd debug
  obtain ⟨o, xs, o1, -, -, x1, x2, h1, h2⟩ := C124_demo hE k4 k5 k6 (by omega) (by omega)
  rw [k3] at x1
  refine ⟨perm, π, G, o, xs, k1, k2, k3, k7, o1, x1, x2, fun hp => ?_, fun hp sch r hr => ?_⟩
  · obtain ⟨e2, X, rep, e3, e4⟩ := h1 hp
    refine ⟨fun X => ?_, X, some rep, by rw [k8, e3]; rfl, rep, rfl, e4⟩
    rcases e2 X with ⟨rep, q1, q2⟩ | q
    · exact .inl ⟨some rep, by rw [k8, q1]; rfl, rep, rfl, q2⟩
    · exact .inr (by rw [k8, q]; rfl)
  · rw [k8] at hr
    obtain ⟨rep, hr, -⟩ := LbcTree.bindOk hr
    exact h2 hp sch rep hr

/-- **C124.** Whatever numbering METIS chooses: if the unknowns fall into two parts that no entry connects, all seven
objects report the incomplete Cholesky factor. -/
theorem C124_disconnected {E : Env V T K} (hE : E.Ok) {W : V → Mtx.Text → Prop} {scanVal : Mtx.Text → Scan V}
    (hW : ScanOk W scanVal) {n : Nat} (hmax : n ≤ 2147483647) {es : List (Nat × Nat × V)}
    (hes : LowerList n es) {txt : Mtx.Text} (htxt : MtxText W true n n es txt) (fuel : Nat) {nd : NodeND}
    (hnd : OrdersNodes nd) (debug : Bool)
    {part : Nat → Bool} (hpart : ∀ e ∈ es, part e.1 = part e.2.1) (h1 : ∃ a, a < n ∧ part a = true)
    (h0 : ∃ a, a < n ∧ part a = false) :
    ∃ perm π, ∃ G : Sp V, ∃ xs, perm.Perm (List.range n) ∧ InverseOf perm π n ∧ G.cols = n ∧ G.entries.Perm (renamedLower π es) ∧
      Ic0.ic0Csc E.A n G.p G.i G.x = ok xs ∧ G.toMat.IsIC0 E.A xs ∧
      Reports (program E scanVal fuel nd debug txt) (fun r => ∃ rep, r = some rep ∧ AllAgree E xs rep) := by
  have hn : 0 < n := by obtain ⟨a, ha, -⟩ := h1; omega
  obtain ⟨perm, π, G, k1, k2, k3, k4, k5, k6, k7, k8⟩ := program_eq (T := T) (K := K) hW hn hes htxt fuel hnd debug
  obtain ⟨o, xs, o1, o2, o3, x1, x2, hgood, -⟩ := C124_demo hE k4 k5 k6 (by omega) (by omega)
  rw [k3] at x1
  obtain ⟨q, hq⟩ : ∃ q : Nat → Bool, q = fun r => part (perm.getD r 0) := ⟨_, rfl⟩
  have hqπ : ∀ r, r < n → q (π r) = part r := by
    intro r hr
    rw [hq]
    dsimp only
    rw [(k2.2 r hr).2]
  have hdep : ∀ {u v}, G.graph.Dep u v → q u = q v := by
    intro u v huv
    obtain ⟨d, hd⟩ := (k4.wf.mem_colRows (show u < G.cols from huv.1)).1 huv.2.1
    obtain ⟨⟨r, c, x⟩, e1, e2⟩ := List.mem_map.1 (k7.mem_iff.1 hd)
    have hr := hes.range _ e1
    have hp := hpart _ e1
    dsimp only at e2 hr hp
    rw [← hqπ r hr.2, ← hqπ c (by omega)] at hp
    injection e2 with e2 e3
    injection e3 with e3 e4
    rcases Nat.le_total (π r) (π c) with hle | hle
    · rw [Nat.max_eq_right hle] at e2
      rw [Nat.min_eq_left hle] at e3
      rw [← e2, ← e3, hp]
    · rw [Nat.max_eq_left hle] at e2
      rw [Nat.min_eq_right hle] at e3
      rw [← e2, ← e3, hp]
  have hgrp : ∀ {j u w}, o.grouping.Mem u j → o.grouping.Mem w j → q u = q w := by
    have key : ∀ k j u, o.grouping.Mem u j → o.grouping.Mem (u + k) j → q u = q (u + k) := by
      intro k
      induction k with
      | zero => intro j u _ _; rfl
      | succ k ih =>
        intro j u hu hw
        have hm := o2.convex j u (u + k) (u + (k + 1)) hu hw (by omega) (by omega)
        rw [ih j u hu hm]
        exact hdep ((o3 (u + k) (o2.part.mem_lt hw)).1 ⟨j, hm, hw⟩)
    intro j u w hu hw
    rcases Nat.le_total u w with h | h
    · obtain ⟨k, rfl⟩ := Nat.exists_eq_add_of_le h
      exact key k j u hu hw
    · obtain ⟨k, rfl⟩ := Nat.exists_eq_add_of_le h
      exact (key k j w hw hu).symm
  have hpath : ∀ {a b}, ReflTransGen (o.grouping.Dep G.graph) a b → ∀ u w, o.grouping.Mem u a → o.grouping.Mem w b →
      q u = q w := by
    intro a b h
    induction h with
    | refl => exact fun u w hu hw => hgrp hu hw
    | tail _ hd ih =>
      obtain ⟨-, x, y, hx, hy, hxy⟩ := hd
      intro u w hu hw
      rw [ih u x hu hx, hdep hxy, hgrp hy hw]
  have hp : ¬ o.grouping.OnOnePath G.graph := by
    intro hone
    obtain ⟨a, a1, a2⟩ := h1
    obtain ⟨b, b1, b2⟩ := h0
    obtain ⟨i, hi⟩ := o2.part.exists (v := π a) (by have := (k2.2 a a1).1; omega)
    obtain ⟨j, hj⟩ := o2.part.exists (v := π b) (by have := (k2.2 b b1).1; omega)
    have : q (π a) = q (π b) := by
      rcases groups_comparable hone hi.1 hj.1 with h | h
      · exact hpath h _ _ hi hj
      · exact (hpath h _ _ hj hi).symm
    rw [hqπ a a1, hqπ b b1, a2, b2] at this
    cases this
  obtain ⟨e2, X, rep, e3, e4⟩ := hgood hp
  refine ⟨perm, π, G, xs, k1, k2, k3, k7, x1, x2, fun X => ?_, X, some rep, by rw [k8, e3]; rfl, rep, rfl, e4⟩
  rcases e2 X with ⟨rep, q1, q2⟩ | q
  · exact .inl ⟨some rep, by rw [k8, q1]; rfl, rep, rfl, q2⟩
  · exact .inr (by rw [k8, q]; rfl)

omit [Zero V] [One V] in
/-- If every column is linked to the next one, there is only one group. -/
theorem Ic0Main.onOnePath_of_linked {L : Sp V} {o : RunGroup.Out} (hp : RunPartition o L.cols)
    (hs : ∀ i, i + 1 < L.cols → Out.Same o i (i + 1)) : o.grouping.OnOnePath L.graph := by
  have hall : ∀ i j, i < L.cols → o.grouping.Mem 0 j → o.grouping.Mem i j := by
    intro i
    induction i with
    | zero => intro j _ h; exact h
    | succ i ih =>
      intro j hi h
      obtain ⟨k, k1, k2⟩ := hs i hi
      rw [hp.part.unique (ih j (by omega) h) k1]
      exact k2
  have hle : ∀ a b, a < o.num → b < o.num → a = b := by
    intro a b ha hb
    obtain ⟨u, hu⟩ := List.exists_mem_of_ne_nil _ (hp.nonEmpty a ha)
    obtain ⟨v, hv⟩ := List.exists_mem_of_ne_nil _ (hp.nonEmpty b hb)
    have hu' : o.grouping.Mem u a := ⟨ha, hu⟩
    have hv' : o.grouping.Mem v b := ⟨hb, hv⟩
    have hun := hp.part.mem_lt hu'
    obtain ⟨j, hj⟩ := hp.part.exists (v := 0) (by omega)
    rw [hp.part.unique hu' (hall u j hun hj), hp.part.unique hv' (hall v j (hp.part.mem_lt hv') hj)]
  refine ⟨List.range o.num, .refl _, ?_⟩
  rw [List.isChain_iff_getElem]
  intro i hi
  rw [List.length_range] at hi
  have := hle i (i + 1) (by omega) hi
  omega

/-- **C124** (finding): if every two unknowns are coupled, the demo never ends normally, whatever numbering METIS
chooses. -/
theorem C124_full_fails {E : Env V T K} (hE : E.Ok) {W : V → Mtx.Text → Prop} {scanVal : Mtx.Text → Scan V}
    (hW : ScanOk W scanVal) {n : Nat} (hn : 0 < n) (hmax : n ≤ 2147483647) {es : List (Nat × Nat × V)}
    (hes : LowerList n es) (hfull : ∀ c r, c < r → r < n → ∃ d, (r, c, d) ∈ es) {txt : Mtx.Text}
    (htxt : MtxText W true n n es txt) (fuel : Nat) {nd : NodeND} (hnd : OrdersNodes nd) (debug : Bool)
    (sch : Nat → Nat → Nat → List Nat) (r : Option (Report V T)) : program E scanVal fuel nd debug txt sch ≠ ok r := by
  obtain ⟨perm, π, G, h1, h2, h3, k4, k5, k6, h5, k8⟩ := program_eq (T := T) (K := K) hW hn hes htxt fuel hnd debug
  obtain ⟨o, xs, o1, o2, o3, x1, x2, -, hbad⟩ := C124_demo hE k4 k5 k6 (by omega) (by omega)
  intro hr
  rw [k8] at hr
  obtain ⟨rep, hr, -⟩ := LbcTree.bindOk hr
  refine hbad (onOnePath_of_linked o2 fun j hj => (o3 j hj).2 ?_) sch rep hr
  rw [h3] at hj
  have hperm : ∀ j, j < n → perm.getD j 0 < n := by
    intro j hj
    have hl : perm.length = n := by rw [h1.length_eq, List.length_range]
    rw [List.getD_eq_getElem?_getD, List.getElem?_eq_getElem (by omega)]
    exact List.mem_range.1 (h1.mem_iff.1 (List.getElem_mem _))
  obtain ⟨a, ha⟩ : ∃ a, a = perm.getD j 0 := ⟨_, rfl⟩
  obtain ⟨b, hb⟩ : ∃ b, b = perm.getD (j + 1) 0 := ⟨_, rfl⟩
  have ea : π a = j := by rw [ha]; exact h2.1 j (by omega)
  have eb : π b = j + 1 := by rw [hb]; exact h2.1 (j + 1) hj
  have han : a < n := by rw [ha]; exact hperm j (by omega)
  have hbn : b < n := by rw [hb]; exact hperm (j + 1) hj
  have hm : ∃ d, (j + 1, j, d) ∈ G.entries := by
    rcases Nat.lt_trichotomy a b with h | h | h
    · obtain ⟨d, hd⟩ := hfull a b h hbn
      refine ⟨d, h5.mem_iff.2 (List.mem_map.2 ⟨_, hd, ?_⟩)⟩
      dsimp only
      rw [ea, eb, Nat.max_eq_left (by omega), Nat.min_eq_right (by omega)]
    · rw [h, eb] at ea
      omega
    · obtain ⟨d, hd⟩ := hfull b a h han
      refine ⟨d, h5.mem_iff.2 (List.mem_map.2 ⟨_, hd, ?_⟩)⟩
      dsimp only
      rw [ea, eb, Nat.max_eq_right (by omega), Nat.min_eq_left (by omega)]
  have hjc : j < G.cols := by omega
  exact ⟨hjc, (k4.wf.mem_colRows hjc).2 hm, by omega⟩

/-! ### Cases -/

/-- The default parameters, one thread in the inspectors. -/
def exIc0Env : Env ℚ Nat Int where
  A := ⟨⟨fun a l y => a - l * y, fun a d => a / d⟩, fun a => a⟩
  C := exactCmp
  eps := 0
  srt := fun l => l.mergeSort
  minusOne := 0
  P := ⟨true, 6, true, 1000, id, fun _ _ => (List.range 200).map (· % 4), fun _ c => c⟩
  conv := id
  zero := 0
  p2 := -3
  p3 := 4
  order := fun _ => Ic0Demo.inOrder
  xi0 := fun n => List.replicate n 7
  ps0 := fun n => List.replicate n 9
  time := fun i k => i + k

theorem exIc0Env_ok : exIc0Env.Ok where
  cmp := fun a _ => by simp [exIc0Env, exactCmp]
  srt := exSorts
  comm := by
    intro a l y l' y'
    exact sub_right_comm _ _ _
  perm := fun l => .refl _
  threads := by decide
  p3 := by decide
  p23 := by decide
  order := fun _ => Ic0Demo.inOrder_order
  xi0 := fun n => by simp [exIc0Env]
  ps0 := fun n => by simp [exIc0Env]

/-- `C124_disconnected` and `C124_program` for a file with two parts and any METIS. -/
example {nd : NodeND} (hnd : OrdersNodes nd) :=
  C124_disconnected exIc0Env_ok scanRat_ok (by decide) exTwoParts_ok exTwoParts_rat 0 hnd true (part := fun r => r == 1)
    (by simp) ⟨1, by decide, rfl⟩ ⟨0, by decide, rfl⟩

example {nd : NodeND} (hnd : OrdersNodes nd) :=
  C124_program exIc0Env_ok scanRat_ok (by decide) (by decide) exTwoParts_ok exTwoParts_rat 0 hnd true

/-- `C124_full_fails` for a file where every two unknowns are coupled. -/
example {nd : NodeND} (hnd : OrdersNodes nd) (sch : Nat → Nat → Nat → List Nat) (r : Option (Report ℚ Nat)) :
    program exIc0Env scanRat 0 nd true exFullMtx sch ≠ ok r :=
  C124_full_fails exIc0Env_ok scanRat_ok (by decide) (by decide) exFullMtx_ok (by
    intro c r hc hr
    have : (c = 0 ∧ r = 1) ∨ (c = 0 ∧ r = 2) ∨ (c = 1 ∧ r = 2) := by omega
    rcases this with ⟨rfl, rfl⟩ | ⟨rfl, rfl⟩ | ⟨rfl, rfl⟩
    · exact ⟨5, by simp⟩
    · exact ⟨1, by simp⟩
    · exact ⟨1, by simp⟩) exFullMtx_rat 0 hnd true sch r

/-- `C124_evaluate`: two runs that give different values; the last one is kept and compared. -/
example : ∃ o, evaluateF exactCmp 0 (fun l => l.mergeSort) 0
      (⟨2, 2, some [4, 9], ⟨2, 2, [0, 1, 2], [0, 1], [4, 9]⟩, ok (⟨2, 2, [0, 1, 2], [0, 1], [4, 9]⟩, ()),
        fun k _ _ => ok [2, k], id⟩ : FDemo ℚ Unit Nat) = ok o ∧ o.solution = [2, (1 : Nat)] := by
  obtain ⟨o, h1, h2, -⟩ := C124_evaluate exactCmp 0 exSorts 0
    (D := (⟨2, 2, some [4, 9], ⟨2, 2, [0, 1, 2], [0, 1], [4, 9]⟩, ok (⟨2, 2, [0, 1, 2], [0, 1], [4, 9]⟩, ()),
        fun k _ _ => ok [2, k], id⟩ : FDemo ℚ Unit Nat)) (s := ())
    ⟨⟨rfl, rfl, by decide, by decide, by decide⟩, by decide⟩ (by constructor <;> rfl) rfl (by decide)
    (y := fun k => [2, (k : ℚ)]) (fun k _ => ⟨rfl, rfl⟩) (by intro c hc; cases hc; rfl)
  exact ⟨o, h1, h2⟩

/-- `C124_demo` for three columns of which the first is needed by the other two. -/
example := C124_demo exIc0Env_ok exStar_lower (by unfold Sp.ColsSorted; decide) ⟨rfl, rfl⟩ (by decide) (by decide)

end Verif
