import Verif.Props.LbcMain

/-!
# C121: the demo program for LBC, with a file
-/

namespace Verif
open Res TestU Harness Exec Sp Prepare Metis Mtx DemoMain LbcMain

variable {V T K : Type} [Zero V] [One V] [Add K] [LT K] [DecidableLT K] [LinearOrder T]

omit [Zero V] [One V] in
theorem DemoMain.chain_iff {L : Sp V} (hL : L.LowerCsc) :
    ¬ L.EtreeChain ↔ ∃ j, j + 1 < L.cols ∧ ¬ Fill (fun k i => Uses L.entries i k) (j + 1) j := by
  have he : (fun k i => L.graph.Dep i k) = fun k i => Uses L.entries i k := by
    funext k i
    exact propext (LbcMain.dep_iff hL)
  constructor
  · intro h
    by_contra h'
    refine h fun j hj => ?_
    by_contra h2
    rw [he] at h2
    exact h' ⟨j, hj, h2⟩
  · rintro ⟨j, hj, hnf⟩ h
    have := h j hj
    rw [he] at this
    exact hnf this

omit [LinearOrder T] in
theorem DemoMain.reports_some {E : Env V T K} {metis : Option NodeND} {debug : Bool} {scanVal : Text → Scan V} {fuel : Nat}
    {txt : Text} {M : Sp V} (hr : readMtxText scanVal fuel txt = ok (.matrix M (-1))) {Q : Report V T → Prop}
    (h : Reports (run E metis debug M (-1) M.i.length) Q) :
    Reports (program E metis debug scanVal fuel txt) (fun r => ∃ rep, r = some rep ∧ Q rep) := by
  have hrun : ∀ sch, program E metis debug scanVal fuel txt sch
      = (run E metis debug M (-1) M.i.length sch >>= fun o => ok (some o)) := by
    intro sch
    unfold program
    rw [hr, ok_bind]
  obtain ⟨h1, sch, rep, q1, q2⟩ := h
  refine ⟨fun sch => ?_, sch, some rep, by rw [hrun, q1]; rfl, rep, rfl, q2⟩
  rw [hrun]
  rcases h1 sch with ⟨rep, q1, q2⟩ | q
  · rw [q1]; exact .inl ⟨_, rfl, rep, rfl, q2⟩
  · rw [q]; exact .inr rfl

/-- **C121.** With a file that has the lower triangle of a symmetric matrix with full diagonal, without METIS: if the
elimination tree is not a chain, all four objects report the serial solution of the system in the file. -/
theorem C121_file {E : Env V T K} (hE : E.Ok) {W : V → Text → Prop} {scanVal : Text → Scan V} (hW : ScanOk W scanVal)
    {n : Nat} (hn : 0 < n) (hmax : n ≤ 2147483647) {es : List (Nat × Nat × V)} (hes : LowerList n es) {txt : Text}
    (htxt : MtxText W true n n es txt) (fuel : Nat) (debug : Bool)
    (hch : ∃ j, j + 1 < n ∧ ¬ Fill (fun k i => Uses es i k) (j + 1) j) :
    ∃ L B xs, L.LowerCsc ∧ L.cols = n ∧ L.entries = es ∧ Converted L B ∧
      sptrsvCsr E.A n B.p B.i B.x (ones V n) = ok xs ∧
      Reports (program E none debug scanVal fuel txt) (fun r => ∃ rep, r = some rep ∧ AllAgree E xs rep) := by
  obtain ⟨M, r1, r2, r3, r4, r5, r6⟩ := C115_read_mtx hW htxt hn (fun e he => ⟨(hes.range e he).2, by
    have := hes.range e he; omega⟩) hes.order (fun c hc => by
      obtain ⟨d, hd⟩ := hes.diag c hc
      exact ⟨_, hd, rfl⟩) fuel
  rw [if_pos rfl] at r1
  have hL := lowerCsc_of_list hes r2 r4 r5 r6
  obtain ⟨B, xs, e1, e2, e3⟩ := C121_demo hE hL r3.1.ge (by omega) (stype := -1) (by decide)
    ((chain_iff hL).2 (by rw [r5, r6]; exact hch)) debug
  rw [r5] at e2
  exact ⟨M, B, xs, hL, r5, r6, e1, e2, reports_some r1 e3⟩

/-- **C121.** The same with METIS, for the renumbered matrix. -/
theorem C121_file_metis {E : Env V T K} (hE : E.Ok) {W : V → Text → Prop} {scanVal : Text → Scan V} (hW : ScanOk W scanVal)
    {n : Nat} (hn : 0 < n) (hmax : n ≤ 2147483647) {es : List (Nat × Nat × V)} (hes : LowerList n es) {txt : Text}
    (htxt : MtxText W true n n es txt) (fuel : Nat) {nd : NodeND} (hnd : OrdersNodes nd) (debug : Bool) :
    ∃ perm π G, perm.Perm (List.range n) ∧ InverseOf perm π n ∧ G.LowerCsc ∧ G.cols = n ∧
      G.entries.Perm (renamedLower π es) ∧
      ((∃ j, j + 1 < n ∧ ¬ Fill (fun k i => Uses (renamedLower π es) i k) (j + 1) j) →
        ∃ B xs, Converted G B ∧ sptrsvCsr E.A n B.p B.i B.x (ones V n) = ok xs ∧
          Reports (program E (some nd) debug scanVal fuel txt) (fun r => ∃ rep, r = some rep ∧ AllAgree E xs rep)) := by
  obtain ⟨M, r1, r2, r3, r4, r5, r6⟩ := C115_read_mtx hW htxt hn (fun e he => ⟨(hes.range e he).2, by
    have := hes.range e he; omega⟩) hes.order (fun c hc => by
      obtain ⟨d, hd⟩ := hes.diag c hc
      exact ⟨_, hd, rfl⟩) fuel
  rw [if_pos rfl] at r1
  have hL := lowerCsc_of_list hes r2 r4 r5 r6
  obtain ⟨perm, π, G, g3, g4, g5, g6⟩ := C121_demo_metis hE hL (by omega) r3.1.ge (by omega) (stype := -1) (by decide) hnd debug
  rw [r5] at g3 g4 g6
  have hent : G.entries.Perm (renamedLower π es) := by
    have := g5.entries
    rw [r6] at this
    exact this
  have hGc : G.cols = n := by have := g5.cols; omega
  refine ⟨perm, π, G, g3, g4, g5.lower, hGc, hent, fun hch => ?_⟩
  have hU : Uses G.entries = Uses (renamedLower π es) := by
    funext u v
    unfold Uses
    simp only [hent.mem_iff]
  obtain ⟨B, xs, e1, e2, e3⟩ := g6 ((chain_iff g5.lower).2 (by rw [hGc, hU]; exact hch))
  exact ⟨B, xs, e1, e2, reports_some r1 e3⟩

/-- `C121_file` and `C121_file_metis` for the file of C122 with two parts. -/
example := C121_file exDemoEnv_ok scanRat_ok (by decide) (by decide) exTwoParts_ok exTwoParts_rat 0 true exTwoParts_not_chain

example {nd : NodeND} (hnd : OrdersNodes nd) :=
  C121_file_metis exDemoEnv_ok scanRat_ok (by decide) (by decide) exTwoParts_ok exTwoParts_rat 0 hnd true

end Verif
