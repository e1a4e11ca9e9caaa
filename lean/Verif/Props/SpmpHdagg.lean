import Verif.Proof.SpmpHdagg
import Verif.Props.Glc

/-!
# C127: `GLC_V2` and `HDAGG` with `parallelLevelset = true`
-/

namespace Verif.SpmpH
open Res hiding ub
open P2P Hdagg LevelSet Csc Exec

variable {V : Type} [Zero V] [One V] {K : Type} [AddCommGroup K] [LinearOrder K] [IsOrderedAddMonoid K]

/-- What a caller of `GLC_V2` with `parallelLevelset = true` has to provide.  In contrast to `HdaggHyp` the graph has to
be lower triangular, but a path through all nodes is allowed. -/
structure ParHyp (g : Csc) (rdiv : K → Nat → K) (a : Args K) (nnz : Nat) : Prop where
  graph : (⟨a.n, a.p, a.ix⟩ : Csc) = g
  nnz : nnz = g.i.length
  wf : g.WF
  oneDiag : g.OneDiag
  lower : g.Lower
  pos : 0 < g.n
  costLen : a.nodeCost.length = g.n
  costPos : ∀ c ∈ a.nodeCost, 0 < c
  cores : 1 ≤ a.cores
  rdiv : RDivOk rdiv

/-- **C127.** Under the assumption on SpMP every completed run of `GLC_V2` with `parallelLevelset = true` returns a
valid schedule; no run has an out-of-bounds access or throws, and some run completes.  This includes graphs in which
one path visits all nodes, on which the other level sets fail. -/
theorem C127_glc_valid {P : SpmpPar V} (hP : ParOk P) {g : Csc} {rdiv : K → Nat → K} {a : Args K} {nnz : Nat}
    (hO : LevelOracleOk P.spmp P.recip a.cores) (h : ParHyp g rdiv a nnz) (accept : Nat → Nat → Bool) :
    (∀ cc, wpl (glcPar false P rdiv accept cc nnz a) (fun r => r.2.Valid g.n g.Dep)) ∧
    ∃ cc r, glcPar false P rdiv accept cc nnz a = ok r := by
  have hn : a.n = g.n := congrArg Csc.n h.graph
  have hp : a.p = g.p := congrArg Csc.p h.graph
  have hi : a.ix = g.i := congrArg Csc.i h.graph
  obtain ⟨L, ptr, set, ntl, h1, hL⟩ := parLevels_lower hP hO h.wf h.oneDiag h.lower h.pos false
  have hpos : ∀ v, v < g.n → 0 < a.nodeCost.getD v 0 := by
    intro v hv
    refine h.costPos _ ?_
    rw [List.getD_eq_getElem?_getD, List.getElem?_eq_getElem (by rw [h.costLen]; exact hv)]
    exact List.getElem_mem _
  have hspec : ∀ (t : Bool) (cc : Orac),
      (t = true → CCTotal false g L ptr set ntl a.nodeCost cc) →
      wpm t (glcPar false P rdiv accept cc nnz a) (fun r => r.2.Valid g.n g.Dep) := by
    intro t cc hT
    unfold glcPar
    rw [hn, hp, hi, h.nnz, h1, ok_bind]
    unfold glcRest
    simp only [wpm_bind]
    refine wpm_mono (glcLoop_spec h.wf hL (d := ⟨a.n, a.p, a.ix, a.nodeCost, a.cores, rdiv,
      ptr, set, ntl, L⟩) ⟨hn, hp, hi, rfl, rfl, rfl, rfl, h.costLen, hpos,
      h.cores, h.rdiv⟩ a.binPack accept hT) ?_
    rintro s ⟨h1, h2, parts, h3⟩
    simp only [wpm_ok]
    refine Sched.Valid.mono (D := fun u v => g.Dep u v ∧ True) ?_ fun _ _ h => ⟨h, trivial⟩
    refine Built.valid (w := s.base.wm.length - 1) (parts := parts) (S := fun _ _ => True) ?_ rfl h2
    exact ⟨h3.lv, h3.lvLen, h3.pt, h3.ptLen, h3.resp⟩
  refine ⟨fun cc => ?_, ?_⟩
  · have := hspec false cc (by simp)
    rwa [wpm_false] at this
  · obtain ⟨cc, hcc⟩ := exists_ccTotal h.wf hL h.costLen false
    have := hspec true cc (fun _ => hcc)
    rw [wpm_true] at this
    obtain ⟨r, h1, _⟩ := wp_iff.1 this
    exact ⟨cc, r, h1⟩

/-- **C127.** For the graph of a lower triangular matrix, the parallel solve with the schedule of `GLC_V2` with
`parallelLevelset = true` gives the values of the serial solve. -/
theorem C127_glc_end_to_end {W : Type} (A : Arith W) {m : Mat W} (hm : m.LowerCsr) {P : SpmpPar V} (hP : ParOk P)
    {g : Csc} (hg : Mat.SameDeps g m) {rdiv : K → Nat → K} {a : Args K} {nnz : Nat}
    (hO : LevelOracleOk P.spmp P.recip a.cores) (h : ParHyp g rdiv a nnz) {b : List W} (hb : b.length = m.n) :
    ∃ xs, sptrsvCsr A m.n m.p m.i m.x b = ok xs ∧
      ∀ accept cc, wpl (glcPar false P rdiv accept cc nnz a) (fun r =>
        AlwaysGives (fun sch => sptrsvLbc A m.p m.i m.x r.2 sch b) xs) := by
  obtain ⟨xs, hS⟩ := exists_solution (A := A) hm hb
  refine ⟨xs, sptrsvCsr_spec hm hb hS, fun accept cc => ?_⟩
  refine wpl_mono ((C127_glc_valid hP hO h accept).1 cc) fun r hr => ?_
  have hv : r.2.Valid m.n m.RowDep :=
    ⟨hg.1 ▸ hr.ptrs, hg.1 ▸ hr.complete, fun u v huv => hr.respects u v ((hg.2 u v).2 huv)⟩
  obtain ⟨xs', h1, h2⟩ := C06_lbc_solve_eq_serial A hm hv hb
  rw [sptrsvCsr_spec hm hb hS] at h1
  cases h1
  exact h2

/-- **C127.** The levels of the parallel branch are those of `build_levelSet_CSC`: the same number of levels, the same
level for every node, and level `l` of both contains the same nodes; unless one path visits all nodes, for which
`build_levelSet_CSC` fails and the parallel branch gives one level for each node. -/
theorem C127_same_levels {P : SpmpPar V} (hP : ParOk P) {T : Nat} (hO : LevelOracleOk P.spmp P.recip T) {g : Csc}
    (hg : g.WF) (hd : g.OneDiag) (hl : g.Lower) (hpos : 0 < g.n) (debug : Bool) :
    ∃ o L ptr set ntl, buildLevelSet g.n g.p g.i = ok o ∧
      parLevels debug P g.n g.i.length T g.p g.i = ok (L, ptr, set, ntl) ∧
      (∀ v, v < g.n → g.IsDepth v (ntl.getD v 0)) ∧ (∀ l v, l < L → (InLevel ptr set l v ↔ v < g.n ∧ g.IsDepth v l)) ∧
      (o.ret = -1 ↔ L = g.n) ∧ (o.ret ≠ -1 → o.ret = L ∧ o.nodeToLevel = ntl) := by
  obtain ⟨o, ho, hL⟩ := buildLevelSet_ok hg hd
  obtain ⟨o', ho', h4, _⟩ := C04_error_code_exact hg hd
  rw [ho] at ho'
  cases ho'
  obtain ⟨L, ptr, set, ntl, h1, h2⟩ := parLevels_lower hP hO hg hd hl hpos debug
  have hdep : ∀ v, v < g.n → g.IsDepth v (ntl.getD v 0) := by
    intro v hv
    refine ⟨(h2.depth v hv).1, fun m hm => ?_⟩
    by_contra hc
    exact (h2.depth v hv).2 (hm.le hg (by omega))
  have huniq : ∀ v a b, g.IsDepth v a → g.IsDepth v b → a = b := fun v a b ha hb =>
    le_antisymm (hb.2 _ ha.1) (ha.2 _ hb.1)
  have hac : g.Acyclic := by
    intro v hv
    have : ∀ a b, Relation.TransGen g.Dep a b → a < b := by
      intro a b h
      induction h with
      | single h => exact lt_of_le_of_ne (hl a h.1 _ h.2.1) h.2.2
      | tail _ h ih => exact lt_trans ih (lt_of_le_of_ne (hl _ h.1 _ h.2.1) h.2.2)
    exact absurd (this v v hv) (lt_irrefl _)
  have hchain : (∃ v, g.IsDepth v (g.n - 1)) ↔ L = g.n := by
    constructor
    · rintro ⟨v, hv⟩
      by_contra hne
      have := h2.lN
      exact h2.noPath v (hv.1.le hg (by omega))
    · rintro rfl
      obtain ⟨-, v, hv⟩ := h2.top hpos
      refine ⟨v, hv, fun m hm => ?_⟩
      by_contra hc
      exact h2.noPath v (hm.le hg (by omega))
  refine ⟨o, L, ptr, set, ntl, ho, h1, hdep, ?_, ?_, ?_⟩
  · intro l v hll
    constructor
    · rintro ⟨k, ⟨lo, hi, e1, e2, e3, e4⟩, hv⟩
      have hvn : v < g.n := List.mem_range.1 (h2.perm.mem_iff.1 (List.mem_of_getElem? hv))
      have f1 : ptr.getD l 0 = lo := by rw [List.getD_eq_getElem?_getD, e1]; rfl
      have f2 : ptr.getD (l + 1) 0 = hi := by rw [List.getD_eq_getElem?_getD, e2]; rfl
      have := h2.lvl l k hll (by omega) (by omega)
      rw [show set.getD k 0 = v by rw [List.getD_eq_getElem?_getD, hv]; rfl] at this
      exact ⟨hvn, this ▸ hdep v hvn⟩
    · rintro ⟨hvn, hv⟩
      have he := huniq v _ _ hv (hdep v hvn)
      obtain ⟨k, hk⟩ := List.mem_iff_getElem?.1 (h2.perm.mem_iff.2 (List.mem_range.2 hvn))
      obtain ⟨a1, a2, a3, a4⟩ := LevelOk.level_at h2 hk
      rw [← he] at a3 a4
      have := h2.ptrLen
      refine ⟨k, ⟨_, _, ?_, ?_, a3, a4⟩, hk⟩
      · rw [List.getD_eq_getElem?_getD, List.getElem?_eq_getElem (by omega)]; rfl
      · rw [List.getD_eq_getElem?_getD, List.getElem?_eq_getElem (by omega)]; rfl
  · rw [h4, ← hchain]
    constructor
    · rintro (h | h)
      · exact absurd hac h
      · exact h
    · exact .inr
  · intro hne
    rcases hL with ⟨L', hr, hO'⟩ | ⟨hr, _⟩
    · have e1 : L' = L := by
        obtain ⟨a1, v, hv⟩ := h2.top hpos
        obtain ⟨b1, w, hw⟩ := hO'.top hpos
        have c1 : ¬ L' ≤ L - 1 := fun h => hO'.noPath v (hv.le hg h)
        have c2 : ¬ L ≤ L' - 1 := fun h => h2.noPath w (hw.le hg h)
        omega
      refine ⟨by rw [hr, e1], ?_⟩
      refine List.ext_getElem (by rw [hO'.ntlLen, h2.ntlLen]) ?_
      intro v k1 k2
      have hv : v < g.n := by rw [h2.ntlLen] at k2; exact k2
      have := huniq v _ _ ⟨(hO'.depth v hv).1, fun m hm => by
        by_contra hc
        exact (hO'.depth v hv).2 (hm.le hg (by omega))⟩ (hdep v hv)
      simpa [List.getD_eq_getElem?_getD, k1, k2] using this
    · exact absurd hr hne

/-- **C127** (finding): `SpMP` reads an entry of either triangle as a dependence of the larger on the smaller node.  A
dependence of a graph that is not lower triangular is turned around. -/
theorem C127_upper_reversed {P : SpmpPar V} (hP : ParOk P) {T : Nat} (hO : LevelOracleOk P.spmp P.recip T) {g : Csc}
    (hg : g.WF) (hd : g.OneDiag) (debug : Bool) {u v : Nat} (huv : g.Dep u v) (hlt : v < u) :
    ∃ L ptr set ntl, parLevels debug P g.n g.i.length T g.p g.i = ok (L, ptr, set, ntl) ∧
      ∀ lu lv, lu < L → lv < L → InLevel ptr set lu u → InLevel ptr set lv v → lv < lu := by
  obtain ⟨L, ptr, set, ntl, h1, -, -, -, -, -, -, h8, -⟩ := parLevels_run hP hO hg hd
    (by have := huv.1; omega) debug
  exact ⟨L, ptr, set, ntl, h1, fun lu lv a b c d =>
    h8 v u lv lu ⟨hlt, .inr ⟨huv.1, huv.2.1⟩⟩ b a d c⟩

/-- **C127** (finding): `HDAGG` with `parallelLevelset = true` never returns a schedule with the nodes of a non-empty
graph: whatever the value of the variable `nlevels` that is not initialised, the call throws, reads behind the end of
an empty vector, or returns a schedule without any node. -/
theorem C127_hdagg_never {C : Type} [Zero C] [Add C] [_root_.Sub C] [LT C] [DecidableLT C] [DecidableEq C] (debug : Bool)
    (rdiv : C → Nat → C) (accept : Nat → Nat → Bool) (cc cc' : Orac) (nlevels : Int) (a : Args C) (hn : 0 < a.n) :
    (nlevels < 0 → hdaggPar debug rdiv accept cc cc' nlevels a = exn) ∧
    (0 < nlevels → hdaggPar debug rdiv accept cc cc' nlevels a = Res.ub) ∧
    ∀ r, hdaggPar debug rdiv accept cc cc' nlevels a = ok r → r.2.nodes = [] ∧ ¬ r.2.Complete a.n := by
  have hneg : nlevels < 0 → hdaggPar debug rdiv accept cc cc' nlevels a = exn := by
    intro h
    unfold hdaggPar
    rw [if_pos h]
  have hub : 0 < nlevels → hdaggPar debug rdiv accept cc cc' nlevels a = Res.ub := by
    intro h
    unfold hdaggPar
    rw [if_neg (by omega)]
    obtain ⟨k, hk⟩ : ∃ k, nlevels.toNat = k + 1 := ⟨nlevels.toNat - 1, by omega⟩
    rw [hk]
    obtain ⟨d, hd⟩ : ∃ d : Inp C, d = ⟨a.n, a.p, a.ix, a.nodeCost, a.cores, rdiv, [], [], List.replicate a.n 0, k + 1⟩ :=
      ⟨_, rfl⟩
    rw [← hd]
    have hnl : d.nlevels = k + 1 := by rw [hd]
    have hlp : d.levelPtr = [] := by rw [hd]
    have h1 : winStep debug d accept cc 0 0 (winStart d 0 (List.replicate (k + 1) [])) = Res.ub := by
      unfold winStep
      rw [wr_eq (by simp [winStart]), ok_bind, hlp]
      rfl
    have h2 : outStep debug d accept cc ⟨[0], List.replicate (k + 1) [], 0⟩ = Res.ub := by
      unfold outStep
      rw [if_neg (by rintro ⟨-, h⟩; exact h ⟨by omega, by rw [hnl]; exact Nat.succ_pos _⟩)]
      unfold whileF
      show (winStep debug d accept cc 0 0 (winStart d 0 (List.replicate (k + 1) [])) >>= whileF (d.nlevels + 1) _ _)
        >>= _ = _
      rw [h1]
      rfl
    have h3 : windows debug d accept cc = Res.ub := by
      unfold windows
      rw [hnl]
      unfold whileF
      rw [ok_bind, if_pos (by simp), h2]
      rfl
    rw [h3]
    rfl
  refine ⟨hneg, hub, ?_⟩
  intro r hr
  rcases Int.lt_trichotomy nlevels 0 with h | h | h
  · rw [hneg h] at hr; cases hr
  · subst h
    have : r.2.nodes = [] := by
      unfold hdaggPar at hr
      rw [if_neg (by omega)] at hr
      obtain ⟨w, hw, hr⟩ := bind_ok_inv hr
      obtain ⟨s, hs, hr⟩ := bind_ok_inv hr
      cases hr
      have hw' : w = ⟨[0], [], 0⟩ := by
        unfold windows whileF at hw
        cases hw
        rfl
      subst hw'
      unfold computeSchedule at hs
      by_cases hpo : a.postOrder = true
      · rw [if_pos hpo] at hs
        obtain ⟨q, -, hs⟩ := bind_ok_inv hs
        obtain ⟨q', -, hs⟩ := bind_ok_inv hs
        rw [ok_bind] at hs
        cases hs
        rfl
      · rw [if_neg hpo, ok_bind] at hs
        cases hs
        rfl
    refine ⟨this, ?_⟩
    unfold Sched.Complete
    rw [this]
    intro hp
    have := hp.length_eq
    simp at this
    omega
  · rw [hub h] at hr; cases hr

/-- **C127.** The assumption on SpMP can be met, for every number of threads. -/
theorem C127_oracle_exists {W : Type} (recip : W → W) {T : Nat} (hT : 0 < T) :
    ∃ spmp : SpmpMat W → LevelTasks, LevelOracleOk spmp recip T := exists_levelOracle recip hT

/-! ### Non-vacuity -/

/-- Three nodes on one path, on two cores. -/
def chainArgs : Args Int := ⟨3, [0, 2, 4, 5], [0, 1, 1, 2, 2], [1, 2, 3], 2, false, true⟩

/-- The hypotheses of `C127_glc_valid` hold for it, although `GLC_V2` with `parallelLevelset = false` throws. -/
theorem chain_example : ParHyp ⟨3, [0, 2, 4, 5], [0, 1, 1, 2, 2]⟩ ceilDiv chainArgs 5 ∧
    glc false ceilDiv (fun _ _ => true) exOrac chainArgs = exn := by
  refine ⟨⟨rfl, rfl, ⟨rfl, rfl, by decide, by decide, by decide⟩, by unfold OneDiag; decide, by unfold Lower; decide,
    by decide, rfl, by simp [chainArgs], by simp [chainArgs], ceilDiv_ok⟩, by decide +kernel⟩

/-- So the parallel branch has a run that completes on this graph. -/
example : ∃ (P : SpmpPar Int) (cc : Orac) (r : List Nat × Sched),
    glcPar false P ceilDiv (fun _ _ => true) cc 5 chainArgs = ok r ∧ r.2.Complete 3 := by
  obtain ⟨spmp, hO⟩ := C127_oracle_exists (fun v : Int => v) (T := chainArgs.cores) (by decide)
  have hP : ParOk (⟨spmp, fun v => v, List.range, List.range, fun n => List.replicate n 0⟩ : SpmpPar Int) :=
    ⟨fun k => List.Perm.refl _, fun k => List.length_range, fun k => List.length_replicate⟩
  obtain ⟨h1, cc, r, h2⟩ := C127_glc_valid hP hO chain_example.1 (fun _ _ => true)
  have h3 := h1 cc
  rw [h2] at h3
  exact ⟨_, cc, r, h2, h3.complete⟩

/-- A graph that is not lower triangular, `1 → 0`, for `C127_upper_reversed`. -/
example : (⟨2, [0, 1, 3], [0, 0, 1]⟩ : Csc).WF ∧ (⟨2, [0, 1, 3], [0, 0, 1]⟩ : Csc).OneDiag ∧
    (⟨2, [0, 1, 3], [0, 0, 1]⟩ : Csc).Dep 1 0 :=
  ⟨⟨rfl, rfl, by decide, by decide, by decide⟩, by unfold OneDiag; decide, by unfold Dep; decide⟩

end Verif.SpmpH
