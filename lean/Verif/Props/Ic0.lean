import Verif.Proof.Ic0Threads
import Verif.Props.Exec
import Verif.Props.Lbc
import Mathlib.Analysis.Real.Sqrt
import Mathlib.Algebra.BigOperators.Group.Finset.Basic
import Mathlib.Tactic.Ring
import Mathlib.Tactic.Linarith
import Mathlib.Tactic.NormNum

/-!
# C109, C110: incomplete Cholesky kernels

Vocabulary: `Mat.IsIC0` (Verif/Spec/Ic0.lean), `Csc.DiagFirst`, `Csc.Sorted`, `Sched.Valid`,
`AlwaysGives` (Verif/Props/Exec.lean).
-/

namespace Verif.Ic0
open Res Exec

variable {V : Type} {a : Mat V}

theorem tri (hwf : a.WF) (hd : a.pat.DiagFirst) (hs : a.pat.Sorted) : Tri a.pat := ⟨hwf.pat, hd, hs⟩

theorem oneDiag {g : Csc} (hT : Tri g) : g.OneDiag := by
  intro u hu
  have h1 : u ∈ g.col u := List.mem_of_head? (hT.diag u hu)
  exact List.count_eq_one_of_mem (hT.sorted u hu).nodup h1

/-- **C109.** `ic0_csc` on a lower triangular matrix with sorted columns, diagonal first: it ends
without error with the values of the incomplete Cholesky factor, in any arithmetic, the terms being
subtracted for increasing columns; and there is only one such factor. -/
theorem C109_serial (A : IcArith V) (hwf : a.WF) (hd : a.pat.DiagFirst) (hs : a.pat.Sorted) :
    ∃ x, ic0Csc A a.n a.p a.i a.x = ok x ∧ a.IsIC0 A x ∧
      ∀ y, a.IsIC0 A y → ∀ k, k < a.pat.ptr a.n → y[k]? = x[k]? := by
  have hT := tri hwf hd hs
  have hx := hwf.xlen
  obtain ⟨x, h1, h2⟩ := wp_iff.1 (order_wp A hT hx (ord := List.range a.n) List.nodup_range
    (fun c hc => List.mem_range.1 hc) (topo_range hT))
  have h3 := h2.isIC0 hT hx (List.Perm.refl _) (topo_range hT) (.inr rfl)
  refine ⟨x, ?_, h3, fun y hy k hk => isIC0_unique hT hx hy h3 k hk⟩
  unfold ic0Csc
  rw [Util.forRange_eq_forEach, ← h1]

/-- Exact arithmetic. -/
noncomputable def realIc : IcArith ℝ where
  upd a l y := a - l * y
  dv a d := a / d
  root := Real.sqrt

theorem realIc_comm : realIc.Comm := by
  intro v y z y' z'
  simp only [realIc]
  ring

/-- The value of the matrix in column `c` and row `r` (0 if it is not stored). -/
noncomputable def _root_.Verif.Mat.value (m : Mat ℝ) (r c : Nat) : ℝ := (m.ent c r).getD 0

theorem reduced_real (l : Mat ℝ) (j r : Nat) (v : ℝ) :
    l.reduced realIc j r v = v - ∑ i ∈ Finset.range j, l.value j i * l.value r i := by
  have key : ∀ n, (List.range n).foldl (l.reduce1 realIc j r) v =
      v - ∑ i ∈ Finset.range n, l.value j i * l.value r i := by
    intro n
    induction n with
    | zero => simp
    | succ n ih =>
      rw [List.range_succ, List.foldl_append, ih, Finset.sum_range_succ]
      simp only [List.foldl_cons, List.foldl_nil]
      unfold Mat.reduce1 Mat.value
      cases h1 : l.ent n j with
      | none => simp
      | some y =>
        cases h2 : l.ent n r with
        | none => simp
        | some z =>
          simp only [realIc, Option.getD_some]
          ring
  exact key j

/-- **C109, exact arithmetic.** If no diagonal entry of the result is zero (no pivot was zero or
negative), then the product of the factor and its transpose agrees with the matrix at every stored
position. -/
theorem C109_factor {a : Mat ℝ} (hwf : a.WF) (hd : a.pat.DiagFirst) (hs : a.pat.Sorted) :
    ∃ x, ic0Csc realIc a.n a.p a.i a.x = ok x ∧
      ((∀ j, j < a.n → (a.withX x).value j j ≠ 0) → ∀ j r v, j < a.n → a.ent j r = some v →
        ∑ i ∈ Finset.range a.n, (a.withX x).value r i * (a.withX x).value j i = v) := by
  obtain ⟨x, h1, h2, -⟩ := C109_serial realIc hwf hd hs
  refine ⟨x, h1, fun hpos j r v hj hv => ?_⟩
  have hT := tri hwf hd hs
  have hxl : a.pat.ptr a.n ≤ x.length := by rw [h2.len]; exact hwf.xlen
  -- only the columns up to `j` count
  have hcut : ∑ i ∈ Finset.range a.n, (a.withX x).value r i * (a.withX x).value j i =
      ∑ i ∈ Finset.range (j + 1), (a.withX x).value r i * (a.withX x).value j i := by
    symm
    apply Finset.sum_subset
    · intro i hi
      rw [Finset.mem_range] at hi ⊢
      omega
    · intro i hi hni
      rw [Finset.mem_range] at hi hni
      have : (a.withX x).ent i j = none := by
        apply ent_none hT hxl hi
        intro hm
        have : i < j := hT.dep_lt ⟨hi, hm, by omega⟩
        omega
      simp [Mat.value, this]
  rw [hcut, Finset.sum_range_succ]
  have hsum : ∑ i ∈ Finset.range j, (a.withX x).value r i * (a.withX x).value j i =
      ∑ i ∈ Finset.range j, (a.withX x).value j i * (a.withX x).value r i :=
    Finset.sum_congr rfl (fun i _ => mul_comm _ _)
  rw [hsum]
  have hp := hpos j hj
  by_cases hr : r = j
  · subst hr
    have e := h2.diag r v hj hv
    simp only at e
    rw [reduced_real] at e
    obtain ⟨S, hS⟩ : ∃ S, S = ∑ i ∈ Finset.range r, (a.withX x).value r i * (a.withX x).value r i := ⟨_, rfl⟩
    rw [← hS] at e ⊢
    have hval : (a.withX x).value r r = (v - S) / Real.sqrt (v - S) := by
      unfold Mat.value
      rw [e]
      rfl
    rw [hval] at hp ⊢
    have hpos' : 0 < v - S := by
      by_contra hc
      rw [Real.sqrt_eq_zero_of_nonpos (by linarith)] at hp
      simp at hp
    rw [Real.div_sqrt]
    rw [Real.mul_self_sqrt hpos'.le]
    ring
  · obtain ⟨d, e1, e2⟩ := h2.below j r v hj hr hv
    rw [reduced_real] at e2
    obtain ⟨S, hS⟩ : ∃ S, S = ∑ i ∈ Finset.range j, (a.withX x).value j i * (a.withX x).value r i := ⟨_, rfl⟩
    rw [← hS] at e2 ⊢
    have hvd : (a.withX x).value j j = d := by
      unfold Mat.value
      rw [e1]
      rfl
    have hvr : (a.withX x).value r j = (v - S) / d := by
      unfold Mat.value
      rw [e2]
      rfl
    rw [hvd] at hp
    rw [hvd, hvr, div_mul_cancel₀ _ hp]
    ring

/-! ### The parallel kernels -/

/-- **C110 (no data race).** Of two instructions of different parts of a level, either they access
different locations, or both are atomic updates. -/
theorem C110_race_free (hwf : a.WF) (hd : a.pat.DiagFirst) (hs : a.pat.Sorted) {s : Sched}
    (hv : s.Valid a.n a.pat.Dep) (stop : Bool) {l q q' : Nat} (hl : l < s.levels)
    (hq : InBlock s.levelPtr l q) (hq' : InBlock s.levelPtr l q') (hne : q ≠ q') :
    ∃ lo hi lo' hi' c c', s.partPtr[q]? = some lo ∧ s.partPtr[q + 1]? = some hi ∧
      s.partPtr[q']? = some lo' ∧ s.partPtr[q' + 1]? = some hi' ∧
      colsCode stop a.p a.i s.nodes lo hi = ok c ∧ colsCode stop a.p a.i s.nodes lo' hi' = ok c' ∧
      ∀ i ∈ c, ∀ j ∈ c', i.addr ≠ j.addr ∨ (i.atomic = true ∧ j.atomic = true) := by
  have hT := tri hwf hd hs
  have hN := Sched.nestedOk hv (fun u v h => ⟨h.1, (hwf.pat.dep_lt h).2⟩)
  obtain ⟨parts, h1, h2⟩ := hv.ptrs
  rw [h1.inBlock_iff hl] at hq hq'
  have hlm := h1.dle (b := l + 1) hl
  have hlen2 := h2.len
  have get : ∀ k, k < s.partPtr.length → s.partPtr[k]? = some (s.partPtr.getD k 0) := by
    intro k hk
    rw [List.getD_eq_getElem?_getD, List.getElem?_eq_getElem hk]
    rfl
  refine ⟨_, _, _, _, _, _, get q (by omega), get (q + 1) (by omega), get q' (by omega), get (q' + 1) (by omega),
    lbcPart_eq hT stop h2 hv.complete (by omega), lbcPart_eq hT stop h2 hv.complete (by omega), ?_⟩
  intro i hi j hj
  refine level_free hT hN hl (s := q - s.levelPtr.getD l 0) (t := q' - s.levelPtr.getD l 0) (by omega) ?_ ?_ hi hj
  · rw [partsOf, List.getElem?_map, List.getElem?_range' (by omega)]
    simp only [Option.map_some]
    rw [show s.levelPtr.getD l 0 + 1 * (q - s.levelPtr.getD l 0) = q by omega]
  · rw [partsOf, List.getElem?_map, List.getElem?_range' (by omega)]
    simp only [Option.map_some]
    rw [show s.levelPtr.getD l 0 + 1 * (q' - s.levelPtr.getD l 0) = q' by omega]

/-- **C110, `spico_csc_lbc`.** With a valid schedule and an arithmetic in which subtractions commute,
every interleaving gives the values of `ic0_csc`. -/
theorem C110_lbc {A : IcArith V} (hA : A.Comm) (hwf : a.WF) (hd : a.pat.DiagFirst) (hs : a.pat.Sorted)
    {s : Sched} (hv : s.Valid a.n a.pat.Dep) :
    ∃ xs, ic0Csc A a.n a.p a.i a.x = ok xs ∧ a.IsIC0 A xs ∧
      AlwaysGives (fun sch => lbc A a.p a.i s sch a.x) xs := by
  have hT := tri hwf hd hs
  exact levelLoop_spec hA hT hwf.xlen (Sched.nestedOk hv (fun u v h => ⟨h.1, (hwf.pat.dep_lt h).2⟩))
    (lbc_threads hT hv.ptrs hv.complete)

/-- **C110, `spico_csc_levelset`.** -/
theorem C110_levelset {A : IcArith V} (hA : A.Comm) (hwf : a.WF) (hd : a.pat.DiagFirst) (hs : a.pat.Sorted)
    {levels : Nat} {levelPtr levelSet : List Nat} (hp : PtrOk levelPtr levels a.n)
    (hc : levelSet.Perm (List.range a.n))
    (hdep : ∀ u v lu lv, a.pat.Dep u v → lu < levels → lv < levels →
      InLevel levelPtr levelSet lu u → InLevel levelPtr levelSet lv v → lu < lv) :
    ∃ xs, ic0Csc A a.n a.p a.i a.x = ok xs ∧ a.IsIC0 A xs ∧
      AlwaysGives (fun sch => levelset A a.p a.i levels levelPtr levelSet sch a.x) xs := by
  have hT := tri hwf hd hs
  exact levelLoop_spec hA hT hwf.xlen
    (Sched.nestedOk (ofLevels_valid hp hc hdep) (fun u v h => ⟨h.1, (hwf.pat.dep_lt h).2⟩))
    (levelset_threads hT hp hc)

/-- **C110, `spic0_csc_group_lbc`.** `s` is a coarse schedule of groups (`listed` positions), group
`gr` has the columns `groupSet[groupPtr[gr] .. groupPtr[gr+1])`. -/
theorem C110_group_lbc {A : IcArith V} (hA : A.Comm) (hwf : a.WF) (hd : a.pat.DiagFirst) (hs : a.pat.Sorted)
    {s : Sched} {groupPtr groupSet : List Nat} {ngroups listed : Nat}
    (hg : PtrOk groupPtr ngroups groupSet.length) (hcols : ∀ i ∈ groupSet, i < a.n)
    (hp : s.PtrsOk listed) (hlen : listed ≤ s.nodes.length)
    (hgr : ∀ gr ∈ s.nodes.take listed, gr < ngroups)
    (hv : (s.expand groupPtr groupSet).Valid a.n a.pat.Dep) :
    ∃ xs, ic0Csc A a.n a.p a.i a.x = ok xs ∧ a.IsIC0 A xs ∧
      AlwaysGives (fun sch => groupLbc A a.p a.i s groupPtr groupSet sch a.x) xs := by
  have hT := tri hwf hd hs
  have hN := Sched.nestedOk hv (fun u v h => ⟨h.1, (hwf.pat.dep_lt h).2⟩)
  exact levelLoop_spec hA hT hwf.xlen hN (groupLbc_threads hT ⟨hg, hcols, hp, hlen, hgr⟩)

/-- **C110, `spico_csc_group_levelset`.** -/
theorem C110_group_levelset {A : IcArith V} (hA : A.Comm) (hwf : a.WF) (hd : a.pat.DiagFirst) (hs : a.pat.Sorted)
    {levels : Nat} {levelPtr levelSet groupPtr groupSet : List Nat} {ngroups : Nat}
    (hg : PtrOk groupPtr ngroups groupSet.length) (hcols : ∀ i ∈ groupSet, i < a.n)
    (hp : PtrOk levelPtr levels levelSet.length) (hgr : ∀ gr ∈ levelSet, gr < ngroups)
    (hv : ((Sched.ofLevels levels levelPtr levelSet).expand groupPtr groupSet).Valid a.n a.pat.Dep) :
    ∃ xs, ic0Csc A a.n a.p a.i a.x = ok xs ∧ a.IsIC0 A xs ∧
      AlwaysGives (fun sch => groupLevelset A a.p a.i levels levelPtr levelSet groupPtr groupSet sch a.x) xs := by
  have hT := tri hwf hd hs
  exact levelLoop_spec hA hT hwf.xlen (Sched.nestedOk hv (fun u v h => ⟨h.1, (hwf.pat.dep_lt h).2⟩))
    (groupLevelset_threads hT hp hgr hg hcols)

/-- **C110 (end to end, level sets).** With the level set of `build_levelSet_CSC`, whenever it
reports success. -/
theorem C110_levelset_end_to_end {A : IcArith V} (hA : A.Comm) (hwf : a.WF) (hd : a.pat.DiagFirst)
    (hs : a.pat.Sorted) :
    ∃ o xs, LevelSet.buildLevelSet a.n a.p a.i = ok o ∧ ic0Csc A a.n a.p a.i a.x = ok xs ∧ a.IsIC0 A xs ∧
      (0 ≤ o.ret → AlwaysGives (fun sch =>
        levelset A a.p a.i o.ret.toNat o.levelPtr o.levelSet sch a.x) xs) := by
  have hT := tri hwf hd hs
  have hone : a.pat.OneDiag := oneDiag hT
  obtain ⟨o, ho, h⟩ := LevelSet.buildLevelSet_ok hwf.pat hone
  obtain ⟨xs, h1, h2, -⟩ := C109_serial A hwf hd hs
  refine ⟨o, xs, ho, h1, h2, fun h0 => ?_⟩
  rcases h with ⟨L, hL, hlv⟩ | ⟨hr, _⟩
  · have hp : PtrOk o.levelPtr L a.n := PtrOk.mk' hlv.ptrLen hlv.ptr0 hlv.ptrL (fun b hb => le_of_lt (hlv.strict b hb))
    have hdep : ∀ u v lu lv, a.pat.Dep u v → lu < L → lv < L →
        InLevel o.levelPtr o.levelSet lu u → InLevel o.levelPtr o.levelSet lv v → lu < lv := by
      intro u v lu lv hdep g1 g2 g3 g4
      obtain ⟨o', ho', h'⟩ := C02_levels_respect_dependences hwf.pat hone
      rw [ho] at ho'
      cases ho'
      obtain ⟨L', hL', _, h''⟩ := h' h0
      have : L' = L := by omega
      subst this
      exact h'' u v lu lv hdep g1 g2 g3 g4
    obtain ⟨xs', e1, _, e2⟩ := C110_levelset hA hwf hd hs hp hlv.perm hdep
    rw [h1] at e1
    cases e1
    rw [hL, Int.toNat_natCast]
    exact e2
  · omega

/-- **C110 (end to end, LBC).** With the schedule of the parallel LBC inspector on the pattern of the
matrix. -/
theorem C110_lbc_end_to_end {K : Type} [Add K] [LT K] [DecidableLT K] {A : IcArith V} (hA : A.Comm) (hwf : a.WF)
    (hd : a.pat.DiagFirst) (hs : a.pat.Sorted) {P : Lbc.Params K} {minDist divRate : Int} {nodeCost : List K} {lab0 : List Int}
    {assign : List Nat → List (List Nat)} (h : Lbc.LbcHyp a.pat P minDist divRate nodeCost lab0 assign) (zero : K) :
    ∃ xs, ic0Csc A a.n a.p a.i a.x = ok xs ∧ a.IsIC0 A xs ∧
      wpl (Lbc.coarsenParallel P a.n a.p a.i minDist divRate nodeCost zero lab0 assign) (fun s =>
        AlwaysGives (fun sch => lbc A a.p a.i s sch a.x) xs) := by
  obtain ⟨xs, h1, h2, -⟩ := C109_serial A hwf hd hs
  refine ⟨xs, h1, h2, wpl_mono (Lbc.C36_lbc_valid h zero).1 fun s hv => ?_⟩
  obtain ⟨xs', e1, _, e2⟩ := C110_lbc hA hwf hd hs hv
  rw [h1] at e1
  cases e1
  exact e2

/-! ### Examples and limits -/

/-- Lower part of `L * transpose L` for the columns `(2, ., 3, .)`, `(1, 2, .)`, `(2, 1)`, `(3)`. -/
def exIc : Mat Int := ⟨4, [0, 2, 4, 6, 7], [0, 2, 1, 2, 2, 3, 3], [4, 6, 1, 2, 17, 2, 10]⟩

/-- Integers, with the root of small squares. -/
def exIcArith : IcArith Int where
  upd a l y := a - l * y
  dv a d := a / d
  root v := (((List.range 20).find? (fun k => decide ((k * k : Nat) = v))).getD 0 : Nat)

theorem exIcArith_comm : exIcArith.Comm := by
  intro v y z y' z'
  simp only [exIcArith]
  ring

theorem exIc_wf : exIc.WF := ⟨⟨by decide, by decide, by decide, by decide, by decide⟩, by decide⟩
theorem exIc_diag : exIc.pat.DiagFirst := by unfold Csc.DiagFirst; decide
theorem exIc_sorted : exIc.pat.Sorted := by unfold Csc.Sorted; decide

theorem exIc_valid : exSched.Valid exIc.n exIc.pat.Dep := by
  have h := exGraph_sameDeps
  exact ⟨exSched_valid.ptrs, exSched_valid.complete, fun u v huv => exSched_valid.respects u v ((h.2 u v).1 huv)⟩

/-- The hypotheses of C109 and C110 hold for a non-trivial case; the serial result, and an
interleaved run. -/
example : exIc.WF ∧ exIc.pat.DiagFirst ∧ exIc.pat.Sorted ∧ exSched.Valid exIc.n exIc.pat.Dep ∧ exIcArith.Comm ∧
    ic0Csc exIcArith exIc.n exIc.p exIc.i exIc.x = ok [2, 3, 1, 2, 2, 1, 3] ∧
    lbc exIcArith exIc.p exIc.i exSched
      (fun _ => (List.range 100).map (· % 2)) exIc.x = ok [2, 3, 1, 2, 2, 1, 3] ∧
    levelset exIcArith exIc.p exIc.i 3 [0, 2, 3, 4] [1, 0, 2, 3]
      (fun _ => (List.range 100).map (· % 2)) exIc.x = ok [2, 3, 1, 2, 2, 1, 3] ∧
    groupLevelset exIcArith exIc.p exIc.i 2 [0, 2, 3] [0, 1, 2] [0, 1, 2, 4] [0, 1, 2, 3]
      (fun _ => (List.range 100).map (· % 2)) exIc.x = ok [2, 3, 1, 2, 2, 1, 3] ∧
    groupLbc exIcArith exIc.p exIc.i exSched [0, 1, 2, 3, 4] [0, 1, 2, 3]
      (fun _ => (List.range 100).map (· % 2)) exIc.x = ok [2, 3, 1, 2, 2, 1, 3] :=
  ⟨exIc_wf, exIc_diag, exIc_sorted, exIc_valid, exIcArith_comm, by decide +kernel, by decide +kernel,
    by decide +kernel, by decide +kernel, by decide +kernel⟩

/-- The groups of the last two runs meet the hypotheses of C110. -/
example : (Sched.ofLevels 2 [0, 2, 3] [0, 1, 2]).expand [0, 1, 2, 4] [0, 1, 2, 3] = exSched ∧
    exSched.expand [0, 1, 2, 3, 4] [0, 1, 2, 3] = exSched := by decide

/-- `Valid` is needed: with the columns 0 and 2 in one level, some interleaving gives other values. -/
theorem C110_valid_needed : lbc exIcArith exIc.p exIc.i ⟨1, [0, 3], [0, 1, 2, 4], [0, 1, 2, 3]⟩
      (fun _ => List.replicate 40 2 ++ List.replicate 20 0 ++ List.replicate 20 1) exIc.x
      ≠ ic0Csc exIcArith exIc.n exIc.p exIc.i exIc.x := by decide +kernel

/-- An arithmetic in which the order of the subtractions matters, like floating-point numbers. -/
def exOrder : IcArith Nat where
  upd a l _ := 10 * a + l
  dv a _ := a
  root v := v

/-- `Comm` is needed: the atomic updates of the columns 0 and 1 in either order. -/
theorem C110_comm_needed :
    levelset exOrder exIc.p exIc.i 3 [0, 2, 3, 4] [0, 1, 2, 3]
      (fun _ => List.replicate 40 0 ++ List.replicate 40 1) [0, 6, 0, 2, 0, 0, 0] = ok [0, 6, 0, 2, 62, 0, 0] ∧
    levelset exOrder exIc.p exIc.i 3 [0, 2, 3, 4] [0, 1, 2, 3]
      (fun _ => List.replicate 40 1 ++ List.replicate 40 0) [0, 6, 0, 2, 0, 0, 0] = ok [0, 6, 0, 2, 26, 0, 0] := by
  decide +kernel

/-- The hypothesis of `C109_factor` holds for the real matrix with the columns `(4, 2)`, `(2)`. -/
example : ∃ x, ic0Csc realIc 2 [0, 2, 3] [0, 1, 1] [4, 2, 2] = ok x ∧
    (⟨2, [0, 2, 3], [0, 1, 1], x⟩ : Mat ℝ).value 0 0 ≠ 0 ∧ (⟨2, [0, 2, 3], [0, 1, 1], x⟩ : Mat ℝ).value 1 1 ≠ 0 := by
  have h4 : Real.sqrt 4 = 2 := by
    rw [show (4 : ℝ) = 2 ^ 2 by norm_num]
    exact Real.sqrt_sq (by norm_num)
  refine ⟨_, rfl, ?_, ?_⟩
  · show (4 : ℝ) / Real.sqrt 4 ≠ 0
    rw [h4]
    norm_num
  · show ((2 : ℝ) - 2 / (4 / Real.sqrt 4) * (2 / (4 / Real.sqrt 4))) /
      Real.sqrt (2 - 2 / (4 / Real.sqrt 4) * (2 / (4 / Real.sqrt 4))) ≠ 0
    rw [h4]
    norm_num

end Verif.Ic0
