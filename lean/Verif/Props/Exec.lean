import Verif.Proof.ExecGroup
import Verif.Proof.ExecSeq
import Verif.Props.LevelSet

/-!
# C05-C07, C09: parallel triangular solvers

Vocabulary: `Mat.LowerCsr`, `Mat.RowDep` (Verif/Spec/Mat.lean), `Sched.Valid`, `PtrOk`,
`InLevel`, `Sched.expand` (Verif/Spec/Sched.lean).  A solver run is `ok x` (finished),
`nofuel` (the given scheduler did not let every thread finish) or an error; "every
execution gives `xs`" is stated as: for every scheduler the outcome is `ok xs` or
`nofuel`, and some scheduler gives `ok xs`.
-/

namespace Verif
open Res Exec

variable {V : Type}

/-- Every execution of a parallel run ends without error in `xs`, and there is one that ends. -/
def AlwaysGives (run : (Nat → List Nat) → Res (List V)) (xs : List V) : Prop :=
  (∀ sch, run sch = ok xs ∨ run sch = nofuel) ∧ ∃ sch, run sch = ok xs

theorem AlwaysGives.of_wpl {run : (Nat → List Nat) → Res (List V)} {xs : List V}
    (h : (∀ sch, wpl (run sch) (fun y => y = xs)) ∧ ∃ sch, run sch = ok xs) :
    AlwaysGives run xs := by
  refine ⟨fun sch => ?_, h.2⟩
  rcases wpl_iff.1 (h.1 sch) with h' | ⟨a, h', rfl⟩
  · exact .inr h'
  · exact .inl h'

/-- **C05.** `sptrsv_csr_levelset` with a level set that lists every row once and puts every row
in a later level than the rows it uses gives the values of `sptrsv_csr`, for every
interleaving. -/
theorem C05_levelset_solve_eq_serial (A : Arith V) {m : Mat V} (hm : m.LowerCsr)
    {levels : Nat} {levelPtr levelSet : List Nat} (hp : PtrOk levelPtr levels m.n)
    (hc : levelSet.Perm (List.range m.n))
    (hd : ∀ u v lu lv, m.RowDep u v → lu < levels → lv < levels →
      InLevel levelPtr levelSet lu u → InLevel levelPtr levelSet lv v → lu < lv)
    {b : List V} (hb : b.length = m.n) :
    ∃ xs, sptrsvCsr A m.n m.p m.i m.x b = ok xs ∧
      AlwaysGives (fun sch => sptrsvLevelset A m.p m.i m.x levels levelPtr levelSet sch b) xs := by
  obtain ⟨xs, hS⟩ := exists_solution (A := A) hm hb
  have hR := LowerCsr.rowsOk hm
  refine ⟨xs, sptrsvCsr_spec hm hb hS, .of_wpl ?_⟩
  have hval := ofLevels_valid hp hc hd
  exact levelLoop_spec hR hS hb
    (Sched.nestedOk hval (fun u v h => RowDep.lt hR h)) (levelset_threads hR hp hc)

/-- **C05 (end to end).** The same with the level set that `build_levelSet_CSC` computes for the
graph of the matrix, whenever it reports success. -/
theorem C05_levelset_solve_end_to_end (A : Arith V) {m : Mat V} (hm : m.LowerCsr) {g : Csc}
    (hwf : g.WF) (hdiag : g.OneDiag) (hsame : Mat.SameDeps g m)
    {b : List V} (hb : b.length = m.n) :
    ∃ o xs, LevelSet.buildLevelSet g.n g.p g.i = ok o ∧
      sptrsvCsr A m.n m.p m.i m.x b = ok xs ∧
      (0 ≤ o.ret → AlwaysGives (fun sch =>
        sptrsvLevelset A m.p m.i m.x o.ret.toNat o.levelPtr o.levelSet sch b) xs) := by
  obtain ⟨o, ho, h⟩ := LevelSet.buildLevelSet_ok hwf hdiag
  obtain ⟨xs, hS⟩ := exists_solution (A := A) hm hb
  refine ⟨o, xs, ho, sptrsvCsr_spec hm hb hS, fun h0 => ?_⟩
  rcases h with ⟨L, hL, hlv⟩ | ⟨hr, _⟩
  · have hp : PtrOk o.levelPtr L m.n := by
      rw [← hsame.1]
      exact PtrOk.mk' hlv.ptrLen hlv.ptr0 hlv.ptrL
        (fun b hb => le_of_lt (hlv.strict b hb))
    have hc : o.levelSet.Perm (List.range m.n) := by rw [← hsame.1]; exact hlv.perm
    have hd : ∀ u v lu lv, m.RowDep u v → lu < L → lv < L →
        InLevel o.levelPtr o.levelSet lu u → InLevel o.levelPtr o.levelSet lv v → lu < lv := by
      intro u v lu lv hdep h1 h2 h3 h4
      obtain ⟨o', ho', h'⟩ := C02_levels_respect_dependences hwf hdiag
      rw [ho] at ho'
      cases ho'
      obtain ⟨L', hL', _, h''⟩ := h' h0
      have : L' = L := by omega
      subst this
      exact h'' u v lu lv ((hsame.2 u v).2 hdep) h1 h2 h3 h4
    obtain ⟨xs', h1, h2⟩ := C05_levelset_solve_eq_serial A hm hp hc hd hb
    rw [sptrsvCsr_spec hm hb hS] at h1
    cases h1
    rw [hL, Int.toNat_natCast]
    exact h2
  · omega

/-- **C05, sequential variant.** `sptrsv_csr_levelset_seq` with a valid level set gives the values
of `sptrsv_csr`. -/
theorem C05_levelset_seq_eq_serial (A : Arith V) {m : Mat V} (hm : m.LowerCsr)
    {levels : Nat} {levelPtr levelSet : List Nat} (hp : PtrOk levelPtr levels m.n)
    (hc : levelSet.Perm (List.range m.n))
    (hd : ∀ u v lu lv, m.RowDep u v → lu < levels → lv < levels →
      InLevel levelPtr levelSet lu u → InLevel levelPtr levelSet lv v → lu < lv)
    {b : List V} (hb : b.length = m.n) :
    ∃ xs, sptrsvCsr A m.n m.p m.i m.x b = ok xs ∧
      sptrsvLevelsetSeq A m.p m.i m.x levels levelPtr levelSet b = ok xs := by
  obtain ⟨xs, hS⟩ := exists_solution (A := A) hm hb
  exact ⟨xs, sptrsvCsr_spec hm hb hS,
    sptrsvLevelsetSeq_spec hm hp (ofLevels_valid hp hc hd) hb hS⟩

/-- **C06.** `sptrsv_csr_lbc` with any valid coarse schedule gives the values of `sptrsv_csr`,
for every interleaving of the parts of each coarse level. -/
theorem C06_lbc_solve_eq_serial (A : Arith V) {m : Mat V} (hm : m.LowerCsr) {s : Sched}
    (hs : s.Valid m.n m.RowDep) {b : List V} (hb : b.length = m.n) :
    ∃ xs, sptrsvCsr A m.n m.p m.i m.x b = ok xs ∧
      AlwaysGives (fun sch => sptrsvLbc A m.p m.i m.x s sch b) xs := by
  obtain ⟨xs, hS⟩ := exists_solution (A := A) hm hb
  have hR := LowerCsr.rowsOk hm
  refine ⟨xs, sptrsvCsr_spec hm hb hS, .of_wpl ?_⟩
  exact levelLoop_spec hR hS hb (Sched.nestedOk hs (fun u v h => RowDep.lt hR h))
    (lbc_threads hR hs.ptrs hs.complete)

/-- **C06, sequential variant.** `sptrsv_csr_lbc_seq` with any valid coarse schedule gives the
values of `sptrsv_csr`. -/
theorem C06_lbc_seq_eq_serial (A : Arith V) {m : Mat V} (hm : m.LowerCsr) {s : Sched}
    (hs : s.Valid m.n m.RowDep) {b : List V} (hb : b.length = m.n) :
    ∃ xs, sptrsvCsr A m.n m.p m.i m.x b = ok xs ∧ sptrsvLbcSeq A m.p m.i m.x s b = ok xs := by
  obtain ⟨xs, hS⟩ := exists_solution (A := A) hm hb
  exact ⟨xs, sptrsvCsr_spec hm hb hS, sptrsvLbcSeq_spec hm hs hb hS⟩

/-- **C07.** In a valid schedule, for two different parts `q`, `q'` of one coarse level, no
location written by the thread of `q` is read or written by the thread of `q'`. -/
theorem C07_no_data_race {m : Mat V} (hm : m.LowerCsr) {s : Sched}
    (hs : s.Valid m.n m.RowDep) {l q q' : Nat} (hl : l < s.levels)
    (hq : InBlock s.levelPtr l q) (hq' : InBlock s.levelPtr l q') (hne : q ≠ q') :
    ∃ c c', lbcThread m.p m.i m.x s q = ok c ∧ lbcThread m.p m.i m.x s q' = ok c' ∧
      ∀ a ∈ writes c, a ∉ touched c' := by
  have hR := LowerCsr.rowsOk hm
  have hN := Sched.nestedOk hs (fun u v h => RowDep.lt hR h)
  obtain ⟨parts, h1, h2⟩ := hs.ptrs
  rw [h1.inBlock_iff hl] at hq hq'
  have hlm := h1.dle (b := l + 1) hl
  refine ⟨_, _, lbcThread_eq hR h2 hs.complete (by omega),
    lbcThread_eq hR h2 hs.complete (by omega), ?_⟩
  have hpre := nestedRows_mono (parts := partsOf s) (a := l + 1) (b := s.levels) hl
  have hnd := hN.perm.nodup_iff.2 List.nodup_range
  rw [nestedRows_succ] at hpre
  have hrf := raceFree_level hR (hnd.sublist hpre.sublist) (by
    intro P hP i hi
    have : i ∈ nestedRows (partsOf s) s.levels :=
      hpre.subset (List.mem_append_right _ (List.mem_flatten.2 ⟨P, hP, hi⟩))
    exact List.mem_range.1 (hN.perm.mem_iff.1 this)) (hN.dep l hl)
  refine hrf (q - s.levelPtr.getD l 0) (q' - s.levelPtr.getD l 0) _ _ ?_ ?_ (by omega)
  · rw [List.getElem?_map, partsOf, List.getElem?_map, List.getElem?_range' (by omega)]
    simp only [Option.map_some]
    rw [show s.levelPtr.getD l 0 + 1 * (q - s.levelPtr.getD l 0) = q by omega]
  · rw [List.getElem?_map, partsOf, List.getElem?_map, List.getElem?_range' (by omega)]
    simp only [Option.map_some]
    rw [show s.levelPtr.getD l 0 + 1 * (q' - s.levelPtr.getD l 0) = q' by omega]

/-- **C09 (`sptrsv_csr_group_lbc`).** `s` is a coarse schedule of groups (`listed` positions),
group `gr` has the rows `groupSet[groupPtr[gr] .. groupPtr[gr+1])`. -/
theorem C09_group_lbc_eq_serial (A : Arith V) {m : Mat V} (hm : m.LowerCsr) {s : Sched}
    {groupPtr groupSet : List Nat} {ngroups listed : Nat}
    (hg : PtrOk groupPtr ngroups groupSet.length) (hrows : ∀ i ∈ groupSet, i < m.n)
    (hp : s.PtrsOk listed) (hlen : listed ≤ s.nodes.length)
    (hgr : ∀ gr ∈ s.nodes.take listed, gr < ngroups)
    (hs : (s.expand groupPtr groupSet).Valid m.n m.RowDep)
    {b : List V} (hb : b.length = m.n) :
    ∃ xs, sptrsvCsr A m.n m.p m.i m.x b = ok xs ∧
      AlwaysGives (fun sch => sptrsvGroupLbc A m.p m.i m.x s groupPtr groupSet sch b) xs := by
  obtain ⟨xs, hS⟩ := exists_solution (A := A) hm hb
  have hR := LowerCsr.rowsOk hm
  refine ⟨xs, sptrsvCsr_spec hm hb hS, .of_wpl ?_⟩
  have hN := Sched.nestedOk hs (fun u v h => RowDep.lt hR h)
  exact levelLoop_spec hR hS hb hN (groupLbc_threads hR ⟨hg, hrows, hp, hlen, hgr⟩)

/-- **C09 (`sptrsv_csr_group_levelset`, `fs_csr_executor_sgroup`).** -/
theorem C09_group_levelset_eq_serial (A : Arith V) {m : Mat V} (hm : m.LowerCsr)
    {levels : Nat} {levelPtr levelSet groupPtr groupSet : List Nat} {ngroups : Nat}
    (hg : PtrOk groupPtr ngroups groupSet.length) (hrows : ∀ i ∈ groupSet, i < m.n)
    (hp : PtrOk levelPtr levels levelSet.length) (hgr : ∀ gr ∈ levelSet, gr < ngroups)
    (hs : ((Sched.ofLevels levels levelPtr levelSet).expand groupPtr groupSet).Valid m.n m.RowDep)
    {b : List V} (hb : b.length = m.n) :
    ∃ xs, sptrsvCsr A m.n m.p m.i m.x b = ok xs ∧
      AlwaysGives (fun sch => sptrsvGroupLevelset A m.p m.i m.x levels levelPtr levelSet
        groupPtr groupSet sch b) xs := by
  obtain ⟨xs, hS⟩ := exists_solution (A := A) hm hb
  have hR := LowerCsr.rowsOk hm
  refine ⟨xs, sptrsvCsr_spec hm hb hS, .of_wpl ?_⟩
  exact levelLoop_spec hR hS hb (Sched.nestedOk hs (fun u v h => RowDep.lt hR h))
    (groupLevelset_threads hR hp hgr hg hrows)

/-! ### Non-vacuity -/

/-- CSR rows `[2]`, `[3]`, `[1 1 4]`, `[. . 5 6]`: the matrix whose graph is `exGraph`. -/
def exMat : Mat Int := ⟨4, [0, 1, 2, 5, 7], [0, 1, 0, 1, 2, 2, 3], [2, 3, 1, 1, 4, 5, 6]⟩

theorem exMat_lower : exMat.LowerCsr := by
  refine ⟨⟨⟨by decide, by decide, by decide, by decide, by decide⟩, by decide⟩, ?_, ?_⟩
  · intro r hr
    have : r < 4 := hr
    have : r = 0 ∨ r = 1 ∨ r = 2 ∨ r = 3 := by omega
    rcases this with rfl | rfl | rfl | rfl
    · exact ⟨2, by decide⟩
    · exact ⟨3, by decide⟩
    · exact ⟨4, by decide⟩
    · exact ⟨6, by decide⟩
  · show ∀ r, r < 4 → _
    decide

/-- Two coarse levels: parts `{0}`, `{1}`, then one part `2, 3`. -/
def exSched : Sched := ⟨2, [0, 2, 3], [0, 1, 2, 4], [0, 1, 2, 3]⟩

theorem exMat_rowDep {u v : Nat} (h : exMat.RowDep u v) :
    (u = 0 ∧ v = 2) ∨ (u = 1 ∧ v = 2) ∨ (u = 2 ∧ v = 3) := by
  obtain ⟨hv, l, hl⟩ := h
  have hv : v < 4 := hv
  have : v = 0 ∨ v = 1 ∨ v = 2 ∨ v = 3 := by omega
  rcases this with rfl | rfl | rfl | rfl <;>
    simp [exMat, Mat.off, Mat.row, Mat.pat, Csc.ptr] at hl <;> omega

theorem exSched_valid : exSched.Valid exMat.n exMat.RowDep := by
  refine ⟨⟨3, PtrOk.mk' (by decide) (by decide) (by decide) (by decide),
    PtrOk.mk' (by decide) (by decide) (by decide) (by decide)⟩, by
      show ([0, 1, 2, 3] : List Nat).Perm (List.range 4); decide, ?_⟩
  have p1 : PtrOk exSched.levelPtr 2 3 :=
    PtrOk.mk' (by decide) (by decide) (by decide) (by decide)
  have p2 : PtrOk exSched.partPtr 3 4 :=
    PtrOk.mk' (by decide) (by decide) (by decide) (by decide)
  have at_ : ∀ v l q k, exSched.At v l q k → v = k ∧
      ((l = 0 ∧ q = 0 ∧ k = 0) ∨ (l = 0 ∧ q = 1 ∧ k = 1) ∨
       (l = 1 ∧ q = 2 ∧ 2 ≤ k ∧ k < 4)) := by
    rintro v l q k ⟨h1, h2, h3, h4⟩
    have h1' : l < 2 := h1
    rw [p1.inBlock_iff h1'] at h2
    have hq : q < 3 := by
      have : l = 0 ∨ l = 1 := by omega
      rcases this with rfl | rfl <;> simp [exSched] at h2 <;> omega
    rw [p2.inBlock_iff hq] at h3
    have hk : k < 4 := by
      have := p2.dle (b := q + 1) hq
      omega
    have : exSched.nodes[k]? = some k := by
      have : k = 0 ∨ k = 1 ∨ k = 2 ∨ k = 3 := by omega
      rcases this with rfl | rfl | rfl | rfl <;> rfl
    rw [this] at h4
    refine ⟨by simpa using h4.symm, ?_⟩
    have hl : l = 0 ∨ l = 1 := by omega
    have hq' : q = 0 ∨ q = 1 ∨ q = 2 := by omega
    rcases hl with rfl | rfl <;> rcases hq' with rfl | rfl | rfl <;>
      simp [exSched] at h2 h3 <;> omega
  intro u v huv l q k l' q' k' hu hv
  have h1 := at_ u l q k hu
  have h2 := at_ v l' q' k' hv
  rcases exMat_rowDep huv with h | h | h <;> omega

/-- Exact integer arithmetic for the examples. -/
def exArith : Arith Int := ⟨fun a l y => a - l * y, fun a d => a / d⟩

/-- The hypotheses of C06/C07 hold for a non-trivial case; serial result and one
interleaved run. -/
example : exMat.LowerCsr ∧ exSched.Valid exMat.n exMat.RowDep ∧
    sptrsvCsr exArith 4 exMat.p exMat.i exMat.x [2, 3, 6, 11] = ok [1, 1, 1, 1] ∧
    sptrsvLbc exArith exMat.p exMat.i exMat.x exSched
      (fun l => if l = 0 then [1, 0, 1, 0] else List.replicate 20 0) [2, 3, 6, 11]
      = ok [1, 1, 1, 1] :=
  ⟨exMat_lower, exSched_valid, by decide, by decide⟩

/-- The sequential variants on the same schedule and on the level set of `exMat`. -/
example : sptrsvLbcSeq exArith exMat.p exMat.i exMat.x exSched [2, 3, 6, 11] = ok [1, 1, 1, 1] ∧
    sptrsvLevelsetSeq exArith exMat.p exMat.i exMat.x 3 [0, 2, 3, 4] [0, 1, 2, 3] [2, 3, 6, 11]
      = ok [1, 1, 1, 1] := by decide

/-- C07's hypotheses hold for the parts 0 and 1 of coarse level 0. -/
example : InBlock exSched.levelPtr 0 0 ∧ InBlock exSched.levelPtr 0 1 :=
  ⟨⟨0, 2, rfl, rfl, by decide, by decide⟩, ⟨0, 2, rfl, rfl, by decide, by decide⟩⟩

/-- An invalid schedule (rows 2 and 0 in parallel) has an execution with another result,
so the hypothesis `Valid` of C06 is needed. -/
example : sptrsvLbc exArith exMat.p exMat.i exMat.x ⟨1, [0, 3], [0, 1, 2, 4], [0, 1, 2, 3]⟩
      (fun _ => List.replicate 20 2 ++ [0, 0, 1, 1]) [2, 3, 6, 11] = ok [1, 1, 0, 1] := by
  decide

/-- `exGraph` is the dependence graph of `exMat` (hypothesis of C05 end to end). -/
theorem exGraph_sameDeps : Mat.SameDeps exGraph exMat := by
  refine ⟨rfl, fun u v => ⟨?_, ?_⟩⟩
  · rintro ⟨h1, h2, h3⟩
    have h1' : u < 4 := h1
    have : u = 0 ∨ u = 1 ∨ u = 2 ∨ u = 3 := by omega
    rcases this with rfl | rfl | rfl | rfl <;> simp [exGraph, Csc.col, Csc.ptr] at h2
    · have : v = 2 := by omega
      subst this; exact ⟨by decide, 1, by decide⟩
    · have : v = 2 := by omega
      subst this; exact ⟨by decide, 1, by decide⟩
    · have : v = 3 := by omega
      subst this; exact ⟨by decide, 5, by decide⟩
    · omega
  · intro h
    rcases exMat_rowDep h with ⟨rfl, rfl⟩ | ⟨rfl, rfl⟩ | ⟨rfl, rfl⟩ <;>
      exact ⟨by decide, by decide, by decide⟩

/-- A grouped run: groups `{0}`, `{1}`, `{2,3}`. -/
example : sptrsvGroupLevelset exArith exMat.p exMat.i exMat.x 2 [0, 2, 3] [0, 1, 2]
      [0, 1, 2, 4] [0, 1, 2, 3] (fun _ => List.replicate 10 1 ++ List.replicate 20 0)
      [2, 3, 6, 11] = ok [1, 1, 1, 1] ∧
    (Sched.ofLevels 2 [0, 2, 3] [0, 1, 2]).expand [0, 1, 2, 4] [0, 1, 2, 3] = exSched := by
  decide

end Verif
