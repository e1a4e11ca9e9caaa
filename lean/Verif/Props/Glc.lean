import Verif.Proof.Glc
import Verif.Props.Hdagg

/-!
# C18, C19: `GLC_V2` and `build_coarsened_level_parallel`
-/

namespace Verif
open Res hiding ub
open Hdagg LevelSet Csc Exec

/-- **C18.** Every completed run of `GLC_V2` returns a valid schedule (`Sched.Valid`: well-formed
pointers, every node exactly once, all dependences respected), for every outcome of the balance
tests and every interleaving; no run has an out-of-bounds access or throws, and some run
completes. -/
theorem C18_glc_valid {K : Type} [AddCommGroup K] [LinearOrder K] [IsOrderedAddMonoid K] {g : Csc}
    {rdiv : K → Nat → K} {a : Args K} (h : HdaggHyp g rdiv a) (accept : Nat → Nat → Bool) :
    (∀ cc, wpl (glc false rdiv accept cc a) (fun r => r.2.Valid g.n g.Dep)) ∧
    ∃ cc r, glc false rdiv accept cc a = ok r := by
  have hn : a.n = g.n := congrArg Csc.n h.graph
  have hp : a.p = g.p := congrArg Csc.p h.graph
  have hi : a.ix = g.i := congrArg Csc.i h.graph
  obtain ⟨o, ho, hL⟩ := buildLevelSet_ok h.wf h.oneDiag
  obtain ⟨o', ho', h4, _⟩ := C04_error_code_exact h.wf h.oneDiag
  rw [ho] at ho'
  cases ho'
  have hne : o.ret ≠ -1 := by
    intro hc
    rcases h4.1 hc with h5 | h5
    · exact h5 h.acyclic
    · exact h.shallow h5
  rcases hL with ⟨L, hL, hO⟩ | ⟨hr, _⟩
  · have hpos : ∀ v, v < g.n → 0 < a.nodeCost.getD v 0 := by
      intro v hv
      refine h.costPos _ ?_
      rw [List.getD_eq_getElem?_getD, List.getElem?_eq_getElem (by rw [h.costLen]; exact hv)]
      exact List.getElem_mem _
    have hspec : ∀ (t : Bool) (cc : Orac),
        (t = true → CCTotal false g L o.levelPtr o.levelSet o.nodeToLevel a.nodeCost cc) →
        wpm t (glc false rdiv accept cc a) (fun r => r.2.Valid g.n g.Dep) := by
      intro t cc hT
      unfold glc
      rw [show buildLevelSet a.n a.p a.ix = ok o by rw [hn, hp, hi]; exact ho]
      simp only [ok_bind]
      rw [if_neg (by omega), hL, Int.toNat_natCast]
      simp only [wpm_bind]
      refine wpm_mono (glcLoop_spec h.wf hO (d := ⟨a.n, a.p, a.ix, a.nodeCost, a.cores, rdiv,
        o.levelPtr, o.levelSet, o.nodeToLevel, L⟩) ⟨hn, hp, hi, rfl, rfl, rfl, rfl, h.costLen, hpos,
        h.cores, h.rdiv⟩ a.binPack accept hT) ?_
      rintro s ⟨h1, h2, parts, h3⟩
      simp only [wpm_ok]
      refine Sched.Valid.mono (D := fun u v => g.Dep u v ∧ True) ?_ fun _ _ h => ⟨h, trivial⟩
      refine Built.valid (w := s.base.wm.length - 1) (parts := parts) (S := fun _ _ => True) ?_ rfl h2
      exact ⟨h3.lv, h3.lvLen, h3.pt, h3.ptLen, h3.resp⟩
    refine ⟨fun cc => ?_, ?_⟩
    · have := hspec false cc (by simp)
      rwa [wpm_false] at this
    · obtain ⟨cc, hcc⟩ := exists_ccTotal h.wf hO h.costLen false
      have := hspec true cc (fun _ => hcc)
      rw [wpm_true] at this
      obtain ⟨r, h1, _⟩ := wp_iff.1 this
      exact ⟨cc, r, h1⟩
  · exact absurd hr hne

/-- **C19.** For every non-empty acyclic graph with fewer levels than nodes and every coarsening
factor `f` (`f = 0`: plain levels), `build_coarsened_level_parallel` returns a valid
schedule under every interleaving, and some run completes. -/
theorem C19_coarsened_valid_any_factor {g : Csc} (hwf : g.WF) (hd : g.OneDiag) (hac : g.Acyclic)
    (hsh : ¬ ∃ v, g.IsDepth v (g.n - 1)) (hn : 0 < g.n) (f cores : Nat) :
    (∀ cc, wpl (coarsenedWith f false g.n g.p g.i cores cc) (fun s => s.Valid g.n g.Dep)) ∧
    ∃ cc s, coarsenedWith f false g.n g.p g.i cores cc = ok s := by
  obtain ⟨o, ho, hL⟩ := buildLevelSet_ok hwf hd
  obtain ⟨o', ho', h4, _⟩ := C04_error_code_exact hwf hd
  rw [ho] at ho'
  cases ho'
  have hne : o.ret ≠ -1 := by
    intro hc
    rcases h4.1 hc with h5 | h5
    · exact h5 hac
    · exact hsh h5
  rcases hL with ⟨L, hL, hO⟩ | ⟨hr, _⟩
  · have hL0 : 0 < L := by
      rcases Nat.eq_zero_or_pos L with h | h
      · have h1 := hO.ptr0
        have h2 := hO.ptrL
        rw [h, h1] at h2
        omega
      · exact h
    have hspec := fun (t : Bool) (cc : Orac)
      (hT : t = true → SCTotal g L o.levelPtr o.levelSet o.nodeToLevel cc) =>
      coarsenedWith_spec hwf hO hL0 ho hL rfl rfl rfl f cores hT
    refine ⟨fun cc => ?_, ?_⟩
    · have := hspec false cc (by simp)
      rwa [wpm_false] at this
    · obtain ⟨cc, hcc⟩ := exists_scTotal hwf hO
      have := hspec true cc (fun _ => hcc)
      rw [wpm_true] at this
      obtain ⟨r, h1, _⟩ := wp_iff.1 this
      exact ⟨cc, r, h1⟩
  · exact absurd hr hne

/-- **C19**, with the factor chosen by `lbc_config`. -/
theorem C19_coarsened_valid {g : Csc} (hwf : g.WF) (hd : g.OneDiag) (hac : g.Acyclic)
    (hsh : ¬ ∃ v, g.IsDepth v (g.n - 1)) (hn : 0 < g.n) (cores : Nat) :
    (∀ cc, wpl (coarsened false g.n g.p g.i cores cc) (fun s => s.Valid g.n g.Dep)) ∧
    ∃ cc s, coarsened false g.n g.p g.i cores cc = ok s := by
  have hall := fun f => C19_coarsened_valid_any_factor hwf hd hac hsh hn f cores
  have hf : ∃ f, ∀ cc, coarsened false g.n g.p g.i cores cc =
      coarsenedWith f false g.n g.p g.i cores cc := by
    unfold coarsened lbcFactor
    rw [rd_getD 0 (by rw [hwf.plen]; omega)]
    simp only [ok_bind]
    rw [if_neg (by omega)]
    exact ⟨_, fun _ => rfl⟩
  obtain ⟨f, hf⟩ := hf
  refine ⟨fun cc => ?_, ?_⟩
  · rw [hf]; exact (hall f).1 cc
  · obtain ⟨cc, s, hs⟩ := (hall f).2
    exact ⟨cc, s, by rw [hf]; exact hs⟩

/-- Finding: when the level-set computation fails (`-1`: cyclic graph, or a path through all nodes)
and the coarsening factor is positive, `WM` stays empty and `computeSchedule` reads `WM[0]`
out of bounds. -/
theorem C19_chain_out_of_bounds {g : Csc} (hwf : g.WF) (hd : g.OneDiag)
    (hbad : ¬ g.Acyclic ∨ ∃ v, g.IsDepth v (g.n - 1)) {f : Nat} (hf : 0 < f) (debug : Bool)
    (cores : Nat) (cc : Orac) : coarsenedWith f debug g.n g.p g.i cores cc = Res.ub := by
  obtain ⟨o, ho, h4, _⟩ := C04_error_code_exact hwf hd
  unfold coarsenedWith
  rw [ho]
  simp only [ok_bind]
  have hr := h4.2 hbad
  rw [if_pos hf, hr]
  have : coarseMarks f (-1) (g.n + 1) 0 [] = ok [] := by
    unfold coarseMarks
    rw [if_neg (by omega)]
  rw [this]
  simp [computeSchedule]

/-- Finding: an empty graph divides by zero in `lbc_config`. -/
theorem C19_empty_graph_divides_by_zero (debug : Bool) (cores : Nat) (cc : Orac) :
    coarsened debug 0 [0] [] cores cc = Res.ub := rfl

/-! ### Non-vacuity -/

/-- `GLC_V2` on `exGraph` (the hypotheses hold by `exArgs4_hyp`). -/
example : glc false ceilDiv (fun _ _ => true) exOrac (exArgs4 false false) =
      ok ([0, 3], ⟨1, [0, 1], [0, 4], [0, 1, 2, 3]⟩) ∧
    glc false ceilDiv (fun _ _ => false) exOrac (exArgs4 false true) =
      ok ([0, 1, 2, 3], ⟨3, [0, 2, 4, 6], [0, 2, 2, 3, 3, 4, 4], [0, 1, 2, 3]⟩) := by
  decide +kernel

/-- Coarsening of `exGraph` by two levels; plain levels. -/
example : coarsenedWith 2 false 4 exGraph.p exGraph.i 2 exOrac =
      ok ⟨2, [0, 1, 2], [0, 3, 4], [0, 1, 2, 3]⟩ ∧
    coarsened false 4 exGraph.p exGraph.i 2 exOrac =
      ok ⟨3, [0, 1, 2, 3], [0, 2, 3, 4, 0], [0, 1, 2, 3]⟩ := by
  decide +kernel

/-- `exChain` meets the hypothesis of the finding. -/
example : coarsenedWith 6 false exChain.n exChain.p exChain.i 2 exOrac = Res.ub := by
  decide +kernel

end Verif
