import Verif.Spec.Sched
import Verif.Proof.LevelSetOk

/-!
# C01-C04: level sets (`build_levelSet_CSC`)

`buildLevelSet` (Verif/Model/LevelSet.lean) is the model; `Csc.Dep`, `Csc.PathTo`, `PtrOk`,
`InLevel` (Verif/Spec) are the specification vocabulary.
-/

namespace Verif
open Res LevelSet Csc

variable {g : Csc}

/-- **C01.** The call ends without out-of-bounds access; if it reports `L ≥ 0` levels, the
level pointers are strictly increasing from `0` to `n`, and the level set lists every node
exactly once. -/
theorem C01_levelset_permutation (hwf : g.WF) (hd : g.OneDiag) :
    ∃ o, buildLevelSet g.n g.p g.i = ok o ∧ (0 ≤ o.ret → ∃ L : Nat, o.ret = L ∧
      o.levelPtr[0]? = some 0 ∧ o.levelPtr[L]? = some g.n ∧
      (∀ l, l < L → ∃ a b, o.levelPtr[l]? = some a ∧ o.levelPtr[l + 1]? = some b ∧ a < b) ∧
      o.levelSet.Perm (List.range g.n)) := by
  obtain ⟨o, ho, h⟩ := buildLevelSet_ok hwf hd
  refine ⟨o, ho, fun h0 => ?_⟩
  rcases h with ⟨L, hL, h⟩ | ⟨hr, _⟩
  · refine ⟨L, hL, ?_, ?_, ?_, h.perm⟩
    · rw [h.get_ptr (by omega), h.ptr0]
    · rw [h.get_ptr (Nat.le_refl _), h.ptrL]
    · intro l hl
      have := h.lN
      exact ⟨_, _, h.get_ptr (by omega), h.get_ptr (by omega), h.strict l hl⟩
  · omega

/-- **C02.** In a successful level set every node `v` has exactly one level, `node_to_level[v]`
names it, and for every dependence `u → v` the level of `u` is strictly smaller. -/
theorem C02_levels_respect_dependences (hwf : g.WF) (hd : g.OneDiag) :
    ∃ o, buildLevelSet g.n g.p g.i = ok o ∧ (0 ≤ o.ret → ∃ L : Nat, o.ret = L ∧
      (∀ v, v < g.n → ∃ l, o.nodeToLevel[v]? = some l ∧ l < L ∧
        ∀ m, m < L → (InLevel o.levelPtr o.levelSet m v ↔ m = l)) ∧
      (∀ u v lu lv, g.Dep u v → lu < L → lv < L → InLevel o.levelPtr o.levelSet lu u →
        InLevel o.levelPtr o.levelSet lv v → lu < lv)) := by
  obtain ⟨o, ho, h⟩ := buildLevelSet_ok hwf hd
  refine ⟨o, ho, fun h0 => ?_⟩
  rcases h with ⟨L, hL, h⟩ | ⟨hr, _⟩
  · have hin : ∀ v m, m < L → InLevel o.levelPtr o.levelSet m v → o.nodeToLevel.getD v 0 = m := by
      rintro v m hm ⟨k, ⟨a, b, ha, hb, h1, h2⟩, hk⟩
      have := h.lN
      rw [h.get_ptr (by omega)] at ha hb
      simp only [Option.some.injEq] at ha hb
      have hkv : o.levelSet.getD k 0 = v := by
        rw [List.getD_eq_getElem?_getD, hk]; rfl
      rw [← hkv]
      exact h.lvl m k hm (by omega) (by omega)
    refine ⟨L, hL, fun v hv => ⟨_, h.get_ntl hv, h.ntlLt v hv, fun m hm => ?_⟩, ?_⟩
    · constructor
      · intro hi; exact (hin v m hm hi).symm
      · rintro rfl
        obtain ⟨k, hk, rfl⟩ := h.exists_pos hv
        have hb := h.pos_block hk
        have := h.lN
        exact ⟨k, ⟨_, _, h.get_ptr (by omega), h.get_ptr (by omega), hb.2.1, hb.2.2⟩,
          h.get_set hk⟩
    · intro u v lu lv hdep h1 h2 h3 h4
      rw [← hin u lu h1 h3, ← hin v lv h2 h4]
      exact h.dep_lt hwf hdep
  · omega

/-- **C03.** In a successful level set the level of a node is the number of edges of a longest
dependence path ending in it; the number of levels exceeds the length of every path, and (for
`n > 0`) is one more than the length of some path. -/
theorem C03_levels_longest_path (hwf : g.WF) (hd : g.OneDiag) :
    ∃ o, buildLevelSet g.n g.p g.i = ok o ∧ (0 ≤ o.ret → ∃ L : Nat, o.ret = L ∧
      (∀ v, v < g.n → ∃ l, o.nodeToLevel[v]? = some l ∧ g.IsDepth v l) ∧
      (∀ k v, g.PathTo k v → k < L) ∧ (0 < g.n → ∃ k v, g.PathTo k v ∧ L = k + 1)) := by
  obtain ⟨o, ho, h⟩ := buildLevelSet_ok hwf hd
  refine ⟨o, ho, fun h0 => ?_⟩
  rcases h with ⟨L, hL, h⟩ | ⟨hr, _⟩
  · refine ⟨L, hL, fun v hv => ⟨_, h.get_ntl hv, h.isDepth hwf hv⟩, ?_, ?_⟩
    · intro k v hp
      by_contra hc
      exact h.noPath v (hp.le hwf (by omega))
    · intro hn
      obtain ⟨h1, v, h2⟩ := h.top hn
      exact ⟨L - 1, v, h2, by omega⟩
  · omega

/-- **C04.** The call always ends; its return value is `-1` exactly when the graph is cyclic or
(being non-empty) has a node whose longest incoming path has `n - 1` edges, i.e. every level
would hold a single node; otherwise it is a number of levels smaller than `n` (or `0`
for `n = 0`). -/
theorem C04_error_code_exact (hwf : g.WF) (hd : g.OneDiag) :
    ∃ o, buildLevelSet g.n g.p g.i = ok o ∧
      (o.ret = -1 ↔ ¬ g.Acyclic ∨ ∃ v, g.IsDepth v (g.n - 1)) ∧
      (o.ret ≠ -1 → 0 ≤ o.ret ∧ (o.ret < g.n ∨ g.n = 0)) := by
  obtain ⟨o, ho, h⟩ := buildLevelSet_ok hwf hd
  refine ⟨o, ho, ?_⟩
  rcases h with ⟨L, hL, h⟩ | ⟨hr, v, hv⟩
  · refine ⟨⟨fun hc => by omega, ?_⟩, fun _ => ?_⟩
    · rintro (hc | ⟨v, hv⟩)
      · exfalso
        apply hc
        intro v hv
        obtain ⟨m, h1, h2⟩ := exists_long_of_cycle hv L
        exact h.noPath v (h2.le hwf h1)
      · exfalso
        have hvn := hv.1.lt hwf
        rcases (buildLevelSet_full hwf hd ho hL).1 with h1 | h1
        · exact h.noPath v (hv.1.le hwf (by omega))
        · omega
    · have := (buildLevelSet_full hwf hd ho hL).1
      omega
  · refine ⟨⟨fun _ => ?_, fun _ => hr⟩, fun hc => absurd hr hc⟩
    by_cases ha : g.Acyclic
    · refine .inr ⟨v, hv, fun m hm => ?_⟩
      have := hm.lt_n hwf ha
      omega
    · exact .inl ha

/-! ### Non-vacuity and consequences -/

/-- A graph with edges `0→2, 1→2, 2→3`. -/
def exGraph : Csc := ⟨4, [0, 2, 4, 6, 7], [0, 2, 1, 2, 2, 3, 3]⟩

theorem exGraph_wf : exGraph.WF :=
  ⟨by decide, by decide, by decide, by decide, by decide⟩
theorem exGraph_oneDiag : exGraph.OneDiag := by unfold OneDiag; decide

/-- The hypotheses hold for `exGraph` and the call succeeds with three levels. -/
example : exGraph.WF ∧ exGraph.OneDiag ∧
    buildLevelSet exGraph.n exGraph.p exGraph.i
      = ok ⟨3, [0, 2, 3, 4, 0], [0, 1, 2, 3], [0, 0, 1, 2]⟩ :=
  ⟨exGraph_wf, exGraph_oneDiag, by decide⟩

/-- A chain `0→1→2`: acyclic, but every level is a single node. -/
def exChain : Csc := ⟨3, [0, 2, 4, 5], [0, 1, 1, 2, 2]⟩

/-- The acyclic chain is rejected with `-1` (the surprising half of C04). -/
example : exChain.WF ∧ exChain.OneDiag ∧ exChain.Acyclic ∧
    ∃ o, buildLevelSet exChain.n exChain.p exChain.i = ok o ∧ o.ret = -1 := by
  refine ⟨⟨by decide, by decide, by decide, by decide, by decide⟩, by unfold OneDiag; decide, ?_,
    ⟨_, rfl, by decide⟩⟩
  have hlt : ∀ u v, exChain.Dep u v → u < v := by
    rintro u v ⟨h1, h2, h3⟩
    have h1' : u < 3 := h1
    have : u = 0 ∨ u = 1 ∨ u = 2 := by omega
    rcases this with rfl | rfl | rfl <;> simp [exChain, col, ptr] at h2 <;> omega
  intro v hv
  have : ∀ a b, Relation.TransGen exChain.Dep a b → a < b := by
    intro a b h
    induction h with
    | single h => exact hlt _ _ h
    | tail _ h ih => exact lt_trans ih (hlt _ _ h)
  exact absurd (this v v hv) (lt_irrefl _)

/-- A two-cycle `0→1→0` with an extra node is rejected too. -/
example : ∃ o, buildLevelSet 3 [0, 2, 4, 5] [0, 1, 0, 1, 2] = ok o ∧ o.ret = -1 :=
  ⟨_, rfl, by decide⟩

end Verif
