import Verif.Proof.Graph

/-! Long paths, cycles and depths. -/

namespace Verif
namespace Csc
open Relation

variable {g : Csc}

theorem PathTo.ancestors (h : g.WF) (ha : g.Acyclic) {k v : Nat} (hp : g.PathTo k v) :
    ∃ l : List Nat, l.length = k ∧ l.Nodup ∧ ∀ u ∈ l, u < g.n ∧ TransGen g.Dep u v := by
  induction hp with
  | nil hv => exact ⟨[], rfl, List.nodup_nil, by simp⟩
  | @snoc k u v hp hd ih =>
    obtain ⟨l, h1, h2, h3⟩ := ih
    refine ⟨u :: l, by simp [h1], ?_, ?_⟩
    · rw [List.nodup_cons]
      exact ⟨fun hu => ha u (h3 u hu).2, h2⟩
    · intro w hw
      rcases List.mem_cons.1 hw with rfl | hw
      · exact ⟨(h.dep_lt hd).1, .single hd⟩
      · exact ⟨(h3 w hw).1, .tail (h3 w hw).2 hd⟩

theorem PathTo.lt_n (h : g.WF) (ha : g.Acyclic) {k v : Nat} (hp : g.PathTo k v) : k < g.n := by
  obtain ⟨l, h1, h2, h3⟩ := hp.ancestors h ha
  have hv : v ∉ l := fun hc => ha v (h3 v hc).2
  have h4 : (v :: l).Nodup := List.nodup_cons.2 ⟨hv, h2⟩
  have hsub : (v :: l) ⊆ List.range g.n := by
    intro w hw
    rcases List.mem_cons.1 hw with rfl | hw
    · exact List.mem_range.2 (hp.lt h)
    · exact List.mem_range.2 (h3 w hw).1
  have := (List.subperm_of_subset h4 hsub).length_le
  simp at this
  omega

/-- Following a dependence chain from the end of a path gives a path that is at least as long
plus one. -/
theorem PathTo.trans {u v : Nat} (ht : TransGen g.Dep u v) :
    ∀ {k : Nat}, g.PathTo k u → ∃ m, k < m ∧ g.PathTo m v := by
  induction ht with
  | single hd => intro k hp; exact ⟨k + 1, by omega, .snoc hp hd⟩
  | tail _ hd ih =>
    intro k hp
    obtain ⟨m, h1, h2⟩ := ih hp
    exact ⟨m + 1, by omega, .snoc h2 hd⟩

theorem exists_long_of_cycle {v : Nat} (ht : TransGen g.Dep v v) :
    ∀ k, ∃ m, k ≤ m ∧ g.PathTo m v := by
  intro k
  induction k with
  | zero =>
    have hv : v < g.n := by
      obtain ⟨w, hw⟩ : ∃ w, g.Dep v w := by
        rcases TransGen.head'_iff.1 ht with ⟨w, hw, _⟩
        exact ⟨w, hw⟩
      exact hw.1
    exact ⟨0, le_refl _, .nil hv⟩
  | succ k ih =>
    obtain ⟨m, h1, h2⟩ := ih
    obtain ⟨m', h3, h4⟩ := PathTo.trans ht h2
    exact ⟨m', by omega, h4⟩

/-- Every node of an acyclic graph has a depth. -/
theorem exists_depth (h : g.WF) (ha : g.Acyclic) {v : Nat} (hv : v < g.n) :
    ∃ k, g.IsDepth v k := by
  classical
  have hb : ∀ k, g.PathTo k v → k ≤ g.n := fun k hk => le_of_lt (hk.lt_n h ha)
  refine ⟨Nat.findGreatest (fun k => g.PathTo k v) g.n, ?_, ?_⟩
  · exact Nat.findGreatest_spec (P := fun k => g.PathTo k v) (Nat.zero_le _) (PathTo.nil hv)
  · intro m hm
    exact Nat.le_findGreatest (hb m hm) hm

/-- Nodes of every smaller depth occur on a deepest path. -/
theorem exists_exact_depth {L : Nat} :
    ∀ d v, g.PathTo (L - 1 - d) v → d < L →
      ¬ g.PathTo (L - d) v → ∀ l, l + d < L → ∃ u, g.PathTo l u ∧ ¬ g.PathTo (l + 1) u := by
  intro d v hp hd hn l hl
  obtain ⟨e, he⟩ : ∃ e, l + e = L - 1 - d := ⟨L - 1 - d - l, by omega⟩
  induction e generalizing d v with
  | zero =>
    refine ⟨v, by rw [show l = L - 1 - d by omega]; exact hp, ?_⟩
    rw [show l + 1 = L - d by omega]; exact hn
  | succ e ih =>
    rw [show L - 1 - d = (L - 1 - (d + 1)) + 1 by omega] at hp
    obtain ⟨u, h1, h2⟩ := pathTo_succ.1 hp
    refine ih (d + 1) u h1 (by omega) ?_ (by omega) (by omega)
    intro hc
    apply hn
    rw [show L - d = (L - (d + 1)) + 1 by omega]
    exact .snoc hc h2

end Csc
end Verif
