import Verif.Proof.Coarsen
import Verif.Spec.Coarsen
import Verif.Props.Merge

/-!
# C80: joining `k` consecutive nodes
-/

namespace Verif
open Res Merge Relation

theorem mem_block {g : Csc} (hg : g.WF) {a b x : Nat} (hab : a ≤ b) (hb : b ≤ g.n) :
    x ∈ slice g.i (g.ptr a) (g.ptr b) ↔ ∃ u, a ≤ u ∧ u < b ∧ x ∈ g.col u := by
  induction b, hab using Nat.le_induction with
  | base =>
    rw [slice_self]
    constructor
    · intro h; exact absurd h (by simp)
    · rintro ⟨u, h1, h2, _⟩; omega
  | succ b hab ih =>
    have h1 : g.ptr a ≤ g.ptr b := hg.mono_le hab (by omega)
    have h2 := hg.mono b (by omega)
    rw [← slice_append h1 h2, List.mem_append, ih (by omega)]
    constructor
    · rintro (⟨u, h1, h2, h3⟩ | h)
      · exact ⟨u, h1, by omega, h3⟩
      · exact ⟨b, hab, by omega, h⟩
    · rintro ⟨u, h1, h2, h3⟩
      rcases Nat.lt_or_ge u b with h | h
      · exact .inl ⟨u, h1, h, h3⟩
      · obtain rfl : u = b := by omega
        exact .inr h3

theorem div_eq_block {k u b n : Nat} (hk : 0 < k) (hu : u < n) :
    u / k = b ↔ b * k ≤ u ∧ u < min (b * k + k) n := by
  have h1 := Nat.div_add_mod u k
  have h2 := Nat.mod_lt u hk
  have h3 := Nat.mul_comm k (u / k)
  constructor
  · rintro rfl; omega
  · rintro ⟨h4, h5⟩
    have e : u = k * b + (u - b * k) := by rw [Nat.mul_comm k b]; omega
    have e2 : (u - b * k) / k = 0 := Nat.div_eq_of_lt (by omega)
    rw [e, Nat.mul_add_div hk, e2, Nat.add_zero]

theorem blocks_eq {n k : Nat} (hk : 0 < k) : blocks n k = (n + k - 1) / k := by
  have h1 := Nat.div_add_mod n k
  have h2 := Nat.mod_lt n hk
  unfold blocks
  split
  · have : n + k - 1 = k * (n / k) + (k - 1) := by omega
    have e2 : (k - 1) / k = 0 := Nat.div_eq_of_lt (by omega)
    rw [this, Nat.mul_add_div hk, e2, Nat.add_zero]
  · have : n + k - 1 = k * (n / k + 1) + (n % k - 1) := by rw [Nat.mul_add, Nat.mul_one]; omega
    have e2 : (n % k - 1) / k = 0 := Nat.div_eq_of_lt (by omega)
    rw [this, Nat.mul_add_div hk, e2, Nat.add_zero]

/-- `coarsen_k_times` neither leaves an array nor stops, with or without the assertions, and gives the
quotient of the graph by blocks of `k` consecutive nodes.  `nnz` of the result is the number of its
edges.  A lower triangular graph stays lower triangular, one diagonal entry in every column stays one,
and a diagonal entry at the front of every column stays there. -/
theorem C80_coarsen {g : Csc} {k nnz : Nat} (hg : g.WF) (hn : 0 < g.n) (hk : 0 < k)
    (hnnz : g.ptr g.n ≤ nnz) (debug : Bool) :
    ∃ h : Csc, coarsen debug g.n nnz g.p g.i k = ok (h.n, h.p, h.i, h.ptr h.n) ∧
      h.WF ∧ h.i.length = nnz ∧ IsCoarse k g h ∧
      (g.Lower → h.Lower) ∧ (g.OneDiag → h.OneDiag) ∧ (g.DiagFirst → h.DiagFirst) := by
  obtain ⟨⟨m, p, i, z⟩, e, hm, hst, hz, hlen⟩ := wp_iff.1 (coarsen_wp hg hn hk debug hnnz)
  dsimp only at hm hst hz hlen
  subst hm
  have hcol : ∀ b, b < blocks g.n k → (⟨blocks g.n k, p, i⟩ : Csc).col b = ccol g k b :=
    fun b hb => hst.col hb
  have hsp : ∀ b, _ := fun b => firsts_spec
    ((blockTo g k b (g.ptr (min (b * k + k) g.n))).map (· / k))
  have hedge : ∀ b, b < blocks g.n k → ∀ c, c ∈ ccol g k b ↔
      ∃ u v, u < g.n ∧ v ∈ g.col u ∧ u / k = b ∧ v / k = c := by
    intro b hb c
    have hb' := (blocks_iff hk).1 hb
    unfold ccol
    rw [(hsp b).2.1, List.mem_map]
    unfold blockTo
    constructor
    · rintro ⟨v, hv, rfl⟩
      obtain ⟨u, h1, h2, h3⟩ := (mem_block hg (by omega) (by omega)).1 hv
      exact ⟨u, v, by omega, h3, (div_eq_block hk (by omega)).2 ⟨h1, h2⟩, rfl⟩
    · rintro ⟨u, v, h1, h2, h3, rfl⟩
      obtain ⟨h4, h5⟩ := (div_eq_block hk h1).1 h3
      exact ⟨v, (mem_block hg (by omega) (by omega)).2 ⟨u, h4, h5, h2⟩, rfl⟩
  have hvn : ∀ u v, u < g.n → v ∈ g.col u → v < g.n := by
    intro u v hu hv
    obtain ⟨q, h1, h2, h3⟩ := (hg.mem_col hu).1 hv
    rw [← h3]; exact hg.idx_lt hu h1 h2
  have hwf : (⟨blocks g.n k, p, i⟩ : Csc).WF := hst.wf (by
    intro b hb c hc
    obtain ⟨u, v, h1, h2, _, rfl⟩ := (hedge b hb c).1 hc
    exact div_lt_blocks hk (hvn u v h1 h2))
  have hptr : z = (⟨blocks g.n k, p, i⟩ : Csc).ptr (blocks g.n k) := by
    rw [hz]; exact (hst.ptr _ (Nat.le_refl _)).symm
  refine ⟨⟨blocks g.n k, p, i⟩, by rw [e, hptr], hwf, hlen,
    ⟨blocks_eq hk, fun b hb => by rw [hcol b hb]; exact (hsp b).1,
      fun b hb => by rw [hcol b hb]; exact hedge b hb⟩, ?_, ?_, ?_⟩
  · intro hl b hb c hc
    rw [hcol b hb, hedge b hb] at hc
    obtain ⟨u, v, h1, h2, rfl, rfl⟩ := hc
    exact Nat.div_le_div_right (hl u h1 v h2)
  · intro ho b hb
    have hb' := (blocks_iff hk).1 hb
    rw [hcol b hb]
    refine List.count_eq_one_of_mem (hsp b).1 ((hedge b hb b).2 ⟨b * k, b * k, hb', ?_, ?_, ?_⟩)
    · have := ho _ hb'
      exact List.count_pos_iff.1 (by omega)
    · exact Nat.mul_div_cancel _ hk
    · exact Nat.mul_div_cancel _ hk
  · intro hd b hb
    have hb' := (blocks_iff hk).1 hb
    rw [hcol b hb]
    unfold ccol
    rw [(hsp b).2.2.1, List.head?_map]
    have h1 : g.ptr (b * k + 1) ≤ g.ptr (min (b * k + k) g.n) := hg.mono_le (by omega) (by omega)
    unfold blockTo
    rw [← slice_append (hg.mono _ hb') h1, List.head?_append]
    have h2 : (slice g.i (g.ptr (b * k)) (g.ptr (b * k + 1))).head? = some (b * k) := hd _ hb'
    rw [h2]
    simp [Nat.mul_div_cancel _ hk]

/-- The dependences of the coarse graph are the dependences between different blocks, so a schedule of
the blocks that respects them respects the dependences of the nodes. -/
theorem C80_dep {g h : Csc} {k : Nat} (hk : 0 < k) (hc : IsCoarse k g h) (a b : Nat) :
    h.Dep a b ↔ a ≠ b ∧ ∃ u v, g.Dep u v ∧ u / k = a ∧ v / k = b := by
  unfold Csc.Dep
  constructor
  · rintro ⟨h1, h2, h3⟩
    obtain ⟨u, v, h4, h5, rfl, rfl⟩ := (hc.edge a h1 b).1 h2
    exact ⟨h3, u, v, ⟨h4, h5, fun h => h3 (by rw [h])⟩, rfl, rfl⟩
  · rintro ⟨h1, u, v, ⟨h2, h3, h4⟩, rfl, rfl⟩
    have hb : u / k < h.n := by
      rw [hc.nodes, ← blocks_eq hk]; exact div_lt_blocks hk h2
    exact ⟨hb, (hc.edge _ hb _).2 ⟨u, v, h2, h3, rfl, rfl⟩, h1⟩

/-- Joining no nodes divides by zero, and a graph without nodes has no pointer array to write to. -/
theorem C80_undefined (debug : Bool) (nnz k : Nat) (p i : List Nat) :
    (∀ n, coarsen debug n nnz p i 0 = ub) ∧ coarsen debug 0 nnz p i k = ub := by
  refine ⟨fun n => by simp [coarsen], ?_⟩
  unfold coarsen
  by_cases h : k = 0
  · rw [if_pos h]
  · rw [if_neg h]
    simp [allocP, wr]
    rfl

/-- A graph of 5 nodes with diagonal: the hypotheses hold and the result is the quotient. -/
def exCoarse : Csc := ⟨5, [0, 3, 5, 7, 9, 10], [0, 2, 3, 1, 3, 2, 4, 3, 4, 4]⟩

example : exCoarse.WF ∧ 0 < exCoarse.n ∧ exCoarse.Lower ∧ exCoarse.OneDiag ∧ exCoarse.DiagFirst ∧
    exCoarse.ptr exCoarse.n ≤ 10 :=
  ⟨by constructor <;> decide, by decide, by unfold Csc.Lower; decide, by unfold Csc.OneDiag; decide,
    by unfold Csc.DiagFirst; decide, by decide⟩

example : coarsen true 5 10 exCoarse.p exCoarse.i 2 =
    ok (3, [0, 2, 4, 5], [0, 1, 1, 2, 2, 0, 0, 0, 0, 0], 5) := by decide +kernel

end Verif
