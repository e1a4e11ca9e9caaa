import Verif.Model.LbcBlocked
import Verif.Proof.GroupDag

/-! # Graphs of matrices stored by blocks -/

namespace Verif

/-! ### A graph from its columns -/

/-- The graph with the columns `c 0, …, c (n-1)`. -/
def Csc.ofFun (n : Nat) (c : Nat → List Nat) : Csc :=
  ⟨n, (List.range (n + 1)).map fun k => ((List.range k).map c).flatten.length,
    ((List.range n).map c).flatten⟩

namespace Csc
variable {n : Nat} {c : Nat → List Nat}

theorem ofFun_ptr {k : Nat} (hk : k ≤ n) :
    (ofFun n c).ptr k = ((List.range k).map c).flatten.length := by
  unfold ptr ofFun
  dsimp only
  rw [List.getD_eq_getElem?_getD, List.getElem?_map, List.getElem?_range (by omega)]
  rfl

theorem ofFun_col {u : Nat} (hu : u < n) : (ofFun n c).col u = c u := by
  unfold col
  rw [ofFun_ptr (by omega), ofFun_ptr (by omega)]
  have h := Group.slice_flatten ((List.range n).map c) (k := u) (by simpa using hu)
  rw [← List.map_take, ← List.map_take, List.take_range, List.take_range, Nat.min_eq_left (by omega),
    Nat.min_eq_left (by omega), slice] at h
  refine h.trans ?_
  rw [List.getD_eq_getElem?_getD, List.getElem?_map, List.getElem?_range hu]
  rfl

theorem ofFun_wf (h : ∀ u, u < n → ∀ v ∈ c u, v < n) : (ofFun n c).WF := by
  refine ⟨by simp [ofFun], by rw [ofFun_ptr (Nat.zero_le _)]; simp, ?_, ?_, ?_⟩
  · intro u hu
    have hu : u < n := hu
    rw [ofFun_ptr (by omega), ofFun_ptr (by omega), List.range_succ, List.map_append,
      List.flatten_append, List.length_append]
    omega
  · rw [show (ofFun n c).n = n from rfl, ofFun_ptr (Nat.le_refl _)]
    exact Nat.le_refl _
  · intro u hu v hv
    have hu : u < n := hu
    rw [ofFun_col hu] at hv
    exact h u hu v hv

/-- A loop over a column. -/
theorem WF.loop_col {g : Csc} (h : g.WF) {σ : Type} (f : Nat → σ → Res σ) {u : Nat} (hu : u < g.n)
    (s : σ) : forRange (g.ptr u) (g.ptr (u + 1)) (fun j s => do
      let v ← rd g.i j
      f v s) s = forEach (g.col u) f s :=
  forRange_slice g.i f s (h.mono u hu) (h.ptr_le (a := u + 1) (by omega))

end Csc

namespace BlockCsc
open Res Csc
variable {M : BlockCsc}

/-! ### Blocks -/

/-- The block of row `r`. -/
def blkOf (M : BlockCsc) (r : Nat) : Nat := M.blk.getD r 0

theorem WF.lo_le (h : M.WF) {a b : Nat} (hab : a ≤ b) (hb : b ≤ M.n) : M.lo a ≤ M.lo b := by
  induction b with
  | zero => obtain rfl : a = 0 := by omega
            exact Nat.le_refl _
  | succ b ih =>
    rcases Nat.lt_or_ge a (b + 1) with h1 | h1
    · exact Nat.le_trans (ih (by omega) (by omega)) (h.strict b (by omega)).le
    · obtain rfl : a = b + 1 := by omega
      exact Nat.le_refl _

theorem WF.base_le (h : M.WF) {a b : Nat} (hab : a ≤ b) (hb : b ≤ M.n) : M.base a ≤ M.base b := by
  induction b with
  | zero => obtain rfl : a = 0 := by omega
            exact Nat.le_refl _
  | succ b ih =>
    rcases Nat.lt_or_ge a (b + 1) with h1 | h1
    · have := h.room b (by omega)
      exact Nat.le_trans (ih (by omega) (by omega)) (by omega)
    · obtain rfl : a = b + 1 := by omega
      exact Nat.le_refl _

theorem WF.width_pos (h : M.WF) {s : Nat} (hs : s < M.n) : 0 < M.width s := by
  have := h.strict s hs
  unfold width
  omega

theorem InBlock.lt (h : M.WF) {r t : Nat} (hr : M.InBlock r t) : r < M.lo M.n :=
  Nat.lt_of_lt_of_le hr.2.2 (h.lo_le (by have := hr.1; omega) (Nat.le_refl _))

theorem InBlock.unique (h : M.WF) {r t u : Nat} (h1 : M.InBlock r t) (h2 : M.InBlock r u) : t = u := by
  rw [← h.blk r t h1, ← h.blk r u h2]

theorem InBlock.rd_blk (h : M.WF) {r t : Nat} (hr : M.InBlock r t) : rd M.blk r = ok t := by
  have := hr.lt h
  have := h.blkLen
  rw [rd_getD 0 (by omega), h.blk r t hr]

theorem WF.rd_first (h : M.WF) {s : Nat} (hs : s ≤ M.n) : rd M.first s = ok (M.lo s) :=
  rd_getD 0 (by have := h.firstLen; omega)

theorem WF.rd_base (h : M.WF) {s : Nat} (hs : s ≤ M.n) : rd M.ptr (M.lo s) = ok (M.base s) :=
  rd_getD 0 (by have := h.ptrLen; have := h.lo_le hs (Nat.le_refl _); omega)

/-- Every row of block `s` belongs to a block. -/
theorem WF.row (h : M.WF) {s k : Nat} (hs : s < M.n) (h1 : M.base s ≤ k) (h2 : k < M.base (s + 1)) :
    ∃ t, M.InBlock (M.rows.getD k 0) t := by
  by_cases hk : k < M.base s + M.width s
  · have := h.diag s hs (k - M.base s) (by omega)
    rw [show M.base s + (k - M.base s) = k by omega] at this
    exact ⟨s, this⟩
  · have hb := h.base_le (a := s + 1) (b := M.n) (by omega) (Nat.le_refl _)
    have hr := h.rowsLen
    obtain ⟨t, ht, -⟩ := h.off s hs (M.rows.getD k 0) (mem_slice.2 ⟨k, by omega, h2, by
      rw [List.getD_eq_getElem?_getD, List.getElem?_eq_getElem (by omega)]; rfl⟩)
    exact ⟨t, ht⟩

/-! ### The two graphs -/

/-- The column of block `s`: itself and the blocks of the rows below. -/
def blocks (M : BlockCsc) (s : Nat) : List Nat := s :: (M.below s).map M.blkOf

/-- The graph of the blocks. -/
def graph (M : BlockCsc) : Csc := Csc.ofFun M.n M.blocks

/-- The graph of the blocks with the positions of the rows; every block has `width` entries for
itself. -/
def raw (M : BlockCsc) : Csc := ⟨M.n, (List.range (M.n + 1)).map M.base, M.rows.map M.blkOf⟩

theorem WF.below_lt (h : M.WF) {s r : Nat} (hs : s < M.n) (hr : r ∈ M.below s) :
    M.InBlock r (M.blkOf r) ∧ M.blkOf r ≠ s := by
  obtain ⟨t, ht, hne⟩ := h.off s hs r hr
  rw [blkOf, h.blk r t ht]
  exact ⟨ht, hne⟩

theorem WF.mem_blocks (h : M.WF) {s t : Nat} (hs : s < M.n) :
    t ∈ M.blocks s ↔ t = s ∨ M.Dep s t := by
  unfold blocks
  rw [List.mem_cons, List.mem_map]
  constructor
  · rintro (rfl | ⟨r, hr, rfl⟩)
    · exact .inl rfl
    · exact .inr ⟨hs, r, hr, (h.below_lt hs hr).1⟩
  · rintro (rfl | ⟨-, r, hr, hb⟩)
    · exact .inl rfl
    · exact .inr ⟨r, hr, h.blk r t hb⟩

theorem WF.dep_ne (h : M.WF) {s t : Nat} (hd : M.Dep s t) : s ≠ t := by
  obtain ⟨hs, r, hr, hb⟩ := hd
  obtain ⟨u, hu, hne⟩ := h.off s hs r hr
  rw [hb.unique h hu]
  exact fun he => hne he.symm

theorem Dep.lt {s t : Nat} (hd : M.Dep s t) : s < M.n ∧ t < M.n := by
  obtain ⟨hs, r, hr, hb⟩ := hd
  exact ⟨hs, hb.1⟩

theorem graph_n : M.graph.n = M.n := rfl

theorem graph_col {s : Nat} (hs : s < M.n) : M.graph.col s = M.blocks s := Csc.ofFun_col hs

theorem WF.graph (h : M.WF) : M.graph.WF := by
  refine Csc.ofFun_wf fun u hu v hv => ?_
  rcases (h.mem_blocks hu).1 hv with rfl | hd
  · exact hu
  · exact hd.lt.2

theorem WF.oneDiag (h : M.WF) : M.graph.OneDiag := by
  intro u hu
  rw [graph_col hu, blocks, List.count_cons_self]
  have : ((M.below u).map M.blkOf).count u = 0 := by
    rw [List.count_eq_zero, List.mem_map]
    rintro ⟨r, hr, he⟩
    exact (h.below_lt hu hr).2 he
  omega

theorem WF.dep_iff (h : M.WF) {s t : Nat} : M.graph.Dep s t ↔ M.Dep s t := by
  unfold Csc.Dep
  constructor
  · rintro ⟨hs, hm, hne⟩
    rw [graph_col hs] at hm
    rcases (h.mem_blocks hs).1 hm with rfl | hd
    · exact absurd rfl hne
    · exact hd
  · intro hd
    exact ⟨hd.1, by rw [graph_col hd.1]; exact (h.mem_blocks hd.1).2 (.inr hd), h.dep_ne hd⟩

theorem raw_ptr {s : Nat} (hs : s ≤ M.n) : M.raw.ptr s = M.base s := by
  unfold Csc.ptr raw
  dsimp only
  rw [List.getD_eq_getElem?_getD, List.getElem?_map, List.getElem?_range (by omega)]
  rfl

theorem WF.raw_idx (h : M.WF) {k : Nat} (hk : k < M.base M.n) :
    M.raw.idx k = M.blkOf (M.rows.getD k 0) := by
  have := h.rowsLen
  unfold idx raw
  dsimp only
  rw [List.getD_eq_getElem?_getD, List.getElem?_map, List.getD_eq_getElem?_getD,
    List.getElem?_eq_getElem (by omega)]
  rfl

theorem WF.mem_raw (h : M.WF) {s t : Nat} (hs : s < M.n) :
    t ∈ M.raw.col s ↔ t ∈ M.graph.col s := by
  have hb := h.base_le (a := s + 1) (b := M.n) (by omega) (Nat.le_refl _)
  have hr := h.rowsLen
  have hroom := h.room s hs
  have hw := h.width_pos hs
  rw [graph_col hs, blocks, List.mem_cons, List.mem_map, col, raw_ptr (by omega), raw_ptr (by omega)]
  change t ∈ slice (M.rows.map M.blkOf) _ _ ↔ _
  rw [mem_slice]
  constructor
  · rintro ⟨k, h1, h2, h3⟩
    rw [List.getElem?_map, List.getElem?_eq_getElem (by omega)] at h3
    obtain rfl : M.blkOf M.rows[k] = t := by simpa using h3
    by_cases hk : k < M.base s + M.width s
    · have := h.diag s hs (k - M.base s) (by omega)
      rw [show M.base s + (k - M.base s) = k by omega, List.getD_eq_getElem?_getD,
        List.getElem?_eq_getElem (by omega)] at this
      exact .inl (h.blk _ s this)
    · exact .inr ⟨_, mem_slice.2 ⟨k, by omega, h2, List.getElem?_eq_getElem (by omega)⟩, rfl⟩
  · rintro (rfl | ⟨r, hr, rfl⟩)
    · have := h.diag t hs 0 hw
      refine ⟨M.base t, by omega, by omega, ?_⟩
      rw [List.getElem?_map, List.getElem?_eq_getElem (by omega)]
      rw [Nat.add_zero, List.getD_eq_getElem?_getD, List.getElem?_eq_getElem (by omega)] at this
      exact congrArg some (h.blk _ t this)
    · obtain ⟨k, h1, h2, h3⟩ := mem_slice.1 hr
      exact ⟨k, by omega, h2, by rw [List.getElem?_map, h3]; rfl⟩

theorem WF.raw (h : M.WF) : M.raw.WF := by
  refine ⟨by simp [BlockCsc.raw], by rw [raw_ptr (Nat.zero_le _)]; exact h.ptr0, ?_, ?_, ?_⟩
  · intro u hu
    have hu : u < M.n := hu
    rw [raw_ptr (by omega), raw_ptr (by omega)]
    exact h.base_le (by omega) (by omega)
  · rw [show M.raw.n = M.n from rfl, raw_ptr (Nat.le_refl _)]
    simpa [BlockCsc.raw] using h.rowsLen
  · intro u hu v hv
    exact h.graph.range u hu v ((h.mem_raw hu).1 hv)

/-! ### Paths -/

theorem WF.acyclic (h : M.WF) (ha : M.Acyclic) : M.graph.Acyclic := by
  intro v hv
  exact ha v (Relation.TransGen.lift id (fun a b hd => h.dep_iff.1 hd) _ _ hv)

end BlockCsc

/-! ### Loops of the code -/

namespace Blocked
open Res Csc BlockCsc
variable {M : BlockCsc}

theorem blockCol_ok (h : M.WF) {s : Nat} (hs : s < M.n) :
    blockCol M s = ok (M.base s, M.width s, M.base (s + 1)) := by
  have := h.strict s hs
  unfold blockCol
  rw [h.rd_first (by omega), ok_bind, h.rd_first (by omega), ok_bind, h.rd_base (by omega), ok_bind,
    h.rd_base (by omega), ok_bind, if_neg (by omega)]
  rfl

theorem blockCol_ub (h : M.WF) {s : Nat} (hs : M.n ≤ s) : blockCol M s = ub := by
  have hl := h.firstLen
  have h2 : rd M.first (s + 1) = ub := by
    unfold rd
    rw [List.getElem?_eq_none (by omega)]
  unfold blockCol
  by_cases h1 : s < M.first.length
  · rw [rd_getD 0 h1, ok_bind, h2]; rfl
  · have h3 : rd M.first s = ub := by
      unfold rd
      rw [List.getElem?_eq_none (by omega)]
    rw [h3]; rfl

theorem overRows_eq (h : M.WF) {σ : Type} {a b s : Nat} (hs : s < M.n) (ha : M.base s ≤ a) (hab : a ≤ b)
    (hb : b ≤ M.base (s + 1)) (f : Nat → σ → Res σ) (st : σ) :
    overRows M a b f st = forEach ((slice M.rows a b).map M.blkOf) f st := by
  have hb' := h.base_le (a := s + 1) (b := M.n) (by omega) (Nat.le_refl _)
  have hr := h.rowsLen
  unfold overRows
  rw [show (forRange a b (fun r s => do
      let i ← rd M.rows r
      let t ← rd M.blk i
      f t s) st) = _ from forRange_slice M.rows (fun i s => do
      let t ← rd M.blk i
      f t s) st hab (by omega)]
  have : ∀ (l : List Nat), (∀ r ∈ l, ∃ t, M.InBlock r t) → ∀ st : σ,
      forEach l (fun i s => do
        let t ← rd M.blk i
        f t s) st = forEach (l.map M.blkOf) f st := by
    intro l
    induction l with
    | nil => intro _ st; rfl
    | cons r l ih =>
      intro hl st
      obtain ⟨t, ht⟩ := hl r (by simp)
      rw [List.map_cons]
      unfold forEach
      beta_reduce
      rw [ht.rd_blk h, ok_bind, show M.blkOf r = t from h.blk r t ht]
      congr 1
      funext x
      exact ih (fun r hr => hl r (by simp [hr])) x
  refine this _ ?_ st
  intro r hr
  obtain ⟨k, h1, h2, h3⟩ := mem_slice.1 hr
  have := h.row hs (k := k) (by omega) (by omega)
  rw [List.getD_eq_getElem?_getD, h3] at this
  exact this

/-- The rows below the diagonal block. -/
theorem overRows_below (h : M.WF) {σ : Type} {s : Nat} (hs : s < M.n) (f : Nat → σ → Res σ) (st : σ) :
    overRows M (M.base s + M.width s) (M.base (s + 1)) f st = forEach ((M.below s).map M.blkOf) f st :=
  overRows_eq h hs (by omega) (h.room s hs) (Nat.le_refl _) f st

/-- One row of the diagonal block and the rows below it. -/
theorem overRows_blocks (h : M.WF) {σ : Type} {s : Nat} (hs : s < M.n) (f : Nat → σ → Res σ) (st : σ) :
    overRows M (M.base s + M.width s - 1) (M.base (s + 1)) f st = forEach (M.blocks s) f st := by
  have hroom := h.room s hs
  have hw := h.width_pos hs
  have hb' := h.base_le (a := s + 1) (b := M.n) (by omega) (Nat.le_refl _)
  have hr := h.rowsLen
  rw [overRows_eq h hs (by omega) (by omega) (Nat.le_refl _)]
  congr 1
  have h1 := slice_append (l := M.rows) (a := M.base s + M.width s - 1) (b := M.base s + M.width s)
    (c := M.base (s + 1)) (by omega) hroom
  have h2 := slice_one (l := M.rows) (k := M.base s + M.width s - 1) (by omega)
  rw [show M.base s + M.width s - 1 + 1 = M.base s + M.width s by omega] at h2
  have h3 := h.diag s hs (M.width s - 1) (by omega)
  rw [show M.base s + (M.width s - 1) = M.base s + M.width s - 1 by omega,
    List.getD_eq_getElem?_getD, List.getElem?_eq_getElem (by omega)] at h3
  rw [← h1, h2, List.map_append, List.map_singleton, show M.blkOf M.rows[M.base s + M.width s - 1] = s from h.blk _ s h3]
  rfl

theorem forRange_congr {σ : Type} {f g : Nat → σ → Res σ} {lo hi : Nat}
    (h : ∀ i, lo ≤ i → i < hi → ∀ s, f i s = g i s) (s : σ) : forRange lo hi f s = forRange lo hi g s := by
  unfold forRange
  obtain ⟨c, hc⟩ : ∃ c, c = hi - lo := ⟨_, rfl⟩
  rw [← hc]
  induction c generalizing lo s with
  | zero => rfl
  | succ c ih =>
    unfold forN
    rw [h lo (Nat.le_refl _) (by omega) s]
    congr 1
    funext x
    exact ih (fun i h1 h2 => h i (by omega) h2) x (by omega)

theorem inDegrees_eq (h : M.WF) : inDegrees M = Lbc.inDegrees M.n M.graph.p M.graph.i := by
  unfold inDegrees Lbc.inDegrees Lbc.countCol
  refine forRange_congr (fun s _ hs deg => ?_) _
  have hw := h.width_pos hs
  have hg := h.graph
  rw [blockCol_ok h hs, ok_bind]
  dsimp only
  rw [if_neg (by omega), overRows_blocks h hs, hg.rd_p (k := s) (by rw [graph_n]; omega), ok_bind,
    hg.rd_p (k := s + 1) (by rw [graph_n]; omega), ok_bind, ← graph_col hs]
  exact (hg.loop_col _ hs deg).symm

theorem removeEdges_eq (h : M.WF) (ls : List Nat) (lo hi : Nat) (deg : List Int) :
    removeEdges M ls lo hi deg = LevelSet.removeEdges M.graph.p M.graph.i ls lo hi deg := by
  unfold removeEdges LevelSet.removeEdges
  refine forRange_congr (fun l _ _ deg => ?_) _
  congr 1
  funext cc
  have hg := h.graph
  by_cases hcc : cc < M.n
  · rw [blockCol_ok h hcc, ok_bind]
    dsimp only
    rw [overRows_below h hcc, hg.rd_p (k := cc) (by rw [graph_n]; omega), ok_bind,
      hg.rd_p (k := cc + 1) (by rw [graph_n]; omega), ok_bind]
    refine Eq.trans ?_ (hg.loop_col _ hcc deg).symm
    rw [graph_col hcc, blocks]
    conv_rhs => unfold forEach
    beta_reduce
    rw [if_neg (by simp), pure_eq, ok_bind]
    have : ∀ (l : List Nat), (∀ v ∈ l, v ≠ cc) → ∀ deg : List Int,
        forEach l (fun v deg => do
          let d ← rd deg v
          wr deg v (d - 1)) deg = forEach l (fun v deg => if v ≠ cc then do
          let d ← rd deg v
          wr deg v (d - 1) else pure deg) deg := by
      intro l
      induction l with
      | nil => intro _ _; rfl
      | cons v l ih =>
        intro hl deg
        unfold forEach
        beta_reduce
        rw [if_pos (hl v (by simp))]
        congr 1
        funext x
        exact ih (fun v hv => hl v (by simp [hv])) x
    refine this _ ?_ deg
    intro v hv
    obtain ⟨r, hr, rfl⟩ := List.mem_map.1 hv
    exact (h.below_lt hcc hr).2
  · rw [blockCol_ub h (by omega)]
    have hpl := hg.plen
    rw [graph_n] at hpl
    have h2 : rd M.graph.p (cc + 1) = ub := by
      unfold rd
      rw [List.getElem?_eq_none (by omega)]
    by_cases h1 : cc < M.graph.p.length
    · rw [rd_getD 0 h1, ok_bind, h2]; rfl
    · have h3 : rd M.graph.p cc = ub := by
        unfold rd
        rw [List.getElem?_eq_none (by omega)]
      rw [h3]; rfl

end Blocked
end Verif
