import Verif.Model.Cost
import Verif.Proof.Graph
import Verif.Proof.GroupDag

/-!
# C48: `costComputation`
-/

namespace Verif
open Res Cost

section
variable {csc csr g h : Csc} {cost : List Nat} {slot : Nat}

theorem addSize_eq (hg : g.WF) {v : Nat} (hv : v < g.n) (hs : slot < cost.length) :
    addSize g.p v slot cost = ok (cost.set slot (cost.getD slot 0 + (g.col v).length)) := by
  unfold addSize
  rw [hg.rd_p (k := v + 1) hv, ok_bind, hg.rd_p (Nat.le_of_lt hv), ok_bind, rd_getD 0 hs, ok_bind, wr_eq hs,
    hg.col_length hv]

theorem addSizes_eq (hg : g.WF) : ∀ (l : List Nat) (cost : List Nat), (∀ v ∈ l, v < g.n) →
    slot < cost.length →
    forEach l (fun d cost => addSize g.p d slot cost) cost
      = ok (cost.set slot (cost.getD slot 0 + (l.map fun d => (g.col d).length).sum)) := by
  intro l
  induction l with
  | nil =>
    intro cost _ hs
    have : cost.set slot (cost.getD slot 0) = cost := by
      apply List.ext_getElem?
      intro x
      rw [List.getElem?_set]
      split
      · rename_i hx; subst hx
        rw [List.getD_eq_getElem?_getD, List.getElem?_eq_getElem hs]; rfl
      · rfl
    simp only [forEach, List.map_nil, List.sum_nil, Nat.add_zero, this]
  | cons a l ih =>
    intro cost hl hs
    have ha := hl a (by simp)
    simp only [forEach]
    rw [addSize_eq hg ha hs, ok_bind, ih _ (fun v hv => hl v (by simp [hv])) (by simpa using hs)]
    rw [getD_set, if_pos ⟨rfl, hs⟩, List.set_set, List.map_cons, List.sum_cons, Nat.add_assoc]

theorem addDeps_eq (hg : g.WF) (hh : h.WF) (hn : g.n = h.n) {v : Nat} (hv : v < g.n)
    (hs : slot < cost.length) :
    addDeps g.p g.i h.p v slot cost
      = ok (cost.set slot (cost.getD slot 0 + ((g.col v).map fun d => (h.col d).length).sum)) := by
  unfold addDeps
  rw [hg.rd_p (Nat.le_of_lt hv), ok_bind, hg.rd_p (k := v + 1) hv, ok_bind]
  rw [← addSizes_eq hh (g.col v) cost (fun d hd => by rw [← hn]; exact hg.range v hv d hd) hs]
  exact forRange_rd g.i (fun d cost => addSize h.p d slot cost) _ _ cost
    (by have := hg.mono v hv; have := hg.ptr_le (a := v + 1) hv; omega)

/-- Without empty rows the early exit is never taken. -/
theorem addDepsBreak_eq (hg : g.WF) (hh : h.WF) (hn : g.n = h.n) (hne : ∀ u, u < g.n → g.col u ≠ [])
    {v : Nat} (hv : v < g.n) (hs : slot < cost.length) :
    addDepsBreak g.p g.i h.p v slot cost
      = ok (cost.set slot (cost.getD slot 0 + ((g.col v).map fun d => (h.col d).length).sum)) := by
  have hge : ∀ u, u ≤ g.n → u ≤ g.ptr u := by
    intro u
    induction u with
    | zero => intro _; omega
    | succ u ih =>
      intro hu
      have h1 := ih (by omega)
      have h2 := hg.col_length (u := u) hu
      have h3 : 0 < (g.col u).length := List.length_pos_iff.2 (hne u hu)
      omega
  rw [← addDeps_eq hg hh hn hv hs]
  unfold addDepsBreak addDeps
  rw [hg.rd_p (Nat.le_of_lt hv), ok_bind, hg.rd_p (k := v + 1) hv, ok_bind, ok_bind, ok_bind]
  have key : ∀ (c lo : Nat) (cost : List Nat), v ≤ lo →
      forNB c lo (fun j cost => if j < v then ok (Ctl.brk (ρ := List Nat) cost) else do
        let dep ← rd g.i j
        let cost ← addSize h.p dep slot cost
        ok (Ctl.next cost)) cost
      = forN c lo (fun j cost => do
        let dep ← rd g.i j
        addSize h.p dep slot cost) cost >>= fun c => ok (Ctl.next c) := by
    intro c
    induction c with
    | zero => intro lo cost _; rfl
    | succ c ih =>
      intro lo cost hlo
      simp only [forNB, forN]
      rw [if_neg (by omega)]
      cases hr : rd g.i lo with
      | ok d =>
        simp only [ok_bind]
        cases ha : addSize h.p d slot cost with
        | ok c' => simp only [ok_bind]; exact ih (lo + 1) c' (by omega)
        | ub => rfl
        | exn => rfl
        | nofuel => rfl
      | ub => rfl
      | exn => rfl
      | nofuel => rfl
  unfold forRangeB forRange
  rw [key _ _ _ (hge v (by omega))]
  cases forN (g.ptr (v + 1) - g.ptr v) (g.ptr v) (fun j cost => do
        let dep ← rd g.i j
        addSize h.p dep slot cost) cost <;> rfl

theorem addNode_eq (k : Kernel) (grouped : Bool) (hc : csc.WF) (hr : csr.WF) (hn : csr.n = csc.n)
    (hne : k = .spILU0UL → grouped = true → ∀ u, u < csr.n → csr.col u ≠ [])
    {v : Nat} (hv : v < csc.n) (hs : slot < cost.length) :
    addNode k grouped csc.p csc.i csr.p csr.i v slot cost
      = ok (cost.set slot (cost.getD slot 0 + k.work csc csr v)) := by
  have hv' : v < csr.n := by omega
  cases k with
  | spTrSvLL => exact addSize_eq hr hv' hs
  | spTrSvRL => exact addSize_eq hc hv hs
  | spICh0LL => exact addDeps_eq hr hc hn hv' hs
  | spICh0RL => exact addDeps_eq hc hc rfl hv hs
  | spICh0UL => exact addDeps_eq hr hr rfl hv' hs
  | general => exact addDeps_eq hr hr rfl hv' hs
  | spILU0UL =>
    unfold addNode
    cases grouped with
    | false => exact addDeps_eq hr hr rfl hv' hs
    | true => exact addDepsBreak_eq hr hr rfl (hne rfl rfl) hv' hs

theorem addNodes_eq (k : Kernel) (hc : csc.WF) (hr : csr.WF) (hn : csr.n = csc.n)
    (hne : k = .spILU0UL → ∀ u, u < csr.n → csr.col u ≠ []) :
    ∀ (l : List Nat) (cost : List Nat), (∀ v ∈ l, v < csc.n) → slot < cost.length →
    forEach l (fun v cost => addNode k true csc.p csc.i csr.p csr.i v slot cost) cost
      = ok (cost.set slot (cost.getD slot 0 + (l.map (k.work csc csr)).sum)) := by
  intro l
  induction l with
  | nil =>
    intro cost _ hs
    exact addSizes_eq hc [] cost (by simp) hs
  | cons a l ih =>
    intro cost hl hs
    simp only [forEach]
    rw [addNode_eq k true hc hr hn (fun h _ => hne h) (hl a (by simp)) hs, ok_bind,
      ih _ (fun v hv => hl v (by simp [hv])) (by simpa using hs)]
    rw [getD_set, if_pos ⟨rfl, hs⟩, List.set_set, List.map_cons, List.sum_cons, Nat.add_assoc]

/-- A loop that adds to each element of an array of zeros once gives the table of the terms. -/
theorem forEach_table {N : Nat} {f : Nat → List Nat → Res (List Nat)} (w : Nat → Nat)
    {order : List Nat} (ho : order.Perm (List.range N))
    (hf : ∀ t cost, t < N → cost.length = N →
      f t cost = ok (cost.set t (cost.getD t 0 + w t))) :
    forEach order f (List.replicate N 0) = ok ((List.range N).map w) := by
  have hnd : order.Nodup := ho.nodup_iff.2 List.nodup_range
  have key := forEach_wp (f := f) (fun (pre : List Nat) (c : List Nat) => c.length = N ∧
    ∀ t, t < N → c.getD t 0 = if t ∈ pre then w t else 0) order [] (List.replicate N 0)
    ⟨by simp, fun t ht => by rw [getD_replicate _ _ _ _ ht]; simp⟩ ?_
  · obtain ⟨c, h1, h2, h3⟩ := wp_iff.1 key
    rw [h1]
    congr 1
    apply List.ext_getElem?
    intro t
    by_cases ht : t < N
    · have := h3 t ht
      rw [List.nil_append, if_pos (ho.mem_iff.2 (List.mem_range.2 ht))] at this
      rw [List.getElem?_map, List.getElem?_range ht, Option.map_some, ← this,
        List.getD_eq_getElem?_getD, List.getElem?_eq_getElem (by omega)]
      rfl
    · rw [List.getElem?_eq_none (by omega), List.getElem?_eq_none (by simp; omega)]
  · rintro p a q c hl ⟨h1, h2⟩
    rw [List.nil_append] at hl
    have ha : a < N := List.mem_range.1 (ho.mem_iff.1 (by rw [hl]; simp))
    have hnew : a ∉ p := by
      rw [hl] at hnd
      intro h
      exact (List.nodup_append.1 hnd).2.2 a h a (by simp) rfl
    rw [hf a c ha h1]
    refine ⟨by simpa using h1, ?_⟩
    intro t ht
    rw [getD_set]
    by_cases hat : a = t
    · subst hat
      rw [if_pos ⟨rfl, by omega⟩, h2 a ha, if_neg hnew, if_pos (by simp)]; omega
    · rw [if_neg (fun h => hat h.1), h2 t ht]
      simp [Ne.symm hat]

end

/-- **C48.** For the groups of a partition of the nodes, `costComputation` gives every group the sum
of the work of its nodes, for every kernel and in every order of the parallel loop.  The vector
`cost` must not come in empty, and for `SpILU0_UL` no row may be empty. -/
theorem C48_group_costs {csc csr : Csc} (hc : csc.WF) (hr : csr.WF) (hn : csr.n = csc.n)
    {G : Grouping} (hG : G.Partition csc.n) (k : Kernel)
    (hne : k = .spILU0UL → ∀ u, u < csr.n → csr.col u ≠ []) {order : List Nat}
    (ho : order.Perm (List.range G.num)) {cost0 : List Nat} (h0 : cost0 ≠ []) :
    costComputation order G.num csc.p csc.i csr.p csr.i k G.ptr G.set true cost0
      = ok ((List.range G.num).map fun j => ((groupRows G.ptr G.set j).map (k.work csc csr)).sum) := by
  unfold costComputation
  rw [if_neg (by simpa using h0)]
  apply forEach_table _ ho
  intro t cost ht hl
  rw [if_pos rfl, (hG.rd_lo ht).1, ok_bind, (hG.rd_lo ht).2, ok_bind]
  rw [← addNodes_eq k hc hr hn hne (groupRows G.ptr G.set t) cost
    (fun v hv => hG.mem_lt ⟨ht, hv⟩) (by omega)]
  have := hG.bounds ht
  exact forRange_rd G.set (fun v cost => addNode k true csc.p csc.i csr.p csr.i v t cost) _ _ cost
    (by omega)

/-- **C48.** Without groups every node gets its own work. -/
theorem C48_node_costs {csc csr : Csc} (hc : csc.WF) (hr : csr.WF) (hn : csr.n = csc.n)
    (k : Kernel) {order : List Nat} (ho : order.Perm (List.range csc.n)) (gp gs : List Nat)
    {cost0 : List Nat} (h0 : cost0 ≠ []) :
    costComputation order csc.n csc.p csc.i csr.p csr.i k gp gs false cost0
      = ok ((List.range csc.n).map (k.work csc csr)) := by
  unfold costComputation
  rw [if_neg (by simpa using h0)]
  apply forEach_table _ ho
  intro t cost ht hl
  exact addNode_eq k false hc hr hn (fun _ h => by cases h) ht (by omega)

/-- **C48.** With an entry in every row and every column all costs are positive, as HDAGG needs
them. -/
theorem C48_work_pos {csc csr : Csc} (hc : csc.WF) (hr : csr.WF) (hn : csr.n = csc.n)
    (hce : ∀ u, u < csc.n → csc.col u ≠ []) (hre : ∀ u, u < csr.n → csr.col u ≠ [])
    (k : Kernel) {v : Nat} (hv : v < csc.n) : 0 < k.work csc csr v := by
  have hsum : ∀ (g h : Csc), g.WF → g.n = h.n → (∀ u, u < g.n → g.col u ≠ []) →
      (∀ u, u < h.n → h.col u ≠ []) → v < g.n →
      0 < ((g.col v).map fun d => (h.col d).length).sum := by
    intro g h hg hgh h1 h2 hv
    obtain ⟨a, l, hl⟩ := List.exists_cons_of_ne_nil (h1 v hv)
    have ha : a < g.n := hg.range v hv a (by rw [hl]; simp)
    have : 0 < (h.col a).length := List.length_pos_iff.2 (h2 a (by omega))
    rw [hl, List.map_cons, List.sum_cons]
    omega
  have hv' : v < csr.n := by omega
  cases k with
  | spTrSvLL => exact List.length_pos_iff.2 (hre v hv')
  | spTrSvRL => exact List.length_pos_iff.2 (hce v hv)
  | spICh0LL => exact hsum csr csc hr hn hre hce hv'
  | spICh0RL => exact hsum csc csc hc rfl hce hce hv
  | spICh0UL => exact hsum csr csr hr rfl hre hre hv'
  | spILU0UL => exact hsum csr csr hr rfl hre hre hv'
  | general => exact hsum csr csr hr rfl hre hre hv'

/-- The lower triangle with the entries `(1,0)`, `(2,0)`, `(2,1)` below the diagonal, by columns. -/
def exCostCsc : Csc := ⟨3, [0, 3, 5, 6], [0, 1, 2, 1, 2, 2]⟩
/-- The same by rows. -/
def exCostCsr : Csc := ⟨3, [0, 1, 3, 6], [0, 0, 1, 0, 1, 2]⟩

example : exCostCsc.WF ∧ exCostCsr.WF ∧ (∀ u, u < 3 → exCostCsr.col u ≠ []) ∧
    (⟨2, [0, 2, 3], [0, 2, 1]⟩ : Grouping).Partition exCostCsc.n ∧
    costComputation [1, 0] 2 exCostCsc.p exCostCsc.i exCostCsr.p exCostCsr.i .spILU0UL [0, 2, 3]
      [0, 2, 1] true [9] = ok [7, 3] := by
  refine ⟨⟨by decide, by decide, by decide, by decide, by decide⟩,
    ⟨by decide, by decide, by decide, by decide, by decide⟩, by decide,
    ⟨⟨by decide, by decide, ?_⟩, by decide⟩, by decide⟩
  intro b hb lo hi h1 h2
  have : b = 0 ∨ b = 1 := by
    change b < 2 at hb
    omega
  rcases this with rfl | rfl <;> (cases h1; cases h2; decide)

/-- An empty vector `cost` is not resized and is written past its end. -/
theorem C48_empty_cost_overflows :
    costComputation [0] 1 [0, 1] [0] [0, 1] [0] .spTrSvLL [0, 1] [0] true [] = Res.ub := by decide

/-- With empty rows the grouped cost of `SpILU0_UL` compares a node with a position and leaves out
work: with one node per group the costs differ from those without groups. -/
theorem C48_ilu_break_loses_work :
    costComputation [0, 1] 2 [0, 1, 2] [0, 1] [0, 0, 1] [1] .spILU0UL [0, 1, 2] [0, 1] false [1]
      = ok [0, 1] ∧
    costComputation [0, 1] 2 [0, 1, 2] [0, 1] [0, 0, 1] [1] .spILU0UL [0, 1, 2] [0, 1] true [1]
      = ok [0, 0] := by decide

end Verif
