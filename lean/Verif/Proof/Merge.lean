import Verif.Model.Merge
import Verif.Proof.Sparsify
import Verif.Proof.RowPattern

/-! # Writing a graph column by column -/

namespace Verif.Merge
open Res
open Verif.Sparsify (off off_zero off_succ off_mono range_succ_flatMap flatMap_col)

/-- A graph whose columns are stored one after the other, with possibly unused space at the end. -/
structure StoredIn (c : Nat → List Nat) (h : Csc) : Prop where
  plen : h.p.length = h.n + 1
  ptr : ∀ k, k ≤ h.n → h.ptr k = off c k
  le : off c h.n ≤ h.i.length
  set : h.i.take (off c h.n) = (List.range h.n).flatMap c

theorem StoredIn.col {c : Nat → List Nat} {h : Csc} (s : StoredIn c h) {k : Nat} (hk : k < h.n) :
    h.col k = c k := by
  have h1 : off c (k + 1) ≤ off c h.n := off_mono c hk
  unfold Csc.col
  rw [s.ptr k (by omega), s.ptr (k + 1) hk, ← flatMap_col c hk, ← s.set, List.drop_take, List.take_take,
    Nat.min_eq_left (by omega)]

theorem StoredIn.wf {c : Nat → List Nat} {h : Csc} (s : StoredIn c h)
    (hr : ∀ k, k < h.n → ∀ v ∈ c k, v < h.n) : h.WF := by
  refine ⟨s.plen, ?_, ?_, ?_, ?_⟩
  · rw [s.ptr 0 (by omega), off_zero]
  · intro u hu
    rw [s.ptr u (by omega), s.ptr (u + 1) hu]
    exact off_mono c (by omega)
  · rw [s.ptr _ (le_refl _)]; exact s.le
  · intro u hu v hv
    rw [s.col hu] at hv
    exact hr u hu v hv

theorem take_set_succ {α : Type _} {l : List α} {k : Nat} (h : k < l.length) (v : α) :
    (l.set k v).take (k + 1) = l.take k ++ [v] := by
  rw [List.take_succ_eq_append_getElem (by simpa using h), List.getElem_set_self, List.take_set,
    List.set_eq_of_length_le (by simp)]

/-- The first `k` columns are written. -/
structure Built (c : Nat → List Nat) (N M k : Nat) (s : Out) : Prop where
  plen : s.p.length = N + 1
  pc : s.pc = k + 1
  ptr : ∀ x, x ≤ k → s.p.getD x 0 = off c x
  ilen : s.i.length = M
  ic : s.ic = off c k
  set : s.i.take s.ic = (List.range k).flatMap c

theorem pushAll : ∀ (l : List Nat) (s : Out), s.ic + l.length ≤ s.i.length →
    ∃ s', forEach l pushIdx s = ok s' ∧ s'.p = s.p ∧ s'.pc = s.pc ∧ s'.i.length = s.i.length ∧
      s'.ic = s.ic + l.length ∧ s'.i.take s'.ic = s.i.take s.ic ++ l
  | [], s, _ => ⟨s, rfl, rfl, rfl, rfl, rfl, by simp⟩
  | r :: l, s, h => by
    simp only [List.length_cons] at h
    obtain ⟨s', h1, h2, h3, h4, h5, h6⟩ := pushAll l { s with i := s.i.set s.ic r, ic := s.ic + 1 }
      (by dsimp only; rw [List.length_set]; omega)
    dsimp only at h2 h3 h4 h5 h6
    refine ⟨s', ?_, h2, h3, by rw [h4, List.length_set], by rw [h5, List.length_cons]; omega, ?_⟩
    · rw [forEach]
      unfold pushIdx
      rw [wr_eq (by omega), ok_bind, ok_bind]
      exact h1
    · rw [h6, take_set_succ (by omega), List.append_assoc]; rfl

theorem pushPtr_eq {c : Nat → List Nat} {N M k : Nat} {s : Out} (h : Built c N M k s) (hk : k < N)
    {d : Nat} (hd : d = (c k).length) :
    pushPtr d s = ok { s with p := s.p.set (k + 1) (off c (k + 1)), pc := k + 2 } := by
  have := h.plen
  unfold pushPtr
  rw [h.pc, if_neg (by omega), Nat.add_sub_cancel, rd_getD 0 (by omega), ok_bind, wr_eq (by omega), ok_bind,
    h.ptr k (le_refl _), off_succ, hd]

theorem Built.step {c : Nat → List Nat} {N M k : Nat} {s : Out} (h : Built c N M k s) (hk : k < N)
    (hM : off c (k + 1) ≤ M) :
    ∃ s', forEach (c k) pushIdx { s with p := s.p.set (k + 1) (off c (k + 1)), pc := k + 2 } = ok s' ∧
      Built c N M (k + 1) s' := by
  have hic := h.ic
  have hs := off_succ c k
  have hpl := h.plen
  obtain ⟨s', h1, h2, h3, h4, h5, h6⟩ := pushAll (c k)
    { s with p := s.p.set (k + 1) (off c (k + 1)), pc := k + 2 } (by dsimp only; rw [h.ilen]; omega)
  dsimp only at h2 h3 h4 h5 h6
  refine ⟨s', h1, by rw [h2, List.length_set, hpl], by rw [h3], ?_, by rw [h4, h.ilen], by omega, ?_⟩
  · intro x hx
    rw [h2, getD_set]
    by_cases e : k + 1 = x
    · subst e; rw [if_pos ⟨rfl, by omega⟩]
    · rw [if_neg (by tauto), h.ptr x (by omega)]
  · rw [h6, h.set, range_succ_flatMap]

theorem forEach_map {α β σ : Type} (g : α → β) (f : β → σ → Res σ) : ∀ (l : List α) (s : σ),
    forEach (l.map g) f s = forEach l (fun a s => f (g a) s) s
  | [], s => rfl
  | x :: l, s => by
    rw [List.map_cons, forEach, forEach]
    congr 1
    funext s
    exact forEach_map g f l s

theorem forEach_one {α σ : Type} (f : α → σ → Res σ) (a : α) : forEach [a] f = f a := by
  funext s
  rw [forEach]
  cases f a s <;> rfl

theorem copyCol_eq {g : Csc} (hg : g.WF) {j : Nat} (hj : j < g.n) (o : Nat) (s : Out) :
    copyCol g.p g.i o j s = forEach ((g.col j).map (· + o)) pushIdx s := by
  unfold copyCol
  have := hg.ptr_le (a := j + 1) (by omega)
  have := hg.mono j hj
  rw [hg.rd_p (by omega), ok_bind, hg.rd_p (by omega), ok_bind, forEach_map]
  exact forRange_rd g.i (fun r s => pushIdx (r + o) s) _ _ s (by omega)

theorem colLen_eq {g : Csc} (hg : g.WF) {j : Nat} (hj : j < g.n) :
    colLen g.p j = ok (g.col j).length := by
  unfold colLen
  rw [hg.rd_p (by omega), ok_bind, hg.rd_p (by omega), ok_bind, hg.col_length hj]

/-! ### The merged graph -/

/-- Column `k` of the merged graph: node `j` of graph `i` is node `i * n + j`, and `ext i j` are the
nodes of the next graph that depend on it. -/
def mcol (n : Nat) (gs : List Csc) (ext : Nat → Nat → List Nat) (k : Nat) : List Nat :=
  ((gs.getD (k / n) ⟨0, [], []⟩).col (k % n)).map (· + k / n * n) ++
    if k / n + 1 < gs.length then ext (k / n) (k % n) else []

variable {n : Nat} {gs : List Csc} {ext : Nat → Nat → List Nat}

theorem mcol_at {i j : Nat} (hj : j < n) : mcol n gs ext (i * n + j) =
    ((gs.getD i ⟨0, [], []⟩).col j).map (· + i * n) ++ if i + 1 < gs.length then ext i j else [] := by
  have h1 : (i * n + j) / n = i := by
    rw [Nat.mul_comm, Nat.mul_add_div (by omega), Nat.div_eq_of_lt hj, Nat.add_zero]
  have h2 : (i * n + j) % n = j := by
    rw [Nat.mul_comm, Nat.mul_add_mod, Nat.mod_eq_of_lt hj]
  unfold mcol
  rw [h1, h2]

/-- The graphs that are merged. -/
def AllWF (n : Nat) (gs : List Csc) : Prop := ∀ g ∈ gs, g.WF ∧ g.n = n

theorem AllWF.get (h : AllWF n gs) {i : Nat} (hi : i < gs.length) :
    (gs.getD i ⟨0, [], []⟩).WF ∧ (gs.getD i ⟨0, [], []⟩).n = n := by
  rw [List.getD_eq_getElem?_getD, List.getElem?_eq_getElem hi]
  exact h _ (List.getElem_mem hi)

theorem col_sum {g : Csc} (hg : g.WF) : ∀ {j : Nat}, j ≤ g.n →
    ((List.range j).map fun x => (g.col x).length).sum = g.ptr j
  | 0, _ => by simp [hg.p0]
  | j + 1, h => by
    rw [List.range_succ, List.map_append, List.sum_append, col_sum hg (by omega)]
    simp only [List.map_cons, List.map_nil, List.sum_cons, List.sum_nil]
    have := hg.mono j (by omega)
    rw [hg.col_length (by omega)]
    omega

/-- The number of dependences on the next graph. -/
def extLen (n : Nat) (ext : Nat → Nat → List Nat) (i : Nat) : Nat :=
  ((List.range n).map fun x => (ext i x).length).sum

theorem off_block (h : AllWF n gs) {i : Nat} (hi : i < gs.length) : ∀ {j : Nat}, j ≤ n →
    off (mcol n gs ext) (i * n + j) = off (mcol n gs ext) (i * n) + (gs.getD i ⟨0, [], []⟩).ptr j +
      if i + 1 < gs.length then ((List.range j).map fun x => (ext i x).length).sum else 0
  | 0, _ => by rw [Nat.add_zero, (h.get hi).1.p0]; simp
  | j + 1, hj => by
    obtain ⟨h1, h2⟩ := h.get hi
    rw [← Nat.add_assoc, off_succ, off_block h hi (by omega), mcol_at (by omega), List.length_append,
      List.length_map, h1.col_length (by omega)]
    have := h1.mono j (by omega)
    rw [List.range_succ, List.map_append, List.sum_append]
    split
    · simp only [List.map_cons, List.map_nil, List.sum_cons, List.sum_nil]
      omega
    · rw [List.length_nil]
      omega

/-- The number of entries of the graphs before graph `i`. -/
def lenTo (n : Nat) (gs : List Csc) (i : Nat) : Nat := ((gs.take i).map fun g => g.ptr n).sum

theorem lenTo_succ {i : Nat} (hi : i < gs.length) :
    lenTo n gs (i + 1) = lenTo n gs i + (gs.getD i ⟨0, [], []⟩).ptr n := by
  unfold lenTo
  rw [List.take_succ_eq_append_getElem hi, List.map_append, List.sum_append, List.getD_eq_getElem?_getD,
    List.getElem?_eq_getElem hi]
  simp

theorem off_blocks (h : AllWF n gs) : ∀ {i : Nat}, i < gs.length →
    off (mcol n gs ext) (i * n) = lenTo n gs i + ((List.range i).map (extLen n ext)).sum
  | 0, _ => by simp [off_zero, lenTo]
  | i + 1, hi => by
    rw [Nat.add_mul, Nat.one_mul, off_block h (by omega) (Nat.le_refl _), off_blocks h (by omega),
      lenTo_succ (by omega), if_pos hi, List.range_succ, List.map_append, List.sum_append]
    simp only [List.map_cons, List.map_nil, List.sum_cons, List.sum_nil, extLen]
    omega

theorem off_total (h : AllWF n gs) (h0 : 0 < gs.length) :
    off (mcol n gs ext) (gs.length * n)
      = lenTo n gs gs.length + ((List.range (gs.length - 1)).map (extLen n ext)).sum := by
  obtain ⟨m, hm⟩ : ∃ m, gs.length = m + 1 := ⟨gs.length - 1, by omega⟩
  have h1 := off_blocks (ext := ext) h (i := m) (by omega)
  have h2 := off_block (ext := ext) h (i := m) (by omega) (Nat.le_refl n)
  have h3 := lenTo_succ (n := n) (gs := gs) (i := m) (by omega)
  rw [if_neg (by omega)] at h2
  rw [hm, Nat.add_sub_cancel, Nat.add_mul, Nat.one_mul]
  omega

theorem sumLast_eq (h : AllWF n gs) :
    sumLast n (gs.map fun g => (g.p, g.i)) = ok (lenTo n gs gs.length) := by
  unfold sumLast
  rw [forEach_map]
  have := forEach_wp (I := fun pre (a : Nat) => a = (pre.map fun g : Csc => g.ptr n).sum)
    (f := fun (g : Csc) nnz => do
      let a ← rd g.p n
      ok (nnz + a)) gs [] 0 rfl ?_
  · obtain ⟨a, h1, h2⟩ := wp_iff.1 this
    rw [h1, h2, List.nil_append, lenTo, List.take_length]
  · rintro p g q s he rfl
    rw [List.nil_append] at he
    have hg := h g (by rw [he]; simp)
    rw [hg.1.rd_p (by omega), ok_bind, wp_ok]
    simp

theorem block_wp {c : Nat → List Nat} {N M i : Nat} {f : Nat → Out → Res Out}
    (hf : ∀ j, j < n → ∀ s, Built c N M (i * n + j) s → ∃ s', f j s = ok s' ∧ Built c N M (i * n + j + 1) s')
    {s : Out} (h : Built c N M (i * n) s) : wp (forRange 0 n f s) (Built c N M ((i + 1) * n)) := by
  refine forRange_wp' (fun j s => Built c N M (i * n + j) s) (Nat.zero_le _) h ?_ ?_
  · intro j s _ hj hs
    obtain ⟨s', h1, h2⟩ := hf j hj s hs
    rw [h1, wp_ok]; exact h2
  · intro s hs
    rw [Nat.add_mul, Nat.one_mul]; exact hs

theorem lt_blocks {i j m : Nat} (hi : i < m) (hj : j < n) : i * n + j < m * n := by
  have : (i + 1) * n ≤ m * n := Nat.mul_le_mul_right n hi
  rw [Nat.add_mul, Nat.one_mul] at this
  omega

theorem off_le_total {c : Nat → List Nat} {i j m : Nat} (hi : i < m) (hj : j < n) :
    off c (i * n + j + 1) ≤ off c (m * n) := off_mono c (lt_blocks hi hj)

theorem mergeLast_wp (h : AllWF n gs) {M : Nat} (hM : off (mcol n gs ext) (gs.length * n) ≤ M)
    (h0 : 0 < gs.length) {s : Out}
    (hs : Built (mcol n gs ext) (gs.length * n) M ((gs.length - 1) * n) s) :
    wp (mergeLast n (gs.length - 1) ((gs.getD (gs.length - 1) ⟨0, [], []⟩).p,
      (gs.getD (gs.length - 1) ⟨0, [], []⟩).i) s)
      (Built (mcol n gs ext) (gs.length * n) M (gs.length * n)) := by
  obtain ⟨h1, h2⟩ := h.get (i := gs.length - 1) (by omega)
  have := block_wp (i := gs.length - 1) (f := fun j s => do
    let d ← colLen (gs.getD (gs.length - 1) ⟨0, [], []⟩).p j
    let s ← pushPtr d s
    copyCol (gs.getD (gs.length - 1) ⟨0, [], []⟩).p (gs.getD (gs.length - 1) ⟨0, [], []⟩).i
      ((gs.length - 1) * n) j s) ?_ hs
  · rw [Nat.sub_add_cancel h0] at this
    exact this
  · intro j hj s hs
    have hc : mcol n gs ext ((gs.length - 1) * n + j)
        = ((gs.getD (gs.length - 1) ⟨0, [], []⟩).col j).map (· + (gs.length - 1) * n) := by
      rw [mcol_at hj, if_neg (by omega), List.append_nil]
    obtain ⟨s', g1, g2⟩ := hs.step (lt_blocks (by omega) hj)
      (Nat.le_trans (off_le_total (by omega) hj) hM)
    refine ⟨s', ?_, g2⟩
    rw [colLen_eq h1 (by omega), ok_bind, pushPtr_eq hs (lt_blocks (by omega) hj) (by rw [hc, List.length_map]),
      ok_bind, copyCol_eq h1 (by omega), ← hc]
    exact g1

theorem built_zero {c : Nat → List Nat} {N M : Nat} :
    Built c N M 0 ⟨List.replicate (N + 1) 0, 1, List.replicate M 0, 0⟩ := by
  refine ⟨by simp, rfl, ?_, by simp, by simp [off_zero], by simp⟩
  intro x hx
  rw [getD_replicate _ _ _ _ (by omega)]
  obtain rfl : x = 0 := by omega
  rw [off_zero]

theorem Built.stored {c : Nat → List Nat} {N M : Nat} {s : Out} (h : Built c N M N s) :
    StoredIn c ⟨N, s.p, s.i⟩ := by
  have h1 := h.ic
  have h2 := h.set
  have h3 := congrArg List.length h2
  rw [h1] at h2
  refine ⟨h.plen, h.ptr, ?_, h2⟩
  rw [List.length_take, h1] at h3
  change _ = off c N at h3
  show off c N ≤ s.i.length
  omega

theorem rd_graph {i : Nat} (hi : i < gs.length) :
    rd (gs.map fun g => (g.p, g.i)) i
      = ok ((gs.getD i ⟨0, [], []⟩).p, (gs.getD i ⟨0, [], []⟩).i) := by
  rw [rd_eq (by simpa using hi)]
  simp [List.getElem?_eq_getElem hi]

/-- The loop over all graphs but the last. -/
theorem mergeLoop_wp {c : Nat → List Nat} {N M : Nat} {f : Nat → Out → Res Out} {m : Nat}
    (hf : ∀ i, i < m → ∀ s, Built c N M (i * n) s → wp (f i s) (Built c N M ((i + 1) * n)))
    {s : Out} (h : Built c N M 0 s) : wp (forRange 0 m f s) (Built c N M (m * n)) := by
  refine forRange_wp' (fun i s => Built c N M (i * n) s) (Nat.zero_le _) (by rw [Nat.zero_mul]; exact h) ?_ ?_
  · intro i s _ hi hs
    exact hf i hi s hs
  · exact fun s hs => hs

theorem mergeBody_wp (h : AllWF n gs) (h0 : 0 < gs.length) {alloc : Nat → List Nat}
    (ha : alloc (gs.length * n) = List.replicate (gs.length * n + 1) 0) :
    wp (mergeBody alloc n (gs.map fun g => (g.p, g.i))) fun r =>
      StoredIn (mcol n gs fun i j => [j + (i + 1) * n]) ⟨gs.length * n, r.1, r.2⟩ ∧
      r.2.length = off (mcol n gs fun i j => [j + (i + 1) * n]) (gs.length * n) := by
  have hM : off (mcol n gs fun i j => [j + (i + 1) * n]) (gs.length * n)
      = lenTo n gs gs.length + (gs.length - 1) * n := by
    rw [off_total h h0]
    have : extLen n (fun i j => [j + (i + 1) * n]) = fun _ => n := by
      funext i
      unfold extLen
      simp
    rw [this]
    simp
  unfold mergeBody
  rw [sumLast_eq h, ok_bind, List.length_map, if_neg (by omega), ha, wr_eq (by simp), ok_bind,
    wp_bind]
  have hs : (List.replicate (gs.length * n + 1) 0).set 0 0 = List.replicate (gs.length * n + 1) 0 := by
    simp [List.replicate_succ]
  rw [hs]
  refine wp_mono (mergeLoop_wp (c := mcol n gs fun i j => [j + (i + 1) * n]) (n := n) ?_ built_zero) ?_
  · intro i hi s hs
    rw [rd_graph (by omega), ok_bind]
    obtain ⟨h1, h2⟩ := h.get (i := i) (by omega)
    refine block_wp ?_ hs
    intro j hj s hs
    have hc : mcol n gs (fun i j => [j + (i + 1) * n]) (i * n + j)
        = ((gs.getD i ⟨0, [], []⟩).col j).map (· + i * n) ++ [j + (i + 1) * n] := by
      rw [mcol_at hj, if_pos (by omega)]
    obtain ⟨s', g1, g2⟩ := hs.step (lt_blocks (by omega) hj)
      (Nat.le_trans (off_le_total (m := gs.length) (by omega) hj) (Nat.le_of_eq hM))
    refine ⟨s', ?_, g2⟩
    rw [colLen_eq h1 (by omega), ok_bind, pushPtr_eq hs (lt_blocks (by omega) hj) (by simp [hc]),
      ok_bind, copyCol_eq h1 (by omega)]
    rw [hc, forEach_append] at g1
    rw [forEach_one] at g1
    exact g1
  · intro s hs
    rw [rd_graph (by omega), ok_bind, wp_bind]
    refine wp_mono (mergeLast_wp h (Nat.le_of_eq hM) h0 hs) ?_
    intro s hs
    rw [wp_ok]
    exact ⟨hs.stored, by rw [hs.ilen, hM]⟩

/-! ### Dependences between the graphs -/

variable {ds : List Csc}

theorem dsum_eq (h : AllWF n ds) {m : Nat} (hm : m ≤ ds.length) :
    forRange 0 m (fun i nnz => do
      let D ← rd (ds.map fun g => (g.p, g.i)) i
      let a ← rd D.1 n
      ok (nnz + a)) 0 = ok (lenTo n ds m) := by
  have := forRange_wp' (I := fun i (a : Nat) => a = lenTo n ds i) (lo := 0) (hi := m)
    (f := fun i nnz => do
      let D ← rd (ds.map fun g => (g.p, g.i)) i
      let a ← rd D.1 n
      ok (nnz + a)) (s := 0) (Q := fun a => a = lenTo n ds m) (Nat.zero_le _) (by simp [lenTo]) ?_
    (fun s h => h)
  · obtain ⟨a, h1, rfl⟩ := wp_iff.1 this
    exact h1
  · rintro i s _ hi rfl
    obtain ⟨h1, h2⟩ := h.get (i := i) (by omega)
    rw [rd_graph (by omega), ok_bind, h1.rd_p (by omega), ok_bind, wp_ok, lenTo_succ (by omega)]

/-- The dependences of the nodes of the next graph on node `j` of graph `i`. -/
def dext (n : Nat) (ds : List Csc) (i j : Nat) : List Nat :=
  ((ds.getD i ⟨0, [], []⟩).col j).map (· + (i + 1) * n)

theorem dext_sum (h : AllWF n ds) : ∀ {m : Nat}, m ≤ ds.length →
    ((List.range m).map (extLen n (dext n ds))).sum = lenTo n ds m
  | 0, _ => by simp [lenTo]
  | m + 1, hm => by
    obtain ⟨h1, h2⟩ := h.get (i := m) (by omega)
    rw [List.range_succ, List.map_append, List.sum_append, dext_sum h (by omega), lenTo_succ (by omega)]
    have : extLen n (dext n ds) m = (ds.getD m ⟨0, [], []⟩).ptr n := by
      rw [← col_sum h1 (Nat.le_of_eq h2.symm)]
      unfold extLen dext
      simp only [List.length_map]
    simp only [List.map_cons, List.map_nil, List.sum_cons, List.sum_nil]
    omega

theorem mergeDags_wp (h : AllWF n gs) (hd : AllWF n ds) (h0 : 0 < gs.length) (hn : 0 < n)
    (hl : gs.length ≤ ds.length + 1) :
    wp (mergeDags n (gs.map fun g => (g.p, g.i)) (ds.map fun g => (g.p, g.i))) fun r =>
      StoredIn (mcol n gs (dext n ds)) ⟨gs.length * n, r.1, r.2.1⟩ ∧
      r.2.2 = off (mcol n gs (dext n ds)) (gs.length * n) + (gs.length - 1) * n ∧
      r.2.1.length = r.2.2 := by
  have hM : off (mcol n gs (dext n ds)) (gs.length * n)
      = lenTo n gs gs.length + lenTo n ds (gs.length - 1) := by
    rw [off_total h h0, dext_sum hd (by omega)]
  have hpos : 0 < gs.length * n := Nat.mul_pos h0 hn
  unfold mergeDags
  rw [sumLast_eq h, ok_bind, List.length_map, if_neg (by omega), dsum_eq hd (by omega), ok_bind,
    Nat.mul_comm n]
  unfold allocP
  rw [if_pos hpos, wr_eq (by simp), ok_bind]
  rw [wp_bind]
  have hs : (List.replicate (gs.length * n + 1) 0).set 0 0 = List.replicate (gs.length * n + 1) 0 := by
    simp [List.replicate_succ]
  rw [hs]
  refine wp_mono (mergeLoop_wp (c := mcol n gs (dext n ds)) (n := n) ?_ built_zero) ?_
  · intro i hi s hs
    rw [rd_graph (by omega), ok_bind, rd_graph (by omega), ok_bind]
    obtain ⟨h1, h2⟩ := h.get (i := i) (by omega)
    obtain ⟨h3, h4⟩ := hd.get (i := i) (by omega)
    refine block_wp ?_ hs
    intro j hj s hs
    have hc : mcol n gs (dext n ds) (i * n + j)
        = ((gs.getD i ⟨0, [], []⟩).col j).map (· + i * n) ++
          ((ds.getD i ⟨0, [], []⟩).col j).map (· + (i + 1) * n) := by
      rw [mcol_at hj, if_pos (by omega)]; rfl
    obtain ⟨s', g1, g2⟩ := hs.step (lt_blocks (m := gs.length) (by omega) hj)
      (Nat.le_trans (off_le_total (m := gs.length) (by omega) hj) (by rw [hM]; exact Nat.le_add_right _ _))
    refine ⟨s', ?_, g2⟩
    rw [colLen_eq h1 (by omega), ok_bind, colLen_eq h3 (by omega), ok_bind,
      pushPtr_eq hs (lt_blocks (by omega) hj) (by simp [hc]), ok_bind, copyCol_eq h1 (by omega)]
    rw [hc, forEach_append] at g1
    rw [← g1]
    congr 1
    funext s
    rw [copyCol_eq h3 (by omega)]
  · intro s hs
    rw [rd_graph (by omega), ok_bind, wp_bind]
    refine wp_mono (mergeLast_wp h (by rw [hM]; exact Nat.le_add_right _ _) h0 hs) ?_
    intro s hs
    rw [wp_ok]
    exact ⟨hs.stored, by rw [hM], hs.ilen⟩

end Verif.Merge
