import Verif.Proof.Merge

/-! # `coarsen_k_times` -/

namespace Verif.Merge
open Res
open Verif.Sparsify (off off_zero off_succ off_mono range_succ_flatMap flatMap_col)
open Verif.RowPat (Marks unmark_wp)

/-- The elements of a list, each at its first occurrence. -/
def firsts (l : List Nat) : List Nat :=
  l.foldl (fun acc x => if x ∈ acc then acc else acc ++ [x]) []

theorem firsts_snoc (l : List Nat) (x : Nat) :
    firsts (l ++ [x]) = if x ∈ firsts l then firsts l else firsts l ++ [x] := by
  unfold firsts
  rw [List.foldl_append]
  rfl

theorem firsts_spec (l : List Nat) : (firsts l).Nodup ∧ (∀ x, x ∈ firsts l ↔ x ∈ l) ∧
    (firsts l).head? = l.head? ∧ (firsts l).length ≤ l.length := by
  induction l using List.reverseRecOn with
  | nil => simp [firsts]
  | append_singleton l x ih =>
    obtain ⟨h1, h2, h3, h4⟩ := ih
    rw [firsts_snoc]
    split
    · rename_i hx
      refine ⟨h1, ?_, ?_, by simp; omega⟩
      · intro y
        rw [h2, List.mem_append, List.mem_singleton]
        refine ⟨.inl, fun h => h.elim id ?_⟩
        rintro rfl
        exact (h2 _).1 hx
      · rw [h3]
        cases l with
        | nil => simp [firsts] at hx
        | cons => rfl
    · rename_i hx
      refine ⟨?_, ?_, ?_, by simp; omega⟩
      · rw [List.nodup_append]
        refine ⟨h1, by simp, ?_⟩
        intro a ha b hb
        rw [List.mem_singleton] at hb
        subst hb
        rintro rfl
        exact hx ha
      · intro y
        rw [List.mem_append, List.mem_append, h2]
      · rw [List.head?_append, List.head?_append, h3]

variable {g : Csc} {k nnz : Nat}

/-- The entries of the columns of block `b`, before column `l`. -/
def blockTo (g : Csc) (k b m : Nat) : List Nat := slice g.i (g.ptr (b * k)) m

/-- Column `b` of the coarse graph. -/
def ccol (g : Csc) (k b : Nat) : List Nat :=
  firsts ((blockTo g k b (g.ptr (min (b * k + k) g.n))).map (· / k))

/-- The number of blocks. -/
def blocks (n k : Nat) : Nat := if n % k = 0 then n / k else n / k + 1

theorem blocks_iff (hk : 0 < k) {n b : Nat} : b < blocks n k ↔ b * k < n := by
  have h := Nat.div_add_mod n k
  have hm := Nat.mod_lt n hk
  have hc := Nat.mul_comm k (n / k)
  unfold blocks
  split
  · rename_i h0
    constructor
    · intro hb
      have : (b + 1) * k ≤ n / k * k := Nat.mul_le_mul_right k hb
      rw [Nat.add_mul, Nat.one_mul] at this
      omega
    · intro hb
      by_contra hcon
      have : n / k * k ≤ b * k := Nat.mul_le_mul_right k (by omega)
      omega
  · rename_i h0
    constructor
    · intro hb
      have : b * k ≤ n / k * k := Nat.mul_le_mul_right k (by omega)
      omega
    · intro hb
      by_contra hcon
      have : (n / k + 1) * k ≤ b * k := Nat.mul_le_mul_right k (by omega)
      rw [Nat.add_mul, Nat.one_mul] at this
      omega

theorem div_lt_blocks (hk : 0 < k) {n i : Nat} (hi : i < n) : i / k < blocks n k := by
  rw [blocks_iff hk]
  exact Nat.lt_of_le_of_lt (Nat.div_mul_le_self i k) hi

theorem blocks_le (hk : 0 < k) {n : Nat} : blocks n k ≤ n := by
  by_contra h
  have := (blocks_iff hk (n := n) (b := n)).1 (by omega)
  have : n * 1 ≤ n * k := Nat.mul_le_mul_left n hk
  omega

/-- After the entries `P` of a block. -/
structure Ent (n k nnz : Nat) (bp D : List Nat) (col j : Nat) (P : List Nat) (s : Coarse) : Prop where
  bp : s.bp = bp
  col : s.col = col
  j : s.j = j
  failed : s.failed = firsts (P.map (· / k))
  marks : Marks n s.failed s.exist_
  ilen : s.bi.length = nnz
  cnt : s.cnt = D.length + s.failed.length
  set : s.bi.take s.cnt = D ++ s.failed

theorem Ent.step {n : Nat} {bp D : List Nat} {col j : Nat} {P : List Nat} {s : Coarse} (hk : 0 < k)
    (h : Ent n k nnz bp D col j P s) {t : Nat} (ht : t < n) (hroom : D.length + P.length < nnz)
    (debug : Bool) :
    ∃ s', coarseEntry debug (blocks n k) k t s = ok s' ∧ Ent n k nnz bp D col j (P ++ [t]) s' := by
  have hb := div_lt_blocks hk ht
  have htk : t / k < n := Nat.lt_of_lt_of_le hb (blocks_le hk)
  obtain ⟨v, hv, hvm⟩ := h.marks.read htk
  unfold coarseEntry
  rw [hv, ok_bind]
  by_cases e : v = true
  · rw [if_pos e]
    refine ⟨s, rfl, h.bp, h.col, h.j, ?_, h.marks, h.ilen, h.cnt, h.set⟩
    rw [List.map_append, List.map_singleton, firsts_snoc, ← h.failed, if_pos (hvm.1 e)]
  · have hnm : t / k ∉ s.failed := fun h => e (hvm.2 h)
    obtain ⟨m1, m2⟩ := h.marks.mark htk
    have hlen : s.failed.length ≤ P.length := by
      rw [h.failed]
      exact Nat.le_trans (firsts_spec _).2.2.2 (by simp)
    have hc := h.cnt
    have hroom' : s.cnt < s.bi.length := by rw [h.ilen]; omega
    rw [if_neg e, m1, ok_bind, if_neg (fun h => h.2 hb), wr_eq hroom', ok_bind]
    refine ⟨_, rfl, h.bp, h.col, h.j, ?_, ?_, by simpa using h.ilen, ?_, ?_⟩
    · dsimp only
      rw [List.map_append, List.map_singleton, firsts_snoc, ← h.failed, if_neg hnm]
    · exact m2.congr fun x => by simp [or_comm]
    · dsimp only
      rw [List.length_append, List.length_singleton]; omega
    · dsimp only
      rw [take_set_succ hroom', h.set, List.append_assoc]

/-- The columns of a block. -/
theorem blockLoop_wp (hg : g.WF) (hk : 0 < k) (debug : Bool) (hn : g.ptr g.n ≤ nnz) {b : Nat}
    (hb : b * k < g.n) {bp D : List Nat} {col : Nat} {s : Coarse} (hD : D.length ≤ g.ptr (b * k))
    (h : Ent g.n k nnz bp D col (b * k) [] s) :
    wp (forRange s.j (min (s.j + k) g.n) (fun l s => do
      let lo ← rd g.p l
      let hi ← rd g.p (l + 1)
      forRange lo hi (fun m s => do
        let tmp ← rd g.i m
        coarseEntry debug (blocks g.n k) k tmp s) s) s)
      (Ent g.n k nnz bp D col (b * k) (blockTo g k b (g.ptr (min (b * k + k) g.n)))) := by
  rw [h.j]
  refine forRange_wp' (fun l s => Ent g.n k nnz bp D col (b * k) (blockTo g k b (g.ptr l)) s)
    (by omega) ?_ ?_ (fun s hs => hs)
  · unfold blockTo
    rw [slice_self]; exact h
  · intro l s hl1 hl2 hs
    have hln : l < g.n := by omega
    rw [hg.rd_p (by omega), ok_bind, hg.rd_p (by omega), ok_bind]
    refine forRange_wp' (fun m s => Ent g.n k nnz bp D col (b * k) (blockTo g k b m) s)
      (hg.mono l hln) hs ?_ (fun s hs => hs)
    intro m s hm1 hm2 hs
    have h1 : g.ptr (b * k) ≤ g.ptr l := hg.mono_le hl1 (by omega)
    have h2 : g.ptr (l + 1) ≤ g.ptr g.n := hg.mono_le (by omega) (Nat.le_refl _)
    have h3 := hg.bound
    rw [hg.rd_i (by omega), ok_bind]
    have hlen : (blockTo g k b m).length = m - g.ptr (b * k) := slice_length (by omega)
    obtain ⟨s', e1, e2⟩ := hs.step hk (hg.idx_lt hln hm1 hm2) (by omega) debug
    rw [e1, wp_ok]
    unfold blockTo at e2 ⊢
    rw [slice_succ (v := g.idx m) (by omega) (by
      unfold Csc.idx; exact getElem?_getD (l := g.i) (j := m) 0 (by omega))]
    exact e2

/-- After `b` blocks. -/
structure Blk (g : Csc) (k nnz b : Nat) (s : Coarse) : Prop where
  j : s.j = b * k
  col : s.col = b + 1
  plen : s.bp.length = blocks g.n k + 1
  ptr : ∀ x, x ≤ b → s.bp.getD x 0 = off (ccol g k) x
  ilen : s.bi.length = nnz
  cnt : s.cnt = off (ccol g k) b
  set : s.bi.take s.cnt = (List.range b).flatMap (ccol g k)
  failed : s.failed = []
  marks : Marks g.n [] s.exist_
  room : off (ccol g k) b ≤ g.ptr (min (b * k) g.n)

theorem Blk.step (hg : g.WF) (hk : 0 < k) (debug : Bool) (hn : g.ptr g.n ≤ nnz) {b : Nat}
    (hb : b * k < g.n) {s : Coarse} (h : Blk g k nnz b s) :
    ∃ s', coarseBlock debug g.n (blocks g.n k) k g.p g.i s = ok s' ∧ Blk g k nnz (b + 1) s' := by
  have hroom := h.room
  rw [Nat.min_eq_left (by omega)] at hroom
  have hbn := (blocks_iff hk (n := g.n)).2 hb
  have hoff : ((List.range b).flatMap (ccol g k)).length = off (ccol g k) b := rfl
  obtain ⟨s1, e1, hs1⟩ := wp_iff.1 (blockLoop_wp hg hk debug hn hb (bp := s.bp)
    (D := (List.range b).flatMap (ccol g k)) (col := s.col) (s := s) hroom
    ⟨rfl, rfl, h.j, h.failed, by rw [h.failed]; exact h.marks, h.ilen,
      by rw [h.failed, hoff, h.cnt]; rfl, by rw [h.set, h.failed, List.append_nil]⟩)
  have hF : s1.failed = ccol g k b := hs1.failed
  have hsp := firsts_spec ((blockTo g k b (g.ptr (min (b * k + k) g.n))).map (· / k))
  have hlt : ∀ x ∈ s1.failed, x < g.n := by
    intro x hx
    rw [hF] at hx
    obtain ⟨y, hy, rfl⟩ := List.mem_map.1 ((hsp.2.1 x).1 hx)
    unfold blockTo at hy
    obtain ⟨q, hq1, hq2, hq3⟩ := mem_slice.1 hy
    have hm : g.ptr (min (b * k + k) g.n) ≤ g.ptr g.n := hg.mono_le (by omega) (Nat.le_refl _)
    have h3 := hg.bound
    have hyn : y < g.n := by
      obtain ⟨c, hc, hc1, hc2⟩ := (PtrOk.mk' (ptr := g.p) (m := g.n) (total := g.ptr g.n)
        (by rw [hg.plen]; omega) hg.p0 rfl hg.mono).exists_block (k := q) (by omega)
      have := hg.idx_lt (u := c) hc (by simpa [Csc.ptr] using hc1) (by simpa [Csc.ptr] using hc2)
      unfold Csc.idx at this
      rwa [List.getD_eq_getElem?_getD, hq3] at this
    exact Nat.lt_of_lt_of_le (div_lt_blocks hk hyn) (blocks_le hk)
  obtain ⟨ex, e2, hex⟩ := unmark_wp s1.failed s1.failed s1.exist_ hlt hs1.marks
  have hpl := h.plen
  have hcol := h.col
  unfold coarseBlock
  rw [e1, ok_bind, hs1.bp, hs1.col, wr_eq (by omega), ok_bind, e2, ok_bind]
  have hcnt : s1.cnt = off (ccol g k) (b + 1) := by rw [hs1.cnt, hoff, off_succ, hF]
  refine ⟨_, rfl, ?_, by dsimp only; omega, by simpa using hpl, ?_, hs1.ilen, hcnt, ?_, rfl, ?_, ?_⟩
  · dsimp only
    rw [hs1.j, Nat.add_mul, Nat.one_mul]
  · intro x hx
    dsimp only
    rw [getD_set]
    by_cases e : b + 1 = x
    · subst e
      rw [hcol, if_pos ⟨rfl, by omega⟩, hcnt]
    · rw [hcol, if_neg (by tauto), h.ptr x (by omega)]
  · dsimp only
    rw [hs1.set, hF, range_succ_flatMap]
  · exact hex.congr (by intro x; simp)
  · have h1 : (ccol g k b).length ≤ (blockTo g k b (g.ptr (min (b * k + k) g.n))).length := by
      have := hsp.2.2.2
      rwa [List.length_map] at this
    have h2 : g.ptr (min (b * k + k) g.n) ≤ g.ptr g.n := hg.mono_le (by omega) (Nat.le_refl _)
    have h3 := hg.bound
    have h4 : g.ptr (b * k) ≤ g.ptr (min (b * k + k) g.n) := hg.mono_le (by omega) (by omega)
    have hl : (blockTo g k b (g.ptr (min (b * k + k) g.n))).length
        = g.ptr (min (b * k + k) g.n) - g.ptr (b * k) := slice_length (by omega)
    rw [off_succ, Nat.add_mul, Nat.one_mul]
    omega

theorem coarsen_wp (hg : g.WF) (hpos : 0 < g.n) (hk : 0 < k) (debug : Bool) (hn : g.ptr g.n ≤ nnz) :
    wp (coarsen debug g.n nnz g.p g.i k) fun r => r.1 = blocks g.n k ∧
      StoredIn (ccol g k) ⟨blocks g.n k, r.2.1, r.2.2.1⟩ ∧ r.2.2.2 = off (ccol g k) (blocks g.n k) ∧
      r.2.2.1.length = nnz := by
  have hb0 : 0 < blocks g.n k := (blocks_iff hk).2 (by omega)
  unfold coarsen
  rw [if_neg (by omega)]
  change wp (wr (allocP (blocks g.n k)) 0 0 >>= fun bp =>
    whileF (g.n + 1) (fun s => ok (decide (s.j < g.n))) (coarseBlock debug g.n (blocks g.n k) k g.p g.i)
      ⟨bp, List.replicate nnz 0, 1, 0, [], List.replicate g.n false, 0⟩ >>= fun s =>
      if debug = true ∧ blocks g.n k ≠ s.col - 1 then exn else ok (blocks g.n k, s.bp, s.bi, s.cnt)) _
  unfold allocP
  rw [if_pos hb0, wr_eq (by simp), ok_bind, wp_bind]
  have hs : (List.replicate (blocks g.n k + 1) 0).set 0 0 = List.replicate (blocks g.n k + 1) 0 := by
    simp [List.replicate_succ]
  rw [hs]
  refine wp_mono (whileF_wp (Q := fun s => Blk g k nnz (blocks g.n k) s)
    (fun s => ∃ b, b ≤ blocks g.n k ∧ Blk g k nnz b s) (fun s => g.n - s.j) ?_ _ _ ?_ ?_) ?_
  · rintro s ⟨b, hb, hs⟩
    rw [wp_ok]
    by_cases hlt : s.j < g.n
    · simp only [hlt, decide_true, if_true]
      refine ⟨by omega, ?_⟩
      have hbk : b * k < g.n := by rw [← hs.j]; exact hlt
      obtain ⟨s', e1, e2⟩ := hs.step hg hk debug hn hbk
      rw [e1, wp_ok]
      refine ⟨⟨b + 1, (blocks_iff hk).2 hbk, e2⟩, ?_⟩
      rw [e2.j, hs.j, Nat.add_mul, Nat.one_mul]
      omega
    · simp only [hlt, decide_false, Bool.false_eq_true, if_false]
      have : b = blocks g.n k := by
        by_contra hne
        have := (blocks_iff hk (n := g.n) (b := b)).1 (by omega)
        rw [hs.j] at hlt
        omega
      rw [← this]; exact hs
  · dsimp only; omega
  · refine ⟨0, Nat.zero_le _, by simp, rfl, by simp, ?_, by simp, by simp [off_zero], by simp, rfl,
      Marks.init _, by simp [off_zero]⟩
    intro x hx
    rw [getD_replicate _ _ _ _ (by omega)]
    obtain rfl : x = 0 := by omega
    rw [off_zero]
  · intro s hs
    rw [hs.col, if_neg (by rintro ⟨_, h⟩; omega), wp_ok]
    have h2 := hs.set
    rw [hs.cnt] at h2
    have h3 := congrArg List.length h2
    rw [List.length_take] at h3
    change _ = off (ccol g k) (blocks g.n k) at h3
    exact ⟨rfl, ⟨hs.plen, hs.ptr, by show off _ (blocks g.n k) ≤ s.bi.length; omega, h2⟩, hs.cnt, hs.ilen⟩

end Verif.Merge
