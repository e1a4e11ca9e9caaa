import Verif.Model.Metis
import Verif.Spec.Metis
import Verif.Proof.SparseHalf
import Verif.Proof.Merge

/-! # The graphs handed to METIS -/

namespace Verif.Metis
open Res Sp
open Verif.Sparsify (off off_zero off_succ off_mono range_succ_flatMap flatMap_col)
open Verif.Merge (StoredIn)

variable {V : Type}

/-- Row `r` without `r`. -/
def orow (B : Sp V) (r : Nat) : List Nat := (B.colRows r).filter fun c => decide (r ≠ c)

theorem colRows_slice (B : Sp V) (r : Nat) :
    B.colRows r = slice B.i (B.p.getD r 0) (B.p.getD (r + 1) 0) := rfl

theorem off_orow_le {B : Sp V} (hB : B.PatWF) {r : Nat} (hr : r ≤ B.cols) :
    off (orow B) r ≤ B.p.getD r 0 := by
  induction r with
  | zero => rw [off_zero]; omega
  | succ r ih =>
    have := ih (by omega)
    have h1 := hB.mono r (by omega)
    have h2 : (orow B r).length ≤ B.p.getD (r + 1) 0 - B.p.getD r 0 := by
      refine Nat.le_trans (List.length_filter_le _ _) ?_
      rw [colRows_slice, slice_length (hB.le_len (by omega))]
    rw [off_succ]; omega

/-- After `r` rows. -/
structure Rows (B : Sp V) (n nnz r : Nat) (s : Adj) : Prop where
  plen : s.p.length = n + 1
  ptr : ∀ x, x ≤ r → s.p.getD x 0 = off (orow B) x
  ilen : s.i.length = nnz
  cnt : s.cnt = off (orow B) r
  set : s.i.take s.cnt = (List.range r).flatMap (orow B)

theorem offDiagRow_wp {B : Sp V} (hB : B.PatWF) {n nnz r : Nat} (hr : r < n) (hn : n ≤ B.cols)
    (hnz : B.p.getD B.cols 0 ≤ nnz) {s : Adj} (h : Rows B n nnz r s) :
    wp (offDiagRow B r s) (Rows B n nnz (r + 1)) := by
  have hpl := hB.plen
  have h1 := hB.mono r (by omega)
  have h2 : B.p.getD (r + 1) 0 ≤ B.p.getD B.cols 0 := hB.mono_le (by omega) (Nat.le_refl _)
  have h3 := hB.bound
  have h4 := off_orow_le hB (r := r) (by omega)
  unfold offDiagRow
  rw [rd_getD 0 (by omega), ok_bind, rd_getD 0 (by omega), ok_bind, wp_bind]
  refine forRange_wp' (fun q (t : Nat × List Nat × Nat) =>
      let F := (slice B.i (B.p.getD r 0) q).filter fun c => decide (r ≠ c)
      t.1 = F.length ∧ t.2.1.length = nnz ∧ t.2.2 = off (orow B) r + F.length ∧
        t.2.1.take t.2.2 = (List.range r).flatMap (orow B) ++ F) h1 ?_ ?_ ?_
  · dsimp only
    rw [slice_self]
    exact ⟨rfl, h.ilen, by rw [h.cnt]; rfl, by rw [h.set]; simp⟩
  · rintro q ⟨a, b, c⟩ hq1 hq2 ⟨e1, e2, e3, e4⟩
    dsimp only at e1 e2 e3 e4 ⊢
    rw [rd_getD 0 (by omega), ok_bind]
    have hs : slice B.i (B.p.getD r 0) (q + 1) = slice B.i (B.p.getD r 0) q ++ [B.i.getD q 0] :=
      slice_succ hq1 (getElem?_getD 0 (by omega))
    have hlen : ((slice B.i (B.p.getD r 0) q).filter fun c => decide (r ≠ c)).length ≤ q - B.p.getD r 0 := by
      refine Nat.le_trans (List.length_filter_le _ _) ?_
      rw [slice_length (by omega)]
    by_cases hc : r = B.i.getD q 0
    · rw [if_pos hc, wp_ok, hs, List.filter_append]
      have : [B.i.getD q 0].filter (fun c => decide (r ≠ c)) = [] := by simp [hc]
      rw [this, List.append_nil]
      exact ⟨e1, e2, e3, e4⟩
    · rw [if_neg hc, wr_eq (by omega), ok_bind, wp_ok, hs, List.filter_append]
      have : [B.i.getD q 0].filter (fun c => decide (r ≠ c)) = [B.i.getD q 0] := by
        rw [List.filter_cons, if_pos (by simpa using hc)]; rfl
      rw [this, List.length_append, List.length_singleton]
      dsimp only
      refine ⟨by omega, by simpa using e2, by omega, ?_⟩
      rw [Merge.take_set_succ (by omega), e4, List.append_assoc]
  · rintro ⟨a, b, c⟩ ⟨e1, e2, e3, e4⟩
    dsimp only at e1 e2 e3 e4 ⊢
    have hp := h.plen
    rw [rd_getD 0 (by omega), ok_bind, wr_eq (by omega), ok_bind, wp_ok]
    have hF : ((slice B.i (B.p.getD r 0) (B.p.getD (r + 1) 0)).filter fun c => decide (r ≠ c)) = orow B r := rfl
    rw [hF] at e1 e3 e4
    refine ⟨by simpa using hp, ?_, e2, by rw [off_succ]; exact e3, ?_⟩
    · intro x hx
      dsimp only
      rw [getD_set]
      by_cases e : r + 1 = x
      · subst e
        rw [if_pos ⟨rfl, by omega⟩, h.ptr r (Nat.le_refl _), off_succ, e1]
      · rw [if_neg (by omega), h.ptr x (by omega)]
    · dsimp only
      rw [e4, range_succ_flatMap]

theorem offDiag_wp {B : Sp V} (hB : B.PatWF) {n nnz : Nat} (hn : n ≤ B.cols)
    (hnz : B.p.getD B.cols 0 ≤ nnz) :
    wp (offDiag B n nnz) fun g => StoredIn (orow B) ⟨n, g.p, g.i⟩ ∧ g.i.length = nnz := by
  unfold offDiag
  rw [wr_eq (by simp), ok_bind]
  have hs : (List.replicate (n + 1) 0).set 0 0 = List.replicate (n + 1) 0 := by
    simp [List.replicate_succ]
  rw [hs]
  refine forRange_wp' (fun r s => Rows B n nnz r s) (Nat.zero_le _) ?_
    (fun r s _ hr h => offDiagRow_wp hB hr hn hnz h) ?_
  · refine ⟨by simp, ?_, by simp, by rw [off_zero], by simp⟩
    intro x hx
    obtain rfl : x = 0 := by omega
    rw [getD_replicate _ _ _ _ (by omega), off_zero]
  · intro s h
    have h2 := h.set
    rw [h.cnt] at h2
    have h3 := off_orow_le hB (r := n) hn
    have h4 : B.p.getD n 0 ≤ B.p.getD B.cols 0 := hB.mono_le hn (Nat.le_refl _)
    have h5 := h.ilen
    exact ⟨⟨h.plen, h.ptr, by show off _ n ≤ s.i.length; omega, h2⟩, h.ilen⟩

theorem wp_eq_ok {α : Type} {x : Res α} {v : α} (h : wp x fun a => a = v) : x = ok v := by
  obtain ⟨a, h1, h2⟩ := wp_iff.1 h
  rw [h1, h2]

/-- A loop that fills an array. -/
theorem fill_eq {n : Nat} {f : Nat → Nat} {out : List Nat} (ho : out.length = n)
    {body : Nat → List Nat → Res (List Nat)}
    (hb : ∀ i, i < n → ∀ o : List Nat, o.length = n → (∀ j, i ≤ j → o.getD j 0 = out.getD j 0) →
      body i o = wr o i (f i)) :
    forRange 0 n body out = ok ((List.range n).map f) := by
  refine wp_eq_ok (forRange_wp' (Q := fun o => o = _) (fun k (o : List Nat) => o.length = n ∧
    (∀ j, j < k → o.getD j 0 = f j) ∧ ∀ j, k ≤ j → o.getD j 0 = out.getD j 0)
    (Nat.zero_le _) ⟨ho, by intro j hj; omega, by intros; rfl⟩ ?_ ?_)
  · rintro i o _ hi ⟨h1, h2, h3⟩
    rw [hb i hi o h1 h3, wr_eq (by omega), wp_ok]
    refine ⟨by simpa using h1, ?_, ?_⟩
    · intro j hj
      rw [getD_set]
      by_cases e : i = j
      · subst e; rw [if_pos ⟨rfl, by omega⟩]
      · rw [if_neg (by tauto)]; exact h2 j (by omega)
    · intro j hj
      rw [getD_set, if_neg (by omega)]
      exact h3 j (by omega)
  · rintro o ⟨h1, h2, _⟩
    refine List.ext_getElem (by simpa using h1) ?_
    intro j hj1 hj2
    have := h2 j (by omega)
    rw [List.getD_eq_getElem?_getD, List.getElem?_eq_getElem hj1, Option.getD_some] at this
    rw [this]; simp

theorem map_getD_range {l : List Nat} {n : Nat} (h : l.length = n) :
    ((List.range n).map fun i => l.getD i 0) = l := by
  refine List.ext_getElem (by simpa using h.symm) ?_
  intro j hj1 hj2
  simp [List.getElem?_eq_getElem hj2]

theorem copyOut_eq {n : Nat} {src : List Nat} (h : src.length = n) : copyOut n src = ok src := by
  unfold copyOut
  rw [fill_eq (f := fun i => src.getD i 0) (by simp) (fun i hi o _ _ => by
    rw [rd_getD 0 (by omega), ok_bind]), map_getD_range h]

theorem weights_eq {p : List Nat} {n : Nat} (h : p.length = n + 1) :
    weights p n = ok ((List.range n).map fun i => 1 + p.getD (i + 1) 0 - p.getD i 0) := by
  unfold weights
  exact fill_eq (by simp) fun i hi o _ _ => by
    rw [rd_getD 0 (by omega), ok_bind, rd_getD 0 (by omega), ok_bind]

/-- The smallest part, at most `n`. -/
def minPart (n : Nat) (l : List Nat) : Nat := l.foldl min n

theorem normalise_eq {n : Nat} {src : List Nat} (h : src.length = n) :
    normalise n src = ok (src.map fun x => x - minPart n src) := by
  have h1 : wp (forRange 0 n (fun i (s : List Nat × Nat) => do
      let v ← rd src i
      let part ← wr s.1 i v
      let w ← rd part i
      ok (part, min s.2 w)) (List.replicate n 0, n)) fun s => s = (src, minPart n src) := by
    refine forRange_wp' (fun k (s : List Nat × Nat) => s.1.length = n ∧
      (∀ j, j < k → s.1.getD j 0 = src.getD j 0) ∧ s.2 = (src.take k).foldl min n)
      (Nat.zero_le _) ⟨by simp, by intro j hj; omega, by simp⟩ ?_ ?_
    · rintro i ⟨o, m⟩ _ hi ⟨h1, h2, h3⟩
      dsimp only at h1 h2 h3 ⊢
      rw [rd_getD 0 (by omega), ok_bind, wr_eq (by omega), ok_bind,
        rd_getD 0 (by rw [List.length_set]; omega), ok_bind, wp_ok]
      refine ⟨by simpa using h1, ?_, ?_⟩
      · intro j hj
        dsimp only
        rw [getD_set]
        by_cases e : i = j
        · subst e; rw [if_pos ⟨rfl, by omega⟩]
        · rw [if_neg (by tauto)]; exact h2 j (by omega)
      · dsimp only
        rw [getD_set, if_pos ⟨rfl, by omega⟩, List.take_add_one, List.foldl_append, ← h3,
          getElem?_getD 0 (by omega)]
        rfl
    · rintro ⟨o, m⟩ ⟨h1, h2, h3⟩
      dsimp only at h1 h2 h3
      refine Prod.ext_iff.2 ⟨?_, ?_⟩
      · dsimp only
        rw [← map_getD_range h, ← map_getD_range h1]
        exact List.map_congr_left fun j hj => h2 j (List.mem_range.1 hj)
      · dsimp only
        rw [h3, ← h, List.take_length]; rfl
  unfold normalise
  rw [wp_eq_ok h1, ok_bind]
  dsimp only
  by_cases h0 : minPart n src = 0
  · rw [if_neg (by simpa using h0), h0]; simp
  · rw [if_pos h0, fill_eq (f := fun i => src.getD i 0 - minPart n src) h (by
      intro i hi o ho hj
      rw [rd_getD 0 (by omega), ok_bind, hj i (Nat.le_refl _)])]
    generalize minPart n src = m
    conv_rhs => rw [← map_getD_range h]
    rw [List.map_map]; rfl

theorem minPart_le (n : Nat) (l : List Nat) : minPart n l ≤ n ∧ ∀ x ∈ l, minPart n l ≤ x := by
  unfold minPart
  induction l generalizing n with
  | nil => simp
  | cons a l ih =>
    rw [List.foldl_cons]
    have := ih (min n a)
    refine ⟨by omega, ?_⟩
    intro x hx
    rcases List.mem_cons.1 hx with rfl | hx
    · omega
    · exact this.2 x hx

theorem minPart_mem (n : Nat) (l : List Nat) : minPart n l = n ∨ minPart n l ∈ l := by
  unfold minPart
  induction l generalizing n with
  | nil => simp
  | cons a l ih =>
    rw [List.foldl_cons]
    rcases ih (min n a) with h | h
    · rw [h]
      rcases Nat.le_total n a with h' | h'
      · left; omega
      · right; rw [Nat.min_eq_right h']; simp
    · right; exact List.mem_cons_of_mem _ h

theorem mem_coords {A : Sp V} {r c : Nat} : (r, c) ∈ A.coords ↔ c < A.cols ∧ r ∈ A.colRows c := by
  unfold coords
  simp only [List.mem_flatMap, List.mem_range, List.mem_map, Prod.mk.injEq]
  constructor
  · rintro ⟨c', h1, r', h2, rfl, rfl⟩; exact ⟨h1, h2⟩
  · rintro ⟨h1, h2⟩; exact ⟨c, h1, r, h2, rfl, rfl⟩

/-- The graph built by `metis_perm_general` and `metis_partition_general`. -/
theorem general_wp [Zero V] {A : Sp V} {nnz : Nat} {pat : Bool} (h : A.PatWF)
    (hx : pat = false → A.p.getD A.cols 0 ≤ A.x.length) (hsq : A.rows = A.cols) (hc : 0 < A.cols)
    (hn : A.p.getD A.cols 0 ≤ nnz) :
    ∃ B g, cscToCsr A nnz pat = ok B ∧ offDiag B A.cols nnz = ok g ∧ A.AdjGraph ⟨A.cols, g.p, g.i⟩ := by
  obtain ⟨B, e1, h1, h2, h3, h4, _⟩ := wp_iff.1 (cscToCsr_wp (nnz := nnz) h hx (by omega) hn)
  have hB := h3.patWF
  have hp : B.p.getD B.cols 0 ≤ nnz := by
    have := hB.bound; omega
  obtain ⟨g, e2, hst, _⟩ := wp_iff.1 (offDiag_wp hB (n := A.cols) (nnz := nnz) (by omega) hp)
  have hcol : ∀ u, u < A.cols → (⟨A.cols, g.p, g.i⟩ : Csc).col u = orow B u := fun u hu => hst.col hu
  have hnb : ∀ u v, u < A.cols → (v ∈ orow B u ↔ u ≠ v ∧ (u, v) ∈ A.coords) := by
    intro u v hu
    have hm := h3.coords_perm.mem_iff (a := (u, v))
    rw [List.mem_map] at hm
    unfold orow
    rw [List.mem_filter, decide_eq_true_eq]
    constructor
    · rintro ⟨k1, k2⟩
      exact ⟨k2, hm.1 ⟨(v, u), mem_coords.2 ⟨by omega, k1⟩, rfl⟩⟩
    · rintro ⟨k1, k2⟩
      obtain ⟨⟨a, b⟩, k3, k4⟩ := hm.2 k2
      cases k4
      exact ⟨(mem_coords.1 k3).2, k1⟩
  refine ⟨B, g, e1, e2, rfl, hst.wf ?_, ?_, ?_⟩
  · intro u hu v hv
    exact (mem_coords.1 ((hnb u v hu).1 hv).2).1
  · intro u v hu
    rw [hcol u hu]; exact hnb u v hu
  · intro hd u hu
    rw [hcol u hu]
    exact (h3.noDup hd u (by omega)).filter _

end Verif.Metis
