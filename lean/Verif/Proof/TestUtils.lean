import Verif.Model.TestUtils
import Verif.Spec.TestUtils
import Verif.Proof.SparsePerm
import Mathlib.Data.List.Sort

/-!
# Lemmas: test_utils.cpp
-/

namespace Verif.TestU
open Res Sp

variable {V : Type}

theorem eq_of_wp {α : Type} {x : Res α} {a : α} (h : wp x fun b => b = a) : x = ok a := by
  obtain ⟨b, h1, rfl⟩ := wp_iff.1 h
  exact h1

theorem uniqRand_eq {shuf : List Nat → List Nat} {m n : Nat} (hs : (shuf (List.range n)).Perm (List.range n))
    (hm : m ≤ n) : uniqRand shuf m n = ok ((shuf (List.range n)).take m) := by
  have hlen : (shuf (List.range n)).length = n := by rw [hs.length_eq, List.length_range]
  have h1 : forRange 0 n (fun i (l : List Nat) => ok (l ++ [i])) [] = ok (List.range n) := by
    refine eq_of_wp ?_
    refine forRange_wp' (fun k l => l = List.range k) (Nat.zero_le _) rfl ?_ (fun _ h => h)
    rintro k l _ _ rfl
    rw [wp_ok, List.range_succ]
  unfold uniqRand
  rw [h1, ok_bind]
  dsimp only
  refine eq_of_wp ?_
  refine forRange_wp' (fun k l => l = (shuf (List.range n)).take k) (Nat.zero_le _) (by simp) ?_ (fun _ h => h)
  rintro k l _ hk rfl
  rw [rd_getD 0 (by omega), ok_bind, wp_ok, List.take_add_one, getElem?_getD 0 (by omega)]
  rfl

/-- The indices of a column: sorted, distinct, `k` of them, smaller than `n`, with `i`. -/
structure ColOk (k n i : Nat) (v : List Nat) : Prop where
  len : v.length = k
  sorted : v.Pairwise (· < ·)
  lt : ∀ a ∈ v, a < n
  mem : i ∈ v

theorem sorted_of_nodup {l : List Nat} (h : l.Nodup) :
    (l.mergeSort (fun a b => decide (a ≤ b))).Pairwise (· < ·) := by
  have hp : (l.mergeSort (fun a b => decide (a ≤ b))).Perm l := List.mergeSort_perm l _
  have h1 : (l.mergeSort (fun a b => decide (a ≤ b))).Pairwise (fun a b => decide (a ≤ b) = true) :=
    List.pairwise_mergeSort (by intro a b c h1 h2; simp at *; omega) (by intro a b; simp; omega) l
  have h2 := hp.nodup_iff.2 h
  rw [List.nodup_iff_pairwise_ne] at h2
  refine (h1.and h2).imp ?_
  rintro a b ⟨h, h'⟩
  simp at h
  omega

/-- The list before sorting. -/
def picked (l : List Nat) (k i : Nat) : List Nat :=
  if i ∈ l.take k then l.take k else i :: (l.take k).tail

theorem randCol_eq {shuf : List Nat → List Nat} {k n i : Nat} (hs : (shuf (List.range n)).Perm (List.range n))
    (hk : k ≤ n) (h0 : 0 < k) : randCol shuf k n i
      = ok ((picked (shuf (List.range n)) k i).mergeSort (fun a b => decide (a ≤ b))) := by
  have hlen : (shuf (List.range n)).length = n := by rw [hs.length_eq, List.length_range]
  unfold randCol picked
  rw [uniqRand_eq hs hk, ok_bind]
  split
  · rfl
  · rw [wr_eq (by rw [List.length_take]; omega), ok_bind]
    cases h : (shuf (List.range n)).take k with
    | nil =>
      have := congrArg List.length h
      rw [List.length_take, List.length_nil] at this
      omega
    | cons a t => rfl

theorem picked_ok {l : List Nat} {k n i : Nat} (hs : l.Perm (List.range n)) (hk : k ≤ n) (h0 : 0 < k) (hi : i < n) :
    ColOk k n i ((picked l k i).mergeSort (fun a b => decide (a ≤ b))) := by
  have hlen : l.length = n := by rw [hs.length_eq, List.length_range]
  have hnd : l.Nodup := hs.nodup_iff.2 List.nodup_range
  have hlt : ∀ a ∈ l, a < n := fun a ha => List.mem_range.1 (hs.mem_iff.1 ha)
  have hp : ((picked l k i).mergeSort (fun a b => decide (a ≤ b))).Perm (picked l k i) := List.mergeSort_perm _ _
  have htk : (l.take k).Nodup := hnd.sublist (List.take_sublist _ _)
  have hsub : ∀ a ∈ (l.take k).tail, a ∈ l := fun a ha => List.mem_of_mem_take (List.mem_of_mem_tail ha)
  have hpk : (picked l k i).Nodup ∧ (picked l k i).length = k ∧ (∀ a ∈ picked l k i, a < n) ∧ i ∈ picked l k i := by
    unfold picked
    split
    · rename_i h
      exact ⟨htk, by rw [List.length_take]; omega, fun a ha => hlt a (List.mem_of_mem_take ha), h⟩
    · rename_i h
      refine ⟨?_, ?_, ?_, by simp⟩
      · rw [List.nodup_cons]
        exact ⟨fun hm => h (List.mem_of_mem_tail hm), htk.sublist (List.tail_sublist _)⟩
      · rw [List.length_cons, List.length_tail, List.length_take]; omega
      · intro a ha
        rcases List.mem_cons.1 ha with rfl | ha
        · exact hi
        · exact hlt a (hsub a ha)
  exact ⟨by rw [hp.length_eq, hpk.2.1], sorted_of_nodup hpk.1, fun a ha => hpk.2.2.1 a (hp.mem_iff.1 ha),
    hp.mem_iff.2 hpk.2.2.2⟩

/-- The columns of the random matrix. -/
def cols (shuf : Nat → List Nat → List Nat) (n k i : Nat) : List Nat :=
  (picked (shuf i (List.range n)) k i).mergeSort (fun a b => decide (a ≤ b))

variable [Zero V]

theorem randomSquare_wp {shuf : Nat → List Nat → List Nat} {val : Nat → V} {n : Nat} {k : Int}
    (hs : ∀ i, i < n → (shuf i (List.range n)).Perm (List.range n)) (hn : 0 < n) (hk : k ≠ 0)
    (hmax : n * perCol n k ≤ int32Max) :
    wp (randomSquare shuf val n k) fun r => ∃ A : Sp V, r = some A ∧ Uniform n (perCol n k) A ∧
      (∀ c, c < n → A.colRows c = cols shuf n (perCol n k) c) ∧
      ∀ j, j < n * perCol n k → A.x.getD j 0 = val j := by
  have hkn : perCol n k ≤ n := by unfold perCol; split <;> omega
  have hk0 : 0 < perCol n k := by unfold perCol; split <;> omega
  unfold randomSquare
  dsimp only
  generalize perCol n k = q at *
  have hcol : ∀ i, i < n → ColOk q n i (cols shuf n q i) := fun i hi => picked_ok (hs i hi) hkn hk0 hi
  have hR : ∀ m, m ≤ n → tot (cols shuf n q) m = m * q := by
    intro m
    induction m with
    | zero => intro _; simp [tot]
    | succ m ih => intro hm; rw [tot_succ, ih (by omega), (hcol m (by omega)).len, Nat.succ_mul]
  rw [if_neg (by omega), wr_eq (by rw [List.length_replicate, newPtrLen, if_neg (by omega)]; omega), ok_bind, wp_bind]
  refine forRange_wp' (fun c (s : List Nat × List Nat × List V) => s.1.length = n + 1 ∧
      (∀ a, a ≤ c → s.1.getD a 0 = a * q) ∧ s.2.1.length = n * q ∧ s.2.2.length = n * q ∧
      s.2.1.take (c * q) = (List.range c).flatMap (cols shuf n q) ∧
      ∀ j, j < c * q → s.2.2.getD j 0 = val j) (Nat.zero_le _) ?_ ?_ ?_
  · refine ⟨by rw [List.length_set, List.length_replicate, newPtrLen, if_neg (by omega)], ?_, by simp, by simp, by simp, by omega⟩
    intro a ha
    have : a = 0 := by omega
    subst this
    rw [getD_set, if_pos ⟨rfl, by rw [List.length_replicate, newPtrLen, if_neg (by omega)]; omega⟩, Nat.zero_mul]
  · rintro c ⟨p, ix, xx⟩ _ hc ⟨h1, h2, h3, h4, h5, h6⟩
    dsimp only at h1 h2 h3 h4 h5 h6 ⊢
    have hcq : c * q + q ≤ n * q := by
      rw [← Nat.succ_mul]; exact Nat.mul_le_mul_right q hc
    rw [rd_getD 0 (by omega), ok_bind, h2 c (Nat.le_refl _), wr_eq (by omega), ok_bind,
      randCol_eq (hs c hc) hkn hk0, ok_bind, wp_bind]
    have hlen := (hcol c hc).len
    refine forRange_wp' (fun j (t : List Nat × List V) => t.1.length = n * q ∧ t.2.length = n * q ∧
      t.1.take j = (List.range c).flatMap (cols shuf n q) ++ (cols shuf n q c).take (j - c * q) ∧
      ∀ i, i < j → t.2.getD i 0 = val i) (by omega) ?_ ?_ ?_
    · exact ⟨h3, h4, by rw [h5]; simp, h6⟩
    · rintro j ⟨t1, t2⟩ hj1 hj2 ⟨k1, k2, k3, k4⟩
      dsimp only at k1 k2 k3 k4 ⊢
      change wp (do
        let r ← rd (cols shuf n q c) (j - c * q)
        let ix ← wr t1 j r
        let xx ← wr t2 j (val j)
        ok (ix, xx)) _
      rw [rd_getD 0 (show j - c * q < (cols shuf n q c).length by omega), ok_bind, wr_eq (by omega), ok_bind,
        wr_eq (by omega), ok_bind, wp_ok]
      refine ⟨by simpa using k1, by simpa using k2, ?_, ?_⟩
      · rw [take_set_succ _ (by omega), k3, List.append_assoc, show j + 1 - c * q = (j - c * q) + 1 by omega,
          List.take_add_one (i := j - c * q), getElem?_getD 0 (by omega)]
        rfl
      · intro i hi
        rw [getD_set]
        split
        · rename_i h; rw [h.1]
        · exact k4 i (by omega)
    · rintro ⟨t1, t2⟩ ⟨k1, k2, k3, k4⟩
      dsimp only at k1 k2 k3 k4 ⊢
      rw [wp_ok]
      refine ⟨by simpa using h1, ?_, k1, k2, ?_, by rw [Nat.succ_mul]; exact k4⟩
      · intro a ha
        rw [getD_set]
        split
        · rename_i h; rw [← h.1, Nat.succ_mul]
        · exact h2 a (by omega)
      · dsimp only
        rw [Nat.succ_mul, k3, show c * q + q - c * q = (cols shuf n q c).length by omega, List.take_length,
          List.range_succ, List.flatMap_append]
        simp
  · rintro ⟨p, ix, xx⟩ ⟨h1, h2, h3, h4, h5, h6⟩
    dsimp only at h1 h2 h3 h4 h5 h6 ⊢
    rw [wp_ok]
    have hcr : ∀ c, c < n → (⟨n, n, p, ix, xx⟩ : Sp V).colRows c = cols shuf n q c := by
      intro c hc
      have hsl := slice_flatMap (cols shuf n q) hc (l := ix) (by rw [hR n (Nat.le_refl _), h5])
      rw [hR c (by omega), hR (c + 1) hc] at hsl
      unfold colRows
      dsimp only
      rw [h2 c (by omega), h2 (c + 1) hc]
      exact hsl
    refine ⟨_, rfl, ⟨⟨⟨h1, ?_, ?_, ?_, ?_⟩, ?_⟩, ?_, rfl, rfl, ?_, ?_, ?_⟩, hcr, h6⟩
    · show p.getD 0 0 = 0
      rw [h2 0 (by omega)]; simp
    · intro c hc
      show p.getD c 0 ≤ p.getD (c + 1) 0
      have : c < n := hc
      rw [h2 c (by omega), h2 (c + 1) (by omega), Nat.succ_mul]; omega
    · show p.getD n 0 ≤ ix.length
      rw [h2 n (Nat.le_refl _)]; omega
    · intro c hc r hr
      rw [hcr c hc] at hr
      exact (hcol c hc).lt r hr
    · show p.getD n 0 ≤ xx.length
      rw [h2 n (Nat.le_refl _)]; omega
    · show ix.length = p.getD n 0 ∧ xx.length = p.getD n 0
      rw [h2 n (Nat.le_refl _)]; exact ⟨h3, h4⟩
    · intro c hc; rw [hcr c hc]; exact (hcol c hc).len
    · intro c hc; rw [hcr c hc]; exact (hcol c hc).sorted
    · intro c hc; rw [hcr c hc]; exact (hcol c hc).mem

theorem checkAll_eq {lo hi : Nat} {bad : Nat → Res Bool} {f : Nat → Bool}
    (hf : ∀ i, lo ≤ i → i < hi → bad i = ok (f i)) :
    ∃ b, checkAll lo hi bad = ok b ∧ (b = true ↔ ∀ i, lo ≤ i → i < hi → f i = false) := by
  unfold checkAll
  refine wp_iff.1 ?_
  rw [wp_bind]
  by_cases hle : lo ≤ hi
  · refine forRangeB_wp (fun k (_ : Unit) => ∀ i, lo ≤ i → i < k → f i = false)
      (fun b : Bool => b = false ∧ ∃ i, lo ≤ i ∧ i < hi ∧ f i = true) hle (by omega) ?_ |> fun h => wp_mono h ?_
    rotate_left
    · intro k _ h1 h2 hI
      rw [hf k h1 h2, ok_bind, wp_ok]
      cases hb : f k with
      | true => exact ⟨rfl, k, h1, h2, hb⟩
      | false =>
        intro i hi1 hi2
        by_cases h : i = k
        · rw [h]; exact hb
        · exact hI i hi1 (by omega)
    · intro r hr
      cases r with
      | next _ => exact ⟨fun _ => hr, fun _ => rfl⟩
      | brk b =>
        obtain ⟨rfl, i, h1, h2, h3⟩ := hr
        refine ⟨fun h => (by cases h), fun h => ?_⟩
        have := h i h1 h2
        rw [h3] at this
        cases this
  · unfold forRangeB
    rw [show hi - lo = 0 by omega]
    exact ⟨fun _ i _ _ => by omega, fun _ => rfl⟩

/-- The sum of the values with row `r`. -/
def sumAt [Add V] (l : List (Nat × V)) (r : Nat) : V := ((l.filter fun e => e.1 = r).map Prod.snd).foldl (· + ·) 0

theorem sumAt_snoc [Add V] (l : List (Nat × V)) (e : Nat × V) (r : Nat) :
    sumAt (l ++ [e]) r = if e.1 = r then sumAt l r + e.2 else sumAt l r := by
  unfold sumAt
  rw [List.filter_append]
  by_cases h : e.1 = r
  · rw [if_pos h, List.filter_cons_of_pos (by simpa using h), List.map_append, List.foldl_append]
    rfl
  · rw [if_neg h, List.filter_cons_of_neg (by simpa using h)]
    simp

theorem rhsBlocked_wp [Add V] {n : Nat} {Ap Ai AiP : List Nat} {Ax b : List V}
    (hp : n + 1 ≤ Ap.length) (hq : n ≤ AiP.length) (hm : ∀ c, c < n → Ap.getD c 0 ≤ Ap.getD (c + 1) 0)
    (hx : ∀ c, c < n → Ap.getD (c + 1) 0 ≤ Ax.length)
    (hi : ∀ c, c < n → AiP.getD c 0 + (Ap.getD (c + 1) 0 - Ap.getD c 0) ≤ Ai.length)
    (hr : ∀ e ∈ blockedTerms n Ap Ai AiP Ax, e.1 < n) (hb : b.length = n) :
    wp (rhsBlocked n Ap Ai AiP Ax b) fun b' => b'.length = n ∧
      ∀ r, r < n → b'.getD r 0 = sumAt (blockedTerms n Ap Ai AiP Ax) r := by
  unfold rhsBlocked
  rw [wp_bind]
  refine forRange_wp' (fun k (b : List V) => b.length = n ∧ ∀ r, r < k → b.getD r 0 = 0)
    (Nat.zero_le _) ⟨hb, by omega⟩ ?_ ?_
  · intro k b _ hk ⟨h1, h2⟩
    rw [wr_eq (by omega), wp_ok]
    refine ⟨by simpa using h1, ?_⟩
    intro r hr
    rw [getD_set]
    split
    · rfl
    · exact h2 r (by omega)
  intro b ⟨h1, h2⟩
  let T : Nat → List (Nat × V) := fun c => (List.range (Ap.getD (c + 1) 0 - Ap.getD c 0)).map fun j =>
    (Ai.getD (AiP.getD c 0 + j) 0, Ax.getD (Ap.getD c 0 + j) 0)
  have hT : blockedTerms n Ap Ai AiP Ax = (List.range n).flatMap T := rfl
  refine forRange_wp' (fun c (b : List V) => b.length = n ∧
    ∀ r, r < n → b.getD r 0 = sumAt ((List.range c).flatMap T) r) (Nat.zero_le _) ⟨h1, ?_⟩ ?_ ?_
  · intro r hr; rw [h2 r hr]; rfl
  · rintro c b _ hc ⟨k1, k2⟩
    rw [rd_getD 0 (by omega), ok_bind, rd_getD 0 (by omega), ok_bind]
    have hmc := hm c hc
    have hxc := hx c hc
    have hic := hi c hc
    refine forRange_wp' (fun j (b : List V) => b.length = n ∧ ∀ r, r < n → b.getD r 0
      = sumAt ((List.range c).flatMap T ++ (T c).take (j - Ap.getD c 0)) r) hmc ⟨k1, ?_⟩ ?_ ?_
    · intro r hr; rw [k2 r hr]; simp
    · rintro j b hj1 hj2 ⟨m1, m2⟩
      rw [rd_getD 0 (by omega), ok_bind, rd_getD 0 (by omega), ok_bind]
      have hmem : (Ai.getD (AiP.getD c 0 + (j - Ap.getD c 0)) 0, Ax.getD j 0) ∈ T c := by
        refine List.mem_map.2 ⟨j - Ap.getD c 0, List.mem_range.2 (by omega), ?_⟩
        rw [show Ap.getD c 0 + (j - Ap.getD c 0) = j by omega]
      have hlt := hr _ (by rw [hT]; exact List.mem_flatMap.2 ⟨c, List.mem_range.2 hc, hmem⟩)
      dsimp only at hlt
      rw [rd_getD 0 (by omega), ok_bind, rd_getD 0 (by omega), ok_bind, wr_eq (by omega), wp_ok]
      refine ⟨by simpa using m1, ?_⟩
      intro r hr
      have hTl : (T c).length = Ap.getD (c + 1) 0 - Ap.getD c 0 := by simp [T]
      have hTj : (T c)[j - Ap.getD c 0]?
          = some (Ai.getD (AiP.getD c 0 + (j - Ap.getD c 0)) 0, Ax.getD j 0) := by
        simp only [T]
        rw [List.getElem?_map, List.getElem?_range (by omega), Option.map_some,
          show Ap.getD c 0 + (j - Ap.getD c 0) = j by omega]
      rw [show j + 1 - Ap.getD c 0 = (j - Ap.getD c 0) + 1 by omega, List.take_add_one, hTj, ← List.append_assoc,
        Option.toList_some, sumAt_snoc, getD_set]
      by_cases h : Ai.getD (AiP.getD c 0 + (j - Ap.getD c 0)) 0 = r
      · rw [if_pos ⟨h, by omega⟩, if_pos h, ← m2 r hr, h]
      · rw [if_neg (by tauto), if_neg h, m2 r hr]
    · rintro b ⟨m1, m2⟩
      refine ⟨m1, fun r hr => ?_⟩
      rw [m2 r hr, List.range_succ, List.flatMap_append, List.take_of_length_le (by simp [T])]
      simp
  · rintro b ⟨k1, k2⟩
    exact ⟨k1, k2⟩

end Verif.TestU
