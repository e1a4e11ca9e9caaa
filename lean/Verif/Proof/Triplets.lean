import Verif.Model.Utils
import Verif.Proof.SparsePerm

/-! # compress_triplets_to_csc -/

namespace Verif.Util
open Res Sp

theorem drop_below {α : Type} {key : α → Nat} {vec : List α} {m : Nat}
    (hs : vec.Pairwise fun a b => key a ≤ key b) (hk : ∀ a ∈ vec, key a < m) {j : Nat} (hj : j ≤ m) :
    bucket j key vec ++ vec.drop (below key vec j) = vec := by
  have hp := bucket_prefix key vec hj
  rw [bucket_sorted_all hs hk] at hp
  obtain ⟨t, ht⟩ := hp
  have : vec.drop (below key vec j) = t := by
    calc vec.drop (below key vec j)
        = (bucket j key vec ++ t).drop (bucket j key vec).length := by rw [ht, bucket_length_below]
      _ = t := List.drop_left
  rw [this, ht]

theorem drop_below_step {α : Type} {key : α → Nat} {vec : List α} {m : Nat}
    (hs : vec.Pairwise fun a b => key a ≤ key b) (hk : ∀ a ∈ vec, key a < m) {j : Nat} (hj : j < m) :
    vec.drop (below key vec j)
      = vec.filter (fun a => key a = j) ++ vec.drop (below key vec (j + 1)) := by
  have h1 := drop_below hs hk (le_of_lt hj)
  have h2 := drop_below hs hk (show j + 1 ≤ m from hj)
  rw [bucket_succ, List.append_assoc] at h2
  exact List.append_cancel_left (h1.trans h2.symm)

variable {V : Type} [Zero V]

/-- Column of a triplet. -/
def tcol (t : Trip V) : Nat := t.2.1

/-- What the function stores for column `j`. -/
def trBlock (addDiags : Bool) (vec : List (Trip V)) (j : Nat) : List (Trip V) :=
  if cntKey tcol vec j = 0 ∧ addDiags = true then [(j, j, 0)]
  else vec.filter fun t => tcol t = j

theorem block_length (addDiags : Bool) (vec : List (Trip V)) (j : Nat) :
    (trBlock addDiags vec j).length
      = cntKey tcol vec j + if cntKey tcol vec j = 0 ∧ addDiags = true then 1 else 0 := by
  unfold trBlock
  split
  · rename_i h; rw [h.1]; rfl
  · rw [filter_length]; rfl

theorem below_le_tot (addDiags : Bool) (vec : List (Trip V)) (j : Nat) :
    below tcol vec j ≤ tot (trBlock addDiags vec) j := by
  induction j with
  | zero => rw [below_zero]; exact Nat.zero_le _
  | succ j ih => rw [below_succ, tot_succ, block_length]; omega

theorem compressSorted_wp (dbg addDiags : Bool) {rows cols : Nat} {vec : List (Trip V)}
    (hn : 0 < cols) (hs : vec.Pairwise fun a b => tcol a ≤ tcol b) (hk : ∀ t ∈ vec, tcol t < cols) :
    wp (compressSorted dbg addDiags rows cols vec.length vec) fun B =>
      B.rows = rows ∧ B.cols = cols ∧
      B.p = (List.range (cols + 1)).map (tot (trBlock addDiags vec)) ∧
      B.i = (((List.range cols).flatMap (trBlock addDiags vec)).take vec.length).map (fun t => t.1) ∧
      B.x = (((List.range cols).flatMap (trBlock addDiags vec)).take vec.length).map
        (fun t => t.2.2) := by
  unfold compressSorted
  have hdbg : (dbg && !decide (vec.length = vec.length)) = false := by simp
  rw [hdbg, if_neg (by simp), ok_bind, wp_bind]
  refine forRange_wp' (fun k cnt => cnt = cntArr tcol cols (vec.take k)) (Nat.zero_le _)
    (by rw [List.take_zero, cntArr_nil]) ?_ ?_
  · rintro k cnt _ hkk rfl
    have hm : tcol vec[k] < cols := hk _ (List.getElem_mem hkk)
    rw [rd_eq hkk, ok_bind]
    show wp (rd _ (tcol vec[k]) >>= _) _
    rw [cntArr_rd _ _ hm, ok_bind]
    show wp (wr _ (tcol vec[k]) _) _
    rw [cntArr_wr _ _ hm, wp_ok, List.take_succ_eq_append_getElem hkk]
  rintro cnt rfl
  rw [List.take_length, if_neg (by omega), wr_eq (by simp), ok_bind, wp_bind]
  set Bl := trBlock addDiags vec with hBl
  refine forRange_wp' (fun j (s : List Nat × List (Trip V)) => s.1.length = cols + 1 ∧
      (∀ m, m ≤ j → s.1.getD m 0 = tot Bl m) ∧
      s.2 = (List.range j).flatMap Bl ++ vec.drop (below tcol vec j)) (Nat.zero_le _) ?_ ?_ ?_
  · refine ⟨by simp, ?_, ?_⟩
    · intro m hm
      have : m = 0 := by omega
      subst this
      rw [getD_set, if_pos ⟨rfl, by simp⟩]; rfl
    · rw [below_zero]; rfl
  · rintro j s _ hj ⟨h1, h2, h3⟩
    rw [cntArr_rd _ _ hj, ok_bind, rd_getD 0 (by omega), ok_bind, h2 j (le_refl _)]
    have hstep := drop_below_step hs hk hj
    have hset : ∀ v, v = tot Bl (j + 1) → ∀ m, m ≤ j + 1 → (s.1.set (j + 1) v).getD m 0 = tot Bl m := by
      rintro v rfl m hm
      rw [getD_set]
      by_cases e : j + 1 = m
      · rw [if_pos ⟨e, by omega⟩, e]
      · rw [if_neg (by simp [e])]; exact h2 m (by omega)
    split
    · rename_i hc
      have hb : Bl j = [(j, j, 0)] := by rw [hBl]; unfold trBlock; rw [if_pos hc]
      have hlen : tot Bl j ≤ s.2.length := by rw [h3, List.length_append]; exact Nat.le_add_right _ _
      rw [insertAt, if_pos hlen, ok_bind, wr_eq (by omega), ok_bind, wp_ok]
      refine ⟨by simpa using h1, hset _ (by rw [tot_succ, hb]; rfl), ?_⟩
      have e : below tcol vec (j + 1) = below tcol vec j := by rw [below_succ, hc.1]; rfl
      show List.take (tot Bl j) s.2 ++ (j, j, 0) :: List.drop (tot Bl j) s.2 = _
      rw [h3, e, show tot Bl j = ((List.range j).flatMap Bl).length from rfl, List.take_left,
        List.drop_left, flatMap_range_succ, hb, List.append_assoc]
      rfl
    · rename_i hc
      have hb : Bl j = vec.filter fun t => tcol t = j := by
        rw [hBl]; unfold trBlock; rw [if_neg hc]
      rw [wr_eq (by omega), ok_bind, wp_ok]
      refine ⟨by simpa using h1, hset _ (by rw [tot_succ, hb, filter_length]), ?_⟩
      show s.2 = _
      rw [h3, hstep, flatMap_range_succ, hb, List.append_assoc]
  rintro ⟨p, vec'⟩ ⟨h1, h2, h3⟩
  dsimp only at h1 h2 h3 ⊢
  rw [below_all _ _ _ hk, List.drop_length, List.append_nil] at h3
  have hlen : vec.length ≤ vec'.length := by
    rw [h3, ← below_all _ _ _ hk]
    exact below_le_tot addDiags vec cols
  rw [wp_bind]
  refine forRange_wp' (fun k (t : List Nat × List V) => t.1.length = vec.length ∧
      t.2.length = vec.length ∧ t.1.take k = (vec'.take k).map (fun t => t.1) ∧
      t.2.take k = (vec'.take k).map (fun t => t.2.2)) (Nat.zero_le _)
    ⟨by simp, by simp, by simp, by simp⟩ ?_ ?_
  · rintro k t _ hkk ⟨k1, k2, k3, k4⟩
    rw [rd_eq (show k < vec'.length by omega), ok_bind, wr_eq (by omega), ok_bind, wr_eq (by omega),
      ok_bind, wp_ok]
    refine ⟨by simpa using k1, by simpa using k2, ?_, ?_⟩
    · rw [take_set_succ _ (by omega), k3, List.take_succ_eq_append_getElem (show k < vec'.length by omega), List.map_append]; rfl
    · rw [take_set_succ _ (by omega), k4, List.take_succ_eq_append_getElem (show k < vec'.length by omega), List.map_append]; rfl
  · rintro t ⟨k1, k2, k3, k4⟩
    rw [wp_ok]
    refine ⟨rfl, rfl, ?_, ?_, ?_⟩
    · refine ext_getD 0 (by simp [h1]) ?_
      intro m hm
      rw [h2 m (by simp only [h1] at hm; omega)]
      simp only [h1] at hm
      simp [List.getD_eq_getElem?_getD, hm]
    · rw [← k1, List.take_length] at k3
      show t.1 = _
      rw [k3, k1, h3]
    · rw [← k2, List.take_length] at k4
      show t.2 = _
      rw [k4, k2, h3]

end Verif.Util
