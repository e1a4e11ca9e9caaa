import Verif.Model.Utils
import Verif.Proof.SparseHalf

/-! # rhs_init -/

namespace Verif.Util
open Res Sp

variable {V : Type} [Zero V] [Add V] {A : Sp V}

/-- Left-to-right sum of the values of row `r`, in storage order. -/
def rowSumL (A : Sp V) (r : Nat) : V :=
  ((A.entries.filter fun e => e.1 = r).map fun e => e.2.2).foldl (· + ·) 0

theorem rhsInit_wp (h : A.WF) (hsq : A.rows = A.cols) {b : List V} (hb : b.length = A.cols) :
    wp (rhsInit A.cols A b) fun b' => b'.length = A.cols ∧
      ∀ r, r < A.cols → b'.getD r 0 = rowSumL A r := by
  have hp := h.toPatWF
  unfold rhsInit
  rw [wp_bind]
  refine forRange_wp' (fun k (b : List V) => b.length = A.cols ∧ ∀ r, r < k → b.getD r 0 = 0)
    (Nat.zero_le _) ⟨hb, by omega⟩ ?_ ?_
  · intro k b _ hk ⟨h1, h2⟩
    rw [wr_eq (by omega), wp_ok]
    refine ⟨by simpa using h1, ?_⟩
    intro r hr
    rw [getD_set]
    split
    · rfl
    · exact h2 r (by omega)
  intro b ⟨h1, h2⟩
  have hval : ∀ pre r, ((pre : List ((Nat × Nat) × Nat)).filter fun e => eRow e = r).map A.eVal
      = ((pre.map fun e => (e.1.1, e.1.2, A.x.getD e.2 0)).filter fun e => e.1 = r).map
        fun e => e.2.2 := by
    intro pre r
    rw [List.filter_map, List.map_map]
    rfl
  have hw := forCols_wp hp (fun pre (b : List V) => b.length = A.cols ∧
      ∀ r, r < A.cols → b.getD r 0 = ((pre.filter fun e => eRow e = r).map A.eVal).foldl (· + ·) 0)
    (body := fun _ k b => do
      let r ← rd A.i k
      let v ← rd b r
      let a ← rd A.x k
      wr b r (v + a)) (s := b) ⟨h1, fun r hr => h2 r hr⟩ ?_
  · refine wp_mono hw ?_
    rintro b' ⟨k1, k2⟩
    refine ⟨k1, fun r hr => ?_⟩
    rw [k2 r hr, hval, ← entries_eq h]
    rfl
  · rintro pre post r c j b he hj hc hr ⟨k1, k2⟩
    have hrr : r < A.rows := tagged_rows hp ((r, c), j) (by rw [he]; simp)
    rw [rd_i hr, ok_bind, rd_getD 0 (by omega), ok_bind, rd_x (e := ((r, c), j)) h he hj, ok_bind,
      wr_eq (by omega), wp_ok]
    refine ⟨by simpa using k1, ?_⟩
    intro r' hr'
    rw [getD_set]
    by_cases e : r = r'
    · subst e
      rw [if_pos ⟨rfl, by omega⟩, List.filter_append, List.filter_cons_of_pos (by simp),
        List.map_append, List.foldl_append, ← k2 r hr']
      rfl
    · rw [if_neg (by tauto), k2 r' hr', List.filter_append,
        List.filter_cons_of_neg (by simpa using e)]
      simp

end Verif.Util
