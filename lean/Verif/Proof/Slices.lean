import Verif.Spec.Sched
import Mathlib.Data.List.Basic
import Mathlib.Data.List.Range
import Mathlib.Data.List.Nodup
import Mathlib.Tactic.Push

/-! Slices of lists and pointer arrays. -/

namespace Verif

/-- Positions `a .. b-1` of a list. -/
def slice {α : Type _} (l : List α) (a b : Nat) : List α := (l.drop a).take (b - a)

section
variable {α : Type _}

theorem slice_length {l : List α} {a b : Nat} (hb : b ≤ l.length) :
    (slice l a b).length = b - a := by
  simp [slice]; omega

theorem getElem?_slice (l : List α) (a b k : Nat) :
    (slice l a b)[k]? = if a + k < b then l[a + k]? else none := by
  rw [slice, List.getElem?_take]
  by_cases h : a + k < b
  · rw [if_pos (by omega), if_pos h, List.getElem?_drop]
  · rw [if_neg (by omega), if_neg h]

theorem mem_slice {l : List α} {a b : Nat} {v : α} :
    v ∈ slice l a b ↔ ∃ k, a ≤ k ∧ k < b ∧ l[k]? = some v := by
  rw [List.mem_iff_getElem?]
  constructor
  · rintro ⟨k, hk⟩
    rw [getElem?_slice] at hk
    split at hk
    · exact ⟨a + k, by omega, by omega, hk⟩
    · cases hk
  · rintro ⟨k, h1, h2, h3⟩
    refine ⟨k - a, ?_⟩
    rw [getElem?_slice, if_pos (by omega), show a + (k - a) = k by omega]
    exact h3

theorem slice_append {l : List α} {a b c : Nat} (h1 : a ≤ b) (h2 : b ≤ c) :
    slice l a b ++ slice l b c = slice l a c := by
  unfold slice
  have : c - a = (b - a) + (c - b) := by omega
  rw [this, List.take_add, List.drop_drop]
  congr 3
  omega

theorem slice_self (l : List α) (a : Nat) : slice l a a = [] := by simp [slice]

theorem slice_zero (l : List α) (b : Nat) : slice l 0 b = l.take b := by simp [slice]

theorem slice_succ {l : List α} {a b : Nat} {v : α} (h : a ≤ b) (hv : l[b]? = some v) :
    slice l a (b + 1) = slice l a b ++ [v] := by
  rw [← slice_append h (Nat.le_succ b)]
  congr 1
  have hb : b < l.length := by
    by_contra hc
    rw [List.getElem?_eq_none (by omega)] at hv; cases hv
  rw [List.getElem?_eq_getElem hb, Option.some.injEq] at hv
  rw [slice, List.drop_eq_getElem_cons hb, show b.succ - b = 1 by omega, hv]
  simp

theorem slice_one {l : List α} {k : Nat} (h : k < l.length) : slice l k (k + 1) = [l[k]] := by
  rw [slice_succ (Nat.le_refl _) (List.getElem?_eq_getElem h), slice_self]; rfl

theorem slice_range {N a b : Nat} (hb : b ≤ N) :
    slice (List.range N) a b = List.range' a (b - a) := by
  apply List.ext_getElem?
  intro k
  rw [getElem?_slice]
  by_cases h : a + k < b
  · rw [if_pos h, List.getElem?_range (by omega), List.getElem?_range' (by omega)]
    simp
  · rw [if_neg h, List.getElem?_eq_none (by simp; omega)]

/-- The blocks of a monotone pointer array concatenate to the whole. -/
theorem flatMap_slices (l : List α) (ptr : List Nat) (m : Nat) (h0 : ptr.getD 0 0 = 0)
    (hm : ∀ b, b < m → ptr.getD b 0 ≤ ptr.getD (b + 1) 0) :
    (List.range m).flatMap (fun b => slice l (ptr.getD b 0) (ptr.getD (b + 1) 0))
      = l.take (ptr.getD m 0) := by
  induction m with
  | zero => rw [h0]; simp
  | succ m ih =>
    rw [List.range_succ, List.flatMap_append, ih (fun b hb => hm b (by omega))]
    simp only [List.flatMap_cons, List.flatMap_nil, List.append_nil]
    rw [← slice_zero, slice_append (Nat.zero_le _) (hm m (by omega)), slice_zero]

theorem nodup_getElem?_inj {l : List α} (hn : l.Nodup) {i j : Nat} {v : α}
    (hi : l[i]? = some v) (hj : l[j]? = some v) : i = j := by
  have h1 : i < l.length := by
    by_contra hc; rw [List.getElem?_eq_none (by omega)] at hi; cases hi
  have h2 : j < l.length := by
    by_contra hc; rw [List.getElem?_eq_none (by omega)] at hj; cases hj
  rw [List.getElem?_eq_getElem h1, Option.some.injEq] at hi
  rw [List.getElem?_eq_getElem h2, Option.some.injEq] at hj
  exact (List.Nodup.getElem_inj_iff hn).1 (hi.trans hj.symm)

end

namespace PtrOk
variable {ptr : List Nat} {m total : Nat}

theorem len (h : PtrOk ptr m total) : m < ptr.length := by
  by_contra hc
  have := h.last
  rw [List.getElem?_eq_none (by omega)] at this; cases this

theorem get (h : PtrOk ptr m total) {b : Nat} (hb : b ≤ m) : ptr[b]? = some (ptr.getD b 0) := by
  have := h.len
  have hb' : b < ptr.length := by omega
  simp [hb']

theorem d0 (h : PtrOk ptr m total) : ptr.getD 0 0 = 0 := by
  rw [List.getD_eq_getElem?_getD, h.first]; rfl

theorem dlast (h : PtrOk ptr m total) : ptr.getD m 0 = total := by
  rw [List.getD_eq_getElem?_getD, h.last]; rfl

theorem dmono (h : PtrOk ptr m total) {b : Nat} (hb : b < m) :
    ptr.getD b 0 ≤ ptr.getD (b + 1) 0 :=
  h.mono b hb _ _ (h.get (by omega)) (h.get (by omega))

theorem dmono_le (h : PtrOk ptr m total) {a b : Nat} (hab : a ≤ b) (hb : b ≤ m) :
    ptr.getD a 0 ≤ ptr.getD b 0 := by
  induction b with
  | zero => have : a = 0 := by omega
            subst this; exact Nat.le_refl _
  | succ b ih =>
    rcases Nat.lt_or_ge a (b + 1) with h1 | h1
    · exact Nat.le_trans (ih (by omega) (by omega)) (h.dmono (by omega))
    · have : a = b + 1 := by omega
      subst this; exact Nat.le_refl _

theorem dle (h : PtrOk ptr m total) {b : Nat} (hb : b ≤ m) : ptr.getD b 0 ≤ total := by
  rw [← h.dlast]; exact h.dmono_le hb (Nat.le_refl _)

theorem inBlock_iff (h : PtrOk ptr m total) {b k : Nat} (hb : b < m) :
    InBlock ptr b k ↔ ptr.getD b 0 ≤ k ∧ k < ptr.getD (b + 1) 0 := by
  unfold InBlock
  rw [h.get (b := b) (by omega), h.get (b := b + 1) (by omega)]
  constructor
  · rintro ⟨lo, hi, h1, h2, h3, h4⟩
    simp only [Option.some.injEq] at h1 h2
    omega
  · rintro ⟨h1, h2⟩
    exact ⟨_, _, rfl, rfl, h1, h2⟩

theorem exists_block (h : PtrOk ptr m total) {k : Nat} (hk : k < total) :
    ∃ b, b < m ∧ ptr.getD b 0 ≤ k ∧ k < ptr.getD (b + 1) 0 := by
  rw [← h.dlast] at hk
  have h0 := h.d0
  clear h
  induction m with
  | zero => omega
  | succ m ih =>
    by_cases hkm : k < ptr.getD m 0
    · obtain ⟨m', h1, h2⟩ := ih hkm
      exact ⟨m', by omega, h2⟩
    · exact ⟨m, by omega, by omega, hk⟩

/-- Build `PtrOk` from `getD` facts. -/
theorem mk' (hl : m < ptr.length) (h0 : ptr.getD 0 0 = 0) (hlast : ptr.getD m 0 = total)
    (hm : ∀ b, b < m → ptr.getD b 0 ≤ ptr.getD (b + 1) 0) : PtrOk ptr m total := by
  have hget : ∀ b, b ≤ m → ptr[b]? = some (ptr.getD b 0) := by
    intro b hb
    have hb' : b < ptr.length := by omega
    simp [hb']
  refine ⟨by rw [hget 0 (by omega), h0], by rw [hget m (by omega), hlast], ?_⟩
  intro b hb lo hi h1 h2
  rw [hget b (by omega), Option.some.injEq] at h1
  rw [hget (b + 1) (by omega), Option.some.injEq] at h2
  rw [← h1, ← h2]; exact hm b hb

/-- Blocks are disjoint. -/
theorem block_unique (h : PtrOk ptr m total) {a b k : Nat} (ha : a < m) (hb : b < m)
    (h1 : ptr.getD a 0 ≤ k) (h2 : k < ptr.getD (a + 1) 0)
    (h3 : ptr.getD b 0 ≤ k) (h4 : k < ptr.getD (b + 1) 0) : a = b := by
  by_contra hne
  rcases Nat.lt_or_gt_of_ne hne with h5 | h5
  · have := h.dmono_le (a := a + 1) (b := b) (by omega) (by omega)
    omega
  · have := h.dmono_le (a := b + 1) (b := a) (by omega) (by omega)
    omega

end PtrOk

end Verif
