import Verif.Spec.Graph
import Verif.ResLemmas
import Mathlib.Algebra.BigOperators.Group.Finset.Basic
import Mathlib.Algebra.BigOperators.Ring.Finset
import Mathlib.Algebra.Order.BigOperators.Group.Finset
import Mathlib.Data.List.Count
import Mathlib.Data.List.Nodup
import Mathlib.Data.List.Range
import Mathlib.Tactic.Push

/-! Basic facts about `Csc` graphs. -/

namespace Verif
namespace Csc
open Res

variable {g : Csc}

theorem WF.mono_le (h : g.WF) {a b : Nat} (hab : a ≤ b) (hb : b ≤ g.n) : g.ptr a ≤ g.ptr b := by
  induction b with
  | zero => have : a = 0 := by omega
            subst this; exact le_refl _
  | succ b ih =>
    rcases Nat.lt_or_ge a (b + 1) with h1 | h1
    · exact le_trans (ih (by omega) (by omega)) (h.mono b (by omega))
    · have : a = b + 1 := by omega
      subst this; exact le_refl _

theorem WF.ptr_le (h : g.WF) {a : Nat} (ha : a ≤ g.n) : g.ptr a ≤ g.i.length :=
  le_trans (h.mono_le ha (le_refl _)) h.bound

theorem WF.rd_p (h : g.WF) {k : Nat} (hk : k ≤ g.n) : rd g.p k = ok (g.ptr k) :=
  rd_getD 0 (by have := h.plen; omega)

theorem WF.rd_i (h : g.WF) {j : Nat} (hj : j < g.ptr g.n) : rd g.i j = ok (g.idx j) :=
  rd_getD 0 (by have := h.bound; omega)

theorem WF.col_length (h : g.WF) {u : Nat} (hu : u < g.n) :
    (g.col u).length = g.ptr (u + 1) - g.ptr u := by
  have := h.ptr_le (a := u + 1) (by omega)
  simp [col]; omega

theorem WF.mem_col (h : g.WF) {u v : Nat} (hu : u < g.n) :
    v ∈ g.col u ↔ ∃ j, g.ptr u ≤ j ∧ j < g.ptr (u + 1) ∧ g.idx j = v := by
  have hl := h.ptr_le (a := u + 1) (by omega)
  rw [col, List.mem_iff_getElem?]
  constructor
  · rintro ⟨k, hk⟩
    rw [List.getElem?_take] at hk
    split at hk
    · rw [List.getElem?_drop] at hk
      exact ⟨g.ptr u + k, by omega, by omega, by simp [idx, hk]⟩
    · simp at hk
  · rintro ⟨j, h1, h2, h3⟩
    refine ⟨j - g.ptr u, ?_⟩
    rw [List.getElem?_take, if_pos (by omega), List.getElem?_drop]
    have : g.ptr u + (j - g.ptr u) = j := by omega
    rw [this, ← h3, idx, List.getD_eq_getElem?_getD, List.getElem?_eq_getElem (by omega)]
    rfl

theorem WF.idx_lt (h : g.WF) {u j : Nat} (hu : u < g.n) (h1 : g.ptr u ≤ j)
    (h2 : j < g.ptr (u + 1)) : g.idx j < g.n :=
  h.range u hu _ ((h.mem_col hu).2 ⟨j, h1, h2, rfl⟩)

theorem WF.dep_lt (h : g.WF) {u v : Nat} (hd : g.Dep u v) : u < g.n ∧ v < g.n :=
  ⟨hd.1, h.range u hd.1 v hd.2.1⟩

/-- The stored indices are the concatenation of the columns. -/
theorem WF.take_eq_flatten (h : g.WF) {k : Nat} (hk : k ≤ g.n) :
    g.i.take (g.ptr k) = ((List.range k).map g.col).flatten := by
  induction k with
  | zero => simp [h.p0]
  | succ k ih =>
    have h1 := h.mono k (by omega)
    rw [List.range_succ, List.map_append, List.flatten_append, ← ih (by omega)]
    simp only [List.map_cons, List.map_nil, List.flatten_cons, List.flatten_nil, List.append_nil,
      col]
    rw [← List.take_add]
    congr 1; omega

/-- Number of entries with index `v` among all columns. -/
theorem WF.count_take (h : g.WF) {k : Nat} (hk : k ≤ g.n) (v : Nat) :
    (g.i.take (g.ptr k)).count v = ∑ u ∈ Finset.range k, (g.col u).count v := by
  rw [h.take_eq_flatten hk]
  clear hk
  induction k with
  | zero => simp
  | succ k ih =>
    rw [Finset.sum_range_succ, List.range_succ]
    simp [List.count_append, ih]

/-- Number of entries `v` in columns of other nodes not in `S`: what is left of the in-degree. -/
def remIn (g : Csc) (S : List Nat) (v : Nat) : Nat :=
  ∑ u ∈ Finset.range g.n, if u ∈ S ∨ u = v then 0 else (g.col u).count v

theorem remIn_eq_zero {S : List Nat} {v : Nat} :
    g.remIn S v = 0 ↔ ∀ u, g.Dep u v → u ∈ S := by
  simp only [remIn, Finset.sum_eq_zero_iff, Finset.mem_range, Dep]
  constructor
  · intro h u ⟨hu, hm, hne⟩
    by_contra hns
    have := h u hu
    rw [if_neg (by tauto), List.count_eq_zero] at this
    exact this hm
  · intro h u hu
    split
    · rfl
    · rename_i hn
      rw [List.count_eq_zero]
      intro hm
      exact hn (Or.inl (h u ⟨hu, hm, by tauto⟩))

theorem remIn_append {S : List Nat} {c v : Nat} (hc : c < g.n) (hn : c ∉ S) :
    g.remIn S v = g.remIn (S ++ [c]) v + (if c = v then 0 else (g.col c).count v) := by
  simp only [remIn]
  rw [← Finset.add_sum_erase _ _ (Finset.mem_range.2 hc),
    ← Finset.add_sum_erase (Finset.range g.n) (fun u => if u ∈ S ++ [c] ∨ u = v then 0 else _)
      (Finset.mem_range.2 hc)]
  have h1 : ∑ x ∈ (Finset.range g.n).erase c, (if x ∈ S ∨ x = v then 0 else (g.col x).count v)
      = ∑ x ∈ (Finset.range g.n).erase c,
        (if x ∈ S ++ [c] ∨ x = v then 0 else (g.col x).count v) := by
    apply Finset.sum_congr rfl
    intro x hx
    have hx' := Finset.ne_of_mem_erase hx
    have : (x ∈ S ++ [c] ∨ x = v) ↔ (x ∈ S ∨ x = v) := by simp [hx']
    simp only [this]
  rw [h1]
  simp [hn]
  omega

theorem WF.remIn_nil (h : g.WF) (hd : g.OneDiag) {v : Nat} (hv : v < g.n) :
    (g.i.take (g.ptr g.n)).count v = 1 + g.remIn [] v := by
  rw [h.count_take (le_refl _), remIn]
  rw [← Finset.add_sum_erase _ _ (Finset.mem_range.2 hv),
    ← Finset.add_sum_erase (Finset.range g.n)
      (fun u => if u ∈ [] ∨ u = v then 0 else (g.col u).count v) (Finset.mem_range.2 hv)]
  rw [hd v hv]
  simp
  apply Finset.sum_congr rfl
  intro x hx
  simp [Finset.ne_of_mem_erase hx]

/-! ### Paths -/

theorem PathTo.lt (h : g.WF) {k v : Nat} (hp : g.PathTo k v) : v < g.n := by
  cases hp with
  | nil hv => exact hv
  | snoc _ hd => exact (h.dep_lt hd).2

theorem pathTo_zero {v : Nat} : g.PathTo 0 v ↔ v < g.n := by
  constructor
  · intro h; cases h; assumption
  · exact PathTo.nil

theorem pathTo_succ {k v : Nat} : g.PathTo (k + 1) v ↔ ∃ u, g.PathTo k u ∧ g.Dep u v := by
  constructor
  · intro h
    cases h with
    | snoc h1 h2 => exact ⟨_, h1, h2⟩
  · rintro ⟨u, h1, h2⟩; exact .snoc h1 h2

/-- Prefixes of paths: a path with `k+1` edges can be shortened at the front. -/
theorem PathTo.shorten (h : g.WF) {k v : Nat} (hp : g.PathTo (k + 1) v) : g.PathTo k v := by
  induction k generalizing v with
  | zero => exact .nil (hp.lt h)
  | succ k ih =>
    obtain ⟨u, h1, h2⟩ := pathTo_succ.1 hp
    exact .snoc (ih h1) h2

theorem PathTo.le (h : g.WF) {k m v : Nat} (hp : g.PathTo k v) (hm : m ≤ k) : g.PathTo m v := by
  induction k with
  | zero => have : m = 0 := by omega
            subst this; exact hp
  | succ k ih =>
    rcases Nat.lt_or_ge m (k + 1) with h1 | h1
    · exact ih (hp.shorten h) (by omega)
    · have : m = k + 1 := by omega
      subst this; exact hp

end Csc
end Verif
