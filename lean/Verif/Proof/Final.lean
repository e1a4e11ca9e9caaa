import Verif.Model.Final
import Verif.Proof.Ungroup
import Verif.Proof.TreeLoop
import Verif.Proof.ExecSeq

/-! # Post-processing of schedules -/

namespace Verif.Final
open Res
open Verif.Group (lastPtr lastPtr_append back_eq)

/-! ### `getFinalScheduleDAG` -/

/-- The boundaries of the first `q` parts, each once. -/
structure Cuts (pp ptr : List Nat) (q : Nat) : Prop where
  ne : ptr ≠ []
  sort : ptr.Pairwise (· < ·)
  last : lastPtr ptr = pp.getD q 0
  sound : ∀ k ∈ ptr, ∃ q', q' ≤ q ∧ k = pp.getD q' 0
  all : ∀ q', q' ≤ q → pp.getD q' 0 ∈ ptr

theorem sorted_le_last {ptr : List Nat} (h : ptr.Pairwise (· < ·)) {k : Nat} (hk : k ∈ ptr) :
    k ≤ lastPtr ptr := by
  obtain ⟨i, hi, rfl⟩ := List.getElem_of_mem hk
  unfold lastPtr
  rw [List.getD_eq_getElem?_getD, List.getElem?_eq_getElem (by omega)]
  rcases Nat.lt_or_ge i (ptr.length - 1) with h1 | h1
  · exact le_of_lt (List.pairwise_iff_getElem.1 h i (ptr.length - 1) hi (by omega) h1)
  · have : i = ptr.length - 1 := by omega
    subst this; exact le_refl _

theorem Cuts.push {pp ptr : List Nat} {q : Nat} (h : Cuts pp ptr q)
    (hle : pp.getD q 0 ≤ pp.getD (q + 1) 0) :
    Cuts pp (if lastPtr ptr ≠ pp.getD (q + 1) 0 then ptr ++ [pp.getD (q + 1) 0] else ptr) (q + 1) := by
  have hl := h.last
  split
  · next hne =>
    refine ⟨by simp, ?_, lastPtr_append _ _, ?_, ?_⟩
    · rw [List.pairwise_append]
      refine ⟨h.sort, by simp, ?_⟩
      intro x hx y hy
      rw [List.mem_singleton] at hy
      have := sorted_le_last h.sort hx
      omega
    · intro k hk
      rw [List.mem_append, List.mem_singleton] at hk
      rcases hk with hk | hk
      · obtain ⟨q', h1, h2⟩ := h.sound k hk
        exact ⟨q', by omega, h2⟩
      · exact ⟨q + 1, le_refl _, hk⟩
    · intro q' hq'
      rw [List.mem_append, List.mem_singleton]
      rcases Nat.lt_or_ge q q' with h1 | h1
      · have : q' = q + 1 := by omega
        subst this; exact .inr rfl
      · exact .inl (h.all q' h1)
  · next he =>
    rw [not_not] at he
    refine ⟨h.ne, h.sort, he, ?_, ?_⟩
    · intro k hk
      obtain ⟨q', h1, h2⟩ := h.sound k hk
      exact ⟨q', by omega, h2⟩
    · intro q' hq'
      rcases Nat.lt_or_ge q q' with h1 | h1
      · have : q' = q + 1 := by omega
        subst this
        rw [← he, hl]; exact h.all q (le_refl _)
      · exact h.all q' h1

/-- The array after `c` elements of `l` were copied. -/
def copied (l : List Nat) (n c : Nat) : List Nat := l.take c ++ List.replicate (n - c) 0

theorem copied_set {l : List Nat} {n c v : Nat} (hc : c < n) (hv : l[c]? = some v) :
    (copied l n c).set c v = copied l n (c + 1) := by
  have hlen : c < l.length := by
    by_contra h; rw [List.getElem?_eq_none (by omega)] at hv; cases hv
  unfold copied
  rw [List.set_append_right _ _ (by simp)]
  have h1 : c - (List.take c l).length = 0 := by rw [List.length_take]; omega
  rw [h1, show n - c = (n - (c + 1)) + 1 by omega, List.replicate_succ, List.set_cons_zero,
    List.take_add_one, hv]
  simp

theorem copied_length {l : List Nat} {n c : Nat} (hc : c ≤ n) (hl : n ≤ l.length) :
    (copied l n c).length = n := by
  unfold copied
  rw [List.length_append, List.length_take, List.length_replicate]; omega

theorem copyPart_wp {s : Sched} {parts n : Nat} (h2 : PtrOk s.partPtr parts n)
    (hl : n ≤ s.nodes.length) {q : Nat} (hq : q < parts) {t : Parts} (hc : Cuts s.partPtr t.ptr q)
    (hset : t.set = copied s.nodes n (s.partPtr.getD q 0)) (hcnt : t.cnt = s.partPtr.getD q 0) :
    wp (copyPart s q t) fun t' => Cuts s.partPtr t'.ptr (q + 1) ∧
      t'.set = copied s.nodes n (s.partPtr.getD (q + 1) 0) ∧ t'.cnt = s.partPtr.getD (q + 1) 0 := by
  unfold copyPart
  have hlen := h2.len
  have hle := h2.dmono hq
  have hln := h2.dle (b := q + 1) hq
  rw [rd_getD 0 (by omega), ok_bind, rd_getD 0 (by omega), ok_bind, wp_bind]
  refine forRange_wp' (fun k (t' : Parts) => t'.ptr = t.ptr ∧ t'.set = copied s.nodes n k ∧ t'.cnt = k)
    hle ⟨rfl, hset, hcnt⟩ ?_ ?_
  · rintro k t' h3 h4 ⟨e1, e2, e3⟩
    rw [rd_getD 0 (by omega), ok_bind, e2, e3, wr_eq (by rw [copied_length (by omega) hl]; omega),
      ok_bind, wp_ok]
    exact ⟨e1, copied_set (by omega) (getElem?_getD 0 (by omega)), rfl⟩
  · rintro t' ⟨e1, e2, e3⟩
    rw [e1, back_eq hc.ne, ok_bind]
    have := hc.push hle
    split
    · next h =>
      rw [wp_ok]
      rw [e3] at h
      rw [if_pos h] at this
      exact ⟨by rw [e3]; exact this, e2, e3⟩
    · next h =>
      rw [wp_ok]
      rw [e3] at h
      rw [if_neg h] at this
      exact ⟨by rw [e1]; exact this, e2, e3⟩

/-- The groups of `getFinalScheduleDAG`. -/
structure FinalGroups (s : Sched) (n parts : Nat) (t : Parts) : Prop where
  cuts : Cuts s.partPtr t.ptr parts
  set : t.set = s.nodes.take n
  cnt : t.cnt = n

theorem finalGroups_wp {s : Sched} {parts n : Nat} (h1 : PtrOk s.levelPtr s.levels parts)
    (h2 : PtrOk s.partPtr parts n) (hl : n ≤ s.nodes.length) :
    wp (forRange 0 s.levels (fun i1 t => do
      let lo ← rd s.levelPtr i1
      let hi ← rd s.levelPtr (i1 + 1)
      forRange lo hi (copyPart s) t) ⟨[0], List.replicate n 0, 0⟩) (FinalGroups s n parts) := by
  rw [forRange_blocks h1]
  refine forRange_wp' (fun q t => Cuts s.partPtr t.ptr q ∧
    t.set = copied s.nodes n (s.partPtr.getD q 0) ∧ t.cnt = s.partPtr.getD q 0) (Nat.zero_le _) ?_ ?_ ?_
  · rw [h2.d0]
    refine ⟨⟨by simp, by simp, ?_, ?_, ?_⟩, by simp [copied], rfl⟩
    · rw [h2.d0]; rfl
    · intro k hk
      rw [List.mem_singleton] at hk
      exact ⟨0, le_refl _, by rw [h2.d0]; exact hk⟩
    · intro q' hq'
      have : q' = 0 := by omega
      subst this
      rw [h2.d0]; simp
  · rintro q t _ hq ⟨e1, e2, e3⟩
    exact copyPart_wp h2 hl hq e1 e2 e3
  · rintro t ⟨e1, e2, e3⟩
    rw [h2.dlast] at e2 e3
    exact ⟨e1, by rw [e2]; simp [copied], e3⟩

theorem FinalGroups.strict {s : Sched} {n parts : Nat} {t : Parts} (h : FinalGroups s n parts t)
    {a b : Nat} (hab : a < b) (hb : b < t.ptr.length) : t.ptr.getD a 0 < t.ptr.getD b 0 := by
  have := List.pairwise_iff_getElem.1 h.cuts.sort a b (by omega) (by omega) hab
  rw [List.getD_eq_getElem?_getD, List.getD_eq_getElem?_getD, List.getElem?_eq_getElem (by omega),
    List.getElem?_eq_getElem (by omega)]
  exact this

theorem FinalGroups.partition {s : Sched} {n parts : Nat} {t : Parts} (h : FinalGroups s n parts t)
    (h2 : PtrOk s.partPtr parts n) (hc : s.Complete n) :
    (⟨t.ptr.length - 1, t.ptr, t.set⟩ : Grouping).Partition n ∧
      (⟨t.ptr.length - 1, t.ptr, t.set⟩ : Grouping).NonEmpty := by
  have hpos := List.length_pos_of_ne_nil h.cuts.ne
  have hP : PtrOk t.ptr (t.ptr.length - 1) n := by
    refine PtrOk.mk' (by omega) ?_ ?_ ?_
    · have h0 := h.cuts.all 0 (Nat.zero_le _)
      rw [h2.d0] at h0
      obtain ⟨i, hi, he⟩ := List.getElem_of_mem h0
      rcases Nat.eq_zero_or_pos i with h3 | h3
      · subst h3
        rw [List.getD_eq_getElem?_getD, List.getElem?_eq_getElem hi]; exact he
      · have := h.strict h3 hi
        rw [List.getD_eq_getElem?_getD (i := i), List.getElem?_eq_getElem hi] at this
        simp only [Option.getD_some] at this
        omega
    · have := h.cuts.last
      unfold lastPtr at this
      rw [this, h2.dlast]
    · intro b hb
      exact le_of_lt (h.strict (by omega) (by omega))
  have hlen : (s.nodes.take n).length = n := by simpa using hc.length_eq
  refine ⟨⟨hP, ?_⟩, ?_⟩
  · show (t.set.take n).Perm _
    rw [h.set, List.take_take, Nat.min_self]; exact hc
  · intro j hj he
    have hj : j < t.ptr.length - 1 := hj
    have h3 := h.strict (a := j) (b := j + 1) (by omega) (by omega)
    have h4 := hP.dle (b := j + 1) (by omega)
    have h5 : (slice t.set (t.ptr.getD j 0) (t.ptr.getD (j + 1) 0)).length = _ :=
      slice_length (by rw [h.set, hlen]; exact h4)
    rw [show slice t.set (t.ptr.getD j 0) (t.ptr.getD (j + 1) 0) = [] from he] at h5
    simp only [List.length_nil] at h5
    omega

/-- A part and a group that share a position cover the same positions. -/
theorem FinalGroups.block {s : Sched} {n parts : Nat} {t : Parts} (h : FinalGroups s n parts t)
    (h2 : PtrOk s.partPtr parts n) {j q k : Nat} (hj : j < t.ptr.length - 1) (hq : q < parts)
    (k1 : t.ptr.getD j 0 ≤ k) (k2 : k < t.ptr.getD (j + 1) 0)
    (k3 : s.partPtr.getD q 0 ≤ k) (k4 : k < s.partPtr.getD (q + 1) 0) :
    t.ptr.getD j 0 = s.partPtr.getD q 0 ∧ t.ptr.getD (j + 1) 0 = s.partPtr.getD (q + 1) 0 := by
  have hmem : ∀ i, i < t.ptr.length → t.ptr.getD i 0 ∈ t.ptr := by
    intro i hi
    rw [List.getD_eq_getElem?_getD, List.getElem?_eq_getElem hi]; exact List.getElem_mem _
  have hix : ∀ x ∈ t.ptr, ∃ i, i < t.ptr.length ∧ t.ptr.getD i 0 = x := by
    intro x hx
    obtain ⟨i, hi, he⟩ := List.getElem_of_mem hx
    exact ⟨i, hi, by rw [List.getD_eq_getElem?_getD, List.getElem?_eq_getElem hi]; exact he⟩
  have hmono : ∀ a b, a ≤ b → b < t.ptr.length → t.ptr.getD a 0 ≤ t.ptr.getD b 0 := by
    intro a b hab hb
    rcases Nat.lt_or_ge a b with h3 | h3
    · exact le_of_lt (h.strict h3 hb)
    · have : a = b := by omega
      rw [this]
  -- the part boundaries are group boundaries
  obtain ⟨i, hi, he⟩ := hix _ (h.cuts.all q (by omega))
  obtain ⟨i', hi', he'⟩ := hix _ (h.cuts.all (q + 1) (by omega))
  obtain ⟨p, hp, hpe⟩ := h.cuts.sound _ (hmem j (by omega))
  obtain ⟨p', hp', hpe'⟩ := h.cuts.sound _ (hmem (j + 1) (by omega))
  have a1 : i ≤ j := by
    by_contra hc
    have := hmono (j + 1) i (by omega) hi
    omega
  have a2 : j + 1 ≤ i' := by
    by_contra hc
    have := hmono i' j (by omega) (by omega)
    omega
  have b1 := hmono i j a1 (by omega)
  have b2 := hmono (j + 1) i' a2 hi'
  have c1 : p ≤ q := by
    by_contra hc
    have := h2.dmono_le (a := q + 1) (b := p) (by omega) hp
    omega
  have c2 : q + 1 ≤ p' := by
    by_contra hc
    have := h2.dmono_le (a := p') (b := q) (by omega) (by omega)
    omega
  have d1 := h2.dmono_le c1 (by omega)
  have d2 := h2.dmono_le c2 hp'
  omega

end Verif.Final
