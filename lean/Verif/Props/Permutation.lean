import Verif.Model.Utils
import Verif.Proof.SparseSort

/-! # Properties C30 and C42: inverse permutations, reordering, `test_unique` -/

namespace Verif.Util
open Res

/-- `r` is the inverse of `perm` on `0 .. n-1`. -/
structure Inverse (n : Nat) (perm r : List Nat) : Prop where
  left : ∀ k, k < n → r.getD (perm.getD k 0) 0 = k
  right : ∀ k, k < n → perm.getD (r.getD k 0) 0 = k
  lt : ∀ k, k < n → r.getD k 0 < n

theorem perm_getD_lt {n : Nat} {perm : List Nat} (h : perm.Perm (List.range n)) {k : Nat}
    (hk : k < n) : perm.getD k 0 < n := by
  have hl : perm.length = n := by simpa using h.length_eq
  exact List.mem_range.1 (h.mem_iff.1 (List.mem_of_getElem? (getElem?_getD 0 (by omega))))

theorem perm_getD_inj {n : Nat} {perm : List Nat} (h : perm.Perm (List.range n)) {a b : Nat}
    (ha : a < n) (hb : b < n) (e : perm.getD a 0 = perm.getD b 0) : a = b := by
  have hl : perm.length = n := by simpa using h.length_eq
  have hn : perm.Nodup := h.nodup_iff.2 List.nodup_range
  refine nodup_getElem?_inj hn (getElem?_getD 0 (by omega)) ?_
  rw [getElem?_getD 0 (by omega), e]

theorem perm_surj {n : Nat} {perm : List Nat} (h : perm.Perm (List.range n)) {v : Nat}
    (hv : v < n) : ∃ k, k < n ∧ perm.getD k 0 = v := by
  have hl : perm.length = n := by simpa using h.length_eq
  obtain ⟨k, hk, e⟩ := List.getElem_of_mem (h.mem_iff.2 (List.mem_range.2 hv))
  refine ⟨k, by omega, ?_⟩
  have := getElem?_getD 0 hk
  rw [List.getElem?_eq_getElem hk, e] at this
  exact (Option.some.inj this).symm

theorem inverse_of_left {n : Nat} {perm r : List Nat} (h : perm.Perm (List.range n))
    (hl : ∀ k, k < n → r.getD (perm.getD k 0) 0 = k) : Inverse n perm r := by
  refine ⟨hl, ?_, ?_⟩
  · intro k hk
    obtain ⟨m, hm, rfl⟩ := perm_surj h hk
    rw [hl m hm]
  · intro k hk
    obtain ⟨m, hm, rfl⟩ := perm_surj h hk
    rw [hl m hm]; exact hm

/-- The loop shared by `inv_perm` and `compute_inv_perm`. -/
theorem invLoop {n : Nat} {perm ip0 : List Nat} (h : perm.Perm (List.range n))
    (hi : n ≤ ip0.length) {f : Nat → List Nat → Res (List Nat)}
    (hf : ∀ k ip, k < n → f k ip = wr ip (perm.getD k 0) k) :
    ∃ r, forRange 0 n f ip0 = ok r ∧ r.length = ip0.length ∧
      ∀ k, k < n → r.getD (perm.getD k 0) 0 = k := by
  refine wp_iff.1 (forRange_wp (fun k (r : List Nat) => r.length = ip0.length ∧
    ∀ m, m < k → r.getD (perm.getD m 0) 0 = m) (Nat.zero_le _) ⟨rfl, by omega⟩ ?_)
  intro k ip _ hk ⟨h1, h2⟩
  have hlt := perm_getD_lt h hk
  rw [hf k ip hk, wr_eq (by omega), wp_ok]
  refine ⟨by simpa using h1, ?_⟩
  intro m hm
  rw [getD_set]
  by_cases e : perm.getD k 0 = perm.getD m 0
  · rw [if_pos ⟨e, by omega⟩]; exact perm_getD_inj h hk (by omega) e
  · rw [if_neg (by tauto), h2 m]
    rcases Nat.lt_succ_iff_lt_or_eq.1 hm with h3 | h3
    · exact h3
    · subst h3; exact absurd rfl e

/-- **C30.** `inv_perm` returns the inverse permutation. -/
theorem C30_inv_perm {n : Nat} {perm ip0 : List Nat} (h : perm.Perm (List.range n))
    (hi : n ≤ ip0.length) :
    ∃ r, invPerm n perm ip0 = ok r ∧ r.length = ip0.length ∧ Inverse n perm r := by
  have hl : perm.length = n := by simpa using h.length_eq
  obtain ⟨r, h1, h2, h3⟩ := invLoop h hi (f := fun k ip => do
    let v ← rd perm k
    wr ip v k) (fun k ip hk => by rw [rd_getD 0 (by omega), ok_bind])
  exact ⟨r, h1, h2, inverse_of_left h h3⟩

/-- **C30.** `compute_inv_perm` returns the inverse permutation and its `assert` never fails. -/
theorem C30_compute_inv_perm {n : Nat} {perm ip0 : List Nat} (dbg : Bool)
    (h : perm.Perm (List.range n)) (hi : n ≤ ip0.length) (hn : 0 < n) :
    ∃ r, computeInvPerm dbg n perm ip0 = ok (some r) ∧ r.length = ip0.length ∧
      Inverse n perm r := by
  have hl : perm.length = n := by simpa using h.length_eq
  obtain ⟨r, h1, h2, h3⟩ := invLoop h hi (f := fun k ip => do
    let v ← rd perm k
    if dbg && !decide (v < n) then exn else wr ip v k) (fun k ip hk => by
      rw [rd_getD 0 (by omega), ok_bind, if_neg]
      rw [decide_eq_true (perm_getD_lt h hk)]; simp)
  refine ⟨r, ?_, h2, inverse_of_left h h3⟩
  unfold computeInvPerm
  rw [if_neg (by omega), h1]
  rfl

/-- The inverse is again a permutation. -/
theorem Inverse.perm {n : Nat} {perm r : List Nat} (h : perm.Perm (List.range n))
    (hr : Inverse n perm r) (hl : r.length = n) : r.Perm (List.range n) := by
  have hnd : r.Nodup := by
    rw [List.nodup_iff_injective_get]
    intro a b hab
    have e1 : r.getD a.1 0 = r.get a := by
      have := getElem?_getD 0 a.2
      rw [List.getElem?_eq_getElem a.2] at this
      exact (Option.some.inj this).symm
    have e2 : r.getD b.1 0 = r.get b := by
      have := getElem?_getD 0 b.2
      rw [List.getElem?_eq_getElem b.2] at this
      exact (Option.some.inj this).symm
    have h1 := hr.right a.1 (by have := a.2; omega)
    have h2 := hr.right b.1 (by have := b.2; omega)
    rw [e1, hab, ← e2, h2] at h1
    exact Fin.ext h1.symm
  refine (List.perm_ext_iff_of_nodup hnd List.nodup_range).2 ?_
  intro v
  rw [List.mem_range]
  constructor
  · intro hv
    obtain ⟨k, hk, rfl⟩ := List.getElem_of_mem hv
    have := hr.lt k (by omega)
    have e := getElem?_getD 0 hk
    rw [List.getElem?_eq_getElem hk] at e
    rwa [← Option.some.inj e] at this
  · intro hv
    have hv' := perm_getD_lt h hv
    have := hr.left v hv
    have e := getElem?_getD (l := r) 0 (show perm.getD v 0 < r.length by omega)
    rw [this] at e
    exact List.mem_of_getElem? e

/-- **C30.** `reorder_array`: position `k` receives the element at position `perm[k]`, the rest of
the array is untouched. -/
theorem C30_reorder_array {V : Type} {n : Nat} {arr ws : List V} {perm : List Nat}
    (h : perm.Perm (List.range n)) (ha : n ≤ arr.length) (hw : n ≤ ws.length) :
    ∃ arr' ws', reorderArray n arr perm ws = ok (arr', ws') ∧ arr'.length = arr.length ∧
      ws'.length = ws.length ∧ (∀ k, k < n → arr'[k]? = arr[perm.getD k 0]?) ∧
      (∀ k, n ≤ k → arr'[k]? = arr[k]?) := by
  have hl : perm.length = n := by simpa using h.length_eq
  obtain ⟨ws', h1, h2, h3⟩ := wp_iff.1 (forRange_wp (fun k (w : List V) => w.length = ws.length ∧
    ∀ m, m < k → w[m]? = arr[perm.getD m 0]?) (lo := 0) (hi := n) (s := ws)
    (f := fun k ws => do
      let j ← rd perm k
      let v ← rd arr j
      wr ws k v) (Nat.zero_le _) ⟨rfl, by omega⟩ (by
    intro k w _ hk ⟨h1, h2⟩
    have hlt := perm_getD_lt h hk
    rw [rd_getD 0 (by omega), ok_bind, rd_eq (by omega), ok_bind, wr_eq (by omega), wp_ok]
    refine ⟨by simpa using h1, ?_⟩
    intro m hm
    rw [List.getElem?_set]
    by_cases e : k = m
    · subst e; rw [if_pos rfl, if_pos (by omega), List.getElem?_eq_getElem (by omega)]
    · rw [if_neg e, h2 m (by omega)]))
  obtain ⟨arr', k1, k2, k3, k4⟩ := wp_iff.1 (forRange_wp (fun k (a : List V) =>
    a.length = arr.length ∧ (∀ m, m < k → a[m]? = ws'[m]?) ∧ (∀ m, n ≤ m → a[m]? = arr[m]?))
    (lo := 0) (hi := n) (s := arr)
    (f := fun k arr => do
      let v ← rd ws' k
      wr arr k v) (Nat.zero_le _) ⟨rfl, by omega, fun _ _ => rfl⟩ (by
    intro k w _ hk ⟨h1, h2, h3⟩
    rw [rd_eq (by omega), ok_bind, wr_eq (by omega), wp_ok]
    refine ⟨by simpa using h1, ?_, ?_⟩
    · intro m hm
      rw [List.getElem?_set]
      by_cases e : k = m
      · subst e; rw [if_pos rfl, if_pos (by omega), List.getElem?_eq_getElem (by omega)]
      · rw [if_neg e, h2 m (by omega)]
    · intro m hm
      rw [List.getElem?_set, if_neg (by omega), h3 m hm]))
  refine ⟨arr', ws', ?_, k2, h2, ?_, k4⟩
  · unfold reorderArray; rw [h1, ok_bind, k1]; rfl
  · intro k hk; rw [k3 k hk, h3 k hk]

/-- **C30.** Applying a permutation and then the inverse computed by `inv_perm` restores the
array. -/
theorem C30_round_trip {V : Type} {n : Nat} {arr ws : List V} {perm ip0 : List Nat}
    (h : perm.Perm (List.range n)) (ha : n ≤ arr.length) (hw : n ≤ ws.length)
    (hi : ip0.length = n) :
    ∃ r arr₁ ws₁ ws₂, invPerm n perm ip0 = ok r ∧ reorderArray n arr perm ws = ok (arr₁, ws₁) ∧
      reorderArray n arr₁ r ws₁ = ok (arr, ws₂) := by
  obtain ⟨r, h1, h2, h3⟩ := C30_inv_perm h (le_of_eq hi.symm)
  obtain ⟨a1, w1, k1, k2, k3, k4, k5⟩ := C30_reorder_array h ha hw
  have hrp := h3.perm h (h2.trans hi)
  obtain ⟨a2, w2, m1, m2, m3, m4, m5⟩ := C30_reorder_array (arr := a1) (ws := w1) hrp (by omega)
    (by omega)
  refine ⟨r, a1, w1, w2, h1, k1, ?_⟩
  rw [m1]
  have : a2 = arr := by
    apply List.ext_getElem?
    intro k
    by_cases hk : k < n
    · rw [m4 k hk, k4 _ (h3.lt k hk), h3.right k hk]
    · rw [m5 k (by omega), k5 k (by omega)]
  rw [this]

/-- Two-way characterisation: a list of `n` numbers below `n` that hits every number is a
permutation. -/
theorem perm_of_surj {n : Nat} {vec : List Nat} (hl : vec.length = n)
    (hs : ∀ v, v < n → v ∈ vec) : vec.Perm (List.range n) := by
  have h1 : (List.range n).Subperm vec :=
    List.subperm_of_subset List.nodup_range (fun v hv => hs v (List.mem_range.1 hv))
  exact (h1.perm_of_length_le (by simp [hl])).symm

/-- **C42.** `test_unique` on `n` numbers below `n` returns `true` exactly if they are a permutation
of `0 .. n-1`, i.e. pairwise different. -/
theorem C42_test_unique {n : Nat} {vec : List Nat} (dbg : Bool) (hl : vec.length = n)
    (hv : ∀ v ∈ vec, v < n) :
    ∃ b, testUnique dbg n vec = ok b ∧ (b = true ↔ vec.Nodup) ∧
      (b = true ↔ vec.Perm (List.range n)) := by
  have hget : ∀ k, k < n → vec.getD k 0 < n := fun k hk =>
    hv _ (List.mem_of_getElem? (getElem?_getD 0 (by omega)))
  obtain ⟨tmp, h1, h2, h3⟩ := wp_iff.1 (forRange_wp (fun k (t : List Bool) => t.length = n ∧
    ∀ v, v < n → (t.getD v false = true ↔ v ∈ vec.take k)) (lo := 0) (hi := n)
    (s := List.replicate n false)
    (f := fun k tmp => do
      let v ← rd vec k
      if dbg && !decide (v < n) then exn else wr tmp v true) (Nat.zero_le _) (by
      refine ⟨by simp, ?_⟩
      intro v hv
      rw [getD_replicate _ _ _ _ hv]; simp) (by
    intro k t _ hk ⟨h1, h2⟩
    rw [rd_getD 0 (by omega), ok_bind, if_neg (by rw [decide_eq_true (hget k hk)]; simp),
      wr_eq (by rw [h1]; exact hget k hk), wp_ok]
    refine ⟨by simpa using h1, ?_⟩
    intro v hv
    rw [getD_set, List.take_add_one, getElem?_getD 0 (by omega)]
    simp only [Option.toList_some, List.mem_append, List.mem_singleton]
    by_cases e : vec.getD k 0 = v
    · rw [if_pos ⟨e, by rw [h1, e]; exact hv⟩]; exact ⟨fun _ => Or.inr e.symm, fun _ => rfl⟩
    · rw [if_neg (by tauto), h2 v hv]
      constructor
      · exact Or.inl
      · rintro (h | h)
        · exact h
        · exact absurd h.symm e))
  obtain ⟨r, k1, k2⟩ := wp_iff.1 (forRangeB_wp (fun k (_ : Unit) => ∀ v, v < k → v ∈ vec)
    (fun b : Bool => b = false ∧ ∃ v, v < n ∧ v ∉ vec) (lo := 0) (hi := n) (s := ())
    (f := fun k (_ : Unit) => do
      let b ← rd tmp k
      if !b then ok (.brk false) else ok (.next ())) (Nat.zero_le _) (by omega) (by
    intro k _ _ hk hI
    rw [rd_getD false (by omega), ok_bind]
    have h4 := h3 k hk
    rw [show vec.take n = vec by rw [← hl, List.take_length]] at h4
    by_cases hb : tmp.getD k false = true
    · rw [hb]
      simp only [Bool.not_true, Bool.false_eq_true, if_false, wp_ok, Ctl.post_next]
      intro v hv
      rcases Nat.lt_succ_iff_lt_or_eq.1 hv with h5 | h5
      · exact hI v h5
      · rw [h5]; exact h4.1 hb
    · have hbf : tmp.getD k false = false := by simpa using hb
      rw [hbf]
      simp only [Bool.not_false, if_true, wp_ok, Ctl.post_brk]
      exact ⟨trivial, k, hk, fun hm => hb (h4.2 hm)⟩))
  have hperm : vec.Nodup ↔ vec.Perm (List.range n) := by
    constructor
    · intro hn
      have : vec.Subperm (List.range n) :=
        List.subperm_of_subset hn (fun v h => List.mem_range.2 (hv v h))
      exact this.perm_of_length_le (by simp [hl])
    · intro hp; exact hp.nodup_iff.2 List.nodup_range
  suffices ∃ b, testUnique dbg n vec = ok b ∧ (b = true ↔ vec.Perm (List.range n)) by
    obtain ⟨b, e1, e2⟩ := this
    exact ⟨b, e1, e2.trans hperm.symm, e2⟩
  unfold testUnique
  rw [h1, ok_bind, k1, ok_bind]
  cases r with
  | next u =>
    refine ⟨true, rfl, ?_⟩
    simp only [true_iff]
    exact perm_of_surj hl k2
  | brk b =>
    obtain ⟨rfl, v, hv1, hv2⟩ := k2
    refine ⟨false, rfl, ?_⟩
    simp only [Bool.false_eq_true, false_iff]
    intro hp
    exact hv2 (hp.mem_iff.2 (List.mem_range.2 hv1))

example : ∃ r, invPerm 5 [3, 0, 4, 1, 2] [9, 9, 9, 9, 9] = ok r ∧ r.length = 5 ∧
    Inverse 5 [3, 0, 4, 1, 2] r := C30_inv_perm (by decide) (by decide)

example : ∃ r arr₁ ws₁ ws₂, invPerm 4 [3, 0, 2, 1] [0, 0, 0, 0] = ok r ∧
    reorderArray 4 [10, 11, 12, 13, 14] [3, 0, 2, 1] [0, 0, 0, 0] = ok (arr₁, ws₁) ∧
    reorderArray 4 arr₁ r ws₁ = ok ([10, 11, 12, 13, 14], ws₂) :=
  C30_round_trip (by decide) (by decide) (by decide) (by decide)

example : testUnique true 4 [2, 0, 3, 1] = ok true := by decide
example : testUnique true 4 [2, 0, 2, 1] = ok false := by decide

end Verif.Util
