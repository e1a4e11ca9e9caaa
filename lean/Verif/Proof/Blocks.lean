import Verif.Proof.SchedBuild
import Verif.Proof.Bucket
import Verif.ResLemmas
import Mathlib.Data.List.Sort

/-! # Coarse levels made of blocks of classes, and re-ordering inside the blocks -/

namespace Verif
open Res

theorem slice_congr {α : Type _} {l l' : List α} {a b : Nat}
    (h : ∀ k, a ≤ k → k < b → l[k]? = l'[k]?) : slice l a b = slice l' a b := by
  apply List.ext_getElem?
  intro k
  rw [getElem?_slice, getElem?_slice]
  by_cases hk : a + k < b
  · rw [if_pos hk, if_pos hk, h _ (by omega) hk]
  · rw [if_neg hk, if_neg hk]

theorem slice_full {α : Type _} {l : List α} {b : Nat} (h : l.length ≤ b) : slice l 0 b = l := by
  rw [slice_zero, List.take_of_length_le h]

/-- A coarse level from blocks of classes: block `t` holds the nodes whose class is in
`c t .. c (t+1) - 1`; dependent nodes have the same class; each block is ordered. -/
theorem levelParts_of_blocks {dep S : Nat → Nat → Prop} {b ns : List Nat} {m : Nat}
    {cls : Nat → Nat} {c : Nat → Nat} {R : Nat → Nat → Prop}
    (hp : PtrOk b m ns.length) (hl : b.length = m + 1)
    (hc : ∀ t t', t ≤ t' → t' ≤ m → c t ≤ c t')
    (hb : ∀ t, t < m → ∀ u ∈ slice ns (b.getD t 0) (b.getD (t + 1) 0),
      c t ≤ cls u ∧ cls u < c (t + 1))
    (hd : ∀ u v, dep u v → u ∈ ns → v ∈ ns → cls u = cls v)
    (hR : ∀ t, t < m → (slice ns (b.getD t 0) (b.getD (t + 1) 0)).Pairwise R)
    (hRd : ∀ u v, dep u v → S u v → u ∈ ns → v ∈ ns → ¬ R v u) (hne : ∀ u, ¬ dep u u) :
    LevelPartsOk dep S b ns m where
  ptr := hp
  len := hl
  order := by
    intro u v huv k k' hk hk'
    have hk1 := (List.getElem?_eq_some_iff.1 hk).1
    have hk1' := (List.getElem?_eq_some_iff.1 hk').1
    have hu := List.mem_of_getElem? hk
    have hv := List.mem_of_getElem? hk'
    obtain ⟨t, t1, t2, t3⟩ := hp.exists_block hk1
    obtain ⟨t', t1', t2', t3'⟩ := hp.exists_block hk1'
    have e1 := hb t t1 u (mem_slice.2 ⟨k, t2, t3, hk⟩)
    have e2 := hb t' t1' v (mem_slice.2 ⟨k', t2', t3', hk'⟩)
    have e3 := hd u v huv hu hv
    have htt : t = t' := by
      rcases Nat.lt_trichotomy t t' with h | h | h
      · have := hc (t + 1) t' (by omega) (by omega); omega
      · exact h
      · have := hc (t' + 1) t (by omega) (by omega); omega
    subst htt
    refine ⟨t, t1, t2, t3, t2', t3', fun hS => ?_⟩
    rcases Nat.lt_trichotomy k k' with h | h | h
    · exact h
    · subst h
      rw [hk, Option.some.injEq] at hk'
      subst hk'
      exact absurd huv (hne u)
    · exfalso
      have hpw := List.pairwise_iff_getElem.1 (hR t t1)
      have g1 : (slice ns (b.getD t 0) (b.getD (t + 1) 0))[k - b.getD t 0]? = some u := by
        rw [getElem?_slice, if_pos (by omega), show b.getD t 0 + (k - b.getD t 0) = k by omega, hk]
      have g2 : (slice ns (b.getD t 0) (b.getD (t + 1) 0))[k' - b.getD t 0]? = some v := by
        rw [getElem?_slice, if_pos (by omega), show b.getD t 0 + (k' - b.getD t 0) = k' by omega, hk']
      obtain ⟨p1, p2⟩ := List.getElem?_eq_some_iff.1 g1
      obtain ⟨p3, p4⟩ := List.getElem?_eq_some_iff.1 g2
      have := hpw (k' - b.getD t 0) (k - b.getD t 0) p3 p1 (by omega)
      rw [p2, p4] at this
      exact hRd u v huv hS hu hv this

/-- Nodes of a bucket-sorted list between two bucket boundaries. -/
theorem bucket_block {m : Nat} {cls : Nat → Nat} {items : List Nat} {a b : Nat} {u : Nat}
    (h : u ∈ slice (bucket m cls items) (below cls items a) (below cls items b)) :
    a ≤ cls u ∧ cls u < b := by
  obtain ⟨k, h1, h2, h3⟩ := mem_slice.1 h
  obtain ⟨h4, h5, h6⟩ := bucket_pos h3
  constructor
  · by_contra hc
    have := below_mono cls items (a := cls u + 1) (b := a) (by omega)
    omega
  · by_contra hc
    have := below_mono cls items (a := b) (b := cls u) (by omega)
    omega

/-- A loop that re-orders block after block. -/
theorem blocks_loop {b ns : List Nat} {m : Nat} {R : Nat → Nat → Prop}
    {f : Nat → List Nat → Res (List Nat)} (hp : PtrOk b m ns.length)
    (hf : ∀ t, t < m → ∀ l : List Nat, l.Perm ns →
      wp (f t l) (fun l' => l'.length = l.length ∧
        (∀ k, k < b.getD t 0 ∨ b.getD (t + 1) 0 ≤ k → l'[k]? = l[k]?) ∧
        (slice l' (b.getD t 0) (b.getD (t + 1) 0)).Perm (slice l (b.getD t 0) (b.getD (t + 1) 0)) ∧
        (slice l' (b.getD t 0) (b.getD (t + 1) 0)).Pairwise R)) :
    wp (forRange 0 m f ns) (fun l => l.Perm ns ∧ ∀ t, t < m →
      (slice l (b.getD t 0) (b.getD (t + 1) 0)).Perm (slice ns (b.getD t 0) (b.getD (t + 1) 0)) ∧
      (slice l (b.getD t 0) (b.getD (t + 1) 0)).Pairwise R) := by
  refine forRange_wp' (fun i (l : List Nat) => l.Perm ns ∧
    (∀ t, t < i → (slice l (b.getD t 0) (b.getD (t + 1) 0)).Perm
        (slice ns (b.getD t 0) (b.getD (t + 1) 0)) ∧
      (slice l (b.getD t 0) (b.getD (t + 1) 0)).Pairwise R) ∧
    ∀ k, b.getD i 0 ≤ k → l[k]? = ns[k]?) (Nat.zero_le _) ?_ ?_ ?_
  · exact ⟨.refl _, by intro t h; omega, fun _ _ => rfl⟩
  · rintro i l _ hi ⟨h1, h2, h3⟩
    refine wp_mono (hf i hi l h1) ?_
    rintro l' ⟨a1, a2, a3, a4⟩
    have hle := hp.dmono hi
    have hln := hp.dle (b := i + 1) hi
    have hlen := h1.length_eq
    refine ⟨?_, ?_, ?_⟩
    · refine List.Perm.trans ?_ h1
      rw [← slice_full (l := l') (b := ns.length) (by omega),
        ← slice_full (l := l) (b := ns.length) (by omega),
        ← slice_append (Nat.zero_le (b.getD i 0)) (by omega : b.getD i 0 ≤ ns.length),
        ← slice_append hle hln,
        ← slice_append (l := l) (Nat.zero_le (b.getD i 0)) (by omega : b.getD i 0 ≤ ns.length),
        ← slice_append (l := l) hle hln,
        slice_congr (l := l') (l' := l) (a := 0) (fun k _ hk => a2 k (.inl hk)),
        slice_congr (l := l') (l' := l) (a := b.getD (i + 1) 0) (fun k hk _ => a2 k (.inr hk))]
      exact (a3.append_right _).append_left _
    · intro t ht
      by_cases hti : t = i
      · subst hti
        refine ⟨?_, a4⟩
        rw [slice_congr (l := ns) (l' := l) (fun k hk _ => (h3 k hk).symm)]
        exact a3
      · have := hp.dmono_le (a := t + 1) (b := i) (by omega) (by omega)
        rw [slice_congr (l := l') (l' := l) (fun k _ hk => a2 k (.inl (by omega)))]
        exact h2 t (by omega)
    · intro k hk
      rw [a2 k (.inr hk)]
      exact h3 k (by omega)
  · rintro l ⟨h1, h2, _⟩
    exact ⟨h1, h2⟩

end Verif
