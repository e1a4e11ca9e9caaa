import Verif.Proof.Greedy
import Mathlib.Data.List.Chain
import Mathlib.Data.List.Sort

/-! # Lemmas about `mergeSmallGroups` -/

namespace Verif.Greedy
open Res Csc Super

variable {p set : List Nat} {n m : Nat} {th : Int}

/-- The costs can be computed from `p`: it has the entries `0..n` and does not decrease. -/
structure Costs (p : List Nat) (n : Nat) : Prop where
  len : n < p.length
  mono : ∀ a b, a ≤ b → b ≤ n → p.getD a 0 ≤ p.getD b 0

theorem cost_some {a : List Nat} {size j : Nat} (hc : Costs p n) (hj : 0 < j) (hs : j ≤ size)
    (hl : size < a.length) (hb : ∀ k, k ≤ size → a.getD k 0 ≤ n) :
    cost p a size j = ok (some (p.getD (a.getD j 0) 0 - p.getD (a.getD (j - 1) 0) 0)) := by
  have := hc.len
  have h1 := hb j hs
  have h2 := hb (j - 1) (by omega)
  unfold cost
  rw [if_neg (by omega), rd_getD 0 (by omega), ok_bind, rd_getD 0 (by omega), ok_bind, rd_getD 0 (by omega), ok_bind,
    rd_getD 0 (by omega), ok_bind]

theorem cost_none {a : List Nat} {size j : Nat} (h : j = 0 ∨ size < j) : cost p a size j = ok none := by
  unfold cost
  rw [if_pos h]

/-- Invariant of the loop over the groups: `a` are the boundaries, `k` is `pre_group + 1`. -/
structure MInv (p set : List Nat) (n m : Nat) (th : Int) (i : Nat) (a : List Nat) (k : Nat) : Prop where
  len : a.length = set.length
  le : k ≤ i
  rest : ∀ j, i < j → a.getD j 0 = set.getD j 0
  zero : a.getD 0 0 = 0
  mono : ∀ j, j < m → a.getD j 0 ≤ a.getD (j + 1) 0
  last : a.getD m 0 = n
  /-- all boundaries are old ones -/
  old : ∀ j, j ≤ m → a.getD j 0 ∈ set
  /-- the groups between the last full one and the current one are empty -/
  empty : ∀ j, k ≤ j → j ≤ i → a.getD j 0 = a.getD k 0
  /-- the groups that have been left are empty or large enough -/
  full : ∀ j, j < i → a.getD j 0 = a.getD (j + 1) 0 ∨
    th ≤ (p.getD (a.getD (j + 1) 0) 0 : Int) - p.getD (a.getD j 0) 0
  pre : 0 < k → th ≤ (p.getD (a.getD k 0) 0 : Int) - p.getD (a.getD (k - 1) 0) 0

theorem MInv.mono_le {i k : Nat} {a : List Nat} (h : MInv p set n m th i a k) {x y : Nat} (hxy : x ≤ y) (hy : y ≤ m) :
    a.getD x 0 ≤ a.getD y 0 := by
  induction y with
  | zero =>
    have : x = 0 := by omega
    rw [this]
  | succ y ih =>
    by_cases e : x = y + 1
    · rw [e]
    · exact le_trans (ih (by omega) (by omega)) (h.mono y (by omega))

theorem MInv.le_n {i k : Nat} {a : List Nat} (h : MInv p set n m th i a k) {x : Nat} (hx : x ≤ m) :
    a.getD x 0 ≤ n := by
  rw [← h.last]
  exact h.mono_le hx (le_refl m)

/-- The loop that moves the boundaries between the last full group and the current one. -/
theorem gap_spec {a : List Nat} {k i : Nat} (hk : k ≤ i + 1) (hl : i + 1 < a.length) :
    wp (forRange k (i + 1) (fun gap set => do
        let v ← rd set (i + 1)
        wr set gap v) a) (fun a' => a'.length = a.length ∧
      ∀ j, a'.getD j 0 = if k ≤ j ∧ j ≤ i then a.getD (i + 1) 0 else a.getD j 0) := by
  refine forRange_wp' (fun t (a' : List Nat) => a'.length = a.length ∧
      ∀ j, a'.getD j 0 = if k ≤ j ∧ j < t then a.getD (i + 1) 0 else a.getD j 0) hk ⟨rfl, ?_⟩ ?_ ?_
  · intro j
    rw [if_neg (by omega)]
  · rintro t a' h1 h2 ⟨b1, b2⟩
    rw [rd_getD 0 (by omega), ok_bind, wr_eq (by omega), wp_ok]
    refine ⟨by simpa using b1, fun j => ?_⟩
    rw [getD_set, b2 (i + 1), if_neg (c := k ≤ i + 1 ∧ i + 1 < t) (by omega)]
    by_cases e : t = j
    · rw [if_pos ⟨e, by omega⟩, if_pos (by omega)]
    · rw [if_neg (fun hh => e hh.1), b2]
      by_cases e2 : k ≤ j ∧ j < t
      · rw [if_pos e2, if_pos (by omega)]
      · rw [if_neg e2, if_neg (by omega)]
  · rintro a' ⟨b1, b2⟩
    refine ⟨b1, fun j => ?_⟩
    rw [b2]
    by_cases e2 : k ≤ j ∧ j ≤ i
    · rw [if_pos e2, if_pos (by omega)]
    · rw [if_neg e2, if_neg (by omega)]

theorem mergeStep_inv (hc : Costs p n) (hm : m + 1 = set.length) (hth : th ≤ (p.getD n 0 : Int) - p.getD 0 0)
    {i k : Nat} {a : List Nat} (hi : i < m) (h : MInv p set n m th i a k) :
    wp (mergeStep p m th i (a, k)) (fun s => MInv p set n m th (i + 1) s.1 s.2) := by
  have hlen := h.len
  have hk := h.le
  have hpc : k = 0 ∨ ∃ c, cost p a m k = ok (some c) := by
    by_cases e : k = 0
    · exact .inl e
    · exact .inr ⟨_, cost_some hc (by omega) (by omega) (by omega) (fun j hj => h.le_n hj)⟩
  have e1 := cost_some (j := i + 1) (size := m) hc (by omega) (by omega) (show m < a.length by omega)
    (fun j hj => h.le_n hj)
  rw [Nat.add_sub_cancel] at e1
  have hmm := hc.mono _ _ (h.mono i hi) (h.le_n (x := i + 1) (by omega))
  have hki := h.empty i hk (le_refl i)
  unfold mergeStep
  dsimp only
  rw [e1, ok_bind]
  obtain ⟨nc, hnc⟩ : ∃ nc, cost p a m (i + 2) = ok nc ∧ (i + 2 ≤ m → nc ≠ none) := by
    by_cases e : i + 2 ≤ m
    · exact ⟨_, cost_some hc (by omega) e (by omega) (fun j hj => h.le_n hj), by simp⟩
    · exact ⟨none, cost_none (.inr (by omega)), by omega⟩
  obtain ⟨pc, hpc, hpc0⟩ : ∃ pc, cost p a m k = ok pc ∧ (k = 0 ↔ pc = none) := by
    rcases hpc with hpc | ⟨c, hpc⟩
    · exact ⟨none, cost_none (.inl hpc), by simp [hpc]⟩
    · refine ⟨some c, hpc, ?_⟩
      simp only [reduceCtorEq, iff_false]
      rintro rfl
      rw [cost_none (.inl rfl)] at hpc
      cases hpc
  rw [hnc.1, ok_bind, hpc, ok_bind]
  by_cases hsmall : ((p.getD (a.getD (i + 1) 0) 0 - p.getD (a.getD i 0) 0 : Nat) : Int) < th
  · rw [if_pos (by simpa using hsmall)]
    by_cases hlt : costLt pc nc = true
    · rw [if_pos hlt]
      have hk0 : k ≠ 0 := by
        intro hh
        rw [hpc0.1 hh] at hlt
        simp [costLt] at hlt
      rw [wp_bind]
      refine wp_mono (gap_spec (a := a) (k := k) (i := i) (by omega) (by omega)) ?_
      rintro a' ⟨b1, b2⟩
      rw [wp_ok]
      dsimp only
      have hpre := h.pre (by omega)
      have hrise := hc.mono _ _ (h.mono_le (x := k) (y := i + 1) (by omega) (by omega)) (h.le_n (x := i + 1) (by omega))
      refine ⟨by omega, by omega, ?_, ?_, ?_, ?_, ?_, ?_, ?_, ?_⟩
      · intro j hj
        rw [b2, if_neg (by omega)]
        exact h.rest j (by omega)
      · rw [b2, if_neg (by omega)]
        exact h.zero
      · intro j hj
        rw [b2, b2]
        by_cases e1 : k ≤ j ∧ j ≤ i
        · rw [if_pos e1]
          by_cases e2 : k ≤ j + 1 ∧ j + 1 ≤ i
          · rw [if_pos e2]
          · rw [if_neg e2]
            have : j = i := by omega
            rw [this]
        · rw [if_neg e1]
          by_cases e2 : k ≤ j + 1 ∧ j + 1 ≤ i
          · rw [if_pos e2]
            exact h.mono_le (by omega) (by omega)
          · rw [if_neg e2]
            exact h.mono j hj
      · rw [b2, if_neg (by omega)]
        exact h.last
      · intro j hj
        rw [b2]
        split
        · exact h.old _ (by omega)
        · exact h.old _ hj
      · intro j h1 h2
        rw [b2, b2, if_pos (c := k ≤ k ∧ k ≤ i) (by omega)]
        by_cases e2 : j = i + 1
        · subst e2
          rw [if_neg (by omega)]
        · rw [if_pos (by omega)]
      · intro j hj
        by_cases e1 : k ≤ j
        · left
          rw [b2, b2, if_pos (by omega)]
          by_cases e2 : j = i
          · subst e2
            rw [if_neg (by omega)]
          · rw [if_pos (by omega)]
        · by_cases e2 : j + 1 = k
          · right
            subst e2
            rw [Nat.add_sub_cancel] at hpre
            rw [b2, b2, if_pos (by omega), if_neg (by omega)]
            omega
          · rw [b2, b2, if_neg (by omega), if_neg (by omega)]
            exact h.full j (by omega)
      · intro _
        rw [b2, b2, if_pos (by omega), if_neg (by omega)]
        omega
    · rw [if_neg hlt, rd_getD 0 (by omega), ok_bind, wr_eq (by omega), ok_bind, wp_ok]
      dsimp only
      -- the last group cannot be merged into the next one
      have him : i + 1 ≠ m := by
        intro hh
        have hn : nc = none := by
          have := hnc.1
          rw [cost_none (.inr (by omega))] at this
          cases this
          rfl
        have hp : pc = none := by
          subst hn
          cases pc with
          | none => rfl
          | some c => exact absurd rfl hlt
        have hk0 : k = 0 := hpc0.2 hp
        subst hk0
        rw [h.zero] at hki
        rw [hki, hh, h.last] at hsmall hmm
        omega
      have g1 : ∀ j, j ≠ i + 1 → (a.set (i + 1) (a.getD i 0)).getD j 0 = a.getD j 0 := by
        intro j hj
        rw [getD_set, if_neg (fun hh => hj hh.1.symm)]
      have g2 : (a.set (i + 1) (a.getD i 0)).getD (i + 1) 0 = a.getD i 0 := by
        rw [getD_set, if_pos ⟨rfl, by omega⟩]
      refine ⟨by simpa using hlen, by omega, ?_, ?_, ?_, ?_, ?_, ?_, ?_, ?_⟩
      · intro j hj
        rw [g1 j (by omega)]
        exact h.rest j (by omega)
      · rw [g1 0 (by omega)]
        exact h.zero
      · intro j hj
        by_cases e1 : j = i + 1
        · subst e1
          rw [g2, g1 _ (by omega)]
          exact h.mono_le (by omega) (by omega)
        · rw [g1 j e1]
          by_cases e2 : j = i
          · subst e2
            rw [g2]
          · rw [g1 _ (by omega)]
            exact h.mono j hj
      · rw [g1 m (by omega)]
        exact h.last
      · intro j hj
        by_cases e1 : j = i + 1
        · subst e1
          rw [g2]
          exact h.old _ (by omega)
        · rw [g1 j e1]
          exact h.old _ hj
      · intro j h1 h2
        rw [g1 k (by omega)]
        by_cases e1 : j = i + 1
        · subst e1
          rw [g2]
          exact hki
        · rw [g1 j e1]
          exact h.empty j h1 (by omega)
      · intro j hj
        by_cases e1 : j = i
        · subst e1
          left
          rw [g2, g1 _ (by omega)]
        · rw [g1 j (by omega), g1 (j + 1) (by omega)]
          exact h.full j (by omega)
      · intro h0
        rw [g1 k (by omega), g1 _ (by omega)]
        exact h.pre h0
  · rw [if_neg (by simpa using hsmall), wp_ok]
    dsimp only
    have hbig : th ≤ (p.getD (a.getD (i + 1) 0) 0 : Int) - p.getD (a.getD i 0) 0 := by omega
    refine ⟨hlen, le_refl _, fun j hj => h.rest j (by omega), h.zero, h.mono, h.last, h.old, ?_, ?_, fun _ => hbig⟩
    · intro j h1 h2
      have : j = i + 1 := by omega
      rw [this]
    · intro j hj
      by_cases e : j = i
      · subst e
        exact .inr hbig
      · exact h.full j (by omega)

/-! ### Removing the empty groups -/

/-- Consecutive boundaries of a group that is not empty and large enough. -/
def Big (p : List Nat) (th : Int) (x y : Nat) : Prop := x < y ∧ th ≤ (p.getD y 0 : Int) - p.getD x 0

theorem chain_snoc {R : Nat → Nat → Prop} {l : List Nat} {x y : Nat} (h : (l ++ [x]).IsChain R) (hxy : R x y) :
    (l ++ [x] ++ [y]).IsChain R := by
  rw [List.isChain_append]
  refine ⟨h, by simp, ?_⟩
  intro a ha b hb
  simp at ha hb
  subst ha hb
  exact hxy

theorem compress_spec {a : List Nat} (hl : m < a.length)
    (hb : ∀ j, j < m → a.getD j 0 = a.getD (j + 1) 0 ∨ Big p th (a.getD j 0) (a.getD (j + 1) 0)) :
    wp (forRange 0 m (fun i out => do
        let x ← rd a i
        let y ← rd a (i + 1)
        if x < y then ok (out ++ [x]) else ok out) []) (fun out =>
      (out ++ [a.getD m 0]).IsChain (Big p th) ∧ (out ++ [a.getD m 0]).getD 0 0 = a.getD 0 0 ∧
      ∀ x ∈ out, ∃ j, j ≤ m ∧ a.getD j 0 = x) := by
  refine forRange_wp' (fun i (out : List Nat) => (out ++ [a.getD i 0]).IsChain (Big p th) ∧
      (out ++ [a.getD i 0]).getD 0 0 = a.getD 0 0 ∧ ∀ x ∈ out, ∃ j, j ≤ m ∧ a.getD j 0 = x)
    (Nat.zero_le m) ⟨by simp, by simp, by simp⟩ ?_ (fun _ h => h)
  rintro i out _ hi ⟨h1, h2, h3⟩
  rw [rd_getD 0 (by omega), ok_bind, rd_getD 0 (by omega), ok_bind]
  rcases hb i hi with e | e
  · rw [if_neg (by omega), wp_ok, ← e]
    exact ⟨h1, h2, h3⟩
  · rw [if_pos e.1, wp_ok]
    refine ⟨chain_snoc h1 e, ?_, ?_⟩
    · rw [← h2, List.getD_eq_getElem?_getD, List.getElem?_append_left (by simp), ← List.getD_eq_getElem?_getD]
    · intro x hx
      rw [List.mem_append, List.mem_singleton] at hx
      rcases hx with hx | hx
      · exact h3 x hx
      · exact ⟨i, by omega, hx.symm⟩

/-- The array of the groups of the nodes is written again. -/
theorem renumber_spec {ptr ngi : List Nat} (h : PtrOk ptr (ptr.length - 1) n) (hn : ngi.length = n) :
    wp (forRange 0 (ptr.length - 1) (fun j ngi => do
        let a ← rd ptr j
        let b ← rd ptr (j + 1)
        forRange a b (fun v ngi => wr ngi v j) ngi) ngi) (fun inv => inv.length = n ∧ ∀ s v, s < ptr.length - 1 →
      ptr.getD s 0 ≤ v → v < ptr.getD (s + 1) 0 → inv.getD v 0 = s) := by
  have hlen := h.len
  refine forRange_wp (fun i (inv : List Nat) => inv.length = n ∧ ∀ s v, s < i → ptr.getD s 0 ≤ v →
    v < ptr.getD (s + 1) 0 → inv.getD v 0 = s) (by omega) ⟨hn, by intro s v hs; omega⟩ ?_
  rintro i inv _ hi ⟨h1, h2⟩
  rw [rd_getD 0 (show i < ptr.length by omega), rd_getD 0 (show i + 1 < ptr.length by omega)]
  simp only [ok_bind]
  have hle := h.dmono hi
  have hle' := h.dle (b := i + 1) (by omega)
  refine forRange_wp' (fun k (inv : List Nat) => inv.length = n ∧
    (∀ s v, s < i → ptr.getD s 0 ≤ v → v < ptr.getD (s + 1) 0 → inv.getD v 0 = s) ∧
    ∀ v, ptr.getD i 0 ≤ v → v < k → inv.getD v 0 = i) hle ⟨h1, h2, by intro v _ _; omega⟩ ?_ ?_
  · rintro k inv hk1 hk2 ⟨a1, a2, a3⟩
    rw [wr_eq (by omega), wp_ok]
    refine ⟨by simp [a1], ?_, ?_⟩
    · intro s v hs hv1 hv2
      have := h.dmono_le (a := s + 1) (b := i) (by omega) (by omega)
      rw [getD_set, if_neg (by omega)]
      exact a2 s v hs hv1 hv2
    · intro v hv1 hv2
      rw [getD_set]
      by_cases hvk : k = v
      · rw [if_pos ⟨hvk, by omega⟩]
      · rw [if_neg (fun hh => hvk hh.1)]
        exact a3 v hv1 (by omega)
  · rintro inv ⟨a1, a2, a3⟩
    refine ⟨a1, ?_⟩
    intro s v hs hv1 hv2
    by_cases hsi : s = i
    · subst hsi; exact a3 v hv1 hv2
    · exact a2 s v (by omega) hv1 hv2

theorem chain_getD {R : Nat → Nat → Prop} {l : List Nat} (h : l.IsChain R) {j : Nat} (hj : j + 1 < l.length) :
    R (l.getD j 0) (l.getD (j + 1) 0) := by
  rw [List.getD_eq_getElem _ _ (by omega), List.getD_eq_getElem _ _ hj]
  exact List.isChain_iff_getElem.1 h j hj

theorem mergeSmall_spec (hc : Costs p n) {ngi : List Nat} (h : Groups n set ngi)
    (hth : th ≤ (p.getD n 0 : Int) - p.getD 0 0) :
    wp (mergeSmall p th set ngi) (fun r => Groups n r.1 r.2 ∧ (∀ b ∈ r.1, b ∈ set) ∧
      (r.1.length ≤ 1 ∨ r.1.IsChain (Big p th))) := by
  have hlen := h.ptr.len
  unfold mergeSmall
  dsimp only
  obtain ⟨m, hm⟩ : ∃ m, m = set.length - 1 := ⟨_, rfl⟩
  have hptr : PtrOk set m n := by rw [hm]; exact h.ptr
  rw [← hm]
  have hst : ∀ a b, a < b → b < set.length → set.getD a 0 < set.getD b 0 := by
    intro a b hab hb
    rw [List.getD_eq_getElem _ _ (by omega), List.getD_eq_getElem _ _ hb]
    exact List.pairwise_iff_getElem.1 h.strict a b _ _ hab
  by_cases h1 : m = 1
  · rw [if_pos h1, wp_ok]
    refine ⟨h, fun _ h => h, .inr ?_⟩
    have e0 := hptr.d0
    have e1 := hptr.dlast
    have hlt := hst 0 1 (by omega) (by omega)
    have : set = [0, n] := by
      subst h1
      apply List.ext_getElem (by simp; omega)
      intro k k1 k2
      have hk : k = 0 ∨ k = 1 := by simp at k2; omega
      rw [← List.getD_eq_getElem _ 0 k1]
      rcases hk with rfl | rfl
      · rw [e0]; rfl
      · rw [e1]; rfl
    rw [this]
    subst h1
    rw [e0, e1] at hlt
    simp [Big]
    exact ⟨hlt, hth⟩
  · rw [if_neg h1, wp_bind]
    have hget : ∀ j, j ≤ m → set.getD j 0 ∈ set := by
      intro j hj
      rw [List.getD_eq_getElem _ _ (by omega)]
      exact List.getElem_mem _
    refine wp_mono (forRange_wp (fun i (s : List Nat × Nat) => MInv p set n m th i s.1 s.2) (Nat.zero_le m)
      ⟨rfl, le_refl _, fun _ _ => rfl, hptr.d0, fun j hj => hptr.dmono hj, hptr.dlast, hget, ?_, by omega, by omega⟩
      ?_) ?_
    · intro j _ hj
      have : j = 0 := by omega
      rw [this]
    · rintro i ⟨a, k⟩ _ hi hI
      exact mergeStep_inv hc (by omega) hth hi hI
    · rintro ⟨a, k⟩ hI
      dsimp only at hI ⊢
      have hal := hI.len
      rw [wp_bind]
      refine wp_mono (compress_spec (p := p) (th := th) (a := a) (m := m) (by omega) ?_) ?_
      · intro j hj
        rcases hI.full j hj with e | e
        · exact .inl e
        · by_cases e2 : a.getD j 0 = a.getD (j + 1) 0
          · exact .inl e2
          · have := hI.mono j hj
            exact .inr ⟨by omega, e⟩
      · rintro out ⟨o1, o2, o3⟩
        have hback : back a = ok (a.getD m 0) := by
          unfold back
          rw [List.getLast?_eq_getElem?, show a.length - 1 = m by omega, List.getElem?_eq_getElem (by omega),
            List.getD_eq_getElem _ _ (by omega)]
        rw [hback, ok_bind, hI.last]
        rw [hI.last] at o1 o2
        rw [hI.zero] at o2
        have hpt : PtrOk (out ++ [n]) ((out ++ [n]).length - 1) n := by
          refine PtrOk.mk' (by simp) o2 ?_ (fun b hb => ?_)
          · rw [List.getD_eq_getElem?_getD, List.getElem?_append_right (by simp)]
            simp
          · exact Nat.le_of_lt (chain_getD o1 (by omega)).1
        rw [wp_bind]
        refine wp_mono (renumber_spec hpt h.len) ?_
        rintro inv ⟨i1, i2⟩
        rw [wp_ok]
        dsimp only
        refine ⟨⟨hpt, ?_, i1, fun j v hj => i2 j v (by omega)⟩, ?_, .inr o1⟩
        · exact (o1.imp (fun _ _ h => h.1)).pairwise
        · intro b hb
          rw [List.mem_append, List.mem_singleton] at hb
          rcases hb with hb | rfl
          · obtain ⟨j, j1, j2⟩ := o3 b hb
            rw [← j2]
            exact hI.old j j1
          · rw [← hI.last]
            exact hI.old m (le_refl m)

/-! ### A threshold above the cost of all groups together -/

theorem mergeSmall_lost (hc : Costs p n) {ngi : List Nat} (h : Groups n set ngi)
    (hth : (p.getD n 0 : Int) - p.getD 0 0 < th) (h2 : 3 ≤ set.length) :
    mergeSmall p th set ngi = ok ([0], ngi) := by
  have hlen := h.ptr.len
  unfold mergeSmall
  dsimp only
  obtain ⟨m, hm⟩ : ∃ m, m = set.length - 1 := ⟨_, rfl⟩
  have hptr : PtrOk set m n := by rw [hm]; exact h.ptr
  rw [← hm, if_neg (by omega)]
  have key : wp (forRange 0 m (mergeStep p m th) (set, 0)) (fun s => s.2 = 0 ∧ s.1.length = set.length ∧
      ∀ j, j ≤ m → s.1.getD j 0 = 0) := by
    refine forRange_wp' (fun i (s : List Nat × Nat) => s.2 = 0 ∧ s.1.length = set.length ∧
      (∀ j, j ≤ i → s.1.getD j 0 = 0) ∧ ∀ j, i < j → s.1.getD j 0 = set.getD j 0) (Nat.zero_le m)
      ⟨rfl, rfl, ?_, fun _ _ => rfl⟩ ?_ ?_
    · intro j hj
      have : j = 0 := by omega
      rw [this]
      exact hptr.d0
    · rintro i ⟨a, k⟩ _ hi ⟨rfl, b2, b3, b4⟩
      dsimp only at b2 b3 b4
      have hle : ∀ j, j ≤ m → a.getD j 0 ≤ n := by
        intro j hj
        by_cases e : j ≤ i
        · rw [b3 j e]; omega
        · rw [b4 j (by omega)]
          exact hptr.dle hj
      unfold mergeStep
      dsimp only
      rw [cost_some hc (by omega) (by omega) (by omega) hle, ok_bind, Nat.add_sub_cancel, b3 i (le_refl i)]
      obtain ⟨nc, hnc⟩ : ∃ nc, cost p a m (i + 2) = ok nc := by
        by_cases e : i + 2 ≤ m
        · exact ⟨_, cost_some hc (by omega) e (by omega) hle⟩
        · exact ⟨none, cost_none (.inr (by omega))⟩
      have h1 := hc.mono (a.getD (i + 1) 0) n (hle _ (by omega)) (le_refl n)
      have h0 := hc.mono 0 (a.getD (i + 1) 0) (by omega) (hle _ (by omega))
      rw [hnc, ok_bind, cost_none (.inl rfl), ok_bind, if_pos (by simp only [decide_eq_true_eq]; omega),
        if_neg (by simp [costLt]), rd_getD 0 (by omega), ok_bind, wr_eq (by omega), ok_bind, wp_ok]
      dsimp only
      refine ⟨rfl, by simpa using b2, fun j hj => ?_, fun j hj => ?_⟩
      · rw [getD_set]
        by_cases e : j = i + 1
        · rw [if_pos ⟨e.symm, by omega⟩, b3 i (le_refl i)]
        · rw [if_neg (fun hh => e hh.1.symm)]
          exact b3 j (by omega)
      · rw [getD_set, if_neg (by omega)]
        exact b4 j (by omega)
    · rintro s ⟨c1, c2, c3, _⟩
      exact ⟨c1, c2, c3⟩
  obtain ⟨⟨a, k⟩, hs, _, s2, s3⟩ := wp_iff.1 key
  dsimp only at s2 s3
  rw [hs, ok_bind]
  dsimp only
  have hout : forRange 0 m (fun i (out : List Nat) => do
        let x ← rd a i
        let y ← rd a (i + 1)
        if x < y then ok (out ++ [x]) else ok out) [] = ok [] := by
    have : wp (forRange 0 m (fun i (out : List Nat) => do
        let x ← rd a i
        let y ← rd a (i + 1)
        if x < y then ok (out ++ [x]) else ok out) []) (fun o => o = []) := by
      refine forRange_wp (fun _ (o : List Nat) => o = []) (Nat.zero_le m) rfl ?_
      rintro i _ _ hi rfl
      rw [rd_getD 0 (by omega), ok_bind, rd_getD 0 (by omega), ok_bind, s3 i (by omega), s3 (i + 1) (by omega),
        if_neg (by omega), wp_ok]
    obtain ⟨o, o1, rfl⟩ := wp_iff.1 this
    exact o1
  have hback : back a = ok 0 := by
    unfold back
    rw [List.getLast?_eq_getElem?, show a.length - 1 = m by omega, List.getElem?_eq_getElem (by omega)]
    have := s3 m (le_refl m)
    rw [List.getD_eq_getElem _ _ (by omega)] at this
    rw [this]
  rw [hout, ok_bind, hback, ok_bind]
  rfl

end Verif.Greedy
