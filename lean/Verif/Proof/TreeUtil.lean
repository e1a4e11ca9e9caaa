import Verif.Model.TreeUtil
import Verif.Spec.TreeLevel
import Verif.Proof.Bucket

/-! # Utilities for forests -/

namespace Verif.Tree
open Res

variable {n : Nat} {t : List Int}

/-! ### Parents -/

theorem parentOf_some {v p : Nat} : parentOf t v = some p ↔ t.getD v (-1) = (p : Int) := by
  unfold parentOf
  split
  · rw [Option.some.injEq]; omega
  · simp only [reduceCtorEq, false_iff]; omega

theorem parentOf_none {v : Nat} : parentOf t v = none ↔ t.getD v (-1) < 0 := by
  unfold parentOf
  split
  · simp only [reduceCtorEq, false_iff]; omega
  · simp only [true_iff]; omega

theorem rd_tree {v : Nat} (hv : v < t.length) : rd t v = ok (t.getD v (-1)) := rd_getD (-1) hv

theorem rdZ_nat {α : Type} (l : List α) (p : Nat) : rdZ l (p : Int) = rd l p := by
  unfold rdZ
  rw [if_neg (by omega), Int.toNat_natCast]

theorem wrZ_nat {α : Type} (l : List α) (p : Nat) (v : α) : wrZ l (p : Int) v = wr l p v := by
  unfold wrZ
  rw [if_neg (by omega), Int.toNat_natCast]

/-- A statement by cases on the parent. -/
theorem parent_cases (v : Nat) :
    (t.getD v (-1) < 0 ∧ parentOf t v = none) ∨ ∃ p : Nat, t.getD v (-1) = (p : Int) ∧ parentOf t v = some p := by
  rcases h : parentOf t v with _ | p
  · exact .inl ⟨parentOf_none.1 h, rfl⟩
  · exact .inr ⟨p, parentOf_some.1 h, rfl⟩

theorem child_iff {c p : Nat} : ChildOf n (parentOf t) c p ↔ c < n ∧ parentOf t c = some p := Iff.rfl

/-- The children of `p`. -/
def kids (n : Nat) (t : List Int) (p : Nat) : List Nat :=
  (List.range n).filter (fun c => decide (parentOf t c = some p))

theorem mem_kids {c p : Nat} : c ∈ kids n t p ↔ ChildOf n (parentOf t) c p := by
  simp [kids, ChildOf]

/-! ### Children -/

theorem countChildren_wp (hl : t.length = n) (hf : Forest n (parentOf t)) :
    wp (countChildren n t (List.replicate n 0)) (fun cnt => cnt.length = n ∧
      ∀ p, p < n → cnt.getD p 0 = (kids n t p).length) := by
  unfold countChildren
  refine forRange_wp' (fun k (cnt : List Nat) => cnt.length = n ∧ ∀ p, p < n →
    cnt.getD p 0 = ((List.range k).filter (fun c => decide (parentOf t c = some p))).length)
    (Nat.zero_le _) ?_ ?_ (fun _ h => h)
  · refine ⟨by simp, fun p hp => ?_⟩
    rw [getD_replicate _ _ _ _ hp]; simp
  · rintro k cnt _ hk ⟨h1, h2⟩
    unfold countStep
    rw [rd_tree (by omega), ok_bind]
    rcases parent_cases (t := t) k with ⟨h3, h4⟩ | ⟨p, h3, h4⟩
    · rw [if_neg (by omega), wp_ok]
      refine ⟨h1, fun p hp => ?_⟩
      rw [List.range_succ, List.filter_append, h2 p hp]
      simp [h4]
    · have hp := (hf k p hk h4).2
      rw [h3, if_pos (by omega), rdZ_nat, rd_getD 0 (by omega), ok_bind, wrZ_nat, wr_eq (by omega), wp_ok]
      refine ⟨by simpa using h1, fun q hq => ?_⟩
      rw [List.range_succ, List.filter_append, getD_set]
      by_cases hqp : q = p
      · subst hqp
        rw [if_pos ⟨rfl, by omega⟩, h2 q hq]
        simp [h4]
      · rw [if_neg (by omega), h2 q hq]
        have : ¬ p = q := fun h => hqp h.symm
        simp [h4, this]

/-- The nodes that have a parent. -/
def inner (n : Nat) (t : List Int) : List Nat := (List.range n).filter (fun c => (parentOf t c).isSome)

/-- The parent as a key. -/
def pkey (t : List Int) (c : Nat) : Nat := (parentOf t c).getD 0

theorem filter_inner (k p : Nat) :
    (inner k t).filter (fun c => decide (pkey t c = p)) = kids k t p := by
  unfold inner kids pkey
  rw [List.filter_filter]
  apply List.filter_congr
  intro c _
  cases h : parentOf t c with
  | none => simp
  | some q => simp

theorem cntKey_inner (k p : Nat) : cntKey (pkey t) (inner k t) p = (kids k t p).length := by
  rw [← filter_inner, filter_length]

theorem childPtrs_wp {cnt ptr : List Nat} (hc : cnt.length = n)
    (hcnt : ∀ p, p < n → cnt.getD p 0 = (kids n t p).length) (hp : ptr.length = n + 1) :
    wp (childPtrs n cnt ptr) (fun ptr => ptr.length = n + 1 ∧
      ∀ p, p ≤ n → ptr.getD p 0 = below (pkey t) (inner n t) p) := by
  unfold childPtrs
  rw [wr_eq (by omega), ok_bind]
  refine forRange_wp' (fun k (ptr : List Nat) => ptr.length = n + 1 ∧
    ∀ p, p < k → ptr.getD p 0 = below (pkey t) (inner n t) p) (by omega) ?_ ?_ ?_
  · refine ⟨by simpa using hp, fun p h1 => ?_⟩
    obtain rfl : p = 0 := by omega
    rw [getD_set, if_pos ⟨rfl, by omega⟩, below_zero]
  · rintro k ptr h1 h2 ⟨h3, h4⟩
    rw [rd_getD 0 (by omega), ok_bind, rd_getD 0 (by omega), ok_bind, wr_eq (by omega), wp_ok]
    refine ⟨by simpa using h3, fun p hp => ?_⟩
    rw [getD_set]
    by_cases hpk : p = k
    · subst hpk
      rw [if_pos ⟨rfl, by omega⟩, h4 _ (by omega), hcnt _ (by omega), ← cntKey_inner, ← below_succ,
        Nat.sub_add_cancel h1]
    · rw [if_neg (by omega), h4 p (by omega)]
  · rintro ptr ⟨h1, h2⟩
    exact ⟨h1, fun p hp => h2 p (by omega)⟩

/-- What `populate_children` gives: children in ascending order. -/
structure KidsOk (n : Nat) (t : List Int) (ptr no : List Nat) : Prop where
  ptrLen : ptr.length = n + 1
  noLen : no.length = n
  start : ∀ p, p ≤ n → ptr.getD p 0 = below (pkey t) (inner n t) p
  block : ∀ p, p < n → slice no (ptr.getD p 0) (ptr.getD (p + 1) 0) = kids n t p

theorem KidsOk.bounds {ptr no : List Nat} (h : KidsOk n t ptr no) {p : Nat} (hp : p < n) :
    ptr.getD p 0 ≤ ptr.getD (p + 1) 0 ∧ ptr.getD (p + 1) 0 ≤ n := by
  rw [h.start p (by omega), h.start (p + 1) (by omega)]
  refine ⟨below_mono _ _ (by omega), (below_le_length _ _ _).trans ?_⟩
  unfold inner
  exact (List.length_filter_le _ _).trans (by simp)

theorem inner_succ_none {k : Nat} (h : parentOf t k = none) : inner (k + 1) t = inner k t := by
  unfold inner
  rw [List.range_succ, List.filter_append]
  simp [h]

theorem inner_succ_some {k p : Nat} (h : parentOf t k = some p) : inner (k + 1) t = inner k t ++ [k] := by
  unfold inner
  rw [List.range_succ, List.filter_append]
  simp [h]

theorem inner_split {k p : Nat} (hk : k < n) (h : parentOf t k = some p) :
    ∃ post, inner n t = inner k t ++ k :: post := by
  obtain ⟨m, rfl⟩ : ∃ m, n = (k + 1) + m := ⟨n - (k + 1), by omega⟩
  unfold inner
  rw [List.range_add, List.filter_append, List.range_succ, List.filter_append]
  refine ⟨((List.range m).map (k + 1 + ·)).filter (fun c => (parentOf t c).isSome), ?_⟩
  simp [h]

theorem populateChildren_wp (hl : t.length = n) (hf : Forest n (parentOf t)) {ptr no : List Nat}
    (hp : ptr.length = n + 1) (hn : no.length = n) :
    wp (populateChildren n t ptr no (List.replicate n 0)) (fun r => KidsOk n t r.1 r.2.1 ∧
      r.2.2.length = n ∧ ∀ p, p < n → r.2.2.getD p 0 = (kids n t p).length) := by
  unfold populateChildren
  rw [wp_bind]
  refine wp_mono (countChildren_wp hl hf) ?_
  rintro cnt ⟨c1, c2⟩
  rw [wp_bind]
  refine wp_mono (childPtrs_wp c1 c2 hp) ?_
  rintro ptr' ⟨p1, p2⟩
  rw [wp_bind]
  have hle : (inner n t).length ≤ n := by
    unfold inner
    exact (List.length_filter_le _ _).trans (by simp)
  refine wp_mono (forRange_wp' (fun k (s : List Nat × List Nat) => s.2.length = n ∧ s.1.length = n ∧
      (∀ p, p < n → s.2.getD p 0 = cntKey (pkey t) (inner k t) p) ∧
      Filled (pkey t) id (inner n t) (inner k t) (s.1.take (inner n t).length)) (Nat.zero_le n) ?_ ?_
      (fun _ h => h)) ?_
  · refine ⟨by simp, hn, fun p hp => ?_, ?_⟩
    · rw [getD_replicate _ _ _ _ hp]; simp [inner]
    · have : inner 0 t = [] := rfl
      rw [this]
      exact Filled.init _ _ (by simp; omega)
  · rintro k ⟨no', cn⟩ _ hk ⟨h1, h2, h3, h4⟩
    dsimp only at h1 h2 h3 h4
    unfold placeChild
    rw [rd_tree (by omega), ok_bind]
    rcases parent_cases (t := t) k with ⟨h5, h6⟩ | ⟨p, h5, h6⟩
    · rw [if_neg (by omega), wp_ok, inner_succ_none h6]
      exact ⟨h1, h2, h3, h4⟩
    · have hpn := (hf k p hk h6).2
      obtain ⟨post, hs⟩ := inner_split hk h6
      have hpk : pkey t k = p := by unfold pkey; rw [h6]; rfl
      have hpos : ptr'.getD p 0 + cn.getD p 0 = posOf (pkey t) (inner n t) (inner k t) (pkey t k) := by
        rw [p2 p (by omega), h3 p hpn, hpk]; rfl
      have hlt := posOf_lt_length (pkey t) hs
      rw [h5, if_pos (by omega), rdZ_nat, rd_getD 0 (by omega), ok_bind, rdZ_nat]
      dsimp only
      rw [rd_getD 0 (by omega), ok_bind, hpos,
        wr_eq (by omega), ok_bind, wrZ_nat, wr_eq (by omega), ok_bind, wp_ok, inner_succ_some h6]
      refine ⟨by simpa using h1, by simpa using h2, fun q hq => ?_, ?_⟩
      · dsimp only
        rw [cntKey_concat, hpk, getD_set]
        by_cases hqp : q = p
        · subst hqp
          rw [if_pos ⟨rfl, by omega⟩, if_pos rfl, h3 q hq]
        · rw [if_neg (by omega), if_neg (fun h => hqp h.symm), h3 q hq, Nat.add_zero]
      · dsimp only
        have := h4.step hs
        rw [List.take_set]
        exact this
  · rintro ⟨no', cn⟩ ⟨h1, h2, h3, h4⟩
    rw [wp_ok]
    dsimp only at h1 h2 h3 h4 ⊢
    refine ⟨⟨p1, h2, p2, ?_⟩, c1, c2⟩
    intro p hp
    have hdone := h4.done (m := n) (fun a ha => by
      unfold inner at ha
      rw [List.mem_filter, List.mem_range] at ha
      obtain ⟨q, hq⟩ := Option.isSome_iff_exists.1 ha.2
      unfold pkey
      rw [hq]
      exact (hf a q ha.1 hq).2)
    rw [List.map_id] at hdone
    rw [p2 p (by omega), p2 (p + 1) (by omega), ← filter_inner, ← bucket_slice (m := n) _ _ hp, ← hdone]
    have hb := below_le_length (pkey t) (inner n t) (p + 1)
    apply List.ext_getElem?
    intro j
    rw [getElem?_slice, getElem?_slice]
    split
    · rw [List.getElem?_take, if_pos (by omega)]
    · rfl

end Verif.Tree
