import Verif.Model.RowPattern
import Verif.Proof.Ereach
import Verif.Props.Etree

/-! # `computeNoneZeroPatternOfRowK` -/

namespace Verif.RowPat
open Res Relation
open Verif.LFactor (Topo topo_append pushPath_wp slice_set_lt slice_set_head mem_shift chain_snoc pushPath)

/-- The nodes of `M` are marked. -/
structure Marks (n : Nat) (M : List Nat) (w : List Bool) : Prop where
  len : w.length = n
  get : ∀ x, x < n → w.getD x false = decide (x ∈ M)

theorem Marks.read {n : Nat} {M : List Nat} {w : List Bool} (h : Marks n M w) {j : Nat} (hj : j < n) :
    ∃ v, rd w j = ok v ∧ (v = true ↔ j ∈ M) :=
  ⟨w.getD j false, rd_getD false (by rw [h.len]; exact hj), by rw [h.get j hj]; simp⟩

theorem Marks.mark {n : Nat} {M : List Nat} {w : List Bool} (h : Marks n M w) {j : Nat} (hj : j < n) :
    wr w j true = ok (w.set j true) ∧ Marks n (j :: M) (w.set j true) := by
  refine ⟨wr_eq (by rw [h.len]; exact hj), by simpa using h.len, ?_⟩
  intro x hx
  rw [getD_set]
  by_cases e : j = x
  · subst e
    rw [if_pos ⟨rfl, by rw [h.len]; exact hj⟩]; simp
  · rw [if_neg (by tauto), h.get x hx]
    have : x ∈ j :: M ↔ x ∈ M := by
      rw [List.mem_cons]
      exact ⟨fun h => h.resolve_left (fun h => e h.symm), .inr⟩
    simp only [this]

theorem Marks.unmark {n : Nat} {M : List Nat} {w : List Bool} (h : Marks n M w) {j : Nat} (hj : j < n) :
    wr w j false = ok (w.set j false) ∧ Marks n (M.filter (· ≠ j)) (w.set j false) := by
  refine ⟨wr_eq (by rw [h.len]; exact hj), by simpa using h.len, ?_⟩
  intro x hx
  rw [getD_set]
  by_cases e : j = x
  · subst e
    rw [if_pos ⟨rfl, by rw [h.len]; exact hj⟩]; simp
  · rw [if_neg (by tauto), h.get x hx]
    have : x ∈ M.filter (· ≠ j) ↔ x ∈ M := by
      rw [List.mem_filter]
      exact ⟨fun h => h.1, fun h => ⟨h, by simpa using fun h => e h.symm⟩⟩
    simp only [this]

theorem Marks.congr {n : Nat} {w : List Bool} {M M' : List Nat} (h : Marks n M w)
    (hM : ∀ x, x ∈ M ↔ x ∈ M') : Marks n M' w := ⟨h.len, fun x hx => by rw [h.get x hx]; simp only [hM]⟩

theorem Marks.none {n : Nat} {w : List Bool} (h : Marks n [] w) : w = List.replicate n false :=
  ext_getD false (by simpa using h.len) fun k hk => by
    rw [h.get k (by rw [← h.len]; exact hk), getD_replicate _ _ _ _ (by rw [← h.len]; exact hk)]; simp

theorem Marks.init (n : Nat) : Marks n [] (List.replicate n false) :=
  ⟨by simp, fun x hx => by rw [getD_replicate _ _ _ _ hx]; simp⟩

variable {E : Nat → Nat → Prop} {n k : Nat} {parent : List (Option Nat)}

theorem climb_wp (hE : IsEtree E n fun j => parent.getD j none) (hpl : n ≤ parent.length) (hk : k < n)
    {w : List Bool}
    {top : Nat} {s S T : List Nat} (hsl : n ≤ s.length) (hS : slice s top n = T)
    (htop : top + S.length + 1 = n) (hSn : S.Nodup) (hSf : ∀ x ∈ S, Fill E k x)
    (hw : Marks n (k :: S) w) {i0 : Nat} (hi0 : i0 = k ∨ Fill E k i0) :
    ∃ c P, climb n parent ⟨some i0, 0, s, w⟩ = ok c ∧ c.len = P.length ∧ c.s.take c.len = P ∧
      c.s.length = s.length ∧ slice c.s top n = T ∧ (P ++ S).Nodup ∧ (∀ x ∈ P, Fill E k x) ∧
      c.len ≤ top ∧ Marks n (k :: (P ++ S)) c.w ∧ (i0 = k ∨ i0 ∈ P ++ S) ∧
      ∀ a x b, P = a ++ x :: b → ∃ y, parent.getD x none = some y ∧ (y ∈ b ∨ y = k ∨ y ∈ S) := by
  have hlt : ∀ {x}, Fill E k x → x < n := fun h => Nat.lt_trans h.lt hk
  have key := whileF_wp (σ := Climb)
    (I := fun c => ∃ i P, c.i = some i ∧ (i = k ∨ Fill E k i) ∧ c.len = P.length ∧
      c.s.take c.len = P ∧ c.s.length = s.length ∧ slice c.s top n = T ∧ (P ++ S).Nodup ∧
      (∀ x ∈ P, Fill E k x ∧ x < i) ∧ Marks n (k :: (P ++ S)) c.w ∧ (i0 = i ∨ i0 ∈ P) ∧ c.len ≤ top ∧
      ∀ a x b, P = a ++ x :: b → ∃ y, parent.getD x none = some y ∧ (y ∈ b ∨ y = i))
    (m := fun c => k + 1 - c.i.getD 0)
    (cond := fun c =>
      match c.i with
      | none => ub
      | some i => do
        let v ← rd c.w i
        ok (!v))
    (body := fun c =>
      match c.i with
      | none => ub
      | some i => do
        let s ← wr c.s c.len i
        let w ← wr c.w i true
        let p ← rd parent i
        ok ⟨p, c.len + 1, s, w⟩)
    (Q := fun c => ∃ P, c.len = P.length ∧ c.s.take c.len = P ∧
      c.s.length = s.length ∧ slice c.s top n = T ∧ (P ++ S).Nodup ∧ (∀ x ∈ P, Fill E k x) ∧
      c.len ≤ top ∧ Marks n (k :: (P ++ S)) c.w ∧ (i0 = k ∨ i0 ∈ P ++ S) ∧
      ∀ a x b, P = a ++ x :: b → ∃ y, parent.getD x none = some y ∧ (y ∈ b ∨ y = k ∨ y ∈ S))
    ?_ (n + 1) ⟨some i0, 0, s, w⟩ (by dsimp only; omega) ?_
  · obtain ⟨c, h1, P, h2⟩ := wp_iff.1 key
    exact ⟨c, P, h1, h2⟩
  · rintro ⟨ci, len, s', w'⟩ ⟨i, P, h1, h2, h3, h4, h5, h6, h7, h8, h9, h10, h11, h12⟩
    dsimp only at h1 h3 h4 h5 h6 h9 h11
    subst h1
    have hin : i < n := by rcases h2 with rfl | h2; exacts [hk, hlt h2]
    have hik : i ≤ k := by rcases h2 with rfl | h2; exacts [le_refl _, h2.lt.le]
    obtain ⟨v, hv, hvm⟩ := h9.read (j := i) hin
    dsimp only
    rw [hv, ok_bind, wp_ok]
    by_cases hneg : v = true
    · simp only [hneg, Bool.not_true, Bool.false_eq_true, if_false]
      have hend : i = k ∨ i ∈ S := by
        have hm : i = k ∨ i ∈ P ∨ i ∈ S := by simpa using hvm.1 hneg
        rcases hm with h | h | h
        · exact Or.inl h
        · exact absurd (h8 i h).2 (by omega)
        · exact Or.inr h
      refine ⟨P, h3, h4, h5, h6, h7, fun x hx => (h8 x hx).1, h11, h9, ?_, ?_⟩
      · rcases h10 with rfl | h10
        · exact hend.imp id (List.mem_append_right _)
        · exact Or.inr (List.mem_append_left _ h10)
      · intro a x b he
        obtain ⟨y, hy1, hy2⟩ := h12 a x b he
        refine ⟨y, hy1, ?_⟩
        rcases hy2 with hy2 | rfl
        · exact Or.inl hy2
        · exact Or.inr hend
    · simp only [Bool.eq_false_iff.2 hneg, Bool.not_false, if_true, Option.getD_some]
      have hnm : i ∉ k :: (P ++ S) := fun h => hneg (hvm.2 h)
      have hne : i ≠ k ∧ i ∉ P ∧ i ∉ S := by simpa [not_or] using hnm
      have hf : Fill E k i := h2.resolve_left hne.1
      -- the path and the stack leave room
      have hroom : P.length + S.length + 1 < n := by
        have hnd : (i :: (P ++ S)).Nodup := by
          rw [List.nodup_cons]
          exact ⟨by simp [hne.2.1, hne.2.2], h7⟩
        have hsub : (i :: (P ++ S)) ⊆ List.range k := by
          intro x hx
          rw [List.mem_range]
          rcases List.mem_cons.1 hx with rfl | hx
          · exact hf.lt
          · rcases List.mem_append.1 hx with hx | hx
            · exact (h8 x hx).1.lt
            · exact (hSf x hx).lt
        have := (List.subperm_of_subset hnd hsub).length_le
        simp at this
        omega
      obtain ⟨p, hp, hpk, hpf⟩ := hE.step hk hf
      have hip := (hE.forest i p hin hp).1
      obtain ⟨hm1, hm2⟩ := h9.mark (j := i) hin
      rw [wr_eq (by omega), ok_bind, hm1, ok_bind, rd_getD none (by omega), ok_bind, wp_ok]
      refine ⟨by omega, ⟨p, P ++ [i], hp, ?_, by simp [h3], ?_, by simpa using h5, ?_, ?_, ?_, ?_, ?_,
        by dsimp only; omega, ?_⟩, by dsimp only; rw [hp]; simp only [Option.getD_some]; omega⟩
      · by_cases e : p = k
        · exact Or.inl e
        · exact Or.inr (hpf e)
      · dsimp only
        rw [List.take_add_one, List.take_set_of_le (le_refl _), h4]
        congr 1
        simp [show len < s'.length by omega]
      · dsimp only
        rw [slice_set_lt _ (by omega)]
        exact h6
      · rw [List.append_assoc, List.singleton_append]
        exact List.nodup_middle.2 (List.nodup_cons.2 ⟨by simp [hne.2.1, hne.2.2], h7⟩)
      · intro x hx
        rcases List.mem_append.1 hx with hx | hx
        · exact ⟨(h8 x hx).1, Nat.lt_trans (h8 x hx).2 hip⟩
        · rw [List.mem_singleton] at hx
          subst hx
          exact ⟨hf, hip⟩
      · exact hm2.congr (mem_shift i k P S)
      · refine Or.inr (List.mem_append.2 ?_)
        rcases h10 with rfl | h10
        · exact Or.inr (by simp)
        · exact Or.inl h10
      · exact chain_snoc (par := fun x => parent.getD x none) hp h12
  · refine ⟨i0, [], rfl, hi0, rfl, rfl, rfl, hS, by simpa using hSn, by simp, hw, Or.inl rfl,
      by simp, ?_⟩
    intro a x b he
    simp at he

/-- Unmarking the nodes of a list. -/
theorem unmark_wp {n : Nat} : ∀ (S M : List Nat) (w : List Bool), (∀ x ∈ S, x < n) → Marks n M w →
    ∃ w', forEach S (fun x w => wr w x false) w = ok w' ∧ Marks n (M.filter (· ∉ S)) w'
  | [], M, w, _, h => ⟨w, rfl, by simpa using h⟩
  | x :: S, M, w, hS, h => by
    obtain ⟨h1, h2⟩ := h.unmark (hS x (by simp))
    obtain ⟨w', h3, h4⟩ := unmark_wp S _ _ (fun y hy => hS y (by simp [hy])) h2
    refine ⟨w', by rw [forEach, h1, ok_bind]; exact h3, h4.congr ?_⟩
    intro y
    simp only [List.mem_filter, decide_eq_true_eq, List.mem_cons, not_or]
    tauto

variable {g : Csc}

/-- Row `k` of the factor, with the stale entry of `s` at the end. -/
theorem rows_wp (hE : IsEtree g.RowEntry g.n fun j => parent.getD j none)
    (hpl : g.n ≤ parent.length) (hk : k < g.n) (hlow : ∀ i ∈ g.col k, i ≤ k) {s : List Nat}
    (hs : g.n ≤ s.length) {w : List Bool} (hw : Marks g.n [k] w) :
    wp (forEach (g.col k) (fun i (r : Nat × List Nat × List Bool) => do
        let c ← climb g.n parent ⟨some i, 0, r.2.1, r.2.2⟩
        let t ← pushPath g.n c.len r.1 c.s
        ok (t.1, t.2, c.w)) (g.n - 1, s, w))
      fun r => ∃ S, r.2.1.length = s.length ∧ r.1 + S.length + 1 = g.n ∧
        slice r.2.1 r.1 g.n = S ++ [s.getD (g.n - 1) 0] ∧ S.Nodup ∧
        (∀ x ∈ S, Fill g.RowEntry k x) ∧ Topo (fun j => parent.getD j none) k S ∧
        Marks g.n (k :: S) r.2.2 ∧ ∀ i ∈ g.col k, i < k → i ∈ S := by
  have := forEach_wp (I := fun pre (r : Nat × List Nat × List Bool) => ∃ S,
        r.2.1.length = s.length ∧ r.1 + S.length + 1 = g.n ∧
        slice r.2.1 r.1 g.n = S ++ [s.getD (g.n - 1) 0] ∧ S.Nodup ∧
        (∀ x ∈ S, Fill g.RowEntry k x) ∧ Topo (fun j => parent.getD j none) k S ∧
        Marks g.n (k :: S) r.2.2 ∧ ∀ i ∈ pre, i < k → i ∈ S)
      (f := fun i (r : Nat × List Nat × List Bool) => do
        let c ← climb g.n parent ⟨some i, 0, r.2.1, r.2.2⟩
        let t ← pushPath g.n c.len r.1 c.s
        ok (t.1, t.2, c.w)) (g.col k) [] (g.n - 1, s, w) ?_ ?_
  · simpa using this
  · refine ⟨[], rfl, by simp; omega, ?_, List.nodup_nil, by simp, ?_, hw, by simp⟩
    · dsimp only
      have hl : (slice s (g.n - 1) g.n).length = 1 := by rw [slice_length hs]; omega
      apply List.ext_getElem?
      intro j
      rw [getElem?_slice]
      cases j with
      | zero =>
        rw [if_pos (by omega), Nat.add_zero, getElem?_getD 0 (by omega)]; rfl
      | succ j => rw [if_neg (by omega)]; rfl
    · intro a x b he
      simp at he
  · rintro p i q ⟨top, s1, w1⟩ he ⟨S, g1, g2, g3, g4, g5, g6, g7, g8⟩
    dsimp only at g1 g2 g3 g7 ⊢
    have hmem : i ∈ g.col k := by rw [List.nil_append] at he; rw [he]; simp
    have hi0 : i = k ∨ Fill g.RowEntry k i := by
      have := hlow i hmem
      by_cases e : i = k
      · exact Or.inl e
      · exact Or.inr (Fill.entry (by omega) ⟨hk, hmem⟩)
    obtain ⟨c, P, c1, c2, c3, c4, c5, c6, c7, c8, c9, c10, c11⟩ := climb_wp hE hpl hk
      (top := top) (s := s1) (by omega) g3 g2 g4 g5 g7 hi0
    obtain ⟨s2, d1, d2, d3⟩ := pushPath_wp (n := g.n) (top := top) (s := c.s) c2.symm c8 (by omega)
      (by omega) c3 c5
    rw [c1, ok_bind, d1, ok_bind, wp_ok]
    refine ⟨P ++ S, by dsimp only; omega, by rw [List.length_append]; dsimp only; omega,
      by dsimp only; rw [d3, List.append_assoc], c6, ?_, topo_append g6 c11, c9, ?_⟩
    · intro x hx
      rcases List.mem_append.1 hx with hx | hx
      · exact c7 x hx
      · exact g5 x hx
    · intro j hj hjk
      rcases List.mem_append.1 hj with hj | hj
      · exact List.mem_append_right _ (g8 j hj hjk)
      · rw [List.mem_singleton] at hj
        subst hj
        exact c10.resolve_left (by omega)

/-- All columns of the row are found. -/
theorem row_complete (hE : IsEtree g.RowEntry g.n fun j => parent.getD j none) (hk : k < g.n)
    {S : List Nat} (ht : Topo (fun j => parent.getD j none) k S)
    (hin : ∀ i ∈ g.col k, i < k → i ∈ S) {j : Nat} (hf : Fill g.RowEntry k j) : j ∈ S := by
  obtain ⟨hjk, i, hik, hEi, hsub⟩ := (hE.row hk).1 hf
  have key : ∀ y, ReflTransGen (ChildOf g.n fun j => parent.getD j none) i y → y < k → y ∈ S := by
    intro y hy
    induction hy with
    | refl => intro _; exact hin i hEi.2 hik
    | tail _ hbc ih =>
      intro hc
      have hbc' := (hE.forest _ _ hbc.1 hbc.2).1
      obtain ⟨a, b, hab⟩ := List.append_of_mem (ih (by omega))
      obtain ⟨y, hy1, hy2⟩ := ht a _ b hab
      rw [hbc.2] at hy1
      obtain rfl := Option.some.inj hy1
      rcases hy2 with rfl | hy2
      · omega
      · rw [hab]; simp [hy2]
  exact key j hsub hjk

theorem pattern_wp (hg : g.WF) (hE : IsEtree g.RowEntry g.n fun j => parent.getD j none)
    (hpl : g.n ≤ parent.length) (hk : k < g.n) (hlow : ∀ i ∈ g.col k, i ≤ k) {s : List Nat}
    (hs : g.n ≤ s.length) {debug : Bool} (hd : debug = false ∨ g.n ≠ 1)
    (hst : s.getD (g.n - 1) 0 < g.n) :
    ∃ top s' S, pattern debug g.n g.p g.i k parent s (List.replicate g.n false) =
        ok (top, s', List.replicate g.n false) ∧ s'.length = s.length ∧ top < g.n ∧
      slice s' top g.n = S ++ [k] ∧ S.Nodup ∧ (∀ j, j ∈ S ↔ Fill g.RowEntry k j) ∧
      Topo (fun j => parent.getD j none) k S := by
  obtain ⟨m1, m2⟩ := (Marks.init g.n).mark hk
  obtain ⟨⟨top, s', w'⟩, e1, S, e2, e3, e4, e5, e6, e7, e8, e9⟩ := wp_iff.1 (rows_wp hE hpl hk hlow hs m2)
  dsimp only at e2 e3 e4 e8
  have hSlt : ∀ x ∈ S ++ [s.getD (g.n - 1) 0], x < g.n := by
    intro x hx
    rw [List.mem_append, List.mem_singleton] at hx
    rcases hx with hx | rfl
    · have := (e6 x hx).lt; omega
    · exact hst
  obtain ⟨w2, u1, u2⟩ := unmark_wp _ _ _ hSlt e8
  obtain ⟨v1, v2⟩ := u2.unmark hk
  refine ⟨top, s'.set (g.n - 1) k, S, ?_, by simp [e2], by omega, ?_, e5, ?_, e7⟩
  · unfold pattern
    have hlen := hg.plen
    have hlast := hg.ptr_le (a := k + 1) (by omega)
    have hm : g.ptr k ≤ g.ptr (k + 1) := hg.mono k hk
    rw [if_neg (by rintro ⟨h1, h2⟩; rcases hd with h | h <;> simp_all), m1, ok_bind, hg.rd_p (by omega),
      ok_bind, hg.rd_p (by omega), ok_bind]
    have hloop := forRange_rd g.i (fun i (r : Nat × List Nat × List Bool) => do
        let c ← climb g.n parent ⟨some i, 0, r.2.1, r.2.2⟩
        let t ← pushPath g.n c.len r.1 c.s
        ok (t.1, t.2, c.w)) (g.ptr (k + 1) - g.ptr k) (g.ptr k)
        (g.n - 1, s, (List.replicate g.n false).set k true) (by omega)
    have e1' := hloop.trans e1
    unfold forRange
    rw [show (forN (g.ptr (k + 1) - g.ptr k) (g.ptr k) _ _ : Res (Nat × List Nat × List Bool)) = _ from e1',
      ok_bind]
    dsimp only
    have hun := forRange_rd s' (fun x w => wr w x false) (g.n - top) top w' (by omega)
    have hun' := hun.trans (show forEach (slice s' top g.n) _ w' = _ from e4 ▸ u1)
    rw [show (forN (g.n - top) top _ w' : Res (List Bool)) = _ from hun', ok_bind, v1, ok_bind,
      wr_eq (by omega), ok_bind]
    have : w2.set k false = List.replicate g.n false := by
      refine (v2.congr (M' := []) ?_).none
      intro x
      simp only [List.mem_filter, decide_eq_true_eq, List.mem_cons, List.not_mem_nil, iff_false,
        List.mem_append, not_and, not_not]
      tauto
    rw [this]
  · have hle : top ≤ g.n - 1 := by omega
    have h1 : slice (s'.set (g.n - 1) k) top g.n = slice (s'.set (g.n - 1) k) top (g.n - 1) ++
        slice (s'.set (g.n - 1) k) (g.n - 1) g.n := (slice_append hle (by omega)).symm
    have h2 : slice s' top g.n = slice s' top (g.n - 1) ++ slice s' (g.n - 1) g.n :=
      (slice_append hle (by omega)).symm
    have h3 : slice (s'.set (g.n - 1) k) (g.n - 1) g.n = [k] := by
      rw [slice_set_head _ (by omega) (by omega), show g.n - 1 + 1 = g.n by omega, slice_self]
    have h4 : slice (s'.set (g.n - 1) k) top (g.n - 1) = slice s' top (g.n - 1) := by
      apply List.ext_getElem?
      intro j
      rw [getElem?_slice, getElem?_slice]
      by_cases h : top + j < g.n - 1
      · rw [if_pos h, if_pos h, List.getElem?_set_ne (by omega)]
      · rw [if_neg h, if_neg h]
    rw [h1, h3, h4]
    rw [h2] at e4
    have hlen1 : (slice s' (g.n - 1) g.n).length = 1 := by rw [slice_length (by omega)]; omega
    rw [(List.append_inj' e4 (by simp [hlen1])).1]
  · intro j
    exact ⟨e6 j, row_complete hE hk e7 e9⟩

end Verif.RowPat
