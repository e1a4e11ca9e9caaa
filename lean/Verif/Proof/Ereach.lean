import Verif.Model.LFactor
import Verif.Proof.RowTree
import Verif.Proof.SparseSort
import Verif.Proof.LevelSet
import Verif.Proof.ComputeEtree

/-! # `ereach`: a row of the factor from the elimination tree -/

namespace Verif.LFactor
open Res Relation

theorem mark_eq {w : List Int} {j : Nat} (h : j < w.length) :
    mark w j = ok (w.set j (-(w.getD j 0) - 2)) := by
  unfold mark
  rw [rd_getD 0 h, ok_bind, wr_eq h]

/-- The marks of the nodes of `M` are flipped. -/
structure Flip (w0 : List Int) (M : List Nat) (w : List Int) : Prop where
  len : w.length = w0.length
  get : ∀ x, x < w0.length → w.getD x 0 = if x ∈ M then -(w0.getD x 0) - 2 else w0.getD x 0

theorem Flip.init (w : List Int) : Flip w [] w := ⟨rfl, fun x _ => by simp⟩

theorem Flip.mark {w0 w : List Int} {M : List Nat} (h : Flip w0 M w) {j : Nat} (hj : j < w0.length)
    (hn : j ∉ M) : LFactor.mark w j = ok (w.set j (-(w.getD j 0) - 2)) ∧
      Flip w0 (j :: M) (w.set j (-(w.getD j 0) - 2)) := by
  refine ⟨mark_eq (by rw [h.len]; exact hj), by simpa using h.len, ?_⟩
  intro x hx
  rw [getD_set]
  by_cases e : j = x
  · subst e
    rw [if_pos ⟨rfl, by rw [h.len]; exact hj⟩, if_pos (by simp), h.get j hj, if_neg hn]
  · rw [if_neg (by tauto), h.get x hx]
    have : x ∈ j :: M ↔ x ∈ M := by
      rw [List.mem_cons]
      constructor
      · rintro (h | h)
        · exact absurd h.symm e
        · exact h
      · exact Or.inr
    simp only [this]

theorem Flip.unmark {w0 w : List Int} {M : List Nat} {j : Nat} (h : Flip w0 (j :: M) w)
    (hj : j < w0.length) (hn : j ∉ M) : LFactor.mark w j = ok (w.set j (-(w.getD j 0) - 2)) ∧
      Flip w0 M (w.set j (-(w.getD j 0) - 2)) := by
  refine ⟨mark_eq (by rw [h.len]; exact hj), by simpa using h.len, ?_⟩
  intro x hx
  rw [getD_set]
  by_cases e : j = x
  · subst e
    rw [if_pos ⟨rfl, by rw [h.len]; exact hj⟩, if_neg hn, h.get j hj, if_pos (by simp)]
    omega
  · rw [if_neg (by tauto), h.get x hx]
    have : x ∈ j :: M ↔ x ∈ M := by
      rw [List.mem_cons]
      constructor
      · rintro (h | h)
        · exact absurd h.symm e
        · exact h
      · exact Or.inr
    simp only [this]

theorem Flip.congr {w0 w : List Int} {M M' : List Nat} (h : Flip w0 M w) (hM : ∀ x, x ∈ M ↔ x ∈ M') :
    Flip w0 M' w := ⟨h.len, fun x hx => by rw [h.get x hx]; simp only [hM]⟩

theorem slice_set_head {α : Type} {s : List α} {a n : Nat} (v : α) (ha : a < n) (hn : n ≤ s.length) :
    slice (s.set a v) a n = v :: slice s (a + 1) n := by
  apply List.ext_getElem?
  intro k
  rw [getElem?_slice]
  cases k with
  | zero =>
    rw [if_pos (by omega)]
    simp [show a < s.length by omega]
  | succ k =>
    rw [List.getElem?_cons_succ, getElem?_slice, List.getElem?_set_ne (by omega)]
    by_cases h : a + (k + 1) < n
    · rw [if_pos h, if_pos (by omega), show a + (k + 1) = a + 1 + k by omega]
    · rw [if_neg h, if_neg (by omega)]

theorem pushPath_wp {n len top : Nat} {s P S : List Nat} (hl : P.length = len) (hlt : len ≤ top)
    (htn : top ≤ n) (hn : n ≤ s.length) (hP : s.take len = P) (hS : slice s top n = S) :
    ∃ s', pushPath n len top s = ok (top - len, s') ∧ s'.length = s.length ∧
      slice s' (top - len) n = P ++ S := by
  have key := whileF_wp (σ := Nat × Nat × List Nat)
    (I := fun c => c.1 ≤ len ∧ c.2.1 + len = top + c.1 ∧ c.2.2.length = s.length ∧
      c.2.2.take c.1 = P.take c.1 ∧ slice c.2.2 c.2.1 n = P.drop c.1 ++ S) (m := fun c => c.1)
    (cond := fun c => ok (decide (0 < c.1))) (body := fun c => do
      let v ← rd c.2.2 (c.1 - 1)
      if c.2.1 = 0 then ub else do
        let s ← wr c.2.2 (c.2.1 - 1) v
        ok (c.1 - 1, c.2.1 - 1, s))
    (Q := fun c => c.2.1 = top - len ∧ c.2.2.length = s.length ∧ slice c.2.2 (top - len) n = P ++ S)
    ?_ (n + 1) (len, top, s) (by dsimp only; omega) ?_
  · obtain ⟨⟨l, t, s'⟩, h1, h2, h3, h4⟩ := wp_iff.1 key
    dsimp only at h2 h3 h4
    subst h2
    refine ⟨s', ?_, h3, h4⟩
    unfold pushPath
    rw [h1]
    rfl
  · rintro ⟨l, t, s'⟩ ⟨h1, h2, h3, h4, h5⟩
    dsimp only at h1 h2 h3 h4 h5 ⊢
    rw [wp_ok]
    by_cases h : 0 < l
    · simp only [h, decide_true, if_true, true_and]
      rw [rd_getD 0 (by omega), ok_bind, if_neg (by omega), wr_eq (by omega), ok_bind, wp_ok]
      have hv : s'.getD (l - 1) 0 = P.getD (l - 1) 0 := by
        have := congrArg (fun x => x.getD (l - 1) 0) h4
        simp only [List.getD_eq_getElem?_getD, List.getElem?_take] at this ⊢
        rw [if_pos (by omega), if_pos (by omega)] at this
        exact this
      refine ⟨⟨by omega, by dsimp only; omega, by simpa using h3, ?_, ?_⟩, by omega⟩
      · dsimp only
        rw [List.take_set_of_le (by omega)]
        have := congrArg (List.take (l - 1)) h4
        rw [List.take_take, List.take_take, Nat.min_eq_left (by omega)] at this
        exact this
      · dsimp only
        rw [slice_set_head _ (by omega) (by omega), show t - 1 + 1 = t by omega, h5, hv,
          ← List.cons_append]
        congr 1
        have hlt' : l - 1 < P.length := by omega
        rw [List.drop_eq_getElem_cons hlt', show l - 1 + 1 = l by omega]
        simp [List.getD_eq_getElem?_getD, hlt']
    · obtain rfl : l = 0 := by omega
      simp only [lt_irrefl, decide_false, Bool.false_eq_true, if_false]
      refine ⟨by omega, h3, ?_⟩
      rw [show top - len = t by omega, h5]; rfl
  · dsimp only
    refine ⟨le_refl _, rfl, rfl, by rw [hP, ← hl, List.take_length], ?_⟩
    rw [hS, ← hl, List.drop_length]; rfl

variable {E : Nat → Nat → Prop} {n k : Nat} {parent : List (Option Nat)}

/-- Every node is followed by its parent, or its parent is `k`. -/
def Topo (par : Nat → Option Nat) (k : Nat) (S : List Nat) : Prop :=
  ∀ a x b, S = a ++ x :: b → ∃ y, par x = some y ∧ (y = k ∨ y ∈ b)

theorem Flip.read {w0 w : List Int} {M : List Nat} (h : Flip w0 M w) {j : Nat} (hj : j < w0.length)
    (h0 : 0 ≤ w0.getD j 0) : ∃ v, rd w j = ok v ∧ (v < 0 ↔ j ∈ M) := by
  refine ⟨w.getD j 0, rd_getD 0 (by rw [h.len]; exact hj), ?_⟩
  rw [h.get j hj]
  by_cases e : j ∈ M
  · rw [if_pos e]; exact ⟨fun _ => e, fun _ => by omega⟩
  · rw [if_neg e]; exact ⟨fun h => absurd h (by omega), fun h => absurd h e⟩

theorem slice_set_lt {α : Type} {s : List α} {i a n : Nat} (v : α) (h : i < a) :
    slice (s.set i v) a n = slice s a n := by
  apply List.ext_getElem?
  intro k
  rw [getElem?_slice, getElem?_slice, List.getElem?_set_ne (by omega)]

theorem mem_shift (i k : Nat) (P S : List Nat) (x : Nat) :
    x ∈ i :: k :: (P ++ S) ↔ x ∈ k :: (P ++ [i] ++ S) := by
  simp only [List.mem_cons, List.mem_append, List.not_mem_nil, or_false]
  tauto

/-- A chain of parents that leaves the list at its end. -/
theorem chain_snoc {par : Nat → Option Nat} {P : List Nat} {i p : Nat} (hp : par i = some p)
    (h : ∀ a x b, P = a ++ x :: b → ∃ y, par x = some y ∧ (y ∈ b ∨ y = i)) :
    ∀ a x b, P ++ [i] = a ++ x :: b → ∃ y, par x = some y ∧ (y ∈ b ∨ y = p) := by
  intro a x b he
  induction b using List.reverseRecOn with
  | nil =>
    obtain ⟨rfl, hx⟩ := List.append_inj' he rfl
    obtain rfl : i = x := by simpa using hx
    exact ⟨p, hp, Or.inr rfl⟩
  | append_singleton b z _ =>
    rw [← List.cons_append, ← List.append_assoc] at he
    obtain ⟨he', hz⟩ := List.append_inj' he rfl
    obtain rfl : i = z := by simpa using hz
    obtain ⟨y, hy1, hy2⟩ := h a x b he'
    exact ⟨y, hy1, Or.inl (by rw [List.mem_append, List.mem_singleton]; exact hy2)⟩

theorem climb_wp (hE : IsEtree E n fun j => parent.getD j none) (hpl : n ≤ parent.length) (hk : k < n)
    {w0 w : List Int} (hwl : n ≤ w0.length) (hw0 : ∀ x, x < n → 0 ≤ w0.getD x 0)
    {top : Nat} {s S : List Nat} (hsl : n ≤ s.length) (hS : slice s top n = S)
    (htop : top + S.length = n) (hSn : S.Nodup) (hSf : ∀ x ∈ S, Fill E k x)
    (hw : Flip w0 (k :: S) w) {i0 : Nat} (hi0 : i0 = k ∨ Fill E k i0) :
    ∃ c P, climb n parent ⟨some i0, 0, s, w⟩ = ok c ∧ c.len = P.length ∧ c.s.take c.len = P ∧
      c.s.length = s.length ∧ slice c.s top n = S ∧ (P ++ S).Nodup ∧ (∀ x ∈ P, Fill E k x) ∧
      c.len ≤ top ∧ Flip w0 (k :: (P ++ S)) c.w ∧ (i0 = k ∨ i0 ∈ P ++ S) ∧
      ∀ a x b, P = a ++ x :: b → ∃ y, parent.getD x none = some y ∧ (y ∈ b ∨ y = k ∨ y ∈ S) := by
  have hlt : ∀ {x}, Fill E k x → x < n := fun h => Nat.lt_trans h.lt hk
  have key := whileF_wp (σ := Climb)
    (I := fun c => ∃ i P, c.i = some i ∧ (i = k ∨ Fill E k i) ∧ c.len = P.length ∧
      c.s.take c.len = P ∧ c.s.length = s.length ∧ slice c.s top n = S ∧ (P ++ S).Nodup ∧
      (∀ x ∈ P, Fill E k x ∧ x < i) ∧ Flip w0 (k :: (P ++ S)) c.w ∧ (i0 = i ∨ i0 ∈ P) ∧ c.len ≤ top ∧
      ∀ a x b, P = a ++ x :: b → ∃ y, parent.getD x none = some y ∧ (y ∈ b ∨ y = i))
    (m := fun c => k + 1 - c.i.getD 0)
    (cond := fun c =>
      match c.i with
      | none => ub
      | some i => do
        let v ← rd c.w i
        ok (decide (¬ v < 0)))
    (body := fun c =>
      match c.i with
      | none => ub
      | some i => do
        let s ← wr c.s c.len i
        let w ← LFactor.mark c.w i
        let p ← rd parent i
        ok ⟨p, c.len + 1, s, w⟩)
    (Q := fun c => ∃ P, c.len = P.length ∧ c.s.take c.len = P ∧
      c.s.length = s.length ∧ slice c.s top n = S ∧ (P ++ S).Nodup ∧ (∀ x ∈ P, Fill E k x) ∧
      c.len ≤ top ∧ Flip w0 (k :: (P ++ S)) c.w ∧ (i0 = k ∨ i0 ∈ P ++ S) ∧
      ∀ a x b, P = a ++ x :: b → ∃ y, parent.getD x none = some y ∧ (y ∈ b ∨ y = k ∨ y ∈ S))
    ?_ (n + 1) ⟨some i0, 0, s, w⟩ (by dsimp only; omega) ?_
  · obtain ⟨c, h1, P, h2⟩ := wp_iff.1 key
    exact ⟨c, P, h1, h2⟩
  · rintro ⟨ci, len, s', w'⟩ ⟨i, P, h1, h2, h3, h4, h5, h6, h7, h8, h9, h10, h11, h12⟩
    dsimp only at h1 h3 h4 h5 h6 h9 h11
    subst h1
    have hin : i < n := by rcases h2 with rfl | h2; exacts [hk, hlt h2]
    have hik : i ≤ k := by rcases h2 with rfl | h2; exacts [le_refl _, h2.lt.le]
    obtain ⟨v, hv, hvm⟩ := h9.read (j := i) (by omega) (hw0 i hin)
    dsimp only
    rw [hv, ok_bind, wp_ok]
    by_cases hneg : v < 0
    · simp only [hneg, not_true, decide_false, Bool.false_eq_true, if_false]
      have hend : i = k ∨ i ∈ S := by
        have hm : i = k ∨ i ∈ P ∨ i ∈ S := by simpa using hvm.1 hneg
        rcases hm with h | h | h
        · exact Or.inl h
        · exact absurd (h8 i h).2 (by omega)
        · exact Or.inr h
      refine ⟨P, h3, h4, h5, h6, h7, fun x hx => (h8 x hx).1, h11, h9, ?_, ?_⟩
      · rcases h10 with rfl | h10
        · exact hend.imp id (List.mem_append_right _)
        · exact Or.inr (List.mem_append_left _ h10)
      · intro a x b he
        obtain ⟨y, hy1, hy2⟩ := h12 a x b he
        refine ⟨y, hy1, ?_⟩
        rcases hy2 with hy2 | rfl
        · exact Or.inl hy2
        · exact Or.inr hend
    · simp only [hneg, not_false_iff, decide_true, if_true, Option.getD_some]
      have hnm : i ∉ k :: (P ++ S) := fun h => hneg (hvm.2 h)
      have hne : i ≠ k ∧ i ∉ P ∧ i ∉ S := by simpa [not_or] using hnm
      have hf : Fill E k i := h2.resolve_left hne.1
      -- the path and the stack leave room
      have hroom : P.length + S.length + 1 < n := by
        have hnd : (i :: (P ++ S)).Nodup := by
          rw [List.nodup_cons]
          exact ⟨by simp [hne.2.1, hne.2.2], h7⟩
        have hsub : (i :: (P ++ S)) ⊆ List.range k := by
          intro x hx
          rw [List.mem_range]
          rcases List.mem_cons.1 hx with rfl | hx
          · exact hf.lt
          · rcases List.mem_append.1 hx with hx | hx
            · exact (h8 x hx).1.lt
            · exact (hSf x hx).lt
        have := (List.subperm_of_subset hnd hsub).length_le
        simp at this
        omega
      obtain ⟨p, hp, hpk, hpf⟩ := hE.step hk hf
      have hip := (hE.forest i p hin hp).1
      obtain ⟨hm1, hm2⟩ := h9.mark (j := i) (by omega) hnm
      rw [wr_eq (by omega), ok_bind, hm1, ok_bind, rd_getD none (by omega), ok_bind, wp_ok]
      refine ⟨by omega, ⟨p, P ++ [i], hp, ?_, by simp [h3], ?_, by simpa using h5, ?_, ?_, ?_, ?_, ?_,
        by dsimp only; omega, ?_⟩, by dsimp only; rw [hp]; simp only [Option.getD_some]; omega⟩
      · by_cases e : p = k
        · exact Or.inl e
        · exact Or.inr (hpf e)
      · dsimp only
        rw [List.take_add_one, List.take_set_of_le (le_refl _), h4]
        congr 1
        simp [show len < s'.length by omega]
      · dsimp only
        rw [slice_set_lt _ (by omega)]
        exact h6
      · rw [List.append_assoc, List.singleton_append]
        exact List.nodup_middle.2 (List.nodup_cons.2 ⟨by simp [hne.2.1, hne.2.2], h7⟩)
      · intro x hx
        rcases List.mem_append.1 hx with hx | hx
        · exact ⟨(h8 x hx).1, Nat.lt_trans (h8 x hx).2 hip⟩
        · rw [List.mem_singleton] at hx
          subst hx
          exact ⟨hf, hip⟩
      · exact hm2.congr (mem_shift i k P S)
      · refine Or.inr (List.mem_append.2 ?_)
        rcases h10 with rfl | h10
        · exact Or.inr (by simp)
        · exact Or.inl h10
      · exact chain_snoc (par := fun x => parent.getD x none) hp h12
  · refine ⟨i0, [], rfl, hi0, rfl, rfl, rfl, hS, by simpa using hSn, by simp, hw, Or.inl rfl,
      by simp, ?_⟩
    intro a x b he
    simp at he

theorem topo_append {par : Nat → Option Nat} {k : Nat} {P S : List Nat} (hS : Topo par k S)
    (hP : ∀ a x b, P = a ++ x :: b → ∃ y, par x = some y ∧ (y ∈ b ∨ y = k ∨ y ∈ S)) :
    Topo par k (P ++ S) := by
  intro a x b he
  rcases List.append_eq_append_iff.1 he with ⟨a', h1, h2⟩ | ⟨c', h1, h2⟩
  · exact hS a' x b h2
  · cases c' with
    | nil =>
      rw [List.nil_append] at h2
      exact hS [] x b h2.symm
    | cons z c' =>
      rw [List.cons_append] at h2
      obtain ⟨rfl, rfl⟩ := List.cons.inj h2
      obtain ⟨y, hy1, hy2⟩ := hP a x c' h1
      refine ⟨y, hy1, ?_⟩
      rcases hy2 with h | h | h
      · exact Or.inr (List.mem_append_left _ h)
      · exact Or.inl h
      · exact Or.inr (List.mem_append_right _ h)

/-- Unmarking the nodes of a list. -/
theorem unmark_wp {w0 : List Int} {k : Nat} (S : List Nat) (hn : (k :: S).Nodup)
    (hlt : ∀ x ∈ k :: S, x < w0.length) {w : List Int} (hw : Flip w0 (k :: S) w) :
    ∃ w', forEach S (fun x w => mark w x) w = ok w' ∧ Flip w0 [k] w' := by
  induction S generalizing w with
  | nil => exact ⟨w, rfl, hw⟩
  | cons x S ih =>
    have hperm : (x :: k :: S).Nodup := (List.Perm.swap x k S).nodup_iff.1 hn
    have h1 := (hw.congr (M' := x :: k :: S) (fun y => (List.Perm.swap x k S).mem_iff)).unmark
      (hlt x (by simp)) (List.nodup_cons.1 hperm).1
    obtain ⟨w', h2, h3⟩ := ih (List.nodup_cons.1 hperm).2
      (fun y hy => hlt y (by rcases List.mem_cons.1 hy with rfl | hy <;> simp [*])) h1.2
    refine ⟨w', ?_, h3⟩
    rw [forEach, h1.1, ok_bind]
    exact h2

theorem Flip.nil_eq {w0 w : List Int} (h : Flip w0 [] w) : w = w0 :=
  ext_getD 0 h.len fun k hk => by rw [h.get k (by rw [← h.len]; exact hk)]; simp

variable {V : Type} {A : Sp V}

/-- `ereach` computes row `k` of the factor. -/
theorem ereach_wp (hA : A.PatWF)
    (hE : IsEtree (Etree.symE A) A.cols fun j => parent.getD j none) (hpl : A.cols ≤ parent.length)
    (hk : k < A.cols) {s : List Nat} {w : List Int} (hs : A.cols ≤ s.length) (hw : A.cols ≤ w.length)
    (hw0 : ∀ x, x < A.cols → 0 ≤ w.getD x 0) :
    ∃ top s', ereach A.cols A.p A.i k parent s w = ok (top, s', w) ∧ s'.length = s.length ∧
      top ≤ A.cols ∧ (slice s' top A.cols).Nodup ∧
      (∀ j, j ∈ slice s' top A.cols ↔ Fill (Etree.symE A) k j) ∧
      Topo (fun j => parent.getD j none) k (slice s' top A.cols) := by
  have hwk : k < w.length := by omega
  obtain ⟨hm1, hm2⟩ := (Flip.init w).mark (j := k) hwk (by simp)
  have loop : wp (forEach (A.colRows k) (fun i (r : Nat × List Nat × List Int) =>
      if k < i then ok r else do
        let c ← climb A.cols parent ⟨some i, 0, r.2.1, r.2.2⟩
        let t ← pushPath A.cols c.len r.1 c.s
        ok (t.1, t.2, c.w)) (A.cols, s, w.set k (-(w.getD k 0) - 2)))
      (fun r => r.2.1.length = s.length ∧ r.1 ≤ A.cols ∧ (slice r.2.1 r.1 A.cols).Nodup ∧
        (∀ x ∈ slice r.2.1 r.1 A.cols, Fill (Etree.symE A) k x) ∧
        Topo (fun j => parent.getD j none) k (slice r.2.1 r.1 A.cols) ∧
        Flip w (k :: slice r.2.1 r.1 A.cols) r.2.2 ∧
        ∀ i ∈ A.colRows k, i < k → i ∈ slice r.2.1 r.1 A.cols) := by
    have := forEach_wp (I := fun pre (r : Nat × List Nat × List Int) =>
        r.2.1.length = s.length ∧ r.1 ≤ A.cols ∧ (slice r.2.1 r.1 A.cols).Nodup ∧
        (∀ x ∈ slice r.2.1 r.1 A.cols, Fill (Etree.symE A) k x) ∧
        Topo (fun j => parent.getD j none) k (slice r.2.1 r.1 A.cols) ∧
        Flip w (k :: slice r.2.1 r.1 A.cols) r.2.2 ∧
        ∀ i ∈ pre, i < k → i ∈ slice r.2.1 r.1 A.cols)
      (f := fun i (r : Nat × List Nat × List Int) =>
      if k < i then ok r else do
        let c ← climb A.cols parent ⟨some i, 0, r.2.1, r.2.2⟩
        let t ← pushPath A.cols c.len r.1 c.s
        ok (t.1, t.2, c.w)) (A.colRows k) [] (A.cols, s, w.set k (-(w.getD k 0) - 2)) ?_ ?_
    · simpa using this
    · dsimp only
      rw [slice_self]
      refine ⟨rfl, le_refl _, List.nodup_nil, by simp, ?_, hm2, by simp⟩
      intro a x b he
      simp at he
    · rintro p i q ⟨top, s1, w1⟩ he ⟨g1, g2, g3, g4, g5, g6, g7⟩
      dsimp only at g1 g2 g3 g4 g5 g6 g7 ⊢
      have hmem : i ∈ A.colRows k := by
        rw [List.nil_append] at he; rw [he]; simp
      by_cases hki : k < i
      · rw [if_pos hki, wp_ok]
        refine ⟨g1, g2, g3, g4, g5, g6, ?_⟩
        intro j hj hjk
        rcases List.mem_append.1 hj with hj | hj
        · exact g7 j hj hjk
        · rw [List.mem_singleton] at hj; omega
      · rw [if_neg hki]
        have hi0 : i = k ∨ Fill (Etree.symE A) k i := by
          by_cases e : i = k
          · exact Or.inl e
          · exact Or.inr (Fill.entry (by omega) ⟨hk, hmem⟩)
        obtain ⟨c, P, c1, c2, c3, c4, c5, c6, c7, c8, c9, c10, c11⟩ := climb_wp hE hpl hk hw hw0
          (top := top) (s := s1) (by omega) rfl
          (by rw [slice_length (by omega)]; omega) g3 g4 g6 hi0
        obtain ⟨s2, d1, d2, d3⟩ := pushPath_wp (n := A.cols) (top := top) (s := c.s) c2.symm c8 g2
          (by omega) c3 c5
        rw [c1, ok_bind, d1, ok_bind, wp_ok]
        dsimp only
        rw [d3]
        refine ⟨by omega, by omega, c6, ?_, topo_append g5 c11, c9, ?_⟩
        · intro x hx
          rcases List.mem_append.1 hx with hx | hx
          · exact c7 x hx
          · exact g4 x hx
        · intro j hj hjk
          rcases List.mem_append.1 hj with hj | hj
          · exact List.mem_append_right _ (g7 j hj hjk)
          · rw [List.mem_singleton] at hj
            subst hj
            exact c10.resolve_left (by omega)
  obtain ⟨⟨top, s', w'⟩, e1, e2, e3, e4, e5, e6, e7, e8⟩ := wp_iff.1 loop
  dsimp only at e2 e3 e4 e5 e6 e7 e8
  have hkS : k ∉ slice s' top A.cols := fun h => absurd (e5 k h).lt (by omega)
  obtain ⟨w2, u1, u2⟩ := unmark_wp (slice s' top A.cols) (List.nodup_cons.2 ⟨hkS, e4⟩)
    (by
      intro x hx
      rcases List.mem_cons.1 hx with rfl | hx
      · exact hwk
      · have := (e5 x hx).lt; omega) e7
  obtain ⟨v1, v2⟩ := u2.unmark hwk (by simp)
  refine ⟨top, s', ?_, e2, e3, e4, ?_, e6⟩
  · have hc := Etree.cols_loop hA hk (fun i (r : Nat × List Nat × List Int) =>
      if k < i then ok r else do
        let c ← climb A.cols parent ⟨some i, 0, r.2.1, r.2.2⟩
        let t ← pushPath A.cols c.len r.1 c.s
        ok (t.1, t.2, c.w)) (A.cols, s, w.set k (-(w.getD k 0) - 2))
    rw [e1] at hc
    have hl := hA.plen
    rw [rd_getD 0 (by omega), ok_bind, rd_getD 0 (by omega), ok_bind] at hc
    unfold ereach
    rw [hm1, ok_bind, rd_getD 0 (by omega), ok_bind, rd_getD 0 (by omega), ok_bind, hc, ok_bind]
    dsimp only
    have hun : forRange top A.cols (fun p w => do
        let x ← rd s' p
        mark w x) w' = forEach (slice s' top A.cols) (fun x w => mark w x) w' :=
      forRange_rd s' (fun x w => mark w x) _ _ w' (by omega)
    rw [hun, u1, ok_bind, v1, ok_bind, v2.nil_eq]
  · intro j
    refine ⟨e5 j, ?_⟩
    intro hf
    obtain ⟨hjk, i, hik, hEi, hsub⟩ := (hE.row hk).1 hf
    -- climb from the entry
    have key : ∀ y, ReflTransGen (ChildOf A.cols fun j => parent.getD j none) i y → y < k →
        y ∈ slice s' top A.cols := by
      intro y hy
      induction hy with
      | refl => intro _; exact e8 i hEi.2 hik
      | tail _ hbc ih =>
        intro hc
        have hbc' := (hE.forest _ _ hbc.1 hbc.2).1
        obtain ⟨a, b, hab⟩ := List.append_of_mem (ih (by omega))
        obtain ⟨y, hy1, hy2⟩ := e6 a _ b hab
        rw [hbc.2] at hy1
        obtain rfl := Option.some.inj hy1
        rcases hy2 with rfl | hy2
        · omega
        · rw [hab]; simp [hy2]
    exact key j hsub hjk

end Verif.LFactor
