import Verif.Proof.Etree
import Verif.Spec.Sparse

/-!
# Proof: `compute_etree`
-/

namespace Verif.Etree
open Res Relation

section
variable {E : Nat → Nat → Prop} {n : Nat} {s s₀ : Arrs}

/-- The nodes from `j` on have not been reached. -/
def Fresh (n j : Nat) (s : Arrs) : Prop :=
  ∀ x, j ≤ x → x < n → s.par.getD x none = none ∧ s.anc.getD x none = none

theorem Above.fresh {j : Nat} {s s' : Arrs} (h : Above j s s') (hf : Fresh n j s) :
    Fresh n (j + 1) s' := by
  intro x hx hn
  rw [(h.same x (by omega)).1, (h.same x (by omega)).2]
  exact hf x (by omega) hn

theorem Above.weaken {j k : Nat} {s s' : Arrs} (h : Above j s s') (hjk : j ≤ k) : Above k s s' :=
  ⟨h.plen, h.alen, fun x hx => h.same x (by omega)⟩

variable {V : Type} {A : Sp V}

theorem slice_rows (hA : A.PatWF) {j : Nat} (hj : j < A.cols) :
    A.p.getD j 0 ≤ A.p.getD (j + 1) 0 ∧ A.p.getD (j + 1) 0 ≤ A.i.length := by
  refine ⟨hA.mono j hj, ?_⟩
  have : ∀ d, j + 1 + d ≤ A.cols → A.p.getD (j + 1) 0 ≤ A.p.getD (j + 1 + d) 0 := by
    intro d
    induction d with
    | zero => intro _; exact Nat.le_refl _
    | succ d ih =>
      intro h
      exact Nat.le_trans (ih (by omega)) (hA.mono (j + 1 + d) (by omega))
  have h1 := this (A.cols - (j + 1)) (by omega)
  rw [show j + 1 + (A.cols - (j + 1)) = A.cols by omega] at h1
  exact Nat.le_trans h1 hA.bound

theorem cols_loop {σ : Type} (hA : A.PatWF) {j : Nat} (hj : j < A.cols) (f : Nat → σ → Res σ)
    (s : σ) :
    (do
      let lo ← rd A.p j
      let hi ← rd A.p (j + 1)
      forRange lo hi (fun q s => do
        let i ← rd A.i q
        f i s) s) = forEach (A.colRows j) f s := by
  have hl := hA.plen
  rw [rd_getD 0 (by omega), ok_bind, rd_getD 0 (by omega), ok_bind]
  obtain ⟨h1, h2⟩ := slice_rows hA hj
  exact forRange_rd A.i f _ _ s (by omega)

/-- The strictly upper triangular entries. -/
def symE (A : Sp V) (k i : Nat) : Prop := k < A.cols ∧ i ∈ A.colRows k

theorem etreeSym_wp (hA : A.PatWF) (hp : A.cols ≤ s₀.par.length) (ha : A.cols ≤ s₀.anc.length)
    (hf : Fresh A.cols 0 s₀) :
    wp (etreeSym A.cols A.p A.i s₀) (fun s => Done (symE A) A.cols s.par ∧ Above A.cols s₀ s) := by
  unfold etreeSym
  apply forRange_wp' (fun j (s : Arrs) => Above A.cols s₀ s ∧ Fresh A.cols j s ∧
    Inv (symE A) A.cols j none s ∧
    ∀ k, k < j → ∀ i ∈ A.colRows k, i < k → TransGen (Up s.par j) i k) (Nat.zero_le _)
  · exact ⟨Above.refl _ _, hf, Inv.zero _ hp ha, fun _ h => absurd h (by omega)⟩
  · rintro j s - hj ⟨hab, hfr, hinv, hcov⟩
    rw [cols_loop hA hj (fun i s => if i < j then updateEtree (A.cols + 1) i j s else ok s)]
    obtain ⟨hi', hup⟩ := hinv.grow (cur := none) (hfr j (Nat.le_refl _) hj).1
      (hfr j (Nat.le_refl _) hj).2
    apply wp_mono (forEach_covered _ (A.colRows j) (fun i hi s hs => ?_) s hi')
    · rintro t ⟨t1, t2, t3, t4⟩
      refine ⟨hab.trans (t4.weaken (by omega)), t4.fresh hfr, t1, ?_⟩
      intro k hk i hi hik
      by_cases hkj : k = j
      · subst hkj; exact t3 i hi hik
      · apply TransGen.mono _ _ _ (hcov k (by omega) i hi hik)
        intro x y hxy
        exact t2 _ _ ((hup x y).2 hxy)
    · split
      · rename_i hij
        exact update_wp hj hij hs ⟨hj, hi⟩
      · rename_i hij
        exact ⟨hs, le_refl _, fun h => absurd h hij, Above.refl _ _⟩
  · rintro s ⟨hab, _, hinv, hcov⟩
    exact ⟨⟨hinv.par, fun k i h hik => hcov k h.1 i h.2 hik⟩, hab⟩

/-- The columns `k` and `i` have a non-zero in the same row. -/
def ataE (A : Sp V) (k i : Nat) : Prop :=
  k < A.cols ∧ i < A.cols ∧ ∃ r, r ∈ A.colRows k ∧ r ∈ A.colRows i

/-- Row `r` of column `c` has been seen. -/
def Seen (A : Sp V) (j : Nat) (pre : List Nat) (r c : Nat) : Prop :=
  (c < j ∧ r ∈ A.colRows c) ∨ (c = j ∧ r ∈ pre)

/-- The invariant for the array `Prev`. -/
structure PrevOk (A : Sp V) (j : Nat) (pre : List Nat) (R : Nat → Nat → Prop)
    (prev : List (Option Nat)) : Prop where
  len : prev.length = A.rows
  last : ∀ r, r < A.rows → ∀ c, prev.getD r none = some c →
    Seen A j pre r c ∧ ∀ c', Seen A j pre r c' → c' = c ∨ TransGen R c' c
  first : ∀ r, r < A.rows → prev.getD r none = none → ∀ c, ¬ Seen A j pre r c
  cov : ∀ r c c', Seen A j pre r c → Seen A j pre r c' → c < c' → TransGen R c c'

theorem PrevOk.mono {j : Nat} {pre : List Nat} {R R' : Nat → Nat → Prop}
    {prev : List (Option Nat)} (h : PrevOk A j pre R prev) (hR : R ≤ R') :
    PrevOk A j pre R' prev :=
  ⟨h.len, fun r hr c hc => ⟨(h.last r hr c hc).1, fun c' hc' =>
      ((h.last r hr c hc).2 c' hc').imp id (fun h => TransGen.mono hR _ _ h)⟩,
    h.first, fun r c c' h1 h2 h3 => TransGen.mono hR _ _ (h.cov r c c' h1 h2 h3)⟩

theorem seen_snoc {j : Nat} {pre : List Nat} {a r c : Nat} :
    Seen A j (pre ++ [a]) r c ↔ Seen A j pre r c ∨ (c = j ∧ r = a) := by
  unfold Seen
  simp only [List.mem_append, List.mem_singleton]
  tauto

theorem seen_next {j : Nat} {r c : Nat} :
    Seen A (j + 1) [] r c ↔ Seen A j (A.colRows j) r c := by
  unfold Seen
  constructor
  · rintro (⟨h1, h2⟩ | ⟨_, h⟩)
    · by_cases h : c = j
      · subst h; exact Or.inr ⟨rfl, h2⟩
      · exact Or.inl ⟨by omega, h2⟩
    · simp at h
  · rintro (⟨h1, h2⟩ | ⟨rfl, h⟩)
    · exact Or.inl ⟨by omega, h2⟩
    · exact Or.inl ⟨by omega, h⟩

/-- Column `j` has row `a` as well. -/
theorem PrevOk.snoc {j : Nat} {pre : List Nat} {R : Nat → Nat → Prop} {prev : List (Option Nat)}
    {a : Nat} (h : PrevOk A j pre R prev) (ha : a < A.rows) (hnew : a ∉ pre)
    (hc : ∀ c, prev.getD a none = some c → TransGen R c j) :
    PrevOk A j (pre ++ [a]) R (prev.set a (some j)) := by
  have hold : ∀ c, Seen A j pre a c → c < j ∧ TransGen R c j := by
    intro c hs
    have hcj : c < j := by
      rcases hs with h1 | h1
      · exact h1.1
      · exact absurd h1.2 hnew
    refine ⟨hcj, ?_⟩
    cases hp : prev.getD a none with
    | none => exact absurd hs (h.first a ha hp c)
    | some c' =>
      rcases (h.last a ha c' hp).2 c hs with rfl | h1
      · exact hc _ hp
      · exact h1.trans (hc _ hp)
  refine ⟨by simpa using h.len, ?_, ?_, ?_⟩
  · intro r hr c
    rw [getD_set]
    by_cases har : a = r
    · subst har
      rw [if_pos ⟨rfl, by rw [h.len]; exact ha⟩]
      intro he
      obtain rfl := Option.some.inj he
      refine ⟨seen_snoc.2 (Or.inr ⟨rfl, rfl⟩), ?_⟩
      intro c' hs
      rcases seen_snoc.1 hs with hs | hs
      · exact Or.inr (hold c' hs).2
      · exact Or.inl hs.1
    · rw [if_neg (fun h' => har h'.1)]
      intro he
      obtain ⟨g1, g2⟩ := h.last r hr c he
      refine ⟨seen_snoc.2 (Or.inl g1), ?_⟩
      intro c' hs
      rcases seen_snoc.1 hs with hs | hs
      · exact g2 c' hs
      · exact absurd hs.2.symm har
  · intro r hr
    rw [getD_set]
    by_cases har : a = r
    · subst har
      rw [if_pos ⟨rfl, by rw [h.len]; exact ha⟩]
      intro he; cases he
    · rw [if_neg (fun h' => har h'.1)]
      intro he c hs
      rcases seen_snoc.1 hs with hs | hs
      · exact h.first r hr he c hs
      · exact absurd hs.2.symm har
  · intro r c c' h1 h2 h3
    rcases seen_snoc.1 h1 with h1 | h1
    · rcases seen_snoc.1 h2 with h2 | ⟨e1, e2⟩
      · exact h.cov r c c' h1 h2 h3
      · rw [e1]; rw [e2] at h1; exact (hold c h1).2
    · rcases seen_snoc.1 h2 with h2 | ⟨rfl, _⟩
      · rcases h2 with h2 | h2 <;> omega
      · omega

theorem etreeUnsym_wp (hA : A.PatWF) (hd : A.NoDup) (hp : A.cols ≤ s₀.par.length)
    (ha : A.cols ≤ s₀.anc.length) (hf : Fresh A.cols 0 s₀) :
    wp (etreeUnsym A.rows A.cols A.p A.i s₀)
      (fun s => Done (ataE A) A.cols s.par ∧ Above A.cols s₀ s) := by
  unfold etreeUnsym
  simp only [wp_bind, wp_ok]
  apply forRange_wp' (fun j (s : Arrs × List (Option Nat)) => Above A.cols s₀ s.1 ∧
    Fresh A.cols j s.1 ∧ Inv (ataE A) A.cols j none s.1 ∧ PrevOk A j [] (Up s.1.par j) s.2)
    (Nat.zero_le _)
  · refine ⟨Above.refl _ _, hf, Inv.zero _ hp ha, by simp, ?_, ?_, ?_⟩
    · intro r hr c
      rw [getD_replicate _ _ _ _ hr]
      intro h; cases h
    · rintro r hr - c (h | h)
      · omega
      · simp at h
    · rintro r c c' (h | h)
      · omega
      · simp at h
  · rintro j ⟨s, prev⟩ - hj ⟨hab, hfr, hinv, hprev⟩
    dsimp only at hab hfr hinv hprev
    rw [cols_loop hA hj (unsymStep A.cols j)]
    obtain ⟨hi', hup⟩ := hinv.grow (cur := none) (hfr j (Nat.le_refl _) hj).1
      (hfr j (Nat.le_refl _) hj).2
    have hle : Up s.par j ≤ Up s.par (j + 1) := fun x y h => (hup x y).2 h
    have key := forEach_wp (f := unsymStep A.cols j) (fun (pre : List Nat) (t : Arrs × List (Option Nat)) =>
        Above j s t.1 ∧ Inv (ataE A) A.cols (j + 1) none t.1 ∧
        PrevOk A j pre (Up t.1.par (j + 1)) t.2) (A.colRows j) [] (s, prev)
      ⟨Above.refl _ _, hi', hprev.mono hle⟩ ?_
    · apply wp_mono key
      rintro ⟨t, pr⟩ ⟨t1, t2, t3⟩
      refine ⟨hab.trans (t1.weaken (by omega)), t1.fresh hfr, t2, ?_⟩
      rw [List.nil_append] at t3
      exact ⟨t3.len, fun r hr c hc => ⟨seen_next.2 (t3.last r hr c hc).1, fun c' h =>
          (t3.last r hr c hc).2 c' (seen_next.1 h)⟩,
        fun r hr hn c h => t3.first r hr hn c (seen_next.1 h),
        fun r c c' h1 h2 h3 => t3.cov r c c' (seen_next.1 h1) (seen_next.1 h2) h3⟩
    · rintro pre a q ⟨t, pr⟩ hl ⟨t1, t2, t3⟩
      dsimp only at t1 t2 t3 ⊢
      rw [List.nil_append] at hl
      have ham : a ∈ A.colRows j := by rw [hl]; simp
      have har : a < A.rows := hA.range j hj a ham
      have hnew : a ∉ pre := by
        have := hd j hj
        rw [hl] at this
        have := (List.nodup_append.1 this).2.2
        intro h
        exact this a h a (by simp) rfl
      unfold unsymStep
      dsimp only
      rw [rd_getD none (by rw [t3.len]; exact har), ok_bind]
      rw [wr_eq (by rw [t3.len]; exact har)]
      cases hpa : pr.getD a none with
      | none =>
        simp only [ok_bind, wp_ok]
        exact ⟨t1, t2, t3.snoc har hnew (fun c hc => by rw [hpa] at hc; cases hc)⟩
      | some c =>
        simp only [ok_bind, wp_bind, wp_ok]
        have hs := (t3.last a har c hpa).1
        have hcj : c < j ∧ a ∈ A.colRows c := by
          rcases hs with hs | hs
          · exact hs
          · exact absurd hs.2 hnew
        apply wp_mono (update_wp hj hcj.1 t2 ⟨hj, by omega, a, ham, hcj.2⟩)
        intro t' ht'
        refine ⟨t1.trans ht'.above, ht'.inv, (t3.mono ht'.ext).snoc har hnew ?_⟩
        intro c' hc'
        rw [hpa] at hc'
        obtain rfl := Option.some.inj hc'
        exact ht'.reach hcj.1
  · rintro ⟨s, prev⟩ ⟨hab, _, hinv, hprev⟩
    refine ⟨⟨hinv.par, ?_⟩, hab⟩
    rintro k i ⟨hk, hi, r, h1, h2⟩ hik
    exact hprev.cov r i k (Or.inl ⟨hi, h2⟩) (Or.inl ⟨hk, h1⟩) hik

end

end Verif.Etree
