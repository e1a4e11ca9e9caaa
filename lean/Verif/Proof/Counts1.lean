import Verif.Proof.PostPos
import Verif.Model.LFactor
import Verif.Proof.SparseSort

/-! # `row_col_counts_symmetric`: the first traversal -/

namespace Verif.LFactor
open Res Relation

variable {n : Nat} {parent : List (Option Nat)} {post : List Nat} {pos first : Nat → Nat}

/-- The parent function of the array. -/
def parOf (parent : List (Option Nat)) (j : Nat) : Option Nat := parent.getD j none

/-- The state of the first traversal when `k` nodes are done. -/
structure WInv (n : Nat) (parent : List (Option Nat)) (pos first : Nat → Nat) (k : Nat) (s : Walk) :
    Prop where
  fl : n ≤ s.first.length
  ll : n ≤ s.level.length
  cl : n ≤ s.col.length
  fst : ∀ x, x < n → s.first.getD x none = if first x < k then some (first x) else none
  lev : ∀ x, x < n → first x < k → s.level.getD x 0 = height n (parOf parent) x - 1
  col : ∀ x, x < n → pos x < k → s.col.getD x 0 = if first x = pos x then 1 else 0

theorem getD_set_ne {α : Type} {l : List α} {i x : Nat} {v d : α} (h : i ≠ x) :
    (l.set i v).getD x d = l.getD x d := by rw [getD_set, if_neg (by tauto)]

theorem getD_set_eq {α : Type} {l : List α} {i : Nat} {v d : α} (h : i < l.length) :
    (l.set i v).getD i d = v := by rw [getD_set, if_pos ⟨rfl, h⟩]

variable (hPO : PO n (parOf parent) (fun k => post.getD k 0) pos first)
include hPO

theorem climb1_wp (hpl : n ≤ parent.length) {k : Nat} (hk : k < n) {i : Nat} (hi : i = post.getD k 0)
    {f0 : List (Option Nat)} (hfl : n ≤ f0.length)
    (hf0 : ∀ x, x < n → f0.getD x none = if first x < k then some (first x) else none) :
    ∃ r len f, setFirst n parent k (some i, (0 : Int), f0) = ok (r, len, f) ∧
      n ≤ f.length ∧
      (∀ x, x < n → f.getD x none = if first x < k + 1 then some (first x) else none) ∧
      (∀ r', r = some r' → Sub n (parOf parent) i r' ∧ r' < n ∧ first r' < k ∧
        len = height n (parOf parent) i - height n (parOf parent) r') ∧
      (r = none → len = height n (parOf parent) i) ∧
      ∀ x, x < n → (first x = k ↔ Sub n (parOf parent) i x ∧ ¬ SubO n (parOf parent) r x) := by
  classical
  have hin : i < n := by rw [hi]; exact hPO.node_lt k hk
  have hpi : pos i = k := by rw [hi]; exact hPO.pos_node k hk
  have hfor := hPO.forest
  have key := whileF_wp
    (I := fun (a : Option Nat × Int × List (Option Nat)) => n ≤ a.2.2.length ∧
      (∀ x, x < n → a.2.2.getD x none = if first x < k then some (first x) else
        if Sub n (parOf parent) i x ∧ ¬ SubO n (parOf parent) a.1 x then some (first x) else none) ∧
      (∀ x, Sub n (parOf parent) i x ∧ ¬ SubO n (parOf parent) a.1 x → first x = k) ∧
      (∀ r', a.1 = some r' → Sub n (parOf parent) i r' ∧ r' < n ∧
        a.2.1 = height n (parOf parent) i - height n (parOf parent) r') ∧
      (a.1 = none → a.2.1 = height n (parOf parent) i))
    (m := fun a => match a.1 with | none => 0 | some r => n - r)
    (cond := fun (a : Option Nat × Int × List (Option Nat)) =>
      match a.1 with
      | none => ok false
      | some r => do
        let f ← rd a.2.2 r
        ok (decide (f = none)))
    (body := fun a =>
      match a.1 with
      | none => ub
      | some r => do
        let first ← wr a.2.2 r (some k)
        let p ← rd parent r
        ok (p, a.2.1 + 1, first))
    (Q := fun a => n ≤ a.2.2.length ∧
      (∀ x, x < n → a.2.2.getD x none = if first x < k + 1 then some (first x) else none) ∧
      (∀ r', a.1 = some r' → Sub n (parOf parent) i r' ∧ r' < n ∧ first r' < k ∧
        a.2.1 = height n (parOf parent) i - height n (parOf parent) r') ∧
      (a.1 = none → a.2.1 = height n (parOf parent) i) ∧
      ∀ x, x < n → (first x = k ↔ Sub n (parOf parent) i x ∧ ¬ SubO n (parOf parent) a.1 x))
    ?_ (n + 1) (some i, (0 : Int), f0) (by dsimp only; omega) ?_
  · obtain ⟨⟨r, len, f⟩, h1, h2⟩ := wp_iff.1 key
    exact ⟨r, len, f, h1, h2⟩
  · rintro ⟨r, len, f⟩ ⟨g1, g2, g3, g4, g5⟩
    dsimp only at g1 g2 g3 g4 g5 ⊢
    have hfin : (∀ r', r = some r' → first r' < k) → ∀ x, x < n → first x = k →
        Sub n (parOf parent) i x ∧ ¬ SubO n (parOf parent) r x := by
      intro hr x hx hxk
      refine ⟨(hPO.sub i x hin hx).2 ⟨by omega, by have := hPO.first_le hx; omega⟩, ?_⟩
      rintro ⟨r', h1, h2⟩
      have := hr r' h1
      have := hPO.first_mono h2 hx
      omega
    have hfin2 : (∀ r', r = some r' → first r' < k) → ∀ x, x < n →
        f.getD x none = if first x < k + 1 then some (first x) else none := by
      intro hr x hx
      rw [g2 x hx]
      by_cases h : first x < k
      · rw [if_pos h, if_pos (by omega)]
      · rw [if_neg h]
        by_cases h' : first x = k
        · rw [if_pos (hfin hr x hx h'), if_pos (by omega)]
        · rw [if_neg (fun hh => h' (g3 x hh)), if_neg (by omega)]
    cases r with
    | none =>
      rw [wp_ok]
      exact ⟨g1, hfin2 (by simp), by simp, g5, fun x hx => ⟨hfin (by simp) x hx, g3 x⟩⟩
    | some r =>
      obtain ⟨g6, g7, g8⟩ := g4 r rfl
      dsimp only
      rw [rd_getD none (by omega), ok_bind, wp_ok]
      have hr0 : f.getD r none = if first r < k then some (first r) else none := by
        rw [g2 r g7]
        by_cases h : first r < k
        · rw [if_pos h, if_pos h]
        · rw [if_neg h, if_neg h, if_neg (fun hh => hh.2 (subO_some.2 (Sub.refl _)))]
      by_cases h : first r < k
      · rw [hr0, if_pos h]
        simp only [reduceCtorEq, decide_false, Bool.false_eq_true, if_false]
        have hr : ∀ r', some r = some r' → first r' < k := by rintro _ ⟨⟩; exact h
        refine ⟨g1, hfin2 hr, ?_, by simp, fun x hx => ⟨hfin hr x hx, g3 x⟩⟩
        rintro _ ⟨⟩
        exact ⟨g6, g7, h, g8⟩
      · rw [hr0, if_neg h]
        simp only [decide_true, if_true]
        have hrk : first r = k := by
          have := hPO.le_pos g6 g7
          omega
        rw [wr_eq (by omega), ok_bind, rd_getD none (by omega), ok_bind, wp_ok]
        have hstep : ∀ x, SubO n (parOf parent) (parent.getD r none) x ↔
            Sub n (parOf parent) r x ∧ r ≠ x := fun x => subO_par (par := parOf parent) hfor g7
        refine ⟨by omega, ⟨by simpa using g1, ?_, ?_, ?_, ?_⟩, ?_⟩
        · intro x hx
          dsimp only
          by_cases e : r = x
          · subst e
            rw [getD_set_eq (by omega), if_neg h, if_pos ⟨g6, fun hh => ((hstep r).1 hh).2 rfl⟩, hrk]
          · rw [getD_set_ne e, g2 x hx]
            by_cases h' : first x < k
            · rw [if_pos h', if_pos h']
            · rw [if_neg h', if_neg h']
              have : (Sub n (parOf parent) i x ∧ ¬ SubO n (parOf parent) (some r) x) ↔
                  (Sub n (parOf parent) i x ∧ ¬ SubO n (parOf parent) (parent.getD r none) x) := by
                rw [hstep, subO_some]
                constructor
                · rintro ⟨a, b⟩; exact ⟨a, fun c => b c.1⟩
                · rintro ⟨a, b⟩; exact ⟨a, fun c => b ⟨c, e⟩⟩
              by_cases hc : Sub n (parOf parent) i x ∧ ¬ SubO n (parOf parent) (some r) x
              · rw [if_pos hc, if_pos (this.1 hc)]
              · rw [if_neg hc, if_neg (fun hh => hc (this.2 hh))]
        · rintro x ⟨h1, h2⟩
          dsimp only at h2
          by_cases e : r = x
          · exact e ▸ hrk
          · refine g3 x ⟨h1, ?_⟩
            rw [subO_some]
            exact fun hh => h2 ((hstep x).2 ⟨hh, e⟩)
        · intro r' hr'
          dsimp only at hr' ⊢
          have hrr := hfor r r' g7 hr'
          refine ⟨g6.trans (Sub.parent g7 hr'), hrr.2, ?_⟩
          rw [g8, height_par hfor g7 hr']; ring
        · intro hr'
          dsimp only at hr' ⊢
          rw [g8, height_root g7 hr']; ring
        · dsimp only
          cases hp : parent.getD r none with
          | none => dsimp only; omega
          | some p =>
            have := hfor r p g7 hp
            dsimp only; omega
  · dsimp only
    refine ⟨hfl, ?_, ?_, ?_, by simp⟩
    · intro x hx
      rw [hf0 x hx]
      by_cases h : first x < k
      · rw [if_pos h, if_pos h]
      · rw [if_neg h, if_neg h, if_neg (fun hh => hh.2 (subO_some.2 hh.1))]
    · rintro x ⟨h1, h2⟩
      exact absurd (subO_some.2 h1) h2
    · rintro r' ⟨⟩
      exact ⟨Sub.refl _, hin, by ring⟩

theorem climb2_wp (hpl : n ≤ parent.length) {i : Nat} (hin : i < n) {r : Option Nat}
    (hr : ∀ r', r = some r' → Sub n (parOf parent) i r' ∧ r' < n) {lev : List Int} (hll : n ≤ lev.length) :
    ∃ x y l, setLevel n parent r (some i, height n (parOf parent) i - 1, lev) = ok (x, y, l) ∧
      n ≤ l.length ∧
      (∀ x, x < n → Sub n (parOf parent) i x → ¬ SubO n (parOf parent) r x →
        l.getD x 0 = height n (parOf parent) x - 1) ∧
      ∀ x, x < n → ¬ (Sub n (parOf parent) i x ∧ ¬ SubO n (parOf parent) r x) →
        l.getD x 0 = lev.getD x 0 := by
  have hfor := hPO.forest
  have key := whileF_wp
    (I := fun (b : Option Nat × Int × List Int) => n ≤ b.2.2.length ∧
      (∀ x, x < n → Sub n (parOf parent) i x → ¬ SubO n (parOf parent) b.1 x →
        b.2.2.getD x 0 = height n (parOf parent) x - 1) ∧
      (∀ x, x < n → ¬ (Sub n (parOf parent) i x ∧ ¬ SubO n (parOf parent) b.1 x) →
        b.2.2.getD x 0 = lev.getD x 0) ∧
      (∀ x, b.1 = some x → Sub n (parOf parent) i x ∧ x < n ∧ b.2.1 = height n (parOf parent) x - 1) ∧
      (∀ x, SubO n (parOf parent) r x → SubO n (parOf parent) b.1 x))
    (m := fun b => match b.1 with | none => 0 | some r => n - r)
    (cond := fun (b : Option Nat × Int × List Int) => ok (decide (b.1 ≠ r)))
    (body := fun b =>
      match b.1 with
      | none => ub
      | some x => do
        let level ← wr b.2.2 x b.2.1
        let p ← rd parent x
        ok (p, b.2.1 - 1, level))
    (Q := fun b => n ≤ b.2.2.length ∧
      (∀ x, x < n → Sub n (parOf parent) i x → ¬ SubO n (parOf parent) r x →
        b.2.2.getD x 0 = height n (parOf parent) x - 1) ∧
      ∀ x, x < n → ¬ (Sub n (parOf parent) i x ∧ ¬ SubO n (parOf parent) r x) →
        b.2.2.getD x 0 = lev.getD x 0)
    ?_ (n + 1) (some i, height n (parOf parent) i - 1, lev) (by dsimp only; omega) ?_
  · obtain ⟨⟨x, y, l⟩, h1, h2⟩ := wp_iff.1 key
    exact ⟨x, y, l, h1, h2⟩
  · rintro ⟨s, len, l⟩ ⟨g1, g2, g3, g4, g5⟩
    dsimp only at g1 g2 g3 g4 g5 ⊢
    rw [wp_ok]
    by_cases e : s = r
    · subst e
      simp only [ne_eq, not_true, decide_false, Bool.false_eq_true, if_false]
      exact ⟨g1, g2, g3⟩
    · simp only [ne_eq, e, not_false_iff, decide_true, if_true]
      cases s with
      | none =>
        exfalso
        cases r with
        | none => exact e rfl
        | some r => exact subO_none _ (g5 r (subO_some.2 (Sub.refl _)))
      | some s =>
        obtain ⟨g6, g7, g8⟩ := g4 s rfl
        have hstep : ∀ x, SubO n (parOf parent) (parent.getD s none) x ↔
            Sub n (parOf parent) s x ∧ s ≠ x := fun x => subO_par (par := parOf parent) hfor g7
        dsimp only
        rw [wr_eq (by omega), ok_bind, rd_getD none (by omega), ok_bind, wp_ok]
        refine ⟨by omega, ⟨by simpa using g1, ?_, ?_, ?_, ?_⟩, ?_⟩
        · intro x hx h1 h2
          dsimp only at h2 ⊢
          by_cases e' : s = x
          · subst e'
            rw [getD_set_eq (by omega), g8]
          · rw [getD_set_ne e']
            refine g2 x hx h1 ?_
            rw [subO_some]
            exact fun hh => h2 ((hstep x).2 ⟨hh, e'⟩)
        · intro x hx h1
          dsimp only at h1 ⊢
          have e' : s ≠ x := by
            rintro rfl
            exact h1 ⟨g6, fun hh => ((hstep s).1 hh).2 rfl⟩
          rw [getD_set_ne e']
          refine g3 x hx ?_
          rw [subO_some]
          rintro ⟨h2, h3⟩
          exact h1 ⟨h2, fun hh => h3 ((hstep x).1 hh).1⟩
        · intro x hx
          dsimp only at hx ⊢
          have hrr := hfor s x g7 hx
          refine ⟨g6.trans (Sub.parent g7 hx), hrr.2, ?_⟩
          rw [g8, height_par hfor g7 hx]; ring
        · intro x hx
          dsimp only
          rw [hstep]
          have h1 := subO_some.1 (g5 x hx)
          refine ⟨h1, ?_⟩
          rintro rfl
          obtain ⟨r', h2, h3⟩ := hx
          subst h2
          have h4 := subO_some.1 (g5 r' (subO_some.2 (Sub.refl _)))
          exact e (congrArg some (h4.antisymm hfor h3))
        · dsimp only
          cases hp : parent.getD s none with
          | none => dsimp only; omega
          | some p =>
            have := hfor s p g7 hp
            dsimp only; omega
  · dsimp only
    refine ⟨hll, ?_, ?_, ?_, ?_⟩
    · intro x _ h1 h2
      exact absurd (subO_some.2 h1) h2
    · intro x _ _; rfl
    · rintro x ⟨⟩
      exact ⟨Sub.refl _, hin, rfl⟩
    · rintro x ⟨r', h1, h2⟩
      exact subO_some.2 ((hr r' h1).1.trans h2)

theorem walkStep_wp (hpl : n ≤ parent.length) (hpo : n ≤ post.length) {k : Nat} (hk : k < n) {s : Walk}
    (hs : WInv n parent pos first k s) :
    wp (walkStep n parent post k s) (WInv n parent pos first (k + 1)) := by
  obtain ⟨r, len, f, c1, c2, c3, c4, c5, c6⟩ := climb1_wp hPO hpl hk rfl hs.fl hs.fst
  have hin : post.getD k 0 < n := hPO.node_lt k hk
  have hpi : pos (post.getD k 0) = k := hPO.pos_node k hk
  have hcl := hs.cl
  have hll := hs.ll
  have hfl := hs.fl
  unfold walkStep
  rw [rd_getD 0 (by omega), ok_bind, rd_getD none (by omega), ok_bind, wr_eq (by omega), ok_bind, c1,
    ok_bind]
  dsimp only
  have hlen : pathLen s.level r len = ok (height n (parOf parent) (post.getD k 0) - 1) := by
    cases r with
    | none => unfold pathLen; dsimp only; rw [c5 rfl]
    | some r =>
      obtain ⟨g1, g2, g3, g4⟩ := c4 r rfl
      unfold pathLen
      dsimp only
      rw [rd_getD 0 (by omega), ok_bind, g4, hs.lev r g2 g3]
      congr 1; ring
  rw [hlen, ok_bind]
  obtain ⟨x, y, l, d1, d2, d3, d4⟩ := climb2_wp hPO hpl hin (r := r)
    (fun r' h => ⟨(c4 r' h).1, (c4 r' h).2.1⟩) hs.ll
  rw [d1, ok_bind, wp_ok]
  refine ⟨c2, d2, by simpa using hcl, c3, ?_, ?_⟩
  · intro z hz hzk
    dsimp only
    by_cases e : first z = k
    · obtain ⟨h1, h2⟩ := (c6 z hz).1 e
      exact d3 z hz h1 h2
    · rw [d4 z hz (fun h => e ((c6 z hz).2 h)), hs.lev z hz (by omega)]
  · intro z hz hzk
    dsimp only
    by_cases e : post.getD k 0 = z
    · subst e
      rw [getD_set_eq (by omega), hs.fst _ hin, hpi]
      have := hPO.first_le hin
      by_cases h : first (post.getD k 0) < k
      · rw [if_pos h, if_neg (by simp), if_neg (by omega)]
      · rw [if_neg h, if_pos rfl, if_pos (by omega)]
    · rw [getD_set_ne e]
      refine hs.col z hz ?_
      have : pos z ≠ k := by
        intro h
        apply e
        rw [← hpi] at h
        exact (hPO.pos_inj hz hin h).symm
      omega

end Verif.LFactor
