import Verif.Proof.TreeLevel

/-! # Heights of forests -/

namespace Verif

variable {n : Nat} {par : Nat → Option Nat} {wt : Nat → Int}

theorem Above.unique {v : Nat} {a b : Int} (h : Above par wt v a) (h' : Above par wt v b) : a = b := by
  induction h generalizing b with
  | root hr =>
    cases h' with
    | root _ => rfl
    | child hp _ => rw [hr] at hp; cases hp
  | child hp _ ih =>
    cases h' with
    | root hr => rw [hr] at hp; cases hp
    | child hp' h' =>
      rw [hp] at hp'
      cases hp'
      rw [ih h']

theorem Above.exists (hf : Forest n par) (v : Nat) (hv : v < n) : ∃ s, Above par wt v s := by
  obtain ⟨k, hk⟩ : ∃ k, n - v = k := ⟨_, rfl⟩
  induction k using Nat.strongRecOn generalizing v with
  | _ k ih =>
    cases h : par v with
    | none => exact ⟨0, .root h⟩
    | some p =>
      have := hf v p hv h
      obtain ⟨s, hs⟩ := ih (n - p) (by omega) p (by omega) rfl
      exact ⟨_, .child h hs⟩

theorem Above.nonneg (hf : Forest n par) (hw : ∀ v, v < n → 0 ≤ wt v) {v : Nat} (hv : v < n) {s : Int}
    (h : Above par wt v s) : 0 ≤ s := by
  induction h with
  | root => exact Int.le_refl _
  | child hp _ ih =>
    have := (hf _ _ hv hp).2
    have := ih this
    have := hw _ ‹_›
    omega

theorem above_one {v d : Nat} : Above par (fun _ => 1) v (d : Int) ↔ Depth par v d := by
  constructor
  · intro h
    obtain ⟨e, he⟩ : ∃ e : Int, e = d := ⟨_, rfl⟩
    rw [← he] at h
    induction h generalizing d with
    | root hr =>
      obtain rfl : d = 0 := by omega
      exact .root hr
    | @child x p s hp h ih =>
      have h0 : 0 ≤ s := by
        clear ih he hp
        induction h with
        | root => exact Int.le_refl _
        | child _ _ ih => omega
      obtain ⟨k, rfl⟩ := Int.eq_ofNat_of_zero_le h0
      obtain rfl : d = k + 1 := by omega
      exact .child hp (ih rfl)
  · intro h
    induction h with
    | root hr => exact .root hr
    | @child x p d hp _ ih =>
      have := Above.child (wt := fun _ => 1) hp ih
      rw [show ((d + 1 : Nat) : Int) = 1 + (d : Int) by omega]
      exact this

end Verif

namespace Verif.Tree
open Res

variable {n : Nat} {t : List Int}

/-- The weights as a function. -/
def wtOf : Option (List Int) → Nat → Int
  | none, _ => 1
  | some w, v => w.getD v 0

/-- The weight of the node itself, which counts only with weights. -/
def own : Option (List Int) → Nat → Int
  | none, _ => 0
  | some w, v => w.getD v 0

/-- There is a weight for every node. -/
def WtOk (n : Nat) : Option (List Int) → Prop
  | none => True
  | some w => w.length = n

theorem weightOf_ok {w : Option (List Int)} (hw : WtOk n w) {v : Nat} (hv : v < n) :
    weightOf w v = ok (wtOf w v) := by
  cases w with
  | none => rfl
  | some w => exact rd_getD 0 (by rw [show w.length = n from hw]; exact hv)

theorem nodeDepth_wp (hl : t.length = n) (hf : Forest n (parentOf t)) {w : Option (List Int)} (hw : WtOk n w)
    {v : Nat} (hv : v < n) :
    wp (nodeDepth n t w v) (fun d => Above (parentOf t) (wtOf w) v (d - own w v)) := by
  unfold nodeDepth
  have h0 : startWeight w v = ok (own w v) := by
    cases w with
    | none => rfl
    | some w => exact rd_getD 0 (by rw [show w.length = n from hw]; exact hv)
  rw [h0, ok_bind, wp_bind]
  obtain ⟨S, hS⟩ := Above.exists (wt := wtOf w) hf v hv
  refine wp_mono (whileF_wp (Q := fun s => s.2 = own w v + S)
    (fun s : Nat × Int => s.1 < n ∧ Above (parentOf t) (wtOf w) s.1 (S + own w v - s.2))
    (fun s => n - s.1) ?_ n (v, own w v) (by dsimp only; omega) ⟨hv, by simpa using hS⟩) ?_
  · rintro ⟨x, lv⟩ ⟨hx, hA⟩
    dsimp only at hx hA ⊢
    rw [rd_tree (by omega), ok_bind]
    rcases parent_cases (t := t) x with ⟨h4, h5⟩ | ⟨p, h4, h5⟩
    · rw [decide_eq_false (by omega), wp_ok, if_neg (by simp)]
      have := hA.unique (.root h5)
      omega
    · have hp := hf x p hx h5
      rw [decide_eq_true (by omega), wp_ok, if_pos rfl]
      refine ⟨by omega, ?_⟩
      rw [ok_bind, h4, Int.toNat_natCast, weightOf_ok hw hp.2, ok_bind, wp_ok]
      obtain ⟨s', hs'⟩ := Above.exists (wt := wtOf w) hf p hp.2
      have := hA.unique (.child h5 hs')
      refine ⟨⟨hp.2, ?_⟩, by dsimp only; omega⟩
      dsimp only
      rw [show S + own w v - (lv + wtOf w p) = s' by omega]
      exact hs'
  · rintro ⟨x, lv⟩ h
    dsimp only at h ⊢
    rw [wp_ok, h, show own w v + S - own w v = S by omega]
    exact hS

theorem heightBrute_wp (hl : t.length = n) (hf : Forest n (parentOf t)) {w : Option (List Int)} (hw : WtOk n w) :
    wp (heightBrute n t w) (LargestOr0 (fun d => ∃ v, v < n ∧
      Above (parentOf t) (wtOf w) v (d - own w v))) := by
  unfold heightBrute
  refine forRange_wp' (fun k (m : Int) => LargestOr0 (fun d => ∃ v, v < k ∧
      Above (parentOf t) (wtOf w) v (d - own w v)) m) (Nat.zero_le _) ?_ ?_ (fun _ h => h)
  · refine ⟨Int.le_refl _, ?_, .inl rfl⟩
    rintro d ⟨v, hv, _⟩
    omega
  · rintro k m _ hk ⟨h1, h2, h3⟩
    rw [wp_bind]
    refine wp_mono (nodeDepth_wp hl hf hw hk) ?_
    intro d hd
    rw [wp_ok]
    have hle : m ≤ (if d > m then d else m) ∧ d ≤ (if d > m then d else m) := by split <;> omega
    refine ⟨by omega, ?_, ?_⟩
    · rintro e ⟨v, hv, hA⟩
      by_cases hvk : v = k
      · subst hvk
        have := hA.unique hd
        omega
      · have := h2 e ⟨v, by omega, hA⟩
        omega
    · split
      · exact .inr ⟨k, by omega, hd⟩
      · rcases h3 with h3 | ⟨v, hv, hA⟩
        · exact .inl h3
        · exact .inr ⟨v, by omega, hA⟩

theorem heightLeaves_wp (hl : t.length = n) (hf : Forest n (parentOf t)) {w : Option (List Int)} (hw : WtOk n w)
    {nChild : List Nat} (hc : nChild.length = n)
    (hcnt : ∀ v, v < n → nChild.getD v 0 = (kids n t v).length) :
    wp (heightLeaves n t nChild w) (LargestOr0 (fun d => ∃ v, v < n ∧ Leaf n t v ∧
      Above (parentOf t) (wtOf w) v (d - own w v))) := by
  unfold heightLeaves
  refine forRange_wp' (fun k (m : Int) => LargestOr0 (fun d => ∃ v, v < k ∧ Leaf n t v ∧
      Above (parentOf t) (wtOf w) v (d - own w v)) m) (Nat.zero_le _) ?_ ?_ (fun _ h => h)
  · refine ⟨Int.le_refl _, ?_, .inl rfl⟩
    rintro d ⟨v, hv, _⟩
    omega
  · rintro k m _ hk ⟨h1, h2, h3⟩
    rw [rd_getD 0 (by omega), ok_bind, hcnt k hk]
    by_cases hL : kids n t k = []
    · rw [hL, List.length_nil, if_pos rfl, wp_bind]
      refine wp_mono (nodeDepth_wp hl hf hw hk) ?_
      intro d hd
      rw [wp_ok]
      have hle : m ≤ (if d > m then d else m) ∧ d ≤ (if d > m then d else m) := by split <;> omega
      refine ⟨by omega, ?_, ?_⟩
      · rintro e ⟨v, hv, hv2, hA⟩
        by_cases hvk : v = k
        · subst hvk
          have := hA.unique hd
          omega
        · have := h2 e ⟨v, by omega, hv2, hA⟩
          omega
      · split
        · exact .inr ⟨k, by omega, kids_nil.1 hL, hd⟩
        · rcases h3 with h3 | ⟨v, hv, hA⟩
          · exact .inl h3
          · exact .inr ⟨v, by omega, hA⟩
    · rw [if_neg (fun h => hL (List.length_eq_zero_iff.1 h)), wp_ok]
      refine ⟨h1, ?_, ?_⟩
      · rintro e ⟨v, hv, hv2, hA⟩
        refine h2 e ⟨v, ?_, hv2, hA⟩
        have : v ≠ k := by rintro rfl; exact hL (kids_nil.2 hv2)
        omega
      · rcases h3 with h3 | ⟨v, hv, hA⟩
        · exact .inl h3
        · exact .inr ⟨v, by omega, hA⟩

/-! ### The height with early exit -/

theorem climbW_wp (hl : t.length = n) (hf : Forest n (parentOf t)) {w : Option (List Int)} (hw : WtOk n w)
    (hpos : ∀ v, v < n → 0 ≤ wtOf w v) {i : Nat} (hi : i < n) {S : Int} (hS : Above (parentOf t) (wtOf w) i S)
    {m : Int} {touch : List Int} (htl : touch.length = n)
    (ht : ∀ v, v < n → touch.getD v 0 = 0 ∨
      ∀ s, Above (parentOf t) (wtOf w) v s → touch.getD v 0 + s ≤ m) :
    wp (loopF (n + 1) (climbW t w) (i, 0, touch)) (fun r => r.2.length = n ∧ r.1 ≤ S ∧
      (S ≤ m ∨ r.1 = S) ∧
      ∀ v, v < n → r.2.getD v 0 = 0 ∨ ∀ s, Above (parentOf t) (wtOf w) v s → r.2.getD v 0 + s ≤ max m S) := by
  refine loopF_wp (fun s : Nat × Int × List Int => s.1 < n ∧ s.2.2.length = n ∧ 0 ≤ s.2.1 ∧
      Above (parentOf t) (wtOf w) s.1 (S - s.2.1) ∧
      (∀ v, v < n → s.1 < v → s.2.2.getD v 0 = touch.getD v 0) ∧
      ∀ v, v < n → s.2.2.getD v 0 = 0 ∨
        ∀ u, Above (parentOf t) (wtOf w) v u → s.2.2.getD v 0 + u ≤ max m S)
    (fun s => n - s.1) ?_ (n + 1) (i, 0, touch) (by dsimp only; omega)
    ⟨hi, htl, Int.le_refl _, by simpa using hS, fun _ _ _ => rfl, ?_⟩
  · rintro ⟨x, lv, a⟩ ⟨h1, h2, h3, h4, h5, h6⟩
    dsimp only at h1 h2 h3 h4 h5 h6
    have hnn := h4.nonneg hf hpos h1
    unfold climbW
    dsimp only
    rw [rd_tree (by omega), ok_bind]
    rcases parent_cases (t := t) x with ⟨e1, e2⟩ | ⟨p, e1, e2⟩
    · rw [if_neg (by omega), wp_ok, Ctl.post_brk]
      have := h4.unique (.root e2)
      exact ⟨h2, by omega, .inr (by omega), h6⟩
    · have hp := hf x p h1 e2
      obtain ⟨r, hr⟩ := Above.exists (wt := wtOf w) hf p hp.2
      have h7 := h4.unique (.child e2 hr)
      have h8 := hr.nonneg hf hpos hp.2
      have h9 := hpos p hp.2
      rw [e1, if_pos (by omega), Int.toNat_natCast, weightOf_ok hw hp.2, ok_bind, rd_getD 0 (by omega), ok_bind]
      split
      · rename_i hlt
        rw [wp_ok, Ctl.post_brk]
        refine ⟨h2, by dsimp only; omega, .inl ?_, h6⟩
        rw [h5 p hp.2 hp.1] at hlt
        rcases ht p hp.2 with h | h
        · omega
        · have := h r hr
          omega
      · rw [wr_eq (by omega), ok_bind, wp_ok, Ctl.post_next]
        refine ⟨⟨hp.2, by simpa using h2, by dsimp only; omega, ?_, ?_, ?_⟩, by dsimp only; omega⟩
        · dsimp only
          rw [show S - (lv + wtOf w p) = r by omega]
          exact hr
        · intro v hv hpv
          dsimp only at hpv ⊢
          rw [getD_set, if_neg (by omega), h5 v hv (by omega)]
        · intro v hv
          dsimp only
          rw [getD_set]
          by_cases hvp : v = p
          · subst hvp
            rw [if_pos ⟨rfl, by omega⟩]
            refine .inr (fun u hu => ?_)
            have := hu.unique hr
            omega
          · rw [if_neg (by omega)]
            exact h6 v hv
  · intro v hv
    rcases ht v hv with h | h
    · exact .inl h
    · exact .inr (fun u hu => (h u hu).trans (by omega))

theorem heightEff_wp (hl : t.length = n) (hf : Forest n (parentOf t)) {w : Option (List Int)} (hw : WtOk n w)
    (hpos : ∀ v, v < n → 0 ≤ wtOf w v) {nChild : List Nat} (hc : nChild.length = n)
    (hcnt : ∀ v, v < n → nChild.getD v 0 = (kids n t v).length) :
    wp (heightEff n t nChild w) (LargestOr0 (fun d => ∃ v, v < n ∧ Leaf n t v ∧
      Above (parentOf t) (wtOf w) v d)) := by
  unfold heightEff
  rw [wp_bind]
  refine wp_mono (forRange_wp' (fun k (s : Int × List Int) => s.2.length = n ∧
      LargestOr0 (fun d => ∃ v, v < k ∧ Leaf n t v ∧ Above (parentOf t) (wtOf w) v d) s.1 ∧
      ∀ v, v < n → s.2.getD v 0 = 0 ∨ ∀ u, Above (parentOf t) (wtOf w) v u → s.2.getD v 0 + u ≤ s.1)
    (Nat.zero_le _) ?_ ?_ (fun _ h => h)) ?_
  · refine ⟨by simp, ⟨Int.le_refl _, ?_, .inl rfl⟩, fun v hv => .inl (getD_replicate _ _ _ _ hv)⟩
    rintro d ⟨v, hv, _⟩
    omega
  · rintro k ⟨m, touch⟩ _ hk ⟨h1, ⟨h2, h3, h4⟩, h5⟩
    dsimp only at h1 h2 h3 h4 h5 ⊢
    rw [rd_getD 0 (by omega), ok_bind, hcnt k hk]
    by_cases hL : kids n t k = []
    · rw [hL, List.length_nil, if_pos rfl, wp_bind]
      obtain ⟨S, hS⟩ := Above.exists (wt := wtOf w) hf k hk
      refine wp_mono (climbW_wp hl hf hw hpos hk hS h1 h5) ?_
      rintro ⟨lv, a⟩ ⟨g1, g2, g3, g4⟩
      dsimp only at g1 g2 g3 g4 ⊢
      rw [wp_ok]
      have hmax : (if lv > m then lv else m) = max m S := by split <;> omega
      rw [hmax]
      refine ⟨g1, ⟨by dsimp only; omega, ?_, ?_⟩, g4⟩
      · rintro e ⟨v, hv, hv2, hA⟩
        dsimp only
        by_cases hvk : v = k
        · subst hvk
          have := hA.unique hS
          omega
        · have := h3 e ⟨v, by omega, hv2, hA⟩
          omega
      · dsimp only
        rcases Int.le_total m S with hle | hle
        · rw [Int.max_eq_right hle]
          exact .inr ⟨k, by omega, kids_nil.1 hL, hS⟩
        · rw [Int.max_eq_left hle]
          rcases h4 with h4 | ⟨v, hv, hA⟩
          · exact .inl h4
          · exact .inr ⟨v, by omega, hA⟩
    · rw [if_neg (fun h => hL (List.length_eq_zero_iff.1 h)), wp_ok]
      refine ⟨h1, ⟨h2, ?_, ?_⟩, h5⟩
      · rintro e ⟨v, hv, hv2, hA⟩
        refine h3 e ⟨v, ?_, hv2, hA⟩
        have : v ≠ k := by rintro rfl; exact hL (kids_nil.2 hv2)
        omega
      · rcases h4 with h3 | ⟨v, hv, hA⟩
        · exact .inl h3
        · exact .inr ⟨v, by omega, hA⟩
  · rintro ⟨m, touch⟩ ⟨_, h, _⟩
    rw [wp_ok]
    exact h

/-! ### From leaves to all nodes -/

/-- Below every node there is a leaf, whose sum is at least as large. -/
theorem leaf_below (hf : Forest n (parentOf t)) {wt : Nat → Int} (hpos : ∀ v, v < n → 0 ≤ wt v) (v : Nat)
    (hv : v < n) {s : Int} (hs : Above (parentOf t) wt v s) :
    ∃ u r, u < n ∧ Leaf n t u ∧ Above (parentOf t) wt u r ∧ s ≤ r ∧ (u = v ∨ s + wt v ≤ r) := by
  induction v using Nat.strongRecOn generalizing s with
  | _ v ih =>
    by_cases hL : Leaf n t v
    · exact ⟨v, s, hv, hL, hs, Int.le_refl _, .inl rfl⟩
    · unfold Leaf at hL
      push Not at hL
      obtain ⟨c, hc⟩ := hL
      have h1 := hf c v hc.1 hc.2
      obtain ⟨u, r, g1, g2, g3, g4, _⟩ := ih c h1.1 hc.1 (.child hc.2 hs)
      have := hpos v hv
      exact ⟨u, r, g1, g2, g3, by omega, .inr (by omega)⟩

theorem LargestOr0.unique {P : Int → Prop} {a b : Int} (ha : LargestOr0 P a) (hb : LargestOr0 P b) : a = b := by
  obtain ⟨h1, h2, h3⟩ := ha
  obtain ⟨g1, g2, g3⟩ := hb
  rcases h3 with h3 | h3 <;> rcases g3 with g3 | g3
  · omega
  · have := h2 _ g3; omega
  · have := g2 _ h3; omega
  · have := h2 _ g3; have := g2 _ h3; omega

end Verif.Tree
