import Verif.Proof.FusedLevels

/-!
# Proofs about `level_set_bn`

`heads`: the columns that stand for the supernodes; `cols c`: the supernodes met in column `c`.
-/

namespace Verif.FLevel
open Res MLevel Kahn Csc Hdagg

/-- The nodes of `K` copies. -/
def copies (n K : Nat) (heads : List Nat) : List Nat :=
  (List.range K).flatMap (fun q => heads.map (· + n * q))

def outBn (n : Nat) (cols : Nat → List Nat) (x : Nat) : List Nat := (cols (x % n)).map (· + n * (x / n))

def nxBn (n K x : Nat) : List Nat := if x / n < K - 1 then [x % n + n * (x / n + 1)] else []

/-- What is known about the supernodes. -/
structure Heads (n : Nat) (heads : List Nat) (cols : Nat → List Nat) : Prop where
  nodup : heads.Nodup
  lt : ∀ c ∈ heads, c < n
  sub : ∀ c ∈ heads, ∀ d ∈ cols c, d ∈ heads

variable {n K : Nat} {heads : List Nat} {cols : Nat → List Nat}

theorem mem_copies {x : Nat} : x ∈ copies n K heads ↔ ∃ c q, c ∈ heads ∧ q < K ∧ x = c + n * q := by
  unfold copies
  simp only [List.mem_flatMap, List.mem_range, List.mem_map]
  constructor
  · rintro ⟨q, h1, c, h2, rfl⟩; exact ⟨c, q, h2, h1, rfl⟩
  · rintro ⟨c, q, h1, h2, rfl⟩; exact ⟨q, h2, c, h1, rfl⟩

theorem divmod {c q : Nat} (hc : c < n) : (c + n * q) / n = q ∧ (c + n * q) % n = c :=
  ⟨by rw [Nat.add_mul_div_left _ _ (by omega), Nat.div_eq_of_lt hc]; omega,
    by rw [Nat.add_mul_mod_self_left, Nat.mod_eq_of_lt hc]⟩

theorem outBn_eq {c q : Nat} (hc : c < n) : outBn n cols (c + n * q) = (cols c).map (· + n * q) := by
  unfold outBn
  rw [(divmod hc).1, (divmod hc).2]

theorem nxBn_eq {c q : Nat} (hc : c < n) :
    nxBn n K (c + n * q) = if q < K - 1 then [c + n * (q + 1)] else [] := by
  unfold nxBn
  rw [(divmod hc).1, (divmod hc).2]

theorem copies_nodup (hh : Heads n heads cols) : (copies n K heads).Nodup := by
  unfold copies
  rw [List.nodup_flatMap]
  refine ⟨fun q _ => (List.nodup_map_iff (fun a b h => by simpa using h)).2 hh.nodup, ?_⟩
  refine List.Pairwise.imp_of_mem ?_ List.nodup_range
  intro q r _ _ hqr
  rw [Function.onFun, List.disjoint_left]
  intro x hx hx'
  rw [List.mem_map] at hx hx'
  obtain ⟨c, hc, rfl⟩ := hx
  obtain ⟨d, hd, he⟩ := hx'
  exact hqr (idx_inj (hh.lt d hd) (hh.lt c hc) he).2.symm

/-- All edges into `c`. -/
def tot (heads : List Nat) (cols : Nat → List Nat) (c : Nat) : Nat :=
  (heads.map (fun u => (cols u).count c)).sum

theorem count_other (hh : Heads n heads cols) {u c q r : Nat} (hu : u ∈ heads) (hc : c < n) (hqr : q ≠ r) :
    ((cols u).map (· + n * r)).count (c + n * q) = 0 := by
  rw [List.count_eq_zero, List.mem_map]
  rintro ⟨d, hd, he⟩
  exact hqr (idx_inj (hh.lt d (hh.sub u hu d hd)) hc he).2.symm

theorem rem_copies (hh : Heads n heads cols) {c q : Nat} (hc : c < n) (hq : q < K) :
    rem (copies n K heads) (outBn n cols) [] (c + n * q) = tot heads cols c := by
  have key : ∀ l : List Nat, l.Nodup → ((l.flatMap (fun r => heads.map (· + n * r))).map
      (fun u => (outBn n cols u).count (c + n * q))).sum = if q ∈ l then tot heads cols c else 0 := by
    intro l hl
    induction l with
    | nil => simp
    | cons r l ih =>
      rw [List.nodup_cons] at hl
      rw [List.flatMap_cons, List.map_append, List.sum_append, ih hl.2, List.map_map]
      have : heads.map ((fun u => (outBn n cols u).count (c + n * q)) ∘ (· + n * r))
          = heads.map (fun u => if q = r then (cols u).count c else 0) := by
        refine List.map_congr_left (fun u hu => ?_)
        show (outBn n cols (u + n * r)).count (c + n * q) = _
        rw [outBn_eq (hh.lt u hu)]
        by_cases e : q = r
        · subst e; rw [if_pos rfl, count_add]
        · rw [if_neg e, count_other hh hu hc e]
      rw [this]
      by_cases e : q = r
      · subst e
        rw [if_neg hl.1, if_pos (by simp)]
        simp [tot]
      · have : q ∈ r :: l ↔ q ∈ l := by simp [e]
        simp only [this, if_neg e]
        simp
  have hf : (copies n K heads).filter (fun u => decide (u ∉ ([] : List Nat))) = copies n K heads := by simp
  unfold Kahn.rem
  rw [hf, copies, key _ List.nodup_range, if_pos (List.mem_range.2 hq)]

theorem self_copies {c q : Nat} (hc : c < n) :
    self (outBn n cols) (c + n * q) = (cols c).count c := by
  unfold self
  rw [outBn_eq hc, count_add]

/-- The degrees after the counting. -/
def DegBn (n K : Nat) (heads : List Nat) (cols : Nat → List Nat) (deg : List Int) : Prop :=
  deg.length = K * n ∧ ∀ c ∈ heads, ∀ q, q < K →
    deg.getD (c + n * q) 0 + (cols c).count c = (if q = 0 then 0 else memsetOne) + tot heads cols c

theorem setup_bn (hh : Heads n heads cols) {deg : List Int} (hdeg : DegBn n K heads cols deg)
    (hbig : K = 1 ∨ ∀ c ∈ heads, (cols c).length < 16843008) :
    Setup (copies n K heads) (outBn n cols) (nxBn n K) (· < n) (K * n) deg := by
  refine ⟨copies_nodup hh, ?_, ?_, ?_, ?_, ?_, hdeg.1, ?_, ?_⟩
  · intro x hx
    obtain ⟨c, q, h1, h2, rfl⟩ := mem_copies.1 hx
    exact idx_lt h2 (hh.lt c h1)
  · intro u hu x hx
    obtain ⟨c, q, h1, h2, rfl⟩ := mem_copies.1 hu
    rw [outBn_eq (hh.lt c h1), List.mem_map] at hx
    obtain ⟨d, h3, rfl⟩ := hx
    exact mem_copies.2 ⟨d, q, hh.sub c h1 d h3, h2, rfl⟩
  · intro u hu x hx
    obtain ⟨c, q, h1, h2, rfl⟩ := mem_copies.1 hu
    rw [nxBn_eq (hh.lt c h1)] at hx
    split at hx
    · rw [List.mem_singleton] at hx
      subst hx
      refine ⟨mem_copies.2 ⟨c, q + 1, h1, by omega, rfl⟩, ?_⟩
      have : n * 1 ≤ n * (q + 1) := Nat.mul_le_mul_left _ (by omega)
      omega
    · simp at hx
  · intro u hu
    unfold nxBn
    split <;> simp
  · intro u hu w hw x h1 h2
    obtain ⟨c, q, h3, h4, rfl⟩ := mem_copies.1 hu
    obtain ⟨d, r, h5, h6, rfl⟩ := mem_copies.1 hw
    rw [nxBn_eq (hh.lt c h3)] at h1
    rw [nxBn_eq (hh.lt d h5)] at h2
    split at h1
    · split at h2
      · rw [List.mem_singleton] at h1 h2
        rw [h1] at h2
        obtain ⟨rfl, e⟩ := idx_inj (hh.lt c h3) (hh.lt d h5) h2
        rw [show q = r by omega]
      · simp at h2
    · simp at h1
  · intro x hx hc
    obtain ⟨c, q, h1, h2, rfl⟩ := mem_copies.1 hx
    have hcn := hh.lt c h1
    have hq0 : q = 0 := by
      by_contra h
      have : n * 1 ≤ n * q := Nat.mul_le_mul_left _ (by omega)
      omega
    rw [rem_copies hh hcn h2, self_copies hcn]
    have := hdeg.2 c h1 q h2
    rw [if_pos hq0] at this
    omega
  · intro x hx hc
    obtain ⟨c, q, h1, h2, rfl⟩ := mem_copies.1 hx
    have hcn := hh.lt c h1
    have hq0 : q ≠ 0 := by
      rintro rfl
      simp at hc; omega
    rw [rem_copies hh hcn h2]
    have := hdeg.2 c h1 q h2
    rw [if_neg hq0] at this
    have hm : memsetOne = 16843009 := rfl
    rcases hbig with h | h
    · omega
    · have h3 := h c h1
      have h4 := List.count_le_length (a := c) (l := cols c)
      omega

/-! ## Paths of the copies -/

/-- Steps between different supernodes. -/
def ColEdge (heads : List Nat) (cols : Nat → List Nat) (c d : Nat) : Prop :=
  c ∈ heads ∧ c ≠ d ∧ d ∈ cols c

theorem edge_iff (hh : Heads n heads cols) {x y : Nat} :
    Edge (copies n K heads) (outBn n cols) (nxBn n K) x y ↔
      CopyEdge n K (· ∈ heads) (ColEdge heads cols) x y := by
  unfold Edge CopyEdge
  constructor
  · rintro ⟨hx, h⟩
    obtain ⟨c, q, h1, h2, rfl⟩ := mem_copies.1 hx
    rcases h with ⟨h3, h4⟩ | h3
    · rw [outBn_eq (hh.lt c h1), List.mem_map] at h4
      obtain ⟨d, h5, rfl⟩ := h4
      exact .inl ⟨c, d, q, ⟨h1, fun h => h3 (by rw [h]), h5⟩, h2, rfl, rfl⟩
    · rw [nxBn_eq (hh.lt c h1)] at h3
      split at h3
      · rw [List.mem_singleton] at h3
        exact .inr ⟨c, q, h1, by omega, rfl, h3⟩
      · simp at h3
  · rintro (⟨c, d, q, ⟨h1, h2, h3⟩, h4, rfl, rfl⟩ | ⟨c, q, h1, h2, rfl, rfl⟩)
    · refine ⟨mem_copies.2 ⟨c, q, h1, h4, rfl⟩, .inl ⟨fun h => h2 (by omega), ?_⟩⟩
      rw [outBn_eq (hh.lt c h1), List.mem_map]
      exact ⟨d, h3, rfl⟩
    · refine ⟨mem_copies.2 ⟨c, q, h1, by omega, rfl⟩, .inr ?_⟩
      rw [nxBn_eq (hh.lt c h1), if_pos (by omega)]
      simp

/-- A path to the next copy of a node has one step more. -/
theorem path_shift (hh : Heads n heads cols) {t c q : Nat} (hc : c ∈ heads) (hq : q + 1 < K) :
    PathEnd (· ∈ copies n K heads) (CopyEdge n K (· ∈ heads) (ColEdge heads cols)) (t + 1) (c + n * (q + 1)) ↔
      PathEnd (· ∈ copies n K heads) (CopyEdge n K (· ∈ heads) (ColEdge heads cols)) t (c + n * q) := by
  constructor
  · intro h
    induction t generalizing c with
    | zero => exact .nil (mem_copies.2 ⟨c, q, hc, by omega, rfl⟩)
    | succ t ih =>
      cases h with
      | snoc h he =>
        rcases he with ⟨b, d, r, h1, h2, rfl, h4⟩ | ⟨b, r, h1, h2, rfl, h4⟩
        · obtain ⟨rfl, rfl⟩ := idx_inj (hh.lt c hc) (hh.lt d (hh.sub b h1.1 d h1.2.2)) h4
          exact .snoc (ih h1.1 h) (.inl ⟨b, c, q, h1, by omega, rfl, rfl⟩)
        · obtain ⟨rfl, e⟩ := idx_inj (hh.lt c hc) (hh.lt b h1) h4
          obtain rfl : q = r := by omega
          exact h
  · intro h
    exact .snoc h (.inr ⟨c, q, hc, hq, rfl, rfl⟩)

theorem before_bn (hh : Heads n heads cols) {deg : List Int} (hdeg : DegBn n K heads cols deg) (hK : 0 < K)
    {Q0 : List Nat} (hQ0 : ∀ x, x ∈ Q0 ↔ x ∈ heads ∧ deg.getD x 0 = 0) :
    Before (copies n K heads) (outBn n cols) (nxBn n K) (· < n) deg Q0
      (fun t x => x ∈ copies n K heads ∧ ¬ PathEnd (· ∈ copies n K heads)
        (CopyEdge n K (· ∈ heads) (ColEdge heads cols)) t x) := by
  obtain ⟨V, hV⟩ : ∃ V, V = copies n K heads := ⟨_, rfl⟩
  obtain ⟨E, hE⟩ : ∃ E, E = CopyEdge n K (· ∈ heads) (ColEdge heads cols) := ⟨_, rfl⟩
  have hEV : ∀ u x, E u x → x ∈ V := by
    intro u x h
    rw [hE] at h
    rw [hV, mem_copies]
    rcases h with ⟨c, d, q, h1, h2, rfl, rfl⟩ | ⟨c, q, h1, h2, rfl, rfl⟩
    · exact ⟨d, q, hh.sub c h1.1 d h1.2.2, h2, rfl⟩
    · exact ⟨c, q + 1, h1, h2, rfl⟩
  have hV0 : ∀ x ∈ V, x < n → x ∈ heads := by
    intro x hx hlt
    rw [hV] at hx
    obtain ⟨c, q, h1, h2, rfl⟩ := mem_copies.1 hx
    have hq0 : q = 0 := by
      by_contra h
      have : n * 1 ≤ n * q := Nat.mul_le_mul_left _ (by omega)
      omega
    subst hq0; simpa using h1
  have hin : ∀ x, x ∈ heads → ∀ u, (u ∈ V ∧ u ≠ x ∧ x ∈ outBn n cols u) ↔ E u x := by
    intro x hx u
    have hxn := hh.lt x hx
    rw [hE, ← edge_iff hh, hV]
    constructor
    · rintro ⟨h1, h2, h3⟩; exact ⟨h1, .inl ⟨h2, h3⟩⟩
    · rintro ⟨h1, h2 | h2⟩
      · exact ⟨h1, h2⟩
      · exfalso
        obtain ⟨c, q, h3, h4, rfl⟩ := mem_copies.1 h1
        rw [nxBn_eq (hh.lt c h3)] at h2
        split at h2
        · rw [List.mem_singleton] at h2
          have : n * 1 ≤ n * (q + 1) := Nat.mul_le_mul_left _ (by omega)
          omega
        · simp at h2
  have hdeg0 : ∀ x ∈ heads, (deg.getD x 0 = 0 ↔ ∀ u, ¬ E u x) := by
    intro x hx
    have hxn := hh.lt x hx
    have h1 := hdeg.2 x hx 0 hK
    have h2 := rem_copies hh hxn hK
    have h3 := self_copies (cols := cols) (q := 0) hxn
    have hxV : x ∈ V := by rw [hV, mem_copies]; exact ⟨x, 0, hx, hK, by simp⟩
    have h4 := rem_eq_self (out := outBn n cols) (D := []) (by rw [hV]; exact copies_nodup hh) hxV (by simp)
    rw [Nat.mul_zero, Nat.add_zero] at h1 h2 h3
    rw [if_pos rfl] at h1
    rw [← hV] at h2
    have : deg.getD x 0 = 0 ↔ rem V (outBn n cols) [] x = self (outBn n cols) x := by omega
    rw [this, h4]
    constructor
    · intro h u hu
      obtain ⟨a, b, c⟩ := (hin x hx u).2 hu
      simpa using h u a b c
    · intro h u a b c
      exact absurd ((hin x hx u).1 ⟨a, b, c⟩) (h u)
  rw [← hV, ← hE]
  refine ⟨?_, ?_, ?_, fun t x h => h.1, ?_, ?_, ?_⟩
  · rintro x ⟨h1, h2⟩; exact h2 (.nil h1)
  · intro x
    rw [hQ0]
    constructor
    · rintro ⟨h1, h2⟩
      refine ⟨by rw [hV, mem_copies]; exact ⟨x, 0, h1, hK, by simp⟩, fun h => ?_⟩
      cases h with | snoc _ he => exact (hdeg0 x h1).1 h2 _ he
    · rintro ⟨h1, h2⟩
      have hxn : x < n := by
        by_contra hc
        have h1' := h1
        rw [hV] at h1'
        obtain ⟨c, q, h3, h4, rfl⟩ := mem_copies.1 h1'
        have hcn := hh.lt c h3
        obtain ⟨r, rfl⟩ : ∃ r, q = r + 1 := by
          refine ⟨q - 1, ?_⟩
          by_contra h
          obtain rfl : q = 0 := by omega
          simp at hc; omega
        exact h2 (.snoc (u := c + n * r) (.nil (by rw [hV]; exact mem_copies.2 ⟨c, r, h3, by omega, rfl⟩))
          (by rw [hE]; exact .inr ⟨c, r, h3, h4, rfl, rfl⟩))
      have hx := hV0 x h1 hxn
      refine ⟨hx, (hdeg0 x hx).2 (fun u hu => h2 (.snoc (.nil ?_) hu))⟩
      exact ((hin x hx u).2 hu).1
  · rintro t x ⟨h1, h2⟩
    exact ⟨h1, fun h => h2 (PathEnd.drop hEV h)⟩
  · intro t x hx hxn h0
    have hxh := hV0 x hx hxn
    constructor
    · rintro ⟨_, h2⟩ u hu hne hxu
      exact ⟨hu, fun h => h2 (.snoc h ((hin x hxh u).1 ⟨hu, hne, hxu⟩))⟩
    · intro h
      refine ⟨hx, fun hp => ?_⟩
      cases hp with
      | snoc hp he =>
        obtain ⟨a, b, c⟩ := (hin x hxh _).2 he
        exact (h _ a b c).2 hp
  · rintro t x hx hxn h0 _
    rw [hQ0]
    exact ⟨hV0 x hx hxn, h0⟩
  · intro t x hx hxn
    have hx' := hx
    rw [hV] at hx'
    obtain ⟨c, q, h3, h4, rfl⟩ := mem_copies.1 hx'
    have hcn := hh.lt c h3
    obtain ⟨r, rfl⟩ : ∃ r, q = r + 1 := by
      refine ⟨q - 1, ?_⟩
      by_contra h
      obtain rfl : q = 0 := by omega
      simp at hxn; omega
    have hs := path_shift hh (t := t) h3 h4
    rw [← hV, ← hE] at hs
    rw [hs]
    constructor
    · rintro ⟨_, h2⟩
      have hm : c + n * r ∈ V := by rw [hV]; exact mem_copies.2 ⟨c, r, h3, by omega, rfl⟩
      refine ⟨c + n * r, hm, ?_, hm, h2⟩
      rw [nxBn_eq hcn, if_pos (by omega)]; simp
    · rintro ⟨u, hu, h5, _, h6⟩
      refine ⟨hx, ?_⟩
      rw [hV] at hu
      obtain ⟨d, p, h7, h8, rfl⟩ := mem_copies.1 hu
      rw [nxBn_eq (hh.lt d h7)] at h5
      split at h5
      · rw [List.mem_singleton] at h5
        obtain ⟨rfl, e⟩ := idx_inj hcn (hh.lt d h7) h5
        obtain rfl : r = p := by omega
        exact h6
      · simp at h5

/-! ## The call -/

theorem flat_nodes {super : List Nat} {nodes : Nat} (hh : super.take nodes = heads) (hn : nodes ≤ super.length)
    {σ : Type} (f : Nat → σ → Res σ) (s : σ) :
    forRange 0 nodes (fun i s => do let v ← rd super i; f v s) s = forEach heads f s := by
  have := forRange_slice super f s (Nat.zero_le nodes) hn
  rw [slice_zero, hh] at this
  exact this

theorem forEach_flat {α β σ : Type} (l : List α) (k : α → List β) (f : β → σ → Res σ) (s : σ) :
    forEach l (fun a s => forEach (k a) f s) s = forEach (l.flatMap k) f s := by
  induction l generalizing s with
  | nil => rfl
  | cons a l ih =>
    rw [List.flatMap_cons, forEach_append]
    show forEach (k a) f s >>= _ = _
    congr 1
    funext s'
    exact ih s'

theorem forEach_ite {α σ : Type} (l : List α) (p : α → Prop) [DecidablePred p] (f : α → σ → Res σ) (s : σ) :
    forEach l (fun a s => if p a then f a s else ok s) s = forEach (l.filter (fun a => decide (p a))) f s := by
  induction l generalizing s with
  | nil => rfl
  | cons a l ih =>
    show (if p a then f a s else ok s) >>= _ = _
    by_cases h : p a
    · rw [if_pos h, List.filter_cons_of_pos (by simpa using h)]
      show _ = f a s >>= _
      congr 1
      funext s'
      exact ih s'
    · rw [if_neg h, List.filter_cons_of_neg (by simpa using h), ok_bind]
      exact ih s

theorem forEach_congr {α σ : Type} {l : List α} {f f' : α → σ → Res σ} (h : ∀ a ∈ l, ∀ s, f a s = f' a s) (s : σ) :
    forEach l f s = forEach l f' s := by
  induction l generalizing s with
  | nil => rfl
  | cons a l ih =>
    show f a s >>= _ = f' a s >>= _
    rw [h a (by simp)]
    congr 1
    funext s'
    exact ih (fun a ha => h a (List.mem_cons_of_mem _ ha)) s'

theorem countBn_spec (hh : Heads n heads cols) (hK : 0 < K) {super : List Nat} {nodes : Nat}
    (he : super.take nodes = heads) (hn : nodes ≤ super.length)
    {over : Nat → (Nat → List Int → Res (List Int)) → List Int → Res (List Int)}
    (hover : ∀ c ∈ heads, ∀ f s, over c f s = forEach (cols c) f s) :
    wp (countBn n K nodes super over (initDegrees n K)) (DegBn n K heads cols) := by
  unfold countBn
  rw [flat_nodes he hn]
  have h1 : ∀ d, forEach heads (fun index deg => over index (fun x deg =>
        if index ≠ x then forRange 0 K (fun q deg => inc (x + q * n) deg) deg else ok deg) deg) d
      = forEach (heads.flatMap (fun u => ((cols u).filter (fun x => decide (u ≠ x))).flatMap
          (fun x => (List.range K).map (fun q => x + q * n)))) inc d := by
    intro d
    rw [← forEach_flat]
    refine forEach_congr (fun u hu s => ?_) d
    rw [hover u hu, forEach_ite, ← forEach_flat]
    refine forEach_congr (fun x hx s => ?_) s
    rw [Util.forEach_map, Util.forRange_eq_forEach]
  rw [h1]
  have hlen : (initDegrees n K).length = K * n := by
    unfold initDegrees
    rw [List.length_append, List.length_replicate, List.length_replicate]
    obtain ⟨k, rfl⟩ : ∃ k, K = k + 1 := ⟨K - 1, by omega⟩
    rw [Nat.add_sub_cancel, Nat.add_mul, Nat.one_mul, Nat.mul_comm n k]; omega
  refine wp_mono (incs_spec ?_) ?_
  · intro y hy
    simp only [List.mem_flatMap, List.mem_map, List.mem_range, List.mem_filter] at hy
    obtain ⟨u, hu, x, ⟨hx, _⟩, q, hq, rfl⟩ := hy
    rw [hlen, Nat.mul_comm q]
    exact idx_lt hq (hh.lt x (hh.sub u hu x hx))
  · rintro d ⟨h2, h3⟩
    refine ⟨by rw [h2, hlen], fun c hc q hq => ?_⟩
    have hcn := hh.lt c hc
    have hcount : (heads.flatMap (fun u => ((cols u).filter (fun x => decide (u ≠ x))).flatMap
          (fun x => (List.range K).map (fun q => x + q * n)))).count (c + n * q)
        = (heads.map (fun u => ((cols u).filter (fun x => decide (u ≠ x))).count c)).sum := by
      rw [List.count_flatMap]
      congr 1
      refine List.map_congr_left (fun u hu => ?_)
      show ((_ : List Nat).flatMap _).count _ = _
      have key : ∀ l : List Nat, (∀ x ∈ l, x < n) →
          (l.flatMap (fun x => (List.range K).map (fun q => x + q * n))).count (c + n * q) = l.count c := by
        intro l hl
        induction l with
        | nil => rfl
        | cons x l ih =>
          rw [List.flatMap_cons, List.count_append, ih (fun y hy => hl y (List.mem_cons_of_mem _ hy)),
            List.count_cons, Nat.add_comm]
          congr 1
          have hxn := hl x (by simp)
          by_cases e : x = c
          · subst e
            rw [if_pos (by simp)]
            refine List.count_eq_one_of_mem ((List.nodup_map_iff (fun a b h => ?_)).2 List.nodup_range)
              (List.mem_map.2 ⟨q, List.mem_range.2 hq, by rw [Nat.mul_comm]⟩)
            have : x + n * a = x + n * b := by rw [Nat.mul_comm n, Nat.mul_comm n]; exact h
            exact (idx_inj hxn hxn this).2
          · rw [if_neg (by simpa using e), List.count_eq_zero, List.mem_map]
            rintro ⟨r, _, hr⟩
            rw [Nat.mul_comm] at hr
            exact e (idx_inj hxn hcn hr).1
      exact key _ (fun x hx => hh.lt x (hh.sub u hu x (List.mem_of_mem_filter hx)))
    have hbase : (initDegrees n K).getD (c + n * q) 0 = if q = 0 then 0 else memsetOne := by
      unfold initDegrees
      by_cases hq0 : q = 0
      · subst hq0
        rw [Nat.mul_zero, Nat.add_zero, List.getD_append _ _ _ _ (by simpa using hcn),
          getD_replicate _ _ _ _ hcn, if_pos rfl]
      · have h4 : n * 1 ≤ n * q := Nat.mul_le_mul_left _ (by omega)
        have h5 : n * q ≤ n * (K - 1) := Nat.mul_le_mul_left _ (by omega)
        have h6 : n * q = n * (q - 1) + n := by
          obtain ⟨r, rfl⟩ : ∃ r, q = r + 1 := ⟨q - 1, by omega⟩
          rw [Nat.add_sub_cancel, Nat.mul_add, Nat.mul_one]
        rw [List.getD_append_right _ _ _ _ (by simp; omega), getD_replicate _ _ _ _ (by simp; omega), if_neg hq0]
    rw [h3, hbase, hcount]
    have := sum_filter_self (cols := cols) hh.nodup hc
    unfold tot
    omega

theorem bind_ok' {α : Type _} (x : Res α) : (x >>= fun a => ok a) = x := by
  cases x <;> rfl

/-- Everything after the supernodes have been found. -/
theorem bn_spec (hh : Heads n heads cols) (hK : 0 < K) {super : List Nat} {nodes : Nat}
    (he : super.take nodes = heads) (hn : nodes ≤ super.length)
    (hbig : K = 1 ∨ ∀ c ∈ heads, (cols c).length < 16843008)
    {over : Nat → (Nat → List Int → Res (List Int)) → List Int → Res (List Int)}
    (hover : ∀ c ∈ heads, ∀ f s, over c f s = forEach (cols c) f s)
    {overS : Nat → (Nat → St → Res St) → St → Res St}
    (hoverS : ∀ c ∈ heads, ∀ f s, overS c f s = forEach (cols c) f s) :
    ∃ L ptr levels k, (do
        let deg ← countBn n K nodes super over (initDegrees n K)
        let q ← initQueue nodes super deg (List.replicate (K * n) false)
        run (K * n) (K * nodes + 1) (K * nodes) q (popFront n (fun kern v s => do
          let s ← overS v (fun x s => visit deg (x + n * kern) s) s
          nextCopy n K kern v s))) = ok (L, ptr, levels) ∧ levels.length = K * nodes ∧
      LevelsBy (CopyNode n K (· ∈ heads)) (CopyEdge n K (· ∈ heads) (ColEdge heads cols)) L k ptr levels := by
  have hlen : heads.length = nodes := by rw [← he]; simp; omega
  obtain ⟨deg, d1, hdeg⟩ := wp_iff.1 (countBn_spec hh hK he hn hover)
  have hnK : n ≤ K * n := by
    have := Nat.mul_le_mul_right n hK
    omega
  obtain ⟨⟨Q0, inq⟩, q1, q2, q3, q4, q5⟩ := wp_iff.1 (initQueue_spec (N := K * n) he hn hh.nodup
    (fun c hc => by have := hh.lt c hc; omega) hdeg.1)
  rw [d1, ok_bind, q1, ok_bind]
  dsimp only at q2 q3 q4 q5
  have hVlen : (copies n K heads).length = K * nodes := by
    unfold copies
    rw [List.length_flatMap]
    simp [hlen]
  have hE : ∀ u x, CopyEdge n K (· ∈ heads) (ColEdge heads cols) u x → x ∈ copies n K heads := by
    intro u x h
    rw [mem_copies]
    rcases h with ⟨c, d, q, h1, h2, rfl, rfl⟩ | ⟨c, q, h1, h2, rfl, rfl⟩
    · exact ⟨d, q, hh.sub c h1.1 d h1.2.2, h2, rfl⟩
    · exact ⟨c, q + 1, h1, h2, rfl⟩
  obtain ⟨pop, hpop⟩ : ∃ pop, pop = popFront n (fun kern v s => do
          let s ← overS v (fun x s => visit deg (x + n * kern) s) s
          nextCopy n K kern v s) := ⟨_, rfl⟩
  have hp : ∀ s x q, s.queue = x :: q → x ∈ copies n K heads → pop s = popG (outBn n cols) (nxBn n K) deg s := by
    rw [hpop]
    intro s x q hx hxV
    obtain ⟨c, r, h1, h2, rfl⟩ := mem_copies.1 hxV
    have hcn := hh.lt c h1
    have hsub : (c + n * r) - (c + n * r) / n * n = c := by
      rw [(divmod hcn).1, Nat.mul_comm n]; omega
    unfold popFront popG
    rw [hx]
    dsimp only
    rw [hsub, (divmod hcn).1, outBn_eq hcn, nxBn_eq hcn]
    congr 1; funext a
    congr 1; funext b
    congr 1; funext d
    congr 1; funext e
    rw [if_neg (by omega), hoverS c h1, Util.forEach_map]
    congr 1; funext f
    unfold nextCopy
    split
    · show _ = (_ >>= fun s => ok s)
      rw [bind_ok']
    · rfl
  have hq : ∀ x ∈ Q0, x ∈ copies n K heads ∧ x < n ∧ deg.getD x 0 = 0 := by
    intro x hx
    rw [q5] at hx
    have := hh.lt x hx.1
    exact ⟨mem_copies.2 ⟨x, 0, hx.1, hK, by simp⟩, this, hx.2⟩
  obtain ⟨L, ptr, levels, k, r1, r2, r3⟩ := run_levels (setup_bn hh hdeg hbig) (S := K * nodes)
    (P := K * nodes + 1) (by omega) (by omega) hp hE (before_bn hh hdeg hK q5) q2 q3 q4 hq
  rw [← hpop]
  refine ⟨L, ptr, levels, k, r1, r2, ?_⟩
  have : (· ∈ copies n K heads) = CopyNode n K (· ∈ heads) := by
    funext x
    exact propext mem_copies
  rw [this] at r3
  exact r3

end Verif.FLevel
