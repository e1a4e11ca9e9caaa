import Verif.Proof.Counts1

/-! # `row_col_counts_symmetric`: the union-find structure and the edges -/

namespace Verif.LFactor
open Res Relation

variable {n : Nat} {par : Nat → Option Nat} {node pos first : Nat → Nat}

/-- The sets of nodes with position below `k`, each represented by its first ancestor with a position
from `k` on. -/
structure SPInv (n : Nat) (par : Nat → Option Nat) (pos : Nat → Nat) (k : Nat) (sp : List Nat) :
    Prop where
  len : n ≤ sp.length
  self : ∀ x, x < n → (k ≤ pos x ∨ par x = none) → sp.getD x 0 = x
  up : ∀ x, x < n → pos x < k → par x ≠ none → Sub n par x (sp.getD x 0) ∧ sp.getD x 0 ≠ x ∧
    ∀ y, Sub n par x y → ¬ Sub n par (sp.getD x 0) y → pos y < k

theorem find_wp (hPO : PO n par node pos first) {k : Nat} {sp : List Nat} (hsp : SPInv n par pos k sp)
    {x u : Nat} (hxu : Sub n par x u) (hu : u < n) (huk : k ≤ pos u) :
    ∃ q, find n sp x = ok q ∧ Sub n par x q ∧ q < n ∧ k ≤ pos q ∧
      ∀ y, Sub n par x y → ¬ Sub n par q y → pos y < k := by
  have hfor := hPO.forest
  have hx := hxu.lt_left hfor hu
  have hl := hsp.len
  suffices h : wp (find n sp x) (fun q => Sub n par x q ∧ q < n ∧ k ≤ pos q ∧
      ∀ y, Sub n par x y → ¬ Sub n par q y → pos y < k) from wp_iff.1 h
  unfold find
  refine whileF_wp (I := fun q => Sub n par x q ∧ q < n ∧
      ∀ y, Sub n par x y → ¬ Sub n par q y → pos y < k) (m := fun q => n - q) ?_ (n + 1) x
    (by omega) ⟨Sub.refl _, hx, fun y h1 h2 => absurd h1 h2⟩
  rintro q ⟨h1, h2, h3⟩
  rw [rd_getD 0 (by omega), ok_bind, wp_ok]
  by_cases e : q = sp.getD q 0
  · rw [decide_eq_false (by simpa using e)]
    simp only [Bool.false_eq_true, if_false]
    refine ⟨h1, h2, ?_, h3⟩
    by_contra hlt
    by_cases hr : par q = none
    · rcases h1.total hxu with h | h
      · by_cases e' : q = u
        · subst e'; exact hlt huk
        · obtain ⟨p, _, hp, _⟩ := h.step e'
          rw [hr] at hp; cases hp
      · have := hPO.pos_le h h2; omega
    · exact (hsp.up q h2 (by omega) hr).2.1 e.symm
  · rw [decide_eq_true (by simpa using e)]
    simp only [if_true]
    have hlt : pos q < k := by
      by_contra h
      exact e (hsp.self q h2 (Or.inl (by omega))).symm
    have hr : par q ≠ none := fun h => e (hsp.self q h2 (Or.inr h)).symm
    obtain ⟨g1, g2, g3⟩ := hsp.up q h2 hlt hr
    rw [wp_ok]
    have hle := g1.le hfor
    refine ⟨by omega, ⟨h1.trans g1, g1.lt_n hfor h2, ?_⟩, by omega⟩
    intro y hy1 hy2
    by_cases hqy : Sub n par q y
    · exact g3 y hqy hy2
    · exact h3 y hy1 hqy

theorem compress_wp (hPO : PO n par node pos first) {k : Nat} {sp : List Nat}
    (hsp : SPInv n par pos k sp) {x q : Nat} (hxq : Sub n par x q) (hq : q < n) (hqk : k ≤ pos q)
    (hall : ∀ y, Sub n par x y → ¬ Sub n par q y → pos y < k) :
    ∃ sp', compress n sp x q = ok sp' ∧ SPInv n par pos k sp' := by
  have hfor := hPO.forest
  have key := whileF_wp (I := fun (r : Nat × List Nat) => SPInv n par pos k r.2 ∧ Sub n par r.1 q ∧
      ∀ y, Sub n par r.1 y → ¬ Sub n par q y → pos y < k) (m := fun r => q - r.1)
    (cond := fun (r : Nat × List Nat) => ok (decide (r.1 ≠ q))) (body := fun r => do
      let p ← rd r.2 r.1
      let sp ← wr r.2 r.1 q
      ok (p, sp)) (Q := fun r => SPInv n par pos k r.2) ?_ (n + 1) (x, sp) (by dsimp only; omega)
    ⟨hsp, hxq, hall⟩
  · obtain ⟨⟨s, sp'⟩, h1, h2⟩ := wp_iff.1 key
    refine ⟨sp', ?_, h2⟩
    unfold compress
    rw [h1]; rfl
  · rintro ⟨s, sp⟩ ⟨h1, h2, h3⟩
    dsimp only at h1 h2 h3 ⊢
    rw [wp_ok]
    by_cases e : s = q
    · rw [decide_eq_false (by simpa using e)]
      simpa using h1
    · rw [decide_eq_true (by simpa using e)]
      simp only [if_true]
      have hs := h2.lt_left hfor hq
      have hl := h1.len
      have hle := h2.le hfor
      have hlt : pos s < k := h3 s (Sub.refl _) (fun h => e (h2.antisymm hfor h))
      have hr : par s ≠ none := by
        obtain ⟨p, _, hp, _⟩ := h2.step e
        rw [hp]; simp
      obtain ⟨g1, g2, g3⟩ := h1.up s hs hlt hr
      have hsq : Sub n par (sp.getD s 0) q := by
        rcases g1.total h2 with h | h
        · exact h
        · by_contra hc
          have := g3 q h2 hc
          omega
      rw [rd_getD 0 (by omega), ok_bind, wr_eq (by omega), ok_bind, wp_ok]
      have := g1.le hfor
      have := hsq.le hfor
      refine ⟨by omega, ⟨⟨by simpa using hl, ?_, ?_⟩, hsq, ?_⟩, by dsimp only; omega⟩
      · intro y hy hyk
        dsimp only
        rw [getD_set_ne (by
          rintro rfl
          rcases hyk with h | h
          · omega
          · exact hr h)]
        exact h1.self y hy hyk
      · intro y hy hyk hyr
        dsimp only
        by_cases e' : s = y
        · subst e'
          rw [getD_set_eq (by omega)]
          exact ⟨h2, Ne.symm e, h3⟩
        · rw [getD_set_ne e']
          exact h1.up y hy hyk hyr
      · intro y hy
        exact h3 y (g1.trans hy)

/-- Row `u` of the factor (with the ancestors of `u`) as far as it is known from the entries `N`. -/
def Hit (n : Nat) (par : Nat → Option Nat) (N : Nat → Nat → Prop) (u j : Nat) : Prop :=
  ∃ x, N u x ∧ Sub n par x j

/-- The state of the second traversal.  `N` holds the edges that have been processed, `ini` the nodes
that have been initialized; the sets are those of position `k`, and the data of the nodes from position
`kb` on are up to date. -/
structure CInv (n : Nat) (par : Nat → Option Nat) (pos first : Nat → Nat) (ini : Nat → Prop)
    (N : Nat → Nat → Prop) (k kb : Nat) (hasRow : Bool) (s : Cnt) : Prop where
  clen : n ≤ s.col.length
  nlen : n ≤ s.nbr.length
  llen : n ≤ s.leaf.length
  sp : SPInv n par pos k s.sp
  sum : ∀ j, j < n → subSum n par (fun i => s.col.getD i 0) j = (Finset.range n).sum fun u =>
    ind (first u = pos u ∧ Sub n par u j) - ind (ini u ∧ SubO n par (par u) j) + ind (Hit n par N u j)
  opt : s.row.isSome = hasRow
  row : ∀ r, s.row = some r → n ≤ r.length ∧ ∀ u, u < n →
    r.getD u 0 = 1 + (Finset.range n).sum fun j => ind (Hit n par N u j ∧ ¬ Sub n par u j)
  edge : ∀ u x, u < n → N u x → Sub n par x u ∧ x ≠ u ∧ pos x < kb
  empty : ∀ u, u < n → kb ≤ pos u → s.nbr.getD u none = none →
    s.leaf.getD u none = none ∧ ∀ x, ¬ N u x
  last : ∀ u v, u < n → kb ≤ pos u → s.nbr.getD u none = some v →
    ∃ x p, N u x ∧ v = pos x ∧ s.leaf.getD u none = some p ∧ N u p ∧ Sub n par p x ∧
      ∀ y, N u y → first y ≤ pos p ∧ pos y ≤ v

theorem addAt_eq {l : List Int} {i : Nat} (h : i < l.length) (d : Int) :
    addAt l i d = ok (l.set i (l.getD i 0 + d)) := by
  unfold addAt
  rw [rd_getD 0 h, ok_bind, wr_eq h]

theorem getD_set_if {α : Type} {l : List α} {i x : Nat} {v d : α} (h : i < l.length) :
    (l.set i v).getD x d = if x = i then v else l.getD x d := by
  by_cases e : x = i
  · subst e; rw [getD_set_eq h, if_pos rfl]
  · rw [getD_set_ne (Ne.symm e), if_neg e]

/-- One more edge. -/
def addEdge (N : Nat → Nat → Prop) (u p : Nat) (a b : Nat) : Prop := N a b ∨ (a = u ∧ b = p)

theorem hit_add {N : Nat → Nat → Prop} {u p a j : Nat} :
    Hit n par (addEdge N u p) a j ↔ Hit n par N a j ∨ (a = u ∧ Sub n par p j) := by
  constructor
  · rintro ⟨x, h | ⟨h1, h2⟩, hs⟩
    · exact Or.inl ⟨x, h, hs⟩
    · exact Or.inr ⟨h1, h2 ▸ hs⟩
  · rintro (⟨x, h, hs⟩ | ⟨h1, hs⟩)
    · exact ⟨x, Or.inl h, hs⟩
    · exact ⟨p, Or.inr ⟨h1, rfl⟩, hs⟩

theorem leafRoot_wp (hPO : PO n par node pos first) {k : Nat} {sp : List Nat}
    (hsp : SPInv n par pos k sp) {pl u : Nat} (hxu : Sub n par pl u) (hu : u < n) (huk : k ≤ pos u)
    {col : List Int} (hcol : n ≤ col.length) :
    ∃ q sp', leafRoot n u (some pl) sp col = ok (q, sp', col.set q (col.getD q 0 + -1)) ∧
      SPInv n par pos k sp' ∧ Sub n par pl q ∧ q < n ∧ k ≤ pos q ∧
      ∀ y, Sub n par pl y → ¬ Sub n par q y → pos y < k := by
  obtain ⟨q, h1, h2, h3, h4, h5⟩ := find_wp hPO hsp hxu hu huk
  obtain ⟨sp', g1, g2⟩ := compress_wp hPO hsp h2 h3 h4 h5
  refine ⟨q, sp', ?_, g2, h2, h3, h4, h5⟩
  unfold leafRoot
  dsimp only
  rw [h1, ok_bind, g1, ok_bind, addAt_eq (by omega), ok_bind]

section
variable {ini : Nat → Prop} {N : Nat → Nat → Prop} {k : Nat} {hasRow : Bool} {s : Cnt}
  {firstA : List (Option Nat)} {level : List Int}

theorem addRow_wp {lev : List Int} {u p q : Nat} (hlev : n ≤ lev.length)
    (hl : ∀ x, x < n → lev.getD x 0 = height n par x - 1) (hu : u < n) (hp : p < n) (hq : q < n)
    (hpq : Sub n par p q) {row : Option (List Int)} (hrow : ∀ r, row = some r → n ≤ r.length) :
    ∃ row', addRow lev u p q row = ok row' ∧ row'.isSome = row.isSome ∧
      ∀ r', row' = some r' → ∃ r, row = some r ∧ n ≤ r'.length ∧ ∀ a, a < n → r'.getD a 0 =
        if a = u then r.getD a 0 + (Finset.range n).sum (fun j => ind (Sub n par p j ∧ ¬ Sub n par q j))
        else r.getD a 0 := by
  cases row with
  | none => exact ⟨none, rfl, rfl, by simp⟩
  | some r =>
    have hr := hrow r rfl
    refine ⟨some (r.set u (r.getD u 0 + (height n par p - height n par q))), ?_, rfl, ?_⟩
    · unfold addRow
      dsimp only
      rw [rd_getD 0 (by omega), ok_bind, rd_getD 0 (by omega), ok_bind, addAt_eq (by omega), ok_bind,
        hl p hp, hl q hq]
      congr 3
      ring
    · rintro r' ⟨⟩
      refine ⟨r, rfl, by simpa using hr, ?_⟩
      intro a ha
      rw [getD_set_if (by omega), height_sub hpq]
      by_cases e : a = u
      · simp [e]
      · rw [if_neg e, if_neg e]

theorem processEdge_wp (hPO : PO n par node pos first)
    (hfl : n ≤ firstA.length) (hf : ∀ x, x < n → firstA.getD x none = some (first x))
    (hll : n ≤ level.length) (hlev : ∀ x, x < n → level.getD x 0 = height n par x - 1)
    {p u : Nat} (hp : p < n) (hpk : pos p = k) (hu : u < n) (hpu : Sub n par p u) (hne : p ≠ u)
    (h : CInv n par pos first ini N k (k + 1) hasRow s) :
    wp (processEdge n firstA level p u k s)
      (CInv n par pos first ini (addEdge N u p) k (k + 1) hasRow) := by
  have hfor := hPO.forest
  have hposu : k < pos u := by have := hPO.pos_lt_of hpu hu hne; omega
  have hnl := h.nlen
  have hcl := h.clen
  have hll' := h.llen
  unfold processEdge
  rw [rd_getD none (by omega), ok_bind, rd_getD none (by omega), ok_bind, hf p hp]
  have hedge : ∀ a x, a < n → addEdge N u p a x → Sub n par x a ∧ x ≠ a ∧ pos x < k + 1 := by
    rintro a x ha (hN | ⟨rfl, rfl⟩)
    · exact h.edge a x ha hN
    · exact ⟨hpu, hne, by omega⟩
  by_cases hlt : code (s.nbr.getD u none) < code (some (first p))
  · rw [if_pos hlt, addAt_eq (by omega), ok_bind, rd_getD none (by omega), ok_bind]
    -- the processed neighbours come before the subtree of `p`
    have hbefore : ∀ y, N u y → pos y < first p := by
      intro y hy
      cases hb : s.nbr.getD u none with
      | none => exact absurd hy ((h.empty u hu hposu hb).2 y)
      | some v =>
        obtain ⟨x, p', _, _, _, _, _, hall⟩ := h.last u v hu hposu hb
        have := (hall y hy).2
        rw [hb] at hlt
        unfold code at hlt
        dsimp only at hlt
        omega
    have hfp := hPO.first_le hp
    -- the new root
    have hroot : ∃ q sp' d, leafRoot n u (s.leaf.getD u none) s.sp (s.col.set p (s.col.getD p 0 + 1))
          = ok (q, sp', d) ∧ SPInv n par pos k sp' ∧ n ≤ d.length ∧ q < n ∧ Sub n par p q ∧
        (∀ j, j < n → (Sub n par p j ∧ ¬ Sub n par q j ↔
          (Sub n par p j ∧ ¬ Sub n par u j) ∧ ¬ Hit n par N u j)) ∧
        ∀ j, j < n → subSum n par (fun i => d.getD i 0) j
          = subSum n par (fun i => s.col.getD i 0) j + ind (Sub n par p j ∧ ¬ Hit n par N u j) := by
      have hc1 : ∀ j, subSum n par (fun i => (s.col.set p (s.col.getD p 0 + 1)).getD i 0) j
          = subSum n par (fun i => s.col.getD i 0) j + 1 * ind (Sub n par p j) := by
        intro j
        refine subSum_add hp ?_
        intro x hx
        rw [getD_set_if (by omega)]
        by_cases e : x = p
        · simp [e]
        · rw [if_neg e, if_neg e]
      cases hb : s.nbr.getD u none with
      | none =>
        obtain ⟨h1, h2⟩ := h.empty u hu hposu hb
        have hno : ∀ j, ¬ Hit n par N u j := by rintro j ⟨x, hx, _⟩; exact h2 x hx
        refine ⟨u, s.sp, _, by rw [h1]; rfl, h.sp, by simpa using hcl, hu, hpu, ?_, ?_⟩
        · intro j _
          exact ⟨fun hh => ⟨hh, hno j⟩, fun hh => hh.1⟩
        · intro j _
          rw [hc1, one_mul]
          congr 1
          exact ind_congr ⟨fun hh => ⟨hh, hno j⟩, fun hh => hh.1⟩
      | some v =>
        obtain ⟨x, p', hx, hv, hleaf, hp', hsub, hall⟩ := h.last u v hu hposu hb
        have hp'u := (h.edge u p' hu hp').1
        obtain ⟨q, sp', l1, l2, l3, l4, l5, l6⟩ := leafRoot_wp hPO h.sp hp'u hu (by omega)
          (col := s.col.set p (s.col.getD p 0 + 1)) (by simpa using hcl)
        have hp'lt : p' < n := hp'u.lt_left hfor hu
        have hp'b := hbefore p' hp'
        have hpq : Sub n par p q := by
          rw [hPO.sub p q hp l4]
          have := hPO.le_pos l3 l4
          omega
        have hqu : Sub n par q u := by
          rcases l3.total hp'u with hh | hh
          · exact hh
          · by_contra hc
            have := l6 u hp'u hc
            omega
        -- above `p`, the nodes that were reached are those above `q`
        have hhit : ∀ j, j < n → Sub n par p j → (Hit n par N u j ↔ Sub n par q j) := by
          intro j hj hpj
          constructor
          · rintro ⟨y, hy, hyj⟩
            have h1 := (hall y hy).1
            have h2 := hPO.first_mono hyj hj
            have h3 := hPO.pos_le hpj hj
            have hp'j : Sub n par p' j := (hPO.sub p' j hp'lt hj).2 ⟨by omega, by omega⟩
            by_contra hc
            have := l6 j hp'j hc
            omega
          · intro hqj
            exact ⟨p', hp', l3.trans hqj⟩
        refine ⟨q, sp', _, by rw [hleaf]; exact l1, l2, by simpa using hcl, l4, hpq, ?_, ?_⟩
        · intro j hj
          constructor
          · rintro ⟨h1, h2⟩
            exact ⟨⟨h1, fun hh => h2 (hqu.trans hh)⟩, fun hh => h2 ((hhit j hj h1).1 hh)⟩
          · rintro ⟨⟨h1, _⟩, h2⟩
            exact ⟨h1, fun hh => h2 ((hhit j hj h1).2 hh)⟩
        · intro j hj
          have hc2 : subSum n par (fun i => ((s.col.set p (s.col.getD p 0 + 1)).set q
              ((s.col.set p (s.col.getD p 0 + 1)).getD q 0 + -1)).getD i 0) j
              = subSum n par (fun i => (s.col.set p (s.col.getD p 0 + 1)).getD i 0) j
                + (-1) * ind (Sub n par q j) := by
            refine subSum_add l4 ?_
            intro x hx
            rw [getD_set_if (by simp; omega)]
            by_cases e : x = q
            · simp [e]
            · rw [if_neg e, if_neg e]
          rw [hc2, hc1]
          by_cases h1 : Sub n par p j
          · by_cases h2 : Sub n par q j
            · rw [ind_pos h1, ind_pos h2, ind_neg (fun hh => hh.2 ((hhit j hj h1).2 h2))]; ring
            · rw [ind_pos h1, ind_neg h2, ind_pos ⟨h1, fun hh => h2 ((hhit j hj h1).1 hh)⟩]; ring
          · have h2 : ¬ Sub n par q j := fun hh => h1 (hpq.trans hh)
            rw [ind_neg h1, ind_neg h2, ind_neg (fun hh => h1 hh.1)]; ring
    obtain ⟨q, sp', d, r1, r2, r3, r4, r5, r6, r7⟩ := hroot
    obtain ⟨row', a1, a2, a3⟩ := addRow_wp hll hlev hu hp r4 r5 (row := s.row)
      (fun r hr => (h.row r hr).1)
    rw [r1, ok_bind]
    dsimp only
    rw [a1, ok_bind, wr_eq (by omega), ok_bind, ok_bind]
    dsimp only
    rw [wr_eq (by omega), ok_bind, wp_ok]
    refine ⟨r3, by simpa using hnl, by simpa using hll', r2, ?_, ?_, ?_, hedge, ?_, ?_⟩
    · intro j hj
      dsimp only
      rw [r7 j hj, h.sum j hj]
      symm
      rw [sum_except (u := u) (g := fun u => ind (first u = pos u ∧ Sub n par u j)
        - ind (ini u ∧ SubO n par (par u) j) + ind (Hit n par N u j)) hu]
      · congr 1
        by_cases h1 : Hit n par N u j
        · rw [ind_pos h1, ind_pos (P := Hit n par (addEdge N u p) u j) (hit_add.2 (Or.inl h1)),
            ind_neg (P := Sub n par p j ∧ ¬ Hit n par N u j) (fun hh => hh.2 h1)]; ring
        · rw [ind_neg h1]
          have : ind (Hit n par (addEdge N u p) u j) = ind (Sub n par p j ∧ ¬ Hit n par N u j) := by
            refine ind_congr ?_
            rw [hit_add]
            constructor
            · rintro (hh | hh)
              · exact absurd hh h1
              · exact ⟨hh.2, h1⟩
            · rintro ⟨hh, _⟩
              exact Or.inr ⟨rfl, hh⟩
          rw [this]; ring
      · intro x hx hne'
        have : ind (Hit n par (addEdge N u p) x j) = ind (Hit n par N x j) := by
          refine ind_congr ?_
          rw [hit_add]
          exact ⟨fun hh => hh.resolve_right (fun g => hne' g.1), Or.inl⟩
        rw [this]
    · dsimp only
      rw [a2, h.opt]
    · intro r' hr'
      dsimp only at hr'
      obtain ⟨r, b1, b2, b3⟩ := a3 r' hr'
      refine ⟨b2, ?_⟩
      intro a ha
      rw [b3 a ha]
      by_cases e : a = u
      · subst e
        rw [if_pos rfl, (h.row r b1).2 a ha, add_assoc, ← Finset.sum_add_distrib]
        congr 1
        refine Finset.sum_congr rfl ?_
        intro j hj
        rw [Finset.mem_range] at hj
        rw [ind_congr (r6 j hj), ← ind_or (by tauto)]
        refine ind_congr ?_
        rw [hit_add]
        tauto
      · rw [if_neg e, (h.row r b1).2 a ha]
        congr 1
        refine Finset.sum_congr rfl ?_
        intro j _
        refine ind_congr ?_
        rw [hit_add]
        tauto
    · intro a ha hak hn
      dsimp only at hn ⊢
      by_cases e : a = u
      · subst e
        rw [getD_set_eq (by omega)] at hn
        cases hn
      · rw [getD_set_ne (Ne.symm e)] at hn ⊢
        refine ⟨(h.empty a ha hak hn).1, ?_⟩
        rintro x (hx | ⟨hx, _⟩)
        · exact (h.empty a ha hak hn).2 x hx
        · exact e hx
    · intro a v ha hak hn
      dsimp only at hn ⊢
      by_cases e : a = u
      · subst e
        rw [getD_set_eq (by omega)] at hn
        obtain rfl := Option.some.inj hn
        refine ⟨p, p, Or.inr ⟨rfl, rfl⟩, hpk.symm, getD_set_eq (by omega), Or.inr ⟨rfl, rfl⟩,
          Sub.refl _, ?_⟩
        rintro y (hy | ⟨_, rfl⟩)
        · have h1 := hbefore y hy
          have h2 := hPO.first_le ((h.edge a y ha hy).1.lt_left hfor ha)
          omega
        · omega
      · rw [getD_set_ne (Ne.symm e)] at hn ⊢
        obtain ⟨x, p', c1, c2, c3, c4, c5, c6⟩ := h.last a v ha hak hn
        refine ⟨x, p', Or.inl c1, c2, c3, Or.inl c4, c5, ?_⟩
        rintro y (hy | ⟨hy, _⟩)
        · exact c6 y hy
        · exact absurd hy e
  · rw [if_neg hlt, ok_bind, wr_eq (by omega), ok_bind, wp_ok]
    -- some neighbour of `u` is in the subtree of `p`
    obtain ⟨v, hv⟩ : ∃ v, s.nbr.getD u none = some v := by
      cases hb : s.nbr.getD u none with
      | none => rw [hb] at hlt; unfold code at hlt; dsimp only at hlt; omega
      | some v => exact ⟨v, rfl⟩
    obtain ⟨x, p', c1, c2, c3, c4, c5, c6⟩ := h.last u v hu hposu hv
    rw [hv] at hlt
    unfold code at hlt
    dsimp only at hlt
    have hxn := (h.edge u x hu c1).1.lt_left hfor hu
    have hxp : Sub n par x p := by
      rw [hPO.sub x p hxn hp]
      have := (h.edge u x hu c1).2.2
      omega
    have hsame : ∀ a j, Hit n par (addEdge N u p) a j ↔ Hit n par N a j := by
      intro a j
      rw [hit_add]
      constructor
      · rintro (hh | ⟨rfl, hh⟩)
        · exact hh
        · exact ⟨x, c1, hxp.trans hh⟩
      · exact Or.inl
    refine ⟨hcl, by simpa using hnl, hll', h.sp, ?_, h.opt, ?_, hedge, ?_, ?_⟩
    · intro j hj
      rw [h.sum j hj]
      refine Finset.sum_congr rfl ?_
      intro a _
      rw [ind_congr (hsame a j)]
    · intro r hr
      refine ⟨(h.row r hr).1, ?_⟩
      intro a ha
      rw [(h.row r hr).2 a ha]
      congr 1
      refine Finset.sum_congr rfl ?_
      intro j _
      refine ind_congr ?_
      rw [hsame]
    · intro a ha hak hn
      dsimp only at hn ⊢
      by_cases e : a = u
      · subst e
        rw [getD_set_eq (by omega)] at hn
        cases hn
      · rw [getD_set_ne (Ne.symm e)] at hn
        refine ⟨(h.empty a ha hak hn).1, ?_⟩
        rintro x (hx | ⟨hx, _⟩)
        · exact (h.empty a ha hak hn).2 x hx
        · exact e hx
    · intro a v' ha hak hn
      dsimp only at hn ⊢
      by_cases e : a = u
      · subst e
        rw [getD_set_eq (by omega)] at hn
        obtain rfl := Option.some.inj hn
        refine ⟨p, p', Or.inr ⟨rfl, rfl⟩, hpk.symm, c3, Or.inl c4, c5.trans hxp, ?_⟩
        rintro y (hy | ⟨_, rfl⟩)
        · refine ⟨(c6 y hy).1, ?_⟩
          have := (h.edge a y ha hy).2.2
          omega
        · exact ⟨hPO.le_pos (c5.trans hxp) hp, by omega⟩
      · rw [getD_set_ne (Ne.symm e)] at hn
        obtain ⟨x, p', c1, c2, c3, c4, c5, c6⟩ := h.last a v' ha hak hn
        refine ⟨x, p', Or.inl c1, c2, c3, Or.inl c4, c5, ?_⟩
        rintro y (hy | ⟨hy, _⟩)
        · exact c6 y hy
        · exact absurd hy e

end

end Verif.LFactor
