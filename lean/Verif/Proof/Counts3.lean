import Verif.Proof.Counts2
import Verif.Proof.LPattern
import Verif.Spec.SymFactor

/-! # `row_col_counts_symmetric`: the result -/

namespace Verif
open Res Relation

namespace LFactor

variable {n : Nat} {parent : List (Option Nat)} {post : List Nat} {pos first : Nat → Nat}

theorem CInv.congr {par : Nat → Option Nat} {ini ini' : Nat → Prop} {N N' : Nat → Nat → Prop} {k kb : Nat}
    {b : Bool} {s : Cnt} (h : CInv n par pos first ini N k kb b s) (hi : ∀ u, ini u ↔ ini' u)
    (hN : ∀ u x, N u x ↔ N' u x) : CInv n par pos first ini' N' k kb b s := by
  have e1 : ini = ini' := funext fun u => propext (hi u)
  have e2 : N = N' := funext fun u => funext fun x => propext (hN u x)
  rw [← e1, ← e2]; exact h

theorem finalizeNode_wp {node : Nat → Nat} (hPO : PO n (parOf parent) node pos first)
    (hpl : n ≤ parent.length)
    {ini : Nat → Prop} {N : Nat → Nat → Prop} {k : Nat} {b : Bool} {s : Cnt}
    (h : CInv n (parOf parent) pos first ini N k (k + 1) b s) {p : Nat} (hp : p < n) (hpk : pos p = k) :
    wp (finalizeNode parent p s) (CInv n (parOf parent) pos first ini N (k + 1) (k + 1) b) := by
  have hsp := h.sp
  have hl := hsp.len
  have weak : ∀ {x : Nat} {t : List Nat}, x ≠ p → t.getD x 0 = s.sp.getD x 0 →
      x < n → pos x < k + 1 → parOf parent x ≠ none → Sub n (parOf parent) x (t.getD x 0) ∧
        t.getD x 0 ≠ x ∧ ∀ y, Sub n (parOf parent) x y → ¬ Sub n (parOf parent) (t.getD x 0) y →
          pos y < k + 1 := by
    intro x t hne e hx hxk hr
    have : pos x ≠ k := fun hh => hne (hPO.pos_inj hx hp (hh.trans hpk.symm))
    obtain ⟨g1, g2, g3⟩ := hsp.up x hx (by omega) hr
    rw [e]
    exact ⟨g1, g2, fun y h1 h2 => Nat.lt_succ_of_lt (g3 y h1 h2)⟩
  unfold finalizeNode
  rw [rd_getD none (by omega), ok_bind]
  cases hq : parent.getD p none with
  | none =>
    dsimp only
    rw [wp_ok]
    refine { h with sp := ⟨hl, ?_, ?_⟩ }
    · intro x hx hc
      refine hsp.self x hx (hc.imp (fun hh => by omega) id)
    · intro x hx hxk hr
      by_cases e : x = p
      · subst e; exact absurd hq hr
      · exact weak e rfl hx hxk hr
  | some q =>
    dsimp only
    rw [wr_eq (by omega), ok_bind, wp_ok]
    refine ⟨h.clen, h.nlen, h.llen, ⟨by simpa using hl, ?_, ?_⟩, h.sum, h.opt, h.row, h.edge, h.empty,
      h.last⟩
    · intro x hx hc
      dsimp only
      by_cases e : p = x
      · subst e
        rcases hc with hc | hc
        · omega
        · rw [show parOf parent p = some q from hq] at hc; cases hc
      · rw [getD_set_ne e]
        exact hsp.self x hx (hc.imp (fun hh => by omega) id)
    · intro x hx hxk hr
      dsimp only
      by_cases e : p = x
      · subst e
        rw [getD_set_eq (by omega)]
        have hpq := hPO.forest p q hp hq
        refine ⟨Sub.parent hp hq, by omega, ?_⟩
        intro y h1 h2
        by_cases e : p = y
        · subst e; exact hxk
        · obtain ⟨q', _, h3, h4⟩ := h1.step e
          rw [show parOf parent p = some q from hq] at h3
          obtain rfl := Option.some.inj h3
          exact absurd h4 h2
      · exact weak (Ne.symm e) (getD_set_ne e) hx hxk hr

theorem initializeNode_wp (hPO : PO n (parOf parent) (fun k => post.getD k 0) pos first)
    (hpl : n ≤ parent.length) (hpo : n ≤ post.length)
    {N : Nat → Nat → Prop} {k : Nat} (hk : k < n) {b : Bool} {s : Cnt}
    (h : CInv n (parOf parent) pos first (fun u => pos u < k) N k k b s) :
    ∃ s', initializeNode parent post k s = ok (post.getD k 0, s') ∧
      CInv n (parOf parent) pos first (fun u => pos u < k + 1) N k (k + 1) b s' := by
  have hp : post.getD k 0 < n := hPO.node_lt k hk
  have hpk : pos (post.getD k 0) = k := hPO.pos_node k hk
  have hnl := h.nlen
  have hcl := h.clen
  have hne : ∀ u, k + 1 ≤ pos u → post.getD k 0 ≠ u := by
    rintro u hu rfl; omega
  have hini : ∀ x, x < n → x ≠ post.getD k 0 → (pos x < k + 1 ↔ pos x < k) := by
    intro x hx hne'
    have : pos x ≠ k := fun hh => hne' (hPO.pos_inj hx hp (hh.trans hpk.symm))
    omega
  have rest : ∀ col : List Int, n ≤ col.length →
      (∀ j, j < n → subSum n (parOf parent) (fun i => col.getD i 0) j
        = subSum n (parOf parent) (fun i => s.col.getD i 0) j
          - ind (SubO n (parOf parent) (parOf parent (post.getD k 0)) j)) →
      CInv n (parOf parent) pos first (fun u => pos u < k + 1) N k (k + 1) b
        { s with col := col, nbr := s.nbr.set (post.getD k 0) (some k) } := by
    intro col hlen hsum
    refine ⟨hlen, by simpa using hnl, h.llen, h.sp, ?_, h.opt, h.row, ?_, ?_, ?_⟩
    · intro j hj
      dsimp only
      rw [hsum j hj, h.sum j hj]
      symm
      rw [sum_except (u := post.getD k 0) (g := fun u => ind (first u = pos u ∧ Sub n (parOf parent) u j)
        - ind (pos u < k ∧ SubO n (parOf parent) (parOf parent u) j) + ind (Hit n (parOf parent) N u j)) hp]
      · rw [ind_neg (P := pos (post.getD k 0) < k ∧ _) (by rintro ⟨hh, _⟩; omega),
          ind_congr (P := pos (post.getD k 0) < k + 1 ∧ _) (Q := SubO n (parOf parent)
            (parOf parent (post.getD k 0)) j) ⟨fun hh => hh.2, fun hh => ⟨by omega, hh⟩⟩]
        ring
      · intro x hx hne'
        rw [ind_congr (P := pos x < k + 1 ∧ _) (Q := pos x < k ∧ SubO n (parOf parent)
          (parOf parent x) j) (and_congr (hini x hx hne') Iff.rfl)]
    · intro u x hu hN
      obtain ⟨g1, g2, g3⟩ := h.edge u x hu hN
      exact ⟨g1, g2, by omega⟩
    · intro u hu huk hn
      dsimp only at hn
      rw [getD_set_ne (hne u huk)] at hn
      exact h.empty u hu (by omega) hn
    · intro u v hu huk hn
      dsimp only at hn
      rw [getD_set_ne (hne u huk)] at hn
      exact h.last u v hu (by omega) hn
  unfold initializeNode
  rw [rd_getD 0 (by omega), ok_bind, rd_getD none (by omega), ok_bind]
  cases hq : parent.getD (post.getD k 0) none with
  | none =>
    dsimp only
    rw [ok_bind, wr_eq (by omega), ok_bind]
    refine ⟨_, rfl, rest _ hcl ?_⟩
    intro j _
    rw [show parOf parent (post.getD k 0) = none from hq, ind_neg (subO_none _), sub_zero]
  | some q =>
    have hq' := hPO.forest _ q hp hq
    dsimp only
    rw [addAt_eq (by omega), ok_bind, wr_eq (by omega), ok_bind]
    refine ⟨_, rfl, rest _ (by simpa using hcl) ?_⟩
    intro j _
    rw [show parOf parent (post.getD k 0) = some q from hq, ind_congr subO_some,
      subSum_add (c := fun i => s.col.getD i 0) (p := q) (d := -1) hq'.2]
    · ring
    · intro x _
      rw [getD_set_if (by omega)]
      by_cases e : x = q
      · simp [e]
      · rw [if_neg e, if_neg e]

variable {V : Type} {A : Sp V}

theorem countStep_wp (hA : A.PatWF) (hsq : A.rows = A.cols)
    (hPO : PO A.cols (parOf parent) (fun k => post.getD k 0) pos first)
    (hpl : A.cols ≤ parent.length) (hpo : A.cols ≤ post.length)
    {firstA : List (Option Nat)} {level : List Int}
    (hfl : A.cols ≤ firstA.length) (hf : ∀ x, x < A.cols → firstA.getD x none = some (first x))
    (hll : A.cols ≤ level.length)
    (hlev : ∀ x, x < A.cols → level.getD x 0 = height A.cols (parOf parent) x - 1)
    (hsub : ∀ u x, A.LowerEntry u x → x < u → u < A.cols → Sub A.cols (parOf parent) x u)
    {k : Nat} (hk : k < A.cols) {b : Bool} {s : Cnt}
    (h : CInv A.cols (parOf parent) pos first (fun u => pos u < k)
      (fun u x => (A.LowerEntry u x ∧ x < u) ∧ pos x < k) k k b s) :
    wp (countStep A.cols A.p A.i parent post firstA level k s)
      (CInv A.cols (parOf parent) pos first (fun u => pos u < k + 1)
        (fun u x => (A.LowerEntry u x ∧ x < u) ∧ pos x < k + 1) (k + 1) (k + 1) b) := by
  have hp : post.getD k 0 < A.cols := hPO.node_lt k hk
  have hpk : pos (post.getD k 0) = k := hPO.pos_node k hk
  obtain ⟨s1, h1, h2⟩ := initializeNode_wp hPO hpl hpo hk h
  have hcol := Etree.cols_loop hA hp (fun i s =>
      if post.getD k 0 < i then processEdge A.cols firstA level (post.getD k 0) i k s else ok s) s1
  have key := forEach_wp (I := fun pre s => CInv A.cols (parOf parent) pos first (fun u => pos u < k + 1)
      (fun u x => ((A.LowerEntry u x ∧ x < u) ∧ pos x < k) ∨
        (x = post.getD k 0 ∧ u ∈ pre ∧ post.getD k 0 < u)) k (k + 1) b s)
    (f := fun i s =>
      if post.getD k 0 < i then processEdge A.cols firstA level (post.getD k 0) i k s else ok s)
    (A.colRows (post.getD k 0)) [] s1 ?_ ?_
  · obtain ⟨s2, g1, g2⟩ := wp_iff.1 key
    rw [g1] at hcol
    have hl := hA.plen
    rw [rd_getD 0 (by omega), ok_bind, rd_getD 0 (by omega), ok_bind] at hcol
    unfold countStep
    rw [h1, ok_bind]
    dsimp only
    rw [rd_getD 0 (by omega), ok_bind, rd_getD 0 (by omega), ok_bind, hcol, ok_bind]
    refine wp_mono (finalizeNode_wp hPO hpl g2 hp hpk) ?_
    intro s3 h3
    refine h3.congr (fun u => Iff.rfl) ?_
    intro u x
    rw [List.nil_append]
    constructor
    · rintro (⟨⟨a1, a2⟩, a3⟩ | ⟨rfl, a2, a3⟩)
      · exact ⟨⟨a1, a2⟩, by omega⟩
      · exact ⟨⟨⟨hp, a2⟩, a3⟩, by omega⟩
    · rintro ⟨⟨a1, a2⟩, a3⟩
      by_cases e : x = post.getD k 0
      · subst e
        exact Or.inr ⟨rfl, a1.2, a2⟩
      · have : pos x ≠ k := fun hh => e (hPO.pos_inj a1.1 hp (hh.trans hpk.symm))
        exact Or.inl ⟨⟨a1, a2⟩, by omega⟩
  · refine h2.congr (fun u => Iff.rfl) ?_
    intro u x
    simp
  · intro pre i suf s2 he hI
    rw [List.nil_append] at he
    have him : i ∈ A.colRows (post.getD k 0) := by rw [he]; simp
    have hin : i < A.cols := by
      have := hA.range _ hp i him
      omega
    by_cases hlt : post.getD k 0 < i
    · rw [if_pos hlt]
      refine wp_mono (processEdge_wp hPO hfl hf hll hlev hp hpk hin
        (hsub i _ ⟨hp, him⟩ hlt hin) (by omega) hI) ?_
      intro s3 h3
      refine h3.congr (fun u => Iff.rfl) ?_
      intro u x
      unfold addEdge
      simp only [List.mem_append, List.mem_singleton]
      constructor
      · rintro ((hh | ⟨rfl, h4, h5⟩) | ⟨rfl, rfl⟩)
        · exact Or.inl hh
        · exact Or.inr ⟨rfl, Or.inl h4, h5⟩
        · exact Or.inr ⟨rfl, Or.inr rfl, hlt⟩
      · rintro (hh | ⟨rfl, h4 | h4, h5⟩)
        · exact Or.inl (Or.inl hh)
        · exact Or.inl (Or.inr ⟨rfl, h4, h5⟩)
        · exact Or.inr ⟨h4, rfl⟩
    · rw [if_neg hlt, wp_ok]
      refine hI.congr (fun u => Iff.rfl) ?_
      intro u x
      simp only [List.mem_append, List.mem_singleton]
      constructor
      · rintro (hh | ⟨rfl, h4, h5⟩)
        · exact Or.inl hh
        · exact Or.inr ⟨rfl, Or.inl h4, h5⟩
      · rintro (hh | ⟨rfl, h4 | h4, h5⟩)
        · exact Or.inl hh
        · exact Or.inr ⟨rfl, h4, h5⟩
        · subst h4; exact absurd h5 hlt

/-- Adding up the weights from the leaves to the roots. -/
theorem accumulate_wp (hfor : Forest n (parOf parent)) (hpl : n ≤ parent.length) {c0 : List Int}
    (hc : n ≤ c0.length) :
    wp (accumulate n parent c0)
      (fun c => c.length = c0.length ∧
        ∀ x, x < n → c.getD x 0 = subSum n (parOf parent) (fun i => c0.getD i 0) x) := by
  -- the descendants of `x` through the children that have been added
  let S : Nat → Nat → Nat → Prop := fun j x i => i = x ∨ ∃ y, y < j ∧ parOf parent y = some x ∧
    Sub n (parOf parent) i y
  have hfull : ∀ j x i, j ≤ n → x ≤ j → x < n → i < n → (S j x i ↔ Sub n (parOf parent) i x) := by
    intro j x i hjn hxj hx hi
    constructor
    · rintro (rfl | ⟨y, h1, h2, h3⟩)
      · exact Sub.refl _
      · refine h3.trans (Sub.parent (by omega) h2)
    · intro hs
      rcases ReflTransGen.cases_tail hs with h | ⟨y, h1, h2⟩
      · exact Or.inl h.symm
      · have := hfor y x h2.1 h2.2
        exact Or.inr ⟨y, by omega, h2.2, h1⟩
  unfold accumulate
  refine forRange_wp' (I := fun j c => c.length = c0.length ∧ ∀ x, x < n →
    c.getD x 0 = (Finset.range n).sum fun i => c0.getD i 0 * ind (S j x i)) (by omega) ?_ ?_ ?_
  · refine ⟨rfl, ?_⟩
    intro x hx
    rw [sum_except (u := x) (g := fun _ => 0) hx]
    · rw [ind_pos (Or.inl rfl)]; simp
    · intro i _ hne
      rw [ind_neg]
      · ring
      · rintro (h | ⟨y, h, _⟩)
        · exact hne h
        · omega
  · rintro j c _ hj ⟨h1, h2⟩
    rw [rd_getD none (by omega), ok_bind]
    have same : ∀ x i, parOf parent j ≠ some x → (S j x i ↔ S (j + 1) x i) := by
      intro x i hne
      constructor
      · rintro (h | ⟨y, g1, g2, g3⟩)
        · exact Or.inl h
        · exact Or.inr ⟨y, by omega, g2, g3⟩
      · rintro (h | ⟨y, g1, g2, g3⟩)
        · exact Or.inl h
        · have : y ≠ j := by rintro rfl; exact hne g2
          exact Or.inr ⟨y, by omega, g2, g3⟩
    cases hq : parent.getD j none with
    | none =>
      dsimp only
      rw [wp_ok]
      refine ⟨h1, ?_⟩
      intro x hx
      rw [h2 x hx]
      refine Finset.sum_congr rfl ?_
      intro i _
      rw [ind_congr (same x i (by rw [show parOf parent j = none from hq]; simp))]
    | some q =>
      have hjq := hfor j q hj hq
      dsimp only
      rw [rd_getD 0 (by omega), ok_bind, addAt_eq (by omega), wp_ok]
      refine ⟨by simpa using h1, ?_⟩
      intro x hx
      rw [getD_set_if (by omega)]
      by_cases e : x = q
      · subst e
        rw [if_pos rfl, h2 x hx, h2 j hj, ← Finset.sum_add_distrib]
        refine Finset.sum_congr rfl ?_
        intro i hi
        rw [Finset.mem_range] at hi
        rw [← mul_add, ind_congr (hfull j j i (by omega) (le_refl _) hj hi), ← ind_or]
        · congr 1
          refine ind_congr ?_
          constructor
          · rintro ((h | ⟨y, g1, g2, g3⟩) | h)
            · exact Or.inl h
            · exact Or.inr ⟨y, by omega, g2, g3⟩
            · exact Or.inr ⟨j, by omega, hq, h⟩
          · rintro (h | ⟨y, g1, g2, g3⟩)
            · exact Or.inl (Or.inl h)
            · by_cases e : y = j
              · subst e; exact Or.inr g3
              · exact Or.inl (Or.inr ⟨y, by omega, g2, g3⟩)
        · -- the subtrees of two children are disjoint
          rintro ⟨h | ⟨y, g1, g2, g3⟩, g4⟩
          · subst h
            have := g4.le hfor
            omega
          · have hyj : y ≠ j := by omega
            rcases g3.total g4 with h | h
            · obtain ⟨p, _, a1, a2⟩ := h.step hyj
              rw [g2] at a1
              obtain rfl := Option.some.inj a1
              have := a2.le hfor
              omega
            · have := h.le hfor
              omega
      · rw [if_neg e, h2 x hx]
        refine Finset.sum_congr rfl ?_
        intro i _
        rw [ind_congr (same x i (by
          rw [show parOf parent j = some q from hq]
          intro hh
          exact e (Option.some.inj hh).symm))]
  · rintro c ⟨h1, h2⟩
    refine ⟨h1, ?_⟩
    intro x hx
    rw [h2 x hx]
    unfold subSum
    refine Finset.sum_congr rfl ?_
    intro i hi
    rw [Finset.mem_range] at hi
    rw [ind_congr (hfull n x i (le_refl _) (by omega) hx hi)]

/-- The contribution of node `u` to the count of column `j`. -/
theorem ind_fill {par : Nat → Option Nat} {node : Nat → Nat} (hPO : PO n par node pos first)
    {E : Nat → Nat → Prop} (hE : IsEtree E n par) {N : Nat → Nat → Prop}
    (hN : ∀ u x, u < n → (N u x ↔ E u x ∧ x < u)) {u j : Nat} (hu : u < n) (hj : j < n) :
    ind (first u = pos u ∧ Sub n par u j) - ind (pos u < n ∧ SubO n par (par u) j)
      + ind (Hit n par N u j) = ind (u = j ∨ Fill E u j) := by
  have hfor := hPO.forest
  have hchild : ∀ x, N u x → Sub n par x u := by
    intro x hx
    have hx' := (hN u x hu).1 hx
    exact hE.sub hu (Fill.entry hx'.2 hx'.1)
  have hleaf : first u = pos u ↔ ∀ x, ¬ N u x := by
    rw [hPO.first_eq_iff hu]
    constructor
    · intro hc x hx
      have h1 := hchild x hx
      rcases ReflTransGen.cases_tail h1 with e | ⟨c, _, hc'⟩
      · have := ((hN u x hu).1 hx).2; omega
      · exact hc c hc'
    · intro hx c hc
      have := hE.fill hc.1 hc.2
      obtain ⟨_, i, h1, h2, _⟩ := (hE.row hu).1 this
      exact hx i ((hN u i hu).2 ⟨h2, h1⟩)
  have hup : pos u < n ∧ SubO n par (par u) j ↔ Sub n par u j ∧ u ≠ j := by
    rw [subO_par hfor hu]
    exact ⟨fun h => h.2, fun h => ⟨hPO.pos_lt u hu, h⟩⟩
  rw [ind_congr hup]
  by_cases hs : Sub n par u j
  · have hhit : Hit n par N u j ↔ ¬ (first u = pos u ∧ Sub n par u j) := by
      constructor
      · rintro ⟨x, h1, _⟩ ⟨h2, _⟩
        exact hleaf.1 h2 x h1
      · intro h
        have : ¬ ∀ x, ¬ N u x := fun hh => h ⟨hleaf.2 hh, hs⟩
        push Not at this
        obtain ⟨x, hx⟩ := this
        exact ⟨x, hx, (hchild x hx).trans hs⟩
    have hone : ind (first u = pos u ∧ Sub n par u j) + ind (Hit n par N u j) = 1 := by
      by_cases h : first u = pos u ∧ Sub n par u j
      · rw [ind_pos h, ind_neg (fun hh => hhit.1 hh h)]; rfl
      · rw [ind_neg h, ind_pos (hhit.2 h)]; rfl
    by_cases e : u = j
    · rw [ind_neg (P := Sub n par u j ∧ u ≠ j) (fun hh => hh.2 e), ind_pos (P := u = j ∨ _) (Or.inl e)]
      linarith
    · rw [ind_pos (P := Sub n par u j ∧ u ≠ j) ⟨hs, e⟩, ind_neg (P := u = j ∨ _)]
      · linarith
      · rintro (h | h)
        · exact e h
        · have := h.lt; have := hs.le hfor; omega
  · rw [ind_neg (P := first u = pos u ∧ _) (fun hh => hs hh.2), ind_neg (P := Sub n par u j ∧ _)
      (fun hh => hs hh.1), ind_congr (P := u = j ∨ _) (Q := Hit n par N u j)]
    · ring
    · constructor
      · rintro (h | h)
        · subst h; exact absurd (Sub.refl _) hs
        · obtain ⟨_, i, h1, h2, h3⟩ := (hE.row hu).1 h
          exact ⟨i, (hN u i hu).2 ⟨h2, h1⟩, h3⟩
      · rintro ⟨x, h1, h2⟩
        refine Or.inr ((hE.row hu).2 ?_)
        have h3 := (hN u x hu).1 h1
        refine ⟨?_, x, h3.2, h3.1, h2⟩
        rcases (hchild x h1).total h2 with h | h
        · exact absurd h hs
        · have := h.le hfor
          have : u ≠ j := by rintro rfl; exact hs (Sub.refl _)
          omega

/-- The number of non-zeros of row `u`. -/
theorem row_fill {par : Nat → Option Nat} {node : Nat → Nat} (hPO : PO n par node pos first)
    {E : Nat → Nat → Prop} (hE : IsEtree E n par) {N : Nat → Nat → Prop}
    (hN : ∀ u x, u < n → (N u x ↔ E u x ∧ x < u)) {u : Nat} (hu : u < n) :
    1 + (Finset.range n).sum (fun j => ind (Hit n par N u j ∧ ¬ Sub n par u j))
      = ((factorRow E n u).length : Int) := by
  classical
  have hfor := hPO.forest
  have : ((factorRow E n u).length : Int) = (Finset.range n).sum fun j => ind (j = u ∨ Fill E u j) := by
    rw [sum_ind_filter]
    unfold factorRow
    congr!
  rw [this, sum_except (u := u) (f := fun j => ind (j = u ∨ Fill E u j))
    (g := fun j => ind (Hit n par N u j ∧ ¬ Sub n par u j)) hu]
  · rw [ind_pos (Or.inl rfl), ind_neg (fun hh => hh.2 (Sub.refl _))]; ring
  · intro j hj hne
    refine ind_congr ?_
    constructor
    · rintro (h | h)
      · exact absurd h hne
      · obtain ⟨h0, i, h1, h2, h3⟩ := (hE.row hu).1 h
        exact ⟨⟨i, (hN u i hu).2 ⟨h2, h1⟩, h3⟩, fun hs => by have := hs.le hfor; omega⟩
    · rintro ⟨⟨x, h1, h2⟩, h3⟩
      have h4 := (hN u x hu).1 h1
      have h5 := hE.sub hu (Fill.entry h4.2 h4.1)
      refine Or.inr ((hE.row hu).2 ⟨?_, x, h4.2, h4.1, h2⟩)
      rcases h5.total h2 with h | h
      · exact absurd h h3
      · have := h.le hfor; omega

theorem rowColCounts_wp (hA : A.PatWF) (hsq : A.rows = A.cols) {stype : Int} (hst : stype < 0)
    (hPO : PO A.cols (parOf parent) (fun k => post.getD k 0) pos first)
    (hE : IsEtree A.LowerEntry A.cols (parOf parent))
    (hpl : A.cols ≤ parent.length) (hpo : A.cols ≤ post.length) {row : Option (List Int)}
    (hrow : ∀ r, row = some r → A.cols ≤ r.length) {col : List Int} (hcol : A.cols ≤ col.length)
    {firstA : List (Option Nat)} (hfirst : A.cols ≤ firstA.length) {level : List Int}
    (hlevel : A.cols ≤ level.length) :
    ∃ r, rowColCounts A.cols stype A.p A.i parent post row col firstA level = ok (some r) ∧
      A.cols ≤ r.col.length ∧
      (∀ j, j < A.cols → r.col.getD j 0 = ((factorCol A.LowerEntry A.cols j).length : Int)) ∧
      r.row.isSome = row.isSome ∧
      (∀ rc, r.row = some rc → A.cols ≤ rc.length ∧ ∀ u, u < A.cols →
        rc.getD u 0 = ((factorRow A.LowerEntry A.cols u).length : Int)) ∧
      (∀ x, x < A.cols → r.first.getD x none = some (first x)) ∧
      (∀ x, x < A.cols → r.level.getD x 0 = height A.cols (parOf parent) x - 1) ∧
      r.fl = (Finset.range A.cols).sum fun j =>
        ((factorCol A.LowerEntry A.cols j).length : Int) * (factorCol A.LowerEntry A.cols j).length := by
  classical
  have hfor := hPO.forest
  -- `First` is cleared
  have h1 := forRange_wp (I := fun i (f : List (Option Nat)) => A.cols ≤ f.length ∧
      ∀ x, x < i → f.getD x none = none) (lo := 0) (hi := A.cols) (f := fun i f => wr f i none)
    (s := firstA) (by omega) ⟨hfirst, fun x hx => by omega⟩ (by
      rintro i f _ hi ⟨g1, g2⟩
      rw [wr_eq (by omega), wp_ok]
      refine ⟨by simpa using g1, ?_⟩
      intro x hx
      rw [getD_set_if (by omega)]
      by_cases e : x = i
      · rw [if_pos e]
      · rw [if_neg e]; exact g2 x (by omega))
  obtain ⟨f1, e1, l1, c1⟩ := wp_iff.1 h1
  -- first traversal
  have h2 := forRange_wp (I := fun k s => WInv A.cols parent pos first k s) (lo := 0) (hi := A.cols)
    (f := walkStep A.cols parent post) (s := ⟨f1, level, col⟩) (by omega)
    ⟨l1, hlevel, hcol, fun x hx => by rw [if_neg (by omega)]; exact c1 x hx, fun x _ h => by omega,
      fun x _ h => by omega⟩
    (fun k s _ hk hs => walkStep_wp hPO hpl hpo hk hs)
  obtain ⟨w, e2, w1⟩ := wp_iff.1 h2
  have hfirst' : ∀ x, x < A.cols → first x < A.cols := by
    intro x hx
    have := hPO.first_le hx
    have := hPO.pos_lt x hx
    omega
  have wf : ∀ x, x < A.cols → w.first.getD x none = some (first x) := by
    intro x hx
    rw [w1.fst x hx, if_pos (hfirst' x hx)]
  have wl : ∀ x, x < A.cols → w.level.getD x 0 = height A.cols (parOf parent) x - 1 :=
    fun x hx => w1.lev x hx (hfirst' x hx)
  -- the row counts start at 1
  have h3 : ∃ row1, rowOnes A.cols row = ok row1 ∧ row1.isSome = row.isSome ∧
      ∀ r, row1 = some r → A.cols ≤ r.length ∧ ∀ u, u < A.cols → r.getD u 0 = 1 := by
    cases row with
    | none => exact ⟨none, rfl, rfl, by simp⟩
    | some row =>
      have hr := hrow row rfl
      have := forRange_wp (I := fun i (f : List Int) => A.cols ≤ f.length ∧
          ∀ x, x < i → f.getD x 0 = 1) (lo := 0) (hi := A.cols) (f := fun i f => wr f i 1)
        (s := row) (by omega) ⟨hr, fun x hx => by omega⟩ (by
          rintro i f _ hi ⟨g1, g2⟩
          rw [wr_eq (by omega), wp_ok]
          refine ⟨by simpa using g1, ?_⟩
          intro x hx
          rw [getD_set_if (by omega)]
          by_cases e : x = i
          · rw [if_pos e]
          · rw [if_neg e]; exact g2 x (by omega))
      obtain ⟨r1, g1, g2⟩ := wp_iff.1 this
      refine ⟨some r1, ?_, rfl, ?_⟩
      · unfold rowOnes; dsimp only; rw [g1, ok_bind]
      · rintro _ ⟨⟩; exact g2
  obtain ⟨row1, e3, r1, r2⟩ := h3
  -- second traversal
  have h4 := forRange_wp (I := fun k s => CInv A.cols (parOf parent) pos first (fun u => pos u < k)
      (fun u x => (A.LowerEntry u x ∧ x < u) ∧ pos x < k) k k row.isSome s) (lo := 0) (hi := A.cols)
    (f := countStep A.cols A.p A.i parent post w.first w.level)
    (s := ⟨w.col, List.replicate A.cols none, List.replicate A.cols none, List.range A.cols, row1⟩)
    (by omega) ?_
    (fun k s _ hk hs => countStep_wp hA hsq hPO hpl hpo w1.fl wf w1.ll wl
      (fun u x h hlt hu => hE.sub hu (Fill.entry hlt h)) hk hs)
  · obtain ⟨s, e4, s1⟩ := wp_iff.1 h4
    have hN : ∀ u x, u < A.cols → ((A.LowerEntry u x ∧ x < u) ∧ pos x < A.cols ↔
        A.LowerEntry u x ∧ x < u) := by
      intro u x _
      exact ⟨fun h => h.1, fun h => ⟨h, hPO.pos_lt x h.1.1⟩⟩
    obtain ⟨c, e5, a1, a2⟩ := wp_iff.1 (accumulate_wp hfor hpl s1.clen)
    have hcount : ∀ j, j < A.cols → c.getD j 0 = ((factorCol A.LowerEntry A.cols j).length : Int) := by
      intro j hj
      rw [a2 j hj, s1.sum j hj]
      have : ((factorCol A.LowerEntry A.cols j).length : Int)
          = (Finset.range A.cols).sum fun u => ind (u = j ∨ Fill A.LowerEntry u j) := by
        rw [sum_ind_filter]
        unfold factorCol
        congr!
      rw [this]
      refine Finset.sum_congr rfl ?_
      intro u hu
      rw [Finset.mem_range] at hu
      exact ind_fill hPO hE hN hu hj
    have hcl := s1.clen
    have h6 := forRange_wp (I := fun m (fl : Int) => fl = (Finset.range m).sum fun j =>
        ((factorCol A.LowerEntry A.cols j).length : Int) * (factorCol A.LowerEntry A.cols j).length)
      (lo := 0) (hi := A.cols) (f := fun j fl => do
        let x ← rd c j
        ok (fl + x * x)) (s := 0) (by omega) (by simp) (by
        intro j fl _ hj hfl
        rw [rd_getD 0 (by omega), ok_bind, wp_ok, Finset.sum_range_succ, hcount j hj, hfl])
    obtain ⟨fl, e6, f2⟩ := wp_iff.1 h6
    refine ⟨⟨c, s.row, w.first, w.level, fl⟩, ?_, by dsimp only; omega, hcount, ?_, ?_, wf, wl, f2⟩
    · unfold rowColCounts
      rw [if_neg (by omega), e1, ok_bind, e2, ok_bind, e3, ok_bind, e4, ok_bind, e5, ok_bind, e6, ok_bind]
    · exact s1.opt
    · intro rc hrc
      obtain ⟨g1, g2⟩ := s1.row rc hrc
      refine ⟨g1, ?_⟩
      intro u hu
      rw [g2 u hu]
      exact row_fill hPO hE hN hu
  · have hnoN : ∀ u x, ¬ ((A.LowerEntry u x ∧ x < u) ∧ pos x < 0) := by rintro u x ⟨_, h⟩; omega
    have hnoH : ∀ u j, ¬ Hit A.cols (parOf parent)
        (fun u x => (A.LowerEntry u x ∧ x < u) ∧ pos x < 0) u j := by
      rintro u j ⟨x, h, _⟩
      exact hnoN u x h
    refine ⟨w1.cl, by simp, by simp, ⟨by simp, ?_, ?_⟩, ?_, r1, ?_, ?_, ?_, ?_⟩
    · intro x hx _
      simp [hx]
    · intro x _ h; omega
    · intro j hj
      dsimp only
      unfold subSum
      refine Finset.sum_congr rfl ?_
      intro u hu
      rw [Finset.mem_range] at hu
      rw [ind_neg (hnoH u j), ind_neg (P := pos u < 0 ∧ _) (fun hh => by have := hh.1; omega),
        show (fun i => w.col.getD i 0) u = _ from w1.col u hu (hPO.pos_lt u hu)]
      by_cases h : first u = pos u
      · rw [if_pos h, ind_congr (P := first u = pos u ∧ _) ⟨fun hh => hh.2, fun hh => ⟨h, hh⟩⟩]; ring
      · rw [if_neg h, ind_neg (P := first u = pos u ∧ _) (fun hh => h hh.1)]; ring
    · intro r hr
      obtain ⟨g1, g2⟩ := r2 r hr
      refine ⟨g1, ?_⟩
      intro u hu
      rw [g2 u hu, Finset.sum_eq_zero]
      · rfl
      · intro j _
        exact ind_neg (fun hh => hnoH u j hh.1)
    · intro u x _ h
      exact absurd h (hnoN u x)
    · intro u hu _ _
      exact ⟨getD_replicate _ _ _ _ hu, hnoN u⟩
    · intro u v hu _ h
      dsimp only at h
      rw [getD_replicate _ _ _ _ hu] at h
      cases h

end LFactor
end Verif
