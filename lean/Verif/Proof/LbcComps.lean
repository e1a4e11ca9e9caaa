import Verif.Proof.LbcDfs

/-! # The components of a window in the sequential LBC inspector -/

namespace Verif.Lbc
open Res Csc LevelSet Hdagg

variable {g : Csc} {L : Nat} {ptr set ntl : List Nat}

theorem rdZ_nat {α : Type} {l : List α} {k : Nat} (d : α) (h : k < l.length) :
    rdZ l (k : Int) = ok (l.getD k d) := by
  unfold rdZ
  rw [if_neg (by omega), Int.toNat_natCast, rd_getD d h]

theorem wrZ_nat {α : Type} {l : List α} {k : Nat} (v : α) (h : k < l.length) :
    wrZ l (k : Int) v = ok (l.set k v) := by
  unfold wrZ
  rw [if_neg (by omega), Int.toNat_natCast, wr_eq h]

/-! ### `make_unique` -/

theorem makeUnique_wp {n B : Nat} {lab : List Int} (hlab : lab.length = n) (hBn : B ≤ n)
    (hB : B ≤ intMax) {list : List Nat} (hl : ∀ x ∈ list, x < n ∧ 0 ≤ lab.getD x 0 ∧ lab.getD x 0 < B) :
    wp (makeUnique lab list (List.replicate n false)) (fun r =>
      (∀ x ∈ r.1, x ∈ list) ∧ (∀ x ∈ list, ∃ y ∈ r.1, lab.getD y 0 = lab.getD x 0) ∧
      (r.1 ≠ [] → ∃ y ∈ r.1, lab.getD y 0 = (r.2.1 : Int)) ∧ r.2.2 = List.replicate n false) := by
  unfold makeUnique
  rw [wp_bind]
  have key := forEach_wp (fun p (s : List Nat × Nat × List Bool) =>
      (∀ x ∈ s.1, x ∈ p) ∧ (∀ x ∈ p, ∃ y ∈ s.1, lab.getD y 0 = lab.getD x 0) ∧
      ((s.1 = [] ∧ s.2.1 = intMax) ∨ ∃ y ∈ s.1, lab.getD y 0 = (s.2.1 : Int)) ∧ s.2.2.length = n ∧
      ∀ t, t < n → (s.2.2.getD t false = true ↔ ∃ y ∈ s.1, lab.getD y 0 = (t : Int)))
    (f := uniqueStep lab) list [] ([], intMax, List.replicate n false) ?_ ?_
  · refine wp_mono key ?_
    rintro ⟨kept, mn, ws⟩ ⟨h1, h2, h3, h4, h5⟩
    rw [List.nil_append] at h1 h2
    dsimp only at h1 h2 h3 h4 h5 ⊢
    rw [wp_bind]
    have key2 := forEach_wp (fun p (ws' : List Bool) => ws'.length = n ∧
        ∀ t, t < n → ws'.getD t false = true → ∃ y ∈ kept, y ∉ p ∧ lab.getD y 0 = (t : Int))
      (f := fun x ws => do
        let t ← rd lab x
        wrZ ws t false) kept [] ws ⟨h4, fun t ht h => ?_⟩ ?_
    · refine wp_mono key2 ?_
      rintro ws' ⟨k1, k2⟩
      rw [wp_ok]
      refine ⟨h1, h2, ?_, ?_⟩
      · intro hne
        rcases h3 with ⟨h, -⟩ | h
        · exact absurd h hne
        · exact h
      · dsimp only
        apply List.ext_getElem?
        intro t
        rcases Nat.lt_or_ge t n with ht | ht
        · rw [getElem?_getD false (by omega), List.getElem?_replicate, if_pos ht]
          congr 1
          by_contra hc
          obtain ⟨y, hy, hy2, -⟩ := k2 t ht (by simpa using hc)
          exact hy2 (by simpa using hy)
        · rw [List.getElem?_eq_none (by omega), List.getElem?_eq_none (by simpa using ht)]
    · obtain ⟨y, hy, hy2⟩ := (h5 t ht).1 h
      exact ⟨y, hy, by simp, hy2⟩
    · rintro p x q ws' he ⟨k1, k2⟩
      rw [List.nil_append] at he
      have hx := hl x (h1 x (by rw [he]; simp))
      obtain ⟨t, ht⟩ : ∃ t : Nat, lab.getD x 0 = t := ⟨(lab.getD x 0).toNat, by omega⟩
      rw [rd_getD 0 (by omega), ok_bind, ht, wrZ_nat _ (by omega), wp_ok]
      refine ⟨by simpa using k1, ?_⟩
      intro t' ht' hw
      rw [getD_set] at hw
      split at hw
      · cases hw
      · rename_i hne
        obtain ⟨y, hy, hy2, hy3⟩ := k2 t' ht' hw
        refine ⟨y, hy, ?_, hy3⟩
        rw [List.mem_append, List.mem_singleton]
        rintro (hc | rfl)
        · exact hy2 hc
        · apply hne
          omega
  · refine ⟨by simp, by simp, .inl ⟨rfl, rfl⟩, by simp, ?_⟩
    intro t ht
    dsimp only
    rw [getD_replicate _ _ _ _ ht]
    simp
  · rintro p x q ⟨kept, mn, ws⟩ he ⟨h1, h2, h3, h4, h5⟩
    rw [List.nil_append] at he
    dsimp only at h1 h2 h3 h4 h5 ⊢
    have hx := hl x (by rw [he]; simp)
    obtain ⟨t, ht⟩ : ∃ t : Nat, lab.getD x 0 = t := ⟨(lab.getD x 0).toNat, by omega⟩
    unfold uniqueStep
    dsimp only
    rw [rd_getD 0 (by omega), ok_bind, ht, rdZ_nat false (by omega), ok_bind]
    have hiff := h5 t (by omega)
    by_cases hw : ws.getD t false = true
    · rw [if_neg (by rw [hw]; decide), wp_ok]
      refine ⟨fun y hy => by simp [h1 y hy], ?_, h3, h4, h5⟩
      intro y hy
      rcases List.mem_append.1 hy with hy | hy
      · exact h2 y hy
      · rw [List.mem_singleton] at hy
        subst hy
        obtain ⟨z, hz, hz2⟩ := hiff.1 hw
        exact ⟨z, hz, by rw [hz2, ht]⟩
    · rw [if_pos (by simpa using hw), wrZ_nat _ (by omega), ok_bind, wp_ok]
      refine ⟨?_, ?_, .inr ?_, by simpa using h4, ?_⟩
      · intro y hy
        rcases List.mem_append.1 hy with hy | hy
        · simp [h1 y hy]
        · simp at hy; simp [hy]
      · intro y hy
        rcases List.mem_append.1 hy with hy | hy
        · obtain ⟨z, hz, hz2⟩ := h2 y hy
          exact ⟨z, by simp [hz], hz2⟩
        · rw [List.mem_singleton] at hy
          subst hy
          exact ⟨y, by simp, rfl⟩
      · dsimp only
        by_cases hm : (mn : Int) > (t : Int)
        · rw [if_pos hm]
          exact ⟨x, by simp, by rw [ht]; simp⟩
        · rw [if_neg hm]
          rcases h3 with ⟨-, h⟩ | ⟨y, hy, hy2⟩
          · omega
          · exact ⟨y, by simp [hy], hy2⟩
      · intro t' ht'
        dsimp only
        rw [getD_set]
        by_cases htt : t' = t
        · subst htt
          rw [if_pos ⟨rfl, by omega⟩]
          simp only [true_iff]
          exact ⟨x, by simp, ht⟩
        · rw [if_neg (by omega), h5 t' ht']
          constructor
          · rintro ⟨y, hy, hy2⟩
            exact ⟨y, by simp [hy], hy2⟩
          · rintro ⟨y, hy, hy2⟩
            rcases List.mem_append.1 hy with hy | hy
            · exact ⟨y, hy, hy2⟩
            · rw [List.mem_singleton] at hy
              subst hy
              omega

/-! ### Relabelling -/

theorem relabel_wp {n mn : Nat} {lab : List Int} (hlab : lab.length = n) {clash : List Nat}
    (hl : ∀ x ∈ clash, x < n) :
    wp (relabel n mn clash lab) (fun lab' => lab'.length = n ∧
      ∀ x, x < n → lab'.getD x 0 =
        if ∃ y ∈ clash, lab.getD y 0 = lab.getD x 0 then (mn : Int) else lab.getD x 0) := by
  unfold relabel
  have key := forEach_wp (fun p (lab' : List Int) => lab'.length = n ∧
      ∀ x, x < n → lab'.getD x 0 =
        if ∃ y ∈ p, lab.getD y 0 = lab.getD x 0 then (mn : Int) else lab.getD x 0)
    (f := fun x lab => do
      let tn ← rd lab x
      if tn ≠ (mn : Int) then
        forRange 0 n (fun i lab => do
          let v ← rd lab i
          if v = tn then wr lab i mn else ok lab) lab
      else ok lab) clash [] lab ⟨hlab, by simp⟩ ?_
  · simpa using key
  · rintro p a q lab' he ⟨h1, h2⟩
    rw [List.nil_append] at he
    have ha := hl a (by rw [he]; simp)
    rw [rd_getD 0 (by omega), ok_bind]
    have hsplit : ∀ x, (∃ y ∈ p ++ [a], lab.getD y 0 = lab.getD x 0) ↔
        (∃ y ∈ p, lab.getD y 0 = lab.getD x 0) ∨ lab.getD a 0 = lab.getD x 0 := by
      intro x
      constructor
      · rintro ⟨y, hy, hy2⟩
        rcases List.mem_append.1 hy with hy | hy
        · exact .inl ⟨y, hy, hy2⟩
        · rw [List.mem_singleton] at hy
          subst hy
          exact .inr hy2
      · rintro (⟨y, hy, hy2⟩ | h)
        · exact ⟨y, by simp [hy], hy2⟩
        · exact ⟨a, by simp, h⟩
    have hla := h2 a ha
    by_cases htn : lab'.getD a 0 = (mn : Int)
    · rw [if_neg (by simpa using htn), wp_ok]
      refine ⟨h1, fun x hx => ?_⟩
      rw [h2 x hx]
      by_cases hp : ∃ y ∈ p, lab.getD y 0 = lab.getD x 0
      · rw [if_pos hp, if_pos ((hsplit x).2 (.inl hp))]
      · rw [if_neg hp]
        by_cases hax : lab.getD a 0 = lab.getD x 0
        · rw [if_pos ((hsplit x).2 (.inr hax))]
          rw [htn, hax, if_neg hp] at hla
          exact hla.symm
        · rw [if_neg (fun h => ((hsplit x).1 h).elim hp hax)]
    · rw [if_pos htn]
      have hpa : ¬ ∃ y ∈ p, lab.getD y 0 = lab.getD a 0 := by
        intro hc
        rw [if_pos hc] at hla
        exact htn hla
      rw [if_neg hpa] at hla
      refine forRange_wp' (fun k (l : List Int) => l.length = n ∧ ∀ x, x < n → l.getD x 0 =
          if x < k ∧ lab'.getD x 0 = lab'.getD a 0 then (mn : Int) else lab'.getD x 0) (Nat.zero_le _) ?_ ?_ ?_
      · exact ⟨h1, by simp⟩
      · rintro k l _ hk ⟨k1, k2⟩
        have hkk := k2 k hk
        rw [if_neg (by omega)] at hkk
        rw [rd_getD 0 (by omega), ok_bind, hkk]
        by_cases hc : lab'.getD k 0 = lab'.getD a 0
        · rw [if_pos hc, wr_eq (by omega), wp_ok]
          refine ⟨by simpa using k1, fun x hx => ?_⟩
          rw [getD_set]
          by_cases hxk : x = k
          · subst hxk
            rw [if_pos ⟨rfl, by omega⟩, if_pos ⟨by omega, hc⟩]
          · rw [if_neg (by omega), k2 x hx]
            by_cases h3 : x < k ∧ lab'.getD x 0 = lab'.getD a 0
            · rw [if_pos h3, if_pos ⟨by omega, h3.2⟩]
            · rw [if_neg h3, if_neg (fun h => h3 ⟨by omega, h.2⟩)]
        · rw [if_neg hc, wp_ok]
          refine ⟨k1, fun x hx => ?_⟩
          rw [k2 x hx]
          by_cases h3 : x < k ∧ lab'.getD x 0 = lab'.getD a 0
          · rw [if_pos h3, if_pos ⟨by omega, h3.2⟩]
          · rw [if_neg h3, if_neg]
            rintro ⟨h4, h5⟩
            by_cases hxk : x = k
            · subst hxk; exact hc h5
            · exact h3 ⟨by omega, h5⟩
      · rintro l ⟨k1, k2⟩
        refine ⟨k1, fun x hx => ?_⟩
        rw [k2 x hx, h2 x hx, hla]
        by_cases hp : ∃ y ∈ p, lab.getD y 0 = lab.getD x 0
        · rw [if_pos hp, if_pos ((hsplit x).2 (.inl hp))]
          split <;> rfl
        · rw [if_neg hp]
          by_cases hax : lab.getD a 0 = lab.getD x 0
          · rw [if_pos ⟨hx, hax.symm⟩, if_pos ((hsplit x).2 (.inr hax))]
          · rw [if_neg (fun h => hax h.2.symm), if_neg (fun h => ((hsplit x).1 h).elim hp hax)]

/-! ### Labelling the found nodes -/

section
variable {K : Type} [Add K]

theorem setComp_wp {n d c top : Nat} {nodeCost : List K} {xi : List Nat} (hxi : xi.length = n)
    (htop : top ≤ n) (hntl : ntl.length = n) (hcost : nodeCost.length = n) (hc : c < n)
    (hmem : ∀ v ∈ xi.drop top, v < n) {lab marked : List Int} {out : List K} (hlab : lab.length = n)
    (hm : marked.length = n) (ho : out.length = n) :
    wp (setComp ntl d c n top nodeCost xi (lab, marked, out)) (fun r => r.1.length = n ∧
      r.2.1.length = n ∧ r.2.2.length = n ∧
      (∀ x, r.1.getD x 0 = if x ∈ xi.drop top then (c : Int) else lab.getD x 0) ∧
      ∀ x, r.2.1.getD x 0 = if x ∈ xi.drop top ∧ ntl.getD x 0 ≠ d then -1 else marked.getD x 0) := by
  unfold setComp forRange
  rw [forRange_rd xi (fun x s => do
    let lab ← wr s.1 x (c : Int)
    let o ← rd s.2.2 c
    let w ← rd nodeCost x
    let out ← wr s.2.2 c (o + w)
    let lv ← rd ntl x
    let marked ← (if lv ≠ d then wr s.2.1 x (-1) else ok s.2.1)
    ok (lab, marked, out)) _ _ _ (by omega)]
  have htk : (xi.drop top).take (n - top) = xi.drop top := List.take_of_length_le (by simp; omega)
  rw [htk]
  have key := forEach_wp (fun p (r : List Int × List Int × List K) => r.1.length = n ∧
      r.2.1.length = n ∧ r.2.2.length = n ∧
      (∀ x, r.1.getD x 0 = if x ∈ p then (c : Int) else lab.getD x 0) ∧
      ∀ x, r.2.1.getD x 0 = if x ∈ p ∧ ntl.getD x 0 ≠ d then -1 else marked.getD x 0)
    (f := fun x (s : List Int × List Int × List K) => do
    let lab ← wr s.1 x (c : Int)
    let o ← rd s.2.2 c
    let w ← rd nodeCost x
    let out ← wr s.2.2 c (o + w)
    let lv ← rd ntl x
    let marked ← (if lv ≠ d then wr s.2.1 x (-1) else ok s.2.1)
    ok (lab, marked, out)) (xi.drop top) [] (lab, marked, out) ⟨hlab, hm, ho, by simp, by simp⟩ ?_
  · rw [List.nil_append] at key
    exact key
  · rintro p a q ⟨l, m, o⟩ he ⟨h1, h2, h3, h4, h5⟩
    rw [List.nil_append] at he
    dsimp only at h1 h2 h3 h4 h5 ⊢
    have ha := hmem a (by rw [he]; simp)
    have hl' : ∀ x, (l.set a (c : Int)).getD x 0 = if x ∈ p ++ [a] then (c : Int) else lab.getD x 0 := by
      intro x
      rw [getD_set]
      by_cases hxa : x = a
      · subst hxa
        rw [if_pos ⟨rfl, by omega⟩, if_pos (by simp)]
      · rw [if_neg (by omega), h4 x]
        simp only [List.mem_append, List.mem_singleton, hxa, or_false]
    rw [wr_eq (by omega), ok_bind, rd_eq (by omega), ok_bind, rd_eq (by omega), ok_bind,
      wr_eq (by omega), ok_bind, rd_getD 0 (by omega), ok_bind]
    by_cases hd : ntl.getD a 0 = d
    · rw [if_neg (by simpa using hd), ok_bind, wp_ok]
      refine ⟨by simpa using h1, h2, by simpa using h3, hl', ?_⟩
      intro x
      dsimp only
      rw [h5 x]
      by_cases hxa : x = a
      · subst hxa
        rw [if_neg (fun h => h.2 hd), if_neg (fun h => h.2 hd)]
      · simp only [List.mem_append, List.mem_singleton, hxa, or_false]
    · rw [if_pos hd, wr_eq (by omega), ok_bind, wp_ok]
      refine ⟨by simpa using h1, by simpa using h2, by simpa using h3, hl', ?_⟩
      intro x
      dsimp only
      rw [getD_set]
      by_cases hxa : x = a
      · subst hxa
        rw [if_pos ⟨rfl, by omega⟩, if_pos ⟨by simp, hd⟩]
      · rw [if_neg (by omega), h5 x]
        simp only [List.mem_append, List.mem_singleton, hxa, or_false]

/-! ### One leaf -/

/-- The nodes `R` of the window `W` are in components. -/
structure CInv (g : Csc) (ntl W : List Nat) (d done : Nat) (R : List Nat) (s : Comps K) : Prop where
  labLen : s.lab.length = g.n
  mLen : s.marked.length = g.n
  oLen : s.outCost.length = g.n
  xiLen : s.xi.length = g.n
  psLen : s.ps.length = g.n
  uniq : s.uniq = List.replicate g.n false
  sub : ∀ v ∈ R, v ∈ W
  closed : ∀ u v, g.Dep u v → u ∈ R → v ∈ W → v ∈ R
  mark : ∀ v ∈ W, s.marked.getD v 0 = if v ∈ R then (if ntl.getD v 0 = d then 1 else -1) else 0
  above : ∀ v, v < g.n → v ∉ W → d ≤ ntl.getD v 0 → s.marked.getD v 0 = 1
  range : ∀ v ∈ R, 0 ≤ s.lab.getD v 0 ∧ s.lab.getD v 0 < s.cc
  same : ∀ u v, g.Dep u v → u ∈ R → v ∈ R → s.lab.getD u 0 = s.lab.getD v 0
  count : s.cc ≤ done

/-- A leaf after the search. -/
def leafRest (n : Nat) (node2Level : List Nat) (dfsLevel : Nat) (nodeCost : List K) (s : Comps K)
    (d : Dfs) : Res (Comps K) := do
  let u ← makeUnique s.lab d.clash s.uniq
  if u.1.length ≠ 0 then do
    let lab ← relabel n u.2.1 u.1 s.lab
    let r ← setComp node2Level dfsLevel u.2.1 n d.top nodeCost d.xi (lab, d.marked, s.outCost)
    ok ⟨r.1, r.2.1, r.2.2, s.cc, d.xi, d.ps, u.2.2⟩
  else do
    let r ← setComp node2Level dfsLevel s.cc n d.top nodeCost d.xi (s.lab, d.marked, s.outCost)
    ok ⟨r.1, r.2.1, r.2.2, s.cc + 1, d.xi, d.ps, u.2.2⟩

omit [Add K] in
theorem found_clash {W : List Nat} {d done : Nat} {R : List Nat} {s : Comps K}
    (h : CInv g ntl W d done R s) {Pr : Nat → Prop} (hP : ∀ v, Pr v → d ≤ ntl.getD v 0) {leaf : Nat} {D : Dfs}
    (hD : Found g s.marked Pr leaf D) : ∀ x ∈ D.clash, x ∈ R := by
  intro x hx
  obtain ⟨x1, x2, x3⟩ := hD.clash x hx
  have hxW : x ∈ W := by
    by_contra hc
    rw [h.above x x1 hc (hP x x3)] at x2
    cases x2
  by_contra hc
  rw [h.mark x hxW, if_neg hc] at x2
  cases x2

theorem leafRest_wp (hwf : g.WF) (hO : LevelOk g L ptr set ntl) {W : List Nat} {d done : Nat}
    (hW : ∀ v ∈ W, v < g.n ∧ d ≤ ntl.getD v 0) (hn : g.n ≤ intMax) (hdn : done < g.n)
    {nodeCost : List K} (hcost : nodeCost.length = g.n) {R : List Nat} {s : Comps K}
    (h : CInv g ntl W d done R s) {Pr : Nat → Prop} (hP : ∀ v, Pr v → d ≤ ntl.getD v 0) {leaf : Nat} {D : Dfs}
    (hD : Found g s.marked Pr leaf D) :
    wp (leafRest g.n ntl d nodeCost s D) (fun s' => ∃ R', (∀ v ∈ R, v ∈ R') ∧ leaf ∈ R' ∧
      CInv g ntl W d (done + 1) R' s') := by
  unfold leafRest
  have hout : ∀ v ∈ D.xi.drop D.top, v ∈ W ∧ v ∉ R := by
    intro v hv
    obtain ⟨v1, v2, v3⟩ := hD.mem v hv
    have hvW : v ∈ W := by
      by_contra hc
      rw [h.above v v1 hc (hP v v3)] at v2
      cases v2
    refine ⟨hvW, fun hc => ?_⟩
    rw [h.mark v hvW, if_pos hc] at v2
    split at v2 <;> cases v2
  have hclash := found_clash h hP hD
  have hcl : ∀ u v, g.Dep u v → u ∈ R ++ D.xi.drop D.top → v ∈ W → v ∈ R ++ D.xi.drop D.top := by
    intro u v hd hu hv
    rcases List.mem_append.1 hu with hu | hu
    · exact List.mem_append_left _ (h.closed u v hd hu hv)
    · rcases hD.done u hu v hd.2.1 with h1 | ⟨h1, -⟩
      · exact List.mem_append_right _ h1
      · by_cases hvR : v ∈ R
        · exact List.mem_append_left _ hvR
        · rw [h.mark v hv, if_neg hvR] at h1
          exact absurd rfl h1
  have hsub : ∀ v ∈ R ++ D.xi.drop D.top, v ∈ W := by
    intro v hv
    rcases List.mem_append.1 hv with hv | hv
    · exact h.sub v hv
    · exact (hout v hv).1
  have hmemn : ∀ v ∈ D.xi.drop D.top, v < g.n := fun v hv => (hD.mem v hv).1
  have hedge : ∀ u v, g.Dep u v → u ∈ D.xi.drop D.top → v ∈ R → v ∈ D.clash := by
    intro u v hd hu hv
    rcases hD.done u hu v hd.2.1 with h1 | ⟨-, h1⟩
    · exact absurd hv (hout v h1).2
    · apply h1
      have h2 := LevelOk.dep_lt hwf hO hd
      have h3 := (hW u (hout u hu).1).2
      rw [h.mark v (h.sub v hv), if_pos hv, if_neg (by omega)]
  have hnoedge : ∀ u v, g.Dep u v → u ∈ R → v ∈ D.xi.drop D.top → False := fun u v hd hu hv =>
    (hout v hv).2 (h.closed u v hd hu (hout v hv).1)
  -- marks after the labelling
  have hmk : ∀ (mk : List Int), (∀ x, mk.getD x 0 =
      if x ∈ D.xi.drop D.top ∧ ntl.getD x 0 ≠ d then -1 else D.marked.getD x 0) →
      (∀ v ∈ W, mk.getD v 0 = if v ∈ R ++ D.xi.drop D.top then (if ntl.getD v 0 = d then 1 else -1) else 0) ∧
      ∀ v, v < g.n → v ∉ W → d ≤ ntl.getD v 0 → mk.getD v 0 = 1 := by
    intro mk hmk
    constructor
    · intro v hv
      rw [hmk v, hD.mark v (hW v hv).1]
      by_cases ho : v ∈ D.xi.drop D.top
      · rw [if_pos (List.mem_append_right _ ho)]
        by_cases hl : ntl.getD v 0 = d
        · rw [if_neg (fun h => h.2 hl), if_pos ho, if_pos hl]
        · rw [if_pos ⟨ho, hl⟩, if_neg hl]
      · rw [if_neg (fun h => ho h.1), if_neg ho, h.mark v hv]
        simp only [List.mem_append, ho, or_false]
    · intro v hv hvW hvd
      have ho : v ∉ D.xi.drop D.top := fun hc => hvW (hout v hc).1
      rw [hmk v, if_neg (fun h => ho h.1), hD.mark v hv, if_neg ho]
      exact h.above v hv hvW hvd
  have hcnt := h.count
  rw [wp_bind, h.uniq]
  refine wp_mono (makeUnique_wp (n := g.n) (B := s.cc) h.labLen (by omega) (by omega)
    (fun x hx => ⟨(hD.clash x hx).1, h.range x (hclash x hx)⟩)) ?_
  rintro ⟨un, mn, ws⟩ ⟨u1, u2, u3, u4⟩
  dsimp only at u1 u2 u3 u4 ⊢
  subst u4
  by_cases hne : un.length = 0
  · rw [if_neg (by simpa using hne), wp_bind]
    have hnil : un = [] := List.length_eq_zero_iff.1 hne
    have hcnil : ∀ x, x ∉ D.clash := by
      intro x hx
      obtain ⟨y, hy, -⟩ := u2 x hx
      rw [hnil] at hy
      cases hy
    refine wp_mono (setComp_wp hD.xiLen hD.top hO.ntlLen hcost (c := s.cc) (d := d) (by omega) hmemn h.labLen
      hD.mLen h.oLen) ?_
    rintro ⟨lab, mk, oc⟩ ⟨r1, r2, r3, r4, r5⟩
    dsimp only at r1 r2 r3 r4 r5 ⊢
    rw [wp_ok]
    obtain ⟨m1, m2⟩ := hmk mk r5
    refine ⟨R ++ D.xi.drop D.top, fun v hv => List.mem_append_left _ hv,
      List.mem_append_right _ hD.start, r1, r2, r3, hD.xiLen, hD.psLen, rfl, hsub, hcl, m1, m2, ?_, ?_, ?_⟩
    · intro v hv
      dsimp only
      rw [r4 v]
      rcases List.mem_append.1 hv with hv | hv
      · rw [if_neg (fun hc => (hout v hc).2 hv)]
        have := h.range v hv
        omega
      · rw [if_pos hv]
        omega
    · intro u v hd hu hv
      dsimp only
      rw [r4 u, r4 v]
      rcases List.mem_append.1 hu with hu | hu <;> rcases List.mem_append.1 hv with hv | hv
      · rw [if_neg (fun hc => (hout u hc).2 hu), if_neg (fun hc => (hout v hc).2 hv)]
        exact h.same u v hd hu hv
      · exact (hnoedge u v hd hu hv).elim
      · exact absurd (hedge u v hd hu hv) (hcnil v)
      · rw [if_pos hu, if_pos hv]
    · dsimp only; omega
  · rw [if_pos hne, wp_bind]
    obtain ⟨y, hy, hy2⟩ := u3 (fun hc => hne (by rw [hc]; rfl))
    have hyr := h.range y (hclash y (u1 y hy))
    refine wp_mono (relabel_wp h.labLen (fun x hx => (hD.clash x (u1 x hx)).1)) ?_
    rintro lab1 ⟨l1, l2⟩
    rw [wp_bind]
    refine wp_mono (setComp_wp hD.xiLen hD.top hO.ntlLen hcost (c := mn) (d := d) (by omega) hmemn l1
      hD.mLen h.oLen) ?_
    rintro ⟨lab, mk, oc⟩ ⟨r1, r2, r3, r4, r5⟩
    dsimp only at r1 r2 r3 r4 r5 ⊢
    rw [wp_ok]
    obtain ⟨m1, m2⟩ := hmk mk r5
    refine ⟨R ++ D.xi.drop D.top, fun v hv => List.mem_append_left _ hv,
      List.mem_append_right _ hD.start, r1, r2, r3, hD.xiLen, hD.psLen, rfl, hsub, hcl, m1, m2, ?_, ?_, ?_⟩
    · intro v hv
      dsimp only
      rw [r4 v]
      split
      · omega
      · rename_i hno
        have hvR : v ∈ R := (List.mem_append.1 hv).resolve_right hno
        rw [l2 v (hW v (h.sub v hvR)).1]
        split
        · omega
        · exact h.range v hvR
    · intro u v hd hu hv
      dsimp only
      rw [r4 u, r4 v]
      rcases List.mem_append.1 hu with hu | hu <;> rcases List.mem_append.1 hv with hv | hv
      · rw [if_neg (fun hc => (hout u hc).2 hu), if_neg (fun hc => (hout v hc).2 hv),
          l2 u (hW u (h.sub u hu)).1, l2 v (hW v (h.sub v hv)).1, h.same u v hd hu hv]
      · exact (hnoedge u v hd hu hv).elim
      · obtain ⟨z, hz, hz2⟩ := u2 v (hedge u v hd hu hv)
        rw [if_pos hu, if_neg (fun hc => (hout v hc).2 hv), l2 v (hW v (h.sub v hv)).1,
          if_pos ⟨z, hz, hz2⟩]
      · rw [if_pos hu, if_pos hv]
    · dsimp only; omega

theorem leafComp_wp (hwf : g.WF) (hO : LevelOk g L ptr set ntl) {W : List Nat} {d done : Nat}
    (hW : ∀ v ∈ W, v < g.n ∧ d ≤ ntl.getD v 0) (hn : g.n ≤ intMax) (hdn : done < g.n)
    {nodeCost : List K} (hcost : nodeCost.length = g.n) {R : List Nat} {s : Comps K}
    (h : CInv g ntl W d done R s) {leaf : Nat} (hleaf : leaf ∈ W) (hlev : ntl.getD leaf 0 = d) :
    wp (leafComp g.n g.p g.i ntl d nodeCost leaf s) (fun s' => ∃ R', (∀ v ∈ R, v ∈ R') ∧ leaf ∈ R' ∧
      CInv g ntl W d (done + 1) R' s') := by
  have hml := h.mLen
  have hlW := hW leaf hleaf
  unfold leafComp
  rw [rd_getD 0 (by omega), ok_bind, h.mark leaf hleaf, if_pos hlev]
  by_cases hlR : leaf ∈ R
  · rw [if_pos hlR, if_neg (by decide), wp_ok]
    refine ⟨R, fun _ h => h, hlR, ?_⟩
    have hc := h.count
    exact ⟨h.labLen, h.mLen, h.oLen, h.xiLen, h.psLen, h.uniq, h.sub, h.closed, h.mark, h.above, h.range,
      h.same, by omega⟩
  rw [if_neg hlR, if_pos rfl, wp_bind]
  have hlow : ∀ v, v < g.n → d ≤ ntl.getD v 0 → ∀ i ∈ g.col v, d ≤ ntl.getD i 0 := by
    intro v hv hd i hi
    by_cases hvi : v = i
    · rw [← hvi]; exact hd
    · have := LevelOk.dep_lt hwf hO (u := v) (v := i) ⟨hv, hi, hvi⟩
      omega
  refine wp_mono (dfsCC_wp (m0 := s.marked) (Pr := fun v => d ≤ ntl.getD v 0) hwf hlow hlW.1 ?_ hlW.2
    hml h.xiLen h.psLen) ?_
  · rw [h.mark leaf hleaf, if_neg hlR]
  intro D hD
  exact leafRest_wp hwf hO hW hn hdn hcost h (fun _ h => h) hD

/-! ### A window -/

theorem windowComps_wp (hwf : g.WF) (hO : LevelOk g L ptr set ntl) {d c : Nat} (hdc : d < c) (hc : c ≤ L)
    (hn : g.n ≤ intMax) {nodeCost : List K} (hcost : nodeCost.length = g.n) {s : Comps K}
    (h0 : CInv g ntl (win ptr set d c) d 0 [] s) :
    wp (windowComps g.n g.p g.i ptr set ntl d nodeCost s) (fun s' =>
      WinLabels g (win ptr set d c) s'.cc s'.lab ∧ s'.cc ≤ (win ptr set d (d + 1)).length ∧
      s'.marked.length = g.n ∧ s'.outCost.length = g.n ∧ s'.xi.length = g.n ∧ s'.ps.length = g.n) := by
  unfold windowComps
  have hlN := hO.lN
  have hpl := hO.ptrLen
  have hmem : ∀ v, v ∈ win ptr set d c ↔ v < g.n ∧ d ≤ ntl.getD v 0 ∧ ntl.getD v 0 < c :=
    LevelOk.mem_win hO (by omega) hc
  rw [rd_getD 0 (by omega), ok_bind, rd_getD 0 (by omega), ok_bind,
    level_loop hO (a := d) (b := d + 1) (by omega) (by omega)
      (fun leaf s => leafComp g.n g.p g.i ntl d nodeCost leaf s)]
  have hlen : (win ptr set d (d + 1)).length ≤ g.n := by
    rw [win_length hO (by omega)]
    have := hO.ptr_le (a := d + 1) (by omega)
    omega
  have key := forEach_wp (fun p (s : Comps K) => ∃ R, (∀ v ∈ p, v ∈ R) ∧
      CInv g ntl (win ptr set d c) d p.length R s)
    (f := fun leaf s => leafComp g.n g.p g.i ntl d nodeCost leaf s) (win ptr set d (d + 1)) [] s
    ⟨[], by simp, h0⟩ ?_
  · refine wp_mono key ?_
    rintro s' ⟨R, hR, h⟩
    rw [List.nil_append] at hR h
    have hall : ∀ k v, v ∈ win ptr set d c → ntl.getD v 0 = d + k → v ∈ R := by
      intro k
      induction k with
      | zero =>
        intro v hv hl
        exact hR v ((leaf_iff hO hdc hc).2 ⟨hv, hl⟩)
      | succ k ih =>
        intro v hv hl
        have hv' := (hmem v).1 hv
        obtain ⟨u, hu, hul⟩ := LevelOk.pred hwf hO hv'.1 (by omega)
        have hum : u ∈ win ptr set d c := (hmem u).2 ⟨(hwf.dep_lt hu).1, by omega, by omega⟩
        exact h.closed u v hu (ih u hum (by omega)) hv
    have hW : ∀ v ∈ win ptr set d c, v ∈ R := by
      intro v hv
      have hv' := (hmem v).1 hv
      exact hall (ntl.getD v 0 - d) v hv (by omega)
    exact ⟨⟨h.labLen, fun v hv => h.range v (hW v hv),
      fun u v hd hu hv => h.same u v hd (hW u hu) (hW v hv)⟩, h.count, h.mLen, h.oLen, h.xiLen, h.psLen⟩
  · rintro p a q s' he ⟨R, hR, h⟩
    rw [List.nil_append] at he
    have ha : a ∈ win ptr set d (d + 1) := by rw [he]; simp
    obtain ⟨a1, a2⟩ := (leaf_iff hO hdc hc).1 ha
    have hlt : p.length < g.n := by
      have : (win ptr set d (d + 1)).length = p.length + (q.length + 1) := by rw [he]; simp
      omega
    refine wp_mono (leafComp_wp hwf hO (fun v hv => ⟨((hmem v).1 hv).1, ((hmem v).1 hv).2.1⟩) hn hlt
      hcost h a1 a2) ?_
    rintro s'' ⟨R', h1, h2, h3⟩
    refine ⟨R', ?_, ?_⟩
    · intro v hv
      rcases List.mem_append.1 hv with hv | hv
      · exact h1 v (hR v hv)
      · rw [List.mem_singleton] at hv
        subst hv
        exact h2
    · rw [List.length_append, List.length_singleton]
      exact h3

end
end Verif.Lbc
