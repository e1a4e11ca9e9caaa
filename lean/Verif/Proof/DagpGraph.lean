import Verif.Proof.DagpLevels
import Verif.Props.Triplets
import Verif.Props.Prepare
import Verif.Proof.Inspect

/-! # The graph of the parts -/

namespace Verif.Dagp
open Res Util

variable {W : Type} [Zero W] [Add W] {nz : W → Bool} {pos : W → Prop}

theorem rd_some {α : Type} {l : List α} {i : Nat} {a : α} (h : l[i]? = some a) : rd l i = ok a := by
  unfold rd
  rw [h]

theorem countParts_wp {n k : Nat} {parts : List Nat} (hn : 0 < n) (hp : PartsOk n k parts) :
    wp (countParts n parts) (fun K => 0 < K ∧ K ≤ k ∧ PartsOk n K parts ∧
      ∃ v, 1 ≤ v ∧ v ≤ n ∧ parts[v]? = some (K - 1)) := by
  unfold countParts
  refine forRange_wp' (fun i m => (i = 1 → m = 0) ∧ m ≤ k ∧ (∀ v, 1 ≤ v → v < i → ∃ a, parts[v]? = some a ∧ a < m) ∧
    (1 < i → 0 < m ∧ ∃ v, 1 ≤ v ∧ v < i ∧ parts[v]? = some (m - 1))) (by omega) ?_ ?_ ?_
  · exact ⟨fun _ => rfl, Nat.zero_le _, by intro v h1 h2; omega, by intro h; omega⟩
  · rintro i m h1 h2 ⟨h0, h3, h4, h5⟩
    obtain ⟨a, ha, hak⟩ := hp i h1 (by omega)
    rw [rd_some ha, ok_bind, wp_ok]
    by_cases hc : m < a + 1
    · rw [if_pos hc]
      refine ⟨by omega, hak, ?_, fun _ => ⟨by omega, i, h1, by omega, by rw [Nat.add_sub_cancel]; exact ha⟩⟩
      intro v hv1 hv2
      by_cases hvi : v = i
      · subst hvi; exact ⟨a, ha, by omega⟩
      · obtain ⟨b, hb, hbm⟩ := h4 v hv1 (by omega)
        exact ⟨b, hb, by omega⟩
    · rw [if_neg hc]
      refine ⟨by omega, h3, ?_, fun _ => ?_⟩
      · intro v hv1 hv2
        by_cases hvi : v = i
        · subst hvi; exact ⟨a, ha, by omega⟩
        · exact h4 v hv1 (by omega)
      · have h1i : 1 < i := by
          by_contra hcc
          have : i = 1 := by omega
          omega
        obtain ⟨k1, v, k2, k3, k4⟩ := h5 h1i
        exact ⟨k1, v, k2, by omega, k4⟩
  · rintro m ⟨-, h3, h4, h5⟩
    obtain ⟨k1, v, k2, k3, k4⟩ := h5 (by omega)
    exact ⟨k1, h3, fun v h1 h2 => h4 v h1 (by omega), v, k2, by omega, k4⟩

/-- The dense matrix has positive numbers exactly at the places `P`, and zeros elsewhere. -/
structure Adj (pos : W → Prop) (K : Nat) (P : Nat → Nat → Prop) (adj : List (List W)) : Prop where
  len : adj.length = K
  rows : ∀ a, a < K → (adj.getD a []).length = K
  yes : ∀ a b, a < K → b < K → P a b → pos (dval adj (a, b))
  no : ∀ a b, a < K → b < K → ¬ P a b → dval adj (a, b) = 0

omit [Add W] in
theorem Adj.congr {K : Nat} {P Q : Nat → Nat → Prop} {adj : List (List W)} (h : Adj pos K P adj)
    (he : ∀ a b, P a b ↔ Q a b) : Adj pos K Q adj :=
  ⟨h.len, h.rows, fun a b ha hb hq => h.yes a b ha hb ((he a b).2 hq),
    fun a b ha hb hq => h.no a b ha hb (fun hp => hq ((he a b).1 hp))⟩

theorem addAt_wp (hw : Weights W nz pos) {K : Nat} {P : Nat → Nat → Prop} {adj : List (List W)}
    (h : Adj pos K P adj) {a b : Nat} (ha : a < K) (hb : b < K) {w : W} (hpw : pos w) :
    wp (addAt adj a b w) (Adj pos K (fun x y => P x y ∨ (x = a ∧ y = b))) := by
  have hl := h.len
  have hr := h.rows a ha
  unfold addAt
  rw [rd_getD [] (by omega), ok_bind, rd_getD 0 (by omega), ok_bind, wr_eq (by omega), ok_bind, wr_eq (by omega), wp_ok]
  have hd : ∀ x y, x < K → y < K → dval (adj.set a ((adj.getD a []).set b ((adj.getD a []).getD b 0 + w))) (x, y)
      = if x = a ∧ y = b then dval adj (a, b) + w else dval adj (x, y) := by
    intro x y hx hy
    unfold dval
    dsimp only
    rw [getD_set]
    by_cases e : a = x
    · rw [if_pos ⟨e, by omega⟩, getD_set]
      subst e
      by_cases e2 : b = y
      · subst e2
        rw [if_pos ⟨rfl, by omega⟩, if_pos ⟨rfl, rfl⟩]
      · rw [if_neg (fun hc => e2 hc.1), if_neg (fun hc => e2 hc.2.symm)]
    · rw [if_neg (fun hc => e hc.1), if_neg (fun hc => e hc.1.symm)]
  refine ⟨by simpa using hl, ?_, ?_, ?_⟩
  · intro x hx
    rw [getD_set]
    split
    · rw [List.length_set, hr]
    · exact h.rows x hx
  · intro x y hx hy hp
    rw [hd x y hx hy]
    by_cases e : x = a ∧ y = b
    · rw [if_pos e]
      by_cases hP : P a b
      · exact hw.add _ _ (h.yes a b ha hb hP) hpw
      · rw [h.no a b ha hb hP]
        exact hw.first _ hpw
    · rw [if_neg e]
      exact h.yes x y hx hy (hp.resolve_right e)
  · intro x y hx hy hp
    rw [hd x y hx hy, if_neg (fun hc => hp (.inr hc))]
    exact h.no x y hx hy (fun hc => hp (.inl hc))

/-- `convert_to_pgraph`: column `b` lists the parts `a` with an edge from `a` to `b`. -/
theorem convertToPgraph_wp (hw : Weights W nz pos) (dbg : Bool) {n k : Nat} {G : DGraph W} {parts : List Nat}
    (hn : 0 < n) (hG : G.WF n) (hpos : G.Positive pos) (hp : PartsOk n k parts) :
    wp (convertToPgraph dbg nz G parts) (fun B => 0 < B.cols ∧ B.cols ≤ k ∧ PartsOk n B.cols parts ∧
      (∃ v, 1 ≤ v ∧ v ≤ n ∧ parts[v]? = some (B.cols - 1)) ∧
      (⟨B.cols, B.p, B.i⟩ : Csc).WF ∧
      ∀ b a, (⟨B.cols, B.p, B.i⟩ : Csc).Dep b a ↔ PartEdge G parts a b) := by
  unfold convertToPgraph
  rw [hG.vrtx, wp_bind]
  refine wp_mono (countParts_wp hn hp) ?_
  rintro K ⟨hK, hKk, hpK, hlast⟩
  rw [wp_bind]
  -- the edges that have been looked at
  obtain ⟨E, hE⟩ : ∃ E : Nat → Nat → Nat → Nat → Prop, E = fun i jj x y => x ≠ y ∧ ∃ u j v w, 1 ≤ u ∧ u ≤ n ∧
    (u < i ∨ (u = i ∧ j < jj)) ∧ G.EdgeAt u j v w ∧ parts[u]? = some x ∧ parts[v]? = some y := ⟨_, rfl⟩
  refine wp_mono (forRange_wp (fun i adj => Adj pos K (E i 0) adj) (by omega) ?_ ?_) ?_
  · refine ⟨by simp, ?_, ?_, ?_⟩
    · intro a ha
      rw [getD_replicate _ _ _ _ ha]; simp
    · intro a b _ _ hP
      rw [hE] at hP
      obtain ⟨-, u, j, v, w, h1, -, h2, -⟩ := hP
      omega
    · intro a b ha hb _
      unfold dval
      dsimp only
      rw [getD_replicate _ _ _ _ ha, getD_replicate _ _ _ _ hb]
  · intro i adj h1 h2 hadj
    obtain ⟨s, e, hs, he, hed⟩ := hG.edges i h1 (by omega)
    rw [rd_some hs, ok_bind, rd_some he, ok_bind]
    obtain ⟨pi, hpi, hpiK⟩ := hpK i h1 (by omega)
    have hstep : ∀ jj x y, E i jj x y → E (i + 1) 0 x y := by
      intro jj x y hx
      rw [hE] at hx ⊢
      obtain ⟨hxy, u, j, v, w, a1, a2, a3, a4⟩ := hx
      exact ⟨hxy, u, j, v, w, a1, a2, by omega, a4⟩
    by_cases hse : s ≤ (e + 1).toNat
    · refine forRange_wp' (fun jj adj => Adj pos K (E i jj) adj) hse ?_ ?_ ?_
      · refine hadj.congr fun x y => ?_
        rw [hE]
        constructor
        · rintro ⟨hxy, u, j, v, w, a1, a2, a3, a4⟩
          exact ⟨hxy, u, j, v, w, a1, a2, by omega, a4⟩
        · rintro ⟨hxy, u, j, v, w, a1, a2, a3, a4, a5⟩
          refine ⟨hxy, u, j, v, w, a1, a2, ?_, a4, a5⟩
          rcases a3 with a3 | ⟨rfl, a3⟩
          · exact .inl a3
          · obtain ⟨s', e', c1, c2, c3, c4, -⟩ := a4
            rw [hs] at c1
            have := Option.some.inj c1
            omega
      · intro j adj hj1 hj2 hadj
        obtain ⟨v, w, hv, hwt, hv1, hv2⟩ := hed j hj1 (by omega)
        obtain ⟨pv, hpv, hpvK⟩ := hpK v hv1 hv2
        have hedge : G.EdgeAt i j v w := ⟨s, e, hs, he, hj1, by omega, hv, hwt⟩
        have huniq : ∀ v' w', G.EdgeAt i j v' w' → v' = v := by
          rintro v' w' ⟨s', e', c1, c2, c3, c4, c5, c6⟩
          rw [hv] at c5
          exact (Option.some.inj c5).symm
        rw [rd_some hpi, ok_bind, rd_some hv, ok_bind, rd_some hpv, ok_bind]
        by_cases hne : pi ≠ pv
        · rw [if_pos hne, rd_some hwt, ok_bind]
          refine wp_mono (addAt_wp hw hadj hpiK hpvK (hpos i j v w h1 (by rw [hG.vrtx]; omega) hedge)) ?_
          intro adj' hadj'
          refine hadj'.congr fun x y => ?_
          rw [hE]
          constructor
          · rintro (⟨hxy, u, j', v', w', a1, a2, a3, a4⟩ | ⟨rfl, rfl⟩)
            · exact ⟨hxy, u, j', v', w', a1, a2, by omega, a4⟩
            · exact ⟨hne, i, j, v, w, h1, by omega, by omega, hedge, hpi, hpv⟩
          · rintro ⟨hxy, u, j', v', w', a1, a2, a3, a4, a5, a6⟩
            by_cases hj : u = i ∧ j' = j
            · obtain ⟨rfl, rfl⟩ := hj
              right
              rw [huniq v' w' a4] at a6
              rw [hpi] at a5
              rw [hpv] at a6
              exact ⟨(Option.some.inj a5).symm, (Option.some.inj a6).symm⟩
            · exact .inl ⟨hxy, u, j', v', w', a1, a2, by omega, a4, a5, a6⟩
        · rw [if_neg hne, wp_ok]
          refine hadj.congr fun x y => ?_
          rw [hE]
          constructor
          · rintro ⟨hxy, u, j', v', w', a1, a2, a3, a4⟩
            exact ⟨hxy, u, j', v', w', a1, a2, by omega, a4⟩
          · rintro ⟨hxy, u, j', v', w', a1, a2, a3, a4, a5, a6⟩
            by_cases hj : u = i ∧ j' = j
            · obtain ⟨rfl, rfl⟩ := hj
              rw [huniq v' w' a4] at a6
              rw [hpi] at a5
              rw [hpv] at a6
              have e1 := Option.some.inj a5
              have e2 := Option.some.inj a6
              exact absurd (by omega) hxy
            · exact ⟨hxy, u, j', v', w', a1, a2, by omega, a4, a5, a6⟩
      · intro adj' hadj'
        refine hadj'.congr fun x y => ⟨hstep _ x y, ?_⟩
        intro hx
        rw [hE] at hx ⊢
        obtain ⟨hxy, u, j, v, w, a1, a2, a3, a4, a5⟩ := hx
        refine ⟨hxy, u, j, v, w, a1, a2, ?_, a4, a5⟩
        by_cases hui : u = i
        · subst hui
          obtain ⟨s', e', c1, c2, c3, c4, -⟩ := a4
          rw [he] at c2
          have := Option.some.inj c2
          right
          exact ⟨rfl, by omega⟩
        · left; omega
    · rw [forRange_empty _ _ (by omega), wp_ok]
      refine hadj.congr fun x y => ⟨hstep 0 x y, ?_⟩
      intro hx
      rw [hE] at hx ⊢
      obtain ⟨hxy, u, j, v, w, a1, a2, a3, a4, a5⟩ := hx
      refine ⟨hxy, u, j, v, w, a1, a2, ?_, a4, a5⟩
      by_cases hui : u = i
      · subst hui
        obtain ⟨s', e', c1, c2, c3, c4, -⟩ := a4
        rw [hs] at c1
        rw [he] at c2
        have := Option.some.inj c2
        have := Option.some.inj c1
        omega
      · left; omega
  · intro adj hadj
    have hrows : ∀ r ∈ adj.take K, K ≤ r.length := by
      intro r hr
      rw [List.take_of_length_le (by rw [hadj.len])] at hr
      obtain ⟨a, ha, rfl⟩ := List.mem_iff_getElem.1 hr
      have := hadj.rows a (by rw [← hadj.len]; exact ha)
      rw [List.getD_eq_getElem?_getD, List.getElem?_eq_getElem ha] at this
      exact this.ge
    obtain ⟨B, hB, hwf, -, hr, hc, hent, -⟩ :=
      C38_dense_to_csc dbg nz (rows := K) (cols := K) (val := adj) (by rw [hadj.len]) hrows hK
    refine wp_iff.2 ⟨B, hB, ?_⟩
    have hcol : ∀ b, (⟨B.cols, B.p, B.i⟩ : Csc).col b = B.colRows b := fun b => rfl
    rw [hc]
    refine ⟨hK, hKk, hpK, hlast, ⟨?_, hwf.p0, ?_, ?_, ?_⟩, ?_⟩
    · rw [hwf.plen, hc]
    · intro u hu
      exact hwf.mono u (by rw [hc]; exact hu)
    · have := hwf.bound
      rw [hc] at this
      exact this
    · intro u hu v hv
      have := hwf.range u (by rw [hc]; exact hu) v hv
      rw [hr] at this
      exact this
    · intro b a
      have hmem : b < K → (a ∈ B.colRows b ↔ a < K ∧ nz (dval adj (a, b)) = true) := by
        intro hb
        constructor
        · intro ha
          have : (a, b) ∈ B.coords := by
            rw [Inspect.mem_coords]
            exact ⟨by rw [hc]; exact hb, ha⟩
          rw [← Sp.coords_entries hwf, List.mem_map] at this
          obtain ⟨⟨r, c, v⟩, hm, he⟩ := this
          obtain ⟨rfl, rfl⟩ := Prod.mk.inj he
          obtain ⟨h1, h2, ⟨l, h3, h4⟩, h5⟩ := (hent _ _ _).1 hm
          refine ⟨h1, ?_⟩
          have : dval adj (r, c) = v := by
            unfold dval
            dsimp only
            rw [List.getD_eq_getElem?_getD (l := adj), h3, Option.getD_some, List.getD_eq_getElem?_getD, h4]
            rfl
          rw [this]; exact h5
        · rintro ⟨ha, hnz⟩
          have hal : a < adj.length := by rw [hadj.len]; exact ha
          have hra := hadj.rows a ha
          have := (hent a b (dval adj (a, b))).2 ⟨ha, hb, ⟨adj.getD a [], getElem?_getD [] hal, ?_⟩, hnz⟩
          · have h2 : (a, b) ∈ B.coords := by
              rw [← Sp.coords_entries hwf, List.mem_map]
              exact ⟨_, this, rfl⟩
            rw [Inspect.mem_coords] at h2
            exact h2.2
          · exact getElem?_getD 0 (by omega)
      have hnz : a < K → b < K → (nz (dval adj (a, b)) = true ↔ E (n + 1) 0 a b) := by
        intro ha hb
        constructor
        · intro h
          by_contra hc
          rw [hadj.no a b ha hb hc, hw.zero] at h
          cases h
        · intro h
          exact hw.test _ (hadj.yes a b ha hb h)
      constructor
      · rintro ⟨hb, ha, hne⟩
        obtain ⟨h1, h2⟩ := (hmem hb).1 ha
        have h3 := (hnz h1 hb).1 h2
        rw [hE] at h3
        obtain ⟨hxy, u, j, v, w, a1, a2, a3, a4, a5, a6⟩ := h3
        exact ⟨hxy, u, v, ⟨a1, by rw [hG.vrtx]; exact a2, j, w, a4⟩, a5, a6⟩
      · rintro ⟨hne, u, v, ⟨a1, a2, j, w, a4⟩, a5, a6⟩
        rw [hG.vrtx] at a2
        obtain ⟨s, e, c1, c2, c3⟩ := hG.edges u a1 a2
        obtain ⟨s', e', d1, d2, d3, d4, d5, d6⟩ := a4
        rw [c1] at d1
        rw [c2] at d2
        obtain rfl := Option.some.inj d1
        obtain rfl := Option.some.inj d2
        obtain ⟨v', w', f1, f2, f3, f4⟩ := c3 j d3 d4
        rw [d5] at f1
        obtain rfl := Option.some.inj f1
        obtain ⟨x, hx, hxK⟩ := hpK u a1 a2
        obtain ⟨y, hy, hyK⟩ := hpK v f3 f4
        rw [a5] at hx
        rw [a6] at hy
        obtain rfl := Option.some.inj hx
        obtain rfl := Option.some.inj hy
        refine ⟨hyK, (hmem hyK).2 ⟨hxK, (hnz hxK hyK).2 ?_⟩, fun h => hne h.symm⟩
        rw [hE]
        exact ⟨hne, u, j, v, w, a1, a2, by omega, ⟨s, e, c1, c2, d3, d4, d5, d6⟩, a5, a6⟩

end Verif.Dagp
