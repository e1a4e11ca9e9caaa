import Verif.Proof.Relabel
import Verif.Props.Counts
import Verif.Props.TransSym
import Verif.Props.Permutation
import Verif.Props.TreePost

/-!
# The symbolic factorization as a whole
-/

namespace Verif
open Res Sp TransSym LFactor

variable {V : Type}

theorem isPerm_app_inj {q : Option (List Nat)} {n : Nat} {π : Nat → Nat}
    (hπ : ∀ j, j < n → π (app q j) = j) {a b : Nat} (ha : a < n) (hb : b < n)
    (h : app q a = app q b) : a = b := by
  rw [← hπ a ha, h, hπ b hb]

theorem app_inverse {q : Option (List Nat)} {n : Nat} (hq : IsPerm q n) {π : Nat → Nat}
    (hπ : ∀ j, j < n → π (app q j) = j) {i : Nat} (hi : i < n) : app q (π i) = i := by
  have := (IsPerm.map_range hq).mem_iff.2 (List.mem_range.2 hi)
  obtain ⟨j, hj, rfl⟩ := List.mem_map.1 this
  rw [List.mem_range] at hj
  show app q (π (app q j)) = app q j
  rw [hπ j hj]

theorem filter_coords (A : Sp V) {j : Nat} (hj : j < A.cols) :
    (A.coords.filter fun e => e.2 = j).length = (A.colRows j).length := by
  unfold Sp.coords
  rw [List.filter_flatMap, List.length_flatMap]
  have h : ∀ c ∈ List.range A.cols,
      (List.filter (fun e : Nat × Nat => decide (e.2 = j)) ((A.colRows c).map fun r => (r, c))).length
        = if c = j then (A.colRows j).length else 0 := by
    intro c _
    rw [List.filter_map]
    by_cases e : c = j
    · subst e
      rw [if_pos rfl, List.length_map]
      simp [Function.comp_def]
    · rw [if_neg e, List.length_map]
      simp [Function.comp_def, e]
  rw [List.map_congr_left h]
  clear h
  have : ∀ l : List Nat, l.Nodup → j ∈ l →
      (l.map fun c => if c = j then (A.colRows j).length else 0).sum = (A.colRows j).length := by
    intro l hn hm
    induction l with
    | nil => cases hm
    | cons a l ih =>
      rw [List.nodup_cons] at hn
      rw [List.map_cons, List.sum_cons]
      by_cases e : a = j
      · subst e
        have : (l.map fun c => if c = a then (A.colRows a).length else 0) = l.map fun _ => 0 := by
          refine List.map_congr_left ?_
          intro c hc
          rw [if_neg]
          rintro rfl
          exact hn.1 hc
        rw [this]; simp
      · rw [if_neg e, ih hn.2 ((List.mem_cons.1 hm).resolve_left (Ne.symm e)), Nat.zero_add]
  exact this _ List.nodup_range (List.mem_range.2 hj)

/-- The first transposition gives the upper triangle of the renumbered matrix. -/
theorem transSym_upper [Zero V] {A : Sp V} {stype : Int} {nnz : Nat} {pat : Bool}
    {q : Option (List Nat)} {π : Nat → Nat} (hA : A.PatWF)
    (hx : pat = false → A.p.getD A.cols 0 ≤ A.x.length) (hsq : A.rows = A.cols) (hc : 0 < A.cols)
    (hs : stype < 0) (hn : A.p.getD A.cols 0 ≤ nnz) (hq : IsPerm q A.cols)
    (hπ : ∀ j, j < A.cols → π (app q j) = j) :
    ∃ F, transposeSymmetric A stype nnz pat q = ok (some (F, -stype)) ∧ F.PatWF ∧
      F.rows = A.cols ∧ F.cols = A.cols ∧ F.i.length = nnz ∧ F.x.length = nnz ∧
      (∀ k i, i < k → k < A.cols →
        (F.UpperEntry k i ↔ Either A.LowerEntry (app q k) (app q i))) ∧
      ∀ j, j < A.cols → (F.colRows j).length = upperCount A π j := by
  obtain ⟨F, h1, h2, h3, h4, h5, h6, h7⟩ := C60_pattern (stype := stype) (π := π) hA hx hsq hc (by omega) hn hq hπ
  refine ⟨F, h1, h2, h3, h4, h5, h6, ?_, ?_⟩
  · intro k i hik hk
    have hi : i < A.cols := by omega
    have e1 : F.UpperEntry k i ↔ (i, k) ∈ F.coords := (Group.mem_coords).symm
    rw [e1, h7.mem_iff, List.mem_map]
    constructor
    · rintro ⟨⟨r, c⟩, he, h⟩
      obtain ⟨he, ht⟩ := List.mem_filter.1 he
      have hrc := Group.mem_coords.1 he
      have hr : r < A.cols := hsq ▸ hA.range c hrc.1 r hrc.2
      unfold inTriangle at ht
      rw [if_neg (by omega)] at ht
      have ht := of_decide_eq_true ht
      dsimp only at ht
      unfold otherTriangle at h
      rw [if_neg (by omega), Prod.mk.injEq] at h
      dsimp only at h
      have ar := app_inverse hq hπ hr
      have ac := app_inverse hq hπ hrc.1
      rcases Nat.lt_or_ge (π r) (π c) with hlt | hge
      · rw [Nat.min_eq_left (by omega), Nat.max_eq_right (by omega)] at h
        obtain ⟨rfl, rfl⟩ := h
        refine Or.inr ?_
        rw [ar, ac]
        refine ⟨?_, hrc⟩
        rcases Nat.lt_or_eq_of_le ht with h | h
        · exact h
        · subst h; omega
      · rw [Nat.min_eq_right (by omega), Nat.max_eq_left (by omega)] at h
        obtain ⟨rfl, rfl⟩ := h
        refine Or.inl ?_
        rw [ar, ac]
        refine ⟨?_, hrc⟩
        rcases Nat.lt_or_eq_of_le ht with h | h
        · exact h
        · subst h; omega
    · rintro (⟨hlt, hent⟩ | ⟨hlt, hent⟩)
      · refine ⟨(app q k, app q i), List.mem_filter.2 ⟨Group.mem_coords.2 hent, ?_⟩, ?_⟩
        · unfold inTriangle
          rw [if_neg (by omega)]
          exact decide_eq_true (by dsimp only; omega)
        · unfold otherTriangle
          rw [if_neg (by omega)]
          dsimp only
          rw [hπ k hk, hπ i hi, Nat.min_eq_right (by omega), Nat.max_eq_left (by omega)]
      · refine ⟨(app q i, app q k), List.mem_filter.2 ⟨Group.mem_coords.2 hent, ?_⟩, ?_⟩
        · unfold inTriangle
          rw [if_neg (by omega)]
          exact decide_eq_true (by dsimp only; omega)
        · unfold otherTriangle
          rw [if_neg (by omega)]
          dsimp only
          rw [hπ k hk, hπ i hi, Nat.min_eq_left (by omega), Nat.max_eq_right (by omega)]
  · intro j hj
    rw [← filter_coords F (by omega), (h7.filter _).length_eq, List.filter_map, List.length_map,
      List.filter_filter]
    unfold upperCount
    congr 1
    refine List.filter_congr ?_
    intro e _
    simp only [Function.comp, otherTriangle, inTriangle, show ¬ (0 < stype) by omega, if_false]
    rw [← Bool.decide_and]
    refine decide_eq_decide.2 ?_
    tauto

/-- The second transposition gives the lower triangle. -/
theorem transSym_lower [Zero V] {A : Sp V} {stype : Int} {nnz : Nat} (hA : A.PatWF)
    (hx : A.p.getD A.cols 0 ≤ A.x.length) (hsq : A.rows = A.cols) (hc : 0 < A.cols)
    (hs : 0 < stype) (hn : A.p.getD A.cols 0 ≤ nnz) :
    ∃ F, transposeSymmetric A stype nnz false none = ok (some (F, -stype)) ∧ F.PatWF ∧
      F.rows = A.cols ∧ F.cols = A.cols ∧
      ∀ k i, i < k → k < A.cols → (F.LowerEntry k i ↔ A.UpperEntry k i) := by
  obtain ⟨F, h1, h2, h3, h4, _, _, h7⟩ := C60_pattern (stype := stype) (π := id) (pat := false) hA (fun _ => hx) hsq hc
    (by omega) hn (perm := none) trivial (fun _ _ => rfl)
  refine ⟨F, h1, h2, h3, h4, ?_⟩
  intro k i hik hk
  have e1 : F.LowerEntry k i ↔ (k, i) ∈ F.coords := (Group.mem_coords).symm
  have e2 : A.UpperEntry k i ↔ (i, k) ∈ A.coords := (Group.mem_coords).symm
  rw [e1, e2, h7.mem_iff, List.mem_map]
  constructor
  · rintro ⟨⟨r, c⟩, he, h⟩
    obtain ⟨he, ht⟩ := List.mem_filter.1 he
    unfold inTriangle at ht
    rw [if_pos hs] at ht
    have ht := of_decide_eq_true ht
    unfold otherTriangle at h
    rw [if_pos hs, Prod.mk.injEq] at h
    dsimp only [id] at h ht
    rw [Nat.max_eq_right ht, Nat.min_eq_left ht] at h
    obtain ⟨rfl, rfl⟩ := h
    exact he
  · intro he
    refine ⟨(i, k), List.mem_filter.2 ⟨he, ?_⟩, ?_⟩
    · unfold inTriangle
      rw [if_pos hs]
      exact decide_eq_true (by dsimp only; omega)
    · unfold otherTriangle
      rw [if_pos hs]
      dsimp only [id]
      rw [Nat.max_eq_right (by omega), Nat.min_eq_left (by omega)]

/-- `reorder_tree` renumbers the tree. -/
theorem reorderTree_wp {n : Nat} {parent : List (Option Nat)} {post ipost : List Nat}
    {wi : List (Option Nat)} (hpl : parent.length = n)
    (hpost : post.Perm (List.range n)) (hip : ipost.length = n)
    (hpar : ∀ j p, j < n → parent.getD j none = some p → p < n) (hwi : wi.length = n) :
    ∃ r, reorderTree n parent post ipost wi = ok r ∧ r.1.length = n ∧
      ∀ k, k < n → r.1.getD k none
        = (parent.getD (post.getD k 0) none).map fun p => ipost.getD p 0 := by
  have hl : post.length = n := by simpa using hpost.length_eq
  obtain ⟨w, h1, h2, h3⟩ := wp_iff.1 (forRange_wp (fun k (w : List (Option Nat)) => w.length = n ∧
      ∀ m, m < k → w.getD m none = (parent.getD (post.getD m 0) none).map fun p => ipost.getD p 0)
    (lo := 0) (hi := n) (s := wi)
    (f := reorderStep parent post ipost) (Nat.zero_le _) ⟨hwi, by omega⟩ (by
    intro k w _ hk ⟨h1, h2⟩
    have hlt := Util.perm_getD_lt hpost hk
    unfold reorderStep
    rw [rd_getD 0 (by omega), ok_bind, rd_getD none (by omega), ok_bind]
    cases hp : parent.getD (post.getD k 0) none with
    | none =>
      dsimp only
      rw [wr_eq (by omega), wp_ok]
      refine ⟨by rw [List.length_set]; exact h1, ?_⟩
      intro m hm
      by_cases e : k = m
      · subst e; rw [LFactor.getD_set_eq (by omega), hp]; rfl
      · rw [LFactor.getD_set_ne e, h2 m (by omega)]
    | some p =>
      have := hpar _ p hlt hp
      dsimp only
      rw [rd_getD 0 (by omega), ok_bind, wr_eq (by omega), wp_ok]
      refine ⟨by rw [List.length_set]; exact h1, ?_⟩
      intro m hm
      by_cases e : k = m
      · subst e; rw [LFactor.getD_set_eq (by omega), hp]; rfl
      · rw [LFactor.getD_set_ne e, h2 m (by omega)]))
  obtain ⟨r, k1, k2, k3⟩ := wp_iff.1 (forRange_wp (fun k (a : List (Option Nat)) =>
      a.length = n ∧ ∀ m, m < k → a.getD m none = w.getD m none)
    (lo := 0) (hi := n) (s := parent)
    (f := fun k parent => do
      let v ← rd w k
      wr parent k v) (Nat.zero_le _) ⟨hpl, by omega⟩ (by
    intro k a _ hk ⟨g1, g2⟩
    rw [rd_getD none (by omega), ok_bind, wr_eq (by omega), wp_ok]
    refine ⟨by rw [List.length_set]; exact g1, ?_⟩
    intro m hm
    by_cases e : k = m
    · subst e; rw [LFactor.getD_set_eq (by omega)]
    · rw [LFactor.getD_set_ne e, g2 m (by omega)]))
  refine ⟨(r, w), ?_, k2, ?_⟩
  · unfold reorderTree
    rw [h1, ok_bind, k1]; rfl
  · intro k hk
    rw [k3 k hk, h3 k hk]

theorem getD_take' {α : Type} {l : List α} {n k : Nat} (d : α) (hk : k < n) :
    (l.take n).getD k d = l.getD k d := by
  rw [List.getD_eq_getElem?_getD, List.getElem?_take, if_pos hk, ← List.getD_eq_getElem?_getD]

/-- The elimination tree, the counts and the weighted post order. -/
theorem analyse_wp {n : Nat} (debug : Bool) {F G : Sp V} {st st' : Int} (hF : F.PatWF) (hFr : F.rows = n)
    (hFc : F.cols = n) (hG : G.PatWF) (hGr : G.rows = n) (hGc : G.cols = n) (hn : 0 < n) (hst : 0 < st)
    (hst' : st' < 0)
    (hEE : ∀ k i, i < k → k < n → (G.LowerEntry k i ↔ F.UpperEntry k i)) :
    ∃ par col post fl, analyse debug n (F, st) (G, st') = ok (par, col, post, fl) ∧
      par.length = n ∧ n ≤ col.length ∧ IsEtree F.UpperEntry n (fun j => par.getD j none) ∧
      (∀ j, j < n → col.getD j 0 = (factorCol F.UpperEntry n j).length) ∧
      IsPostOrder n (fun j => par.getD j none) (ByWeight n fun j => (factorCol F.UpperEntry n j).length)
        post ∧
      fl = ((List.range n).map fun j => ((factorCol F.UpperEntry n j).length : Int) ^ 2).sum := by
  subst hFc
  obtain ⟨par, h1, h2, h3, _⟩ := C32_compute_etree (parent := List.replicate F.cols (some 0)) hF hFr hst
    (by simp)
  rw [List.length_replicate] at h3
  have hE : IsEtree F.UpperEntry F.cols (fun j => par.getD j none) := h2
  obtain ⟨post, p1, p2, p3⟩ := C43_tree_post_order (debug := debug) hn (by omega) hE.forest
    (post := List.replicate F.cols 0) (by simp)
  rw [List.length_replicate] at p2
  have hE' : IsEtree G.LowerEntry F.cols (fun j => par.getD j none) :=
    hE.congr fun k i a b => (hEE k i a b).symm
  obtain ⟨fst, hpl, hPO⟩ := p3.range_getD
  have hPO := hPO hE.forest
  rw [← hGc] at hPO hE'
  obtain ⟨r, c1, c2, c3, _, _, _, _, c8⟩ := rowColCounts_wp (parent := par) (row := none)
    (col := List.replicate F.cols 0) (firstA := List.replicate F.cols (some 0))
    (level := List.replicate F.cols 0) hG (by omega) hst' hPO hE' (by omega)
    (by omega) (by rintro _ ⟨⟩) (by rw [List.length_replicate]; omega)
    (by rw [List.length_replicate]; omega) (by rw [List.length_replicate]; omega)
  have hcnt : ∀ j, factorCol G.LowerEntry F.cols j = factorCol F.UpperEntry F.cols j :=
    factorCol_congr hEE
  simp only [hGc, hcnt] at c2 c3 c8
  obtain ⟨post', q1, q2, q3⟩ := C43_tree_post_order_weight (debug := debug) hn
    (parent := par) (by omega) hE.forest (weight := r.col) c2 (post := post) (by omega)
  have hpost' : post'.take F.cols = post' := List.take_of_length_le (by omega)
  rw [hpost'] at q3
  refine ⟨par, r.col, post', r.fl, ?_, h3, c2, hE, c3, ?_, ?_⟩
  · unfold analyse
    dsimp only
    rw [h1, ok_bind]
    dsimp only
    rw [p1, ok_bind, if_neg (by simp), show G.rows = G.cols by omega, c1, ok_bind]
    dsimp only
    rw [q1, ok_bind, if_neg (by simp)]
  · refine ⟨q3.perm, q3.block, ?_, q3.roots⟩
    intro c d p hc hd hb
    refine q3.siblings c d p hc hd ?_
    unfold ByWeight at hb ⊢
    dsimp only
    rw [c3 c hc.1, c3 d hd.1]
    exact hb
  · rw [c8, ← List.sum_toFinset _ List.nodup_range]
    refine Finset.sum_congr ?_ ?_
    · ext x; simp
    · intro x _; ring

theorem exists_inverse {q : Option (List Nat)} {n : Nat} (hq : IsPerm q n) :
    ∃ π : Nat → Nat, ∀ j, j < n → π (app q j) = j := by
  cases q with
  | none => exact ⟨id, fun _ _ => rfl⟩
  | some l =>
    obtain ⟨r, _, _, h⟩ := Util.C30_inv_perm (perm := l) (ip0 := List.replicate n 0) hq (by simp)
    exact ⟨fun k => r.getD k 0, fun j hj => h.left j hj⟩

/-- The whole chain. -/
theorem symbolicFactor_wp [Zero V] {A : Sp V} {stype : Int} {nnz : Nat} {pat : Bool}
    {q : Option (List Nat)} (hA : A.PatWF) (debug : Bool)
    (hx : pat = false → A.p.getD A.cols 0 ≤ A.x.length) (hsq : A.rows = A.cols) (hc : 0 < A.cols)
    (hs : stype < 0) (hn : A.p.getD A.cols 0 ≤ nnz) (hq : IsPerm q A.cols) (garbage : Nat → Nat) :
    ∃ r par, symbolicFactor debug A stype nnz pat q garbage = ok r ∧
      IsEtree (A.PermEntry (app q)) A.cols par ∧
      IsPostOrder A.cols par
        (ByWeight A.cols fun j =>
          (factorCol (A.PermEntry (app q)) A.cols j).length) r.post ∧
      r.perm = r.post.map (app q) ∧ r.perm.Perm (List.range A.cols) ∧
      Util.Inverse A.cols r.perm r.iperm ∧ Util.Inverse A.cols r.post r.ipost ∧
      IsEtree (A.PermEntry fun k => r.perm.getD k 0) A.cols
        (fun j => r.parent.getD j none) ∧
      (∀ j, j < A.cols → ∃ f, ∀ x, x < A.cols →
        (Sub A.cols (fun j => r.parent.getD j none) x j ↔ f ≤ x ∧ x ≤ j)) ∧
      (∀ j, j < A.cols → r.col.getD j 0 = (factorCol (A.PermEntry fun k => r.perm.getD k 0) A.cols j).length) ∧
      (∀ x : List V, (⟨A.cols, A.cols, r.lp, r.li, x⟩ : Sp V).PatWF) ∧
      r.li.length = r.lp.getD A.cols 0 ∧
      (∀ (x : List V) j, j < A.cols → (⟨A.cols, A.cols, r.lp, r.li, x⟩ : Sp V).colRows j
        = factorCol (A.PermEntry fun k => r.perm.getD k 0) A.cols j) ∧
      r.flops = ((List.range A.cols).map fun j => r.col.getD j 0 ^ 2).sum ∧
      ∀ k, k < A.cols → r.acc.getD k 0 = ((factorRow (A.PermEntry fun k => r.perm.getD k 0) A.cols k).map
          (upperCount A fun v => r.iperm.getD v 0)).sum := by
  obtain ⟨π, hπ⟩ := exists_inverse hq
  obtain ⟨F, f1, f2, f3, f4, f5, f6, f7, _⟩ := transSym_upper (pat := pat) hA hx hsq hc hs hn hq hπ
  have fb := f2.bound
  rw [f5] at fb
  obtain ⟨G, g1, g2, g3, g4, g5⟩ := transSym_lower (stype := -stype) (nnz := nnz) f2 (by omega) (by omega)
    (by omega) (by omega) fb
  obtain ⟨par, col, post, fl, a1, a2, a3, a4, a5, a6, a7⟩ := analyse_wp (n := A.cols) debug f2 f3 f4 g2
    (by omega) (by omega) hc (st := -stype) (st' := - -stype) (by omega) (by omega)
    (by rw [f4] at g5; exact g5)
  have hlp : post.length = A.cols := by simpa using a6.perm.length_eq
  -- the permutations
  have hq0 : (q.getD (List.range A.cols)).Perm (List.range A.cols) := by
    cases q with
    | none => exact List.Perm.refl _
    | some l => exact hq
  have hql : (q.getD (List.range A.cols)).length = A.cols := by simpa using hq0.length_eq
  have hqg : ∀ k, k < A.cols → (q.getD (List.range A.cols)).getD k 0 = app q k := by
    intro k hk
    cases q with
    | none =>
      show (List.range A.cols).getD k 0 = k
      rw [List.getD_eq_getElem?_getD, List.getElem?_range hk]; rfl
    | some l => rfl
  obtain ⟨perm, ws1, b1, b2, _, b4, _⟩ := Util.C30_reorder_array (arr := q.getD (List.range A.cols))
    (ws := List.replicate A.cols 0) a6.perm (by omega) (by simp)
  have hpermlen : perm.length = A.cols := by omega
  have hperm : perm = post.map (app q) := by
    refine List.ext_getElem? ?_
    intro k
    by_cases hk : k < A.cols
    · have hlt := Util.perm_getD_lt a6.perm hk
      rw [b4 k hk, getElem?_getD 0 (by omega), hqg _ hlt, List.getElem?_map,
        getElem?_getD 0 (by omega)]
      rfl
    · rw [List.getElem?_eq_none (by omega), List.getElem?_eq_none (by rw [List.length_map]; omega)]
  have hpermP : perm.Perm (List.range A.cols) := by
    rw [hperm]
    refine (a6.perm.map _).trans ?_
    exact IsPerm.map_range hq
  have hpg : ∀ k, k < A.cols → perm.getD k 0 = app q (post.getD k 0) := by
    intro k hk
    rw [hperm, List.getD_eq_getElem?_getD, List.getElem?_map, getElem?_getD 0 (by omega)]
    rfl
  obtain ⟨col', ws2, e1, e2, _, e4, _⟩ := Util.C30_reorder_array (arr := col)
    (ws := List.replicate A.cols 0) a6.perm a3 (by simp)
  obtain ⟨ipost, i1, i2, i3⟩ := Util.C30_inv_perm (ip0 := List.replicate A.cols 0) a6.perm (by simp)
  obtain ⟨iperm, j1, j2, j3⟩ := Util.C30_inv_perm (ip0 := List.replicate A.cols 0) hpermP (by simp)
  rw [List.length_replicate] at i2
  obtain ⟨pr, k1, k2, k3⟩ := reorderTree_wp (parent := par) (post := post) (ipost := ipost)
    (wi := List.replicate A.cols none) a2 a6.perm i2 (fun j p hj hp => (a4.forest j p hj hp).2) (by simp)
  -- the last transposition
  obtain ⟨U, u1, u2, u3, u4, u5, u6, u7, u8⟩ := transSym_upper (pat := pat) (q := some perm)
    (π := fun v => iperm.getD v 0) hA hx hsq hc hs hn hpermP j3.left
  -- renumbering
  obtain ⟨fst, hPO⟩ := a6.po a4.forest
  have hpos : ∀ x, x < A.cols → post.idxOf x = ipost.getD x 0 := by
    intro x hx
    have h1 := i3.right x hx
    have h2 := hPO.pos_node (ipost.getD x 0) (i3.lt x hx)
    rw [h1] at h2
    exact h2
  have hE' : ∀ k i, i < k → k < A.cols →
      (U.UpperEntry k i ↔ Either F.UpperEntry (post.getD k 0) (post.getD i 0)) := by
    intro k i hik hk
    have hk' := hPO.node_lt k hk
    have hi' := hPO.node_lt i (by omega)
    have hne : post.getD k 0 ≠ post.getD i 0 := by
      intro e
      have := Util.perm_getD_inj a6.perm hk (by omega) e
      omega
    rw [u7 k i hik hk]
    show Either A.LowerEntry (perm.getD k 0) (perm.getD i 0) ↔ _
    rw [hpg k hk, hpg i (by omega)]
    have sym : ∀ a b, Either A.LowerEntry a b ↔ Either A.LowerEntry b a := by
      intro a b; unfold Either; tauto
    rcases Nat.lt_or_gt_of_ne hne with h | h
    · rw [sym, ← f7 _ _ h hi']
      constructor
      · intro hh; exact Or.inr ⟨h, hh⟩
      · rintro (⟨h1, _⟩ | ⟨_, hh⟩)
        · omega
        · exact hh
    · rw [← f7 _ _ h hk']
      constructor
      · intro hh; exact Or.inl ⟨h, hh⟩
      · rintro (⟨_, hh⟩ | ⟨h1, _⟩)
        · exact hh
        · omega
  have hprEq : ∀ j, j < A.cols → pr.1.getD j none
      = (par.getD (post.getD j 0) none).map fun x => post.idxOf x := by
    intro j hj
    rw [k3 j hj]
    cases hp : par.getD (post.getD j 0) none with
    | none => rfl
    | some p =>
      have := (a4.forest _ p (hPO.node_lt j hj) hp).2
      show some (ipost.getD p 0) = some (post.idxOf p)
      rw [hpos p this]
  have hEU : IsEtree U.UpperEntry A.cols (fun j => pr.1.getD j none) := by
    have := relabel_etree a4 hPO hE'
    intro j hj
    dsimp only
    rw [hprEq j hj]
    exact this j hj
  have hcolU : ∀ j, j < A.cols → col'.getD j 0 = (factorCol U.UpperEntry A.cols j).length := by
    intro j hj
    have hlt := hPO.node_lt j hj
    have := e4 j hj
    rw [getElem?_getD 0 (by omega), getElem?_getD 0 (by omega)] at this
    rw [Option.some.inj this, a5 _ hlt, relabel_count a4 hPO hE' hj]
  have hsizes : sizes A.cols col' = ok (col'.map Int.toNat) := by
    unfold sizes
    rw [if_pos]
    intro c hc'
    obtain ⟨k, hk, rfl⟩ := List.getElem_of_mem hc'
    rw [List.length_take] at hk
    have h1 := hcolU k (by omega)
    rw [List.getD_eq_getElem?_getD, List.getElem?_eq_getElem (by omega), Option.getD_some] at h1
    rw [List.getElem_take, h1]
    exact Int.natCast_nonneg _
  have hEU' : IsEtree U.UpperEntry U.cols (fun j => pr.1.getD j none) := by rw [u4]; exact hEU
  obtain ⟨lp, li, acc, l1, l2, l3, l4, l5⟩ := C62_pattern (A := U) (parent := pr.1)
    (count := col'.map Int.toNat) (acc := List.replicate A.cols 0) u2 debug hEU' (by omega)
    (by rw [List.length_map]; omega) (by rw [List.length_replicate]; omega) (by
      rw [u4]
      intro j hj
      have h1 := hcolU j hj
      rw [List.getD_eq_getElem?_getD, List.getElem?_map, getElem?_getD 0 (by omega)]
      show Int.toNat _ = _
      rw [h1]; rfl) garbage ([] : List V)
  rw [u4] at l1 l2 l3 l4 l5
  have hEV : ∀ k i, i < k → k < A.cols →
      (U.UpperEntry k i ↔ A.PermEntry (fun k => perm.getD k 0) k i) := u7
  have hEW : ∀ k i, i < k → k < A.cols →
      (F.UpperEntry k i ↔ A.PermEntry (app q) k i) := f7
  have hcV := factorCol_congr hEV
  have hcW := factorCol_congr hEW
  refine ⟨⟨col', perm, iperm, post, ipost, pr.1, acc, lp, li, fl⟩, fun j => par.getD j none, ?_,
    a4.congr hEW, ?_, hperm, hpermP, j3, i3, hEU.congr hEV, ?_, ?_, ?_, l3, ?_, ?_, ?_⟩
  · unfold symbolicFactor
    dsimp only
    simp only [f1, g1, a1, b1, e1, i1, j1, k1, u1, hsizes, l1, ok_bind, deref]
  · simp only [← hcW]
    exact a6
  · intro j hj
    refine ⟨fst (post.getD j 0), ?_⟩
    intro x hx'
    rw [← relabel_sub hPO hx' hj]
    have hco : ∀ c p, ChildOf A.cols (fun j => pr.1.getD j none) c p ↔
        ChildOf A.cols (fun k => (par.getD (post.getD k 0) none).map fun x => post.idxOf x) c p := by
      intro c p
      unfold ChildOf
      refine and_congr_right ?_
      intro hc'
      dsimp only
      rw [hprEq c hc']
    unfold Sub
    rw [show ChildOf A.cols (fun j => pr.1.getD j none) = _ from
      funext fun c => funext fun p => propext (hco c p)]
  · intro j hj
    rw [hcolU j hj, hcV]
  · intro x
    exact ⟨l2.plen, l2.p0, l2.mono, l2.bound, fun c hc' r hr => l2.range c hc' r hr⟩
  · intro x j hj
    rw [← hcV]
    exact l4 j hj
  · dsimp only
    rw [a7, show (List.range A.cols).map (fun j => col'.getD j 0 ^ 2)
      = (List.range A.cols).map ((fun j => ((factorCol F.UpperEntry A.cols j).length : Int) ^ 2)
          ∘ fun j => post.getD j 0) from ?_]
    · rw [← List.map_map]
      refine ((List.Perm.map _ ?_).sum_eq).symm
      have : (List.range A.cols).map (fun j => post.getD j 0) = post := by
        refine List.ext_getElem? ?_
        intro k
        by_cases hk : k < A.cols
        · rw [List.getElem?_map, List.getElem?_range hk, getElem?_getD 0 (by omega)]; rfl
        · rw [List.getElem?_eq_none (by simp; omega), List.getElem?_eq_none (by omega)]
      rw [this]
      exact a6.perm
    · refine List.map_congr_left ?_
      intro j hj
      have hj := List.mem_range.1 hj
      simp only [Function.comp]
      rw [hcolU j hj, relabel_count a4 hPO hE' hj]
  · intro k hk
    dsimp only
    rw [l5 k hk, factorRow_congr hEV hk]
    congr 1
    refine List.map_congr_left ?_
    intro j hj
    exact u8 j (mem_factorRow.1 hj).1

end Verif
