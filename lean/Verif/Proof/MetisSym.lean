import Verif.Proof.Metis
import Mathlib.Data.List.GetD

/-! # The graph built by `metis_perm_symmetric` and `metis_partition_symmetric` -/

namespace Verif.Metis
open Res Sp

variable {V : Type} {A : Sp V}

abbrev Item := (Nat × Nat) × Nat

/-- Not on the diagonal. -/
def offd (e : Item) : Bool := decide (eRow e ≠ eCol e)

/-- After the entries `pre` of `D`: each bucket holds its off-diagonal entries and zeros. -/
structure Pad (n cap : Nat) (D pre : List Item) (s : List Nat × List Nat) : Prop where
  ind : s.1 = cntArr eCol n (pre.filter offd)
  len : s.2.length = cap
  get : ∀ k j, k < n → j < cntKey eCol D k → s.2.getD (below eCol D k + j) 0
    = (((pre.filter offd).filter fun a => decide (eCol a = k)).map eRow).getD j 0

theorem cntKey_filter_le (key : Item → Nat) (q : Item → Bool) (l : List Item) (k : Nat) :
    cntKey key (l.filter q) k ≤ cntKey key l k := by
  unfold cntKey
  rw [List.countP_filter]
  refine List.countP_mono_left ?_
  intro a _ h
  simp only [Bool.and_eq_true] at h
  exact h.1

theorem Pad.skip {n cap : Nat} {D pre : List Item} {s : List Nat × List Nat} {a : Item}
    (h : Pad n cap D pre s) (ha : offd a = false) : Pad n cap D (pre ++ [a]) s := by
  have e : (pre ++ [a]).filter offd = pre.filter offd := by simp [ha]
  exact ⟨by rw [e]; exact h.ind, h.len, by rw [e]; exact h.get⟩

theorem Pad.step {n cap : Nat} {D pre post : List Item} {s : List Nat × List Nat} {a : Item}
    (h : Pad n cap D pre s) (hD : D = pre ++ a :: post) (ha : offd a = true) (hn : eCol a < n)
    (hcap : D.length ≤ cap) :
    ∃ s', putSym (ptrArr eCol n D) (eCol a) (eRow a) s = ok s' ∧ Pad n cap D (pre ++ [a]) s' := by
  have e : (pre ++ [a]).filter offd = pre.filter offd ++ [a] := by simp [ha]
  have hlt : below eCol D (eCol a) + cntKey eCol (pre.filter offd) (eCol a) < below eCol D (eCol a + 1) := by
    have h1 := posOf_lt eCol hD
    unfold posOf at h1
    have h2 := cntKey_filter_le eCol offd pre (eCol a)
    omega
  have hle := below_le_length eCol D (eCol a + 1)
  have hl := h.len
  unfold putSym
  rw [rd_getD 0 (by rw [ptrArr_length]; omega), ptrArr_getD eCol D (by omega), ok_bind, h.ind,
    cntArr_rd _ _ hn, ok_bind, wr_eq (by omega), ok_bind, cntArr_wr (a := a) eCol _ hn, ok_bind]
  refine ⟨_, rfl, by rw [e], by simpa using hl, ?_⟩
  intro k j hk hj
  dsimp only
  rw [getD_set, e, List.filter_append, List.map_append]
  have hb : below eCol D k + j < below eCol D (k + 1) := by rw [below_succ]; omega
  have hlen : ((((pre.filter offd).filter fun a => decide (eCol a = k)).map eRow)).length
      = cntKey eCol (pre.filter offd) k := by rw [List.length_map, filter_length]
  by_cases hka : eCol a = k
  · subst hka
    have hone : ([a].filter fun b => decide (eCol b = eCol a)).map eRow = [eRow a] := by simp
    rw [hone]
    by_cases hjc : cntKey eCol (pre.filter offd) (eCol a) = j
    · rw [if_pos ⟨by omega, by omega⟩, List.getD_append_right _ _ _ _ (by omega), hlen, hjc]
      simp
    · rw [if_neg (by omega), h.get _ _ hk hj]
      rcases Nat.lt_or_gt_of_ne hjc with h1 | h1
      · rw [List.getD_eq_default _ _ (by omega), List.getD_eq_default _ _ (by
          rw [List.length_append, hlen]; exact h1)]
      · rw [List.getD_append _ _ _ _ (by omega)]
  · have hnone : ([a].filter fun b => decide (eCol b = k)).map eRow = [] := by simp [hka]
    rw [hnone, List.append_nil, if_neg, h.get _ _ hk hj]
    rintro ⟨h1, _⟩
    rcases Nat.lt_or_gt_of_ne hka with h2 | h2
    · have := below_mono eCol D (a := eCol a + 1) (b := k) (by omega); omega
    · have := below_mono eCol D (a := k + 1) (b := eCol a) (by omega); omega

/-- The neighbours of node `u`, in the order in which they are stored. -/
def nbrs (A : Sp V) (u : Nat) : List Nat :=
  (((A.tagged.flatMap dup).filter offd).filter fun a => decide (eCol a = u)).map eRow

theorem fullSym_wp (h : A.PatWF) (hn : A.rows = A.cols) {nnz : Nat}
    (hcap : (A.tagged.flatMap dup).length + A.cols ≤ 2 * nnz) :
    ∃ out, fullSym A nnz = ok (ptrArr eCol A.cols (A.tagged.flatMap dup), out) ∧
      Pad A.cols (2 * nnz - A.cols) (A.tagged.flatMap dup) (A.tagged.flatMap dup)
        (cntArr eCol A.cols ((A.tagged.flatMap dup).filter offd), out) := by
  have hpl := h.plen
  have hmem := mem_dup h hn
  let items := A.tagged.flatMap dup
  have hsplit : ∀ pre post e, A.tagged = pre ++ e :: post →
      items = pre.flatMap dup ++ (dup e ++ post.flatMap dup) := by
    intro pre post e he
    have : items = A.tagged.flatMap dup := rfl
    rw [this, he, List.flatMap_append, List.flatMap_cons]
  unfold fullSym
  rw [if_neg (by omega)]
  have hcount := forCols_wp h (fun pre s => s = cntArr eCol A.cols (pre.flatMap dup))
    (body := fun c j ind => do
        let r ← rd A.i j
        let v ← rd ind c
        let ind ← wr ind c (v + 1)
        if r ≠ c then do
          let v ← rd ind r
          wr ind r (v + 1)
        else ok ind) (s := List.replicate A.cols 0) (by rw [List.flatMap_nil, cntArr_nil]) (by
    rintro pre post r c j _ he hj hc hr rfl
    have hrr : r < A.cols := by
      have := tagged_rows h ((r, c), j) (by rw [he]; simp)
      dsimp only at this; omega
    rw [rd_i hr, ok_bind, cntArr_rd _ _ hc, ok_bind,
      cntArr_wr (a := ((r, c), j)) eCol (pre.flatMap dup) hc, ok_bind, List.flatMap_append]
    by_cases hrc : r = c
    · rw [if_neg (by simpa using hrc), wp_ok]
      simp [dup, hrc]
    · rw [if_pos (by simpa using hrc), cntArr_rd _ _ hrr, ok_bind,
        cntArr_wr (a := ((c, r), j)) eCol _ hrr, wp_ok]
      simp [dup, hrc])
  unfold countSym
  obtain ⟨ind, hi1, hi2⟩ := wp_iff.1 hcount
  rw [hi1]
  simp only [ok_bind]
  subst hi2
  rw [wr_eq (by rw [List.length_replicate]; omega), ok_bind]
  have hptr := prefix_loop_wp eCol (m := A.cols) items (lo := 0)
    (p0 := (List.replicate (A.cols + 1) 0).set 0 0)
    (f := fun c p => do
      let a ← rd p c
      let b ← rd (cntArr eCol A.cols items) c
      wr p (c + 1) (a + b)) (by rw [List.length_set, List.length_replicate])
    (by rw [getD_set, if_pos ⟨rfl, by rw [List.length_replicate]; omega⟩]) (fun k p _ => rfl)
  rw [Nat.add_zero] at hptr
  rw [hptr]
  simp only [ok_bind]
  have hplace := forCols_wp h
    (fun pre s => Pad A.cols (2 * nnz - A.cols) items (pre.flatMap dup) s)
    (body := fun c j s => do
        let r ← rd A.i j
        if r ≠ c then do
          let s ← putSym (ptrArr eCol A.cols items) c r s
          putSym (ptrArr eCol A.cols items) r c s
        else ok s)
    (s := (List.replicate A.cols 0, List.replicate (2 * nnz - A.cols) 0))
    ⟨by rw [List.flatMap_nil, List.filter_nil, cntArr_nil], by simp, by
      intro k j _ _
      simp only [List.flatMap_nil, List.filter_nil, List.map_nil]
      rw [List.getD_nil]
      by_cases hlt : below eCol items k + j < 2 * nnz - A.cols
      · rw [getD_replicate _ _ _ _ hlt]
      · rw [List.getD_eq_default _ _ (by rw [List.length_replicate]; omega)]⟩ (by
    intro pre post r c j s he hj hc hr hI
    have hrr : r < A.cols := by
      have := tagged_rows h ((r, c), j) (by rw [he]; simp)
      dsimp only at this; omega
    have hs := hsplit pre post _ he
    have hlen : items.length ≤ 2 * nnz - A.cols := by
      show (A.tagged.flatMap dup).length ≤ _; omega
    rw [rd_i hr, ok_bind, List.flatMap_append]
    by_cases hrc : r = c
    · rw [if_neg (by simpa using hrc), wp_ok]
      have : [((r, c), j)].flatMap dup = [((r, c), j)] := by simp [dup, hrc]
      rw [this]
      exact hI.skip (by simp [offd, hrc])
    · rw [if_pos hrc]
      have e1 : dup ((r, c), j) = [((r, c), j), ((c, r), j)] := by simp [dup, hrc]
      have e2 : [((r, c), j)].flatMap dup = [((r, c), j), ((c, r), j)] := by simp [dup, hrc]
      rw [e1] at hs
      obtain ⟨s1, k1, k2⟩ := hI.step (a := ((r, c), j)) (post := ((c, r), j) :: post.flatMap dup)
        (by simpa using hs) (by simpa [offd] using hrc) hc hlen
      obtain ⟨s2, k3, k4⟩ := k2.step (a := ((c, r), j)) (post := post.flatMap dup)
        (by simpa using hs) (by simpa [offd] using fun h => hrc h.symm) hrr hlen
      rw [show putSym (ptrArr eCol A.cols items) c r s = ok s1 from k1, ok_bind,
        show putSym (ptrArr eCol A.cols items) r c s1 = ok s2 from k3, wp_ok, e2]
      simpa using k4)
  obtain ⟨s, k1, k2⟩ := wp_iff.1 hplace
  refine ⟨s.2, by rw [k1, ok_bind], ?_⟩
  rw [← k2.ind]
  exact k2

/-- The diagonal entries of the columns before `c`. -/
theorem countP_coordsTo (hd : ∀ c, c < A.cols → (A.colRows c).count c = 1) {c : Nat} (hc : c ≤ A.cols) :
    (A.coordsTo c).countP (fun e => decide (e.1 = e.2)) = c := by
  induction c with
  | zero => rfl
  | succ c ih =>
    rw [coordsTo_succ, List.countP_append, ih (by omega), List.countP_map]
    have := hd c (by omega)
    rw [← this]
    congr 1

theorem dup_length (l : List Item) :
    (l.flatMap dup).length + l.countP (fun e => decide (e.1.1 = e.1.2)) = 2 * l.length := by
  induction l with
  | nil => rfl
  | cons a l ih =>
    rw [List.flatMap_cons, List.length_append, List.length_cons, List.countP_cons]
    by_cases h : a.1.1 = a.1.2
    · have e : (dup a).length = 1 := by simp [dup, h]
      rw [e, if_pos (by simpa using h)]; omega
    · have e : (dup a).length = 2 := by simp [dup, h]
      rw [e, if_neg (by simpa using h)]; omega

theorem tagged_diag (hd : ∀ c, c < A.cols → (A.colRows c).count c = 1) :
    A.tagged.countP (fun e => decide (e.1.1 = e.1.2)) = A.cols := by
  have h1 := countP_coordsTo hd (Nat.le_refl A.cols)
  rw [coordsTo_cols, ← tagged_fst, List.countP_map] at h1
  exact h1

theorem mem_nbrs {u v : Nat} :
    v ∈ nbrs A u ↔ u ≠ v ∧ ((u, v) ∈ A.coords ∨ (v, u) ∈ A.coords) := by
  have ht : ∀ r c, (r, c) ∈ A.coords ↔ ∃ j, ((r, c), j) ∈ A.tagged := by
    intro r c
    rw [← tagged_fst, List.mem_map]
    constructor
    · rintro ⟨⟨e, j⟩, h1, h2⟩
      dsimp only at h2; subst h2
      exact ⟨j, h1⟩
    · rintro ⟨j, h1⟩; exact ⟨_, h1, rfl⟩
  unfold nbrs
  rw [List.mem_map, ht, ht]
  constructor
  · rintro ⟨a, ha, rfl⟩
    rw [List.mem_filter, List.mem_filter, List.mem_flatMap] at ha
    obtain ⟨⟨⟨e, he, hae⟩, h1⟩, h2⟩ := ha
    simp only [decide_eq_true_eq, offd] at h1 h2
    subst h2
    refine ⟨fun h => h1 h.symm, ?_⟩
    unfold dup at hae
    split at hae
    · rw [List.mem_singleton] at hae; subst hae
      exact .inr ⟨a.2, he⟩
    · simp only [List.mem_cons, List.not_mem_nil, or_false] at hae
      rcases hae with rfl | rfl
      · exact .inr ⟨a.2, he⟩
      · exact .inl ⟨e.2, he⟩
  · rintro ⟨h1, ⟨j, h2⟩ | ⟨j, h2⟩⟩
    · refine ⟨((v, u), j), ?_, rfl⟩
      rw [List.mem_filter, List.mem_filter, List.mem_flatMap]
      refine ⟨⟨⟨_, h2, ?_⟩, by simpa [offd] using fun h => h1 h.symm⟩, by simp⟩
      simp [dup, h1]
    · refine ⟨((v, u), j), ?_, rfl⟩
      rw [List.mem_filter, List.mem_filter, List.mem_flatMap]
      have h1' : v ≠ u := fun h => h1 h.symm
      refine ⟨⟨⟨_, h2, ?_⟩, by simpa [offd] using h1'⟩, by simp⟩
      simp [dup, h1']

/-- The number of slots of a node: its neighbours and its diagonal entries. -/
theorem slots {u : Nat} (hu : u < A.cols) :
    cntKey eCol (A.tagged.flatMap dup) u = (nbrs A u).length + (A.colRows u).count u := by
  have h1 : ∀ l : List Item, cntKey eCol (l.flatMap dup) u
      = cntKey eCol ((l.flatMap dup).filter offd) u + (l.map Prod.fst).count (u, u) := by
    intro l
    induction l with
    | nil => rfl
    | cons a l ih =>
      rw [List.flatMap_cons, List.filter_append, cntKey_append, cntKey_append, ih, List.map_cons,
        List.count_cons]
      obtain ⟨⟨r, c⟩, j⟩ := a
      by_cases hrc : r = c
      · subst hrc
        have e1 : dup ((r, r), j) = [((r, r), j)] := by simp [dup]
        have e2 : [((r, r), j)].filter offd = [] := by simp [offd]
        rw [e1, e2]
        by_cases hru : r = u
        · subst hru; simp [cntKey]; omega
        · simp [cntKey, hru]
      · have e1 : dup ((r, c), j) = [((r, c), j), ((c, r), j)] := by simp [dup, hrc]
        have e2 : [((r, c), j), ((c, r), j)].filter offd = [((r, c), j), ((c, r), j)] := by
          simp [offd, hrc, Ne.symm hrc]
        have e3 : ¬ ((r, c) == (u, u)) = true := by
          simp only [beq_iff_eq, Prod.mk.injEq]
          rintro ⟨rfl, rfl⟩; exact hrc rfl
        simp only [] at *
        rw [e1, e2, if_neg e3]
        omega
  rw [h1, tagged_fst]
  congr 1
  · unfold nbrs
    rw [List.length_map, filter_length]
  · have h2 : ∀ c, c ≤ A.cols → (A.coordsTo c).count (u, u)
        = if u < c then (A.colRows u).count u else 0 := by
      intro c hc
      induction c with
      | zero => rfl
      | succ c ih =>
        rw [coordsTo_succ, List.count_append, ih (by omega)]
        have h3 : ((A.colRows c).map fun r => (r, c)).count (u, u)
            = if u = c then (A.colRows u).count u else 0 := by
          by_cases e : u = c
          · subst e
            rw [if_pos rfl]
            exact List.count_map_of_injective _ (fun r => (r, u)) (fun a b h => by simpa using h) u
          · rw [if_neg e, List.count_eq_zero]
            simp only [List.mem_map, Prod.mk.injEq, not_exists, not_and]
            intro x _ _ h; exact e h.symm
        rw [h3]
        by_cases e1 : u < c
        · rw [if_pos e1, if_neg (by omega), if_pos (by omega), Nat.add_zero]
        · by_cases e2 : u = c
          · rw [if_neg e1, if_pos e2, if_pos (by omega), Nat.zero_add]
          · rw [if_neg e1, if_neg e2, if_neg (by omega)]
    have := h2 A.cols (Nat.le_refl _)
    rwa [if_pos hu, coordsTo_cols] at this

/-- The column of a node: its neighbours and a zero for each diagonal entry. -/
theorem Pad.col {cap : Nat} {s : List Nat × List Nat} (hcap : (A.tagged.flatMap dup).length ≤ cap)
    (hs : Pad A.cols cap (A.tagged.flatMap dup) (A.tagged.flatMap dup) s) {u : Nat} (hu : u < A.cols) :
    (⟨A.cols, ptrArr eCol A.cols (A.tagged.flatMap dup), s.2⟩ : Csc).col u
      = nbrs A u ++ List.replicate ((A.colRows u).count u) 0 := by
  have hlen := below_le_length eCol (A.tagged.flatMap dup) (u + 1)
  have hl := hs.len
  have hsl := slots hu
  have e : (⟨A.cols, ptrArr eCol A.cols (A.tagged.flatMap dup), s.2⟩ : Csc).col u
      = slice s.2 (below eCol (A.tagged.flatMap dup) u) (below eCol (A.tagged.flatMap dup) (u + 1)) := by
    unfold Csc.col Csc.ptr
    dsimp only
    rw [ptrArr_getD _ _ (by omega), ptrArr_getD _ _ (by omega)]
    rfl
  have hsu := below_succ eCol (A.tagged.flatMap dup) u
  have hlen' : (slice s.2 (below eCol (A.tagged.flatMap dup) u)
      (below eCol (A.tagged.flatMap dup) (u + 1))).length = cntKey eCol (A.tagged.flatMap dup) u := by
    rw [slice_length (by omega)]; omega
  rw [e]
  refine List.ext_getElem (by rw [hlen', List.length_append, List.length_replicate, hsl]) ?_
  intro j hj1 hj2
  rw [hlen'] at hj1
  have hg := hs.get u j hu hj1
  change _ = (nbrs A u).getD j 0 at hg
  have h1 : (slice s.2 (below eCol (A.tagged.flatMap dup) u)
      (below eCol (A.tagged.flatMap dup) (u + 1)))[j]? = some (s.2.getD (below eCol (A.tagged.flatMap dup) u + j) 0) := by
    rw [getElem?_slice, if_pos (by omega)]
    exact getElem?_getD 0 (by omega)
  rw [List.getElem?_eq_getElem (by omega)] at h1
  rw [Option.some.inj h1, hg]
  by_cases hjn : j < (nbrs A u).length
  · rw [List.getElem_append_left hjn, List.getD_eq_getElem _ _ hjn]
  · rw [List.getElem_append_right (by omega), List.getD_eq_default _ _ (by omega)]
    simp

end Verif.Metis
