import Verif.Model.TransSym
import Verif.Proof.SparsePerm

/-! # `transpose_symmetric` as a counting sort -/

namespace Verif.TransSym
open Res Sp

variable {V : Type} {A : Sp V}

/-- A stored entry with its new position. -/
abbrev Item := (Nat × Nat) × Nat

/-- The kept entries of column `c`, which becomes column `j`; `π` renames rows. -/
def colItems (upper : Bool) (π : Nat → Nat) (j c : Nat) (es : List Item) : List Item :=
  (es.filter fun e => keep (!upper) (eRow e) c).map fun e => ((π (eRow e), j), e.2)

/-- Column `c` with storage positions. -/
def tcol (A : Sp V) (c : Nat) : List Item := slice A.tagged (A.p.getD c 0) (A.p.getD (c + 1) 0)

/-- The kept entries in the order of the loops. -/
def items (A : Sp V) (n : Nat) (f : Nat → Nat) (upper : Bool) (π : Nat → Nat) : List Item :=
  (List.range n).flatMap fun j => colItems upper π j (f j) (tcol A (f j))

theorem tagged_flatMap (h : A.PatWF) : A.tagged = (List.range A.cols).flatMap (tcol A) := by
  have key : ∀ c, c ≤ A.cols → A.tagged.take (A.p.getD c 0) = (List.range c).flatMap (tcol A) := by
    intro c
    induction c with
    | zero => intro _; rw [h.p0]; rfl
    | succ c ih =>
      intro hc
      rw [List.range_succ, List.flatMap_append, ← ih (by omega)]
      simp only [List.flatMap_cons, List.flatMap_nil, List.append_nil]
      rw [← slice_zero, ← slice_zero, tcol, slice_append (Nat.zero_le _) (h.mono c (by omega))]
  have := key A.cols (le_refl _)
  rwa [← tagged_length h, List.take_length] at this

theorem mem_tcol (h : A.PatWF) {c : Nat} (hc : c < A.cols) {e : Item} (he : e ∈ tcol A c) :
    eCol e = c ∧ eRow e < A.rows ∧ e.2 < A.p.getD A.cols 0 ∧ A.i.getD e.2 0 = eRow e ∧
      e ∈ A.tagged := by
  unfold tcol at he
  rw [mem_slice] at he
  obtain ⟨j, h1, h2, h3⟩ := he
  have hg := tagged_get h hc h1 h2
  rw [h3] at hg
  obtain ⟨-, -, -, -, -, h5⟩ := tagged_inv h h3
  have := h.mono_le (a := c + 1) (b := A.cols) hc (le_refl _)
  cases Option.some.inj hg
  exact ⟨rfl, h5, by show j < _; omega, rfl, List.mem_of_getElem? h3⟩

theorem mem_items (h : A.PatWF) {n : Nat} {f π : Nat → Nat} {upper : Bool}
    (hf : ∀ j, j < n → f j < A.cols) {e : Item} (he : e ∈ items A n f upper π) :
    ∃ r j, j < n ∧ r < A.rows ∧ e.1 = (π r, j) ∧ keep (!upper) r (f j) = true ∧
      e.2 < A.p.getD A.cols 0 ∧ ((r, f j), e.2) ∈ A.tagged := by
  unfold items at he
  rw [List.mem_flatMap] at he
  obtain ⟨j, hj, he⟩ := he
  rw [List.mem_range] at hj
  unfold colItems at he
  rw [List.mem_map] at he
  obtain ⟨a, ha, rfl⟩ := he
  obtain ⟨ha, hk⟩ := List.mem_filter.1 ha
  obtain ⟨h1, h2, h3, h4, h5⟩ := mem_tcol h (hf j hj) ha
  refine ⟨eRow a, j, hj, h2, rfl, hk, h3, ?_⟩
  rw [← h1]
  exact h5

/-- Invariant rule for the loops over kept entries. -/
theorem forKept_wp (h : A.PatWF) {n : Nat} (hc : A.cols = n) (hr : A.rows = n)
    {perm : Option (List Nat)} {pinv : Option (List (Option Nat))} {upper : Bool} {π : Nat → Nat}
    (hp1 : ∀ j, j < n → renRd perm j = ok (ren perm j)) (hp2 : ∀ j, j < n → ren perm j < n)
    (hpi : ∀ i, i < n → newRow pinv i = ok (π i))
    {σ : Type} (I : List Item → σ → Prop) {body : Nat → Nat → Nat → σ → Res σ} {s : σ}
    (h0 : I [] s)
    (hstep : ∀ pre post i j p s, items A n (ren perm) upper π = pre ++ ((i, j), p) :: post →
      I pre s → wp (body i j p s) (I (pre ++ [((i, j), p)]))) :
    wp (forKept A n perm pinv upper body s) (I (items A n (ren perm) upper π)) := by
  have hpl := h.plen
  let C : Nat → List Item := fun j => colItems upper π j (ren perm j) (tcol A (ren perm j))
  unfold forKept
  refine forRange_wp (fun j s => I ((List.range j).flatMap C) s) (Nat.zero_le _) h0 ?_
  intro j s _ hj hI
  have hcj := hp2 j hj
  rw [hp1 j hj, ok_bind, rd_getD 0 (by omega), ok_bind, rd_getD 0 (by omega), ok_bind]
  have hle := h.le_len (a := ren perm j + 1) (by omega)
  let lo := A.p.getD (ren perm j) 0
  refine forRange_wp' (fun q s => I ((List.range j).flatMap C ++
    colItems upper π j (ren perm j) (slice A.tagged lo q)) s) (h.mono _ (by omega)) ?_ ?_ ?_
  · rw [slice_self]; simpa [colItems] using hI
  · intro q s hq1 hq2 hI
    have hg := tagged_get h (show ren perm j < A.cols by omega) hq1 hq2
    obtain ⟨-, -, -, -, -, hlt⟩ := tagged_inv h hg
    change A.i.getD q 0 < A.rows at hlt
    rw [rd_getD 0 (by omega), ok_bind]
    have hs : slice A.tagged lo (q + 1)
        = slice A.tagged lo q ++ [((A.i.getD q 0, ren perm j), q)] := slice_succ hq1 hg
    have hs2 : colItems upper π j (ren perm j) (slice A.tagged lo (q + 1))
        = colItems upper π j (ren perm j) (slice A.tagged lo q) ++
          colItems upper π j (ren perm j) [((A.i.getD q 0, ren perm j), q)] := by
      rw [hs]; simp [colItems]
    by_cases hk : keep (!upper) (A.i.getD q 0) (ren perm j) = true
    · rw [if_pos hk, hpi _ (by omega), ok_bind]
      have hone : colItems upper π j (ren perm j) [((A.i.getD q 0, ren perm j), q)]
          = [((π (A.i.getD q 0), j), q)] := by
        unfold colItems
        rw [List.filter_cons, if_pos hk]; rfl
      rw [hs2, hone, ← List.append_assoc]
      have hrest : ∃ post, items A n (ren perm) upper π
          = ((List.range j).flatMap C ++ colItems upper π j (ren perm j) (slice A.tagged lo q)) ++
            ((π (A.i.getD q 0), j), q) :: post := by
        have e1 : (List.range (j + 1)).flatMap C <+: (List.range n).flatMap C :=
          flatMap_range_prefix C hj
        have e2 : slice A.tagged lo (q + 1) <+: tcol A (ren perm j) := by
          have : tcol A (ren perm j) = slice A.tagged lo (q + 1) ++
              slice A.tagged (q + 1) (A.p.getD (ren perm j + 1) 0) :=
            (slice_append (by omega) (by omega)).symm
          rw [this]; exact List.prefix_append _ _
        have e3 : colItems upper π j (ren perm j) (slice A.tagged lo (q + 1)) <+: C j := by
          exact (e2.filter _).map _
        rw [hs2, hone] at e3
        obtain ⟨t1, ht1⟩ := e1
        obtain ⟨t2, ht2⟩ := e3
        refine ⟨t2 ++ t1, ?_⟩
        show (List.range n).flatMap C = _
        rw [← ht1, flatMap_range_succ, ← ht2]
        simp
      obtain ⟨post, hpost⟩ := hrest
      exact hstep _ post _ _ _ s hpost hI
    · rw [if_neg hk, wp_ok]
      have hone : colItems upper π j (ren perm j) [((A.i.getD q 0, ren perm j), q)] = [] := by
        unfold colItems
        rw [List.filter_cons, if_neg hk]; rfl
      rw [hs2, hone, List.append_nil]
      exact hI
  · intro s hs
    rw [flatMap_range_succ]
    exact hs

/-- Next free positions. -/
def posArr (key : Item → Nat) (m : Nat) (its pre : List Item) : List Nat :=
  (List.range m).map (posOf key its pre)

theorem posArr_length (key : Item → Nat) (m : Nat) (its pre : List Item) :
    (posArr key m its pre).length = m := by simp [posArr]

theorem posArr_getD (key : Item → Nat) {m k : Nat} (its pre : List Item) (h : k < m) :
    (posArr key m its pre).getD k 0 = posOf key its pre k := by
  simp [posArr, List.getD_eq_getElem?_getD, h]

theorem posArr_set (key : Item → Nat) {m : Nat} (its pre : List Item) (a : Item) :
    (posArr key m its pre).set (key a) (posOf key its pre (key a) + 1)
      = posArr key m its (pre ++ [a]) := by
  refine ext_getD 0 (by simp [posArr]) ?_
  intro k hk
  rw [List.length_set, posArr_length] at hk
  rw [getD_set, posArr_length, posArr_getD _ _ _ hk, posArr_getD _ _ _ hk]
  unfold posOf
  rw [cntKey_concat]
  by_cases e : key a = k
  · subst e; rw [if_pos ⟨rfl, hk⟩, if_pos rfl]; omega
  · rw [if_neg (by tauto), if_neg e]; omega

/-- Invariant of the placing loop. -/
structure SymInv [Zero V] (A : Sp V) (pat : Bool) (key f : Item → Nat) (m nnz : Nat)
    (its pre : List Item) (s : St V) : Prop where
  w : s.w = posArr key m its pre
  ilen : s.i.length = nnz
  xlen : s.x.length = nnz
  idx : Filled key f its pre (s.i.take its.length)
  val : pat = false → Filled key A.eVal its pre (s.x.take its.length)

theorem placeSym_wp [Zero V] {pat : Bool} {key f : Item → Nat} {m nnz : Nat}
    {its pre post : List Item} {a : Item} {s : St V}
    (h : SymInv A pat key f m nnz its pre s) (he : its = pre ++ a :: post) (hk : key a < m)
    (hx : pat = false → a.2 < A.x.length) (hn : its.length ≤ nnz) :
    wp (placeSym A pat (key a) (f a) a.2 s) (SymInv A pat key f m nnz its (pre ++ [a])) := by
  have hpos := posOf_lt_length key he
  unfold placeSym
  rw [h.w, rd_getD 0 (by rw [posArr_length]; exact hk), ok_bind, posArr_getD _ _ _ hk,
    wr_eq (by rw [posArr_length]; exact hk), ok_bind, posArr_set _ _ _ _,
    wr_eq (by rw [h.ilen]; omega), ok_bind]
  cases pat with
  | true =>
    rw [if_pos rfl, ok_bind, wp_ok]
    refine ⟨rfl, by simpa using h.ilen, h.xlen, ?_, by simp⟩
    dsimp only
    rw [List.take_set]
    exact h.idx.step he
  | false =>
    rw [if_neg (by simp), rd_getD 0 (hx rfl), ok_bind, wr_eq (by rw [h.xlen]; omega), ok_bind, wp_ok]
    refine ⟨rfl, by simpa using h.ilen, by simpa using h.xlen, ?_, ?_⟩
    · dsimp only
      rw [List.take_set]
      exact h.idx.step he
    · intro _
      dsimp only
      rw [List.take_set]
      exact (h.val rfl).step he

/-- Key of an item. -/
abbrev tKey (permute upper : Bool) (e : Item) : Nat := (target permute upper e.1.1 e.1.2).1
/-- Row index of an item. -/
abbrev tRow (permute upper : Bool) (e : Item) : Nat := (target permute upper e.1.1 e.1.2).2

theorem countKey_eq (permute upper : Bool) (i j : Nat) :
    countKey permute upper i j = (target permute upper i j).1 := by
  unfold countKey target
  cases permute <;> cases upper <;> simp <;> split <;> simp <;> omega

theorem target_lt {permute upper : Bool} {i j n : Nat} (hi : i < n) (hj : j < n) :
    (target permute upper i j).1 < n ∧ (target permute upper i j).2 < n := by
  unfold target
  cases permute <;> cases upper <;> simp only [if_true, Bool.false_eq_true, if_false] <;>
    (try split) <;> exact ⟨by assumption, by assumption⟩

/-- The pointer loops. -/
theorem ptr_wp (key : Item → Nat) {m : Nat} (its : List Item) (hk : ∀ a ∈ its, key a < m)
    (hm : 0 < m) :
    ∃ s, forRange 0 m (fun k (s : List Nat × Nat) => do
      let p ← wr s.1 k s.2
      let v ← rd (cntArr key m its) k
      ok (p, s.2 + v)) (List.replicate (newPtrLen m) 0, 0) = ok s ∧
      wr s.1 m s.2 = ok (ptrArr key m its) ∧ s.2 = its.length := by
  have h := forRange_wp (fun k (s : List Nat × Nat) => s.2 = below key its k ∧
      s.1.length = m + 1 ∧ ∀ j, j < k → s.1.getD j 0 = below key its j)
      (lo := 0) (hi := m) (f := fun k (s : List Nat × Nat) => do
        let p ← wr s.1 k s.2
        let v ← rd (cntArr key m its) k
        ok (p, s.2 + v)) (s := (List.replicate (newPtrLen m) 0, 0)) (Nat.zero_le _)
      ⟨(below_zero _ _).symm, by simp [newPtrLen]; omega, by omega⟩ ?_
  · obtain ⟨s, h1, h2, h3, h4⟩ := wp_iff.1 h
    refine ⟨s, h1, ?_, by rw [h2, below_all key its m hk]⟩
    rw [wr_eq (by omega)]
    congr 1
    refine ext_getD 0 (by simpa using h3) ?_
    intro k h5
    have h7 : k ≤ m := by simp at h5; omega
    rw [ptrArr_getD key its h7, getD_set]
    by_cases hkm : m = k
    · rw [if_pos ⟨hkm, by omega⟩, ← hkm, h2]
    · rw [if_neg (by omega), h4 k (by omega)]
  · rintro k ⟨p, c⟩ - hkm ⟨h1, h2, h3⟩
    dsimp only at h1 h2 h3 ⊢
    rw [wr_eq (by omega)]
    simp only [ok_bind, cntArr_rd key its hkm, wp_ok]
    refine ⟨by rw [below_succ, h1], by simpa using h2, ?_⟩
    intro j hj
    rw [getD_set]
    by_cases e : k = j
    · rw [if_pos ⟨e, by omega⟩, h1, e]
    · rw [if_neg (by omega), h3 j (by omega)]

theorem wi_eq (key : Item → Nat) {m : Nat} (its : List Item) {w0 : List Nat} (hw : w0.length = m) :
    forRange 0 m (fun k w => do
      let v ← rd (ptrArr key m its) k
      wr w k v) w0 = ok (posArr key m its []) := by
  have h := forRange_wp (fun k (w : List Nat) => w.length = m ∧
      ∀ j, j < k → w.getD j 0 = below key its j)
      (lo := 0) (hi := m) (f := fun k w => do
        let v ← rd (ptrArr key m its) k
        wr w k v) (s := w0) (Nat.zero_le _) ⟨hw, by omega⟩ ?_
  · obtain ⟨s, h1, h2, h3⟩ := wp_iff.1 h
    rw [h1]
    congr 1
    refine ext_getD 0 (by rw [h2, posArr_length]) ?_
    intro k hk
    rw [h3 k (by omega), posArr_getD _ _ _ (by omega)]
    simp [posOf]
  · intro k w _ hk ⟨h1, h2⟩
    rw [ptrArr_rd key its (by omega), ok_bind, wr_eq (by omega), wp_ok]
    refine ⟨by simpa using h1, ?_⟩
    intro j hj
    rw [getD_set]
    by_cases e : k = j
    · rw [if_pos ⟨e, by omega⟩, e]
    · rw [if_neg (by omega), h2 j (by omega)]

/-- The whole function, given the inverse permutation. -/
theorem transposeSymmetric_wp [Zero V] (h : A.PatWF) (hsq : A.rows = A.cols) (hpos : 0 < A.cols)
    {stype : Int} (hs : stype ≠ 0) {nnz : Nat} {pat : Bool}
    (hx : pat = false → A.p.getD A.cols 0 ≤ A.x.length) {perm : Option (List Nat)} {π : Nat → Nat}
    {pinv : Option (List (Option Nat))} (hb : buildPinv A.cols perm = ok (Ctl.next pinv))
    (hp1 : ∀ j, j < A.cols → renRd perm j = ok (ren perm j))
    (hp2 : ∀ j, j < A.cols → ren perm j < A.cols)
    (hpi : ∀ i, i < A.cols → newRow pinv i = ok (π i)) (hpl : ∀ i, i < A.cols → π i < A.cols)
    (hn : (items A A.cols (ren perm) (decide (0 < stype)) π).length ≤ nnz) :
    ∃ F, transposeSymmetric A stype nnz pat perm = ok (some (F, -stype)) ∧
      F.rows = A.cols ∧ F.cols = A.cols ∧ F.i.length = nnz ∧ F.x.length = nnz ∧
      FromItems pat F (tKey perm.isSome (decide (0 < stype)))
        (tRow perm.isSome (decide (0 < stype))) A.eVal
        (items A A.cols (ren perm) (decide (0 < stype)) π) := by
  let upper := decide (0 < stype)
  let key := tKey perm.isSome upper
  let row := tRow perm.isSome upper
  let its := items A A.cols (ren perm) upper π
  have hmem : ∀ a ∈ its, a.1.1 < A.cols ∧ a.1.2 < A.cols ∧ a.2 < A.p.getD A.cols 0 := by
    intro a ha
    obtain ⟨r, j, h1, h2, h3, h4, h5, h6⟩ := mem_items h hp2 ha
    rw [h3]
    exact ⟨hpl r (by omega), h1, h5⟩
  have hkeys : ∀ a ∈ its, key a < A.cols := fun a ha =>
    (target_lt (hmem a ha).1 (hmem a ha).2.1).1
  have hrows : ∀ a ∈ its, row a < A.cols := fun a ha =>
    (target_lt (hmem a ha).1 (hmem a ha).2.1).2
  have hcnt : forKept A A.cols perm pinv upper (fun i j _ cnt => do
      let t := countKey perm.isSome upper i j
      let v ← rd cnt t
      wr cnt t (v + 1)) (List.replicate A.cols 0) = ok (cntArr key A.cols its) := by
    have := forKept_wp h rfl hsq hp1 hp2 hpi (I := fun pre cnt => cnt = cntArr key A.cols pre)
      (upper := upper) (body := fun i j _ cnt => do
        let t := countKey perm.isSome upper i j
        let v ← rd cnt t
        wr cnt t (v + 1)) (s := List.replicate A.cols 0) (cntArr_nil _ _).symm ?_
    · obtain ⟨s, h1, h2⟩ := wp_iff.1 this
      rw [h1, h2]
    · intro pre post i j p s he hI
      subst hI
      have hk := hkeys ((i, j), p) (by show _ ∈ items _ _ _ _ _; rw [he]; simp)
      rw [countKey_eq]
      show wp (rd (cntArr key A.cols pre) (key ((i, j), p)) >>= fun v =>
        wr (cntArr key A.cols pre) (key ((i, j), p)) (v + 1)) _
      rw [cntArr_rd key pre hk, ok_bind, cntArr_wr key pre hk, wp_ok]
  obtain ⟨sp, hs1, hs2, hs3⟩ := ptr_wp key its hkeys hpos
  have hplace := forKept_wp h rfl hsq hp1 hp2 hpi (upper := upper)
    (I := SymInv A pat key row A.cols nnz its) (body := fun i j p s =>
        placeSym A pat (target perm.isSome upper i j).1 (target perm.isSome upper i j).2 p s)
    (s := ⟨posArr key A.cols its [], List.replicate nnz 0, List.replicate nnz 0⟩)
    ⟨rfl, by simp, by simp, Filled.init _ _ (by simpa using hn),
      fun _ => Filled.init _ _ (by simpa using hn)⟩ (by
      intro pre post i j p s he hI
      have hm : ((i, j), p) ∈ its := by show _ ∈ items _ _ _ _ _; rw [he]; simp
      exact placeSym_wp (a := ((i, j), p)) hI he (hkeys _ hm)
        (fun hp => lt_of_lt_of_le (hmem _ hm).2.2 (hx hp)) hn)
  obtain ⟨r, hr1, hr2⟩ := wp_iff.1 hplace
  refine ⟨⟨A.cols, A.cols, ptrArr key A.cols its, r.i, r.x⟩, ?_, rfl, rfl, hr2.ilen, hr2.xlen,
    ⟨rfl, hkeys, hrows, hr2.idx.done hkeys, fun hp => (hr2.val hp).done hkeys⟩⟩
  unfold transposeSymmetric
  rw [if_neg (by tauto)]
  dsimp only
  rw [hsq, hb, ok_bind]
  dsimp only
  rw [hcnt, ok_bind, hs1, ok_bind, hs2, ok_bind, wi_eq key its (cntArr_length _ _ _), ok_bind,
    if_neg (by rw [hs3]; show ¬ nnz < its.length; have : its.length ≤ nnz := hn; omega), hr1]
  rfl

/-- The items are the kept entries, relabelled. -/
theorem items_perm (h : A.PatWF) {perm : Option (List Nat)} {upper : Bool} {π : Nat → Nat}
    (hq : ((List.range A.cols).map (ren perm)).Perm (List.range A.cols))
    (hπ : ∀ j, j < A.cols → π (ren perm j) = j) :
    (items A A.cols (ren perm) upper π).Perm
      ((A.tagged.filter fun e => keep (!upper) (eRow e) (eCol e)).map
        fun e => ((π (eRow e), π (eCol e)), e.2)) := by
  let G : Nat → List Item := fun c => colItems upper π (π c) c (tcol A c)
  have e1 : items A A.cols (ren perm) upper π = ((List.range A.cols).map (ren perm)).flatMap G := by
    rw [List.flatMap_map]
    refine List.flatMap_congr ?_
    intro j hj
    show _ = colItems upper π (π (ren perm j)) (ren perm j) (tcol A (ren perm j))
    rw [hπ j (List.mem_range.1 hj)]
  have e2 : (A.tagged.filter fun e => keep (!upper) (eRow e) (eCol e)).map
      (fun e => ((π (eRow e), π (eCol e)), e.2)) = (List.range A.cols).flatMap G := by
    rw [tagged_flatMap h, List.filter_flatMap, List.map_flatMap]
    refine List.flatMap_congr ?_
    intro c hc
    rw [List.mem_range] at hc
    show _ = ((tcol A c).filter _).map _
    have e3 : (tcol A c).filter (fun e => keep (!upper) (eRow e) (eCol e))
        = (tcol A c).filter (fun e => keep (!upper) (eRow e) c) := by
      refine List.filter_congr ?_
      intro e he
      rw [(mem_tcol h hc he).1]
    rw [e3]
    refine List.map_congr_left ?_
    intro e he
    rw [(mem_tcol h hc (List.mem_filter.1 he).1).1]
  rw [e1, e2]
  exact hq.flatMap_right G

/-- The check of a permutation succeeds and inverts it. -/
theorem buildPinv_ok {n : Nat} {l : List Nat} (h : l.Perm (List.range n)) :
    ∃ pinv, buildPinv n (some l) = ok (Ctl.next (some pinv)) ∧ pinv.length = n ∧
      ∀ k, k < n → pinv.getD (l.getD k 0) none = some k := by
  have hl : l.length = n := by simpa using h.length_eq
  have hlt : ∀ k, k < n → l.getD k 0 < n := fun k hk =>
    List.mem_range.1 (h.mem_iff.1 (List.mem_of_getElem? (getElem?_getD 0 (by omega))))
  have hnd : l.Nodup := h.nodup_iff.2 List.nodup_range
  have hinj : ∀ a b, a < n → b < n → l.getD a 0 = l.getD b 0 → a = b := by
    intro a b ha hb e
    refine nodup_getElem?_inj hnd (getElem?_getD 0 (by omega)) ?_
    rw [getElem?_getD 0 (by omega), e]
  have key := forRangeB_wp (fun k (pinv : List (Option Nat)) => pinv.length = n ∧
      (∀ m, m < k → pinv.getD (l.getD m 0) none = some m) ∧
      ∀ v, v < n → (∀ m, m < k → l.getD m 0 ≠ v) → pinv.getD v none = none) (fun _ => False)
      (lo := 0) (hi := n) (f := pinvStep n l) (s := List.replicate n none) (Nat.zero_le _)
      ⟨by simp, by omega, fun v hv _ => getD_replicate _ _ _ _ hv⟩ ?_
  · obtain ⟨r, h1, h2⟩ := wp_iff.1 key
    cases r with
    | brk r => exact h2.elim
    | next pinv =>
      refine ⟨pinv, ?_, h2.1, h2.2.1⟩
      unfold buildPinv
      dsimp only
      rw [h1]; rfl
  · intro k pinv _ hk ⟨h1, h2, h3⟩
    have hv := hlt k hk
    unfold pinvStep
    rw [rd_getD 0 (by omega), ok_bind, if_neg (by omega), rd_getD none (by omega), ok_bind,
      h3 _ hv (fun m hm e => by have := hinj m k (by omega) hk e; omega), if_neg (by simp),
      wr_eq (by omega), ok_bind, wp_ok]
    refine ⟨by simpa using h1, ?_, ?_⟩
    · intro m hm
      rw [getD_set]
      by_cases e : l.getD k 0 = l.getD m 0
      · rw [if_pos ⟨e, by omega⟩, hinj k m hk (by omega) e]
      · rw [if_neg (by tauto)]
        refine h2 m ?_
        by_contra hmk
        exact e (by rw [show m = k by omega])
    · intro v hv' hne
      rw [getD_set, if_neg (fun e => hne k (by omega) e.1)]
      exact h3 v hv' (fun m hm => hne m (by omega))

/-- If the check succeeds, `perm` is a permutation. -/
theorem buildPinv_rejects {n : Nat} {l : List Nat} (hl : l.length = n) (hn : n ∉ l)
    (h : ¬ l.Perm (List.range n)) : buildPinv n (some l) = ok (Ctl.brk ()) := by
  have key := forRangeB_wp (fun k (pinv : List (Option Nat)) => pinv.length = n ∧
      (∀ m, m < k → l.getD m 0 < n ∧ pinv.getD (l.getD m 0) none = some m))
      (fun _ => True)
      (lo := 0) (hi := n) (f := pinvStep n l) (s := List.replicate n none) (Nat.zero_le _)
      ⟨by simp, by omega⟩ ?_
  · obtain ⟨r, h1, h2⟩ := wp_iff.1 key
    cases r with
    | brk r => unfold buildPinv; dsimp only; rw [h1]; rfl
    | next pinv =>
      exfalso
      apply h
      have hnd : l.Nodup := by
        rw [List.nodup_iff_injective_getElem]
        intro a b hab
        have ea := (h2.2 a (by omega)).2
        have eb := (h2.2 b (by omega)).2
        have ga : l.getD a 0 = l[a] := by simp [List.getD_eq_getElem?_getD]
        have gb : l.getD b 0 = l[b] := by simp [List.getD_eq_getElem?_getD]
        rw [ga, show l[a] = l[b] from hab, ← gb, eb] at ea
        exact Fin.ext (by simpa using ea.symm)
      refine (List.subperm_of_subset hnd ?_).perm_of_length_le (by simp [hl])
      intro v hv
      obtain ⟨a, ha, rfl⟩ := List.getElem_of_mem hv
      have := (h2.2 a (by omega)).1
      rw [List.mem_range]
      simpa [List.getD_eq_getElem?_getD, ha] using this
  · intro k pinv _ hk ⟨h1, h2⟩
    have hne : l.getD k 0 ≠ n := fun e =>
      hn (e ▸ List.mem_of_getElem? (getElem?_getD 0 (by omega)))
    unfold pinvStep
    rw [rd_getD 0 (by omega), ok_bind]
    by_cases hbig : n < l.getD k 0
    · rw [if_pos hbig, wp_ok]; trivial
    · rw [if_neg hbig, rd_getD none (by omega), ok_bind]
      by_cases hq : pinv.getD (l.getD k 0) none = none
      · rw [if_neg (by simpa using hq), wr_eq (by omega), ok_bind, wp_ok]
        refine ⟨by simpa using h1, ?_⟩
        intro m hm
        by_cases e : m = k
        · subst e
          exact ⟨by omega, by rw [getD_set, if_pos ⟨rfl, by omega⟩]⟩
        · obtain ⟨g1, g2⟩ := h2 m (by omega)
          refine ⟨g1, ?_⟩
          rw [getD_set, if_neg]
          · exact g2
          · rintro ⟨e', -⟩
            rw [e', g2] at hq
            cases hq
      · rw [if_pos hq, wp_ok]; trivial

end Verif.TransSym
