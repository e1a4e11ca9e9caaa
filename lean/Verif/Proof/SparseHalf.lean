import Verif.Proof.SparseConv

/-! # Extensionality, `transpose_general` twice, `make_half`, `make_full` -/

namespace Verif.Sp
open Res

variable {V : Type} [Zero V] {A B : Sp V}

omit [Zero V] in
theorem tagged_map_i (h : A.PatWF) : A.tagged.map eRow = A.i.take (A.p.getD A.cols 0) := by
  apply List.ext_getElem?
  intro j
  rw [List.getElem?_map, List.getElem?_take]
  by_cases hj : j < A.tagged.length
  · have := tagged_inv h (List.getElem?_eq_getElem hj)
    rw [List.getElem?_eq_getElem hj, if_pos (by rwa [← tagged_length h]),
      getElem?_getD 0 (by have := h.bound; rw [tagged_length h] at hj; omega)]
    exact congrArg some this.2.2.1
  · rw [List.getElem?_eq_none (by omega), if_neg (by rwa [← tagged_length h])]; rfl

theorem tagged_map_x (h : A.WF) : A.tagged.map A.eVal = A.x.take (A.p.getD A.cols 0) := by
  have hp := h.toPatWF
  apply List.ext_getElem?
  intro j
  rw [List.getElem?_map, List.getElem?_take]
  by_cases hj : j < A.tagged.length
  · have := tagged_inv hp (List.getElem?_eq_getElem hj)
    rw [List.getElem?_eq_getElem hj, if_pos (by rwa [← tagged_length hp]),
      getElem?_getD 0 (by have := h.xlen; rw [tagged_length hp] at hj; omega)]
    simp only [Option.map_some, eVal, this.1]
  · rw [List.getElem?_eq_none (by omega), if_neg (by rwa [← tagged_length hp])]; rfl

theorem ptr_entries (h : A.WF) {c : Nat} (hc : c ≤ A.cols) :
    A.p.getD c 0 = below (fun e => e.2.1) A.entries c := by
  rw [entries_eq h, below_map, ← below_tagged h.toPatWF hc]
  rfl

/-- Matrices without unused space are determined by their entries. -/
theorem ext_entries (hA : A.WF) (hB : B.WF) (eA : A.Exact) (eB : B.Exact) (hr : A.rows = B.rows)
    (hc : A.cols = B.cols) (he : A.entries = B.entries) : A = B := by
  have hp : A.p = B.p := by
    refine ext_getD 0 (by rw [hA.plen, hB.plen, hc]) ?_
    intro c h
    rw [hA.plen] at h
    rw [ptr_entries hA (by omega), ptr_entries hB (by omega), he]
  have hi : A.i = B.i := by
    have h1 := tagged_map_i hA.toPatWF
    have h2 := tagged_map_i hB.toPatWF
    rw [← eA.1, List.take_length] at h1
    rw [← eB.1, List.take_length] at h2
    rw [← h1, ← h2]
    have := congrArg (List.map Prod.fst) he
    rw [entries_eq hA, entries_eq hB, List.map_map, List.map_map] at this
    exact this
  have hx : A.x = B.x := by
    have h1 := tagged_map_x hA
    have h2 := tagged_map_x hB
    rw [← eA.2, List.take_length] at h1
    rw [← eB.2, List.take_length] at h2
    rw [← h1, ← h2]
    have := congrArg (List.map (fun e => e.2.2)) he
    rw [entries_eq hA, entries_eq hB, List.map_map, List.map_map] at this
    exact this
  cases A; cases B
  simp only at hr hc hp hi hx
  simp [hr, hc, hp, hi, hx]

/-- The entries of the transpose: those of `A` sorted by row. -/
theorem FromItems.entries_transpose (h : A.WF) (hB : FromItems false B eRow eCol A.eVal A.tagged) :
    B.entries = (bucket B.cols (fun e => e.1) A.entries).map swapEntry := by
  rw [hB.entries_items, entries_eq h, bucket_map, List.map_map]
  rfl

theorem entries_twice {C : Sp V} (h : A.WF) (hs : A.ColsSorted) (hB : B.WF)
    (hBc : B.cols = A.rows) (hCc : C.cols = A.cols)
    (h1 : FromItems false B eRow eCol A.eVal A.tagged)
    (h2 : FromItems false C eRow eCol B.eVal B.tagged) : C.entries = A.entries := by
  rw [h2.entries_transpose hB, h1.entries_transpose h, bucket_map, List.map_map, hBc, hCc]
  have e1 : (swapEntry ∘ swapEntry : Nat × Nat × V → _) = id := rfl
  rw [e1, List.map_id, entries_eq h, bucket_map, bucket_map]
  conv_rhs => rw [← sort_twice h.toPatWF hs]
  rfl

/-! ### Loops with a statement after each column -/

omit [Zero V] in
theorem forColsG_wp (h : PatWF A) {σ τ : Type} (I : Nat → σ → Prop)
    (K : Nat → σ → List ((Nat × Nat) × Nat) → τ → Prop) {start : σ → τ}
    {body : Nat → Nat → τ → Res τ} {fin : Nat → σ → τ → Res σ} {s : σ} (h0 : I 0 s)
    (hstart : ∀ c s, c < A.cols → I c s → K c s (A.tagged.take (A.p.getD c 0)) (start s))
    (hstep : ∀ pre post r c j s t, A.tagged = pre ++ ((r, c), j) :: post → pre.length = j →
      c < A.cols → A.i[j]? = some r → I c s → K c s pre t →
      wp (body c j t) (K c s (pre ++ [((r, c), j)])))
    (hfin : ∀ c s t, c < A.cols → I c s → K c s (A.tagged.take (A.p.getD (c + 1) 0)) t →
      wp (fin c s t) (I (c + 1))) :
    wp (forRange 0 A.cols (fun c s => do
      let lo ← rd A.p c
      let hi ← rd A.p (c + 1)
      let t ← forRange lo hi (body c) (start s)
      fin c s t) s) (I A.cols) := by
  have hpl := h.plen
  refine forRange_wp I (Nat.zero_le _) h0 ?_
  intro c s _ hc hI
  rw [rd_getD 0 (by omega), rd_getD 0 (by omega)]
  simp only [ok_bind, wp_bind]
  refine forRange_wp' (fun j t => K c s (A.tagged.take j) t) (h.mono c hc) (hstart c s hc hI) ?_
    (fun t ht => hfin c s t hc hI ht)
  intro j t h1 h2 hK
  have hg := tagged_get h hc h1 h2
  have hlt := (List.getElem?_eq_some_iff.1 hg).1
  have hlen := h.le_len (a := c + 1) (by omega)
  have he : A.tagged = A.tagged.take j ++ ((A.i.getD j 0, c), j) :: A.tagged.drop (j + 1) := by
    have := (List.getElem?_eq_some_iff.1 hg).2
    conv_lhs => rw [← List.take_append_drop j A.tagged, List.drop_eq_getElem_cons hlt, this]
  have := hstep _ _ _ c j s t he (by rw [List.length_take]; omega) hc
    (getElem?_getD 0 (by omega)) hI hK
  refine wp_mono this ?_
  intro s' hs'
  rw [List.take_add_one, hg]
  exact hs'

/-! ### make_half -/

/-- The entry is kept. -/
def eKeep (lower : Bool) (e : (Nat × Nat) × Nat) : Bool := keep lower e.1.1 e.1.2

theorem bucket_of_sorted {α : Type} {key : α → Nat} {items : List α} (m : Nat)
    (hs : items.Pairwise fun a b => key a ≤ key b) :
    bucket m key items = items.filter fun a => key a < m := by
  induction m with
  | zero => simp [bucket]
  | succ m ih =>
    rw [bucket_succ, ih]
    clear ih
    induction items with
    | nil => rfl
    | cons a l ih =>
      rw [List.pairwise_cons] at hs
      by_cases h1 : key a < m
      · rw [List.filter_cons_of_pos (by simpa using h1),
          List.filter_cons_of_neg (by simp; omega), List.filter_cons_of_pos (by simp; omega),
          List.cons_append, ih hs.2]
      · have hnil : ∀ b ∈ l, ¬ key b < m := fun b hb => by have := hs.1 b hb; omega
        have e : l.filter (fun b => decide (key b < m)) = [] := by
          rw [List.filter_eq_nil_iff]; simpa using hnil
        rw [List.filter_cons_of_neg (by simpa using h1), e, List.nil_append]
        refine List.filter_congr ?_
        intro b hb
        have : ¬ key b < m := by
          rcases List.mem_cons.1 hb with rfl | hb
          · exact h1
          · exact hnil b hb
        simp; omega

theorem bucket_sorted_all {α : Type} {key : α → Nat} {items : List α} {m : Nat}
    (hs : items.Pairwise fun a b => key a ≤ key b) (hk : ∀ a ∈ items, key a < m) :
    bucket m key items = items := by
  rw [bucket_of_sorted m hs, List.filter_eq_self]
  simpa using hk

theorem bucket_prefix {α : Type} (key : α → Nat) (items : List α) {a b : Nat} (h : a ≤ b) :
    bucket a key items <+: bucket b key items := by
  induction b with
  | zero => rw [show a = 0 by omega]; exact List.prefix_refl _
  | succ b ih =>
    by_cases hab : a ≤ b
    · exact (ih hab).trans (by rw [bucket_succ]; exact List.prefix_append _ _)
    · rw [show a = b + 1 by omega]; exact List.prefix_refl _

theorem take_set_succ {α : Type} {l : List α} {k : Nat} (v : α) (h : k < l.length) :
    (l.set k v).take (k + 1) = l.take k ++ [v] := by
  rw [List.take_add_one, List.take_set, List.getElem?_set, if_pos rfl, if_pos h,
    List.set_eq_of_length_le (by rw [List.length_take]; omega)]
  rfl

omit [Zero V] in
theorem below_kept (h : A.PatWF) (q : (Nat × Nat) × Nat → Bool) {c : Nat} (hc : c ≤ A.cols) :
    below eCol (A.tagged.filter q) c = ((A.tagged.take (A.p.getD c 0)).filter q).length := by
  have h1 := below_tagged h hc
  have hle : A.p.getD c 0 ≤ A.tagged.length := by
    rw [tagged_length h]; exact h.mono_le hc (le_refl _)
  have e : A.tagged.take (A.p.getD c 0) = A.tagged.filter fun e => eCol e < c := by
    rw [← bucket_of_sorted c ((tagged_pairwise h).imp fun h => h.1)]
    -- both are the first `p[c]` entries of the sorted list
    have hb := bucket_sorted_all ((tagged_pairwise h).imp fun h => h.1) (tagged_cols h)
    have hpre := bucket_prefix eCol A.tagged hc
    rw [hb] at hpre
    rw [List.prefix_iff_eq_take.1 hpre, bucket_length_below, h1]
  rw [e, below, List.countP_eq_length_filter, List.filter_filter, List.filter_filter]
  congr 1
  refine List.filter_congr ?_
  intro a _
  rw [Bool.and_comm]

theorem makeHalf_wp {pat lower : Bool} (h : A.PatWF)
    (hx : pat = false → A.p.getD A.cols 0 ≤ A.x.length) (hn : A.rows = A.cols) (hc0 : 0 < A.cols) :
    wp (makeHalf A pat lower) fun B => B.rows = A.cols ∧ B.cols = A.cols ∧
      FromItems pat B eCol eRow A.eVal (A.tagged.filter (eKeep lower)) ∧
      B.i.length = (A.tagged.filter (eKeep lower)).length ∧
      B.x.length = if pat then 0 else (A.tagged.filter (eKeep lower)).length := by
  have hpl := h.plen
  let items := A.tagged.filter (eKeep lower)
  -- the number of kept entries
  have hcount := forCols_wp h (fun pre (s : Nat) => s = (pre.filter (eKeep lower)).length)
    (body := fun c j s => do
      let r ← rd A.i j
      ok (if keep lower r c then s + 1 else s)) (s := 0) rfl (by
    rintro pre post r c j s he hj hc hr rfl
    rw [rd_i hr, ok_bind, wp_ok, List.filter_append, List.length_append]
    have e : eKeep lower ((r, c), j) = keep lower r c := rfl
    by_cases hk : keep lower r c
    · rw [if_pos hk, List.filter_cons_of_pos (by rw [e]; exact hk)]; rfl
    · rw [if_neg hk, List.filter_cons_of_neg (by rw [e]; exact hk)]; rfl)
  obtain ⟨bnz, hb1, hb2⟩ := wp_iff.1 hcount
  unfold makeHalf
  rw [hb1]
  simp only [ok_bind, wp_bind]
  subst hb2
  -- the filling loop
  let HI : List ((Nat × Nat) × Nat) → List Nat × List V × Nat → Prop := fun pre t =>
    t.1.length = items.length ∧ t.2.1.length = (if pat then 0 else items.length) ∧
    t.2.2 = (pre.filter (eKeep lower)).length ∧
    t.1.take t.2.2 = (pre.filter (eKeep lower)).map eRow ∧
    (pat = false → t.2.1.take t.2.2 = (pre.filter (eKeep lower)).map A.eVal)
  have hw := forColsG_wp h
    (I := fun c (s : List Nat × List Nat × List V × Nat) => s.1.length = A.cols + 1 ∧
      (∀ k, k ≤ c → s.1.getD k 0 = below eCol items k) ∧
      HI (A.tagged.take (A.p.getD c 0)) s.2)
    (K := fun _ _ pre t => HI pre t)
    (start := fun s => s.2)
    (body := fun c j (t : List Nat × List V × Nat) => do
      let r ← rd A.i j
      if keep lower r c then do
        let i ← wr t.1 t.2.2 r
        let x ← if pat then ok t.2.1 else rd A.x j >>= wr t.2.1 t.2.2
        ok (i, x, t.2.2 + 1)
      else ok t)
    (fin := fun c s t => do
      let p ← wr s.1 (c + 1) t.2.2
      ok (p, t))
    (s := (List.replicate (newPtrLen A.cols) 0, List.replicate items.length 0,
      newVals pat items.length, 0)) ?_ ?_ ?_ ?_
  · refine wp_mono hw ?_
    rintro ⟨p, i, x, cnt⟩ ⟨h1, h2, h3, h4, h5, h6, h7⟩
    rw [wp_ok]
    have hall : A.tagged.take (A.p.getD A.cols 0) = A.tagged := by
      rw [← tagged_length h, List.take_length]
    rw [hall] at h5 h6 h7
    dsimp only at h1 h2 h3 h4 h5 h6 h7 ⊢
    have hkeys : ∀ a ∈ items, eCol a < A.cols := fun a ha =>
      tagged_cols h a (List.mem_filter.1 ha).1
    have hsort : items.Pairwise fun a b => eCol a ≤ eCol b :=
      ((tagged_pairwise h).imp fun h => h.1).filter _
    refine ⟨rfl, rfl, ⟨?_, hkeys, ?_, ?_, ?_⟩, h3, h4⟩
    · refine ext_getD 0 (by simpa using h1) ?_
      intro k hk
      rw [ptrArr_getD _ _ (by dsimp only at hk ⊢; omega)]
      exact h2 k (by dsimp only at hk; omega)
    · intro a ha
      have : eRow a < A.rows := tagged_rows h a (List.mem_filter.1 ha).1
      show eRow a < A.cols
      omega
    · dsimp only
      rw [bucket_sorted_all hsort hkeys, ← h6, h5]
    · intro hp
      dsimp only
      rw [bucket_sorted_all hsort hkeys, ← h7 hp, h5]
  · refine ⟨by simp [newPtrLen]; omega, ?_, by simp [items], ?_, ?_, ?_, ?_⟩
    · intro k hk
      rw [show k = 0 by omega, below_zero, getD_replicate _ _ _ _ (by unfold newPtrLen; split <;> omega)]
    · cases pat <;> simp [newVals]
    · rw [h.p0]; rfl
    · rw [h.p0]; rfl
    · intro _; rw [h.p0]; rfl
  · intro c s hc hI
    exact hI.2.2
  · rintro pre post r c j s ⟨i, x, cnt⟩ he hj hc hr hI ⟨h1, h2, h3, h4, h5⟩
    dsimp only at h1 h2 h3 h4 h5 ⊢
    rw [rd_i hr, ok_bind]
    have e : eKeep lower ((r, c), j) = keep lower r c := rfl
    by_cases hk : keep lower r c
    · have hf : (pre ++ [((r, c), j)]).filter (eKeep lower)
          = pre.filter (eKeep lower) ++ [((r, c), j)] := by
        rw [List.filter_append, List.filter_cons_of_pos (by rw [e]; exact hk)]; rfl
      have hlt : cnt < items.length := by
        have : items.length = (A.tagged.filter (eKeep lower)).length := rfl
        rw [he, List.filter_append, List.filter_cons_of_pos (by rw [e]; exact hk)] at this
        simp only [List.length_append, List.length_cons] at this
        omega
      rw [if_pos hk, wr_eq (by omega), ok_bind]
      cases pat with
      | true =>
        simp only [if_true]
        rw [ok_bind, wp_ok]
        refine ⟨by simpa using h1, h2, ?_, ?_, by simp⟩
        · rw [hf, List.length_append, h3]; rfl
        · dsimp only
          rw [take_set_succ _ (by omega), h4, hf, List.map_append]; rfl
      | false =>
        simp only [Bool.false_eq_true, if_false] at h2 ⊢
        rw [rd_x (e := ((r, c), j)) ⟨h, hx rfl⟩ he hj, ok_bind, wr_eq (by omega), ok_bind, wp_ok]
        refine ⟨by simpa using h1, by simpa using h2, ?_, ?_, ?_⟩
        · rw [hf, List.length_append, h3]; rfl
        · dsimp only
          rw [take_set_succ _ (by omega), h4, hf, List.map_append]; rfl
        · intro _
          dsimp only
          rw [take_set_succ _ (by omega), h5 rfl, hf, List.map_append]; rfl
    · have hf : (pre ++ [((r, c), j)]).filter (eKeep lower) = pre.filter (eKeep lower) := by
        rw [List.filter_append, List.filter_cons_of_neg (by rw [e]; exact hk)]; simp
      rw [if_neg hk, wp_ok]
      refine ⟨h1, h2, ?_, ?_, ?_⟩
      · rw [hf]; exact h3
      · rw [hf]; exact h4
      · rw [hf]; exact h5
  · rintro c ⟨p, s⟩ t hc ⟨h1, h2, _⟩ hK
    dsimp only at h1 h2 ⊢
    rw [wr_eq (by omega), ok_bind, wp_ok]
    refine ⟨by simpa using h1, ?_, hK⟩
    intro k hk
    dsimp only
    rw [getD_set]
    by_cases e : c + 1 = k
    · rw [if_pos ⟨e, by omega⟩, hK.2.2.1, ← e, below_kept h _ (by omega)]
    · rw [if_neg (by omega), h2 k (by omega)]

/-! ### make_full -/

/-- The entries stored for one entry: itself and, off the diagonal, its mirror image. -/
def dup (e : (Nat × Nat) × Nat) : List ((Nat × Nat) × Nat) :=
  if e.1.1 = e.1.2 then [e] else [e, ((e.1.2, e.1.1), e.2)]

omit [Zero V] in
theorem mem_dup (h : A.PatWF) (hn : A.rows = A.cols) :
    ∀ a ∈ A.tagged.flatMap dup, eRow a < A.cols ∧ eCol a < A.cols := by
  intro a ha
  rw [List.mem_flatMap] at ha
  obtain ⟨e, he, hae⟩ := ha
  have h1 : eRow e < A.rows := tagged_rows h e he
  have h2 : eCol e < A.cols := tagged_cols h e he
  unfold dup at hae
  split at hae
  · simp only [List.mem_singleton] at hae; subst hae; exact ⟨by omega, h2⟩
  · simp only [List.mem_cons, List.not_mem_nil, or_false] at hae
    rcases hae with rfl | rfl
    · exact ⟨by omega, h2⟩
    · exact ⟨h2, show eRow e < A.cols by omega⟩

theorem length_flatMap_dup (l : List ((Nat × Nat) × Nat)) :
    (l.flatMap dup).length ≤ l.length * 2 := by
  induction l with
  | nil => simp
  | cons a l ih =>
    rw [List.flatMap_cons, List.length_append, List.length_cons]
    have : (dup a).length ≤ 2 := by unfold dup; split <;> simp
    omega

theorem makeFull_wp {nnz : Nat} (h : A.WF) (hn : A.rows = A.cols) (hc0 : 0 < A.cols)
    (hnz : A.p.getD A.cols 0 ≤ nnz) :
    wp (makeFull A false nnz) fun o => ∃ B, o = some B ∧ B.rows = A.rows ∧ B.cols = A.cols ∧
      FromItems false B eCol eRow A.eVal (A.tagged.flatMap dup) ∧
      B.i.length = nnz * 2 ∧ B.x.length = nnz * 2 := by
  have hp := h.toPatWF
  have hpl := hp.plen
  let items := A.tagged.flatMap dup
  have hmem := mem_dup hp hn
  have hcap : items.length ≤ nnz * 2 := by
    have := length_flatMap_dup A.tagged
    rw [tagged_length hp] at this
    have e : items = A.tagged.flatMap dup := rfl
    rw [e]; omega
  have hsplit : ∀ pre post e, A.tagged = pre ++ e :: post →
      items = pre.flatMap dup ++ (dup e ++ post.flatMap dup) := by
    intro pre post e he
    have : items = A.tagged.flatMap dup := rfl
    rw [this, he, List.flatMap_append, List.flatMap_cons]
  unfold makeFull
  simp only [Bool.false_eq_true, if_false]
  have hcount := forCols_wp hp (fun pre s => s = cntArr eCol A.cols (pre.flatMap dup))
    (body := fun c j ind => do
        let r ← rd A.i j
        let v ← rd ind c
        let ind ← wr ind c (v + 1)
        if r ≠ c then do
          let v ← rd ind r
          wr ind r (v + 1)
        else ok ind) (s := List.replicate A.cols 0) (by rw [List.flatMap_nil, cntArr_nil]) (by
    rintro pre post r c j _ he hj hc hr rfl
    have hrr : r < A.cols := by
      have := tagged_rows hp ((r, c), j) (by rw [he]; simp)
      dsimp only at this; omega
    rw [rd_i hr, ok_bind, cntArr_rd _ _ hc, ok_bind,
      cntArr_wr (a := ((r, c), j)) eCol (pre.flatMap dup) hc, ok_bind, List.flatMap_append]
    by_cases hrc : r = c
    · rw [if_neg (by simpa using hrc), wp_ok]
      simp [dup, hrc]
    · rw [if_pos (by simpa using hrc), cntArr_rd _ _ hrr, ok_bind,
        cntArr_wr (a := ((c, r), j)) eCol _ hrr, wp_ok]
      simp [dup, hrc])
  obtain ⟨ind, hi1, hi2⟩ := wp_iff.1 hcount
  rw [hi1]
  simp only [ok_bind]
  subst hi2
  have hnp : newPtrLen A.cols = A.cols + 1 := by unfold newPtrLen; rw [if_neg (by omega)]
  rw [wr_eq (by rw [List.length_replicate, hnp]; omega), ok_bind]
  have hptr := prefix_loop_wp eCol (m := A.cols) items (lo := 0)
    (p0 := (List.replicate (newPtrLen A.cols) 0).set 0 0)
    (f := fun c p => do
      let a ← rd p c
      let b ← rd (cntArr eCol A.cols items) c
      wr p (c + 1) (a + b)) (by rw [List.length_set, List.length_replicate, hnp])
    (by rw [getD_set, if_pos ⟨rfl, by rw [List.length_replicate, hnp]; omega⟩]) (fun k p _ => rfl)
  rw [Nat.add_zero] at hptr
  rw [hptr]
  simp only [ok_bind, wp_bind]
  have hplace := forCols_wp hp
    (fun pre s => PlaceInv false eCol eRow A.eVal A.cols items (nnz * 2) (nnz * 2)
      (pre.flatMap dup) s)
    (body := fun c j s => do
        let r ← rd A.i j
        let s ← place (ptrArr eCol A.cols items) false c r (rd A.x j) s
        if r ≠ c then place (ptrArr eCol A.cols items) false r c (rd A.x j) s else ok s)
    (s := ⟨List.replicate A.cols 0, List.replicate (nnz * 2) 0, List.replicate (nnz * 2) 0⟩) ?_ ?_
  · refine wp_mono hplace ?_
    intro s hs
    rw [wp_ok]
    exact ⟨_, rfl, rfl, rfl, hs.done (fun a ha => (hmem a ha).2)
      (fun a ha => by have := (hmem a ha).1; omega), hs.ilen, hs.xlen⟩
  · have := PlaceInv.init false eCol eRow A.eVal A.cols (items := items)
      (s := ⟨List.replicate A.cols 0, List.replicate (nnz * 2) 0, List.replicate (nnz * 2) 0⟩)
      rfl (by simpa using hcap) (by simpa using hcap)
    simpa using this
  · intro pre post r c j s he hj hc hr hI
    have hrr : r < A.cols := by
      have := tagged_rows hp ((r, c), j) (by rw [he]; simp)
      dsimp only at this; omega
    have hit := hsplit pre post ((r, c), j) he
    have hv := rd_x (e := ((r, c), j)) h he hj
    rw [rd_i hr, ok_bind, wp_bind, List.flatMap_append]
    by_cases hrc : r = c
    · have hd : dup ((r, c), j) = [((r, c), j)] := by simp [dup, hrc]
      rw [hd] at hit
      refine wp_mono (place_wp (a := ((r, c), j)) hI hit hc (fun _ => hv) hcap (fun _ => hcap)
        rfl rfl) ?_
      intro s' hs'
      rw [if_neg (by simpa using hrc), wp_ok]
      simpa [hd] using hs'
    · have hd : dup ((r, c), j) = [((r, c), j), ((c, r), j)] := by simp [dup, hrc]
      rw [hd] at hit
      refine wp_mono (place_wp (a := ((r, c), j)) hI hit hc (fun _ => hv) hcap (fun _ => hcap)
        rfl rfl) ?_
      intro s' hs'
      rw [if_pos (by simpa using hrc)]
      refine wp_mono (place_wp (a := ((c, r), j)) (post := post.flatMap dup) hs'
        (by rw [hit]; simp) hrr (fun _ => hv) hcap (fun _ => hcap) rfl rfl) ?_
      intro s'' hs''
      simpa [hd] using hs''

end Verif.Sp
